import Verif.Lemmas.Threads
import Verif.Props.CrashRelations
/-! What a thread that stores bundles relies on, what it guarantees, and what it has done when it ends. -/
namespace OCA

/-- the relation is recorded -/
def HasRel (d : Store) (x : Said) (y : RelObj) : Prop :=
  ∃ v l, d.get .relations x = .ok (some v) ∧ (relationsOf v : Res Str _) = .ok l ∧ y ∈ l

/-- the objects and relations there may be -/
structure Limit where
  obj : Said → Prop
  rel : Said → RelObj → Prop

/-- The relations can be read, and each is one that there may be. -/
def RelsRight (d : Store) (L : Limit) : Prop := ∃ R M, RelRep d R M ∧
  (∀ x, (∀ t, x ≠ metaKey t) → R x ≠ none → L.obj x) ∧ ∀ x y, (∀ t, x ≠ metaKey t) → y ∈ (R x).getD [] → L.rel x y

/-- The writes jobs may make. -/
inductive JobWrite (E : Env) (S : Serde) (J : List Job) : Write → Prop
  | build {j : Job} {w : Write} : j ∈ J → BuildWrite E S j.build w → JobWrite E S J w
  | name {j : Job} {n : Str} {s : Said} : j ∈ J → j.name = some n → j.build.bundle.said = some s → JobWrite E S J (.db .references n (utf8 s))

/-- What jobs do to the storages, as others see it. -/
structure Calm (E : Env) (S : Serde) (J : List Job) (L : Limit) (f f' : Facade) : Prop where
  rels : RelsRight f.db L → RelsRight f'.db L
  kinds : ∀ j ∈ J, ∀ x k, j.build.bundle.Has x k → f.db.get .relations (metaKey x) = .ok (some [UInt8.ofNat k]) →
    f'.db.get .relations (metaKey x) = .ok (some [UInt8.ofNat k])
  db : ∀ ns k, f'.db.get ns k = f.db.get ns k ∨ ∃ v, JobWrite E S J (.db ns k v) ∧ f'.db.get ns k = .ok (some v)
  cache : ∀ ns k, f'.cache.get ns k = f.cache.get ns k ∨ ∃ v, JobWrite E S J (.cache ns k v) ∧ f'.cache.get ns k = .ok (some v)
  bundles : f.bundles <+: f'.bundles ∧ ∀ r ∈ f'.bundles, r ∈ f.bundles ∨ JobWrite E S J (.bundleRow r.1 r.2) ∧ ∀ q ∈ f.bundles, q.1 ≠ r.1
  bases : f.bases <+: f'.bases ∧ ∀ r ∈ f'.bases, r ∈ f.bases ∨ JobWrite E S J (.baseRow r.1 r.2) ∧ ∀ q ∈ f.bases, q.1 ≠ r.1
  fts : f.fts <+: f'.fts ∧ ∀ r ∈ f'.fts, r ∈ f.fts ∨ JobWrite E S J (.ftsRow r) ∧ ∀ q ∈ f.fts, ¬ (q.said = r.said ∧ q.lang = r.lang)

/-- the relation records of these objects are not touched -/
def Still (K : Said → Prop) (f f' : Facade) : Prop := ∀ x, (∀ t, x ≠ metaKey t) → K x → f'.db.get .relations x = f.db.get .relations x

/-- the relation records of these objects lose nothing -/
def Grows (K : Said → Prop) (f f' : Facade) : Prop := ∀ x y, (∀ t, x ≠ metaKey t) → K x → HasRel f.db x y → HasRel f'.db x y

variable {E : Env} {S : Serde} {J Ji : List Job} {L : Limit} {Own : Said → Prop}

theorem Calm.refl (f : Facade) : Calm E S J L f f :=
  ⟨id, fun _ _ _ _ _ h => h, fun _ _ => .inl rfl, fun _ _ => .inl rfl, ⟨List.prefix_refl _, fun _ h => .inl h⟩, ⟨List.prefix_refl _, fun _ h => .inl h⟩,
    ⟨List.prefix_refl _, fun _ h => .inl h⟩⟩

theorem Calm.trans {a b c : Facade} (h : Calm E S J L a b) (h' : Calm E S J L b c) : Calm E S J L a c where
  rels := h'.rels ∘ h.rels
  kinds j hj x k hk hx := h'.kinds j hj x k hk (h.kinds j hj x k hk hx)
  db ns k := by
    rcases h'.db ns k with e | e
    · rw [e]; exact h.db ns k
    · exact .inr e
  cache ns k := by
    rcases h'.cache ns k with e | e
    · rw [e]; exact h.cache ns k
    · exact .inr e
  bundles := ⟨h.bundles.1.trans h'.bundles.1, fun r hr => (h'.bundles.2 r hr).elim (h.bundles.2 r) fun q => .inr ⟨q.1, fun z hz => q.2 z (h.bundles.1.subset hz)⟩⟩
  bases := ⟨h.bases.1.trans h'.bases.1, fun r hr => (h'.bases.2 r hr).elim (h.bases.2 r) fun q => .inr ⟨q.1, fun z hz => q.2 z (h.bases.1.subset hz)⟩⟩
  fts := ⟨h.fts.1.trans h'.fts.1, fun r hr => (h'.fts.2 r hr).elim (h.fts.2 r) fun q => .inr ⟨q.1, fun z hz => q.2 z (h.fts.1.subset hz)⟩⟩

theorem Still.refl (K : Said → Prop) (f : Facade) : Still K f f := fun _ _ _ => rfl
theorem Still.trans {K : Said → Prop} {a b c : Facade} (h : Still K a b) (h' : Still K b c) : Still K a c :=
  fun x hx hk => (h' x hx hk).trans (h x hx hk)
theorem Still.grows {K : Said → Prop} {a b : Facade} (h : Still K a b) : Grows K a b := by
  rintro x y hx hk ⟨v, l, h1, h2, h3⟩
  exact ⟨v, l, by rw [h x hx hk]; exact h1, h2, h3⟩

/-- a write of a job, seen from outside -/
theorem Calm.write {w : Write} (hw : JobWrite E S J w) (f : Facade) (h1 : RelsRight f.db L → RelsRight (f.write w).db L)
    (h2 : ∀ j ∈ J, ∀ x k, j.build.bundle.Has x k → f.db.get .relations (metaKey x) = .ok (some [UInt8.ofNat k]) →
      (f.write w).db.get .relations (metaKey x) = .ok (some [UInt8.ofNat k])) : Calm E S J L f (f.write w) where
  rels := h1
  kinds := h2
  db ns k := by
    cases w with
    | db n x v =>
      show (f.db.set n x v).get ns k = _ ∨ ∃ v', _ ∧ (f.db.set n x v).get ns k = _
      rw [Store.get_set]
      split
      · next e => obtain ⟨rfl, rfl⟩ := e; exact .inr ⟨v, hw, rfl⟩
      · exact .inl rfl
    | cache n x v => exact .inl rfl
    | bundleRow s v => exact .inl rfl
    | baseRow s v => exact .inl rfl
    | ftsRow r => exact .inl rfl
  cache ns k := by
    cases w with
    | cache n x v =>
      show (f.cache.set n x v).get ns k = _ ∨ ∃ v', _ ∧ (f.cache.set n x v).get ns k = _
      rw [Store.get_set]
      split
      · next e => obtain ⟨rfl, rfl⟩ := e; exact .inr ⟨v, hw, rfl⟩
      · exact .inl rfl
    | db n x v => exact .inl rfl
    | bundleRow s v => exact .inl rfl
    | baseRow s v => exact .inl rfl
    | ftsRow r => exact .inl rfl
  bundles := by
    cases w with
    | bundleRow s v =>
      refine ⟨insertRow_keeps _ _ _, fun r hr => ?_⟩
      replace hr : r ∈ f.bundles.insertRow s v := hr
      unfold Table.insertRow at hr
      split at hr
      · exact .inl hr
      · next hno =>
        rcases List.mem_append.1 hr with hr | hr
        · exact .inl hr
        · rw [List.mem_singleton.1 hr]
          refine .inr ⟨hw, fun q hq e => hno (List.any_eq_true.2 ⟨q, hq, decide_eq_true e⟩)⟩
    | db n x v => exact ⟨List.prefix_refl _, fun _ h => .inl h⟩
    | cache n x v => exact ⟨List.prefix_refl _, fun _ h => .inl h⟩
    | baseRow s v => exact ⟨List.prefix_refl _, fun _ h => .inl h⟩
    | ftsRow r => exact ⟨List.prefix_refl _, fun _ h => .inl h⟩
  bases := by
    cases w with
    | baseRow s v =>
      refine ⟨insertRow_keeps _ _ _, fun r hr => ?_⟩
      replace hr : r ∈ f.bases.insertRow s v := hr
      unfold Table.insertRow at hr
      split at hr
      · exact .inl hr
      · next hno =>
        rcases List.mem_append.1 hr with hr | hr
        · exact .inl hr
        · rw [List.mem_singleton.1 hr]
          refine .inr ⟨hw, fun q hq e => hno (List.any_eq_true.2 ⟨q, hq, decide_eq_true e⟩)⟩
    | db n x v => exact ⟨List.prefix_refl _, fun _ h => .inl h⟩
    | cache n x v => exact ⟨List.prefix_refl _, fun _ h => .inl h⟩
    | bundleRow s v => exact ⟨List.prefix_refl _, fun _ h => .inl h⟩
    | ftsRow r => exact ⟨List.prefix_refl _, fun _ h => .inl h⟩
  fts := by
    cases w with
    | ftsRow q =>
      refine ⟨insertFts_keeps _ _, fun r hr => ?_⟩
      replace hr : r ∈ insertFts f.fts q := hr
      unfold insertFts at hr
      split at hr
      · exact .inl hr
      · next hno =>
        rcases List.mem_append.1 hr with hr | hr
        · exact .inl hr
        · rw [List.mem_singleton.1 hr]
          refine .inr ⟨hw, fun p hp e => hno (List.any_eq_true.2 ⟨p, hp, ?_⟩)⟩
          simp [e.1, e.2]
    | db n x v => exact ⟨List.prefix_refl _, fun _ h => .inl h⟩
    | cache n x v => exact ⟨List.prefix_refl _, fun _ h => .inl h⟩
    | bundleRow s v => exact ⟨List.prefix_refl _, fun _ h => .inl h⟩
    | baseRow s v => exact ⟨List.prefix_refl _, fun _ h => .inl h⟩

theorem RelsRight.congr {d d' : Store} (h : RelsRight d L) (he : ∀ k, d'.get .relations k = d.get .relations k) : RelsRight d' L := by
  obtain ⟨R, M, hr, hx⟩ := h
  exact ⟨R, M, hr.congr he, hx⟩

/-- a write that is no relation leaves the relations -/
theorem write_relations (f : Facade) {w : Write} (hn : ∀ k v, w ≠ .db .relations k v) (k : Str) :
    (f.write w).db.get .relations k = f.db.get .relations k := by
  cases w with
  | db ns x v =>
    show (f.db.set ns x v).get .relations k = _
    rw [Store.get_set, if_neg]
    rintro ⟨rfl, -⟩
    exact hn x v rfl
  | _ => rfl

/-! ## One thread among others -/

/-- what the thread relies on: the others do what jobs do, and leave alone the objects that are its own -/
def RelyOn (E : Env) (S : Serde) (J : List Job) (L : Limit) (Own : Said → Prop) (f f' : Facade) : Prop :=
  Calm E S J L f f' ∧ Still Own f f'

/-- what it guarantees: it does what jobs do, touches no relations of objects it has not, and loses none of its own -/
def Gives (E : Env) (S : Serde) (J : List Job) (L : Limit) (Ji : List Job) (Own : Said → Prop) (f f' : Facade) : Prop :=
  Calm E S J L f f' ∧ Still (fun x => ∀ j ∈ Ji, some x ∉ j.build.bundle.saids) f f' ∧ Grows Own f f'

theorem RelyOn.refl (f : Facade) : RelyOn E S J L Own f f := ⟨.refl f, .refl _ f⟩
theorem RelyOn.trans {a b c : Facade} (h : RelyOn E S J L Own a b) (h' : RelyOn E S J L Own b c) : RelyOn E S J L Own a c :=
  ⟨h.1.trans h'.1, h.2.trans h'.2⟩

/-- what neither the others nor the thread undo -/
def Lasting (E : Env) (S : Serde) (J : List Job) (L : Limit) (Own : Said → Prop) (D : Facade → Prop) : Prop :=
  ∀ f f', Calm E S J L f f' → Grows Own f f' → D f → D f'

theorem Lasting.rely {D : Facade → Prop} (h : Lasting E S J L Own D) (f f' : Facade) (hr : RelyOn E S J L Own f f') : D f → D f' :=
  h f f' hr.1 hr.2.grows
theorem Lasting.gives {D : Facade → Prop} (h : Lasting E S J L Own D) (f f' : Facade) (hr : Gives E S J L Ji Own f f') : D f → D f' :=
  h f f' hr.1 hr.2.2
theorem Lasting.and {D D' : Facade → Prop} (h : Lasting E S J L Own D) (h' : Lasting E S J L Own D') : Lasting E S J L Own fun f => D f ∧ D' f :=
  fun f f' c g hf => ⟨h f f' c g hf.1, h' f f' c g hf.2⟩
theorem Lasting.all {ι : Sort _} {D : ι → Facade → Prop} (h : ∀ i, Lasting E S J L Own (D i)) : Lasting E S J L Own fun f => ∀ i, D i f :=
  fun f f' c g hf i => h i f f' c g (hf i)
theorem Lasting.const (P : Prop) : Lasting E S J L Own fun _ => P := fun _ _ _ _ h => h
theorem Lasting.imp {P : Prop} {D : Facade → Prop} (h : P → Lasting E S J L Own D) : Lasting E S J L Own fun f => P → D f :=
  fun f f' c g hf hp => h hp f f' c g (hf hp)

/-- the record was written by a job -/
def Written (E : Env) (S : Serde) (J : List Job) (ns : Namespace) (k : Str) (f : Facade) : Prop :=
  ∃ v, JobWrite E S J (.db ns k v) ∧ f.db.get ns k = .ok (some v)
/-- the same in the cache -/
def WrittenC (E : Env) (S : Serde) (J : List Job) (ns : Namespace) (k : Str) (f : Facade) : Prop :=
  ∃ v, JobWrite E S J (.cache ns k v) ∧ f.cache.get ns k = .ok (some v)

theorem Lasting.written (ns : Namespace) (k : Str) : Lasting E S J L Own (Written E S J ns k) := by
  rintro f f' c - ⟨v, h1, h2⟩
  rcases c.db ns k with e | ⟨v', h, e⟩
  · exact ⟨v, h1, e.trans h2⟩
  · exact ⟨v', h, e⟩
theorem Lasting.writtenC (ns : Namespace) (k : Str) : Lasting E S J L Own (WrittenC E S J ns k) := by
  rintro f f' c - ⟨v, h1, h2⟩
  rcases c.cache ns k with e | ⟨v', h, e⟩
  · exact ⟨v, h1, e.trans h2⟩
  · exact ⟨v', h, e⟩
theorem Lasting.right : Lasting E S J L Own fun f => RelsRight f.db L := fun _ _ c _ h => c.rels h
theorem Lasting.kind {j : Job} (hj : j ∈ J) {x : Said} {k : Nat} (hk : j.build.bundle.Has x k) :
    Lasting E S J L Own fun f => f.db.get .relations (metaKey x) = .ok (some [UInt8.ofNat k]) := fun _ _ c _ h => c.kinds j hj x k hk h
theorem Lasting.rel {x : Said} (hx : ∀ t, x ≠ metaKey t) (ho : Own x) (y : RelObj) : Lasting E S J L Own fun f => HasRel f.db x y :=
  fun _ _ _ g h => g x y hx ho h
theorem Lasting.bundleRow (s : Said) : Lasting E S J L Own fun f => s ∈ f.bundles.map (·.1) := by
  intro f f' c _ h
  obtain ⟨r, hr, e⟩ := List.mem_map.1 h
  exact List.mem_map.2 ⟨r, c.bundles.1.subset hr, e⟩
theorem Lasting.baseRow (s : Said) : Lasting E S J L Own fun f => s ∈ f.bases.map (·.1) := by
  intro f f' c _ h
  obtain ⟨r, hr, e⟩ := List.mem_map.1 h
  exact List.mem_map.2 ⟨r, c.bases.1.subset hr, e⟩
theorem Lasting.ftsRow (s : Said) (l : Lang) : Lasting E S J L Own fun f => ∃ r ∈ f.fts, r.said = s ∧ r.lang = l := by
  rintro f f' c _ ⟨r, hr, e⟩
  exact ⟨r, c.fts.1.subset hr, e⟩

section
variable {α : Type}
/-- a triple of this thread -/
abbrev Tr (E : Env) (S : Serde) (J : List Job) (L : Limit) (Ji : List Job) (Own : Said → Prop) {α : Type} (P : Facade → Prop) (m : Thr α)
    (Q : α → Facade → Prop) : Prop := Thr.Tri (RelyOn E S J L Own) (Gives E S J L Ji Own) P m Q

/-- one after the other, keeping what the first gave -/
theorem Tr.andThen {I D D' : Facade → Prop} {m : Thr Unit} {k : Thr Unit} (hD : Lasting E S J L Own D)
    (hm : Tr E S J L Ji Own I m (fun _ f => I f ∧ D f)) (hk : Tr E S J L Ji Own I k (fun _ f => I f ∧ D' f)) :
    Tr E S J L Ji Own I (m >>= fun _ => k) (fun _ f => I f ∧ D f ∧ D' f) :=
  Thr.Tri.bind RelyOn.refl hm fun _ => (Thr.Tri.keep hk hD.rely hD.gives).post fun _ _ h => ⟨h.1.1, h.2, h.1.2⟩

/-- a write that is no relation -/
theorem Tr.plain {w : Write} (hw : JobWrite E S J w) (hn : ∀ k v, w ≠ .db .relations k v) {D : Facade → Prop} (hD : Lasting E S J L Own D)
    (hd : ∀ f : Facade, D (f.write w)) : Tr E S J L Ji Own (fun f => RelsRight f.db L) (Thr.emit w) (fun _ f => RelsRight f.db L ∧ D f) := by
  have same := fun f : Facade => write_relations f hn
  have hr : ∀ f : Facade, RelsRight f.db L → RelsRight (f.write w).db L := fun f h => h.congr (same f)
  refine Thr.Tri.emit (fun f f' h => Lasting.right.rely f f' h) (fun f hf => ⟨⟨.write hw f (hr f) ?_, ?_, ?_⟩, hr f hf, hd f⟩)
    (fun f f' h => (Lasting.right.and hD).rely f f' h)
  · intro j _ x k _ h
    rw [same f]; exact h
  · exact fun x _ _ => same f x
  · rintro x y - - ⟨v, l, h1, h2, h3⟩
    exact ⟨v, l, by rw [same f]; exact h1, h2, h3⟩
end

theorem kindRead_code {k : Nat} (h : k ≤ 22) : kindRead (some [UInt8.ofNat k]) = .ok k := by
  obtain ⟨o, ho, hoc⟩ := code_ofCode k h
  have hn : (UInt8.ofNat k).toNat = k := by
    rw [UInt8.toNat_ofNat']
    exact Nat.mod_eq_of_lt (by omega)
  unfold kindRead
  simp only [Res.unwrap, Res.bind_ok, List.head?_cons, hn, ho]
  rw [← hoc]
  rfl

theorem has_code {b : Bundle} {x : Said} {k : Nat} (h : b.Has x k) : k ≤ 22 := by
  cases h with
  | bundle _ => decide
  | base _ => decide
  | overlay _ _ => exact (kind_code_range _).2

theorem has_saids {b : Bundle} {x : Said} {k : Nat} (h : b.Has x k) : some x ∈ b.saids := by
  unfold Bundle.saids
  cases h with
  | bundle h => rw [h]; exact .head _
  | base h => rw [h]; exact .tail _ (.head _)
  | overlay ho h => exact .tail _ (.tail _ (List.mem_map.2 ⟨_, ho, h⟩))

/-- the kinds of the objects of the bundle are recorded -/
def KindsIn (b : Bundle) (f : Facade) : Prop := ∀ x k, b.Has x k → f.db.get .relations (metaKey x) = .ok (some [UInt8.ofNat k])

/-- The list has at least what is recorded of the object, if it is an own one; and it is right. -/
structure Tracks (L : Limit) (Own : Said → Prop) (s : Said) (l : List RelObj) (f : Facade) : Prop where
  nodup : l.Nodup
  fits : ∀ o ∈ l, o.Fits
  right : ∀ y ∈ l, L.rel s y
  all : Own s → ∀ y, HasRel f.db s y → y ∈ l

theorem Tracks.rely {s : Said} {l : List RelObj} (hs : ∀ t, s ≠ metaKey t) (f f' : Facade) (h : RelyOn E S J L Own f f')
    (ht : Tracks L Own s l f) : Tracks L Own s l f' where
  nodup := ht.nodup
  fits := ht.fits
  right := ht.right
  all ho y hy := by
    obtain ⟨v, l, h1, h2, h3⟩ := hy
    rw [h.2 s hs ho] at h1
    exact ht.all ho y ⟨v, l, h1, h2, h3⟩

theorem Tracks.other {s x : Said} {l : List RelObj} {v : Bytes} {f : Facade} (hx : x ≠ s) (ht : Tracks L Own s l f) :
    Tracks L Own s l (f.write (.db .relations x v)) where
  nodup := ht.nodup
  fits := ht.fits
  right := ht.right
  all ho y hy := by
    obtain ⟨v', l, h1, h2, h3⟩ := hy
    replace h1 : (f.db.set .relations x v).get .relations s = _ := h1
    rw [Store.get_set, if_neg (fun e => hx e.2)] at h1
    exact ht.all ho y ⟨v', l, h1, h2, h3⟩

theorem Tracks.insert {s : Said} {l : List RelObj} {f : Facade} (ht : Tracks L Own s l f) {y : RelObj} (hf : y.Fits)
    (hy : L.rel s y) : Tracks L Own s (setInsert l y) f where
  nodup := nodup_setInsert ht.nodup
  fits := fits_setInsert ht.fits hf
  right z hz := by
    rcases mem_setInsert.1 hz with hz | rfl
    · exact ht.right z hz
    · exact hy
  all ho z hz := mem_setInsert.2 (.inl (ht.all ho z hz))

/-- What is fixed for the thread's work on one bundle. -/
structure Ctx (E : Env) (S : Serde) (J : List Job) (L : Limit) (Ji : List Job) (j : Job) : Prop where
  mem : j ∈ J
  memi : j ∈ Ji
  obj : ∀ {x k}, j.build.bundle.Has x k → L.obj x
  rel : ∀ {x y}, j.build.bundle.Relates x y → L.rel x y
  labelled : j.build.bundle.Labelled
  agree : ∀ i ∈ J, ∀ x k k', j.build.bundle.Has x k → i.build.bundle.Has x k' → k = k'

variable {j : Job}

/-- the kinds -/
theorem Ctx.kindWrite (c : Ctx E S J L Ji j) {s : Said} {k : Nat} (hk : j.build.bundle.Has s k) :
    Tr E S J L Ji Own (fun f => RelsRight f.db L) (Thr.emit (.db .relations (metaKey s) [UInt8.ofNat k]))
      (fun _ f => RelsRight f.db L ∧ f.db.get .relations (metaKey s) = .ok (some [UInt8.ofNat k])) := by
  have get : ∀ (f : Facade) x, (f.write (.db .relations (metaKey s) [UInt8.ofNat k])).db.get .relations x =
      if metaKey s = x then .ok (some [UInt8.ofNat k]) else f.db.get .relations x := by
    intro f x
    show (f.db.set _ _ _).get _ _ = _
    rw [Store.get_set]
    simp only [true_and]
  have plain : ∀ (f : Facade) x, (∀ t, x ≠ metaKey t) → (f.write (.db .relations (metaKey s) [UInt8.ofNat k])).db.get .relations x = f.db.get .relations x := by
    intro f x hx
    rw [get, if_neg]
    exact fun e => hx s e.symm
  have hr : ∀ f : Facade, RelsRight f.db L → RelsRight (f.write (.db .relations (metaKey s) [UInt8.ofNat k])).db L := by
    rintro f ⟨R, M, r, h⟩
    exact ⟨R, _, r.set_meta s (has_code hk), h⟩
  refine Thr.Tri.emit (fun f f' h => Lasting.right.rely f f' h) (fun f hf => ⟨⟨.write (.build c.mem (.kind hk)) f (hr f) ?_, ?_, ?_⟩, hr f hf, ?_⟩)
    (fun f f' h => (Lasting.right.and (Lasting.kind c.mem hk)).rely f f' h)
  · intro i hi x k' hk' h
    rw [get]
    split
    · next e =>
      cases metaKey_inj e
      rw [c.agree i hi s k k' hk hk']
    · exact h
  · exact fun x hx _ => plain f x hx
  · rintro x y hx - ⟨v, l, h1, h2, h3⟩
    exact ⟨v, l, by rw [plain f x hx]; exact h1, h2, h3⟩
  · rw [get, if_pos rfl]

/-- `insert_oca_objects_metadata` -/
theorem Ctx.metas (c : Ctx E S J L Ji j) : Tr E S J L Ji Own (fun f => RelsRight f.db L) (metasT j.build.bundle)
    (fun _ f => RelsRight f.db L ∧ KindsIn j.build.bundle f) := by
  have hn := c.labelled.filled
  have said : ∀ o, o ∈ j.build.bundle.saids → ∃ s, o = some s := by
    intro o ho
    cases o with
    | none => exact absurd ho hn
    | some s => exact ⟨s, rfl⟩
  obtain ⟨bs, hbs⟩ := said j.build.bundle.said (.head _)
  obtain ⟨cs, hcs⟩ := said j.build.bundle.captureBase.said (.tail _ (.head _))
  unfold metasT
  refine Thr.Tri.ofBind RelyOn.refl (a := bs) (by rw [hbs]; rfl) ?_
  have h1 := c.kindWrite (Own := Own) (.bundle hbs)
  have h2 := c.kindWrite (Own := Own) (.base hcs)
  have h3 : Tr E S J L Ji Own (fun f => RelsRight f.db L) (Thr.each overlayMetaT j.build.bundle.overlays)
      (fun _ f => RelsRight f.db L ∧ ∀ o ∈ j.build.bundle.overlays, ∀ s, j.build.bundle.Has s o.body.kind.code → o.said = some s →
        f.db.get .relations (metaKey s) = .ok (some [UInt8.ofNat o.body.kind.code])) := by
    have last : ∀ o : Overlay, Lasting E S J L Own fun f => ∀ s, j.build.bundle.Has s o.body.kind.code → o.said = some s →
        f.db.get .relations (metaKey s) = .ok (some [UInt8.ofNat o.body.kind.code]) := fun o =>
      .all fun s => .imp fun hk => .imp fun _ => .kind c.mem hk
    refine Thr.Tri.each RelyOn.refl (fun f f' h => Lasting.right.rely f f' h) (fun o f f' h => (last o).rely f f' h)
      (fun o f f' h => (last o).gives f f' h) ?_
    intro o ho
    obtain ⟨s, hs⟩ := said o.said (.tail _ (.tail _ (List.mem_map.2 ⟨o, ho, rfl⟩)))
    unfold overlayMetaT
    refine Thr.Tri.ofBind RelyOn.refl (a := s) (by rw [hs]; rfl) ((c.kindWrite (.overlay ho hs)).post ?_)
    rintro _ f ⟨h, h'⟩
    refine ⟨h, fun s' _ e => ?_⟩
    rw [hs] at e
    cases e
    exact h'
  refine (Tr.andThen (Lasting.kind c.mem (.bundle hbs)) h1 (Thr.Tri.ofBind RelyOn.refl (a := cs) (by rw [hcs]; rfl)
    (Tr.andThen (Lasting.kind c.mem (.base hcs)) h2 h3))).post ?_
  rintro _ f ⟨h, k1, k2, k3⟩
  refine ⟨h, fun x k hk => ?_⟩
  cases hk with
  | bundle e => rw [hbs] at e; cases e; exact k1
  | base e => rw [hcs] at e; cases e; exact k2
  | overlay ho e => exact k3 _ ho x (.overlay ho e) e

theorem Lasting.kindsIn (hj : j ∈ J) : Lasting E S J L Own (KindsIn j.build.bundle) :=
  .all fun _ => .all fun _ => .imp fun hk => .kind hj hk

variable {P : Facade → Prop}

/-- `OCAObject::new` -/
theorem Ctx.relObj (hp : ∀ f f', RelyOn E S J L Own f f' → P f → P f') (hk : ∀ f, P f → KindsIn j.build.bundle f) {s : Said} {k : Nat}
    (h : j.build.bundle.Has s k) : Tr E S J L Ji Own P (relObjT s) (fun y f => y = (s, k) ∧ P f) := by
  unfold relObjT objectTypeT
  refine Thr.Tri.bind RelyOn.refl (Q := fun n f => n = k ∧ P f) (Thr.Tri.get hp fun r => ?_) ?_
  · intro f hf
    have e := hk f hf.1 s k h
    rw [hf.2] at e
    subst e
    exact Thr.Tri.of (P := P) (kindRead_code (has_code h)) hp f hf.1
  · rintro n f ⟨rfl, hf⟩
    exact Thr.Tri.pure (Q := fun y f => y = (s, n) ∧ P f) (fun f f' hr h => ⟨h.1, hp f f' hr h.2⟩) f ⟨rfl, hf⟩

/-- `explore`, or nothing -/
theorem Ctx.exploreOrNew (c : Ctx E S J L Ji j) (hp : ∀ f f', RelyOn E S J L Own f f' → P f → P f') (hr : ∀ f, P f → RelsRight f.db L)
    (hk : ∀ f, P f → KindsIn j.build.bundle f) {s : Said} {k : Nat} (h : j.build.bundle.Has s k) :
    Tr E S J L Ji Own P (exploreOrNewT s) (fun l f => P f ∧ Tracks L Own s l f) := by
  have hs := c.labelled.plain s (has_saids h)
  have hp' : ∀ l, ∀ f f', RelyOn E S J L Own f f' → P f ∧ Tracks L Own s l f → P f' ∧ Tracks L Own s l f' :=
    fun l f f' hr h => ⟨hp f f' hr h.1, h.2.rely hs f f' hr⟩
  have first : Tr E S J L Ji Own P (exploreT s) (fun o f => P f ∧ Tracks L Own s (o.getD []) f) := by
    unfold exploreT
    refine Thr.Tri.get hp fun r => ?_
    intro f hf
    obtain ⟨R, M, rr, h1, h2⟩ := hr f hf.1
    cases e : R s with
    | none =>
      have e' := rr.none' s hs e
      rw [hf.2] at e'
      subst e'
      refine Thr.Tri.pure (a := none) (Q := fun (o : Option (List RelObj)) f => P f ∧ Tracks L Own s (o.getD []) f) (hp' _) f ⟨hf.1, List.nodup_nil, ?_, ?_, ?_⟩
      · intro o ho; cases ho
      · intro o ho; cases ho
      · rintro - y ⟨v, l, g1, -, -⟩
        rw [hf.2] at g1
        cases g1
    | some l =>
      obtain ⟨g1, g2, v, g3, g4⟩ := rr.some' s hs l e
      rw [hf.2] at g3
      subst g3
      dsimp only
      refine Thr.Tri.ofBind RelyOn.refl g4 (P := fun f => P f ∧ Tracks L Own s l f) (Q2 := fun (o : Option (List RelObj)) f => P f ∧ Tracks L Own s (o.getD []) f) ?_ f ?_
      · refine Thr.Tri.bind RelyOn.refl (Q := fun _ f => P f ∧ Tracks L Own s l f) (Thr.Tri.get (hp' l) fun r => ?_) fun _ => ?_
        · intro f hf
          have e := hk f hf.1.1 s k h
          rw [hf.2] at e
          subst e
          exact ((Thr.Tri.of (P := fun f => P f ∧ Tracks L Own s l f) (kindRead_code (has_code h)) (hp' l)).post fun _ _ h => h.2) f hf.1
        · exact Thr.Tri.pure (a := some l) (Q := fun (o : Option (List RelObj)) f => P f ∧ Tracks L Own s (o.getD []) f) (hp' l)
      · refine ⟨hf.1, g1, g2, ?_, ?_⟩
        · intro y hy
          exact h2 s y hs (by rw [e]; exact hy)
        · rintro - y ⟨v', l', g5, g6, g7⟩
          rw [hf.2] at g5
          cases g5
          rw [g4] at g6
          cases g6
          exact g7
  unfold exploreOrNewT
  refine Thr.Tri.bind RelyOn.refl first fun o => ?_
  refine Thr.Tri.bind RelyOn.refl (Ctx.relObj (hp' _) (fun f hf => hk f hf.1) h) fun _ => ?_
  exact (Thr.Tri.pure (a := o.getD []) (Q := fun l f => P f ∧ Tracks L Own s l f) (hp' _)).pre fun f hf => hf.2

/-- writing the relations of an object -/
theorem Ctx.writeRels (c : Ctx E S J L Ji j) (O : SetOrder) (hp : ∀ f f', RelyOn E S J L Own f f' → P f → P f') (hr : ∀ f, P f → RelsRight f.db L)
    (hk : ∀ f, P f → KindsIn j.build.bundle f) {s : Said} {k : Nat} (h : j.build.bundle.Has s k) {l : List RelObj}
    (hw : ∀ f v, P f → RelsRight (f.write (.db .relations s v)).db L → KindsIn j.build.bundle (f.write (.db .relations s v)) → P (f.write (.db .relations s v))) :
    Tr E S J L Ji Own (fun f => P f ∧ Tracks L Own s l f) (writeRelsT O s l)
      (fun _ f => P f ∧ Written E S J .relations s f ∧ (Own s → ∀ y ∈ l, HasRel f.db s y)) := by
  have hs := c.labelled.plain s (has_saids h)
  intro f0 hf0
  have hperm := O.perm s l
  have hnd : (O.iter s l).Nodup := hperm.nodup_iff.mpr hf0.2.nodup
  have hfit : ∀ o ∈ O.iter s l, o.Fits := fun o ho => hf0.2.fits o (hperm.mem_iff.1 ho)
  obtain ⟨v, hv, hv'⟩ := C33_relations_round_trip (ε := Str) (O.iter s l) hnd hfit
  have get : ∀ (f : Facade) x, (f.write (.db .relations s v)).db.get .relations x = if s = x then .ok (some v) else f.db.get .relations x := by
    intro f x
    show (f.db.set _ _ _).get _ _ = _
    rw [Store.get_set]
    simp only [true_and]
  have new : ∀ (f : Facade), ∀ y ∈ l, HasRel (f.write (.db .relations s v)).db s y := fun f y hy =>
    ⟨v, _, by rw [get, if_pos rfl], hv', hperm.mem_iff.2 hy⟩
  have kinds : ∀ (f : Facade) x, (f.write (.db .relations s v)).db.get .relations (metaKey x) = f.db.get .relations (metaKey x) := by
    intro f x
    rw [get, if_neg (hs x)]
  have right : ∀ f : Facade, (P f ∧ Tracks L Own s l f) → RelsRight f.db L → RelsRight (f.write (.db .relations s v)).db L := by
    rintro f ⟨hf, ht⟩ ⟨R, M, r, h1, h2⟩
    have hM : ∃ m, M s = some m := by
      have e := r.kind s
      rw [hk f hf s k h] at e
      cases hm : M s with
      | none => rw [hm] at e; cases e
      | some m => exact ⟨m, rfl⟩
    obtain ⟨m, hM⟩ := hM
    obtain ⟨l', hp', r'⟩ := r.set_rels O hs hM ht.nodup ht.fits hv
    refine ⟨_, M, r', ?_, ?_⟩
    · intro x px hx
      unfold updRel at hx
      split at hx
      · next e => subst e; exact c.obj h
      · exact h1 x px hx
    · intro x y px hy
      unfold updRel at hy
      split at hy
      · next e => subst e; exact ht.right y (hp'.mem_iff.1 hy)
      · exact h2 x y px hy
  unfold writeRelsT
  refine Thr.Tri.ofBind RelyOn.refl hv (P := fun f => P f ∧ Tracks L Own s l f) (Thr.Tri.emit ?_ ?_ ?_) f0 hf0
  · exact fun f f' h hf => ⟨hp f f' h hf.1, hf.2.rely hs f f' h⟩
  · intro f hf
    have hright := right f hf (hr f hf.1)
    refine ⟨⟨.write (.build c.mem (.relations (has_saids h))) f (right f hf) ?_, ?_, ?_⟩, ?_, ?_, fun _ => new f⟩
    · intro i hi x k' hk' h
      rw [kinds]; exact h
    · intro x hx hK
      rw [get, if_neg]
      rintro rfl
      exact hK j c.memi (has_saids h)
    · intro x y hx ho hy
      by_cases e : x = s
      · subst e
        exact new f y (hf.2.all ho y hy)
      · obtain ⟨v', l', g1, g2, g3⟩ := hy
        exact ⟨v', l', by rw [get, if_neg (fun e' => e e'.symm)]; exact g1, g2, g3⟩
    · refine hw f v hf.1 hright fun x k' hk' => ?_
      rw [kinds]
      exact hk f hf.1 x k' hk'
    · exact ⟨v, .build c.mem (.relations (has_saids h)), by rw [get, if_pos rfl]⟩
  · rintro f f' hr' ⟨h1, h2, h3⟩
    exact ⟨hp f f' hr' h1, (Lasting.written .relations s).rely f f' hr' h2, fun ho y hy => (Lasting.rel hs ho y).rely f f' hr' (h3 ho y hy)⟩

end OCA
