import Verif.Lemmas.Failures
import Verif.Lemmas.ThreadRels
/-! The writes of a build when writes fail, and the relations then. -/
namespace OCA

/-! ## The parts of a build -/

theorem tried_cacheF (E : Env) (S : Serde) (b : Build) : (cacheF E S b.bundle).Tried (BuildWrite E S b) :=
  .need fun s hs => (Attempt.Tried.may (.bundleRow hs)).bind fun _ => .need fun c hc => .may (.baseRow hc)

theorem tried_metaF (E : Env) (S : Serde) (b : Build) : (metaF b.bundle).Tried (BuildWrite E S b) := by
  unfold metaF
  split
  · refine .need fun s hs => .each _ fun r hr => ?_
    obtain ⟨o, ho, e⟩ := List.mem_filterMap.1 hr
    exact .may (.search hs ho e)
  · trivial

theorem tried_stepF (E : Env) (S : Serde) (b : Build) {st : BuildStep} (hst : st ∈ b.steps) : (stepF E S st).Tried (BuildWrite E S b) :=
  .of fun r hr => .need fun s hs => (Attempt.Tried.must (.operation hst hs hr)).bind fun _ => (Attempt.Tried.must (.bundle hst hs)).bind fun _ =>
    .need fun c hc => (Attempt.Tried.must (.base hst hc)).bind fun _ => .each _ fun o ho => .need fun s hs => .must (.overlay hst ho hs)

theorem tried_relationsF {Q : Write → Prop} (O : SetOrder) (b : Bundle) (hk : ∀ x k, b.Has x k → Q (.db .relations (metaKey x) [UInt8.ofNat k]))
    (hr : ∀ x v, some x ∈ b.saids → Q (.db .relations x v)) : (relationsF O b).Tried Q := by
  have hb : ∀ s, b.said = some s → some s ∈ b.saids := fun s h => by simp [Bundle.saids, h]
  have hc : ∀ s, b.captureBase.said = some s → some s ∈ b.saids := fun s h => by simp [Bundle.saids, h]
  have ho : ∀ o ∈ b.overlays, ∀ s, o.said = some s → some s ∈ b.saids := by
    intro o ho s h
    unfold Bundle.saids
    exact .tail _ (.tail _ (List.mem_map.2 ⟨o, ho, h⟩))
  have hw : ∀ s l, some s ∈ b.saids → (writeRelsF O s l).Tried Q := fun s l h => .of fun v _ => .ask (hr s v h)
  have hloop : ∀ (os : List Overlay) (bs cs : Said) (br cr : List RelObj), (∀ o ∈ os, o ∈ b.overlays) → (relLoopF O bs cs br cr os).Tried Q := by
    intro os bs cs
    induction os with
    | nil => exact fun _ _ _ => trivial
    | cons o t ih =>
      intro br cr hos
      unfold relLoopF
      exact .need fun s hs => (Attempt.Tried.look _).bind fun _ => (Attempt.Tried.look _).bind fun _ => (Attempt.Tried.look _).bind fun _ =>
        (Attempt.Tried.look _).bind fun _ => (hw s _ (ho o (hos o (.head _)) s hs)).bind fun _ => ih _ _ fun o h => hos o (.tail _ h)
  unfold relationsF
  refine Attempt.Tried.bind ?_ fun _ => .need fun bs hbs => .need fun cs hcs => (Attempt.Tried.look _).bind fun _ => (Attempt.Tried.look _).bind fun _ =>
    (Attempt.Tried.look _).bind fun _ => (Attempt.Tried.look _).bind fun _ => (hloop _ _ _ _ _ fun o h => h).bind fun r =>
      (hw bs _ (hb bs hbs)).bind fun _ => hw cs _ (hc cs hcs)
  unfold metasF
  exact .need fun s hs => (Attempt.Tried.ask (hk s 1 (.bundle hs))).bind fun _ => .need fun c hcs => (Attempt.Tried.ask (hk c 0 (.base hcs))).bind fun _ =>
    .each _ fun o h => .need fun s hs => .may (hk s _ (.overlay h hs))

theorem tried_modelsF {Q : Write → Prop} (E : Env) (S : Serde) (steps : List BuildStep) (hq : ∀ k v, Q (.db .coreModel k v)) : (modelsF E S steps).Tried Q := by
  unfold modelsF
  refine .of fun ms _ => .each _ fun m _ => ?_
  have hcore : ∀ k r, (coreF k r).Tried Q := fun k r => .of fun _ _ => .must (hq _ _)
  unfold modelF
  exact (hcore _ _).bind fun _ => (Attempt.Tried.each _ fun _ _ => hcore _ _).bind fun _ => (Attempt.Tried.each _ fun _ _ => hcore _ _).bind fun _ => hcore _ _

theorem must_stepF (E : Env) (S : Serde) (st : BuildStep) : (stepF E S st).Must :=
  (Attempt.Must.of _).bind fun _ => (Attempt.Must.of _).bind fun _ => (Attempt.Must.must _).bind fun _ => (Attempt.Must.must _).bind fun _ =>
    (Attempt.Must.of _).bind fun _ => (Attempt.Must.must _).bind fun _ => .each (fun _ => (Attempt.Must.of _).bind fun _ => .must _) _

theorem must_modelsF (E : Env) (S : Serde) (steps : List BuildStep) : (modelsF E S steps).Must := by
  have hcore : ∀ k r, (coreF k r).Must := fun k r => (Attempt.Must.of _).bind fun _ => .must _
  exact (Attempt.Must.of _).bind fun _ => .each (fun m => (hcore _ _).bind fun _ => (Attempt.Must.each (fun _ => hcore _ _) _).bind fun _ =>
    (Attempt.Must.each (fun _ => hcore _ _) _).bind fun _ => hcore _ _) _

theorem careless_cacheF (E : Env) (S : Serde) (b : Bundle) : (cacheF E S b).Careless :=
  (Attempt.Careless.of _).bind fun _ => (Attempt.Careless.may _).bind fun _ => (Attempt.Careless.of _).bind fun _ => .may _

theorem careless_metaF (b : Bundle) : (metaF b).Careless := by
  unfold metaF
  split
  · exact (Attempt.Careless.of _).bind fun _ => .each (fun _ => .may _) _
  · trivial

/-- the name of a job -/
def nameF (j : Job) : Attempt Unit := Attempt.each (fun n : Str => do
    let s ← Attempt.of (Res.unwrap j.build.bundle.said)
    Attempt.must (.db .references n (utf8 s))) j.name.toList

theorem jobF_eq (E : Env) (S : Serde) (j : Job) : jobF E S j = nameF j >>= fun _ => buildF E S j.order j.build := rfl

theorem must_nameF (j : Job) : (nameF j).Must := .each (fun _ => (Attempt.Must.of _).bind fun _ => .must _) _

theorem tried_jobF (E : Env) (S : Serde) (j : Job) : (jobF E S j).Tried (JobWrite E S [j]) := by
  have hm : ∀ {m : Attempt Unit}, m.Tried (BuildWrite E S j.build) → m.Tried (JobWrite E S [j]) := by
    intro m h
    induction m with
    | done r => trivial
    | read c ih => exact fun d => ih d (h d)
    | put w c ih => exact ⟨.build (.head _) h.1, fun b => ih b (h.2 b)⟩
  rw [jobF_eq]
  refine Attempt.Tried.bind ?_ fun _ => hm ?_
  · refine .each _ fun n hn => .need fun s hs => .must (.name (.head _) ?_ hs)
    cases hj : j.name with
    | none => rw [hj] at hn; cases hn
    | some x =>
      rw [hj] at hn
      cases hn with
      | head => rfl
      | tail _ h => cases h
  · unfold buildF
    exact (tried_cacheF E S _).bind fun _ => (tried_metaF E S _).bind fun _ => (Attempt.Tried.each _ fun st h => tried_stepF E S _ h).bind fun _ =>
      (Attempt.Tried.ignore (tried_relationsF _ _ (fun x v h => .kind h) (fun x v h => .relations h))).bind fun _ => tried_modelsF E S _ fun _ _ => .model

/-! ## What holds however it ends -/

/-- Started where `P` holds, it ends where `I` holds, however it ends, and where `Q` holds if it ends well. -/
def Attempt.Leaves {α : Type} (I P : Facade → Prop) (m : Attempt α) (Q : α → Facade → Prop) : Prop :=
  ∀ f l r, P f → m.Tries f l r → I (f.after l) ∧ ∀ a, r = .ok a → Q a (f.after l)

namespace Attempt
variable {α β : Type} {I P : Facade → Prop}

theorem Leaves.bind {m : Attempt α} {k : α → Attempt β} {Q : α → Facade → Prop} {Q2 : β → Facade → Prop} (hm : m.Leaves I P Q)
    (hk : ∀ a, (k a).Leaves I (Q a) Q2) : (m >>= k).Leaves I P Q2 := by
  intro f l r hf h
  rcases tries_bind h with ⟨l1, a, l2, rfl, t1, t2⟩ | ⟨e, rfl, t⟩ | ⟨rfl, t⟩
  · rw [after_append]
    exact hk a _ _ _ ((hm _ _ _ hf t1).2 a rfl) t2
  · exact ⟨(hm _ _ _ hf t).1, nofun⟩
  · exact ⟨(hm _ _ _ hf t).1, nofun⟩

theorem Leaves.ofBind {r : Res Str α} {k : α → Attempt β} {Q2 : β → Facade → Prop} (hi : ∀ f, P f → I f) (hk : ∀ a, r = .ok a → (k a).Leaves I P Q2) :
    (Attempt.of r >>= k).Leaves I P Q2 := by
  refine Leaves.bind (Q := fun a f => r = .ok a ∧ P f) ?_ ?_
  · intro f l x hf h
    cases h
    exact ⟨hi f hf, fun a e => ⟨e, hf⟩⟩
  · rintro a f l x ⟨e, hf⟩ h
    exact hk a e f l x hf h

theorem Leaves.needBind {o : Option α} {k : α → Attempt β} {Q2 : β → Facade → Prop} (hi : ∀ f, P f → I f) (hk : ∀ a, o = some a → (k a).Leaves I P Q2) :
    (Attempt.of (Res.unwrap o) >>= k).Leaves I P Q2 := .ofBind hi fun a e => hk a (Res.unwrap_eq e)

theorem Leaves.lookBind {g : Store → Res Str α} {k : α → Attempt β} {Q2 : β → Facade → Prop} (hi : ∀ f, P f → I f)
    (hk : ∀ a, (k a).Leaves I (fun f => P f ∧ g f.db = .ok a) Q2) : (Attempt.look g >>= k).Leaves I P Q2 := by
  refine Leaves.bind (Q := fun a f => P f ∧ g f.db = .ok a) ?_ hk
  intro f l x hf h
  cases h with
  | read h =>
    generalize hg : g f.db = y at h
    cases h
    exact ⟨hi f hf, fun a e => ⟨hf, e⟩⟩

theorem Leaves.pure {a : α} {Q : α → Facade → Prop} (hi : ∀ f, P f → I f) (hq : ∀ f, P f → Q a f) : (pure a : Attempt α).Leaves I P Q := by
  intro f l x hf h
  generalize hm : (Pure.pure a : Attempt α) = m at h
  cases h with
  | done =>
    cases hm
    exact ⟨hi f hf, fun b e => by cases e; exact hq f hf⟩
  | read => cases hm
  | lands => cases hm
  | fails => cases hm

theorem Leaves.ask {w : Write} {Q : Unit → Facade → Prop} (hi : ∀ f, P f → I f) (hw : ∀ f, P f → I (f.write w) ∧ Q () (f.write w)) :
    (Attempt.ask w).Leaves I P Q := by
  intro f l x hf h
  cases h with
  | lands h =>
    cases h
    exact ⟨(hw f hf).1, fun _ _ => (hw f hf).2⟩
  | fails h =>
    cases h
    exact ⟨hi f hf, nofun⟩

theorem Leaves.may {w : Write} {Q : Unit → Facade → Prop} (hi : ∀ f, P f → I f ∧ Q () f) (hw : ∀ f, P f → I (f.write w) ∧ Q () (f.write w)) :
    (Attempt.may w).Leaves I P Q := by
  intro f l x hf h
  cases h with
  | lands h =>
    cases h
    exact ⟨(hw f hf).1, fun _ _ => (hw f hf).2⟩
  | fails h =>
    cases h
    exact ⟨(hi f hf).1, fun _ _ => (hi f hf).2⟩

theorem Leaves.each {γ : Type} {g : γ → Attempt Unit} (hi : ∀ f, P f → I f) (l : List γ) (h : ∀ a ∈ l, (g a).Leaves I P fun _ => P) :
    (Attempt.each g l).Leaves I P fun _ => P := by
  induction l with
  | nil => exact .pure hi fun _ h => h
  | cons a t ih => exact (h a (.head _)).bind fun _ => ih fun x hx => h x (.tail _ hx)

theorem Leaves.ignore {m : Attempt Unit} {Q : Unit → Facade → Prop} (hm : m.Leaves I P Q) : m.ignore.Leaves I P fun _ => I := by
  intro f l r hf h
  rcases tries_ignore h with ⟨-, h | ⟨e, h⟩⟩ | ⟨-, h⟩ <;> exact ⟨(hm f l _ hf h).1, fun _ _ => (hm f l _ hf h).1⟩

theorem Leaves.weaken {m : Attempt α} {Q Q' : α → Facade → Prop} (hm : m.Leaves I P Q) (h : ∀ a f, Q a f → Q' a f) : m.Leaves I P Q' :=
  fun f l r hf ht => ⟨(hm f l r hf ht).1, fun a e => h a _ ((hm f l r hf ht).2 a e)⟩

end Attempt

/-! ## The relations -/

/-- every kind that is recorded is one of these -/
def KindsFrom (T : Said → Nat → Prop) (d : Store) : Prop :=
  ∀ x v, d.get .relations (metaKey x) = .ok (some v) → ∃ k, T x k ∧ v = [UInt8.ofNat k]

/-- What is fixed for the work on one bundle. -/
structure Rels (b : Bundle) (L : Limit) (T : Said → Nat → Prop) : Prop where
  obj : ∀ {x k}, b.Has x k → L.obj x
  rel : ∀ {x y}, b.Relates x y → L.rel x y
  labelled : b.Labelled
  kind : ∀ {x k}, b.Has x k → T x k
  agree : ∀ {x k k'}, b.Has x k → T x k' → k = k'

theorem hasRel_iff {d : Store} {R : Str → Option (List RelObj)} {M : Str → Option Nat} (h : RelRep d R M) {x : Said} (hx : ∀ t, x ≠ metaKey t) {y : RelObj} :
    HasRel d x y ↔ y ∈ (R x).getD [] := by
  cases e : R x with
  | none =>
    constructor
    · rintro ⟨v, l, h1, -, -⟩
      rw [h.none' x hx e] at h1
      cases h1
    · intro h; cases h
  | some l =>
    obtain ⟨-, -, v, g1, g2⟩ := h.some' x hx l e
    constructor
    · rintro ⟨v', l', h1, h2, h3⟩
      rw [g1] at h1
      cases h1
      rw [g2] at h2
      cases h2
      exact h3
    · exact fun h => ⟨v, l, g1, g2, h⟩

/-- the relations are right, and so are the kinds, and these relations are there -/
def Sound (L : Limit) (T : Said → Nat → Prop) (F : Said → RelObj → Prop) (f : Facade) : Prop :=
  RelsRight f.db L ∧ KindsFrom T f.db ∧ ∀ x y, (∀ t, x ≠ metaKey t) → F x y → HasRel f.db x y

/-- the object's kind is recorded -/
def KindKnown (x : Said) (f : Facade) : Prop := ∃ v, f.db.get .relations (metaKey x) = .ok (some v)

/-- a list of relations of the object -/
structure Right (L : Limit) (F : Said → RelObj → Prop) (s : Said) (l : List RelObj) : Prop where
  nodup : l.Nodup
  fits : ∀ o ∈ l, o.Fits
  right : ∀ y ∈ l, L.rel s y
  all : ∀ y, F s y → y ∈ l

theorem Right.insert {L : Limit} {F : Said → RelObj → Prop} {s : Said} {l : List RelObj} (ht : Right L F s l) {y : RelObj} (hf : y.Fits) (hy : L.rel s y) : Right L F s (setInsert l y) where
  nodup := nodup_setInsert ht.nodup
  fits := fits_setInsert ht.fits hf
  right z hz := by
    rcases mem_setInsert.1 hz with hz | rfl
    · exact ht.right z hz
    · exact hy
  all z hz := mem_setInsert.2 (.inl (ht.all z hz))

section
variable {b : Bundle} {L : Limit} {T : Said → Nat → Prop} {F : Said → RelObj → Prop}

theorem Rels.fits (c : Rels b L T) {s : Said} {k : Nat} (h : b.Has s k) : RelObj.Fits (s, k) := ⟨c.labelled.short s (has_saids h), has_code h⟩

theorem relObj_known {d : Store} {s : Said} {y : RelObj} (h : relObj d s = .ok y) : ∃ v, d.get .relations (metaKey s) = .ok (some v) := by
  unfold relObj at h
  obtain ⟨k, hk, -⟩ := Res.bind_eq_ok.1 (show Res.bind _ _ = _ from h)
  unfold objectType at hk
  obtain ⟨o, ho, hv⟩ := Res.bind_eq_ok.1 (show Res.bind _ _ = _ from hk)
  cases o with
  | some v => exact ⟨v, ho⟩
  | none => cases hv

/-- what is read of the kind of an object of the bundle -/
theorem Rels.relObj (c : Rels b L T) {f : Facade} (hf : Sound L T F f) {s : Said} {k : Nat} (h : b.Has s k) {y : RelObj} (hy : relObj f.db s = .ok y) :
    y = (s, k) ∧ KindKnown s f := by
  obtain ⟨v, hv⟩ := relObj_known hy
  refine ⟨?_, v, hv⟩
  obtain ⟨R, M, r, -, -⟩ := hf.1
  obtain ⟨k', hk', e⟩ := hf.2.1 s v hv
  have hkk := c.agree h hk'
  subst hkk
  have e2 := r.kind s
  rw [hv, e] at e2
  cases hm : M s with
  | none => rw [hm] at e2; cases e2
  | some m =>
    rw [hm] at e2
    have hle := r.code s m hm
    have hkc := has_code h
    have : m = k := by
      have := congrArg (fun z : Res Str (Option Bytes) => match z with
        | .ok (some [u]) => u.toNat
        | _ => 0) e2
      simp only [Option.map_some, UInt8.toNat_ofNat'] at this
      rw [Nat.mod_eq_of_lt (by omega), Nat.mod_eq_of_lt (by omega)] at this
      exact this.symm
    subst this
    rw [r.relObj_eq hm] at hy
    cases hy
    rfl

/-- what is read of its relations -/
theorem Rels.explored (c : Rels b L T) {f : Facade} (hf : Sound L T F f) {s : Said} {k : Nat} (h : b.Has s k) {l : List RelObj}
    (hl : exploreOrNew f.db s = .ok l) : Right L F s l ∧ KindKnown s f := by
  have hs := c.labelled.plain s (has_saids h)
  have hkn : KindKnown s f := by
    unfold exploreOrNew at hl
    obtain ⟨r, -, hl⟩ := Res.bind_eq_ok.1 (show Res.bind _ _ = _ from hl)
    obtain ⟨y, hy, -⟩ := Res.bind_eq_ok.1 (show Res.bind _ _ = _ from hl)
    exact relObj_known hy
  refine ⟨?_, hkn⟩
  obtain ⟨R, M, r, g1, g2⟩ := hf.1
  obtain ⟨v, hv⟩ := hkn
  have e2 := r.kind s
  rw [hv] at e2
  cases hm : M s with
  | none => rw [hm] at e2; cases e2
  | some m =>
    rw [r.exploreOrNew_eq hs hm] at hl
    have hl : (R s).getD [] = l := by cases hl; rfl
    subst hl
    cases e : R s with
    | none =>
      refine ⟨List.nodup_nil, ?_, ?_, ?_⟩
      · intro o ho; cases ho
      · intro o ho; cases ho
      · intro y hy
        have := (hasRel_iff r hs).1 (hf.2.2 s y hs hy)
        rw [e] at this
        exact this
    | some l =>
      obtain ⟨q1, q2, -⟩ := r.some' s hs l e
      refine ⟨q1, q2, fun y hy => g2 s y hs (by rw [e]; exact hy), fun y hy => ?_⟩
      have := (hasRel_iff r hs).1 (hf.2.2 s y hs hy)
      rw [e] at this
      exact this

/-- a kind is written -/
theorem Rels.kindWrite (c : Rels b L T) {f : Facade} (hf : Sound L T F f) {s : Said} {k : Nat} (h : b.Has s k) :
    Sound L T F (f.write (.db .relations (metaKey s) [UInt8.ofNat k])) ∧ KindKnown s (f.write (.db .relations (metaKey s) [UInt8.ofNat k])) ∧
    ∀ x, KindKnown x f → KindKnown x (f.write (.db .relations (metaKey s) [UInt8.ofNat k])) := by
  have get : ∀ x, (f.write (.db .relations (metaKey s) [UInt8.ofNat k])).db.get .relations x =
      if metaKey s = x then .ok (some [UInt8.ofNat k]) else f.db.get .relations x := by
    intro x
    show (f.db.set _ _ _).get _ _ = _
    rw [Store.get_set]
    simp only [true_and]
  obtain ⟨R, M, r, h1⟩ := hf.1
  refine ⟨⟨⟨R, _, r.set_meta s (has_code h), h1⟩, ?_, fun x y px hy => ?_⟩, ⟨_, by rw [get, if_pos rfl]⟩, ?_⟩
  · intro x v hv
    rw [get] at hv
    split at hv
    · next e =>
      cases metaKey_inj e
      cases hv
      exact ⟨k, c.kind h, rfl⟩
    · exact hf.2.1 x v hv
  · obtain ⟨v, l, q1, q2⟩ := hf.2.2 x y px hy
    exact ⟨v, l, by rw [get, if_neg (fun e => px s e.symm)]; exact q1, q2⟩
  · rintro x ⟨v, hv⟩
    unfold KindKnown
    rw [get]
    split
    · exact ⟨_, rfl⟩
    · exact ⟨v, hv⟩

/-- relations are written -/
theorem Rels.relsWrite (c : Rels b L T) (O : SetOrder) {f : Facade} (hf : Sound L T F f) {s : Said} {k : Nat} (h : b.Has s k) (hkn : KindKnown s f) {l : List RelObj}
    (hl : Right L F s l) {v : Bytes} (hv : (relsBytes (O.iter s l) : Res Str Bytes) = .ok v) :
    Sound L T F (f.write (.db .relations s v)) ∧ ∀ x, KindKnown x f → KindKnown x (f.write (.db .relations s v)) := by
  have hs := c.labelled.plain s (has_saids h)
  have kinds : ∀ x, (f.write (.db .relations s v)).db.get .relations (metaKey x) = f.db.get .relations (metaKey x) := by
    intro x
    show (f.db.set _ _ _).get _ _ = _
    rw [Store.get_set, if_neg]
    exact fun e => hs x e.2
  obtain ⟨R, M, r, h1, h2⟩ := hf.1
  have key : ∃ R', RelRep (f.write (.db .relations s v)).db R' M ∧ (∃ l', R' s = some l' ∧ ∀ y, y ∈ l' ↔ y ∈ l) ∧ ∀ x, x ≠ s → R' x = R x := by
    obtain ⟨w, hw⟩ := hkn
    have hM : ∃ m, M s = some m := by
      have e := r.kind s
      rw [hw] at e
      cases hm : M s with
      | none => rw [hm] at e; cases e
      | some m => exact ⟨m, rfl⟩
    obtain ⟨m, hM⟩ := hM
    obtain ⟨l', hp', r'⟩ := r.set_rels O hs hM hl.nodup hl.fits hv
    refine ⟨_, r', ⟨l', ?_, fun y => hp'.mem_iff⟩, fun x hx => ?_⟩
    · simp [updRel]
    · simp [updRel, hx]
  obtain ⟨R', r', ⟨l', es, hl'⟩, eo⟩ := key
  have mem : ∀ x y, y ∈ (R' x).getD [] ↔ (x = s ∧ y ∈ l) ∨ (x ≠ s ∧ y ∈ (R x).getD []) := by
    intro x y
    by_cases e : x = s
    · subst e
      rw [es]
      simpa using hl' y
    · rw [eo x e]
      simp [e]
  refine ⟨⟨⟨R', M, r', ?_, ?_⟩, ?_, ?_⟩, ?_⟩
  · intro x px hx
    by_cases e : x = s
    · subst e; exact c.obj h
    · rw [eo x e] at hx
      exact h1 x px hx
  · intro x y px hy
    rcases (mem x y).1 hy with ⟨rfl, hy⟩ | ⟨-, hy⟩
    · exact hl.right y hy
    · exact h2 x y px hy
  · intro x w hw
    rw [kinds] at hw
    exact hf.2.1 x w hw
  · intro x y px hy
    refine (hasRel_iff r' px).2 ((mem x y).2 ?_)
    by_cases e : x = s
    · subst e
      exact .inl ⟨rfl, hl.all y hy⟩
    · exact .inr ⟨e, (hasRel_iff r px).1 (hf.2.2 x y px hy)⟩
  · rintro x ⟨w, hw⟩
    exact ⟨w, by rw [kinds]; exact hw⟩

theorem Rels.writeRels (c : Rels b L T) (O : SetOrder) {s : Said} {k : Nat} (h : b.Has s k) {l : List RelObj} (hl : Right L F s l) {X : List Said} (hX : s ∈ X) :
    (writeRelsF O s l).Leaves (Sound L T F) (fun f => Sound L T F f ∧ ∀ x ∈ X, KindKnown x f) fun _ f => Sound L T F f ∧ ∀ x ∈ X, KindKnown x f :=
  .ofBind (fun _ h => h.1) fun v hv => .ask (fun _ h => h.1) fun f hf =>
    have hw := c.relsWrite O hf.1 h (hf.2 s hX) hl hv
    ⟨hw.1, hw.1, fun x hx => hw.2 x (hf.2 x hx)⟩

theorem Rels.metas (c : Rels b L T) {bs cs : Said} (hb : b.said = some bs) (hc : b.captureBase.said = some cs) :
    (metasF b).Leaves (Sound L T F) (Sound L T F) fun _ f => Sound L T F f ∧ ∀ x ∈ [bs, cs], KindKnown x f := by
  unfold metasF
  refine .needBind (fun _ h => h) fun s hs => ?_
  rw [hb] at hs
  cases hs
  refine Attempt.Leaves.bind (Q := fun _ f => Sound L T F f ∧ KindKnown bs f) (.ask (fun _ h => h) fun f hf => ?_) fun _ => ?_
  · have := c.kindWrite hf (.bundle hb)
    exact ⟨this.1, this.1, this.2.1⟩
  refine .needBind (fun _ h => h.1) fun s hs => ?_
  rw [hc] at hs
  cases hs
  refine Attempt.Leaves.bind (Q := fun _ f => Sound L T F f ∧ ∀ x ∈ [bs, cs], KindKnown x f) (.ask (fun _ h => h.1) fun f hf => ?_) fun _ => ?_
  · have := c.kindWrite hf.1 (.base hc)
    refine ⟨this.1, this.1, fun x hx => ?_⟩
    rcases List.mem_cons.1 hx with rfl | hx
    · exact this.2.2 _ hf.2
    · cases List.mem_singleton.1 hx
      exact this.2.1
  refine .each (fun _ h => h.1) _ fun o ho => .needBind (fun _ h => h.1) fun s hs => .may (fun _ h => ⟨h.1, h⟩) fun f hf => ?_
  have := c.kindWrite hf.1 (.overlay ho hs)
  exact ⟨this.1, this.1, fun x hx => this.2.2 x (hf.2 x hx)⟩

theorem Rels.loop (c : Rels b L T) (O : SetOrder) {bs cs : Said} (hbs : b.said = some bs) (hcs : b.captureBase.said = some cs) (os : List Overlay)
    (hos : ∀ o ∈ os, o ∈ b.overlays) : ∀ br cr, Right L F bs br → Right L F cs cr →
    (relLoopF O bs cs br cr os).Leaves (Sound L T F) (fun f => Sound L T F f ∧ ∀ x ∈ [bs, cs], KindKnown x f)
      fun r f => (Sound L T F f ∧ ∀ x ∈ [bs, cs], KindKnown x f) ∧ Right L F bs r.1 ∧ Right L F cs r.2 := by
  induction os with
  | nil =>
    intro br cr hbr hcr
    exact .pure (fun _ h => h.1) fun f h => ⟨h, hbr, hcr⟩
  | cons o t ih =>
    intro br cr hbr hcr
    have ho := hos o (.head _)
    unfold relLoopF
    refine .needBind (fun _ h => h.1) fun s hs => ?_
    have hin : some s ∈ b.overlays.map (·.said) := List.mem_map.2 ⟨o, ho, hs⟩
    have hk : b.Has s o.body.kind.code := .overlay ho hs
    have hd := c.labelled.distinct
    unfold Bundle.saids at hd
    rw [hbs, hcs, List.nodup_cons, List.nodup_cons] at hd
    have nb : s ≠ bs := fun e => hd.1 (.tail _ (e ▸ hin))
    have nc : s ≠ cs := fun e => hd.2.1 (e ▸ hin)
    have fx := c.fits hk
    have fb := c.fits (.bundle hbs)
    have fc := c.fits (.base hcs)
    have r1 : b.Relates s (bs, 1) := ⟨nb, .bundle hbs, ⟨_, hk⟩, .inr (.inr (.inl hbs))⟩
    have r2 : b.Relates s (cs, 0) := ⟨nc, .base hcs, ⟨_, hk⟩, .inr (.inr (.inr hcs))⟩
    have r3 : b.Relates bs (s, o.body.kind.code) := ⟨nb.symm, hk, ⟨_, .bundle hbs⟩, .inl hbs⟩
    have r4 : b.Relates cs (s, o.body.kind.code) := ⟨nc.symm, hk, ⟨_, .base hcs⟩, .inr (.inl hcs)⟩
    refine .lookBind (fun _ h => h.1) fun x => .lookBind (fun _ h => h.1.1) fun r => .lookBind (fun _ h => h.1.1.1) fun xb =>
      .lookBind (fun _ h => h.1.1.1.1) fun xc => ?_
    intro f l y hf
    obtain ⟨⟨⟨⟨⟨hf, hkn⟩, hx⟩, hr⟩, hxb⟩, hxc⟩ := hf
    have e1 := (c.relObj hf hk hx).1
    have e2 := c.explored hf hk hr
    have e3 := (c.relObj hf (.bundle hbs) hxb).1
    have e4 := (c.relObj hf (.base hcs) hxc).1
    subst e1 e3 e4
    have hw := c.writeRels O hk ((e2.1.insert fb (c.rel r1)).insert fc (c.rel r2)) (X := [s, bs, cs]) (.head _)
    have hrest : (relLoopF O bs cs (setInsert br (s, o.body.kind.code)) (setInsert cr (s, o.body.kind.code)) t).Leaves (Sound L T F)
        (fun f => Sound L T F f ∧ ∀ x ∈ [s, bs, cs], KindKnown x f)
        fun r f => (Sound L T F f ∧ ∀ x ∈ [bs, cs], KindKnown x f) ∧ Right L F bs r.1 ∧ Right L F cs r.2 := fun f' l' y' hf' =>
      ih (fun o h => hos o (.tail _ h)) _ _ (hbr.insert fx (c.rel r3)) (hcr.insert fx (c.rel r4)) f' l' y' ⟨hf'.1, fun x hx => hf'.2 x (.tail _ hx)⟩
    exact hw.bind (fun _ => hrest) f l y ⟨hf, fun x hx => by
        rcases List.mem_cons.1 hx with rfl | hx
        · exact e2.2
        · exact hkn x hx⟩

/-- However `add_relations` ends, and whichever writes fail, the relations are right. -/
theorem Rels.relations (c : Rels b L T) (O : SetOrder) : (relationsF O b).Leaves (Sound L T F) (Sound L T F) fun _ => Sound L T F := by
  obtain ⟨bs, hbs⟩ : ∃ s, b.said = some s := by
    cases h : b.said with
    | some s => exact ⟨s, rfl⟩
    | none => exact (c.labelled.filled (by simp [Bundle.saids, h])).elim
  obtain ⟨cs, hcs⟩ : ∃ s, b.captureBase.said = some s := by
    cases h : b.captureBase.said with
    | some s => exact ⟨s, rfl⟩
    | none => exact (c.labelled.filled (by simp [Bundle.saids, h])).elim
  have hd := c.labelled.distinct
  unfold Bundle.saids at hd
  rw [hbs, hcs, List.nodup_cons, List.nodup_cons] at hd
  have nbc : bs ≠ cs := fun e => hd.1 (by rw [e]; exact .head _)
  have r1 : b.Relates bs (cs, 0) := ⟨nbc, .base hcs, ⟨_, .bundle hbs⟩, .inl hbs⟩
  have r2 : b.Relates cs (bs, 1) := ⟨nbc.symm, .bundle hbs, ⟨_, .base hcs⟩, .inr (.inl hcs)⟩
  unfold relationsF
  refine (c.metas hbs hcs).bind fun _ => .needBind (fun _ h => h.1) fun s hs => ?_
  rw [hbs] at hs
  cases hs
  refine .needBind (fun _ h => h.1) fun s hs => ?_
  rw [hcs] at hs
  cases hs
  refine .lookBind (fun _ h => h.1) fun br => .lookBind (fun _ h => h.1.1) fun xc => .lookBind (fun _ h => h.1.1.1) fun cr =>
    .lookBind (fun _ h => h.1.1.1.1) fun xb => ?_
  intro f l y hf
  obtain ⟨⟨⟨⟨⟨hf, hkn⟩, hbr⟩, hxc⟩, hcr⟩, hxb⟩ := hf
  have e1 := (c.relObj hf (.base hcs) hxc).1
  have e2 := (c.relObj hf (.bundle hbs) hxb).1
  have e3 := (c.explored hf (.bundle hbs) hbr).1.insert (c.fits (.base hcs)) (c.rel r1)
  have e4 := (c.explored hf (.base hcs) hcr).1.insert (c.fits (.bundle hbs)) (c.rel r2)
  subst e1 e2
  refine Attempt.Leaves.bind (c.loop O hbs hcs b.overlays (fun o h => h) _ _ e3 e4) (fun r => ?_) f l y ⟨hf, hkn⟩
  intro f l y hf
  exact Attempt.Leaves.bind (c.writeRels O (.bundle hbs) hf.2.1 (X := [bs, cs]) (.head _)) (fun _ =>
    (c.writeRels O (.base hcs) hf.2.2 (X := [bs, cs]) (.tail _ (.head _))).weaken fun _ _ h => h.1) f l y hf.1

theorem Sound.congr {f g : Facade} (h : Sound L T F f) (he : ∀ k, g.db.get .relations k = f.db.get .relations k) : Sound L T F g :=
  ⟨h.1.congr he, fun x v hv => h.2.1 x v (by rw [← he]; exact hv), fun x y px hy => by
    obtain ⟨v, l, q1, q2⟩ := h.2.2 x y px hy
    exact ⟨v, l, by rw [he]; exact q1, q2⟩⟩

/-- a part of the build that does not write relations -/
theorem Sound.quiet {m : Attempt Unit} (hm : m.Tried fun w => ∀ k v, w ≠ .db .relations k v) : m.Leaves (Sound L T F) (Sound L T F) fun _ => Sound L T F := by
  intro f l r hf h
  have : Sound L T F (f.after l) := hf.congr fun k => by
    rcases f.writes_db (landed l) .relations k with h' | ⟨v, hv, -⟩
    · exact h'
    · exact (hm.tries h (_, true) (Attempt.mem_landed.1 hv) k v rfl).elim
  exact ⟨this, fun _ _ => this⟩

/-- However a job ends, and whichever writes fail, the relations are right. -/
theorem Rels.job {j : Job} (c : Rels j.build.bundle L T) (E : Env) (S : Serde) : (jobF E S j).Leaves (Sound L T F) (Sound L T F) fun _ => Sound L T F := by
  rw [jobF_eq]
  refine (Sound.quiet ?_).bind fun _ => ?_
  · exact .each _ fun _ _ => .need fun _ _ => .must (by intro _ _ h; cases h)
  unfold buildF
  refine (Sound.quiet ?_).bind fun _ => (Sound.quiet ?_).bind fun _ => (Sound.quiet ?_).bind fun _ => (c.relations _).ignore.bind fun _ =>
    Sound.quiet (tried_modelsF E S _ fun _ _ => by intro _ _ h; cases h)
  · exact .need fun s hs => (Attempt.Tried.may (by intro _ _ h; cases h)).bind fun _ => .need fun c hc => .may (by intro _ _ h; cases h)
  · unfold metaF
    split
    · exact .need fun s hs => .each _ fun r hr => .may (by intro _ _ h; cases h)
    · trivial
  · exact .each _ fun st _ => .of fun r hr => .need fun s hs => (Attempt.Tried.must (by intro _ _ h; cases h)).bind fun _ =>
      (Attempt.Tried.must (by intro _ _ h; cases h)).bind fun _ => .need fun c hc => (Attempt.Tried.must (by intro _ _ h; cases h)).bind fun _ =>
        .each _ fun o ho => .need fun s hs => .must (by intro _ _ h; cases h)

end

end OCA
