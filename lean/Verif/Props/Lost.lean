import Verif.Props.Failures
import Verif.Props.UnknownBase
import Verif.Model.Search
/-!
# C87: a storage is lost

The database, the cache and the SQLite tables are three storages that the caller supplies. Any of them may be in memory only, or be deleted. Here: what is
still given then, and that storing the same files again brings everything back.
-/
namespace OCA

/-! ## Writes that do not depend on what is held -/

theorem Attempt.Careless.blind {α : Type} {m : Attempt α} (hm : m.Careless) (f g : Facade) : m.undisturbed f = m.undisturbed g := by
  induction m generalizing f g with
  | done x => rfl
  | read c ih => exact hm.elim
  | put w c ih =>
    show (w :: ((c true).undisturbed (f.write w)).1, ((c true).undisturbed (f.write w)).2) =
      (w :: ((c true).undisturbed (g.write w)).1, ((c true).undisturbed (g.write w)).2)
    rw [ih true hm.2 (f.write w) (g.write w)]

/-- the same in all but the relations -/
structure Facade.Sim (f g : Facade) : Prop where
  db : ∀ ns k, ns ≠ .relations → g.db.get ns k = f.db.get ns k
  cache : g.cache = f.cache
  bundles : g.bundles = f.bundles
  bases : g.bases = f.bases
  fts : g.fts = f.fts

theorem Facade.Sim.refl (f : Facade) : f.Sim f := ⟨fun _ _ _ => rfl, rfl, rfl, rfl, rfl⟩
theorem Facade.Sim.trans {f g h : Facade} (a : f.Sim g) (b : g.Sim h) : f.Sim h :=
  ⟨fun ns k hn => (b.db ns k hn).trans (a.db ns k hn), b.cache.trans a.cache, b.bundles.trans a.bundles, b.bases.trans a.bases, b.fts.trans a.fts⟩

theorem Facade.Sim.write {f g : Facade} (h : f.Sim g) (w : Write) : (f.write w).Sim (g.write w) := by
  cases w with
  | db n x v =>
    refine ⟨fun ns k hn => ?_, h.cache, h.bundles, h.bases, h.fts⟩
    show (g.db.set n x v).get ns k = (f.db.set n x v).get ns k
    rw [Store.get_set, Store.get_set, h.db ns k hn]
  | cache n x v =>
    refine ⟨h.db, ?_, h.bundles, h.bases, h.fts⟩
    show g.cache.set n x v = f.cache.set n x v
    rw [h.cache]
  | bundleRow s v =>
    refine ⟨h.db, h.cache, ?_, h.bases, h.fts⟩
    show g.bundles.insertRow s v = f.bundles.insertRow s v
    rw [h.bundles]
  | baseRow s v =>
    refine ⟨h.db, h.cache, h.bundles, ?_, h.fts⟩
    show g.bases.insertRow s v = f.bases.insertRow s v
    rw [h.bases]
  | ftsRow r =>
    refine ⟨h.db, h.cache, h.bundles, h.bases, ?_⟩
    show insertFts g.fts r = insertFts f.fts r
    rw [h.fts]

theorem Facade.Sim.writes {f g : Facade} (h : f.Sim g) (ws : List Write) : (f.writes ws).Sim (g.writes ws) := by
  induction ws generalizing f g with
  | nil => exact h
  | cons w t ih => exact ih (h.write w)

theorem Facade.Sim.relations {f g : Facade} (h : f.Sim g) : ∀ (ws : List Write), (∀ w ∈ ws, ∃ k v, w = .db .relations k v) → f.Sim (g.writes ws) := by
  intro ws
  induction ws generalizing g with
  | nil => exact fun _ => h
  | cons w t ih =>
    intro hw
    refine ih ?_ fun x hx => hw x (.tail _ hx)
    obtain ⟨k, v, rfl⟩ := hw w (.head _)
    refine h.trans ⟨fun ns x hn => ?_, rfl, rfl, rfl, rfl⟩
    show (g.db.set .relations k v).get ns x = _
    rw [Store.get_set, if_neg]
    rintro ⟨e, -⟩
    exact hn e.symm

theorem onlyRels (O : SetOrder) (b : Bundle) : (relationsF O b).Tried fun w => ∃ k v, w = .db .relations k v :=
  tried_relationsF O b (fun _ _ _ => ⟨_, _, rfl⟩) (fun _ _ _ => ⟨_, _, rfl⟩)

/-- storing a job, wherever it succeeds, makes the same writes but for the relations -/
theorem store_again {E : Env} {S : Serde} {j : Job} {f g f' g' : Facade} (h : f.store E S j = .ok g) (h' : f'.store E S j = .ok g') :
    ∃ W, (f.writes W).Sim g ∧ (f'.writes W).Sim g' := by
  obtain ⟨wn, wc, wm, ws, wr, wo, p, -, rfl⟩ := jobRun h
  obtain ⟨wn', wc', wm', ws', wr', wo', p', -, rfl⟩ := jobRun h'
  have e1 := (Prod.mk.inj (((must_nameF j).blind _ _).symm.trans p.name |>.symm.trans p'.name)).1
  have e2 := (Prod.mk.inj (((careless_cacheF E S _).blind _ _).symm.trans p.cache |>.symm.trans p'.cache)).1
  have e3 := (Prod.mk.inj (((careless_metaF _).blind _ _).symm.trans p.search |>.symm.trans p'.search)).1
  have e4 := (Prod.mk.inj (((Attempt.Must.each (must_stepF E S) _).blind _ _).symm.trans p.steps |>.symm.trans p'.steps)).1
  have e5 := (Prod.mk.inj (((must_modelsF E S _).blind _ _).symm.trans p.models |>.symm.trans p'.models)).1
  subst e1 e2 e3 e4 e5
  have key : ∀ (f : Facade) {wr}, (∀ w ∈ wr, ∃ k v, w = Write.db .relations k v) →
      (f.writes (wn ++ (wc ++ (wm ++ (ws ++ wo))))).Sim (f.writes (wn ++ (wc ++ (wm ++ (ws ++ (wr ++ wo)))))) := by
    intro f wr hr
    simp only [Facade.writes_append]
    exact ((Facade.Sim.refl _).relations wr hr).writes wo
  exact ⟨wn ++ (wc ++ (wm ++ (ws ++ wo))), key f ((onlyRels _ _).ignore.undisturbed p.relations), key f' ((onlyRels _ _).ignore.undisturbed p'.relations)⟩

theorem stores_again {E : Env} {S : Serde} (js : List Job) {f g f' g' : Facade} (h : foldRes (Facade.store E S) f js = .ok g)
    (h' : foldRes (Facade.store E S) f' js = .ok g') : ∃ W, (f.writes W).Sim g ∧ (f'.writes W).Sim g' := by
  induction js generalizing f f' with
  | nil =>
    cases h
    cases h'
    exact ⟨[], .refl _, .refl _⟩
  | cons j t ih =>
    obtain ⟨a, ha, h⟩ := Res.bind_eq_ok.1 (show Res.bind _ _ = _ from h)
    obtain ⟨b, hb, h'⟩ := Res.bind_eq_ok.1 (show Res.bind _ _ = _ from h')
    obtain ⟨W, s1, s2⟩ := store_again ha hb
    obtain ⟨V, t1, t2⟩ := ih h h'
    refine ⟨W ++ V, ?_, ?_⟩
    · rw [Facade.writes_append]; exact (s1.writes V).trans t1
    · rw [Facade.writes_append]; exact (s2.writes V).trans t2

/-! ## Making the same writes again -/

theorem foldl_again {β ω : Type} {step : β → ω → β} (h1 : ∀ b w, step (step b w) w = step b w) (h2 : ∀ b w w', step b w = b → step (step b w') w = step b w')
    (W : List ω) (b : β) : W.foldl step (W.foldl step b) = W.foldl step b := by
  have keep : ∀ (V : List ω) b w, step b w = b → step (V.foldl step b) w = V.foldl step b := by
    intro V
    induction V with
    | nil => exact fun _ _ h => h
    | cons v t ih => exact fun b w h => ih _ _ (h2 b w v h)
  have all : ∀ (V : List ω) b, ∀ w ∈ V, step (V.foldl step b) w = V.foldl step b := by
    intro V
    induction V with
    | nil => exact fun _ w h => nomatch h
    | cons v t ih =>
      intro b w hw
      cases hw with
      | head => exact keep t _ _ (h1 b _)
      | tail _ h => exact ih _ w h
  have still : ∀ (V : List ω) b, (∀ w ∈ V, step b w = b) → V.foldl step b = b := by
    intro V
    induction V with
    | nil => exact fun _ _ => rfl
    | cons v t ih =>
      intro b h
      show t.foldl step (step b v) = b
      rw [h v (.head _)]
      exact ih b fun w hw => h w (.tail _ hw)
  exact still W _ (all W b)

theorem insertRow_still (t : Table) (s s' : Said) (v v' : Str) (h : t.insertRow s v = t) : (t.insertRow s' v').insertRow s v = t.insertRow s' v' := by
  have : t.any (fun r => r.1 = s) = true := by
    unfold Table.insertRow at h
    split at h
    · assumption
    · have := congrArg List.length h
      simp at this
  unfold Table.insertRow
  rw [if_pos]
  split
  · exact this
  · rw [List.any_append, this]; rfl

theorem insertFts_again (t : List FtsRow) (r : FtsRow) : insertFts (insertFts t r) r = insertFts t r := by
  have : (insertFts t r).any (fun x => x.said = r.said && x.lang = r.lang) = true := by
    unfold insertFts
    split
    · assumption
    · simp
  show (if _ then _ else _) = _
  rw [if_pos this]

theorem insertFts_still (t : List FtsRow) (r r' : FtsRow) (h : insertFts t r = t) : insertFts (insertFts t r') r = insertFts t r' := by
  have : t.any (fun x => x.said = r.said && x.lang = r.lang) = true := by
    unfold insertFts at h
    split at h
    · assumption
    · have := congrArg List.length h
      simp at this
  unfold insertFts
  rw [if_pos]
  split
  · exact this
  · rw [List.any_append, this]; rfl

def Write.toBundles (t : Table) : Write → Table
  | .bundleRow s v => t.insertRow s v
  | _ => t
def Write.toBases (t : Table) : Write → Table
  | .baseRow s v => t.insertRow s v
  | _ => t
def Write.toFts (t : List FtsRow) : Write → List FtsRow
  | .ftsRow r => insertFts t r
  | _ => t
def Write.toCache (d : Store) : Write → Store
  | .cache n k v => d.set n k v
  | _ => d
def Write.toDb (d : Store) : Write → Store
  | .db n k v => d.set n k v
  | _ => d

theorem Facade.writes_parts (f : Facade) (W : List Write) : (f.writes W).bundles = W.foldl Write.toBundles f.bundles ∧
    (f.writes W).bases = W.foldl Write.toBases f.bases ∧ (f.writes W).fts = W.foldl Write.toFts f.fts ∧
    (f.writes W).cache = W.foldl Write.toCache f.cache ∧ (f.writes W).db = W.foldl Write.toDb f.db := by
  induction W generalizing f with
  | nil => exact ⟨rfl, rfl, rfl, rfl, rfl⟩
  | cons w t ih =>
    rw [Facade.writes_cons]
    have := ih (f.write w)
    cases w <;> exact this

theorem bundles_again (W : List Write) (t : Table) : W.foldl Write.toBundles (W.foldl Write.toBundles t) = W.foldl Write.toBundles t := by
  refine foldl_again (fun b w => ?_) (fun b w w' h => ?_) W t
  · cases w with
    | bundleRow s v => exact insertRow_again b s v v
    | _ => rfl
  · cases w with
    | bundleRow s v =>
      cases w' with
      | bundleRow s' v' => exact insertRow_still b s s' v v' h
      | _ => exact h
    | _ => rfl

theorem bases_again (W : List Write) (t : Table) : W.foldl Write.toBases (W.foldl Write.toBases t) = W.foldl Write.toBases t := by
  refine foldl_again (fun b w => ?_) (fun b w w' h => ?_) W t
  · cases w with
    | baseRow s v => exact insertRow_again b s v v
    | _ => rfl
  · cases w with
    | baseRow s v =>
      cases w' with
      | baseRow s' v' => exact insertRow_still b s s' v v' h
      | _ => exact h
    | _ => rfl

theorem fts_again (W : List Write) (t : List FtsRow) : W.foldl Write.toFts (W.foldl Write.toFts t) = W.foldl Write.toFts t := by
  refine foldl_again (fun b w => ?_) (fun b w w' h => ?_) W t
  · cases w with
    | ftsRow r => exact insertFts_again b r
    | _ => rfl
  · cases w with
    | ftsRow r =>
      cases w' with
      | ftsRow r' => exact insertFts_still b r r' h
      | _ => exact h
    | _ => rfl

/-- a record is either not written at all, or is what was written last -/
theorem cache_fixed (W : List Write) (ns : Namespace) (k : Str) :
    (∀ d, (W.foldl Write.toCache d).get ns k = d.get ns k) ∨ ∃ r, ∀ d, (W.foldl Write.toCache d).get ns k = r := by
  induction W with
  | nil => exact .inl fun _ => rfl
  | cons w t ih =>
    rcases ih with h | ⟨r, h⟩
    · cases w with
      | cache n x v =>
        by_cases e : n = ns ∧ x = k
        · refine .inr ⟨.ok (some v), fun d => (h _).trans ?_⟩
          show (d.set n x v).get ns k = _
          rw [Store.get_set]
          obtain ⟨rfl, rfl⟩ := e
          rw [if_pos ⟨rfl, rfl⟩]
        · refine .inl fun d => (h _).trans ?_
          show (d.set n x v).get ns k = _
          rw [Store.get_set, if_neg]
          rintro ⟨rfl, rfl⟩
          exact e ⟨rfl, rfl⟩
      | _ => exact .inl h
    · exact .inr ⟨r, fun d => h _⟩

theorem db_fixed (W : List Write) (ns : Namespace) (k : Str) :
    (∀ d, (W.foldl Write.toDb d).get ns k = d.get ns k) ∨ ∃ r, ∀ d, (W.foldl Write.toDb d).get ns k = r := by
  induction W with
  | nil => exact .inl fun _ => rfl
  | cons w t ih =>
    rcases ih with h | ⟨r, h⟩
    · cases w with
      | db n x v =>
        by_cases e : n = ns ∧ x = k
        · refine .inr ⟨.ok (some v), fun d => (h _).trans ?_⟩
          show (d.set n x v).get ns k = _
          rw [Store.get_set]
          obtain ⟨rfl, rfl⟩ := e
          rw [if_pos ⟨rfl, rfl⟩]
        · refine .inl fun d => (h _).trans ?_
          show (d.set n x v).get ns k = _
          rw [Store.get_set, if_neg]
          rintro ⟨rfl, rfl⟩
          exact e ⟨rfl, rfl⟩
      | _ => exact .inl h
    · exact .inr ⟨r, fun d => h _⟩

/-! ## What brings it back -/

/-- **C87** Whichever of the three storages were lost, and whatever was stored in them: storing the same again, in the same order, succeeds and brings all of it back. The
tables have the same rows in the same order, every bundle, object, history, name and record of the core model is there and is what it was, and `explore` knows the same objects with
the same relations. -/
theorem C87_restored (E : Env) (hE : E.ShortSaids) (S : Serde) (js : List Job) (hj : Jobs E [js]) (f f' : Facade)
    (h : foldRes (Facade.store E S) Facade.new js = .ok f) (hl : f.Loses f') :
    ∃ g, foldRes (Facade.store E S) f' js = .ok g ∧ g.bundles = f.bundles ∧ g.bases = f.bases ∧ g.fts = f.fts ∧ f.SameRecorded g ∧
      ∀ x, (∀ t, x ≠ metaKey t) → ∃ r r', explore f.db x = .ok r ∧ explore g.db x = .ok r' ∧ (r' = none ↔ r = none) ∧ ∀ y, y ∈ r'.getD [] ↔ y ∈ r.getD [] := by
  obtain ⟨f0, r0, hi0⟩ := interleaved_alone (f0 := Facade.new) (ts := [threadT E S js]) (threadT E S js) .start
  have hs0 := Facade.Shared.run (E := E) (S := S) (jss := [js]) .new hj hi0
  obtain rfl := C84_no_thread_fails E hE S _ _ [] .new [js] hj _ hi0 r0 (.head _)
  obtain rfl : f0 = f := by
    have := C84_alone E S _ _ js _ hi0
    rw [h] at this
    exact (Res.ok.inj this).symm
  have hs1 := hs0.lost hl
  obtain ⟨g, r1, hi1⟩ := interleaved_alone (f0 := f') (ts := [threadT E S js]) (threadT E S js) .start
  obtain rfl := C84_no_thread_fails E hE S _ _ _ hs1 [js] hj _ hi1 r1 (.head _)
  have hg : foldRes (Facade.store E S) f' js = .ok g := C84_alone E S _ _ js _ hi1
  obtain ⟨W, a, b⟩ := stores_again js h hg
  obtain ⟨a1, a2, a3, a4, a5⟩ := Facade.writes_parts Facade.new W
  obtain ⟨b1, b2, b3, b4, b5⟩ := Facade.writes_parts f' W
  rw [← a.bundles] at a1
  rw [← a.bases] at a2
  rw [← a.fts] at a3
  rw [← a.cache] at a4
  rw [← b.bundles] at b1
  rw [← b.bases] at b2
  rw [← b.fts] at b3
  rw [← b.cache] at b4
  refine ⟨g, hg, ?_, ?_, ?_, ⟨fun ns k hn => ?_, fun ns k => ?_⟩, fun x hx => ?_⟩
  · rcases hl.tables with ⟨e, -, -⟩ | ⟨e, -, -⟩
    · rw [b1, e, a1, bundles_again]
    · rw [b1, e, a1]; rfl
  · rcases hl.tables with ⟨-, e, -⟩ | ⟨-, e, -⟩
    · rw [b2, e, a2, bases_again]
    · rw [b2, e, a2]; rfl
  · rcases hl.tables with ⟨-, -, e⟩ | ⟨-, -, e⟩
    · rw [b3, e, a3, fts_again]
    · rw [b3, e, a3]; rfl
  · rw [b.db ns k hn, b5, a.db ns k hn, a5]
    rcases db_fixed W ns k with h | ⟨r, h⟩
    · rw [h, h]
      rcases hl.db with e | e
      · rw [e, a.db ns k hn, a5, h]
      · rw [e]; rfl
    · rw [h, h]
  · rw [b4, a4]
    rcases cache_fixed W ns k with h | ⟨r, h⟩
    · rw [h, h]
      rcases hl.cache with e | e
      · rw [e, a4, h]
      · rw [e]; rfl
    · rw [h, h]
  · have only : OnlyOf [js] 0 x := fun k js hk e => by cases k with | zero => exact absurd rfl hk | succ k => cases e
    have done : ∀ u ∈ [Thr.done (Res.ok () : Res Str Unit)], ∃ r, u = .done r := fun u hu => ⟨_, List.mem_singleton.1 hu⟩
    obtain ⟨r, r', e1, e2, e3, e4⟩ := C84_relations E hE S _ _ [] .new [js] hj _ hi0 done x hx 0 Nat.one_pos only
    obtain ⟨q, q', d1, d2, d3, d4⟩ := C84_relations E hE S _ _ _ hs1 [js] hj _ hi1 done x hx 0 Nat.one_pos only
    have hr : r = none := by
      have : explore Facade.new.db x = .ok none := rfl
      rw [this] at e1
      exact (Res.ok.inj e1).symm
    subst hr
    have hq : q = r' ∨ q = none := by
      rcases hl.db with e | e
      · rw [e, e2] at d1; exact .inl (Res.ok.inj d1).symm
      · rw [e] at d1; exact .inr (Res.ok.inj d1).symm
    refine ⟨r', q', e2, d2, ?_, fun y => ?_⟩
    · have : q' ≠ none ↔ r' ≠ none := by
        rw [d3]
        rcases hq with rfl | rfl
        · exact ⟨fun h => h.elim id fun h => e3.2 (.inr h), .inl⟩
        · rw [e3]
      exact ⟨fun e => Decidable.byContradiction fun h => this.2 h e, fun e => Decidable.byContradiction fun h => this.1 h e⟩
    · rw [d4]
      rcases hq with rfl | rfl
      · exact ⟨fun h => h.elim id fun h => (e4 y).2 (.inr h), .inl⟩
      · rw [e4]

/-- These files were validated (without local references) and built, one after the other, each with the hash maps iterated in some orders; the jobs are what the validations gave. -/
inductive Facade.Files (E : Env) (S : Serde) : Facade → List (List Line × (Nat → Order) × SetOrder) → List Job → Facade → Prop
  | none {f : Facade} : Files E S f [] [] f
  | more {f g h : Facade} {ls : List Line} {Os : Nat → Order} {O : SetOrder} {b : Build} {rest : List (List Line × (Nat → Order) × SetOrder)} {js : List Job} :
      f.validatePlain E S Os ls = .ok b → (f.build E S O b : Res Str _) = .ok g → Files E S g rest js h → Files E S f ((ls, Os, O) :: rest) (⟨.none, b, O⟩ :: js) h

theorem Facade.Files.stored {E : Env} {S : Serde} {f h : Facade} {fs : List (List Line × (Nat → Order) × SetOrder)} {js : List Job}
    (hf : Facade.Files E S f fs js h) : foldRes (Facade.store E S) f js = .ok h := by
  induction hf with
  | none => rfl
  | more _ hb _ ih => exact Res.bind_eq_ok.2 ⟨_, hb, ih⟩

/-- a validation without local references depends on the cache only -/
theorem validatePlain_cache {E : Env} {S : Serde} {f f' : Facade} (h : f'.cache = f.cache) (Os : Nat → Order) (ls : List Line) :
    f'.validatePlain E S Os ls = f.validatePlain E S Os ls := by
  unfold Facade.validatePlain
  rw [h]

theorem store_cache {E : Env} {S : Serde} {j : Job} {f g f' g' : Facade} (h : f.store E S j = .ok g) (h' : f'.store E S j = .ok g') (hc : f'.cache = f.cache) :
    g'.cache = g.cache := by
  obtain ⟨W, a, b⟩ := store_again h h'
  rw [a.cache, b.cache, (Facade.writes_parts _ W).2.2.2.1, (Facade.writes_parts _ W).2.2.2.1, hc]

theorem Facade.Files.replay {E : Env} {S : Serde} {f h : Facade} {fs : List (List Line × (Nat → Order) × SetOrder)} {js : List Job}
    (hf : Facade.Files E S f fs js h) : ∀ {f' h' : Facade}, f'.cache = f.cache → foldRes (Facade.store E S) f' js = .ok h' → Facade.Files E S f' fs js h' := by
  induction hf with
  | none =>
    intro f' h' _ e
    cases e
    exact .none
  | more hv hb _ ih =>
    intro f' h' hc e
    obtain ⟨g', e1, e⟩ := Res.bind_eq_ok.1 (show Res.bind _ _ = _ from e)
    exact .more ((validatePlain_cache hc _ _).trans hv) e1 (ih (store_cache (j := ⟨Option.none, _, _⟩) hb e1 hc) e)

/-- **C87** The cache is lost, and perhaps the database or the tables are too: validating and building the same files again, in the same order (with the hash maps iterated as they were), gives
the same builds, every FROM finding its base again, and brings everything back. -/
theorem C87_files (E : Env) (hE : E.ShortSaids) (S : Serde) (fs : List (List Line × (Nat → Order) × SetOrder)) (js : List Job) (f f' : Facade)
    (h : Facade.Files E S Facade.new fs js f) (hj : Jobs E [js]) (hl : f.Loses f') (hc : f'.cache = Store.new) :
    ∃ g, Facade.Files E S f' fs js g ∧ g.bundles = f.bundles ∧ g.bases = f.bases ∧ g.fts = f.fts ∧ f.SameRecorded g ∧
      ∀ x, (∀ t, x ≠ metaKey t) → ∃ r r', explore f.db x = .ok r ∧ explore g.db x = .ok r' ∧ (r' = none ↔ r = none) ∧ ∀ y, y ∈ r'.getD [] ↔ y ∈ r.getD [] := by
  obtain ⟨g, hg, rest⟩ := C87_restored E hE S js hj f f' h.stored hl
  exact ⟨g, h.replay hc hg, rest⟩

/-! ## What is given until then -/

/-- **C87** The cache is lost: every bundle is reported as not found, and so is every object; what `explore` gives, the names and the listings stay. But where the history is still recorded,
asking for it aborts instead of giving an error; a search that found anything aborts; and a FROM is passed over: a file that starts with it is taken as the same
file without it, and so builds another bundle, or fails for another reason. -/
theorem C87_cache_lost (E : Env) (S : Serde) (f f' : Facade) (hf : f' = { f with cache := Store.new }) :
    (∀ s, ∃ e, fetchBundle E S f'.cache s = .err e) ∧ (∀ s, ∃ e, f'.getObject E S s = .err e) ∧
    (∀ fuel O s, ∃ e, fetchWithDeps E S O f'.cache (fuel + 1) s = some (.err e)) ∧
    (∀ x, explore f'.db x = explore f.db x) ∧ (∀ n, f'.db.get .references n = f.db.get .references n) ∧
    (∀ limit page, f'.fetchAllBundles E S limit page = f.fetchAllBundles E S limit page) ∧
    (∀ limit page, f'.fetchAllBases E S limit page = f.fetchAllBases E S limit page) ∧
    (∀ fuel s l, E.validSaid s = true → f.steps E S fuel s = some (.ok l) → f'.steps E S fuel s = some .panic) ∧
    (∀ {ε : Type} (F : Fts) (R : Rx) lang q limit page r, (f.search E S F R lang q limit page : Res ε _) = .ok r → r.records ≠ [] →
      (f'.search E S F R lang q limit page : Res ε _) = .panic) ∧
    (∀ (Os : Nat → Order) (s : Said) (pre post : List Line), (∀ x ∈ pre, x.Quiet) → ∀ raw, (∀ raw o, Line.instr raw (.ok ⟨.«from», o⟩) ∉ post) → ∀ g b,
      (f'.validate E S Os (pre ++ .instr raw (.ok ⟨.«from», .ocaBundle (.said s)⟩) :: post) = .ok (g, b) ↔
        f'.validate E S Os (pre ++ .comment :: post) = .ok (g, b))) := by
  subst hf
  have fetch : ∀ s, fetchBundle E S Store.new s = .err [c!"No OCA Bundle found for said: " ++ s] := fun s => rfl
  refine ⟨fun s => ⟨_, fetch s⟩, fun s => ⟨_, rfl⟩, fun fuel O s => ⟨_, rfl⟩, fun _ => rfl, fun _ => rfl, fun _ _ => rfl, fun _ _ => rfl, ?_, ?_, ?_⟩
  · intro fuel s l hv h
    cases fuel with
    | zero => cases h
    | succ n =>
      unfold Facade.steps stepsLoop at h ⊢
      cases ho : extractOperation E S f.db s with
      | err e => rw [ho] at h; cases h
      | panic => rfl
      | ok p =>
        rw [ho] at h
        obtain ⟨parent, c⟩ := p
        simp only at h ⊢
        by_cases e : parent = s
        · rw [if_pos e] at h; cases h
        · rw [if_neg e, if_neg (by simp [hv]), fetch]
  · intro ε F R lang q limit page r h hr
    unfold Facade.search at h ⊢
    obtain ⟨x, hx, h⟩ := Res.bind_eq_ok.1 (show Res.bind _ _ = _ from h)
    obtain ⟨bs, hbs, h⟩ := Res.bind_eq_ok.1 (show Res.bind _ _ = _ from h)
    cases h
    show Res.bind (ftsSearch E F R f.fts lang q limit page) _ = _
    rw [hx]
    show Res.bind (Facade.searchRecords E S _ (x.1.map (·.said))) _ = _
    cases hs : x.1 with
    | nil => rw [hs] at hr; exact absurd (by simp) hr
    | cons a t => rfl
  · intro Os s pre post hq raw hpost g b
    exact C41_unknown_base E S _ s rfl Os pre post hq raw hpost g b

/-- **C87** The database is lost: every bundle is given as before, and so are the listings and the searches. There is no history of any bundle, which is reported as an error, and neither names nor
relations are known; and asking for a single object, which the cache still has, aborts, since its kind is not known. -/
theorem C87_db_lost (E : Env) (S : Serde) (f f' : Facade) (hf : f' = { f with db := Store.new }) :
    (∀ s, fetchBundle E S f'.cache s = fetchBundle E S f.cache s) ∧ (∀ O fuel s, fetchWithDeps E S O f'.cache fuel s = fetchWithDeps E S O f.cache fuel s) ∧
    (∀ limit page, f'.fetchAllBundles E S limit page = f.fetchAllBundles E S limit page) ∧
    (∀ limit page, f'.fetchAllBases E S limit page = f.fetchAllBases E S limit page) ∧
    (∀ {ε : Type} (F : Fts) (R : Rx) lang q limit page, (f'.search E S F R lang q limit page : Res ε _) = f.search E S F R lang q limit page) ∧
    (∀ fuel s, ∃ e, f'.steps E S (fuel + 1) s = some (.err e)) ∧ (∀ fuel s, ∃ e, f'.bundleAst E S (fuel + 1) s = some (.err e)) ∧
    (∀ x, explore f'.db x = .ok none) ∧ (∀ n, (f'.db.findRefn n : Res VErr _) = .ok none) ∧
    (∀ s r, f.getObject E S s = .ok r → f'.getObject E S s = .panic) := by
  subst hf
  refine ⟨fun _ => rfl, fun _ _ _ => rfl, fun _ _ => rfl, fun _ _ => rfl, ?_, fun _ _ => ⟨_, rfl⟩, fun _ _ => ⟨_, rfl⟩, fun _ => rfl, fun _ => rfl, ?_⟩
  · intro ε F R lang q limit page
    have hr : ∀ l, (Facade.searchRecords (ε := ε) E S { f with db := Store.new } l) = Facade.searchRecords E S f l := by
      intro l
      induction l with
      | nil => rfl
      | cons s t ih => unfold Facade.searchRecords; rw [ih]
    unfold Facade.search
    simp only [hr]
  · intro s r h
    unfold Facade.getObject at h ⊢
    cases hc : f.cache.get .objectsJson s with
    | err e => rw [hc] at h; cases h
    | panic => rfl
    | ok o =>
      cases o with
      | none => rw [hc] at h; cases h
      | some b =>
        show (Res.unwrap (fromUtf8 b)).bind _ = _
        cases fromUtf8 b <;> rfl

/-- **C87** The tables are lost: only the listings and the searches change, and are empty. Bundles, objects, histories, relations and names are given as before, and a file validates
as before. -/
theorem C87_tables_lost (E : Env) (S : Serde) (f f' : Facade) (hf : f' = { f with bundles := [], bases := [], fts := [] }) :
    (∀ s, fetchBundle E S f'.cache s = fetchBundle E S f.cache s) ∧ (∀ s, f'.getObject E S s = f.getObject E S s) ∧
    (∀ fuel s, f'.steps E S fuel s = f.steps E S fuel s) ∧ (∀ x, explore f'.db x = explore f.db x) ∧
    (∀ n, (f'.db.findRefn n : Res VErr _) = f.db.findRefn n) ∧
    (∀ (Os : Nat → Order) ls b, (∃ g, f'.validate E S Os ls = .ok (g, b)) ↔ ∃ g, f.validate E S Os ls = .ok (g, b)) ∧
    (∀ limit page, page ≠ 0 → limit < 9223372036854775808 → (page - 1) * limit < 9223372036854775808 →
      f'.fetchAllBundles E S limit page = .ok ([], 0) ∧ f'.fetchAllBases E S limit page = .ok ([], 0)) ∧
    (∀ {ε : Type} (F : Fts) (R : Rx) lang q limit page, (f'.search E S F R lang q limit page : Res ε _) = .panic ∨
      (f'.search E S F R lang q limit page : Res ε _) = .ok ⟨[], 0, page⟩) := by
  subst hf
  refine ⟨fun _ => rfl, fun _ => rfl, fun fuel s => ?_, fun _ => rfl, fun _ => rfl, ?_, ?_, ?_⟩
  · exact stepsLoop_recorded (f := f) (g := { f with bundles := [], bases := [], fts := [] }) ⟨fun _ _ _ => rfl, fun _ _ => rfl⟩ E S fuel s []
  · have key : ∀ f f' : Facade, f'.db = f.db → f'.cache = f.cache → ∀ (Os : Nat → Order) ls b g, f.validate E S Os ls = .ok (g, b) →
        ∃ g, f'.validate E S Os ls = .ok (g, b) := by
      intro f f' h1 h2 Os ls b g h
      unfold Facade.validate at h ⊢
      rw [h1, h2]
      obtain ⟨ast, e1, h⟩ := Res.bind_eq_ok.1 (show Res.bind _ _ = _ from h)
      obtain ⟨⟨base, ast'⟩, e2, h⟩ := Res.bind_eq_ok.1 (show Res.bind _ _ = _ from h)
      obtain ⟨⟨db, b'⟩, e3, h⟩ := Res.bind_eq_ok.1 (show Res.bind _ _ = _ from h)
      cases h
      refine ⟨_, Res.bind_eq_ok.2 ⟨ast, e1, Res.bind_eq_ok.2 ⟨(base, ast'), e2, Res.bind_eq_ok.2 ⟨(db, b), e3, rfl⟩⟩⟩⟩
    exact fun Os ls b => ⟨fun ⟨g, h⟩ => key { f with bundles := [], bases := [], fts := [] } f rfl rfl Os ls b g h,
      fun ⟨g, h⟩ => key f { f with bundles := [], bases := [], fts := [] } rfl rfl Os ls b g h⟩
  · intro limit page h1 h2 h3
    have hp : ∀ {ε : Type}, (fetchPage [] limit page : Res ε _) = .ok [] := by
      intro ε
      unfold fetchPage
      rw [if_neg (by omega)]
      rfl
    refine ⟨?_, ?_⟩
    · show fetchAll _ [] limit page = _
      unfold fetchAll
      rw [hp]
      rfl
    · show fetchAll _ [] limit page = _
      unfold fetchAll
      rw [hp]
      rfl
  · intro ε F R lang q limit page
    unfold Facade.search ftsSearch
    split
    · exact .inl rfl
    · simp only
      cases F.hits (ftsQuery lang q) [] with
      | none => exact .inl rfl
      | some hit => exact .inr rfl

end OCA
