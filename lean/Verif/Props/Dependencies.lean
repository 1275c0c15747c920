import Verif.Props.FileExamples
/-!
# C38: a bundle with its dependencies
-/
namespace OCA

/-! ## Specification -/

/-- The bundle fetched for `s` has an attribute whose type is a reference to `t`, or an array of such references. -/
def RefersTo (E : Env) (S : Serde) (cache : Store) (s t : Said) : Prop :=
  ∃ b n, fetchBundle E S cache s = .ok b ∧
    (b.captureBase.attributes.get n = some (.ref (.said t)) ∨ b.captureBase.attributes.get n = some (.arr (.ref (.said t))))

/-- one or more references away -/
inductive DependsOn (E : Env) (S : Serde) (cache : Store) : Said → Said → Prop
  | direct {s t : Said} : RefersTo E S cache s t → DependsOn E S cache s t
  | trans {s t u : Said} : RefersTo E S cache s t → DependsOn E S cache t u → DependsOn E S cache s u

theorem DependsOn.append {E : Env} {S : Serde} {cache : Store} {s t u : Said} (h : DependsOn E S cache s t)
    (h' : DependsOn E S cache t u) : DependsOn E S cache s u := by
  induction h with
  | direct h => exact .trans h h'
  | trans h _ ih => exact .trans h (ih h')

/-! ## Lemmas -/

theorem mem_bundleRefs {O : Order} {s : Said} {m : FMap NAttr} {t : Said} :
    t ∈ bundleRefs (O.iter 0 [s] m) ↔ ∃ n, m.get n = some (.ref (.said t)) ∨ m.get n = some (.arr (.ref (.said t))) := by
  unfold bundleRefs
  rw [List.mem_filterMap]
  constructor
  · rintro ⟨⟨n, a⟩, hp, h⟩
    have hg : m.get n = some a := FMap.get_eq_some_iff.2 ((O.perm 0 [s] m).mem_iff.1 hp)
    refine ⟨n, ?_⟩
    rw [hg]
    dsimp only at h
    split at h
    · cases h; exact .inl rfl
    · cases h; exact .inr rfl
    · cases h
  · rintro ⟨n, h | h⟩
    · exact ⟨(n, _), (O.perm 0 [s] m).mem_iff.2 (FMap.get_eq_some_iff.1 h), rfl⟩
    · exact ⟨(n, _), (O.perm 0 [s] m).mem_iff.2 (FMap.get_eq_some_iff.1 h), rfl⟩

theorem refersTo_iff {E : Env} {S : Serde} {O : Order} {cache : Store} {s t : Said} {b : Bundle}
    (h : fetchBundle E S cache s = .ok b) :
    RefersTo E S cache s t ↔ t ∈ bundleRefs (O.iter 0 [s] b.captureBase.attributes) := by
  rw [mem_bundleRefs]
  constructor
  · rintro ⟨b', n, h1, h2⟩
    rw [h] at h1
    cases h1
    exact ⟨n, h2⟩
  · rintro ⟨n, h2⟩
    exact ⟨b, n, h, h2⟩

/-- What the loop over the references returns. -/
theorem collectDeps_ok {α : Type} {get : Said → Option (Res (List Str) (α × List α))} {l : List Said} {ds : List α}
    (h : collectDeps get l = some (.ok ds)) :
    (∀ s ∈ l, ∃ b d, get s = some (.ok (b, d))) ∧
    ∀ x, x ∈ ds ↔ ∃ s ∈ l, ∃ b d, get s = some (.ok (b, d)) ∧ (x = b ∨ x ∈ d) := by
  induction l generalizing ds with
  | nil =>
    cases h
    exact ⟨fun s hs => (by cases hs), fun x => ⟨fun hx => (by cases hx), fun ⟨s, hs, _⟩ => (by cases hs)⟩⟩
  | cons s t ih =>
    rw [collectDeps] at h
    split at h
    · cases h
    · cases h
    · cases h
    · next b d hg =>
      split at h
      · next r hr =>
        cases h
        obtain ⟨i1, i2⟩ := ih hr
        refine ⟨?_, ?_⟩
        · intro u hu
          rcases List.mem_cons.1 hu with rfl | hu
          · exact ⟨b, d, hg⟩
          · exact i1 u hu
        · intro x
          simp only [List.mem_cons, List.mem_append, i2]
          constructor
          · rintro (rfl | hx | ⟨u, hu, b', d', e, hx⟩)
            · exact ⟨s, .inl rfl, x, d, hg, .inl rfl⟩
            · exact ⟨s, .inl rfl, b, d, hg, .inr hx⟩
            · exact ⟨u, .inr hu, b', d', e, hx⟩
          · rintro ⟨u, rfl | hu, b', d', e, hx⟩
            · rw [hg] at e
              cases e
              rcases hx with rfl | hx
              · exact .inl rfl
              · exact .inr (.inl hx)
            · exact .inr (.inr ⟨u, hu, b', d', e, hx⟩)
      · next hr => exact absurd h (hr ds)

theorem fetchWithDeps_ok {E : Env} {S : Serde} {O : Order} {cache : Store} {fuel : Nat} {s : Said} {b : Bundle}
    {ds : List Bundle} (h : fetchWithDeps E S O cache (fuel + 1) s = some (.ok (b, ds))) :
    fetchBundle E S cache s = .ok b ∧
    collectDeps (fetchWithDeps E S O cache fuel) (bundleRefs (O.iter 0 [s] b.captureBase.attributes)) = some (.ok ds) := by
  rw [fetchWithDeps] at h
  split at h
  · cases h
  · cases h
  · next b' hb =>
    split at h
    · cases h
    · next ds' hd => cases h; exact ⟨hb, hd⟩
    · cases h
    · cases h

/-! ## All and only -/

/-- **C38** If fetching with dependencies succeeds, it returns the bundle, and its dependencies are exactly the bundles
stored under the identifiers it refers to, directly or through other bundles; all of these are there. -/
theorem C38_all_and_only (E : Env) (S : Serde) (O : Order) (cache : Store) (fuel : Nat) (s : Said) (b : Bundle)
    (ds : List Bundle) (h : fetchWithDeps E S O cache fuel s = some (.ok (b, ds))) :
    fetchBundle E S cache s = .ok b ∧
    (∀ x, x ∈ ds ↔ ∃ t, DependsOn E S cache s t ∧ fetchBundle E S cache t = .ok x) ∧
    (∀ t, DependsOn E S cache s t → ∃ x, fetchBundle E S cache t = .ok x) := by
  induction fuel generalizing s b ds with
  | zero => cases h
  | succ n ih =>
    obtain ⟨hb, hd⟩ := fetchWithDeps_ok h
    obtain ⟨c1, c2⟩ := collectDeps_ok hd
    refine ⟨hb, ?_, ?_⟩
    · intro x
      rw [c2]
      constructor
      · rintro ⟨t, ht, b', d, e, hx⟩
        have hst : RefersTo E S cache s t := (refersTo_iff hb).2 ht
        obtain ⟨i1, i2, -⟩ := ih t b' d e
        rcases hx with rfl | hx
        · exact ⟨t, .direct hst, i1⟩
        · obtain ⟨u, hu, hx⟩ := (i2 x).1 hx
          exact ⟨u, .trans hst hu, hx⟩
      · rintro ⟨t, ht, hx⟩
        cases ht with
        | direct hst =>
          have hm := (refersTo_iff (O := O) hb).1 hst
          obtain ⟨b', d, e⟩ := c1 t hm
          obtain ⟨i1, -, -⟩ := ih t b' d e
          rw [hx] at i1
          cases i1
          exact ⟨t, hm, x, d, e, .inl rfl⟩
        | @trans _ u _ hst hu =>
          have hm := (refersTo_iff (O := O) hb).1 hst
          obtain ⟨b', d, e⟩ := c1 u hm
          obtain ⟨-, i2, -⟩ := ih u b' d e
          exact ⟨u, hm, b', d, e, .inr ((i2 x).2 ⟨t, hu, hx⟩)⟩
    · intro t ht
      cases ht with
      | direct hst =>
        obtain ⟨b', d, e⟩ := c1 t ((refersTo_iff (O := O) hb).1 hst)
        exact ⟨b', (ih t b' d e).1⟩
      | @trans _ u _ hst hu =>
        obtain ⟨b', d, e⟩ := c1 u ((refersTo_iff (O := O) hb).1 hst)
        exact (ih u b' d e).2.2 t hu

/-- **C38** A dependency that is missing, direct or not: fetching never succeeds. -/
theorem C38_missing_never_ok (E : Env) (S : Serde) (O : Order) (cache : Store) (s t : Said)
    (ht : DependsOn E S cache s t) (hm : ∀ x, fetchBundle E S cache t ≠ .ok x) (fuel : Nat) (r : Bundle × List Bundle) :
    fetchWithDeps E S O cache fuel s ≠ some (.ok r) := by
  intro h
  obtain ⟨x, hx⟩ := (C38_all_and_only E S O cache fuel s r.1 r.2 h).2.2 t ht
  exact hm x hx

/-! ## Termination -/

/-- a chain of `n` references -/
inductive RefChain (E : Env) (S : Serde) (cache : Store) : Said → List Said → Prop
  | nil (s : Said) : RefChain E S cache s []
  | cons {s t : Said} {l : List Said} : RefersTo E S cache s t → RefChain E S cache t l → RefChain E S cache s (t :: l)

theorem collectDeps_none {α : Type} {get : Said → Option (Res (List Str) (α × List α))} {l : List Said}
    (h : collectDeps get l = none) : ∃ s ∈ l, get s = none := by
  induction l with
  | nil => cases h
  | cons s t ih =>
    rw [collectDeps] at h
    split at h
    · next hg => exact ⟨s, .head _, hg⟩
    · cases h
    · cases h
    · split at h
      · cases h
      · obtain ⟨u, hu, e⟩ := ih h
        exact ⟨u, .tail _ hu, e⟩

/-- If `n` rounds are not enough there is a chain of `n` references. -/
theorem fetchWithDeps_none {E : Env} {S : Serde} {O : Order} {cache : Store} {fuel : Nat} {s : Said}
    (h : fetchWithDeps E S O cache fuel s = none) : ∃ l, RefChain E S cache s l ∧ l.length = fuel := by
  induction fuel generalizing s with
  | zero => exact ⟨[], .nil s, rfl⟩
  | succ n ih =>
    rw [fetchWithDeps] at h
    split at h
    · cases h
    · cases h
    · next b hb =>
      split at h
      · next hd =>
        obtain ⟨t, ht, e⟩ := collectDeps_none hd
        obtain ⟨l, hl, hn⟩ := ih e
        exact ⟨t :: l, .cons ((refersTo_iff hb).2 ht) hl, by rw [List.length_cons, hn]⟩
      · cases h
      · cases h
      · cases h

/-- the identifiers of the stored bundles -/
def storedBundles (cache : Store) : List Str := match FMap.get cache c!"oca_bundles_json" with
  | some m => m.l.map (·.1)
  | none => []

theorem stored_of_fetch {E : Env} {S : Serde} {cache : Store} {s : Said} {b : Bundle} (h : fetchBundle E S cache s = .ok b) :
    s ∈ storedBundles cache := by
  unfold fetchBundle at h
  unfold storedBundles
  unfold Store.get at h
  cases hm : FMap.get cache c!"oca_bundles_json" with
  | none =>
    have : FMap.get cache Namespace.bundlesJson.str = none := hm
    rw [this] at h; cases h
  | some m =>
    have : FMap.get cache Namespace.bundlesJson.str = some m := hm
    rw [this] at h
    dsimp only at h ⊢
    cases hg : m.get s with
    | none => rw [hg] at h; cases h
    | some v => exact List.mem_map.2 ⟨(s, v), FMap.get_eq_some_iff.1 hg, rfl⟩

theorem length_le_of_nodup_subset {α : Type} [DecidableEq α] : ∀ (l k : List α), l.Nodup → (∀ x ∈ l, x ∈ k) → l.length ≤ k.length
  | [], _, _, _ => Nat.zero_le _
  | a :: t, k, hn, h => by
    rw [List.nodup_cons] at hn
    have hk : a ∈ k := h a (.head _)
    have := length_le_of_nodup_subset t (k.erase a) hn.2 (fun x hx => (List.mem_erase_of_ne (fun e => hn.1 (by subst e; exact hx))).2
      (h x (.tail _ hx)))
    rw [List.length_erase_of_mem hk] at this
    have : 0 < k.length := List.length_pos_of_mem hk
    rw [List.length_cons]
    omega

/-- nothing that `s` depends on, nor `s`, depends on itself -/
def NoCycle (E : Env) (S : Serde) (cache : Store) (s : Said) : Prop :=
  ∀ t, (t = s ∨ DependsOn E S cache s t) → ¬ DependsOn E S cache t t

theorem NoCycle.next {E : Env} {S : Serde} {cache : Store} {s t : Said} (h : NoCycle E S cache s)
    (hst : RefersTo E S cache s t) : NoCycle E S cache t := by
  intro u hu
  refine h u (.inr ?_)
  rcases hu with rfl | hu
  · exact .direct hst
  · exact .trans hst hu

theorem RefChain.depends {E : Env} {S : Serde} {cache : Store} {s : Said} {l : List Said} (h : RefChain E S cache s l) :
    ∀ t ∈ l, DependsOn E S cache s t := by
  induction h with
  | nil s => intro t ht; cases ht
  | cons hst _ ih =>
    intro u hu
    rcases List.mem_cons.1 hu with rfl | hu
    · exact .direct hst
    · exact .trans hst (ih u hu)

theorem RefChain.nodup {E : Env} {S : Serde} {cache : Store} {s : Said} {l : List Said} (h : RefChain E S cache s l)
    (hc : NoCycle E S cache s) : (s :: l).Nodup := by
  induction h with
  | nil s => simp
  | @cons s t l hst hl ih =>
    rw [List.nodup_cons]
    refine ⟨?_, ih (hc.next hst)⟩
    intro hm
    exact hc s (.inl rfl) ((RefChain.cons hst hl).depends s hm)

theorem RefChain.stored {E : Env} {S : Serde} {cache : Store} {s : Said} {l : List Said} (h : RefChain E S cache s l) :
    ∀ t ∈ (s :: l).dropLast, t ∈ storedBundles cache := by
  induction h with
  | nil s => intro t ht; cases ht
  | @cons s t l hst hl ih =>
    intro u hu
    rw [List.dropLast_cons_cons] at hu
    rcases List.mem_cons.1 hu with rfl | hu
    · obtain ⟨b, _, hb, -⟩ := hst
      exact stored_of_fetch hb
    · exact ih u hu

/-- **C38** Where no bundle depends on itself the fetch ends: more rounds than there are stored bundles are never needed. -/
theorem C38_terminates (E : Env) (S : Serde) (O : Order) (cache : Store) (s : Said) (hc : NoCycle E S cache s) (fuel : Nat)
    (hf : (storedBundles cache).length < fuel) : fetchWithDeps E S O cache fuel s ≠ none := by
  intro h
  obtain ⟨l, hl, hn⟩ := fetchWithDeps_none h
  have h1 := hl.nodup hc
  have h2 := length_le_of_nodup_subset _ _ (h1.sublist (List.dropLast_sublist _)) hl.stored
  rw [List.length_dropLast, List.length_cons] at h2
  omega

/-! ## The outcome -/

theorem collectDeps_err {α : Type} {get : Said → Option (Res (List Str) (α × List α))} {l : List Said} {e : List Str}
    (h : collectDeps get l = some (.err e)) : ∃ s ∈ l, get s = some (.err e) := by
  induction l with
  | nil => cases h
  | cons s t ih =>
    rw [collectDeps] at h
    split at h
    · cases h
    · next e' hg => cases h; exact ⟨s, .head _, hg⟩
    · cases h
    · split at h
      · cases h
      · obtain ⟨u, hu, e⟩ := ih h
        exact ⟨u, .tail _ hu, e⟩

theorem collectDeps_panic {α : Type} {get : Said → Option (Res (List Str) (α × List α))} {l : List Said}
    (h : collectDeps get l = some .panic) : ∃ s ∈ l, get s = some .panic := by
  induction l with
  | nil => cases h
  | cons s t ih =>
    rw [collectDeps] at h
    split at h
    · cases h
    · cases h
    · next hg => exact ⟨s, .head _, hg⟩
    · split at h
      · cases h
      · obtain ⟨u, hu, e⟩ := ih h
        exact ⟨u, .tail _ hu, e⟩

/-- An error comes from the bundle itself or from one it depends on. -/
theorem fetchWithDeps_err {E : Env} {S : Serde} {O : Order} {cache : Store} {fuel : Nat} {s : Said} {e : List Str}
    (h : fetchWithDeps E S O cache fuel s = some (.err e)) :
    ∃ t, (t = s ∨ DependsOn E S cache s t) ∧ fetchBundle E S cache t = .err e := by
  induction fuel generalizing s with
  | zero => cases h
  | succ n ih =>
    rw [fetchWithDeps] at h
    split at h
    · next e' hb => cases h; exact ⟨s, .inl rfl, hb⟩
    · cases h
    · next b hb =>
      split at h
      · cases h
      · cases h
      · next e' hd =>
        cases h
        obtain ⟨t, ht, he⟩ := collectDeps_err hd
        have hst : RefersTo E S cache s t := (refersTo_iff hb).2 ht
        obtain ⟨u, hu, hx⟩ := ih he
        refine ⟨u, .inr ?_, hx⟩
        rcases hu with rfl | hu
        · exact .direct hst
        · exact .trans hst hu
      · cases h

theorem fetchWithDeps_panic {E : Env} {S : Serde} {O : Order} {cache : Store} {fuel : Nat} {s : Said}
    (h : fetchWithDeps E S O cache fuel s = some .panic) :
    ∃ t, (t = s ∨ DependsOn E S cache s t) ∧ fetchBundle E S cache t = .panic := by
  induction fuel generalizing s with
  | zero => cases h
  | succ n ih =>
    rw [fetchWithDeps] at h
    split at h
    · cases h
    · next hb => exact ⟨s, .inl rfl, hb⟩
    · next b hb =>
      split at h
      · cases h
      · cases h
      · cases h
      · next hd =>
        obtain ⟨t, ht, he⟩ := collectDeps_panic hd
        have hst : RefersTo E S cache s t := (refersTo_iff hb).2 ht
        obtain ⟨u, hu, hx⟩ := ih he
        refine ⟨u, .inr ?_, hx⟩
        rcases hu with rfl | hu
        · exact .direct hst
        · exact .trans hst hu

/-- **C38** On a facade with any past, for a bundle that no cycle is reachable from: if everything it depends on is there,
fetching it with dependencies returns it with all and only those; otherwise the error names a missing identifier it
depends on (or its own). -/
theorem C38_fetch_with_dependencies (E : Env) (S : Serde) (O : Order) (f : Facade) (hf : Facade.Runs E S f) (s : Said)
    (hc : NoCycle E S f.cache s) (fuel : Nat) (hfuel : (storedBundles f.cache).length < fuel) :
    ((∀ t, (t = s ∨ DependsOn E S f.cache s t) → t ∈ storedBundles f.cache) ∧
      ∃ b ds, fetchWithDeps E S O f.cache fuel s = some (.ok (b, ds)) ∧ fetchBundle E S f.cache s = .ok b ∧
        ∀ x, x ∈ ds ↔ ∃ t, DependsOn E S f.cache s t ∧ fetchBundle E S f.cache t = .ok x) ∨
    ∃ t, (t = s ∨ DependsOn E S f.cache s t) ∧ t ∉ storedBundles f.cache ∧
      fetchWithDeps E S O f.cache fuel s = some (.err [c!"No OCA Bundle found for said: " ++ t]) := by
  cases h : fetchWithDeps E S O f.cache fuel s with
  | none => exact absurd h (C38_terminates E S O f.cache s hc fuel hfuel)
  | some r =>
    cases r with
    | ok r =>
      obtain ⟨b, ds⟩ := r
      left
      obtain ⟨h1, h2, h3⟩ := C38_all_and_only E S O f.cache fuel s b ds h
      refine ⟨?_, b, ds, rfl, h1, h2⟩
      rintro t (rfl | ht)
      · exact stored_of_fetch h1
      · obtain ⟨x, hx⟩ := h3 t ht
        exact stored_of_fetch hx
    | err e =>
      right
      obtain ⟨t, ht, he⟩ := fetchWithDeps_err h
      rcases hf.kept.fetch t with ⟨b', h1, -⟩ | ⟨hn, h1⟩
      · rw [h1] at he; cases he
      · rw [h1] at he
        cases he
        refine ⟨t, ht, ?_, rfl⟩
        intro hm
        unfold storedBundles at hm
        unfold Store.get at hn
        cases hg : FMap.get f.cache c!"oca_bundles_json" with
        | none => rw [hg] at hm; cases hm
        | some m =>
          have : FMap.get f.cache Namespace.bundlesJson.str = some m := hg
          rw [hg] at hm
          rw [this] at hn
          obtain ⟨⟨k, v⟩, hp, e⟩ := List.mem_map.1 hm
          cases e
          dsimp only at hn
          rw [FMap.get_eq_some_iff.2 hp] at hn
          cases hn
    | panic =>
      obtain ⟨t, ht, he⟩ := fetchWithDeps_panic h
      rcases hf.kept.fetch t with ⟨b', h1, -⟩ | ⟨-, h1⟩ <;> (rw [h1] at he; cases he)

/-- Where references are not followed: the type of an attribute is nested in two or more arrays. If every reference of a
bundle is like that, no dependency is fetched, whether it is there or not. -/
theorem C38_nested_not_followed (E : Env) (S : Serde) (O : Order) (cache : Store) (s : Said) (b : Bundle)
    (hb : fetchBundle E S cache s = .ok b)
    (hn : ∀ n t, b.captureBase.attributes.get n = some t → (∃ x, t = .val x) ∨ t = .null ∨ 2 ≤ t.arrays) (fuel : Nat) :
    fetchWithDeps E S O cache (fuel + 1) s = some (.ok (b, [])) := by
  have : bundleRefs (O.iter 0 [s] b.captureBase.attributes) = [] := by
    apply List.eq_nil_iff_forall_not_mem.2
    intro t ht
    obtain ⟨n, h | h⟩ := mem_bundleRefs.1 ht
    · rcases hn n _ h with ⟨x, e⟩ | e | e
      · cases e
      · cases e
      · exact absurd e (by show ¬ 2 ≤ 0; decide)
    · rcases hn n _ h with ⟨x, e⟩ | e | e
      · cases e
      · cases e
      · exact absurd e (by show ¬ 2 ≤ 1; decide)
  rw [fetchWithDeps, hb]
  dsimp only
  rw [this]
  rfl

/-! ## Example -/

/-- building two files, the second with a reference to the result of the first -/
def refFiles : Res (List VErr) (Facade × Facade × Build × Facade × Facade × Build) := do
  let (f1, b1) ← Facade.new.validate Env.short Serde.text (fun _ => Order.sorted) (fileOf [addAttrs [(c!"a", .val .text)]])
  let f2 ← f1.build Env.short Serde.text .kept b1
  let s ← Res.unwrap b1.bundle.said
  let (f3, b2) ← f2.validate Env.short Serde.text (fun _ => Order.sorted)
    (fileOf [addAttrs [(c!"x", .ref (.said s)), (c!"y", .val .text)]])
  let f4 ← f3.build Env.short Serde.text .kept b2
  pure (f1, f2, b1, f3, f4, b2)

/-- what a computation shows of them -/
def refFilesTest : Bool := match refFiles with
  | .ok (_, _, b1, _, _, b2) => match b1.steps, b2.steps with
    | [x], [y] => decide (b1.bundle.said = some c!"Eriodozdwnspb") && decide (x.result.said = some c!"Eriodozdwnspb") && decide (y.result.said ≠ some c!"Eriodozdwnspb") &&
      y.result.said.isSome &&
      decide (x.result.captureBase.attributes.l.map (·.1) = [c!"a"]) &&
      (match y.result.captureBase.attributes.l with
        | [(_, .ref (.said t)), (_, .val .text)] => decide (t = c!"Eriodozdwnspb")
        | _ => false) &&
      (match x.result.captureBase.attributes.l with
        | [(_, .val .text)] => true
        | _ => false)
    | _, _ => false
  | _ => false

theorem attrs_keepable (l : List (Str × NAttr)) (hd : (l.map (·.1)).Nodup) (E : Env)
    (hp : ∀ p ∈ l, p.2.wf E ∧ p.2.arrays ≤ 124) (hj : (addAttrs l).toJson.depth < 128) : (addAttrs l).Keepable E := by
  refine ⟨⟨?_, ?_, ?_⟩, ⟨?_, ?_⟩, hj, ?_⟩
  · intro cc l' e1 e2
    cases e1; cases e2; exact fun p h => (hp p h).1
  · intro t cc l e; cases e
  · intro t cc l e; cases e
  · intro l' e; cases e; exact ⟨hd, fun p h => (hp p h).1⟩
  · intro l' e; cases e
  · intro cc l' e1 e2
    cases e1; cases e2
    exact fun p h => (hp p h).2

/-- the commands of a file without FROM and names -/
theorem validate_commands {E : Env} {S : Serde} {Os : Nat → Order} {f f' : Facade} {cs : List Command} {b : Build}
    (h : f.validate E S Os (fileOf cs) = .ok (f', b)) {ast : OCAAst} (hp : parseLines (fileOf cs) = .ok ast)
    (hc : ast.commands = cs) (hn : ast.NoBase) (hd : derefCommands E f.db.findRefn cs = .ok cs) :
    b.steps.map (·.command) = cs := by
  obtain ⟨ast0, base, ast', cs', e1, e2, e3, e4, -⟩ := validate_parts h
  rw [hp] at e1
  cases e1
  rw [checkBase_noBase hn] at e2
  cases e2
  rw [hc, hd] at e3
  cases e3
  obtain ⟨_, _, -, -, -, -, hcs, -⟩ := C12_successful_build _ _ none _ b e4
  exact hcs

/-- The hypotheses of C38 are met: two bundles built by files, one referring to the other; fetching it with its
dependencies gives the other. -/
theorem C38_example : ∃ f s1 s2 b1 b2, Facade.Runs Env.short Serde.text f ∧ s1 ≠ s2 ∧
    NoCycle Env.short Serde.text f.cache s2 ∧ RefersTo Env.short Serde.text f.cache s2 s1 ∧
    fetchBundle Env.short Serde.text f.cache s1 = .ok b1 ∧
    fetchWithDeps Env.short Serde.text .sorted f.cache 2 s2 = some (.ok (b2, [b1])) := by
  have htest : refFilesTest = true := by decide +kernel
  unfold refFilesTest at htest
  split at htest
  rotate_left
  · cases htest
  next f1 f2 b1 f3 f4 b2 hr =>
  split at htest
  rotate_left
  · cases htest
  next x y hx hy =>
  simp only [Bool.and_eq_true, decide_eq_true_eq, Option.isSome_iff_exists] at htest
  obtain ⟨⟨⟨⟨⟨⟨t0, t1⟩, t2⟩, s2, t3⟩, t4⟩, t5⟩, t6⟩ := htest
  unfold refFiles at hr
  obtain ⟨⟨g1, c1⟩, e1, hr⟩ := Res.bind_eq_ok.1 (show Res.bind _ _ = _ from hr)
  obtain ⟨g2, e2, hr⟩ := Res.bind_eq_ok.1 (show Res.bind _ _ = _ from hr)
  obtain ⟨s, e3, hr⟩ := Res.bind_eq_ok.1 (show Res.bind _ _ = _ from hr)
  obtain ⟨⟨g3, c2⟩, e4, hr⟩ := Res.bind_eq_ok.1 (show Res.bind _ _ = _ from hr)
  obtain ⟨g4, e5, hr⟩ := Res.bind_eq_ok.1 (show Res.bind _ _ = _ from hr)
  cases hr
  rw [t0] at e3
  cases e3
  have hc1 : b1.steps.map (·.command) = [addAttrs [(c!"a", .val .text)]] :=
    validate_commands e1 (ast := _) rfl rfl (fun _ h => by cases h) rfl
  have hc2 : b2.steps.map (·.command) = [addAttrs [(c!"x", .ref (.said c!"Eriodozdwnspb")), (c!"y", .val .text)]] :=
    validate_commands e4 (ast := _) rfl rfl (fun _ h => by cases h) rfl
  have hk1 : ∀ st ∈ b1.steps, st.command.Keepable Env.short := by
    intro st hst
    have : st.command ∈ b1.steps.map (·.command) := List.mem_map_of_mem hst
    rw [hc1, List.mem_singleton] at this
    rw [this]; exact addA_keepable
  have hk2 : ∀ st ∈ b2.steps, st.command.Keepable Env.short := by
    intro st hst
    have : st.command ∈ b2.steps.map (·.command) := List.mem_map_of_mem hst
    rw [hc2, List.mem_singleton] at this
    rw [this]
    refine attrs_keepable _ (by decide) _ ?_ (by decide)
    intro p hp
    simp only [List.mem_cons, List.not_mem_nil, or_false] at hp
    rcases hp with rfl | rfl
    · exact ⟨rfl, by decide⟩
    · exact ⟨trivial, by decide⟩
  have r2 : Facade.Runs Env.short Serde.text f2 := .built .new e1 hk1 e2
  have r4 : Facade.Runs Env.short Serde.text f4 := .built r2 e4 hk2 e5
  have hx1 : ∀ st ∈ b1.steps, st.Readable Env.short := readable_of (validate_keeps (Facade.Runs.kept .new) e1 hk1).1
  have hy1 : ∀ st ∈ b2.steps, st.Readable Env.short := readable_of (validate_keeps r2.kept e4 hk2).1
  -- the records
  obtain ⟨sx, hX⟩ := (build_records e2).2 (by rw [hx]; simp) x (by rw [hx]; simp)
  have := hX.said
  rw [t1] at this
  cases this
  obtain ⟨sy, hY⟩ := (build_records e5).2 (by rw [hy]; simp) y (by rw [hy]; simp)
  have := hY.said
  rw [t3] at this
  cases this
  obtain ⟨_, _, _, _, -, -, -, -, hcache, -⟩ := validate_parts e4
  have hX' : f4.cache.get .bundlesJson c!"Eriodozdwnspb" = .ok (some (utf8 (Serde.text.print (x.result.toJson Env.short)))) := by
    rw [((build_records e5).1 c!"Eriodozdwnspb" (by
      rw [hy, List.map_cons, List.map_nil, List.mem_singleton]
      exact fun e => t2 e.symm)).2, hcache]
    exact hX.bundle
  have rx := hx1 x (by rw [hx]; simp)
  have ry := hy1 y (by rw [hy]; simp)
  obtain ⟨bx, fx, -, -, ex⟩ := fetchBundle_eq Env.short Serde.text f4.cache x.result _ hX' rx.result rx.types
  obtain ⟨by_, fy, -, -, ey⟩ := fetchBundle_eq Env.short Serde.text f4.cache y.result _ hY.bundle ry.result ry.types
  have ax : bx.captureBase.attributes = x.result.captureBase.attributes := by rw [ex]
  have ay : by_.captureBase.attributes = y.result.captureBase.attributes := by rw [ey]
  have nx : bundleRefs (Order.sorted.iter 0 [c!"Eriodozdwnspb"] bx.captureBase.attributes) = [] := by
    rw [ax]
    show bundleRefs x.result.captureBase.attributes.l = []
    split at t6
    · next n hl => rw [hl]; rfl
    · cases t6
  have ny : bundleRefs (Order.sorted.iter 0 [s2] by_.captureBase.attributes) = [c!"Eriodozdwnspb"] := by
    rw [ay]
    show bundleRefs y.result.captureBase.attributes.l = _
    split at t5
    · next n t m hl =>
      rw [hl, of_decide_eq_true t5]; rfl
    · cases t5
  have d1 : ∀ t, ¬ RefersTo Env.short Serde.text f4.cache c!"Eriodozdwnspb" t := by
    intro t h
    rw [refersTo_iff (O := .sorted) fx, nx] at h
    cases h
  have d2 : ∀ t, RefersTo Env.short Serde.text f4.cache s2 t → t = c!"Eriodozdwnspb" := by
    intro t h
    rw [refersTo_iff (O := .sorted) fy, ny, List.mem_singleton] at h
    exact h
  have d1' : ∀ t, ¬ DependsOn Env.short Serde.text f4.cache c!"Eriodozdwnspb" t := by
    intro t h
    cases h with
    | direct h => exact d1 _ h
    | trans h _ => exact d1 _ h
  have d2' : ∀ t, DependsOn Env.short Serde.text f4.cache s2 t → t = c!"Eriodozdwnspb" := by
    intro t h
    cases h with
    | direct h => exact d2 _ h
    | trans h h' => rw [d2 _ h] at h'; exact absurd h' (d1' _)
  have hne : c!"Eriodozdwnspb" ≠ s2 := fun e => t2 (by rw [t3, e])
  refine ⟨f4, c!"Eriodozdwnspb", s2, bx, by_, r4, hne, ?_, ?_, fx, ?_⟩
  · rintro t (rfl | ht) h
    · exact hne (d2' _ h).symm
    · rw [d2' _ ht] at h
      exact d1' _ h
  · rw [refersTo_iff (O := .sorted) fy, ny]
    exact .head _
  · rw [fetchWithDeps, fy]
    dsimp only
    rw [ny]
    simp only [collectDeps]
    rw [fetchWithDeps, fx]
    dsimp only
    rw [nx]
    rfl

end OCA
