import Verif.Props.StoredBuild
import Verif.Props.ToAstFull
/-!
# C29, exactly: which bundles built from scratch are loaded back from their JSON

Specification: the two defects a bundle can have.
-/
namespace OCA

/-- no META overlay has a pair named like a member that every overlay has -/
def Bundle.NoReservedPair (b : Bundle) : Prop :=
  ∀ o ∈ b.overlays, ∀ l ps, o.body = .metaOv l ps → ∀ k ∈ [c!"d", c!"capture_base", c!"type", c!"language"], ps.get k = none

/-- the groups of grouped entry codes are in the order of their names -/
def Bundle.GroupsInOrder (b : Bundle) : Prop :=
  ∀ o ∈ b.overlays, ∀ m, o.body = .entryCode m → ∀ n g, m.get n = some (.object g) → g.Pairwise fun x y => Str.lt x.1 y.1 = true

/-! ## What is loaded -/

theorem allSome_mem {α β : Type} {f : α → Option β} {l : List α} {r : List β} (h : allSome f l = some r) {b : β} (hb : b ∈ r) :
    ∃ a ∈ l, f a = some b := by
  induction l generalizing r with
  | nil => cases h; cases hb
  | cons a t ih =>
    simp only [allSome] at h
    cases ha : f a with
    | none => rw [ha] at h; cases h
    | some x =>
      rw [ha] at h
      cases ht : allSome f t with
      | none => rw [ht] at h; cases h
      | some r' =>
        rw [ht] at h
        cases h
        rcases List.mem_cons.1 hb with rfl | hb
        · exact ⟨a, .head _, ha⟩
        · obtain ⟨a', h1, h2⟩ := ih ht hb
          exact ⟨a', .tail _ h1, h2⟩

theorem loadGroups_mem {ε : Type} {E : Env} {l : List (Str × Json)} {r : List Overlay} (h : (loadGroups E l : Res ε _) = .ok r) {o : Overlay}
    (ho : o ∈ r) : ∃ j, Overlay.ofJson E j = some o := by
  induction l generalizing r with
  | nil => cases h; cases ho
  | cons p t ih =>
    obtain ⟨a, h1, h2⟩ := Res.bind_eq_ok.1 (show Res.bind _ _ = _ from h)
    obtain ⟨b, h3, h4⟩ := Res.bind_eq_ok.1 (show Res.bind _ _ = _ from h2)
    cases h4
    rcases List.mem_append.1 ho with ho | ho
    · unfold loadGroup at h1
      split at h1
      · rename_i l _
        cases hs : allSome (Overlay.ofJson E) l with
        | none => rw [hs] at h1; cases h1
        | some r =>
          rw [hs] at h1
          cases h1
          obtain ⟨j, -, hj⟩ := allSome_mem hs ho
          exact ⟨j, hj⟩
      · rename_i l _
        cases hs : Overlay.ofJson E (.obj l) with
        | none => rw [hs] at h1; cases h1
        | some r =>
          rw [hs] at h1
          cases h1
          rw [List.mem_singleton] at ho
          subst ho
          exact ⟨_, hs⟩
      · cases h1; cases ho
    · exact ih h3 ho

theorem overlay_ofJson_body {E : Env} {j : Json} {o : Overlay} (h : Overlay.ofJson E j = some o) :
    ∃ m k, OvBody.ofJson E m k = some o.body := by
  unfold Overlay.ofJson at h
  split at h
  · dsimp only at h
    split at h
    · cases h
    · split at h
      · cases h
      · split at h
        · cases h
        · rename_i t _ _ _ _ _ _ _
          obtain ⟨b, hb, rfl⟩ := Option.map_eq_some_iff.1 h
          exact ⟨_, _, hb⟩
  · cases h

/-- a map read from JSON has only keys of the JSON object, with values read from there -/
theorem jMap_get {V : Type} {f : Json → Option V} {j : Json} {m : FMap V} (h : jMap f j = some m) {k : Str} {v : V}
    (hk : m.get k = some v) : ∃ l x, j = .obj l ∧ (k, x) ∈ l ∧ f x = some v := by
  unfold jMap at h
  split at h
  · rename_i l
    split at h
    · cases h
    · rename_i r hr
      cases h
      have hm : (k, v) ∈ r := by
        have := FMap.mem_of_lastVal (show FMap.lastVal r k = some v from ?_)
        · exact this
        · unfold FMap.ofList at hk
          rw [FMap.get_insertAll] at hk
          cases hl : FMap.lastVal r k with
          | none => rw [hl] at hk; cases hk
          | some w => rw [hl] at hk; exact hk
      obtain ⟨p, hp, hf⟩ := allSome_mem hr hm
      obtain ⟨w, hw, e⟩ := Option.map_eq_some_iff.1 hf
      cases e
      have hg : (FMap.ofList l).get p.1 = some p.2 := FMap.get_eq_some_iff.2 hp
      unfold FMap.ofList at hg
      rw [FMap.get_insertAll] at hg
      have : (p.1, p.2) ∈ l := by
        apply FMap.mem_of_lastVal
        cases hl : FMap.lastVal l p.1 with
        | none => rw [hl] at hg; cases hg
        | some w => rw [hl] at hg; exact hg
      exact ⟨l, p.2, rfl, this, hw⟩
  · cases h

theorem loaded_meta {E : Env} {m : FMap Json} {k : OvKind} {l : Lang} {ps : FMap Str} (h : OvBody.ofJson E m k = some (.metaOv l ps)) :
    ∀ r ∈ metaReserved, ps.get r = none := by
  intro r hr
  cases hg : ps.get r with
  | none => rfl
  | some v =>
    exfalso
    unfold OvBody.ofJson at h
    cases k <;> dsimp only at h
    case metaOv =>
      split at h
      · cases h
      · obtain ⟨ps', hp, e⟩ := Option.map_eq_some_iff.1 h
        cases e
        obtain ⟨L, x, e, hm, -⟩ := jMap_get hp hg
        cases e
        have := (List.mem_filter.1 hm).2
        simp only [decide_eq_true_eq] at this
        exact this hr
    all_goals
      first
      | (cases h; done)
      | (obtain ⟨_, _, e⟩ := Option.map_eq_some_iff.1 h; cases e; done)
      | (split at h
         · cases h
         · first
           | (obtain ⟨_, _, e⟩ := Option.map_eq_some_iff.1 h; cases e; done)
           | (split at h
              · cases h
              · split at h
                · cases h
                · obtain ⟨_, _, e⟩ := Option.map_eq_some_iff.1 h; cases e))

theorem loaded_codes {E : Env} {m : FMap Json} {k : OvKind} {cs : FMap EntryCodes} (h : OvBody.ofJson E m k = some (.entryCode cs)) :
    ∀ n g, cs.get n = some (.object g) → SortedKeys g := by
  intro n g hg
  unfold OvBody.ofJson at h
  cases k <;> dsimp only at h
  case entryCode =>
    obtain ⟨cs', hc, e⟩ := Option.map_eq_some_iff.1 h
    cases e
    unfold jField at hc
    obtain ⟨j, -, hc⟩ := Option.bind_eq_some_iff.1 hc
    obtain ⟨L, x, -, -, hx⟩ := jMap_get hc hg
    unfold jEntryCodes at hx
    split at hx
    · cases hx
    · obtain ⟨_, _, e⟩ := Option.map_eq_some_iff.1 hx; cases e
    · obtain ⟨w, _, e⟩ := Option.map_eq_some_iff.1 hx
      cases e
      exact w.sorted
    · cases hx
  all_goals
    first
    | (cases h; done)
    | (obtain ⟨_, _, e⟩ := Option.map_eq_some_iff.1 h; cases e; done)
    | (split at h
       · cases h
       · first
         | (obtain ⟨_, _, e⟩ := Option.map_eq_some_iff.1 h; cases e; done)
         | (split at h
            · cases h
            · split at h
              · cases h
              · obtain ⟨_, _, e⟩ := Option.map_eq_some_iff.1 h; cases e))

theorem AttrJson.wf {E : Env} {j : Json} {a : NAttr} (h : AttrJson E j a) : a.wf E := by
  induction h with
  | ref r h => exact h
  | arr j rest a _ ih => exact ih
  | _ => trivial

theorem loaded_types {E : Env} {l : List (Str × Json)} {m m' : FMap NAttr} (h : attrsOfJsonList E m l = .ok m')
    (hm : ∀ n t, m.get n = some t → t.wf E) : ∀ n t, m'.get n = some t → t.wf E := by
  induction l generalizing m with
  | nil => cases h; exact hm
  | cons p t ih =>
    simp only [attrsOfJsonList] at h
    split at h
    · rename_i a ha
      refine ih h ?_
      intro n t hg
      rw [FMap.get_insert] at hg
      split at hg
      · cases hg
        exact ((C08_attribute_type_json_spec E _ _).1 ha).wf
      · exact hm n t hg
    · cases h
    · cases h

theorem loaded_base {E : Env} {j : Json} {c : CaptureBase} (h : CaptureBase.ofJson E j = .ok c) :
    ∀ n t, c.attributes.get n = some t → t.wf E := by
  unfold CaptureBase.ofJson at h
  split at h
  · obtain ⟨_, -, h⟩ := Res.bind_eq_ok.1 (show Res.bind _ _ = _ from h)
    obtain ⟨_, -, h⟩ := Res.bind_eq_ok.1 (show Res.bind _ _ = _ from h)
    obtain ⟨_, -, h⟩ := Res.bind_eq_ok.1 (show Res.bind _ _ = _ from h)
    obtain ⟨_, -, h⟩ := Res.bind_eq_ok.1 (show Res.bind _ _ = _ from h)
    obtain ⟨as, -, h⟩ := Res.bind_eq_ok.1 (show Res.bind _ _ = _ from h)
    dsimp only at h
    cases as with
    | obj as =>
      dsimp only at h
      obtain ⟨m, hm, h⟩ := Res.bind_eq_ok.1 (show Res.bind _ _ = _ from h)
      obtain ⟨_, -, h⟩ := Res.bind_eq_ok.1 (show Res.bind _ _ = _ from h)
      obtain ⟨_, -, h⟩ := Res.bind_eq_ok.1 (show Res.bind _ _ = _ from h)
      obtain ⟨_, -, h⟩ := Res.bind_eq_ok.1 (show Res.bind _ _ = _ from h)
      obtain ⟨_, -, h⟩ := Res.bind_eq_ok.1 (show Res.bind _ _ = _ from h)
      cases h
      exact loaded_types hm (fun _ _ e => by cases e)
    | _ => cases h
  · cases h

theorem loaded_bundle {E : Env} {j : Json} {b : Bundle} (h : Bundle.ofJson E j = .ok b) :
    (∀ n t, b.captureBase.attributes.get n = some t → t.wf E) ∧ ∀ o ∈ b.overlays, ∃ m k, OvBody.ofJson E m k = some o.body := by
  unfold Bundle.ofJson at h
  split at h
  · obtain ⟨_, -, h⟩ := Res.bind_eq_ok.1 (show Res.bind _ _ = _ from h)
    obtain ⟨_, -, h⟩ := Res.bind_eq_ok.1 (show Res.bind _ _ = _ from h)
    obtain ⟨_, -, h⟩ := Res.bind_eq_ok.1 (show Res.bind _ _ = _ from h)
    obtain ⟨cb, hcb, h⟩ := Res.bind_eq_ok.1 (show Res.bind _ _ = _ from h)
    obtain ⟨ovs, -, h⟩ := Res.bind_eq_ok.1 (show Res.bind _ _ = _ from h)
    obtain ⟨os, hos, h⟩ := Res.bind_eq_ok.1 (show Res.bind _ _ = _ from h)
    cases h
    refine ⟨loaded_base hcb, ?_⟩
    intro o ho
    unfold overlaysOfJson at hos
    split at hos
    · obtain ⟨j, hj⟩ := loadGroups_mem hos ho
      exact overlay_ofJson_body hj
    · cases hos
  · cases h

/-! ## C29 -/

/-- Whatever is loaded from the JSON of a bundle and has that JSON again shows that the bundle has none of the defects. -/
theorem loaded_same_json {E : Env} {b b' : Bundle} (hs : SinglesOnce b.overlays) (h : Bundle.ofJson E (b.toJson E) = .ok b')
    (hj : b'.toJson E = b.toJson E) :
    (∀ n t, b.captureBase.attributes.get n = some t → t.wf E) ∧ b.NoReservedPair ∧ b.GroupsInOrder := by
  obtain ⟨h1, h2⟩ := loaded_bundle h
  unfold Bundle.toJson versioned Bundle.fieldsWith at hj
  simp only [Json.obj.injEq, List.cons.injEq, Prod.mk.injEq, true_and] at hj
  obtain ⟨-, -, e1, e2, -⟩ := hj
  obtain ⟨-, a1, -, -⟩ := base_of_json e1
  refine ⟨a1 ▸ h1, ?_, ?_⟩
  · intro o ho l ps hb
    obtain ⟨x, hx, hxo⟩ := overlay_in_json hs e2.symm ho
    obtain ⟨-, -, e3, e4⟩ := overlay_of_json hxo
    have hk : x.body.kind = o.body.kind := congrArg OverlayType.kind e3
    rw [hb] at hk e4
    cases hxb : x.body <;> rw [hxb] at hk e4 <;> simp only [OvBody.kind, reduceCtorEq] at hk
    rename_i l' ps'
    simp only [OvBody.fields, List.cons.injEq, Prod.mk.injEq, true_and, Json.str.injEq] at e4
    have hps : ps' = ps := by
      have : ∀ {V : Type} {m m' : FMap V}, m.l = m'.l → m = m' := by
        intro V m m' e
        cases m; cases m'; simp only at e; subst e; rfl
      apply this
      refine map_inj_of_inj ?_ e4.2
      intro a b e
      injection e with e1 e2
      injection e2 with e2
      exact Prod.ext e1 e2
    obtain ⟨m, k, hm⟩ := h2 x hx
    rw [hxb, hps] at hm
    exact loaded_meta hm
  · intro o ho m hb n g hg
    obtain ⟨x, hx, hxo⟩ := overlay_in_json hs e2.symm ho
    obtain ⟨-, -, e3, e4⟩ := overlay_of_json hxo
    have hk : x.body.kind = o.body.kind := congrArg OverlayType.kind e3
    rw [hb] at hk e4
    cases hxb : x.body <;> rw [hxb] at hk e4 <;> simp only [OvBody.kind, reduceCtorEq] at hk
    rename_i m'
    simp only [OvBody.fields, List.cons.injEq, Prod.mk.injEq, true_and, and_true] at e4
    -- the group of the same attribute in the loaded overlay
    have hl : m'.l.map (fun p => (p.1, p.2.toJson)) = m.l.map fun p => (p.1, p.2.toJson) := by
      unfold FMap.toJson at e4
      injection e4
    have hm : (n, EntryCodes.object g) ∈ m.l := FMap.get_eq_some_iff.1 hg
    have hm' : (n, EntryCodes.toJson (.object g)) ∈ m'.l.map fun p => (p.1, p.2.toJson) := by
      rw [hl]
      exact List.mem_map.2 ⟨_, hm, rfl⟩
    obtain ⟨p, hp, e⟩ := List.mem_map.1 hm'
    obtain ⟨n', c⟩ := p
    simp only [Prod.mk.injEq] at e
    obtain ⟨rfl, e⟩ := e
    have hc : c = .object g := by
      cases c with
      | sai s => cases e
      | array l => cases e
      | object g' =>
        simp only [EntryCodes.toJson, Json.obj.injEq] at e
        congr 1
        refine map_inj_of_inj ?_ e
        intro a b e
        injection e with e1 e2
        exact Prod.ext e1 (strsJson_inj _ _ e2)
    subst hc
    obtain ⟨m0, k, hm0⟩ := h2 x hx
    rw [hxb] at hm0
    exact loaded_codes hm0 n' g (FMap.get_eq_some_iff.2 hp)

theorem FromScratch.stor {E : Env} {b : OCABox} (h : FromScratch E b) : StorBox E False b := by
  induction h with
  | new => exact ⟨fun _ _ h => (by cases h), fun _ _ _ h => (by cases h)⟩
  | step b b' c _ ha ih => exact ih.applyCommand E False b b' c (fun h => h.elim) ha

/-- **C29** For every bundle built from scratch by any history of accepted commands: writing it as JSON and loading that gives a
bundle with the same JSON if and only if every reference among its attribute types is well formed, no META pair is named `d`,
`capture_base`, `type` or `language`, and the groups of grouped entry codes are in the order of their names. -/
theorem C29_loads_back_iff {ε : Type} (E : Env) (O : Order) (box : OCABox) (hr : FromScratch E box) (b : Bundle)
    (h : (generateBundle E O box : Res ε _) = .ok b) :
    (∃ b', Bundle.ofJson E (b.toJson E) = .ok b' ∧ b'.toJson E = b.toJson E) ↔
      (∀ n t, b.captureBase.attributes.get n = some t → t.wf E) ∧ b.NoReservedPair ∧ b.GroupsInOrder := by
  constructor
  · rintro ⟨b', h1, h2⟩
    exact loaded_same_json (C21_generated_singles E O box hr.reachable b h).2 h1 h2
  · rintro ⟨h1, h2, h3⟩
    obtain ⟨-, rfl⟩ := generateBundle_eq_ok h
    obtain ⟨b', j1, j2, -⟩ := C29_json_round_trip E _ (hr.stor.storable_of hr.reachable O h1 h2 h3)
    exact ⟨b', j1, j2⟩

/-- The demo history meets the hypothesis and the condition ... -/
example : FromScratch Env.demo demoBox ∧ demoBundle.NoReservedPair ∧ demoBundle.GroupsInOrder := by
  refine ⟨runAll_scratch _ _ _ _ .new demo_run, ?_, ?_⟩
  all_goals
    obtain ⟨b', h1, h2, -⟩ := C29_history_round_trip (ε := Str) _ _ _ demo_storable _ demo_generated
    have := (C29_loads_back_iff (ε := Str) Env.demo Order.sorted demoBox (runAll_scratch _ _ _ _ .new demo_run) _ demo_generated).1 ⟨b', h1, h2⟩
  · exact this.2.1
  · exact this.2.2

/-- ... and a history with a META pair called `type` meets the hypothesis and not the condition. -/
example : ∃ box, FromScratch Env.demo box ∧ ¬ (bundleOf Env.demo Order.sorted box).NoReservedPair := by
  refine ⟨_, runAll_scratch Env.demo typedMetaCommands _ _ .new rfl, ?_⟩
  intro h
  have := h _ (List.mem_cons_self ..) c!"eng" (FMap.ofList [(c!"type", c!"report")]) rfl c!"type" (by decide)
  exact absurd this (by decide)

end OCA
