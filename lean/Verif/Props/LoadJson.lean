import Verif.Props.BundleJson
import Verif.Props.CommandJson
import Verif.Demo
/-!
# C59: loading any JSON document

What is true of a bundle loaded from an arbitrary JSON document, and which documents are refused or abort.
-/
namespace OCA

/-! ## Members -/

/-- the values of the members named `k` -/
def valuesOf (k : Str) (l : List (Str × Json)) : List Json := (l.filter fun p => decide (p.1 = k)).map (·.2)

theorem member_ok {k : Str} {l : List (Str × Json)} {v : Json} : member k l = .ok v ↔ valuesOf k l = [v] := by
  unfold member valuesOf
  cases h : l.filter fun p => decide (p.1 = k) with
  | nil => simp
  | cons p t =>
    cases t with
    | nil => simp
    | cons q t => simp

theorem memberOpt_ok {k : Str} {l : List (Str × Json)} {v : Option Json} :
    memberOpt k l = .ok v ↔ valuesOf k l = v.toList := by
  unfold memberOpt valuesOf
  cases h : l.filter fun p => decide (p.1 = k) with
  | nil => cases v <;> simp
  | cons p t =>
    cases t with
    | nil => cases v <;> simp
    | cons q t => cases v <;> simp

theorem member_ne_panic (k : Str) (l : List (Str × Json)) : member k l ≠ .panic := by
  unfold member; split <;> simp

theorem memberOpt_ne_panic (k : Str) (l : List (Str × Json)) : memberOpt k l ≠ .panic := by
  unfold memberOpt; split <;> simp

theorem orErr_ok {α : Type} {o : Option α} {a : α} : orErr o = .ok a ↔ o = some a := by
  cases o <;> simp [orErr]

theorem orErr_ne_panic {α : Type} (o : Option α) : orErr o ≠ .panic := by
  cases o <;> simp [orErr]

theorem structMembers_some {names : List Str} {j : Json} {l : List (Str × Json)} (h : structMembers names j = some l) :
    j = .obj l ∨ ∃ vs, j = .arr vs ∧ vs.length = names.length ∧ l = names.zip vs := by
  cases j with
  | obj l' => cases h; exact .inl rfl
  | arr vs =>
    unfold structMembers at h
    dsimp only at h
    split at h
    · next hv => cases h; exact .inr ⟨vs, rfl, hv, rfl⟩
    · cases h
  | _ => cases h

/-- What a successful load of a bundle read. -/
theorem bundle_ofJson_parts {E : Env} {j : Json} {b : Bundle} : Bundle.ofJson E j = .ok b ↔
    ∃ l d cb ovs, structMembers bundleMembers j = some l ∧ valuesOf c!"d" l = Option.toList d ∧ jSaid E d = some b.said ∧
      valuesOf c!"capture_base" l = [cb] ∧ CaptureBase.ofJson E cb = .ok b.captureBase ∧
      valuesOf c!"overlays" l = [ovs] ∧ overlaysOfJson E ovs = .ok b.overlays := by
  constructor
  · intro h
    unfold Bundle.ofJson at h
    split at h
    · next l hl =>
      obtain ⟨d, h1, h⟩ := Res.bind_eq_ok.1 (show Res.bind _ _ = _ from h)
      obtain ⟨s, h2, h⟩ := Res.bind_eq_ok.1 (show Res.bind _ _ = _ from h)
      obtain ⟨cb, h3, h⟩ := Res.bind_eq_ok.1 (show Res.bind _ _ = _ from h)
      obtain ⟨c, h4, h⟩ := Res.bind_eq_ok.1 (show Res.bind _ _ = _ from h)
      obtain ⟨o, h5, h⟩ := Res.bind_eq_ok.1 (show Res.bind _ _ = _ from h)
      obtain ⟨os, h6, h⟩ := Res.bind_eq_ok.1 (show Res.bind _ _ = _ from h)
      cases h
      exact ⟨l, d, cb, o, hl, memberOpt_ok.1 h1, orErr_ok.1 h2, member_ok.1 h3, h4, member_ok.1 h5, h6⟩
    · cases h
  · rintro ⟨l, d, cb, ovs, hl, h1, h2, h3, h4, h5, h6⟩
    unfold Bundle.ofJson
    rw [hl]
    exact Res.bind_eq_ok.2 ⟨_, memberOpt_ok.2 h1, Res.bind_eq_ok.2 ⟨_, orErr_ok.2 h2, Res.bind_eq_ok.2 ⟨_, member_ok.2 h3,
      Res.bind_eq_ok.2 ⟨_, h4, Res.bind_eq_ok.2 ⟨_, member_ok.2 h5, Res.bind_eq_ok.2 ⟨_, h6, rfl⟩⟩⟩⟩⟩⟩

/-- What a successful load of a capture base read. -/
theorem captureBase_ofJson_parts {E : Env} {j : Json} {c : CaptureBase} : CaptureBase.ofJson E j = .ok c ↔
    ∃ l d ty as cl fl, structMembers baseMembers j = some l ∧ valuesOf c!"d" l = Option.toList d ∧ jSaid E d = some c.said ∧
      valuesOf c!"type" l = [ty] ∧ jStr ty = some c.schemaType ∧
      valuesOf c!"attributes" l = [.obj as] ∧ attrsOfJsonList E FMap.empty as = .ok c.attributes ∧
      valuesOf c!"classification" l = [cl] ∧ jStr cl = some c.classification ∧
      valuesOf c!"flagged_attributes" l = [fl] ∧ jStrs fl = some c.flagged := by
  constructor
  · intro h
    unfold CaptureBase.ofJson at h
    split at h
    · next l hl =>
      obtain ⟨d, h1, h⟩ := Res.bind_eq_ok.1 (show Res.bind _ _ = _ from h)
      obtain ⟨s, h2, h⟩ := Res.bind_eq_ok.1 (show Res.bind _ _ = _ from h)
      obtain ⟨ty, h3, h⟩ := Res.bind_eq_ok.1 (show Res.bind _ _ = _ from h)
      obtain ⟨t, h4, h⟩ := Res.bind_eq_ok.1 (show Res.bind _ _ = _ from h)
      obtain ⟨as, h5, h⟩ := Res.bind_eq_ok.1 (show Res.bind _ _ = _ from h)
      cases as with
      | obj as =>
        obtain ⟨a, h6, h⟩ := Res.bind_eq_ok.1 (show Res.bind _ _ = _ from h)
        obtain ⟨cl, h7, h⟩ := Res.bind_eq_ok.1 (show Res.bind _ _ = _ from h)
        obtain ⟨c, h8, h⟩ := Res.bind_eq_ok.1 (show Res.bind _ _ = _ from h)
        obtain ⟨fl, h9, h⟩ := Res.bind_eq_ok.1 (show Res.bind _ _ = _ from h)
        obtain ⟨f, h10, h⟩ := Res.bind_eq_ok.1 (show Res.bind _ _ = _ from h)
        cases h
        exact ⟨l, d, ty, as, cl, fl, hl, memberOpt_ok.1 h1, orErr_ok.1 h2, member_ok.1 h3, orErr_ok.1 h4, member_ok.1 h5, h6,
          member_ok.1 h7, orErr_ok.1 h8, member_ok.1 h9, orErr_ok.1 h10⟩
      | _ =>
        obtain ⟨a, h6, h⟩ := Res.bind_eq_ok.1 (show Res.bind _ _ = _ from h)
        cases h6
    · cases h
  · rintro ⟨l, d, ty, as, cl, fl, hl, h1, h2, h3, h4, h5, h6, h7, h8, h9, h10⟩
    unfold CaptureBase.ofJson
    rw [hl]
    exact Res.bind_eq_ok.2 ⟨_, memberOpt_ok.2 h1, Res.bind_eq_ok.2 ⟨_, orErr_ok.2 h2, Res.bind_eq_ok.2 ⟨_, member_ok.2 h3,
      Res.bind_eq_ok.2 ⟨_, orErr_ok.2 h4, Res.bind_eq_ok.2 ⟨_, member_ok.2 h5, Res.bind_eq_ok.2 ⟨_, h6,
      Res.bind_eq_ok.2 ⟨_, member_ok.2 h7, Res.bind_eq_ok.2 ⟨_, orErr_ok.2 h8, Res.bind_eq_ok.2 ⟨_, member_ok.2 h9,
      Res.bind_eq_ok.2 ⟨_, orErr_ok.2 h10, rfl⟩⟩⟩⟩⟩⟩⟩⟩⟩⟩

/-! ## Overlays -/

/-- the JSON values from which overlays are read -/
def overlayValues : Json → List Json
  | .obj l => l.flatMap fun p => match p.2 with
    | .arr a => a
    | .obj o => [.obj o]
    | _ => []
  | _ => []

theorem allSome_eq_some {α β : Type} {f : α → Option β} : ∀ {l : List α} {r : List β},
    allSome f l = some r ↔ l.map f = r.map some
  | [], r => by cases r <;> simp [allSome]
  | a :: t, r => by
    simp only [allSome]
    cases ha : f a with
    | none => cases r <;> simp [ha]
    | some b =>
      cases ht : allSome f t with
      | none =>
        cases r with
        | nil => simp
        | cons x r =>
          have := allSome_eq_some (f := f) (l := t) (r := r)
          rw [ht] at this
          simp only [List.map_cons, ha, List.cons.injEq, reduceCtorEq, false_iff] at this ⊢
          exact fun h => this h.2
      | some t' =>
        have h' := (allSome_eq_some (f := f) (l := t) (r := t')).1 ht
        cases r with
        | nil => simp
        | cons x r =>
          simp only [List.map_cons, ha, List.cons.injEq, Option.some.injEq, h']
          constructor
          · rintro ⟨rfl, rfl⟩; exact ⟨rfl, rfl⟩
          · rintro ⟨rfl, h⟩; exact ⟨rfl, (List.map_inj_right (fun _ _ h => Option.some.inj h)).1 h⟩

theorem loadGroups_iff {E : Env} {ε : Type} : ∀ {l : List (Str × Json)} {os : List Overlay},
    (loadGroups E l : Res ε _) = .ok os ↔ (overlayValues (.obj l)).map (Overlay.ofJson E) = os.map some
  | [], os => by cases os <;> simp [loadGroups, overlayValues]
  | p :: t, os => by
    have ih := fun os => loadGroups_iff (E := E) (ε := ε) (l := t) (os := os)
    have hg : ∀ g, (loadGroup E p.2 : Res ε _) = .ok g ↔
        (match p.2 with
          | .arr a => a
          | .obj o => [.obj o]
          | _ => []).map (Overlay.ofJson E) = g.map some := by
      intro g
      obtain ⟨k, v⟩ := p
      cases v with
      | arr a =>
        simp only [loadGroup]
        rw [← allSome_eq_some]
        cases allSome (Overlay.ofJson E) a <;> simp [Res.unwrap]
      | obj o =>
        simp only [loadGroup]
        cases ho : Overlay.ofJson E (.obj o) with
        | none => cases g <;> simp [Res.unwrap, ho]
        | some x =>
          cases g with
          | nil => simp [Res.unwrap]
          | cons y g => simp [Res.unwrap, ho]
      | null => cases g <;> simp [loadGroup]
      | bool _ => cases g <;> simp [loadGroup]
      | num _ => cases g <;> simp [loadGroup]
      | str _ => cases g <;> simp [loadGroup]
    have hv : overlayValues (.obj (p :: t)) = (match p.2 with
          | .arr a => a
          | .obj o => [.obj o]
          | _ => []) ++ overlayValues (.obj t) := by
      simp only [overlayValues, List.flatMap_cons]
    rw [hv, List.map_append]
    constructor
    · intro h
      obtain ⟨a, h1, h⟩ := Res.bind_eq_ok.1 (show Res.bind _ _ = _ from h)
      obtain ⟨b, h2, h⟩ := Res.bind_eq_ok.1 (show Res.bind _ _ = _ from h)
      cases h
      rw [(hg a).1 h1, (ih b).1 h2, List.map_append]
    · intro h
      obtain ⟨a, b, rfl, h1, h2⟩ := List.map_eq_append_iff.1 h.symm
      exact Res.bind_eq_ok.2 ⟨a, (hg a).2 h1.symm, Res.bind_eq_ok.2 ⟨b, (ih b).2 h2.symm, rfl⟩⟩

theorem unread_of_panic {E : Env} {ε : Type} {l : List (Str × Json)} (h : (loadGroups E l : Res ε _) = .panic) :
    ∃ v ∈ overlayValues (.obj l), Overlay.ofJson E v = none := by
  apply Classical.byContradiction
  intro hn
  have hs : ∀ v ∈ overlayValues (.obj l), ∃ o, Overlay.ofJson E v = some o := by
    intro v hv
    cases e : Overlay.ofJson E v with
    | none => exact absurd ⟨v, hv, e⟩ hn
    | some o => exact ⟨o, rfl⟩
  have : ∃ os : List Overlay, (overlayValues (.obj l)).map (Overlay.ofJson E) = os.map some := by
    generalize overlayValues (.obj l) = vs at hs
    induction vs with
    | nil => exact ⟨[], rfl⟩
    | cons v vs ih =>
      obtain ⟨o, e⟩ := hs v (List.mem_cons_self ..)
      obtain ⟨os, e'⟩ := ih fun w hw => hs w (List.mem_cons_of_mem _ hw)
      exact ⟨o :: os, by rw [List.map_cons, e, e']; rfl⟩
  obtain ⟨os, e⟩ := this
  rw [loadGroups_iff.2 e] at h
  cases h

theorem loadGroup_ne_err {E : Env} {ε : Type} (j : Json) (e : ε) : (loadGroup E j : Res ε _) ≠ .err e := by
  unfold loadGroup
  split
  · unfold Res.unwrap; split <;> simp
  · unfold Res.unwrap; split <;> simp
  · simp

theorem loadGroups_ne_err {E : Env} {ε : Type} (e : ε) : ∀ (l : List (Str × Json)), (loadGroups E l : Res ε _) ≠ .err e
  | [] => by simp [loadGroups]
  | p :: t => by
    intro h
    have h : Res.bind (loadGroup E p.2) (fun a => Res.bind (loadGroups E t) fun b => .ok (a ++ b)) = .err e := h
    cases h1 : (loadGroup E p.2 : Res ε _) with
    | err e' => exact loadGroup_ne_err _ _ h1
    | panic => rw [h1] at h; cases h
    | ok a =>
      rw [h1] at h
      cases h2 : (loadGroups E t : Res ε _) with
      | err e' => exact loadGroups_ne_err e' t h2
      | panic => rw [h2] at h; cases h
      | ok b => rw [h2] at h; cases h

theorem loadGroups_abort {E : Env} {ε : Type} {l : List (Str × Json)} {v : Json} (hv : v ∈ overlayValues (.obj l))
    (h : Overlay.ofJson E v = none) : (loadGroups E l : Res ε _) = .panic := by
  cases e : (loadGroups E l : Res ε _) with
  | panic => rfl
  | err x => exact absurd e (loadGroups_ne_err x l)
  | ok os =>
    have := loadGroups_iff.1 e
    have hm : Overlay.ofJson E v ∈ (overlayValues (.obj l)).map (Overlay.ofJson E) := List.mem_map_of_mem hv
    rw [this, h] at hm
    simp at hm

/-! ## What a loaded bundle is like -/

theorem jSaid_valid {E : Env} {d : Option Json} {s : Option Said} (h : jSaid E d = some s) :
    ∀ x, s = some x → E.validSaid x = true := by
  rintro x rfl
  unfold jSaid at h
  split at h
  · cases h
  · cases h
  · split at h
    · next hv => cases h; exact hv
    · cases h
  · cases h

/-- **C59** What is true of an overlay read from any JSON value. -/
structure Overlay.LoadedOk (E : Env) (o : Overlay) : Prop where
  said : ∀ s, o.said = some s → E.validSaid s = true
  base : ∀ s, o.captureBase = some s → E.validSaid s = true
  lang : ∀ l, o.body.language = some l → ∃ s, E.langOf s = some l
  noReserved : ∀ l ps, o.body = .metaOv l ps → ∀ k ∈ [c!"d", c!"capture_base", c!"type", c!"language"], ps.get k = none
  groups : ∀ m, o.body = .entryCode m → ∀ n g, m.get n = some (.object g) → SortedKeys g
  standards : ∀ m, o.body = .standard m → ∀ n t, m.get n = some t → E.standardOk t = true ∧ E.lower t = t

theorem mem_of_insertAll_get {V : Type} (l : List (Str × V)) : ∀ (m : FMap V) {k : Str} {v : V},
    (FMap.insertAll m l).get k = some v → m.get k = some v ∨ (k, v) ∈ l := by
  induction l with
  | nil => intro m k v h; exact .inl h
  | cons p t ih =>
    intro m k v h
    rcases ih _ h with h | h
    · rw [FMap.get_insert] at h
      split at h
      · next e => cases h; exact .inr (by rw [e]; exact List.mem_cons_self ..)
      · exact .inl h
    · exact .inr (List.mem_cons_of_mem _ h)

theorem mem_of_ofList_get {V : Type} {l : List (Str × V)} {k : Str} {v : V} (h : (FMap.ofList l).get k = some v) : (k, v) ∈ l := by
  rcases mem_of_insertAll_get l FMap.empty h with h | h
  · cases h
  · exact h

theorem jMapGet_of {V : Type} {f : Json → Option V} {j : Json} {m : FMap V} (h : jMap f j = some m) (k : Str) :
    ∃ l, j = .obj l ∧ ∀ v, m.get k = some v → ∃ x, (FMap.ofList l).get k = some x ∧ f x = some v := by
  unfold jMap at h
  split at h
  · next l =>
    refine ⟨l, rfl, ?_⟩
    split at h
    · cases h
    · next r hr =>
      cases h
      intro v hv
      have hr' := allSome_eq_some.1 hr
      have hmem := mem_of_ofList_get hv
      have hm : some (k, v) ∈ r.map some := List.mem_map_of_mem hmem
      rw [← hr'] at hm
      obtain ⟨p, hp, e⟩ := List.mem_map.1 hm
      cases hf : f p.2 with
      | none => rw [hf] at e; cases e
      | some w =>
        rw [hf] at e
        cases e
        exact ⟨p.2, FMap.get_eq_some_iff.2 hp, hf⟩
  · cases h

theorem jLang_known {E : Env} {m : FMap Json} {l : Lang} (h : jLang E m = some l) : ∃ s, E.langOf s = some l := by
  unfold jLang at h
  obtain ⟨s, -, hs⟩ := Option.bind_eq_some_iff.1 h
  exact ⟨s, hs⟩

theorem jField_some {V : Type} {m : FMap Json} {k : Str} {f : Json → Option V} {v : V} (h : jField m k f = some v) :
    ∃ j, m.get k = some j ∧ f j = some v := Option.bind_eq_some_iff.1 h

theorem jEntryCodes_groups {j : Json} {g : List (Str × List Str)} (h : jEntryCodes j = some (.object g)) : SortedKeys g := by
  unfold jEntryCodes at h
  split at h
  · cases h
  · obtain ⟨x, -, e⟩ := Option.map_eq_some_iff.1 h
    cases e
  · obtain ⟨x, -, e⟩ := Option.map_eq_some_iff.1 h
    cases e
    exact x.sorted
  · cases h

/-- the language of a body read from JSON is known -/
theorem body_lang {E : Env} {m : FMap Json} {k : OvKind} {b : OvBody} (h : OvBody.ofJson E m k = some b) :
    ∀ l, b.language = some l → ∃ s, E.langOf s = some l := by
  intro l hl
  cases k <;> simp only [OvBody.ofJson] at h
  case entry =>
    split at h
    · cases h
    · next hx => obtain ⟨x, -, e⟩ := Option.map_eq_some_iff.1 h; cases e; cases hl; exact jLang_known hx
  case label =>
    split at h
    · cases h
    · next hx =>
      split at h
      · cases h
      · split at h
        · cases h
        · obtain ⟨x, -, e⟩ := Option.map_eq_some_iff.1 h; cases e; cases hl; exact jLang_known hx
  case information =>
    split at h
    · cases h
    · next hx => obtain ⟨x, -, e⟩ := Option.map_eq_some_iff.1 h; cases e; cases hl; exact jLang_known hx
  case metaOv =>
    split at h
    · cases h
    · next hx => obtain ⟨x, -, e⟩ := Option.map_eq_some_iff.1 h; cases e; cases hl; exact jLang_known hx
  all_goals first
    | (obtain ⟨x, -, e⟩ := Option.map_eq_some_iff.1 h; cases e; cases hl)
    | cases h
    | (split at h
       · cases h
       · obtain ⟨x, -, e⟩ := Option.map_eq_some_iff.1 h; cases e; cases hl)

theorem body_meta {E : Env} {m : FMap Json} {k : OvKind} {l : Lang} {ps : FMap Str} (h : OvBody.ofJson E m k = some (.metaOv l ps)) :
    ∀ k ∈ metaReserved, ps.get k = none := by
  intro n hn
  cases k <;> simp only [OvBody.ofJson] at h
  case metaOv =>
    split at h
    · cases h
    · obtain ⟨x, hx, e⟩ := Option.map_eq_some_iff.1 h
      cases e
      cases hg : ps.get n with
      | none => rfl
      | some v =>
        obtain ⟨l', e', hh⟩ := jMapGet_of hx n
        cases e'
        obtain ⟨x, hx, -⟩ := hh v hg
        have := mem_of_ofList_get hx
        simp only [List.mem_filter, decide_eq_true_eq] at this
        exact absurd hn this.2
  case label =>
    split at h
    · cases h
    · split at h
      · cases h
      · split at h
        · cases h
        · obtain ⟨x, -, e⟩ := Option.map_eq_some_iff.1 h; cases e
  all_goals first
    | (obtain ⟨x, -, e⟩ := Option.map_eq_some_iff.1 h; cases e; done)
    | (cases h; done)
    | (split at h
       · cases h
       · obtain ⟨x, -, e⟩ := Option.map_eq_some_iff.1 h; cases e)

theorem body_codes {E : Env} {m : FMap Json} {k : OvKind} {c : FMap EntryCodes} (h : OvBody.ofJson E m k = some (.entryCode c)) :
    ∀ n g, c.get n = some (.object g) → SortedKeys g := by
  intro n g hg
  cases k <;> simp only [OvBody.ofJson] at h
  case entryCode =>
    obtain ⟨x, hx, e⟩ := Option.map_eq_some_iff.1 h
    cases e
    obtain ⟨j, -, hj⟩ := jField_some hx
    obtain ⟨l', e', hh⟩ := jMapGet_of hj n
    obtain ⟨y, -, hy⟩ := hh _ hg
    exact jEntryCodes_groups hy
  case label =>
    split at h
    · cases h
    · split at h
      · cases h
      · split at h
        · cases h
        · obtain ⟨x, -, e⟩ := Option.map_eq_some_iff.1 h; cases e
  all_goals first
    | (obtain ⟨x, -, e⟩ := Option.map_eq_some_iff.1 h; cases e; done)
    | (cases h; done)
    | (split at h
       · cases h
       · obtain ⟨x, -, e⟩ := Option.map_eq_some_iff.1 h; cases e)

theorem standardOf_some {E : Env} {s t : Str} (h : standardOf E s = some t) : E.standardOk t = true ∧ E.lower t = t := by
  unfold standardOf at h
  split at h
  · next hk => cases h; exact ⟨hk, E.lower_lower s⟩
  · cases h

theorem body_standards {E : Env} {m : FMap Json} {k : OvKind} {c : FMap Str} (h : OvBody.ofJson E m k = some (.standard c)) :
    ∀ n t, c.get n = some t → E.standardOk t = true ∧ E.lower t = t := by
  intro n g hg
  cases k <;> simp only [OvBody.ofJson] at h
  case standard =>
    obtain ⟨x, hx, e⟩ := Option.map_eq_some_iff.1 h
    cases e
    obtain ⟨j, -, hj⟩ := jField_some hx
    obtain ⟨l', e', hh⟩ := jMapGet_of hj n
    obtain ⟨y, -, hy⟩ := hh _ hg
    obtain ⟨s, -, hs⟩ := Option.bind_eq_some_iff.1 hy
    exact standardOf_some hs
  case label =>
    split at h
    · cases h
    · split at h
      · cases h
      · split at h
        · cases h
        · obtain ⟨x, -, e⟩ := Option.map_eq_some_iff.1 h; cases e
  all_goals first
    | (obtain ⟨x, -, e⟩ := Option.map_eq_some_iff.1 h; cases e; done)
    | (cases h; done)
    | (split at h
       · cases h
       · obtain ⟨x, -, e⟩ := Option.map_eq_some_iff.1 h; cases e)

theorem overlay_loaded {E : Env} {j : Json} {o : Overlay} (h : Overlay.ofJson E j = some o) : o.LoadedOk E := by
  unfold Overlay.ofJson at h
  split at h
  · dsimp only at h
    split at h
    · cases h
    · split at h
      · cases h
      · next d hd =>
        split at h
        · cases h
        · next cb hcb =>
          obtain ⟨b, hb, e⟩ := Option.map_eq_some_iff.1 h
          cases e
          refine ⟨jSaid_valid hd, jSaid_valid hcb, body_lang hb, ?_, ?_, ?_⟩
          rotate_right
          · rintro c rfl; exact body_standards hb
          · rintro l ps rfl; exact body_meta hb
          · rintro c rfl; exact body_codes hb
  · cases h

theorem NAttr.ofJson_wf {E : Env} : ∀ {j : Json} {t : NAttr}, NAttr.ofJson E j = .ok t → t.wf E
  | .null, t, h => by cases h; trivial
  | .str s, t, h => by
    simp only [NAttr.ofJson] at h
    split at h
    · split at h
      · next r hr => cases h; exact (((C07_reference_parse_spec E s).1 r).1 hr).2
      · cases h
      · cases h
    · split at h
      · cases h; trivial
      · cases h
  | .arr [], t, h => by simp [NAttr.ofJson] at h
  | .arr (j :: l), t, h => by
    simp only [NAttr.ofJson] at h
    split at h
    · next a ha => cases h; show a.wf E; exact NAttr.ofJson_wf (j := j) ha
    · cases h
    · cases h
  | .bool _, t, h => by simp [NAttr.ofJson] at h
  | .num _, t, h => by simp [NAttr.ofJson] at h
  | .obj _, t, h => by simp [NAttr.ofJson] at h

theorem attrs_loaded {E : Env} : ∀ {l : List (Str × Json)} {m r : FMap NAttr}, attrsOfJsonList E m l = .ok r →
    ∀ n t, r.get n = some t → m.get n = some t ∨ ∃ j, (n, j) ∈ l ∧ NAttr.ofJson E j = .ok t
  | [], m, r, h, n, t, ht => by cases h; exact .inl ht
  | p :: l, m, r, h, n, t, ht => by
    simp only [attrsOfJsonList] at h
    split at h
    · next a ha =>
      rcases attrs_loaded h n t ht with h' | ⟨j, hj, e⟩
      · rw [FMap.get_insert] at h'
        split at h'
        · next e => cases h'; exact .inr ⟨p.2, by rw [e]; exact List.mem_cons_self .., ha⟩
        · exact .inl h'
      · exact .inr ⟨j, List.mem_cons_of_mem _ hj, e⟩
    · cases h
    · cases h

/-- **C59** What is true of a bundle loaded from any JSON document: all its identifiers, those inside attribute types included,
are well formed, its languages are known ones, and its overlays are those of the document, in the order of the document. -/
theorem C59_loaded_bundle (E : Env) (j : Json) (b : Bundle) (h : Bundle.ofJson E j = .ok b) :
    (∀ s, b.said = some s → E.validSaid s = true) ∧
    (∀ s, b.captureBase.said = some s → E.validSaid s = true) ∧
    (∀ n t, b.captureBase.attributes.get n = some t → t.wf E) ∧
    (∀ o ∈ b.overlays, o.LoadedOk E) ∧
    ∃ l ovs, (j = .obj l ∨ ∃ vs, j = .arr vs ∧ vs.length = 3 ∧ l = [c!"d", c!"capture_base", c!"overlays"].zip vs) ∧ (c!"overlays", ovs) ∈ l ∧ (overlayValues ovs).map (Overlay.ofJson E) = b.overlays.map some := by
  obtain ⟨l, d, cb, ovs, hl, h1, h2, h3, h4, h5, h6⟩ := bundle_ofJson_parts.1 h
  obtain ⟨l', d', ty, as, cl, fl, hl', g1, g2, g3, g4, g5, g6, -⟩ := captureBase_ofJson_parts.1 h4
  have hov : (overlayValues ovs).map (Overlay.ofJson E) = b.overlays.map some := by
    cases ovs with
    | obj l => exact loadGroups_iff.1 h6
    | _ => simp [overlaysOfJson] at h6
  refine ⟨jSaid_valid h2, jSaid_valid g2, ?_, ?_, l, ovs, structMembers_some hl, ?_, hov⟩
  · intro n t ht
    rcases attrs_loaded g6 n t ht with h' | ⟨j, -, e⟩
    · cases h'
    · exact NAttr.ofJson_wf e
  · intro o ho
    have : some o ∈ (overlayValues ovs).map (Overlay.ofJson E) := hov ▸ List.mem_map_of_mem ho
    obtain ⟨v, -, e⟩ := List.mem_map.1 this
    exact overlay_loaded e
  · have : ovs ∈ valuesOf c!"overlays" l := by rw [h5]; simp
    obtain ⟨p, hp, rfl⟩ := List.mem_map.1 this
    have hp := List.mem_filter.1 hp
    have hk : p.1 = c!"overlays" := by simpa using hp.2
    rw [← hk]; exact hp.1

theorem valuesOf_two {k : Str} {v w : Json} {l1 l2 l3 : List (Str × Json)} :
    valuesOf k (l1 ++ (k, v) :: l2 ++ (k, w) :: l3) = valuesOf k l1 ++ v :: (valuesOf k l2 ++ w :: valuesOf k l3) := by
  simp [valuesOf, List.filter_append, List.filter_cons]

theorem two_not_one {α : Type} {a b c : List α} {v w : α} {o : Option α} : ¬ (a ++ v :: (b ++ w :: c) = o.toList) := by
  intro h
  have := congrArg List.length h
  have h2 : o.toList.length ≤ 1 := by cases o <;> simp
  simp at this
  omega

/-- **C59** A document in which a member of the bundle occurs twice is not loaded. -/
theorem C59_bundle_duplicate (E : Env) (k : Str) (hk : k ∈ bundleMembers) (v w : Json) (l1 l2 l3 : List (Str × Json)) (b : Bundle) :
    Bundle.ofJson E (.obj (l1 ++ (k, v) :: l2 ++ (k, w) :: l3)) ≠ .ok b := by
  intro h
  obtain ⟨l, d, cb, ovs, e, h1, -, h3, -, h5, -⟩ := bundle_ofJson_parts.1 h
  cases e
  simp only [bundleMembers, List.mem_cons, List.not_mem_nil, or_false] at hk
  rcases hk with rfl | rfl | rfl <;> rw [valuesOf_two] at *
  · exact two_not_one h1
  · exact two_not_one (o := some cb) h3
  · exact two_not_one (o := some ovs) h5

/-- **C59** Nor is a capture base in which a member occurs twice. -/
theorem C59_base_duplicate (E : Env) (k : Str) (hk : k ∈ baseMembers) (v w : Json) (l1 l2 l3 : List (Str × Json)) (c : CaptureBase) :
    CaptureBase.ofJson E (.obj (l1 ++ (k, v) :: l2 ++ (k, w) :: l3)) ≠ .ok c := by
  intro h
  obtain ⟨l, d, ty, as, cl, fl, e, h1, -, h3, -, h5, -, h7, -, h9, -⟩ := captureBase_ofJson_parts.1 h
  cases e
  simp only [baseMembers, List.mem_cons, List.not_mem_nil, or_false] at hk
  rcases hk with rfl | rfl | rfl | rfl | rfl <;> rw [valuesOf_two] at *
  · exact two_not_one h1
  · exact two_not_one (o := some ty) h3
  · exact two_not_one (o := some (Json.obj as)) h5
  · exact two_not_one (o := some cl) h7
  · exact two_not_one (o := some fl) h9

theorem valuesOf_other {k : Str} {p : Str × Json} {l1 l2 : List (Str × Json)} (h : p.1 ≠ k) :
    valuesOf k (l1 ++ p :: l2) = valuesOf k (l1 ++ l2) := by
  simp [valuesOf, List.filter_append, List.filter_cons, h]

/-- **C59** Members that are not the bundle's own are ignored. -/
theorem C59_bundle_unknown_member (E : Env) (p : Str × Json) (hp : p.1 ∉ bundleMembers) (l1 l2 : List (Str × Json)) :
    Bundle.ofJson E (.obj (l1 ++ p :: l2)) = Bundle.ofJson E (.obj (l1 ++ l2)) := by
  have hf : ∀ k ∈ bundleMembers, (l1 ++ p :: l2).filter (fun p => decide (p.1 = k)) = (l1 ++ l2).filter fun p => decide (p.1 = k) := by
    intro k hk
    have : p.1 ≠ k := fun e => hp (e ▸ hk)
    simp [List.filter_append, List.filter_cons, this]
  unfold Bundle.ofJson
  simp only [structMembers, memberOpt, member]
  rw [hf c!"d" (by decide), hf c!"capture_base" (by decide), hf c!"overlays" (by decide)]

/-- **C59** The order of the members of the bundle does not matter. -/
theorem C59_bundle_member_order (E : Env) (l l' : List (Str × Json)) (hp : l.Perm l') (b : Bundle) :
    Bundle.ofJson E (.obj l) = .ok b ↔ Bundle.ofJson E (.obj l') = .ok b := by
  have key : ∀ {l l' : List (Str × Json)}, l.Perm l' → Bundle.ofJson E (.obj l) = .ok b → Bundle.ofJson E (.obj l') = .ok b := by
    intro l l' hp h
    have hv : ∀ k (o : Option Json), valuesOf k l = o.toList → valuesOf k l' = o.toList := by
      intro k o e
      have hq : (valuesOf k l').Perm o.toList := e ▸ ((hp.filter _).map _).symm
      cases o with
      | none => exact hq.eq_nil
      | some v => exact List.perm_singleton.1 hq
    obtain ⟨l0, d, cb, ovs, e, h1, h2, h3, h4, h5, h6⟩ := bundle_ofJson_parts.1 h
    cases e
    exact bundle_ofJson_parts.2 ⟨l', d, cb, ovs, rfl, hv _ d h1, h2, hv _ (some cb) h3, h4, hv _ (some ovs) h5, h6⟩
  exact ⟨key hp, key hp.symm⟩

/-- **C59** A bundle, and a capture base in it, may also be given by position: an array with exactly its members, in the order in which they
are written, loads as the object does; an array with fewer or more elements does not. -/
theorem C59_by_position (E : Env) :
    (∀ d cb ovs, Bundle.ofJson E (.arr [d, cb, ovs]) = Bundle.ofJson E (.obj [(c!"d", d), (c!"capture_base", cb), (c!"overlays", ovs)])) ∧
    (∀ d ty as cl fl, CaptureBase.ofJson E (.arr [d, ty, as, cl, fl]) = CaptureBase.ofJson E
      (.obj [(c!"d", d), (c!"type", ty), (c!"attributes", as), (c!"classification", cl), (c!"flagged_attributes", fl)])) ∧
    (∀ l b, l.length ≠ 3 → Bundle.ofJson E (.arr l) ≠ .ok b) ∧ (∀ l c, l.length ≠ 5 → CaptureBase.ofJson E (.arr l) ≠ .ok c) := by
  refine ⟨fun _ _ _ => rfl, fun _ _ _ _ _ => rfl, ?_, ?_⟩
  · intro l b hl h
    obtain ⟨_, _, _, _, e, -⟩ := bundle_ofJson_parts.1 h
    rcases structMembers_some e with e | ⟨vs, e, hv, -⟩ <;> cases e
    exact hl hv
  · intro l b hl h
    obtain ⟨_, _, _, _, _, _, e, -⟩ := captureBase_ofJson_parts.1 h
    rcases structMembers_some e with e | ⟨vs, e, hv, -⟩ <;> cases e
    exact hl hv

/-- **C59** A document that is otherwise fine but has one overlay that cannot be read - of an unknown kind or version, with a
malformed identifier, an unknown language, or a missing member - aborts the program instead of being refused. -/
theorem C59_bad_overlay_aborts (E : Env) (l : List (Str × Json)) (d : Option Json) (s : Option Said) (cb : Json) (c : CaptureBase)
    (ovs : List (Str × Json)) (h1 : valuesOf c!"d" l = d.toList) (h2 : jSaid E d = some s) (h3 : valuesOf c!"capture_base" l = [cb])
    (h4 : CaptureBase.ofJson E cb = .ok c) (h5 : valuesOf c!"overlays" l = [.obj ovs]) (v : Json) (hv : v ∈ overlayValues (.obj ovs))
    (hbad : Overlay.ofJson E v = none) : Bundle.ofJson E (.obj l) = .panic := by
  show Res.bind (memberOpt c!"d" l) _ = _
  rw [memberOpt_ok.2 h1]
  show Res.bind (orErr (jSaid E d)) _ = _
  rw [orErr_ok.2 h2]
  show Res.bind (member c!"capture_base" l) _ = _
  rw [member_ok.2 h3]
  show Res.bind (CaptureBase.ofJson E cb) _ = _
  rw [h4]
  show Res.bind (member c!"overlays" l) _ = _
  rw [member_ok.2 h5]
  show Res.bind (loadGroups E ovs) _ = _
  rw [loadGroups_abort hv hbad]
  rfl

/-! ## Commands -/

theorem jfield_two {k : Str} {v w : Json} {l1 l2 l3 : List (Str × Json)} :
    jfield k (l1 ++ (k, v) :: l2 ++ (k, w) :: l3) = none := by
  have hl : 2 ≤ ((l1 ++ (k, v) :: l2 ++ (k, w) :: l3).filter fun p => decide (p.1 = k)).length := by
    simp [List.filter_append, List.filter_cons]; omega
  unfold jfield
  split
  · next h => rw [h] at hl; simp at hl
  · next h => rw [h] at hl; simp at hl
  · rfl

/-- **C06** The content of a command with a repeated member is refused. -/
theorem C06_content_duplicate (E : Env) (k : Str) (v w : Json) (l1 l2 l3 : List (Str × Json)) :
    (k ∈ [c!"attributes", c!"properties"] → Content.ofJson E (.obj (l1 ++ (k, v) :: l2 ++ (k, w) :: l3)) = .err ()) ∧
    (k ∈ [c!"attributes", c!"properties", c!"flagged_attributes"] →
      CaptureContent.ofJson E (.obj (l1 ++ (k, v) :: l2 ++ (k, w) :: l3)) = .err ()) ∧
    (k = c!"said" → bundleContentOfJson E (.obj (l1 ++ (k, v) :: l2 ++ (k, w) :: l3)) = .err ()) := by
  have hne : ∀ (n : Str) (l : List (Str × Json)), DRes.ofOption (jfield n l) = .err () ∨ ∃ o, DRes.ofOption (jfield n l) = .ok o := by
    intro n l
    cases e : jfield n l with
    | none => exact .inl rfl
    | some o => exact .inr ⟨o, rfl⟩
  have h2 := @jfield_two k v w l1 l2 l3
  generalize l1 ++ (k, v) :: l2 ++ (k, w) :: l3 = l at h2
  refine ⟨fun hk => ?_, fun hk => ?_, ?_⟩
  · show Res.bind (DRes.ofOption (jfield c!"attributes" l)) (fun a => Res.bind (DRes.ofOption (jfield c!"properties" l)) _) = _
    simp only [List.mem_cons, List.not_mem_nil, or_false] at hk
    rcases hk with rfl | rfl
    · rw [h2]; rfl
    · rcases hne c!"attributes" l with e | ⟨o, e⟩
      · rw [e]; rfl
      · rw [e, h2]; rfl
  · show Res.bind (DRes.ofOption (jfield c!"attributes" l)) (fun a => Res.bind (DRes.ofOption (jfield c!"properties" l))
      (fun p => Res.bind (DRes.ofOption (jfield c!"flagged_attributes" l)) _)) = _
    simp only [List.mem_cons, List.not_mem_nil, or_false] at hk
    rcases hk with rfl | rfl | rfl
    · rw [h2]; rfl
    · rcases hne c!"attributes" l with e | ⟨o, e⟩
      · rw [e]; rfl
      · rw [e, h2]; rfl
    · rcases hne c!"attributes" l with e | ⟨o, e⟩
      · rw [e]; rfl
      · rcases hne c!"properties" l with e' | ⟨o', e'⟩
        · rw [e, e']; rfl
        · rw [e, e', h2]; rfl
  · rintro rfl
    simp only [bundleContentOfJson, structMembers, h2]

/-- **C06** A command document whose content repeats a member is refused. -/
theorem C06_duplicate_member (E : Env) (t : CmdType) (kind key : Str) (k : Str) (v w : Json) (l1 l2 l3 : List (Str × Json))
    (hk : (kind = c!"OCABundle" ∧ k = c!"said") ∨ (kind = c!"CaptureBase" ∧ k ∈ [c!"attributes", c!"properties", c!"flagged_attributes"]) ∨
      (kind ≠ c!"OCABundle" ∧ kind ≠ c!"CaptureBase" ∧ k ∈ [c!"attributes", c!"properties"])) :
    Command.ofJson E (.obj [(c!"type", .str t.toStr), (c!"object_kind", .str kind), (key, .obj (l1 ++ (k, v) :: l2 ++ (k, w) :: l3))]) =
      .err () := by
  obtain ⟨c1, c2, c3⟩ := C06_content_duplicate E k v w l1 l2 l3
  have ho : objKindOfJson E kind (.obj (l1 ++ (k, v) :: l2 ++ (k, w) :: l3)) = .err () := by
    unfold objKindOfJson
    rcases hk with ⟨rfl, e⟩ | ⟨rfl, e⟩ | ⟨n1, n2, e⟩
    · rw [if_neg (by decide), if_pos rfl, c3 e]
    · rw [if_pos rfl, c2 e]
    · rw [if_neg n2, if_neg n1, c1 e]
      cases OverlayType.fromStr kind <;> rfl
  generalize l1 ++ (k, v) :: l2 ++ (k, w) :: l3 = l at ho
  simp only [Command.ofJson, Command.visit]
  cases t <;> simp [visitType, variantName, visitObj, CmdType.toStr, CmdType.ofStr, DRes.ofOption, ho] <;> rfl

/-! ## Examples -/

/-- a document with one overlay of the given type and language, and a member that is not the bundle's own -/
def loadDoc (type lang : Str) : List (Str × Json) :=
  [(c!"v", .str c!"OCAS11JSON"), (c!"d", .str c!"Ebundle"),
   (c!"overlays", .obj [(c!"label", .arr [.obj [(c!"type", .str type), (c!"d", .str c!"Elabel"), (c!"capture_base", .str c!"Ebase"),
     (c!"language", .str lang), (c!"attribute_labels", .obj [(c!"a", .str c!"A")]), (c!"attribute_categories", .arr []),
     (c!"category_labels", .obj [])]])]),
   (c!"capture_base", .obj [(c!"d", .str c!"Ebase"), (c!"type", .str c!"spec/capture_base/1.0"), (c!"classification", .str c!""),
     (c!"attributes", .obj [(c!"a", .str c!"Text")]), (c!"flagged_attributes", .arr [])])]

/-- how a load ends -/
def loadFate : Res Str Bundle → Option (Option Nat)
  | .ok b => some (some b.overlays.length)
  | .err _ => some none
  | .panic => none

/-- a document is loaded; with an unknown language, or an unknown kind of overlay, it aborts; with a malformed identifier or a
repeated member it is refused -/
theorem C59_examples :
    loadFate (Bundle.ofJson Env.demo (.obj (loadDoc c!"spec/overlays/label/1.1" c!"eng"))) = some (some 1) ∧
    loadFate (Bundle.ofJson Env.demo (.obj (loadDoc c!"spec/overlays/label/1.1" c!"zzz"))) = none ∧
    loadFate (Bundle.ofJson Env.demo (.obj (loadDoc c!"spec/overlays/nothing/1.1" c!"eng"))) = none ∧
    loadFate (Bundle.ofJson Env.demo (.obj ((c!"d", .str c!"x") :: (loadDoc c!"spec/overlays/label/1.1" c!"eng").tail.tail))) = some none ∧
    loadFate (Bundle.ofJson Env.demo (.obj ((c!"d", .str c!"E") :: loadDoc c!"spec/overlays/label/1.1" c!"eng"))) = some none := by
  decide +kernel

end OCA
