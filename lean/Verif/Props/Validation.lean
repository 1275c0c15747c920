import Verif.Model.SemValidator
import Verif.Props.Reload
import Verif.Props.AstProps
/-!
# C18, C21: SAIDs of generated bundles, tampering
-/
namespace OCA

/-! ## C18 -/

/-- All SAIDs of a bundle are the digests of what they stand for, and every overlay is bound to the
capture base. -/
structure Bundle.SaidsValid (E : Env) (b : Bundle) : Prop where
  bundle : b.said = some (E.digest (b.digestInput E))
  base : b.captureBase.said = some (E.digest b.captureBase.digestInput)
  overlays : ∀ o ∈ b.overlays, o.said = some (E.digest o.digestInput) ∧ o.captureBase = b.captureBase.said

/-- The validator's SAID checks report nothing exactly when all SAIDs are valid. -/
theorem C18_said_checks_exact (E : Env) (b : Bundle) : saidErrors E b = [] ↔ b.SaidsValid E := by
  unfold saidErrors
  rw [List.append_eq_nil_iff, List.append_eq_nil_iff, List.flatMap_eq_nil_iff]
  constructor
  · rintro ⟨⟨h1, h2⟩, h3⟩
    refine ⟨?_, ?_, ?_⟩
    · by_cases h : b.said = (b.fillSaid E).said
      · exact h
      · simp [h] at h1
    · by_cases h : b.captureBase.said = (b.captureBase.sign E).said
      · exact h
      · simp [h] at h2
    · intro o ho
      have := h3 o ho
      unfold overlayErrors at this
      rw [List.append_eq_nil_iff] at this
      constructor
      · by_cases h : o.said = (o.fillSaid E).said
        · exact h
        · simp [h] at this
      · by_cases h : o.captureBase = b.captureBase.said
        · exact h
        · simp [h] at this
  · intro h
    refine ⟨⟨?_, ?_⟩, ?_⟩
    · have : b.said = (b.fillSaid E).said := h.bundle
      simp [this]
    · have : b.captureBase.said = (b.captureBase.sign E).said := h.base
      simp [this]
    · intro o ho
      obtain ⟨h1, h2⟩ := h.overlays o ho
      have : o.said = (o.fillSaid E).said := h1
      unfold overlayErrors
      simp [this, h2]

/-- Every generated bundle has valid SAIDs, so the validator's SAID checks pass. -/
theorem C18_generated_saids_valid {ε : Type} (E : Env) (O : Order) (box : OCABox) (b : Bundle)
    (h : (generateBundle E O box : Res ε _) = .ok b) : b.SaidsValid E ∧ saidErrors E b = [] := by
  have hv : b.SaidsValid E := by
    obtain ⟨-, rfl⟩ := generateBundle_eq_ok h
    refine ⟨rfl, rfl, ?_⟩
    intro o ho
    rw [(mem_overlays ho).2]
    exact ⟨rfl, rfl⟩
  exact ⟨hv, (C18_said_checks_exact E b).mpr hv⟩

theorem firstConditional_none {b : Bundle} (h : ∀ o ∈ b.overlays, o.body.kind ≠ .conditional) :
    firstConditional b = none := by
  unfold firstConditional
  rw [List.findSome?_eq_none_iff]
  intro o ho
  have := h o ho
  cases hb : o.body <;> simp_all [OvBody.kind]

/-- A generated bundle without conditions is valid (no translations being enforced). -/
theorem C18_generated_valid {ε : Type} (E : Env) (O : Order) (box : OCABox) (hr : Reachable E box) (b : Bundle)
    (h : (generateBundle E O box : Res ε _) = .ok b)
    (hc : ∀ n a, box.attributes.get n = some a → a.condition = none) : validateBundle E [] b = .ok () := by
  have h1 := (C18_generated_saids_valid E O box b h).2
  have h2 : firstConditional b = none := by
    apply firstConditional_none
    intro o ho hk
    obtain ⟨-, rfl⟩ := generateBundle_eq_ok h
    rcases mem_genBodies O box hr.wf _ (mem_overlays ho).1 with ⟨m, l, ps, -, -, e⟩ | ⟨K, hK, n, a, hg, hk'⟩
    · rw [e] at hk; cases hk
    · cases K <;> simp only [IsBody] at hK
      case conditional =>
        simp only [hasKey, hc n a hg] at hk'
        cases hk'
      case framing =>
        obtain ⟨md, e, -⟩ := hK
        rw [e] at hk; cases hk
      all_goals rw [hK] at hk; cases hk
  unfold validateBundle conditionErrors
  rw [h2]
  simp [h1, allTranslationErrors]

/-! ## C21 -/

/-- If two bundles carry a valid bundle SAID and it is the same, they serialise identically - or the two
digested texts are a collision of the digest. -/
theorem C21_same_said_same_json (E : Env) (b b' : Bundle) (h : b.SaidsValid E) (h' : b'.SaidsValid E)
    (hs : b.said = b'.said) :
    b.toJson E = b'.toJson E ∨
    (b.digestInput E ≠ b'.digestInput E ∧ E.digest (b.digestInput E) = E.digest (b'.digestInput E)) := by
  by_cases he : b.digestInput E = b'.digestInput E
  · left
    unfold Bundle.digestInput versioned at he
    injection he with he
    injection he with _ he
    have hf : ∀ d, b.fieldsWith d = b'.fieldsWith d := by
      intro d
      unfold Bundle.fieldsWith at he ⊢
      injection he with _ he
      injection he with e1 he
      injection he with e2 _
      rw [e1, e2]
    unfold Bundle.toJson
    rw [hs, hf]
  · right
    refine ⟨he, ?_⟩
    have := hs
    rw [h.bundle, h'.bundle] at this
    exact Option.some.inj this

theorem map_inj_of_inj {α β : Type} {f : α → β} (hf : ∀ a b, f a = f b → a = b) {l l' : List α}
    (h : l.map f = l'.map f) : l = l' := by
  induction l generalizing l' with
  | nil => cases l' with
    | nil => rfl
    | cons => cases h
  | cons a t ih => cases l' with
    | nil => cases h
    | cons a' t' =>
      rw [List.map_cons, List.map_cons] at h
      injection h with h1 h2
      rw [hf _ _ h1, ih h2]

theorem toJson_inj_of {V : Type} {f : V → Json} (hf : ∀ a b, f a = f b → a = b) {m m' : FMap V}
    (h : m.toJson f = m'.toJson f) : m = m' := by
  unfold FMap.toJson at h
  injection h with h
  cases m; cases m'
  congr 1
  refine map_inj_of_inj ?_ h
  intro a b e
  injection e with e1 e2
  exact Prod.ext e1 (hf _ _ e2)

/-- the values at each key have the same JSON -/
theorem toJson_get {V : Type} {f : V → Json} {m m' : FMap V} (h : m.toJson f = m'.toJson f) (k : Str) :
    (m.get k).map f = (m'.get k).map f := by
  unfold FMap.toJson at h
  injection h with h
  have : ∀ l : List (Str × V), (FMap.lget k l).map f = FMap.lget k (l.map fun p => (p.1, f p.2)) := by
    intro l
    induction l with
    | nil => rfl
    | cons p t ih =>
      obtain ⟨k', v⟩ := p
      simp only [List.map_cons, FMap.lget]
      split
      · rfl
      · exact ih
  unfold FMap.get
  rw [this, this, h]

theorem strJson_inj (a b : Str) (h : Json.str a = Json.str b) : a = b := by injection h

theorem strsJson_inj (a b : List Str) (h : strsJson a = strsJson b) : a = b := by
  unfold strsJson at h
  injection h with h
  exact map_inj_of_inj strJson_inj h

theorem encoding_inj (a b : Encoding) (h : Json.str a.toStr = Json.str b.toStr) : a = b := by
  injection h with h
  revert h
  cases a <;> cases b <;> decide

theorem refval_inj (a b : RefVal) (h : a.toStr = b.toStr) : a = b := by
  cases a <;> cases b <;> simp only [RefVal.toStr] at h
  · exact congrArg _ (List.append_cancel_left h)
  · injection h with _ h; injection h with _ h; injection h with _ h; injection h with e _; exact absurd e (by decide)
  · injection h with _ h; injection h with _ h; injection h with _ h; injection h with e _; exact absurd e (by decide)
  · exact congrArg _ (List.append_cancel_left h)

theorem nattr_toJson_inj (a b : NAttr) (h : a.toJson = b.toJson) : a = b := by
  have hne : ∀ (r : RefVal) (t : AttrType), r.toStr ≠ t.toStr := by
    intro r t
    cases r <;> cases t <;> simp [RefVal.toStr, AttrType.toStr]
  induction a generalizing b with
  | ref r =>
    cases b <;> simp only [NAttr.toJson, Json.str.injEq, reduceCtorEq] at h
    · rw [refval_inj _ _ h]
    · exact absurd h (hne _ _)
  | val t =>
    cases b <;> simp only [NAttr.toJson, Json.str.injEq, reduceCtorEq] at h
    · exact absurd h.symm (hne _ _)
    · rename_i t'
      revert h
      cases t <;> cases t' <;> decide
  | arr a ih =>
    cases b <;> simp only [NAttr.toJson, Json.arr.injEq, List.cons.injEq, and_true, reduceCtorEq] at h
    rw [ih _ h]
  | null =>
    cases b <;> simp only [NAttr.toJson, reduceCtorEq] at h
    rfl

/-- Two capture bases with the same JSON have the same attributes, types, classification and SAID, and flag
the same attributes. -/
theorem base_of_json {c c' : CaptureBase} (h : c.toJson = c'.toJson) :
    c.said = c'.said ∧ c.attributes = c'.attributes ∧ c.classification = c'.classification ∧
      c.flagged.Perm c'.flagged := by
  unfold CaptureBase.toJson CaptureBase.fieldsWith at h
  simp only [Json.obj.injEq, List.cons.injEq, Prod.mk.injEq, true_and, and_true, Json.str.injEq] at h
  obtain ⟨h1, -, h3, h4, h5⟩ := h
  refine ⟨?_, toJson_inj_of nattr_toJson_inj h3, h4, ?_⟩
  · revert h1
    cases c.said <;> cases c'.said <;> simp [saidJson]
  · have := strsJson_inj _ _ h5
    exact (perm_sortStr _).symm.trans (this ▸ perm_sortStr _)

/-- What an overlay's JSON says of a fact: everything but the order of an entry code list, which is written
sorted, and the metadata kept with each framing scope, which is not written. -/
def Fact.SameText : Fact → Fact → Prop
  | .entryCodes e, .entryCodes e' => e.toJson = e'.toJson
  | .framing i f, .framing i' f' => i = i' ∧ stripScopes f = stripScopes f'
  | f, f' => f = f'

theorem scopes_of_json {f f' : FMap Scope} (h : f.toJson Scope.toJson = f'.toJson Scope.toJson) :
    stripScopes f = stripScopes f' := by
  ext k : 1
  have := toJson_get h k
  unfold stripScopes
  rw [FMap.get_filterMap, FMap.get_filterMap]
  cases h1 : f.get k <;> cases h2 : f'.get k <;> rw [h1, h2] at this <;>
    simp only [Option.map_some, Option.map_none, reduceCtorEq, Option.some.injEq] at this
  · rename_i s s'
    simp only [Scope.toJson, Json.obj.injEq, List.cons.injEq, Prod.mk.injEq, Json.str.injEq, true_and, and_true] at this
    simp [this.1, this.2]

theorem states_of_fields {b b' : OvBody} (hk : b.kind = b'.kind) (h : b.fields = b'.fields) {n : Str} {f : Fact}
    (hs : b.States n f) : ∃ f', Fact.SameText f f' ∧ b'.States n f' := by
  cases f <;> simp only [OvBody.States] at hs
  case label l s =>
    obtain ⟨cs, m, cl, rfl, hg⟩ := hs
    cases b' <;> simp only [OvBody.kind, reduceCtorEq] at hk
    simp only [OvBody.fields, List.cons.injEq, Prod.mk.injEq, true_and, and_true, Json.str.injEq] at h
    obtain ⟨rfl, -, h, -⟩ := h
    exact ⟨.label l s, rfl, _, _, _, rfl, toJson_inj_of strJson_inj h ▸ hg⟩
  case condition c ds =>
    obtain ⟨m, d, rfl, hg, hg'⟩ := hs
    cases b' <;> simp only [OvBody.kind, reduceCtorEq] at hk
    simp only [OvBody.fields, List.cons.injEq, Prod.mk.injEq, true_and, and_true] at h
    exact ⟨.condition c ds, rfl, _, _, rfl, toJson_inj_of strJson_inj h.1 ▸ hg, toJson_inj_of strsJson_inj h.2 ▸ hg'⟩
  case framing i fr =>
    obtain ⟨md, m, rfl, hi, hg⟩ := hs
    cases b' <;> simp only [OvBody.kind, reduceCtorEq] at hk
    simp only [OvBody.fields, List.cons.injEq, Prod.mk.injEq, true_and, and_true] at h
    have e := toJson_inj_of strJson_inj h.1
    have := toJson_get h.2 n
    rw [hg] at this
    rename_i md' m'
    cases hg' : m'.get n with
    | none => rw [hg'] at this; cases this
    | some fr' =>
      rw [hg'] at this
      simp only [Option.map_some, Option.some.injEq] at this
      exact ⟨.framing i fr', ⟨rfl, scopes_of_json this⟩, md', m', rfl, e ▸ hi, hg'⟩
  case entryCodes e =>
    obtain ⟨m, rfl, hg⟩ := hs
    cases b' <;> simp only [OvBody.kind, reduceCtorEq] at hk
    simp only [OvBody.fields, List.cons.injEq, Prod.mk.injEq, true_and, and_true] at h
    have := toJson_get h n
    rw [hg] at this
    rename_i m'
    cases hg' : m'.get n with
    | none => rw [hg'] at this; cases this
    | some e' =>
      rw [hg'] at this
      simp only [Option.map_some, Option.some.injEq] at this
      exact ⟨.entryCodes e', this, m', rfl, hg'⟩
  case encoding e =>
    obtain ⟨m, rfl, hg⟩ := hs
    cases b' <;> simp only [OvBody.kind, reduceCtorEq] at hk
    simp only [OvBody.fields, List.cons.injEq, Prod.mk.injEq, true_and, and_true] at h
    exact ⟨.encoding e, rfl, _, rfl, toJson_inj_of encoding_inj h ▸ hg⟩
  case entry l e =>
    obtain ⟨m, rfl, hg⟩ := hs
    cases b' <;> simp only [OvBody.kind, reduceCtorEq] at hk
    simp only [OvBody.fields, List.cons.injEq, Prod.mk.injEq, true_and, and_true, Json.str.injEq] at h
    obtain ⟨rfl, h⟩ := h
    have hinj : ∀ a b : EntriesEl, a.toJson = b.toJson → a = b := by
      intro a b h
      cases a <;> cases b <;> simp only [EntriesEl.toJson, FMap.toJson, Json.str.injEq, reduceCtorEq] at h
      · rw [h]
      · exact congrArg _ (toJson_inj_of strJson_inj h)
    exact ⟨.entry l e, rfl, _, rfl, toJson_inj_of hinj h ▸ hg⟩
  case information l e =>
    obtain ⟨m, rfl, hg⟩ := hs
    cases b' <;> simp only [OvBody.kind, reduceCtorEq] at hk
    simp only [OvBody.fields, List.cons.injEq, Prod.mk.injEq, true_and, and_true, Json.str.injEq] at h
    obtain ⟨rfl, h⟩ := h
    exact ⟨.information l e, rfl, _, rfl, toJson_inj_of strJson_inj h ▸ hg⟩
  case link l e =>
    obtain ⟨m, rfl, hg⟩ := hs
    cases b' <;> simp only [OvBody.kind, reduceCtorEq] at hk
    simp only [OvBody.fields, List.cons.injEq, Prod.mk.injEq, true_and, and_true, Json.str.injEq] at h
    obtain ⟨rfl, h⟩ := h
    exact ⟨.link l e, rfl, _, rfl, toJson_inj_of strJson_inj h ▸ hg⟩
  all_goals
    obtain ⟨m, rfl, hg⟩ := hs
    cases b' <;> simp only [OvBody.kind, reduceCtorEq] at hk
    simp only [OvBody.fields, List.cons.injEq, Prod.mk.injEq, true_and, and_true] at h
  case format s _ => exact ⟨.format s, rfl, _, rfl, toJson_inj_of strJson_inj h ▸ hg⟩
  case conformance s _ => exact ⟨.conformance s, rfl, _, rfl, toJson_inj_of strJson_inj h ▸ hg⟩
  case cardinality s _ => exact ⟨.cardinality s, rfl, _, rfl, toJson_inj_of strJson_inj h ▸ hg⟩
  case unit s _ => exact ⟨.unit s, rfl, _, rfl, toJson_inj_of strJson_inj h ▸ hg⟩

theorem fieldsWith_mapping {o : Overlay} {m : FMap Str} (h : o.body = .mapping m) (d : Json) :
    o.fieldsWith d = [(c!"d", d), (c!"type", .str o.type.path), (c!"capture_base", saidJson o.captureBase)]
      ++ o.body.fields := by
  unfold Overlay.fieldsWith
  rw [h]

theorem fieldsWith_plain {o : Overlay} (h : ∀ m, o.body ≠ .mapping m) (d : Json) :
    o.fieldsWith d = [(c!"d", d), (c!"capture_base", saidJson o.captureBase), (c!"type", .str o.type.path)]
      ++ o.body.fields := by
  unfold Overlay.fieldsWith
  congr 1
  cases hb : o.body <;> first | rfl | (exact absurd hb (h _))

theorem overlay_of_json {o o' : Overlay} (h : o.toJson = o'.toJson) :
    o.said = o'.said ∧ o.captureBase = o'.captureBase ∧ o.type = o'.type ∧ o.body.fields = o'.body.fields := by
  have hs : ∀ s s' : Option Said, saidJson s = saidJson s' → s = s' := by
    intro s s'
    cases s <;> cases s' <;> simp [saidJson]
  unfold Overlay.toJson at h
  injection h with h
  by_cases hm : ∃ m, o.body = .mapping m
  · obtain ⟨m, hm⟩ := hm
    rw [fieldsWith_mapping hm] at h
    by_cases hm' : ∃ m, o'.body = .mapping m
    · obtain ⟨m', hm'⟩ := hm'
      rw [fieldsWith_mapping hm'] at h
      simp only [List.cons_append, List.nil_append, List.cons.injEq, Prod.mk.injEq, true_and,
        Json.str.injEq] at h
      obtain ⟨h1, h2, h3, h4⟩ := h
      exact ⟨hs _ _ h1, hs _ _ h3, C04_overlay_type_injective _ _ h2, h4⟩
    · exfalso
      rw [fieldsWith_plain (fun m e => hm' ⟨m, e⟩)] at h
      simp only [List.cons_append, List.nil_append, List.cons.injEq, Prod.mk.injEq, true_and] at h
      exact absurd h.2.1.1 (by decide)
  · rw [fieldsWith_plain (fun m e => hm ⟨m, e⟩)] at h
    by_cases hm' : ∃ m, o'.body = .mapping m
    · exfalso
      obtain ⟨m', hm'⟩ := hm'
      rw [fieldsWith_mapping hm'] at h
      simp only [List.cons_append, List.nil_append, List.cons.injEq, Prod.mk.injEq, true_and] at h
      exact absurd h.2.1.1 (by decide)
    · rw [fieldsWith_plain (fun m e => hm' ⟨m, e⟩)] at h
      simp only [List.cons_append, List.nil_append, List.cons.injEq, Prod.mk.injEq, true_and,
        Json.str.injEq] at h
      obtain ⟨h1, h2, h3, h4⟩ := h
      exact ⟨hs _ _ h1, hs _ _ h2, C04_overlay_type_injective _ _ h3, h4⟩

/-- The overlays a bundle shows: all of the kinds that may occur often, and the last one of each kind that should occur once. -/
def Shown (l : List Overlay) (o : Overlay) : Prop :=
  ∃ pre post, l = pre ++ o :: post ∧ (o.body.kind.many = false → ∀ x ∈ post, x.body.kind ≠ o.body.kind)

theorem Shown.mem {l : List Overlay} {o : Overlay} (h : Shown l o) : o ∈ l := by
  obtain ⟨pre, post, rfl, -⟩ := h
  simp

theorem shown_kept {l : List Overlay} {o : Overlay} (ho : Shown l o) :
    ∃ g, keptGroup l o.body.kind.snake = some g ∧ o ∈ g ∧ (o.body.kind.many = false → g = [o]) := by
  have hm : o ∈ groupOf l o.body.kind.snake := List.mem_filter.mpr ⟨ho.mem, by simp⟩
  unfold keptGroup
  cases hl : (groupOf l o.body.kind.snake).getLast? with
  | none => rw [List.getLast?_eq_none_iff] at hl; rw [hl] at hm; cases hm
  | some x =>
    have hx := List.mem_of_getLast? hl
    have hk := many_of_groupOf hm hx
    simp only
    rw [← hk]
    cases hmany : o.body.kind.many with
    | true => exact ⟨_, rfl, hm, fun e => by cases e⟩
    | false =>
      obtain ⟨pre, post, rfl, hp⟩ := ho
      have : groupOf post o.body.kind.snake = [] := by
        apply List.filter_eq_nil_iff.2
        intro y hy
        have := hp hmany y hy
        simp only [decide_eq_true_eq]
        exact fun e => this (snake_inj _ _ e)
      have e : groupOf (pre ++ o :: post) o.body.kind.snake = groupOf pre o.body.kind.snake ++ [o] := by
        rw [groupOf_append]
        congr 1
        have h2 : groupOf (o :: post) o.body.kind.snake = o :: groupOf post o.body.kind.snake := by simp [groupOf]
        rw [h2, this]
      rw [e, List.getLast?_append] at hl
      cases hl
      exact ⟨[o], rfl, List.mem_singleton.mpr rfl, fun _ => rfl⟩

theorem filter_last {α : Type} (p : α → Bool) (l : List α) (x : α) (h : (l.filter p).getLast? = some x) :
    ∃ pre post, l = pre ++ x :: post ∧ ∀ y ∈ post, p y = false := by
  induction l using snoc_ind with
  | h0 => cases h
  | h1 l y ih =>
    rw [List.filter_append] at h
    cases hp : p y with
    | true =>
      rw [List.filter_cons_of_pos hp, List.filter_nil, List.getLast?_append] at h
      cases h
      exact ⟨l, [], rfl, fun _ h => by cases h⟩
    | false =>
      rw [List.filter_cons_of_neg (by simp [hp]), List.filter_nil, List.append_nil] at h
      obtain ⟨pre, post, rfl, h2⟩ := ih h
      refine ⟨pre, post ++ [y], by simp, ?_⟩
      intro z hz
      rcases List.mem_append.1 hz with hz | hz
      · exact h2 z hz
      · rw [List.mem_singleton.1 hz]; exact hp

theorem kept_shown {l : List Overlay} {k : Str} {g : List Overlay} (h : keptGroup l k = some g) {x : Overlay} (hx : x ∈ g) : Shown l x := by
  unfold keptGroup at h
  split at h
  · cases h
  · rename_i o ho
    have ho' := List.mem_of_getLast? ho
    split at h
    · cases h
      rename_i hm
      obtain ⟨pre, post, e⟩ := List.append_of_mem (List.mem_filter.mp hx).1
      refine ⟨pre, post, e, fun hf => ?_⟩
      rw [many_of_groupOf hx ho', hm] at hf; cases hf
    · cases h
      rw [List.mem_singleton.1 hx]
      obtain ⟨pre, post, e, hp⟩ := filter_last _ _ _ ho
      refine ⟨pre, post, e, fun _ y hy he => ?_⟩
      have h1 := hp y hy
      have h2 := (List.mem_filter.mp ho').2
      simp only [decide_eq_false_iff_not, decide_eq_true_eq] at h1 h2
      exact h1 (by rw [he]; exact h2)

/-- where no kind that should occur once occurs twice, all are shown -/
theorem SinglesOnce.shown {l : List Overlay} (hs : SinglesOnce l) {o : Overlay} (ho : o ∈ l) : Shown l o := by
  obtain ⟨pre, post, rfl⟩ := List.append_of_mem ho
  refine ⟨pre, post, rfl, fun hm x hx he => ?_⟩
  have h := hs o.body.kind hm
  rw [List.filter_append, List.filter_cons_of_pos (by simp), List.length_append, List.length_cons] at h
  have : 0 < (post.filter fun y => decide (y.body.kind = o.body.kind)).length :=
    List.length_pos_of_mem (List.mem_filter.2 ⟨hx, by simpa using he⟩)
  omega

theorem kept_json {l l' : List Overlay} (h : overlaysJson l = overlaysJson l') (k : Str) :
    (keptGroup l k).map (groupJson k) = (keptGroup l' k).map (groupJson k) := by
  unfold overlaysJson at h
  injection h with h
  rw [← toList_map_eq groupJson, ← toList_map_eq groupJson] at h
  have : ∀ {V : Type} {m m' : FMap V}, m.l = m'.l → m = m' := by
    intro V m m' e
    cases m; cases m'; simp only at e; subst e; rfl
  have h := congrArg (FMap.get · k) (this h)
  simp only [FMap.get_filterMap, get_groups] at h
  cases h1 : keptGroup l k <;> cases h2 : keptGroup l' k <;> rw [h1, h2] at h <;> exact h

theorem kept_kind {l : List Overlay} {k : Str} {g : List Overlay} (h : keptGroup l k = some g) :
    (∀ x ∈ g, x ∈ l ∧ x.body.kind.snake = k) ∧
    ((∃ x ∈ g, x.body.kind.many = false) → ∃ x, g = [x]) := by
  unfold keptGroup at h
  split at h
  · cases h
  · rename_i o ho
    have ho := List.mem_of_getLast? ho
    split at h
    · cases h
      rename_i hm
      refine ⟨fun x hx => ?_, ?_⟩
      · have := List.mem_filter.mp hx
        exact ⟨this.1, by simpa using this.2⟩
      · rintro ⟨x, hx, hf⟩
        rw [many_of_groupOf hx ho, hm] at hf; cases hf
    · cases h
      refine ⟨fun x hx => ?_, fun _ => ⟨o, rfl⟩⟩
      rw [List.mem_singleton.mp hx]
      have := List.mem_filter.mp ho
      exact ⟨this.1, by simpa using this.2⟩

theorem shown_in_json {l l' : List Overlay} (h : overlaysJson l = overlaysJson l') {o : Overlay} (ho : Shown l o) :
    ∃ o', Shown l' o' ∧ o'.toJson = o.toJson := by
  obtain ⟨g, h1, h2, h4⟩ := shown_kept ho
  have hk := kept_json h o.body.kind.snake
  rw [h1] at hk
  cases h1' : keptGroup l' o.body.kind.snake with
  | none => rw [h1'] at hk; cases hk
  | some g' =>
    rw [h1'] at hk
    simp only [Option.map_some, Option.some.injEq] at hk
    obtain ⟨hk1, hk2⟩ := kept_kind h1'
    have ht := many_table o.body.kind
    unfold groupJson at hk
    cases hm : o.body.kind.many with
    | true =>
      rw [hm] at ht
      rw [if_pos ht, if_pos ht] at hk
      injection hk with hk
      have hmem : o.toJson ∈ (sortOvs g).map Overlay.toJson :=
        List.mem_map_of_mem ((perm_sortOvs g).mem_iff.mpr h2)
      rw [hk] at hmem
      obtain ⟨o', ho', e⟩ := List.mem_map.mp hmem
      exact ⟨o', kept_shown h1' ((perm_sortOvs g').mem_iff.mp ho'), e⟩
    | false =>
      rw [hm] at ht
      rw [if_neg (by simp [ht]), if_neg (by simp [ht]), h4 hm] at hk
      have hne : g' ≠ [] := by
        unfold keptGroup at h1'
        split at h1'
        · cases h1'
        · split at h1'
          · cases h1'
            intro e
            rename_i hl _
            rw [e] at hl; cases hl
          · cases h1'; intro e; cases e
      match hg' : g' with
      | [] => exact absurd rfl hne
      | x :: t =>
        have hx : x.body.kind = o.body.kind := snake_inj _ _ (hk1 x (List.mem_cons_self ..)).2
        obtain ⟨y, hy⟩ := hk2 ⟨x, List.mem_cons_self .., by rw [hx]; exact hm⟩
        injection hy with e1 e2
        subst e2
        exact ⟨x, kept_shown h1' (List.mem_cons_self ..), hk.symm⟩

theorem overlay_in_json {l l' : List Overlay} (hs : SinglesOnce l)
    (h : overlaysJson l = overlaysJson l') {o : Overlay} (ho : o ∈ l) :
    ∃ o' ∈ l', o'.toJson = o.toJson := by
  obtain ⟨o', h1, h2⟩ := shown_in_json h (hs.shown ho)
  exact ⟨o', h1.mem, h2⟩

/-- **C21** Two bundles that both have valid SAIDs and claim the same SAID have the same capture base (attributes
and types, classification, flags) and show the same overlays up to what JSON shows: whatever one shows about an attribute the
other shows too - or the digest collides on the two bundles. (A bundle shows all its overlays, except that of a kind that
should occur once only the last; the overlays built by the library are all shown, `C21_generated_shown`, and overlays that are not
shown can be added freely, `C21_smuggled_overlay`.) -/
theorem C21_tampering_detected (E : Env) (b b' : Bundle) (h : b.SaidsValid E) (h' : b'.SaidsValid E)
    (hs : b.said = b'.said) :
    (b.captureBase.attributes = b'.captureBase.attributes ∧
      b.captureBase.classification = b'.captureBase.classification ∧
      b.captureBase.flagged.Perm b'.captureBase.flagged ∧
      (∀ o, Shown b.overlays o → ∃ o', Shown b'.overlays o' ∧ o'.toJson = o.toJson) ∧
      (∀ l ps, (∃ o, Shown b.overlays o ∧ o.body = .metaOv l ps) → ∃ o, Shown b'.overlays o ∧ o.body = .metaOv l ps) ∧
      (∀ n f, (∃ o, Shown b.overlays o ∧ o.body.States n f) →
        ∃ f', Fact.SameText f f' ∧ ∃ o, Shown b'.overlays o ∧ o.body.States n f')) ∨
    (b.digestInput E ≠ b'.digestInput E ∧ E.digest (b.digestInput E) = E.digest (b'.digestInput E)) := by
  rcases C21_same_said_same_json E b b' h h' hs with hj | hc
  · left
    unfold Bundle.toJson versioned at hj
    injection hj with hj
    injection hj with _ hj
    unfold Bundle.fieldsWith at hj
    injection hj with _ hj
    injection hj with e1 hj
    injection hj with e2 _
    injection e1 with _ e1
    injection e2 with _ e2
    obtain ⟨-, a1, a2, a3⟩ := base_of_json e1
    have key : ∀ o, Shown b.overlays o → ∃ o', Shown b'.overlays o' ∧ o'.toJson = o.toJson := fun o ho => shown_in_json e2 ho
    refine ⟨a1, a2, a3, key, ?_, ?_⟩
    · rintro l ps ⟨o, ho, hb⟩
      obtain ⟨o', ho', e⟩ := key o ho
      obtain ⟨-, -, e3, e4⟩ := overlay_of_json e
      refine ⟨o', ho', ?_⟩
      have hk : o'.body.kind = o.body.kind := congrArg OverlayType.kind e3
      rw [hb] at hk e4
      cases hb' : o'.body <;> rw [hb'] at hk e4 <;> simp only [OvBody.kind, reduceCtorEq] at hk
      simp only [OvBody.fields, List.cons.injEq, Prod.mk.injEq, true_and, Json.str.injEq] at e4
      obtain ⟨rfl, e4⟩ := e4
      congr 1
      rename_i m
      have : ∀ {V : Type} {m m' : FMap V}, m.l = m'.l → m = m' := by
        intro V m m' e
        cases m; cases m'; simp only at e; subst e; rfl
      apply this
      refine map_inj_of_inj ?_ e4
      intro a b e
      injection e with e1 e2
      injection e2 with e2
      exact Prod.ext e1 e2
    · rintro n f ⟨o, ho, hf⟩
      obtain ⟨o', ho', e⟩ := key o ho
      obtain ⟨-, -, e3, e4⟩ := overlay_of_json e
      obtain ⟨f', hs', hf'⟩ := states_of_fields (congrArg OverlayType.kind e3).symm e4.symm hf
      exact ⟨f', hs', o', ho', hf'⟩
  · exact .inr hc

/-- **C21** What is not shown is not protected: put in front of a valid bundle's overlays any further
overlay (correctly signed and bound) of a kind the bundle already has and that should occur once. The result
has the same SAID and passes all SAID checks, whatever the digest function. -/
theorem C21_smuggled_overlay (E : Env) (b : Bundle) (h : b.SaidsValid E) (o o' : Overlay)
    (ho' : o' ∈ b.overlays) (hk : o.body.kind = o'.body.kind) (hm : o.body.kind.many = false)
    (hs : o.said = some (E.digest o.digestInput)) (hb : o.captureBase = b.captureBase.said) :
    ({ b with overlays := o :: b.overlays } : Bundle).SaidsValid E ∧
    saidErrors E { b with overlays := o :: b.overlays } = [] ∧
    ({ b with overlays := o :: b.overlays } : Bundle).toJson E = b.toJson E := by
  have hov : overlaysJson (o :: b.overlays) = overlaysJson b.overlays := by
    unfold overlaysJson
    rw [← toList_map_eq groupJson, ← toList_map_eq groupJson]
    congr 2
    ext k : 1
    rw [FMap.get_filterMap, FMap.get_filterMap, get_groups, get_groups]
    congr 1
    by_cases e : o.body.kind.snake = k
    · have hg : groupOf (o :: b.overlays) k = o :: groupOf b.overlays k := by simp [groupOf, e]
      have hmem : o' ∈ groupOf b.overlays k := List.mem_filter.mpr ⟨ho', by simp [← hk, e]⟩
      unfold keptGroup
      rw [hg]
      cases hl : (groupOf b.overlays k).getLast? with
      | none => rw [List.getLast?_eq_none_iff] at hl; rw [hl] at hmem; cases hmem
      | some x =>
        have hx := List.mem_of_getLast? hl
        have hxk : x.body.kind.many = false := by rw [← many_of_groupOf hmem hx, ← hk, hm]
        rw [List.getLast?_cons, hl]
        simp [hxk]
    · have hg : groupOf (o :: b.overlays) k = groupOf b.overlays k := by simp [groupOf, e]
      unfold keptGroup
      rw [hg]
  have hf : ∀ d, ({ b with overlays := o :: b.overlays } : Bundle).fieldsWith d = b.fieldsWith d := by
    intro d
    unfold Bundle.fieldsWith
    rw [hov]
  have hv : ({ b with overlays := o :: b.overlays } : Bundle).SaidsValid E := by
    refine ⟨?_, h.base, ?_⟩
    · show b.said = some (E.digest (versioned E
        (({ b with overlays := o :: b.overlays } : Bundle).fieldsWith (.str placeholder))))
      rw [hf]
      exact h.bundle
    · intro x hx
      rcases List.mem_cons.mp hx with rfl | hx
      · exact ⟨hs, hb⟩
      · exact h.overlays x hx
  refine ⟨hv, (C18_said_checks_exact E _).mpr hv, ?_⟩
  unfold Bundle.toJson
  rw [hf]

/-- **C21** Every generated bundle has valid SAIDs, at most one overlay of each kind that should occur once ... -/
theorem C21_generated_singles {ε : Type} (E : Env) (O : Order) (box : OCABox)
    (hr : Reachable E box) (b : Bundle) (h : (generateBundle E O box : Res ε _) = .ok b) :
    b.SaidsValid E ∧ SinglesOnce b.overlays :=
  ⟨(C18_generated_saids_valid E O box b h).1, singlesOnce_of_slots (C16_one_overlay_per_slot E O box hr b h)⟩

/-- **C21** ... and shows all its overlays. -/
theorem C21_generated_shown {ε : Type} (E : Env) (O : Order) (box : OCABox)
    (hr : Reachable E box) (b : Bundle) (h : (generateBundle E O box : Res ε _) = .ok b) : ∀ o ∈ b.overlays, Shown b.overlays o :=
  fun _ ho => (C21_generated_singles E O box hr b h).2.shown ho

example : demoBundle.SaidsValid Env.demo ∧ SinglesOnce demoBundle.overlays ∧ ∀ o ∈ demoBundle.overlays, Shown demoBundle.overlays o :=
  have h := C21_generated_singles _ _ _ demo_reachable _ demo_generated
  ⟨h.1, h.2, fun _ ho => h.2.shown ho⟩

end OCA
