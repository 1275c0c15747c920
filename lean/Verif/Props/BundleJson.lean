import Verif.Model.BundleJson
import Verif.Props.Validation
import Verif.Props.ToAst
/-!
# C29: a stored bundle loads back
-/
namespace OCA

/-! ## Specification -/

/-- Restrictions on one overlay: its identifiers, version and language are real ones, a meta overlay has no pair
named like one of the members of every overlay, grouped entry codes are in the order of their group names. -/
structure Overlay.Storable (E : Env) (o : Overlay) : Prop where
  said : ∃ s, o.said = some s ∧ E.validSaid s = true
  base : ∀ s, o.captureBase = some s → E.validSaid s = true
  ver : IsVersion E o.ver
  lang : ∀ l, o.body.language = some l → E.langOf l = some l
  noReserved : ∀ l ps, o.body = .metaOv l ps → ∀ k ∈ [c!"d", c!"capture_base", c!"type", c!"language"], ps.get k = none
  groups : ∀ m, o.body = .entryCode m → ∀ n g, m.get n = some (.object g) → SortedKeys g
  standards : ∀ m, o.body = .standard m → ∀ n t, m.get n = some t → standardOf E t = some t

/-- Restrictions on a bundle: the same for its identifiers and attribute types, and kinds written as a single
object occur once. -/
structure Bundle.Storable (E : Env) (b : Bundle) : Prop where
  said : ∀ s, b.said = some s → E.validSaid s = true
  base : ∀ s, b.captureBase.said = some s → E.validSaid s = true
  types : ∀ n t, b.captureBase.attributes.get n = some t → t.wf E
  overlays : ∀ o ∈ b.overlays, o.Storable E
  singles : SinglesOnce b.overlays

/-! ## Reading single values -/

theorem allSome_map {α β γ : Type} (f : β → Option γ) (g : α → β) (h : α → γ) (l : List α)
    (hf : ∀ a ∈ l, f (g a) = some (h a)) : allSome f (l.map g) = some (l.map h) := by
  induction l with
  | nil => rfl
  | cons a t ih =>
    simp only [List.map_cons, allSome]
    rw [hf a (.head _), ih (fun a ha => hf a (.tail _ ha))]

theorem jStrs_strsJson (l : List Str) : jStrs (strsJson l) = some l := by
  have := allSome_map jStr Json.str id l (fun _ _ => rfl)
  rw [List.map_id] at this
  exact this

theorem ofList_l {V : Type} (m : FMap V) : FMap.ofList m.l = m := FMap.ofList_perm m (List.Perm.refl _)

theorem jMap_of_map {V W : Type} (f : Json → Option W) (g : V → Json) (h : V → W) (m : FMap V) (l : List (Str × Json))
    (hl : FMap.ofList l = m.filterMap fun _ v => some (g v))
    (hf : ∀ n v, m.get n = some v → f (g v) = some (h v)) :
    jMap f (.obj l) = some (m.filterMap fun _ v => some (h v)) := by
  unfold jMap
  dsimp only
  rw [hl, toList_map_eq (fun _ v => g v)]
  have := allSome_map (fun p : Str × Json => (f p.2).map fun v => (p.1, v)) (fun p : Str × V => (p.1, g p.2))
    (fun p => (p.1, h p.2)) m.l (by
      intro p hp
      simp only [hf p.1 p.2 (FMap.get_eq_some_iff.mpr hp), Option.map_some])
  rw [this]
  dsimp only
  rw [← toList_map_eq (fun _ v => h v), ofList_l]

theorem jMap_toJson {V W : Type} (f : Json → Option W) (g : V → Json) (h : V → W) (m : FMap V)
    (hf : ∀ n v, m.get n = some v → f (g v) = some (h v)) :
    jMap f (m.toJson g) = some (m.filterMap fun _ v => some (h v)) := by
  unfold FMap.toJson
  apply jMap_of_map f g h m _ _ hf
  rw [← toList_map_eq (fun _ v => g v), ofList_l]

theorem jMap_toJson_id {V : Type} (f : Json → Option V) (g : V → Json) (m : FMap V)
    (hf : ∀ v, f (g v) = some v) : jMap f (m.toJson g) = some m := by
  rw [jMap_toJson f g id m (fun _ v _ => hf v)]
  exact congrArg some (filterMap_some m)

/-- what remains of entry codes -/
def EntryCodes.norm : EntryCodes → EntryCodes
  | .array l => .array (sortStr l)
  | .object l => .object (FMap.ofList l).l
  | e => e

theorem jEntryCodes_toJson (e : EntryCodes) (h : ∀ g, e = .object g → SortedKeys g) :
    jEntryCodes e.toJson = some e.norm := by
  cases e with
  | sai s => rfl
  | array l =>
    show (jStrs (strsJson (sortStr l))).map EntryCodes.array = _
    rw [jStrs_strsJson]; rfl
  | object l =>
    have hs := h l rfl
    have e : (⟨l, hs⟩ : FMap (List Str)).toJson strsJson = .obj (l.map fun p => (p.1, strsJson p.2)) := rfl
    have e2 : jEntryCodes (EntryCodes.object l).toJson =
        (jMap jStrs ((⟨l, hs⟩ : FMap (List Str)).toJson strsJson)).map fun m => .object m.l := rfl
    rw [e2, jMap_toJson_id jStrs strsJson _ jStrs_strsJson]
    show some (EntryCodes.object l) = some (.object (FMap.ofList l).l)
    rw [ofList_l (⟨l, hs⟩ : FMap (List Str))]

theorem jEntries_toJson (e : EntriesEl) : jEntries e.toJson = some e := by
  cases e with
  | sai s => rfl
  | object m =>
    show (jMap jStr (m.toJson Json.str)).map EntriesEl.object = _
    rw [jMap_toJson_id jStr Json.str m (fun _ => rfl)]; rfl

theorem jScope_toJson (s : Scope) : jScope s.toJson = some { s with frameMeta := FMap.empty } := rfl

theorem jEncoding_toStr (e : Encoding) : jEncoding (.str e.toStr) = some e := encoding_roundtrip e

theorem jSaid_saidJson (E : Env) (s : Option Said) (h : ∀ x, s = some x → E.validSaid x = true) :
    jSaid E (some (saidJson s)) = some s := by
  cases s with
  | none => rfl
  | some x => simp only [saidJson, jSaid, h x rfl, if_true]

/-! ## Reading an overlay -/

/-- what remains of an overlay -/
def OvBody.norm : OvBody → OvBody
  | .entryCode m => .entryCode (m.filterMap fun _ e => some e.norm)
  | .label l cs m cl => .label l (sortStr cs) m cl
  | .framing md x => .framing md (x.filterMap fun _ fr => some (stripScopes fr))
  | b => b

/-- what remains of an overlay -/
def Overlay.norm (o : Overlay) : Overlay := { o with body := o.body.norm }

theorem ofList_get {V : Type} (l : List (Str × V)) (h : (l.map (·.1)).Nodup) (k : Str) :
    (FMap.ofList l).get k = FMap.lget k l := by
  unfold FMap.ofList
  rw [FMap.get_insertAll]
  simp only [FMap.get_empty, Option.or_none]
  apply Option.ext
  intro v
  rw [FMap.lastVal_of_nodup h]
  constructor
  · intro hm; exact imGet_of_mem h hm
  · intro hm; exact mem_of_imGet hm

/-- The members of a storable overlay. -/
theorem storable_keys {E : Env} {o : Overlay} (h : o.Storable E) (d : Json) : ((o.fieldsWith d).map (·.1)).Nodup := by
  obtain ⟨s, cb, v, body⟩ := o
  cases body with
  | metaOv l ps =>
    have e : (Overlay.fieldsWith ⟨s, cb, v, .metaOv l ps⟩ d).map (·.1) =
        [c!"d", c!"capture_base", c!"type", c!"language"] ++ ps.keys := by
      simp only [Overlay.fieldsWith, OvBody.fields, FMap.keys, List.map_append, List.map_cons, List.map_nil, List.map_map]
      rfl
    rw [e, List.nodup_append]
    refine ⟨by decide, ps.keys_nodup, ?_⟩
    intro a ha b hb e
    subst e
    rw [FMap.mem_keys_iff, h.noReserved l ps rfl a ha] at hb
    cases hb
  | _ =>
    simp only [Overlay.fieldsWith, OvBody.fields, List.map_append, List.map_cons, List.map_nil]
    decide

/-- a member of an overlay object, for overlays of a fixed kind -/
theorem get_field {E : Env} {o : Overlay} (h : o.Storable E) (k : Str) :
    (FMap.ofList (o.fieldsWith (saidJson o.said))).get k = FMap.lget k (o.fieldsWith (saidJson o.said)) :=
  ofList_get _ (storable_keys h _) k

theorem get_type {E : Env} {o : Overlay} (h : o.Storable E) :
    (FMap.ofList (o.fieldsWith (saidJson o.said))).get c!"type" = some (.str o.type.path) := by
  rw [get_field h]
  obtain ⟨s, cb, v, body⟩ := o
  cases body <;> rfl

theorem get_d {E : Env} {o : Overlay} (h : o.Storable E) :
    (FMap.ofList (o.fieldsWith (saidJson o.said))).get c!"d" = some (saidJson o.said) := by
  rw [get_field h]
  obtain ⟨s, cb, v, body⟩ := o
  cases body <;> rfl

theorem get_base {E : Env} {o : Overlay} (h : o.Storable E) :
    (FMap.ofList (o.fieldsWith (saidJson o.said))).get c!"capture_base" = some (saidJson o.captureBase) := by
  rw [get_field h]
  obtain ⟨s, cb, v, body⟩ := o
  cases body <;> rfl

theorem body_ofJson {E : Env} {o : Overlay} (h : o.Storable E) :
    OvBody.ofJson E (FMap.ofList (o.fieldsWith (saidJson o.said))) o.body.kind = some o.body.norm := by
  have hg := get_field h
  obtain ⟨s, cb, v, body⟩ := o
  have hf : ∀ {V : Type} (k : Str) (f : Json → Option V) (j : Json),
      FMap.lget k (Overlay.fieldsWith ⟨s, cb, v, body⟩ (saidJson s)) = some j →
      jField (FMap.ofList (Overlay.fieldsWith ⟨s, cb, v, body⟩ (saidJson s))) k f = f j := by
    intro V k f j hj
    unfold jField
    rw [hg k, hj]; rfl
  have hlang : ∀ l, body.language = some l →
      jLang E (FMap.ofList (Overlay.fieldsWith ⟨s, cb, v, body⟩ (saidJson s))) = some l := by
    intro l hl
    unfold jLang
    have : FMap.lget c!"language" (Overlay.fieldsWith ⟨s, cb, v, body⟩ (saidJson s)) = some (.str l) := by
      cases body <;> first | (cases hl; rfl) | cases hl
    rw [hg, this]
    exact h.lang l hl
  have hstr : ∀ m : FMap Str, jMap jStr (m.toJson .str) = some m := fun m => jMap_toJson_id jStr .str m (fun _ => rfl)
  cases body with
  | charEnc m =>
    simp only [OvBody.kind, OvBody.ofJson]
    rw [hf c!"attribute_character_encoding" _ _ rfl, jMap_toJson_id _ _ _ jEncoding_toStr]; rfl
  | format m => simp only [OvBody.kind, OvBody.ofJson]; rw [hf c!"attribute_formats" _ _ rfl, hstr]; rfl
  | conformance m => simp only [OvBody.kind, OvBody.ofJson]; rw [hf c!"attribute_conformance" _ _ rfl, hstr]; rfl
  | cardinality m => simp only [OvBody.kind, OvBody.ofJson]; rw [hf c!"attribute_cardinality" _ _ rfl, hstr]; rfl
  | unit m => simp only [OvBody.kind, OvBody.ofJson]; rw [hf c!"attribute_unit" _ _ rfl, hstr]; rfl
  | conditional c d =>
    simp only [OvBody.kind, OvBody.ofJson]
    rw [hf c!"attribute_conditions" _ _ rfl, hstr, hf c!"attribute_dependencies" _ _ rfl,
      jMap_toJson_id _ _ _ jStrs_strsJson]
    rfl
  | entryCode m =>
    simp only [OvBody.kind, OvBody.ofJson]
    rw [hf c!"attribute_entry_codes" _ _ rfl, jMap_toJson _ _ EntryCodes.norm m (by
      intro n e he
      exact jEntryCodes_toJson e (fun g hg => h.groups m rfl n g (by rw [he, hg])))]
    rfl
  | entry l m =>
    simp only [OvBody.kind, OvBody.ofJson]
    rw [hlang l rfl, hf c!"attribute_entries" _ _ rfl, jMap_toJson_id _ _ _ jEntries_toJson]; rfl
  | label l cs m cl =>
    simp only [OvBody.kind, OvBody.ofJson]
    rw [hlang l rfl, hf c!"attribute_categories" _ _ rfl, jStrs_strsJson, hf c!"attribute_labels" _ _ rfl, hstr,
      hf c!"category_labels" _ _ rfl, hstr]
    rfl
  | information l m =>
    simp only [OvBody.kind, OvBody.ofJson]
    rw [hlang l rfl, hf c!"attribute_information" _ _ rfl, hstr]; rfl
  | metaOv l ps =>
    simp only [OvBody.kind, OvBody.ofJson]
    rw [hlang l rfl]
    dsimp only
    rw [jMap_of_map jStr .str id ps _ _ (fun _ _ _ => rfl)]
    · exact congrArg (fun m => some (OvBody.metaOv l m)) (filterMap_some ps)
    · ext k : 1
      rw [FMap.get_filterMap]
      have e1 : ((FMap.ofList (Overlay.fieldsWith ⟨s, cb, v, .metaOv l ps⟩ (saidJson s))).l.filter
          fun p => decide (p.1 ∉ metaReserved)) =
        ((FMap.ofList (Overlay.fieldsWith ⟨s, cb, v, .metaOv l ps⟩ (saidJson s))).filterMap
          fun k j => if k ∈ metaReserved then none else some j).l := by
        show _ = List.filterMap _ _
        generalize (FMap.ofList (Overlay.fieldsWith ⟨s, cb, v, .metaOv l ps⟩ (saidJson s))).l = q
        induction q with
        | nil => rfl
        | cons p t ih =>
          by_cases hp : p.1 ∈ metaReserved
          · rw [List.filter_cons_of_neg (by simp [hp]), List.filterMap_cons]
            dsimp only
            rw [if_pos hp]
            exact ih
          · rw [List.filter_cons_of_pos (by simp [hp]), List.filterMap_cons]
            dsimp only
            rw [if_neg hp]
            exact congrArg (p :: ·) ih
      rw [e1, ofList_l, FMap.get_filterMap, hg]
      by_cases hk : k ∈ metaReserved
      · rw [h.noReserved l ps rfl k hk]
        cases FMap.lget k (Overlay.fieldsWith ⟨s, cb, v, .metaOv l ps⟩ (saidJson s)) <;> simp [hk]
      · have e2 : FMap.lget k (Overlay.fieldsWith ⟨s, cb, v, .metaOv l ps⟩ (saidJson s)) =
            (ps.get k).map Json.str := by
          simp only [metaReserved, List.mem_cons, List.not_mem_nil, or_false, not_or] at hk
          obtain ⟨h1, h2, h3, h4⟩ := hk
          show FMap.lget k ((c!"d", _) :: (c!"capture_base", _) :: (c!"type", _) :: (c!"language", _) :: ps.l.map _) = _
          simp only [FMap.lget, h1, h2, h3, h4, if_false]
          exact lget_map (fun _ v => Json.str v) ps.l k
        rw [e2]
        cases ps.get k <;> simp [hk]
  | link t m =>
    simp only [OvBody.kind, OvBody.ofJson]
    rw [hf c!"target_bundle" _ _ rfl]
    dsimp only [jStr]
    rw [hf c!"attribute_mapping" _ _ rfl, hstr]; rfl
  | framing md x =>
    simp only [OvBody.kind, OvBody.ofJson]
    rw [hf c!"framing_metadata" _ _ rfl, hstr]
    dsimp only
    rw [hf c!"attribute_framing" _ _ rfl, jMap_toJson _ _ stripScopes x (by
      intro n fr _
      exact jMap_toJson jScope Scope.toJson (fun sc => { sc with frameMeta := FMap.empty }) fr
        (fun _ sc _ => jScope_toJson sc))]
    rfl
  | mapping m => simp only [OvBody.kind, OvBody.ofJson]; rw [hf c!"attribute_mapping" _ _ rfl, hstr]; rfl
  | standard m =>
    simp only [OvBody.kind, OvBody.ofJson]
    rw [hf c!"attribute_standards" _ _ rfl, jMap_toJson _ _ id m (fun n t ht => h.standards m rfl n t ht)]
    exact congrArg (fun m => some (OvBody.standard m)) (filterMap_some m)
  | subset l => simp only [OvBody.kind, OvBody.ofJson]; rw [hf c!"attributes" _ _ rfl, jStrs_strsJson]; rfl
  | entryCodeMapping m =>
    simp only [OvBody.kind, OvBody.ofJson]
    rw [hf c!"attribute_entry_codes_mapping" _ _ rfl, jMap_toJson_id _ _ _ jStrs_strsJson]; rfl

theorem overlay_ofJson {E : Env} {o : Overlay} (h : o.Storable E) : Overlay.ofJson E o.toJson = some o.norm := by
  unfold Overlay.ofJson Overlay.toJson
  dsimp only
  have ht : OverlayType.ofPath E o.type.path = some o.type := (C04_overlay_type_round_trip E _ _).mpr ⟨rfl, h.ver⟩
  have hd : ∀ x, o.said = some x → E.validSaid x = true := by
    obtain ⟨s, h1, h2⟩ := h.said
    intro x hx
    rw [h1] at hx; cases hx; exact h2
  rw [get_type h]
  simp only [Option.bind_some, jStr, ht]
  rw [get_d h, jSaid_saidJson E _ hd]
  dsimp only
  rw [get_base h, jSaid_saidJson E _ h.base]
  dsimp only
  have : o.type.kind = o.body.kind := rfl
  rw [this, body_ofJson h]
  rfl

/-! ## Reading the groups -/

theorem insOv_mem {o : Overlay} {l : List Overlay} {x : Overlay} : x ∈ insOv o l ↔ x = o ∨ x ∈ l := by
  rw [(perm_insOv o l).mem_iff, List.mem_cons]

theorem sortOvs_mem {l : List Overlay} {x : Overlay} : x ∈ sortOvs l ↔ x ∈ l := (perm_sortOvs l).mem_iff

/-- sorted by SAID -/
def SaidSorted (l : List Overlay) : Prop := l.Pairwise fun a b => saidLe a b = true

theorem insOv_sorted (o : Overlay) (l : List Overlay) (ho : o.said.isSome = true)
    (hs : ∀ x ∈ l, x.said.isSome = true) (h : SaidSorted l) : SaidSorted (insOv o l) := by
  induction l with
  | nil => exact List.pairwise_singleton _ _
  | cons p t ih =>
    unfold SaidSorted at h
    rw [List.pairwise_cons] at h
    simp only [insOv]
    split
    · rename_i hle
      unfold SaidSorted
      rw [List.pairwise_cons]
      refine ⟨?_, List.pairwise_cons.mpr h⟩
      intro x hx
      rcases List.mem_cons.mp hx with rfl | hx
      · exact hle
      · exact saidLe_trans ho (hs p (.head _)) (hs x (.tail _ hx)) hle (h.1 x hx)
    · rename_i hle
      unfold SaidSorted
      rw [List.pairwise_cons]
      refine ⟨?_, ih (fun x hx => hs x (.tail _ hx)) h.2⟩
      intro x hx
      rcases insOv_mem.mp hx with rfl | hx
      · exact (saidLe_total ho (hs p (.head _))).resolve_left hle
      · exact h.1 x hx

theorem sortOvs_sorted (l : List Overlay) (hs : ∀ x ∈ l, x.said.isSome = true) : SaidSorted (sortOvs l) := by
  induction l with
  | nil => exact List.Pairwise.nil
  | cons o t ih =>
    exact insOv_sorted o _ (hs o (.head _)) (fun x hx => hs x (.tail _ (sortOvs_mem.mp hx)))
      (ih fun x hx => hs x (.tail _ hx))

theorem sortOvs_of_sorted (l : List Overlay) (h : SaidSorted l) : sortOvs l = l := by
  induction l with
  | nil => rfl
  | cons o t ih =>
    unfold SaidSorted at h
    rw [List.pairwise_cons] at h
    rw [sortOvs, ih h.2]
    cases t with
    | nil => rfl
    | cons p t => simp only [insOv, h.1 p (.head _), if_true]

/-- The overlays in the order in which they are written. -/
def written (ovs : List Overlay) : List Overlay := (ovs.foldl groupStep FMap.empty).l.flatMap fun p => sortOvs p.2

theorem mem_keptGroup {ovs : List Overlay} {k : Str} {g : List Overlay} (h : keptGroup ovs k = some g) {o : Overlay}
    (ho : o ∈ g) : o ∈ groupOf ovs k := by
  unfold keptGroup at h
  split at h
  · cases h
  · rename_i o' hl
    split at h
    · cases h; exact ho
    · cases h
      rw [List.mem_singleton.mp ho]
      exact List.mem_of_getLast? hl

theorem flatMap_key {V W : Type} (l : List (Str × V)) (hn : (l.map (·.1)).Nodup) (k : Str) (f : V → List W) :
    (l.flatMap fun p => if p.1 = k then f p.2 else []) = match FMap.lget k l with
      | some v => f v
      | none => [] := by
  induction l with
  | nil => rfl
  | cons p t ih =>
    obtain ⟨k', v⟩ := p
    rw [List.map_cons, List.nodup_cons] at hn
    rw [List.flatMap_cons, ih hn.2]
    simp only [FMap.lget]
    by_cases e : k = k'
    · subst e
      have : FMap.lget k t = none := imGet_eq_none_of_notMem hn.1
      simp [this]
    · simp [e, Ne.symm e]

theorem groupOf_written (ovs : List Overlay) (k : Str) :
    groupOf (written ovs) k = match keptGroup ovs k with
      | some g => sortOvs g
      | none => [] := by
  have hk : ∀ p ∈ (ovs.foldl groupStep FMap.empty).l, (sortOvs p.2).filter (fun o => decide (o.body.kind.snake = k)) =
      if p.1 = k then sortOvs p.2 else [] := by
    intro p hp
    have hg : keptGroup ovs p.1 = some p.2 := by
      rw [← get_groups]; exact FMap.get_eq_some_iff.mpr hp
    have hall : ∀ o ∈ sortOvs p.2, o.body.kind.snake = p.1 := by
      intro o ho
      have := mem_keptGroup hg (sortOvs_mem.mp ho)
      simpa [groupOf] using (List.mem_filter.mp this).2
    split
    · rename_i e
      rw [List.filter_eq_self]
      intro o ho
      simp [hall o ho, e]
    · rename_i e
      rw [List.filter_eq_nil_iff]
      intro o ho
      simp [hall o ho, e]
  unfold groupOf written
  rw [List.filter_flatMap]
  have h2 := flatMap_key (ovs.foldl groupStep FMap.empty).l (FMap.keys_nodup _) k sortOvs
  rw [show FMap.lget k (ovs.foldl groupStep FMap.empty).l = keptGroup ovs k from get_groups ovs k] at h2
  refine Eq.trans ?_ (h2.trans ?_)
  rotate_left
  · cases keptGroup ovs k <;> rfl
  generalize (ovs.foldl groupStep FMap.empty).l = q at hk
  clear h2
  induction q with
  | nil => rfl
  | cons p t ih =>
    rw [List.flatMap_cons, List.flatMap_cons, hk p (.head _), ih fun p hp => hk p (.tail _ hp)]

theorem sortOvs_ne_nil {l : List Overlay} (h : l ≠ []) : sortOvs l ≠ [] := by
  intro e
  have := (perm_sortOvs l).length_eq
  rw [e] at this
  exact h (List.eq_nil_of_length_eq_zero this.symm)

theorem kept_ne_nil {ovs : List Overlay} {k : Str} {g : List Overlay} (h : keptGroup ovs k = some g) : g ≠ [] := by
  unfold keptGroup at h
  split at h
  · cases h
  · rename_i o hl
    split at h
    · cases h
      intro e
      rw [e] at hl; cases hl
    · cases h; simp

theorem kept_written (ovs : List Overlay) (k : Str) :
    keptGroup (written ovs) k = (keptGroup ovs k).map sortOvs := by
  cases hk : keptGroup ovs k with
  | none =>
    have := groupOf_written ovs k
    rw [hk] at this
    unfold keptGroup
    rw [this]; rfl
  | some g =>
    have hg := groupOf_written ovs k
    rw [hk] at hg
    dsimp only at hg
    unfold keptGroup
    rw [hg]
    cases hl : (sortOvs g).getLast? with
    | none => exact absurd (List.getLast?_eq_none_iff.mp hl) (sortOvs_ne_nil (kept_ne_nil hk))
    | some o =>
      dsimp only
      split
      · rfl
      · rename_i hm
        have ho := sortOvs_mem.mp (List.mem_of_getLast? hl)
        have ho' := mem_keptGroup hk ho
        unfold keptGroup at hk
        split at hk
        · cases hk
        · rename_i o' hl'
          have := many_of_groupOf ho' (List.mem_of_getLast? hl')
          rw [this] at hm
          rw [if_neg hm] at hk
          cases hk
          rw [List.mem_singleton.mp ho]
          rfl

theorem overlaysJson_written (ovs : List Overlay) (hs : ∀ o ∈ ovs, o.said.isSome = true) :
    overlaysJson (written ovs) = overlaysJson ovs := by
  unfold overlaysJson
  rw [← toList_map_eq groupJson, ← toList_map_eq groupJson]
  congr 2
  ext k : 1
  rw [FMap.get_filterMap, FMap.get_filterMap, get_groups, get_groups, kept_written]
  cases hk : keptGroup ovs k with
  | none => rfl
  | some g =>
    simp only [Option.map_some, Option.bind_some, Option.some.injEq]
    have hgs : ∀ o ∈ g, o.said.isSome = true := fun o ho => hs o (List.mem_filter.mp (mem_keptGroup hk ho)).1
    unfold groupJson
    rw [sortOvs_of_sorted _ (sortOvs_sorted g hgs)]
    split
    · rfl
    · rename_i hm
      -- a single overlay
      have : ∃ o, g = [o] := by
        unfold keptGroup at hk
        split at hk
        · cases hk
        · rename_i o' hl'
          split at hk
          · rename_i hmany
            have hk' : o'.body.kind.snake = k := by
              simpa [groupOf] using (List.mem_filter.mp (List.mem_of_getLast? hl')).2
            have ht := many_table o'.body.kind
            rw [hk', hmany] at ht
            exact absurd ht hm
          · cases hk; exact ⟨o', rfl⟩
      obtain ⟨o, rfl⟩ := this
      rfl

theorem keptGroup_eq_groupOf {ovs : List Overlay} (h : SinglesOnce ovs) {k : Str} {g : List Overlay}
    (hk : keptGroup ovs k = some g) : g = groupOf ovs k := by
  unfold keptGroup at hk
  split at hk
  · cases hk
  · rename_i o hl
    split at hk
    · exact (Option.some.inj hk).symm
    · rename_i hm
      have hg := Option.some.inj hk
      subst hg
      have ho := List.mem_of_getLast? hl
      have hs : o.body.kind.snake = k := by simpa [groupOf] using (List.mem_filter.mp ho).2
      have h2 := h o.body.kind (by simpa using hm)
      have e : (ovs.filter fun x => decide (x.body.kind = o.body.kind)) = groupOf ovs k := by
        apply List.filter_congr
        intro x _
        apply decide_eq_decide.mpr
        rw [← hs]
        exact ⟨fun e => by rw [e], fun e => snake_inj _ _ e⟩
      rw [e] at h2
      match hq : groupOf ovs k with
      | [] => rw [hq] at ho; cases ho
      | [y] => rw [hq] at ho; rw [List.mem_singleton.mp ho]
      | _ :: _ :: _ => rw [hq] at h2; simp at h2

theorem written_perm (ovs : List Overlay) (h : SinglesOnce ovs) : (written ovs).Perm ovs := by
  rw [List.perm_iff_count]
  intro o
  have hc : ∀ l : List Overlay, List.count o l = List.count o (groupOf l o.body.kind.snake) := by
    intro l
    unfold groupOf
    rw [List.count_filter (by simp)]
  rw [hc (written ovs), hc ovs]
  rw [groupOf_written]
  cases hk : keptGroup ovs o.body.kind.snake with
  | none =>
    unfold keptGroup at hk
    split at hk
    · rename_i hl
      rw [List.getLast?_eq_none_iff.mp hl]
    · split at hk <;> cases hk
  | some g =>
    dsimp only
    rw [(perm_sortOvs g).count_eq]
    rw [keptGroup_eq_groupOf h hk]


theorem loadGroups_ok {ε : Type} (E : Env) (ovs : List Overlay) (h : ∀ o ∈ ovs, o.Storable E) :
    (loadGroups E ((ovs.foldl groupStep FMap.empty).l.map fun p => (p.1, groupJson p.1 p.2)) : Res ε _) =
      .ok ((written ovs).map Overlay.norm) := by
  unfold written
  have hall : ∀ p ∈ (ovs.foldl groupStep FMap.empty).l, keptGroup ovs p.1 = some p.2 := by
    intro p hp
    rw [← get_groups]; exact FMap.get_eq_some_iff.mpr hp
  generalize (ovs.foldl groupStep FMap.empty).l = q at hall
  induction q with
  | nil => rfl
  | cons p t ih =>
    obtain ⟨k, g⟩ := p
    have hk := hall (k, g) (.head _)
    dsimp only at hk
    have hst : ∀ o ∈ g, o.Storable E := fun o ho => h o (List.mem_filter.mp (mem_keptGroup hk ho)).1
    have h1 : (loadGroup E (groupJson k g) : Res ε _) = .ok ((sortOvs g).map Overlay.norm) := by
      unfold groupJson
      split
      · simp only [loadGroup]
        rw [allSome_map (Overlay.ofJson E) Overlay.toJson Overlay.norm _
          (fun o ho => overlay_ofJson (hst o (sortOvs_mem.mp ho)))]
        rfl
      · rename_i hm
        have : ∃ o, g = [o] := by
          unfold keptGroup at hk
          split at hk
          · cases hk
          · rename_i o' hl'
            split at hk
            · rename_i hmany
              have hk' : o'.body.kind.snake = k := by
                simpa [groupOf] using (List.mem_filter.mp (List.mem_of_getLast? hl')).2
              have ht := many_table o'.body.kind
              rw [hk', hmany] at ht
              exact absurd ht hm
            · cases hk; exact ⟨o', rfl⟩
        obtain ⟨o, rfl⟩ := this
        have h2 := overlay_ofJson (hst o (.head _))
        show Res.unwrap ((Overlay.ofJson E o.toJson).map fun o => [o]) = _
        rw [h2]
        rfl
    simp only [List.map_cons, loadGroups, h1, Res.bind_ok]
    rw [ih (fun p hp => hall p (.tail _ hp))]
    simp only [Res.bind_ok, List.flatMap_cons, List.map_append]
    rfl

/-! ## What is dropped is not written -/

theorem sortStr_idem (l : List Str) : sortStr (sortStr l) = sortStr l := sortStr_perm (perm_sortStr l)

theorem codes_norm_json (e : EntryCodes) (h : ∀ g, e = .object g → SortedKeys g) : e.norm.toJson = e.toJson := by
  cases e with
  | sai s => rfl
  | array l => exact congrArg strsJson (sortStr_idem l)
  | object l =>
    have hs := h l rfl
    show Json.obj ((FMap.ofList l).l.map _) = Json.obj (l.map _)
    rw [ofList_l (⟨l, hs⟩ : FMap (List Str))]

theorem toJson_congr {V : Type} {f g : V → Json} (m : FMap V) (h : ∀ n v, m.get n = some v → f v = g v) :
    m.toJson f = m.toJson g := by
  unfold FMap.toJson
  congr 1
  apply List.map_congr_left
  intro p hp
  rw [h p.1 p.2 (FMap.get_eq_some_iff.mpr hp)]

theorem norm_fields (b : OvBody) (h : ∀ m, b = .entryCode m → ∀ n g, m.get n = some (.object g) → SortedKeys g) :
    b.norm.fields = b.fields := by
  cases b <;> try rfl
  case entryCode m =>
    simp only [OvBody.norm, OvBody.fields, toJson_map]
    rw [toJson_congr m (fun n e he => codes_norm_json e (fun g hg => h m rfl n g (by rw [he, hg])))]
  case label l cs m cl =>
    simp only [OvBody.norm, OvBody.fields, sortStr_idem]
  case framing md x => exact fields_strip (.framing md x)

theorem norm_kind (b : OvBody) : b.norm.kind = b.kind := by cases b <;> rfl

theorem norm_fieldsWith (o : Overlay) (d : Json)
    (h : ∀ m, o.body = .entryCode m → ∀ n g, m.get n = some (.object g) → SortedKeys g) :
    o.norm.fieldsWith d = o.fieldsWith d := by
  unfold Overlay.fieldsWith Overlay.norm Overlay.type
  simp only [norm_fields o.body h, norm_kind]
  cases o.body <;> rfl

theorem norm_toJson {E : Env} {o : Overlay} (h : o.Storable E) : o.norm.toJson = o.toJson := by
  unfold Overlay.toJson
  rw [norm_fieldsWith o _ h.groups]; rfl

theorem overlaysJson_map (f : Overlay → Overlay) (l : List Overlay) (hk : ∀ o, (f o).body.kind = o.body.kind)
    (hs : ∀ o, (f o).said = o.said) (hj : ∀ o ∈ l, (f o).toJson = o.toJson) :
    overlaysJson (l.map f) = overlaysJson l := by
  have hins : ∀ (o : Overlay) (l : List Overlay), insOv (f o) (l.map f) = (insOv o l).map f := by
    intro o l
    induction l with
    | nil => rfl
    | cons p t ih =>
      rw [List.map_cons, insOv, insOv]
      have : saidLe (f o) (f p) = saidLe o p := by unfold saidLe; rw [hs, hs]
      rw [this]
      split
      · rfl
      · rw [ih]; rfl
  have hsort : ∀ l : List Overlay, sortOvs (l.map f) = (sortOvs l).map f := by
    intro l
    induction l with
    | nil => rfl
    | cons o t ih => rw [List.map_cons, sortOvs, ih, hins]; rfl
  have hgroup : ∀ k, groupOf (l.map f) k = (groupOf l k).map f := by
    intro k
    unfold groupOf
    rw [List.filter_map]
    congr 1
    apply List.filter_congr
    intro o _
    show decide ((f o).body.kind.snake = k) = _
    rw [hk]
  have hkept : ∀ k, keptGroup (l.map f) k = (keptGroup l k).map (List.map f) := by
    intro k
    unfold keptGroup
    rw [hgroup, List.getLast?_map]
    cases (groupOf l k).getLast? with
    | none => rfl
    | some o =>
      simp only [Option.map_some]
      rw [hk]
      split <;> rfl
  unfold overlaysJson
  rw [← toList_map_eq groupJson, ← toList_map_eq groupJson]
  congr 2
  ext k : 1
  rw [FMap.get_filterMap, FMap.get_filterMap, get_groups, get_groups, hkept]
  cases hg : keptGroup l k with
  | none => rfl
  | some g =>
    have hmem : ∀ o ∈ g, (f o).toJson = o.toJson := fun o ho => hj o (List.mem_filter.mp (mem_keptGroup hg ho)).1
    have hmj : ∀ g' : List Overlay, (∀ o ∈ g', o ∈ g) → (g'.map f).map Overlay.toJson = g'.map Overlay.toJson := by
      intro g' h'
      rw [List.map_map]
      exact List.map_congr_left fun o ho => hmem o (h' o ho)
    simp only [Option.map_some, Option.bind_some, Option.some.injEq]
    unfold groupJson
    rw [hsort, hmj (sortOvs g) (fun o ho => sortOvs_mem.mp ho)]
    split
    · rfl
    · match g, hmem, hmj with
      | [], _, _ => rfl
      | [o], hmem, _ => exact hmem o (.head _)
      | a :: b :: t, _, hmj => exact congrArg Json.arr (hmj (a :: b :: t) fun _ h => h)

/-! ## Reading the capture base -/

theorem attrsOfJsonList_ok (E : Env) (l : List (Str × NAttr)) (m : FMap NAttr) (h : ∀ p ∈ l, p.2.wf E) :
    attrsOfJsonList E m (l.map fun p => (p.1, p.2.toJson)) = .ok (m.insertAll l) := by
  induction l generalizing m with
  | nil => rfl
  | cons p t ih =>
    simp only [List.map_cons, attrsOfJsonList]
    rw [C08_attribute_type_json_round_trip E p.2 (h p (.head _))]
    dsimp only
    rw [ih _ fun p hp => h p (.tail _ hp)]
    rfl

theorem captureBase_ofJson (E : Env) (c : CaptureBase) (hs : ∀ s, c.said = some s → E.validSaid s = true)
    (ht : ∀ n t, c.attributes.get n = some t → t.wf E) :
    CaptureBase.ofJson E c.toJson = .ok { c with flagged := sortStr c.flagged } := by
  have ha := attrsOfJsonList_ok E c.attributes.l FMap.empty
    (fun p hp => ht p.1 p.2 (FMap.get_eq_some_iff.mpr hp))
  have ha' : FMap.empty.insertAll c.attributes.l = c.attributes := ofList_l c.attributes
  rw [ha'] at ha
  have hd := jSaid_saidJson E c.said hs
  obtain ⟨s, ty, as, cl, fl⟩ := c
  have h1 : memberOpt c!"d" (CaptureBase.fieldsWith ⟨s, ty, as, cl, fl⟩ (saidJson s)) = .ok (some (saidJson s)) := rfl
  have h2 : member c!"type" (CaptureBase.fieldsWith ⟨s, ty, as, cl, fl⟩ (saidJson s)) = .ok (.str ty) := rfl
  have h3 : member c!"attributes" (CaptureBase.fieldsWith ⟨s, ty, as, cl, fl⟩ (saidJson s)) =
    .ok (as.toJson NAttr.toJson) := rfl
  have h4 : member c!"classification" (CaptureBase.fieldsWith ⟨s, ty, as, cl, fl⟩ (saidJson s)) = .ok (.str cl) := rfl
  have h5 : member c!"flagged_attributes" (CaptureBase.fieldsWith ⟨s, ty, as, cl, fl⟩ (saidJson s)) =
    .ok (strsJson (sortStr fl)) := rfl
  unfold CaptureBase.ofJson CaptureBase.toJson
  simp only [structMembers, h1, h2, h3, h4, h5, Res.bind_ok, orErr, hd, jStr, FMap.toJson, ha, jStrs_strsJson]
  rfl

/-! ## The property -/

/-- **C29** Every storable bundle, written as JSON and loaded, is a bundle with the same SAID, the same capture
base and the same overlays up to order and up to parts that are never written (so each has the SAID and the JSON
it had), and the same JSON. -/
theorem C29_json_round_trip (E : Env) (b : Bundle) (h : b.Storable E) :
    ∃ b', Bundle.ofJson E (b.toJson E) = .ok b' ∧ b'.toJson E = b.toJson E ∧ b'.said = b.said ∧
      b'.captureBase = { b.captureBase with flagged := sortStr b.captureBase.flagged } ∧
      (∃ l : List Overlay, l.Perm b.overlays ∧ b'.overlays.map (fun o => (o.said, o.toJson)) = l.map fun o => (o.said, o.toJson)) ∧
      b'.overlays = (written b.overlays).map Overlay.norm := by
  have hst : ∀ o ∈ written b.overlays, o.Storable E := fun o ho =>
    h.overlays o ((written_perm _ h.singles).mem_iff.mp ho)
  have hsome : ∀ o ∈ b.overlays, o.said.isSome = true := fun o ho => by
    obtain ⟨s, hs, -⟩ := (h.overlays o ho).said
    rw [hs]; rfl
  have hcb := captureBase_ofJson E b.captureBase h.base h.types
  have hov : overlaysOfJson E (overlaysJson b.overlays) = .ok ((written b.overlays).map Overlay.norm) := by
    unfold overlaysOfJson overlaysJson
    exact loadGroups_ok E b.overlays h.overlays
  have hd := jSaid_saidJson E b.said h.said
  have hload : Bundle.ofJson E (b.toJson E) = .ok ⟨b.said,
      { b.captureBase with flagged := sortStr b.captureBase.flagged }, (written b.overlays).map Overlay.norm⟩ := by
    obtain ⟨s, cb, ovs⟩ := b
    unfold Bundle.toJson versioned Bundle.ofJson
    have h1 : ∀ v, memberOpt c!"d" ((c!"v", v) :: Bundle.fieldsWith ⟨s, cb, ovs⟩ (saidJson s)) = .ok (some (saidJson s)) :=
      fun _ => rfl
    have h2 : ∀ v, member c!"capture_base" ((c!"v", v) :: Bundle.fieldsWith ⟨s, cb, ovs⟩ (saidJson s)) = .ok cb.toJson :=
      fun _ => rfl
    have h3 : ∀ v, member c!"overlays" ((c!"v", v) :: Bundle.fieldsWith ⟨s, cb, ovs⟩ (saidJson s)) =
      .ok (overlaysJson ovs) := fun _ => rfl
    simp only [structMembers, h1, h2, h3, Res.bind_ok, orErr, hd, hcb, hov]
    rfl
  refine ⟨_, hload, ?_, rfl, rfl, ⟨written b.overlays, written_perm _ h.singles, ?_⟩, rfl⟩
  · have e1 : CaptureBase.toJson { b.captureBase with flagged := sortStr b.captureBase.flagged } =
        b.captureBase.toJson := by
      unfold CaptureBase.toJson CaptureBase.fieldsWith
      simp only [sortStr_idem]
    have e2 : overlaysJson ((written b.overlays).map Overlay.norm) = overlaysJson b.overlays := by
      rw [overlaysJson_map Overlay.norm _ (fun o => norm_kind o.body) (fun _ => rfl)
        (fun o ho => norm_toJson (hst o ho)), overlaysJson_written _ hsome]
    unfold Bundle.toJson Bundle.fieldsWith
    simp only [e1, e2]
  · rw [List.map_map]
    apply List.map_congr_left
    intro o ho
    show (o.norm.said, o.norm.toJson) = _
    rw [norm_toJson (hst o ho)]
    rfl

end OCA
