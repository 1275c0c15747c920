import Verif.Props.ExtendedText
import Verif.Props.StoredExact
import Verif.Props.LibraryCalls

/-! # C74: what stands where in the JSON of a bundle

The specification is about JSON documents and the names of their members only: it is what a program in another language relies on
when it reads a bundle. The theorems say that the document of a bundle tells about every attribute exactly what the bundle does. -/

namespace OCA

/-! ## Specification -/

/-- The document is an object with this member. -/
def Json.Has (j : Json) (k : Str) (v : Json) : Prop := ∃ ms, j = .obj ms ∧ (k, v) ∈ ms

/-- An array of texts. -/
def Json.texts (l : List Str) : Json := .arr (l.map Json.str)

/-- The kinds of overlays of which there can be several: they stand in arrays. -/
def severalKinds : List Str := [c!"label", c!"information", c!"entry", c!"meta", c!"link", c!"attribute_framing"]

/-- `o` is an overlay of the kind with this name in the document of a bundle: a member of the array, or the value itself, under the name in `overlays`. -/
def Json.OverlayIn (j : Json) (kind : Str) (o : Json) : Prop :=
  ∃ ovs g, j.Has c!"overlays" ovs ∧ ovs.Has kind g ∧ ((kind ∈ severalKinds ∧ ∃ l, g = .arr l ∧ o ∈ l) ∨ (kind ∉ severalKinds ∧ o = g))

/-- The names of the kinds of overlays. -/
def kindName : OvKind → Str
  | .label => c!"label"
  | .information => c!"information"
  | .encoding => c!"encoding"
  | .characterEncoding => c!"character_encoding"
  | .format => c!"format"
  | .metaOv => c!"meta"
  | .standard => c!"standard"
  | .cardinality => c!"cardinality"
  | .conditional => c!"conditional"
  | .conformance => c!"conformance"
  | .entryCode => c!"entry_code"
  | .entry => c!"entry"
  | .unit => c!"unit"
  | .attributeMapping => c!"attribute_mapping"
  | .entryCodeMapping => c!"entry_code_mapping"
  | .subset => c!"subset"
  | .unitMapping => c!"unit_mapping"
  | .layout => c!"layout"
  | .sensitivity => c!"sensitivity"
  | .link => c!"link"
  | .attributeFraming => c!"attribute_framing"

/-- The names of the encodings. -/
def encodingName : Encoding → Str
  | .base64 => c!"base64"
  | .utf8 => c!"utf-8"
  | .iso88591 => c!"iso-8859-1"
  | .utf16 => c!"utf-16"
  | .utf16be => c!"utf-16be"
  | .utf16le => c!"utf-16le"

/-- Under which kind, and in which member of the overlay, a fact stands. -/
def Fact.place : Fact → Str × Str
  | .encoding _ => (c!"character_encoding", c!"attribute_character_encoding")
  | .format _ => (c!"format", c!"attribute_formats")
  | .conformance _ => (c!"conformance", c!"attribute_conformance")
  | .cardinality _ => (c!"cardinality", c!"attribute_cardinality")
  | .unit _ => (c!"unit", c!"attribute_unit")
  | .condition _ _ => (c!"conditional", c!"attribute_conditions")
  | .entryCodes _ => (c!"entry_code", c!"attribute_entry_codes")
  | .entry _ _ => (c!"entry", c!"attribute_entries")
  | .label _ _ => (c!"label", c!"attribute_labels")
  | .information _ _ => (c!"information", c!"attribute_information")
  | .link _ _ => (c!"link", c!"attribute_mapping")
  | .framing _ _ => (c!"attribute_framing", c!"attribute_framing")

/-- The language, target or frame of the overlay is that of the fact. -/
def Fact.MarkedIn (o : Json) : Fact → Prop
  | .entry l _ => o.Has c!"language" (.str l)
  | .label l _ => o.Has c!"language" (.str l)
  | .information l _ => o.Has c!"language" (.str l)
  | .link t _ => o.Has c!"target_bundle" (.str t)
  | .framing id _ => ∃ md, o.Has c!"framing_metadata" md ∧ md.Has c!"frame_id" (.str id)
  | _ => True

/-- How the fact is written. Entry codes in a list are written in some order; the scopes of a frame by predicate and justification. -/
def Fact.WrittenAs : Fact → Json → Prop
  | .encoding e, v => v = .str (encodingName e)
  | .format s, v => v = .str s
  | .conformance s, v => v = .str s
  | .cardinality s, v => v = .str s
  | .unit s, v => v = .str s
  | .condition c _, v => v = .str c
  | .entryCodes (.sai s), v => v = .str s
  | .entryCodes (.array l), v => ∃ l', l'.Perm l ∧ v = .texts l'
  | .entryCodes (.object g), v => v = .obj (g.map fun p => (p.1, .texts p.2))
  | .entry _ (.sai s), v => v = .str s
  | .entry _ (.object m), v => (∃ ms, v = .obj ms) ∧ ∀ k w, v.Has k w ↔ ∃ s, m.get k = some s ∧ w = .str s
  | .label _ s, v => v = .str s
  | .information _ s, v => v = .str s
  | .link _ s, v => v = .str s
  | .framing _ f, v => (∃ ms, v = .obj ms) ∧ ∀ k w, v.Has k w ↔ ∃ s, f.get k = some s ∧
      w = .obj [(c!"predicate_id", .str s.predicateId), (c!"framing_justification", .str s.justification)]

/-- The document of a bundle says this about the attribute. -/
def Json.Tells (j : Json) (n : Str) (F : Fact) : Prop :=
  ∃ o t v, j.OverlayIn F.place.1 o ∧ F.MarkedIn o ∧ o.Has F.place.2 t ∧ t.Has n v ∧ F.WrittenAs v ∧
    ∀ c ds, F = .condition c ds → ∃ t', o.Has c!"attribute_dependencies" t' ∧ t'.Has n (.texts ds)

/-- Facts that are told in the same way: the same, but for the order of entry codes in a list and the metadata kept with a scope. -/
def Fact.SameTold : Fact → Fact → Prop
  | .entryCodes (.array l), G => ∃ l', G = .entryCodes (.array l') ∧ l.Perm l'
  | .framing id f, G => ∃ g, G = .framing id g ∧ ∀ k, (f.get k).map (fun s => (s.predicateId, s.justification)) = (g.get k).map fun s => (s.predicateId, s.justification)
  | F, G => F = G

/-- How the type of an attribute is written. -/
inductive TypeWritten : NAttr → Json → Prop
  | boolean : TypeWritten (.val .boolean) (.str c!"Boolean")
  | binary : TypeWritten (.val .binary) (.str c!"Binary")
  | text : TypeWritten (.val .text) (.str c!"Text")
  | numeric : TypeWritten (.val .numeric) (.str c!"Numeric")
  | dateTime : TypeWritten (.val .dateTime) (.str c!"DateTime")
  | said (s : Said) : TypeWritten (.ref (.said s)) (.str (c!"refs:" ++ s))
  | name (s : Str) : TypeWritten (.ref (.name s)) (.str (c!"refn:" ++ s))
  | array {t : NAttr} {j : Json} : TypeWritten t j → TypeWritten (.arr t) (.arr [j])
  | null : TypeWritten .null .null

/-! ## Reading a document -/

theorem Json.has_obj {ms : List (Str × Json)} {k : Str} {v : Json} : (Json.obj ms).Has k v ↔ (k, v) ∈ ms := by
  constructor
  · rintro ⟨_, e, h⟩; cases e; exact h
  · intro h; exact ⟨ms, rfl, h⟩

theorem has_toJson {V : Type} {f : V → Json} {m : FMap V} {k : Str} {w : Json} : (m.toJson f).Has k w ↔ ∃ v, m.get k = some v ∧ w = f v := by
  unfold FMap.toJson
  rw [Json.has_obj, List.mem_map]
  constructor
  · rintro ⟨⟨a, b⟩, h, e⟩
    obtain ⟨rfl, rfl⟩ := Prod.mk.inj e
    exact ⟨b, FMap.get_eq_some_iff.2 h, rfl⟩
  · rintro ⟨v, h, rfl⟩
    exact ⟨(k, v), FMap.get_eq_some_iff.1 h, rfl⟩

theorem several_iff (k : OvKind) : k.snake ∈ severalKinds ↔ k.many = true := by cases k <;> decide

theorem bundle_has (E : Env) (B : Bundle) (k : Str) (v : Json) : (B.toJson E).Has k v ↔
    (k = c!"v" ∧ v = .str (E.version (.obj (B.fieldsWith (saidJson B.said))))) ∨ (k = c!"d" ∧ v = saidJson B.said) ∨
    (k = c!"capture_base" ∧ v = B.captureBase.toJson) ∨ (k = c!"overlays" ∧ v = overlaysJson B.overlays) := by
  unfold Bundle.toJson versioned
  rw [Json.has_obj]
  simp [Bundle.fieldsWith]

theorem Bundle.WellMade.singles {B : Bundle} (h : B.WellMade) : SinglesOnce B.overlays := singlesOnce_of_slots h.single

theorem overlayIn_iff (E : Env) {B : Bundle} (hs : SinglesOnce B.overlays) (kind : Str) (o : Json) :
    (B.toJson E).OverlayIn kind o ↔ ∃ x ∈ B.overlays, x.body.kind.snake = kind ∧ o = x.toJson := by
  have hgrp : ∀ g, (overlaysJson B.overlays).Has kind g ↔ ∃ l, keptGroup B.overlays kind = some l ∧ g = groupJson kind l := by
    intro g
    unfold overlaysJson
    rw [Json.has_obj, List.mem_map]
    constructor
    · rintro ⟨⟨a, b⟩, h, e⟩
      obtain ⟨rfl, rfl⟩ := Prod.mk.inj e
      exact ⟨b, by rw [← get_groups]; exact FMap.get_eq_some_iff.2 h, rfl⟩
    · rintro ⟨l, h, rfl⟩
      rw [← get_groups] at h
      exact ⟨(kind, l), FMap.get_eq_some_iff.1 h, rfl⟩
  have hov : ∀ v, (B.toJson E).Has c!"overlays" v ↔ v = overlaysJson B.overlays := by
    intro v; rw [bundle_has]; simp
  unfold Json.OverlayIn
  constructor
  · rintro ⟨ovs, g, h1, h2, h⟩
    rw [(hov ovs).1 h1] at h2
    obtain ⟨l, hl, rfl⟩ := (hgrp g).1 h2
    unfold keptGroup at hl
    split at hl
    · cases hl
    · next x hx =>
      have hxm := List.mem_of_getLast? hx
      obtain ⟨hxB, hxk⟩ := List.mem_filter.1 hxm
      have hxk : x.body.kind.snake = kind := by simpa using hxk
      subst hxk
      by_cases hm : x.body.kind.many = true
      · rw [if_pos hm] at hl
        cases hl
        unfold groupJson at h
        rw [many_table, if_pos hm] at h
        rcases h with ⟨-, l, e, ho⟩ | ⟨hn, -⟩
        · cases e
          obtain ⟨y, hy, rfl⟩ := List.mem_map.1 ho
          obtain ⟨hyB, hyk⟩ := List.mem_filter.1 (sortOvs_mem.1 hy)
          exact ⟨y, hyB, by simpa using hyk, rfl⟩
        · exact absurd ((several_iff _).2 hm) hn
      · rw [if_neg hm] at hl
        cases hl
        unfold groupJson at h
        rw [many_table, if_neg hm] at h
        rcases h with ⟨hn, -⟩ | ⟨-, e⟩
        · exact absurd ((several_iff _).1 hn) hm
        · exact ⟨x, hxB, rfl, e⟩
  · rintro ⟨x, hxB, rfl, rfl⟩
    have hxm : x ∈ groupOf B.overlays x.body.kind.snake := List.mem_filter.2 ⟨hxB, by simp⟩
    cases hl : (groupOf B.overlays x.body.kind.snake).getLast? with
    | none => rw [List.getLast?_eq_none_iff] at hl; rw [hl] at hxm; cases hxm
    | some y =>
      have hyk := many_of_groupOf (List.mem_of_getLast? hl) hxm
      by_cases hm : x.body.kind.many = true
      · refine ⟨_, _, (hov _).2 rfl, (hgrp _).2 ⟨groupOf B.overlays x.body.kind.snake, ?_, rfl⟩, .inl ⟨(several_iff _).2 hm, (sortOvs (groupOf B.overlays x.body.kind.snake)).map Overlay.toJson, ?_, ?_⟩⟩
        · unfold keptGroup; rw [hl]; dsimp only; rw [hyk, if_pos hm]
        · unfold groupJson; rw [many_table, if_pos hm]
        · exact List.mem_map_of_mem (sortOvs_mem.2 hxm)
      · refine ⟨_, _, (hov _).2 rfl, (hgrp _).2 ⟨[y], ?_, rfl⟩, .inr ⟨fun h => hm ((several_iff _).1 h), ?_⟩⟩
        · unfold keptGroup; rw [hl]; dsimp only; rw [hyk, if_neg hm]
        · unfold groupJson
          rw [many_table, if_neg hm]
          have hle := hs x.body.kind (by simpa using hm)
          have hy2 : y ∈ B.overlays.filter (fun o => decide (o.body.kind = x.body.kind)) :=
            List.mem_filter.2 ⟨(List.mem_filter.1 (List.mem_of_getLast? hl)).1, by simp [hyk]⟩
          have hx2 : x ∈ B.overlays.filter (fun o => decide (o.body.kind = x.body.kind)) := List.mem_filter.2 ⟨hxB, by simp⟩
          generalize B.overlays.filter (fun o => decide (o.body.kind = x.body.kind)) = q at hle hy2 hx2
          match q, hle, hy2, hx2 with
          | [z], _, hy2, hx2 => rw [List.mem_singleton.1 hx2, List.mem_singleton.1 hy2]

/-- the members of an overlay's document -/
theorem overlay_has (x : Overlay) (k : Str) (v : Json) : x.toJson.Has k v ↔
    (k = c!"d" ∧ v = saidJson x.said) ∨ (k = c!"capture_base" ∧ v = saidJson x.captureBase) ∨ (k = c!"type" ∧ v = .str x.type.path) ∨ (k, v) ∈ x.body.fields := by
  unfold Overlay.toJson
  rw [Json.has_obj]
  unfold Overlay.fieldsWith
  rw [List.mem_append]
  split
  · simp; grind
  · simp; grind

theorem texts_inj {l l' : List Str} (h : Json.texts l = Json.texts l') : l = l' := by
  unfold Json.texts at h
  injection h with h
  induction l generalizing l' with
  | nil => cases l' with
    | nil => rfl
    | cons => cases h
  | cons a l ih => cases l' with
    | nil => cases h
    | cons b l' =>
      rw [List.map_cons, List.map_cons] at h
      obtain ⟨h1, h2⟩ := List.cons.inj h
      injection h1 with h1
      rw [h1, ih h2]

theorem groups_inj {g g' : List (Str × List Str)} (h : g.map (fun p => (p.1, Json.texts p.2)) = g'.map fun p => (p.1, Json.texts p.2)) : g = g' := by
  induction g generalizing g' with
  | nil => cases g' with
    | nil => rfl
    | cons => cases h
  | cons a l ih => cases g' with
    | nil => cases h
    | cons b l' =>
      rw [List.map_cons, List.map_cons] at h
      obtain ⟨h1, h2⟩ := List.cons.inj h
      obtain ⟨h1, h3⟩ := Prod.mk.inj h1
      rw [ih h2, Prod.ext h1 (texts_inj h3)]

theorem codes_written (e e' : EntryCodes) : (Fact.entryCodes e).WrittenAs e'.toJson ↔ (Fact.entryCodes e').SameTold (.entryCodes e) := by
  cases e with
  | sai s => cases e' <;> simp [Fact.WrittenAs, Fact.SameTold, EntryCodes.toJson, strsJson] <;> grind
  | array l =>
    cases e' with
    | array l' =>
      constructor
      · rintro ⟨l1, hp, e⟩
        refine ⟨l, rfl, ?_⟩
        rw [← texts_inj (show Json.texts (sortStr l') = Json.texts l1 from e)] at hp
        exact (perm_sortStr l').symm.trans hp
      · rintro ⟨_, e, hp⟩
        cases e
        exact ⟨sortStr l', (perm_sortStr l').trans hp, rfl⟩
    | sai s => simp [Fact.WrittenAs, Fact.SameTold, EntryCodes.toJson, Json.texts]
    | object g => simp [Fact.WrittenAs, Fact.SameTold, EntryCodes.toJson, Json.texts]
  | object g =>
    cases e' with
    | object g' =>
      constructor
      · intro h
        have h' : Json.obj (g'.map fun p => (p.1, Json.texts p.2)) = .obj (g.map fun p => (p.1, Json.texts p.2)) := h
        injection h' with h'
        rw [groups_inj h']; rfl
      · intro h
        have h' : Fact.entryCodes (.object g') = .entryCodes (.object g) := h
        injection h' with h'
        injection h' with h'
        rw [h']; rfl
    | sai s => simp [Fact.WrittenAs, Fact.SameTold, EntryCodes.toJson, Json.texts]
    | array g => simp [Fact.WrittenAs, Fact.SameTold, EntryCodes.toJson, strsJson]

theorem entry_written (l : Lang) (e e' : EntriesEl) : (Fact.entry l e).WrittenAs e'.toJson ↔ e' = e := by
  cases e with
  | sai s =>
    cases e' with
    | sai s' => simp [Fact.WrittenAs, EntriesEl.toJson]
    | object m' => simp [Fact.WrittenAs, EntriesEl.toJson, FMap.toJson]
  | object m =>
    cases e' with
    | sai s' => simp [Fact.WrittenAs, EntriesEl.toJson]
    | object m' =>
      constructor
      · rintro ⟨-, h⟩
        have : m' = m := by
          refine FMap.ext fun k => Option.ext fun v => ?_
          have := h k (.str v)
          rw [show (EntriesEl.object m').toJson = m'.toJson Json.str from rfl, has_toJson] at this
          constructor
          · intro hv
            obtain ⟨s, hs, e⟩ := this.1 ⟨v, hv, rfl⟩
            injection e with e; rw [e]; exact hs
          · intro hv
            obtain ⟨s, hs, e⟩ := this.2 ⟨v, hv, rfl⟩
            injection e with e; rw [e]; exact hs
        rw [this]
      · intro h
        injection h with h
        subst h
        exact ⟨⟨_, rfl⟩, fun k w => has_toJson⟩

theorem frame_written (id : Str) (f f' : FMap Scope) : (Fact.framing id f).WrittenAs (f'.toJson Scope.toJson) ↔ (Fact.framing id f').SameTold (.framing id f) := by
  have hk : ∀ g : FMap Scope, ∀ k w, (g.toJson Scope.toJson).Has k w ↔ ∃ s, g.get k = some s ∧
      w = .obj [(c!"predicate_id", .str s.predicateId), (c!"framing_justification", .str s.justification)] := fun g k w => has_toJson
  constructor
  · rintro ⟨-, h⟩
    refine ⟨f, rfl, fun k => Option.ext fun v => ?_⟩
    obtain ⟨a, b⟩ := v
    have h1 := h k (.obj [(c!"predicate_id", .str a), (c!"framing_justification", .str b)])
    rw [hk] at h1
    simp only [Option.map_eq_some_iff, Prod.mk.injEq]
    constructor
    · rintro ⟨s, hs, rfl, rfl⟩
      obtain ⟨s', hs', e⟩ := h1.1 ⟨s, hs, rfl⟩
      simp at e
      exact ⟨s', hs', e.1.symm, e.2.symm⟩
    · rintro ⟨s, hs, rfl, rfl⟩
      obtain ⟨s', hs', e⟩ := h1.2 ⟨s, hs, rfl⟩
      simp at e
      exact ⟨s', hs', e.1.symm, e.2.symm⟩
  · rintro ⟨g, e, h⟩
    injection e with _ e
    subst e
    refine ⟨⟨_, rfl⟩, fun k w => ?_⟩
    rw [hk]
    have h := h k
    constructor
    · rintro ⟨s, hs, rfl⟩
      rw [hs] at h
      obtain ⟨s', hs', e⟩ := Option.map_eq_some_iff.1 h.symm
      obtain ⟨e1, e2⟩ := Prod.mk.inj e
      exact ⟨s', hs', by rw [e1, e2]⟩
    · rintro ⟨s, hs, rfl⟩
      rw [hs] at h
      obtain ⟨s', hs', e⟩ := Option.map_eq_some_iff.1 h
      obtain ⟨e1, e2⟩ := Prod.mk.inj e
      exact ⟨s', hs', by rw [e1, e2]⟩

/-- what one overlay's document tells -/
def Overlay.DocTells (x : Overlay) (n : Str) (F : Fact) : Prop :=
  ∃ t v, F.MarkedIn x.toJson ∧ x.toJson.Has F.place.2 t ∧ t.Has n v ∧ F.WrittenAs v ∧
    ∀ c ds, F = .condition c ds → ∃ t', x.toJson.Has c!"attribute_dependencies" t' ∧ t'.Has n (.texts ds)

theorem body_of_kind {b : OvBody} {name : Str} (h : b.kind.snake = name) :
    (name = c!"character_encoding" → ∃ m, b = .charEnc m) ∧ (name = c!"format" → ∃ m, b = .format m) ∧
    (name = c!"conformance" → ∃ m, b = .conformance m) ∧ (name = c!"cardinality" → ∃ m, b = .cardinality m) ∧
    (name = c!"unit" → ∃ m, b = .unit m) ∧ (name = c!"conditional" → ∃ m d, b = .conditional m d) ∧
    (name = c!"entry_code" → ∃ m, b = .entryCode m) ∧ (name = c!"entry" → ∃ l m, b = .entry l m) ∧
    (name = c!"label" → ∃ l cs m cl, b = .label l cs m cl) ∧ (name = c!"information" → ∃ l m, b = .information l m) ∧
    (name = c!"link" → ∃ l m, b = .link l m) ∧ (name = c!"attribute_framing" → ∃ md m, b = .framing md m) ∧
    (name = c!"meta" → ∃ l m, b = .metaOv l m) := by
  subst h
  cases b <;> refine ⟨?_, ?_, ?_, ?_, ?_, ?_, ?_, ?_, ?_, ?_, ?_, ?_, ?_⟩ <;> intro h <;>
    first
    | exact ⟨_, rfl⟩
    | exact ⟨_, _, rfl⟩
    | exact ⟨_, _, _, _, rfl⟩
    | (exfalso; simp [OvBody.kind, OvKind.snake] at h)

theorem plain_told (x : Overlay) (n field : Str) (m : FMap Str) (s : Str) (hf : ∀ t, x.toJson.Has field t ↔ t = m.toJson Json.str) :
    (∃ t v, x.toJson.Has field t ∧ t.Has n v ∧ v = .str s) ↔ m.get n = some s := by
  constructor
  · rintro ⟨t, v, h1, h2, rfl⟩
    rw [hf] at h1
    subst h1
    obtain ⟨w, hw, e⟩ := has_toJson.1 h2
    injection e with e
    rw [e]; exact hw
  · intro h
    exact ⟨_, _, (hf _).2 rfl, has_toJson.2 ⟨s, h, rfl⟩, rfl⟩

theorem sameTold_iff {F G : Fact} (h : ∀ e, F ≠ .entryCodes e) (h' : ∀ i f, F ≠ .framing i f) : G.SameTold F ↔ G = F := by
  constructor
  · intro hs
    cases G with
    | entryCodes e =>
      cases e with
      | array l => obtain ⟨l', e, -⟩ := hs; exact absurd e (h _)
      | _ => exact hs
    | framing i f => obtain ⟨g, e, -⟩ := hs; exact absurd e (h' _ _)
    | _ => exact hs
  · rintro rfl
    cases G with
    | entryCodes e => exact absurd rfl (h e)
    | framing i f => exact absurd rfl (h' i f)
    | _ => rfl

theorem told_same {x : Overlay} {n : Str} {F : Fact} (h : ∀ e, F ≠ .entryCodes e) (h' : ∀ i f, F ≠ .framing i f) :
    (∃ G, x.body.States n G ∧ G.SameTold F) ↔ x.body.States n F := by
  constructor
  · rintro ⟨G, hG, hs⟩
    rw [(sameTold_iff h h').1 hs] at hG
    exact hG
  · intro hF; exact ⟨F, hF, (sameTold_iff h h').2 rfl⟩

theorem encoding_name_inj {e e' : Encoding} (h : encodingName e = encodingName e') : e = e' := by
  cases e <;> cases e' <;> first | rfl | (exfalso; revert h; decide)

theorem encoding_name (e : Encoding) : e.toStr = encodingName e := by cases e <;> rfl

theorem doc_tells (x : Overlay) (n : Str) (F : Fact) : (x.body.kind.snake = F.place.1 ∧ x.DocTells n F) ↔ ∃ G, x.body.States n G ∧ G.SameTold F := by
  obtain ⟨s, cb, ty, b⟩ := x
  cases F with
  | format u =>
    rw [told_same (by simp) (by simp)]
    constructor
    · rintro ⟨hk, t, v, -, h1, h2, h3, -⟩
      obtain ⟨m, rfl⟩ := (body_of_kind hk).2.1 rfl
      exact ⟨m, rfl, (plain_told ⟨s, cb, ty, .format m⟩ n c!"attribute_formats" m u (fun t => by rw [overlay_has]; simp [OvBody.fields])).1 ⟨t, v, h1, h2, h3⟩⟩
    · rintro ⟨m, rfl, hm⟩
      obtain ⟨t, v, h1, h2, h3⟩ := (plain_told ⟨s, cb, ty, .format m⟩ n c!"attribute_formats" m u (fun t => by rw [overlay_has]; simp [OvBody.fields])).2 hm
      exact ⟨rfl, t, v, trivial, h1, h2, h3, fun _ _ e => by cases e⟩
  | conformance u =>
    rw [told_same (by simp) (by simp)]
    constructor
    · rintro ⟨hk, t, v, -, h1, h2, h3, -⟩
      obtain ⟨m, rfl⟩ := (body_of_kind hk).2.2.1 rfl
      exact ⟨m, rfl, (plain_told ⟨s, cb, ty, .conformance m⟩ n c!"attribute_conformance" m u (fun t => by rw [overlay_has]; simp [OvBody.fields])).1 ⟨t, v, h1, h2, h3⟩⟩
    · rintro ⟨m, rfl, hm⟩
      obtain ⟨t, v, h1, h2, h3⟩ := (plain_told ⟨s, cb, ty, .conformance m⟩ n c!"attribute_conformance" m u (fun t => by rw [overlay_has]; simp [OvBody.fields])).2 hm
      exact ⟨rfl, t, v, trivial, h1, h2, h3, fun _ _ e => by cases e⟩
  | cardinality u =>
    rw [told_same (by simp) (by simp)]
    constructor
    · rintro ⟨hk, t, v, -, h1, h2, h3, -⟩
      obtain ⟨m, rfl⟩ := (body_of_kind hk).2.2.2.1 rfl
      exact ⟨m, rfl, (plain_told ⟨s, cb, ty, .cardinality m⟩ n c!"attribute_cardinality" m u (fun t => by rw [overlay_has]; simp [OvBody.fields])).1 ⟨t, v, h1, h2, h3⟩⟩
    · rintro ⟨m, rfl, hm⟩
      obtain ⟨t, v, h1, h2, h3⟩ := (plain_told ⟨s, cb, ty, .cardinality m⟩ n c!"attribute_cardinality" m u (fun t => by rw [overlay_has]; simp [OvBody.fields])).2 hm
      exact ⟨rfl, t, v, trivial, h1, h2, h3, fun _ _ e => by cases e⟩
  | unit u =>
    rw [told_same (by simp) (by simp)]
    constructor
    · rintro ⟨hk, t, v, -, h1, h2, h3, -⟩
      obtain ⟨m, rfl⟩ := (body_of_kind hk).2.2.2.2.1 rfl
      exact ⟨m, rfl, (plain_told ⟨s, cb, ty, .unit m⟩ n c!"attribute_unit" m u (fun t => by rw [overlay_has]; simp [OvBody.fields])).1 ⟨t, v, h1, h2, h3⟩⟩
    · rintro ⟨m, rfl, hm⟩
      obtain ⟨t, v, h1, h2, h3⟩ := (plain_told ⟨s, cb, ty, .unit m⟩ n c!"attribute_unit" m u (fun t => by rw [overlay_has]; simp [OvBody.fields])).2 hm
      exact ⟨rfl, t, v, trivial, h1, h2, h3, fun _ _ e => by cases e⟩
  | label lg u =>
    rw [told_same (by simp) (by simp)]
    constructor
    · rintro ⟨hk, t, v, hm, h1, h2, h3, -⟩
      obtain ⟨l, cs, m, cl, rfl⟩ := (body_of_kind hk).2.2.2.2.2.2.2.2.1 rfl
      have e : lg = l := by
        have h := (overlay_has ⟨s, cb, ty, .label l cs m cl⟩ c!"language" (.str lg)).1 hm
        simpa [OvBody.fields] using h
      subst e
      exact ⟨cs, m, cl, rfl, (plain_told ⟨s, cb, ty, .label lg cs m cl⟩ n c!"attribute_labels" m u (fun t => by rw [overlay_has]; simp [OvBody.fields])).1 ⟨t, v, h1, h2, h3⟩⟩
    · rintro ⟨cs, m, cl, rfl, hm⟩
      obtain ⟨t, v, h1, h2, h3⟩ := (plain_told ⟨s, cb, ty, .label lg cs m cl⟩ n c!"attribute_labels" m u (fun t => by rw [overlay_has]; simp [OvBody.fields])).2 hm
      exact ⟨rfl, t, v, (overlay_has _ _ _).2 (by simp [OvBody.fields]), h1, h2, h3, fun _ _ e => by cases e⟩
  | information lg u =>
    rw [told_same (by simp) (by simp)]
    constructor
    · rintro ⟨hk, t, v, hm, h1, h2, h3, -⟩
      obtain ⟨l, m, rfl⟩ := (body_of_kind hk).2.2.2.2.2.2.2.2.2.1 rfl
      have e : lg = l := by
        have h := (overlay_has ⟨s, cb, ty, .information l m⟩ c!"language" (.str lg)).1 hm
        simpa [OvBody.fields] using h
      subst e
      exact ⟨m, rfl, (plain_told ⟨s, cb, ty, .information lg m⟩ n c!"attribute_information" m u (fun t => by rw [overlay_has]; simp [OvBody.fields])).1 ⟨t, v, h1, h2, h3⟩⟩
    · rintro ⟨m, rfl, hm⟩
      obtain ⟨t, v, h1, h2, h3⟩ := (plain_told ⟨s, cb, ty, .information lg m⟩ n c!"attribute_information" m u (fun t => by rw [overlay_has]; simp [OvBody.fields])).2 hm
      exact ⟨rfl, t, v, (overlay_has _ _ _).2 (by simp [OvBody.fields]), h1, h2, h3, fun _ _ e => by cases e⟩
  | link lg u =>
    rw [told_same (by simp) (by simp)]
    constructor
    · rintro ⟨hk, t, v, hm, h1, h2, h3, -⟩
      obtain ⟨l, m, rfl⟩ := (body_of_kind hk).2.2.2.2.2.2.2.2.2.2.1 rfl
      have e : lg = l := by
        have h := (overlay_has ⟨s, cb, ty, .link l m⟩ c!"target_bundle" (.str lg)).1 hm
        simpa [OvBody.fields] using h
      subst e
      exact ⟨m, rfl, (plain_told ⟨s, cb, ty, .link lg m⟩ n c!"attribute_mapping" m u (fun t => by rw [overlay_has]; simp [OvBody.fields])).1 ⟨t, v, h1, h2, h3⟩⟩
    · rintro ⟨m, rfl, hm⟩
      obtain ⟨t, v, h1, h2, h3⟩ := (plain_told ⟨s, cb, ty, .link lg m⟩ n c!"attribute_mapping" m u (fun t => by rw [overlay_has]; simp [OvBody.fields])).2 hm
      exact ⟨rfl, t, v, (overlay_has _ _ _).2 (by simp [OvBody.fields]), h1, h2, h3, fun _ _ e => by cases e⟩
  | encoding u =>
    rw [told_same (by simp) (by simp)]
    have hf : ∀ m t, (Overlay.toJson ⟨s, cb, ty, .charEnc m⟩).Has c!"attribute_character_encoding" t ↔ t = m.toJson (fun e => .str e.toStr) :=
      fun m t => by rw [overlay_has]; simp [OvBody.fields]
    constructor
    · rintro ⟨hk, t, v, -, h1, h2, h3, -⟩
      obtain ⟨m, rfl⟩ := (body_of_kind hk).1 rfl
      refine ⟨m, rfl, ?_⟩
      rw [(hf m t).1 h1] at h2
      obtain ⟨w, hw, e⟩ := has_toJson.1 h2
      rw [show v = .str (encodingName u) from h3, encoding_name] at e
      injection e with e
      rw [encoding_name_inj e]; exact hw
    · rintro ⟨m, rfl, hm⟩
      exact ⟨rfl, _, _, trivial, (hf m _).2 rfl, has_toJson.2 ⟨u, hm, rfl⟩, congrArg Json.str (encoding_name u), fun _ _ e => by cases e⟩
  | condition c ds =>
    rw [told_same (by simp) (by simp)]
    have hf : ∀ m d t, (Overlay.toJson ⟨s, cb, ty, .conditional m d⟩).Has c!"attribute_conditions" t ↔ t = m.toJson .str :=
      fun m d t => by rw [overlay_has]; simp [OvBody.fields]
    have hg : ∀ m d t, (Overlay.toJson ⟨s, cb, ty, .conditional m d⟩).Has c!"attribute_dependencies" t ↔ t = d.toJson strsJson :=
      fun m d t => by rw [overlay_has]; simp [OvBody.fields]
    constructor
    · rintro ⟨hk, t, v, -, h1, h2, h3, h4⟩
      obtain ⟨m, d, rfl⟩ := (body_of_kind hk).2.2.2.2.2.1 rfl
      obtain ⟨t', h5, h6⟩ := h4 c ds rfl
      rw [(hf m d t).1 h1] at h2
      rw [(hg m d t').1 h5] at h6
      obtain ⟨w, hw, e⟩ := has_toJson.1 h2
      obtain ⟨w', hw', e'⟩ := has_toJson.1 h6
      rw [show v = .str c from h3] at e
      injection e with e
      refine ⟨m, d, rfl, ?_, ?_⟩
      · rw [e]; exact hw
      · rw [texts_inj (show Json.texts ds = Json.texts w' from e')]; exact hw'
    · rintro ⟨m, d, rfl, hm, hd⟩
      refine ⟨rfl, _, _, trivial, (hf m d _).2 rfl, has_toJson.2 ⟨c, hm, rfl⟩, rfl, ?_⟩
      rintro c' ds' e
      cases e
      exact ⟨_, (hg m d _).2 rfl, has_toJson.2 ⟨ds, hd, rfl⟩⟩
  | entryCodes u =>
    have hf : ∀ m t, (Overlay.toJson ⟨s, cb, ty, .entryCode m⟩).Has c!"attribute_entry_codes" t ↔ t = m.toJson EntryCodes.toJson :=
      fun m t => by rw [overlay_has]; simp [OvBody.fields]
    constructor
    · rintro ⟨hk, t, v, -, h1, h2, h3, -⟩
      obtain ⟨m, rfl⟩ := (body_of_kind hk).2.2.2.2.2.2.1 rfl
      rw [(hf m t).1 h1] at h2
      obtain ⟨w, hw, rfl⟩ := has_toJson.1 h2
      exact ⟨.entryCodes w, ⟨m, rfl, hw⟩, (codes_written u w).1 h3⟩
    · rintro ⟨G, hG, hs⟩
      have : ∃ w, G = .entryCodes w := by
        cases G with
        | entryCodes w => exact ⟨w, rfl⟩
        | framing => obtain ⟨_, e, -⟩ := hs; cases e
        | _ => cases hs
      obtain ⟨w, rfl⟩ := this
      obtain ⟨m, rfl, hm⟩ := hG
      exact ⟨rfl, _, _, trivial, (hf m _).2 rfl, has_toJson.2 ⟨w, hm, rfl⟩, (codes_written u w).2 hs, fun _ _ e => by cases e⟩
  | entry lg u =>
    rw [told_same (by simp) (by simp)]
    have hf : ∀ l m t, (Overlay.toJson ⟨s, cb, ty, .entry l m⟩).Has c!"attribute_entries" t ↔ t = m.toJson EntriesEl.toJson :=
      fun l m t => by rw [overlay_has]; simp [OvBody.fields]
    have hl : ∀ l m t, (Overlay.toJson ⟨s, cb, ty, .entry l m⟩).Has c!"language" t ↔ t = .str l :=
      fun l m t => by rw [overlay_has]; simp [OvBody.fields]
    constructor
    · rintro ⟨hk, t, v, hm, h1, h2, h3, -⟩
      obtain ⟨l, m, rfl⟩ := (body_of_kind hk).2.2.2.2.2.2.2.1 rfl
      have e := (hl l m _).1 hm
      injection e with e
      subst e
      rw [(hf lg m t).1 h1] at h2
      obtain ⟨w, hw, rfl⟩ := has_toJson.1 h2
      rw [(entry_written lg u w).1 h3] at hw
      exact ⟨m, rfl, hw⟩
    · rintro ⟨m, rfl, hm⟩
      exact ⟨rfl, _, _, (hl lg m _).2 rfl, (hf lg m _).2 rfl, has_toJson.2 ⟨u, hm, rfl⟩, (entry_written lg u u).2 rfl, fun _ _ e => by cases e⟩
  | framing id u =>
    have hf : ∀ md m t, (Overlay.toJson ⟨s, cb, ty, .framing md m⟩).Has c!"attribute_framing" t ↔ t = m.toJson (·.toJson Scope.toJson) :=
      fun l m t => by rw [overlay_has]; simp [OvBody.fields]
    have hl : ∀ md m t, (Overlay.toJson ⟨s, cb, ty, .framing md m⟩).Has c!"framing_metadata" t ↔ t = md.toJson .str :=
      fun l m t => by rw [overlay_has]; simp [OvBody.fields]
    constructor
    · rintro ⟨hk, t, v, ⟨x, hx, hi⟩, h1, h2, h3, -⟩
      obtain ⟨md, m, rfl⟩ := (body_of_kind hk).2.2.2.2.2.2.2.2.2.2.2.1 rfl
      rw [(hl md m x).1 hx] at hi
      obtain ⟨i, hi', e⟩ := has_toJson.1 hi
      injection e with e
      rw [← e] at hi'
      rw [(hf md m t).1 h1] at h2
      obtain ⟨w, hw, rfl⟩ := has_toJson.1 h2
      exact ⟨.framing id w, ⟨md, m, rfl, hi', hw⟩, (frame_written id u w).1 h3⟩
    · rintro ⟨G, hG, hs⟩
      have : ∃ w, G = .framing id w := by
        cases G with
        | entryCodes w =>
          cases w with
          | array l => obtain ⟨_, e, -⟩ := hs; cases e
          | _ => cases hs
        | framing i w => obtain ⟨_, e, -⟩ := hs; cases e; exact ⟨w, rfl⟩
        | _ => cases hs
      obtain ⟨w, rfl⟩ := this
      obtain ⟨md, m, rfl, hi, hm⟩ := hG
      exact ⟨rfl, _, _, ⟨_, (hl md m _).2 rfl, has_toJson.2 ⟨id, hi, rfl⟩⟩, (hf md m _).2 rfl, has_toJson.2 ⟨w, hm, rfl⟩, (frame_written id u w).2 hs, fun _ _ e => by cases e⟩

/-! ## The theorems -/

/-- **C74** The document of a bundle tells about an attribute what the bundle tells, no more and no less. -/
theorem C74_tells (E : Env) (B : Bundle) (hB : B.WellMade) (n : Str) (F : Fact) : (B.toJson E).Tells n F ↔ ∃ G, B.Tells n G ∧ G.SameTold F := by
  constructor
  · rintro ⟨o, t, v, ho, h⟩
    obtain ⟨x, hx, hk, rfl⟩ := (overlayIn_iff E hB.singles _ _).1 ho
    obtain ⟨G, hG, hs⟩ := (doc_tells x n F).1 ⟨hk, t, v, h⟩
    exact ⟨G, ⟨x, hx, hG⟩, hs⟩
  · rintro ⟨G, ⟨x, hx, hG⟩, hs⟩
    obtain ⟨hk, t, v, h⟩ := (doc_tells x n F).2 ⟨G, hG, hs⟩
    exact ⟨x.toJson, t, v, (overlayIn_iff E hB.singles _ _).2 ⟨x, hx, hk, rfl⟩, h⟩

theorem typeWritten_iff (t : NAttr) (j : Json) : TypeWritten t j ↔ j = t.toJson := by
  constructor
  · intro h
    induction h with
    | array _ ih => rw [ih]; rfl
    | _ => rfl
  · rintro rfl
    induction t with
    | ref r => cases r with
      | said s => exact .said s
      | name s => exact .name s
    | val t => cases t <;> constructor
    | arr t ih => exact .array ih
    | null => exact .null

theorem insStr_sorted (a : Str) (l : List Str) (h : l.Pairwise fun a b => Str.lt b a = false) : (insStr a l).Pairwise fun a b => Str.lt b a = false := by
  induction l with
  | nil => exact List.pairwise_singleton ..
  | cons b l ih =>
    rw [List.pairwise_cons] at h
    unfold insStr
    split
    · next hlt =>
      rw [List.pairwise_cons]
      refine ⟨fun c hc => ?_, ih h.2⟩
      have hp : (insStr a l).Perm (a :: l) := perm_insStr a l
      rcases List.mem_cons.1 (hp.mem_iff.1 hc) with rfl | hc
      · exact Str.lt_asymm hlt
      · exact h.1 c hc
    · next hn =>
      rw [List.pairwise_cons]
      refine ⟨fun c hc => ?_, List.pairwise_cons.2 h⟩
      rcases List.mem_cons.1 hc with rfl | hc
      · simpa using hn
      · have h1 := h.1 c hc
        cases hca : Str.lt c a with
        | false => rfl
        | true =>
          exfalso
          rcases Str.lt_trichotomy a b with hab | hab | hab
          · rw [Str.lt_trans hca hab] at h1; cases h1
          · rw [hab] at hca; rw [hca] at h1; cases h1
          · exact hn hab

theorem sortStr_sorted (l : List Str) : (sortStr l).Pairwise fun a b => Str.lt b a = false := by
  induction l with
  | nil => exact List.Pairwise.nil
  | cons a l ih => exact insStr_sorted a _ ih

/-- **C74** The capture base in the document: each attribute with its type, the classification, the flagged attributes sorted, and its identifier. -/
theorem C74_capture_base (E : Env) (B : Bundle) :
    ∃ cb as, (∀ v, (B.toJson E).Has c!"capture_base" v ↔ v = cb) ∧ (∀ v, cb.Has c!"attributes" v ↔ v = as) ∧
      (∀ n v, as.Has n v ↔ ∃ t, B.captureBase.attributes.get n = some t ∧ TypeWritten t v) ∧
      (∀ v, cb.Has c!"classification" v ↔ v = .str B.captureBase.classification) ∧
      (∀ s, cb.Has c!"d" (.str s) ↔ B.captureBase.said = some s) ∧
      (∀ v, cb.Has c!"type" v ↔ v = .str B.captureBase.schemaType) ∧
      ∃ l : List Str, (∀ v, cb.Has c!"flagged_attributes" v ↔ v = .texts l) ∧ l.Perm B.captureBase.flagged ∧ l.Pairwise (fun a b => Str.lt b a = false) := by
  have hc : ∀ k v, B.captureBase.toJson.Has k v ↔ (k, v) ∈ B.captureBase.fieldsWith (saidJson B.captureBase.said) := fun k v => Json.has_obj
  refine ⟨B.captureBase.toJson, B.captureBase.attributes.toJson NAttr.toJson, fun v => by rw [bundle_has]; simp, fun v => by rw [hc]; simp [CaptureBase.fieldsWith],
    fun n v => ?_, fun v => by rw [hc]; simp [CaptureBase.fieldsWith], fun s => ?_, fun v => by rw [hc]; simp [CaptureBase.fieldsWith],
    sortStr B.captureBase.flagged, fun v => by rw [hc]; simp [CaptureBase.fieldsWith]; rfl, perm_sortStr _, ?_⟩
  · rw [has_toJson]
    simp only [typeWritten_iff]
  · rw [hc]
    simp only [CaptureBase.fieldsWith]
    cases B.captureBase.said <;> simp [saidJson] <;> exact eq_comm
  · exact sortStr_sorted _

/-- **C74** Meta in the document, when no pair is named like a member every overlay has. -/
theorem C74_meta (E : Env) (B : Bundle) (hB : B.WellMade) (hl : ∀ l v, ¬ B.HasMeta l c!"language" v) (l : Lang) (k v : Str)
    (hk : k ∉ [c!"d", c!"type", c!"capture_base", c!"language"]) :
    (∃ o, (B.toJson E).OverlayIn c!"meta" o ∧ o.Has c!"language" (.str l) ∧ o.Has k (.str v)) ↔ B.HasMeta l k v := by
  simp only [List.mem_cons, List.not_mem_nil, or_false, not_or] at hk
  obtain ⟨k1, k2, k3, k4⟩ := hk
  have hm : ∀ s cb ty lg (ps : FMap Str) k v, (Overlay.toJson ⟨s, cb, ty, .metaOv lg ps⟩).Has k v ↔
      (k = c!"d" ∧ v = saidJson s) ∨ (k = c!"capture_base" ∧ v = saidJson cb) ∨ (k = c!"type" ∧ v = .str (Overlay.type ⟨s, cb, ty, .metaOv lg ps⟩).path) ∨
        (k = c!"language" ∧ v = .str lg) ∨ (ps.toJson .str).Has k v := by
    intro s cb ty lg ps k v
    rw [overlay_has]
    have : (k, v) ∈ OvBody.fields (.metaOv lg ps) ↔ (k = c!"language" ∧ v = .str lg) ∨ (ps.toJson .str).Has k v := by
      unfold FMap.toJson
      rw [Json.has_obj]
      simp only [OvBody.fields, List.mem_cons, Prod.mk.injEq]
    rw [← this]
  constructor
  · rintro ⟨o, ho, h1, h2⟩
    obtain ⟨⟨s, cb, ty, b⟩, hx, hkd, rfl⟩ := (overlayIn_iff E hB.singles _ _).1 ho
    obtain ⟨lg, ps, rfl⟩ := (body_of_kind hkd).2.2.2.2.2.2.2.2.2.2.2.2 rfl
    rw [hm] at h1 h2
    have hlg : l = lg := by
      rcases h1 with ⟨h, -⟩ | ⟨h, -⟩ | ⟨h, -⟩ | ⟨-, h⟩ | h
      · cases h
      · cases h
      · cases h
      · injection h
      · obtain ⟨w, hw, -⟩ := has_toJson.1 h
        exact absurd ⟨_, hx, ps, rfl, hw⟩ (hl lg w)
    subst hlg
    simp only [k1, k2, k3, k4, false_and, false_or] at h2
    obtain ⟨w, hw, e⟩ := has_toJson.1 h2
    injection e with e
    exact ⟨_, hx, ps, rfl, by rw [e]; exact hw⟩
  · rintro ⟨⟨s, cb, ty, b⟩, hx, ps, rfl, hv⟩
    exact ⟨_, (overlayIn_iff E hB.singles _ _).2 ⟨_, hx, rfl, rfl⟩, (hm _ _ _ _ _ _ _).2 (.inr (.inr (.inr (.inl ⟨rfl, rfl⟩)))),
      (hm _ _ _ _ _ _ _).2 (.inr (.inr (.inr (.inr (has_toJson.2 ⟨v, hv, rfl⟩)))))⟩

theorem snake_name (k : OvKind) : k.snake = kindName k := by cases k <;> rfl

/-- the kind in the path of an overlay's type -/
def typeSegment (kind : Str) : Str := if kind = c!"attribute_mapping" then c!"mapping" else kind

theorem segment_of_snake (k : OvKind) : k.segment = typeSegment k.snake := by cases k <;> rfl

/-- **C74** The rest of the document of a bundle that was generated: under `d` the identifier; the members of `overlays` are the kinds there are, in an array in
the order of their identifiers if there can be several, as many as there are overlays of the kind; each overlay has its identifier, that of the capture base and its type. -/
theorem C74_overlays {ε : Type} (E : Env) (O : Order) (box : OCABox) (hr : Reachable E box) (B : Bundle) (h : (generateBundle E O box : Res ε _) = .ok B) :
    ∃ said base ovs, B.said = some said ∧ B.captureBase.said = some base ∧ (∀ v, (B.toJson E).Has c!"d" v ↔ v = .str said) ∧
      (∀ v, (B.toJson E).Has c!"overlays" v ↔ v = ovs) ∧
      (∀ kind, (∃ g, ovs.Has kind g) ↔ ∃ x ∈ B.overlays, kindName x.body.kind = kind) ∧
      (∀ kind g g', ovs.Has kind g → ovs.Has kind g' → g = g') ∧
      (∀ kind g, kind ∈ severalKinds → ovs.Has kind g → ∃ l ds, g = .arr l ∧ l.length = (B.overlays.filter fun x => decide (kindName x.body.kind = kind)).length ∧
        All2 (fun o d => o.Has c!"d" (.str d)) l ds ∧ ds.Pairwise fun a b => Str.lt b a = false) ∧
      (∀ kind o, (B.toJson E).OverlayIn kind o → ∃ d, o.Has c!"d" (.str d) ∧ o.Has c!"capture_base" (.str base) ∧
        o.Has c!"type" (.str (c!"spec/overlays/" ++ typeSegment kind ++ c!"/1.1"))) := by
  simp only [← snake_name]
  obtain ⟨hv, hs⟩ := C21_generated_singles E O box hr B h
  obtain ⟨-, rfl⟩ := generateBundle_eq_ok h
  have hver : ∀ o ∈ (bundleOf E O box).overlays, o.ver = c!"1.1" := by
    intro o ho
    obtain ⟨b, -, rfl⟩ := List.mem_map.1 (show o ∈ (genBodies O box).map _ from ho)
    rfl
  generalize bundleOf E O box = B at hv hs hver
  have hgrp : ∀ kind g, (overlaysJson B.overlays).Has kind g ↔ ∃ l, keptGroup B.overlays kind = some l ∧ g = groupJson kind l := by
    intro kind g
    unfold overlaysJson
    rw [Json.has_obj, List.mem_map]
    constructor
    · rintro ⟨⟨a, b⟩, h, e⟩
      obtain ⟨rfl, rfl⟩ := Prod.mk.inj e
      exact ⟨b, by rw [← get_groups]; exact FMap.get_eq_some_iff.2 h, rfl⟩
    · rintro ⟨l, h, rfl⟩
      rw [← get_groups] at h
      exact ⟨(kind, l), FMap.get_eq_some_iff.1 h, rfl⟩
  refine ⟨_, _, overlaysJson B.overlays, hv.bundle, hv.base, fun v => by rw [bundle_has, hv.bundle]; simp [saidJson], fun v => by rw [bundle_has]; simp, ?_, ?_, ?_, ?_⟩
  · intro kind
    constructor
    · rintro ⟨g, hg⟩
      obtain ⟨l, hl, -⟩ := (hgrp kind g).1 hg
      unfold keptGroup at hl
      split at hl
      · cases hl
      · next x hx =>
        obtain ⟨hxB, hxk⟩ := List.mem_filter.1 (List.mem_of_getLast? hx)
        exact ⟨x, hxB, by simpa using hxk⟩
    · rintro ⟨x, hx, rfl⟩
      obtain ⟨g, hg, -⟩ := shown_kept (hs.shown hx)
      exact ⟨_, (hgrp _ _).2 ⟨g, hg, rfl⟩⟩
  · intro kind g g' h1 h2
    obtain ⟨l, hl, rfl⟩ := (hgrp kind g).1 h1
    obtain ⟨l', hl', rfl⟩ := (hgrp kind g').1 h2
    rw [hl] at hl'
    cases hl'; rfl
  · intro kind g hk hg
    obtain ⟨l, hl, rfl⟩ := (hgrp kind g).1 hg
    unfold keptGroup at hl
    split at hl
    · cases hl
    · next x hx =>
      obtain ⟨hxB, hxk⟩ := List.mem_filter.1 (List.mem_of_getLast? hx)
      have hxk : x.body.kind.snake = kind := by simpa using hxk
      subst hxk
      have hm := (several_iff _).1 hk
      rw [if_pos hm] at hl
      cases hl
      have hsome : ∀ o ∈ groupOf B.overlays x.body.kind.snake, o.said.isSome = true := by
        intro o ho
        rw [(hv.overlays o (List.mem_filter.1 ho).1).1]; rfl
      refine ⟨(sortOvs (groupOf B.overlays x.body.kind.snake)).map Overlay.toJson, (sortOvs (groupOf B.overlays x.body.kind.snake)).map fun o => o.said.getD [], ?_, ?_, ?_, ?_⟩
      · unfold groupJson; rw [many_table, if_pos hm]
      · rw [List.length_map, (perm_sortOvs _).length_eq]; rfl
      · have : ∀ o ∈ sortOvs (groupOf B.overlays x.body.kind.snake), o.said.isSome = true := fun o ho => hsome o (sortOvs_mem.1 ho)
        generalize sortOvs (groupOf B.overlays x.body.kind.snake) = q at this
        induction q with
        | nil => exact .nil
        | cons o q ih =>
          refine .cons ((overlay_has o _ _).2 (.inl ⟨rfl, ?_⟩)) (ih fun p hp => this p (List.mem_cons_of_mem _ hp))
          have := this o (List.mem_cons_self ..)
          cases ho : o.said with
          | none => rw [ho] at this; cases this
          | some s => dsimp only; rw [ho]; rfl
      · rw [List.pairwise_map]
        refine (List.pairwise_iff_forall_sublist.2 ?_)
        intro a b hab
        have h1 := (List.pairwise_iff_forall_sublist.1 (sortOvs_sorted _ hsome)) hab
        have ha := hsome a (sortOvs_mem.1 (hab.subset (by simp)))
        have hb := hsome b (sortOvs_mem.1 (hab.subset (by simp)))
        unfold saidLe at h1
        cases ea : a.said with
        | none => rw [ea] at ha; cases ha
        | some s => cases eb : b.said with
          | none => rw [eb] at hb; cases hb
          | some t =>
            rw [ea, eb] at h1
            simpa using h1
  · intro kind o ho
    obtain ⟨x, hx, rfl, rfl⟩ := (overlayIn_iff E hs _ _).1 ho
    obtain ⟨h1, h2⟩ := hv.overlays x hx
    refine ⟨_, (overlay_has x _ _).2 (.inl ⟨rfl, by rw [h1]; rfl⟩), (overlay_has x _ _).2 (.inr (.inl ⟨rfl, by rw [h2, hv.base]; rfl⟩)),
      (overlay_has x _ _).2 (.inr (.inr (.inl ⟨rfl, ?_⟩)))⟩
    unfold OverlayType.path Overlay.type
    rw [hver x hx, segment_of_snake]
    simp

/-- **C74** So the document of a built bundle says about an attribute what the last command to speak of it said; what the base's document says if the commands neither remove the
attribute nor speak of it. -/
theorem C74_last_command {E : Env} {Os : Nat → Order} {base : Option Bundle} {ast : OCAAst} {b : Build} (h : fromAst E Os base ast = .ok b)
    (hD : ∀ c ∈ ast.commands, c.Distinct) (hB : ∀ B, base = some B → B.WellMade) (n : Str) {F : Fact} (hF : F.overwritten = true) :
    (b.bundle.toJson E).Tells n F ↔
      LastSays (Says E · n F) (Silent E · n F.slot) ast.commands ∨
      ((∀ c ∈ ast.commands, Silent E c n F.slot) ∧ ∃ B, base = some B ∧ (B.toJson E).Tells n F) := by
  have hsame : ∀ B : Bundle, B.WellMade → ((B.toJson E).Tells n F ↔ B.Tells n F) := by
    intro B hB
    rw [C74_tells E B hB]
    have h1 : ∀ e, F ≠ .entryCodes e := by rintro e rfl; cases hF
    have h2 : ∀ i f, F ≠ .framing i f := by rintro i f rfl; cases hF
    constructor
    · rintro ⟨G, hG, hs⟩; rw [(sameTold_iff h1 h2).1 hs] at hG; exact hG
    · intro hT; exact ⟨F, hT, (sameTold_iff h1 h2).2 rfl⟩
  rw [hsame _ (C68_built_well_made h), C68_facts h hD hB n hF]
  constructor
  · rintro (h | ⟨h, B, e, hT⟩)
    · exact .inl h
    · exact .inr ⟨h, B, e, (hsame B (hB B e)).2 hT⟩
  · rintro (h | ⟨h, B, e, hT⟩)
    · exact .inl h
    · exact .inr ⟨h, B, e, (hsame B (hB B e)).1 hT⟩

/-- **C74**, a concrete case: the bundle of `C69_concrete` and its document. -/
theorem C74_example (E : Env) (O : Order) : ∃ B, (generateBundle E O twoCalls : Res Unit _) = .ok B ∧ B.WellMade ∧
    (B.toJson E).Tells c!"n" (.label c!"eng" c!"Full name") ∧ ¬ (B.toJson E).Tells c!"n" (.label c!"eng" c!"Name") ∧
    (B.toJson E).Tells c!"n" (.unit c!"kg") ∧ (B.toJson E).Tells c!"n" (.link c!"Y" c!"y") ∧
    ∃ cb as, (B.toJson E).Has c!"capture_base" cb ∧ cb.Has c!"attributes" as ∧ as.Has c!"n" (.str c!"Text") := by
  obtain ⟨B, hB, h1, h2, -, h3, -, h4, -, h5, -⟩ := C69_concrete E O
  have hr := (twoCalls_reachable E).2
  have hW : B.WellMade := by
    obtain ⟨-, e⟩ := generateBundle_eq_ok hB
    exact e ▸ C68_built_well_made.wellMade_bundleOf E O twoCalls hr
  obtain ⟨cb, as, c1, c2, c3, -⟩ := C74_capture_base E B
  refine ⟨B, hB, hW, (C74_tells E B hW _ _).2 ⟨_, h1, rfl⟩, ?_, (C74_tells E B hW _ _).2 ⟨_, h3, rfl⟩, (C74_tells E B hW _ _).2 ⟨_, h4, rfl⟩,
    cb, as, (c1 _).2 rfl, (c2 _).2 rfl, (c3 _ _).2 ⟨_, h5, .text⟩⟩
  intro h
  obtain ⟨G, hG, hs⟩ := (C74_tells E B hW _ _).1 h
  rw [(sameTold_iff (by simp) (by simp)).1 hs] at hG
  exact h2 hG

end OCA
