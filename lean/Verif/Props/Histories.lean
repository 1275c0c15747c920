import Verif.Props.Commands
/-!
# C24, C25, C26: what a history of commands leaves behind
-/
namespace OCA

/-! ## C24 -/

/-- What an ADD overlay command says about an attribute it gives the value `v`. (Framing extends the scopes
already there and is treated separately.) The stored form of a condition is the subject of C01 - C03. -/
def factOf (E : Env) (k : OvKind) (c : Content) (v : NVal) : Option Fact :=
  match k, v with
  | .label, .val s => (c.lang E).map (Fact.label · s)
  | .information, .val s => (c.lang E).map (Fact.information · s)
  | .characterEncoding, .val s => (Encoding.ofStr s).map Fact.encoding
  | .conformance, .val s => some (.conformance s)
  | .format, .val s => some (.format s)
  | .cardinality, .val s => some (.cardinality s)
  | .unit, .val s => some (.unit s)
  | .conditional, .val s => some (.condition (setCondition s).1 (setCondition s).2)
  | .link, .val s => c.target.map (Fact.link · s)
  | .entryCode, v => (entryCodesOf v).map Fact.entryCodes
  | .entry, v => (entriesOf v).bind fun e => (c.lang E).map (Fact.entry · e)
  | _, _ => none

/-- kind, and language, target or frame, a fact belongs to -/
def Fact.slot : Fact → OvKind × Option Str
  | .encoding _ => (.characterEncoding, none)
  | .format _ => (.format, none)
  | .conformance _ => (.conformance, none)
  | .cardinality _ => (.cardinality, none)
  | .unit _ => (.unit, none)
  | .condition _ _ => (.conditional, none)
  | .entryCodes _ => (.entryCode, none)
  | .entry l _ => (.entry, some l)
  | .label l _ => (.label, some l)
  | .information l _ => (.information, some l)
  | .link t _ => (.link, some t)
  | .framing i _ => (.attributeFraming, some i)

/-- kind, and language, target or frame, an ADD overlay command addresses -/
def addressed (E : Env) (k : OvKind) (c : Content) : OvKind × Option Str :=
  match k with
  | .label | .information | .entry => (k, c.lang E)
  | .link => (k, c.target)
  | .attributeFraming => (k, c.frameId)
  | _ => (k, none)

theorem put_carries (E : Env) (k : OvKind) (c : Content) (a : Attribute) (v : NVal) (F : Fact)
    (hF : factOf E k c v = some F) (hk : k ≠ .unit) (hk' : k ≠ .entryCode) : (a.put E k c v).Carries F := by
  cases k
  case unit => exact absurd rfl hk
  case entryCode => exact absurd rfl hk'
  case entry =>
    simp only [factOf, Option.bind_eq_some_iff, Option.map_eq_some_iff] at hF
    obtain ⟨e, he, l, hl, rfl⟩ := hF
    simp [Attribute.put, he, hl, Attribute.Carries, FMap.get_insert]
  all_goals
    cases v <;> simp only [factOf, Option.map_eq_some_iff, Option.some.injEq, reduceCtorEq] at hF
  case label => obtain ⟨l, hl, rfl⟩ := hF; simp [Attribute.put, hl, Attribute.Carries, FMap.get_insert]
  case information => obtain ⟨l, hl, rfl⟩ := hF; simp [Attribute.put, hl, Attribute.Carries, FMap.get_insert]
  case link => obtain ⟨l, hl, rfl⟩ := hF; simp [Attribute.put, hl, Attribute.Carries, FMap.get_insert]
  case characterEncoding => obtain ⟨l, hl, rfl⟩ := hF; simp [Attribute.put, hl, Attribute.Carries]
  all_goals subst hF; simp [Attribute.put, Attribute.Carries]

theorem put_other (E : Env) (k : OvKind) (c : Content) (a : Attribute) (v : NVal) (F : Fact)
    (hF : F.slot ≠ addressed E k c) : (a.put E k c v).Carries F ↔ a.Carries F := by
  have mapCase : ∀ {V : Type} (o : Option (FMap V)) (l l' : Str) (x y : V), l' ≠ l →
      ((∃ m, some ((o.getD FMap.empty).insert l x) = some m ∧ m.get l' = some y) ↔
        ∃ m, o = some m ∧ m.get l' = some y) := by
    intro V o l l' x y hne
    simp only [Option.some.injEq, exists_eq_left', FMap.get_insert, if_neg hne]
    cases o <;> simp
  cases k <;> simp only [Attribute.put]
  case label =>
    cases v <;> try rfl
    cases hl : c.lang E with
    | none => rfl
    | some l =>
      cases F <;> try rfl
      rename_i l' s'
      simp only [Attribute.Carries]
      refine mapCase _ _ _ _ _ ?_
      rintro rfl
      exact hF (by simp [Fact.slot, addressed, hl])
  case information =>
    cases v <;> try rfl
    cases hl : c.lang E with
    | none => rfl
    | some l =>
      cases F <;> try rfl
      rename_i l' s'
      simp only [Attribute.Carries]
      refine mapCase _ _ _ _ _ ?_
      rintro rfl
      exact hF (by simp [Fact.slot, addressed, hl])
  case link =>
    cases v <;> try rfl
    cases hl : c.target with
    | none => rfl
    | some l =>
      cases F <;> try rfl
      rename_i l' s'
      simp only [Attribute.Carries]
      refine mapCase _ _ _ _ _ ?_
      rintro rfl
      exact hF (by simp [Fact.slot, addressed, hl])
  case attributeFraming =>
    cases v <;> try rfl
    cases hl : c.frameId with
    | none => rfl
    | some l =>
      cases F <;> try rfl
      rename_i l' s'
      simp only [Attribute.Carries]
      refine mapCase _ _ _ _ _ ?_
      rintro rfl
      exact hF (by simp [Fact.slot, addressed, hl])
  case entry =>
    cases hv : entriesOf v <;> try rfl
    cases hl : c.lang E with
    | none => rfl
    | some l =>
      cases F <;> try rfl
      rename_i l' s'
      simp only [Attribute.Carries]
      refine mapCase _ _ _ _ _ ?_
      rintro rfl
      exact hF (by simp [Fact.slot, addressed, hl])
  case characterEncoding =>
    cases v <;> try rfl
    simp only
    split
    · cases F <;> first | rfl | exact absurd rfl hF
    · rfl
  case entryCode =>
    cases hv : entryCodesOf v <;> try rfl
    cases F <;> first | rfl | exact absurd rfl hF
  all_goals
    cases v <;> try rfl
    cases F <;> first | rfl | exact absurd rfl hF

theorem put_ty (E : Env) (k : OvKind) (c : Content) (a : Attribute) (v : NVal) :
    (a.put E k c v).ty = a.ty ∧ (a.put E k c v).flagged = a.flagged := by
  cases k <;> unfold Attribute.put <;> repeat' (first | exact ⟨rfl, rfl⟩ | split)

/-- **C24** After an accepted ADD overlay command the state holds every value it carries, for every kind but
units and entry codes (next theorems): the attribute carries the fact, and every bundle generated from the
state has an overlay stating it. -/
theorem C24_add_overlay_sets (E : Env) (b b' : OCABox) (t : OverlayType) (c : Content)
    (hd : ((c.attributes.getD []).map (·.1)).Nodup) (hr : Reachable E b)
    (h : applyCommand E (some b) ⟨.add, .overlay t c⟩ = .ok b')
    (n : Str) (v : NVal) (hp : (n, v) ∈ c.attributes.getD []) (F : Fact) (hF : factOf E t.kind c v = some F)
    (hk : t.kind ≠ .unit) (hk' : t.kind ≠ .entryCode) :
    (∃ a, b'.attributes.get n = some a ∧ a.Carries F) ∧
    ∀ {ε : Type} (O : Order) (bu : Bundle), (generateBundle E O b' : Res ε _) = .ok bu →
      ∃ o ∈ bu.overlays, o.body.States n F := by
  have hloop : loopKind t.kind = true := by
    revert hF; cases t.kind <;> simp [factOf, loopKind]
  have h' : applyOverlay E b t.kind c = .ok b' := h
  rw [applyOverlay_ok_iff E _ _ _ _ hloop hd] at h'
  obtain ⟨-, h2, rfl⟩ := h'
  have hex : ∃ a, (boxPut E t.kind c b).attributes.get n = some a ∧ a.Carries F := by
    obtain ⟨a, ha⟩ := Option.isSome_iff_exists.mp (h2 (n, v) hp).1
    refine ⟨_, by rw [get_boxPut, ha]; rfl, ?_⟩
    unfold putOne
    have : imGet n c.attrs = some v := imGet_of_mem hd hp
    rw [this]
    exact put_carries E t.kind c a v F hF hk hk'
  refine ⟨hex, fun O bu hbu => ?_⟩
  have hr' : Reachable E (boxPut E t.kind c b) := Reachable.step _ _ _ hr h
  exact (C17_overlay_content_exact E O _ hr' bu hbu n F).mpr hex

/-- **C24** Units and entry codes: an attribute without one gets it; one that has one keeps it, so a later
ADD is accepted and ignored. -/
theorem C24_unit_entry_codes (E : Env) (b b' : OCABox) (t : OverlayType) (c : Content)
    (hd : ((c.attributes.getD []).map (·.1)).Nodup)
    (h : applyCommand E (some b) ⟨.add, .overlay t c⟩ = .ok b')
    (n : Str) (v : NVal) (hp : (n, v) ∈ c.attributes.getD []) :
    (∀ s, t.kind = .unit → v = .val s →
      ∃ a a', b.attributes.get n = some a ∧ b'.attributes.get n = some a' ∧
        (a.unit = none → a'.Carries (.unit s)) ∧ (∀ old, a.unit = some old → a'.Carries (.unit old))) ∧
    (∀ e, t.kind = .entryCode → entryCodesOf v = some e →
      ∃ a a', b.attributes.get n = some a ∧ b'.attributes.get n = some a' ∧
        (a.entryCodes = none → a'.Carries (.entryCodes e)) ∧
        (∀ old, a.entryCodes = some old → a'.Carries (.entryCodes old))) := by
  have h' : applyOverlay E b t.kind c = .ok b' := h
  have main : loopKind t.kind = true → ∃ a, b.attributes.get n = some a ∧
      b'.attributes.get n = some (a.put E t.kind c v) := by
    intro hloop
    rw [applyOverlay_ok_iff E _ _ _ _ hloop hd] at h'
    obtain ⟨-, h2, rfl⟩ := h'
    obtain ⟨a, ha⟩ := Option.isSome_iff_exists.mp (h2 (n, v) hp).1
    refine ⟨a, ha, ?_⟩
    rw [get_boxPut, ha]
    simp only [Option.map_some, putOne]
    have : imGet n c.attrs = some v := imGet_of_mem hd hp
    rw [this]
  refine ⟨?_, ?_⟩
  · rintro s hk rfl
    obtain ⟨a, h1, h2⟩ := main (by rw [hk]; rfl)
    refine ⟨a, _, h1, h2, ?_, ?_⟩
    · intro hn; simp [hk, Attribute.put, Attribute.Carries, hn]
    · intro old ho; simp [hk, Attribute.put, Attribute.Carries, ho]
  · intro e hk he
    obtain ⟨a, h1, h2⟩ := main (by rw [hk]; rfl)
    refine ⟨a, _, h1, h2, ?_, ?_⟩
    · intro hn; simp [hk, Attribute.put, Attribute.Carries, he, hn]
    · intro old ho; simp [hk, Attribute.put, Attribute.Carries, he, ho]

/-- **C24** Framing: the frame's scopes are the ones given, and those already there under other names. -/
theorem C24_framing_extends (E : Env) (b b' : OCABox) (t : OverlayType) (c : Content) (id : Str)
    (hd : ((c.attributes.getD []).map (·.1)).Nodup) (hk : t.kind = .attributeFraming)
    (hid : c.frameId = some id) (h : applyCommand E (some b) ⟨.add, .overlay t c⟩ = .ok b')
    (n : Str) (l : List (Str × NVal)) (hp : (n, .obj l) ∈ c.attributes.getD []) :
    ∃ a a' fr, b.attributes.get n = some a ∧ b'.attributes.get n = some a' ∧ a'.Carries (.framing id fr) ∧
      ∀ sc, fr.get sc = ((framingOf c.frameMeta l).get sc).or (((a.framings.bind (·.get id)).getD FMap.empty).get sc) := by
  have h' : applyOverlay E b t.kind c = .ok b' := h
  rw [applyOverlay_ok_iff E _ _ _ _ (by rw [hk]; rfl) hd] at h'
  obtain ⟨-, h2, rfl⟩ := h'
  obtain ⟨a, ha⟩ := Option.isSome_iff_exists.mp (h2 _ hp).1
  have hi : imGet n c.attrs = some (.obj l) := imGet_of_mem hd hp
  refine ⟨a, _, ((optGet a.framings id).getD FMap.empty).insertAll (framingOf c.frameMeta l).l, ha,
    by rw [get_boxPut, ha]; rfl, ?_, ?_⟩
  · simp [putOne, hi, hk, Attribute.put, hid, Attribute.Carries, FMap.get_insert]
  · intro sc; rw [FMap.get_insertAll_map]; rfl

/-- **C24** An accepted ADD overlay command leaves everything else alone: attributes it does not name; types
and flags; every fact of another kind, language, target or frame; metas and classification. -/
theorem C24_add_overlay_frame (E : Env) (b b' : OCABox) (t : OverlayType) (c : Content)
    (hd : ((c.attributes.getD []).map (·.1)).Nodup) (hm : t.kind ≠ .metaOv)
    (h : applyCommand E (some b) ⟨.add, .overlay t c⟩ = .ok b') :
    (∀ n, n ∉ (c.attributes.getD []).map (·.1) → b'.attributes.get n = b.attributes.get n) ∧
    (∀ n a, b.attributes.get n = some a → ∃ a', b'.attributes.get n = some a' ∧ a'.ty = a.ty ∧
      a'.flagged = a.flagged ∧ ∀ F : Fact, F.slot ≠ addressed E t.kind c → (a'.Carries F ↔ a.Carries F)) ∧
    (∀ n, b.attributes.get n = none → b'.attributes.get n = none) ∧
    b'.metaMap = b.metaMap ∧ b'.classification = b.classification := by
  have h' : applyOverlay E b t.kind c = .ok b' := h
  by_cases hk : loopKind t.kind = true
  · rw [applyOverlay_ok_iff E _ _ _ _ hk hd] at h'
    obtain ⟨-, -, rfl⟩ := h'
    refine ⟨fun n hn => ?_, fun n a ha => ?_, fun n hn => ?_, rfl, rfl⟩
    · rw [get_boxPut]
      have : imGet n c.attrs = none := imGet_eq_none_of_notMem hn
      unfold putOne
      rw [this]; simp
    · refine ⟨_, by rw [get_boxPut, ha]; rfl, ?_⟩
      unfold putOne
      cases imGet n c.attrs with
      | none => simp
      | some v => exact ⟨(put_ty E _ c a v).1, (put_ty E _ c a v).2, fun F hF => put_other E _ c a v F hF⟩
    · rw [get_boxPut, hn]; rfl
  · rw [applyOverlay_other E _ _ _ (by simpa using hk) hm] at h'
    cases h'
    exact ⟨fun _ _ => rfl, fun n a ha => ⟨a, ha, rfl, rfl, fun _ _ => Iff.rfl⟩, fun _ h => h, rfl, rfl⟩

/-- **C24** ADD ATTRIBUTE sets the type (the last one given for a name) and keeps everything else; a new
attribute starts blank. -/
theorem C24_add_attribute (E : Env) (b b' : OCABox) (c : CaptureContent)
    (h : applyCommand E (some b) ⟨.add, .captureBase c⟩ = .ok b') :
    (∀ n t, FMap.lastVal (c.attributes.getD []) n = some t →
      b'.attributes.get n = some (match b.attributes.get n with
        | some a => { a with ty := some t }
        | none => { ty := some t })) ∧
    (∀ n, n ∉ (c.attributes.getD []).map (·.1) → b'.attributes.get n = b.attributes.get n) ∧
    b'.metaMap = b.metaMap := by
  rw [applyAddBase] at h
  cases h
  refine ⟨fun n t ht => ?_, fun n hn => ?_, (boxAdd_rest c b).2.1⟩
  · rw [get_boxAdd, ht]
    cases b.attributes.get n <;> rfl
  · have : FMap.lastVal (c.attributes.getD []) n = none := by
      rw [FMap.lastVal_eq_none]
      intro p hp e
      exact hn (List.mem_map.mpr ⟨p, hp, e⟩)
    rw [get_boxAdd, this]

/-- **C24** ADD META sets the given texts of the language and keeps all other texts and languages. -/
theorem C24_add_meta (E : Env) (b b' : OCABox) (t : OverlayType) (hk : t.kind = .metaOv) (c : Content) (l : Lang)
    (hl : c.lang E = some l) (h : applyCommand E (some b) ⟨.add, .overlay t c⟩ = .ok b') :
    (∀ k, ((b'.metaMap.bind (·.get l)).bind (·.get k)) =
      (FMap.lastVal c.metaPairs k).or ((b.metaMap.bind (·.get l)).bind (·.get k))) ∧
    (∀ l', l' ≠ l → b'.metaMap.bind (·.get l') = b.metaMap.bind (·.get l')) ∧
    b'.attributes = b.attributes ∧ b'.classification = b.classification := by
  have h' : applyOverlay E b t.kind c = .ok b' := h
  rw [hk, applyOverlay_meta, applyMeta_ok_iff] at h'
  have main : b' = { b with metaMap := metaPut b.metaMap l c.metaPairs } := by
    rcases h' with ⟨h1, rfl⟩ | ⟨l', h1, rfl⟩
    · simp [h1, metaPut]
    · rw [hl] at h1; cases h1; rfl
  subst main
  refine ⟨fun k => ?_, fun l' hne => ?_, rfl, rfl⟩
  · simp only [metaPut]
    split
    · next e => rw [e]; simp
    · simp only [Option.bind_some, FMap.get_insert, if_true, FMap.get_insertAll]
      cases b.metaMap <;> simp
      rename_i m
      cases m.get l <;> simp
  · simp only [metaPut]
    split
    · rfl
    · simp only [Option.bind_some, FMap.get_insert, if_neg hne]
      cases b.metaMap <;> simp

/-- **C24** The full claim fails for units: the second ADD UNIT is accepted and ignored. -/
theorem C24_later_unit_ignored :
    ∃ b b' b'', Reachable Env.demo b ∧
      applyCommand Env.demo (some b) (addOv .unit [] [(c!"age", .val c!"y")]) = .ok b' ∧
      applyCommand Env.demo (some b') (addOv .unit [] [(c!"age", .val c!"m")]) = .ok b'' ∧
      ¬ ∃ a, b''.attributes.get c!"age" = some a ∧ a.Carries (.unit c!"m") := by
  refine ⟨demoBox, _, _, demo_reachable, rfl, rfl, ?_⟩
  rintro ⟨a, h1, h2⟩
  have h3 : (some a).bind Attribute.unit = some c!"y" := by rw [← h1]; rfl
  have h4 : a.unit = some c!"m" := h2
  simp [h4] at h3

/-- The hypotheses of C24 are met: a French label on a state with an English one. -/
example : ∃ b', applyCommand Env.demo (some demoBox)
    (addOv .label [(c!"lang", .val c!"fr")] [(c!"age", .val c!"\u00c2ge")]) = .ok b' ∧
    ∃ a, b'.attributes.get c!"age" = some a ∧ a.Carries (.label c!"fra" c!"\u00c2ge") ∧
      a.Carries (.label c!"eng" c!"Age") := by
  refine ⟨_, rfl, ?_⟩
  obtain ⟨⟨a, h1, h2⟩, -⟩ := C24_add_overlay_sets Env.demo demoBox _ ⟨.label, c!"1.1"⟩
    ⟨some [(c!"age", .val c!"\u00c2ge")], some [(c!"lang", .val c!"fr")]⟩ (by decide)
    demo_reachable rfl c!"age" (.val c!"\u00c2ge") (List.mem_cons_self ..) (.label c!"fra" c!"\u00c2ge") rfl
    (by decide) (by decide)
  refine ⟨a, h1, h2, ?_⟩
  cases h1
  exact ⟨_, rfl, by decide⟩

/-! ## C25 -/

/-- **C25** After REMOVE ATTRIBUTE the named attributes are gone and everything else is as before. -/
theorem C25_remove (E : Env) (b b' : OCABox) (c : CaptureContent)
    (h : applyCommand E (some b) ⟨.remove, .captureBase c⟩ = .ok b') :
    (∀ n ∈ (c.attributes.getD []).map (·.1), b'.attributes.get n = none) ∧
    (∀ n, n ∉ (c.attributes.getD []).map (·.1) → b'.attributes.get n = b.attributes.get n) ∧
    b'.metaMap = b.metaMap ∧ b'.mappings = b.mappings := by
  rw [applyRemoveBase] at h
  cases h
  refine ⟨fun n hn => ?_, fun n hn => ?_, rfl, rfl⟩
  · rw [get_boxRemove, if_pos hn]
  · rw [get_boxRemove, if_neg hn]

/-- **C25** A REMOVE ATTRIBUTE is always accepted. -/
theorem C25_remove_accepted (E : Env) (b : OCABox) (c : CaptureContent) :
    ∃ b', applyCommand E (some b) ⟨.remove, .captureBase c⟩ = .ok b' := ⟨_, applyRemoveBase E b c⟩

/-- **C25** No bundle generated after the removal mentions the attribute: not in the capture base, not among
the flagged attributes, and no overlay has an entry for it. -/
theorem C25_bundle_has_no_trace {ε : Type} (E : Env) (O : Order) (b b' : OCABox) (hr : Reachable E b)
    (c : CaptureContent) (h : applyCommand E (some b) ⟨.remove, .captureBase c⟩ = .ok b')
    (n : Str) (hn : n ∈ (c.attributes.getD []).map (·.1)) (bu : Bundle)
    (hbu : (generateBundle E O b' : Res ε _) = .ok bu) :
    bu.captureBase.attributes.get n = none ∧ n ∉ bu.captureBase.flagged ∧
    ∀ o ∈ bu.overlays, n ∉ o.body.attributes := by
  have hg := (C25_remove E b b' c h).1 n hn
  obtain ⟨-, h2, -, -, h5⟩ := C14_capture_base_exact E O b' bu hbu
  have hcb : bu.captureBase.attributes.get n = none := by
    have := h2 n
    rw [hg] at this
    cases hx : bu.captureBase.attributes.get n with
    | none => rfl
    | some t => rw [hx] at this; cases this
  refine ⟨hcb, ?_, ?_⟩
  · rw [h5, hg]; rintro ⟨a, ha, -⟩; cases ha
  · intro o ho hno
    obtain ⟨t, ht⟩ := C15_overlays_within_capture_base E O b' (Reachable.step _ _ _ hr h) bu hbu o ho n hno
    rw [hcb] at ht; cases ht

/-- **C25** Adding the attribute again starts from a blank attribute. -/
theorem C25_readd_is_blank (E : Env) (b b' b'' : OCABox) (c c' : CaptureContent)
    (h : applyCommand E (some b) ⟨.remove, .captureBase c⟩ = .ok b')
    (h' : applyCommand E (some b') ⟨.add, .captureBase c'⟩ = .ok b'')
    (n : Str) (hn : n ∈ (c.attributes.getD []).map (·.1)) (t : NAttr)
    (ht : FMap.lastVal (c'.attributes.getD []) n = some t) :
    b''.attributes.get n = some { ty := some t } ∧ ∀ F : Fact, ¬ ({ ty := some t } : Attribute).Carries F := by
  have hg := (C25_remove E b b' c h).1 n hn
  have := (C24_add_attribute E b' b'' c' h').1 n t ht
  rw [hg] at this
  refine ⟨this, ?_⟩
  intro F; cases F <;> simp [Attribute.Carries]

/-- **C25** What is not removed: a condition of another attribute that depends on the removed one keeps
naming it as a dependency (C15 is about entries, not about dependencies). -/
theorem C25_dependencies_survive :
    ∃ b', applyCommand Env.demo (some demoBox) (removeAttrs [c!"name"]) = .ok b' ∧
      ∃ a c, b'.attributes.get c!"age" = some a ∧ a.Carries (.condition c [c!"name"]) :=
  ⟨_, rfl, _, _, rfl, rfl, rfl⟩

/-- The hypotheses are met: `name` carries labels, an encoding, a link and a frame before. -/
example : ∃ b', applyCommand Env.demo (some demoBox) (removeAttrs [c!"name"]) = .ok b' ∧
    (demoBox.attributes.get c!"name").isSome = true ∧ b'.attributes.get c!"name" = none :=
  ⟨_, rfl, by decide, by decide⟩

/-! ## C26 -/

/-- What a command does to the classification: `none` nothing, `some none` remove, `some (some s)` set. -/
def classEffect (c : Command) : Option (Option Str) :=
  match c.kind, c.obj with
  | .add, .captureBase cc => (FMap.lastVal (textPairs (cc.properties.getD [])) c!"classification").map some
  | .remove, .captureBase cc => if c!"classification" ∈ (cc.properties.getD []).map (·.1) then some none else none
  | _, _ => none

/-- The last classification command decides. -/
def lastClass (cs : List Command) : Option (Option Str) := (cs.filterMap classEffect).getLast?

theorem class_step (E : Env) (b b' : OCABox) (c : Command) (h : applyCommand E (some b) c = .ok b') :
    b'.classification = (classEffect c).getD b.classification := by
  obtain ⟨kind, obj⟩ := c
  cases kind with
  | «from» => cases obj <;> cases h
  | modify => cases obj <;> cases h
  | remove =>
    cases obj with
    | ocaBundle r => cases h
    | overlay t cc => cases h
    | captureBase cc =>
      rw [applyRemoveBase] at h
      cases h
      simp only [boxRemove, classEffect]
      split <;> rfl
  | add =>
    cases obj with
    | ocaBundle r => cases h
    | captureBase cc =>
      rw [applyAddBase] at h
      cases h
      rw [(boxAdd_rest cc b).2.2]
      simp only [classEffect, classOf]
      cases FMap.lastVal (textPairs (cc.properties.getD [])) c!"classification" <;> simp
    | overlay t cc =>
      have h' : applyOverlay E b t.kind cc = .ok b' := h
      simp only [classEffect, Option.getD_none]
      by_cases hm : t.kind = .metaOv
      · rw [hm, applyOverlay_meta, applyMeta_ok_iff] at h'
        rcases h' with ⟨-, rfl⟩ | ⟨l, -, rfl⟩ <;> rfl
      · by_cases hk : loopKind t.kind = true
        · obtain ⟨errs, f, h1, -⟩ := (ovSetter_loop E t.kind cc).1 hk
          rw [applyOverlay_loop E b t.kind cc h1] at h'
          obtain ⟨x, hx, hy⟩ := Res.bind_eq_ok.mp h'
          split at hy
          · cases hy
            refine foldRes_inv (fun x : OCABox => x.classification = b.classification) ?_ _ _ _ rfl hx
            intro y p y' hy hs
            unfold ovAttrStep at hs
            split at hs
            · cases hs
            · next a ha =>
              obtain ⟨a', -, h2⟩ := Res.bind_eq_ok.mp hs
              cases h2
              rw [addAttribute_some y p.1 a a' ha]; exact hy
          · cases hy
        · rw [applyOverlay_other E _ _ _ (by simpa using hk) hm] at h'
          cases h'; rfl

theorem class_err (E : Env) (b : Option OCABox) (c : Command) (h : ∀ x, applyCommand E b c ≠ .ok x) :
    classEffect c = none := by
  obtain ⟨kind, obj⟩ := c
  cases kind <;> cases obj <;> simp only [classEffect]
  · rename_i cc; exact absurd rfl (h _)
  · rename_i cc; exact absurd rfl (h _)

theorem getLast?_getD_cons {α : Type} (a d : α) (l : List α) :
    (a :: l).getLast?.getD d = l.getLast?.getD a := by
  rw [List.getLast?_cons]; cases l.getLast? <;> rfl

/-- **C26** After any history of commands (rejected ones included) on any state, the classification is that
of the last command setting or removing it, and the original one if there is none. -/
theorem C26_last_writer_wins (E : Env) (b : OCABox) (cs : List Command) :
    ∃ b', finalState E (some b) cs = some b' ∧ b'.classification = (lastClass cs).getD b.classification := by
  induction cs generalizing b with
  | nil => exact ⟨b, rfl, rfl⟩
  | cons c cs ih =>
    simp only [finalState]
    cases ha : applyCommand E (some b) c with
    | ok x =>
      obtain ⟨b', h1, h2⟩ := ih x
      refine ⟨b', h1, ?_⟩
      rw [h2, class_step E b x c ha]
      unfold lastClass
      rw [List.filterMap_cons]
      cases classEffect c with
      | none => rfl
      | some o => simp only [Option.getD_some]; rw [getLast?_getD_cons]
    | err e =>
      obtain ⟨b', h1, h2⟩ := ih b
      refine ⟨b', h1, ?_⟩
      have := class_err E (some b) c (by intro x hx; rw [ha] at hx; cases hx)
      rw [h2, lastClass, lastClass, List.filterMap_cons, this]
    | panic =>
      obtain ⟨b', h1, h2⟩ := ih b
      refine ⟨b', h1, ?_⟩
      have := class_err E (some b) c (by intro x hx; rw [ha] at hx; cases hx)
      rw [h2, lastClass, lastClass, List.filterMap_cons, this]

/-- **C26** A successful build without base has in its bundle the classification last set, the empty text
if it was never set or was removed last. -/
theorem C26_bundle_classification (E : Env) (Os : Nat → Order) (ast : OCAAst) (r : Build)
    (h : fromAst E Os none ast = .ok r) :
    r.bundle.captureBase.classification = ((lastClass ast.commands).getD none).getD [] := by
  obtain ⟨base, box, h1, h2, h3, -, -, -, -, h5, -⟩ := C12_successful_build E Os none ast r h
  cases h1
  rw [(C14_capture_base_exact E _ box r.bundle h5).2.2.1]
  have key : finalState E (some OCABox.new) ast.commands = some box := by
    cases hc : ast.commands with
    | nil => rw [hc] at h3; cases h3
    | cons c cs =>
      rw [hc] at h3 h2
      have := h2 (applyCommand E none c) (by simp [results])
      simp only [finalState] at h3 ⊢
      rw [← applyCommand_none]
      cases ha : applyCommand E none c with
      | ok x => rw [ha] at h3; exact h3
      | err e => rw [ha] at this; cases this
      | panic => rw [ha] at this; cases this
  obtain ⟨b', h6, h7⟩ := C26_last_writer_wins E OCABox.new ast.commands
  rw [key] at h6
  cases h6
  rw [h7]; rfl

example : lastClass demoCommands = some (some c!"GICS:35102020") := by decide

end OCA
