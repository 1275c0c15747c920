import Verif.Lemmas.Reach
/-!
# Accepted commands in closed form
-/
namespace OCA

/-- the attributes an overlay command names -/
def Content.attrs (c : Content) : List (Str × NVal) := c.attributes.getD []

/-- The attributes of a command have different names (an `IndexMap` guarantees it). -/
def Content.NoDup (c : Content) : Prop := (c.attrs.map (·.1)).Nodup

/-- one attribute after an overlay command -/
def putOne (E : Env) (k : OvKind) (c : Content) (n : Str) (a : Attribute) : Attribute :=
  match imGet n c.attrs with
  | some v => a.put E k c v
  | none => a

/-- the state after an overlay command of a kind with an attribute loop -/
def boxPut (E : Env) (k : OvKind) (c : Content) (b : OCABox) : OCABox :=
  { b with attributes := b.attributes.filterMap fun n a => some (putOne E k c n a) }

theorem get_boxPut (E : Env) (k : OvKind) (c : Content) (b : OCABox) (n : Str) :
    (boxPut E k c b).attributes.get n = (b.attributes.get n).map (putOne E k c n) := by
  unfold boxPut
  rw [FMap.get_filterMap]
  cases b.attributes.get n <;> rfl

theorem OCABox.ext' {b b' : OCABox} (h1 : ∀ n, b.attributes.get n = b'.attributes.get n)
    (h2 : b.mappings = b'.mappings) (h3 : b.metaMap = b'.metaMap) (h4 : b.classification = b'.classification) :
    b = b' := by
  obtain ⟨x1, x2, x3, x4⟩ := b
  obtain ⟨y1, y2, y3, y4⟩ := b'
  have e : x1 = y1 := FMap.ext h1
  simp only at h2 h3 h4
  rw [e, h2, h3, h4]

/-- the properties of the command suffice -/
def headOk (k : OvKind) (c : Content) : Bool :=
  match k with
  | .link => c.target.isSome
  | .attributeFraming => c.frameId.isSome
  | _ => true

/-- the kinds with an attribute loop -/
def loopKind (k : OvKind) : Bool :=
  match k with
  | .label | .information | .characterEncoding | .conformance | .format | .unit | .cardinality
  | .conditional | .entryCode | .entry | .link | .attributeFraming => true
  | _ => false

theorem ovSetter_loop (E : Env) (k : OvKind) (c : Content) :
    (loopKind k = true → ∃ errs f, ovSetter E k c = some (errs, f) ∧ (errs.isEmpty = headOk k c)) ∧
    (loopKind k = false → ovSetter E k c = none) := by
  cases k <;> simp [loopKind, ovSetter, headOk]
  · cases c.target <;> simp
  · cases c.frameId <;> simp

/-- When an overlay command with an attribute loop is accepted, and with what result. -/
theorem applyOverlay_ok_iff (E : Env) (b b' : OCABox) (k : OvKind) (c : Content) (hk : loopKind k = true)
    (hn : c.NoDup) :
    applyOverlay E b k c = .ok b' ↔
      headOk k c = true ∧
      (∀ p ∈ c.attrs, (b.attributes.get p.1).isSome = true ∧ valueOk E k c p.2 = true) ∧
      b' = boxPut E k c b := by
  obtain ⟨errs, f, h1, h2⟩ := (ovSetter_loop E k c).1 hk
  have hm : k ≠ .metaOv := by rintro rfl; cases hk
  have e : applyOverlay E b k c = (do
      let box ← foldRes (ovAttrStep errs f) b c.attrs
      if errs.isEmpty then .ok box else .err errs) := by
    unfold applyOverlay
    split
    · exact absurd rfl hm
    · rw [h1]; rfl
  rw [e]
  have hbox : ∀ x, foldRes (ovAttrStep errs f) b c.attrs = .ok x ↔
      (∀ p ∈ c.attrs, (b.attributes.get p.1).isSome = true ∧ valueOk E k c p.2 = true) ∧ x = boxPut E k c b := by
    intro x
    rw [foldRes_ov_ok E k c h1 c.attrs hn]
    refine and_congr_right fun _ => ?_
    constructor
    · rintro ⟨a1, a2, a3, a4⟩
      refine OCABox.ext' (fun n => ?_) a2 a3 a4
      rw [a1, get_boxPut]
      unfold putAll putOne
      cases imGet n c.attrs <;> simp
    · rintro rfl
      refine ⟨fun n => ?_, rfl, rfl, rfl⟩
      rw [get_boxPut]
      unfold putAll putOne
      cases imGet n c.attrs <;> simp
  rw [Res.bind_eq_ok]
  constructor
  · rintro ⟨x, hx, hy⟩
    rw [h2] at hy
    split at hy
    · next hh => cases hy; exact ⟨hh, (hbox _).mp hx⟩
    · cases hy
  · rintro ⟨hh, hx, rfl⟩
    exact ⟨_, (hbox _).mpr ⟨hx, rfl⟩, by rw [h2, hh]; rfl⟩

theorem applyOverlay_other (E : Env) (b : OCABox) (k : OvKind) (c : Content) (hk : loopKind k = false)
    (hm : k ≠ .metaOv) : applyOverlay E b k c = .ok b := by
  unfold applyOverlay
  split
  · exact absurd rfl hm
  · rw [(ovSetter_loop E k c).2 hk]

/-- the text properties of a META command besides the language -/
def Content.metaPairs (c : Content) : List (Str × Str) :=
  textPairs (imDrop (fun k => decide (k = c!"lang")) (c.properties.getD []))

theorem applyMeta_ok_iff {ε : Type} (E : Env) (b b' : OCABox) (c : Content) :
    (applyMeta E b c : Res ε _) = .ok b' ↔
      (c.metaPairs = [] ∧ b' = b) ∨
      (∃ l, c.lang E = some l ∧ b' = { b with metaMap := metaPut b.metaMap l c.metaPairs }) := by
  unfold applyMeta Content.metaPairs
  cases hp : c.properties with
  | none =>
    have e : textPairs (imDrop (fun k => decide (k = c!"lang")) ((none : Option (List (Str × NVal))).getD [])) = [] := rfl
    rw [e]
    have : c.lang E = none := by simp [Content.lang, hp]
    simp [this, eq_comm]
  | some ps =>
    simp only [foldRes_meta, foldl_addMeta, Option.getD_some]

theorem applyOverlay_meta (E : Env) (b : OCABox) (c : Content) : applyOverlay E b .metaOv c = applyMeta E b c := rfl

/-- the state after ADD on the capture base -/
def boxAdd (c : CaptureContent) (b : OCABox) : OCABox :=
  { (c.attributes.getD []).foldl addAttrStep b with
    classification := (classOf (c.properties.getD [])).or b.classification }

theorem applyAddBase (E : Env) (b : OCABox) (c : CaptureContent) :
    applyCommand E (some b) ⟨.add, .captureBase c⟩ = .ok (boxAdd c b) := by
  simp only [applyCommand, Option.getD_some, Res.ok.injEq]
  rw [addPropStep_eq, (foldl_addAttr (c.attributes.getD []) b).2.2.2]
  rfl

theorem get_boxAdd (c : CaptureContent) (b : OCABox) (n : Str) :
    (boxAdd c b).attributes.get n = match FMap.lastVal (c.attributes.getD []) n with
      | some t => some (setType (b.attributes.get n) t)
      | none => b.attributes.get n := (foldl_addAttr (c.attributes.getD []) b).1 n

theorem boxAdd_rest (c : CaptureContent) (b : OCABox) :
    (boxAdd c b).mappings = b.mappings ∧ (boxAdd c b).metaMap = b.metaMap ∧
    (boxAdd c b).classification = (classOf (c.properties.getD [])).or b.classification :=
  ⟨(foldl_addAttr (c.attributes.getD []) b).2.1, (foldl_addAttr (c.attributes.getD []) b).2.2.1, rfl⟩

/-- the state after REMOVE on the capture base -/
def boxRemove (c : CaptureContent) (b : OCABox) : OCABox :=
  { b with
    attributes := b.attributes.filterMap fun n a =>
      if n ∈ (c.attributes.getD []).map (·.1) then none else some a
    classification := if c!"classification" ∈ (c.properties.getD []).map (·.1) then none else b.classification }

theorem get_boxRemove (c : CaptureContent) (b : OCABox) (n : Str) :
    (boxRemove c b).attributes.get n =
      if n ∈ (c.attributes.getD []).map (·.1) then none else b.attributes.get n := by
  unfold boxRemove
  rw [FMap.get_filterMap]
  cases b.attributes.get n <;> simp

theorem applyRemoveBase (E : Env) (b : OCABox) (c : CaptureContent) :
    applyCommand E (some b) ⟨.remove, .captureBase c⟩ = .ok (boxRemove c b) := by
  simp only [applyCommand, Option.getD_some, Res.ok.injEq]
  obtain ⟨h1, h2, h3, h4⟩ := removeAttrs_eq b (c.attributes.getD [])
  rw [removeProps_eq]
  refine OCABox.ext' (fun n => ?_) h2 h3 ?_
  · rw [get_boxRemove]; exact h1 n
  · simp only [h4]; rfl

end OCA
