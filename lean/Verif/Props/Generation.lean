import Verif.Demo
import Verif.Lemmas.Apply
/-!
# C14 - C17, C19: what a generated bundle contains
-/
namespace OCA

theorem reachable_typed {E : Env} {b : OCABox} (h : Reachable E b) (n : Str) (a : Attribute)
    (hg : b.attributes.get n = some a) : a.ty.isSome = true := (h.wf.attrs n a hg).typed

/-! ## Specification -/

/-- A piece of information an attribute may carry. -/
inductive Fact where
  | encoding (e : Encoding)
  | format (s : Str)
  | conformance (s : Str)
  | cardinality (s : Str)
  | unit (s : Str)
  /-- a condition with the attributes it depends on -/
  | condition (c : Str) (deps : List Str)
  | entryCodes (e : EntryCodes)
  | entry (lang : Lang) (e : EntriesEl)
  | label (lang : Lang) (s : Str)
  | information (lang : Lang) (s : Str)
  | link (target : Str) (s : Str)
  /-- the scopes of an attribute in a frame -/
  | framing (frame : Str) (scopes : FMap Scope)

/-- The attribute of the build state carries the fact. -/
def Attribute.Carries (a : Attribute) : Fact → Prop
  | .encoding e => a.encoding = some e
  | .format s => a.format = some s
  | .conformance s => a.conformance = some s
  | .cardinality s => a.cardinality = some s
  | .unit s => a.unit = some s
  | .condition c ds => a.condition = some c ∧ a.dependencies = some ds
  | .entryCodes e => a.entryCodes = some e
  | .entry l e => ∃ m, a.entries = some m ∧ m.get l = some e
  | .label l s => ∃ m, a.labels = some m ∧ m.get l = some s
  | .information l s => ∃ m, a.informations = some m ∧ m.get l = some s
  | .link t s => ∃ m, a.links = some m ∧ m.get t = some s
  | .framing i f => ∃ m, a.framings = some m ∧ m.get i = some f

/-- The overlay states the fact about the attribute named `n`. -/
def OvBody.States (n : Str) : Fact → OvBody → Prop
  | .encoding e, b => ∃ m, b = .charEnc m ∧ m.get n = some e
  | .format s, b => ∃ m, b = .format m ∧ m.get n = some s
  | .conformance s, b => ∃ m, b = .conformance m ∧ m.get n = some s
  | .cardinality s, b => ∃ m, b = .cardinality m ∧ m.get n = some s
  | .unit s, b => ∃ m, b = .unit m ∧ m.get n = some s
  | .condition c ds, b => ∃ m d, b = .conditional m d ∧ m.get n = some c ∧ d.get n = some ds
  | .entryCodes e, b => ∃ m, b = .entryCode m ∧ m.get n = some e
  | .entry l e, b => ∃ m, b = .entry l m ∧ m.get n = some e
  | .label l s, b => ∃ cs m cl, b = .label l cs m cl ∧ m.get n = some s
  | .information l s, b => ∃ m, b = .information l m ∧ m.get n = some s
  | .link t s, b => ∃ m, b = .link t m ∧ m.get n = some s
  | .framing i f, b => ∃ md m, b = .framing md m ∧ md.get c!"frame_id" = some i ∧ m.get n = some f

/-- What distinguishes the overlays of a bundle: the kind, and the language, target or frame id. -/
def OvBody.slot : OvBody → OvKind × Option Str
  | .entry l _ => (.entry, some l)
  | .label l _ _ _ => (.label, some l)
  | .information l _ => (.information, some l)
  | .metaOv l _ => (.metaOv, some l)
  | .link t _ => (.link, some t)
  | .framing md _ => (.attributeFraming, md.get c!"frame_id")
  | b => (b.kind, none)

/-! ## C14 -/

/-- The capture base of a generated bundle maps exactly the attributes to their types, carries the
classification, and flags exactly the flagged attributes, each once. -/
theorem C14_capture_base_exact {ε : Type} (E : Env) (O : Order) (box : OCABox) (b : Bundle)
    (h : (generateBundle E O box : Res ε _) = .ok b) :
    (∀ n t, b.captureBase.attributes.get n = some t ↔
      ∃ a, box.attributes.get n = some a ∧ a.ty = some t) ∧
    (∀ n, (b.captureBase.attributes.get n).isSome = (box.attributes.get n).isSome) ∧
    b.captureBase.classification = box.classification.getD [] ∧
    b.captureBase.flagged.Nodup ∧
    (∀ n, n ∈ b.captureBase.flagged ↔ ∃ a, box.attributes.get n = some a ∧ a.flagged = true) := by
  obtain ⟨hty, rfl⟩ := generateBundle_eq_ok h
  have e1 : (bundleOf E O box).captureBase.attributes = typesOf box.attributes := rfl
  have e2 : (bundleOf E O box).captureBase.flagged = flagsOf O box.attributes := rfl
  rw [e1, e2]
  refine ⟨?_, ?_, rfl, ?_, ?_⟩
  · intro n t
    unfold typesOf
    rw [get_collect, Option.bind_eq_some_iff]
  · intro n
    unfold typesOf
    rw [get_collect]
    cases hg : box.attributes.get n with
    | none => rfl
    | some a => simpa using hty n a hg
  · have : (flagsOf O box.attributes).Sublist ((O.iter 327 [] box.attributes).map (·.1)) :=
      (List.filter_sublist).map _
    exact ((((O.perm 327 [] box.attributes).map _).nodup_iff).mpr box.attributes.keys_nodup).sublist this
  · intro n
    unfold flagsOf
    simp only [List.mem_map, List.mem_filter, O.mem_iter]
    constructor
    · rintro ⟨p, ⟨h1, h2⟩, rfl⟩; exact ⟨p.2, h1, h2⟩
    · rintro ⟨a, h1, h2⟩; exact ⟨(n, a), ⟨h1, h2⟩, rfl⟩

/-- Generation succeeds exactly when every attribute has a type, and otherwise panics; every reachable
state generates. -/
theorem C14_generate_total {ε : Type} (E : Env) (O : Order) (box : OCABox) :
    ((∀ n a, box.attributes.get n = some a → a.ty ≠ none) →
      ∃ b, (generateBundle E O box : Res ε _) = .ok b) ∧
    ((∃ n a, box.attributes.get n = some a ∧ a.ty = none) →
      (generateBundle E O box : Res ε _) = .panic) ∧
    (Reachable E box → ∃ b, (generateBundle E O box : Res ε _) = .ok b) := by
  have h1 : (∀ n a, box.attributes.get n = some a → a.ty ≠ none) →
      ∃ b, (generateBundle E O box : Res ε _) = .ok b := by
    intro h
    exact ⟨_, generateBundle_ok E O box (fun n a hg => Option.isSome_iff_ne_none.mpr (h n a hg))⟩
  refine ⟨h1, ?_, ?_⟩
  · intro h
    unfold generateBundle
    rw [genCaptureBase_panic O box h]; rfl
  · intro h
    exact h1 (fun n a hg => Option.isSome_iff_ne_none.mp (reachable_typed h n a hg))

/-! ## Bodies of a generated bundle -/

theorem IsBody.key {m : FMap Attribute} {K : OvKey} {b : OvBody} (h : IsBody m K b) : keyOf b = some K := by
  cases K <;> simp only [IsBody] at h
  case framing id =>
    obtain ⟨md, rfl, h⟩ := h
    simp [keyOf, h.hasId]
  all_goals subst h; rfl

theorem preBodies_wf (O : Order) (b : OCABox) (h : BoxWF b) :
    preBodies O b = match b.metaMap with
      | none => []
      | some m => (O.iter 136 [] m).map fun p => .metaOv p.1 p.2 := by
  unfold preBodies
  rw [h.mappings]; rfl

theorem mem_preBodies (O : Order) (b : OCABox) (h : BoxWF b) (x : OvBody) :
    x ∈ preBodies O b ↔ ∃ m l ps, b.metaMap = some m ∧ m.get l = some ps ∧ x = .metaOv l ps := by
  rw [preBodies_wf O b h]
  cases hm : b.metaMap with
  | none => simp
  | some m =>
    simp only [List.mem_map, O.mem_iter, Option.some.injEq]
    constructor
    · rintro ⟨p, h1, rfl⟩; exact ⟨m, p.1, p.2, rfl, h1, rfl⟩
    · rintro ⟨_, l, ps, rfl, h1, rfl⟩; exact ⟨(l, ps), h1, rfl⟩

theorem genBodies_wf (O : Order) (b : OCABox) (h : BoxWF b) :
    ∃ ks : List OvKey, ks.Nodup ∧
      (∀ K, K ∈ ks ↔ ∃ n a, b.attributes.get n = some a ∧ hasKey K a = true) ∧
      genBodies O b = preBodies O b ++ ks.map (bodyOf O (O.iter 142 [] b.attributes)) ∧
      ∀ K, IsBody b.attributes K (bodyOf O (O.iter 142 [] b.attributes) K) := by
  obtain ⟨ks, h1, h2, h3⟩ := genBodies_spec O b (fun n a hg => (h.attrs n a hg).frames)
  exact ⟨ks, h1, h2, h3, fun K => bodyOf_isBody O b.attributes (O.perm 142 [] b.attributes)
    (fun n a hg => (h.attrs n a hg).frames) K⟩

theorem mem_genBodies (O : Order) (b : OCABox) (h : BoxWF b) (x : OvBody) (hx : x ∈ genBodies O b) :
    (∃ m l ps, b.metaMap = some m ∧ m.get l = some ps ∧ x = .metaOv l ps) ∨
    ∃ K, IsBody b.attributes K x ∧ ∃ n a, b.attributes.get n = some a ∧ hasKey K a = true := by
  obtain ⟨ks, -, h2, h3, h4⟩ := genBodies_wf O b h
  rw [h3] at hx
  rcases List.mem_append.mp hx with hx | hx
  · exact .inl ((mem_preBodies O b h x).mp hx)
  · obtain ⟨K, hK, rfl⟩ := List.mem_map.mp hx
    exact .inr ⟨K, h4 K, (h2 K).mp hK⟩

theorem exists_genBody (O : Order) (b : OCABox) (h : BoxWF b) (K : OvKey) (n : Str) (a : Attribute)
    (hg : b.attributes.get n = some a) (hK : hasKey K a = true) :
    ∃ x ∈ genBodies O b, IsBody b.attributes K x := by
  obtain ⟨ks, -, h2, h3, h4⟩ := genBodies_wf O b h
  refine ⟨_, ?_, h4 K⟩
  rw [h3]
  exact List.mem_append_right _ (List.mem_map_of_mem ((h2 K).mpr ⟨n, a, hg, hK⟩))

theorem optGet_eq_some {V : Type} {o : Option (FMap V)} {k : Str} {v : V} :
    optGet o k = some v ↔ ∃ m, o = some m ∧ m.get k = some v := by
  cases o <;> simp [optGet]

/-! ## C15 -/

/-- In every bundle generated from a reachable state each overlay mentions only attributes of the capture
base. -/
theorem C15_overlays_within_capture_base {ε : Type} (E : Env) (O : Order) (box : OCABox)
    (hr : Reachable E box) (b : Bundle) (h : (generateBundle E O box : Res ε _) = .ok b)
    (o : Overlay) (ho : o ∈ b.overlays) (n : Str) (hn : n ∈ o.body.attributes) :
    ∃ t, b.captureBase.attributes.get n = some t := by
  have h14 := (C14_capture_base_exact E O box b h).2.1 n
  obtain ⟨hty, rfl⟩ := generateBundle_eq_ok h
  suffices hs : (box.attributes.get n).isSome = true by
    rw [hs] at h14; exact Option.isSome_iff_exists.mp h14
  have key : ∀ {V : Type} (f : Attribute → Option V), n ∈ (collect box.attributes f).keys →
      (box.attributes.get n).isSome = true := by
    intro V f hk
    rw [FMap.mem_keys_iff, get_collect] at hk
    cases hg : box.attributes.get n with
    | none => rw [hg] at hk; cases hk
    | some a => rfl
  obtain ⟨hb, -⟩ := mem_overlays ho
  rcases mem_genBodies O box hr.wf _ hb with ⟨m, l, ps, -, -, e⟩ | ⟨K, hK, -⟩
  · rw [e] at hn; cases hn
  · cases K <;> simp only [IsBody] at hK
    case framing id =>
      obtain ⟨md, e, -⟩ := hK
      rw [e] at hn; exact key _ hn
    all_goals rw [hK] at hn; exact key _ hn

/-! ## C16 -/

/-- slot of a key -/
def OvKey.slot : OvKey → OvKind × Option Str
  | .charEnc => (.characterEncoding, none)
  | .format => (.format, none)
  | .conformance => (.conformance, none)
  | .cardinality => (.cardinality, none)
  | .conditional => (.conditional, none)
  | .unit => (.unit, none)
  | .entryCode => (.entryCode, none)
  | .entry l => (.entry, some l)
  | .label l => (.label, some l)
  | .information l => (.information, some l)
  | .link t => (.link, some t)
  | .framing id => (.attributeFraming, some id)

theorem slot_of_key {b : OvBody} {K : OvKey} (h : keyOf b = some K) : b.slot = K.slot := by
  cases b <;> simp only [keyOf, reduceCtorEq, Option.some.injEq, Option.map_eq_some_iff] at h
  case framing md m =>
    obtain ⟨id, h, rfl⟩ := h
    have h' : md.get c!"frame_id" = some id := h
    simp [OvBody.slot, OvKey.slot, h']
  all_goals subst h; rfl

theorem OvKey.slot_inj (K K' : OvKey) (h : K.slot = K'.slot) : K = K' := by
  cases K <;> cases K' <;> simp_all [OvKey.slot]

theorem slots_nodup (O : Order) (box : OCABox) (hw : BoxWF box) : ((genBodies O box).map OvBody.slot).Nodup := by
  obtain ⟨ks, h1, h2, h3, h4⟩ := genBodies_wf O box hw
  rw [h3, List.map_append, List.nodup_append]
  have hks : (ks.map (bodyOf O (O.iter 142 [] box.attributes))).map OvBody.slot = ks.map OvKey.slot := by
    rw [List.map_map]
    apply List.map_congr_left
    intro K _
    exact slot_of_key (h4 K).key
  refine ⟨?_, ?_, ?_⟩
  · rw [preBodies_wf O box hw]
    split
    · exact List.nodup_nil
    · rename_i m _
      rw [List.map_map]
      have hnd : ((O.iter 136 [] m).map (·.1)).Nodup :=
        ((O.perm 136 [] m).map _).nodup_iff.mpr m.keys_nodup
      have e : (O.iter 136 [] m).map (OvBody.slot ∘ fun p => OvBody.metaOv p.1 p.2)
          = ((O.iter 136 [] m).map (·.1)).map (fun l => (OvKind.metaOv, some l)) := by
        rw [List.map_map]; rfl
      rw [e]
      exact map_nodup_of_inj (fun a b e => by simpa using e) hnd
  · rw [hks]
    exact map_nodup_of_inj OvKey.slot_inj h1
  · intro x hx y hy e
    obtain ⟨bx, hbx, rfl⟩ := List.mem_map.mp hx
    obtain ⟨m, l, ps, -, -, rfl⟩ := (mem_preBodies O box hw bx).mp hbx
    rw [hks] at hy
    obtain ⟨K, -, rfl⟩ := List.mem_map.mp hy
    cases K <;> simp [OvBody.slot, OvKey.slot] at e

/-- A generated bundle holds at most one overlay for each kind, (kind, language), link target and
frame id. -/
theorem C16_one_overlay_per_slot {ε : Type} (E : Env) (O : Order) (box : OCABox)
    (hr : Reachable E box) (b : Bundle) (h : (generateBundle E O box : Res ε _) = .ok b) :
    (b.overlays.map fun o => o.body.slot).Nodup := by
  obtain ⟨-, rfl⟩ := generateBundle_eq_ok h
  have := slots_nodup O box hr.wf
  rw [← bodies_bundleOf E O box, List.map_map] at this
  exact this

/-! ## C17 -/

/-- the key a fact belongs to -/
def Fact.key : Fact → OvKey
  | .encoding _ => .charEnc
  | .format _ => .format
  | .conformance _ => .conformance
  | .cardinality _ => .cardinality
  | .unit _ => .unit
  | .condition _ _ => .conditional
  | .entryCodes _ => .entryCode
  | .entry l _ => .entry l
  | .label l _ => .label l
  | .information l _ => .information l
  | .link t _ => .link t
  | .framing i _ => .framing i

theorem carries_hasKey {a : Attribute} {f : Fact} (h : a.Carries f) : hasKey f.key a = true := by
  cases f <;> simp only [Attribute.Carries] at h <;> simp only [hasKey, Fact.key]
  case condition => simp [h.1]
  all_goals first
    | simp [h]
    | (rw [← optGet_eq_some] at h; simp [h])

theorem states_key {n : Str} {f : Fact} {b : OvBody} (h : b.States n f) : keyOf b = some f.key := by
  cases f <;> simp only [OvBody.States] at h
  case condition => obtain ⟨m, d, rfl, -⟩ := h; rfl
  case label => obtain ⟨cs, m, cl, rfl, -⟩ := h; rfl
  case framing i fr =>
    obtain ⟨md, m, rfl, h, -⟩ := h
    have h' : md.get frameIdKey = some i := h
    simp [keyOf, Fact.key, h']
  all_goals obtain ⟨m, rfl, -⟩ := h; rfl

theorem isBody_states {m : FMap Attribute} {b : OvBody} (n : Str)
    (f : Fact) (h : IsBody m f.key b) : b.States n f ↔ ∃ a, m.get n = some a ∧ a.Carries f := by
  cases f <;> simp only [IsBody, Fact.key] at h <;> simp only [OvBody.States, Attribute.Carries]
  case condition c ds =>
    subst h
    constructor
    · rintro ⟨_, _, e, h1, h2⟩
      simp only [OvBody.conditional.injEq] at e
      obtain ⟨rfl, rfl⟩ := e
      rw [get_collect] at h1 h2
      obtain ⟨a, hg, hc⟩ := Option.bind_eq_some_iff.mp h1
      rw [hg] at h2
      simp [hc] at h2
      exact ⟨a, hg, hc, h2⟩
    · rintro ⟨a, hg, hc, hd⟩
      refine ⟨_, _, rfl, ?_, ?_⟩
      · rw [get_collect, hg]; exact hc
      · rw [get_collect, hg]; simp [hc, hd]
  case label l s =>
    subst h
    simp only [OvBody.label.injEq, true_and]
    constructor
    · rintro ⟨_, _, _, ⟨-, rfl, -⟩, h1⟩
      rw [get_collect] at h1
      obtain ⟨a, hg, hc⟩ := Option.bind_eq_some_iff.mp h1
      exact ⟨a, hg, optGet_eq_some.mp hc⟩
    · rintro ⟨a, hg, hc⟩
      exact ⟨_, _, _, ⟨rfl, rfl, rfl⟩, by rw [get_collect, hg]; exact optGet_eq_some.mpr hc⟩
  case framing i fr =>
    obtain ⟨md, rfl, hmd⟩ := h
    have hid : md.get c!"frame_id" = some i := hmd.hasId
    constructor
    · rintro ⟨_, _, e, -, h1⟩
      simp only [OvBody.framing.injEq] at e
      obtain ⟨rfl, rfl⟩ := e
      rw [get_collect] at h1
      obtain ⟨a, hg, hc⟩ := Option.bind_eq_some_iff.mp h1
      exact ⟨a, hg, optGet_eq_some.mp hc⟩
    · rintro ⟨a, hg, hc⟩
      exact ⟨_, _, rfl, hid, by rw [get_collect, hg]; exact optGet_eq_some.mpr hc⟩
  case entry l s =>
    subst h
    constructor
    · rintro ⟨_, e, h1⟩
      simp only [OvBody.entry.injEq, true_and] at e
      subst e
      rw [get_collect] at h1
      obtain ⟨a, hg, hc⟩ := Option.bind_eq_some_iff.mp h1
      exact ⟨a, hg, optGet_eq_some.mp hc⟩
    · rintro ⟨a, hg, hc⟩
      exact ⟨_, rfl, by rw [get_collect, hg]; exact optGet_eq_some.mpr hc⟩
  case information l s =>
    subst h
    constructor
    · rintro ⟨_, e, h1⟩
      simp only [OvBody.information.injEq, true_and] at e
      subst e
      rw [get_collect] at h1
      obtain ⟨a, hg, hc⟩ := Option.bind_eq_some_iff.mp h1
      exact ⟨a, hg, optGet_eq_some.mp hc⟩
    · rintro ⟨a, hg, hc⟩
      exact ⟨_, rfl, by rw [get_collect, hg]; exact optGet_eq_some.mpr hc⟩
  case link l s =>
    subst h
    constructor
    · rintro ⟨_, e, h1⟩
      simp only [OvBody.link.injEq, true_and] at e
      subst e
      rw [get_collect] at h1
      obtain ⟨a, hg, hc⟩ := Option.bind_eq_some_iff.mp h1
      exact ⟨a, hg, optGet_eq_some.mp hc⟩
    · rintro ⟨a, hg, hc⟩
      exact ⟨_, rfl, by rw [get_collect, hg]; exact optGet_eq_some.mpr hc⟩
  all_goals
    subst h
    constructor
    · rintro ⟨_, e, h1⟩
      injection e with e
      subst e
      rw [get_collect] at h1
      exact Option.bind_eq_some_iff.mp h1
    · rintro ⟨a, hg, hc⟩
      exact ⟨_, rfl, by rw [get_collect, hg]; exact hc⟩

/-- A generated bundle states a fact about an attribute exactly when the attribute of the build state
carries it. -/
theorem C17_overlay_content_exact {ε : Type} (E : Env) (O : Order) (box : OCABox)
    (hr : Reachable E box) (b : Bundle) (h : (generateBundle E O box : Res ε _) = .ok b)
    (n : Str) (f : Fact) :
    (∃ o ∈ b.overlays, o.body.States n f) ↔ ∃ a, box.attributes.get n = some a ∧ a.Carries f := by
  obtain ⟨-, rfl⟩ := generateBundle_eq_ok h
  have hmem : ∀ x, (∃ o ∈ (bundleOf E O box).overlays, o.body = x) ↔ x ∈ genBodies O box := by
    intro x
    rw [← bodies_bundleOf E O box, List.mem_map]
  constructor
  · rintro ⟨o, ho, hs⟩
    have hb := (hmem o.body).mp ⟨o, ho, rfl⟩
    have hk := states_key hs
    rcases mem_genBodies O box hr.wf _ hb with ⟨m, l, ps, -, -, e⟩ | ⟨K, hK, -⟩
    · rw [e] at hk; cases hk
    · have hk' := hK.key
      rw [hk] at hk'
      cases hk'
      exact (isBody_states n f hK).mp hs
  · rintro ⟨a, hg, hc⟩
    obtain ⟨x, hx, hK⟩ := exists_genBody O box hr.wf f.key n a hg (carries_hasKey hc)
    obtain ⟨o, ho, e⟩ := (hmem x).mpr hx
    refine ⟨o, ho, ?_⟩
    rw [e]
    exact (isBody_states n f hK).mpr ⟨a, hg, hc⟩

/-- No overlay is empty: each one states some fact about some attribute, or is a meta overlay holding
exactly the (non-empty) pairs set for its language, and every such language has one. Nothing but meta
overlays has no attributes. -/
theorem C17_no_empty_overlay {ε : Type} (E : Env) (O : Order) (box : OCABox)
    (hr : Reachable E box) (b : Bundle) (h : (generateBundle E O box : Res ε _) = .ok b) :
    (∀ o ∈ b.overlays, (∃ n f, o.body.States n f) ∨ ∃ l ps, o.body = .metaOv l ps) ∧
    (∀ l ps, (∃ o ∈ b.overlays, o.body = .metaOv l ps) ↔
      ∃ m, box.metaMap = some m ∧ m.get l = some ps) ∧
    (∀ l ps, (∃ o ∈ b.overlays, o.body = .metaOv l ps) → ps ≠ FMap.empty) := by
  obtain ⟨-, rfl⟩ := generateBundle_eq_ok h
  have hw := hr.wf
  have hmem : ∀ x, (∃ o ∈ (bundleOf E O box).overlays, o.body = x) ↔ x ∈ genBodies O box := by
    intro x
    rw [← bodies_bundleOf E O box, List.mem_map]
  have hmeta : ∀ l ps, (∃ o ∈ (bundleOf E O box).overlays, o.body = .metaOv l ps) ↔
      ∃ m, box.metaMap = some m ∧ m.get l = some ps := by
    intro l ps
    rw [hmem]
    constructor
    · intro hx
      rcases mem_genBodies O box hw _ hx with ⟨m, l', ps', h1, h2, e⟩ | ⟨K, hK, -⟩
      · injection e with e1 e2; subst e1 e2; exact ⟨m, h1, h2⟩
      · have := hK.key; cases this
    · rintro ⟨m, h1, h2⟩
      obtain ⟨ks, -, -, h3, -⟩ := genBodies_wf O box hw
      rw [h3]
      exact List.mem_append_left _ ((mem_preBodies O box hw _).mpr ⟨m, l, ps, h1, h2, rfl⟩)
  refine ⟨?_, hmeta, ?_⟩
  · intro o ho
    rcases mem_genBodies O box hw _ ((hmem o.body).mp ⟨o, ho, rfl⟩) with ⟨m, l, ps, -, -, e⟩ | ⟨K, hK, n, a, hg, hk⟩
    · exact .inr ⟨l, ps, e⟩
    · left
      have hf : ∃ f : Fact, f.key = K ∧ a.Carries f := by
        cases K <;> simp only [hasKey] at hk <;> obtain ⟨v, hv⟩ := Option.isSome_iff_exists.mp hk
        case charEnc => exact ⟨.encoding v, rfl, hv⟩
        case format => exact ⟨.format v, rfl, hv⟩
        case conformance => exact ⟨.conformance v, rfl, hv⟩
        case cardinality => exact ⟨.cardinality v, rfl, hv⟩
        case unit => exact ⟨.unit v, rfl, hv⟩
        case entryCode => exact ⟨.entryCodes v, rfl, hv⟩
        case conditional =>
          rcases (hw.attrs n a hg).cond with ⟨h1, -⟩ | ⟨s, h1, h2⟩
          · rw [h1] at hv; cases hv
          · exact ⟨.condition _ _, rfl, h1, h2⟩
        case entry l => exact ⟨.entry l v, rfl, optGet_eq_some.mp hv⟩
        case label l => exact ⟨.label l v, rfl, optGet_eq_some.mp hv⟩
        case information l => exact ⟨.information l v, rfl, optGet_eq_some.mp hv⟩
        case link l => exact ⟨.link l v, rfl, optGet_eq_some.mp hv⟩
        case framing l => exact ⟨.framing l v, rfl, optGet_eq_some.mp hv⟩
      obtain ⟨f, rfl, hc⟩ := hf
      exact ⟨n, f, (isBody_states n f hK).mpr ⟨a, hg, hc⟩⟩
  · intro l ps hx
    obtain ⟨m, h1, h2⟩ := (hmeta l ps).mp hx
    exact hw.metas m l ps h1 h2

/-- The metadata of a generated framing overlay: its frame id and, besides, only values some scope of the
frame was given, covering every key any scope was given. -/
theorem C17_frame_metadata {ε : Type} (E : Env) (O : Order) (box : OCABox)
    (hr : Reachable E box) (b : Bundle) (h : (generateBundle E O box : Res ε _) = .ok b)
    (o : Overlay) (ho : o ∈ b.overlays) (md : FMap Str) (m : FMap (FMap Scope)) (hb : o.body = .framing md m) :
    ∃ frame, md.get c!"frame_id" = some frame ∧
      (∀ k v, k ≠ c!"frame_id" → md.get k = some v →
        ∃ n a fr sc s, box.attributes.get n = some a ∧ a.Carries (.framing frame fr) ∧ fr.get sc = some s ∧
          s.frameMeta.get k = some v) ∧
      (∀ n a fr sc s k v, box.attributes.get n = some a → a.Carries (.framing frame fr) →
        fr.get sc = some s → s.frameMeta.get k = some v → ∃ w, md.get k = some w) := by
  obtain ⟨-, rfl⟩ := generateBundle_eq_ok h
  have hx : o.body ∈ genBodies O box := by
    rw [← bodies_bundleOf E O box]; exact List.mem_map_of_mem ho
  rw [hb] at hx
  rcases mem_genBodies O box hr.wf _ hx with ⟨_, _, _, -, -, e⟩ | ⟨K, hK, -⟩
  · cases e
  · cases K <;> simp only [IsBody, reduceCtorEq] at hK
    case framing frame =>
      obtain ⟨md', e, hmd⟩ := hK
      injection e with e1 e2
      subst e1
      refine ⟨frame, hmd.hasId, ?_, ?_⟩
      · intro k v hk hv
        obtain ⟨n, a, fr, sc, s, h1, h2, h3, h4⟩ := hmd.sound k v hk hv
        exact ⟨n, a, fr, sc, s, h1, optGet_eq_some.mp h2, h3, h4⟩
      · intro n a fr sc s k v h1 h2 h3 h4
        exact Option.isSome_iff_exists.mp (hmd.complete n a fr sc s k h1 (optGet_eq_some.mpr h2) h3 (by simp [h4]))
    all_goals simp at hK

/-! ## The hypotheses are met -/

example : ∃ b, (generateBundle Env.demo Order.reversed demoBox : Res Str _) = .ok b :=
  (C14_generate_total Env.demo Order.reversed demoBox).2.2 demo_reachable
example : ∃ o ∈ demoBundle.overlays, o.body.States c!"age" (.condition c!"${0} ~= ''" [c!"name"]) :=
  (C17_overlay_content_exact _ _ _ demo_reachable _ demo_generated _ _).mpr
    ⟨(demoBox.attributes.get c!"age").getD {}, by decide, by decide, by decide⟩
example : (demoBundle.overlays.map fun o => o.body.slot).length = 9 := by decide
example : demoBundle.captureBase.attributes.get c!"tags" = some (.arr (.val .text)) := by decide

end OCA
