import Verif.Model.ApiMore
import Verif.Props.AnyValidation
/-!
# C83: bundles of build states of any making

The fields of an attribute and of a build state are public: a program may set them as it likes, and call `add_category_label` and `add_attribute_mapping`. What is
generated from such a state.
-/
namespace OCA

/-! ## Specification -/

/-- No scope of a frame has metadata of its own under the name `frame_id`. -/
def OCABox.FramesNamed (box : OCABox) : Prop :=
  ∀ n a id fr sc s, box.attributes.get n = some a → a.Carries (.framing id fr) → fr.get sc = some s → s.frameMeta.get c!"frame_id" = none

/-- The bundle has this category label for the attribute. -/
def Bundle.HasCategoryLabel (B : Bundle) (n : Str) (l : Lang) (s : Str) : Prop :=
  ∃ o ∈ B.overlays, ∃ cs m cl, o.body = .label l cs m cl ∧ cl.get n = some s

/-- The attribute has this category label. -/
def Attribute.HasCategoryLabel (a : Attribute) (l : Lang) (s : Str) : Prop := ∃ m, a.categoryLabels = some m ∧ m.get l = some s

/-- The map of an attribute mapping overlay. -/
def OvBody.mapping? : OvBody → Option (FMap Str)
  | .mapping m => some m
  | _ => none

/-! ## The overlays of any state -/

theorem OCABox.FramesNamed.ok {box : OCABox} (h : box.FramesNamed) (n : Str) (a : Attribute) (hg : box.attributes.get n = some a) : FrameOk a :=
  fun id fr sc s h1 h2 => h n a id fr sc s hg (optGet_eq_some.1 h1) h2

theorem mem_bodies (E : Env) (O : Order) (box : OCABox) (x : OvBody) :
    (∃ o ∈ (bundleOf E O box).overlays, o.body = x) ↔ x ∈ genBodies O box := by
  rw [← bodies_bundleOf E O box, List.mem_map]

theorem mem_pre_any (O : Order) (b : OCABox) (x : OvBody) :
    x ∈ preBodies O b ↔ (∃ ms m, b.mappings = some ms ∧ m ∈ ms ∧ x = .mapping m) ∨
      ∃ m l ps, b.metaMap = some m ∧ m.get l = some ps ∧ x = .metaOv l ps := by
  unfold preBodies
  rw [List.mem_append]
  apply or_congr
  · cases b.mappings with
    | none => simp
    | some ms => simp [List.mem_map, eq_comm]
  · cases hm : b.metaMap with
    | none => simp
    | some m =>
      simp only [List.mem_map, O.mem_iter, Option.some.injEq]
      constructor
      · rintro ⟨p, h1, rfl⟩; exact ⟨m, p.1, p.2, rfl, h1, rfl⟩
      · rintro ⟨_, l, ps, rfl, h1, rfl⟩; exact ⟨(l, ps), h1, rfl⟩

/-- every overlay of a state -/
theorem mem_gen_any (O : Order) (b : OCABox) (hf : b.FramesNamed) (x : OvBody) :
    (x ∈ genBodies O b → (∃ ms m, b.mappings = some ms ∧ m ∈ ms ∧ x = .mapping m) ∨
      (∃ m l ps, b.metaMap = some m ∧ m.get l = some ps ∧ x = .metaOv l ps) ∨
      ∃ K, IsBody b.attributes K x ∧ ∃ n a, b.attributes.get n = some a ∧ hasKey K a = true) ∧
    (((∃ ms m, b.mappings = some ms ∧ m ∈ ms ∧ x = .mapping m) ∨
      (∃ m l ps, b.metaMap = some m ∧ m.get l = some ps ∧ x = .metaOv l ps)) → x ∈ genBodies O b) := by
  obtain ⟨ks, -, h2, h3⟩ := genBodies_spec O b hf.ok
  rw [h3, List.mem_append, mem_pre_any]
  refine ⟨?_, .inl⟩
  rintro ((h | h) | h)
  · exact .inl h
  · exact .inr (.inl h)
  · obtain ⟨K, hK, rfl⟩ := List.mem_map.mp h
    exact .inr (.inr ⟨K, bodyOf_isBody O b.attributes (O.perm 142 [] b.attributes) hf.ok K, (h2 K).mp hK⟩)

theorem exists_gen_any (O : Order) (b : OCABox) (hf : b.FramesNamed) (K : OvKey) (n : Str) (a : Attribute)
    (hg : b.attributes.get n = some a) (hK : hasKey K a = true) : ∃ x ∈ genBodies O b, IsBody b.attributes K x := by
  obtain ⟨ks, -, h2, h3⟩ := genBodies_spec O b hf.ok
  refine ⟨_, ?_, bodyOf_isBody O b.attributes (O.perm 142 [] b.attributes) hf.ok K⟩
  rw [h3]
  exact List.mem_append_right _ (List.mem_map_of_mem ((h2 K).mpr ⟨n, a, hg, hK⟩))

/-- overlays that are never looked up stay in front -/
theorem upsert_keyless (O : Order) (k : OvKey) (n : Str) (a : Attribute) (pre l : List OvBody) (h : ∀ x ∈ pre, keyOf x = none) :
    upsert O k n a (pre ++ l) = pre ++ upsert O k n a l := by
  induction pre with
  | nil => rfl
  | cons x pre ih =>
    have hx : x.matches k = false := by
      cases hm : x.matches k with
      | false => rfl
      | true => rw [matches_iff, h x List.mem_cons_self] at hm; cases hm
    show (if x.matches k then _ else x :: upsert O k n a (pre ++ l)) = _
    rw [hx, ih (fun y hy => h y (List.mem_cons_of_mem _ hy))]
    rfl

theorem foldl_keyless (O : Order) (attrs : List (Str × Attribute)) (pre l : List OvBody) (h : ∀ x ∈ pre, keyOf x = none) :
    attrs.foldl (addAttrOverlays O) (pre ++ l) = pre ++ attrs.foldl (addAttrOverlays O) l := by
  induction attrs generalizing l with
  | nil => rfl
  | cons p attrs ih =>
    rw [List.foldl_cons, List.foldl_cons, ← ih]
    congr 1
    unfold addAttrOverlays
    generalize attrKeys O p.1 p.2 = ks
    induction ks generalizing l with
    | nil => rfl
    | cons k ks ihk => rw [List.foldl_cons, List.foldl_cons, upsert_keyless O k p.1 p.2 pre l h, ihk]

theorem gen_mappings (O : Order) (box : OCABox) :
    genBodies O box = (box.mappings.getD []).map .mapping ++ genBodies O { box with mappings := none } := by
  unfold genBodies
  rw [show preBodies O box = (box.mappings.getD []).map .mapping ++ preBodies O { box with mappings := none } by unfold preBodies; simp]
  exact foldl_keyless O _ _ _ (by intro x hx; obtain ⟨m, -, rfl⟩ := List.mem_map.1 hx; rfl)

theorem add_unmapped (O : Order) (n : Str) (a : Attribute) (x : OvBody) (h : x.mapping? = none) : (x.add O n a).mapping? = none := by
  cases x with
  | mapping m => cases h
  | framing md m =>
    simp only [OvBody.add]
    cases h1 : md.get frameIdKey with
    | none => rfl
    | some id =>
      cases h2 : optGet a.framings id with
      | none => dsimp only; rw [h2]; rfl
      | some fr => dsimp only; rw [h2]; rfl
  | _ => rfl

theorem gen_unmapped (O : Order) (box : OCABox) (h : box.mappings = none) : (genBodies O box).filterMap OvBody.mapping? = [] := by
  have key : ∀ (attrs : List (Str × Attribute)) (l : List OvBody), l.filterMap OvBody.mapping? = [] →
      (attrs.foldl (addAttrOverlays O) l).filterMap OvBody.mapping? = [] := by
    intro attrs
    induction attrs with
    | nil => intro l hl; exact hl
    | cons p attrs ih =>
      intro l hl
      rw [List.foldl_cons]
      apply ih
      unfold addAttrOverlays
      generalize attrKeys O p.1 p.2 = ks
      induction ks generalizing l with
      | nil => exact hl
      | cons k ks ihk =>
        rw [List.foldl_cons]
        apply ihk
        clear ihk ih
        induction l with
        | nil =>
          have : ((k.newBody).add O p.1 p.2).mapping? = none := add_unmapped O _ _ _ (by cases k <;> rfl)
          simp [upsert, this]
        | cons x l ihl =>
          unfold upsert
          split
          · rename_i hm
            rw [matches_iff] at hm
            rw [List.filterMap_eq_nil_iff] at hl ⊢
            intro y hy
            rcases List.mem_cons.1 hy with rfl | hy
            · exact add_unmapped O _ _ _ (hl x List.mem_cons_self)
            · exact hl y (List.mem_cons_of_mem _ hy)
          · have h1 : x.mapping? = none := (List.filterMap_eq_nil_iff.1 hl) x List.mem_cons_self
            have h2 : l.filterMap OvBody.mapping? = [] := List.filterMap_eq_nil_iff.2 fun y hy => (List.filterMap_eq_nil_iff.1 hl) y (List.mem_cons_of_mem _ hy)
            simp [h1, ihl h2]
  unfold genBodies
  apply key
  rw [List.filterMap_eq_nil_iff]
  intro x hx
  rcases (mem_pre_any O box x).1 hx with ⟨ms, m, hm, -⟩ | ⟨m, l, ps, -, -, rfl⟩
  · rw [h] at hm; cases hm
  · rfl

/-! ## C83 -/

/-- **C83** Generating from a state of any making: it aborts exactly when an attribute has no type, never ends with an error, and what it gives has right identifiers -
each the digest of its content, each overlay bound to the capture base - and version 1.1 everywhere. (For the capture base see `C14_capture_base_exact`, which holds
of every state.) -/
theorem C83_generates {ε : Type} (E : Env) (O : Order) (box : OCABox) :
    ((generateBundle E O box : Res ε Bundle) = .panic ↔ ∃ n a, box.attributes.get n = some a ∧ a.ty = none) ∧
    (∀ e, (generateBundle E O box : Res ε Bundle) ≠ .err e) ∧
    ∀ B, (generateBundle E O box : Res ε Bundle) = .ok B → B.SaidsValid E ∧ ∀ o ∈ B.overlays, o.ver = c!"1.1" := by
  have h14 := C14_generate_total (ε := ε) E O box
  by_cases h : ∃ n a, box.attributes.get n = some a ∧ a.ty = none
  · rw [h14.2.1 h]
    exact ⟨⟨fun _ => h, fun _ => rfl⟩, (fun e he => by cases he), (fun B hB => by cases hB)⟩
  · obtain ⟨B, hB⟩ := h14.1 (fun n a hg ht => h ⟨n, a, hg, ht⟩)
    refine ⟨⟨(fun hp => by rw [hB] at hp; cases hp), fun hx => absurd hx h⟩, (fun e he => by rw [hB] at he; cases he), fun B' hB' => ?_⟩
    refine ⟨(C18_generated_saids_valid E O box B' hB').1, fun o ho => ?_⟩
    obtain ⟨-, rfl⟩ := generateBundle_eq_ok hB'
    rw [(mem_overlays ho).2]
    rfl

/-- **C83** What is told about attributes: exactly what they carry. And nothing but mappings, meta and overlays that tell something, or hold a condition. -/
theorem C83_facts {ε : Type} (E : Env) (O : Order) (box : OCABox) (hf : box.FramesNamed) (B : Bundle) (hB : (generateBundle E O box : Res ε Bundle) = .ok B) :
    (∀ n F, B.Tells n F ↔ ∃ a, box.attributes.get n = some a ∧ a.Carries F) ∧
    (∀ l ps, (∃ o ∈ B.overlays, o.body = .metaOv l ps) ↔ ∃ m, box.metaMap = some m ∧ m.get l = some ps) ∧
    (∀ o ∈ B.overlays, (∃ n F, o.body.States n F) ∨ (∃ c d n x, o.body = .conditional c d ∧ c.get n = some x) ∨ (∃ l ps, o.body = .metaOv l ps) ∨ ∃ m, o.body = .mapping m) := by
  obtain ⟨-, rfl⟩ := generateBundle_eq_ok hB
  refine ⟨fun n F => ⟨?_, ?_⟩, fun l ps => ?_, fun o ho => ?_⟩
  · rintro ⟨o, ho, hs⟩
    have hk := states_key hs
    rcases (mem_gen_any O box hf _).1 ((mem_bodies E O box o.body).1 ⟨o, ho, rfl⟩) with ⟨ms, m, -, -, e⟩ | ⟨m, l, ps, -, -, e⟩ | ⟨K, hK, -⟩
    · rw [e] at hk; cases hk
    · rw [e] at hk; cases hk
    · have hk' := hK.key
      rw [hk] at hk'
      cases hk'
      exact (isBody_states n F hK).1 hs
  · rintro ⟨a, hg, hc⟩
    obtain ⟨x, hx, hK⟩ := exists_gen_any O box hf F.key n a hg (carries_hasKey hc)
    obtain ⟨o, ho, rfl⟩ := (mem_bodies E O box x).2 hx
    exact ⟨o, ho, (isBody_states n F hK).2 ⟨a, hg, hc⟩⟩
  · rw [mem_bodies]
    constructor
    · intro h
      rcases (mem_gen_any O box hf _).1 h with ⟨ms, m, -, -, e⟩ | ⟨m, l', ps', h1, h2, e⟩ | ⟨K, hK, -⟩
      · cases e
      · cases e; exact ⟨m, h1, h2⟩
      · have := hK.key; cases this
    · rintro ⟨m, h1, h2⟩
      exact (mem_gen_any O box hf _).2 (.inr ⟨m, l, ps, h1, h2, rfl⟩)
  · rcases (mem_gen_any O box hf _).1 ((mem_bodies E O box o.body).1 ⟨o, ho, rfl⟩) with ⟨ms, m, -, -, e⟩ | ⟨m, l, ps, -, -, e⟩ | ⟨K, hK, n, a, hg, hk⟩
    · exact .inr (.inr (.inr ⟨m, e⟩))
    · exact .inr (.inr (.inl ⟨l, ps, e⟩))
    · have tell : ∀ F : Fact, F.key = K → a.Carries F → (∃ n F, o.body.States n F) := fun F e hc =>
        ⟨n, F, (isBody_states n F (e ▸ hK)).2 ⟨a, hg, hc⟩⟩
      cases K with
      | conditional =>
        simp only [IsBody] at hK
        obtain ⟨x, hx⟩ := Option.isSome_iff_exists.1 (show a.condition.isSome = true from hk)
        exact .inr (.inl ⟨_, _, n, x, hK, by rw [get_collect, hg]; exact hx⟩)
      | charEnc => obtain ⟨x, hx⟩ := Option.isSome_iff_exists.1 (show a.encoding.isSome = true from hk); exact .inl (tell (.encoding x) rfl hx)
      | format => obtain ⟨x, hx⟩ := Option.isSome_iff_exists.1 (show a.format.isSome = true from hk); exact .inl (tell (.format x) rfl hx)
      | conformance => obtain ⟨x, hx⟩ := Option.isSome_iff_exists.1 (show a.conformance.isSome = true from hk); exact .inl (tell (.conformance x) rfl hx)
      | cardinality => obtain ⟨x, hx⟩ := Option.isSome_iff_exists.1 (show a.cardinality.isSome = true from hk); exact .inl (tell (.cardinality x) rfl hx)
      | unit => obtain ⟨x, hx⟩ := Option.isSome_iff_exists.1 (show a.unit.isSome = true from hk); exact .inl (tell (.unit x) rfl hx)
      | entryCode => obtain ⟨x, hx⟩ := Option.isSome_iff_exists.1 (show a.entryCodes.isSome = true from hk); exact .inl (tell (.entryCodes x) rfl hx)
      | entry l => obtain ⟨x, hx⟩ := Option.isSome_iff_exists.1 (show (optGet a.entries l).isSome = true from hk); exact .inl (tell (.entry l x) rfl (optGet_eq_some.1 hx))
      | label l => obtain ⟨x, hx⟩ := Option.isSome_iff_exists.1 (show (optGet a.labels l).isSome = true from hk); exact .inl (tell (.label l x) rfl (optGet_eq_some.1 hx))
      | information l => obtain ⟨x, hx⟩ := Option.isSome_iff_exists.1 (show (optGet a.informations l).isSome = true from hk); exact .inl (tell (.information l x) rfl (optGet_eq_some.1 hx))
      | link l => obtain ⟨x, hx⟩ := Option.isSome_iff_exists.1 (show (optGet a.links l).isSome = true from hk); exact .inl (tell (.link l x) rfl (optGet_eq_some.1 hx))
      | framing l => obtain ⟨x, hx⟩ := Option.isSome_iff_exists.1 (show (optGet a.framings l).isSome = true from hk); exact .inl (tell (.framing l x) rfl (optGet_eq_some.1 hx))

/-- **C83** Category labels: the one of a language is written only if the attribute also has a label in that language. A label overlay never names categories. -/
theorem C83_category_labels {ε : Type} (E : Env) (O : Order) (box : OCABox) (hf : box.FramesNamed) (B : Bundle)
    (hB : (generateBundle E O box : Res ε Bundle) = .ok B) :
    (∀ n l s, B.HasCategoryLabel n l s ↔ ∃ a, box.attributes.get n = some a ∧ a.HasCategoryLabel l s ∧ ∃ t, a.Carries (.label l t)) ∧
    ∀ o ∈ B.overlays, ∀ l cs m cl, o.body = .label l cs m cl → cs = [] := by
  obtain ⟨-, rfl⟩ := generateBundle_eq_ok hB
  have shape : ∀ o ∈ (bundleOf E O box).overlays, ∀ l cs m cl, o.body = .label l cs m cl → IsBody box.attributes (.label l) o.body := by
    intro o ho l cs m cl e
    rcases (mem_gen_any O box hf _).1 ((mem_bodies E O box o.body).1 ⟨o, ho, rfl⟩) with ⟨ms, m, -, -, e'⟩ | ⟨m, l, ps, -, -, e'⟩ | ⟨K, hK, -⟩
    · rw [e] at e'; cases e'
    · rw [e] at e'; cases e'
    · have hk := hK.key
      rw [e] at hk
      cases hk
      exact hK
  refine ⟨fun n l s => ⟨?_, ?_⟩, fun o ho l cs m cl e => ?_⟩
  · rintro ⟨o, ho, cs, m, cl, e, hc⟩
    have hK := shape o ho l cs m cl e
    simp only [IsBody] at hK
    rw [hK] at e
    simp only [OvBody.label.injEq] at e
    obtain ⟨-, -, -, rfl⟩ := e
    rw [get_collect] at hc
    obtain ⟨a, hg, hc⟩ := Option.bind_eq_some_iff.1 hc
    split at hc
    · rename_i hs
      obtain ⟨t, ht⟩ := Option.isSome_iff_exists.1 hs
      exact ⟨a, hg, optGet_eq_some.1 hc, t, optGet_eq_some.1 ht⟩
    · cases hc
  · rintro ⟨a, hg, hc, t, ht⟩
    obtain ⟨x, hx, hK⟩ := exists_gen_any O box hf (.label l) n a hg (carries_hasKey (f := .label l t) ht)
    obtain ⟨o, ho, rfl⟩ := (mem_bodies E O box x).2 hx
    simp only [IsBody] at hK
    refine ⟨o, ho, _, _, _, hK, ?_⟩
    rw [get_collect, hg]
    have := optGet_eq_some.2 ht
    have h2 : optGet a.categoryLabels l = some s := optGet_eq_some.2 hc
    simp [this, h2]
  · have hK := shape o ho l cs m cl e
    simp only [IsBody] at hK
    rw [hK] at e
    simp only [OvBody.label.injEq] at e
    exact e.2.1.symm

/-- **C83** Conditions: each with the list of names set beside it, which a program may have left out. If so, validating the bundle aborts. -/
theorem C83_conditions {ε : Type} (E : Env) (O : Order) (box : OCABox) (hf : box.FramesNamed) (B : Bundle)
    (hB : (generateBundle E O box : Res ε Bundle) = .ok B) :
    (∀ o ∈ B.overlays, ∀ c d, o.body = .conditional c d → ∀ n, c.get n = (box.attributes.get n).bind (·.condition) ∧
      ∀ ds, d.get n = some ds ↔ ∃ a, box.attributes.get n = some a ∧ a.condition ≠ none ∧ a.dependencies = some ds) ∧
    ((∃ n a, box.attributes.get n = some a ∧ a.condition ≠ none ∧ a.dependencies = none) → ∀ enforced, validateBundle E enforced B = .panic) := by
  obtain ⟨-, rfl⟩ := generateBundle_eq_ok hB
  have shape : ∀ o ∈ (bundleOf E O box).overlays, ∀ c d, o.body = .conditional c d → IsBody box.attributes .conditional o.body := by
    intro o ho c d e
    rcases (mem_gen_any O box hf _).1 ((mem_bodies E O box o.body).1 ⟨o, ho, rfl⟩) with ⟨ms, m, -, -, e'⟩ | ⟨m, l, ps, -, -, e'⟩ | ⟨K, hK, -⟩
    · rw [e] at e'; cases e'
    · rw [e] at e'; cases e'
    · have hk := hK.key
      rw [e] at hk
      cases hk
      exact hK
  refine ⟨fun o ho c d e n => ?_, ?_⟩
  · have hK := shape o ho c d e
    simp only [IsBody] at hK
    rw [hK] at e
    simp only [OvBody.conditional.injEq] at e
    obtain ⟨rfl, rfl⟩ := e
    refine ⟨get_collect .., fun ds => ?_⟩
    rw [get_collect]
    cases hg : box.attributes.get n with
    | none => simp
    | some a =>
      cases hc : a.condition with
      | none => simp [hc]
      | some x => simp [hc]
  · rintro ⟨n, a, hg, hc, hd⟩ enforced
    obtain ⟨x, hx⟩ := Option.ne_none_iff_exists'.1 hc
    obtain ⟨y, hy, hK⟩ := exists_gen_any O box hf .conditional n a hg (by simp [hasKey, hx])
    obtain ⟨o, ho, rfl⟩ := (mem_bodies E O box y).2 hy
    -- the first conditional overlay is one like it
    have : ∃ pre o' post, (bundleOf E O box).overlays = pre ++ o' :: post ∧ (∀ y ∈ pre, y.body.kind ≠ .conditional) ∧ o'.body.kind = .conditional := by
      have : ∃ o ∈ (bundleOf E O box).overlays, o.body.kind = .conditional := by
        simp only [IsBody] at hK
        exact ⟨o, ho, by rw [hK]; rfl⟩
      generalize (bundleOf E O box).overlays = l at this
      induction l with
      | nil => obtain ⟨o, ho, -⟩ := this; cases ho
      | cons z l ih =>
        by_cases hz : z.body.kind = .conditional
        · exact ⟨[], z, l, rfl, by simp, hz⟩
        · obtain ⟨o, ho, hk⟩ := this
          have ho' : o ∈ l := by
            rcases List.mem_cons.1 ho with rfl | h
            · exact absurd hk hz
            · exact h
          obtain ⟨pre, o', post, e, h1, h2⟩ := ih ⟨o, ho', hk⟩
          exact ⟨z :: pre, o', post, by rw [e]; rfl, by
            intro y hy
            rcases List.mem_cons.1 hy with rfl | hy
            · exact hz
            · exact h1 y hy, h2⟩
    obtain ⟨pre, o', post, e, h1, h2⟩ := this
    have hb : ∃ c d, o'.body = .conditional c d := by
      cases hb : o'.body <;> rw [hb] at h2 <;> first | (cases h2; done) | exact ⟨_, _, rfl⟩
    obtain ⟨c, d, hb⟩ := hb
    have hK' := shape o' (by rw [e]; simp) c d hb
    simp only [IsBody] at hK'
    rw [hb] at hK'
    simp only [OvBody.conditional.injEq] at hK'
    obtain ⟨rfl, rfl⟩ := hK'
    refine (C80_aborts_iff E enforced _).2 ⟨n, x, none, ⟨pre, o', post, _, _, e, h1, hb, ?_, ?_⟩, trivial⟩
    · rw [get_collect, hg]; exact hx
    · rw [get_collect, hg]; simp [hd]

/-- **C83** Attribute mappings: each given is an overlay, in the order given, before all others, and changes no other overlay. -/
theorem C83_mappings {ε : Type} (E : Env) (O : Order) (box : OCABox) (B : Bundle) (hB : (generateBundle E O box : Res ε Bundle) = .ok B) :
    (B.overlays.filterMap fun o => o.body.mapping?) = box.mappings.getD [] ∧
    ∃ B0, (generateBundle E O { box with mappings := none } : Res ε Bundle) = .ok B0 ∧ B0.captureBase = B.captureBase ∧
      B.overlays.map Overlay.body = (box.mappings.getD []).map .mapping ++ B0.overlays.map Overlay.body ∧
      ∀ o, o ∈ B.overlays ∧ o.body.mapping? = none ↔ o ∈ B0.overlays := by
  obtain ⟨hty, rfl⟩ := generateBundle_eq_ok hB
  have h0 : genBodies O box = _ := gen_mappings O box
  have h1 : (genBodies O { box with mappings := none }).filterMap OvBody.mapping? = [] := gen_unmapped O _ rfl
  refine ⟨?_, _, generateBundle_ok E O { box with mappings := none } hty, rfl, ?_, fun o => ?_⟩
  · have : ((bundleOf E O box).overlays.map Overlay.body).filterMap OvBody.mapping? = box.mappings.getD [] := by
      rw [bodies_bundleOf, h0, List.filterMap_append, h1, List.append_nil, List.filterMap_map]
      exact List.filterMap_some
    rw [List.filterMap_map] at this
    exact this
  · rw [bodies_bundleOf, bodies_bundleOf]
    exact h0
  · show o ∈ (genBodies O box).map _ ∧ _ ↔ o ∈ (genBodies O { box with mappings := none }).map _
    rw [h0, List.map_append, List.mem_append]
    constructor
    · rintro ⟨h | h, hn⟩
      · obtain ⟨x, hx, rfl⟩ := List.mem_map.1 h
        obtain ⟨m, -, rfl⟩ := List.mem_map.1 hx
        cases hn
      · exact h
    · intro h
      refine ⟨.inr h, ?_⟩
      obtain ⟨x, hx, rfl⟩ := List.mem_map.1 h
      exact (List.filterMap_eq_nil_iff.1 h1) x hx

theorem getLast?_append_ne {α : Type} (l l' : List α) (h : l' ≠ []) : (l ++ l').getLast? = l'.getLast? := by
  obtain ⟨x, hx⟩ : ∃ x, l'.getLast? = some x := by
    cases e : l'.getLast? with
    | none => exact absurd (List.getLast?_eq_none_iff.1 e) h
    | some x => exact ⟨x, rfl⟩
  rw [List.getLast?_append, hx]
  rfl

theorem json_last_mapping (pre : List Overlay) (o : Overlay) (post : List Overlay) (hp : ∀ x ∈ pre, x.body.kind = .attributeMapping)
    (ho : o.body.kind = .attributeMapping) : overlaysJson (pre ++ o :: post) = overlaysJson (o :: post) := by
  unfold overlaysJson
  suffices h : (pre ++ o :: post).foldl groupStep FMap.empty = (o :: post).foldl groupStep FMap.empty by rw [h]
  ext k : 1
  rw [get_groups, get_groups]
  unfold keptGroup
  rw [groupOf_append]
  by_cases hk : OvKind.attributeMapping.snake = k
  · have hne : groupOf (o :: post) k ≠ [] := by
      unfold groupOf
      rw [List.filter_cons, ho]
      simp [hk]
    rw [getLast?_append_ne _ _ hne]
    cases hl : (groupOf (o :: post) k).getLast? with
    | none => rfl
    | some x =>
      have hx : x ∈ groupOf (o :: post) k := List.mem_of_getLast? hl
      have hx2 : x.body.kind = .attributeMapping := by
        have := (List.mem_filter.1 hx).2
        simp only [decide_eq_true_eq] at this
        exact snake_inj _ _ (this.trans hk.symm)
      simp [hx2, OvKind.many]
  · have : groupOf pre k = [] := by
      unfold groupOf
      rw [List.filter_eq_nil_iff]
      intro x hx
      rw [hp x hx]
      simpa using hk
    rw [this]
    rfl

/-- **C83** But only the last of them is written: with other mappings before it the JSON document, and so the identifier, is the same. -/
theorem C83_last_mapping {ε : Type} (E : Env) (O : Order) (box : OCABox) (ms : List (FMap Str)) (m : FMap Str) (B B' : Bundle)
    (hB : (generateBundle E O { box with mappings := some (ms ++ [m]) } : Res ε Bundle) = .ok B)
    (hB' : (generateBundle E O { box with mappings := some [m] } : Res ε Bundle) = .ok B') :
    B.said = B'.said ∧ B.toJson E = B'.toJson E := by
  obtain ⟨-, rfl⟩ := generateBundle_eq_ok hB
  obtain ⟨-, rfl⟩ := generateBundle_eq_ok hB'
  have e1 := gen_mappings O { box with mappings := some (ms ++ [m]) }
  have e2 := gen_mappings O { box with mappings := some [m] }
  have hov : overlaysJson (bundleOf E O { box with mappings := some (ms ++ [m]) }).overlays
      = overlaysJson (bundleOf E O { box with mappings := some [m] }).overlays := by
    show overlaysJson ((genBodies O { box with mappings := some (ms ++ [m]) }).map _) = overlaysJson ((genBodies O { box with mappings := some [m] }).map _)
    rw [e1, e2]
    simp only [Option.getD_some, List.map_append, List.map_cons, List.map_nil, List.append_assoc, List.cons_append, List.nil_append]
    refine json_last_mapping _ _ _ ?_ rfl
    intro x hx
    obtain ⟨y, hy, rfl⟩ := List.mem_map.1 hx
    obtain ⟨z, -, rfl⟩ := List.mem_map.1 hy
    rfl
  have key : ∀ d, (bundleOf E O { box with mappings := some (ms ++ [m]) }).fieldsWith d = (bundleOf E O { box with mappings := some [m] }).fieldsWith d := by
    intro d
    show [(c!"d", d), (c!"capture_base", _), (c!"overlays", overlaysJson (bundleOf E O { box with mappings := some (ms ++ [m]) }).overlays)] =
      [(c!"d", d), (c!"capture_base", _), (c!"overlays", overlaysJson (bundleOf E O { box with mappings := some [m] }).overlays)]
    rw [hov]
    rfl
  have hs : (bundleOf E O { box with mappings := some (ms ++ [m]) }).said = (bundleOf E O { box with mappings := some [m] }).said := by
    show some (E.digest (versioned E ((bundleOf E O { box with mappings := some (ms ++ [m]) }).fieldsWith (.str placeholder)))) =
      some (E.digest (versioned E ((bundleOf E O { box with mappings := some [m] }).fieldsWith (.str placeholder))))
    rw [key]
  exact ⟨hs, by unfold Bundle.toJson; rw [hs, key]⟩

/-- **C83** Apart from mappings there is one overlay for each kind and language, target or frame. -/
theorem C83_one_per_slot {ε : Type} (E : Env) (O : Order) (box : OCABox) (hf : box.FramesNamed) (B : Bundle)
    (hB : (generateBundle E O box : Res ε Bundle) = .ok B) :
    ((B.overlays.filter fun o => o.body.mapping?.isNone).map fun o => o.body.slot).Nodup := by
  obtain ⟨-, rfl⟩ := generateBundle_eq_ok hB
  have h0 := gen_mappings O box
  have h1 : (genBodies O { box with mappings := none }).filterMap OvBody.mapping? = [] := gen_unmapped O _ rfl
  have e : ((bundleOf E O box).overlays.filter fun o => o.body.mapping?.isNone).map (fun o => o.body.slot)
      = (genBodies O { box with mappings := none }).map OvBody.slot := by
    have : ((bundleOf E O box).overlays.filter fun o => o.body.mapping?.isNone).map (fun o => o.body.slot)
        = (((bundleOf E O box).overlays.map Overlay.body).filter fun x => x.mapping?.isNone).map OvBody.slot := by
      rw [List.filter_map, List.map_map]
      rfl
    rw [this, bodies_bundleOf, h0, List.filter_append]
    have a1 : ((box.mappings.getD []).map OvBody.mapping).filter (fun x => x.mapping?.isNone) = [] := by
      rw [List.filter_eq_nil_iff]
      intro x hx
      obtain ⟨m, -, rfl⟩ := List.mem_map.1 hx
      simp [OvBody.mapping?]
    have a2 : (genBodies O { box with mappings := none }).filter (fun x => x.mapping?.isNone) = genBodies O { box with mappings := none } := by
      rw [List.filter_eq_self]
      intro x hx
      simp [(List.filterMap_eq_nil_iff.1 h1) x hx]
    rw [a1, a2]
    rfl
  rw [e]
  obtain ⟨ks, k1, k2, k3⟩ := genBodies_spec O { box with mappings := none } (show ∀ n a, _ → FrameOk a from hf.ok)
  have hks : (ks.map (bodyOf O (O.iter 142 [] box.attributes))).map OvBody.slot = ks.map OvKey.slot := by
    rw [List.map_map]
    apply List.map_congr_left
    intro K _
    exact slot_of_key (bodyOf_isBody O box.attributes (O.perm 142 [] box.attributes) hf.ok K).key
  rw [k3, List.map_append, List.nodup_append]
  refine ⟨?_, ?_, ?_⟩
  · show (([].map OvBody.mapping ++ match box.metaMap with
      | none => []
      | some m => (O.iter 136 [] m).map fun p => OvBody.metaOv p.1 p.2).map OvBody.slot).Nodup
    rw [List.map_nil, List.nil_append]
    split
    · exact List.nodup_nil
    · rename_i m _
      rw [List.map_map]
      have hnd : ((O.iter 136 [] m).map (·.1)).Nodup := ((O.perm 136 [] m).map _).nodup_iff.mpr m.keys_nodup
      have e : (O.iter 136 [] m).map (OvBody.slot ∘ fun p => OvBody.metaOv p.1 p.2)
          = ((O.iter 136 [] m).map (·.1)).map (fun l => (OvKind.metaOv, some l)) := by
        rw [List.map_map]; rfl
      rw [e]
      exact map_nodup_of_inj (fun a b e => by simpa using e) hnd
  · rw [show (ks.map (bodyOf O (O.iter 142 [] ({ box with mappings := none } : OCABox).attributes))).map OvBody.slot = ks.map OvKey.slot from hks]
    exact map_nodup_of_inj OvKey.slot_inj k1
  · intro x hx y hy e
    obtain ⟨bx, hbx, rfl⟩ := List.mem_map.mp hx
    rw [show (ks.map (bodyOf O (O.iter 142 [] ({ box with mappings := none } : OCABox).attributes))).map OvBody.slot = ks.map OvKey.slot from hks] at hy
    obtain ⟨K, -, rfl⟩ := List.mem_map.mp hy
    rcases (mem_pre_any O _ bx).1 hbx with ⟨ms, m, hm, -⟩ | ⟨m, l, ps, -, -, rfl⟩
    · cases hm
    · cases K <;> simp [OvBody.slot, OvKey.slot] at e

/-- **C83** The calls: `add_category_label` sets one category label and nothing else, merging joins category labels, the given ones winning;
`add_attribute_mapping` puts a mapping after those there are. -/
theorem C83_calls (a a' : Attribute) (l : Lang) (s : Str) (box : OCABox) (m : FMap Str) :
    (∀ l' s', (a.addCategoryLabel l s).HasCategoryLabel l' s' ↔ (l' = l ∧ s' = s) ∨ (l' ≠ l ∧ a.HasCategoryLabel l' s')) ∧
    (∀ F, (a.addCategoryLabel l s).Carries F ↔ a.Carries F) ∧ (a.addCategoryLabel l s).ty = a.ty ∧ (a.addCategoryLabel l s).flagged = a.flagged ∧
    (∀ l' s', (a.merge a').HasCategoryLabel l' s' ↔ a'.HasCategoryLabel l' s' ∨ ((∀ t, ¬ a'.HasCategoryLabel l' t) ∧ a.HasCategoryLabel l' s')) ∧
    (box.addAttributeMapping m).mappings.getD [] = box.mappings.getD [] ++ [m] ∧ (box.addAttributeMapping m).attributes = box.attributes ∧
    (box.addAttributeMapping m).metaMap = box.metaMap ∧ (box.addAttributeMapping m).classification = box.classification := by
  have hc : ∀ (x : Attribute) l s, x.HasCategoryLabel l s ↔ optGet x.categoryLabels l = some s := fun x l s => optGet_eq_some.symm
  refine ⟨fun l' s' => ?_, fun F => by cases F <;> exact Iff.rfl, rfl, rfl, fun l' s' => ?_, ?_, rfl, rfl, rfl⟩
  · rw [hc, hc]
    have : optGet (a.addCategoryLabel l s).categoryLabels l' = if l' = l then some s else optGet a.categoryLabels l' := by
      unfold Attribute.addCategoryLabel
      cases a.categoryLabels <;> simp [putIn, optGet, FMap.get_insert]
    rw [this]
    by_cases h : l' = l <;> simp [h, eq_comm]
  · simp only [hc]
    unfold Attribute.merge
    cases h1 : a.categoryLabels with
    | none => simp [mergeMaps, optGet]
    | some m1 =>
      cases h2 : a'.categoryLabels with
      | none => simp [mergeMaps, optGet]
      | some m2 =>
        simp only [mergeMaps, optGet, Option.bind_some, FMap.get_insertAll]
        have : FMap.lastVal m2.l l' = m2.get l' := by
          apply Option.ext
          intro v
          rw [lastVal_nodup m2.keys_nodup, FMap.get_eq_some_iff]
        rw [this]
        cases m2.get l' <;> simp
  · unfold OCABox.addAttributeMapping
    cases box.mappings <;> rfl

/-! ## Examples -/

/-- the overlays generated -/
def overlaysOf (O : Order) (box : OCABox) : Option (List OvBody) :=
  match (generateBundle Env.demo O box : Res Unit Bundle) with
  | .ok B => some (B.overlays.map Overlay.body)
  | _ => none

/-- An attribute with a label in one language and category labels in two, a standard, a condition set without its names; two mappings. -/
def handMade : OCABox :=
  ((OCABox.new.addAttribute c!"a" { (((({} : Attribute).setTy (.val .text)).setLabel c!"eng" c!"A").addCategoryLabel c!"eng" c!"C").addCategoryLabel c!"fra" c!"D"
      with condition := some c!"${0}", standards := some [c!"urn:iso:std:iso:1"] }).addAttributeMapping (FMap.ofList [(c!"a", c!"x")])).addAttributeMapping
    (FMap.ofList [(c!"a", c!"y")])

/-- **C83** What becomes of it: both mappings are overlays, the label overlay has the category label of its language, the other one is nowhere; the condition has no
names, and validating aborts. -/
theorem C83_example : overlaysOf Order.sorted handMade = some [.mapping (FMap.ofList [(c!"a", c!"x")]), .mapping (FMap.ofList [(c!"a", c!"y")]),
      .conditional (FMap.ofList [(c!"a", c!"${0}")]) FMap.empty,
      .label c!"eng" [] (FMap.ofList [(c!"a", c!"A")]) (FMap.ofList [(c!"a", c!"C")])] ∧
    handMade.FramesNamed := by
  refine ⟨by decide +kernel, ?_⟩
  intro n a id fr sc s hg hc
  have : a.framings = none := by
    have hb : handMade.attributes.l.all (fun p => p.2.framings.isNone) = true := by decide +kernel
    have := List.all_eq_true.1 hb _ (FMap.get_eq_some_iff.1 hg)
    simpa using this
  obtain ⟨m, hm, -⟩ := hc
  rw [this] at hm
  cases hm

/-- A scope with metadata. -/
def scopeWith (l : List (Str × Str)) : FMap Scope := FMap.ofList [(c!"x", ⟨c!"p", c!"j", FMap.ofList l⟩)]

/-- Two attributes in the frame `f`; the scope of the first has metadata named `frame_id`. -/
def misnamed : OCABox :=
  (OCABox.new.addAttribute c!"a" ((({} : Attribute).setTy (.val .text)).setFraming c!"f" (scopeWith [(c!"frame_id", c!"g")]))).addAttribute
    c!"b" ((({} : Attribute).setTy (.val .text)).setFraming c!"f" (scopeWith []))

/-- **C83** Without the condition on frames it is false: the first attribute ends in a frame it was not put in, and whether the second does too depends on the order in
which the map of attributes is iterated. -/
theorem C83_misnamed_frame :
    overlaysOf Order.sorted misnamed = some [.framing (FMap.ofList [(c!"frame_id", c!"g")]) (FMap.ofList [(c!"a", scopeWith [(c!"frame_id", c!"g")])]),
      .framing (FMap.ofList [(c!"frame_id", c!"f")]) (FMap.ofList [(c!"b", scopeWith [])])] ∧
    overlaysOf Order.reversed misnamed = some [.framing (FMap.ofList [(c!"frame_id", c!"g")])
      (FMap.ofList [(c!"a", scopeWith [(c!"frame_id", c!"g")]), (c!"b", scopeWith [])])] ∧
    ¬ misnamed.FramesNamed := by
  refine ⟨by decide +kernel, by decide +kernel, fun h => ?_⟩
  have := h c!"a" ((({} : Attribute).setTy (.val .text)).setFraming c!"f" (scopeWith [(c!"frame_id", c!"g")])) c!"f" (scopeWith [(c!"frame_id", c!"g")]) c!"x"
    ⟨c!"p", c!"j", FMap.ofList [(c!"frame_id", c!"g")]⟩ (by decide +kernel) ⟨_, rfl, by decide +kernel⟩ (by decide +kernel)
  exact absurd this (by decide +kernel)

end OCA
