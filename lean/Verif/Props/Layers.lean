import Verif.Props.OrderIndependence
import Verif.Props.Histories
import Verif.Props.Extended
/-!
# C90: layers do not disturb each other

The capture base of a bundle, and each of its overlays, has an identifier that depends on that layer alone (an overlay's also on the capture base it is
bound to). Two bundles that agree on a layer have the very same layer.
-/
namespace OCA

/-! ## Lemmas -/

theorem Fact.slot_key (F : Fact) : F.slot = F.key.slot := by cases F <;> rfl

/-- two sets of attributes carry the same facts of a key -/
def SameFacts (K : OvKey) (m m' : FMap Attribute) : Prop :=
  ∀ n F, F.key = K → ((∃ a, m.get n = some a ∧ a.Carries F) ↔ ∃ a, m'.get n = some a ∧ a.Carries F)

theorem SameFacts.symm {K : OvKey} {m m' : FMap Attribute} (h : SameFacts K m m') : SameFacts K m' m := fun n F e => (h n F e).symm

theorem collect_same {V : Type} {K : OvKey} {m m' : FMap Attribute} (h : SameFacts K m m') (g : V → Fact) (hk : ∀ v, (g v).key = K) (f : Attribute → Option V)
    (hf : ∀ a v, f a = some v ↔ a.Carries (g v)) : collect m f = collect m' f := by
  ext n : 1
  rw [get_collect, get_collect]
  apply Option.ext
  intro v
  rw [Option.bind_eq_some_iff, Option.bind_eq_some_iff]
  have := h n (g v) (hk v)
  simp only [← hf] at this
  exact this

theorem FrameMd.transfer {m m' : FMap Attribute} {id : Str} {md : FMap Str} (h : FrameMd m id md) (hs : SameFacts (.framing id) m m') : FrameMd m' id md := by
  refine ⟨h.hasId, ?_, ?_⟩
  · intro k v hk hv
    obtain ⟨n, a, fr, sc, s, h1, h2, h3, h4⟩ := h.sound k v hk hv
    obtain ⟨a', g1, g2⟩ := (hs n (.framing id fr) rfl).1 ⟨a, h1, optGet_eq_some.1 h2⟩
    exact ⟨n, a', fr, sc, s, g1, optGet_eq_some.2 g2, h3, h4⟩
  · intro n a fr sc s k h1 h2 h3 h4
    obtain ⟨a', g1, g2⟩ := (hs n (.framing id fr) rfl).2 ⟨a, h1, optGet_eq_some.1 h2⟩
    exact h.complete n a' fr sc s k g1 (optGet_eq_some.2 g2) h3 h4

theorem cond_deps {b : OCABox} (hw : BoxWF b) {n : Str} {a : Attribute} (hg : b.attributes.get n = some a) (c : Str) (h : a.condition = some c) :
    ∃ d, a.dependencies = some d := by
  rcases (hw.attrs n a hg).cond with ⟨h1, -⟩ | ⟨s, -, h2⟩
  · rw [h1] at h; cases h
  · exact ⟨_, h2⟩

theorem noCats {b : OCABox} (hw : BoxWF b) (l : Lang) :
    (collect b.attributes fun a => if (optGet a.labels l).isSome then optGet a.categoryLabels l else none) = FMap.empty := by
  ext n : 1
  rw [get_collect]
  cases hg : b.attributes.get n with
  | none => rfl
  | some a =>
    have := (hw.attrs n a hg).noCat
    simp [this, optGet, FMap.get, FMap.empty, FMap.lget]

theorem IsBody.transfer {b b' : OCABox} (hw : BoxWF b) (hw' : BoxWF b') {K : OvKey} {x : OvBody} (hs : SameFacts K b.attributes b'.attributes)
    (h : IsBody b.attributes K x) : IsBody b'.attributes K x := by
  cases K <;> simp only [IsBody] at h ⊢
  case charEnc => rw [h, collect_same hs .encoding (fun _ => rfl) _ (fun _ _ => Iff.rfl)]
  case format => rw [h, collect_same hs .format (fun _ => rfl) _ (fun _ _ => Iff.rfl)]
  case conformance => rw [h, collect_same hs .conformance (fun _ => rfl) _ (fun _ _ => Iff.rfl)]
  case cardinality => rw [h, collect_same hs .cardinality (fun _ => rfl) _ (fun _ _ => Iff.rfl)]
  case unit => rw [h, collect_same hs .unit (fun _ => rfl) _ (fun _ _ => Iff.rfl)]
  case entryCode => rw [h, collect_same hs .entryCodes (fun _ => rfl) _ (fun _ _ => Iff.rfl)]
  case entry l => rw [h, collect_same hs (.entry l) (fun _ => rfl) _ (fun _ _ => optGet_eq_some)]
  case label l => rw [h, noCats hw, noCats hw', collect_same hs (.label l) (fun _ => rfl) _ (fun _ _ => optGet_eq_some)]
  case information l => rw [h, collect_same hs (.information l) (fun _ => rfl) _ (fun _ _ => optGet_eq_some)]
  case link l => rw [h, collect_same hs (.link l) (fun _ => rfl) _ (fun _ _ => optGet_eq_some)]
  case framing id =>
    obtain ⟨md, e, hmd⟩ := h
    exact ⟨md, by rw [e, collect_same hs (.framing id) (fun _ => rfl) _ (fun _ _ => optGet_eq_some)], hmd.transfer hs⟩
  case conditional =>
    have one : ∀ {b b' : OCABox}, BoxWF b → SameFacts .conditional b.attributes b'.attributes → ∀ n a c, b.attributes.get n = some a → a.condition = some c →
        ∃ a' d, b'.attributes.get n = some a' ∧ a'.condition = some c ∧ a.dependencies = some d ∧ a'.dependencies = some d := by
      intro b b' hw hs n a c hg hc
      obtain ⟨d, hd⟩ := cond_deps hw hg c hc
      obtain ⟨a', g1, g2, g3⟩ := (hs n (.condition c d) rfl).1 ⟨a, hg, hc, hd⟩
      exact ⟨a', d, g1, g2, hd, g3⟩
    have key : ∀ {b b' : OCABox}, BoxWF b → SameFacts .conditional b.attributes b'.attributes →
        (∀ n v, (collect b.attributes (·.condition)).get n = some v → (collect b'.attributes (·.condition)).get n = some v) ∧
        (∀ n v, (collect b.attributes fun a => if a.condition.isSome then a.dependencies else none).get n = some v →
          (collect b'.attributes fun a => if a.condition.isSome then a.dependencies else none).get n = some v) := by
      intro b b' hw hs
      constructor
      · intro n v h
        rw [get_collect, Option.bind_eq_some_iff] at h ⊢
        obtain ⟨a, h1, h2⟩ := h
        obtain ⟨a', d, g1, g2, -, -⟩ := one hw hs n a v h1 h2
        exact ⟨a', g1, g2⟩
      · intro n v h
        rw [get_collect, Option.bind_eq_some_iff] at h ⊢
        obtain ⟨a, h1, h2⟩ := h
        split at h2
        · next hs' =>
          obtain ⟨c, hc⟩ := Option.isSome_iff_exists.1 hs'
          obtain ⟨a', d, g1, g2, g3, g4⟩ := one hw hs n a c h1 hc
          rw [g3] at h2
          cases h2
          exact ⟨a', g1, by rw [g2]; exact g4⟩
        · cases h2
    rw [h]
    congr 1
    · ext n : 1
      exact Option.ext fun v => ⟨(key hw hs).1 n v, (key hw' hs.symm).1 n v⟩
    · ext n : 1
      exact Option.ext fun v => ⟨(key hw hs).2 n v, (key hw' hs.symm).2 n v⟩

/-! ## C90 -/

/-- **C90** Two bundles with the same attributes, types, classification and flags have the same capture base: the same identifier and the same document. -/
theorem C90_capture_base {ε : Type} (E : Env) (O O' : Order) (box box' : OCABox) (B B' : Bundle) (h : (generateBundle E O box : Res ε _) = .ok B)
    (h' : (generateBundle E O' box' : Res ε _) = .ok B') (ht : ∀ n, B.captureBase.attributes.get n = B'.captureBase.attributes.get n)
    (hcl : B.captureBase.classification = B'.captureBase.classification) (hfl : ∀ n, n ∈ B.captureBase.flagged ↔ n ∈ B'.captureBase.flagged) :
    B.captureBase.said = B'.captureBase.said ∧ B.captureBase.toJson = B'.captureBase.toJson := by
  obtain ⟨-, -, -, n1, -⟩ := C14_capture_base_exact E O box B h
  obtain ⟨-, -, -, n2, -⟩ := C14_capture_base_exact E O' box' B' h'
  obtain ⟨-, rfl⟩ := generateBundle_eq_ok h
  obtain ⟨-, rfl⟩ := generateBundle_eq_ok h'
  have ha : (baseOfBox O box).attributes = (baseOfBox O' box').attributes := by ext n : 1; exact ht n
  have hc : (baseOfBox O box).classification = (baseOfBox O' box').classification := hcl
  have hp : (baseOfBox O box).flagged.Perm (baseOfBox O' box').flagged := perm_of_nodup n1 n2 hfl
  have hf : ∀ d, (baseOfBox O box).fieldsWith d = (baseOfBox O' box').fieldsWith d := by
    intro d
    unfold CaptureBase.fieldsWith
    rw [ha, hc, sortStr_perm hp]
    rfl
  have hd : (baseOfBox O box).digestInput = (baseOfBox O' box').digestInput := by
    unfold CaptureBase.digestInput
    rw [hf]
  constructor
  · show some (E.digest _) = some (E.digest _)
    rw [hd]
  · show Json.obj (CaptureBase.fieldsWith (baseOfBox O box) (.str (E.digest (baseOfBox O box).digestInput))) =
      Json.obj (CaptureBase.fieldsWith (baseOfBox O' box') (.str (E.digest (baseOfBox O' box').digestInput)))
    rw [hf, hd]

theorem same_signed {E : Env} {O O' : Order} {b b' : OCABox} (hb : (bundleOf E O b).captureBase.said = (bundleOf E O' b').captureBase.said) {o : Overlay}
    (ho : o ∈ (bundleOf E O b).overlays) (hx : o.body ∈ genBodies O' b') : o ∈ (bundleOf E O' b').overlays := by
  have e : E.digest (baseOfBox O b).digestInput = E.digest (baseOfBox O' b').digestInput := Option.some.inj hb
  rw [(mem_overlays ho).2, e]
  exact List.mem_map.2 ⟨o.body, hx, rfl⟩

/-- **C90** Two bundles on the same capture base that tell the same in a layer - a kind of overlay, and language, target or frame - have the same overlay there, with the
same identifier, whatever else they hold. (If the layer is a frame, its scopes must not contradict each other about the frame, see C19.) -/
theorem C90_overlay {ε : Type} (E : Env) (O O' : Order) (box box' : OCABox) (hr : Reachable E box) (hr' : Reachable E box') (B B' : Bundle)
    (h : (generateBundle E O box : Res ε _) = .ok B) (h' : (generateBundle E O' box' : Res ε _) = .ok B')
    (hb : B.captureBase.said = B'.captureBase.said) (S : OvKind × Option Str) (hS : S.1 ≠ .metaOv) (hc : S.1 = .attributeFraming → FrameConsistent box)
    (hf : ∀ n F, F.slot = S → (B.Tells n F ↔ B'.Tells n F)) (o : Overlay) (hs : o.body.slot = S) : o ∈ B.overlays ↔ o ∈ B'.overlays := by
  have hT := C17_overlay_content_exact E O box hr B h
  have hT' := C17_overlay_content_exact E O' box' hr' B' h'
  have hsf : ∀ K : OvKey, K.slot = S → SameFacts K box.attributes box'.attributes := by
    intro K hK n F hF
    rw [← hT n F, ← hT' n F]
    exact hf n F (by rw [Fact.slot_key, hF, hK])
  have huniq : ∀ K : OvKey, K.slot = S → ∀ x y, IsBody box.attributes K x → IsBody box.attributes K y → x = y := by
    intro K hK x y hx hy
    cases K <;> simp only [IsBody] at hx hy
    case framing frame =>
      have hc := hc (by rw [← hK]; rfl)
      exact IsBody.unique hc (K := .framing frame) hx hy
    all_goals rw [hx, hy]
  obtain ⟨-, rfl⟩ := generateBundle_eq_ok h
  obtain ⟨-, rfl⟩ := generateBundle_eq_ok h'
  constructor
  · intro ho
    rcases mem_genBodies O box hr.wf _ (mem_overlays ho).1 with ⟨m, l, ps, -, -, e⟩ | ⟨K, hK, n, a, hg, hk⟩
    · rw [e] at hs; rw [← hs] at hS; exact absurd rfl hS
    · have hKS : K.slot = S := by rw [← slot_of_key hK.key, hs]
      obtain ⟨o1, ho1, n1, F1, hst⟩ : ∃ o1 ∈ (bundleOf E O box).overlays, ∃ n F, o1.body.States n F ∧ F.key = K := by
        rcases (C17_no_empty_overlay E O box hr _ h).1 o ho with ⟨n, F, hst⟩ | ⟨l, ps, e⟩
        · refine ⟨o, ho, n, F, hst, ?_⟩
          have := states_key hst
          rw [hK.key] at this
          exact (Option.some.inj this).symm
        · rw [e] at hs; rw [← hs] at hS; exact absurd rfl hS
      obtain ⟨a1, g1, c1⟩ := (hsf K hKS n1 F1 hst.2).1 ((hT n1 F1).1 ⟨o1, ho1, hst.1⟩)
      obtain ⟨y, hy, hKy⟩ := exists_genBody O' box' hr'.wf K n1 a1 g1 (hst.2 ▸ carries_hasKey c1)
      have : o.body = y := huniq K hKS _ _ hK (IsBody.transfer hr'.wf hr.wf (hsf K hKS).symm hKy)
      exact same_signed hb ho (this ▸ hy)
  · intro ho
    rcases mem_genBodies O' box' hr'.wf _ (mem_overlays ho).1 with ⟨m, l, ps, -, -, e⟩ | ⟨K, hK, n, a, hg, hk⟩
    · rw [e] at hs; rw [← hs] at hS; exact absurd rfl hS
    · have hKS : K.slot = S := by rw [← slot_of_key hK.key, hs]
      obtain ⟨n1, F1, hst, hF1⟩ : ∃ n F, o.body.States n F ∧ F.key = K := by
        rcases (C17_no_empty_overlay E O' box' hr' _ h').1 o ho with ⟨n, F, hst⟩ | ⟨l, ps, e⟩
        · refine ⟨n, F, hst, ?_⟩
          have := states_key hst
          rw [hK.key] at this
          exact (Option.some.inj this).symm
        · rw [e] at hs; rw [← hs] at hS; exact absurd rfl hS
      obtain ⟨a1, g1, c1⟩ := (hsf K hKS n1 F1 hF1).2 ((hT' n1 F1).1 ⟨o, ho, hst⟩)
      obtain ⟨y, hy, hKy⟩ := exists_genBody O box hr.wf K n1 a1 g1 (hF1 ▸ carries_hasKey c1)
      have : o.body = y := huniq K hKS _ _ (IsBody.transfer hr'.wf hr.wf (hsf K hKS).symm hK) hKy
      exact same_signed hb.symm ho (this ▸ hy)

/-- **C90** The same holds of the meta overlay of a language. -/
theorem C90_meta {ε : Type} (E : Env) (O O' : Order) (box box' : OCABox) (B B' : Bundle)
    (h : (generateBundle E O box : Res ε _) = .ok B) (h' : (generateBundle E O' box' : Res ε _) = .ok B')
    (hb : B.captureBase.said = B'.captureBase.said) (o o' : Overlay) (ho : o ∈ B.overlays) (ho' : o' ∈ B'.overlays) (e : o.body = o'.body) : o = o' := by
  obtain ⟨-, rfl⟩ := generateBundle_eq_ok h
  obtain ⟨-, rfl⟩ := generateBundle_eq_ok h'
  have e' : E.digest (baseOfBox O box).digestInput = E.digest (baseOfBox O' box').digestInput := Option.some.inj hb
  rw [(mem_overlays ho).2, (mem_overlays ho').2, e, e']

/-! ## Adding overlays -/

/-- the layer an ADD command for an overlay speaks of: the kind, and the language, target or frame -/
def layerOf (E : Env) (k : OvKind) (c : Content) : OvKind × Option Str := if k = .metaOv then (.metaOv, c.lang E) else addressed E k c

/-- the commands only add overlays, none of this layer (each names an attribute once, as a parsed command does) -/
def AddsElsewhere (E : Env) (S : OvKind × Option Str) (cs : List Command) : Prop :=
  ∀ c ∈ cs, ∃ t k, c = ⟨.add, .overlay t k⟩ ∧ ((k.attributes.getD []).map (·.1)).Nodup ∧ layerOf E t.kind k ≠ S

/-- what a layer is made from is the same in two states -/
structure SameLayer (S : OvKind × Option Str) (b b' : OCABox) : Prop where
  types : ∀ n a, b.attributes.get n = some a → ∃ a', b'.attributes.get n = some a' ∧ a'.ty = a.ty ∧ a'.flagged = a.flagged ∧
    ∀ F : Fact, F.slot = S → (a'.Carries F ↔ a.Carries F)
  none : ∀ n, b.attributes.get n = none → b'.attributes.get n = none
  cls : b'.classification = b.classification
  metas : ∀ l, S = (.metaOv, some l) → b'.metaMap.bind (·.get l) = b.metaMap.bind (·.get l)

theorem SameLayer.refl (S : OvKind × Option Str) (b : OCABox) : SameLayer S b b :=
  ⟨fun _ a h => ⟨a, h, rfl, rfl, fun _ _ => Iff.rfl⟩, fun _ h => h, rfl, fun _ _ => rfl⟩

theorem SameLayer.trans {S : OvKind × Option Str} {a b c : OCABox} (h : SameLayer S a b) (h' : SameLayer S b c) : SameLayer S a c := by
  refine ⟨fun n x hx => ?_, fun n hn => h'.none n (h.none n hn), h'.cls.trans h.cls, fun l e => (h'.metas l e).trans (h.metas l e)⟩
  obtain ⟨y, hy, t1, f1, c1⟩ := h.types n x hx
  obtain ⟨z, hz, t2, f2, c2⟩ := h'.types n y hy
  exact ⟨z, hz, t2.trans t1, f2.trans f1, fun F e => (c2 F e).trans (c1 F e)⟩

theorem add_same_layer (E : Env) (S : OvKind × Option Str) (b b' : OCABox) (t : OverlayType) (k : Content)
    (hd : ((k.attributes.getD []).map (·.1)).Nodup) (hS : layerOf E t.kind k ≠ S) (h : applyCommand E (some b) ⟨.add, .overlay t k⟩ = .ok b') :
    SameLayer S b b' := by
  by_cases hk : t.kind = .metaOv
  · have h0 := h
    have h' : applyOverlay E b t.kind k = .ok b' := h
    rw [hk, applyOverlay_meta, applyMeta_ok_iff] at h'
    rcases h' with ⟨-, rfl⟩ | ⟨l, hl, -⟩
    · exact .refl S _
    · obtain ⟨-, h2, h3, h4⟩ := C24_add_meta E b b' t hk k l hl h0
      refine ⟨fun n a hg => ⟨a, by rw [h3]; exact hg, rfl, rfl, fun _ _ => Iff.rfl⟩, fun n hn => by rw [h3]; exact hn, h4, fun l' e => ?_⟩
      apply h2 l'
      intro e'
      subst e'
      apply hS
      rw [layerOf, if_pos hk, hl, e]
  · obtain ⟨-, h2, h3, h4, h5⟩ := C24_add_overlay_frame E b b' t k hd hk h
    rw [layerOf, if_neg hk] at hS
    refine ⟨fun n a hg => ?_, h3, h5, fun l _ => by rw [h4]⟩
    obtain ⟨a', g1, g2, g3, g4⟩ := h2 n a hg
    exact ⟨a', g1, g2, g3, fun F e => g4 F (by rw [e]; exact fun x => hS x.symm)⟩

theorem adds_same_layer (E : Env) (S : OvKind × Option Str) (cs : List Command) (b b' : OCABox) (hc : AddsElsewhere E S cs)
    (h : runAll E b cs = .ok b') : SameLayer S b b' := by
  unfold runAll at h
  induction cs generalizing b with
  | nil => cases h; exact .refl S _
  | cons c cs ih =>
    simp only [foldRes] at h
    obtain ⟨b1, h1, h2⟩ := Res.bind_eq_ok.1 h
    obtain ⟨t, k, rfl, hd, hl⟩ := hc c (.head _)
    exact (add_same_layer E S b b1 t k hd hl h1).trans (ih b1 (fun x hx => hc x (.tail _ hx)) h2)

/-- **C90** Adding overlays to what is there leaves the capture base, and every layer the commands do not speak of, as they are, down to the identifiers: an overlay of
another layer is in the one bundle exactly when it is in the other. -/
theorem C90_adding {ε : Type} (E : Env) (O O' : Order) (box box' : OCABox) (hr : Reachable E box) (cs : List Command)
    (h : runAll E box cs = .ok box') (S : OvKind × Option Str) (hcs : AddsElsewhere E S cs) (hc : S.1 = .attributeFraming → FrameConsistent box)
    (B B' : Bundle) (hB : (generateBundle E O box : Res ε _) = .ok B) (hB' : (generateBundle E O' box' : Res ε _) = .ok B') :
    B.captureBase.said = B'.captureBase.said ∧ B.captureBase.toJson = B'.captureBase.toJson ∧
    ∀ o : Overlay, o.body.slot = S → (o ∈ B.overlays ↔ o ∈ B'.overlays) := by
  have hr' : Reachable E box' := runAll_reachable E cs box box' hr h
  have hs := adds_same_layer E S cs box box' hcs h
  obtain ⟨t1, t2, t3, -, t5⟩ := C14_capture_base_exact E O box B hB
  obtain ⟨s1, s2, s3, -, s5⟩ := C14_capture_base_exact E O' box' B' hB'
  have back : ∀ n a', box'.attributes.get n = some a' → ∃ a, box.attributes.get n = some a ∧ a'.ty = a.ty ∧ a'.flagged = a.flagged ∧
      ∀ F : Fact, F.slot = S → (a'.Carries F ↔ a.Carries F) := by
    intro n a' hg
    cases e : box.attributes.get n with
    | none => rw [hs.none n e] at hg; cases hg
    | some a =>
      obtain ⟨a2, g1, g2⟩ := hs.types n a e
      rw [g1] at hg
      cases hg
      exact ⟨a, rfl, g2⟩
  have hcb := C90_capture_base E O O' box box' B B' hB hB' (fun n => by
      apply Option.ext
      intro t
      rw [t1, s1]
      constructor
      · rintro ⟨a, g1, g2⟩
        obtain ⟨a', g3, g4, -⟩ := hs.types n a g1
        exact ⟨a', g3, by rw [g4, g2]⟩
      · rintro ⟨a', g1, g2⟩
        obtain ⟨a, g3, g4, -⟩ := back n a' g1
        exact ⟨a, g3, by rw [← g4, g2]⟩) (by rw [t3, s3, hs.cls]) (fun n => by
      rw [t5, s5]
      constructor
      · rintro ⟨a, g1, g2⟩
        obtain ⟨a', g3, -, g4, -⟩ := hs.types n a g1
        exact ⟨a', g3, by rw [g4, g2]⟩
      · rintro ⟨a', g1, g2⟩
        obtain ⟨a, g3, -, g4, -⟩ := back n a' g1
        exact ⟨a, g3, by rw [← g4, g2]⟩)
  refine ⟨hcb.1, hcb.2, fun o ho => ?_⟩
  by_cases hS : S.1 = .metaOv
  · have metaBody : ∀ x : OvBody, x.slot = S → ∃ l ps, x = .metaOv l ps ∧ S = (.metaOv, some l) := by
      intro x hx
      rw [← hx] at hS
      cases x with
      | metaOv l ps => exact ⟨l, ps, rfl, hx.symm⟩
      | _ => cases hS
    obtain ⟨l, ps, e, eS⟩ := metaBody o.body ho
    have hm := hs.metas l eS
    have hiff : (∃ m, box.metaMap = some m ∧ m.get l = some ps) ↔ ∃ m, box'.metaMap = some m ∧ m.get l = some ps := by
      rw [← Option.bind_eq_some_iff, ← Option.bind_eq_some_iff, hm]
    have m1 := (C17_no_empty_overlay E O box hr B hB).2.1 l ps
    have m2 := (C17_no_empty_overlay E O' box' hr' B' hB').2.1 l ps
    constructor
    · intro h1
      obtain ⟨o', h2, e'⟩ := m2.2 (hiff.1 (m1.1 ⟨o, h1, e⟩))
      rw [C90_meta E O O' box box' B B' hB hB' hcb.1 o o' h1 h2 (e.trans e'.symm)]
      exact h2
    · intro h1
      obtain ⟨o', h2, e'⟩ := m1.2 (hiff.2 (m2.1 ⟨o, h1, e⟩))
      rw [← C90_meta E O O' box box' B B' hB hB' hcb.1 o' o h2 h1 (e'.trans e.symm)]
      exact h2
  · refine C90_overlay E O O' box box' hr hr' B B' hB hB' hcb.1 S hS hc (fun n F e => ?_) o ho
    show (∃ o ∈ B.overlays, o.body.States n F) ↔ ∃ o ∈ B'.overlays, o.body.States n F
    rw [C17_overlay_content_exact E O box hr B hB, C17_overlay_content_exact E O' box' hr' B' hB']
    constructor
    · rintro ⟨a, g1, g2⟩
      obtain ⟨a', g3, -, -, g4⟩ := hs.types n a g1
      exact ⟨a', g3, (g4 F e).2 g2⟩
    · rintro ⟨a', g1, g2⟩
      obtain ⟨a, g3, -, -, g4⟩ := back n a' g1
      exact ⟨a, g3, (g4 F e).1 g2⟩

end OCA
