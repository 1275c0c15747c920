import Verif.Lemmas.Tidy
import Verif.Lemmas.Stored
/-!
# The bundle of a state depends on what is written of it only
-/
namespace OCA

/-- the overlay with lists of entry codes sorted -/
def OvBody.tidy : OvBody → OvBody
  | .entryCode m => .entryCode (m.filterMap fun _ e => some e.tidy)
  | b => b

/-- the overlay object likewise -/
def Overlay.tidy (o : Overlay) : Overlay := { o with body := o.body.tidy }

theorem fields_tidy (b : OvBody) : b.tidy.fields = b.fields := by
  cases b <;> try rfl
  simp only [OvBody.tidy, OvBody.fields, toJson_map, tidy_json]

theorem kind_tidy (b : OvBody) : b.tidy.kind = b.kind := by cases b <;> rfl

theorem slot_tidy (b : OvBody) : b.tidy.slot = b.slot := by cases b <;> rfl

theorem fieldsWith_tidy (o : Overlay) (d : Json) : o.tidy.fieldsWith d = o.fieldsWith d := by
  unfold Overlay.fieldsWith Overlay.tidy Overlay.type
  simp only [fields_tidy, kind_tidy]
  cases o.body <;> rfl

theorem toJson_tidy (o : Overlay) : o.tidy.toJson = o.toJson := by
  unfold Overlay.toJson
  rw [fieldsWith_tidy]; rfl

theorem tidy_sign (E : Env) (cb : Said) (b : OvBody) :
    (Overlay.sign E cb ⟨none, none, c!"1.1", b⟩).tidy = Overlay.sign E cb ⟨none, none, c!"1.1", b.tidy⟩ := by
  have : (Overlay.digestInput ⟨none, some cb, c!"1.1", b.tidy⟩) = Overlay.digestInput ⟨none, some cb, c!"1.1", b⟩ := by
    unfold Overlay.digestInput
    rw [← fieldsWith_tidy ⟨none, some cb, c!"1.1", b⟩]; rfl
  unfold Overlay.sign Overlay.tidy
  simp only [this]

theorem AttrWF.tidy {a : Attribute} (h : AttrWF a) : AttrWF a.tidy := ⟨h.typed, h.cond, h.frames, h.noCat⟩

theorem AttrPlain.tidy {a : Attribute} (h : AttrPlain a) : AttrPlain a.tidy :=
  ⟨h.labels, h.informations, h.entries, h.links, h.framings, h.mapping, h.codesMapping, h.standards⟩

theorem get_tidy_some {b : OCABox} {n : Str} {a' : Attribute} :
    b.tidy.attributes.get n = some a' ↔ ∃ a, b.attributes.get n = some a ∧ a' = a.tidy := by
  rw [get_tidy]
  cases b.attributes.get n with
  | none => simp
  | some a => simp [eq_comm]

theorem BoxWF.tidy {b : OCABox} (h : BoxWF b) : BoxWF b.tidy := by
  refine ⟨?_, h.mappings, h.metas⟩
  intro n a' hg
  obtain ⟨a, ha, rfl⟩ := get_tidy_some.mp hg
  exact (h.attrs n a ha).tidy

theorem FrameConsistent.tidy {b : OCABox} (h : FrameConsistent b) : FrameConsistent b.tidy := by
  intro frame n a fr sc s n' a' fr' sc' s' k v v' h1 h2 h3 h1' h2' h3' h4 h4'
  obtain ⟨a, ha, rfl⟩ := get_tidy_some.mp h1
  obtain ⟨a', ha', rfl⟩ := get_tidy_some.mp h1'
  exact h frame n a fr sc s n' a' fr' sc' s' k v v' ha h2 h3 ha' h2' h3' h4 h4'

theorem OCABox.Uniform.consistent {b : OCABox} {M : Str → FMap Str} (h : b.Uniform M) : FrameConsistent b := by
  intro frame n a fr sc s n' a' fr' sc' s' k v v' h1 h2 h3 h1' h2' h3' h4 h4'
  rw [h n a frame fr sc s h1 (optGet_eq_some.mpr h2) h3] at h4
  rw [h n' a' frame fr' sc' s' h1' (optGet_eq_some.mpr h2') h3', h4] at h4'
  exact Option.some.inj h4'

theorem hasKey_tidy (K : OvKey) (a : Attribute) : hasKey K a.tidy = hasKey K a := by
  cases K <;> first | rfl | (simp [hasKey, Attribute.tidy])

theorem collect_tidy {V W : Type} (b : OCABox) (f : Attribute → Option V) (g : Attribute → Option W) (t : V → W)
    (h : ∀ a : Attribute, g a.tidy = (f a).map t) :
    collect b.tidy.attributes g = (collect b.attributes f).filterMap fun _ v => some (t v) := by
  ext n : 1
  rw [get_collect, get_tidy, FMap.get_filterMap, get_collect]
  cases b.attributes.get n with
  | none => rfl
  | some a =>
    show g a.tidy = (f a).bind _
    rw [h]
    cases f a <;> rfl

theorem collect_tidy' {V : Type} (b : OCABox) (f : Attribute → Option V) (h : ∀ a : Attribute, f a.tidy = f a) :
    collect b.tidy.attributes f = collect b.attributes f := by
  ext n : 1
  rw [get_collect, get_tidy, get_collect]
  cases b.attributes.get n with
  | none => rfl
  | some a => exact h a

theorem IsBody.tidy {b : OCABox} {K : OvKey} {x : OvBody} (h : IsBody b.attributes K x) : IsBody b.tidy.attributes K x.tidy := by
  cases K
  case entryCode =>
    simp only [IsBody] at h ⊢
    rw [h]
    show OvBody.entryCode _ = _
    rw [collect_tidy b (·.entryCodes) (·.entryCodes) EntryCodes.tidy (fun _ => rfl)]
  case framing id =>
    obtain ⟨md, rfl, h1, h2, h3⟩ := h
    refine ⟨md, ?_, h1, ?_, ?_⟩
    · show OvBody.framing _ _ = _
      rw [collect_tidy' b (fun a => optGet a.framings id) (fun _ => rfl)]
    · intro k v hk hv
      obtain ⟨n, a, fr, sc, s, g1, g2⟩ := h2 k v hk hv
      exact ⟨n, a.tidy, fr, sc, s, get_tidy_some.mpr ⟨a, g1, rfl⟩, g2⟩
    · intro n a' fr sc s k hg
      obtain ⟨a, ha, rfl⟩ := get_tidy_some.mp hg
      exact h3 n a fr sc s k ha
  all_goals
    simp only [IsBody] at h ⊢
    rw [h]
    simp only [OvBody.tidy]
    congr 1
    all_goals first | exact (collect_tidy' b _ (fun _ => rfl)).symm | rfl

theorem genBodies_tidy (O O' : Order) (b : OCABox) (hw : BoxWF b) (hc : FrameConsistent b) :
    ((genBodies O b).map OvBody.tidy).Perm (genBodies O' b.tidy) := by
  obtain ⟨ks, h1, h2, h3, h4⟩ := genBodies_wf O b hw
  obtain ⟨ks', h1', h2', h3', h4'⟩ := genBodies_wf O' b.tidy hw.tidy
  rw [h3, h3', List.map_append]
  apply List.Perm.append
  · rw [preBodies_wf O b hw, preBodies_wf O' b.tidy hw.tidy]
    show List.Perm _ (match b.metaMap with | none => _ | some m => _)
    cases b.metaMap with
    | none => exact List.Perm.refl _
    | some m =>
      show List.Perm (List.map _ (List.map _ _)) _
      rw [List.map_map]
      exact ((O.perm 136 [] m).trans (O'.perm 136 [] m).symm).map _
  · have : (ks.map (bodyOf O (O.iter 142 [] b.attributes))).map OvBody.tidy =
        ks.map (bodyOf O' (O'.iter 142 [] b.tidy.attributes)) := by
      rw [List.map_map]
      apply List.map_congr_left
      intro K _
      exact (h4 K).tidy.unique hc.tidy (h4' K)
    rw [this]
    refine (perm_of_nodup h1 h1' (fun K => ?_)).map _
    rw [h2, h2']
    constructor
    · rintro ⟨n, a, ha, hk⟩
      exact ⟨n, a.tidy, get_tidy_some.mpr ⟨a, ha, rfl⟩, by rw [hasKey_tidy]; exact hk⟩
    · rintro ⟨n, a', hg, hk⟩
      obtain ⟨a, ha, rfl⟩ := get_tidy_some.mp hg
      exact ⟨n, a, ha, by rw [← hasKey_tidy]; exact hk⟩

theorem tidy_base_fields (O O' : Order) (b : OCABox) (d : Json) :
    (baseOfBox O' b.tidy).fieldsWith d = (baseOfBox O b).fieldsWith d := by
  have h1 : typesOf b.tidy.attributes = typesOf b.attributes := collect_tidy' b (·.ty) (fun _ => rfl)
  have hnd : ∀ (O : Order) (m : FMap Attribute), (flagsOf O m).Nodup := by
    intro O m
    have : (flagsOf O m).Sublist ((O.iter 327 [] m).map (·.1)) := (List.filter_sublist).map _
    exact ((((O.perm 327 [] m).map _).nodup_iff).mpr m.keys_nodup).sublist this
  have h2 : (flagsOf O' b.tidy.attributes).Perm (flagsOf O b.attributes) := by
    apply perm_of_nodup (hnd _ _) (hnd _ _)
    intro n
    rw [mem_flagsOf, mem_flagsOf]
    constructor
    · rintro ⟨a', hg, hf⟩
      obtain ⟨a, ha, rfl⟩ := get_tidy_some.mp hg
      exact ⟨a, ha, hf⟩
    · rintro ⟨a, ha, hf⟩
      exact ⟨a.tidy, get_tidy_some.mpr ⟨a, ha, rfl⟩, hf⟩
  unfold CaptureBase.fieldsWith baseOfBox
  simp only
  rw [h1, sortStr_perm h2]
  rfl

/-- The bundle has two different overlays with the same SAID. -/
def Bundle.TwoAlike (b : Bundle) : Prop := ∃ o ∈ b.overlays, ∃ o' ∈ b.overlays, o ≠ o' ∧ o.said = o'.said

theorem tidy_perm {E : Env} (O O' : Order) {box : OCABox} (hr : Reachable E box) (hc : FrameConsistent box) :
    ((bundleOf E O box).overlays.map Overlay.tidy).Perm (bundleOf E O' box.tidy).overlays := by
  have hdig : (baseOfBox O' box.tidy).digestInput = (baseOfBox O box).digestInput := by
    unfold CaptureBase.digestInput; rw [tidy_base_fields O O' box]
  have e : (bundleOf E O box).overlays.map Overlay.tidy = ((genBodies O box).map OvBody.tidy).map fun body =>
      Overlay.sign E (E.digest (baseOfBox O' box.tidy).digestInput) ⟨none, none, c!"1.1", body⟩ := by
    rw [hdig]
    show List.map _ (List.map _ _) = _
    rw [List.map_map, List.map_map]
    apply List.map_congr_left
    intro x _
    exact tidy_sign E _ x
  rw [e]
  exact (genBodies_tidy O O' box hr.wf hc).map _

theorem bundle_tidy {E : Env} (O O' : Order) {box : OCABox} (hr : Reachable E box) (hc : FrameConsistent box) :
    ((bundleOf E O' box.tidy).said = (bundleOf E O box).said ∧ (bundleOf E O' box.tidy).toJson E = (bundleOf E O box).toJson E) ∨
    (bundleOf E O box).TwoAlike := by
  by_cases hx : (bundleOf E O box).TwoAlike
  · exact .inr hx
  · left
    have hw := hr.wf
    have hbf := tidy_base_fields O O' box
    have hdig : (baseOfBox O' box.tidy).digestInput = (baseOfBox O box).digestInput := by
      unfold CaptureBase.digestInput; rw [hbf]
    have hcb : ((baseOfBox O' box.tidy).sign E).toJson = ((baseOfBox O box).sign E).toJson := by
      show Json.obj (CaptureBase.fieldsWith _ (.str (E.digest (baseOfBox O' box.tidy).digestInput))) =
        Json.obj (CaptureBase.fieldsWith _ (.str (E.digest (baseOfBox O box).digestInput)))
      rw [hdig]
      exact congrArg Json.obj (hbf _)
    have hperm := tidy_perm (E := E) O O' hr hc
    have hsep : SaidsSeparate ((bundleOf E O box).overlays.map Overlay.tidy) := by
      constructor
      · intro o ho
        obtain ⟨o0, h0, rfl⟩ := List.mem_map.mp ho
        exact overlays_signed E O box o0 h0
      · intro o ho o' ho' e
        obtain ⟨o0, h0, rfl⟩ := List.mem_map.mp ho
        obtain ⟨o1, h1, rfl⟩ := List.mem_map.mp ho'
        by_cases he : o0 = o1
        · rw [he]
        · exact absurd ⟨o0, h0, o1, h1, he, e⟩ hx
    have hsing : SinglesOnce ((bundleOf E O box).overlays.map Overlay.tidy) := by
      apply singlesOnce_of_slots
      rw [List.map_map]
      have : ((fun o : Overlay => o.body.slot) ∘ Overlay.tidy) = fun o => o.body.slot := by
        funext o; exact slot_tidy o.body
      rw [this]
      exact C16_one_overlay_per_slot (ε := Unit) E O box hr _ (reachable_gen hr O)
    have hov : overlaysJson (bundleOf E O' box.tidy).overlays = overlaysJson (bundleOf E O box).overlays := by
      rw [← overlaysJson_perm hperm hsep hsing]
      exact overlaysJson_map Overlay.tidy _ (fun o => kind_tidy o.body) (fun _ => rfl) (fun o _ => toJson_tidy o)
    have key : ∀ d, (bundleOf E O' box.tidy).fieldsWith d = (bundleOf E O box).fieldsWith d := by
      intro d
      show [(c!"d", d), (c!"capture_base", ((baseOfBox O' box.tidy).sign E).toJson),
          (c!"overlays", overlaysJson (bundleOf E O' box.tidy).overlays)] =
        [(c!"d", d), (c!"capture_base", ((baseOfBox O box).sign E).toJson),
          (c!"overlays", overlaysJson (bundleOf E O box).overlays)]
      rw [hov, hcb]
    have hsaid : (bundleOf E O' box.tidy).said = (bundleOf E O box).said := by
      show some (E.digest (versioned E ((bundleOf E O' box.tidy).fieldsWith (.str placeholder)))) =
        some (E.digest (versioned E ((bundleOf E O box).fieldsWith (.str placeholder))))
      rw [key]
    refine ⟨hsaid, ?_⟩
    unfold Bundle.toJson
    rw [hsaid, key]

/-- States that agree in what is written have bundles with the same SAID and JSON. -/
theorem bundle_same {E : Env} (O O' : Order) {box box' : OCABox} (hr : Reachable E box) (hr' : Reachable E box')
    (hc : FrameConsistent box) (h : box.tidy = box'.tidy) :
    ((bundleOf E O' box').said = (bundleOf E O box).said ∧ (bundleOf E O' box').toJson E = (bundleOf E O box).toJson E) ∨
    (bundleOf E O box).TwoAlike ∨ (bundleOf E O' box').TwoAlike := by
  have hc' : FrameConsistent box' := by
    have := hc.tidy
    rw [h] at this
    intro frame n a fr sc s n' a' fr' sc' s' k v v' h1 h2 h3 h1' h2' h3' h4 h4'
    exact this frame n a.tidy fr sc s n' a'.tidy fr' sc' s' k v v' (get_tidy_some.mpr ⟨a, h1, rfl⟩) h2 h3
      (get_tidy_some.mpr ⟨a', h1', rfl⟩) h2' h3' h4 h4'
  rcases bundle_tidy (E := E) O Order.sorted hr hc with ⟨h1, h2⟩ | h1
  · rcases bundle_tidy (E := E) O' Order.sorted hr' hc' with ⟨h3, h4⟩ | h3
    · left
      rw [← h1, ← h2, ← h3, ← h4, h]
      exact ⟨rfl, rfl⟩
    · exact .inr (.inr h3)
  · exact .inr (.inl h1)

theorem twoAlike_tidy {E : Env} (O O' : Order) {box : OCABox} (hr : Reachable E box) (hc : FrameConsistent box) :
    (bundleOf E O' box.tidy).TwoAlike ↔ (bundleOf E O box).TwoAlike := by
  have hp := tidy_perm (E := E) O O' hr hc
  constructor
  · rintro ⟨o, ho, o', ho', hne, hs⟩
    obtain ⟨p, h1, rfl⟩ := List.mem_map.mp (hp.mem_iff.mpr ho)
    obtain ⟨p', h2, rfl⟩ := List.mem_map.mp (hp.mem_iff.mpr ho')
    exact ⟨p, h1, p', h2, (by rintro rfl; exact hne rfl), hs⟩
  · rintro ⟨o, ho, o', ho', hne, hs⟩
    refine ⟨_, hp.mem_iff.mp (List.mem_map_of_mem ho), _, hp.mem_iff.mp (List.mem_map_of_mem ho'), ?_, hs⟩
    intro e
    have hsl : o.body.slot = o'.body.slot := by
      rw [← slot_tidy o.body, ← slot_tidy o'.body]
      exact congrArg (fun o : Overlay => o.body.slot) e
    have hn := C16_one_overlay_per_slot (ε := Unit) E O box hr _ (reachable_gen hr O)
    have key : ∀ l : List Overlay, (l.map fun o => o.body.slot).Nodup → o ∈ l → o' ∈ l → o = o' := by
      intro l
      induction l with
      | nil => intro _ h; cases h
      | cons x t ih =>
        intro hn h h'
        rw [List.map_cons, List.nodup_cons] at hn
        rcases List.mem_cons.mp h with e1 | h1 <;> rcases List.mem_cons.mp h' with e2 | h2
        · rw [e1, e2]
        · exact absurd (List.mem_map.mpr ⟨o', h2, by rw [← e1]; exact hsl.symm⟩) hn.1
        · exact absurd (List.mem_map.mpr ⟨o, h1, by rw [← e2]; exact hsl⟩) hn.1
        · exact ih hn.2 h1 h2
    exact hne (key _ hn ho ho')

/-- States that agree in what is written have bundles with the same SAID and JSON: unless the bundle has two overlays with the same SAID. -/
theorem bundle_equal {E : Env} (O O' : Order) {box box' : OCABox} (hr : Reachable E box) (hr' : Reachable E box')
    (hc : FrameConsistent box) (hc' : FrameConsistent box') (h : box.tidy = box'.tidy) (hn : ¬ (bundleOf E O box).TwoAlike) :
    (bundleOf E O' box').said = (bundleOf E O box).said ∧ (bundleOf E O' box').toJson E = (bundleOf E O box).toJson E := by
  rcases bundle_same O O' hr hr' hc h with h1 | h1 | h1
  · exact h1
  · exact absurd h1 hn
  · rw [← twoAlike_tidy (O' := Order.sorted) O' hr' hc', ← h, twoAlike_tidy O Order.sorted hr hc] at h1
    exact absurd h1 hn

end OCA
