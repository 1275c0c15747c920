import Verif.Props.Generation
/-!
# C19: the SAID does not depend on hash-map iteration order
-/
namespace OCA

/-- No two scopes of the same frame disagree on a metadata value. (True whenever each frame is described
by one command, or by commands with the same properties.) -/
def FrameConsistent (b : OCABox) : Prop :=
  ∀ frame n a fr sc s n' a' fr' sc' s' k v v',
    b.attributes.get n = some a → a.Carries (.framing frame fr) → fr.get sc = some s →
    b.attributes.get n' = some a' → a'.Carries (.framing frame fr') → fr'.get sc' = some s' →
    s.frameMeta.get k = some v → s'.frameMeta.get k = some v' → v = v'

theorem FrameMd.unique {b : OCABox} (hc : FrameConsistent b) {frame : Str} {md md' : FMap Str}
    (h : FrameMd b.attributes frame md) (h' : FrameMd b.attributes frame md') : md = md' := by
  have one : ∀ {md md' : FMap Str}, FrameMd b.attributes frame md → FrameMd b.attributes frame md' →
      ∀ k v, md.get k = some v → md'.get k = some v := by
    intro md md' h h' k v hv
    by_cases hk : k = frameIdKey
    · subst hk
      rw [h.hasId] at hv; rw [h'.hasId]; exact hv
    · obtain ⟨n, a, fr, sc, s, h1, h2, h3, h4⟩ := h.sound k v hk hv
      obtain ⟨v', hv'⟩ := Option.isSome_iff_exists.mp (h'.complete n a fr sc s k h1 h2 h3 (by simp [h4]))
      obtain ⟨n', a', fr', sc', s', h1', h2', h3', h4'⟩ := h'.sound k v' hk hv'
      have := hc frame n a fr sc s n' a' fr' sc' s' k v v' h1 (optGet_eq_some.mp h2) h3 h1'
        (optGet_eq_some.mp h2') h3' h4 h4'
      rw [this]; exact hv'
  ext k : 1
  apply Option.ext
  intro v
  exact ⟨one h h' k v, one h' h k v⟩

theorem IsBody.unique {b : OCABox} (hc : FrameConsistent b) {K : OvKey} {x y : OvBody}
    (h : IsBody b.attributes K x) (h' : IsBody b.attributes K y) : x = y := by
  cases K <;> simp only [IsBody] at h h'
  case framing frame =>
    obtain ⟨md, rfl, h⟩ := h
    obtain ⟨md', rfl, h'⟩ := h'
    rw [h.unique hc h']
  all_goals rw [h, h']

theorem perm_of_nodup {α : Type} {l l' : List α} (h : l.Nodup) (h' : l'.Nodup) (hm : ∀ x, x ∈ l ↔ x ∈ l') :
    l.Perm l' := (List.perm_ext_iff_of_nodup h h').mpr hm

theorem genBodies_perm (O O' : Order) (b : OCABox) (hw : BoxWF b) (hc : FrameConsistent b) :
    (genBodies O b).Perm (genBodies O' b) := by
  obtain ⟨ks, h1, h2, h3, h4⟩ := genBodies_wf O b hw
  obtain ⟨ks', h1', h2', h3', h4'⟩ := genBodies_wf O' b hw
  rw [h3, h3']
  apply List.Perm.append
  · rw [preBodies_wf O b hw, preBodies_wf O' b hw]
    split
    · exact List.Perm.refl _
    · rename_i m _
      exact ((O.perm 136 [] m).trans (O'.perm 136 [] m).symm).map _
  · have : ks.map (bodyOf O (O.iter 142 [] b.attributes)) = ks.map (bodyOf O' (O'.iter 142 [] b.attributes)) := by
      apply List.map_congr_left
      intro K _
      exact (h4 K).unique hc (h4' K)
    rw [this]
    exact (perm_of_nodup h1 h1' (fun K => by rw [h2, h2'])).map _

theorem flagsOf_perm (O O' : Order) (m : FMap Attribute) : (flagsOf O m).Perm (flagsOf O' m) :=
  (((O.perm 327 [] m).trans (O'.perm 327 [] m).symm).filter _).map _

theorem base_fields (O O' : Order) (b : OCABox) (d : Json) :
    (baseOfBox O b).fieldsWith d = (baseOfBox O' b).fieldsWith d := by
  unfold CaptureBase.fieldsWith baseOfBox
  simp only
  rw [sortStr_perm (flagsOf_perm O O' b.attributes)]

theorem base_digest (O O' : Order) (b : OCABox) : (baseOfBox O b).digestInput = (baseOfBox O' b).digestInput := by
  unfold CaptureBase.digestInput
  rw [base_fields O O']

theorem base_json (E : Env) (O O' : Order) (b : OCABox) :
    ((baseOfBox O b).sign E).toJson = ((baseOfBox O' b).sign E).toJson := by
  have h := base_digest O O' b
  have hf := base_fields O O' b (.str (E.digest (baseOfBox O b).digestInput))
  show Json.obj (CaptureBase.fieldsWith (baseOfBox O b) (.str (E.digest (baseOfBox O b).digestInput))) =
    Json.obj (CaptureBase.fieldsWith (baseOfBox O' b) (.str (E.digest (baseOfBox O' b).digestInput)))
  rw [hf, h]

theorem overlays_perm (E : Env) (O O' : Order) (b : OCABox) (hw : BoxWF b) (hc : FrameConsistent b) :
    (bundleOf E O b).overlays.Perm (bundleOf E O' b).overlays := by
  show ((genBodies O b).map _).Perm ((genBodies O' b).map _)
  rw [base_digest O O' b]
  exact (genBodies_perm O O' b hw hc).map _

theorem overlays_signed (E : Env) (O : Order) (b : OCABox) (o : Overlay) (h : o ∈ (bundleOf E O b).overlays) :
    o.said.isSome = true := by
  rw [(mem_overlays h).2]; rfl

theorem slot_single {b : OvBody} (h : b.kind.many = false) : b.slot = (b.kind, none) := by
  cases b <;> first | rfl | (simp [OvBody.kind, OvKind.many] at h)

theorem singlesOnce_of_slots {l : List Overlay} (h : (l.map fun o => o.body.slot).Nodup) : SinglesOnce l := by
  intro k hk
  induction l with
  | nil => simp
  | cons o t ih =>
    rw [List.map_cons, List.nodup_cons] at h
    rw [List.filter_cons]
    by_cases ho : o.body.kind = k
    · have he : (t.filter fun o => decide (o.body.kind = k)) = [] := by
        rw [List.filter_eq_nil_iff]
        intro x hx e
        simp only [decide_eq_true_eq] at e
        apply h.1
        refine List.mem_map.mpr ⟨x, hx, ?_⟩
        rw [slot_single (by rw [e]; exact hk), slot_single (by rw [ho]; exact hk), e, ho]
      rw [he]
      simp [ho]
    · simp only [ho, decide_false, Bool.false_eq_true, if_false]
      exact ih h.2

/-- Generating a bundle from the same build state gives the same JSON and the same SAID whatever order the
hash maps are iterated in, provided no frame is given contradictory metadata - or else the bundle holds two
different overlays with the same SAID (a digest collision between those two). -/
theorem C19_said_order_independent {ε : Type} (E : Env) (O O' : Order) (box : OCABox)
    (hr : Reachable E box) (hc : FrameConsistent box) (b b' : Bundle)
    (h : (generateBundle E O box : Res ε _) = .ok b) (h' : (generateBundle E O' box : Res ε _) = .ok b') :
    (b.said = b'.said ∧ b.toJson E = b'.toJson E) ∨
    ∃ o ∈ b.overlays, ∃ o' ∈ b.overlays, o ≠ o' ∧ o.said = o'.said := by
  obtain ⟨-, rfl⟩ := generateBundle_eq_ok h
  obtain ⟨-, rfl⟩ := generateBundle_eq_ok h'
  by_cases hx : ∃ o ∈ (bundleOf E O box).overlays, ∃ o' ∈ (bundleOf E O box).overlays, o ≠ o' ∧ o.said = o'.said
  · exact .inr hx
  · left
    have hsep : SaidsSeparate (bundleOf E O box).overlays := by
      refine ⟨overlays_signed E O box, ?_⟩
      intro o ho o' ho' e
      by_cases he : o = o'
      · exact he
      · exact absurd ⟨o, ho, o', ho', he, e⟩ hx
    have hsing := singlesOnce_of_slots (C16_one_overlay_per_slot E O box hr _ h)
    have hov := overlaysJson_perm (overlays_perm E O O' box hr.wf hc) hsep hsing
    have hcb := base_json E O O' box
    have key : ∀ d, (bundleOf E O box).fieldsWith d = (bundleOf E O' box).fieldsWith d := by
      intro d
      show [(c!"d", d), (c!"capture_base", ((baseOfBox O box).sign E).toJson),
          (c!"overlays", overlaysJson (bundleOf E O box).overlays)] =
        [(c!"d", d), (c!"capture_base", ((baseOfBox O' box).sign E).toJson),
          (c!"overlays", overlaysJson (bundleOf E O' box).overlays)]
      rw [hov, hcb]
    have hsaid : (bundleOf E O box).said = (bundleOf E O' box).said := by
      show some (E.digest (versioned E ((bundleOf E O box).fieldsWith (.str placeholder)))) =
        some (E.digest (versioned E ((bundleOf E O' box).fieldsWith (.str placeholder))))
      rw [key]
    refine ⟨hsaid, ?_⟩
    unfold Bundle.toJson
    rw [hsaid, key]

/-! ## The condition on frames is needed -/

/-- Two attributes in the same frame, described with different versions. -/
def conflictCommands : List Command :=
  [addAttrs [(c!"a", .val .text), (c!"b", .val .text)],
   addOv .attributeFraming [(c!"id", .val c!"f"), (c!"version", .val c!"1")]
     [(c!"a", .obj [(c!"x", .obj [(c!"predicate_id", .val c!"p"), (c!"framing_justification", .val c!"j")])])],
   addOv .attributeFraming [(c!"id", .val c!"f"), (c!"version", .val c!"2")]
     [(c!"b", .obj [(c!"x", .obj [(c!"predicate_id", .val c!"p"), (c!"framing_justification", .val c!"j")])])]]

/-- the state after these commands -/
def conflictBox : OCABox :=
  match runAll Env.demo OCABox.new conflictCommands with
  | .ok b => b
  | _ => OCABox.new

theorem conflict_run : runAll Env.demo OCABox.new conflictCommands = .ok conflictBox := by
  have h : (runAll Env.demo OCABox.new conflictCommands).isOk = true := by decide
  unfold conflictBox
  cases hr : runAll Env.demo OCABox.new conflictCommands with
  | ok b => rfl
  | err e => rw [hr] at h; cases h
  | panic => rw [hr] at h; cases h

/-- Without the condition the property is false: accepted commands lead to a state whose SAID depends on
the iteration order. -/
theorem C19_order_matters_for_conflicting_frames :
    ∃ (E : Env) (box : OCABox) (O O' : Order) (b b' : Bundle), Reachable E box ∧
      (generateBundle E O box : Res Str _) = .ok b ∧ (generateBundle E O' box : Res Str _) = .ok b' ∧
      b.said ≠ b'.said := by
  have hr : Reachable Env.demo conflictBox := runAll_reachable _ _ _ _ Reachable.new conflict_run
  refine ⟨Env.demo, conflictBox, Order.sorted, Order.reversed, _, _, hr,
    generateBundle_ok _ _ _ (reachable_typed hr), generateBundle_ok _ _ _ (reachable_typed hr), ?_⟩
  decide +kernel

/-- The demo state meets the condition. -/
example : FrameConsistent demoBox := by
  intro frame n a fr sc s n' a' fr' sc' s' k v v' h1 h2 h3 h1' h2' h3' h4 h4'
  have hn : ∀ n a fr, demoBox.attributes.get n = some a → a.Carries (.framing frame fr) →
      n = c!"name" := by
    intro n a fr hg hc
    have hm : (n, a) ∈ demoBox.attributes.l := FMap.get_eq_some_iff.mp hg
    have : ∀ p ∈ demoBox.attributes.l, p.2.framings.isSome = true → p.1 = c!"name" := by decide
    obtain ⟨m, hm', -⟩ := hc
    exact this _ hm (by simp [hm'])
  have e := hn n a fr h1 h2
  have e' := hn n' a' fr' h1' h2'
  subst e e'
  rw [h1] at h1'
  cases h1'
  obtain ⟨m, hm, hg⟩ := h2
  obtain ⟨m', hm', hg'⟩ := h2'
  rw [hm] at hm'
  cases hm'
  rw [hg] at hg'
  cases hg'
  have hone : ∀ q ∈ (demoBox.attributes.get c!"name").toList, ∀ m ∈ q.framings.toList, ∀ f ∈ m.l,
      ∀ x ∈ f.2.l, ∀ y ∈ f.2.l, x = y := by decide
  have := hone a (by simp [h1]) m (by simp [hm]) (frame, fr) (FMap.get_eq_some_iff.mp hg)
    (sc, s) (FMap.get_eq_some_iff.mp h3) (sc', s') (FMap.get_eq_some_iff.mp h3')
  cases this
  rw [h4] at h4'
  cases h4'
  rfl

end OCA
