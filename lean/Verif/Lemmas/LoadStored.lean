import Verif.Lemmas.TidyBundle
import Verif.Lemmas.Stored
/-!
# What is loaded from a stored bundle is the state it was made of, up to what is not written
-/
namespace OCA

theorem keyOf_norm (b : OvBody) : keyOf b.norm = keyOf b := by cases b <;> rfl

theorem slot_norm (b : OvBody) : b.norm.slot = b.slot := by cases b <;> rfl

theorem remeta_strip (md : FMap Str) (fr : FMap Scope) : remeta md (stripScopes fr) = remeta md fr := by
  ext k : 1
  unfold remeta stripScopes
  rw [FMap.get_filterMap, FMap.get_filterMap, FMap.get_filterMap]
  cases fr.get k <;> rfl

theorem mem_keys_map {V W : Type} (m : FMap V) (f : V → W) (n : Str) :
    n ∈ (m.filterMap fun _ v => some (f v)).keys ↔ n ∈ m.keys := by
  rw [FMap.mem_keys_iff, FMap.mem_keys_iff, FMap.get_filterMap]
  cases m.get n <;> rfl

theorem Loadable.norm {m : FMap Attribute} {b : OvBody} (h : Loadable m b) : Loadable m b.norm := by
  obtain ⟨h1, h2⟩ := h
  cases b <;> refine ⟨?_, h2⟩ <;> intro n hn
  case entryCode x => exact h1 n ((mem_keys_map _ _ _).mp hn)
  case framing md x => exact h1 n ((mem_keys_map _ _ _).mp hn)
  all_goals exact h1 n hn

theorem norm_codes {b : OvBody} {n : Str} {e' : EntryCodes} :
    b.norm.Loads n (.entryCodes e') ↔ ∃ e, b.Loads n (.entryCodes e) ∧ e' = e.norm := by
  constructor
  · rintro ⟨m, e, hm⟩
    cases b <;> cases e
    rename_i m
    rw [FMap.get_filterMap] at hm
    obtain ⟨e, h1, h2⟩ := Option.bind_eq_some_iff.mp hm
    exact ⟨e, ⟨m, rfl, h1⟩, (Option.some.inj h2).symm⟩
  · rintro ⟨e, ⟨m, rfl, hm⟩, rfl⟩
    refine ⟨_, rfl, ?_⟩
    rw [FMap.get_filterMap, hm]; rfl

theorem norm_loads {b : OvBody} {n : Str} {f : Fact} (hf : ∀ e, f ≠ .entryCodes e) : b.norm.Loads n f ↔ b.Loads n f := by
  cases f
  case entryCodes e => exact absurd rfl (hf e)
  case framing i g =>
    constructor
    · rintro ⟨md, x, fr, e, h1, h2, rfl⟩
      cases b <;> cases e
      rename_i x
      rw [FMap.get_filterMap] at h2
      obtain ⟨fr, h3, h4⟩ := Option.bind_eq_some_iff.mp h2
      cases h4
      exact ⟨md, x, fr, rfl, h1, h3, remeta_strip ..⟩
    · rintro ⟨md, x, fr, rfl, h1, h2, rfl⟩
      refine ⟨md, _, stripScopes fr, rfl, h1, ?_, (remeta_strip ..).symm⟩
      rw [FMap.get_filterMap, h2]; rfl
  case label l s =>
    constructor
    · rintro ⟨cs, m, cl, e, h⟩
      cases b <;> cases e
      exact ⟨_, _, _, rfl, h⟩
    · rintro ⟨cs, m, cl, rfl, h⟩
      exact ⟨_, _, _, rfl, h⟩
  all_goals cases b <;> first | exact Iff.rfl | (constructor <;> (intro h; simp [OvBody.Loads, OvBody.States, OvBody.norm] at h))

/-- The bundle shows the state: apart from SAIDs, order and what is not written it is the bundle made of the state. -/
structure Bundle.Shows (O : Order) (box : OCABox) (b : Bundle) : Prop where
  attrs : b.captureBase.attributes = typesOf box.attributes
  flags : ∀ n, n ∈ b.captureBase.flagged ↔ n ∈ flagsOf O box.attributes
  class_ : b.captureBase.classification = box.classification.getD []
  bodies : (b.overlays.map Overlay.body).Perm ((genBodies O box).map OvBody.norm)

/-- The bundle loaded from the JSON of a state's bundle shows the state. -/
theorem shows_loaded {E : Env} {O : Order} {box : OCABox} (hb : KeepBox E box) :
    Bundle.Shows O box ⟨(bundleOf E O box).said,
      { (bundleOf E O box).captureBase with flagged := sortStr (bundleOf E O box).captureBase.flagged },
      (written (bundleOf E O box).overlays).map Overlay.norm⟩ := by
  refine ⟨rfl, ?_, rfl, ?_⟩
  · intro n
    exact (perm_sortStr _).mem_iff
  · have hp := written_perm _ (hb.bundle O).storable.singles
    have h1 : (((written (bundleOf E O box).overlays).map Overlay.norm).map Overlay.body) =
        (written (bundleOf E O box).overlays).map (fun o => o.body.norm) := by rw [List.map_map]; rfl
    have h2 : (genBodies O box).map OvBody.norm = (bundleOf E O box).overlays.map fun o => o.body.norm := by
      rw [← bodies_bundleOf E O box, List.map_map]; rfl
    show List.Perm (List.map _ (List.map _ _)) _
    rw [h1, h2]
    exact hp.map _

/-- the attribute loaded from these overlays -/
def shownAttr (E : Env) (b : Bundle) (n : Str) (t : NAttr) : Attribute :=
  loadAttrs E n (loadList (b.overlays.map Overlay.body)) { ty := some t, flagged := decide (n ∈ b.captureBase.flagged) }

/-- the loaded state -/
def shownBox (E : Env) (b : Bundle) : OCABox where
  attributes := b.captureBase.attributes.filterMap fun n t => some (shownAttr E b n t)
  mappings := none
  metaMap := (b.overlays.map Overlay.body).foldl metaStepOf none
  classification := some b.captureBase.classification

theorem Bundle.Shows.mem {O : Order} {box : OCABox} {b : Bundle} (h : b.Shows O box) {x : OvBody} :
    x ∈ b.overlays.map Overlay.body ↔ ∃ y ∈ genBodies O box, x = y.norm := by
  rw [h.bodies.mem_iff, List.mem_map]
  constructor
  · rintro ⟨y, h1, rfl⟩; exact ⟨y, h1, rfl⟩
  · rintro ⟨y, h1, rfl⟩; exact ⟨y, h1, rfl⟩

theorem Bundle.Shows.load {ε : Type} {E : Env} {O : Order} {box : OCABox} (hw : BoxWF box) {b : Bundle} (h : b.Shows O box) :
    (OCABox.ofBundle E b : Res ε _) = .ok (shownBox E b) := by
  have hdom : ∀ n, (box.attributes.get n).isSome = true →
      (b.captureBase.attributes.get n).isSome = true := by
    intro n hn
    obtain ⟨a, ha⟩ := Option.isSome_iff_exists.mp hn
    rw [h.attrs]
    unfold typesOf
    rw [get_collect, ha]
    exact (hw.attrs n a ha).typed
  unfold OCABox.ofBundle
  dsimp only
  rw [loadFlags_ok]
  · simp only [Res.bind_ok]
    have hl := loadBodies_ok (ε := ε) E (loadList (b.overlays.map Overlay.body))
      ((b.captureBase.attributes.filterMap (fun _ t => some { ty := some t : Attribute })).filterMap fun n a =>
      some { a with flagged := a.flagged || decide (n ∈ b.captureBase.flagged) }) (by
        intro x hx
        obtain ⟨y, hy, rfl⟩ := h.mem.mp (mem_loadList.mp hx).1
        obtain ⟨h1, h2⟩ := (genBody_loadable hw hy).norm
        refine ⟨?_, h2⟩
        intro n hn
        obtain ⟨t, ht⟩ := Option.isSome_iff_exists.mp (hdom n (h1 n hn))
        simp [FMap.get_filterMap, ht])
    unfold loadList at hl
    rw [hl, loadMetas_eq]
    simp only [Res.bind_ok, Res.pure_eq, Res.ok.injEq, shownBox, OCABox.mk.injEq, and_true]
    ext n : 1
    simp only [FMap.get_filterMap]
    cases b.captureBase.attributes.get n with
    | none => rfl
    | some t => simp [shownAttr, loadList]
  · intro n hn
    obtain ⟨a, ha, -⟩ := mem_flagsOf.mp ((h.flags n).mp hn)
    obtain ⟨t, ht⟩ := Option.isSome_iff_exists.mp (hdom n (by rw [ha]; rfl))
    rw [FMap.get_filterMap, ht]; rfl

theorem Bundle.Shows.carries {E : Env} {O : Order} {box : OCABox} (hw : BoxWF box) {b : Bundle} (h : b.Shows O box)
    (n : Str) (t : NAttr) (f : Fact) : (shownAttr E b n t).Carries f ↔ ∃ y ∈ genBodies O box, y.norm.Loads n f := by
  have hkeys : ((b.overlays.map Overlay.body).filterMap keyOf).Nodup := by
    rw [(h.bodies.filterMap keyOf).nodup_iff, List.filterMap_map]
    have : keyOf ∘ OvBody.norm = keyOf := by funext x; exact keyOf_norm x
    rw [this]
    exact genBodies_keys_nodup O box hw
  unfold shownAttr
  rw [loadAttrs_carries E n _ box.attributes _ f ?_ (loadList_keys hkeys) ?_ ?_]
  · constructor
    · rintro ⟨x, hx, hl⟩
      obtain ⟨y, hy, rfl⟩ := h.mem.mp (mem_loadList.mp hx).1
      exact ⟨y, hy, hl⟩
    · rintro ⟨y, hy, hl⟩
      exact ⟨_, mem_loadList.mpr ⟨h.mem.mpr ⟨y, hy, rfl⟩, kind_of_key (Loads.key hl)⟩, hl⟩
  · intro x hx
    obtain ⟨y, hy, rfl⟩ := h.mem.mp (mem_loadList.mp hx).1
    exact (genBody_loadable hw hy).norm
  · cases f <;> rfl
  · intro _; rfl

theorem norm_tidy (e : EntryCodes) (h : ∀ g, e = .object g → SortedKeys g) : e.norm.tidy = e.tidy := by
  cases e with
  | sai s => rfl
  | array l => exact congrArg EntryCodes.array (sortStr_idem _)
  | object l => exact congrArg (fun m : FMap (List Str) => EntryCodes.object m.l) (ofList_l (⟨l, h l rfl⟩ : FMap (List Str)))

/-- The loaded state and the state agree in all that is written. -/
theorem Bundle.Shows.tidy {E : Env} {O : Order} {box : OCABox} (hb : KeepBox E box) {M : Str → FMap Str} (hu : box.Uniform M)
    {b : Bundle} (h : b.Shows O box) : (shownBox E b).tidy = box.tidy := by
  have hw := hb.reach.wf
  have hr' : Reachable E (shownBox E b) := .loaded b _ (h.load (ε := Unit) hw)
  have hw' := hr'.wf
  have hsame := reload_same (O := O) hb.reach hu
  refine tidy_iff.mpr ⟨?_, hw.mappings.symm, ?_, ?_⟩
  · intro n
    cases ha : box.attributes.get n with
    | none =>
      show Option.map _ ((b.captureBase.attributes.filterMap _).get n) = _
      rw [h.attrs, FMap.get_filterMap]
      unfold typesOf
      rw [get_collect, ha]; rfl
    | some a =>
      obtain ⟨t, ht⟩ := Option.isSome_iff_exists.mp (hw.attrs n a ha).typed
      have hg : (shownBox E b).attributes.get n = some (shownAttr E b n t) := by
        show (b.captureBase.attributes.filterMap _).get n = _
        rw [h.attrs, FMap.get_filterMap]
        unfold typesOf
        rw [get_collect, ha]
        show Option.bind a.ty _ = _
        rw [ht]; rfl
      have hra : reloadAttr E O box n t = a := by
        have h1 := reload_get (E := E) (O := O).mpr ⟨a, t, ha, ht, rfl⟩
        rw [hsame] at h1
        rw [ha] at h1
        exact (Option.some.inj h1).symm
      have hcar : ∀ f, a.Carries f ↔ ∃ y ∈ genBodies O box, y.Loads n f := by
        intro f
        rw [← reload_carries (E := E) hw n t f, hra]
      have hcodes : ∀ e, (shownAttr E b n t).entryCodes = some e ↔ ∃ e0, a.entryCodes = some e0 ∧ e = e0.norm := by
        intro e
        have h1 := h.carries (E := E) hw n t (.entryCodes e)
        refine Iff.trans h1 ?_
        constructor
        · rintro ⟨y, hy, hl⟩
          obtain ⟨e0, h2, h3⟩ := norm_codes.mp hl
          exact ⟨e0, (hcar (.entryCodes e0)).mpr ⟨y, hy, h2⟩, h3⟩
        · rintro ⟨e0, h2, h3⟩
          obtain ⟨y, hy, hl⟩ := (hcar (.entryCodes e0)).mp h2
          exact ⟨y, hy, norm_codes.mpr ⟨e0, hl, h3⟩⟩
      rw [hg]
      refine congrArg some ?_
      refine attr_ext (hw'.attrs _ _ hg).tidy (hw.attrs _ _ ha).tidy (hr'.plain.attrs _ _ hg).tidy (hb.reach.plain.attrs _ _ ha).tidy ?_ ?_ ?_
      · show (shownAttr E b n t).ty = a.ty
        rw [ht]; exact (ty_loadAttrs E n _ _).1
      · refine (ty_loadAttrs E n _ _).2.trans ?_
        show decide _ = a.flagged
        rw [Bool.eq_iff_iff, decide_eq_true_iff, h.flags, mem_flagsOf]
        constructor
        · rintro ⟨x, h1, h2⟩; rw [ha] at h1; cases h1; exact h2
        · intro h; exact ⟨a, ha, h⟩
      · intro f
        by_cases hf : ∃ e, f = .entryCodes e
        · obtain ⟨e, rfl⟩ := hf
          show (shownAttr E b n t).entryCodes.map EntryCodes.tidy = some e ↔ a.entryCodes.map EntryCodes.tidy = some e
          have : (shownAttr E b n t).entryCodes.map EntryCodes.tidy = a.entryCodes.map EntryCodes.tidy := by
            cases hc : a.entryCodes with
            | none =>
              cases hc' : (shownAttr E b n t).entryCodes with
              | none => rfl
              | some e' =>
                obtain ⟨e0, h0, -⟩ := (hcodes e').mp hc'
                rw [hc] at h0; cases h0
            | some e0 =>
              rw [(hcodes e0.norm).mpr ⟨e0, hc, rfl⟩]
              exact congrArg some (norm_tidy e0 fun g hg => (hb.stor.attrs n a ha).codes trivial g (by rw [hc, hg]))
          rw [this]
        · have hf' : ∀ e, f ≠ .entryCodes e := fun e he => hf ⟨e, he⟩
          have h1 : ∀ x : Attribute, x.tidy.Carries f ↔ x.Carries f := by
            intro x
            cases f <;> first | exact Iff.rfl | exact absurd rfl (hf' _)
          rw [h1, h1, h.carries hw, hcar]
          exact exists_congr fun y => and_congr_right fun _ => norm_loads hf'
  · apply opt_map_ext hr'.plain.metas hb.reach.plain.metas
    intro l ps
    rw [← optGet_eq_some, ← optGet_eq_some, ← reload_meta (E := E) (O := O) hw l ps]
    have hmem : ∀ l ps, OvBody.metaOv l ps ∈ b.overlays.map Overlay.body ↔ OvBody.metaOv l ps ∈ genBodies O box := by
      intro l ps
      rw [h.mem]
      constructor
      · rintro ⟨y, hy, e⟩
        cases y <;> cases e
        exact hy
      · intro hy; exact ⟨_, hy, rfl⟩
    have hne : ∀ l ps, OvBody.metaOv l ps ∈ genBodies O box → ps ≠ FMap.empty := by
      intro l ps hx
      rcases mem_genBodies O box hw _ hx with ⟨m, l', ps', h1, h2, e⟩ | ⟨K, hK, -⟩
      · cases e; exact hw.metas m l ps h1 h2
      · have := hK.key; cases this
    show optGet ((b.overlays.map Overlay.body).foldl metaStepOf none) l = some ps ↔
      optGet ((genBodies O box).foldl metaStepOf none) l = some ps
    rw [optGet_metas _ _ _ _ (slots_nodup O box hw) rfl hne, optGet_metas _ _ _ _ ?_ rfl (fun l ps hx => hne l ps ((hmem l ps).mp hx)), hmem]
    rw [(h.bodies.map OvBody.slot).nodup_iff, List.map_map]
    have : OvBody.slot ∘ OvBody.norm = OvBody.slot := by funext x; exact slot_norm x
    rw [this]
    exact slots_nodup O box hw
  · exact h.class_

end OCA
