import Verif.Props.Extension
import Verif.Lemmas.LoadStored
/-!
# C68: the bundle a build gives, told from the commands and the base bundle
-/
namespace OCA

/-! ## Specification -/

/-- The bundle says this about the attribute. -/
def Bundle.Tells (B : Bundle) (n : Str) (F : Fact) : Prop := ∃ o ∈ B.overlays, o.body.States n F

/-- The bundle gives the attribute this scope in this frame (with the metadata kept in it). -/
def Bundle.HasScope (B : Bundle) (n id sc : Str) (v : Scope) : Prop := ∃ fr, B.Tells n (.framing id fr) ∧ fr.get sc = some v

/-- The bundle gives the attribute this scope in this frame, with the metadata of the frame. -/
def Bundle.GivesScope (B : Bundle) (n id sc : Str) (v : Scope) : Prop :=
  ∃ o ∈ B.overlays, ∃ md x fr s, o.body = .framing md x ∧ md.get frameIdKey = some id ∧ x.get n = some fr ∧ fr.get sc = some s ∧
    v = { s with frameMeta := md.erase frameIdKey }

/-- The bundle has this pair in the meta of this language. -/
def Bundle.HasMeta (B : Bundle) (l : Lang) (k v : Str) : Prop := ∃ o ∈ B.overlays, ∃ ps, o.body = .metaOv l ps ∧ ps.get k = some v

/-- What bundles that were built, or built, stored and loaded, have in common. -/
structure Bundle.WellMade (B : Bundle) : Prop where
  single : (B.overlays.map fun o => o.body.slot).Nodup
  named : ∀ o ∈ B.overlays, ∀ n ∈ o.body.attributes, (B.captureBase.attributes.get n).isSome = true
  conds : ∀ o ∈ B.overlays, ∀ c d, o.body = .conditional c d → CondsOk c d
  frames : ∀ o ∈ B.overlays, ∀ md x, o.body = .framing md x → (md.get frameIdKey).isSome = true
  metas : ∀ o ∈ B.overlays, ∀ l ps, o.body = .metaOv l ps → ps ≠ FMap.empty
  flags : ∀ n ∈ B.captureBase.flagged, (B.captureBase.attributes.get n).isSome = true

/-! ## Which bundles are well made -/

/-- **C68** The bundle of a build is well made, on any base. -/
theorem C68_built_well_made {E : Env} {Os : Nat → Order} {base : Option Bundle} {ast : OCAAst} {b : Build} (h : fromAst E Os base ast = .ok b) :
    b.bundle.WellMade := by
  obtain ⟨_, box, -, -, -, hr, -, -, -, hg, -⟩ := C12_successful_build E Os base ast b h
  obtain ⟨-, e⟩ := generateBundle_eq_ok hg
  exact e ▸ wellMade_bundleOf E _ box hr
where
  wellMade_bundleOf (E : Env) (O : Order) (box : OCABox) (hr : Reachable E box) : (bundleOf E O box).WellMade := by
    have hw := hr.wf
    have hmem : ∀ o ∈ (bundleOf E O box).overlays, o.body ∈ genBodies O box := by
      intro o ho
      rw [← bodies_bundleOf E O box]
      exact List.mem_map.2 ⟨o, ho, rfl⟩
    have hdom : ∀ n, (box.attributes.get n).isSome = true → ((bundleOf E O box).captureBase.attributes.get n).isSome = true := by
      intro n hn
      obtain ⟨a, ha⟩ := Option.isSome_iff_exists.mp hn
      show ((typesOf box.attributes).get n).isSome = true
      unfold typesOf
      rw [get_collect, ha]
      exact (hw.attrs n a ha).typed
    refine ⟨?_, ?_, ?_, ?_, ?_, ?_⟩
    · have := slots_nodup O box hw
      rw [← bodies_bundleOf E O box, List.map_map] at this
      exact this
    · intro o ho n hn
      exact hdom n ((genBody_loadable hw (hmem o ho)).1 n hn)
    · intro o ho c d e
      have := (genBody_loadable hw (hmem o ho)).2
      rw [e] at this; exact this
    · intro o ho md x e
      have := (genBody_loadable hw (hmem o ho)).2
      rw [e] at this; exact this
    · intro o ho l ps e
      exact (C17_no_empty_overlay (ε := Unit) E O box hr _ (reachable_gen hr O)).2.2 l ps ⟨o, ho, e⟩
    · intro n hn
      obtain ⟨a, ha, -⟩ := mem_flagsOf.mp hn
      exact hdom n (by rw [ha]; rfl)

/-- **C68** So is what is loaded from the JSON of a bundle that is well made. -/
theorem C68_loaded_well_made {E : Env} {B B' : Bundle} (hB : B.WellMade) (hs : B.Storable E) (h : Bundle.ofJson E (B.toJson E) = .ok B') : B'.WellMade := by
  obtain ⟨B1, h1, -, -, h2, -, h3⟩ := C29_json_round_trip E B hs
  rw [h] at h1
  cases h1
  have hp := written_perm _ hs.singles
  have hbod : ∀ o ∈ B'.overlays, ∃ o' ∈ B.overlays, o.body = o'.body.norm := by
    intro o ho
    rw [h3] at ho
    obtain ⟨o', ho', rfl⟩ := List.mem_map.1 ho
    exact ⟨o', hp.mem_iff.1 ho', rfl⟩
  have hattr : B'.captureBase.attributes = B.captureBase.attributes := by rw [h2]
  have hl : ∀ o ∈ B.overlays, Loadable (B.captureBase.attributes.filterMap fun _ t => some { ty := some t : Attribute }) o.body := by
    intro o ho
    refine ⟨?_, ?_⟩
    · intro n hn
      obtain ⟨t, ht⟩ := Option.isSome_iff_exists.1 (hB.named o ho n hn)
      rw [FMap.get_filterMap, ht]; rfl
    · cases e : o.body with
      | conditional c d => exact hB.conds o ho c d e
      | framing md x => exact hB.frames o ho md x e
      | _ => trivial
  refine ⟨?_, ?_, ?_, ?_, ?_, ?_⟩
  · rw [h3, List.map_map]
    have : ((fun o : Overlay => o.body.slot) ∘ Overlay.norm) = fun o : Overlay => o.body.slot := by funext o; exact slot_norm o.body
    rw [this, (hp.map _).nodup_iff]
    exact hB.single
  · intro o ho n hn
    obtain ⟨o', ho', e⟩ := hbod o ho
    rw [e] at hn
    have := (hl o' ho').norm.1 n hn
    rw [FMap.get_filterMap] at this
    rw [hattr]
    cases hg : B.captureBase.attributes.get n with
    | none => rw [hg] at this; cases this
    | some t => rfl
  · intro o ho c d e
    obtain ⟨o', ho', e'⟩ := hbod o ho
    have := (hl o' ho').norm.2
    rw [← e', e] at this; exact this
  · intro o ho md x e
    obtain ⟨o', ho', e'⟩ := hbod o ho
    have := (hl o' ho').norm.2
    rw [← e', e] at this; exact this
  · intro o ho l ps e
    obtain ⟨o', ho', e'⟩ := hbod o ho
    rw [e] at e'
    refine hB.metas o' ho' l ps ?_
    cases hb : o'.body <;> rw [hb] at e' <;> cases e'
    rfl
  · intro n hn
    rw [hattr]
    refine hB.flags n ?_
    rw [h2] at hn
    exact (perm_sortStr _).mem_iff.1 hn

/-! ## The base as a state -/

theorem wellMade_loadable {B : Bundle} (hB : B.WellMade) {m : FMap Attribute} (hm : ∀ n, (B.captureBase.attributes.get n).isSome = true → (m.get n).isSome = true) :
    ∀ x ∈ loadList (B.overlays.map Overlay.body), Loadable m x := by
  intro x hx
  obtain ⟨o, ho, rfl⟩ := List.mem_map.1 (mem_loadList.1 hx).1
  refine ⟨fun n hn => hm n (hB.named o ho n hn), ?_⟩
  cases e : o.body with
  | conditional c d => exact hB.conds o ho c d e
  | framing md x => exact hB.frames o ho md x e
  | _ => trivial

theorem wellMade_load {ε : Type} {E : Env} {B : Bundle} (hB : B.WellMade) : (OCABox.ofBundle E B : Res ε _) = .ok (shownBox E B) := by
  unfold OCABox.ofBundle
  dsimp only
  rw [loadFlags_ok]
  · simp only [Res.bind_ok]
    have hl := loadBodies_ok (ε := ε) E (loadList (B.overlays.map Overlay.body))
      ((B.captureBase.attributes.filterMap (fun _ t => some { ty := some t : Attribute })).filterMap fun n a =>
      some { a with flagged := a.flagged || decide (n ∈ B.captureBase.flagged) }) (wellMade_loadable hB (by
        intro n hn
        obtain ⟨t, ht⟩ := Option.isSome_iff_exists.mp hn
        simp [FMap.get_filterMap, ht]))
    unfold loadList at hl
    rw [hl, loadMetas_eq]
    simp only [Res.bind_ok, Res.pure_eq, Res.ok.injEq, shownBox, OCABox.mk.injEq, and_true]
    ext n : 1
    simp only [FMap.get_filterMap]
    cases B.captureBase.attributes.get n with
    | none => rfl
    | some t => simp [shownAttr, loadList]
  · intro n hn
    obtain ⟨t, ht⟩ := Option.isSome_iff_exists.mp (hB.flags n hn)
    rw [FMap.get_filterMap, ht]; rfl

theorem keys_of_slots {l : List OvBody} (h : (l.map OvBody.slot).Nodup) : (l.filterMap keyOf).Nodup := by
  induction l with
  | nil => exact .nil
  | cons x t ih =>
    rw [List.map_cons, List.nodup_cons] at h
    rw [List.filterMap_cons]
    cases hk : keyOf x with
    | none => exact ih h.2
    | some K =>
      refine List.nodup_cons.2 ⟨?_, ih h.2⟩
      intro hm
      obtain ⟨y, hy, hyk⟩ := List.mem_filterMap.1 hm
      refine h.1 (List.mem_map.2 ⟨y, hy, ?_⟩)
      have hfr : ∀ md : FMap Str, md.get frameIdKey = md.get c!"frame_id" := fun _ => rfl
      cases x <;> cases y <;> simp only [keyOf, Option.some.injEq, reduceCtorEq, Option.map_eq_some_iff] at hk hyk <;>
        first
          | rfl
          | (subst hk; cases hyk; rfl)
          | (obtain ⟨i, h1, rfl⟩ := hk; obtain ⟨j, h2, h3⟩ := hyk; cases h3; simp only [OvBody.slot]; rw [hfr] at h1 h2; rw [h1, h2]; done)
          | (subst hk; obtain ⟨j, h2, h3⟩ := hyk; cases h3; done)
          | (obtain ⟨i, h1, rfl⟩ := hk; cases hyk; done)

theorem wellMade_carries {E : Env} {B : Bundle} (hB : B.WellMade) (n : Str) (t : NAttr) (f : Fact) :
    (shownAttr E B n t).Carries f ↔ ∃ o ∈ B.overlays, o.body.Loads n f := by
  unfold shownAttr
  rw [loadAttrs_carries E n _ (B.captureBase.attributes.filterMap fun _ t => some { ty := some t : Attribute }) _ f ?_ (loadList_keys (keys_of_slots ?_)) ?_ ?_]
  · constructor
    · rintro ⟨x, hx, hl⟩
      obtain ⟨o, ho, rfl⟩ := List.mem_map.1 (mem_loadList.mp hx).1
      exact ⟨o, ho, hl⟩
    · rintro ⟨o, ho, hl⟩
      exact ⟨_, mem_loadList.mpr ⟨List.mem_map.2 ⟨o, ho, rfl⟩, kind_of_key (Loads.key hl)⟩, hl⟩
  · refine wellMade_loadable hB ?_
    intro n hn
    obtain ⟨t, ht⟩ := Option.isSome_iff_exists.mp hn
    rw [FMap.get_filterMap, ht]; rfl
  · have := hB.single
    rw [List.map_map]
    exact this
  · cases f <;> rfl
  · intro _; rfl

theorem loads_attr {b : OvBody} {n : Str} {f : Fact} (h : b.Loads n f) : n ∈ b.attributes := by
  have key : ∀ {V : Type} {m : FMap V} {v : V}, m.get n = some v → n ∈ m.keys := by
    intro V m v hm; rw [FMap.mem_keys_iff, hm]; rfl
  cases f
  case framing i g =>
    obtain ⟨md, x, fr, rfl, -, h1, -⟩ := h
    exact key h1
  all_goals
    simp only [OvBody.Loads, OvBody.States] at h
    first
      | (obtain ⟨m, rfl, h1⟩ := h; exact key h1)
      | (obtain ⟨m, d, rfl, h1, -⟩ := h; exact key h1)
      | (obtain ⟨m, d, e, rfl, h1⟩ := h; exact key h1)

/-- the state a build starts from -/
def baseBox (E : Env) : Option Bundle → OCABox
  | none => OCABox.new
  | some B => shownBox E B

/-- base and state -/
theorem base_state {E : Env} {Os : Nat → Order} {base : Option Bundle} {ast : OCAAst} {b : Build} (h : fromAst E Os base ast = .ok b)
    (hB : ∀ B, base = some B → B.WellMade) :
    ∃ m box, Took E m ast.commands box ∧ Reachable E box ∧ (generateBundle E (Os ast.commands.length) box : Res (List BuildErr) _) = .ok b.bundle ∧
      m = (baseBox E base) := by
  obtain ⟨st, box, h1, h2, h3, h4, -, -, -, h5, -⟩ := C12_successful_build E Os base ast b h
  have took : ∀ (cs : List Command) (m : OCABox), (∀ r ∈ results E (some m) cs, r.isOk = true) → finalState E (some m) cs = some box → Took E m cs box := by
    intro cs
    induction cs with
    | nil => intro m _ hf; cases hf; exact .nil _
    | cons c cs ih =>
      intro m hr hf
      have hc := hr _ (.head _)
      cases ha : applyCommand E (some m) c with
      | ok x =>
        simp only [finalState, results, ha, afterResult] at hf hr
        exact .cons ha (ih x (fun r hr' => hr r (.tail _ hr')) hf)
      | err e => rw [ha] at hc; cases hc
      | panic => rw [ha] at hc; cases hc
  cases base with
  | none =>
    cases h1
    refine ⟨OCABox.new, box, ?_, h4, h5, rfl⟩
    cases hcs : ast.commands with
    | nil => rw [hcs] at h3; cases h3
    | cons c cs =>
      rw [hcs] at h2 h3
      have e : ∀ c, applyCommand E none c = applyCommand E (some OCABox.new) c := fun _ => rfl
      have hc := h2 _ (.head _)
      cases ha : applyCommand E none c with
      | ok x =>
        simp only [finalState, results, ha, afterResult] at h2 h3
        exact .cons ((e c).symm.trans ha) (took cs x (fun r hr' => h2 r (.tail _ hr')) h3)
      | err e => rw [ha] at hc; cases hc
      | panic => rw [ha] at hc; cases hc
  | some B =>
    have h1' : (OCABox.ofBundle E B : Res (List BuildErr) _).bind (fun x => .ok (some x)) = .ok st := h1
    rw [wellMade_load (hB B rfl)] at h1'
    cases h1'
    exact ⟨_, box, took _ _ h2 h3, h4, h5, rfl⟩

/-! ## The bundle -/

theorem new_attr (n : Str) : OCABox.new.attributes.get n = none := rfl

theorem shown_get {E : Env} {B : Bundle} {n : Str} {a : Attribute} :
    (shownBox E B).attributes.get n = some a ↔ ∃ t, B.captureBase.attributes.get n = some t ∧ a = shownAttr E B n t := by
  show (B.captureBase.attributes.filterMap _).get n = some a ↔ _
  rw [FMap.get_filterMap]
  cases B.captureBase.attributes.get n with
  | none => simp
  | some t => simp [eq_comm]

/-- **C68** The attributes of the built bundle and their types: that of the last ADD ATTRIBUTE if no REMOVE came after it; as in the base if the commands
neither add nor remove it. -/
theorem C68_types {E : Env} {Os : Nat → Order} {base : Option Bundle} {ast : OCAAst} {b : Build} (h : fromAst E Os base ast = .ok b)
    (hD : ∀ c ∈ ast.commands, c.Distinct) (hB : ∀ B, base = some B → B.WellMade) (n : Str) (t : NAttr) :
    b.bundle.captureBase.attributes.get n = some t ↔
      LastSays (AddsType · n t) (NotNamed · n) ast.commands ∨
      ((∀ c ∈ ast.commands, NotNamed c n) ∧ ∃ B, base = some B ∧ B.captureBase.attributes.get n = some t) := by
  obtain ⟨m, box, h1, h2, h3, rfl⟩ := base_state h hB
  rw [(C14_capture_base_exact E _ box _ h3).1 n t]
  refine Iff.trans (last_decides' (P := fun b => b.Typed n t) (fun b c b' hD ha => typed_step hD ha n t) h1 hD) ?_
  refine or_congr Iff.rfl (and_congr_right fun _ => ?_)
  cases base with
  | none => simp [OCABox.Typed, baseBox, new_attr]
  | some B =>
    simp only [OCABox.Typed, baseBox, shown_get, Option.some.injEq, exists_eq_left']
    constructor
    · rintro ⟨_, ⟨u, h1, rfl⟩, h2⟩
      rw [show (shownAttr E B n u).ty = some u from (ty_loadAttrs E n _ _).1] at h2
      cases h2; exact h1
    · intro h1
      exact ⟨_, ⟨t, h1, rfl⟩, (ty_loadAttrs E n _ _).1⟩

/-- **C68** Flags come from the base only, and stay as long as the attribute is not removed. -/
theorem C68_flags {E : Env} {Os : Nat → Order} {base : Option Bundle} {ast : OCAAst} {b : Build} (h : fromAst E Os base ast = .ok b)
    (hD : ∀ c ∈ ast.commands, c.Distinct) (hB : ∀ B, base = some B → B.WellMade) (n : Str) :
    n ∈ b.bundle.captureBase.flagged ↔ (∀ c ∈ ast.commands, ¬ RemovesAttr c n) ∧ ∃ B, base = some B ∧ n ∈ B.captureBase.flagged := by
  obtain ⟨m, box, h1, h2, h3, rfl⟩ := base_state h hB
  rw [(C14_capture_base_exact E _ box _ h3).2.2.2.2 n]
  refine Iff.trans (last_decides' (P := fun b => b.Flags n) (S := fun _ => False) (fun b c b' hD ha => flags_step hD ha n) h1 hD) ?_
  have : ¬ LastSays (fun _ => False) (fun c => ¬ RemovesAttr c n) ast.commands := by rintro ⟨_, _, _, -, h, -⟩; exact h
  simp only [this, false_or]
  refine and_congr_right fun _ => ?_
  cases base with
  | none => simp [OCABox.Flags, baseBox, new_attr]
  | some B =>
    simp only [OCABox.Flags, baseBox, shown_get, Option.some.injEq, exists_eq_left']
    have hf : ∀ u, (shownAttr E B n u).flagged = decide (n ∈ B.captureBase.flagged) := fun u => (ty_loadAttrs E n _ _).2
    constructor
    · rintro ⟨_, ⟨u, h1, rfl⟩, h2⟩
      rw [hf] at h2
      simpa using h2
    · intro h1
      obtain ⟨t, ht⟩ := Option.isSome_iff_exists.1 ((hB B rfl).flags n h1)
      exact ⟨_, ⟨t, ht, rfl⟩, by rw [hf]; simpa using h1⟩

/-- what the base tells, as a state -/
theorem base_holds {E : Env} {base : Option Bundle} (hB : ∀ B, base = some B → B.WellMade) {n : Str} {F : Fact} :
    OCABox.Holds (baseBox E base) n F ↔
      ∃ B, base = some B ∧ ∃ o ∈ B.overlays, o.body.Loads n F := by
  cases base with
  | none => simp [OCABox.Holds, baseBox, new_attr]
  | some B =>
    simp only [OCABox.Holds, baseBox, shown_get, Option.some.injEq, exists_eq_left']
    constructor
    · rintro ⟨_, ⟨u, h1, rfl⟩, h2⟩
      exact (wellMade_carries (hB B rfl) n u F).1 h2
    · rintro ⟨o, ho, hl⟩
      obtain ⟨t, ht⟩ := Option.isSome_iff_exists.1 ((hB B rfl).named o ho n (loads_attr hl))
      exact ⟨_, ⟨t, ht, rfl⟩, (wellMade_carries (hB B rfl) n t F).2 ⟨o, ho, hl⟩⟩

theorem loads_states {b : OvBody} {n : Str} {F : Fact} (h : ∀ i f, F ≠ .framing i f) : b.Loads n F ↔ b.States n F := by
  cases F with
  | framing i f => exact absurd rfl (h i f)
  | _ => exact Iff.rfl

/-- **C68** What the bundle tells about an attribute (label, information, link, format, encoding, conformance, cardinality, condition, entry): what the last
command to speak of it says, if the attribute is not removed after it; what the base tells if the commands neither remove the attribute nor speak of it. -/
theorem C68_facts {E : Env} {Os : Nat → Order} {base : Option Bundle} {ast : OCAAst} {b : Build} (h : fromAst E Os base ast = .ok b)
    (hD : ∀ c ∈ ast.commands, c.Distinct) (hB : ∀ B, base = some B → B.WellMade) (n : Str) {F : Fact} (hF : F.overwritten = true) :
    b.bundle.Tells n F ↔
      LastSays (Says E · n F) (Silent E · n F.slot) ast.commands ∨
      ((∀ c ∈ ast.commands, Silent E c n F.slot) ∧ ∃ B, base = some B ∧ B.Tells n F) := by
  obtain ⟨m, box, h1, h2, h3, rfl⟩ := base_state h hB
  refine (C17_overlay_content_exact E _ box h2 _ h3 n F).trans ?_
  refine Iff.trans (last_decides' (P := fun b => b.Holds n F) (fun b c b' hD ha => holds_step hD ha n hF) h1 hD) ?_
  refine or_congr Iff.rfl (and_congr_right fun _ => (base_holds hB).trans ?_)
  have : ∀ i f, F ≠ .framing i f := by rintro i f rfl; cases hF
  simp only [loads_states this]
  exact Iff.rfl

/-- **C68** Units and entry codes: the first command to speak of it after the attribute's last removal, when the base has none either. -/
theorem C68_first {E : Env} {Os : Nat → Order} {base : Option Bundle} {ast : OCAAst} {b : Build} (h : fromAst E Os base ast = .ok b)
    (hD : ∀ c ∈ ast.commands, c.Distinct) (hB : ∀ B, base = some B → B.WellMade) (n : Str) {F : Fact} (hF : F.first = true) :
    b.bundle.Tells n F ↔
      (∃ pre c post, ast.commands = pre ++ c :: post ∧ Says E c n F ∧ (∀ d ∈ post, ¬ RemovesAttr d n) ∧
        (LastSays (RemovesAttr · n) (Mute E · n F.slot) pre ∨
          ((∀ d ∈ pre, Mute E d n F.slot) ∧ ∀ B, base = some B → ∀ G : Fact, G.slot = F.slot → ¬ B.Tells n G))) ∨
      ((∀ c ∈ ast.commands, ¬ RemovesAttr c n) ∧ ∃ B, base = some B ∧ B.Tells n F) := by
  obtain ⟨m, box, h1, h2, h3, hm⟩ := base_state h hB
  refine (C17_overlay_content_exact E _ box h2 _ h3 n F).trans ?_
  have hk : ∃ k, F.slot = (k, none) ∧ (k = .unit ∨ k = .entryCode) := by
    cases F with
    | unit s => exact ⟨_, rfl, .inl rfl⟩
    | entryCodes s => exact ⟨_, rfl, .inr rfl⟩
    | _ => cases hF
  obtain ⟨k, hs, hk⟩ := hk
  have hnf : ∀ G : Fact, G.slot = F.slot → ∀ i f, G ≠ .framing i f := by
    rintro G hG i f rfl
    rw [hs] at hG
    rcases hk with rfl | rfl <;> cases hG
  have hbase : ∀ G : Fact, G.slot = F.slot → (m.Holds n G ↔ ∃ B, base = some B ∧ B.Tells n G) := by
    intro G hG
    rw [hm]
    refine (base_holds hB).trans ?_
    simp only [loads_states (hnf G hG)]
    exact Iff.rfl
  refine Iff.trans (last_decides (P := fun b => b.Holds n F) (S := fun x c => Says E c n F ∧ x.Lacks n F.slot) (Q := fun c => ¬ RemovesAttr c n)
    (fun b c b' hD ha => first_step hD ha n hF) h1 hD) ?_
  refine or_congr ?_ (and_congr_right fun _ => hbase F rfl)
  have lacks : ∀ pre x, (∀ c ∈ pre, c.Distinct) → Took E m pre x → (x.Lacks n F.slot ↔ LastSays (RemovesAttr · n) (Mute E · n F.slot) pre ∨
          ((∀ d ∈ pre, Mute E d n F.slot) ∧ ∀ B, base = some B → ∀ G : Fact, G.slot = F.slot → ¬ B.Tells n G)) := by
    intro pre x hpre ht
    rw [hs]
    refine Iff.trans (last_decides' (P := fun b => b.Lacks n (k, none)) (fun b c b' hD ha => lacks_step hD ha n hk) ht hpre) ?_
    refine or_congr Iff.rfl (and_congr_right fun _ => ?_)
    constructor
    · intro hl B e G hG hT
      exact hl G hG ((hbase G (hG.trans hs.symm)).2 ⟨B, e, hT⟩)
    · intro hl G hG hH
      obtain ⟨B, e, hT⟩ := (hbase G (hG.trans hs.symm)).1 hH
      exact hl B e G hG hT
  constructor
  · rintro ⟨pre, c, post, x, e, ht, ⟨h4, h5⟩, h6⟩
    exact ⟨pre, c, post, e, h4, h6, (lacks pre x (fun d hd => hD d (by rw [e]; exact List.mem_append_left _ hd)) ht).1 h5⟩
  · rintro ⟨pre, c, post, e, h4, h6, h5⟩
    have split : ∀ (l l' : List Command) (m : OCABox), Took E m (l ++ l') box → ∃ x, Took E m l x := by
      intro l
      induction l with
      | nil => intro l' m _; exact ⟨m, .nil m⟩
      | cons y l ih =>
        intro l' m ht
        cases ht with
        | cons hx ht => obtain ⟨x, hx'⟩ := ih l' _ ht; exact ⟨x, .cons hx hx'⟩
    rw [e] at h1
    obtain ⟨x, ht⟩ := split pre _ m h1
    exact ⟨pre, c, post, x, e, ht, ⟨h4, (lacks pre x (fun d hd => hD d (by rw [e]; exact List.mem_append_left _ hd)) ht).2 h5⟩, h6⟩

/-- **C68** Frames, scope by scope: what the last command to give the scope says; as in the base if no command gives it or removes the attribute. -/
theorem C68_scopes {E : Env} {Os : Nat → Order} {base : Option Bundle} {ast : OCAAst} {b : Build} (h : fromAst E Os base ast = .ok b)
    (hD : ∀ c ∈ ast.commands, c.Distinct) (hB : ∀ B, base = some B → B.WellMade) (n id sc : Str) (v : Scope) :
    b.bundle.HasScope n id sc v ↔
      LastSays (SaysScope · n id sc v) (fun c => ¬ RemovesAttr c n ∧ ∀ w, ¬ SaysScope c n id sc w) ast.commands ∨
      ((∀ c ∈ ast.commands, ¬ RemovesAttr c n ∧ ∀ w, ¬ SaysScope c n id sc w) ∧ ∃ B, base = some B ∧ B.GivesScope n id sc v) := by
  obtain ⟨m, box, h1, h2, h3, rfl⟩ := base_state h hB
  have e1 : b.bundle.HasScope n id sc v ↔ box.HoldsScope n id sc v :=
    exists_congr fun fr => and_congr_left fun _ => C17_overlay_content_exact E _ box h2 _ h3 n (.framing id fr)
  refine e1.trans ?_
  refine Iff.trans (last_decides' (P := fun b => b.HoldsScope n id sc v) (fun b c b' hD ha => scope_step hD ha n id sc v) h1 hD) ?_
  refine or_congr Iff.rfl (and_congr_right fun _ => ?_)
  unfold OCABox.HoldsScope
  simp only [base_holds hB]
  constructor
  · rintro ⟨fr, ⟨B, e, o, ho, md, x, fr0, h4, h5, h6, rfl⟩, h7⟩
    unfold remeta at h7
    rw [FMap.get_filterMap] at h7
    obtain ⟨s, h8, h9⟩ := Option.bind_eq_some_iff.1 h7
    cases h9
    exact ⟨B, e, o, ho, md, x, fr0, s, h4, h5, h6, h8, rfl⟩
  · rintro ⟨B, e, o, ho, md, x, fr0, s, h4, h5, h6, h8, rfl⟩
    refine ⟨remeta md fr0, ⟨B, e, o, ho, md, x, fr0, h4, h5, h6, rfl⟩, ?_⟩
    unfold remeta
    rw [FMap.get_filterMap, h8]; rfl

/-- **C68** Meta, pair by pair. -/
theorem C68_meta {E : Env} {Os : Nat → Order} {base : Option Bundle} {ast : OCAAst} {b : Build} (h : fromAst E Os base ast = .ok b)
    (hD : ∀ c ∈ ast.commands, c.Distinct) (hB : ∀ B, base = some B → B.WellMade) (l : Lang) (k v : Str) :
    b.bundle.HasMeta l k v ↔
      LastSays (SaysMeta E · l k v) (fun c => ∀ w, ¬ SaysMeta E c l k w) ast.commands ∨
      ((∀ c ∈ ast.commands, ∀ w, ¬ SaysMeta E c l k w) ∧ ∃ B, base = some B ∧ B.HasMeta l k v) := by
  obtain ⟨m, box, h1, h2, h3, rfl⟩ := base_state h hB
  have e1 : b.bundle.HasMeta l k v ↔ box.HasMeta l k v := by
    have hx := (C17_no_empty_overlay E _ box h2 _ h3).2.1
    unfold OCABox.HasMeta
    constructor
    · rintro ⟨o, ho, ps, e, hp⟩
      obtain ⟨mm, h5, h6⟩ := (hx l ps).1 ⟨o, ho, e⟩
      simp [h5, h6, hp]
    · intro hh
      obtain ⟨ps, h5, h6⟩ := Option.bind_eq_some_iff.1 hh
      obtain ⟨mm, h7, h8⟩ := Option.bind_eq_some_iff.1 h5
      obtain ⟨o, ho, e⟩ := (hx l ps).2 ⟨mm, h7, h8⟩
      exact ⟨o, ho, ps, e, h6⟩
  refine e1.trans ?_
  refine Iff.trans (last_decides' (P := fun b => b.HasMeta l k v) (fun b c b' hD ha => meta_step hD ha l k v) h1 hD) ?_
  refine or_congr Iff.rfl (and_congr_right fun _ => ?_)
  cases base with
  | none => simp [OCABox.HasMeta, baseBox, OCABox.new]
  | some B =>
    simp only [Option.some.injEq, exists_eq_left']
    have hx : ∀ ps, optGet (shownBox E B).metaMap l = some ps ↔ ∃ o ∈ B.overlays, o.body = .metaOv l ps := by
      intro ps
      show optGet ((B.overlays.map Overlay.body).foldl metaStepOf none) l = some ps ↔ _
      rw [optGet_metas _ _ _ _ ?_ rfl ?_]
      · rw [List.mem_map]
      · have := (hB B rfl).single
        rw [List.map_map]; exact this
      · intro l ps hm
        obtain ⟨o, ho, e⟩ := List.mem_map.1 hm
        exact (hB B rfl).metas o ho l ps e
    unfold OCABox.HasMeta
    constructor
    · intro hh
      obtain ⟨ps, h5, h6⟩ := Option.bind_eq_some_iff.1 hh
      obtain ⟨o, ho, e⟩ := (hx ps).1 h5
      exact ⟨o, ho, ps, e, h6⟩
    · rintro ⟨o, ho, ps, e, hp⟩
      have := (hx ps).2 ⟨o, ho, e⟩
      exact Option.bind_eq_some_iff.2 ⟨ps, this, hp⟩

/-- **C68** The classification. -/
theorem C68_classification {E : Env} {Os : Nat → Order} {base : Option Bundle} {ast : OCAAst} {b : Build} (h : fromAst E Os base ast = .ok b)
    (hB : ∀ B, base = some B → B.WellMade) :
    b.bundle.captureBase.classification =
      ((lastClass ast.commands).getD (base.map fun B => B.captureBase.classification)).getD [] := by
  obtain ⟨m, box, h1, h2, h3, rfl⟩ := base_state h hB
  rw [(C14_capture_base_exact E _ box _ h3).2.2.1]
  have key : ∀ (cs : List Command) (m : OCABox), Took E m cs box → finalState E (some m) cs = some box := by
    intro cs
    induction cs with
    | nil => intro m ht; cases ht; rfl
    | cons c cs ih =>
      intro m ht
      cases ht with
      | cons ha ht => simp only [finalState, ha, afterResult]; exact ih _ ht
  obtain ⟨b', h4, h5⟩ := C26_last_writer_wins E (baseBox E base) ast.commands
  rw [key _ _ h1] at h4
  cases h4
  rw [h5]
  cases base <;> rfl

end OCA
