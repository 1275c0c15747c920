import Verif.Props.LayersFile
/-!
# C91: the identifier of a bundle is its content

Whatever two builds did to get there - other commands, another order, a chain of `FROM`, another walk over hash maps - if the bundles tell the same, they
have the same identifier, the same overlays with the same identifiers, and the same JSON; and if they have the same identifier, they tell the same.
-/
namespace OCA

/-- Two bundles tell the same: the same attributes with the same types, the same classification, the same flags, the same facts about each attribute
(labels, units, entry codes, conditions ..), and the same properties of the model in each language. -/
structure TellSame (B B' : Bundle) : Prop where
  types : ∀ n, B.captureBase.attributes.get n = B'.captureBase.attributes.get n
  cls : B.captureBase.classification = B'.captureBase.classification
  flags : ∀ n, n ∈ B.captureBase.flagged ↔ n ∈ B'.captureBase.flagged
  facts : ∀ n F, B.Tells n F ↔ B'.Tells n F
  metas : ∀ l ps, (∃ o ∈ B.overlays, o.body = .metaOv l ps) ↔ ∃ o ∈ B'.overlays, o.body = .metaOv l ps

/-- **C91** Two build states, reached in any way, whose bundles tell the same: the capture bases and the overlays are the same, down to their identifiers
(the overlays perhaps in another order), and the bundles have the same identifier and the same JSON - or one bundle holds two different overlays with the same identifier.
(The frames of one of them must each be described in one way, as in C19.) -/
theorem C91_same_content {ε : Type} (E : Env) (O O' : Order) (box box' : OCABox) (hr : Reachable E box) (hr' : Reachable E box') (hc : FrameConsistent box)
    (B B' : Bundle) (h : (generateBundle E O box : Res ε _) = .ok B) (h' : (generateBundle E O' box' : Res ε _) = .ok B') (hT : TellSame B B') :
    B.captureBase.said = B'.captureBase.said ∧ B.overlays.Perm B'.overlays ∧
    ((B.said = B'.said ∧ B.toJson E = B'.toJson E) ∨ ∃ o ∈ B.overlays, ∃ o' ∈ B.overlays, o ≠ o' ∧ o.said = o'.said) := by
  obtain ⟨hb, hbj⟩ := C90_capture_base E O O' box box' B B' h h' hT.types hT.cls hT.flags
  have hmem : ∀ o, o ∈ B.overlays ↔ o ∈ B'.overlays := by
    intro o
    by_cases hS : o.body.slot.1 = .metaOv
    · obtain ⟨l, ps, e⟩ : ∃ l ps, o.body = .metaOv l ps := by
        revert hS
        cases o.body <;> intro hS <;> first | exact ⟨_, _, rfl⟩ | cases hS
      constructor
      · intro ho
        obtain ⟨o', ho', e'⟩ := (hT.metas l ps).1 ⟨o, ho, e⟩
        rw [C90_meta E O O' box box' B B' h h' hb o o' ho ho' (e.trans e'.symm)]
        exact ho'
      · intro ho'
        obtain ⟨o', ho, e'⟩ := (hT.metas l ps).2 ⟨o, ho', e⟩
        rw [← C90_meta E O O' box box' B B' h h' hb o' o ho ho' (e'.trans e.symm)]
        exact ho
    · exact C90_overlay E O O' box box' hr hr' B B' h h' hb o.body.slot hS (fun _ => hc) (fun n F _ => hT.facts n F) o rfl
  have nd : ∀ {l : List Overlay}, (l.map fun o => o.body.slot).Nodup → l.Nodup := fun h => (List.pairwise_map.1 h).imp fun h e => h (by rw [e])
  have hperm : B.overlays.Perm B'.overlays :=
    perm_of_nodup (nd (C16_one_overlay_per_slot E O box hr B h)) (nd (C16_one_overlay_per_slot E O' box' hr' B' h')) hmem
  refine ⟨hb, hperm, ?_⟩
  by_cases hx : ∃ o ∈ B.overlays, ∃ o' ∈ B.overlays, o ≠ o' ∧ o.said = o'.said
  · exact .inr hx
  · left
    have hsing := singlesOnce_of_slots (C16_one_overlay_per_slot E O box hr B h)
    obtain ⟨-, rfl⟩ := generateBundle_eq_ok h
    obtain ⟨-, rfl⟩ := generateBundle_eq_ok h'
    have hsep : SaidsSeparate (bundleOf E O box).overlays := by
      refine ⟨overlays_signed E O box, ?_⟩
      intro o ho o' ho' e
      by_cases he : o = o'
      · exact he
      · exact absurd ⟨o, ho, o', ho', he, e⟩ hx
    have hov := overlaysJson_perm hperm hsep hsing
    have key : ∀ d, (bundleOf E O box).fieldsWith d = (bundleOf E O' box').fieldsWith d := by
      intro d
      unfold Bundle.fieldsWith
      rw [hov, hbj]
    have hsaid : (bundleOf E O box).said = (bundleOf E O' box').said := by
      show some (E.digest (versioned E ((bundleOf E O box).fieldsWith (.str placeholder)))) =
        some (E.digest (versioned E ((bundleOf E O' box').fieldsWith (.str placeholder))))
      rw [key]
    refine ⟨hsaid, ?_⟩
    unfold Bundle.toJson
    rw [hsaid, key]

/-- **C91** The other way: if two build states, reached in any way, give bundles with the same identifier, the bundles have the same JSON and tell the same (the
facts up to their text: see `Fact.SameText`) - or these two bundles are a collision of the digest. -/
theorem C91_same_identifier {ε : Type} (E : Env) (O O' : Order) (box box' : OCABox) (hr : Reachable E box) (hr' : Reachable E box')
    (B B' : Bundle) (h : (generateBundle E O box : Res ε _) = .ok B) (h' : (generateBundle E O' box' : Res ε _) = .ok B') (hs : B.said = B'.said) :
    (B.toJson E = B'.toJson E ∧ B.captureBase.attributes = B'.captureBase.attributes ∧ B.captureBase.classification = B'.captureBase.classification ∧
      (∀ n, n ∈ B.captureBase.flagged ↔ n ∈ B'.captureBase.flagged) ∧
      (∀ n F, B.Tells n F → ∃ F', Fact.SameText F F' ∧ B'.Tells n F') ∧
      (∀ l ps, (∃ o ∈ B.overlays, o.body = .metaOv l ps) ↔ ∃ o ∈ B'.overlays, o.body = .metaOv l ps)) ∨
    (B.digestInput E ≠ B'.digestInput E ∧ E.digest (B.digestInput E) = E.digest (B'.digestInput E)) := by
  obtain ⟨v, -⟩ := C21_generated_singles E O box hr B h
  obtain ⟨v', -⟩ := C21_generated_singles E O' box' hr' B' h'
  have s := C21_generated_shown E O box hr B h
  have s' := C21_generated_shown E O' box' hr' B' h'
  rcases C21_same_said_same_json E B B' v v' hs with hj | hx
  · rcases C21_tampering_detected E B B' v v' hs with ⟨a1, a2, a3, -, a5, a6⟩ | hx
    · rcases C21_tampering_detected E B' B v' v hs.symm with ⟨-, -, -, -, c5, -⟩ | hx
      · refine .inl ⟨hj, a1, a2, fun n => a3.mem_iff, ?_, ?_⟩
        · rintro n F ⟨o, ho, hF⟩
          obtain ⟨F', t1, o', ho', hF'⟩ := a6 n F ⟨o, s o ho, hF⟩
          exact ⟨F', t1, o', ho'.mem, hF'⟩
        · intro l ps
          constructor
          · rintro ⟨o, ho, e⟩
            obtain ⟨o', ho', e'⟩ := a5 l ps ⟨o, s o ho, e⟩
            exact ⟨o', ho'.mem, e'⟩
          · rintro ⟨o, ho, e⟩
            obtain ⟨o', ho', e'⟩ := c5 l ps ⟨o, s' o ho, e⟩
            exact ⟨o', ho'.mem, e'⟩
      · exact .inr ⟨hx.1.symm, hx.2.symm⟩
    · exact .inr hx
  · exact .inr hx

/-- **C91** For files: two files, each with its own order of hash maps, that are built without error and whose bundles tell the same have the same bundle but for the order
of the overlays. -/
theorem C91_files (E : Env) (Os Os' : Nat → Order) (ast ast' : OCAAst) (r r' : Build) (h : fromAst E Os none ast = .ok r) (h' : fromAst E Os' none ast' = .ok r')
    (hf : SameFrameMeta ast.commands) (hT : TellSame r.bundle r'.bundle) :
    r.bundle.captureBase.said = r'.bundle.captureBase.said ∧ r.bundle.overlays.Perm r'.bundle.overlays ∧
    ((r.bundle.said = r'.bundle.said ∧ r.bundle.toJson E = r'.bundle.toJson E) ∨
      ∃ o ∈ r.bundle.overlays, ∃ o' ∈ r.bundle.overlays, o ≠ o' ∧ o.said = o'.said) := by
  obtain ⟨box, -, h2, h3, h4⟩ := built_run h
  obtain ⟨box', -, g2, g3, -⟩ := built_run h'
  exact C91_same_content E _ _ box box' h2 g2 (h4 hf) r.bundle r'.bundle h3 g3 hT

/-- **C91** The same for bundles that were built one on top of another with `FROM`, in any number of steps. -/
theorem C91_chains (E : Env) (cs cs' : List Command) (ss ss' : List BuildStep) (B B' : Bundle) (hB : Chain E cs ss B) (hB' : Chain E cs' ss' B')
    (hf : SameFrameMeta cs) (hf' : SameFrameMeta cs') (hT : TellSame B B') :
    B.captureBase.said = B'.captureBase.said ∧ B.overlays.Perm B'.overlays ∧
    ((B.said = B'.said ∧ B.toJson E = B'.toJson E) ∨ ∃ o ∈ B.overlays, ∃ o' ∈ B.overlays, o ≠ o' ∧ o.said = o'.said) := by
  obtain ⟨Os, r, e, rfl, -⟩ := C58_chain E cs ss B hB hf { OCAAst.new with commands := cs } rfl
  obtain ⟨Os', r', e', rfl, -⟩ := C58_chain E cs' ss' B' hB' hf' { OCAAst.new with commands := cs' } rfl
  exact C91_files E Os Os' _ _ r r' e e' hf hT

/-! ## A case -/

/-- the demo build by another way: attributes, overlays and languages in another order, a wrong label that is replaced, an attribute that is taken out again -/
def detourCommands : List Command :=
  [addAttrs [(c!"tags", .arr (.val .text)), (c!"x", .val .text), (c!"name", .val .text)],
   addOv .label [(c!"lang", .val c!"fr")] [(c!"name", .val c!"Nom"), (c!"x", .val c!"X")],
   addAttrs [(c!"age", .val .numeric)],
   addOv .label [(c!"lang", .val c!"en")] [(c!"name", .val c!"Nmae"), (c!"age", .val c!"Age")]] ++
  (demoCommands.drop 5).reverse ++
  [removeAttrs [c!"x"],
   addOv .metaOv [(c!"lang", .val c!"en"), (c!"name", .val c!"Person")] [],
   addOv .label [(c!"lang", .val c!"en")] [(c!"name", .val c!"Name")],
   addClass c!"GICS:35102020"]

/-- the bundles of two builds hold the same, their overlays in any order -/
def samePartsB : Res (List BuildErr) Build → Res (List BuildErr) Build → Bool
  | .ok r, .ok r' => decide (r.bundle.captureBase.attributes.l = r'.bundle.captureBase.attributes.l) &&
      decide (r.bundle.captureBase.classification = r'.bundle.captureBase.classification) &&
      r.bundle.captureBase.flagged.isPerm r'.bundle.captureBase.flagged && r.bundle.overlays.isPerm r'.bundle.overlays
  | _, _ => false

theorem samePartsB_sound {x y : Res (List BuildErr) Build} (h : samePartsB x y = true) :
    ∃ r r', x = .ok r ∧ y = .ok r' ∧ TellSame r.bundle r'.bundle := by
  cases x <;> cases y <;> simp only [samePartsB, Bool.false_eq_true] at h
  next r r' =>
    simp only [Bool.and_eq_true, decide_eq_true_eq, List.isPerm_iff] at h
    obtain ⟨⟨⟨h1, h2⟩, h3⟩, h4⟩ := h
    refine ⟨r, r', rfl, rfl, ⟨fun n => congrArg (FMap.lget n) h1, h2, fun n => h3.mem_iff, fun n F => ?_, fun l ps => ?_⟩⟩
    · exact ⟨fun ⟨o, ho, hs⟩ => ⟨o, h4.mem_iff.1 ho, hs⟩, fun ⟨o, ho, hs⟩ => ⟨o, h4.mem_iff.2 ho, hs⟩⟩
    · exact ⟨fun ⟨o, ho, hs⟩ => ⟨o, h4.mem_iff.1 ho, hs⟩, fun ⟨o, ho, hs⟩ => ⟨o, h4.mem_iff.2 ho, hs⟩⟩

set_option maxRecDepth 20000 in
theorem detour_parts : samePartsB (fromAst Env.short (fun _ => Order.sorted) none (astOf demoCommands))
    (fromAst Env.short (fun _ => Order.reversed) none (astOf detourCommands)) = true := by decide +kernel

/-- **C91** is not vacuous: two files that tell the same in different ways, built with different orders of hash maps, -/
theorem C91_example : ∃ r r', fromAst Env.short (fun _ => Order.sorted) none (astOf demoCommands) = .ok r ∧
    fromAst Env.short (fun _ => Order.reversed) none (astOf detourCommands) = .ok r' ∧ SameFrameMeta demoCommands ∧ TellSame r.bundle r'.bundle := by
  obtain ⟨r, r', h1, h2, h3⟩ := samePartsB_sound detour_parts
  exact ⟨r, r', h1, h2, sameFrameMetaB_sound (by decide +kernel), h3⟩

set_option maxRecDepth 20000 in
/-- and whose overlays come out in different orders -/
theorem C91_example_orders : (layersOf (fromAst Env.short (fun _ => Order.sorted) none (astOf demoCommands))).map (·.1) ≠
    (layersOf (fromAst Env.short (fun _ => Order.reversed) none (astOf detourCommands))).map (·.1) := by decide +kernel

end OCA
