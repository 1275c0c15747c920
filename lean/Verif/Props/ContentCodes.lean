import Verif.Props.Content
/-!
# C91: the order of a list of entry codes
-/
namespace OCA

/-- Two facts that differ at most in the order of a list of entry codes. -/
def CodesAlike (F F' : Fact) : Prop :=
  F = F' ∨ ∃ l l' : List Str, F = .entryCodes (.array l) ∧ F' = .entryCodes (.array l') ∧ l.Perm l'

theorem CodesAlike.symm {F F' : Fact} (h : CodesAlike F F') : CodesAlike F' F := by
  rcases h with rfl | ⟨l, l', rfl, rfl, h⟩
  · exact .inl rfl
  · exact .inr ⟨l', l, rfl, rfl, h.symm⟩

/-- Two bundles tell the same up to the order of lists of entry codes. -/
structure TellAlike (B B' : Bundle) : Prop where
  types : ∀ n, B.captureBase.attributes.get n = B'.captureBase.attributes.get n
  cls : B.captureBase.classification = B'.captureBase.classification
  flags : ∀ n, n ∈ B.captureBase.flagged ↔ n ∈ B'.captureBase.flagged
  facts : ∀ n F, B.Tells n F → ∃ F', CodesAlike F F' ∧ B'.Tells n F'
  back : ∀ n F, B'.Tells n F → ∃ F', CodesAlike F F' ∧ B.Tells n F'
  metas : ∀ l ps, (∃ o ∈ B.overlays, o.body = .metaOv l ps) ↔ ∃ o ∈ B'.overlays, o.body = .metaOv l ps

theorem TellAlike.symm {B B' : Bundle} (h : TellAlike B B') : TellAlike B' B :=
  ⟨fun n => (h.types n).symm, h.cls.symm, fun n => (h.flags n).symm, h.back, h.facts, fun l ps => (h.metas l ps).symm⟩

theorem CodesAlike.tidy {e : EntryCodes} {F' : Fact} (h : CodesAlike (.entryCodes e) F') : ∃ e', F' = .entryCodes e' ∧ e.tidy = e'.tidy := by
  rcases h with rfl | ⟨l, l', h1, rfl, hp⟩
  · exact ⟨e, rfl, rfl⟩
  · cases h1
    refine ⟨_, rfl, ?_⟩
    show EntryCodes.array (sortStr l) = EntryCodes.array (sortStr l')
    rw [sortStr_perm hp]

theorem slot_entryCode {b : OvBody} (h : b.kind = .entryCode) : ∃ m, b = .entryCode m := by
  cases b <;> first | exact ⟨_, rfl⟩ | cases h

theorem TellAlike.exact {B B' : Bundle} (hT : TellAlike B B') {S : OvKind × Option Str} (hS : S.1 ≠ .entryCode) (n : Str) (F : Fact) (hF : F.slot = S) :
    B.Tells n F ↔ B'.Tells n F := by
  have one : ∀ {B B' : Bundle}, TellAlike B B' → B.Tells n F → B'.Tells n F := by
    intro B B' hT h
    obtain ⟨F', h1, h2⟩ := hT.facts n F h
    rcases h1 with rfl | ⟨l, l', rfl, -, -⟩
    · exact h2
    · rw [← hF] at hS; exact absurd rfl hS
  exact ⟨one hT, one hT.symm⟩

theorem same_slot {ε : Type} {E : Env} {O : Order} {box : OCABox} {B : Bundle} (hr : Reachable E box) (h : (generateBundle E O box : Res ε _) = .ok B)
    {o o' : Overlay} (ho : o ∈ B.overlays) (ho' : o' ∈ B.overlays) (e : o.body.slot = o'.body.slot) : o = o' := by
  have h := C16_one_overlay_per_slot E O box hr B h
  generalize B.overlays = l at h ho ho'
  induction l with
  | nil => cases ho
  | cons x t ih =>
    rw [List.map_cons, List.nodup_cons] at h
    rcases List.mem_cons.1 ho with rfl | ho1
    · rcases List.mem_cons.1 ho' with rfl | ho'
      · rfl
      · exact absurd (List.mem_map.2 ⟨o', ho', e.symm⟩) h.1
    · rcases List.mem_cons.1 ho' with rfl | ho2
      · exact absurd (List.mem_map.2 ⟨o, ho1, e⟩) h.1
      · exact ih h.2 ho1 ho2

theorem codes_alike {ε : Type} {E : Env} {O O' : Order} {box box' : OCABox} (hr : Reachable E box) (hr' : Reachable E box') {B B' : Bundle}
    (h : (generateBundle E O box : Res ε _) = .ok B) (h' : (generateBundle E O' box' : Res ε _) = .ok B')
    (hb : B.captureBase.said = B'.captureBase.said) (hT : TellAlike B B') {o : Overlay} (ho : o ∈ B.overlays) (hk : o.body.kind = .entryCode) :
    ∃ o' ∈ B'.overlays, o'.tidy = o.tidy := by
  obtain ⟨m, hm⟩ := slot_entryCode hk
  -- the other bundle has codes, too
  obtain ⟨n, F, hst⟩ : ∃ n F, o.body.States n F := by
    rcases (C17_no_empty_overlay E O box hr B h).1 o ho with h1 | ⟨l, ps, e⟩
    · exact h1
    · rw [e] at hk; cases hk
  have hF : ∃ e, F = .entryCodes e := by
    rw [hm] at hst
    cases F <;> simp only [OvBody.States, reduceCtorEq, false_and, exists_false] at hst
    exact ⟨_, rfl⟩
  obtain ⟨e, rfl⟩ := hF
  obtain ⟨F', h1, o', ho', hst'⟩ := hT.facts n _ ⟨o, ho, hst⟩
  obtain ⟨e', rfl, -⟩ := h1.tidy
  obtain ⟨m', hm', -⟩ := hst'
  refine ⟨o', ho', ?_⟩
  -- what one holds the other holds
  have one : ∀ {O O' : Order} {box box' : OCABox} {B B' : Bundle} {o o' : Overlay} {m m' : FMap EntryCodes}, Reachable E box' →
      (generateBundle E O' box' : Res ε _) = .ok B' → TellAlike B B' → o ∈ B.overlays → o' ∈ B'.overlays → o.body = .entryCode m → o'.body = .entryCode m' →
      ∀ n e, m.get n = some e → (m'.get n).map EntryCodes.tidy = some e.tidy := by
    intro O O' box box' B B' o o' m m' hr' h' hT ho ho' hm hm' n e hg
    obtain ⟨F', h1, o2, ho2, hst⟩ := hT.facts n (.entryCodes e) ⟨o, ho, m, hm, hg⟩
    obtain ⟨e', rfl, he⟩ := h1.tidy
    obtain ⟨m2, hm2, hg2⟩ := hst
    have : o2 = o' := same_slot hr' h' ho2 ho' (by rw [hm2, hm']; rfl)
    subst this
    rw [hm'] at hm2
    cases hm2
    rw [hg2, he]; rfl
  have hmm : (m'.filterMap fun _ e => some e.tidy) = m.filterMap fun _ e => some e.tidy := by
    ext n : 1
    rw [FMap.get_filterMap, FMap.get_filterMap]
    cases e1 : m.get n with
    | some e =>
      have := one (O := O) (box := box) hr' h' hT ho ho' hm hm' n e e1
      cases e2 : m'.get n with
      | none => rw [e2] at this; cases this
      | some e' => rw [e2] at this; exact this
    | none =>
      cases e2 : m'.get n with
      | none => rfl
      | some e' =>
        have := one (O := O') (box := box') hr h hT.symm ho' ho hm' hm n e' e2
        rw [e1] at this; cases this
  have ht : o'.body.tidy = o.body.tidy := by
    rw [hm, hm']
    exact congrArg OvBody.entryCode hmm
  obtain ⟨-, rfl⟩ := generateBundle_eq_ok h
  obtain ⟨-, rfl⟩ := generateBundle_eq_ok h'
  have e0 : E.digest (baseOfBox O box).digestInput = E.digest (baseOfBox O' box').digestInput := Option.some.inj hb
  rw [(mem_overlays ho).2, (mem_overlays ho').2, tidy_sign, tidy_sign, ht, e0]

/-- **C91** The order of a list of entry codes is no part of the content: bundles of any two states that tell the same but for it have overlays with the same JSON (so
with the same identifiers), the same identifier and the same JSON. -/
theorem C91_codes_order {ε : Type} (E : Env) (O O' : Order) (box box' : OCABox) (hr : Reachable E box) (hr' : Reachable E box') (hc : FrameConsistent box)
    (B B' : Bundle) (h : (generateBundle E O box : Res ε _) = .ok B) (h' : (generateBundle E O' box' : Res ε _) = .ok B') (hT : TellAlike B B') :
    B.captureBase.said = B'.captureBase.said ∧ (B.overlays.map Overlay.toJson).Perm (B'.overlays.map Overlay.toJson) ∧
    ((B.said = B'.said ∧ B.toJson E = B'.toJson E) ∨ ∃ o ∈ B.overlays, ∃ o' ∈ B.overlays, o ≠ o' ∧ o.said = o'.said) := by
  obtain ⟨hb, hbj⟩ := C90_capture_base E O O' box box' B B' h h' hT.types hT.cls hT.flags
  have hother : ∀ o, o.body.kind ≠ .entryCode → (o ∈ B.overlays ↔ o ∈ B'.overlays) := by
    intro o hk
    have hsk : o.body.slot.1 = o.body.kind := by cases o.body <;> rfl
    by_cases hS : o.body.slot.1 = .metaOv
    · obtain ⟨l, ps, e⟩ : ∃ l ps, o.body = .metaOv l ps := by
        revert hS
        cases o.body <;> intro hS <;> first | exact ⟨_, _, rfl⟩ | cases hS
      constructor
      · intro ho
        obtain ⟨o', ho', e'⟩ := (hT.metas l ps).1 ⟨o, ho, e⟩
        rw [C90_meta E O O' box box' B B' h h' hb o o' ho ho' (e.trans e'.symm)]
        exact ho'
      · intro ho'
        obtain ⟨o', ho, e'⟩ := (hT.metas l ps).2 ⟨o, ho', e⟩
        rw [← C90_meta E O O' box box' B B' h h' hb o' o ho ho' (e'.trans e.symm)]
        exact ho
    · exact C90_overlay E O O' box box' hr hr' B B' h h' hb o.body.slot hS (fun _ => hc)
        (fun n F hF => hT.exact (S := o.body.slot) (by rw [hsk]; exact hk) n F hF) o rfl
  have hmem : ∀ x, x ∈ B.overlays.map Overlay.tidy ↔ x ∈ B'.overlays.map Overlay.tidy := by
    intro x
    constructor
    · intro hx
      obtain ⟨o, ho, rfl⟩ := List.mem_map.1 hx
      by_cases hk : o.body.kind = .entryCode
      · obtain ⟨o', ho', e⟩ := codes_alike hr hr' h h' hb hT ho hk
        exact List.mem_map.2 ⟨o', ho', e⟩
      · exact List.mem_map.2 ⟨o, (hother o hk).1 ho, rfl⟩
    · intro hx
      obtain ⟨o, ho, rfl⟩ := List.mem_map.1 hx
      by_cases hk : o.body.kind = .entryCode
      · obtain ⟨o', ho', e⟩ := codes_alike hr' hr h' h hb.symm hT.symm ho hk
        exact List.mem_map.2 ⟨o', ho', e⟩
      · exact List.mem_map.2 ⟨o, (hother o hk).2 ho, rfl⟩
  have slots : ∀ l : List Overlay, ((l.map Overlay.tidy).map fun o => o.body.slot) = l.map fun o => o.body.slot := by
    intro l
    rw [List.map_map]
    exact List.map_congr_left fun o _ => slot_tidy o.body
  have nd : ∀ {l : List Overlay}, (l.map fun o => o.body.slot).Nodup → (l.map Overlay.tidy).Nodup := by
    intro l hl
    rw [← slots] at hl
    exact (List.pairwise_map.1 hl).imp fun h e => h (by rw [e])
  have hs1 := C16_one_overlay_per_slot E O box hr B h
  have hperm : (B.overlays.map Overlay.tidy).Perm (B'.overlays.map Overlay.tidy) :=
    perm_of_nodup (nd hs1) (nd (C16_one_overlay_per_slot E O' box' hr' B' h')) hmem
  have jt : ∀ l : List Overlay, (l.map Overlay.tidy).map Overlay.toJson = l.map Overlay.toJson := by
    intro l
    rw [List.map_map]
    exact List.map_congr_left fun o _ => toJson_tidy o
  refine ⟨hb, by have := hperm.map Overlay.toJson; rwa [jt, jt] at this, ?_⟩
  by_cases hx : ∃ o ∈ B.overlays, ∃ o' ∈ B.overlays, o ≠ o' ∧ o.said = o'.said
  · exact .inr hx
  · left
    have hsing : SinglesOnce (B.overlays.map Overlay.tidy) := singlesOnce_of_slots (by rw [slots]; exact hs1)
    have hsep : SaidsSeparate (B.overlays.map Overlay.tidy) := by
      constructor
      · intro o ho
        obtain ⟨o0, h0, rfl⟩ := List.mem_map.mp ho
        obtain ⟨-, rfl⟩ := generateBundle_eq_ok h
        exact overlays_signed E O box o0 h0
      · intro o ho o' ho' e
        obtain ⟨o0, h0, rfl⟩ := List.mem_map.mp ho
        obtain ⟨o1, h1, rfl⟩ := List.mem_map.mp ho'
        by_cases he : o0 = o1
        · rw [he]
        · exact absurd ⟨o0, h0, o1, h1, he, e⟩ hx
    have tj : ∀ l : List Overlay, overlaysJson (l.map Overlay.tidy) = overlaysJson l := fun l =>
      overlaysJson_map Overlay.tidy l (fun o => kind_tidy o.body) (fun _ => rfl) (fun o _ => toJson_tidy o)
    have hov : overlaysJson B.overlays = overlaysJson B'.overlays := by
      rw [← tj, ← tj B'.overlays]
      exact overlaysJson_perm hperm hsep hsing
    obtain ⟨-, rfl⟩ := generateBundle_eq_ok h
    obtain ⟨-, rfl⟩ := generateBundle_eq_ok h'
    have key : ∀ d, (bundleOf E O box).fieldsWith d = (bundleOf E O' box').fieldsWith d := by
      intro d
      unfold Bundle.fieldsWith
      rw [hov, hbj]
    have hsaid : (bundleOf E O box).said = (bundleOf E O' box').said := by
      show some (E.digest (versioned E ((bundleOf E O box).fieldsWith (.str placeholder)))) =
        some (E.digest (versioned E ((bundleOf E O' box').fieldsWith (.str placeholder))))
      rw [key]
    refine ⟨hsaid, ?_⟩
    unfold Bundle.toJson
    rw [hsaid, key]

/-- **C91** The same for files: two files whose bundles tell the same but for the order of lists of entry codes. -/
theorem C91_codes_files (E : Env) (Os Os' : Nat → Order) (ast ast' : OCAAst) (r r' : Build) (h : fromAst E Os none ast = .ok r) (h' : fromAst E Os' none ast' = .ok r')
    (hf : SameFrameMeta ast.commands) (hT : TellAlike r.bundle r'.bundle) :
    r.bundle.captureBase.said = r'.bundle.captureBase.said ∧ (r.bundle.overlays.map Overlay.toJson).Perm (r'.bundle.overlays.map Overlay.toJson) ∧
    ((r.bundle.said = r'.bundle.said ∧ r.bundle.toJson E = r'.bundle.toJson E) ∨
      ∃ o ∈ r.bundle.overlays, ∃ o' ∈ r.bundle.overlays, o ≠ o' ∧ o.said = o'.said) := by
  obtain ⟨box, -, h2, h3, h4⟩ := built_run h
  obtain ⟨box', -, g2, g3, -⟩ := built_run h'
  exact C91_codes_order E _ _ box box' h2 g2 (h4 hf) r.bundle r'.bundle h3 g3 hT

/-- **C91** The same for bundles that were built one on top of another with `FROM`. -/
theorem C91_codes_chains (E : Env) (cs cs' : List Command) (ss ss' : List BuildStep) (B B' : Bundle) (hB : Chain E cs ss B) (hB' : Chain E cs' ss' B')
    (hf : SameFrameMeta cs) (hf' : SameFrameMeta cs') (hT : TellAlike B B') :
    B.captureBase.said = B'.captureBase.said ∧ (B.overlays.map Overlay.toJson).Perm (B'.overlays.map Overlay.toJson) ∧
    ((B.said = B'.said ∧ B.toJson E = B'.toJson E) ∨ ∃ o ∈ B.overlays, ∃ o' ∈ B.overlays, o ≠ o' ∧ o.said = o'.said) := by
  obtain ⟨Os, r, e, rfl, -⟩ := C58_chain E cs ss B hB hf { OCAAst.new with commands := cs } rfl
  obtain ⟨Os', r', e', rfl, -⟩ := C58_chain E cs' ss' B' hB' hf' { OCAAst.new with commands := cs' } rfl
  exact C91_codes_files E Os Os' _ _ r r' e e' hf hT

/-! ## A case -/

theorem alike_of_tidy {o o' : Overlay} (h : o.tidy = o'.tidy) {n : Str} {F : Fact} (hs : o.body.States n F) :
    ∃ F', CodesAlike F F' ∧ o'.body.States n F' := by
  have hb : o.body.tidy = o'.body.tidy := congrArg Overlay.body h
  by_cases hk : o.body.kind = .entryCode
  · obtain ⟨m, hm⟩ := slot_entryCode hk
    obtain ⟨m', hm'⟩ := slot_entryCode (b := o'.body) (by rw [← kind_tidy, ← hb, kind_tidy]; exact hk)
    rw [hm, hm'] at hb
    have hmm : (m.filterMap fun _ e => some e.tidy) = m'.filterMap fun _ e => some e.tidy := OvBody.entryCode.inj hb
    rw [hm] at hs
    cases F <;> simp only [OvBody.States, reduceCtorEq, false_and, exists_false] at hs
    rename_i e
    obtain ⟨m2, h1, h2⟩ := hs
    cases h1
    have := congrArg (fun x : FMap EntryCodes => x.get n) hmm
    simp only [FMap.get_filterMap, h2, Option.bind_some] at this
    cases h3 : m'.get n with
    | none => rw [h3] at this; cases this
    | some e' =>
      rw [h3, Option.bind_some, Option.some.injEq] at this
      refine ⟨.entryCodes e', ?_, ⟨m', hm', h3⟩⟩
      cases e <;> cases e' <;> simp only [EntryCodes.tidy, reduceCtorEq] at this
      · exact .inl (by rw [this])
      · rename_i l l'
        refine .inr ⟨l, l', rfl, rfl, ?_⟩
        exact (perm_sortStr l).symm.trans ((EntryCodes.array.inj this) ▸ perm_sortStr l')
      · exact .inl (by rw [this])
  · have hk' : o'.body.kind ≠ .entryCode := by rw [← kind_tidy, ← hb, kind_tidy]; exact hk
    have same : ∀ b : OvBody, b.kind ≠ .entryCode → b.tidy = b := by
      intro b hb
      cases b <;> first | rfl | exact absurd rfl hb
    rw [same _ hk, same _ hk'] at hb
    exact ⟨F, .inl rfl, hb ▸ hs⟩

/-- the bundles of two builds hold the same, their overlays in any order, but for the order of entry codes -/
def alikePartsB : Res (List BuildErr) Build → Res (List BuildErr) Build → Bool
  | .ok r, .ok r' => decide (r.bundle.captureBase.attributes.l = r'.bundle.captureBase.attributes.l) &&
      decide (r.bundle.captureBase.classification = r'.bundle.captureBase.classification) &&
      r.bundle.captureBase.flagged.isPerm r'.bundle.captureBase.flagged &&
      decide (r.bundle.overlays.map Overlay.tidy = r'.bundle.overlays.map Overlay.tidy) && decide (r.bundle.overlays ≠ r'.bundle.overlays)
  | _, _ => false

theorem alikePartsB_sound {x y : Res (List BuildErr) Build} (h : alikePartsB x y = true) :
    ∃ r r', x = .ok r ∧ y = .ok r' ∧ r.bundle.overlays ≠ r'.bundle.overlays ∧ TellAlike r.bundle r'.bundle := by
  cases x <;> cases y <;> simp only [alikePartsB, Bool.false_eq_true] at h
  next r r' =>
    simp only [Bool.and_eq_true, decide_eq_true_eq, List.isPerm_iff] at h
    obtain ⟨⟨⟨⟨h1, h2⟩, h3⟩, h4⟩, h5⟩ := h
    have half : ∀ {l l' : List Overlay}, l.map Overlay.tidy = l'.map Overlay.tidy → ∀ n F, (∃ o ∈ l, o.body.States n F) →
        ∃ F', CodesAlike F F' ∧ ∃ o ∈ l', o.body.States n F' := by
      rintro l l' e n F ⟨o, ho, hs⟩
      have : o.tidy ∈ l'.map Overlay.tidy := e ▸ List.mem_map_of_mem ho
      obtain ⟨o', ho', e'⟩ := List.mem_map.1 this
      obtain ⟨F', h1, h2⟩ := alike_of_tidy e'.symm hs
      exact ⟨F', h1, o', ho', h2⟩
    have metas : ∀ {l l' : List Overlay}, l.map Overlay.tidy = l'.map Overlay.tidy → ∀ lg ps, (∃ o ∈ l, o.body = .metaOv lg ps) →
        ∃ o ∈ l', o.body = .metaOv lg ps := by
      rintro l l' e lg ps ⟨o, ho, hs⟩
      have : o.tidy ∈ l'.map Overlay.tidy := e ▸ List.mem_map_of_mem ho
      obtain ⟨o', ho', e'⟩ := List.mem_map.1 this
      refine ⟨o', ho', ?_⟩
      have hb : o'.body.tidy = o.body.tidy := congrArg Overlay.body e'
      rw [hs] at hb
      revert hb
      cases o'.body <;> intro hb <;> simp only [OvBody.tidy, reduceCtorEq] at hb
      exact hb
    exact ⟨r, r', rfl, rfl, h5, ⟨fun n => congrArg (FMap.lget n) h1, h2, fun n => h3.mem_iff, half h4, half h4.symm,
      fun l ps => ⟨metas h4 l ps, metas h4.symm l ps⟩⟩⟩

set_option maxRecDepth 20000 in
theorem codes_parts : alikePartsB (fromAst Env.short (fun _ => Order.sorted) none (astOf demoCommands))
    (fromAst Env.short (fun _ => Order.sorted) none
      (astOf (demoCommands.set 7 (addOv .entryCode [] [(c!"tags", .arr [.val c!"b", .val c!"a"])])))) = true := by decide +kernel

/-- **C91** is not vacuous for codes: the demo build, and the one with its entry codes the other way round -/
theorem C91_codes_example : ∃ r r', fromAst Env.short (fun _ => Order.sorted) none (astOf demoCommands) = .ok r ∧
    fromAst Env.short (fun _ => Order.sorted) none
      (astOf (demoCommands.set 7 (addOv .entryCode [] [(c!"tags", .arr [.val c!"b", .val c!"a"])]))) = .ok r' ∧
    r.bundle.overlays ≠ r'.bundle.overlays ∧ TellAlike r.bundle r'.bundle := alikePartsB_sound codes_parts

end OCA
