import Verif.Props.BundleJson
/-!
# C29 for whole builds
-/
namespace OCA

/-! ## Specification -/

/-- A command whose result can be stored: attribute types name real SAIDs, a META command has no property named
like a member every overlay has, the groups of grouped entry codes are given in the order of their names. -/
structure Command.Storable (E : Env) (c : Command) : Prop where
  types : ∀ cc l, c.obj = .captureBase cc → cc.attributes = some l → ∀ p ∈ l, p.2.wf E
  props : ∀ t cc l, c.obj = .overlay t cc → t.kind = .metaOv → cc.properties = some l →
    ∀ p ∈ l, p.1 ∉ [c!"d", c!"capture_base", c!"type", c!"language"]
  groups : ∀ t cc l, c.obj = .overlay t cc → t.kind = .entryCode → cc.attributes = some l →
    ∀ n gs, (n, NVal.obj gs) ∈ l → gs.Pairwise fun a b => Str.lt a.1 b.1 = true

/-- The states reached from the empty one by accepted storable commands. -/
inductive StorableBuild (E : Env) : OCABox → Prop
  | new : StorableBuild E OCABox.new
  | step (box box' : OCABox) (c : Command) :
      StorableBuild E box → c.Storable E → applyCommand E (some box) c = .ok box' → StorableBuild E box'

/-! ## The invariant -/

theorem StorableBuild.reachable {E : Env} {b : OCABox} (h : StorableBuild E b) : Reachable E b := by
  induction h with
  | new => exact .new
  | step b b' c _ _ ha ih => exact .step b b' c ih ha

/-- what can be stored of an attribute; without `p` only what holds whatever the commands -/
structure StorAttr (E : Env) (p : Prop) (a : Attribute) : Prop where
  type : p → ∀ t, a.ty = some t → t.wf E
  labels : ∀ l, (optGet a.labels l).isSome = true → E.langOf l = some l
  informations : ∀ l, (optGet a.informations l).isSome = true → E.langOf l = some l
  entries : ∀ l, (optGet a.entries l).isSome = true → E.langOf l = some l
  codes : p → ∀ g, a.entryCodes = some (.object g) → SortedKeys g

/-- and of a state -/
structure StorBox (E : Env) (p : Prop) (b : OCABox) : Prop where
  attrs : ∀ n a, b.attributes.get n = some a → StorAttr E p a
  metas : ∀ m l ps, b.metaMap = some m → m.get l = some ps →
    E.langOf l = some l ∧ (p → ∀ k ∈ metaReserved, ps.get k = none)

theorem lang_known {E : Env} {c : Content} {l : Lang} (h : c.lang E = some l) : E.langOf l = some l := by
  unfold Content.lang at h
  split at h
  · exact E.langOf_lang1 _ _ h
  · cases h

theorem imInsert_last {V : Type} (k : Str) (v : V) (l : List (Str × V)) (h : ∀ p ∈ l, p.1 ≠ k) :
    imInsert k v l = l ++ [(k, v)] := by
  induction l with
  | nil => rfl
  | cons p t ih =>
    obtain ⟨k', v'⟩ := p
    have : k ≠ k' := fun e => h _ (.head _) e.symm
    simp only [imInsert, List.cons_append]
    rw [if_neg this, ih fun p hp => h p (.tail _ hp)]

theorem imExtend_sorted {V : Type} (l : List (Str × V)) : ∀ acc : List (Str × V), SortedKeys (acc ++ l) →
    imExtend acc l = acc ++ l := by
  induction l with
  | nil => intro acc _; simp [imExtend]
  | cons p t ih =>
    intro acc h
    have h' : SortedKeys ((acc ++ [p]) ++ t) := by rw [List.append_assoc]; exact h
    have : imInsert p.1 p.2 acc = acc ++ [p] := by
      apply imInsert_last
      intro q hq e
      unfold SortedKeys at h
      have := (List.pairwise_append.mp h).2.2 q hq p (.head _)
      rw [e, Str.lt_irrefl] at this
      cases this
    show imExtend (imInsert p.1 p.2 acc) t = _
    rw [this, ih _ h', List.append_assoc]
    rfl

theorem entryCodesOf_sorted (v : NVal) (g : List (Str × List Str)) (h : entryCodesOf v = some (.object g))
    (hv : ∀ gs, v = .obj gs → gs.Pairwise fun a b => Str.lt a.1 b.1 = true) : SortedKeys g := by
  cases v <;> simp only [entryCodesOf, Option.some.injEq, reduceCtorEq, EntryCodes.object.injEq] at h
  rename_i gs
  have hs := hv gs rfl
  have : SortedKeys (gs.filterMap fun p => match p.2 with
      | .arr cs => some (p.1, NVal.texts cs)
      | _ => none) := by
    unfold SortedKeys
    rw [List.pairwise_filterMap]
    refine hs.imp ?_
    intro a b hab x hx y hy
    split at hx <;> cases hx
    split at hy <;> cases hy
    exact hab
  rw [← h]
  exact Eq.mpr (congrArg SortedKeys (imExtend_sorted _ [] this)) this

theorem StorAttr.put (E : Env) (p : Prop) (k : OvKind) (c : Content) (a : Attribute) (v : NVal) (h : StorAttr E p a)
    (hv : p → k = .entryCode → ∀ gs, v = .obj gs → gs.Pairwise fun a b => Str.lt a.1 b.1 = true) :
    StorAttr E p (a.put E k c v) := by
  unfold Attribute.put
  cases k <;> dsimp only
  case label =>
    split
    · rename_i l hl
      exact { h with labels := optGet_insert_some a.labels l _ (lang_known hl) h.labels }
    · exact h
  case information =>
    split
    · rename_i l hl
      exact { h with informations := optGet_insert_some a.informations l _ (lang_known hl) h.informations }
    · exact h
  case entry =>
    split
    · rename_i l he hl
      exact { h with entries := optGet_insert_some a.entries l _ (lang_known hl) h.entries }
    · exact h
  case entryCode =>
    split
    · rename_i e he
      refine { h with codes := ?_ }
      intro hp g hg
      dsimp only at hg
      cases ha : a.entryCodes with
      | some e' => rw [ha] at hg; cases hg; exact h.codes hp g ha
      | none => rw [ha] at hg; cases hg; exact entryCodesOf_sorted v g he (hv hp rfl)
    · exact h
  all_goals first
    | exact h
    | (split <;> first | exact { h with } | (split <;> exact { h with }))

theorem foldRes_inv_mem {ε α β : Type} {f : β → α → Res ε β} (P : β → Prop) (l : List α)
    (h : ∀ b, ∀ a ∈ l, ∀ b', P b → f b a = .ok b' → P b') (b b' : β) (hb : P b)
    (hf : foldRes f b l = .ok b') : P b' := by
  induction l generalizing b with
  | nil => simp only [foldRes, Res.ok.injEq] at hf; subst hf; exact hb
  | cons a t ih =>
    simp only [foldRes] at hf
    obtain ⟨b1, h1, h2⟩ := Res.bind_eq_ok.mp hf
    exact ih (fun b a ha b' => h b a (.tail _ ha) b') b1 (h b a (.head _) b1 hb h1) h2

theorem StorBox.applyCommand (E : Env) (p : Prop) (b b' : OCABox) (c : Command) (h : StorBox E p b) (hp : p → c.Storable E)
    (ha : applyCommand E (some b) c = .ok b') : StorBox E p b' := by
  obtain ⟨kind, obj⟩ := c
  cases obj with
  | ocaBundle r => cases kind <;> cases ha
  | captureBase cc =>
    cases kind with
    | add =>
      rw [applyAddBase] at ha
      cases ha
      refine ⟨?_, ?_⟩
      · intro n a hg
        rw [get_boxAdd] at hg
        split at hg
        · rename_i t ht
          cases hg
          have hwf : p → t.wf E := by
            intro hpp
            have hm := FMap.mem_of_lastVal ht
            cases hl : cc.attributes with
            | none => rw [hl] at hm; cases hm
            | some l => rw [hl] at hm; exact (hp hpp).types cc l rfl hl _ hm
          cases hb : b.attributes.get n with
          | none => exact ⟨fun hpp t' e => (by cases e; exact hwf hpp), fun _ h => (by cases h), fun _ h => (by cases h),
              fun _ h => (by cases h), fun _ _ h => (by cases h)⟩
          | some a0 => exact { h.attrs n a0 hb with type := fun hpp t' e => (by cases e; exact hwf hpp) }
        · exact h.attrs n a hg
      · intro m l ps hm
        rw [(boxAdd_rest _ _).2.1] at hm
        exact h.metas m l ps hm
    | remove =>
      rw [applyRemoveBase] at ha
      cases ha
      refine ⟨?_, h.metas⟩
      intro n a hg
      rw [get_boxRemove] at hg
      split at hg
      · cases hg
      · exact h.attrs n a hg
    | «from» => cases ha
    | modify => cases ha
  | overlay t cc =>
    cases kind with
    | remove => cases ha
    | «from» => cases ha
    | modify => cases ha
    | add =>
      simp only [OCA.applyCommand, Option.getD_some] at ha
      by_cases hm : t.kind = .metaOv
      · rw [hm, applyOverlay_meta, applyMeta_ok_iff] at ha
        rcases ha with ⟨-, rfl⟩ | ⟨l, hl, rfl⟩
        · exact h
        · refine ⟨h.attrs, ?_⟩
          intro m l' ps hm' hg
          dsimp only at hm'
          unfold metaPut at hm'
          split at hm'
          · exact h.metas m l' ps hm' hg
          · cases hm'
            rw [FMap.get_insert] at hg
            have hold : ∀ l ps, (b.metaMap.getD FMap.empty).get l = some ps →
                E.langOf l = some l ∧ (p → ∀ k ∈ metaReserved, ps.get k = none) := by
              intro l ps hg
              cases hb : b.metaMap with
              | none => rw [hb] at hg; cases hg
              | some m => rw [hb] at hg; exact h.metas m l ps hb hg
            split at hg
            · rename_i e
              subst e
              cases hg
              refine ⟨lang_known hl, ?_⟩
              intro hpp k hk
              rw [FMap.get_insertAll]
              have : FMap.lastVal cc.metaPairs k = none := by
                rw [FMap.lastVal_eq_none]
                intro q hq e
                unfold Content.metaPairs textPairs at hq
                obtain ⟨q', hp1, he⟩ := List.mem_filterMap.mp hq
                unfold imDrop at hp1
                have hp1 := (List.mem_filter.mp hp1).1
                split at he
                · cases he
                  cases hpr : cc.properties with
                  | none => rw [hpr] at hp1; cases hp1
                  | some l =>
                    rw [hpr] at hp1
                    refine (hp hpp).props t cc l rfl hm hpr _ hp1 ?_
                    show q'.1 ∈ metaReserved
                    exact e ▸ hk
                · cases he
              rw [this]
              cases hb : (b.metaMap.getD FMap.empty).get l' with
              | none => rfl
              | some ps => exact (hold _ _ hb).2 hpp k hk
            · exact hold _ _ hg
      · unfold applyOverlay at ha
        split at ha
        · rename_i e; exact absurd e hm
        · split at ha
          · cases ha; exact h
          · rename_i errs f hset
            obtain ⟨b1, h1, h2⟩ := Res.bind_eq_ok.mp ha
            have hb1 : StorBox E p b1 := by
              refine foldRes_inv_mem (StorBox E p) _ ?_ b b1 h h1
              intro b q hpm b' hb hs
              unfold ovAttrStep at hs
              split at hs
              · cases hs
              · rename_i a hga
                obtain ⟨a', hf, hs⟩ := Res.bind_eq_ok.mp hs
                cases hs
                rw [addAttribute_some _ _ _ _ hga, merge_setter E _ _ hset _ _ _ hf]
                refine ⟨?_, hb.metas⟩
                intro n a2 hg
                simp only [FMap.get_insert] at hg
                split at hg
                · cases hg
                  refine StorAttr.put E p _ _ _ _ (hb.attrs _ _ hga) ?_
                  intro hpp hk gs hv
                  cases hat : cc.attributes with
                  | none => rw [hat] at hpm; cases hpm
                  | some l =>
                    rw [hat] at hpm
                    refine (hp hpp).groups t cc l rfl hk hat q.1 gs ?_
                    rw [← hv]; exact hpm
                · exact hb.attrs n a2 hg
            split at h2
            · cases h2; exact hb1
            · cases h2

theorem StorableBuild.stor {E : Env} {b : OCABox} (h : StorableBuild E b) : StorBox E True b := by
  induction h with
  | new => exact ⟨fun _ _ h => (by cases h), fun _ _ _ h => (by cases h)⟩
  | step b b' c _ hp ha ih => exact ih.applyCommand E True b b' c (fun _ => hp) ha

theorem StorBox.storable_of {E : Env} {p : Prop} {box : OCABox} (hr : Reachable E box) (he : StorBox E p box) (O : Order)
    (ht : ∀ n t, (bundleOf E O box).captureBase.attributes.get n = some t → t.wf E)
    (hres : ∀ o ∈ (bundleOf E O box).overlays, ∀ l ps, o.body = .metaOv l ps → ∀ k ∈ metaReserved, ps.get k = none)
    (hgr : ∀ o ∈ (bundleOf E O box).overlays, ∀ m, o.body = .entryCode m → ∀ n g, m.get n = some (.object g) → SortedKeys g) :
    (bundleOf E O box).Storable E := by
  have hw := hr.wf
  have hb : ∀ o ∈ (bundleOf E O box).overlays, (∃ m l ps, box.metaMap = some m ∧ m.get l = some ps ∧ o.body = .metaOv l ps) ∨
      ∃ K, IsBody box.attributes K o.body ∧ ∃ n a, box.attributes.get n = some a ∧ hasKey K a = true :=
    fun o ho => mem_genBodies O box hw _ (mem_overlays ho).1
  have hgen := generateBundle_ok (ε := Str) E O box (reachable_typed hr)
  refine ⟨?_, ?_, ?_, ?_, (C21_generated_singles E O box hr _ hgen).2⟩
  · intro s hs
    cases hs
    exact E.digest_valid _
  · intro s hs
    cases hs
    exact E.digest_valid _
  · exact ht
  · intro o ho
    have hsig := (mem_overlays ho).2
    refine ⟨?_, ?_, ?_, ?_, ?_, ?_, ?_⟩
    rotate_right
    · intro m hbo
      rcases hb o ho with ⟨m', l', ps', hm, hg', e⟩ | ⟨K, hK, n', a, hg', hh⟩
      · rw [e] at hbo; cases hbo
      · cases K <;> simp only [IsBody] at hK
        case framing id => obtain ⟨md, e, -⟩ := hK; rw [e] at hbo; cases hbo
        all_goals rw [hK] at hbo; cases hbo
    · rw [hsig]; exact ⟨_, rfl, E.digest_valid _⟩
    · intro s hs
      rw [hsig] at hs
      cases hs
      exact E.digest_valid _
    · rw [hsig]
      refine ⟨['1'], ['1'], rfl, by decide, by decide, ?_, ?_⟩ <;>
      · intro c hc
        rw [List.mem_singleton.mp hc, E.isNd_ascii _ (by decide)]
        decide
    · intro l hl
      rcases hb o ho with ⟨m, l', ps, hm, hg, e⟩ | ⟨K, hK, n, a, hg, hh⟩
      · rw [e] at hl; cases hl; exact (he.metas m l ps hm hg).1
      · cases K <;> simp only [IsBody] at hK
        case framing id => obtain ⟨md, e, -⟩ := hK; rw [e] at hl; cases hl
        case entry => rw [hK] at hl; cases hl; exact (he.attrs n a hg).entries _ hh
        case label => rw [hK] at hl; cases hl; exact (he.attrs n a hg).labels _ hh
        case information => rw [hK] at hl; cases hl; exact (he.attrs n a hg).informations _ hh
        all_goals rw [hK] at hl; cases hl
    · exact hres o ho
    · exact hgr o ho

theorem StorBox.storable {E : Env} {box : OCABox} (hr : Reachable E box) (he : StorBox E True box) (O : Order) :
    (bundleOf E O box).Storable E := by
  have hw := hr.wf
  have hb : ∀ o ∈ (bundleOf E O box).overlays, (∃ m l ps, box.metaMap = some m ∧ m.get l = some ps ∧ o.body = .metaOv l ps) ∨
      ∃ K, IsBody box.attributes K o.body ∧ ∃ n a, box.attributes.get n = some a ∧ hasKey K a = true :=
    fun o ho => mem_genBodies O box hw _ (mem_overlays ho).1
  refine he.storable_of hr O ?_ ?_ ?_
  · intro n t ht
    have : (typesOf box.attributes).get n = some t := ht
    unfold typesOf at this
    rw [get_collect] at this
    obtain ⟨a, ha, hc⟩ := Option.bind_eq_some_iff.mp this
    exact (he.attrs n a ha).type trivial t hc
  · intro o ho l ps hbo
    rcases hb o ho with ⟨m, l', ps', hm, hg, e⟩ | ⟨K, hK, n, a, hg, hh⟩
    · rw [e] at hbo; cases hbo; exact (he.metas m l ps hm hg).2 trivial
    · cases K <;> simp only [IsBody] at hK
      case framing id => obtain ⟨md, e, -⟩ := hK; rw [e] at hbo; cases hbo
      all_goals rw [hK] at hbo; cases hbo
  · intro o ho m hbo n g hg
    rcases hb o ho with ⟨m', l', ps', hm, hg', e⟩ | ⟨K, hK, n', a, hg', hh⟩
    · rw [e] at hbo; cases hbo
    · cases K <;> simp only [IsBody] at hK
      case framing id => obtain ⟨md, e, -⟩ := hK; rw [e] at hbo; cases hbo
      case entryCode =>
        rw [hK] at hbo; cases hbo
        rw [get_collect] at hg
        obtain ⟨a', ha', hc⟩ := Option.bind_eq_some_iff.mp hg
        exact (he.attrs n a' ha').codes trivial g hc
      all_goals rw [hK] at hbo; cases hbo

/-- **C29**, for whole histories: any bundle built from scratch by storable commands is loaded back from its
JSON with its SAID, its capture base, its overlays and its JSON. -/
theorem C29_history_round_trip {ε : Type} (E : Env) (O : Order) (box : OCABox) (hr : StorableBuild E box)
    (b : Bundle) (h : (generateBundle E O box : Res ε _) = .ok b) :
    ∃ b', Bundle.ofJson E (b.toJson E) = .ok b' ∧ b'.toJson E = b.toJson E ∧ b'.said = b.said ∧
      b'.captureBase.attributes = b.captureBase.attributes ∧
      b'.captureBase.classification = b.captureBase.classification ∧
      b'.captureBase.flagged.Perm b.captureBase.flagged ∧
      ∃ l : List Overlay, l.Perm b.overlays ∧
        b'.overlays.map (fun o => (o.said, o.toJson)) = l.map fun o => (o.said, o.toJson) := by
  obtain ⟨-, rfl⟩ := generateBundle_eq_ok h
  obtain ⟨b', h1, h2, h3, h4, h5, -⟩ := C29_json_round_trip E _ (hr.stor.storable hr.reachable O)
  refine ⟨b', h1, h2, h3, ?_, ?_, ?_, h5⟩
  · rw [h4]
  · rw [h4]
  · rw [h4]; exact perm_sortStr _

/-! ## Non-vacuity -/

theorem runAll_storable (E : Env) (cs : List Command) (b b' : OCABox) (h : StorableBuild E b)
    (hp : ∀ c ∈ cs, c.Storable E) (hr : runAll E b cs = .ok b') : StorableBuild E b' := by
  unfold runAll at hr
  exact foldRes_inv_mem (StorableBuild E) cs (fun b c hc b' hb hs => .step b b' c hb (hp c hc) hs) b b' h hr

/-- checking a command -/
theorem Command.storable_of {E : Env} {c : Command} (h : match c.obj with
    | .captureBase cc => ∀ p ∈ cc.attributes.getD [], p.2.wf E
    | .ocaBundle _ => True
    | .overlay t cc => (t.kind = .metaOv → ∀ p ∈ cc.properties.getD [], p.1 ∉ metaReserved) ∧
        (t.kind = .entryCode → ∀ p ∈ cc.attributes.getD [], ∀ gs, p.2 = .obj gs →
          gs.Pairwise fun a b => Str.lt a.1 b.1 = true)) : c.Storable E := by
  constructor
  · intro cc l e1 e2 p hp
    rw [e1] at h
    dsimp only at h
    rw [e2] at h
    exact h p hp
  · intro t cc l e1 e2 e3 p hp
    rw [e1] at h
    have h := h.1 e2
    rw [e3] at h
    exact h p hp
  · intro t cc l e1 e2 e3 n gs hp
    rw [e1] at h
    have h := h.2 e2
    rw [e3] at h
    exact h _ hp gs rfl

theorem demo_storable : StorableBuild Env.demo demoBox := by
  refine runAll_storable _ demoCommands _ _ .new ?_ demo_run
  intro c hc
  apply Command.storable_of
  simp only [demoCommands, List.mem_cons, List.not_mem_nil, or_false] at hc
  rcases hc with rfl | rfl | rfl | rfl | rfl | rfl | rfl | rfl | rfl | rfl | rfl
  · intro p hp
    simp only [Option.getD_some, List.mem_cons, List.not_mem_nil, or_false] at hp
    rcases hp with rfl | rfl | rfl
    · trivial
    · trivial
    · trivial
  · intro p hp; cases hp
  · refine ⟨fun _ => ?_, fun e => (by cases e)⟩
    intro p hp
    simp only [Option.getD_some, List.mem_cons, List.not_mem_nil, or_false] at hp
    rcases hp with rfl | rfl
    · decide
    · decide
  all_goals refine ⟨fun e => (by cases e), fun e => ?_⟩
  all_goals first | cases e | skip
  intro p hp gs e
  simp only [Option.getD_some, List.mem_cons, List.not_mem_nil, or_false] at hp
  subst hp
  cases e

/-- The demo bundle is stored and loaded. -/
example : ∃ b', Bundle.ofJson Env.demo (demoBundle.toJson Env.demo) = .ok b' ∧ b'.said = demoBundle.said := by
  obtain ⟨b', h1, -, h2, -⟩ := C29_history_round_trip _ _ _ demo_storable _ demo_generated
  exact ⟨b', h1, h2⟩

/-! ## What the restrictions exclude -/

theorem loadGroup_cases {ε : Type} (E : Env) (j : Json) : (∃ l, (loadGroup E j : Res ε _) = .ok l) ∨
    (loadGroup E j : Res ε _) = .panic := by
  cases j <;> simp only [loadGroup]
  case arr l => cases allSome (Overlay.ofJson E) l <;> simp [Res.unwrap]
  case obj l => cases Overlay.ofJson E (.obj l) <;> simp [Res.unwrap]
  all_goals exact .inl ⟨_, rfl⟩

theorem loadGroups_panic {ε : Type} (E : Env) (l : List (Str × Json)) (p : Str × Json) (hp : p ∈ l)
    (h : (loadGroup E p.2 : Res ε _) = .panic) : (loadGroups E l : Res ε _) = .panic := by
  induction l with
  | nil => cases hp
  | cons q t ih =>
    rw [loadGroups]
    rcases loadGroup_cases (ε := ε) E q.2 with ⟨a, ha⟩ | ha
    · rw [ha, Res.bind_ok]
      rcases List.mem_cons.mp hp with rfl | hp
      · rw [ha] at h; cases h
      · rw [ih hp]; rfl
    · rw [ha]; rfl

theorem allSome_none {α β : Type} (f : α → Option β) (l : List α) (a : α) (ha : a ∈ l) (h : f a = none) :
    allSome f l = none := by
  induction l with
  | nil => cases ha
  | cons b t ih =>
    simp only [allSome]
    rcases List.mem_cons.mp ha with rfl | ha
    · rw [h]
    · rw [ih ha]
      cases f b <;> rfl

/-- A META pair named `type` (whose value is not an overlay type) makes the stored bundle unloadable: loading
it aborts the process. -/
theorem C29_reserved_pair_aborts (E : Env) (b : Bundle) (hs : ∀ s, b.said = some s → E.validSaid s = true)
    (hb : ∀ s, b.captureBase.said = some s → E.validSaid s = true)
    (ht : ∀ n t, b.captureBase.attributes.get n = some t → t.wf E)
    (o : Overlay) (ho : o ∈ b.overlays) (l : Lang) (ps : FMap Str) (hm : o.body = .metaOv l ps) (v : Str)
    (hv : ps.get c!"type" = some v) (hn : OverlayType.ofPath E v = none) :
    Bundle.ofJson E (b.toJson E) = .panic := by
  have hbad : Overlay.ofJson E o.toJson = none := by
    have hget : (FMap.ofList (o.fieldsWith (saidJson o.said))).get c!"type" = some (.str v) := by
      unfold FMap.ofList Overlay.fieldsWith
      rw [FMap.get_insertAll]
      have : FMap.lastVal (ps.l.map fun p => (p.1, Json.str p.2)) c!"type" = some (.str v) := by
        rw [FMap.lastVal_of_nodup]
        · exact List.mem_map.mpr ⟨(c!"type", v), FMap.get_eq_some_iff.mp hv, rfl⟩
        · rw [List.map_map]; exact ps.keys_nodup
      rw [hm]
      simp only [OvBody.fields, List.cons_append, List.nil_append, FMap.lastVal_cons, this]
      rfl
    unfold Overlay.ofJson Overlay.toJson
    dsimp only
    rw [hget]
    simp only [Option.bind_some, jStr, hn]
  have hov : overlaysOfJson E (overlaysJson b.overlays) = .panic := by
    unfold overlaysOfJson overlaysJson
    dsimp only
    have hmany : o.body.kind.many = true := by rw [hm]; rfl
    have hmem : o ∈ groupOf b.overlays c!"meta" := List.mem_filter.mpr ⟨ho, by rw [hm]; rfl⟩
    obtain ⟨x, hx⟩ : ∃ x, (groupOf b.overlays c!"meta").getLast? = some x := by
      cases hl : (groupOf b.overlays c!"meta").getLast? with
      | some x => exact ⟨x, rfl⟩
      | none => rw [List.getLast?_eq_none_iff.mp hl] at hmem; cases hmem
    have hkept : keptGroup b.overlays c!"meta" = some (groupOf b.overlays c!"meta") := by
      unfold keptGroup
      rw [hx]
      dsimp only
      rw [← many_of_groupOf hmem (List.mem_of_getLast? hx), hmany, if_pos rfl]
    rw [← get_groups] at hkept
    refine loadGroups_panic E _ (c!"meta", groupJson c!"meta" (groupOf b.overlays c!"meta"))
      (List.mem_map.mpr ⟨_, FMap.get_eq_some_iff.mp hkept, rfl⟩) ?_
    unfold groupJson
    rw [if_pos (by decide)]
    simp only [loadGroup]
    rw [allSome_none _ _ o.toJson (List.mem_map_of_mem (sortOvs_mem.mpr hmem)) hbad]
    rfl
  have hcb := captureBase_ofJson E b.captureBase hb ht
  have hd := jSaid_saidJson E b.said hs
  obtain ⟨s, cb, ovs⟩ := b
  unfold Bundle.toJson versioned Bundle.ofJson
  have h1 : ∀ v, memberOpt c!"d" ((c!"v", v) :: Bundle.fieldsWith ⟨s, cb, ovs⟩ (saidJson s)) = .ok (some (saidJson s)) :=
    fun _ => rfl
  have h2 : ∀ v, member c!"capture_base" ((c!"v", v) :: Bundle.fieldsWith ⟨s, cb, ovs⟩ (saidJson s)) = .ok cb.toJson :=
    fun _ => rfl
  have h3 : ∀ v, member c!"overlays" ((c!"v", v) :: Bundle.fieldsWith ⟨s, cb, ovs⟩ (saidJson s)) =
    .ok (overlaysJson ovs) := fun _ => rfl
  simp only [structMembers, h1, h2, h3, Res.bind_ok, orErr, hd, hcb, hov]
  rfl

/-- and such a bundle is built without complaint -/
def typedMetaCommands : List Command :=
  [addAttrs [(c!"name", .val .text)],
   addOv .metaOv [(c!"lang", .val c!"en"), (c!"type", .val c!"report")] []]

example : ∃ box, runAll Env.demo OCABox.new typedMetaCommands = .ok box ∧
    ∃ b, (generateBundle Env.demo Order.sorted box : Res Str _) = .ok b ∧
      Bundle.ofJson Env.demo (b.toJson Env.demo) = .panic := by
  have h : ∃ box, runAll Env.demo OCABox.new typedMetaCommands = .ok box ∧
      (box.attributes.get c!"name").bind Attribute.ty = some (.val .text) ∧ box.attributes.keys = [c!"name"] ∧
      genBodies Order.sorted box = [.metaOv c!"eng" (FMap.ofList [(c!"type", c!"report")])] :=
    ⟨_, rfl, by decide, by decide, by decide⟩
  obtain ⟨box, hr, hty, hk, hg⟩ := h
  have hreach := runAll_reachable _ _ _ _ Reachable.new hr
  have hgen := generateBundle_ok (ε := Str) Env.demo Order.sorted box (reachable_typed hreach)
  refine ⟨box, hr, _, hgen, ?_⟩
  have hovs : (bundleOf Env.demo Order.sorted box).overlays = (genBodies Order.sorted box).map fun body =>
      Overlay.sign Env.demo (Env.demo.digest (baseOfBox Order.sorted box).digestInput) ⟨none, none, c!"1.1", body⟩ := rfl
  rw [hg] at hovs
  refine C29_reserved_pair_aborts Env.demo _ ?_ ?_ ?_ _ (by rw [hovs]; exact List.mem_cons_self ..) c!"eng"
    (FMap.ofList [(c!"type", c!"report")]) rfl c!"report" (by decide) (by decide)
  · intro s hs; cases hs; exact Env.demo.digest_valid _
  · intro s hs; cases hs; exact Env.demo.digest_valid _
  · intro n t ht
    have : (typesOf box.attributes).get n = some t := ht
    unfold typesOf at this
    rw [get_collect] at this
    obtain ⟨a, ha, hc⟩ := Option.bind_eq_some_iff.mp this
    have hn : n ∈ box.attributes.keys := List.mem_map.mpr ⟨_, FMap.get_eq_some_iff.mp ha, rfl⟩
    rw [hk, List.mem_singleton] at hn
    subst hn
    rw [ha] at hty
    simp only [Option.bind_some, hc, Option.some.injEq] at hty
    subst hty
    trivial

/-- Grouped entry codes come back in the order of the group names, so the overlay that is loaded is not the one
that was stored, and its SAID no longer matches its content. -/
theorem C29_groups_reordered :
    let o : Overlay := ⟨some c!"Ea", some c!"Eb", c!"1.1",
      .entryCode (FMap.ofList [(c!"tags", .object [(c!"z", [c!"1"]), (c!"a", [c!"2"])])])⟩
    ∃ o', Overlay.ofJson Env.demo o.toJson = some o' ∧
      o'.body = .entryCode (FMap.ofList [(c!"tags", .object [(c!"a", [c!"2"]), (c!"z", [c!"1"])])]) ∧
      o'.digestInput ≠ o.digestInput := by
  refine ⟨_, rfl, by decide, ?_⟩
  intro h
  have h2 : ∀ j j' : Json, j = j' → flat j = flat j' := fun _ _ e => by rw [e]
  exact absurd (h2 _ _ h) (by decide)

end OCA
