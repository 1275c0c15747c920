import Verif.Props.Validation
/-!
# C19, the converse: where two scopes of a frame disagree, the SAID depends on the iteration order
-/
namespace OCA

/-- the entries with key `k` last -/
def putLast {V : Type} (k : Str) (l : List (Str × V)) : List (Str × V) :=
  l.filter (fun p => !decide (p.1 = k)) ++ l.filter (fun p => decide (p.1 = k))

theorem putLast_perm {V : Type} (k : Str) (l : List (Str × V)) : (putLast k l).Perm l := by
  unfold putLast
  refine List.perm_append_comm.trans ?_
  exact List.filter_append_perm (fun p : Str × V => decide (p.1 = k)) l

theorem filter_key {V : Type} (m : FMap V) {k : Str} {v : V} (h : m.get k = some v) :
    m.l.filter (fun p => decide (p.1 = k)) = [(k, v)] := by
  have hm : (k, v) ∈ m.l := FMap.get_eq_some_iff.mp h
  have hn : (m.l.map (·.1)).Nodup := m.keys_nodup
  generalize m.l = l at hm hn
  induction l with
  | nil => cases hm
  | cons p t ih =>
    simp only [List.map_cons, List.nodup_cons] at hn
    rcases List.mem_cons.1 hm with rfl | hm
    · have : t.filter (fun p => decide (p.1 = k)) = [] := by
        rw [List.filter_eq_nil_iff]
        intro q hq e
        exact hn.1 (List.mem_map.2 ⟨q, hq, by simpa using e⟩)
      simp [this]
    · have : p.1 ≠ k := fun e => hn.1 (List.mem_map.2 ⟨(k, v), hm, e.symm⟩)
      rw [List.filter_cons, if_neg (by simpa using this), ih hm hn.2]

/-- The attribute `n` and, in every frame, the scope `sc` come last. -/
def Order.putting (n sc : Str) : Order :=
  ⟨fun site _ _ m => if site = 142 then putLast n m.l else if site = 117 then putLast sc m.l else m.l,
   fun site _ _ m => by
    split
    · exact putLast_perm n m.l
    · split
      · exact putLast_perm sc m.l
      · exact List.Perm.refl _⟩

theorem lastVal_append {V : Type} (l l' : List (Str × V)) (k : Str) :
    FMap.lastVal (l ++ l') k = (FMap.lastVal l' k).or (FMap.lastVal l k) := by
  induction l with
  | nil => simp
  | cons p t ih =>
    rw [List.cons_append, FMap.lastVal_cons, FMap.lastVal_cons, ih]
    cases FMap.lastVal l' k <;> simp

theorem nodup_map_inj {α β : Type} {f : α → β} {l : List α} (h : (l.map f).Nodup) {x y : α} (hx : x ∈ l) (hy : y ∈ l) (e : f x = f y) :
    x = y := by
  induction l with
  | nil => cases hx
  | cons a t ih =>
    simp only [List.map_cons, List.nodup_cons] at h
    rcases List.mem_cons.1 hx with rfl | hx' <;> rcases List.mem_cons.1 hy with rfl | hy'
    · rfl
    · exact absurd (e ▸ List.mem_map_of_mem hy') h.1
    · exact absurd (e ▸ List.mem_map_of_mem hx') h.1
    · exact ih h.2 hx' hy'

/-- With that order the overlay of the frame has what the scope says. -/
theorem putting_says (box : OCABox) (hw : BoxWF box) {frame n sc k v : Str} {a : Attribute} {fr : FMap Scope} {s : Scope}
    (hn : box.attributes.get n = some a) (hf : optGet a.framings frame = some fr) (hs : fr.get sc = some s)
    (hk : s.frameMeta.get k = some v) :
    ∃ md m, OvBody.framing md m ∈ genBodies (Order.putting n sc) box ∧ md.get frameIdKey = some frame ∧ md.get k = some v := by
  obtain ⟨ks, -, h2, h3⟩ := genBodies_spec (Order.putting n sc) box (fun n a hg => (hw.attrs n a hg).frames)
  have hkey : hasKey (.framing frame) a = true := by simp [hasKey, hf]
  have hmem : bodyOf (Order.putting n sc) ((Order.putting n sc).iter 142 [] box.attributes) (.framing frame) ∈
      genBodies (Order.putting n sc) box := by
    rw [h3]
    exact List.mem_append_right _ (List.mem_map_of_mem ((h2 _).2 ⟨n, a, hn, hkey⟩))
  have hiter : (Order.putting n sc).iter 142 [] box.attributes =
      box.attributes.l.filter (fun p => !decide (p.1 = n)) ++ [(n, a)] := by
    show putLast n box.attributes.l = _
    unfold putLast
    rw [filter_key _ hn]
  have hisc : (Order.putting n sc).iter 117 [n] fr = fr.l.filter (fun p => !decide (p.1 = sc)) ++ [(sc, s)] := by
    show putLast sc fr.l = _
    unfold putLast
    rw [filter_key _ hs]
  have hbody := bodyOf_isBody (Order.putting n sc) box.attributes ((Order.putting n sc).perm 142 [] box.attributes)
    (fun n a hg => (hw.attrs n a hg).frames) (.framing frame)
  obtain ⟨md, hb, hmd⟩ := hbody
  refine ⟨md, _, hb ▸ hmem, hmd.hasId, ?_⟩
  -- the value
  have hfold : bodyOf (Order.putting n sc) ((Order.putting n sc).iter 142 [] box.attributes) (.framing frame) = _ :=
    foldl_framing (Order.putting n sc) frame
      (((Order.putting n sc).iter 142 [] box.attributes).filter fun p => hasKey (.framing frame) p.2)
      (fun p hp => by
        have := (List.mem_filter.1 hp).1
        exact (hw.attrs p.1 p.2 (((Order.putting n sc).mem_iter ..).1 this)).frames)
      (FMap.empty.insert frameIdKey frame) FMap.empty (by simp [FMap.get_insert])
  rw [hb] at hfold
  injection hfold with hmd' _
  rw [hmd', FMap.get_insertAll, hiter, List.filter_append, List.flatMap_append]
  have : ([(n, a)] : List (Str × Attribute)).filter (fun p => hasKey (.framing frame) p.2) = [(n, a)] := by simp [hkey]
  rw [this, lastVal_append]
  have hlast : FMap.lastVal (([(n, a)] : List (Str × Attribute)).flatMap fun p => match optGet p.2.framings frame with
      | none => []
      | some fr => scopeMetaPairs (Order.putting n sc) p.1 fr) k = some v := by
    simp only [List.flatMap_cons, List.flatMap_nil, List.append_nil, hf]
    unfold scopeMetaPairs
    rw [hisc, List.flatMap_append, lastVal_append]
    have : FMap.lastVal ((Order.putting n sc).iter 118 [n, sc] s.frameMeta) k = some v := by
      rw [FMap.lastVal_perm s.frameMeta ((Order.putting n sc).perm ..)]
      exact hk
    simp only [List.flatMap_cons, List.flatMap_nil, List.append_nil, this]
    rfl
  exact (congrArg (fun o => (Option.or (Option.or o _) _)) hlast).trans rfl

/-- **C19** Where two scopes of the same frame disagree on a metadata value - the only case excluded in
`C19_said_order_independent` - there are two iteration orders for which different bundles are digested: the SAID differs, or
the two digested texts are a collision of the digest. -/
theorem C19_order_matters (E : Env) (box : OCABox) (hr : Reachable E box) (hc : ¬ FrameConsistent box) :
    ∃ (O O' : Order) (b b' : Bundle), (generateBundle E O box : Res Str _) = .ok b ∧ (generateBundle E O' box : Res Str _) = .ok b' ∧
      b.toJson E ≠ b'.toJson E ∧ b.digestInput E ≠ b'.digestInput E ∧
      b.said = some (E.digest (b.digestInput E)) ∧ b'.said = some (E.digest (b'.digestInput E)) := by
  have hw := hr.wf
  have : ∃ frame n a fr sc s n' a' fr' sc' s' k v v', 
      box.attributes.get n = some a ∧ a.Carries (.framing frame fr) ∧ fr.get sc = some s ∧
      box.attributes.get n' = some a' ∧ a'.Carries (.framing frame fr') ∧ fr'.get sc' = some s' ∧
      s.frameMeta.get k = some v ∧ s'.frameMeta.get k = some v' ∧ v ≠ v' := by
    apply Classical.byContradiction
    intro hx
    apply hc
    intro frame n a fr sc s n' a' fr' sc' s' k v v' h1 h2 h3 h4 h5 h6 h7 h8
    apply Classical.byContradiction
    intro hv
    exact hx ⟨frame, n, a, fr, sc, s, n', a', fr', sc', s', k, v, v', h1, h2, h3, h4, h5, h6, h7, h8, hv⟩
  obtain ⟨frame, n, a, fr, sc, s, n', a', fr', sc', s', k, v, v', h1, h2, h3, h4, h5, h6, h7, h8, hv⟩ := this
  obtain ⟨md, m, i1, i2, i3⟩ := putting_says box hw h1 (optGet_eq_some.2 h2) h3 h7
  obtain ⟨md', m', j1, j2, j3⟩ := putting_says box hw h4 (optGet_eq_some.2 h5) h6 h8
  have g := generateBundle_ok (ε := Str) E (Order.putting n sc) box (reachable_typed hr)
  have g' := generateBundle_ok (ε := Str) E (Order.putting n' sc') box (reachable_typed hr)
  have hov : overlaysJson (bundleOf E (Order.putting n sc) box).overlays ≠ overlaysJson (bundleOf E (Order.putting n' sc') box).overlays := by
    intro e
    rw [← bodies_bundleOf E _ box] at i1 j1
    obtain ⟨o, ho, hob⟩ := List.mem_map.1 i1
    obtain ⟨o', ho', hob'⟩ := List.mem_map.1 j1
    obtain ⟨x, hx, hxo⟩ := overlay_in_json (singlesOnce_of_slots (C16_one_overlay_per_slot E _ box hr _ g)) e ho
    obtain ⟨-, -, e3, e4⟩ := overlay_of_json hxo
    obtain ⟨mx, hxb⟩ : ∃ mx, x.body = .framing md mx := by
      have hk : x.body.kind = OvKind.attributeFraming := by
        have := congrArg OverlayType.kind e3
        simpa [Overlay.type, hob, OvBody.kind] using this
      rw [hob] at e4
      cases hxb : x.body <;> rw [hxb] at hk e4 <;> simp only [OvBody.kind, reduceCtorEq] at hk
      simp only [OvBody.fields, List.cons.injEq, Prod.mk.injEq, true_and, and_true] at e4
      rw [toJson_inj_of strJson_inj e4.1]
      exact ⟨_, rfl⟩
    have hnd := C16_one_overlay_per_slot E _ box hr _ g'
    have hslot : x.body.slot = o'.body.slot := by
      rw [hxb, hob']
      show (OvKind.attributeFraming, md.get frameIdKey) = (OvKind.attributeFraming, md'.get frameIdKey)
      rw [i2, j2]
    have hxo' := nodup_map_inj hnd hx ho' hslot
    rw [hxo', hob'] at hxb
    injection hxb with hmm
    rw [hmm, i3] at j3
    exact hv (Option.some.inj j3)
  refine ⟨_, _, _, _, g, g', ?_, ?_, rfl, rfl⟩
  · intro e
    unfold Bundle.toJson versioned Bundle.fieldsWith at e
    simp only [Json.obj.injEq, List.cons.injEq, Prod.mk.injEq, true_and] at e
    exact hov e.2.2.2.1
  · intro e
    unfold Bundle.digestInput versioned Bundle.fieldsWith at e
    simp only [Json.obj.injEq, List.cons.injEq, Prod.mk.injEq, true_and] at e
    exact hov e.2.2.1

/-- non-vacuity: the state of the counterexample -/
theorem conflict_inconsistent : Reachable Env.demo conflictBox ∧ ¬ FrameConsistent conflictBox := by
  refine ⟨runAll_reachable _ _ _ _ Reachable.new conflict_run, fun hc => ?_⟩
  obtain ⟨b, b', h, h', hne⟩ : ∃ b b', (generateBundle Env.demo Order.sorted conflictBox : Res Str _) = .ok b ∧
      (generateBundle Env.demo Order.reversed conflictBox : Res Str _) = .ok b' ∧ b.said ≠ b'.said ∧
      ¬ ∃ o ∈ b.overlays, ∃ o' ∈ b.overlays, o ≠ o' ∧ o.said = o'.said := by
    have hr : Reachable Env.demo conflictBox := runAll_reachable _ _ _ _ Reachable.new conflict_run
    refine ⟨_, _, generateBundle_ok _ _ _ (reachable_typed hr), generateBundle_ok _ _ _ (reachable_typed hr), ?_, ?_⟩
    · decide +kernel
    · decide +kernel
  rcases C19_said_order_independent Env.demo _ _ conflictBox (runAll_reachable _ _ _ _ Reachable.new conflict_run) hc b b' h h' with h | h
  · exact hne.1 h.1
  · exact hne.2 h

end OCA
