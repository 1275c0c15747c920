import Verif.Props.ToAst
import Verif.Props.Builds
import Verif.Props.Validation
/-!
# C23 without restrictions on links, framings and flags: what `to_ast` followed by `from_ast` gives back

Specification: an overlay is *spoken* unless it is a link or an attribute framing; the rebuilt bundle has the attributes and the
classification of the original one, no flagged attributes, and exactly the content of its spoken overlays.
-/
namespace OCA

/-- the overlay kinds `to_ast` has a command for (among those a build can generate) -/
def OvBody.spoken (b : OvBody) : Bool := !(decide (b.kind = .link) || decide (b.kind = .attributeFraming))

/-! ## Proofs -/

/-- an attribute without what `to_ast` drops -/
def Attribute.bare (a : Attribute) : Attribute := { a with links := none, framings := none, flagged := false }

/-- a state without it -/
def OCABox.bare (b : OCABox) : OCABox := { b with attributes := b.attributes.filterMap fun _ a => some a.bare }

theorem ovCommand_unspoken {ε : Type} (E : Env) (O : Order) (o : Overlay) (h : o.body.spoken = false) :
    (ovCommand E O o : Res ε _) = .ok none := by
  unfold ovCommand
  unfold OvBody.spoken at h
  cases hb : o.body <;> rw [hb] at h <;> first | rfl | simp [OvBody.kind] at h

theorem ovCommands_spoken {ε : Type} (E : Env) (O : Order) (l : List Overlay) :
    (ovCommands E O l : Res ε _) = ovCommands E O (l.filter fun o => o.body.spoken) := by
  induction l with
  | nil => rfl
  | cons o t ih =>
    cases h : o.body.spoken with
    | true => rw [List.filter_cons_of_pos (p := fun o : Overlay => o.body.spoken) h]; simp only [ovCommands, ih]
    | false =>
      rw [List.filter_cons_of_neg (p := fun o : Overlay => o.body.spoken) (by rw [h]; exact nofun)]
      show Res.bind _ _ = _
      rw [ovCommand_unspoken E O o h, ih]
      show Res.bind _ _ = _
      cases (ovCommands E O (t.filter fun o => o.body.spoken) : Res ε _) <;> rfl

theorem loadAttr_bare (E : Env) (n : Str) (a : Attribute) (b : OvBody) :
    (loadAttr E n a b).bare = if b.spoken then loadAttr E n a.bare b else a.bare := by
  unfold OvBody.spoken
  cases b <;> simp only [OvBody.kind, loadAttr] <;> first | rfl | skip
  all_goals
    simp only [decide_true, decide_false, reduceCtorEq, Bool.or_false, Bool.false_or, Bool.or_true, Bool.true_or, Bool.not_true, Bool.not_false,
      if_true, if_false, Bool.false_eq_true, onSome]
    repeat' (first | rfl | split | (unfold loadCond))

theorem loadAttrs_bare (E : Env) (n : Str) (l : List OvBody) (a : Attribute) :
    (loadAttrs E n l a).bare = loadAttrs E n (l.filter OvBody.spoken) a.bare := by
  unfold loadAttrs
  induction l generalizing a with
  | nil => rfl
  | cons b t ih =>
    rw [List.foldl_cons, ih, loadAttr_bare]
    cases h : b.spoken with
    | true => rw [List.filter_cons_of_pos h]; rfl
    | false => rw [List.filter_cons_of_neg (by rw [h]; exact nofun)]; rfl

theorem bare_get (b : OCABox) (n : Str) : b.bare.attributes.get n = (b.attributes.get n).map Attribute.bare := by
  unfold OCABox.bare
  rw [FMap.get_filterMap]
  cases b.attributes.get n <;> rfl

theorem bare_wf {b : OCABox} (h : BoxWF b) : BoxWF b.bare := by
  refine ⟨?_, h.mappings, h.metas⟩
  intro n a ha
  rw [bare_get] at ha
  obtain ⟨a0, h0, rfl⟩ := Option.map_eq_some_iff.mp ha
  obtain ⟨h1, h2, h3, h4⟩ := h.attrs n a0 h0
  exact ⟨h1, h2, fun id fr sc s hf => (by cases hf), h4⟩

/-- the keys of spoken overlays -/
def OvKey.spoken : OvKey → Bool
  | .link _ => false
  | .framing _ => false
  | _ => true

theorem hasKey_bare (K : OvKey) (a : Attribute) : hasKey K a.bare = (K.spoken && hasKey K a) := by
  cases K <;> rfl

theorem spoken_isBody {m : FMap Attribute} {K : OvKey} {x : OvBody} (h : IsBody m K x) : x.spoken = K.spoken := by
  cases K <;> simp only [IsBody] at h
  case framing => obtain ⟨md, rfl, -⟩ := h; rfl
  all_goals rw [h]; rfl

theorem collect_bare {V : Type} (b : OCABox) (f : Attribute → Option V) (hf : ∀ a, f a.bare = f a) :
    collect b.bare.attributes f = collect b.attributes f := by
  ext n : 1
  rw [get_collect, get_collect, bare_get]
  cases b.attributes.get n with
  | none => rfl
  | some a => exact hf a

theorem isBody_bare {b : OCABox} {K : OvKey} (hK : K.spoken = true) {x : OvBody} :
    IsBody b.bare.attributes K x ↔ IsBody b.attributes K x := by
  cases K <;> simp only [OvKey.spoken, reduceCtorEq, Bool.false_eq_true] at hK <;> simp only [IsBody]
  all_goals first
    | rw [collect_bare b _ (fun _ => rfl), collect_bare b _ (fun _ => rfl)]
    | rw [collect_bare b _ (fun _ => rfl)]

theorem isBody_unique {m : FMap Attribute} {K : OvKey} (hK : K.spoken = true) {x y : OvBody} (hx : IsBody m K x) (hy : IsBody m K y) : x = y := by
  cases K <;> simp only [OvKey.spoken, reduceCtorEq, Bool.false_eq_true] at hK <;> simp only [IsBody] at hx hy
  all_goals rw [hx, hy]

theorem genBodies_bare (O : Order) (b : OCABox) (h : BoxWF b) :
    (genBodies O b.bare).Perm ((genBodies O b).filter OvBody.spoken) := by
  obtain ⟨ks, h1, h2, h3, h4⟩ := genBodies_wf O b h
  obtain ⟨ks', h1', h2', h3', h4'⟩ := genBodies_wf O b.bare (bare_wf h)
  have hpre : preBodies O b.bare = (preBodies O b).filter OvBody.spoken := by
    rw [List.filter_eq_self.2]
    · rfl
    · intro x hx
      obtain ⟨m, l, ps, -, -, rfl⟩ := (mem_preBodies O b h x).mp hx
      rfl
  have hks : ks'.Perm (ks.filter OvKey.spoken) := by
    rw [List.perm_ext_iff_of_nodup h1' (h1.filter _)]
    intro K
    rw [h2', List.mem_filter, h2]
    constructor
    · rintro ⟨n, a, ha, hK⟩
      rw [bare_get] at ha
      obtain ⟨a0, h0, rfl⟩ := Option.map_eq_some_iff.mp ha
      rw [hasKey_bare, Bool.and_eq_true] at hK
      exact ⟨⟨n, a0, h0, hK.2⟩, hK.1⟩
    · rintro ⟨⟨n, a, ha, hK⟩, hs⟩
      exact ⟨n, a.bare, by rw [bare_get, ha]; rfl, by rw [hasKey_bare, hs, hK]; rfl⟩
  rw [h3, h3', List.filter_append, hpre]
  refine List.Perm.append_left _ ?_
  have hbody : ks'.map (bodyOf O (O.iter 142 [] b.bare.attributes)) = ks'.map (bodyOf O (O.iter 142 [] b.attributes)) := by
    apply List.map_congr_left
    intro K hK
    have hs : K.spoken = true := (List.mem_filter.1 (hks.mem_iff.1 hK)).2
    exact isBody_unique hs ((isBody_bare hs).1 (h4' K)) (h4 K)
  have hfil : (ks.map (bodyOf O (O.iter 142 [] b.attributes))).filter OvBody.spoken =
      (ks.filter OvKey.spoken).map (bodyOf O (O.iter 142 [] b.attributes)) := by
    rw [List.filter_map]
    congr 1
    apply List.filter_congr
    intro K _
    exact spoken_isBody (h4 K)
  rw [hbody, hfil]
  exact hks.map _

theorem strip_spoken {b : OvBody} (h : b.spoken = true) : b.strip = b := by
  cases b <;> first | rfl | (exfalso; revert h; simp [OvBody.spoken, OvBody.kind])

theorem spoken_strip (b : OvBody) : b.strip.spoken = b.spoken := by unfold OvBody.spoken; rw [kind_strip]

/-- what is generated from the reloaded state, as far as it is spoken -/
theorem reload_spoken_perm (E : Env) (O O' : Order) (box : OCABox) (hw : BoxWF box) :
    (genBodies O' (reloadBox E O box).bare).Perm ((genBodies O box).filter OvBody.spoken) := by
  refine (genBodies_bare O' _ (reload_wf hw)).trans ?_
  have key : ∀ l : List OvBody, (l.map OvBody.strip).filter OvBody.spoken = l.filter OvBody.spoken := by
    intro l
    rw [List.filter_map]
    have : (l.filter (OvBody.spoken ∘ OvBody.strip)) = l.filter OvBody.spoken := by
      apply List.filter_congr
      intro x _
      exact spoken_strip x
    rw [this]
    conv => rhs; rw [← List.map_id (l.filter OvBody.spoken)]
    apply List.map_congr_left
    intro x hx
    exact strip_spoken (List.mem_filter.1 hx).2
  rw [← key, ← key (genBodies O box)]
  exact (reload_bodies_perm E O O' box hw).filter _

/-! ## C23 -/

/-- **C23** For the bundle of any reachable state: `to_ast` succeeds and building its AST from scratch succeeds, whatever the
iteration orders, and the rebuilt bundle has the same attributes with the same types, the same classification, no flagged
attributes, and exactly the contents of the overlays other than links and attribute framings. If the bundle has no flagged
attributes the capture base and the remaining overlays are the same objects, SAIDs included. -/
theorem C23_rebuild {ε ε' : Type} (E : Env) (O : Order) (box : OCABox) (hr : Reachable E box)
    (b : Bundle) (h : (generateBundle E O box : Res ε _) = .ok b) (hx : b.Speakable E) (O' : Order) :
    ∃ ast, (b.toAst E O' : Res ε' _) = .ok ast ∧
      ∀ Os, ∃ build, fromAst E Os none ast = .ok build ∧
        build.bundle.captureBase.attributes = b.captureBase.attributes ∧
        build.bundle.captureBase.classification = b.captureBase.classification ∧
        build.bundle.captureBase.flagged = [] ∧
        (build.bundle.overlays.map Overlay.body).Perm ((b.overlays.map Overlay.body).filter OvBody.spoken) ∧
        (b.captureBase.flagged = [] → build.bundle.captureBase = b.captureBase ∧
          build.bundle.overlays.Perm (b.overlays.filter fun o => o.body.spoken)) := by
  have hw := hr.wf
  have hgen := h
  obtain ⟨-, rfl⟩ := generateBundle_eq_ok h
  have hbodies : (bundleOf E O box).overlays.map Overlay.body = genBodies O box := bodies_bundleOf E O box
  have hsp : ((bundleOf E O box).overlays.filter fun o => o.body.spoken).map Overlay.body = (genBodies O box).filter OvBody.spoken := by
    rw [← hbodies, List.filter_map]; rfl
  have hmem : ∀ o ∈ (bundleOf E O box).overlays.filter (fun o => o.body.spoken), o ∈ (bundleOf E O box).overlays ∧ o.body ∈ genBodies O box ∧
      o.body.spoken = true := fun o ho =>
    ⟨(List.mem_filter.1 ho).1, (mem_overlays (List.mem_filter.1 ho).1).1, (List.mem_filter.1 ho).2⟩
  have hex : ∀ o ∈ (bundleOf E O box).overlays.filter (fun o => o.body.spoken), o.Expressible E := by
    intro o ho'
    obtain ⟨ho, hg, hs⟩ := hmem o ho'
    have hs' : o.body.kind ≠ .link ∧ o.body.kind ≠ .attributeFraming := by
      unfold OvBody.spoken at hs
      simpa using hs
    refine ⟨hs'.1, hs'.2, ?_, hx.langs o ho, hx.noLangPair o ho, hx.codes o ho, ?_⟩
    · rcases mem_genBodies O box hw _ hg with ⟨m, l, ps, -, -, e⟩ | ⟨K, hK, -⟩
      · rw [e]; exact .inl rfl
      · right
        cases K <;> simp only [IsBody] at hK
        case framing id => obtain ⟨md, e, -⟩ := hK; rw [e]; simp [OvBody.kind, loadOrder]
        all_goals rw [hK]; simp [OvBody.kind, loadOrder]
    · intro c d e
      have := (genBody_loadable hw hg).2
      rw [e] at this
      exact this
  -- the first command
  have hty : ∀ n, (boxAdd ⟨some (O'.iter 954 [] (typesOf box.attributes)),
      if (box.classification.getD []).isEmpty then none
        else some [(c!"classification", .val (box.classification.getD []))], none⟩ OCABox.new).attributes.get n =
      ((typesOf box.attributes).get n).map fun t => { ty := some t } := by
    intro n
    rw [get_boxAdd]
    have : FMap.lastVal (O'.iter 954 [] (typesOf box.attributes)) n = (typesOf box.attributes).get n := by
      apply Option.ext
      intro v
      rw [FMap.lastVal_of_nodup (iter_nodup O' 954 _), (O'.perm 954 [] _).mem_iff, FMap.get_eq_some_iff]
    simp only [Option.getD_some, this]
    cases (typesOf box.attributes).get n <;> rfl
  obtain ⟨cs, h1, h2⟩ := ovCommands_run (ε := ε') E O' ((bundleOf E O box).overlays.filter fun o => o.body.spoken)
    (boxAdd ⟨some (O'.iter 954 [] (typesOf box.attributes)),
      if (box.classification.getD []).isEmpty then none
        else some [(c!"classification", .val (box.classification.getD []))], none⟩ OCABox.new) hex (by
      intro o ho n hn
      rw [hty, Option.isSome_map]
      have := (genBody_loadable hw (hmem o ho).2.1).1 n hn
      obtain ⟨a, ha⟩ := Option.isSome_iff_exists.mp this
      unfold typesOf
      rw [get_collect, ha]
      exact (hw.attrs n a ha).typed) (by
      rw [hsp]
      exact ((List.filter_sublist).filterMap keyOf).nodup (genBodies_keys_nodup O box hw)) (by
      intro n a K hg _
      rw [hty] at hg
      obtain ⟨t, -, rfl⟩ := Option.map_eq_some_iff.mp hg
      cases K <;> rfl)
  rw [← ovCommands_spoken] at h1
  refine ⟨_, by unfold Bundle.toAst; rw [h1]; rfl, ?_⟩
  intro Os
  rw [hsp] at h2
  have hrun := run_builds E Os (baseCommand O' (bundleOf E O box).captureBase) cs
    { OCAAst.new with commands := baseCommand O' (bundleOf E O box).captureBase :: cs } rfl
    { boxAdd ⟨some (O'.iter 954 [] (typesOf box.attributes)),
      if (box.classification.getD []).isEmpty then none
        else some [(c!"classification", .val (box.classification.getD []))], none⟩ OCABox.new with
      attributes := (boxAdd ⟨some (O'.iter 954 [] (typesOf box.attributes)),
        if (box.classification.getD []).isEmpty then none
        else some [(c!"classification", .val (box.classification.getD []))], none⟩ OCABox.new).attributes.filterMap
          fun n a => some (loadAttrs E n ((genBodies O box).filter OvBody.spoken) a)
      metaMap := ((genBodies O box).filter OvBody.spoken).foldl metaStepOf none } (by
      simp only [foldRes]
      rw [show applyCommand E (some OCABox.new) (baseCommand O' (bundleOf E O box).captureBase) =
        .ok (boxAdd ⟨some (O'.iter 954 [] (typesOf box.attributes)),
          if (box.classification.getD []).isEmpty then none
            else some [(c!"classification", .val (box.classification.getD []))], none⟩ OCABox.new) from
        applyAddBase E OCABox.new _]
      simp only [Res.bind_ok]
      rw [h2, (boxAdd_rest _ _).2.1]
      rfl)
  obtain ⟨build, hb1, hb2⟩ := hrun
  refine ⟨build, hb1, ?_⟩
  -- the rebuilt state is the reloaded one up to the classification and what is dropped
  have hsame : ∃ c : Option Str, c.getD [] = box.classification.getD [] ∧
      ({ boxAdd ⟨some (O'.iter 954 [] (typesOf box.attributes)),
          if (box.classification.getD []).isEmpty then none
            else some [(c!"classification", .val (box.classification.getD []))], none⟩ OCABox.new with
        attributes := (boxAdd ⟨some (O'.iter 954 [] (typesOf box.attributes)),
          if (box.classification.getD []).isEmpty then none
          else some [(c!"classification", .val (box.classification.getD []))], none⟩ OCABox.new).attributes.filterMap
            fun n a => some (loadAttrs E n ((genBodies O box).filter OvBody.spoken) a)
        metaMap := ((genBodies O box).filter OvBody.spoken).foldl metaStepOf none } : OCABox) =
      { (reloadBox E O box).bare with classification := c } := by
    refine ⟨(classOf ((if (box.classification.getD []).isEmpty then none
        else some [(c!"classification", NVal.val (box.classification.getD []))]).getD [])).or none, ?_, ?_⟩
    · by_cases he : (box.classification.getD []).isEmpty = true
      · rw [if_pos he]
        rw [List.isEmpty_iff.mp he]
        rfl
      · rw [if_neg he]
        rfl
    · refine OCABox.ext' ?_ (boxAdd_rest _ _).1 ?_ (boxAdd_rest _ _).2.2
      · intro n
        show _ = (reloadBox E O box).bare.attributes.get n
        rw [bare_get]
        simp only [reloadBox, FMap.get_filterMap]
        rw [hty]
        cases ht : (typesOf box.attributes).get n with
        | none => rfl
        | some t =>
          simp only [Option.map_some, Option.bind_some, Option.some.injEq]
          unfold reloadAttr
          rw [loadAttrs_bare]
          -- bodies that load nothing do not matter
          have hskip : ∀ (l : List OvBody) (a : Attribute),
              loadAttrs E n l a = loadAttrs E n (l.filter fun x => decide (x.kind ∈ loadOrder)) a := by
            intro l
            induction l with
            | nil => intro a; rfl
            | cons x t ih =>
              intro a
              by_cases hk : x.kind ∈ loadOrder
              · rw [List.filter_cons_of_pos (by simpa using hk)]
                exact ih _
              · rw [List.filter_cons_of_neg (by simpa using hk)]
                have : loadAttr E n a x = a := by
                  cases x <;> first | rfl | (exfalso; revert hk; simp [OvBody.kind, loadOrder])
                show loadAttrs E n t (loadAttr E n a x) = _
                rw [this]
                exact ih a
          rw [hskip ((genBodies O box).filter OvBody.spoken)]
          have hp : ((loadList (genBodies O box)).filter OvBody.spoken).Perm
              (((genBodies O box).filter OvBody.spoken).filter fun x => decide (x.kind ∈ loadOrder)) := by
            refine ((loadList_perm (genBodies O box)).filter _).trans ?_
            rw [List.filter_filter, List.filter_filter]
            refine List.Perm.of_eq (List.filter_congr fun x _ => Bool.and_comm ..)
          apply loadAttrs_perm E n _ hp.symm
          · exact (((List.filter_sublist).trans (List.filter_sublist)).filterMap keyOf).nodup (genBodies_keys_nodup O box hw)
          · intro x hxm
            have := (List.mem_filter.mp (List.mem_filter.mp hxm).1).2
            unfold OvBody.spoken at this
            simp only [Bool.not_eq_true', Bool.or_eq_false_iff, decide_eq_false_iff_not] at this
            exact this.2
      · show _ = (genBodies O box).foldl metaStepOf none
        have : ∀ (l : List OvBody) (m), (l.filter OvBody.spoken).foldl metaStepOf m = l.foldl metaStepOf m := by
          intro l
          induction l with
          | nil => intro m; rfl
          | cons x t ih =>
            intro m
            cases hk : x.spoken with
            | true => rw [List.filter_cons_of_pos hk]; exact ih _
            | false =>
              rw [List.filter_cons_of_neg (by rw [hk]; exact nofun), List.foldl_cons, ih]
              congr 1
              cases x <;> first | rfl | (exfalso; revert hk; simp [OvBody.spoken, OvBody.kind])
        exact this _ _
  obtain ⟨c, hc, hsame⟩ := hsame
  rw [hsame] at hb2
  obtain ⟨-, e1⟩ := generateBundle_eq_ok hb2
  have hgb : ∀ Ox : Order, genBodies Ox { (reloadBox E O box).bare with classification := c } = genBodies Ox (reloadBox E O box).bare := fun _ => rfl
  have htypes : typesOf (reloadBox E O box).bare.attributes = typesOf box.attributes := by
    unfold typesOf
    rw [collect_bare _ _ (fun _ => rfl)]
    ext n : 1
    rw [get_collect]
    cases ht : (typesOf box.attributes).get n with
    | none =>
      unfold reloadBox
      simp only [FMap.get_filterMap]
      rw [ht]
      show none = _
      exact ht.symm
    | some t =>
      unfold reloadBox
      simp only [FMap.get_filterMap]
      rw [ht]
      show (reloadAttr E O box n t).ty = _
      refine Eq.trans ?_ ht.symm
      exact (ty_loadAttrs E n _ _).1
  have hflags : ∀ Ox : Order, flagsOf Ox (reloadBox E O box).bare.attributes = [] := by
    intro Ox
    unfold flagsOf
    rw [List.map_eq_nil_iff, List.filter_eq_nil_iff]
    intro p hp
    have hg : (reloadBox E O box).bare.attributes.get p.1 = some p.2 := FMap.get_eq_some_iff.2 ((Ox.perm 327 [] _).mem_iff.1 hp)
    rw [bare_get] at hg
    obtain ⟨a0, -, h0⟩ := Option.map_eq_some_iff.mp hg
    rw [← h0]
    exact nofun
  have hbase : ∀ Ox : Order, baseOfBox Ox { (reloadBox E O box).bare with classification := c } =
      { baseOfBox O box with flagged := [] } := by
    intro Ox
    unfold baseOfBox
    dsimp only
    rw [htypes, hflags, hc]
  rw [e1]
  refine ⟨?_, ?_, ?_, ?_, ?_⟩
  · exact htypes
  · exact hc
  · exact hflags _
  · rw [bodies_bundleOf, hbodies, hgb]
    exact reload_spoken_perm E O _ box hw
  · intro hf
    have hf' : flagsOf O box.attributes = [] := hf
    have hbo : { baseOfBox O box with flagged := [] } = baseOfBox O box := by
      unfold baseOfBox
      rw [hf']
    constructor
    · show (baseOfBox _ _).sign E = (baseOfBox _ _).sign E
      rw [hbase, hbo]
    · show (List.map _ _).Perm (List.filter _ (List.map _ _))
      rw [hgb, hbase, hbo, List.filter_map]
      exact (reload_spoken_perm E O _ box hw).map _

/-! ## Whole histories -/

/-- The states reached from the empty one by accepted commands. -/
inductive FromScratch (E : Env) : OCABox → Prop
  | new : FromScratch E OCABox.new
  | step (box box' : OCABox) (c : Command) : FromScratch E box → applyCommand E (some box) c = .ok box' → FromScratch E box'

theorem FromScratch.reachable {E : Env} {b : OCABox} (h : FromScratch E b) : Reachable E b := by
  induction h with
  | new => exact .new
  | step b b' c _ ha ih => exact .step b b' c ih ha

theorem FromScratch.speakable {E : Env} {b : OCABox} (h : FromScratch E b) (O : Order) :
    (bundleOf E O b).captureBase.flagged = [] ∧ (bundleOf E O b).Speakable E := by
  refine ExprBox.speakable (p := False) h.reachable ?_ O
  induction h with
  | new => exact ⟨fun _ _ h => (by cases h), fun _ _ _ h => (by cases h)⟩
  | step b b' c _ ha ih => exact ih.applyCommand E False b b' c (fun h => h.elim) ha

/-- **C23** For every bundle built from scratch by any history of accepted commands: its AST can be taken and built again, and
gives the same capture base (SAID included) and exactly the same overlays (SAIDs included) other than links and attribute framings. -/
theorem C23_history_rebuilds {ε ε' : Type} (E : Env) (O : Order) (box : OCABox) (hr : FromScratch E box)
    (b : Bundle) (h : (generateBundle E O box : Res ε _) = .ok b) (O' : Order) :
    ∃ ast, (b.toAst E O' : Res ε' _) = .ok ast ∧
      ∀ Os, ∃ build, fromAst E Os none ast = .ok build ∧ build.bundle.captureBase = b.captureBase ∧
        build.bundle.overlays.Perm (b.overlays.filter fun o => o.body.spoken) := by
  obtain ⟨-, e⟩ := generateBundle_eq_ok h
  obtain ⟨h1, h2⟩ := hr.speakable O
  rw [← e] at h1 h2
  obtain ⟨ast, ha, hb⟩ := C23_rebuild (ε' := ε') E O box hr.reachable b h h2 O'
  refine ⟨ast, ha, fun Os => ?_⟩
  obtain ⟨build, hb1, -, -, -, -, hb2⟩ := hb Os
  exact ⟨build, hb1, hb2 h1⟩

/-- **C23**, the converse: if the bundle has a link or an attribute framing, the rebuilt bundle is another one: different JSON
and a different text is digested for its SAID. -/
theorem C23_dropped_overlay_shows {ε ε' : Type} (E : Env) (O : Order) (box : OCABox) (hr : FromScratch E box)
    (b : Bundle) (h : (generateBundle E O box : Res ε _) = .ok b) (O' : Order) (ast : OCAAst) (ha : (b.toAst E O' : Res ε' _) = .ok ast)
    (Os : Nat → Order) (build : Build) (hb : fromAst E Os none ast = .ok build)
    (o : Overlay) (ho : o ∈ b.overlays) (hs : o.body.kind = .link ∨ o.body.kind = .attributeFraming) :
    build.bundle.toJson E ≠ b.toJson E ∧ build.bundle.digestInput E ≠ b.digestInput E := by
  obtain ⟨ast', ha', hb'⟩ := C23_history_rebuilds (ε' := ε') E O box hr b h O'
  rw [ha] at ha'
  cases ha'
  obtain ⟨build', h1, -, h2⟩ := hb' Os
  rw [hb] at h1
  cases h1
  have hov : overlaysJson b.overlays ≠ overlaysJson build.bundle.overlays := by
    intro e
    obtain ⟨x, hx, hxo⟩ := overlay_in_json (singlesOnce_of_slots (C16_one_overlay_per_slot E _ box hr.reachable _ h)) e ho
    obtain ⟨-, -, e3, -⟩ := overlay_of_json hxo
    have hk : x.body.kind = o.body.kind := congrArg OverlayType.kind e3
    have := (List.mem_filter.1 (h2.mem_iff.1 hx)).2
    unfold OvBody.spoken at this
    rw [hk] at this
    rcases hs with hs | hs <;> rw [hs] at this <;> revert this <;> decide
  constructor
  · intro e
    unfold Bundle.toJson versioned Bundle.fieldsWith at e
    simp only [Json.obj.injEq, List.cons.injEq, Prod.mk.injEq, true_and] at e
    exact hov e.2.2.2.1.symm
  · intro e
    unfold Bundle.digestInput versioned Bundle.fieldsWith at e
    simp only [Json.obj.injEq, List.cons.injEq, Prod.mk.injEq, true_and] at e
    exact hov e.2.2.1.symm

theorem bind_err_cases {ε α β : Type} {x : Res ε α} {f : α → Res ε β} {e : ε} (h : Res.bind x f = .err e) :
    x = .err e ∨ ∃ a, x = .ok a ∧ f a = .err e := by
  cases x with
  | ok a => exact .inr ⟨a, rfl, h⟩
  | err e' => cases h; exact .inl rfl
  | panic => cases h

theorem langProp_ne_err {ε : Type} (E : Env) (l : Lang) (e : ε) : (langProp E l : Res ε _) ≠ .err e := by
  unfold langProp
  cases E.lang1Inv l <;> exact nofun

theorem condTexts_no_err {ε : Type} (E : Env) (d : FMap (List Str)) (l : List (Str × Str)) (e : ε) :
    (condTexts E d l : Res ε _) ≠ .err e := by
  induction l with
  | nil => exact nofun
  | cons p t ih =>
    obtain ⟨n, c⟩ := p
    intro h
    rcases bind_err_cases (show Res.bind _ _ = _ from h) with h | ⟨ds, h1, h⟩
    · cases hd : d.get n <;> rw [hd] at h <;> cases h
    rcases bind_err_cases (show Res.bind _ _ = _ from h) with h | ⟨s, h2, h⟩
    · exact expandCondition_ne_err _ _ _ _ h
    rcases bind_err_cases (show Res.bind _ _ = _ from h) with h | ⟨r, h3, h⟩
    · exact ih h
    · cases h

theorem ovCommand_no_err {ε : Type} (E : Env) (O : Order) (o : Overlay) (e : ε) : (ovCommand E O o : Res ε _) ≠ .err e := by
  intro h
  unfold ovCommand at h
  split at h <;> first | cases h | skip
  all_goals
    rcases bind_err_cases (show Res.bind _ _ = _ from h) with h | ⟨p, h1, h⟩
    · first
      | exact condTexts_no_err _ _ _ _ h
      | exact langProp_ne_err _ _ _ h
    · cases h

/-- **C23** `to_ast` of any bundle aborts the process if the language of one of its overlays has no two letter code. -/
theorem C23_to_ast_aborts {ε : Type} (E : Env) (O : Order) (b : Bundle) (o : Overlay) (ho : o ∈ b.overlays) (l : Lang)
    (hl : o.body.language = some l) (hn : E.lang1Inv l = none) : (b.toAst E O : Res ε _) = .panic := by
  have key : ∀ L : List Overlay, o ∈ L → (ovCommands E O L : Res ε _) = .panic := by
    intro L
    induction L with
    | nil => exact nofun
    | cons x t ih =>
      intro hm
      show Res.bind _ _ = _
      have hp : langProp E l = (.panic : Res ε _) := by unfold langProp; rw [hn]; rfl
      cases hx : (ovCommand E O x : Res ε _) with
      | err e => exact absurd hx (ovCommand_no_err E O x e)
      | panic => rfl
      | ok c =>
        rcases List.mem_cons.1 hm with rfl | hm
        · exfalso
          unfold ovCommand at hx
          cases hb : o.body <;> rw [hb] at hx hl <;> simp only [OvBody.language, Option.some.injEq, reduceCtorEq] at hl
          all_goals
            subst hl
            dsimp only at hx
            rw [hp] at hx
            cases hx
        · show Res.bind (ovCommands E O t) _ = _
          rw [ih hm]
          rfl
  unfold Bundle.toAst
  show Res.bind _ _ = _
  rw [key _ ho]
  rfl

/-! ## Non-vacuity -/

theorem runAll_scratch (E : Env) (cs : List Command) (b b' : OCABox) (h : FromScratch E b) (hr : runAll E b cs = .ok b') : FromScratch E b' := by
  unfold runAll at hr
  exact foldRes_inv (FromScratch E) (fun b c b' hb hs => .step b b' c hb hs) cs b b' h hr

/-- The demo history, with its link and its framing: nine overlays, seven of them come back. -/
example : FromScratch Env.demo demoBox ∧ (genBodies Order.sorted demoBox).length = 9 ∧
    ((genBodies Order.sorted demoBox).filter OvBody.spoken).length = 7 :=
  ⟨runAll_scratch _ _ _ _ .new demo_run, by decide +kernel, by decide +kernel⟩

end OCA
