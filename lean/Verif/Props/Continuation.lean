import Verif.Props.Reload
import Verif.Props.Histories
import Verif.Props.Commute
import Verif.Lemmas.Plain
/-!
# C58: a build on a base continues the build that made the base
-/
namespace OCA

/-! ## An attribute is its type, its flag and the facts it carries -/

theorem attr_ext {a a' : Attribute} (hw : AttrWF a) (hw' : AttrWF a') (hp : AttrPlain a) (hp' : AttrPlain a')
    (ht : a.ty = a'.ty) (hf : a.flagged = a'.flagged) (hc : ∀ f, a.Carries f ↔ a'.Carries f) : a = a' := by
  have h1 : a.labels = a'.labels := opt_map_ext hp.labels hp'.labels (fun k v => hc (.label k v))
  have h2 : a.informations = a'.informations :=
    opt_map_ext hp.informations hp'.informations (fun k v => hc (.information k v))
  have h3 : a.entries = a'.entries := opt_map_ext hp.entries hp'.entries (fun k v => hc (.entry k v))
  have h4 : a.links = a'.links := opt_map_ext hp.links hp'.links (fun k v => hc (.link k v))
  have h5 : a.framings = a'.framings := opt_map_ext hp.framings hp'.framings (fun k v => hc (.framing k v))
  have h6 : a.encoding = a'.encoding := Option.ext (fun v => hc (.encoding v))
  have h7 : a.format = a'.format := Option.ext (fun v => hc (.format v))
  have h8 : a.conformance = a'.conformance := Option.ext (fun v => hc (.conformance v))
  have h9 : a.cardinality = a'.cardinality := Option.ext (fun v => hc (.cardinality v))
  have h10 : a.unit = a'.unit := Option.ext (fun v => hc (.unit v))
  have h11 : a.entryCodes = a'.entryCodes := Option.ext (fun v => hc (.entryCodes v))
  obtain ⟨h12, h13⟩ := cond_same hw' hw (fun c ds => hc (.condition c ds))
  have h14 : a.categoryLabels = a'.categoryLabels := by rw [hw.noCat, hw'.noCat]
  have h15 : a.mapping = a'.mapping := by rw [hp.mapping, hp'.mapping]
  have h16 : a.entryCodesMapping = a'.entryCodesMapping := by rw [hp.codesMapping, hp'.codesMapping]
  have h17 : a.standards = a'.standards := by rw [hp.standards, hp'.standards]
  cases a; cases a'
  simp only [Attribute.mk.injEq]
  exact ⟨ht, hf, h1, h14, h2, h11, h3, h15, h6, h7, h10, h16, h12, h13, h9, h8, h17, h4, h5⟩

/-! ## States whose frames are described in one way -/

/-- Every scope of a frame carries the same metadata. -/
def OCABox.Uniform (b : OCABox) (M : Str → FMap Str) : Prop :=
  ∀ n a i fr k sc, b.attributes.get n = some a → optGet a.framings i = some fr → fr.get k = some sc →
    sc.frameMeta = M i

theorem mem_flagsOf {O : Order} {m : FMap Attribute} {n : Str} :
    n ∈ flagsOf O m ↔ ∃ a, m.get n = some a ∧ a.flagged = true := by
  unfold flagsOf
  simp only [List.mem_map, List.mem_filter]
  constructor
  · rintro ⟨⟨n, a⟩, ⟨h1, h2⟩, rfl⟩
    exact ⟨a, (O.mem_iter ..).mp h1, h2⟩
  · rintro ⟨a, h1, h2⟩
    exact ⟨(n, a), ⟨(O.mem_iter ..).mpr h1, h2⟩, rfl⟩

theorem remeta_uniform {md : FMap Str} {fr : FMap Scope} (h : ∀ k sc, fr.get k = some sc → sc.frameMeta = md.erase frameIdKey) :
    remeta md fr = fr := by
  ext k : 1
  unfold remeta
  rw [FMap.get_filterMap]
  cases hk : fr.get k with
  | none => rfl
  | some sc =>
    show some { sc with frameMeta := md.erase frameIdKey } = some sc
    rw [← h k sc hk]

theorem frameMd_uniform {box : OCABox} (hw : BoxWF box) {M : Str → FMap Str} (hu : box.Uniform M) {i : Str} {md : FMap Str}
    (hmd : FrameMd box.attributes i md) {n : Str} {a : Attribute} {fr : FMap Scope} (ha : box.attributes.get n = some a)
    (hfr : optGet a.framings i = some fr) : remeta md fr = fr := by
  apply remeta_uniform
  intro k sc hk
  have hM := hu n a i fr k sc ha hfr hk
  have hid := (hw.attrs n a ha).frames i fr k sc hfr hk
  ext q : 1
  rw [FMap.get_erase]
  by_cases hq : q = frameIdKey
  · rw [if_pos hq, hq]; exact hid
  · rw [if_neg hq]
    cases hm : md.get q with
    | some v =>
      obtain ⟨n', a', fr', k', sc', h1, h2, h3, h4⟩ := hmd.sound q v hq hm
      rw [hM, ← hu n' a' i fr' k' sc' h1 h2 h3]; exact h4
    | none =>
      cases hs : sc.frameMeta.get q with
      | none => rfl
      | some v =>
        have := hmd.complete n a fr k sc q ha hfr hk (by rw [hs]; rfl)
        rw [hm] at this; cases this

theorem reload_same {E : Env} {O : Order} {box : OCABox} (hr : Reachable E box) {M : Str → FMap Str} (hu : box.Uniform M) :
    reloadBox E O box = { box with classification := some (box.classification.getD []) } := by
  have hw := hr.wf
  have hr' : Reachable E (reloadBox E O box) := Reachable.loaded _ _ (ofBundle_generated (ε := Unit) E O box hw)
  have hw' := hr'.wf
  apply OCABox.ext'
  · intro n
    show (reloadBox E O box).attributes.get n = box.attributes.get n
    apply Option.ext
    intro a'
    have key : ∀ a t, box.attributes.get n = some a → a.ty = some t → reloadAttr E O box n t = a := by
      intro a t ha ht
      have hg : (reloadBox E O box).attributes.get n = some (reloadAttr E O box n t) := reload_get.mpr ⟨a, t, ha, ht, rfl⟩
      refine attr_ext (hw'.attrs _ _ hg) (hw.attrs _ _ ha) (hr'.plain.attrs _ _ hg) (hr.plain.attrs _ _ ha) ?_ ?_ ?_
      · rw [ht]; exact (ty_loadAttrs E n _ _).1
      · refine (ty_loadAttrs E n _ _).2.trans ?_
        show decide _ = _
        rw [Bool.eq_iff_iff, decide_eq_true_iff, mem_flagsOf]
        constructor
        · rintro ⟨x, h1, h2⟩; rw [ha] at h1; cases h1; exact h2
        · intro h; exact ⟨a, ha, h⟩
      · intro f
        by_cases hf : f.plain = true
        · exact reload_plain hw ha hf
        · cases f with
          | framing i g =>
            rw [reload_framing hw]
            constructor
            · rintro ⟨md, x, fr, hb, hid, hx, rfl⟩
              rcases mem_genBodies O box hw _ hb with ⟨m, l, ps, -, -, e⟩ | ⟨K, hK, -⟩
              · cases e
              · have hk := hK.key
                rw [show keyOf (OvBody.framing md x) = (md.get frameIdKey).map OvKey.framing from rfl, hid] at hk
                cases hk
                obtain ⟨md', e, hmd⟩ := hK
                cases e
                rw [get_collect, ha] at hx
                rw [frameMd_uniform hw hu hmd ha hx]
                exact optGet_eq_some.mp hx
            · intro hc
              have hfr := optGet_eq_some.mpr hc
              obtain ⟨x, hx, md, rfl, hmd⟩ := exists_genBody O box hw (.framing i) n a ha (by simp [hasKey, hfr])
              refine ⟨md, _, g, hx, hmd.hasId, ?_, (frameMd_uniform hw hu hmd ha hfr).symm⟩
              rw [get_collect, ha]; exact hfr
          | _ => exact absurd rfl hf
    rw [reload_get]
    constructor
    · rintro ⟨a, t, ha, ht, rfl⟩
      rw [key a t ha ht]; exact ha
    · intro ha
      obtain ⟨t, ht⟩ := Option.isSome_iff_exists.mp (hw.attrs n a' ha).typed
      exact ⟨a', t, ha, ht, (key a' t ha ht).symm⟩
  · exact hw.mappings.symm
  · apply opt_map_ext hr'.plain.metas hr.plain.metas
    intro l ps
    rw [← optGet_eq_some, ← optGet_eq_some]
    exact reload_meta hw l ps
  · rfl

/-! ## The classification does not influence anything else -/

/-- the same state with another classification -/
def OCABox.withClass (b : OCABox) (cl : Option Str) : OCABox := { b with classification := cl }

/-- the same result with another classification -/
def Res.withClass {ε : Type} (cl : Option Str) : Res ε OCABox → Res ε OCABox
  | .ok b => .ok (b.withClass cl)
  | .err e => .err e
  | .panic => .panic

theorem addAttribute_withClass (b : OCABox) (n : Str) (a : Attribute) (cl : Option Str) :
    (b.withClass cl).addAttribute n a = (b.addAttribute n a).withClass cl := by
  unfold OCABox.addAttribute
  show (match b.attributes.get n with | some a0 => _ | none => _) = _
  cases b.attributes.get n <;> rfl

theorem foldRes_withClass {ε α : Type} {f : OCABox → α → Res ε OCABox} (cl : Option Str)
    (hf : ∀ b a, f (b.withClass cl) a = (f b a).withClass cl) (l : List α) (b : OCABox) :
    foldRes f (b.withClass cl) l = (foldRes f b l).withClass cl := by
  induction l generalizing b with
  | nil => rfl
  | cons a t ih =>
    simp only [foldRes]
    rw [hf]
    cases f b a with
    | ok b1 => exact ih b1
    | err e => rfl
    | panic => rfl

theorem apply_withClass (E : Env) (b : OCABox) (c : Command) (cl : Option Str) :
    applyCommand E (some (b.withClass cl)) c = (applyCommand E (some b) c).withClass ((classEffect c).getD cl) := by
  obtain ⟨kind, obj⟩ := c
  cases kind with
  | «from» => cases obj <;> rfl
  | modify => cases obj <;> rfl
  | remove =>
    cases obj with
    | ocaBundle r => rfl
    | overlay t cc => rfl
    | captureBase cc =>
      rw [applyRemoveBase, applyRemoveBase]
      simp only [classEffect, Res.withClass, OCABox.withClass, boxRemove]
      split <;> rfl
  | add =>
    cases obj with
    | ocaBundle r => rfl
    | captureBase cc =>
      rw [applyAddBase, applyAddBase]
      have h1 : ∀ (l : List (Str × NAttr)) (b : OCABox), l.foldl addAttrStep (b.withClass cl) = (l.foldl addAttrStep b).withClass cl := by
        intro l
        induction l with
        | nil => intro b; rfl
        | cons p t ih =>
          intro b
          rw [List.foldl_cons, List.foldl_cons, ← ih]
          unfold addAttrStep
          rw [addAttribute_withClass]
      simp only [classEffect, Res.withClass, boxAdd, h1]
      unfold OCABox.withClass classOf
      cases FMap.lastVal (textPairs (cc.properties.getD [])) c!"classification" <;> rfl
    | overlay t cc =>
      show applyOverlay E (b.withClass cl) t.kind cc = (applyOverlay E b t.kind cc).withClass cl
      by_cases hm : t.kind = .metaOv
      · rw [hm, applyOverlay_meta, applyOverlay_meta]
        unfold applyMeta
        cases cc.properties with
        | none => rfl
        | some ps =>
          apply foldRes_withClass
          intro b p
          unfold metaStep
          cases p.2 <;> first | rfl | (cases cc.lang E <;> rfl)
      · by_cases hk : loopKind t.kind = true
        · obtain ⟨errs, f, h1, -⟩ := (ovSetter_loop E t.kind cc).1 hk
          rw [applyOverlay_loop E _ t.kind cc h1, applyOverlay_loop E b t.kind cc h1, foldRes_withClass]
          · cases foldRes (ovAttrStep errs f) b cc.attrs with
            | ok x =>
              simp only [Res.withClass, Res.bind_ok]
              split <;> rfl
            | err e => rfl
            | panic => rfl
          · intro b p
            unfold ovAttrStep
            show (match b.attributes.get p.1 with | none => _ | some a => _) = _
            cases b.attributes.get p.1 with
            | none => rfl
            | some a =>
              dsimp only
              cases f a p.2 with
              | ok a' => exact congrArg Res.ok (addAttribute_withClass ..)
              | err e => rfl
              | panic => rfl
        · rw [applyOverlay_other E _ _ _ (by simpa using hk) hm, applyOverlay_other E _ _ _ (by simpa using hk) hm]
          rfl

/-- Two states differ at most in that one has no classification and the other an empty one. -/
def SameState (b b' : OCABox) : Prop :=
  ∃ cl, b' = b.withClass cl ∧ cl.getD [] = b.classification.getD []

theorem SameState.refl (b : OCABox) : SameState b b := ⟨b.classification, rfl, rfl⟩

theorem SameState.bundle {E : Env} {O : Order} {b b' : OCABox} (h : SameState b b') : bundleOf E O b' = bundleOf E O b := by
  obtain ⟨cl, rfl, h⟩ := h
  have : baseOfBox O (b.withClass cl) = baseOfBox O b := by
    unfold baseOfBox
    simp only [OCABox.withClass, h]
  unfold bundleOf
  rw [this]
  rfl

/-- The same kind of result, and the same state or messages. -/
def SameResult : Res (List Str) OCABox → Res (List Str) OCABox → Prop
  | .ok b, .ok b' => SameState b b'
  | .err e, .err e' => e = e'
  | .panic, .panic => True
  | _, _ => False

theorem SameState.apply {E : Env} {b b' : OCABox} (h : SameState b b') (c : Command) :
    SameResult (applyCommand E (some b) c) (applyCommand E (some b') c) := by
  obtain ⟨cl, rfl, hc⟩ := h
  rw [apply_withClass]
  cases ha : applyCommand E (some b) c with
  | ok x =>
    refine ⟨_, rfl, ?_⟩
    rw [class_step E b x c ha]
    cases classEffect c with
    | none => exact hc
    | some o => rfl
  | err e => rfl
  | panic => exact trivial

/-! ## Running the same commands on two such states -/

/-- what a step records besides its parent -/
def BuildStep.what (s : BuildStep) : Command × Bundle := (s.command, s.result)

/-- The two builds ended in the same way: with the same bundle, the second with the steps of the first after the steps `pre`;
or with the same messages; or both were aborted. -/
def SameTail (pre : List BuildStep) : Res (List BuildErr) Build → Res (List BuildErr) Build → Prop
  | .ok r, .ok r' => r'.bundle = r.bundle ∧ r'.steps.map BuildStep.what = pre.map BuildStep.what ++ r.steps.map BuildStep.what
  | .err e, .err e' => e'.map BuildErr.message = e.map BuildErr.message
  | .panic, .panic => True
  | _, _ => False

/-- the loop variables of two such builds -/
structure LoopRel (E : Env) (pre : List BuildStep) (st st' : LoopState) : Prop where
  errors : st'.errors.map BuildErr.message = st.errors.map BuildErr.message
  steps : st'.steps.map BuildStep.what = pre.map BuildStep.what ++ st.steps.map BuildStep.what
  base : ∃ b b', st.base = some b ∧ st'.base = some b' ∧ SameState b b' ∧ Reachable E b ∧ Reachable E b'

theorem finish_rel {E : Env} {O : Order} {pre : List BuildStep} {st st' : LoopState} (h : LoopRel E pre st st') :
    SameTail pre (buildFinish E O st) (buildFinish E O st') := by
  obtain ⟨h1, h2, b, b', e, e', hs, hr, hr'⟩ := h
  unfold buildFinish
  have hem : st'.errors.isEmpty = st.errors.isEmpty := by
    have := congrArg List.isEmpty h1
    simpa using this
  rw [hem, e, e']
  simp only [Res.unwrap_some, Res.bind_ok]
  rw [reachable_gen hr, reachable_gen hr', hs.bundle]
  split
  · exact ⟨rfl, h2⟩
  · exact h1

theorem loop_rel {E : Env} {pre : List BuildStep} {Os Os' : Nat → Order} {ast ast' : OCAAst} {shift shift' k : Nat}
    (cs : List Command) : ∀ (i : Nat) (st st' : LoopState), (∀ j, Os' (k + j) = Os j) → LoopRel E pre st st' →
    (buildLoop E Os ast shift i st cs = .panic ∧ buildLoop E Os' ast' shift' (k + i) st' cs = .panic) ∨
    ∃ x x', buildLoop E Os ast shift i st cs = .ok x ∧ buildLoop E Os' ast' shift' (k + i) st' cs = .ok x' ∧
      LoopRel E pre x x' := by
  induction cs with
  | nil => intro i st st' _ h; exact .inr ⟨st, st', rfl, rfl, h⟩
  | cons c cs ih =>
    intro i st st' hO h
    obtain ⟨h1, h2, b, b', e, e', hs, hr, hr'⟩ := h
    have ha := hs.apply (E := E) c
    simp only [buildLoop, buildStep]
    rw [e, e']
    cases hx : applyCommand E (some b) c with
    | panic =>
      rw [hx] at ha
      cases hx' : applyCommand E (some b') c with
      | panic => exact .inl ⟨rfl, rfl⟩
      | ok y => rw [hx'] at ha; exact ha.elim
      | err y => rw [hx'] at ha; exact ha.elim
    | err es =>
      rw [hx] at ha
      cases hx' : applyCommand E (some b') c with
      | panic => rw [hx'] at ha; exact ha.elim
      | ok y => rw [hx'] at ha; exact ha.elim
      | err es' =>
        rw [hx'] at ha
        have ha : es = es' := ha
        subst ha
        dsimp only
        simp only [Res.bind_ok]
        rw [Nat.add_assoc k i 1]
        apply ih (i + 1) _ _ hO
        refine ⟨?_, h2, b, b', rfl, rfl, hs, hr, hr'⟩
        simp only [List.map_append, List.map_map, h1]
        rfl
    | ok x =>
      rw [hx] at ha
      cases hx' : applyCommand E (some b') c with
      | panic => rw [hx'] at ha; exact ha.elim
      | err y => rw [hx'] at ha; exact ha.elim
      | ok x' =>
        rw [hx'] at ha
        have ha : SameState x x' := ha
        have hrx : Reachable E x := Reachable.step _ _ c hr hx
        have hrx' : Reachable E x' := Reachable.step _ _ c hr' hx'
        dsimp only
        rw [reachable_gen hrx, reachable_gen hrx', ha.bundle, hO i]
        simp only [Res.bind_ok, Res.pure_eq]
        rw [Nat.add_assoc k i 1]
        apply ih (i + 1) _ _ hO
        refine ⟨h1, ?_, x, x', rfl, rfl, ha, hrx, hrx'⟩
        simp only [List.map_append, h2, List.append_assoc]
        rfl

theorem buildLoop_append (E : Env) (Os : Nat → Order) (ast : OCAAst) (shift : Nat) (l l' : List Command) :
    ∀ (i : Nat) (st : LoopState), buildLoop E Os ast shift i st (l ++ l') = (do
      let st ← buildLoop E Os ast shift i st l
      buildLoop E Os ast shift (i + l.length) st l') := by
  induction l with
  | nil => intro i st; rfl
  | cons c l ih =>
    intro i st
    show Res.bind _ _ = Res.bind (Res.bind _ _) _
    cases buildStep E (Os i) (cmdMeta ast (i + shift)) st c with
    | ok x =>
      have e : i + (c :: l).length = i + 1 + l.length := by rw [List.length_cons]; omega
      rw [e]
      exact ih (i + 1) x
    | err e => rfl
    | panic => rfl

theorem stepsFrom_congr (E : Env) {Os Os' : Nat → Order} (cs : List Command) : ∀ (i : Nat) (p : Option Said) (b : Option OCABox),
    (∀ j, j < i + cs.length → Os' j = Os j) → stepsFrom E Os' i p b cs = stepsFrom E Os i p b cs := by
  induction cs with
  | nil => intro i p b _; rfl
  | cons c cs ih =>
    intro i p b h
    have hi : Os' i = Os i := h i (by simp)
    simp only [List.length_cons] at h
    have h' : ∀ j, j < i + 1 + cs.length → Os' j = Os j := fun j hj => h j (by omega)
    simp only [stepsFrom, hi]
    cases applyCommand E b c with
    | ok x => dsimp only; rw [ih _ _ _ h']
    | err e => exact ih _ _ _ h'
    | panic => exact ih _ _ _ h'

/-- the first `k` generations with the one, all later ones with the other hash orders -/
def splice (k : Nat) (Os Os' : Nat → Order) (i : Nat) : Order := if i < k then Os i else Os' (i - k)

/-- What holds when the base that is loaded is, up to an empty classification, the state the first build ended with. -/
theorem continue_of_state (E : Env) (Os1 Os2 : Nat → Order) (ast1 ast2 ast : OCAAst) (r1 : Build)
    (h : fromAst E Os1 none ast1 = .ok r1) (hc : ast.commands = ast1.commands ++ ast2.commands)
    (b0 : Bundle) (box box0 : OCABox) (hfin : finalState E none ast1.commands = some box)
    (hl : (OCABox.ofBundle E b0 : Res (List BuildErr) _) = .ok box0) (hs : SameState box0 box) :
    SameTail r1.steps (fromAst E Os2 (some b0) ast2) (fromAst E (splice ast1.commands.length Os1 Os2) none ast) := by
  obtain ⟨base, box', hb, hok, hfin', hr, -, -, -, -, -⟩ := C12_successful_build E Os1 none ast1 r1 h
  cases hb
  rw [hfin] at hfin'
  cases hfin'
  have hr0 : Reachable E box0 := Reachable.loaded _ _ hl
  have hp : Res.panic ∉ results E none ast1.commands := fun hp => by cases hok _ hp
  have he : ∀ es, Res.err es ∉ results E none ast1.commands := fun es hp => by cases hok _ hp
  have hreach : OptReach E none := fun _ h => (by cases h)
  -- the first build
  obtain ⟨st1, a1, a2, a3, a4⟩ := (buildLoop_spec E Os1 ast1 0 ast1.commands 0 ⟨[], [], none, none⟩ hreach).2 hp
  have hsteps : r1.steps = st1.steps := by
    have h' := h
    unfold fromAst at h'
    simp only [baseOf, Res.bind_ok, Option.isSome_none, Bool.false_eq_true, if_false, Option.bind_none] at h'
    rw [a1] at h'
    simp only [Res.bind_ok, buildFinish] at h'
    split at h'
    · obtain ⟨y, -, h'⟩ := Res.bind_eq_ok.mp h'
      obtain ⟨z, -, h'⟩ := Res.bind_eq_ok.mp h'
      cases h'; rfl
    · cases h'
  -- the first part of the long build
  let Os := splice ast1.commands.length Os1 Os2
  obtain ⟨st, c1, c2, c3, c4⟩ := (buildLoop_spec E Os ast 0 ast1.commands 0 ⟨[], [], none, none⟩ hreach).2 hp
  have hst : st.steps = r1.steps := by
    rw [hsteps, c4, a4]
    simp only [List.nil_append]
    apply stepsFrom_congr
    intro j hj
    exact if_pos (by simpa using hj)
  have hse : st.errors = [] := by
    rw [c2, (errorsFrom_eq_nil ast 0 E _ 0 none).mpr he]; rfl
  have hlong : fromAst E Os none ast = (do
      let st ← buildLoop E Os ast 0 (ast1.commands.length + 0) st ast2.commands
      buildFinish E (Os ast.commands.length) st) := by
    unfold fromAst
    simp only [baseOf, Res.bind_ok, Option.isSome_none, Bool.false_eq_true, if_false, Option.bind_none]
    rw [hc, buildLoop_append, c1]
    simp only [Res.bind_ok, Nat.zero_add, Nat.add_zero]
  have hshort : fromAst E Os2 (some b0) ast2 = (do
      let st ← buildLoop E Os2 ast2 1 0 ⟨[], [], b0.said, some box0⟩ ast2.commands
      buildFinish E (Os2 ast2.commands.length) st) := by
    unfold fromAst
    simp only [baseOf]
    rw [hl]
    rfl
  have hO : ∀ j, Os (ast1.commands.length + j) = Os2 j := by
    intro j
    show (if _ then _ else _) = _
    rw [if_neg (by omega), Nat.add_sub_cancel_left]
  have hrel : LoopRel E r1.steps ⟨[], [], b0.said, some box0⟩ st := by
    refine ⟨by rw [hse], by rw [hst]; simp, box0, box, rfl, ?_, hs, hr0, hr⟩
    rw [c3]; exact hfin
  show SameTail r1.steps _ (fromAst E Os none ast)
  rw [hlong, hshort, hc, List.length_append, hO]
  rcases loop_rel (ast := ast2) (ast' := ast) (shift := 1) (shift' := 0) ast2.commands 0 _ _ hO hrel with ⟨x1, x2⟩ | ⟨x, x', x1, x2, x3⟩
  · rw [x1, x2]; exact trivial
  · rw [x1, x2]; exact finish_rel x3

/-! ## Frames described in one way -/

/-- The command describes frames as `M` says. -/
def Command.FramesAs (M : Str → FMap Str) (c : Command) : Prop :=
  ∀ t cc i, c = ⟨.add, .overlay t cc⟩ → t.kind = .attributeFraming → cc.frameId = some i → cc.frameMeta = M i

theorem get_ofList_lastVal {V : Type} (l : List (Str × V)) (k : Str) : (FMap.ofList l).get k = FMap.lastVal l k := by
  unfold FMap.ofList
  rw [FMap.get_insertAll]
  simp

theorem Uniform.put {E : Env} {M : Str → FMap Str} {k : OvKind} {c : Content} {a : Attribute} {v : NVal}
    (hc : k = .attributeFraming → ∀ i, c.frameId = some i → c.frameMeta = M i)
    (h : ∀ i fr q sc, optGet a.framings i = some fr → fr.get q = some sc → sc.frameMeta = M i) :
    ∀ i fr q sc, optGet (a.put E k c v).framings i = some fr → fr.get q = some sc → sc.frameMeta = M i := by
  by_cases hk : k = .attributeFraming
  · subst hk
    have hc := hc rfl
    intro i fr q sc h1 h2
    simp only [Attribute.put] at h1
    split at h1
    · rename_i l id hid
      simp only [optGet, Option.bind_some, FMap.get_insert] at h1
      split at h1
      · rename_i hi
        cases h1
        rw [FMap.get_insertAll_map] at h2
        cases hf : (framingOf c.frameMeta l).get q with
        | some s =>
          rw [hf] at h2
          cases h2
          unfold framingOf at hf
          have := FMap.mem_of_lastVal (get_ofList_lastVal _ _ ▸ hf)
          obtain ⟨p, hp, e⟩ := List.mem_filterMap.mp this
          cases hs : scopeOf c.frameMeta p.2 with
          | none => rw [hs] at e; cases e
          | some s' =>
            rw [hs] at e
            cases e
            unfold scopeOf at hs
            split at hs
            · split at hs
              · split at hs
                · cases hs; rw [hi]; exact hc id hid
                · cases hs
              · cases hs
            · cases hs
        | none =>
          rw [hf] at h2
          cases hg : optGet a.framings id with
          | none => rw [show (a.framings.bind fun x => x.get id) = none from hg] at h2; cases h2
          | some g =>
            rw [show (a.framings.bind fun x => x.get id) = some g from hg] at h2
            rw [hi]
            exact h id g q sc hg h2
      · cases hm : a.framings with
        | none => rw [hm] at h1; cases h1
        | some m =>
          rw [hm] at h1
          exact h i fr q sc (by rw [hm]; exact h1) h2
    · exact h i fr q sc h1 h2
  · have : (a.put E k c v).framings = a.framings := by
      unfold Attribute.put
      cases k <;> dsimp only
      all_goals first
        | rfl
        | exact absurd rfl hk
        | (split <;> first | rfl | (split <;> rfl))
    rw [this]; exact h

theorem OCABox.Uniform.insert {M : Str → FMap Str} {b : OCABox} (h : b.Uniform M) {n : Str} {a : Attribute}
    (ha : ∀ i fr q sc, optGet a.framings i = some fr → fr.get q = some sc → sc.frameMeta = M i) :
    ({ b with attributes := b.attributes.insert n a } : OCABox).Uniform M := by
  intro n' a' i fr q sc hg h1 h2
  simp only [FMap.get_insert] at hg
  split at hg
  · cases hg; exact ha i fr q sc h1 h2
  · exact h n' a' i fr q sc hg h1 h2

theorem OCABox.Uniform.apply {E : Env} {M : Str → FMap Str} {b b' : OCABox} {c : Command} (h : b.Uniform M) (hc : c.FramesAs M)
    (ha : applyCommand E (some b) c = .ok b') : b'.Uniform M := by
  obtain ⟨kind, obj⟩ := c
  cases kind with
  | «from» => cases obj <;> cases ha
  | modify => cases obj <;> cases ha
  | remove =>
    cases obj with
    | ocaBundle r => cases ha
    | overlay t cc => cases ha
    | captureBase cc =>
      rw [applyRemoveBase] at ha
      cases ha
      intro n a i fr q sc hg h1 h2
      rw [get_boxRemove] at hg
      split at hg
      · cases hg
      · exact h n a i fr q sc hg h1 h2
  | add =>
    cases obj with
    | ocaBundle r => cases ha
    | captureBase cc =>
      rw [applyAddBase] at ha
      cases ha
      intro n a i fr q sc hg h1 h2
      rw [get_boxAdd] at hg
      split at hg
      · cases hg
        cases hb : b.attributes.get n with
        | none => rw [hb] at h1; cases h1
        | some a0 => rw [hb] at h1; exact h n a0 i fr q sc hb h1 h2
      · exact h n a i fr q sc hg h1 h2
    | overlay t cc =>
      have ha : applyOverlay E b t.kind cc = .ok b' := ha
      by_cases hm : t.kind = .metaOv
      · rw [hm, applyOverlay_meta, applyMeta_ok_iff] at ha
        rcases ha with ⟨-, rfl⟩ | ⟨l, -, rfl⟩ <;> exact h
      · by_cases hk : loopKind t.kind = true
        · obtain ⟨errs, f, h1, -⟩ := (ovSetter_loop E t.kind cc).1 hk
          rw [applyOverlay_loop E b t.kind cc h1] at ha
          obtain ⟨x, hx, hy⟩ := Res.bind_eq_ok.mp ha
          split at hy
          · cases hy
            refine foldRes_inv (fun x : OCABox => x.Uniform M) ?_ _ _ _ h hx
            intro y p y' hy hs
            unfold ovAttrStep at hs
            split at hs
            · cases hs
            · next a hga =>
              obtain ⟨a', hf, h2⟩ := Res.bind_eq_ok.mp hs
              cases h2
              rw [addAttribute_some y p.1 a a' hga, merge_setter E _ _ h1 _ _ _ hf]
              exact hy.insert (Uniform.put (fun e i hi => hc t cc i rfl e hi) (fun i fr q sc g1 g2 => hy _ _ i fr q sc hga g1 g2))
          · cases hy
        · rw [applyOverlay_other E _ _ _ (by simpa using hk) hm] at ha
          cases ha; exact h

theorem finalState_uniform {E : Env} {M : Str → FMap Str} (cs : List Command) : ∀ (b : Option OCABox),
    (∀ x, b = some x → x.Uniform M) → (∀ c ∈ cs, c.FramesAs M) → ∀ x, finalState E b cs = some x → x.Uniform M := by
  induction cs with
  | nil => intro b h _ x hx; exact h x hx
  | cons c cs ih =>
    intro b h hc x hx
    refine ih _ ?_ (fun c' h' => hc c' (List.mem_cons_of_mem _ h')) x hx
    intro y hy
    cases ha : applyCommand E b c with
    | ok z =>
      rw [ha] at hy
      cases hy
      cases b with
      | none =>
        rw [applyCommand_none] at ha
        exact OCABox.Uniform.apply (fun n a i fr q sc hg => by cases hg) (hc c (List.mem_cons_self ..)) ha
      | some b => exact OCABox.Uniform.apply (h b rfl) (hc c (List.mem_cons_self ..)) ha
    | err e => rw [ha] at hy; exact h y hy
    | panic => rw [ha] at hy; exact h y hy

/-- All commands that describe the same frame describe it in the same way: apart from the id they have the same text
properties. -/
def SameFrameMeta (cs : List Command) : Prop :=
  ∀ t cc t' cc', ⟨.add, .overlay t cc⟩ ∈ cs → ⟨.add, .overlay t' cc'⟩ ∈ cs → t.kind = .attributeFraming → t'.kind = .attributeFraming →
    cc.frameId = cc'.frameId → cc.frameMeta = cc'.frameMeta

/-- the metadata the first command gives the frame -/
def frameMetaIn (cs : List Command) (i : Str) : FMap Str :=
  (cs.findSome? fun c => match c with
    | ⟨.add, .overlay t cc⟩ => if t.kind = .attributeFraming ∧ cc.frameId = some i then some cc.frameMeta else none
    | _ => none).getD FMap.empty

theorem SameFrameMeta.framesAs {cs : List Command} (h : SameFrameMeta cs) : ∀ c ∈ cs, c.FramesAs (frameMetaIn cs) := by
  rintro c hc t cc i rfl hk hi
  unfold frameMetaIn
  cases hf : cs.findSome? (fun c => match c with
    | ⟨.add, .overlay t cc⟩ => if t.kind = .attributeFraming ∧ cc.frameId = some i then some cc.frameMeta else none
    | _ => none) with
  | none =>
    have := List.findSome?_eq_none_iff.mp hf _ hc
    simp [hk, hi] at this
  | some m =>
    obtain ⟨c', hc', e⟩ := List.exists_of_findSome?_eq_some hf
    show cc.frameMeta = m
    obtain ⟨kind, obj⟩ := c'
    cases kind <;> cases obj <;> dsimp only at e <;> first | cases e | skip
    split at e
    · next hh =>
      cases e
      exact h _ _ _ _ hc hc' hk hh.1 (by rw [hi, hh.2])
    · cases e

/-! ## C58 -/

/-- **C58** A build on the bundle another build made (`FROM`) ends exactly as the one build of all the commands, those of the
first followed by those of the second: with the same bundle and the same steps, or with the same messages, or both abort -
provided the commands of the first build describe each frame in one way. -/
theorem C58_from_continues (E : Env) (Os1 Os2 : Nat → Order) (ast1 ast2 ast : OCAAst) (r1 : Build)
    (h : fromAst E Os1 none ast1 = .ok r1) (hf : SameFrameMeta ast1.commands)
    (hc : ast.commands = ast1.commands ++ ast2.commands) :
    SameTail r1.steps (fromAst E Os2 (some r1.bundle) ast2) (fromAst E (splice ast1.commands.length Os1 Os2) none ast) := by
  obtain ⟨base, box, hb, hok, hfin, hr, -, -, -, hg, -⟩ := C12_successful_build E Os1 none ast1 r1 h
  cases hb
  obtain ⟨-, hbu⟩ := generateBundle_eq_ok hg
  have hu := finalState_uniform (M := frameMetaIn ast1.commands) ast1.commands none (fun _ h => by cases h) hf.framesAs box hfin
  have hl := ofBundle_generated (ε := List BuildErr) E (Os1 ast1.commands.length) box hr.wf
  rw [← hbu] at hl
  refine continue_of_state E Os1 Os2 ast1 ast2 ast r1 h hc r1.bundle box _ hfin hl ?_
  rw [reload_same hr hu]
  exact ⟨box.classification, rfl, rfl⟩

theorem buildLoop_errors {E : Env} {Os : Nat → Order} {ast : OCAAst} {shift : Nat} (cs : List Command) :
    ∀ (i : Nat) (st x : LoopState), buildLoop E Os ast shift i st cs = .ok x → x.errors = [] → st.errors = [] := by
  induction cs with
  | nil => intro i st x h; cases h; exact id
  | cons c cs ih =>
    intro i st x h hx
    obtain ⟨y, h1, h2⟩ := Res.bind_eq_ok.1 (show Res.bind _ _ = _ from h)
    have hy := ih _ _ _ h2 hx
    unfold buildStep at h1
    cases ha : applyCommand E st.base c with
    | panic => rw [ha] at h1; cases h1
    | err es =>
      rw [ha] at h1
      cases h1
      exact (List.append_eq_nil_iff.1 hy).1
    | ok box =>
      rw [ha] at h1
      obtain ⟨b, -, h3⟩ := Res.bind_eq_ok.1 (show Res.bind _ _ = _ from h1)
      cases h3
      exact hy

theorem buildLoop_lines {E : Env} {Os : Nat → Order} {ast ast' : OCAAst} {shift : Nat} (cs : List Command) :
    ∀ (i : Nat) (st x : LoopState), buildLoop E Os ast shift i st cs = .ok x → x.errors = [] →
      buildLoop E Os ast' shift i st cs = .ok x := by
  induction cs with
  | nil => intro i st x h _; exact h
  | cons c cs ih =>
    intro i st x h hx
    obtain ⟨y, h1, h2⟩ := Res.bind_eq_ok.1 (show Res.bind _ _ = _ from h)
    have hy := buildLoop_errors cs _ _ _ h2 hx
    refine Res.bind_eq_ok.2 ⟨y, ?_, ih _ _ _ h2 hx⟩
    unfold buildStep at h1 ⊢
    cases ha : applyCommand E st.base c with
    | panic => rw [ha] at h1; cases h1
    | err es =>
      rw [ha] at h1
      cases h1
      have : es = [] := by simpa using (List.append_eq_nil_iff.1 hy).2
      rw [this]; rfl
    | ok box => rw [ha] at h1; exact h1

/-- The line numbers kept for messages do not matter to a build that succeeds. -/
theorem fromAst_lines (E : Env) (Os : Nat → Order) (o : Option Bundle) (ast ast' : OCAAst) (r : Build)
    (h : fromAst E Os o ast = .ok r) (hc : ast'.commands = ast.commands) : fromAst E Os o ast' = .ok r := by
  unfold fromAst at h ⊢
  obtain ⟨b, h1, h⟩ := Res.bind_eq_ok.1 (show Res.bind _ _ = _ from h)
  obtain ⟨x, h2, h⟩ := Res.bind_eq_ok.1 (show Res.bind _ _ = _ from h)
  have hx : x.errors = [] := by
    unfold buildFinish at h
    cases he : x.errors with
    | nil => rfl
    | cons e es => rw [he] at h; cases h
  refine Res.bind_eq_ok.2 ⟨b, h1, Res.bind_eq_ok.2 ⟨x, ?_, ?_⟩⟩
  · rw [hc]; exact buildLoop_lines _ _ _ _ h2 hx
  · rw [hc]; exact h

/-- A chain of builds, each on the bundle of the one before: all commands, all recorded steps and the last bundle. -/
inductive Chain (E : Env) : List Command → List BuildStep → Bundle → Prop
  | first (Os : Nat → Order) (ast : OCAAst) (r : Build) : fromAst E Os none ast = .ok r → Chain E ast.commands r.steps r.bundle
  | next (cs : List Command) (ss : List BuildStep) (b : Bundle) (Os : Nat → Order) (ast : OCAAst) (r : Build) :
    Chain E cs ss b → fromAst E Os (some b) ast = .ok r → Chain E (cs ++ ast.commands) (ss ++ r.steps) r.bundle

/-- **C58** However many builds are chained with `FROM`, the last bundle and the whole recorded history are those of the one
build of all the commands. -/
theorem C58_chain (E : Env) (cs : List Command) (ss : List BuildStep) (b : Bundle) (h : Chain E cs ss b) (hf : SameFrameMeta cs)
    (ast : OCAAst) (hc : ast.commands = cs) :
    ∃ Os r, fromAst E Os none ast = .ok r ∧ r.bundle = b ∧ r.steps.map BuildStep.what = ss.map BuildStep.what := by
  induction h generalizing ast with
  | first Os ast1 r h =>
    exact ⟨Os, r, fromAst_lines E Os none ast1 ast r h hc, rfl, rfl⟩
  | next cs ss b Os ast2 r2 hch h2 ih =>
    have hf1 : SameFrameMeta cs := fun t cc t' cc' m m' =>
      hf t cc t' cc' (List.mem_append_left _ m) (List.mem_append_left _ m')
    obtain ⟨Os1, r1, e1, eb, es⟩ := ih hf1 { ast with commands := cs } rfl
    have hs := C58_from_continues E Os1 Os { ast with commands := cs } ast2 ast r1 e1 hf1 hc
    rw [eb, h2] at hs
    cases e : fromAst E (splice cs.length Os1 Os) none ast with
    | ok r =>
      have hs' : SameTail r1.steps (.ok r2) (.ok r) := e ▸ hs
      exact ⟨_, r, e, hs'.1, by rw [hs'.2, es, List.map_append]⟩
    | err x => exact ((e ▸ hs : SameTail r1.steps (.ok r2) (.err x))).elim
    | panic => exact ((e ▸ hs : SameTail r1.steps (.ok r2) .panic)).elim

/-- a file of commands -/
def astOf (cs : List Command) : OCAAst := { OCAAst.new with commands := cs }

/-- the identifier of the bundle a build makes -/
def saidOf : Res (List BuildErr) Build → Option Said
  | .ok r => r.bundle.said
  | _ => none

/-- `FROM`: one build on the bundle of another -/
def fromTwo (E : Env) (O : Order) (cs ds : List Command) : Res (List BuildErr) Build :=
  match fromAst E (fun _ => O) none (astOf cs) with
  | .ok r => fromAst E (fun _ => O) (some r.bundle) (astOf ds)
  | .err e => .err e
  | .panic => .panic

/-- all frames of these commands are described in one way -/
def sameFrameMetaB (cs : List Command) : Bool := cs.all fun c => cs.all fun d => match c, d with
  | ⟨.add, .overlay t cc⟩, ⟨.add, .overlay t' cc'⟩ =>
    !(decide (t.kind = .attributeFraming) && decide (t'.kind = .attributeFraming) && decide (cc.frameId = cc'.frameId)) ||
      decide (cc.frameMeta.l = cc'.frameMeta.l)
  | _, _ => true

theorem sameFrameMetaB_sound {cs : List Command} (h : sameFrameMetaB cs = true) : SameFrameMeta cs := by
  intro t cc t' cc' h1 h2 k1 k2 hi
  have := List.all_eq_true.1 (List.all_eq_true.1 h _ h1) _ h2
  simp [k1, k2, hi] at this
  exact FMap.ext fun k => congrArg (FMap.lget k) this

/-- what is added to the demo bundle by a second file -/
def moreCommands : List Command :=
  [addAttrs [(c!"city", .val .text)],
   addOv .label [(c!"lang", .val c!"en")] [(c!"city", .val c!"City"), (c!"age", .val c!"Age in years")],
   removeAttrs [c!"tags"]]

/-- **C58** is not vacuous: the demo build, continued by a second file on its bundle, and the one build of all commands -/
theorem C58_example : SameFrameMeta demoCommands ∧
    (saidOf (fromTwo Env.short Order.sorted demoCommands moreCommands)).isSome = true ∧
    saidOf (fromTwo Env.short Order.sorted demoCommands moreCommands) =
      saidOf (fromAst Env.short (fun _ => Order.sorted) none (astOf (demoCommands ++ moreCommands))) :=
  ⟨sameFrameMetaB_sound (by decide +kernel), by decide +kernel, by decide +kernel⟩

/-- two attributes in the same frame, of which only the first gives the frame's version -/
def oddFrames : List Command :=
  [addAttrs [(c!"a", .val .text), (c!"b", .val .text)],
   addOv .attributeFraming [(c!"id", .val c!"f"), (c!"version", .val c!"1")]
     [(c!"a", .obj [(c!"x", .obj [(c!"predicate_id", .val c!"p"), (c!"framing_justification", .val c!"j")])])],
   addOv .attributeFraming [(c!"id", .val c!"f")]
     [(c!"b", .obj [(c!"x", .obj [(c!"predicate_id", .val c!"p"), (c!"framing_justification", .val c!"j")])])]]

/-- **C58** The condition is needed: the version one attribute gave the frame is kept for the other one when the bundle is
loaded, so that after removing the first attribute `FROM` gives another bundle than the one build. -/
theorem C58_frames_needed : ¬ SameFrameMeta oddFrames ∧
    (saidOf (fromTwo Env.demo Order.sorted oddFrames [removeAttrs [c!"a"]])).isSome = true ∧
    (saidOf (fromAst Env.demo (fun _ => Order.sorted) none (astOf (oddFrames ++ [removeAttrs [c!"a"]])))).isSome = true ∧
    saidOf (fromTwo Env.demo Order.sorted oddFrames [removeAttrs [c!"a"]]) ≠
      saidOf (fromAst Env.demo (fun _ => Order.sorted) none (astOf (oddFrames ++ [removeAttrs [c!"a"]]))) := by
  refine ⟨?_, by decide +kernel, by decide +kernel, by decide +kernel⟩
  intro h
  have := h _ _ _ _ (List.mem_cons_of_mem _ (List.mem_cons_self ..))
    (List.mem_cons_of_mem _ (List.mem_cons_of_mem _ (List.mem_cons_self ..))) rfl rfl (by decide +kernel)
  have h2 := congrArg FMap.l this
  revert h2
  decide +kernel

end OCA
