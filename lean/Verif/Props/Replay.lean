import Verif.Lemmas.LoadStored
import Verif.Props.Objects
/-!
# C61: a stored base continues the build that made it, and every history replays
-/
namespace OCA

/-! ## Results of tidy-equal states -/

theorem results_append (E : Env) (l l' : List Command) : ∀ b : Option OCABox,
    results E b (l ++ l') = results E b l ++ results E (finalState E b l) l' := by
  induction l with
  | nil => intro b; rfl
  | cons c l ih => intro b; exact congrArg _ (ih _)

theorem finalState_append (E : Env) (l l' : List Command) : ∀ b : Option OCABox,
    finalState E b (l ++ l') = finalState E (finalState E b l) l' := by
  induction l with
  | nil => intro b; rfl
  | cons c l ih => intro b; exact ih _

theorem results_tidy {E : Env} (cs : List Command) : ∀ b b' : OCABox, b.tidy = b'.tidy →
    All2 TidyResult (results E (some b) cs) (results E (some b') cs) ∧
    ∃ x x', finalState E (some b) cs = some x ∧ finalState E (some b') cs = some x' ∧ x.tidy = x'.tidy := by
  induction cs with
  | nil => intro b b' h; exact ⟨.nil, b, b', rfl, rfl, h⟩
  | cons c cs ih =>
    intro b b' h
    have ha := tidy_apply (E := E) h c
    simp only [results, finalState]
    cases h1 : applyCommand E (some b) c <;> cases h2 : applyCommand E (some b') c <;> rw [h1, h2] at ha <;> first
      | exact ha.elim
      | exact ⟨.cons ha (ih _ _ ha).1, (ih _ _ ha).2⟩
      | exact ⟨.cons ha (ih _ _ h).1, (ih _ _ h).2⟩

/-- the messages of a rejected command -/
def resMessages : Res (List Str) OCABox → List Str
  | .err es => es
  | _ => []

/-- the messages of all rejected commands -/
def messagesOf (rs : List (Res (List Str) OCABox)) : List Str := rs.flatMap resMessages

theorem errorsFrom_messagesOf (ast : OCAAst) (shift : Nat) (rs : List (Res (List Str) OCABox)) : ∀ i,
    (errorsFrom ast shift i rs).map BuildErr.message = messagesOf rs := by
  induction rs with
  | nil => intro i; rfl
  | cons r rs ih =>
    intro i
    show _ = resMessages r ++ messagesOf rs
    cases r with
    | err es =>
      show List.map _ (List.map _ es ++ errorsFrom ast shift (i + 1) rs) = _
      rw [List.map_append, ih, List.map_map]
      exact congrArg (· ++ _) (List.map_id' _)
    | ok x => exact ih (i + 1)
    | panic => exact ih (i + 1)

theorem All2.tidy_facts {rs rs' : List (Res (List Str) OCABox)} (h : All2 TidyResult rs rs') :
    messagesOf rs = messagesOf rs' ∧ (Res.panic ∈ rs ↔ Res.panic ∈ rs') ∧ ((∃ es, Res.err es ∈ rs) ↔ ∃ es, Res.err es ∈ rs') := by
  induction h with
  | nil => exact ⟨rfl, Iff.rfl, Iff.rfl⟩
  | @cons r r' _ _ hr _ ih =>
    obtain ⟨h1, h2, h3⟩ := ih
    refine ⟨?_, ?_, ?_⟩
    · show resMessages r ++ messagesOf _ = resMessages r' ++ messagesOf _
      rw [h1]
      congr 1
      cases r <;> cases r' <;> first | exact hr.elim | rfl | exact hr
    · rw [List.mem_cons, List.mem_cons, h2]
      cases r <;> cases r' <;> first | exact hr.elim | simp
    · constructor
      · rintro ⟨es, he⟩
        rcases List.mem_cons.1 he with rfl | he
        · cases r' <;> first | exact hr.elim | exact ⟨_, .head _⟩
        · obtain ⟨x, hx⟩ := h3.1 ⟨es, he⟩; exact ⟨x, .tail _ hx⟩
      · rintro ⟨es, he⟩
        rcases List.mem_cons.1 he with rfl | he
        · cases r <;> first | exact hr.elim | exact ⟨_, .head _⟩
        · obtain ⟨x, hx⟩ := h3.2 ⟨es, he⟩; exact ⟨x, .tail _ hx⟩

theorem OCABox.Uniform.of_tidy {M : Str → FMap Str} {box box' : OCABox} (hu : box.Uniform M) (h : box.tidy = box'.tidy) :
    box'.Uniform M := by
  intro n a i fr k sc hg h5 h6
  have := (tidy_iff.mp h).1 n
  rw [hg] at this
  cases ha : box.attributes.get n with
  | none => rw [ha] at this; cases this
  | some a' =>
    rw [ha] at this
    simp only [Option.map_some, Option.some.injEq] at this
    have hfr : a'.framings = a.framings := by
      have := congrArg (fun a : Attribute => a.framings) this
      exact this
    rw [← hfr] at h5
    exact hu n a' i fr k sc ha h5 h6

/-! ## The JSON of a bundle determines all that is written of the state -/

/-- what is loaded from the JSON of a state's bundle -/
theorem stored_loads {E : Env} {O : Order} {box : OCABox} (hb : KeepBox E box) :
    ∃ b, Bundle.ofJson E ((bundleOf E O box).toJson E) = .ok b ∧ b.Shows O box ∧ b.said = (bundleOf E O box).said := by
  obtain ⟨b', h1, -, h3, h4, -, h6⟩ := C29_json_round_trip E (bundleOf E O box) (hb.bundle O).storable
  refine ⟨b', h1, ?_, h3⟩
  have := shows_loaded (O := O) hb
  obtain ⟨s, cb, ovs⟩ := b'
  cases h3; cases h4; cases h6
  exact this

theorem json_tidy {E : Env} {O O' : Order} {box box' : OCABox} (hb : KeepBox E box) (hb' : KeepBox E box')
    {M M' : Str → FMap Str} (hu : box.Uniform M) (hu' : box'.Uniform M')
    (hj : (bundleOf E O box).toJson E = (bundleOf E O' box').toJson E) : box.tidy = box'.tidy := by
  obtain ⟨b, h1, h2, -⟩ := stored_loads (O := O) hb
  obtain ⟨b', h1', h2', -⟩ := stored_loads (O := O') hb'
  rw [hj, h1'] at h1
  cases h1
  rw [← h2.tidy hb hu, ← h2'.tidy hb' hu']

/-! ## C61: the stored base -/

/-- The two builds end in the same way: with bundles that have the same SAID and the same JSON (unless two overlays of the bundle have the
same SAID), or with the same messages, or both abort. -/
def SameEnd (E : Env) : Res (List BuildErr) Build → Res (List BuildErr) Build → Prop
  | .ok r, .ok r' => (r.bundle.said = r'.bundle.said ∧ r.bundle.toJson E = r'.bundle.toJson E) ∨ r'.bundle.TwoAlike
  | .err e, .err e' => e.map BuildErr.message = e'.map BuildErr.message
  | .panic, .panic => True
  | _, _ => False

theorem SameFrameMeta.left {l l' : List Command} (h : SameFrameMeta (l ++ l')) : SameFrameMeta l :=
  fun t cc t' cc' m m' => h t cc t' cc' (List.mem_append_left _ m) (List.mem_append_left _ m')

/-- two runs from states that agree in what is written -/
theorem sameEnd_of {E : Env} {Os Os' : Nat → Order} {o o' : Option Bundle} {ast ast' : OCAAst} {base base' : Option OCABox}
    (h : (baseOf E o : Res (List BuildErr) _) = .ok base) (h' : (baseOf E o' : Res (List BuildErr) _) = .ok base')
    (pre : List (Res (List Str) OCABox)) (hpre : ∀ r ∈ pre, r.isOk = true) {rs : List (Res (List Str) OCABox)}
    (hrs : results E base' ast'.commands = pre ++ rs) (hall : All2 TidyResult (results E base ast.commands) rs)
    {x x' : OCABox} (hx : finalState E base ast.commands = some x) (hx' : finalState E base' ast'.commands = some x') (ht : x.tidy = x'.tidy)
    (hr : Reachable E x) (hr' : Reachable E x') (hc : FrameConsistent x) (hc' : FrameConsistent x') :
    SameEnd E (fromAst E Os o ast) (fromAst E Os' o' ast') := by
  obtain ⟨p1, p2, p3, p4⟩ := C12_build_outcome E Os o ast base h
  obtain ⟨q1, q2, q3, q4⟩ := C12_build_outcome E Os' o' ast' base' h'
  obtain ⟨t1, t2, t3⟩ := hall.tidy_facts
  have hpan : Res.panic ∈ results E base' ast'.commands ↔ Res.panic ∈ results E base ast.commands := by
    rw [hrs, List.mem_append, t2]
    exact ⟨fun h => h.elim (fun h => by cases hpre _ h) id, .inr⟩
  have herr : (∃ es, Res.err es ∈ results E base' ast'.commands) ↔ ∃ es, Res.err es ∈ results E base ast.commands := by
    rw [t3]
    constructor
    · rintro ⟨es, he⟩
      rw [hrs, List.mem_append] at he
      exact ⟨es, he.elim (fun h => by cases hpre _ h) id⟩
    · rintro ⟨es, he⟩
      exact ⟨es, by rw [hrs]; exact List.mem_append_right _ he⟩
  by_cases hp : Res.panic ∈ results E base ast.commands
  · rw [p1 hp, q1 (hpan.2 hp)]; exact trivial
  · by_cases he : ∃ es, Res.err es ∈ results E base ast.commands
    · rw [p2 hp he, q2 (fun h => hp (hpan.1 h)) (herr.2 he)]
      show List.map _ _ = List.map _ _
      rw [errorsFrom_messagesOf, errorsFrom_messagesOf, hrs, t1]
      have : messagesOf pre = [] := by
        apply List.flatMap_eq_nil_iff.2
        intro r hr
        have := hpre r hr
        cases r <;> first | rfl | cases this
      unfold messagesOf at this ⊢
      rw [List.flatMap_append, this, List.nil_append]
    · obtain ⟨b, hb⟩ := p4 hp he (by rw [hx]; intro h; cases h)
      obtain ⟨b', hb'⟩ := q4 (fun h => hp (hpan.1 h)) (fun h => he (herr.1 h)) (by rw [hx']; intro h; cases h)
      rw [hb, hb']
      obtain ⟨_, _, e1, -, e2, -, e3⟩ := fromAst_parts hb
      obtain ⟨_, _, f1, -, f2, -, f3⟩ := fromAst_parts hb'
      rw [h] at e1; cases e1
      rw [h'] at f1; cases f1
      rw [hx] at e2; cases e2
      rw [hx'] at f2; cases f2
      show (_ ∧ _) ∨ _
      rw [e3, f3]
      by_cases hn : (bundleOf E (Os' ast'.commands.length) x').TwoAlike
      · exact .inr hn
      · exact .inl (bundle_equal _ _ hr' hr hc' hc ht.symm hn)

/-- **C61** A build on a base that was stored and read back ends as the one build of all commands: with the same identifier and the same
JSON, or with the same messages, or both abort. The frames must be described in one way (C58), the commands must be storable (C29). -/
theorem C61_stored_base_continues (E : Env) (Os1 Os2 Os : Nat → Order) (ast1 ast2 ast : OCAAst) (r1 : Build)
    (h : fromAst E Os1 none ast1 = .ok r1) (hk : ∀ c ∈ ast1.commands, c.Keepable E)
    (hf : SameFrameMeta (ast1.commands ++ ast2.commands)) (hc : ast.commands = ast1.commands ++ ast2.commands) :
    ∃ b, Bundle.ofJson E (r1.bundle.toJson E) = .ok b ∧ b.said = r1.bundle.said ∧
      SameEnd E (fromAst E Os2 (some b) ast2) (fromAst E Os none ast) := by
  obtain ⟨base, box, hb, hok, hfin, -, hbu⟩ := fromAst_parts h
  cases hb
  have hfa := hf.framesAs
  have hu := finalState_uniform (M := frameMetaIn _) ast1.commands none (fun _ h => by cases h)
    (fun c hc => hfa c (List.mem_append_left _ hc)) box hfin
  have hkb : KeepBox E box := (stepsFrom_keep (Os := Os1) (i := 0) (p := none) (base := none) (fun _ h => by cases h) hk).2 box hfin
  obtain ⟨b, h1, h2, h3⟩ := stored_loads (O := Os1 ast1.commands.length) hkb
  have ht := h2.tidy hkb hu
  rw [← hbu] at h1 h3
  have hl := h2.load (ε := List BuildErr) (E := E) hkb.reach.wf
  refine ⟨b, h1, h3, ?_⟩
  obtain ⟨t1, x, x', e1, e2, e3⟩ := results_tidy (E := E) ast2.commands _ _ ht
  have hr0 : Reachable E (shownBox E b) := .loaded b _ hl
  have hu0 : (shownBox E b).Uniform _ := hu.of_tidy ht.symm
  have hfin' : finalState E none ast.commands = some x' := by
    rw [hc, finalState_append, hfin]; exact e2
  have hreach : ∀ (cs : List Command) (b : Option OCABox), OptReach E b → OptReach E (finalState E b cs) := by
    intro cs
    induction cs with
    | nil => intro b h; exact h
    | cons c cs ih => intro b h; exact ih _ (h.after c)
  have hrx : Reachable E x := hreach ast2.commands (some (shownBox E b)) (fun y hy => by cases hy; exact hr0) x e1
  have hrx' : Reachable E x' := hreach ast.commands none (fun y hy => by cases hy) x' hfin'
  have hux : x.Uniform _ := finalState_uniform ast2.commands (some (shownBox E b)) (fun y hy => by cases hy; exact hu0)
    (fun c hc => hfa c (List.mem_append_right _ hc)) x e1
  have hux' : x'.Uniform _ := finalState_uniform ast2.commands (some box) (fun y hy => by cases hy; exact hu)
    (fun c hc => hfa c (List.mem_append_right _ hc)) x' e2
  refine sameEnd_of (base := some (shownBox E b)) (base' := none) ?_ rfl (results E none ast1.commands) hok ?_ t1 e1 hfin' e3 hrx hrx'
    hux.consistent hux'.consistent
  · unfold baseOf
    dsimp only
    rw [hl]; rfl
  · rw [hc, results_append, hfin]

/-! ## Where the steps of a facade come from -/

/-- all recorded steps -/
def stepsOf (l : List Build) : List BuildStep := l.flatMap (·.steps)

/-- the state in which a step ended -/
structure BuildStep.MadeIn (E : Env) (M : Str → FMap Str) (st : BuildStep) (box : OCABox) : Prop where
  keep : KeepBox E box
  uni : box.Uniform M
  bundle : ∃ O, st.result = bundleOf E O box

/-- The step's command was applied to nothing, or to a state that, in what is written, is the one its parent ended in. -/
def BuildStep.Explained (E : Env) (M : Str → FMap Str) (l : List BuildStep) (st : BuildStep) : Prop :=
  st.command.Keepable E ∧ st.command.FramesAs M ∧ ∃ box prev, st.MadeIn E M box ∧ applyCommand E prev st.command = .ok box ∧
    ((st.parentSaid = none ∧ prev = none) ∨
      ∃ st' ∈ l, ∃ b' b0, st'.MadeIn E M b' ∧ prev = some b0 ∧ b0.tidy = b'.tidy ∧ st.parentSaid = st'.result.said)

theorem BuildStep.Explained.mono {E : Env} {M : Str → FMap Str} {l l' : List BuildStep} {st : BuildStep} (h : st.Explained E M l)
    (hl : ∀ x ∈ l, x ∈ l') : st.Explained E M l' := by
  obtain ⟨h1, h2, box, prev, h3, h4, h5⟩ := h
  refine ⟨h1, h2, box, prev, h3, h4, ?_⟩
  rcases h5 with h5 | ⟨st', h5, h6⟩
  · exact .inl h5
  · exact .inr ⟨st', hl _ h5, h6⟩

theorem stepsFrom_explained {E : Env} {M : Str → FMap Str} {Os : Nat → Order} (cs : List Command) : ∀ (L : List BuildStep) (i : Nat)
    (p : Option Said) (base : Option OCABox), (∀ c ∈ cs, c.Keepable E ∧ c.FramesAs M) →
    ((p = none ∧ base = none) ∨ ∃ st' ∈ L, ∃ b' b0, st'.MadeIn E M b' ∧ base = some b0 ∧ b0.tidy = b'.tidy ∧ p = st'.result.said ∧
      KeepBox E b0 ∧ b0.Uniform M) →
    ∀ st ∈ stepsFrom E Os i p base cs, st.Explained E M (L ++ stepsFrom E Os i p base cs) := by
  induction cs with
  | nil => intro L i p base _ _ st hst; cases hst
  | cons c cs ih =>
    intro L i p base hc hb
    have hc' : ∀ c ∈ cs, c.Keepable E ∧ c.FramesAs M := fun c h => hc c (.tail _ h)
    unfold stepsFrom
    cases ha : applyCommand E base c with
    | ok x =>
      dsimp only
      have hx : KeepBox E x ∧ x.Uniform M := by
        rcases hb with ⟨-, rfl⟩ | ⟨_, _, _, b0, -, rfl, -, -, h1, h2⟩
        · exact ⟨(KeepBox.new E).step (hc c (.head _)).1 ha,
            OCABox.Uniform.apply (fun n a i fr q sc hg => by cases hg) (hc c (.head _)).2 (applyCommand_none E c ▸ ha)⟩
        · exact ⟨h1.step (hc c (.head _)).1 ha, h2.apply (hc c (.head _)).2 ha⟩
      have hm : BuildStep.MadeIn E M ⟨p, c, bundleOf E (Os i) x⟩ x := ⟨hx.1, hx.2, _, rfl⟩
      intro st hst
      rcases List.mem_cons.1 hst with rfl | hst
      · refine ⟨(hc c (.head _)).1, (hc c (.head _)).2, x, base, hm, ha, ?_⟩
        rcases hb with hb | ⟨st', h1, b', b0, h2, h3, h4, h5, -⟩
        · exact .inl hb
        · exact .inr ⟨st', List.mem_append_left _ h1, b', b0, h2, h3, h4, h5⟩
      · refine (ih (L ++ [⟨p, c, bundleOf E (Os i) x⟩]) (i + 1) (bundleOf E (Os i) x).said (some x) hc' ?_ st hst).mono ?_
        · exact .inr ⟨_, List.mem_append_right _ (.head _), x, x, hm, rfl, rfl, rfl, hx.1, hx.2⟩
        · intro y hy
          rw [List.append_assoc] at hy
          exact hy
    | err e => exact ih L (i + 1) p base hc' hb
    | panic => exact ih L (i + 1) p base hc' hb

theorem checkBase_parts {ε : Type} {E : Env} {S : Serde} {cache : Store} {ast ast' : OCAAst} {B : Bundle}
    (h : (checkBase E S cache ast : Res ε _) = .ok (some B, ast')) : ∃ s, fetchBundle E S cache s = .ok B := by
  unfold checkBase at h
  split at h
  · split at h
    · next s _ =>
      split at h
      · next b hf => cases h; exact ⟨s, hf⟩
      · cases h
      · cases h
    · cases h
  · cases h

theorem mem_stepsOf {l : List Build} {st : BuildStep} : st ∈ stepsOf l ↔ ∃ b ∈ l, st ∈ b.steps := List.mem_flatMap

theorem Facade.Built.bundle_record {E : Env} {S : Serde} {f : Facade} {l : List Build} (h : f.Built E S l) {s : Said} {v : Bytes}
    (hv : f.cache.get .bundlesJson s = .ok (some v)) :
    ∃ st ∈ stepsOf l, st.result.said.getD [] = s ∧ v = utf8 (S.print (st.result.toJson E)) := by
  rw [h.cache] at hv
  obtain ⟨b, hb, hm⟩ := List.mem_flatMap.1 (lastWrite_mem (Res.ok.inj hv))
  obtain ⟨st, hst, hm⟩ := List.mem_flatMap.1 hm
  refine ⟨st, mem_stepsOf.2 ⟨b, hb, hst⟩, ?_⟩
  unfold BuildStep.cacheWrites at hm
  rcases List.mem_cons.1 hm with hm | hm
  · cases hm; exact ⟨rfl, rfl⟩
  · rcases List.mem_cons.1 hm with hm | hm
    · cases hm
    · obtain ⟨o, -, e⟩ := List.mem_map.1 hm
      cases e

theorem Facade.Built.explained {E : Env} {S : Serde} {M : Str → FMap Str} {f : Facade} {l : List Build} (h : f.Built E S l)
    (hM : ∀ st ∈ stepsOf l, st.command.FramesAs M) : ∀ st ∈ stepsOf l, st.Explained E M (stepsOf l) := by
  induction h with
  | new => intro st hst; cases hst
  | validated _ _ ih => exact ih hM
  | @built f0 f1 f' l Os O ls B hf hv hc hb ih =>
    have hsplit : stepsOf (l ++ [B]) = stepsOf l ++ B.steps := by simp [stepsOf]
    rw [hsplit] at hM ⊢
    have ih := ih fun st hst => hM st (List.mem_append_left _ hst)
    intro st hst
    rcases List.mem_append.1 hst with hst | hst
    · exact (ih st hst).mono fun x hx => List.mem_append_left _ hx
    · obtain ⟨ast, base, ast', cs, -, h2, -, h4, -⟩ := validate_parts hv
      obtain ⟨bbox, box, e1, e2, e3, e4, e5⟩ := fromAst_parts h4
      obtain ⟨_, _, -, -, -, -, hcs, -⟩ := C12_successful_build E Os base _ B h4
      have hcm : ∀ c ∈ cs, c.Keepable E ∧ c.FramesAs M := by
        intro c hcc
        have hcs : B.steps.map (·.command) = cs := hcs
        rw [← hcs] at hcc
        obtain ⟨x, hx, rfl⟩ := List.mem_map.1 hcc
        exact ⟨hc x hx, hM x (List.mem_append_right _ hx)⟩
      rw [e4] at hst ⊢
      refine stepsFrom_explained (M := M) cs (stepsOf l) 0 _ _ hcm ?_ st hst
      cases base with
      | none => cases e1; exact .inl ⟨rfl, rfl⟩
      | some b =>
        right
        obtain ⟨s, hs⟩ := checkBase_parts h2
        obtain ⟨o, ho⟩ := f0.cache.get_ok .bundlesJson s
        cases o with
        | none => unfold fetchBundle at hs; rw [ho] at hs; cases hs
        | some v =>
          obtain ⟨st', m1, m2, m3⟩ := hf.bundle_record ho
          obtain ⟨-, -, b', prev, md, -⟩ := ih st' m1
          obtain ⟨O', hO⟩ := md.bundle
          rw [m3, hO] at ho
          have hkp := md.keep.bundle O'
          obtain ⟨B', f1, f2, -, f4⟩ := fetchBundle_eq E S f0.cache _ s ho hkp.storable hkp.types
          rw [f1] at hs
          cases hs
          have hsh : b.Shows O' b' := by rw [f4]; exact shows_loaded md.keep
          have hl := hsh.load (ε := List BuildErr) (E := E) md.keep.reach.wf
          have ht := hsh.tidy md.keep md.uni
          have hbb : bbox = some (shownBox E b) := by
            unfold baseOf at e1
            dsimp only at e1
            rw [hl] at e1
            cases e1; rfl
          refine ⟨st', m1, b', shownBox E b, md, hbb, ht, ?_, ?_, md.uni.of_tidy ht.symm⟩
          · show b.said = _
            rw [f2, hO]
          · refine KeepBox.ofBundle ?_ hl
            rw [f4]; exact hkp.loaded

/-- every operation on record is that of a step -/
def Facade.Recs (S : Serde) (L : List BuildStep) (f : Facade) : Prop := ∀ s r, f.db.get .oca (opKey s) = .ok (some r) →
  ∃ st ∈ L, st.result.said = some s ∧ (operationBytes S st.parentSaid st.command.toJson : Res (List Str) Bytes) = .ok r

theorem Facade.Built.recs {E : Env} {S : Serde} {f : Facade} {l : List Build} (h : f.Built E S l) : f.Recs S (stepsOf l) := by
  induction h with
  | new => intro s r h; cases h
  | validated _ hv ih =>
    obtain ⟨_, _, _, _, -, -, -, -, -, -, -, -, hd⟩ := validate_parts hv
    intro s r h
    rw [hd _ (by decide)] at h
    exact ih s r h
  | @built f0 f1 f' l Os O ls B hf hv hc hb ih =>
    obtain ⟨_, _, _, _, -, -, -, -, -, -, -, -, hd⟩ := validate_parts hv
    have hsplit : stepsOf (l ++ [B]) = stepsOf l ++ B.steps := by simp [stepsOf]
    rw [hsplit]
    obtain ⟨s, c, g, db, _, _, hg, hr, hm⟩ := build_parts hb
    obtain ⟨m1, -, -, -, m5⟩ := buildModels_frame hm
    have hg' : g.Recs S (stepsOf l ++ B.steps) := by
      refine foldRes_inv_mem (Facade.Recs S (stepsOf l ++ B.steps)) B.steps ?_ _ g ?_ hg
      · intro f st hm f' hf hs
        obtain ⟨-, -, -, x, r, hx, hop, hdb, -⟩ := buildStep_effect hs
        intro s r' hr'
        rw [hdb] at hr'
        split at hr'
        · next e =>
          cases hr'
          cases opKey_inj e.2
          exact ⟨st, List.mem_append_right _ hm, hx, operationBytes_ok hop⟩
        · exact hf s r' hr'
      · intro s r h
        have h : f1.db.get .oca (opKey s) = _ := h
        rw [hd _ (by decide)] at h
        obtain ⟨st, h1, h2⟩ := ih s r h
        exact ⟨st, List.mem_append_left _ h1, h2⟩
    intro s r h
    rw [m5 _ (by decide)] at h
    refine hg' s r ?_
    rw [← h]
    rcases hr with hr | ⟨_, e⟩
    · exact (addRelations_frame hr _ (by decide) _).symm
    · rw [e]

/-! ## Replaying -/

theorem stepsFrom_snoc {E : Env} {Os : Nat → Order} {c : Command} (cs : List Command) : ∀ (i : Nat) (p : Option Said) (b : Option OCABox),
    ∃ q, stepsFrom E Os i p b (cs ++ [c]) = stepsFrom E Os i p b cs ++ (match applyCommand E (finalState E b cs) c with
        | .ok x => [⟨q, c, bundleOf E (Os (i + cs.length)) x⟩]
        | _ => []) ∧
      ((q = p ∧ finalState E b cs = b) ∨ ∃ O x, finalState E b cs = some x ∧ q = (bundleOf E O x).said) := by
  induction cs with
  | nil =>
    intro i p b
    refine ⟨p, ?_, .inl ⟨rfl, rfl⟩⟩
    show stepsFrom E Os i p b [c] = _
    unfold stepsFrom finalState
    cases applyCommand E b c <;> rfl
  | cons d cs ih =>
    intro i p b
    have e : i + (d :: cs).length = i + 1 + cs.length := by rw [List.length_cons]; omega
    rw [e]
    show ∃ q, stepsFrom E Os i p b (d :: (cs ++ [c])) = _ ∧ _
    unfold stepsFrom finalState
    cases ha : applyCommand E b d with
    | ok x =>
      obtain ⟨q, h1, h2⟩ := ih (i + 1) (bundleOf E (Os i) x).said (some x)
      refine ⟨q, ?_, ?_⟩
      · dsimp only
        rw [h1]; rfl
      · rcases h2 with ⟨h2, h3⟩ | ⟨O, y, h2, h3⟩
        · exact .inr ⟨Os i, x, h3, h2⟩
        · exact .inr ⟨O, y, h2, h3⟩
    | err e =>
      obtain ⟨q, h1, h2⟩ := ih (i + 1) p b
      exact ⟨q, h1, h2⟩
    | panic =>
      obtain ⟨q, h1, h2⟩ := ih (i + 1) p b
      exact ⟨q, h1, h2⟩

/-- No two different overlays of a recorded bundle have the same SAID, and no two recorded bundles with different JSON have. -/
structure NoClash (E : Env) (l : List BuildStep) : Prop where
  overlays : ∀ st ∈ l, ¬ st.result.TwoAlike
  bundles : ∀ st ∈ l, ∀ st' ∈ l, st.result.said = st'.result.said → st.result.toJson E = st'.result.toJson E

theorem Facade.Built.holds {E : Env} {S : Serde} {f : Facade} {l : List Build} (h : f.Built E S l) (hn : NoClash E (stepsOf l))
    (hsome : ∀ st ∈ stepsOf l, st.result.said ≠ none) {s : Said} {r : Bytes} (hr : f.db.get .oca (opKey s) = .ok (some r)) :
    ∃ st ∈ stepsOf l, f.Holds E S st s := by
  obtain ⟨st, h1, h2, h3⟩ := h.recs s r hr
  refine ⟨st, h1, h2, ⟨r, h3, hr⟩, ?_⟩
  obtain ⟨b, hb, hst⟩ := mem_stepsOf.1 h1
  have hw : (Namespace.bundlesJson, s, utf8 (S.print (st.result.toJson E))) ∈ allWrites E S l := by
    refine List.mem_flatMap.2 ⟨b, hb, List.mem_flatMap.2 ⟨st, hst, ?_⟩⟩
    unfold BuildStep.cacheWrites
    rw [h2]
    exact .head _
  obtain ⟨u, hu⟩ := lastWrite_some hw
  have hc : f.cache.get .bundlesJson s = .ok (some u) := by rw [h.cache, hu]
  obtain ⟨st', g1, g2, g3⟩ := h.bundle_record hc
  have hs' : st'.result.said = some s := by
    cases hx : st'.result.said with
    | none => exact absurd hx (hsome st' g1)
    | some y => rw [hx] at g2; exact congrArg some g2
  rw [hc, g3, hn.bundles st' g1 st h1 (by rw [hs', h2])]

/-- What replaying a history gives. -/
structure Replays (E : Env) (M : Str → FMap Str) (l : List BuildStep) (s : Said) (j : Json) (box : OCABox) : Prop where
  final : finalState E none (l.map (·.command)) = some box
  oks : ∀ r ∈ results E none (l.map (·.command)), r.isOk = true
  keep : KeepBox E box
  uni : box.Uniform M
  bundle : ∀ O, (bundleOf E O box).said = some s ∧ (bundleOf E O box).toJson E = j
  shown : ∀ Os, (stepsFrom E Os 0 none none (l.map (·.command))).map (BuildStep.shown E) = l.map (BuildStep.shown E)

theorem replay_loop {E : Env} {S : Serde} {M : Str → FMap Str} (hv : E.validSaid [] = false) {f : Facade} {bs : List Build}
    (h : f.Built E S bs) (hM : ∀ st ∈ stepsOf bs, st.command.FramesAs M) (hn : NoClash E (stepsOf bs)) (fuel : Nat) :
    ∀ (s : Said) (acc l' : List BuildStep), stepsLoop E S f fuel s acc = some (.ok l') →
    ∃ l, l' = l ++ acc ∧ (∀ x ∈ l, ∃ st ∈ stepsOf bs, st.command = x.command) ∧
      ∃ st ∈ stepsOf bs, st.result.said = some s ∧ ∃ box, Replays E M l s (st.result.toJson E) box := by
  have hexp := h.explained hM
  have hsome : ∀ st ∈ stepsOf bs, st.result.said ≠ none := by
    intro st hst
    obtain ⟨-, -, box, -, md, -⟩ := hexp st hst
    obtain ⟨O, hO⟩ := md.bundle
    rw [hO]; intro h; cases h
  induction fuel with
  | zero => intro s acc l' hl; cases hl
  | succ n ih =>
    intro s acc l' hl
    obtain ⟨o, ho⟩ := f.db.get_ok .oca (opKey s)
    cases o with
    | none =>
      rw [stepsLoop] at hl
      unfold extractOperation at hl
      rw [ho] at hl
      cases hl
    | some r =>
      obtain ⟨st, hst, hh⟩ := h.holds hn hsome ho
      obtain ⟨hk, hfa, box, prev, md, ha, hpar⟩ := hexp st hst
      obtain ⟨O0, hO0⟩ := md.bundle
      have hkp : st.result.Keepable E := by rw [hO0]; exact md.keep.bundle O0
      have hread : st.Readable E := ⟨hk.faithful, hk.depth, hkp.storable, hkp.types⟩
      by_cases hne : st.parentSaid.getD [] = s
      · rw [stepsLoop, extractOperation_eq E S f st s hh hread] at hl
        dsimp only at hl
        rw [if_pos hne] at hl
        cases hl
      · have hpv : ∀ p, st.parentSaid = some p → E.validSaid p = true := by
          intro p hp
          rcases hpar with ⟨hp', -⟩ | ⟨st2, g1, b', b0, g2, -, -, g5⟩
          · rw [hp'] at hp; cases hp
          · obtain ⟨O2, hO2⟩ := g2.bundle
            rw [hp] at g5
            rw [hO2] at g5
            exact (g2.keep.bundle O2).storable.said p g5.symm
        obtain ⟨st', s1, s2, hround⟩ := stepsLoop_round E S f st s hh hread hne hpv hv
        rw [hround] at hl
        have hcns : ∀ {x : OCABox}, x.Uniform M → FrameConsistent x := fun h => h.consistent
        have hnt : ¬ (bundleOf E O0 box).TwoAlike := by rw [← hO0]; exact hn.overlays st hst
        have hbun : ∀ {nb : OCABox}, KeepBox E nb → nb.Uniform M → box.tidy = nb.tidy → ∀ O, (bundleOf E O nb).said = some s ∧
            (bundleOf E O nb).toJson E = st.result.toJson E := by
          intro nb k1 k2 k3 O
          obtain ⟨e1, e2⟩ := bundle_equal (E := E) O0 O md.keep.reach k1.reach md.uni.consistent k2.consistent k3 hnt
          rw [e1, e2, ← hO0]
          exact ⟨hh.said, rfl⟩
        have hshown : ∀ (nb : OCABox) (O : Order), KeepBox E nb → nb.Uniform M → box.tidy = nb.tidy →
            BuildStep.shown E ⟨st.parentSaid, st.command, bundleOf E O nb⟩ = st'.shown E := by
          intro nb O k1 k2 k3
          obtain ⟨e1, e2⟩ := hbun k1 k2 k3 O
          rw [s1]
          unfold BuildStep.shown
          rw [e1, e2, hh.said]
        by_cases hp : st.parentSaid = none
        · rw [if_pos hp] at hl
          cases hl
          have hprev : prev = none := by
            rcases hpar with ⟨-, h⟩ | ⟨st2, g1, b', b0, g2, -, -, g5⟩
            · exact h
            · rw [hp] at g5; exact absurd g5.symm (hsome st2 g1)
          subst hprev
          refine ⟨[st'], rfl, fun x hx => ⟨st, hst, by rw [List.mem_singleton.1 hx, s2]⟩, st, hst, hh.said, box, ?_, ?_, md.keep, md.uni, hbun md.keep md.uni rfl, ?_⟩
          · show finalState E none [st'.command] = _
            rw [s2]
            simp only [finalState, ha, afterResult]
          · show ∀ r ∈ results E none [st'.command], _
            rw [s2]
            simp only [results, ha]
            intro r hr
            rw [List.mem_singleton.1 hr]; rfl
          · intro Os
            show List.map _ (stepsFrom E Os 0 none none [st'.command]) = [st'.shown E]
            rw [s2]
            simp only [stepsFrom, ha]
            rw [← hshown box (Os 0) md.keep md.uni rfl, hp]
            rfl
        · rw [if_neg hp] at hl
          obtain ⟨l, e, hmem, stp, p1, p2, rbox, hrep⟩ := ih _ _ _ hl
          obtain ⟨p, hpp⟩ := Option.ne_none_iff_exists'.1 hp
          rw [hpp] at p2 hrep
          rcases hpar with ⟨hp', -⟩ | ⟨st2, g1, b', b0, g2, rfl, g4, g5⟩
          · exact absurd hp' hp
          obtain ⟨O2, hO2⟩ := g2.bundle
          have hjs : stp.result.toJson E = (bundleOf E O2 b').toJson E := by
            rw [← hO2]
            refine hn.bundles stp p1 st2 g1 ?_
            rw [← g5, hpp]; exact p2
          have ht : b0.tidy = rbox.tidy := by
            rw [g4]
            exact json_tidy (O := O2) (O' := O2) g2.keep hrep.keep g2.uni hrep.uni (by rw [← hjs, (hrep.bundle O2).2])
          have hta := tidy_apply (E := E) ht st.command
          rw [ha] at hta
          cases hx : applyCommand E (some rbox) st.command with
          | err e => rw [hx] at hta; exact hta.elim
          | panic => rw [hx] at hta; exact hta.elim
          | ok nb =>
            rw [hx] at hta
            have hta : box.tidy = nb.tidy := hta
            have hkn : KeepBox E nb := hrep.keep.step hk hx
            have hun : nb.Uniform M := hrep.uni.apply hfa hx
            refine ⟨l ++ [st'], by rw [e, List.append_assoc]; rfl, fun x hx => ?_, st, hst, hh.said, nb, ?_, ?_, hkn, hun, hbun hkn hun hta, ?_⟩
            · rcases List.mem_append.1 hx with hx | hx
              · exact hmem x hx
              · exact ⟨st, hst, by rw [List.mem_singleton.1 hx, s2]⟩
            · rw [List.map_append, finalState_append, hrep.final]
              show finalState E (some rbox) [st'.command] = _
              rw [s2]
              simp only [finalState, hx, afterResult]
            · rw [List.map_append, results_append, hrep.final]
              intro r hr
              rcases List.mem_append.1 hr with hr | hr
              · exact hrep.oks r hr
              · change r ∈ results E (some rbox) [st'.command] at hr
                rw [s2] at hr
                simp only [results, hx] at hr
                rw [List.mem_singleton.1 hr]; rfl
            · intro Os
              rw [List.map_append, List.map_append]
              show List.map _ (stepsFrom E Os 0 none none (_ ++ [st'.command])) = _
              rw [s2]
              obtain ⟨q, q1, q2⟩ := stepsFrom_snoc (E := E) (Os := Os) (c := st.command) (l.map (·.command)) 0 none none
              rw [q1, hrep.final, hx, List.map_append, hrep.shown]
              congr 1
              have hq : q = st.parentSaid := by
                rcases q2 with ⟨-, q2⟩ | ⟨O, x, q2, q3⟩
                · rw [hrep.final] at q2; cases q2
                · rw [hrep.final] at q2
                  cases q2
                  rw [q3, (hrep.bundle O).1, hpp]
                  rfl
              show [BuildStep.shown E ⟨q, _, _⟩] = [st'.shown E]
              rw [hq, hshown nb _ hkn hun hta]

/-- **C61** Whatever was built on a facade, on whatever bases, in whatever order: every history it reports can be replayed. Building the
commands of the history from nothing, with any order of the hash maps, succeeds; each of its steps has the parent, the identifier and the
JSON the history shows, and the bundle it ends with has the identifier asked for and the JSON that is stored. (Frames described in one way,
see C58; no collisions of identifiers among what was built.) -/
theorem C61_history_replays (E : Env) (S : Serde) (hv : E.validSaid [] = false) (f : Facade) (bs : List Build) (h : f.Built E S bs)
    (hf : SameFrameMeta ((stepsOf bs).map (·.command))) (hn : NoClash E (stepsOf bs)) (fuel : Nat) (s : Said) (l : List BuildStep)
    (hl : f.steps E S fuel s = some (.ok l)) (Os : Nat → Order) (ast : OCAAst) (hc : ast.commands = l.map (·.command)) :
    ∃ r, fromAst E Os none ast = .ok r ∧ r.steps.map (BuildStep.shown E) = l.map (BuildStep.shown E) ∧ r.bundle.said = some s ∧
      f.cache.get .bundlesJson s = .ok (some (utf8 (S.print (r.bundle.toJson E)))) := by
  have hM : ∀ st ∈ stepsOf bs, st.command.FramesAs (frameMetaIn ((stepsOf bs).map (·.command))) :=
    fun st hst => hf.framesAs _ (List.mem_map_of_mem hst)
  obtain ⟨l0, e, -, st, hst, hs, box, hrep⟩ := replay_loop hv h hM hn fuel s [] l hl
  rw [List.append_nil] at e
  subst e
  obtain ⟨-, -, -, q4⟩ := C12_build_outcome E Os none ast none rfl
  rw [hc, hrep.final] at q4
  obtain ⟨r, hr⟩ := q4 (fun hp => by cases hrep.oks _ hp) (fun ⟨es, he⟩ => by cases hrep.oks _ he) (by intro h; cases h)
  obtain ⟨_, _, e1, -, e2, e3, e4⟩ := fromAst_parts hr
  cases e1
  rw [hc, hrep.final] at e2
  cases e2
  refine ⟨r, hr, ?_, ?_, ?_⟩
  · rw [e3, hc]; exact hrep.shown Os
  · rw [e4]; exact (hrep.bundle _).1
  · rw [e4, (hrep.bundle _).2]
    have hexp := h.explained hM
    obtain ⟨o, ho⟩ := f.cache.get_ok .bundlesJson s
    obtain ⟨b, hb, hst'⟩ := mem_stepsOf.1 hst
    have hw : (Namespace.bundlesJson, s, utf8 (S.print (st.result.toJson E))) ∈ allWrites E S bs := by
      refine List.mem_flatMap.2 ⟨b, hb, List.mem_flatMap.2 ⟨st, hst', ?_⟩⟩
      unfold BuildStep.cacheWrites
      rw [hs]
      exact .head _
    obtain ⟨u, hu⟩ := lastWrite_some hw
    have hcu : f.cache.get .bundlesJson s = .ok (some u) := by rw [h.cache, hu]
    obtain ⟨st', g1, g2, g3⟩ := h.bundle_record hcu
    have hs' : st'.result.said = some s := by
      obtain ⟨-, -, bx, -, md, -⟩ := hexp st' g1
      obtain ⟨O, hO⟩ := md.bundle
      cases hx : st'.result.said with
      | none => rw [hO] at hx; cases hx
      | some y => rw [hx] at g2; exact congrArg some g2
    rw [hcu, g3, hn.bundles st' g1 st hst (by rw [hs', hs])]

end OCA
