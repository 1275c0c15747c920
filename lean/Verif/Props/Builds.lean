import Verif.Props.OrderIndependence
import Verif.Props.AstValidation
/-!
# C12, C13: builds as a whole
-/
namespace OCA

/-! ## Specification -/

/-- The state after a command that gave this result: a rejected command changes nothing. -/
def afterResult (b : Option OCABox) : Res (List Str) OCABox → Option OCABox
  | .ok x => some x
  | _ => b

/-- The result of every command, each applied to the state left by the accepted commands before it. -/
def results (E : Env) : Option OCABox → List Command → List (Res (List Str) OCABox)
  | _, [] => []
  | b, c :: cs => applyCommand E b c :: results E (afterResult b (applyCommand E b c)) cs

/-- The state after all accepted commands. -/
def finalState (E : Env) : Option OCABox → List Command → Option OCABox
  | b, [] => b
  | b, c :: cs => finalState E (afterResult b (applyCommand E b c)) cs

/-- The errors reported for results, the first of which belongs to command number `i`. -/
def errorsFrom (ast : OCAAst) (shift : Nat) : Nat → List (Res (List Str) OCABox) → List BuildErr
  | _, [] => []
  | i, r :: rs =>
    (match r with
      | .err es => es.map fun e =>
          { lineNumber := (cmdMeta ast (i + shift)).lineNumber, rawLine := (cmdMeta ast (i + shift)).rawLine,
            message := e : BuildErr }
      | _ => []) ++ errorsFrom ast shift (i + 1) rs

/-! ## Lemmas -/

/-- every state that can occur -/
def OptReach (E : Env) (o : Option OCABox) : Prop := ∀ b, o = some b → Reachable E b

theorem applyCommand_none (E : Env) (c : Command) : applyCommand E none c = applyCommand E (some OCABox.new) c := rfl

theorem OptReach.step {E : Env} {o : Option OCABox} (h : OptReach E o) {c : Command} {b : OCABox}
    (ha : applyCommand E o c = .ok b) : Reachable E b := by
  cases o with
  | none => rw [applyCommand_none] at ha; exact Reachable.step _ _ c Reachable.new ha
  | some x => exact Reachable.step _ _ c (h x rfl) ha

theorem OptReach.after {E : Env} {o : Option OCABox} (h : OptReach E o) (c : Command) :
    OptReach E (afterResult o (applyCommand E o c)) := by
  cases ha : applyCommand E o c with
  | ok b => intro x hx; cases hx; exact h.step ha
  | err e => exact h
  | panic => exact h

theorem reachable_gen {ε : Type} {E : Env} {b : OCABox} (h : Reachable E b) (O : Order) :
    (generateBundle E O b : Res ε _) = .ok (bundleOf E O b) := generateBundle_ok E O b (reachable_typed h)

/-- the steps recorded for the accepted commands -/
def stepsFrom (E : Env) (Os : Nat → Order) : Nat → Option Said → Option OCABox → List Command → List BuildStep
  | _, _, _, [] => []
  | i, p, b, c :: cs =>
    match applyCommand E b c with
    | .ok x => ⟨p, c, bundleOf E (Os i) x⟩ :: stepsFrom E Os (i + 1) (bundleOf E (Os i) x).said (some x) cs
    | _ => stepsFrom E Os (i + 1) p b cs

theorem buildLoop_spec (E : Env) (Os : Nat → Order) (ast : OCAAst) (shift : Nat) (cs : List Command) :
    ∀ (i : Nat) (st : LoopState), OptReach E st.base →
    (Res.panic ∈ results E st.base cs → buildLoop E Os ast shift i st cs = .panic) ∧
    (Res.panic ∉ results E st.base cs → ∃ st', buildLoop E Os ast shift i st cs = .ok st' ∧
      st'.errors = st.errors ++ errorsFrom ast shift i (results E st.base cs) ∧
      st'.base = finalState E st.base cs ∧
      st'.steps = st.steps ++ stepsFrom E Os i st.parent st.base cs) := by
  induction cs with
  | nil =>
    intro i st _
    refine ⟨fun h => (by cases h), fun _ => ⟨st, rfl, ?_, rfl, ?_⟩⟩
    · simp [results, errorsFrom]
    · simp [stepsFrom]
  | cons c cs ih =>
    intro i st hr
    have hr' := hr.after c
    simp only [results, List.mem_cons, buildLoop, buildStep]
    cases ha : applyCommand E st.base c with
    | panic =>
      refine ⟨fun _ => by simp, fun h => ?_⟩
      exact absurd (.inl rfl) h
    | err es =>
      rw [ha] at hr'
      obtain ⟨h1, h2⟩ := ih (i + 1) { st with errors := st.errors ++ es.map fun e =>
        (⟨(cmdMeta ast (i + shift)).lineNumber, (cmdMeta ast (i + shift)).rawLine, e⟩ : BuildErr) } hr'
      simp only [Res.bind_ok, reduceCtorEq, false_or]
      refine ⟨h1, fun h => ?_⟩
      obtain ⟨st', e1, e2, e3, e4⟩ := h2 h
      refine ⟨st', e1, ?_, ?_, ?_⟩
      · rw [e2]; simp [errorsFrom, afterResult]
      · rw [e3]; simp [finalState, ha, afterResult]
      · rw [e4]; simp [stepsFrom, ha]
    | ok x =>
      rw [ha] at hr'
      dsimp only
      rw [reachable_gen (hr.step ha)]
      obtain ⟨h1, h2⟩ := ih (i + 1) ⟨st.errors, st.steps ++ [⟨st.parent, c, bundleOf E (Os i) x⟩],
        (bundleOf E (Os i) x).said, some x⟩ hr'
      simp only [Res.bind_ok, Res.pure_eq, reduceCtorEq, false_or]
      refine ⟨h1, fun h => ?_⟩
      obtain ⟨st', e1, e2, e3, e4⟩ := h2 h
      refine ⟨st', e1, ?_, ?_, ?_⟩
      · rw [e2]; simp [errorsFrom, afterResult]
      · rw [e3]; simp [finalState, ha, afterResult]
      · rw [e4]; simp [stepsFrom, ha]

theorem baseOf_reach {ε : Type} (E : Env) (fromOca : Option Bundle) (base : Option OCABox)
    (h : (baseOf E fromOca : Res ε _) = .ok base) : OptReach E base := by
  cases fromOca with
  | none => simp only [baseOf, Res.ok.injEq] at h; subst h; intro b hb; cases hb
  | some bu =>
    simp only [baseOf] at h
    obtain ⟨x, h1, h2⟩ := Res.bind_eq_ok.mp h
    cases h2
    intro b hb; cases hb
    exact Reachable.loaded bu _ h1

theorem applyCommand_err_ne_nil (E : Env) (b : Option OCABox) (c : Command) (es : List Str)
    (h : applyCommand E b c = .err es) : es ≠ [] := by
  have hfold : ∀ {errs : List Str} {f : Attribute → NVal → Res (List Str) Attribute},
      (∀ a v es, f a v = .err es → es ≠ []) → ∀ (l : List (Str × NVal)) (b : OCABox) (es : List Str),
      foldRes (ovAttrStep errs f) b l = .err es → es ≠ [] := by
    intro errs f hf l
    induction l with
    | nil => intro b es h; cases h
    | cons p t ih =>
      intro b es h
      simp only [foldRes, ovAttrStep] at h
      split at h
      · simp only [Res.bind_err, Res.err.injEq] at h
        rw [← h]; simp
      · rename_i a _
        cases hfa : f a p.2 with
        | ok a' => rw [hfa] at h; exact ih _ es h
        | err e => rw [hfa] at h; simp only [Res.bind_err, Res.err.injEq] at h; rw [← h]; exact hf a _ e hfa
        | panic => rw [hfa] at h; cases h
  have hmeta : ∀ (lang : Option Lang) (l : List (Str × NVal)) (b : OCABox) (es : List Str),
      foldRes (metaStep lang) b l ≠ .err es := by
    intro lang l b es h
    rcases foldRes_meta_cases (ε := List Str) lang l b with ⟨b', h'⟩ | ⟨h', -⟩ <;> rw [h'] at h <;> cases h
  obtain ⟨kind, obj⟩ := c
  cases kind <;> cases obj <;> simp only [applyCommand, reduceCtorEq, Res.err.injEq] at h <;>
    try (rw [← h]; simp; done)
  rename_i t cc
  unfold applyOverlay at h
  split at h
  · unfold applyMeta at h
    split at h
    · cases h
    · exact absurd h (hmeta _ _ _ _)
  · split at h
    · cases h
    · rename_i errs f hset
      cases hl : foldRes (ovAttrStep errs f) (b.getD OCABox.new) (cc.attributes.getD []) with
      | ok b' =>
        rw [hl] at h
        simp only [Res.bind_ok] at h
        split at h
        · cases h
        · next hne => cases h; simpa using hne
      | err e =>
        rw [hl] at h
        simp only [Res.bind_err, Res.err.injEq] at h
        rw [← h]
        refine hfold ?_ _ _ _ hl
        intro a v es he
        rcases setter_cases E _ cc hset a v with ⟨-, a', h2⟩ | ⟨-, -, s, -, h2⟩ | ⟨-, -, h2⟩
        · rw [h2] at he; cases he
        · rw [h2] at he; cases he; simp
        · rw [h2] at he; cases he
      | panic => rw [hl] at h; cases h

theorem errorsFrom_eq_nil (ast : OCAAst) (shift : Nat) (E : Env) (cs : List Command) :
    ∀ (i : Nat) (b : Option OCABox),
    errorsFrom ast shift i (results E b cs) = [] ↔ ∀ es, Res.err es ∉ results E b cs := by
  induction cs with
  | nil => intro i b; simp [results, errorsFrom]
  | cons c cs ih =>
    intro i b
    simp only [results, errorsFrom, List.append_eq_nil_iff, ih, List.mem_cons, not_or]
    cases ha : applyCommand E b c with
    | ok x => simp
    | panic => simp
    | err es =>
      have := applyCommand_err_ne_nil E b c es ha
      simp only [List.map_eq_nil_iff, this, false_and, false_iff]
      intro h
      exact (h es).1 rfl

/-- all results are acceptances -/
theorem steps_facts (E : Env) (Os : Nat → Order) (cs : List Command) :
    ∀ (i : Nat) (p : Option Said) (b : Option OCABox),
    (∀ r ∈ results E b cs, r.isOk = true) →
    (stepsFrom E Os i p b cs).map (·.command) = cs ∧
    (∀ s, (stepsFrom E Os i p b cs).head? = some s → s.parentSaid = p) ∧
    (∀ j s s', (stepsFrom E Os i p b cs)[j]? = some s → (stepsFrom E Os i p b cs)[j + 1]? = some s' →
      s'.parentSaid = s.result.said) ∧
    (∀ s, (stepsFrom E Os i p b cs).getLast? = some s →
      ∃ x, finalState E b cs = some x ∧ s.result = bundleOf E (Os (i + cs.length - 1)) x) := by
  induction cs with
  | nil => intro i p b _; simp [stepsFrom]
  | cons c cs ih =>
    intro i p b h
    simp only [results, List.mem_cons, forall_eq_or_imp] at h
    obtain ⟨hc, ht⟩ := h
    cases ha : applyCommand E b c with
    | err e => rw [ha] at hc; cases hc
    | panic => rw [ha] at hc; cases hc
    | ok x =>
      rw [ha] at ht
      obtain ⟨h1, h2, h3, h4⟩ := ih (i + 1) (bundleOf E (Os i) x).said (some x) ht
      have e : stepsFrom E Os i p b (c :: cs) =
          ⟨p, c, bundleOf E (Os i) x⟩ :: stepsFrom E Os (i + 1) (bundleOf E (Os i) x).said (some x) cs := by
        simp [stepsFrom, ha]
      rw [e]
      refine ⟨by simp [h1], ?_, ?_, ?_⟩
      · intro s hs; simp at hs; rw [← hs]
      · intro j s s' hj hj'
        cases j with
        | zero =>
          simp only [List.getElem?_cons_zero, Option.some.injEq] at hj
          simp only [Nat.zero_add, List.getElem?_cons_succ] at hj'
          rw [← hj]
          exact h2 s' (by rw [List.head?_eq_getElem?]; exact hj')
        | succ j =>
          simp only [List.getElem?_cons_succ] at hj hj'
          exact h3 j s s' hj hj'
      · intro s hs
        cases hl : (stepsFrom E Os (i + 1) (bundleOf E (Os i) x).said (some x) cs).getLast? with
        | none =>
          rw [List.getLast?_eq_none_iff] at hl
          rw [hl] at hs h1
          simp only [List.map_nil] at h1
          simp only [List.getLast?_singleton, Option.some.injEq] at hs
          subst h1
          subst hs
          exact ⟨x, by simp [finalState, ha, afterResult], by simp⟩
        | some s' =>
          rw [List.getLast?_cons, hl] at hs
          simp only [Option.getD_some, Option.some.injEq] at hs
          subst hs
          obtain ⟨y, hy1, hy2⟩ := h4 s' hl
          refine ⟨y, by simp [finalState, ha, afterResult]; exact hy1, ?_⟩
          rw [hy2]
          congr 2
          simp only [List.length_cons]; omega

/-! ## C12 -/

/-- **C12** What a build returns, completely: if loading the base succeeded,
* it aborts if some command aborts, or if there is neither a base nor a command;
* otherwise, if some command is rejected, it returns the errors of all rejected commands in order (and
  nothing else);
* otherwise it succeeds. -/
theorem C12_build_outcome (E : Env) (Os : Nat → Order) (fromOca : Option Bundle) (ast : OCAAst)
    (base : Option OCABox) (hb : (baseOf E fromOca : Res (List BuildErr) _) = .ok base) :
    let rs := results E base ast.commands
    (Res.panic ∈ rs → fromAst E Os fromOca ast = .panic) ∧
    (Res.panic ∉ rs → (∃ es, Res.err es ∈ rs) →
      fromAst E Os fromOca ast = .err (errorsFrom ast (if fromOca.isSome then 1 else 0) 0 rs)) ∧
    (Res.panic ∉ rs → (¬ ∃ es, Res.err es ∈ rs) → finalState E base ast.commands = none →
      fromAst E Os fromOca ast = .panic) ∧
    (Res.panic ∉ rs → (¬ ∃ es, Res.err es ∈ rs) → finalState E base ast.commands ≠ none →
      ∃ b, fromAst E Os fromOca ast = .ok b) := by
  intro rs
  have hreach := baseOf_reach E fromOca base hb
  obtain ⟨h1, h2⟩ := buildLoop_spec E Os ast (if fromOca.isSome then 1 else 0) ast.commands 0
    ⟨[], [], fromOca.bind Bundle.said, base⟩ hreach
  have hfrom : fromAst E Os fromOca ast = (do
      let st ← buildLoop E Os ast (if fromOca.isSome then 1 else 0) 0 ⟨[], [], fromOca.bind Bundle.said, base⟩ ast.commands
      buildFinish E (Os ast.commands.length) st) := by
    unfold fromAst; rw [hb]; rfl
  have hfinal : ∀ (cs : List Command) (b : Option OCABox), OptReach E b → OptReach E (finalState E b cs) := by
    intro cs
    induction cs with
    | nil => intro b h; exact h
    | cons c cs ih => intro b h; exact ih _ (h.after c)
  refine ⟨fun h => ?_, fun hp he => ?_, fun hp he hn => ?_, fun hp he hn => ?_⟩
  · rw [hfrom, h1 h]; rfl
  all_goals
    obtain ⟨st, e1, e2, e3, e4⟩ := h2 hp
    rw [hfrom, e1]
    simp only [List.nil_append] at e2
    simp only [Res.bind_ok, buildFinish]
  · rw [e2]
    have : errorsFrom ast (if fromOca.isSome then 1 else 0) 0 (results E base ast.commands) ≠ [] := by
      intro e
      obtain ⟨es, hes⟩ := he
      exact (errorsFrom_eq_nil ast _ E _ 0 base).mp e es hes
    rw [if_neg (by simpa using this)]
  · have : errorsFrom ast (if fromOca.isSome then 1 else 0) 0 (results E base ast.commands) = [] :=
      (errorsFrom_eq_nil ast _ E _ 0 base).mpr (fun es hes => he ⟨es, hes⟩)
    rw [e2, this, e3, hn]; rfl
  · have : errorsFrom ast (if fromOca.isSome then 1 else 0) 0 (results E base ast.commands) = [] :=
      (errorsFrom_eq_nil ast _ E _ 0 base).mpr (fun es hes => he ⟨es, hes⟩)
    rw [e2, this, e3]
    cases hf : finalState E base ast.commands with
    | none => exact absurd hf hn
    | some x =>
      have hx : Reachable E x := hfinal _ _ hreach x hf
      simp only [List.isEmpty_nil, if_true, Res.unwrap_some, Res.bind_ok]
      rw [reachable_gen hx]
      exact ⟨_, rfl⟩

/-- **C12** A build succeeds only if every command was accepted; then it has one step per command, in
order; the first step's parent is the base's SAID, each later step's parent the previous step's bundle
SAID; and the returned bundle and the last step's bundle are generated from one and the same reachable
state (the one after all commands). -/
theorem C12_successful_build (E : Env) (Os : Nat → Order) (fromOca : Option Bundle) (ast : OCAAst) (b : Build)
    (h : fromAst E Os fromOca ast = .ok b) :
    ∃ base box, (baseOf E fromOca : Res (List BuildErr) _) = .ok base ∧
      (∀ r ∈ results E base ast.commands, r.isOk = true) ∧
      finalState E base ast.commands = some box ∧ Reachable E box ∧
      b.steps.map (·.command) = ast.commands ∧
      (∀ s, b.steps.head? = some s → s.parentSaid = fromOca.bind Bundle.said) ∧
      (∀ j s s', b.steps[j]? = some s → b.steps[j + 1]? = some s' → s'.parentSaid = s.result.said) ∧
      (generateBundle E (Os ast.commands.length) box : Res (List BuildErr) _) = .ok b.bundle ∧
      (∀ s, b.steps.getLast? = some s →
        (generateBundle E (Os (ast.commands.length - 1)) box : Res (List BuildErr) _) = .ok s.result) := by
  cases hb : (baseOf E fromOca : Res (List BuildErr) _) with
  | err e => unfold fromAst at h; rw [hb] at h; cases h
  | panic => unfold fromAst at h; rw [hb] at h; cases h
  | ok base =>
    have hout := C12_build_outcome E Os fromOca ast base hb
    have hp : Res.panic ∉ results E base ast.commands := by
      intro hp; rw [hout.1 hp] at h; cases h
    have he : ¬ ∃ es, Res.err es ∈ results E base ast.commands := by
      intro he; rw [hout.2.1 hp he] at h; cases h
    have hok : ∀ r ∈ results E base ast.commands, r.isOk = true := by
      intro r hr
      cases r with
      | ok x => rfl
      | err e => exact absurd ⟨e, hr⟩ he
      | panic => exact absurd hr hp
    have hreach := baseOf_reach E fromOca base hb
    obtain ⟨st, e1, e2, e3, e4⟩ := (buildLoop_spec E Os ast (if fromOca.isSome then 1 else 0) ast.commands 0
      ⟨[], [], fromOca.bind Bundle.said, base⟩ hreach).2 hp
    unfold fromAst at h
    rw [hb] at h
    simp only [Res.bind_ok] at h
    rw [e1] at h
    simp only [Res.bind_ok, buildFinish] at h
    split at h
    · obtain ⟨box, h1, h⟩ := Res.bind_eq_ok.mp h
      obtain ⟨bu, h2, h⟩ := Res.bind_eq_ok.mp h
      cases h
      rw [e3] at h1
      simp only at h1
      have hfin : finalState E base ast.commands = some box := by
        cases hf : finalState E base ast.commands with
        | none => rw [hf] at h1; cases h1
        | some x => rw [hf] at h1; cases h1; rfl
      have hfinal : ∀ (cs : List Command) (b : Option OCABox), OptReach E b → OptReach E (finalState E b cs) := by
        intro cs
        induction cs with
        | nil => intro b h; exact h
        | cons c cs ih => intro b h; exact ih _ (h.after c)
      have hbox := hfinal _ _ hreach box hfin
      simp only [List.nil_append] at e4
      obtain ⟨s1, s2, s3, s4⟩ := steps_facts E Os ast.commands 0 (fromOca.bind Bundle.said) base hok
      rw [e4]
      refine ⟨base, box, rfl, hok, hfin, hbox, s1, s2, s3, h2, ?_⟩
      intro s hs
      obtain ⟨x, hx, hr⟩ := s4 s hs
      rw [hfin] at hx
      cases hx
      rw [hr, Nat.zero_add]
      exact reachable_gen hbox _
    · cases h

/-- **C12** The returned bundle has the SAID and JSON of the last step's bundle, unless the build gave a
frame contradictory metadata or two of the bundle's overlays collide. -/
theorem C12_result_is_last_step (E : Env) (Os : Nat → Order) (fromOca : Option Bundle) (ast : OCAAst)
    (b : Build) (h : fromAst E Os fromOca ast = .ok b) (s : BuildStep) (hs : b.steps.getLast? = some s)
    (hc : ∀ base box, (baseOf E fromOca : Res (List BuildErr) _) = .ok base →
      finalState E base ast.commands = some box → FrameConsistent box) :
    (b.bundle.said = s.result.said ∧ b.bundle.toJson E = s.result.toJson E) ∨
    ∃ o ∈ b.bundle.overlays, ∃ o' ∈ b.bundle.overlays, o ≠ o' ∧ o.said = o'.said := by
  obtain ⟨base, box, h1, -, h3, h4, -, -, -, h5, h6⟩ := C12_successful_build E Os fromOca ast b h
  exact C19_said_order_independent E _ _ box h4 (hc base box h1 h3) _ _ h5 (h6 s hs)

/-! ## C13 -/

/-- what the parser records about the commands -/
def MetaOk (ls : List Line) (ast : OCAAst) : Prop :=
  (∀ p ∈ ast.commandsMeta, p.1 < ast.commands.length) ∧
  ∀ i c, ast.commands[i]? = some c → ∃ j raw, ls[j]? = some (.instr raw (.ok c)) ∧
    metaAt ast.commandsMeta i = some ⟨j + 1, raw⟩

theorem metaAt_append (l : List (Nat × CommandMeta)) (k i : Nat) (m : CommandMeta)
    (h : ∀ p ∈ l, p.1 < k) : metaAt (l ++ [(k, m)]) i = if i = k then some m else metaAt l i := by
  unfold metaAt
  rw [List.find?_append]
  by_cases e : i = k
  · subst e
    have : l.find? (fun p => p.1 == i) = none := by
      rw [List.find?_eq_none]
      intro p hp
      have := h p hp
      simp; omega
    rw [this]; simp
  · have : ¬ k = i := fun e' => e e'.symm
    simp [e, this]

theorem parseLoop_meta (ls : List Line) : ∀ (pre : List Line) (ast out : OCAAst),
    MetaOk (pre ++ ls) ast → parseLoop ast pre.length ls = .ok out → MetaOk (pre ++ ls) out := by
  induction ls with
  | nil => intro pre ast out hm h; cases h; exact hm
  | cons l ls ih =>
    intro pre ast out hm h
    simp only [parseLoop] at h
    cases hl : parseLine ast pre.length l with
    | err e => rw [hl] at h; cases h
    | panic => rw [hl] at h; cases h
    | ok ast' =>
      rw [hl] at h
      have hassoc : pre ++ l :: ls = (pre ++ [l]) ++ ls := by simp
      have hlen : pre.length + 1 = (pre ++ [l]).length := by simp
      rw [hlen] at h
      rw [hassoc]
      refine ih (pre ++ [l]) ast' out ?_ h
      rw [← hassoc]
      cases l with
      | instr raw cmd =>
        cases cmd with
        | ok c =>
          simp only [parseLine] at hl
          split at hl
          · injection hl with hl
            subst hl
            obtain ⟨m1, m2⟩ := hm
            refine ⟨?_, ?_⟩
            · intro p hp
              simp only [List.length_append, List.length_singleton]
              rcases List.mem_append.mp hp with hp | hp
              · have := m1 p hp; omega
              · simp at hp; subst hp; simp
            · intro i d hd
              simp only at hd ⊢
              rw [metaAt_append _ _ _ _ m1]
              rw [List.getElem?_append] at hd
              split at hd
              · next hi =>
                obtain ⟨j, r, h1, h2⟩ := m2 i d hd
                refine ⟨j, r, h1, ?_⟩
                rw [if_neg (by omega)]; exact h2
              · next hi =>
                have hi' : i = ast.commands.length := by
                  have := List.getElem?_eq_some_iff.mp hd
                  obtain ⟨h1, -⟩ := this
                  simp at h1; omega
                subst hi'
                simp at hd
                subst hd
                exact ⟨pre.length, raw, by simp, by simp⟩
          · cases hl
          · cases hl
        | err e => cases hl
        | panic => cases hl
      | metaLine k v =>
        simp only [parseLine] at hl
        split at hl
        · cases hl
        · split at hl
          · cases hl
          · injection hl with hl; subst hl; exact hm
      | eoi => injection hl with hl; subst hl; exact hm
      | comment => injection hl with hl; subst hl; exact hm
      | emptyLine => injection hl with hl; subst hl; exact hm

theorem parseLines_meta (ls : List Line) (ast : OCAAst) (h : parseLines ls = .ok ast) : MetaOk ls ast :=
  parseLoop_meta ls [] OCAAst.new ast ⟨fun p hp => (by cases hp), fun i c hc => (by simp [OCAAst.new] at hc)⟩ h

theorem mem_errorsFrom (ast : OCAAst) (shift : Nat) (E : Env) (cs : List Command) :
    ∀ (i : Nat) (b : Option OCABox) (e : BuildErr), e ∈ errorsFrom ast shift i (results E b cs) →
    ∃ j c es, cs[j]? = some c ∧ (results E b cs)[j]? = some (.err es) ∧ e.message ∈ es ∧
      e.lineNumber = (cmdMeta ast (i + j + shift)).lineNumber ∧ e.rawLine = (cmdMeta ast (i + j + shift)).rawLine := by
  induction cs with
  | nil => intro i b e h; cases h
  | cons c cs ih =>
    intro i b e h
    simp only [results, errorsFrom] at h
    rcases List.mem_append.mp h with h | h
    · cases ha : applyCommand E b c with
      | ok x => rw [ha] at h; cases h
      | panic => rw [ha] at h; cases h
      | err es =>
        rw [ha] at h
        obtain ⟨m, hm, rfl⟩ := List.mem_map.mp h
        exact ⟨0, c, es, rfl, by simp [results, ha], hm, by simp, by simp⟩
    · obtain ⟨j, c', es, h1, h2, h3, h4, h5⟩ := ih (i + 1) _ e h
      refine ⟨j + 1, c', es, by simpa using h1, by simpa [results] using h2, h3, ?_, ?_⟩
      · rw [h4]; congr 2; omega
      · rw [h5]; congr 2; omega

theorem depAt_ne_err {ε : Type} (deps : List Str) (g : Str) (e : ε) : depAt deps g ≠ .err e := by
  unfold depAt Res.unwrap
  split
  · intro h; cases h
  · split <;> intro h <;> cases h

theorem replacePieces_ne_err {ε : Type} (f : Str → Res ε Str) (e : ε) (hf : ∀ n, f n ≠ .err e) (ps : List Piece) :
    replacePieces f ps ≠ .err e := by
  induction ps with
  | nil => intro h; cases h
  | cons p ps ih =>
    intro h
    cases p with
    | lit c =>
      simp only [replacePieces] at h
      cases hr : replacePieces f ps with
      | ok x => rw [hr] at h; cases h
      | panic => rw [hr] at h; cases h
      | err x => rw [hr] at h; cases h; exact ih hr
    | ph n =>
      simp only [replacePieces] at h
      cases hn : f n with
      | panic => rw [hn] at h; cases h
      | err x => rw [hn] at h; cases h; exact hf n hn
      | ok t =>
        rw [hn] at h
        cases hr : replacePieces f ps with
        | ok x => rw [hr] at h; cases h
        | panic => rw [hr] at h; cases h
        | err x => rw [hr] at h; cases h; exact ih hr

theorem expandCondition_ne_err {ε : Type} (E : Env) (s : Str) (ds : List Str) (e : ε) :
    expandCondition E s ds ≠ .err e := by
  refine replacePieces_ne_err _ _ (fun n h => ?_) _
  cases hd : (depAt ds n : Res ε _) with
  | ok x => rw [hd] at h; cases h
  | panic => rw [hd] at h; cases h
  | err x => exact depAt_ne_err _ _ _ hd

theorem fromAst_err (E : Env) (Os : Nat → Order) (fromOca : Option Bundle) (ast : OCAAst) (errs : List BuildErr)
    (h : fromAst E Os fromOca ast = .err errs) :
    ∃ base, (baseOf E fromOca : Res (List BuildErr) _) = .ok base ∧
      errs = errorsFrom ast (if fromOca.isSome then 1 else 0) 0 (results E base ast.commands) := by
  cases hb : (baseOf E fromOca : Res (List BuildErr) _) with
  | err e =>
    exfalso
    cases fromOca with
    | none => cases hb
    | some bu =>
      have nopanic : ∀ {ε : Type}, (∀ e : ε, (OCABox.ofBundle E bu : Res ε _) ≠ .err e) := by
        intro ε e he
        have hupd : ∀ (m : FMap Attribute) n f, (updAttr m n f : Res ε _) ≠ .err e := by
          intro m n f h; unfold updAttr at h; split at h <;> cases h
        have hall : ∀ {V : Type} (f : V → Attribute → Attribute) (l : List (Str × V)) (m : FMap Attribute),
            (updAll f m l : Res ε _) ≠ .err e := by
          intro V f l
          induction l with
          | nil => intro m h; cases h
          | cons p t ih =>
            intro m h
            simp only [updAll] at h
            cases hu : (updAttr m p.1 (f p.2) : Res ε _) with
            | ok m' => rw [hu] at h; exact ih m' h
            | err x => rw [hu] at h; cases h; exact hupd _ _ _ hu
            | panic => rw [hu] at h; cases h
        have hcond : ∀ (d : FMap (List Str)) (l : List (Str × Str)) (m : FMap Attribute),
            (updConds E d m l : Res ε _) ≠ .err e := by
          intro d l
          induction l with
          | nil => intro m h; cases h
          | cons p t ih =>
            intro m h
            simp only [updConds] at h
            cases hd : d.get p.1 with
            | none => rw [hd] at h; cases h
            | some ds =>
              rw [hd] at h
              simp only [Res.unwrap_some, Res.bind_ok] at h
              cases hx : (expandCondition E p.2 ds : Res ε _) with
              | panic => rw [hx] at h; cases h
              | err y =>
                exact expandCondition_ne_err E p.2 ds y hx
              | ok s =>
                rw [hx] at h
                simp only [Res.bind_ok] at h
                cases hu : (updAttr m p.1 (·.setCond s) : Res ε _) with
                | ok m' => rw [hu] at h; exact ih m' h
                | err x => rw [hu] at h; cases h; exact hupd _ _ _ hu
                | panic => rw [hu] at h; cases h
        have hbody : ∀ (b : OvBody) (m : FMap Attribute), (loadBody E m b : Res ε _) ≠ .err e := by
          intro b m h
          cases b <;> simp only [loadBody, reduceCtorEq] at h
          case conditional c d => exact hcond _ _ _ h
          case framing md x =>
            cases hid : md.get frameIdKey with
            | none => rw [hid] at h; cases h
            | some id => rw [hid] at h; exact hall _ _ _ h
          all_goals exact hall _ _ _ h
        have hbodies : ∀ (l : List OvBody) (m : FMap Attribute), (loadBodies E m l : Res ε _) ≠ .err e := by
          intro l
          induction l with
          | nil => intro m h; cases h
          | cons b t ih =>
            intro m h
            simp only [loadBodies] at h
            cases hu : (loadBody E m b : Res ε _) with
            | ok m' => rw [hu] at h; exact ih m' h
            | err x => rw [hu] at h; cases h; exact hbody _ _ hu
            | panic => rw [hu] at h; cases h
        have hflags : ∀ (l : List Str) (m : FMap Attribute), (loadFlags m l : Res ε _) ≠ .err e := by
          intro l
          induction l with
          | nil => intro m h; cases h
          | cons b t ih =>
            intro m h
            simp only [loadFlags] at h
            cases hu : (updAttr m b (fun a => { a with flagged := true }) : Res ε _) with
            | ok m' => rw [hu] at h; exact ih m' h
            | err x => rw [hu] at h; cases h; exact hupd _ _ _ hu
            | panic => rw [hu] at h; cases h
        unfold OCABox.ofBundle at he
        dsimp only at he
        cases hf : (loadFlags (bu.captureBase.attributes.filterMap (fun _ t => some { ty := some t : Attribute }))
            bu.captureBase.flagged : Res ε _) with
        | err x => rw [hf] at he; cases he; exact hflags _ _ hf
        | panic => rw [hf] at he; cases he
        | ok m =>
          rw [hf] at he
          simp only [Res.bind_ok] at he
          cases hl : (loadBodies E m (loadOrder.flatMap fun k =>
              (bu.overlays.map Overlay.body).filter (fun x => x.kind = k)) : Res ε _) with
          | err x => rw [hl] at he; cases he; exact hbodies _ _ hl
          | panic => rw [hl] at he; cases he
          | ok m' => rw [hl] at he; cases he
      simp only [baseOf] at hb
      cases hx : (OCABox.ofBundle E bu : Res (List BuildErr) _) with
      | ok x => rw [hx] at hb; cases hb
      | err y => exact nopanic y hx
      | panic => rw [hx] at hb; cases hb
  | panic => unfold fromAst at h; rw [hb] at h; cases h
  | ok base =>
    refine ⟨base, rfl, ?_⟩
    have hout := C12_build_outcome E Os fromOca ast base hb
    by_cases hp : Res.panic ∈ results E base ast.commands
    · rw [hout.1 hp] at h; cases h
    · by_cases he : ∃ es, Res.err es ∈ results E base ast.commands
      · rw [hout.2.1 hp he] at h; cases h; rfl
      · by_cases hn : finalState E base ast.commands = none
        · rw [hout.2.2.1 hp he hn] at h; cases h
        · obtain ⟨b, hb'⟩ := hout.2.2.2 hp he hn
          rw [hb'] at h; cases h

/-- **C13** Building a parsed file without base: every reported error is the message of a rejected command
and carries the line number and the text of the line that command was parsed from. -/
theorem C13_error_lines (E : Env) (Os : Nat → Order) (ls : List Line) (ast : OCAAst)
    (hp : parseLines ls = .ok ast) (errs : List BuildErr) (h : fromAst E Os none ast = .err errs)
    (e : BuildErr) (he : e ∈ errs) :
    ∃ (j i : Nat) (c : Command) (es : List Str), ls[j]? = some (.instr e.rawLine (.ok c)) ∧ e.lineNumber = j + 1 ∧
      ast.commands[i]? = some c ∧ (results E none ast.commands)[i]? = some (.err es) ∧ e.message ∈ es := by
  obtain ⟨base, hb, rfl⟩ := fromAst_err E Os none ast errs h
  cases hb
  obtain ⟨i, c, es, h1, h2, h3, h4, h5⟩ := mem_errorsFrom _ _ E _ _ _ e he
  obtain ⟨j, raw, h6, h7⟩ := (parseLines_meta ls ast hp).2 i c h1
  have hm : cmdMeta ast (0 + i + (if (none : Option Bundle).isSome then 1 else 0)) = ⟨j + 1, raw⟩ := by
    simp [cmdMeta, h7]
  rw [hm] at h4 h5
  exact ⟨j, i, c, es, by rw [h5]; exact h6, h4, h1, h2, h3⟩

/-- **C13** Building a parsed file on a base: the facade drops the leading FROM command and keeps the
recorded lines; the errors still point at the right lines. -/
theorem C13_error_lines_with_base (E : Env) (Os : Nat → Order) (ls : List Line) (ast : OCAAst)
    (hp : parseLines ls = .ok ast) (base : Bundle) (box : OCABox)
    (hbase : (OCABox.ofBundle E base : Res (List BuildErr) _) = .ok box) (errs : List BuildErr)
    (h : fromAst E Os (some base) { ast with commands := ast.commands.tail } = .err errs)
    (e : BuildErr) (he : e ∈ errs) :
    ∃ (j i : Nat) (c : Command) (es : List Str), ls[j]? = some (.instr e.rawLine (.ok c)) ∧ e.lineNumber = j + 1 ∧
      ast.commands[i + 1]? = some c ∧ (results E (some box) ast.commands.tail)[i]? = some (.err es) ∧
      e.message ∈ es := by
  obtain ⟨b, hb, rfl⟩ := fromAst_err E Os (some base) _ errs h
  simp only [baseOf, hbase, Res.bind_ok, Res.pure_eq, Res.ok.injEq] at hb
  subst hb
  obtain ⟨i, c, es, h1, h2, h3, h4, h5⟩ := mem_errorsFrom _ _ E _ _ _ e he
  have h1' : ast.commands[i + 1]? = some c := by
    rw [← h1]; simp [List.getElem?_tail]
  obtain ⟨j, raw, h6, h7⟩ := (parseLines_meta ls ast hp).2 (i + 1) c h1'
  have hm : cmdMeta { ast with commands := ast.commands.tail }
      (0 + i + (if (some base).isSome then 1 else 0)) = ⟨j + 1, raw⟩ := by
    simp [cmdMeta, h7]
  rw [hm] at h4 h5
  exact ⟨j, i, c, es, by rw [h5]; exact h6, h4, h1', h2, h3⟩

/-! ## Concrete cases -/

/-- a file with a comment, a meta line, an accepted and two rejected commands -/
def badLines : List Line :=
  [.comment, .metaLine c!"name" c!"x",
   .instr c!"ADD ATTRIBUTE a=Text" (.ok (addAttrs [(c!"a", .val .text)])), .emptyLine,
   .instr c!"ADD LABEL en b=\"B\"" (.ok (addOv .label [(c!"lang", .val c!"en")] [(c!"b", .val c!"B")])),
   .instr c!"ADD CHARACTER_ENCODING a=\"x\""
     (.ok (addOv .characterEncoding [] [(c!"a", .val c!"x")])), .eoi]

/-- what the parser makes of it -/
def badAst : OCAAst := match parseLines badLines with
  | .ok a => a
  | _ => OCAAst.new

/-- The hypotheses of C13 are met: the file parses, the build fails with two errors on lines 5 and 6. -/
example : (parseLines badLines).isOk = true ∧ badAst.commands.length = 3 := by decide
example : fromAst Env.demo (fun _ => Order.sorted) none badAst =
    .err [⟨5, c!"ADD LABEL en b=\"B\"", c!"Undefined attribute: b"⟩,
      ⟨6, c!"ADD CHARACTER_ENCODING a=\"x\"", c!"Unknown encoding: x"⟩] := by rfl

/-- The hypotheses of C12 are met: the demo build succeeds with one step per command. -/
def okAst : OCAAst := { OCAAst.new with commands := demoCommands }

example : ∃ b, fromAst Env.demo (fun _ => Order.sorted) none okAst = .ok b ∧ b.steps.length = 11 := by
  have h : (fromAst Env.demo (fun _ => Order.sorted) none okAst).isOk = true ∧
      (match fromAst Env.demo (fun _ => Order.sorted) none okAst with
        | .ok b => b.steps.length
        | _ => 0) = 11 := by decide +kernel
  cases hr : fromAst Env.demo (fun _ => Order.sorted) none okAst with
  | ok b => rw [hr] at h; exact ⟨b, rfl, h.2⟩
  | err e => rw [hr] at h; cases h.1
  | panic => rw [hr] at h; cases h.1

/-- Without commands and base the build aborts (`build.rs:116`, `base.unwrap()`). -/
theorem C12_empty_build_aborts (E : Env) (Os : Nat → Order) (ast : OCAAst) (h : ast.commands = []) :
    fromAst E Os none ast = .panic := by
  refine (C12_build_outcome E Os none ast none rfl).2.2.1 ?_ ?_ ?_ <;> simp [h, results, finalState]

end OCA
