import Verif.Props.FileExamples
/-!
# C41: FROM an unknown base

The property asks for an error. The code collects the error and drops it: the rest of the file is built from scratch.
-/
namespace OCA

/-! ## The parser -/

/-- the same AST behind one more command -/
structure FromThen (c : Command) (a a' : OCAAst) : Prop where
  commands : a.commands = c :: a'.commands
  version : a.version = a'.version
  metaMap : a.metaMap = a'.metaMap

theorem extractAttributes_from (o : ObjKind) (cs : List Command) :
    extractAttributes (⟨.«from», o⟩ :: cs) = extractAttributes cs := rfl

theorem extractProperties_from (o : ObjKind) (cs : List Command) :
    extractProperties (⟨.«from», o⟩ :: cs) = extractProperties cs := rfl

theorem astValidate_from {o : ObjKind} {a a' : OCAAst} (h : FromThen ⟨.«from», o⟩ a a') (c : Command) :
    astValidate a c = astValidate a' c := by
  unfold astValidate validate100 ruleAdd ruleRemove
  rw [h.commands, h.version, extractAttributes_from, extractProperties_from]

theorem parseLoop_from {o : ObjKind} (ls : List Line) {a a' : OCAAst} (h : FromThen ⟨.«from», o⟩ a a') (n : Nat) :
    (∀ x', parseLoop a' n ls = .ok x' → ∃ x, parseLoop a n ls = .ok x ∧ FromThen ⟨.«from», o⟩ x x') ∧
    (∀ x, parseLoop a n ls = .ok x → ∃ x', parseLoop a' n ls = .ok x' ∧ FromThen ⟨.«from», o⟩ x x') := by
  induction ls generalizing a a' n with
  | nil => exact ⟨fun x' e => ⟨a, rfl, by cases e; exact h⟩, fun x e => ⟨a', rfl, by cases e; exact h⟩⟩
  | cons l ls ih =>
    have key : (∃ b b', parseLine a n l = .ok b ∧ parseLine a' n l = .ok b' ∧ FromThen ⟨.«from», o⟩ b b') ∨
        ((∀ b, parseLine a n l ≠ .ok b) ∧ ∀ b, parseLine a' n l ≠ .ok b) := by
      cases l with
      | eoi => exact .inl ⟨a, a', rfl, rfl, h⟩
      | comment => exact .inl ⟨a, a', rfl, rfl, h⟩
      | emptyLine => exact .inl ⟨a, a', rfl, rfl, h⟩
      | metaLine k v =>
        unfold parseLine
        dsimp only
        split
        · exact .inr ⟨fun _ e => (by cases e), fun _ e => (by cases e)⟩
        · split
          · exact .inr ⟨fun _ e => (by cases e), fun _ e => (by cases e)⟩
          · exact .inl ⟨_, _, rfl, rfl, h.commands, h.version, by simp only [h.metaMap]⟩
      | instr raw cmd =>
        unfold parseLine
        cases cmd with
        | panic => exact .inr ⟨fun _ e => (by cases e), fun _ e => (by cases e)⟩
        | err e => exact .inr ⟨fun _ e => (by cases e), fun _ e => (by cases e)⟩
        | ok c =>
          dsimp only
          rw [astValidate_from h]
          cases astValidate a' c with
          | ok _ => exact .inl ⟨_, _, rfl, rfl, by simp [h.commands], h.version, h.metaMap⟩
          | err e => exact .inr ⟨fun _ e => (by cases e), fun _ e => (by cases e)⟩
          | panic => exact .inr ⟨fun _ e => (by cases e), fun _ e => (by cases e)⟩
    unfold parseLoop
    rcases key with ⟨b, b', e1, e2, h'⟩ | ⟨e1, e2⟩
    · rw [e1, e2]
      exact ih h' (n + 1)
    · constructor
      · intro x' hx
        cases hl : parseLine a' n l with
        | ok b => exact absurd hl (e2 b)
        | err e => rw [hl] at hx; cases hx
        | panic => rw [hl] at hx; cases hx
      · intro x hx
        cases hl : parseLine a n l with
        | ok b => exact absurd hl (e1 b)
        | err e => rw [hl] at hx; cases hx
        | panic => rw [hl] at hx; cases hx

/-- not an instruction -/
def Line.Quiet : Line → Prop
  | .instr _ _ => False
  | _ => True


theorem parseLoop_quiet (l : List Line) (hq : ∀ x ∈ l, x.Quiet) (a b : OCAAst) (n : Nat) (h : parseLoop a n l = .ok b) :
    b.commands = a.commands ∧ b.version = a.version := by
  induction l generalizing a n with
  | nil => cases h; exact ⟨rfl, rfl⟩
  | cons x t ih =>
    rw [parseLoop] at h
    cases hx : parseLine a n x with
    | err e => rw [hx] at h; cases h
    | panic => rw [hx] at h; cases h
    | ok c =>
      rw [hx] at h
      obtain ⟨h1, h2⟩ := ih (fun y hy => hq y (.tail _ hy)) c (n + 1) h
      have : c.commands = a.commands ∧ c.version = a.version := by
        cases x with
        | eoi => cases hx; exact ⟨rfl, rfl⟩
        | comment => cases hx; exact ⟨rfl, rfl⟩
        | emptyLine => cases hx; exact ⟨rfl, rfl⟩
        | metaLine k v =>
          unfold parseLine at hx
          dsimp only at hx
          split at hx
          · cases hx
          · split at hx
            · cases hx
            · cases hx; exact ⟨rfl, rfl⟩
        | instr raw cmd => exact absurd (hq _ (.head _)) (by simp [Line.Quiet])
      exact ⟨h1.trans this.1, h2.trans this.2⟩

/-- A file whose first instruction is FROM parses to FROM followed by what the file with a comment in its place parses
to. -/
theorem parse_from_line (pre post : List Line) (hq : ∀ x ∈ pre, x.Quiet) (raw : Str) (o : ObjKind) :
    (∀ x', parseLines (pre ++ .comment :: post) = .ok x' →
      ∃ x, parseLines (pre ++ .instr raw (.ok ⟨.«from», o⟩) :: post) = .ok x ∧ FromThen ⟨.«from», o⟩ x x') ∧
    (∀ x, parseLines (pre ++ .instr raw (.ok ⟨.«from», o⟩) :: post) = .ok x →
      ∃ x', parseLines (pre ++ .comment :: post) = .ok x' ∧ FromThen ⟨.«from», o⟩ x x') := by
  unfold parseLines
  rw [parseLoop_append, parseLoop_append]
  cases hp : parseLoop OCAAst.new 0 pre with
  | err e => exact ⟨fun _ h => (by cases h), fun _ h => (by cases h)⟩
  | panic => exact ⟨fun _ h => (by cases h), fun _ h => (by cases h)⟩
  | ok a =>
    obtain ⟨hc, hv⟩ := parseLoop_quiet pre hq _ a 0 hp
    dsimp only
    rw [parseLoop, parseLoop]
    have hl : parseLine a (0 + pre.length) (.instr raw (.ok ⟨.«from», o⟩)) = .ok { a with
        commands := a.commands ++ [⟨.«from», o⟩],
        commandsMeta := a.commandsMeta ++ [(a.commands.length, ⟨0 + pre.length + 1, raw⟩)] } := by
      unfold parseLine
      dsimp only
      have : astValidate a ⟨.«from», o⟩ = .ok () := by
        unfold astValidate
        rw [hv]
        rfl
      rw [this]
    rw [hl]
    have hl' : parseLine a (0 + pre.length) .comment = .ok a := rfl
    rw [hl']
    refine parseLoop_from post ?_ _
    refine ⟨?_, rfl, rfl⟩
    show a.commands ++ _ = _
    rw [hc]; rfl

/-! ## Building does not depend on the recorded lines -/

/-- the same state, but for the lines of the errors -/
structure SameBut (a b : LoopState) : Prop where
  errors : a.errors.map (·.message) = b.errors.map (·.message)
  steps : a.steps = b.steps
  parent : a.parent = b.parent
  base : a.base = b.base

theorem buildStep_meta {E : Env} {O : Order} (cm cm' : CommandMeta) {a b : LoopState} (h : SameBut a b) (c : Command) :
    (∃ a' b', buildStep E O cm a c = .ok a' ∧ buildStep E O cm' b c = .ok b' ∧ SameBut a' b') ∨
    buildStep E O cm a c = buildStep E O cm' b c ∧ ∀ x, buildStep E O cm a c ≠ .ok x := by
  obtain ⟨ae, as, ap, ab⟩ := a
  obtain ⟨be, bs, bp, bb⟩ := b
  obtain ⟨h1, h2, h3, h4⟩ := h
  dsimp only at h1 h2 h3 h4
  subst h2; subst h3; subst h4
  unfold buildStep
  dsimp only
  cases applyCommand E ab c with
  | panic => exact .inr ⟨rfl, fun _ e => (by cases e)⟩
  | err es => exact .inl ⟨_, _, rfl, rfl, by simp [h1, Function.comp_def], rfl, rfl, rfl⟩
  | ok box =>
    dsimp only
    cases hg : (generateBundle E O box : Res (List BuildErr) _) with
    | ok bu =>
      exact .inl ⟨⟨ae, _, _, _⟩, ⟨be, _, _, _⟩, rfl, rfl, h1, rfl, rfl, rfl⟩
    | err es => exact .inr ⟨rfl, fun _ e => (by cases e)⟩
    | panic => exact .inr ⟨rfl, fun _ e => (by cases e)⟩

theorem buildLoop_meta {E : Env} {Os : Nat → Order} (ast ast' : OCAAst) (sh sh' : Nat) (cs : List Command) (i : Nat)
    {a b : LoopState} (h : SameBut a b) :
    (∃ a' b', buildLoop E Os ast sh i a cs = .ok a' ∧ buildLoop E Os ast' sh' i b cs = .ok b' ∧ SameBut a' b') ∨
    buildLoop E Os ast sh i a cs = buildLoop E Os ast' sh' i b cs ∧ ∀ x, buildLoop E Os ast sh i a cs ≠ .ok x := by
  induction cs generalizing i a b with
  | nil => exact .inl ⟨a, b, rfl, rfl, h⟩
  | cons c t ih =>
    unfold buildLoop
    rcases buildStep_meta (O := Os i) (E := E) (cmdMeta ast (i + sh)) (cmdMeta ast' (i + sh')) h c with ⟨a', b', e1, e2, h'⟩ | ⟨e, hn⟩
    · rw [e1, e2]
      exact ih (i + 1) h'
    · rw [← e]
      cases hx : buildStep E (Os i) (cmdMeta ast (i + sh)) a c with
      | ok x => exact absurd hx (hn x)
      | err e => exact .inr ⟨rfl, fun _ e => (by cases e)⟩
      | panic => exact .inr ⟨rfl, fun _ e => (by cases e)⟩

/-- What a build gives does not depend on the lines recorded for the commands. -/
theorem fromAst_meta {E : Env} {Os : Nat → Order} (base : Option Bundle) (ast ast' : OCAAst)
    (hc : ast.commands = ast'.commands) (b : Build) (h : fromAst E Os base ast = .ok b) : fromAst E Os base ast' = .ok b := by
  unfold fromAst at h ⊢
  obtain ⟨x, hx, h⟩ := Res.bind_eq_ok.1 h
  obtain ⟨st, hst, h⟩ := Res.bind_eq_ok.1 h
  rw [hx, ← hc]
  dsimp only [Res.bind_ok] at hst ⊢
  have h0 : SameBut ⟨[], [], base.bind Bundle.said, x⟩ ⟨[], [], base.bind Bundle.said, x⟩ := ⟨rfl, rfl, rfl, rfl⟩
  rcases buildLoop_meta (E := E) (Os := Os) ast ast' (if base.isSome then 1 else 0) (if base.isSome then 1 else 0)
      ast.commands 0 h0 with ⟨a', b', e1, e2, h'⟩ | ⟨_, hn⟩
  · rw [hst] at e1
    cases e1
    rw [e2, Res.bind_ok]
    unfold buildFinish at h ⊢
    have he : st.errors.isEmpty = b'.errors.isEmpty := by
      have := congrArg List.isEmpty h'.errors
      rw [List.isEmpty_map, List.isEmpty_map] at this
      exact this
    rw [← he, ← h'.base, ← h'.steps]
    by_cases hi : st.errors.isEmpty = true
    · rw [if_pos hi] at h ⊢
      exact h
    · rw [if_neg hi] at h
      cases h
  · exact absurd hst (hn st)

theorem validate_of_parts {E : Env} {S : Serde} {Os : Nat → Order} {f : Facade} {ls ls' : List Line} {ast ast1 ast' ast1' : OCAAst}
    {base : Option Bundle} (h1 : parseLines ls = .ok ast) (h2 : (checkBase E S f.cache ast : Res (List VErr) _) = .ok (base, ast1))
    (h1' : parseLines ls' = .ok ast') (h2' : (checkBase E S f.cache ast' : Res (List VErr) _) = .ok (base, ast1'))
    (hc : ast1.commands = ast1'.commands) (hm : ast1.metaMap = ast1'.metaMap) (f' : Facade) (b : Build)
    (h : f.validate E S Os ls = .ok (f', b)) : f.validate E S Os ls' = .ok (f', b) := by
  unfold Facade.validate at h ⊢
  rw [h1] at h
  rw [h1']
  dsimp only [Res.mapErr, Res.bind_ok] at h ⊢
  rw [h2] at h
  rw [h2']
  rw [Res.bind_ok] at h ⊢
  dsimp only at h ⊢
  obtain ⟨⟨db, b'⟩, hr, h⟩ := Res.bind_eq_ok.1 (show Res.bind _ _ = _ from h)
  have : buildWithRefs E Os f.db base ast1' = .ok (db, b') := by
    unfold buildWithRefs at hr ⊢
    rw [← hc]
    obtain ⟨cs, hcs, hr⟩ := Res.bind_eq_ok.1 hr
    obtain ⟨b2, hb2, hr⟩ := Res.bind_eq_ok.1 hr
    have hb3 : fromAst E Os base { ast1 with commands := cs } = .ok b2 := by
      cases hx : fromAst E Os base { ast1 with commands := cs } with
      | ok y => rw [hx] at hb2; cases hb2; rfl
      | err e => rw [hx] at hb2; cases hb2
      | panic => rw [hx] at hb2; cases hb2
    have := fromAst_meta base { ast1 with commands := cs } { ast1' with commands := cs } rfl b2 hb3
    rw [hm] at hr
    rw [hcs, Res.bind_ok, this]
    exact hr
  rw [this]
  exact h

/-! ## C41 -/

/-- **C41** (what holds instead) On any facade that has no bundle `s`: a file whose first instruction is
FROM `s` is accepted exactly when the same file with a comment in place of that line is accepted, with the same build
and the same effect on the facade. So it is an error only if the rest of the file does not build from scratch. (The
full property, that it is always an error, is refuted by `C41_unknown_base_accepted`.) -/
theorem C41_unknown_base (E : Env) (S : Serde) (f : Facade) (s : Said)
    (hs : f.cache.get .bundlesJson s = .ok none) (Os : Nat → Order) (pre post : List Line) (hq : ∀ x ∈ pre, x.Quiet) (raw : Str)
    (hpost : ∀ raw o, Line.instr raw (.ok ⟨.«from», o⟩) ∉ post) (f' : Facade) (b : Build) :
    f.validate E S Os (pre ++ .instr raw (.ok ⟨.«from», .ocaBundle (.said s)⟩) :: post) = .ok (f', b) ↔
    f.validate E S Os (pre ++ .comment :: post) = .ok (f', b) := by
  have hfetch : fetchBundle E S f.cache s = .err [c!"No OCA Bundle found for said: " ++ s] := by
    unfold fetchBundle; rw [hs]
  obtain ⟨p1, p2⟩ := parse_from_line pre post hq raw (.ocaBundle (.said s))
  have hbase : ∀ x x' : OCAAst, FromThen ⟨.«from», .ocaBundle (.said s)⟩ x x' →
      (checkBase E S f.cache x : Res (List VErr) _) = .ok (none, { x with commands := x'.commands }) := by
    intro x x' h
    unfold checkBase
    rw [h.commands]
    dsimp only
    rw [hfetch]
  have hno : ∀ x', parseLines (pre ++ .comment :: post) = .ok x' → x'.NoBase := by
    intro x' hx o ho
    have hmem : (⟨.«from», o⟩ : Command) ∈ x'.commands := List.mem_of_mem_head? ho
    obtain ⟨i, hi, hget⟩ := List.mem_iff_getElem.1 hmem
    obtain ⟨j, raw', hj, -⟩ := (parseLines_meta _ x' hx).2 i _ (by rw [List.getElem?_eq_getElem hi, hget])
    have := List.mem_of_getElem? hj
    rcases List.mem_append.1 this with h | h
    · exact hq _ h
    · cases h with
      | tail _ h => exact hpost _ _ h
  constructor
  · intro h
    obtain ⟨x, _, _, _, hx, -⟩ := validate_parts h
    obtain ⟨x', hx', hr⟩ := p2 x hx
    exact validate_of_parts hx (hbase x x' hr) hx' (checkBase_noBase (hno x' hx')) rfl hr.metaMap f' b h
  · intro h
    obtain ⟨x', _, _, _, hx', -⟩ := validate_parts h
    obtain ⟨x, hx, hr⟩ := p1 x' hx'
    exact validate_of_parts hx' (checkBase_noBase (hno x' hx')) hx (hbase x x' hr) rfl hr.metaMap.symm f' b h

/-- FROM an identifier nobody has built, on an empty facade: accepted and built. -/
def fromNowhere : List Line :=
  [.instr c!"FROM Enowhere" (.ok ⟨.«from», .ocaBundle (.said c!"Enowhere")⟩),
   .instr c!"ADD ATTRIBUTE a=Text" (.ok (addAttrs [(c!"a", .val .text)]))]

def fromNowhereTest : Bool := match Facade.new.validate Env.short Serde.text (fun _ => Order.sorted) fromNowhere with
  | .ok (f, b) => match (f.build Env.short Serde.text .kept b : Res (List VErr) _) with
    | .ok _ => decide (b.steps.length = 1) && decide (b.steps.map (·.parentSaid) = [none])
    | _ => false
  | _ => false

/-- **C41** is false of the code: FROM an identifier that an empty facade cannot know is accepted, and the result is
built and stored. -/
theorem C41_unknown_base_accepted : ∃ (E : Env) (S : Serde) (Os : Nat → Order) (O : SetOrder) (s : Said) (rest : List Line)
    (f1 f2 : Facade) (b : Build),
    Facade.new.validate E S Os (.instr (c!"FROM " ++ s) (.ok ⟨.«from», .ocaBundle (.said s)⟩) :: rest) = .ok (f1, b) ∧
    (f1.build E S O b : Res (List VErr) _) = .ok f2 ∧ b.steps.map (·.parentSaid) = [none] := by
  have h : fromNowhereTest = true := by decide +kernel
  unfold fromNowhereTest at h
  split at h
  · next f b e =>
    split at h
    · next f2 e2 =>
      simp only [Bool.and_eq_true, decide_eq_true_eq] at h
      exact ⟨Env.short, Serde.text, _, .kept, c!"Enowhere", _, f, f2, b, e, e2, h.2⟩
    · cases h
  · cases h

/-- The hypotheses of `C41_unknown_base` are met by that file. -/
theorem C41_example : Facade.new.cache.get .bundlesJson c!"Enowhere" = .ok none ∧
    (∃ f b, Facade.new.validate Env.short Serde.text (fun _ => Order.sorted)
      ([.comment] ++ .comment :: [.instr c!"ADD ATTRIBUTE a=Text" (.ok (addAttrs [(c!"a", .val .text)]))]) = .ok (f, b)) := by
  refine ⟨rfl, ?_⟩
  have : (match Facade.new.validate Env.short Serde.text (fun _ => Order.sorted)
      ([.comment] ++ .comment :: [.instr c!"ADD ATTRIBUTE a=Text" (.ok (addAttrs [(c!"a", .val .text)]))]) with
    | .ok _ => true | _ => false) = true := by decide +kernel
  split at this
  · next x e => exact ⟨x.1, x.2, e⟩
  · cases this

/-- FROM an unknown base followed by a command that cannot be applied -/
def fromNowhereBad : List Line :=
  [.instr c!"FROM Enowhere" (.ok ⟨.«from», .ocaBundle (.said c!"Enowhere")⟩),
   .instr c!"ADD LABEL en b=B" (.ok (addOv .label [(c!"lang", .val c!"en")] [(c!"b", .val c!"B")]))]

/-- A further effect of the dropped error: the lines recorded for the commands are not shifted, so an error of the rest
of the file is reported one instruction too early, here at the FROM line instead of line 2. -/
theorem C41_wrong_line : Facade.new.validate Env.short Serde.text (fun _ => Order.sorted) fromNowhereBad =
    .err [.build ⟨1, c!"FROM Enowhere", c!"Undefined attribute: b"⟩] := by
  have h : (match Facade.new.validate Env.short Serde.text (fun _ => Order.sorted) fromNowhereBad with
    | .err e => decide (e = [.build ⟨1, c!"FROM Enowhere", c!"Undefined attribute: b"⟩]) | _ => false) = true := by
    decide +kernel
  split at h
  · next e he => rw [he, of_decide_eq_true h]
  · cases h

end OCA
