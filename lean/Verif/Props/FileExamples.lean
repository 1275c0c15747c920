import Verif.Props.Files
import Verif.Props.References
/-!
# C30, C31 on concrete files

Three files built on an empty facade: one whose history is found, one whose last command changes nothing, and one that
removes what it has just added.
-/
namespace OCA

/-- a file of commands -/
def fileOf (cs : List Command) : List Line := cs.map fun c => .instr c!"" (.ok c)

/-- validating and building a file on an empty facade -/
def tryFile (cs : List Command) : Res (List VErr) (Facade × Facade × Build) := do
  let (f1, b) ← Facade.new.validate Env.short Serde.text (fun _ => Order.sorted) (fileOf cs)
  let f2 ← f1.build Env.short Serde.text .kept b
  pure (f1, f2, b)

theorem tryFile_parts {cs : List Command} {f1 f2 : Facade} {b : Build} (h : tryFile cs = .ok (f1, f2, b)) :
    Facade.new.validate Env.short Serde.text (fun _ => Order.sorted) (fileOf cs) = .ok (f1, b) ∧
    (f1.build Env.short Serde.text .kept b : Res (List VErr) _) = .ok f2 := by
  unfold tryFile at h
  obtain ⟨⟨f, b'⟩, e1, h⟩ := Res.bind_eq_ok.1 (show Res.bind _ _ = _ from h)
  obtain ⟨f', e2, h⟩ := Res.bind_eq_ok.1 (show Res.bind _ _ = _ from h)
  cases h
  exact ⟨e1, e2⟩

/-- what a computation shows of a file -/
def fileTest (cs : List Command) (p : Build → Bool) : Bool := match tryFile cs with
  | .ok (_, _, b) => p b
  | _ => false

theorem fileTest_parts {cs : List Command} {p : Build → Bool} (h : fileTest cs p = true) :
    ∃ f1 f2 b, tryFile cs = .ok (f1, f2, b) ∧ p b = true := by
  unfold fileTest at h
  split at h
  · next f1 f2 b e => exact ⟨f1, f2, b, e, h⟩
  · cases h

theorem plain_keepable (k : CmdType) (l : List (Str × NAttr)) (hd : (l.map (·.1)).Nodup)
    (hp : ∀ p ∈ l, p.2 = .null ∨ ∃ t, p.2 = .val t)
    (hj : (Command.toJson ⟨k, .captureBase ⟨some l, none, none⟩⟩).depth < 128) (E : Env) :
    Command.Keepable E ⟨k, .captureBase ⟨some l, none, none⟩⟩ := by
  have hw : ∀ p ∈ l, p.2.wf E := by
    intro p h
    rcases hp p h with e | ⟨t, e⟩ <;> (rw [e]; trivial)
  refine ⟨⟨?_, ?_, ?_⟩, ⟨?_, ?_⟩, hj, ?_⟩
  · intro cc l' e1 e2
    cases e1; cases e2; exact hw
  · intro t cc l e; cases e
  · intro t cc l e; cases e
  · intro l' e; cases e; exact ⟨hd, hw⟩
  · intro l' e; cases e
  · intro cc l' e1 e2
    cases e1; cases e2
    intro p h
    rcases hp p h with e | ⟨t, e⟩ <;> (rw [e]; exact Nat.zero_le _)

/-- the identifiers of the steps -/
def Build.saids (b : Build) : List (Option Said) := b.steps.map (·.result.said)

/-- ADD ATTRIBUTE a=Text; ADD ATTRIBUTE b=Numeric -/
def addTwo : List Command := [addAttrs [(c!"a", .val .text)], addAttrs [(c!"b", .val .numeric)]]

theorem addA_keepable : (addAttrs [(c!"a", .val .text)]).Keepable Env.short :=
  plain_keepable _ _ (by decide) (fun p hp => .inr ⟨.text, by cases hp with | head => rfl | tail _ h => cases h⟩) (by decide) _

theorem addB_keepable : (addAttrs [(c!"b", .val .numeric)]).Keepable Env.short :=
  plain_keepable _ _ (by decide) (fun p hp => .inr ⟨.numeric, by cases hp with | head => rfl | tail _ h => cases h⟩)
    (by decide) _

theorem removeB_keepable : (removeAttrs [c!"b"]).Keepable Env.short :=
  plain_keepable _ _ (by decide) (fun p hp => .inl (by cases hp with | head => rfl | tail _ h => cases h)) (by decide) _

/-- the commands of the build of a file without FROM and without names -/
theorem tryFile_commands {cs : List Command} {f1 f2 : Facade} {b : Build} (h : tryFile cs = .ok (f1, f2, b))
    {ast : OCAAst} (hp : parseLines (fileOf cs) = .ok ast) (hc : ast.commands = cs) (hn : ast.NoBase)
    (hd : derefCommands Env.short Facade.new.db.findRefn cs = .ok cs) :
    b.steps.map (·.command) = cs ∧ fromAst Env.short (fun _ => Order.sorted) none { ast with commands := cs } = .ok b := by
  obtain ⟨h1, h2⟩ := tryFile_parts h
  obtain ⟨ast0, base, ast', cs', e1, e2, e3, e4, -⟩ := validate_parts h1
  rw [hp] at e1
  cases e1
  rw [checkBase_noBase hn] at e2
  cases e2
  rw [hc, hd] at e3
  cases e3
  obtain ⟨_, _, -, -, -, -, hcs, -⟩ := C12_successful_build _ _ none _ b e4
  exact ⟨hcs, e4⟩

theorem addTwo_parsed : ∃ ast, parseLines (fileOf addTwo) = .ok ast ∧ ast.commands = addTwo ∧ ast.NoBase :=
  ⟨_, rfl, rfl, fun _ h => by cases h⟩

set_option maxRecDepth 20000 in
/-- The hypotheses of `C30_history_of_file` are met: the history of this file is its two commands. -/
theorem C30_example : ∃ f1 f2 b s l, tryFile addTwo = .ok (f1, f2, b) ∧ b.bundle.said = some s ∧
    f2.HasHistory Env.short Serde.text s l ∧ l.map (·.command) = addTwo := by
  obtain ⟨f1, f2, b, h, hp⟩ := fileTest_parts (cs := addTwo)
    (p := fun b => decide (b.saids.Nodup) &&
      decide (b.steps.getLast?.bind (·.result.said) = b.bundle.said) && b.bundle.said.isSome) (by decide +kernel)
  obtain ⟨h1, h2⟩ := tryFile_parts h
  simp only [Bool.and_eq_true, decide_eq_true_eq, Option.isSome_iff_exists] at hp
  obtain ⟨⟨p1, p3⟩, s, p4⟩ := hp
  rw [p4] at p3
  obtain ⟨last, p5, p6⟩ := Option.bind_eq_some_iff.1 p3
  obtain ⟨ast, q1, q2, q3⟩ := addTwo_parsed
  have hc := (tryFile_commands h q1 q2 q3 rfl).1
  have hk : ∀ st ∈ b.steps, st.command.Keepable Env.short := by
    intro st hst
    have : st.command ∈ addTwo := by rw [← hc]; exact List.mem_map_of_mem hst
    simp only [addTwo, List.mem_cons, List.not_mem_nil, or_false] at this
    rcases this with e | e <;> rw [e]
    · exact addA_keepable
    · exact addB_keepable
  obtain ⟨l, a1, a2, a3⟩ := C30_history_of_file Env.short Serde.text (by decide) Facade.new f1 f2 .new _ .kept (fileOf addTwo)
    ast q1 q3 b h1 hk h2 p1 last p5 s p6
  refine ⟨f1, f2, b, s, l, h, p4, a1, ?_⟩
  rw [q2] at a2
  exact (Res.ok.inj (show Res.ok addTwo = _ from a2)).symm

theorem three_of_length {α : Type} {l : List α} (h : l.length = 3) : ∃ x y z, l = [x, y, z] := by
  match l, h with
  | [x, y, z], _ => exact ⟨x, y, z, rfl⟩

/-- the steps of such a file can be read back -/
theorem tryFile_readable {cs : List Command} {f1 f2 : Facade} {b : Build} (h : tryFile cs = .ok (f1, f2, b))
    (hc : b.steps.map (·.command) = cs) (hk : ∀ c ∈ cs, c.Keepable Env.short) : ∀ st ∈ b.steps, st.Readable Env.short :=
  readable_of (validate_keeps (Facade.Runs.kept (S := Serde.text) .new) (tryFile_parts h).1 (fun st hst => hk _ (by
    rw [← hc]
    exact List.mem_map_of_mem hst))).1

/-- ADD ATTRIBUTE a=Text; ADD CLASSIFICATION x, twice -/
def addTwice : List Command := [addAttrs [(c!"a", .val .text)], addClass c!"x", addClass c!"x"]

theorem addClass_keepable : (addClass c!"x").Keepable Env.short := by
  refine ⟨⟨?_, ?_, ?_⟩, ⟨?_, ?_⟩, by decide, ?_⟩
  · intro cc l e1 e2; cases e1; cases e2
  · intro t cc l e; cases e
  · intro t cc l e; cases e
  · intro l e; cases e
  · intro l e; cases e
    exact ⟨by decide, rfl, trivial⟩
  · intro cc l e1 e2; cases e1; cases e2

/-- ADD ATTRIBUTE a=Text; ADD ATTRIBUTE b=Numeric; REMOVE ATTRIBUTE b -/
def addRemove : List Command := addTwo ++ [removeAttrs [c!"b"]]

theorem addTwice_parsed : ∃ ast, parseLines (fileOf addTwice) = .ok ast ∧ ast.commands = addTwice ∧ ast.NoBase :=
  ⟨_, rfl, rfl, fun _ h => by cases h⟩

theorem addRemove_parsed : ∃ ast, parseLines (fileOf addRemove) = .ok ast ∧ ast.commands = addRemove ∧ ast.NoBase := by
  refine ⟨_, rfl, rfl, fun _ h => ?_⟩
  cases h

set_option maxRecDepth 20000 in
/-- Where C30 fails: a file that is accepted and built, whose result has no readable history. -/
theorem C30_malformed_example : ∃ f1 f2 b s, tryFile addTwice = .ok (f1, f2, b) ∧ b.bundle.said = some s ∧
    ∀ fuel, f2.steps Env.short Serde.text (fuel + 1) s = some (.err [c!"Malformed history"]) := by
  obtain ⟨f1, f2, b, h, hp⟩ := fileTest_parts (cs := addTwice)
    (p := fun b => decide (b.saids.tail = [b.bundle.said, b.bundle.said]) && b.bundle.said.isSome) (by decide +kernel)
  simp only [Bool.and_eq_true, decide_eq_true_eq, Option.isSome_iff_exists] at hp
  obtain ⟨p1, s, p4⟩ := hp
  obtain ⟨ast, q1, q2, q3⟩ := addTwice_parsed
  obtain ⟨hc, hb⟩ := tryFile_commands h q1 q2 q3 rfl
  have hr := tryFile_readable h hc (by
    intro c hc
    simp only [addTwice, List.mem_cons, List.not_mem_nil, or_false, or_self] at hc
    rcases hc with hc | hc <;> rw [hc]
    · exact addA_keepable
    · exact addClass_keepable)
  refine ⟨f1, f2, b, s, h, p4, ?_⟩
  intro fuel
  rw [p4] at p1
  obtain ⟨x, y, z, hst⟩ : ∃ x y z, b.steps = [x, y, z] := by
    have : b.steps.length = 3 := by
      rw [← List.length_map (f := (·.command)), hc]; rfl
    exact three_of_length this
  have p1 : b.saids.tail = _ := p1
  rw [Build.saids, hst] at p1
  simp only [List.map_cons, List.map_nil, List.tail_cons, List.cons.injEq, and_true] at p1
  exact C30_unchanged_step_malformed _ _ _ .kept none _ b hb f1 f2 (tryFile_parts h).2 [x] y z (by rw [hst]; rfl)
    (hr z (by rw [hst]; simp)) s p1.1 p1.2 fuel

set_option maxRecDepth 20000 in
/-- Where C30 fails: a file that is accepted and built, the lookup of whose history never ends. -/
theorem C30_endless_example : ∃ f1 f2 b s, tryFile addRemove = .ok (f1, f2, b) ∧ b.bundle.said = some s ∧
    ∀ fuel, f2.steps Env.short Serde.text fuel s = none := by
  obtain ⟨f1, f2, b, h, hp⟩ := fileTest_parts (cs := addRemove)
    (p := fun b => decide (b.saids.head? = some b.bundle.said) && decide (b.saids.tail.tail = [b.bundle.said]) &&
      decide (b.saids.tail.Nodup) && b.bundle.said.isSome) (by decide +kernel)
  simp only [Bool.and_eq_true, decide_eq_true_eq, Option.isSome_iff_exists] at hp
  obtain ⟨⟨⟨p1, p2⟩, p3⟩, s, p4⟩ := hp
  obtain ⟨ast, q1, q2, q3⟩ := addRemove_parsed
  obtain ⟨hc, hb⟩ := tryFile_commands h q1 q2 q3 rfl
  have hr := tryFile_readable h hc (by
    intro c hc
    simp only [addRemove, addTwo, List.mem_append, List.mem_cons, List.not_mem_nil, or_false] at hc
    rcases hc with (hc | hc) | hc <;> rw [hc]
    · exact addA_keepable
    · exact addB_keepable
    · exact removeB_keepable)
  obtain ⟨x, y, z, hst⟩ : ∃ x y z, b.steps = [x, y, z] := by
    have : b.steps.length = 3 := by
      rw [← List.length_map (f := (·.command)), hc]; rfl
    exact three_of_length this
  have p1 : b.saids.head? = _ := p1
  rw [Build.saids, hst] at p1 p2 p3
  rw [p4] at p1 p2
  refine ⟨f1, f2, b, s, h, p4, ?_⟩
  intro fuel
  exact C30_returning_step_never_ends _ _ (by decide) _ .kept none _ b hb f1 f2 (tryFile_parts h).2 [] [y] x z
    (by rw [hst]; rfl) (by simp) (fun st hs => hr st (by rw [hst]; exact .tail _ hs)) p3 s
    (Option.some.inj p1) (List.cons.inj p2).1 fuel

end OCA
