import Verif.Props.Lineage
import Verif.Props.FileExamples
import Verif.Props.HistoryTextExample
/-!
# C70: files for each of the ways a lookup goes
-/
namespace OCA

/-- a file whose commands can be kept, as a use of a facade -/
theorem tryFile_built {cs : List Command} {f1 f2 : Facade} {b : Build} (h : tryFile cs = .ok (f1, f2, b)) {ast : OCAAst}
    (hp : parseLines (fileOf cs) = .ok ast) (hc : ast.commands = cs) (hn : ast.NoBase) (hd : derefCommands Env.short Facade.new.db.findRefn cs = .ok cs)
    (hk : cs.all (keepB Env.short) = true) : f2.Built Env.short Serde.text [b] := by
  obtain ⟨h1, h2⟩ := tryFile_parts h
  have hcs := (tryFile_commands h hp hc hn hd).1
  refine .built (l := []) .new h1 (fun st hst => ?_) h2
  exact keepB_sound (List.all_eq_true.1 hk _ (by rw [← hcs]; exact List.mem_map_of_mem hst))

set_option maxRecDepth 20000 in
/-- **C70** All ways exist: a file with a lineage of two steps, one whose result is stuck at a step that changed nothing, one whose result goes round in a circle, and an identifier that was
never built. -/
theorem C70_example :
    (∃ (f : Facade) (b : Build) (s : Said) (l : List BuildStep), f.Built Env.short Serde.text [b] ∧ b.bundle.said = some s ∧ Lineage (stepsOf [b]) s l ∧ l.length = 2) ∧
    (∃ (f : Facade) (b : Build) (s : Said), f.Built Env.short Serde.text [b] ∧ b.bundle.said = some s ∧ Stuck (stepsOf [b]) s) ∧
    (∃ (f : Facade) (b : Build) (s : Said), f.Built Env.short Serde.text [b] ∧ b.bundle.said = some s ∧ Circular (stepsOf [b]) s) ∧
    (∃ (f : Facade) (b : Build) (s : Said), f.Built Env.short Serde.text [b] ∧ lastStep (stepsOf [b]) s = none) := by
  have k1 : addTwo.all (keepB Env.short) = true := by decide +kernel
  have k2 : addTwice.all (keepB Env.short) = true := by decide +kernel
  have k3 : addRemove.all (keepB Env.short) = true := by decide +kernel
  have noSaid : Env.short.validSaid [] = false := by decide
  have p1 : ∃ ast, parseLines (fileOf addTwo) = .ok ast ∧ ast.commands = addTwo ∧ ast.NoBase := ⟨_, rfl, rfl, fun _ h => by cases h⟩
  have p2 : ∃ ast, parseLines (fileOf addTwice) = .ok ast ∧ ast.commands = addTwice ∧ ast.NoBase := ⟨_, rfl, rfl, fun _ h => by cases h⟩
  have p3 : ∃ ast, parseLines (fileOf addRemove) = .ok ast ∧ ast.commands = addRemove ∧ ast.NoBase := ⟨_, rfl, rfl, fun _ h => by cases h⟩
  obtain ⟨_, a2, a3, a4⟩ := p1
  obtain ⟨_, b2, b3, b4⟩ := p2
  obtain ⟨_, c2, c3, c4⟩ := p3
  refine ⟨?_, ?_, ?_, ?_⟩
  · obtain ⟨f1, f2, b, s, l, h, hs, hh, hl⟩ := C30_example
    have hB := tryFile_built h a2 a3 a4 rfl k1
    obtain ⟨l', h1, h2⟩ := (C70_reported _ _ noSaid f2 [b] hB s).1 _ l (hh _ (Nat.le_refl _))
    refine ⟨f2, b, s, l', hB, hs, h1, ?_⟩
    have e1 := congrArg List.length h2
    have e2 := congrArg List.length hl
    simp only [List.length_map] at e1 e2
    rw [← e1, e2]; rfl
  · obtain ⟨f1, f2, b, s, h, hs, hm⟩ := C30_malformed_example
    have hB := tryFile_built h b2 b3 b4 rfl k2
    exact ⟨f2, b, s, hB, hs, (C70_reported _ _ noSaid f2 [b] hB s).2.2.1.1 ⟨_, hm 0⟩⟩
  · obtain ⟨f1, f2, b, s, h, hs, hm⟩ := C30_endless_example
    have hB := tryFile_built h c2 c3 c4 rfl k3
    exact ⟨f2, b, s, hB, hs, (C70_reported _ _ noSaid f2 [b] hB s).2.2.2.1.1 hm⟩
  · obtain ⟨f1, f2, b, s, l, h, hs, hh, hl⟩ := C30_example
    have hB := tryFile_built h a2 a3 a4 rfl k1
    refine ⟨f2, b, [], hB, ?_⟩
    cases e : lastStep (stepsOf [b]) [] with
    | none => rfl
    | some st =>
      obtain ⟨m1, m2⟩ := lastStep_some e
      have := (hB.ordered.1 st m1).1.result.said [] m2
      rw [noSaid] at this; cases this

end OCA
