import Verif.Props.TextTree
import Verif.Demo
/-!
# C65 on concrete trees
-/
namespace OCA

/-- a file with four commands, one of them a framing with nested values -/
def treeText : Str := c!"-- name=x\n# c\nADD ATTRIBUTE a=Text b=Array[refn:y]\nADD LABEL en ATTRS a=\"A\"\nADD ENTRY_CODE ATTRS a={\"g\": [\"1\", \"2\"]}\nREMOVE ATTRIBUTE b\n"

/-- the same with a label that looks like a reference -/
def refText : Str := c!"ADD ATTRIBUTE a=Text\nADD LABEL en ATTRS a=\"refn:x\"\n"

/-- parse, write, read: how many commands, how many plain texts before and after, and whether the JSON is the same -/
def treeRun (s : Str) : Option (Nat × Nat × Nat × Bool) :=
  match parseText Env.short Uni.ascii s with
  | .ok a => match OCAAst.ofJson Env.short (a.toJson Order.reversed) with
    | .ok b => some (b.commands.length, (a.commands.flatMap Command.plainTexts).length, (b.commands.flatMap Command.plainTexts).length,
        (a.toJson Order.sorted).print == (b.toJson Order.sorted).print)
    | _ => none
  | _ => none

set_option maxRecDepth 20000 in
/-- The tree of the first text comes back; in the second one the label has become a reference. -/
theorem C65_example_run : treeRun treeText = some (4, 4, 4, true) ∧ treeRun refText = some (2, 2, 1, true) := by decide +kernel

/-- the hypotheses of `C65_text_reads_back`, as a check -/
def treeOk (s : Str) : Bool :=
  match parseText Env.short Uni.ascii s with
  | .ok a => decide (a.commands.length = 4) && a.commandsMeta.all (fun p => decide (p.2.lineNumber < 18446744073709551616)) &&
      a.commands.all fun c => c.plainTexts.all fun t => !(RefVal.parse Env.short t).isOk
  | _ => false

set_option maxRecDepth 20000 in
theorem treeOk_true : treeOk treeText = true := by decide +kernel

/-- **C65 is not empty**: `treeText` meets the hypotheses of `C65_text_reads_back`, and so its tree reads back in every order. -/
theorem C65_example : ∃ ast, parseText Env.short Uni.ascii treeText = .ok ast ∧ ast.commands.length = 4 ∧
    ∀ O, OCAAst.ofJson Env.short (ast.toJson O) = .ok ast := by
  have h := treeOk_true
  unfold treeOk at h
  split at h
  · next a ha =>
    simp only [Bool.and_eq_true, decide_eq_true_eq, List.all_eq_true, Bool.not_eq_true'] at h
    obtain ⟨⟨h1, h2⟩, h3⟩ := h
    refine ⟨a, ha, h1, fun O => (C65_text_reads_back Env.short Uni.ascii O treeText a ha (by rw [h1]; decide) h2).2 ?_⟩
    exact fun c hc t ht => not_looks.2 (h3 c hc t ht)
  · cases h

/-- a transformation file -/
def treeTrans : Str := c!"-- precompiler=transformation\n-- source=refs:Eaaa\n-- target=refs:Ebbb\nRENAME ATTRIBUTE a=b c=d\nLINK ATTRIBUTE e -> f\n"

/-- the transformation file is accepted, with small line numbers -/
def treeTransOk : Bool :=
  match parseTransformation Uni.ascii treeTrans with
  | .ok a => decide (a.commands.length = 2) && a.commandsMeta.all (fun p => decide (p.2.lineNumber < 18446744073709551616))
  | _ => false

set_option maxRecDepth 20000 in
theorem treeTransOk_true : treeTransOk = true := by decide +kernel

/-- **C65 is not empty** for transformations. -/
theorem C65_example_trans : ∃ ast, parseTransformation Uni.ascii treeTrans = .ok ast ∧ ast.commands.length = 2 ∧
    ∀ O, TAst.ofJson (ast.toJson O) = .ok ast := by
  have h := treeTransOk_true
  unfold treeTransOk at h
  split at h
  · next a ha =>
    simp only [Bool.and_eq_true, decide_eq_true_eq, List.all_eq_true] at h
    exact ⟨a, ha, h.1, fun O => C65_trans_text_reads_back Uni.ascii O treeTrans a ha (by rw [h.1]; decide) h.2⟩
  · cases h

end OCA
