import Verif.Props.TextBuild
/-!
# A bundle that C51 applies to, and bundles that show why its restrictions are there
-/
namespace OCA
open Gr

theorem forall_get {V : Type} {m : FMap V} {P : Str → V → Prop} (h : ∀ p ∈ m.l, P p.1 p.2) (n : Str) (v : V) (hg : m.get n = some v) : P n v :=
  h (n, v) (FMap.get_eq_some_iff.1 hg)

/-- a check for some kinds of overlays -/
def OvBody.quotesB : OvBody → Bool
  | .format m | .conformance m | .cardinality m | .unit m | .label _ _ m _ | .information _ m => m.l.all fun p => Quotable p.2
  | .charEnc _ => true
  | .metaOv _ m => m.l.all fun p => (!p.1.isEmpty && p.1.all nameChar) && Quotable p.2
  | .entryCode m => m.l.all fun p => match p.2 with
    | .array l => l.all Quotable
    | _ => false
  | _ => false

theorem OvBody.quotes_of (E : Env) (b : OvBody) (h : b.quotesB = true) : b.Quotes E := by
  cases b <;> simp only [OvBody.quotesB, List.all_eq_true, Bool.false_eq_true] at h
  case charEnc => exact trivial
  case metaOv l m =>
    refine forall_get fun p hp => ?_
    have := h p hp
    simp only [Bool.and_eq_true] at this
    refine ⟨isKey_of ⟨?_, this.1.2⟩, this.2⟩
    intro e
    rw [e] at this
    simp at this
  case entryCode m =>
    refine forall_get fun p hp => ?_
    have := h p hp
    cases hv : p.2 with
    | array l => rw [hv] at this; exact fun v hv => List.all_eq_true.1 this v hv
    | sai s => rw [hv] at this; cases this
    | object l => rw [hv] at this; cases this
  all_goals exact forall_get h

/-- the state after these commands -/
def boxAfter (cs : List Command) : OCABox :=
  match runAll Env.demo OCABox.new cs with
  | .ok b => b
  | _ => OCABox.new

/-- the OCA file of the bundle -/
def exported (cs : List Command) : Option Str :=
  match ((bundleOf Env.demo Order.sorted (boxAfter cs)).toAst Env.demo Order.sorted : Res Str _) with
  | .ok ast => match (printAst ast : Res Str Str) with
    | .ok s => some s
    | _ => none
  | _ => none

/-- the number of commands read, `none` for a text that is refused -/
def readBack (s : Option Str) : Option Nat :=
  s.bind fun s => match parseText Env.demo Uni.ascii s with
    | .ok out => some out.commands.length
    | _ => none

/-- a history -/
def writableCommands : List Command :=
  [addAttrs [(c!"name", .val .text), (c!"tags", .arr (.val .text))],
   addOv .metaOv [(c!"lang", .val c!"en"), (c!"name", .val c!"Person")] [],
   addOv .label [(c!"lang", .val c!"en")] [(c!"name", .val c!"Name"), (c!"tags", .val c!"Tags")],
   addOv .characterEncoding [] [(c!"name", .val c!"utf-8")],
   addOv .entryCode [] [(c!"tags", .arr [.val c!"a", .val c!"b"])]]

/-- the same with a link -/
def linkedCommands : List Command :=
  writableCommands ++ [addOv .link [(c!"target", .ref (.said c!"Etarget"))] [(c!"name", .val c!"fullName")]]

/-- its bundle meets every hypothesis of C51, and has four overlays -/
example : ∃ box b, Reachable Env.demo box ∧ (generateBundle Env.demo Order.sorted box : Res Unit _) = .ok b ∧ b.overlays.length = 4 ∧
    b.Expressible Env.demo ∧ b.Writable Env.demo Uni.ascii ∧ (∀ l s, Env.demo.lang1Inv l = some s → IsLang s) := by
  have hrun : runAll Env.demo OCABox.new writableCommands = .ok (boxAfter writableCommands) := by
    have h : (runAll Env.demo OCABox.new writableCommands).isOk = true := by decide +kernel
    unfold boxAfter
    cases hr : runAll Env.demo OCABox.new writableCommands with
    | ok b => rfl
    | err e => rw [hr] at h; cases h
    | panic => rw [hr] at h; cases h
  have hreach := runAll_reachable _ _ _ _ .new hrun
  refine ⟨_, _, hreach, reachable_gen hreach Order.sorted, by decide +kernel, ?_, ⟨⟨c!"name", by decide +kernel⟩, ?_, by decide +kernel, ?_⟩, ?_⟩
  · have hplain : PlainBuild Env.demo (boxAfter writableCommands) := by
      refine runAll_plain _ _ _ _ .new ?_ hrun
      intro c hc t cc e
      simp only [writableCommands, List.mem_cons, List.not_mem_nil, or_false] at hc
      rcases hc with rfl | rfl | rfl | rfl | rfl <;> cases e <;> decide
    exact hplain.expressible _
  · refine forall_get ?_
    have hl : (bundleOf Env.demo Order.sorted (boxAfter writableCommands)).captureBase.attributes.l =
        [(c!"name", .val .text), (c!"tags", .arr (.val .text))] := by decide +kernel
    rw [hl]
    intro p hp
    simp only [List.mem_cons, List.not_mem_nil, or_false] at hp
    rcases hp with rfl | rfl
    · exact ⟨isKey_of (by decide), trivial⟩
    · exact ⟨isKey_of (by decide), trivial⟩
  · have h : ((bundleOf Env.demo Order.sorted (boxAfter writableCommands)).overlays.all fun o => o.body.quotesB) = true := by decide +kernel
    intro o ho _
    exact OvBody.quotes_of _ _ (List.all_eq_true.1 h o ho)
  · intro l s h
    simp only [Env.demo, demoLang1Inv] at h
    split at h
    · cases h; exact ⟨by decide, by decide⟩
    · split at h
      · cases h; exact ⟨by decide, by decide⟩
      · cases h

/-- the same history with a link: five overlays, four of them spoken; it meets every hypothesis of `C51_export_rebuilds` -/
example : ∃ box b, FromScratch Env.demo box ∧ (generateBundle Env.demo Order.sorted box : Res Unit _) = .ok b ∧ b.overlays.length = 5 ∧
    (b.overlays.filter fun o => o.body.spoken).length = 4 ∧ b.Writable Env.demo Uni.ascii := by
  have hrun : runAll Env.demo OCABox.new linkedCommands = .ok (boxAfter linkedCommands) := by
    have h : (runAll Env.demo OCABox.new linkedCommands).isOk = true := by decide +kernel
    unfold boxAfter
    cases hr : runAll Env.demo OCABox.new linkedCommands with
    | ok b => rfl
    | err e => rw [hr] at h; cases h
    | panic => rw [hr] at h; cases h
  have hreach := runAll_reachable _ _ _ _ .new hrun
  refine ⟨_, _, runAll_scratch _ _ _ _ .new hrun, reachable_gen hreach Order.sorted, by decide +kernel, by decide +kernel,
    ⟨⟨c!"name", by decide +kernel⟩, ?_, by decide +kernel, ?_⟩⟩
  · refine forall_get ?_
    have hl : (bundleOf Env.demo Order.sorted (boxAfter linkedCommands)).captureBase.attributes.l =
        [(c!"name", .val .text), (c!"tags", .arr (.val .text))] := by decide +kernel
    rw [hl]
    intro p hp
    simp only [List.mem_cons, List.not_mem_nil, or_false] at hp
    rcases hp with rfl | rfl
    · exact ⟨isKey_of (by decide), trivial⟩
    · exact ⟨isKey_of (by decide), trivial⟩
  · have h : ((bundleOf Env.demo Order.sorted (boxAfter linkedCommands)).overlays.all fun o => !o.body.spoken || o.body.quotesB) = true := by decide +kernel
    intro o ho hs
    have := List.all_eq_true.1 h o ho
    rw [hs] at this
    exact OvBody.quotes_of _ _ this

/-- ... and the exported file is read back -/
example : readBack (exported writableCommands) = some 5 := by decide +kernel

/-! ## Why the restrictions are there -/

/-- **C51** A bundle with a classification is exported as a file that cannot be parsed: the classification is glued to the last attribute. -/
theorem C51_classification_glued :
    exported [addAttrs [(c!"name", .val .text)], addClass c!"GICS:1"] = some c!"ADD ATTRIBUTE name=TextCLASSIFICATION GICS:1\n" ∧
    readBack (exported [addAttrs [(c!"name", .val .text)], addClass c!"GICS:1"]) = none := by decide +kernel

/-- **C51** So is a bundle without attributes. -/
theorem C51_no_attributes :
    exported [addOv .metaOv [(c!"lang", .val c!"en"), (c!"name", .val c!"Person")] []] = some c!"ADD ATTRIBUTE\nADD META en PROPS  name=\"Person\"\n" ∧
    readBack (exported [addOv .metaOv [(c!"lang", .val c!"en"), (c!"name", .val c!"Person")] []]) = none := by decide +kernel

/-- **C51** So is a bundle with a quote in a text (which can be built from a file with a text in single quotes). -/
theorem C51_quote_not_escaped :
    exported [addAttrs [(c!"name", .val .text)], addOv .label [(c!"lang", .val c!"en")] [(c!"name", .val c!"the \"name\"")]] =
      some c!"ADD ATTRIBUTE name=Text\nADD LABEL en ATTRS name=\"the \"name\"\"\n" ∧
    readBack (exported [addAttrs [(c!"name", .val .text)], addOv .label [(c!"lang", .val c!"en")] [(c!"name", .val c!"the \"name\"")]]) = none := by
  decide +kernel

/-- **C51** The text of `C51_quote_not_escaped` comes from a file that is accepted. -/
theorem C51_quote_from_file :
    (match parseText Env.demo Uni.ascii c!"ADD ATTRIBUTE name=Text\nADD LABEL en ATTRS name='the \"name\"'\n" with
      | .ok out => out.commands.map (fun c => match c.obj with
        | .overlay _ cc => (cc.attributes.getD []).map fun p => match p.2 with
          | .val v => v
          | _ => []
        | _ => [])
      | _ => []) = [[], [c!"the \"name\""]] := by decide +kernel

end OCA
