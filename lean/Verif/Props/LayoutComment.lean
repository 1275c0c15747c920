import Verif.Props.LayoutFree
/-!
# C75: a comment inside a command

The grammar lets comment lines stand after a `\` at the end of a line. Between the attributes of ADD ATTRIBUTE such a comment is taken for an
attribute.
-/
namespace OCA
open Peg Gr

/-- a `\` at the end of the line, and a comment line -/
def commentBreak (w : Blanks) (e : Eol) (w' : Blanks) (t : Str) (e' : Eol) : Str := '\\' :: (w.text ++ e.text ++ w'.text ++ ('#' :: (t ++ e'.text)))

namespace Gr
variable {U : Uni} {E : Env}

theorem commentBreak_yields (w : Blanks) (e : Eol) (w' : Blanks) {t : Str} (ht : ∀ c ∈ t, c ≠ '\n' ∧ c ≠ '\r') (e' : Eol) (g : Gap) {r : Str} (hr : Solid r) :
    Yields argWs false (commentBreak w e w' t e' ++ g.text) [.node .comment ('#' :: t) []] r := by
  have hline : Yields commentLine false (w'.text ++ ('#' :: (t ++ e'.text))) [.node .comment ('#' :: t) []] (g.text ++ r) := by
    refine Yields.seq' (ts := []) (blanks_yields w' (by rintro c u e; cases e; decide)) ?_ rfl rfl
    refine Yields.seq' (s := '#' :: t) (s' := e'.text) (ts' := []) (ts := [.node .comment ('#' :: t) []]) ?_ (Yields.optSome (eol_yields e' _)) (by simp) rfl
    exact Yields.atomic _ (Yields.seq' (s := ['#']) (ts := []) (.lit _ _ _) (commentFree_yields ht e' _) rfl rfl)
  have hstar : Yields (commentLine |ₚ emptyLine)*ₚ false (w'.text ++ ('#' :: (t ++ e'.text))) [.node .comment ('#' :: t) []] (g.text ++ r) := by
    have := Yields.starCons (s' := []) (by simp) (Yields.altLeft (q := emptyLine) (rest := [] ++ (g.text ++ r)) hline) (Yields.starNil (gap_noLine g hr))
    simpa using this
  have hitem : Yields (ws |ₚ lineContinuation ~ₚ (commentLine |ₚ emptyLine)*ₚ) false (commentBreak w e w' t e') [.node .comment ('#' :: t) []] (g.text ++ r) := by
    refine Yields.altRight (ws_fails (by rintro d u e; cases e; decide)) ?_
    exact Yields.seq' (s := Blank.text (.cont w e)) (ts := []) (cont_yields w e _) hstar (by simp [commentBreak, Blank.text]) rfl
  exact Yields.plus (ts' := []) hitem (gapStar_yields g hr)

/-- an attribute after a comment -/
theorem attrComment_yields {x : AttrLaid} (h : IsKey x.name ∧ x.type.Ok E U) (w : Blanks) (e : Eol) (w' : Blanks) {t : Str} (ht : ∀ c ∈ t, c ≠ '\n' ∧ c ≠ '\r')
    (e' : Eol) {r : Str} (hr : NoChar U r) :
    ∃ k, Ins.attributeOf E k = .ok x.meaning ∧
      Yields (argWs ~ₚ attrPair U) false (commentBreak w e w' t e' ++ x.text) [.node .comment ('#' :: t) [], k] r := by
  obtain ⟨h2, h3⟩ := h
  have hp := keyGap_yields (a := true) h2 x.g1 x.g2 (TypeLaid.solid h3 r) (type_yields x.type h3 hr true)
  refine ⟨_, ?_, Yields.seq' (ts := [.node .comment ('#' :: t) []]) (commentBreak_yields w e w' ht e' x.g ?_) (Yields.atomic _ hp) (by simp [AttrLaid.text]) rfl⟩
  · simp only [Ins.attributeOf, Tree.kids, keyTok, Ins.attributeLoop, attrTypeOf_laid h3]; rfl
  · rw [List.append_assoc, List.append_assoc, List.append_assoc, List.append_assoc]
    exact IsKey.solid h2 _

/-- attributes before others -/
theorem attrsStar_before (l : List AttrLaid) (h : ∀ x ∈ l, x.Ok E U) {s r : Str} {ts : List Tok} (hn : NoChar U (s ++ r))
    (hs : Yields (argWs ~ₚ attrPair U)*ₚ false s ts r) :
    ∃ ts', All2 (fun x t => Ins.attributeOf E t = .ok (AttrLaid.meaning x)) l ts' ∧
      Yields (argWs ~ₚ attrPair U)*ₚ false (l.flatMap AttrLaid.text ++ s) (ts' ++ ts) r := by
  induction l with
  | nil => exact ⟨[], .nil, hs⟩
  | cons x l ih =>
    have hl := fun y hy => h y (.tail _ hy)
    obtain ⟨ts', hts, hy⟩ := ih hl
    obtain ⟨t, ht, hx⟩ := attr_yields (h x (.head _)) (r := (l.flatMap AttrLaid.text ++ s) ++ r) (by rw [List.append_assoc]; exact attrs_noChar hl hn)
    exact ⟨t :: ts', .cons ht hts, Yields.of_eq (Yields.starCons (by simp [AttrLaid.text]) hx hy) (by simp) rfl⟩

theorem attrPairsLoop_append (E : Env) (ts ts' : List Tok) : ∀ acc, Ins.attrPairsLoop E (ts ++ ts') acc =
    match Ins.attrPairsLoop E ts acc with
    | .ok a => Ins.attrPairsLoop E ts' a
    | .err e => .err e
    | .panic => .panic := by
  induction ts with
  | nil => intro acc; rfl
  | cons t ts ih =>
    intro acc
    rw [List.cons_append, Ins.attrPairsLoop, Ins.attrPairsLoop]
    cases Ins.attributeOf E t with
    | ok kv => exact ih _
    | err e => rfl
    | panic => rfl

end Gr

/-- **C75** A comment line between two attributes of an ADD ATTRIBUTE command is not skipped: it becomes an attribute with an empty name, of type
Text, at its place among the others. -/
theorem C75_comment_is_attribute (E : Env) (U : Uni) (ls : List FreeLine) (h : ∀ l ∈ ls, l.Ok E U) (x y : AttrLaid) (l l' : List AttrLaid)
    (hx : x.Ok E U) (hl : ∀ a ∈ l, a.Ok E U) (hy : IsKey y.name ∧ y.type.Ok E U) (hl' : ∀ a ∈ l', a.Ok E U)
    (w w' : Blanks) (e e' : Eol) (t : Str) (ht : ∀ c ∈ t, c ≠ '\n' ∧ c ≠ '\r')
    (hb : ∀ pre c post, freeCommands ls ++ [⟨.add, .captureBase ⟨some (imExtend [] ((x :: l).map AttrLaid.meaning ++ [([], .val .text)] ++
      (y :: l').map AttrLaid.meaning)), none, none⟩⟩] = pre ++ c :: post → ¬ BreaksRules pre c) :
    ∃ out, parseText E U (freeText ls ++ c!"ADD ATTRIBUTE" ++ x.text ++ l.flatMap AttrLaid.text ++ commentBreak w e w' t e' ++ y.text ++
        l'.flatMap AttrLaid.text) = .ok out ∧
      out.commands = freeCommands ls ++ [⟨.add, .captureBase ⟨some (imExtend [] ((x :: l).map AttrLaid.meaning ++ [([], .val .text)] ++
        (y :: l').map AttrLaid.meaning)), none, none⟩⟩] := by
  have hf : Fails (argWs ~ₚ attrPair U) false [] := Fails.seqLeft (argWs_fails (by rintro c t ⟨⟩))
  have hno : NoChar U [] := by rintro c t ⟨⟩
  obtain ⟨ts3, h3, hs3⟩ := attrsStar_yields l' hl' hno hf
  obtain ⟨k, hk, hky⟩ := attrComment_yields (E := E) (U := U) hy w e w' ht e' (r := l'.flatMap AttrLaid.text ++ [])
    (attrs_noChar hl' hno)
  have hs2 := Yields.starCons (by simp [commentBreak]) hky hs3
  have hno2 : NoChar U (commentBreak w e w' t e' ++ y.text ++ l'.flatMap AttrLaid.text ++ []) := by
    rintro c r e
    cases e
    exact isChar_ascii U (by decide) (by decide)
  obtain ⟨ts1, h1, hs1⟩ := attrsStar_before (E := E) l hl hno2 hs2
  obtain ⟨k0, hk0, hk0y⟩ := attr_yields hx (r := (l.flatMap AttrLaid.text ++ (commentBreak w e w' t e' ++ y.text ++ l'.flatMap AttrLaid.text)) ++ [])
    (by rw [List.append_assoc]; exact attrs_noChar hl hno2)
  have hplus := Yields.plus hk0y hs1
  generalize hS : x.text ++ (l.flatMap AttrLaid.text ++ (commentBreak w e w' t e' ++ y.text ++ l'.flatMap AttrLaid.text)) = S at hplus
  have hpairs : Yields (attrPairs U) false S [.node .attrPairs S ([k0] ++ (ts1 ++ ([.node .comment ('#' :: t) [], k] ++ ts3)))] [] := Yields.compound _ _ hplus
  have hobj : Yields (ocaObject U) false (c!"ATTRIBUTE" ++ S)
      [.node .attribute (c!"ATTRIBUTE" ++ S) [.node .attrPairs S ([k0] ++ (ts1 ++ ([.node .comment ('#' :: t) [], k] ++ ts3)))]] [] := by
    have F : ∀ {k' : Rule} {kw' : Str} {q : P}, differ kw' c!"ATTRIBUTE" = true → Fails (normal k' (ilit kw' ~ₚ q)) false (c!"ATTRIBUTE" ++ S ++ []) := by
      intro k' kw' q hd
      rw [List.append_assoc]
      exact kw_fails hd
    refine Yields.altRight (F (by decide)) (Yields.altRight (F (by decide)) (Yields.altLeft ?_))
    refine Yields.normal _ (Yields.seq' (s := c!"ATTRIBUTE") (ts := []) (Yields.ilit (by decide) _ _) (Yields.plusOne hpairs ?_) rfl rfl)
    exact Fails.compound _ (Fails.plus hf)
  have hcmd := addLaid_yields (kw := c!"ADD") (by decide) [.one false] (s := c!"ATTRIBUTE" ++ S) (r := []) ⟨'A', _, rfl, by decide⟩ hobj
  have hmean : Ins.addStep E U (.node .attribute (c!"ATTRIBUTE" ++ S) [.node .attrPairs S ([k0] ++ (ts1 ++ ([.node .comment ('#' :: t) [], k] ++ ts3)))]) none =
      .ok (some (.captureBase ⟨some (imExtend [] ((x :: l).map AttrLaid.meaning ++ [([], .val .text)] ++ (y :: l').map AttrLaid.meaning)), none, none⟩)) := by
    have hloop : Ins.attrPairsLoop E ([k0] ++ (ts1 ++ ([.node .comment ('#' :: t) [], k] ++ ts3))) [] =
        .ok (imExtend [] ((x :: l).map AttrLaid.meaning ++ [([], .val .text)] ++ (y :: l').map AttrLaid.meaning)) := by
      rw [List.cons_append, List.nil_append, Ins.attrPairsLoop, hk0]
      dsimp only
      rw [attrPairsLoop_append, attrPairsLoop_all h1]
      dsimp only
      rw [List.cons_append, Ins.attrPairsLoop]
      dsimp only [Ins.attributeOf, Tree.kids, Ins.attributeLoop]
      rw [List.cons_append, List.nil_append, Ins.attrPairsLoop, hk]
      dsimp only
      rw [attrPairsLoop_all h3]
      simp [imExtend, List.foldl_append]
    simp only [Ins.addStep, Ins.addKind, Tree.rule, Tree.kids, Ins.addAttributes, if_true, hloop]
  have hcom := Yields.seq' (s' := []) (ts' := []) (q := newline ?ₚ) hcmd (Yields.optNone (newline_fails (by rintro d u ⟨⟩))) rfl rfl
  have hone := Yields.starCons (s' := []) (by simp) (lineItem_yields (U := U) (rest := [] ++ []) hcom ⟨'A', _, rfl, by decide⟩)
    (Yields.starNil (p := itemP U) lineItem_end)
  obtain ⟨T, hT, hfile, -⟩ := freeLines_tokens (U := U) ls h (.cmd (.inl rfl) (addCommand_of hmean) .nil) hone
  have hc : itemCommands (ls.filterMap FreeLine.item? ++ [.inl ⟨.add, .captureBase ⟨some (imExtend [] ((x :: l).map AttrLaid.meaning ++ [([], .val .text)] ++
      (y :: l').map AttrLaid.meaning)), none, none⟩⟩]) = freeCommands ls ++ [⟨.add, .captureBase ⟨some (imExtend [] ((x :: l).map AttrLaid.meaning ++
      [([], .val .text)] ++ (y :: l').map AttrLaid.meaning)), none, none⟩⟩] := by
    rw [← items_commands]
    simp [itemCommands]
  obtain ⟨out, n, hout, -, hcs, -⟩ := means_ok hT OCAAst.new 0 rfl (by rw [hc]; exact hb)
  refine ⟨out, ?_, by rw [hcs, hc]; rfl⟩
  have := items_parse (E := E) hfile
  rw [hout] at this
  rw [← hS] at this
  have this' := this.trans (show _ = Res.ok out from rfl)
  simpa [Gap.text, Blank.text, Blanks.text] using this'

/-- the names of the attributes each command adds -/
def addedNames (s : Str) : Option (List (List Str)) := match parseText Env.demo Uni.ascii s with
  | .ok out => some (out.commands.map fun c => match c.obj with
    | .captureBase ⟨some as, _, _⟩ => as.map (·.1)
    | _ => [])
  | _ => none

/-- **Example.** An `ADD ATTRIBUTE` over three lines, the second of them a comment: all hypotheses of the theorem hold, and the file adds the
attributes `a`, the empty name and `b`. -/
theorem C75_comment_example :
    (⟨[.one false], c!"a", [], [], .base .text⟩ : AttrLaid).Ok Env.demo Uni.ascii ∧
    (IsKey c!"b" ∧ (TypeLaid.base .numeric).Ok Env.demo Uni.ascii) ∧
    (∀ pre c post, freeCommands [] ++ [⟨.add, .captureBase ⟨some (imExtend [] [(c!"a", .val .text), ([], .val .text), (c!"b", .val .numeric)]), none, none⟩⟩] = pre ++ c :: post →
      ¬ BreaksRules pre c) ∧
    addedNames (c!"ADD ATTRIBUTE a=Text " ++ commentBreak [] .lf [] c!" hi" .lf ++ c!" b=Numeric") = some [[c!"a", [], c!"b"]] := by
  refine ⟨⟨by simp, isKey_of (by decide), trivial⟩, ⟨isKey_of (by decide), trivial⟩, ?_, by decide +kernel⟩
  intro pre c post e
  cases pre with
  | nil =>
    have := (List.cons.inj e).1
    subst this
    rintro (⟨x, -, hp⟩ | ⟨x, hr, -⟩ | ⟨x, hr, -⟩)
    · exact absurd hp (by simp [Present])
    · simp [RemovesAttr] at hr
    · simp [RemovesProp] at hr
  | cons p pre => simp [freeCommands] at e

end OCA
