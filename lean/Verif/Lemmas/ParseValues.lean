import Verif.Lemmas.ParsePairs
/-!
# Parsing printed text: lists of pairs, entry codes, entries
-/
namespace OCA
open Peg
namespace Gr

/-! ## Lists of pairs -/

/-- something printed: spaces before it, its text, the token it is read as -/
structure Piece where
  gap : Nat
  text : Str
  tok : Tok

/-- the spaces before the first piece -/
def gapOf : List Piece → Nat
  | [] => 0
  | x :: _ => x.gap

/-- the texts, without the spaces before the first -/
def piecesText : List Piece → Str
  | [] => []
  | x :: t => x.text ++ (sp (gapOf t) ++ piecesText t)

/-- with the spaces before the first -/
def gappedText : List Piece → Str
  | [] => []
  | x :: t => sp x.gap ++ (x.text ++ gappedText t)

theorem gappedText_eq (l : List Piece) : gappedText l = sp (gapOf l) ++ piecesText l := by
  induction l with
  | nil => rfl
  | cons x t ih => simp [gappedText, gapOf, piecesText, ih]

/-- what a piece needs in order to be read by `pair` -/
structure Piece.Ok (pair : P) (x : Piece) : Prop where
  ne : x.text ≠ []
  nw : ∀ r, NW (x.text ++ r)
  reads : ∀ r, Yields pair false x.text [x.tok] r

theorem piecesText_nw {pair : P} (l : List Piece) (h : ∀ x ∈ l, x.Ok pair) {rest : Str} (hw : NW rest) :
    NW (piecesText l ++ rest) := by
  cases l with
  | nil => exact hw
  | cons x t => simpa [piecesText] using (h x (.head _)).nw _

theorem onePiece_yields {pair : P} (x : Piece) (hx : x.Ok pair) (n : Nat) {rest : Str} (hw : NW rest) :
    Yields (argWs ?ₚ ~ₚ pair ~ₚ argWs ?ₚ) false (x.text ++ sp n) [x.tok] rest := by
  refine Yields.seq' (s := []) (ts := []) (optWs_none (by simpa using hx.nw _)) ?_ rfl rfl
  exact Yields.seq' (hx.reads _) (optWs_spaces n hw) rfl rfl

theorem piecesStar_yields {pair : P} (l : List Piece) (h : ∀ x ∈ l, x.Ok pair) {rest : Str} (hw : NW rest)
    (hf : Fails pair false rest) :
    Yields (argWs ?ₚ ~ₚ pair ~ₚ argWs ?ₚ)*ₚ false (piecesText l) (l.map Piece.tok) rest := by
  induction l with
  | nil => exact Yields.starNil (Fails.seqRight (s := []) (optWs_none hw) (Fails.seqLeft hf))
  | cons x t ih =>
    have hx := h x (.head _)
    have ht := fun y hy => h y (.tail _ hy)
    refine Yields.of_eq (Yields.starCons (by simp [hx.ne])
      (onePiece_yields x hx (gapOf t) (piecesText_nw t ht hw)) (ih ht)) (by simp [piecesText]) rfl

theorem pieces_yields {pair : P} (l : List Piece) (hn : l ≠ []) (h : ∀ x ∈ l, x.Ok pair) {rest : Str} (hw : NW rest)
    (hf : Fails pair false rest) :
    Yields (argWs ?ₚ ~ₚ pair ~ₚ argWs ?ₚ)+ₚ false (piecesText l) (l.map Piece.tok) rest := by
  cases l with
  | nil => exact absurd rfl hn
  | cons x t =>
    have hx := h x (.head _)
    have ht := fun y hy => h y (.tail _ hy)
    refine Yields.of_eq (Yields.plus
      (onePiece_yields x hx (gapOf t) (piecesText_nw t ht hw)) (piecesStar_yields t ht hw hf)) (by simp [piecesText]) rfl

/-! ## `name="value"` -/

theorem quoted_eq (v : Str) : Pr.quoted v = '"' :: v ++ ['"'] := rfl

theorem quoted_nw (v r : Str) : NW (Pr.quoted v ++ r) := NW.cons (by decide) (by decide) (by decide) _

theorem value_yields {U : Uni} {v : Str} (h : Quotable v = true) (a : Bool) (rest : Str) :
    Yields (value U) a (Pr.quoted v) [strTok v] rest := Yields.altLeft (string_yields h a rest)

theorem cstr_yields (k : Rule) {v : Str} (h : Quotable v = true) (a : Bool) (rest : Str) :
    Yields (compound k string) a (Pr.quoted v) [.node k (Pr.quoted v) [strTok v]] rest :=
  Yields.compound _ _ (string_yields h _ _)

/-- the text of `name="value"` -/
def pairText (k v : Str) : Str := k ++ ('=' :: Pr.quoted v)

/-- the token of `name="value"` -/
def pairTok (k v : Str) : Tok := .node .keyPair (pairText k v) [keyTok k, .node .keyValue (Pr.quoted v) [strTok v]]

theorem keyPair_yields {U : Uni} {k v : Str} (hk : IsKey k) (hv : Quotable v = true) (rest : Str) :
    Yields (keyPair U) false (pairText k v) [pairTok k v] rest :=
  Yields.atomic _ (keyEq_yields hk (quoted_nw v rest) (Yields.compound _ _ (value_yields hv _ _)))

/-- the token of `name="value"` in UNIT -/
def unitTok (k v : Str) : Tok := .node .unitKeyPair (pairText k v) [keyTok k, .node .unitValue (Pr.quoted v) [strTok v]]

theorem unitKeyPair_yields {k v : Str} (hk : IsKey k) (hv : Quotable v = true) (rest : Str) :
    Yields unitKeyPair false (pairText k v) [unitTok k v] rest :=
  Yields.atomic _ (keyEq_yields hk (quoted_nw v rest) (Yields.compound _ _ (Yields.altLeft (string_yields hv _ _))))

theorem lastText_strTok (v : Str) : Ins.lastText (strTok v) = .ok v := rfl

theorem keyPairOf_pairTok (U : Uni) (k v : Str) : Ins.keyPairOf U (pairTok k v) = .ok (k, .val v) := by
  simp [pairTok, Ins.keyPairOf, Ins.keyPairLoop, keyTok, Ins.valueOf, strTok, Tree.rule, Ins.lastText, Tree.kids, Tree.text]

theorem keyPairOf_unitTok (U : Uni) (k v : Str) : Ins.keyPairOf U (unitTok k v) = .ok (k, .val v) := by
  simp [unitTok, Ins.keyPairOf, Ins.keyPairLoop, keyTok, Ins.valueOf, strTok, Tree.rule, Ins.lastText, Tree.kids, Tree.text]

theorem pairText_nw {k v : Str} (h : IsKey k) (r : Str) : NW (pairText k v ++ r) := by
  simpa [pairText] using h.nw _

theorem pairText_ne {k v : Str} : pairText k v ≠ [] := by simp [pairText]

/-- a name and a value that can be printed and read -/
def PairOk (p : Str × NVal) : Prop := IsKey p.1 ∧ ∃ v, p.2 = .val v ∧ Quotable v = true

/-- the text of a plain value -/
def valText : NVal → Str
  | .val s => s
  | _ => []

/-- a pair as a piece -/
def pairPiece (tok : Str → Str → Tok) (p : Str × NVal) : Piece := ⟨1, pairText p.1 (valText p.2), tok p.1 (valText p.2)⟩

theorem quotedPairs_eq (tok : Str → Str → Tok) (l : List (Str × NVal)) (h : ∀ p ∈ l, PairOk p) :
    Pr.quotedPairs l = gappedText (l.map (pairPiece tok)) := by
  induction l with
  | nil => rfl
  | cons p t ih =>
    obtain ⟨-, v, hv, -⟩ := h p (.head _)
    simp only [Pr.quotedPairs] at ih ⊢
    rw [List.flatMap_cons, ih fun q hq => h q (.tail _ hq), hv]
    simp [gappedText, pairPiece, pairText, sp, valText, hv]

theorem pairPiece_ok {U : Uni} (p : Str × NVal) (h : PairOk p) : (pairPiece pairTok p).Ok (keyPair U) := by
  obtain ⟨hk, v, hv, hq⟩ := h
  rw [pairPiece, hv]
  exact ⟨pairText_ne, pairText_nw hk, keyPair_yields hk hq⟩

theorem unitPiece_ok (p : Str × NVal) (h : PairOk p) : (pairPiece unitTok p).Ok unitKeyPair := by
  obtain ⟨hk, v, hv, hq⟩ := h
  rw [pairPiece, hv]
  exact ⟨pairText_ne, pairText_nw hk, unitKeyPair_yields hk hq⟩

theorem keyPairsObj_toks {U : Uni} {α : Type} (f : α → Tok) (g : α → Str × NVal) (l : List α) (acc : List (Str × NVal))
    (h : ∀ x ∈ l, Ins.keyPairOf U (f x) = .ok (g x)) :
    Ins.keyPairsObj U (l.map f) acc = .ok (imExtend acc (l.map g)) := by
  induction l generalizing acc with
  | nil => rfl
  | cons x t ih =>
    simp only [List.map_cons, Ins.keyPairsObj, h x (.head _)]
    rw [ih _ fun y hy => h y (.tail _ hy)]
    rfl

theorem pairToks {U : Uni} (tok : Str → Str → Tok) (ht : ∀ k v, Ins.keyPairOf U (tok k v) = .ok (k, .val v))
    (l : List (Str × NVal)) (h : ∀ p ∈ l, PairOk p) (acc : List (Str × NVal)) :
    Ins.keyPairsObj U ((l.map (pairPiece tok)).map Piece.tok) acc = .ok (imExtend acc l) := by
  rw [List.map_map]
  have := keyPairsObj_toks (U := U) (Piece.tok ∘ pairPiece tok) id l acc (by
    intro p hp
    obtain ⟨-, v, hv, -⟩ := h p hp
    obtain ⟨k, w⟩ := p
    cases hv
    exact ht k v)
  simpa using this

/-! ## Lists separated by commas -/

theorem spaces_yields {a : Bool} (n : Nat) {rest : Str} (h : ∀ c t, rest = c :: t → c ≠ ' ') : Yields spaces a (sp n) [] rest := by
  induction n with
  | zero =>
    refine Yields.starNil ?_
    cases rest with
    | nil => rfl
    | cons c t => exact Fails.lit (Ne.symm (h c t rfl)) _ _ _
  | succ n ih => exact Yields.starCons (s := [' ']) (ts := []) (by simp) (Yields.lit _ _ _) ih

theorem nosp {c : Char} (h : c ≠ ' ') (t : Str) : ∀ d r, c :: t = d :: r → d ≠ ' ' := by
  intro d r e; cases e; exact h

/-- `, x` for every text -/
def commaText (l : List Piece) : Str := l.flatMap fun x => ',' :: ' ' :: x.text

theorem joinComma_cons (x : Str) (l : List Piece) : Pr.joinComma (x :: l.map Piece.text) = x ++ commaText l := by
  induction l generalizing x with
  | nil => simp [Pr.joinComma, commaText]
  | cons y t ih =>
    rw [List.map_cons, Pr.joinComma, ih]
    · simp [commaText]
    · intro h; cases h

theorem comma_yields {item : P} (l : List Piece) (h : ∀ x ∈ l, ∀ r, Yields item false x.text [x.tok] r)
    (hn : ∀ x ∈ l, ∀ r, NW (x.text ++ r)) {rest : Str} (hr : ∀ c t, rest = c :: t → c ≠ ',') :
    Yields (lit c!"," ~ₚ spaces ~ₚ item)*ₚ false (commaText l) (l.map Piece.tok) rest := by
  induction l with
  | nil =>
    refine Yields.starNil (Fails.seqLeft ?_)
    cases rest with
    | nil => rfl
    | cons c t => exact Fails.lit (Ne.symm (hr c t rfl)) _ _ _
  | cons x t ih =>
    refine Yields.of_eq (Yields.starCons (s := ',' :: ' ' :: x.text) (ts := [x.tok]) (by simp) ?_
      (ih (fun y hy => h y (.tail _ hy)) fun y hy => hn y (.tail _ hy))) (by simp [commaText]) rfl
    refine Yields.seq' (s := [',']) (s' := ' ' :: x.text) (ts := []) (Yields.lit _ _ _) ?_ rfl rfl
    refine Yields.seq' (s := sp 1) (s' := x.text) (ts := []) (spaces_yields 1 ?_) (h x (.head _) _) rfl rfl
    intro c r e
    exact (hn x (.head _) _ c r e).1

/-- a string as a piece -/
def strPiece (v : Str) : Piece := ⟨0, Pr.quoted v, strTok v⟩

/-- the text of a list of strings -/
def codesText : List Str → Str
  | [] => c!"[]"
  | v :: t => '[' :: (Pr.quoted v ++ (commaText (t.map strPiece) ++ c!"]"))

/-- the token of a list of strings -/
def codesTok (l : List Str) : Tok := .node .entryCodeList (codesText l) (l.map strTok)

theorem entryCodeList_yields (l : List Str) (h : ∀ v ∈ l, Quotable v = true) (rest : Str) :
    Yields entryCodeList false (codesText l) [codesTok l] rest := by
  refine Yields.normal _ ?_
  cases l with
  | nil => exact Yields.altLeft (Yields.seq' (s := c!"[") (s' := c!"]") (ts := []) (Yields.lit _ _ _) (Yields.lit _ _ _) rfl rfl)
  | cons v t =>
    refine Yields.altRight ?_ ?_
    · exact Fails.seqRight (s := c!"[") (Yields.lit _ _ _) (Fails.lit (by decide) _ _ _)
    · refine Yields.seq' (s := c!"[") (ts := []) (Yields.lit _ _ _) ?_ rfl rfl
      refine Yields.seq' (ts := [strTok v]) (string_yields (h v (.head _)) _ _) ?_ rfl rfl
      refine Yields.seq' (ts := t.map strTok) (ts' := []) (Yields.of_eq (comma_yields (item := string) (t.map strPiece) ?_ ?_ ?_) rfl
        (by simp [List.map_map, strPiece, Function.comp_def])) (Yields.lit _ _ _) rfl (by simp)
      · intro x hx r
        obtain ⟨w, hw, rfl⟩ := List.mem_map.1 hx
        exact string_yields (h w (.tail _ hw)) _ _
      · intro x hx r
        obtain ⟨w, hw, rfl⟩ := List.mem_map.1 hx
        exact quoted_nw w r
      · rintro c t e; cases e; decide

theorem codesOf_toks (l : List Str) : Ins.codesOf (l.map strTok) = .ok (l.map .val) := by
  induction l with
  | nil => rfl
  | cons v t ih =>
    simp only [List.map_cons, Ins.codesOf, strTok, Tree.rule] at ih ⊢
    rw [show Ins.lastText (Tree.node Rule.string ('"' :: v ++ ['"']) [Tree.node Rule.inner v []]) = .ok v from rfl]
    dsimp only
    rw [ih]

theorem codes_print (l : List Str) : c!"[" ++ Pr.codes (l.map .val) ++ c!"]" = codesText l := by
  have hf : (l.map NVal.val).filterMap (fun v => match v with | .val s => some (Pr.quoted s) | _ => none) = l.map Pr.quoted := by
    induction l with
    | nil => rfl
    | cons v t ih => simp only [List.map_cons, List.filterMap_cons, ih]
  refine (congrArg (fun x => c!"[" ++ Pr.joinComma x ++ c!"]") hf).trans ?_
  cases l with
  | nil => rfl
  | cons v t =>
    have := joinComma_cons (Pr.quoted v) (t.map strPiece)
    rw [List.map_map] at this
    rw [List.map_cons, show t.map Pr.quoted = t.map (Piece.text ∘ strPiece) from rfl, this]
    simp [codesText]

/-! ## `{"key": value, ...}` -/

/-- the text of an object -/
def objText : List Piece → Str
  | [] => c!"{}"
  | x :: t => '{' :: (x.text ++ (commaText t ++ c!"}"))

theorem object_yields {item : P} (l : List Piece) (h : ∀ x ∈ l, ∀ r, Yields item false x.text [x.tok] r)
    (hn : ∀ x ∈ l, ∀ r, ∃ t, x.text ++ r = '"' :: t) (rest : Str) :
    Yields (lit c!"{" ~ₚ lit c!"}" |ₚ
      lit c!"{" ~ₚ spaces ~ₚ item ~ₚ (lit c!"," ~ₚ spaces ~ₚ item)*ₚ ~ₚ spaces ~ₚ lit c!"}") false (objText l)
      (l.map Piece.tok) rest := by
  cases l with
  | nil => exact Yields.altLeft (Yields.seq' (s := c!"{") (s' := c!"}") (ts := []) (Yields.lit _ _ _) (Yields.lit _ _ _) rfl rfl)
  | cons x t =>
    have hx := fun r => (hn x (.head _)) r
    refine Yields.altRight ?_ ?_
    · have : objText (x :: t) ++ rest = c!"{" ++ (x.text ++ (commaText t ++ c!"}" ++ rest)) := by simp [objText]
      rw [this]
      refine Fails.seqRight (Yields.lit _ _ _) ?_
      obtain ⟨t', e⟩ := hx (commaText t ++ c!"}" ++ rest)
      rw [e]
      exact Fails.lit (by decide) _ _ _
    · refine Yields.seq' (s := c!"{") (ts := []) (Yields.lit _ _ _) ?_ rfl rfl
      refine Yields.seq' (s := sp 0) (ts := []) (spaces_yields 0 ?_) ?_ rfl rfl
      · obtain ⟨t', e⟩ := hx (commaText t ++ c!"}" ++ rest)
        have e' : x.text ++ (commaText t ++ c!"}") ++ rest = '"' :: t' := by rw [← e]; simp
        intro c r h'
        have e2 : c = '"' := (List.cons.inj (h'.symm.trans e')).1
        rw [e2]
        decide
      refine Yields.seq' (h x (.head _) _) ?_ rfl rfl
      refine Yields.seq' (ts := t.map Piece.tok) (ts' := []) (comma_yields (item := item) t (fun y hy => h y (.tail _ hy)) ?_ ?_) ?_ rfl (by simp)
      · intro y hy r
        obtain ⟨t', e⟩ := hn y (.tail _ hy) r
        rw [e]
        exact NW.cons (by decide) (by decide) (by decide) _
      · rintro c t e; cases e; decide
      · exact Yields.seq' (s := sp 0) (ts := []) (spaces_yields 0 (nosp (by decide) _)) (Yields.lit _ _ _) rfl rfl

theorem object_print (l : List Piece) : c!"{" ++ Pr.joinComma (l.map Piece.text) ++ c!"}" = objText l := by
  cases l with
  | nil => rfl
  | cons x t => rw [List.map_cons, joinComma_cons]; simp [objText]

/-! ## Entry codes -/

/-- one group of entry codes -/
def groupPiece (g : Str × List Str) : Piece :=
  ⟨0, Pr.quoted g.1 ++ (':' :: ' ' :: codesText g.2),
    .node .entryCodeKeyValuePair (Pr.quoted g.1 ++ (':' :: ' ' :: codesText g.2))
      [.node .entryCodeGroupKey (Pr.quoted g.1) [strTok g.1], codesTok g.2]⟩

theorem codesText_head (l : List Str) : ∃ t, codesText l = '[' :: t := by
  cases l with
  | nil => exact ⟨_, rfl⟩
  | cons v t => exact ⟨_, rfl⟩

theorem group_yields (g : Str × List Str) (hk : Quotable g.1 = true) (hv : ∀ v ∈ g.2, Quotable v = true) (rest : Str) :
    Yields entryCodeKeyValuePair false (groupPiece g).text [(groupPiece g).tok] rest := by
  refine Yields.normal _ ?_
  refine Yields.seq' (cstr_yields .entryCodeGroupKey hk _ _) ?_ rfl rfl
  refine Yields.seq' (s := c!":") (ts := []) (Yields.lit _ _ _) ?_ rfl rfl
  refine Yields.seq' (s := sp 1) (ts := []) (spaces_yields 1 ?_) (entryCodeList_yields g.2 hv rest) rfl rfl
  obtain ⟨t, e⟩ := codesText_head g.2
  rw [e]
  exact nosp (by decide) _

/-- the value of an attribute in ENTRY_CODE -/
inductive CodeVal where
  | one (s : Str)
  | list (l : List Str)
  | groups (l : List (Str × List Str))

namespace CodeVal
/-- as a value of the AST -/
def val : CodeVal → NVal
  | .one s => .val s
  | .list l => .arr (l.map .val)
  | .groups l => .obj (l.map fun g => (g.1, .arr (g.2.map .val)))
/-- every text can be quoted, and the groups have distinct names -/
def Ok : CodeVal → Prop
  | .one s => Quotable s = true
  | .list l => ∀ v ∈ l, Quotable v = true
  | .groups l => (∀ g ∈ l, Quotable g.1 = true ∧ ∀ v ∈ g.2, Quotable v = true) ∧ (l.map (·.1)).Nodup
/-- its text -/
def text : CodeVal → Str
  | .one s => Pr.quoted s
  | .list l => codesText l
  | .groups l => objText (l.map groupPiece)
/-- its token -/
def tok : CodeVal → Tok
  | .one s => .node .keyValue (Pr.quoted s) [strTok s]
  | .list l => codesTok l
  | .groups l => .node .entryCodeObject (objText (l.map groupPiece)) ((l.map groupPiece).map Piece.tok)
end CodeVal

theorem value_fails {U : Uni} {c : Char} (h : c ≠ '"' ∧ c ≠ '\'') (hc : isChar U c = false) (a : Bool) (r : Str) :
    Fails (value U) a (c :: r) := by
  refine Fails.alt (string_fails h.1 h.2 a) (Fails.plus ?_)
  have h1 : char U true (c :: r) = none := by rw [char_true]; exact Fails.cls hc true r
  have h2 : char U a (c :: r) = none := by
    cases a with
    | true => exact h1
    | false =>
      simp only [char, normal, Option.map_eq_none_iff] at h1 ⊢
      simp only [alt, cls, lit, stripPrefix, scripts, normal] at h1 ⊢
      have e : isChar U c = false := hc
      simp only [isChar, Bool.or_eq_false_iff, decide_eq_false_iff_not] at e
      obtain ⟨⟨⟨⟨⟨⟨⟨e1, e2⟩, e3⟩, e4⟩, e5⟩, e6⟩, e7⟩, e8⟩ := e
      simp [e1, e2, Ne.symm e3, Ne.symm e4, Ne.symm e5, Ne.symm e6, Ne.symm e7, e8]
  exact h2

theorem isChar_open (U : Uni) : isChar U '[' = false := isChar_ascii U (by decide) (by decide)
theorem isChar_brace (U : Uni) : isChar U '{' = false := isChar_ascii U (by decide) (by decide)

theorem codeVal_yields {U : Uni} (v : CodeVal) (h : v.Ok) (rest : Str) :
    Yields (entryCodeKeyValue U) false v.text [.node .entryCodeKeyValue v.text [v.tok]] rest := by
  refine Yields.normal _ ?_
  cases v with
  | one s => exact Yields.altLeft (Yields.compound _ _ (value_yields h _ _))
  | list l =>
    refine Yields.altRight ?_ (Yields.altLeft (entryCodeList_yields l h rest))
    obtain ⟨t, e⟩ := codesText_head l
    rw [CodeVal.text, e]
    exact Fails.compound _ (value_fails (by decide) (isChar_open U) _ _)
  | groups l =>
    have ho : Yields entryCodeObject false (objText (l.map groupPiece)) [(CodeVal.groups l).tok] rest := by
      refine Yields.normal _ (object_yields _ ?_ ?_ rest)
      · intro x hx r
        obtain ⟨g, hg, rfl⟩ := List.mem_map.1 hx
        exact group_yields g (h.1 g hg).1 (h.1 g hg).2 r
      · intro x hx r
        obtain ⟨g, hg, rfl⟩ := List.mem_map.1 hx
        exact ⟨_, rfl⟩
    have hh : ∃ t, objText (l.map groupPiece) = '{' :: t := by
      cases l with
      | nil => exact ⟨_, rfl⟩
      | cons g t => exact ⟨_, rfl⟩
    obtain ⟨t, e⟩ := hh
    refine Yields.altRight ?_ (Yields.altRight ?_ ho)
    · rw [CodeVal.text, e]
      exact Fails.compound _ (value_fails (by decide) (isChar_brace U) _ _)
    · rw [CodeVal.text, e]
      exact Fails.normal _ (Fails.alt (Fails.seqLeft (Fails.lit (by decide) _ _ _)) (Fails.seqLeft (Fails.lit (by decide) _ _ _)))

theorem codeVal_print (k : Str) (v : CodeVal) : Pr.entryCodeAttr (k, v.val) = ' ' :: (k ++ ('=' :: v.text)) := by
  cases v with
  | one s => simp [CodeVal.val, CodeVal.text, Pr.entryCodeAttr]
  | list l =>
    have := codes_print l
    simp only [CodeVal.val, CodeVal.text, Pr.entryCodeAttr]
    rw [← this]; simp
  | groups l =>
    have hf : (l.map fun g => (g.1, NVal.arr (g.2.map .val))).filterMap (fun g => match g.2 with
        | .arr vs => some (Pr.quoted g.1 ++ c!": [" ++ Pr.codes vs ++ c!"]")
        | _ => none) = (l.map groupPiece).map Piece.text := by
      induction l with
      | nil => rfl
      | cons g t ih =>
        simp only [List.map_cons, List.filterMap_cons, ih]
        have := codes_print g.2
        simp only [groupPiece, ← this]
        simp
    have := object_print (l.map groupPiece)
    have h2 : Pr.entryCodeAttr (k, (CodeVal.groups l).val) = c!" " ++ k ++ c!"={" ++ Pr.joinComma ((l.map groupPiece).map Piece.text) ++ c!"}" :=
      congrArg (fun x => c!" " ++ k ++ c!"={" ++ Pr.joinComma x ++ c!"}") hf
    rw [h2, CodeVal.text, ← this]
    simp

/-- the text of an attribute in ENTRY_CODE -/
def codePiece (p : Str × CodeVal) : Piece :=
  ⟨1, p.1 ++ ('=' :: p.2.text),
    .node .entryCodeKeyPair (p.1 ++ ('=' :: p.2.text)) [keyTok p.1, .node .entryCodeKeyValue p.2.text [p.2.tok]]⟩

theorem codePiece_ok {U : Uni} (p : Str × CodeVal) (hk : IsKey p.1) (hv : p.2.Ok) : (codePiece p).Ok (entryCodeKeyPair U) := by
  refine ⟨by simp [codePiece], fun r => by simpa [codePiece] using hk.nw _, fun r => ?_⟩
  refine Yields.compound _ _ (Yields.seq' (ts := [keyTok p.1]) (attrKey_yields hk false (notKey_cons (by decide) _)) ?_ rfl rfl)
  exact Yields.seq' (s := c!"=") (ts := []) (Yields.lit _ _ _) (codeVal_yields p.2 hv r) rfl rfl

theorem imExtend_nil_nodup {V : Type} (l : List (Str × V)) (h : (l.map (·.1)).Nodup) : imExtend [] l = l := by
  have aux : ∀ (l acc : List (Str × V)), ((acc ++ l).map (·.1)).Nodup → imExtend acc l = acc ++ l := by
    intro l
    induction l with
    | nil => intro acc _; simp [imExtend]
    | cons p t ih =>
      intro acc h
      have hk : p.1 ∉ acc.map (·.1) := by
        rw [List.map_append, List.nodup_append] at h
        intro hk
        exact h.2.2 p.1 hk p.1 (.head _) rfl
      have hi : imInsert p.1 p.2 acc = acc ++ [p] := by
        clear h ih
        induction acc with
        | nil => rfl
        | cons q acc ih =>
          obtain ⟨k', v'⟩ := q
          simp only [List.map_cons, List.mem_cons, not_or] at hk
          rw [imInsert, if_neg hk.1, ih hk.2]; rfl
      show imExtend (imInsert p.1 p.2 acc) t = _
      rw [hi, ih (acc ++ [p]) (by simpa using h)]
      simp
  simpa using aux l [] (by simpa using h)

theorem keyPairOf_codePiece (U : Uni) (p : Str × CodeVal) (hv : p.2.Ok) :
    Ins.keyPairOf U (codePiece p).tok = .ok (p.1, p.2.val) := by
  obtain ⟨k, v⟩ := p
  cases v with
  | one s =>
    simp [codePiece, Ins.keyPairOf, Ins.keyPairLoop, keyTok, Ins.valueOf, strTok, Tree.rule, Ins.lastText, Tree.kids, Tree.text,
      CodeVal.tok, CodeVal.val]
  | list l =>
    simp [codePiece, Ins.keyPairOf, Ins.keyPairLoop, keyTok, codesTok, CodeVal.tok, CodeVal.val, codesOf_toks]
  | groups l =>
    have hg : ∀ g ∈ l, Ins.keyPairOf U (groupPiece g).tok = .ok (g.1, NVal.arr (g.2.map .val)) := by
      intro g _
      simp [groupPiece, Ins.keyPairOf, Ins.keyPairLoop, Ins.innerString, codesTok, codesOf_toks, strTok, Tree.rule, Ins.lastText, Tree.kids,
        Tree.text]
    have := keyPairsObj_toks (U := U) (Piece.tok ∘ groupPiece) (fun g => (g.1, NVal.arr (g.2.map .val))) l [] hg
    rw [imExtend_nil_nodup _ (by simpa [List.map_map, Function.comp_def] using hv.2)] at this
    simp only [codePiece, Ins.keyPairOf, Ins.keyPairLoop, keyTok, CodeVal.tok, CodeVal.val, List.map_map, this]

/-! ## Entries -/

/-- one entry -/
def entryPiece (e : Str × Str) : Piece :=
  ⟨0, Pr.quoted e.1 ++ (':' :: ' ' :: Pr.quoted e.2),
    .node .entryKeyValuePair (Pr.quoted e.1 ++ (':' :: ' ' :: Pr.quoted e.2))
      [.node .entryKey (Pr.quoted e.1) [strTok e.1], .node .entryValue (Pr.quoted e.2) [strTok e.2]]⟩

theorem entry1_yields (e : Str × Str) (hk : Quotable e.1 = true) (hv : Quotable e.2 = true) (rest : Str) :
    Yields entryKeyValuePair false (entryPiece e).text [(entryPiece e).tok] rest := by
  refine Yields.normal _ ?_
  refine Yields.seq' (cstr_yields .entryKey hk _ _) ?_ rfl rfl
  refine Yields.seq' (s := c!":") (ts := []) (Yields.lit _ _ _) ?_ rfl rfl
  exact Yields.seq' (s := sp 1) (ts := []) (spaces_yields 1 (nosp (by decide) _))
    (Yields.compound _ _ (string_yields hv _ _)) rfl rfl

/-- the value of an attribute in ENTRY -/
inductive EntryVal where
  | one (s : Str)
  | table (l : List (Str × Str))

namespace EntryVal
/-- as a value of the AST -/
def val : EntryVal → NVal
  | .one s => .val s
  | .table l => .obj (l.map fun e => (e.1, .val e.2))
/-- every text can be quoted, and the codes are distinct -/
def Ok : EntryVal → Prop
  | .one s => Quotable s = true
  | .table l => (∀ e ∈ l, Quotable e.1 = true ∧ Quotable e.2 = true) ∧ (l.map (·.1)).Nodup
/-- its text -/
def text : EntryVal → Str
  | .one s => Pr.quoted s
  | .table l => objText (l.map entryPiece)
/-- its token -/
def tok : EntryVal → Tok
  | .one s => .node .keyValue (Pr.quoted s) [strTok s]
  | .table l => .node .entryObject (objText (l.map entryPiece)) ((l.map entryPiece).map Piece.tok)
/-- the spaces printed before the attribute -/
def gap : EntryVal → Nat
  | .one _ => 1
  | .table _ => 0
end EntryVal

theorem entryVal_yields {U : Uni} (v : EntryVal) (h : v.Ok) (rest : Str) :
    Yields (entryKeyValue U) false v.text [.node .entryKeyValue v.text [v.tok]] rest := by
  refine Yields.normal _ ?_
  cases v with
  | one s => exact Yields.altLeft (Yields.compound _ _ (value_yields h _ _))
  | table l =>
    have ho : Yields entryObject false (objText (l.map entryPiece)) [(EntryVal.table l).tok] rest := by
      refine Yields.normal _ (object_yields _ ?_ ?_ rest)
      · intro x hx r
        obtain ⟨g, hg, rfl⟩ := List.mem_map.1 hx
        exact entry1_yields g (h.1 g hg).1 (h.1 g hg).2 r
      · intro x hx r
        obtain ⟨g, hg, rfl⟩ := List.mem_map.1 hx
        exact ⟨_, rfl⟩
    have hh : ∃ t, objText (l.map entryPiece) = '{' :: t := by
      cases l with
      | nil => exact ⟨_, rfl⟩
      | cons g t => exact ⟨_, rfl⟩
    obtain ⟨t, e⟩ := hh
    refine Yields.altRight ?_ ho
    rw [EntryVal.text, e]
    exact Fails.compound _ (value_fails (by decide) (isChar_brace U) _ _)

theorem entryVal_print (k : Str) (v : EntryVal) : Pr.entryAttr (k, v.val) = sp v.gap ++ (k ++ ('=' :: v.text)) := by
  cases v with
  | one s => simp [EntryVal.val, EntryVal.text, Pr.entryAttr, EntryVal.gap, sp]
  | table l =>
    have hf : (l.map fun e => (e.1, NVal.val e.2)).filterMap (fun e => match e.2 with
        | .val l => some (Pr.quoted e.1 ++ c!": " ++ Pr.quoted l)
        | _ => none) = (l.map entryPiece).map Piece.text := by
      induction l with
      | nil => rfl
      | cons g t ih =>
        simp only [List.map_cons, List.filterMap_cons, ih]
        simp [entryPiece]
    have := object_print (l.map entryPiece)
    have h2 : Pr.entryAttr (k, (EntryVal.table l).val) = k ++ c!"={" ++ Pr.joinComma ((l.map entryPiece).map Piece.text) ++ c!"}" :=
      congrArg (fun x => k ++ c!"={" ++ Pr.joinComma x ++ c!"}") hf
    rw [h2, EntryVal.text, ← this]
    simp [EntryVal.gap, sp]

/-- an attribute in ENTRY -/
def entryAttrPiece (p : Str × EntryVal) : Piece :=
  ⟨p.2.gap, p.1 ++ ('=' :: p.2.text),
    .node .entryKeyPair (p.1 ++ ('=' :: p.2.text)) [keyTok p.1, .node .entryKeyValue p.2.text [p.2.tok]]⟩

theorem entryAttrPiece_ok {U : Uni} (p : Str × EntryVal) (hk : IsKey p.1) (hv : p.2.Ok) : (entryAttrPiece p).Ok (entryKeyPair U) := by
  refine ⟨by simp [entryAttrPiece], fun r => by simpa [entryAttrPiece] using hk.nw _, fun r => ?_⟩
  refine Yields.compound _ _ (Yields.seq' (ts := [keyTok p.1]) (attrKey_yields hk false (notKey_cons (by decide) _)) ?_ rfl rfl)
  exact Yields.seq' (s := c!"=") (ts := []) (Yields.lit _ _ _) (entryVal_yields p.2 hv r) rfl rfl

theorem keyPairOf_entryAttrPiece (U : Uni) (p : Str × EntryVal) (hv : p.2.Ok) :
    Ins.keyPairOf U (entryAttrPiece p).tok = .ok (p.1, p.2.val) := by
  obtain ⟨k, v⟩ := p
  cases v with
  | one s =>
    simp [entryAttrPiece, Ins.keyPairOf, Ins.keyPairLoop, keyTok, Ins.valueOf, strTok, Tree.rule, Ins.lastText, Tree.kids, Tree.text,
      EntryVal.tok, EntryVal.val]
  | table l =>
    have hg : ∀ g ∈ l, Ins.keyPairOf U (entryPiece g).tok = .ok (g.1, NVal.val g.2) := by
      intro g _
      simp [entryPiece, Ins.keyPairOf, Ins.keyPairLoop, Ins.innerString, strTok, Tree.rule, Ins.lastText, Tree.kids, Tree.text]
    have := keyPairsObj_toks (U := U) (Piece.tok ∘ entryPiece) (fun g => (g.1, NVal.val g.2)) l [] hg
    rw [imExtend_nil_nodup _ (by simpa [List.map_map, Function.comp_def] using hv.2)] at this
    simp only [entryAttrPiece, Ins.keyPairOf, Ins.keyPairLoop, keyTok, EntryVal.tok, EntryVal.val, List.map_map, this]

end Gr
end OCA
