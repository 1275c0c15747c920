import Verif.Lemmas.Parse
import Verif.Model.Instructions
import Verif.Model.Printer
/-!
# Parsing printed text: attribute names, types and pairs
-/
namespace OCA
open Peg

namespace Peg
variable {R : Type}

theorem star_congr {p q : Peg R} {a : Bool} (h : ∀ i, p a i = q a i) (i : Str) : star p a i = star q a i := by
  have : ∀ n i, starN p n a i = starN q n a i := by
    intro n
    induction n with
    | zero => intro i; rfl
    | succ n ih =>
      intro i
      simp only [starN, h, ih]
  exact this _ _

theorem plus_congr {p q : Peg R} {a : Bool} (h : ∀ i, p a i = q a i) (i : Str) : plus p a i = plus q a i := by
  simp only [plus, seq, h, star_congr h]

theorem Yields.of_eq {p : Peg R} {a : Bool} {s s' rest : Str} {ts ts' : List (Tree R)} (h : Yields p a s ts rest)
    (hs : s = s') (ht : ts = ts') : Yields p a s' ts' rest := by subst hs; subst ht; exact h

/-- `Yields.seq` where the parts are recognized afterwards -/
theorem Yields.seq' {p q : Peg R} {a : Bool} {s s' S rest : Str} {ts ts' T : List (Tree R)}
    (hp : Yields p a s ts (s' ++ rest)) (hq : Yields q a s' ts' rest) (hS : s ++ s' = S) (hT : ts ++ ts' = T) :
    Yields (Peg.seq p q) a S T rest := by subst hS; subst hT; exact hp.seq hq

end Peg

namespace Gr

/-- the end of a line -/
def EOL (r : Str) : Prop := r = [] ∨ ∃ t, r = '\n' :: t

theorem EOL.nw {r : Str} (h : EOL r) : NW r := by
  rcases h with rfl | ⟨t, rfl⟩
  · exact NW.nil
  · exact NW.cons (by decide) (by decide) (by decide) t

/-! ## Attribute names -/

/-- the characters of names: letters, digits, `-`, `_` and `.` -/
def nameChar (c : Char) : Bool := c.isAlpha || c.isDigit || c = '.' || c = '_' || c = '-'

/-- an attribute name that can be written in an OCA file -/
def IsKey (k : Str) : Prop := k ≠ [] ∧ ∀ c ∈ k, nameChar c = true

theorem attrKeyChar_eq (c : Char) : isAttrKeyChar c = nameChar c := by
  unfold isAttrKeyChar nameChar Char.isAlphanum
  by_cases h1 : c = '-' <;> by_cases h2 : c = '_' <;> by_cases h3 : c = '.' <;> simp [h1, h2, h3]

theorem IsKey.nw {k : Str} (h : IsKey k) (r : Str) : NW (k ++ r) := by
  cases k with
  | nil => exact absurd rfl h.1
  | cons c k =>
    have hc := h.2 c (.head _)
    refine NW.cons ?_ ?_ ?_ _ <;> (rintro rfl; revert hc; decide)

/-- the token of an attribute name -/
def keyTok (k : Str) : Tok := .node .attrKey k []

theorem attrKey_yields {k : Str} (h : IsKey k) (a : Bool) {rest : Str}
    (hr : ∀ c r, rest = c :: r → isAttrKeyChar c = false) : Yields attrKey a k [keyTok k] rest :=
  Yields.compound _ _ (Yields.clsPlus h.1 (fun c hc => (attrKeyChar_eq c).trans (h.2 c hc)) hr)

theorem attrKey_fails {rest : Str} (a : Bool) (hr : ∀ c r, rest = c :: r → isAttrKeyChar c = false) : Fails attrKey a rest := by
  apply Fails.compound
  apply Fails.plus
  cases rest with
  | nil => rfl
  | cons c r => exact Fails.cls (hr c r rfl) _ _

theorem EOL.notKey {r : Str} (h : EOL r) : ∀ c t, r = c :: t → isAttrKeyChar c = false := by
  rintro c t rfl
  rcases h with h | ⟨t', h⟩
  · cases h
  · cases h; decide

theorem notKey_cons {c : Char} (h : isAttrKeyChar c = false) (t : Str) : ∀ d r, c :: t = d :: r → isAttrKeyChar d = false := by
  rintro d r e; cases e; exact h

/-- a name, `=`, and something that does not start with white space -/
theorem keyEq_yields {k : Str} (h : IsKey k) {q : P} {a : Bool} {v rest : Str} {ts : List Tok} (hv : NW (v ++ rest))
    (hq : Yields q a v ts rest) :
    Yields (attrKey ~ₚ argWs ?ₚ ~ₚ lit c!"=" ~ₚ argWs ?ₚ ~ₚ q) a (k ++ ('=' :: v)) (keyTok k :: ts) rest := by
  refine Yields.seq' (s := k) (s' := '=' :: v) (ts := [keyTok k]) (ts' := ts)
    (attrKey_yields h a (notKey_cons (by decide) _)) ?_ rfl rfl
  refine Yields.seq' (s := []) (s' := '=' :: v) (ts := []) (ts' := ts)
    (optWs_none (NW.cons (by decide) (by decide) (by decide) _)) ?_ rfl rfl
  refine Yields.seq' (s := ['=']) (s' := v) (ts := []) (ts' := ts) (Yields.lit _ _ _) ?_ rfl rfl
  exact Yields.seq' (s := []) (s' := v) (ts := []) (ts' := ts) (optWs_none hv) hq rfl rfl

theorem keyEq_fails {q : P} {a : Bool} {rest : Str} (hr : ∀ c r, rest = c :: r → isAttrKeyChar c = false) :
    Fails (attrKey ~ₚ argWs ?ₚ ~ₚ lit c!"=" ~ₚ argWs ?ₚ ~ₚ q) a rest := Fails.seqLeft (attrKey_fails a hr)

/-! ## Plain characters and references -/

/-- the characters of `char` -/
def isChar (U : Uni) (c : Char) : Bool :=
  U.letter c || U.number c || c = '.' || c = '-' || c = '_' || c = '/' || c = ':' || U.script c

theorem char_true (U : Uni) (i : Str) : char U true i = cls (isChar U) true i := by
  cases i with
  | nil => rfl
  | cons c r =>
    simp only [char, normal, scripts, alt, cls, lit, stripPrefix]
    by_cases h1 : U.letter c = true
    · simp [isChar, h1]
    by_cases h2 : U.number c = true
    · simp [isChar, h1, h2]
    by_cases h3 : '.' = c
    · subst h3; simp [isChar, h1, h2]
    by_cases h4 : '-' = c
    · subst h4; simp [isChar, h1, h2]
    by_cases h5 : '_' = c
    · subst h5; simp [isChar, h1, h2]
    by_cases h6 : '/' = c
    · subst h6; simp [isChar, h1, h2]
    by_cases h7 : ':' = c
    · subst h7; simp [isChar, h1, h2]
    by_cases h8 : U.script c = true
    · simp [isChar, h1, h2, h3, h4, h5, h6, h7, h8]
    · simp [isChar, h1, h2, h3, h4, h5, h6, h7, h8, Ne.symm h3, Ne.symm h4, Ne.symm h5, Ne.symm h6, Ne.symm h7]

/-- a non-empty run of plain characters -/
def IsWord (U : Uni) (s : Str) : Prop := s ≠ [] ∧ ∀ c ∈ s, isChar U c = true

/-- the text does not go on with a plain character -/
def NoChar (U : Uni) (r : Str) : Prop := ∀ c t, r = c :: t → isChar U c = false

theorem isChar_ascii (U : Uni) {c : Char} (h : c.toNat < 128)
    (h' : c.isAlpha = false ∧ c.isDigit = false ∧ c ≠ '.' ∧ c ≠ '-' ∧ c ≠ '_' ∧ c ≠ '/' ∧ c ≠ ':') : isChar U c = false := by
  obtain ⟨h1, h2, h3, h4, h5, h6, h7⟩ := h'
  have hs : U.script c = false := by
    cases hs : U.script c with
    | false => rfl
    | true => rw [U.script_ascii c h hs] at h1; cases h1
  simp [isChar, U.letter_ascii c h, U.number_ascii c h, h1, h2, h3, h4, h5, h6, h7, hs]

theorem NoChar.nil (U : Uni) : NoChar U [] := fun _ _ h => by cases h
theorem NoChar.cons {U : Uni} {c : Char} (h : isChar U c = false) (t : Str) : NoChar U (c :: t) :=
  fun _ _ e => by cases e; exact h
theorem isChar_space (U : Uni) : isChar U ' ' = false := isChar_ascii U (by decide) (by decide)
theorem isChar_newline (U : Uni) : isChar U '\n' = false := isChar_ascii U (by decide) (by decide)
theorem isChar_bracket (U : Uni) : isChar U ']' = false := isChar_ascii U (by decide) (by decide)
theorem isChar_quote (U : Uni) : isChar U '"' = false := isChar_ascii U (by decide) (by decide)

theorem EOL.noChar {r : Str} (h : EOL r) (U : Uni) : NoChar U r := by
  rcases h with rfl | ⟨t, rfl⟩
  · exact NoChar.nil U
  · exact NoChar.cons (isChar_newline U) t

theorem charPlus_yields {U : Uni} {s rest : Str} (h : IsWord U s) (hr : NoChar U rest) : Yields (char U)+ₚ true s [] rest := by
  unfold Yields
  rw [plus_congr (q := cls (isChar U)) (char_true U)]
  exact Yields.clsPlus h.1 h.2 hr

theorem said_yields {U : Uni} {s rest : Str} (h : IsWord U s) (hr : NoChar U rest) :
    Yields (said U) false s [.node .said s []] rest := Yields.atomic _ (charPlus_yields h hr)

theorem refSaid_yields {U : Uni} {s rest : Str} (h : IsWord U s) (hr : NoChar U rest) :
    Yields (refSaid U) false (c!"refs:" ++ s) [.node .said s []] rest :=
  Yields.seq (ts := []) (Yields.ilit (by decide) _ _) (said_yields h hr)

/-! ## Attribute types -/

/-- An attribute type that can be printed and read: no names, no null; SAIDs made of plain characters. -/
def TypeOk (E : Env) (U : Uni) : NAttr → Prop
  | .ref (.said s) => IsWord U s ∧ E.validSaid s = true
  | .ref (.name _) => False
  | .val _ => True
  | .arr a => TypeOk E U a
  | .null => False

/-- the text of an attribute type -/
def typeText : NAttr → Str
  | .ref (.said s) => c!"refs:" ++ s
  | .ref (.name s) => s
  | .val t => t.toStr
  | .arr a => c!"Array[" ++ (typeText a ++ c!"]")
  | .null => []

theorem attrType_print {ε : Type} (E : Env) (U : Uni) (a : NAttr) (h : TypeOk E U a) :
    (Pr.attrType a : Res ε Str) = .ok (typeText a) := by
  induction a with
  | ref r => cases r with
    | said s => rfl
    | name s => exact h.elim
  | val t => rfl
  | arr a ih => simp only [Pr.attrType, ih h]; simp [typeText]
  | null => exact h.elim

/-- the token of an attribute type -/
def typeTok : NAttr → Tok
  | .ref (.said s) => .node .said s []
  | .ref (.name s) => .node .alias s []
  | .val t => .node .baseAttrType t.toStr []
  | .arr a => .node .arrayAttrType (typeText (.arr a)) [typeTok a]
  | .null => .node .baseAttrType [] []

theorem attrTypeOf_tok (E : Env) (U : Uni) (a : NAttr) (h : TypeOk E U a) : Ins.attrTypeOf E (typeTok a) = .ok a := by
  induction a with
  | ref r => cases r with
    | said s => simp [typeTok, Ins.attrTypeOf, h.2]
    | name s => exact h.elim
  | val t => cases t <;> rfl
  | arr a ih => simp only [typeTok, Ins.attrTypeOf, ih h]
  | null => exact h.elim

theorem typeText_nw (E : Env) (U : Uni) (a : NAttr) (h : TypeOk E U a) (r : Str) : NW (typeText a ++ r) := by
  cases a with
  | ref x => cases x with
    | said s => exact NW.cons (by decide) (by decide) (by decide) _
    | name s => exact h.elim
  | val t => cases t <;> exact NW.cons (by decide) (by decide) (by decide) _
  | arr a => exact NW.cons (by decide) (by decide) (by decide) _
  | null => exact h.elim

theorem base_yields (t : AttrType) (a : Bool) (rest : Str) :
    Yields baseAttrType a t.toStr (if a then [] else [.node .baseAttrType t.toStr []]) rest := by
  unfold Yields
  cases t <;> cases a <;> rfl

theorem base_fails {c : Char} (h : c ≠ 'T' ∧ c ≠ 'N' ∧ c ≠ 'B' ∧ c ≠ 'D') (a : Bool) (r : Str) : Fails baseAttrType a (c :: r) := by
  obtain ⟨h1, h2, h3, h4⟩ := h
  exact Fails.atomic _ (Fails.alt (Fails.lit (Ne.symm h1) _ _ _) (Fails.alt (Fails.lit (Ne.symm h2) _ _ _)
    (Fails.alt (Fails.lit (Ne.symm h3) _ _ _) (Fails.alt (Fails.lit (Ne.symm h3) _ _ _) (Fails.lit (Ne.symm h4) _ _ _)))))

theorem array_yields {U : Uni} {p : P} {t rest : Str} {k : Tok} (hn : NW (t ++ ']' :: rest))
    (h : Yields (baseAttrType |ₚ referenceType U |ₚ p) false t [k] (']' :: rest)) (a : Bool) :
    Yields (arrayBody U p) a (c!"Array[" ++ (t ++ c!"]")) [.node .arrayAttrType (c!"Array[" ++ (t ++ c!"]")) [k]] rest := by
  refine Yields.compound _ _ ?_
  refine Yields.seq' (s := c!"Array[") (s' := t ++ c!"]") (ts := []) (ts' := [k]) (Yields.lit _ _ _) ?_ rfl rfl
  refine Yields.seq' (s := []) (s' := t ++ c!"]") (ts := []) (ts' := [k]) (optWs_none (by simpa using hn)) ?_ rfl rfl
  refine Yields.seq' (s := t) (s' := c!"]") (ts := [k]) (ts' := []) h ?_ rfl rfl
  refine Yields.seq' (s := []) (s' := c!"]") (ts := []) (ts' := []) (optWs_none (NW.cons (by decide) (by decide) (by decide) _)) ?_ rfl rfl
  exact Yields.lit _ _ _

theorem arrayItem_yields (E : Env) (U : Uni) (a : NAttr) (h : TypeOk E U a) (rest : Str) :
    Yields (baseAttrType |ₚ referenceType U |ₚ arrayAttrType U) false (typeText a) [typeTok a] (']' :: rest) := by
  induction a generalizing rest with
  | ref r => cases r with
    | said s =>
      exact Yields.altRight (base_fails (by decide) _ _) (Yields.altLeft (Yields.altLeft
        (refSaid_yields h.1 (NoChar.cons (isChar_bracket U) _))))
    | name s => exact h.elim
  | val t => exact Yields.altLeft (base_yields t false _)
  | arr a ih =>
    refine Yields.altRight (base_fails (by decide) _ _) (Yields.altRight
      (Fails.alt (Fails.seqLeft (Fails.ilit (by decide) _ _ _)) (Fails.seqLeft (Fails.ilit (by decide) _ _ _))) ?_)
    rw [arrayAttrType_eq]
    exact array_yields (typeText_nw E U a h _) (ih h _) false
  | null => exact h.elim

/-- A printed attribute type is read as the token of that type. -/
theorem attrType_yields (E : Env) (U : Uni) (a : NAttr) (h : TypeOk E U a) {rest : Str} (hr : NoChar U rest) (b : Bool) :
    Yields (attrType U) b (typeText a) [.node .attrType (typeText a) [typeTok a]] rest := by
  refine Yields.compound _ _ ?_
  cases a with
  | ref r => cases r with
    | said s =>
      refine Yields.altRight (base_fails (by decide) _ _) (Yields.altRight ?_ (Yields.altLeft (refSaid_yields h.1 hr)))
      rw [arrayAttrType_eq]
      exact Fails.compound _ (Fails.seqLeft (Fails.lit (by decide) _ _ _))
    | name s => exact h.elim
  | val t => exact Yields.altLeft (base_yields t false _)
  | arr a =>
    refine Yields.altRight (base_fails (by decide) _ _) (Yields.altLeft ?_)
    rw [arrayAttrType_eq]
    exact array_yields (typeText_nw E U a h _) (arrayItem_yields E U a h _) false
  | null => exact h.elim

/-! ## Attributes -/

/-- the text of an attribute -/
def attrText (p : Str × NAttr) : Str := p.1 ++ ('=' :: typeText p.2)

/-- the token of an attribute -/
def attrTok (p : Str × NAttr) : Tok :=
  .node .attrPair (attrText p) [keyTok p.1, .node .attrType (typeText p.2) [typeTok p.2]]

/-- an attribute that can be printed and read -/
def AttrOk (E : Env) (U : Uni) (p : Str × NAttr) : Prop := IsKey p.1 ∧ TypeOk E U p.2

theorem attributeOf_tok (E : Env) (U : Uni) (p : Str × NAttr) (h : AttrOk E U p) : Ins.attributeOf E (attrTok p) = .ok p := by
  simp only [Ins.attributeOf, attrTok, Tree.kids, keyTok, Ins.attributeLoop, attrTypeOf_tok E U _ h.2]

theorem attrPair_yields (E : Env) (U : Uni) (p : Str × NAttr) (h : AttrOk E U p) {rest : Str} (hr : NoChar U rest) :
    Yields (attrPair U) false (attrText p) [attrTok p] rest :=
  Yields.atomic _ (keyEq_yields h.1 (typeText_nw E U _ h.2 _) (attrType_yields E U _ h.2 hr true))

/-- ` name=type` for every attribute -/
def attrsText : List (Str × NAttr) → Str
  | [] => []
  | p :: t => ' ' :: (attrText p ++ attrsText t)

theorem attrTypes_print {ε : Type} (E : Env) (U : Uni) (l : List (Str × NAttr)) (h : ∀ p ∈ l, AttrOk E U p) :
    (Pr.attrTypes l : Res ε Str) = .ok (attrsText l) := by
  induction l with
  | nil => rfl
  | cons p t ih =>
    obtain ⟨k, a⟩ := p
    simp only [Pr.attrTypes, attrType_print E U a (h _ (.head _)).2, ih fun q hq => h q (.tail _ hq)]
    simp [attrsText, attrText]

theorem attrsText_noChar (U : Uni) (l : List (Str × NAttr)) {rest : Str} (hr : NoChar U rest) : NoChar U (attrsText l ++ rest) := by
  cases l with
  | nil => exact hr
  | cons p t => exact NoChar.cons (isChar_space U) _

theorem attrPairsStar_yields (E : Env) (U : Uni) (l : List (Str × NAttr)) (h : ∀ p ∈ l, AttrOk E U p) {rest : Str} (hr : NoChar U rest)
    (hw : NW rest) : Yields (argWs ~ₚ attrPair U)*ₚ false (attrsText l) (l.map attrTok) rest := by
  induction l with
  | nil => exact Yields.starNil (Fails.seqLeft (argWs_fails hw))
  | cons p t ih =>
    have hp := h _ (.head _)
    refine Yields.of_eq (Yields.starCons (s := ' ' :: attrText p) (ts := [attrTok p]) (by simp) ?_
      (ih fun q hq => h q (.tail _ hq))) (by simp [attrsText]) rfl
    refine Yields.seq' (s := [' ']) (ts := []) (argWs_space ?_)
      (attrPair_yields E U p hp (attrsText_noChar U t hr)) rfl rfl
    simpa [attrText] using hp.1.nw ('=' :: (typeText p.2 ++ (attrsText t ++ rest)))

/-- ` name=type` for at least one attribute -/
theorem attrPairs_yields (E : Env) (U : Uni) (l : List (Str × NAttr)) (hn : l ≠ []) (h : ∀ p ∈ l, AttrOk E U p) {rest : Str}
    (hr : NoChar U rest) (hw : NW rest) :
    Yields (attrPairs U) false (attrsText l) [.node .attrPairs (attrsText l) (l.map attrTok)] rest := by
  cases l with
  | nil => exact absurd rfl hn
  | cons p t =>
    refine Yields.compound _ _ ?_
    have hp := h _ (.head _)
    refine Yields.of_eq (Yields.plus (s := ' ' :: attrText p) (ts := [attrTok p]) ?_
      (attrPairsStar_yields E U t (fun q hq => h q (.tail _ hq)) hr hw)) (by simp [attrsText]) rfl
    refine Yields.seq' (s := [' ']) (ts := []) (argWs_space ?_)
      (attrPair_yields E U p hp (attrsText_noChar U t hr)) rfl rfl
    simpa [attrText] using hp.1.nw ('=' :: (typeText p.2 ++ (attrsText t ++ rest)))

/-- the token of ADD ATTRIBUTE -/
def attributeTok (l : List (Str × NAttr)) : Tok :=
  .node .attribute (c!"ATTRIBUTE" ++ attrsText l) [.node .attrPairs (attrsText l) (l.map attrTok)]

theorem attribute_yields (E : Env) (U : Uni) (l : List (Str × NAttr)) (hn : l ≠ []) (h : ∀ p ∈ l, AttrOk E U p) {rest : Str}
    (hr : NoChar U rest) (hw : NW rest) :
    Yields (attributeR U) false (c!"ATTRIBUTE" ++ attrsText l) [attributeTok l] rest := by
  refine Yields.normal _ (Yields.seq' (ts := []) (Yields.ilit (by decide) _ _)
    (Yields.plusOne (attrPairs_yields E U l hn h hr hw) ?_) rfl rfl)
  exact Fails.compound _ (Fails.plus (Fails.seqLeft (argWs_fails hw)))

theorem attrPairsLoop_toks (E : Env) (U : Uni) (l acc : List (Str × NAttr)) (h : ∀ p ∈ l, AttrOk E U p) :
    Ins.attrPairsLoop E (l.map attrTok) acc = .ok (imExtend acc l) := by
  induction l generalizing acc with
  | nil => rfl
  | cons p t ih =>
    simp only [List.map_cons, Ins.attrPairsLoop, attributeOf_tok E U p (h _ (.head _))]
    rw [ih _ fun q hq => h q (.tail _ hq)]
    rfl

theorem addAttributes_toks (E : Env) (U : Uni) (l : List (Str × NAttr)) (h : ∀ p ∈ l, AttrOk E U p) :
    Ins.addAttributes E (attributeTok l).kids [] = .ok (imExtend [] l) := by
  simp only [attributeTok, Tree.kids, Ins.addAttributes, Tree.rule, if_true, attrPairsLoop_toks E U l [] h]

end Gr
end OCA
