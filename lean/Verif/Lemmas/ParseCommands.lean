import Verif.Lemmas.ParseValues
/-!
# Parsing printed text: overlays
-/
namespace OCA
open Peg
namespace Gr

/-! ## Keywords -/

/-- the two texts differ, case aside, at a position both have -/
def differ : Str → Str → Bool
  | c :: s, d :: t => if asciiLower c = asciiLower d then differ s t else true
  | _, _ => false

theorem ilit_fails {R : Type} {kw T : Str} (h : differ kw T = true) (a : Bool) (rest : Str) :
    Fails (ilit kw : Peg R) a (T ++ rest) := by
  induction kw generalizing T with
  | nil => cases T <;> cases h
  | cons c s ih =>
    cases T with
    | nil => cases h
    | cons d t =>
      simp only [differ] at h
      split at h
      next hc =>
        have := ih h
        unfold Fails at *
        simp [ilit, hc, this]
      next hc => exact Fails.ilit hc _ _ _

theorem kw_fails {k : Rule} {kw T : Str} {q : P} (h : differ kw T = true) {a : Bool} {rest : Str} :
    Fails (normal k (ilit kw ~ₚ q)) a (T ++ rest) := Fails.normal _ (Fails.seqLeft (ilit_fails h a rest))

/-! ## `ATTRS ...`, languages -/

/-- a language as the grammar has it: two letters, or two and two -/
def IsLang : Str → Prop
  | [a, b] => a.isAlpha = true ∧ b.isAlpha = true
  | [a, b, m, c, d] => a.isAlpha = true ∧ b.isAlpha = true ∧ m = '-' ∧ c.isAlpha = true ∧ d.isAlpha = true
  | _ => False

/-- the token of a language -/
def langTok (l : Str) : Tok := .node .lang l []

theorem lang_yields {l : Str} (h : IsLang l) (a : Bool) (rest : Str) : Yields lang a l [langTok l] (' ' :: rest) := by
  refine Yields.compound _ _ ?_
  have one : ∀ {c : Char}, c.isAlpha = true → ∀ r, Yields alpha false [c] [] r := fun h r => Yields.cls h _ _
  match l, h with
  | [x, y], h =>
    refine Yields.seq' (s := [x]) (s' := [y]) (ts := []) (one h.1 _) ?_ rfl rfl
    refine Yields.seq' (s := [y]) (s' := []) (ts := []) (one h.2 _) ?_ rfl rfl
    exact Yields.optNone (Fails.seqLeft (Fails.lit (by decide) _ _ _))
  | [x, y, m, z, w], h =>
    obtain ⟨h1, h2, rfl, h3, h4⟩ := h
    refine Yields.seq' (s := [x]) (s' := [y, '-', z, w]) (ts := []) (one h1 _) ?_ rfl rfl
    refine Yields.seq' (s := [y]) (s' := ['-', z, w]) (ts := []) (one h2 _) ?_ rfl rfl
    refine Yields.optSome ?_
    refine Yields.seq' (s := ['-']) (s' := [z, w]) (ts := []) (Yields.lit _ _ _) ?_ rfl rfl
    exact Yields.seq' (s := [z]) (s' := [w]) (ts := []) (one h3 _) (one h4 _) rfl rfl

theorem IsLang.nw {l : Str} (h : IsLang l) (r : Str) : NW (l ++ r) := by
  have : ∀ {c : Char}, c.isAlpha = true → c ≠ ' ' ∧ c ≠ '\t' ∧ c ≠ '\\' := by
    intro c hc
    refine ⟨?_, ?_, ?_⟩ <;> (rintro rfl; revert hc; decide)
  match l, h with
  | [x, y], h => obtain ⟨a, b, c⟩ := this h.1; exact NW.cons a b c _
  | [x, y, m, z, w], h => obtain ⟨a, b, c⟩ := this h.1; exact NW.cons a b c _

/-- `ATTRS` or `PROPS`, spaces and pairs -/
theorem block_yields {kw T : Str} (hT : kw.map asciiLower = T.map asciiLower) {k : Rule} {pair : P} (n : Nat) (l : List Piece)
    (hn : l ≠ []) (h : ∀ x ∈ l, x.Ok pair) {rest : Str} (hw : NW rest) (hf : Fails pair false rest) :
    Yields ((ilit kw ~ₚ argWs) ~ₚ compound k (argWs ?ₚ ~ₚ pair ~ₚ argWs ?ₚ)+ₚ) false (T ++ (sp (n + 1) ++ piecesText l))
      [.node k (piecesText l) (l.map Piece.tok)] rest := by
  refine Yields.seq' (s := T ++ sp (n + 1)) (s' := piecesText l) (ts := []) ?_
    (Yields.compound _ _ (pieces_yields l hn h hw hf)) (by simp) rfl
  exact Yields.seq' (s := T) (ts := []) (Yields.ilit hT _ _) (argWs_spaces n (piecesText_nw l h hw)) rfl rfl

/-- an overlay: keyword, `ATTRS`, pairs -/
theorem plainOv_yields {r k : Rule} {kw T : Str} (hT : kw.map asciiLower = T.map asciiLower) {pair : P} (n : Nat) (l : List Piece)
    (hn : l ≠ []) (h : ∀ x ∈ l, x.Ok pair) {rest : Str} (hw : NW rest) (hf : Fails pair false rest) :
    Yields (normal r (ilit kw ~ₚ argWs ~ₚ attrsKey ~ₚ compound k (argWs ?ₚ ~ₚ pair ~ₚ argWs ?ₚ)+ₚ)) false
      (T ++ (' ' :: (c!"ATTRS" ++ (sp (n + 1) ++ piecesText l))))
      [.node r (T ++ (' ' :: (c!"ATTRS" ++ (sp (n + 1) ++ piecesText l)))) [.node k (piecesText l) (l.map Piece.tok)]] rest := by
  refine Yields.normal _ (Yields.seq' (s := T) (ts := []) (Yields.ilit hT _ _) ?_ rfl rfl)
  have hb := block_yields (kw := c!"attrs") (T := c!"ATTRS") (k := k) (by decide) n l hn h hw hf
  exact Yields.seq' (s := [' ']) (ts := []) (argWs_space (NW.cons (c := 'A') (by decide) (by decide) (by decide) _)) hb rfl rfl

/-- an overlay: keyword, language, `ATTRS` or `PROPS`, pairs -/
theorem langOv_yields {r k : Rule} {kw T kw' T' : Str} (hT : kw.map asciiLower = T.map asciiLower)
    (hT' : kw'.map asciiLower = T'.map asciiLower) (hw' : ∀ r, NW (T' ++ r)) {pair : P} (n : Nat) (l : List Piece) {lg : Str} (hl : IsLang lg)
    (hn : l ≠ []) (h : ∀ x ∈ l, x.Ok pair) {rest : Str} (hw : NW rest) (hf : Fails pair false rest) :
    Yields (normal r (ilit kw ~ₚ argWs ~ₚ lang ~ₚ argWs ~ₚ (ilit kw' ~ₚ argWs) ~ₚ compound k (argWs ?ₚ ~ₚ pair ~ₚ argWs ?ₚ)+ₚ)) false
      (T ++ (' ' :: (lg ++ (' ' :: (T' ++ (sp (n + 1) ++ piecesText l))))))
      [.node r (T ++ (' ' :: (lg ++ (' ' :: (T' ++ (sp (n + 1) ++ piecesText l))))))
        [langTok lg, .node k (piecesText l) (l.map Piece.tok)]] rest := by
  refine Yields.normal _ (Yields.seq' (s := T) (ts := []) (Yields.ilit hT _ _) ?_ rfl rfl)
  refine Yields.seq' (s := [' ']) (ts := []) (argWs_space (by simpa using hl.nw _)) ?_ rfl rfl
  refine Yields.seq' (s := lg) (ts := [langTok lg]) (lang_yields hl _ _) ?_ rfl rfl
  exact Yields.seq' (s := [' ']) (ts := []) (argWs_space (by simpa using hw' _))
    (block_yields hT' n l hn h hw hf) rfl rfl

theorem keyPair_fails {U : Uni} {rest : Str} (h : EOL rest) : Fails (keyPair U) false rest := Fails.atomic _ (keyEq_fails h.notKey)
theorem unitKeyPair_fails {rest : Str} (h : EOL rest) : Fails unitKeyPair false rest := Fails.atomic _ (keyEq_fails h.notKey)
theorem entryCodeKeyPair_fails {U : Uni} {rest : Str} (h : EOL rest) : Fails (entryCodeKeyPair U) false rest :=
  Fails.compound _ (Fails.seqLeft (attrKey_fails _ h.notKey))
theorem entryKeyPair_fails {U : Uni} {rest : Str} (h : EOL rest) : Fails (entryKeyPair U) false rest :=
  Fails.compound _ (Fails.seqLeft (attrKey_fails _ h.notKey))

/-! ## The contents the tokens stand for -/

theorem contentOf_plain (E : Env) (U : Uni) (r : Rule) (s t : Str) (k : Rule) (ks : List Tok) (as : List (Str × NVal))
    (hk : k = .attrKeyPairs ∨ k = .attrEntryCodeKeyPairs ∨ k = .attrEntryKeyPairs ∨ k = .unitAttrKeyPairs)
    (h : Ins.keyPairsObj U ks [] = .ok as) : Ins.contentOf E U (.node r s [.node k t ks]) = .ok ⟨some as, some []⟩ := by
  have h1 : Ins.propertiesOf E U [.node k t ks] [] = .ok [] := by
    rcases hk with rfl | rfl | rfl | rfl <;> rfl
  have h2 : Ins.attributesOf U [.node k t ks] [] = .ok as := by
    simp only [Ins.attributesOf, Tree.rule, Tree.kids, Ins.insertPairs, h]
    rw [if_pos]
    rcases hk with rfl | rfl | rfl | rfl <;> simp
  simp only [Ins.contentOf, Tree.kids, h1, h2]

theorem contentOf_lang (E : Env) (U : Uni) (r : Rule) (s t lg : Str) (k : Rule) (ks : List Tok) (as : List (Str × NVal))
    (hk : k = .attrKeyPairs ∨ k = .attrEntryCodeKeyPairs ∨ k = .attrEntryKeyPairs ∨ k = .unitAttrKeyPairs)
    (h : Ins.keyPairsObj U ks [] = .ok as) :
    Ins.contentOf E U (.node r s [langTok lg, .node k t ks]) = .ok ⟨some as, some [(c!"lang", .val lg)]⟩ := by
  have h1 : Ins.propertiesOf E U [langTok lg, .node k t ks] [] = .ok [(c!"lang", .val lg)] := by
    rcases hk with rfl | rfl | rfl | rfl <;> rfl
  have h2 : Ins.attributesOf U [langTok lg, .node k t ks] [] = .ok as := by
    simp only [Ins.attributesOf, Tree.rule, Tree.kids, Ins.insertPairs, h, langTok]
    rw [if_neg (by simp), if_pos]
    rcases hk with rfl | rfl | rfl | rfl <;> simp
  simp only [Ins.contentOf, Tree.kids, h1, h2]

theorem contentOf_meta (E : Env) (U : Uni) (r : Rule) (s t lg : Str) (ks : List Tok) (ps : List (Str × NVal))
    (h : Ins.keyPairsObj U ks [(c!"lang", .val lg)] = .ok ps) :
    Ins.contentOf E U (.node r s [langTok lg, .node .propKeyPairs t ks]) = .ok ⟨some [], some ps⟩ := by
  have h1 : Ins.propertiesOf E U [langTok lg, .node .propKeyPairs t ks] [] = .ok ps := by
    have e : Ins.propertyStep E U (langTok lg) [] = .ok [(c!"lang", .val lg)] := rfl
    have e2 : Ins.propertyStep E U (.node .propKeyPairs t ks) [(c!"lang", .val lg)] = .ok ps := h
    simp only [Ins.propertiesOf, e, e2]
  have h2 : Ins.attributesOf U [langTok lg, .node .propKeyPairs t ks] [] = .ok [] := rfl
  simp only [Ins.contentOf, Tree.kids, h1, h2]

theorem contentOf_link (E : Env) (U : Uni) (r : Rule) (s t sd : Str) (ks : List Tok) (as : List (Str × NVal))
    (hs : E.validSaid sd = true) (h : Ins.keyPairsObj U ks [] = .ok as) :
    Ins.contentOf E U (.node r s [.node .said sd [], .node .attrKeyPairs t ks]) =
      .ok ⟨some as, some [(c!"target", .ref (.said sd))]⟩ := by
  have h1 : Ins.propertiesOf E U [.node .said sd [], .node .attrKeyPairs t ks] [] = .ok [(c!"target", .ref (.said sd))] := by
    have e : Ins.propertyStep E U (.node .said sd []) [] = .ok [(c!"target", .ref (.said sd))] := by
      simp [Ins.propertyStep, Tree.rule, Tree.text, hs, imInsert]
    have e2 : ∀ acc, Ins.propertyStep E U (.node .attrKeyPairs t ks) acc = .ok acc := fun _ => rfl
    simp only [Ins.propertiesOf, e, e2]
  have h2 : Ins.attributesOf U [.node .said sd [], .node .attrKeyPairs t ks] [] = .ok as := by
    simp only [Ins.attributesOf, Tree.rule, Tree.kids, Ins.insertPairs, h]
    rw [if_neg (by simp), if_pos (by simp)]
  simp only [Ins.contentOf, Tree.kids, h1, h2]

/-! ## Reading an overlay -/

/-- `s` is read as an object of ADD, with the given token, when it ends a line -/
def ReadsObj (U : Uni) (s : Str) (tok : Tok) : Prop := ∀ rest, EOL rest → Yields (ocaObject U) false s [tok] rest

variable {U : Uni}

theorem reads_metaR {s : Str} {tok : Tok} (h : ∀ rest, EOL rest → Yields (metaR U) false s [tok] rest) : ReadsObj U s tok :=
  fun rest hr => Yields.altLeft (h rest hr)

theorem reads_label {s : Str} {tok : Tok} (h : ∀ rest, EOL rest → Yields (label U) false (c!"LABEL" ++ s) [tok] rest) :
    ReadsObj U (c!"LABEL" ++ s) tok :=
  fun rest hr => Yields.altRight (kw_fails (T := c!"LABEL") (rest := s ++ rest) (by decide)) (Yields.altLeft (h rest hr))

theorem reads_attribute {s : Str} {tok : Tok} (h : ∀ rest, EOL rest → Yields (attributeR U) false (c!"ATTRIBUTE" ++ s) [tok] rest) :
    ReadsObj U (c!"ATTRIBUTE" ++ s) tok := fun rest hr =>
  Yields.altRight (kw_fails (T := c!"ATTRIBUTE") (rest := s ++ rest) (by decide)) <|
  Yields.altRight (kw_fails (T := c!"ATTRIBUTE") (rest := s ++ rest) (by decide)) (Yields.altLeft (h rest hr))

theorem reads_classification {s : Str} {tok : Tok}
    (h : ∀ rest, EOL rest → Yields (classification U) false (c!"CLASSIFICATION" ++ s) [tok] rest) :
    ReadsObj U (c!"CLASSIFICATION" ++ s) tok := fun rest hr =>
  Yields.altRight (kw_fails (T := c!"CLASSIFICATION") (rest := s ++ rest) (by decide)) <|
  Yields.altRight (kw_fails (T := c!"CLASSIFICATION") (rest := s ++ rest) (by decide)) <|
  Yields.altRight (kw_fails (T := c!"CLASSIFICATION") (rest := s ++ rest) (by decide)) (Yields.altLeft (h rest hr))

/-- the first four alternatives of `oca_object` do not apply -/
theorem reads_tail {T s : Str} {tok : Tok} (hT : differ c!"meta" T = true ∧ differ c!"label" T = true ∧ differ c!"attribute" T = true ∧
    differ c!"classification" T = true)
    (h : ∀ rest, EOL rest → Yields (objectTail U) false (T ++ s) [tok] rest) : ReadsObj U (T ++ s) tok := by
  intro rest hr
  have e : T ++ s ++ rest = T ++ (s ++ rest) := List.append_assoc _ _ _
  refine Yields.altRight ?_ (Yields.altRight ?_ (Yields.altRight ?_ (Yields.altRight ?_ (h rest hr))))
  · rw [e]; exact kw_fails hT.1
  · rw [e]; exact kw_fails hT.2.1
  · rw [e]; exact kw_fails hT.2.2.1
  · rw [e]; exact kw_fails hT.2.2.2

theorem reads_information {s : Str} {tok : Tok}
    (h : ∀ rest, EOL rest → Yields (information U) false (c!"INFORMATION" ++ s) [tok] rest) : ReadsObj U (c!"INFORMATION" ++ s) tok :=
  reads_tail (by decide) fun rest hr => Yields.altLeft (h rest hr)

theorem reads_unit {s : Str} {tok : Tok}
    (h : ∀ rest, EOL rest → Yields unit false (c!"UNIT" ++ s) [tok] rest) : ReadsObj U (c!"UNIT" ++ s) tok :=
  reads_tail (by decide) fun rest hr =>
  Yields.altRight (kw_fails (T := c!"UNIT") (rest := s ++ rest) (by decide)) <| Yields.altLeft (h rest hr)

theorem reads_characterEncoding {s : Str} {tok : Tok}
    (h : ∀ rest, EOL rest → Yields (characterEncoding U) false (c!"CHARACTER_ENCODING" ++ s) [tok] rest) :
    ReadsObj U (c!"CHARACTER_ENCODING" ++ s) tok :=
  reads_tail (by decide) fun rest hr =>
  Yields.altRight (kw_fails (T := c!"CHARACTER_ENCODING") (rest := s ++ rest) (by decide)) <|
  Yields.altRight (kw_fails (T := c!"CHARACTER_ENCODING") (rest := s ++ rest) (by decide)) <| Yields.altLeft (h rest hr)

/-- the first four alternatives of the tail do not apply -/
theorem reads_tail2 {T s : Str} {tok : Tok} (hT : differ c!"meta" T = true ∧ differ c!"label" T = true ∧ differ c!"attribute" T = true ∧
    differ c!"classification" T = true ∧ differ c!"information" T = true ∧ differ c!"unit" T = true ∧
    differ c!"character_encoding" T = true) {q : P} (hq : objectTail U = (information U |ₚ unit |ₚ characterEncoding U |ₚ characterEncodingProps U |ₚ q))
    (h : ∀ rest, EOL rest → Yields q false (T ++ s) [tok] rest) : ReadsObj U (T ++ s) tok := by
  refine reads_tail ⟨hT.1, hT.2.1, hT.2.2.1, hT.2.2.2.1⟩ fun rest hr => ?_
  have e : T ++ s ++ rest = T ++ (s ++ rest) := List.append_assoc _ _ _
  rw [hq]
  refine Yields.altRight ?_ (Yields.altRight ?_ (Yields.altRight ?_ (Yields.altRight ?_ (h rest hr))))
  · rw [e]; exact kw_fails hT.2.2.2.2.1
  · rw [e]; exact kw_fails hT.2.2.2.2.2.1
  · rw [e]; exact kw_fails hT.2.2.2.2.2.2
  · rw [e]; exact kw_fails hT.2.2.2.2.2.2

theorem reads_format {s : Str} {tok : Tok}
    (h : ∀ rest, EOL rest → Yields (format U) false (c!"FORMAT" ++ s) [tok] rest) : ReadsObj U (c!"FORMAT" ++ s) tok :=
  reads_tail2 (by decide) rfl fun rest hr => Yields.altLeft (h rest hr)

theorem reads_conformance {s : Str} {tok : Tok}
    (h : ∀ rest, EOL rest → Yields (conformance U) false (c!"CONFORMANCE" ++ s) [tok] rest) : ReadsObj U (c!"CONFORMANCE" ++ s) tok :=
  reads_tail2 (by decide) rfl fun rest hr =>
  Yields.altRight (kw_fails (T := c!"CONFORMANCE") (rest := s ++ rest) (by decide)) <| Yields.altLeft (h rest hr)

theorem reads_conditional {s : Str} {tok : Tok}
    (h : ∀ rest, EOL rest → Yields (conditional U) false (c!"CONDITION" ++ s) [tok] rest) : ReadsObj U (c!"CONDITION" ++ s) tok :=
  reads_tail2 (by decide) rfl fun rest hr =>
  Yields.altRight (kw_fails (T := c!"CONDITION") (rest := s ++ rest) (by decide)) <|
  Yields.altRight (kw_fails (T := c!"CONDITION") (rest := s ++ rest) (by decide)) <| Yields.altLeft (h rest hr)

theorem reads_cardinality {s : Str} {tok : Tok}
    (h : ∀ rest, EOL rest → Yields (cardinality U) false (c!"CARDINALITY" ++ s) [tok] rest) : ReadsObj U (c!"CARDINALITY" ++ s) tok :=
  reads_tail2 (by decide) rfl fun rest hr =>
  Yields.altRight (kw_fails (T := c!"CARDINALITY") (rest := s ++ rest) (by decide)) <|
  Yields.altRight (kw_fails (T := c!"CARDINALITY") (rest := s ++ rest) (by decide)) <|
  Yields.altRight (kw_fails (T := c!"CARDINALITY") (rest := s ++ rest) (by decide)) <| Yields.altLeft (h rest hr)

theorem reads_entryCode {s : Str} {tok : Tok}
    (h : ∀ rest, EOL rest → Yields (entryCode U) false (c!"ENTRY_CODE" ++ s) [tok] rest) : ReadsObj U (c!"ENTRY_CODE" ++ s) tok :=
  reads_tail2 (by decide) rfl fun rest hr =>
  Yields.altRight (kw_fails (T := c!"ENTRY_CODE") (rest := s ++ rest) (by decide)) <|
  Yields.altRight (kw_fails (T := c!"ENTRY_CODE") (rest := s ++ rest) (by decide)) <|
  Yields.altRight (kw_fails (T := c!"ENTRY_CODE") (rest := s ++ rest) (by decide)) <|
  Yields.altRight (kw_fails (T := c!"ENTRY_CODE") (rest := s ++ rest) (by decide)) <| Yields.altLeft (h rest hr)

theorem reads_entry {s : Str} {tok : Tok}
    (h : ∀ rest, EOL rest → Yields (entry U) false (c!"ENTRY " ++ s) [tok] rest) : ReadsObj U (c!"ENTRY " ++ s) tok :=
  reads_tail2 (by decide) rfl fun rest hr =>
  Yields.altRight (kw_fails (T := c!"ENTRY ") (rest := s ++ rest) (by decide)) <|
  Yields.altRight (kw_fails (T := c!"ENTRY ") (rest := s ++ rest) (by decide)) <|
  Yields.altRight (kw_fails (T := c!"ENTRY ") (rest := s ++ rest) (by decide)) <|
  Yields.altRight (kw_fails (T := c!"ENTRY ") (rest := s ++ rest) (by decide)) <|
  Yields.altRight (kw_fails (T := c!"ENTRY ") (rest := s ++ rest) (by decide)) <| Yields.altLeft (h rest hr)

theorem reads_link {s : Str} {tok : Tok}
    (h : ∀ rest, EOL rest → Yields (link U) false (c!"LINK" ++ s) [tok] rest) : ReadsObj U (c!"LINK" ++ s) tok :=
  reads_tail2 (by decide) rfl fun rest hr =>
  Yields.altRight (kw_fails (T := c!"LINK") (rest := s ++ rest) (by decide)) <|
  Yields.altRight (kw_fails (T := c!"LINK") (rest := s ++ rest) (by decide)) <|
  Yields.altRight (kw_fails (T := c!"LINK") (rest := s ++ rest) (by decide)) <|
  Yields.altRight (kw_fails (T := c!"LINK") (rest := s ++ rest) (by decide)) <|
  Yields.altRight (kw_fails (T := c!"LINK") (rest := s ++ rest) (by decide)) <|
  Yields.altRight (kw_fails (T := c!"LINK") (rest := s ++ rest) (by decide)) <| Yields.altLeft (h rest hr)

end Gr
end OCA
