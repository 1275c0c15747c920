import Verif.Lemmas.LayoutPairs
/-!
# Parsing freely laid out text: commands
-/
namespace OCA
open Peg
namespace Gr
variable {U : Uni} {E : Env}

/-! ## Attribute types -/

/-- the token of a reference -/
def _root_.OCA.RefLaid.tok : RefLaid → Tok
  | .said _ s => .node .said s []
  | .name _ s => .node .alias s []

theorem RefLaid.solid {r : RefLaid} (h : r.Ok E U) (x : Str) : Solid (r.text ++ x) := by
  cases r with
  | said kw s =>
    rw [RefLaid.text, List.append_assoc]
    exact Spells.solid h.1 ⟨'r', _, rfl, by decide⟩ _
  | name kw s =>
    rw [RefLaid.text, List.append_assoc]
    exact Spells.solid h.1 ⟨'r', _, rfl, by decide⟩ _

theorem ref_yields {r : RefLaid} (h : r.Ok E U) {x : Str} (hx : NoChar U x) : Yields (refSaid U |ₚ refAlias U) false r.text [r.tok] x := by
  cases r with
  | said kw s =>
    exact Yields.altLeft (Yields.seq (ts := []) (Yields.ilit h.1.symm _ _) (said_yields h.2.1 hx))
  | name kw s =>
    refine Yields.altRight ?_ (Yields.seq (ts := []) (Yields.ilit h.1.symm _ _) (Yields.atomic _ (charPlus_yields h.2 hx)))
    rw [RefLaid.text, List.append_assoc]
    exact Fails.seqLeft (ilit_fails ((differ_congr h.1).trans (by decide)) _ _)

theorem ref_start {r : RefLaid} (h : r.Ok E U) : ∃ c t, r.text = c :: t ∧ asciiLower c = 'r' := by
  have : ∀ {kw0 kw s : Str}, Spells (c!"r" ++ kw0) kw → ∃ c t, kw ++ s = c :: t ∧ asciiLower c = 'r' := by
    intro kw0 kw s h
    obtain ⟨d, u, rfl, hd⟩ := Spells.start h rfl
    exact ⟨d, _, rfl, hd⟩
  cases r with
  | said kw s => exact this (kw0 := c!"efs:") h.1
  | name kw s => exact this (kw0 := c!"efn:") h.1

theorem ref_noBase {r : RefLaid} (h : r.Ok E U) (a : Bool) (x : Str) : Fails baseAttrType a (r.text ++ x) ∧ Fails (arrayAttrType U) a (r.text ++ x) := by
  obtain ⟨c, t, e, hc⟩ := ref_start h
  rw [e]
  refine ⟨base_fails ?_ _ _, ?_⟩
  · refine ⟨?_, ?_, ?_, ?_⟩ <;> (rintro rfl; revert hc; decide)
  · rw [arrayAttrType_eq]
    refine Fails.compound _ (Fails.seqLeft (Fails.lit ?_ _ _ _))
    rintro rfl; revert hc; decide

theorem TypeLaid.solid {t : TypeLaid} (h : t.Ok E U) (x : Str) : Solid (t.text ++ x) := by
  cases t with
  | base t => cases t <;> exact ⟨_, _, rfl, by decide⟩
  | ref r => exact RefLaid.solid h x
  | array g1 t g2 => exact ⟨'A', _, rfl, by decide⟩

theorem arrayLaid_yields {p : P} {t rest : Str} {k : Tok} (g1 g2 : Gap) (hn : ∀ x, Solid (t ++ x))
    (h : Yields (baseAttrType |ₚ referenceType U |ₚ p) false t [k] (g2.text ++ (']' :: rest))) (a : Bool) :
    Yields (arrayBody U p) a (c!"Array[" ++ g1.text ++ t ++ g2.text ++ c!"]")
      [.node .arrayAttrType (c!"Array[" ++ g1.text ++ t ++ g2.text ++ c!"]") [k]] rest := by
  refine Yields.compound _ _ ?_
  refine Yields.seq' (s := c!"Array[") (s' := g1.text ++ (t ++ (g2.text ++ c!"]"))) (ts := []) (ts' := [k]) (Yields.lit _ _ _) ?_ (by simp) rfl
  refine Yields.seq' (ts := []) (ts' := [k]) (gapOpt_yields g1 (by rw [List.append_assoc]; exact hn _)) ?_ rfl rfl
  refine Yields.seq' (s := t) (ts := [k]) (ts' := []) (by rw [List.append_assoc]; exact h) ?_ rfl rfl
  exact Yields.seq' (ts := []) (ts' := []) (gapOpt_yields g2 ⟨']', _, rfl, by decide⟩) (Yields.lit _ _ _) rfl rfl

theorem gapClose_noChar (g : Gap) (r : Str) : NoChar U (g.text ++ (']' :: r)) := by
  by_cases hg : g = []
  · subst hg; exact NoChar.cons (isChar_bracket U) r
  · exact (gap_stop hg _).noChar U

/-- the token of a type -/
def _root_.OCA.TypeLaid.tok : TypeLaid → Tok
  | .base t => .node .baseAttrType t.toStr []
  | .ref r => r.tok
  | .array g1 t g2 => .node .arrayAttrType (TypeLaid.text (.array g1 t g2)) [t.tok]

theorem attrTypeOf_laid {t : TypeLaid} (h : t.Ok E U) : Ins.attrTypeOf E t.tok = .ok t.meaning := by
  induction t with
  | base t => cases t <;> rfl
  | ref r => cases r with
    | said kw s => simp [TypeLaid.tok, RefLaid.tok, Ins.attrTypeOf, h.2.2]; rfl
    | name kw s => rfl
  | array g1 t g2 ih => simp only [TypeLaid.tok, Ins.attrTypeOf, ih h]; rfl

theorem typeItem_yields (t : TypeLaid) (h : t.Ok E U) {x : Str} (hx : NoChar U x) :
    Yields (baseAttrType |ₚ referenceType U |ₚ arrayAttrType U) false t.text [t.tok] x := by
  induction t generalizing x with
  | base t => exact Yields.altLeft (base_yields t false _)
  | ref r => exact Yields.altRight (ref_noBase h _ _).1 (Yields.altLeft (ref_yields h hx))
  | array g1 t g2 ih =>
    refine Yields.altRight (base_fails (by decide) _ _) (Yields.altRight
      (Fails.alt (Fails.seqLeft (Fails.ilit (by decide) _ _ _)) (Fails.seqLeft (Fails.ilit (by decide) _ _ _))) ?_)
    rw [arrayAttrType_eq]
    exact arrayLaid_yields (t := t.text) g1 g2 (TypeLaid.solid (E := E) (U := U) (t := t) h) (ih h (gapClose_noChar g2 _)) false

theorem type_yields (t : TypeLaid) (h : t.Ok E U) {x : Str} (hx : NoChar U x) (b : Bool) :
    Yields (attrType U) b t.text [.node .attrType t.text [t.tok]] x := by
  refine Yields.compound _ _ ?_
  cases t with
  | base t => exact Yields.altLeft (base_yields t false _)
  | ref r => exact Yields.altRight (ref_noBase h _ _).1 (Yields.altRight (ref_noBase h _ _).2 (ref_yields h hx))
  | array g1 t g2 =>
    refine Yields.altRight (base_fails (by decide) _ _) (Yields.altLeft ?_)
    rw [arrayAttrType_eq]
    exact arrayLaid_yields (t := t.text) g1 g2 (TypeLaid.solid (E := E) (U := U) (t := t) h) (typeItem_yields t h (gapClose_noChar g2 _)) false

/-! ## Attributes -/

/-- nothing more of the list before the end of the line -/
theorem tail_fails {q : P} {a : Bool} (w : Blanks) {r : Str} (hr : LineEnd r) (hq : Fails q a r) : Fails (argWs ~ₚ q) a (w.text ++ r) := by
  cases w with
  | nil => exact Fails.seqLeft (argWs_fails hr.nw)
  | cons t w =>
    have := blanksOpt_yields (a := a) (t :: w) hr.nw
    rcases opt_some this with h | ⟨-, h⟩
    · exact Fails.seqRight h hq
    · simp [Blanks.text] at h

theorem attr_yields {x : AttrLaid} (h : x.Ok E U) {r : Str} (hr : NoChar U r) :
    ∃ t, Ins.attributeOf E t = .ok x.meaning ∧ Yields (argWs ~ₚ attrPair U) false x.text [t] r := by
  obtain ⟨h1, h2, h3⟩ := h
  have hp := keyGap_yields (a := true) h2 x.g1 x.g2 (TypeLaid.solid h3 r) (type_yields x.type h3 hr true)
  refine ⟨_, ?_, Yields.seq' (ts := []) (gap_yields x.g h1 ?_) (Yields.atomic _ hp) (by simp [AttrLaid.text]) rfl⟩
  · simp only [Ins.attributeOf, Tree.kids, keyTok, Ins.attributeLoop, attrTypeOf_laid h3]; rfl
  · rw [List.append_assoc, List.append_assoc, List.append_assoc, List.append_assoc]
    exact IsKey.solid h2 _

theorem attrs_noChar {l : List AttrLaid} (h : ∀ x ∈ l, x.Ok E U) {r : Str} (hr : NoChar U r) : NoChar U (l.flatMap AttrLaid.text ++ r) := by
  cases l with
  | nil => exact hr
  | cons x t =>
    have := (gap_stop (h x (.head _)).1 (x.name ++ x.g1.text ++ c!"=" ++ x.g2.text ++ x.type.text ++ (t.flatMap AttrLaid.text ++ r))).noChar U
    simpa [AttrLaid.text] using this

theorem attrsStar_yields (l : List AttrLaid) (h : ∀ x ∈ l, x.Ok E U) {r : Str} (hr : NoChar U r) (hf : Fails (argWs ~ₚ attrPair U) false r) :
    ∃ ts, All2 (fun x t => Ins.attributeOf E t = .ok (AttrLaid.meaning x)) l ts ∧
      Yields (argWs ~ₚ attrPair U)*ₚ false (l.flatMap AttrLaid.text) ts r := by
  induction l with
  | nil => exact ⟨[], .nil, Yields.starNil hf⟩
  | cons x l ih =>
    have hl := fun y hy => h y (.tail _ hy)
    obtain ⟨ts, hts, hy⟩ := ih hl
    obtain ⟨t, ht, hx⟩ := attr_yields (h x (.head _)) (attrs_noChar hl hr)
    refine ⟨t :: ts, .cons ht hts, Yields.of_eq (Yields.starCons ?_ hx hy) (by simp) rfl⟩
    simp [AttrLaid.text]

theorem attrPairsLoop_all {l : List AttrLaid} {ts : List Tok} (h : All2 (fun x t => Ins.attributeOf E t = .ok (AttrLaid.meaning x)) l ts) :
    ∀ acc, Ins.attrPairsLoop E ts acc = .ok (imExtend acc (l.map AttrLaid.meaning)) := by
  induction h with
  | nil => intro acc; rfl
  | cons hx _ ih => intro acc; rw [Ins.attrPairsLoop, hx]; exact ih _

theorem attrKey_end {a : Bool} {r : Str} (h : LineEnd r) : Fails attrKey a r := attrKey_fails a h.notKey

theorem attributeLaid_yields {kw : Str} (hk : Spells c!"ATTRIBUTE" kw) (l : List AttrLaid) (hn : l ≠ []) (h : ∀ x ∈ l, x.Ok E U) (w : Blanks) {r : Str}
    (hr : LineEnd r) : ∃ t, Ins.addStep E U t none = .ok (some (.captureBase ⟨some (imExtend [] (l.map AttrLaid.meaning)), none, none⟩)) ∧
      Yields (ocaObject U) false (kw ++ l.flatMap AttrLaid.text) [t] (w.text ++ r) := by
  have hno := (blanks_stop w hr.stop).noChar U
  have hf : Fails (argWs ~ₚ attrPair U) false (w.text ++ r) := tail_fails w hr (Fails.atomic _ (Fails.seqLeft (attrKey_end hr)))
  obtain ⟨ts, hts, hy⟩ := attrsStar_yields l h hno hf
  have hpairs : Yields (attrPairs U) false (l.flatMap AttrLaid.text) [.node .attrPairs (l.flatMap AttrLaid.text) ts] (w.text ++ r) := by
    refine Yields.compound _ _ ?_
    cases l with
    | nil => exact absurd rfl hn
    | cons x l =>
      have hl := fun y hy => h y (.tail _ hy)
      obtain ⟨ts', hts', hy'⟩ := attrsStar_yields l hl hno hf
      obtain ⟨t, ht, hx⟩ := attr_yields (h x (.head _)) (attrs_noChar hl hno)
      have h1 := Yields.starCons (s := x.text) (by simp [AttrLaid.text]) hx hy'
      have h2 := Yields.plus hx hy'
      have e : ([t] ++ ts') = ts := by
        have a1 : (argWs ~ₚ attrPair U)*ₚ false (x.text ++ l.flatMap AttrLaid.text ++ (w.text ++ r)) = _ := h1
        have a2 : (argWs ~ₚ attrPair U)*ₚ false (x.text ++ l.flatMap AttrLaid.text ++ (w.text ++ r)) = _ := hy
        rw [a1] at a2
        injection a2 with a2
        injection a2
      rw [← e]
      exact h2
  refine ⟨.node .attribute (kw ++ l.flatMap AttrLaid.text) [.node .attrPairs (l.flatMap AttrLaid.text) ts], ?_, ?_⟩
  · simp only [Ins.addStep, Ins.addKind, Tree.rule, Tree.kids, Ins.addAttributes, if_true, attrPairsLoop_all hts]
  · have F : ∀ {k' : Rule} {kw' : Str} {q : P}, differ kw' c!"ATTRIBUTE" = true →
        Fails (normal k' (ilit kw' ~ₚ q)) false (kw ++ l.flatMap AttrLaid.text ++ (w.text ++ r)) := by
      intro k' kw' q hd
      rw [List.append_assoc]
      exact other_fails hk hd _
    refine Yields.altRight (F (by decide)) (Yields.altRight (F (by decide)) (Yields.altLeft ?_))
    refine Yields.normal _ (Yields.seq' (ts := []) (Yields.ilit hk.symm _ _) (Yields.plusOne hpairs ?_) rfl rfl)
    exact Fails.compound _ (Fails.plus hf)

/-! ## Overlays -/

/-- the rule of an overlay -/
def ovRule : OvWord → Rule
  | .metaW => .metaR
  | .label => .label
  | .information => .information
  | .characterEncoding => .characterEncoding
  | .characterEncodingProps => .characterEncodingProps
  | .format => .format
  | .conformance => .conformance
  | .condition => .conditional
  | .cardinality => .cardinality
  | .unit => .unit
  | .link => .link
  | .entryCode => .entryCode
  | .entry => .entry

/-- the rule of its pairs -/
def ovPairs : OvWord → Rule
  | .metaW => .propKeyPairs
  | .characterEncodingProps => .propKeyPairs
  | .unit => .unitAttrKeyPairs
  | .entryCode => .attrEntryCodeKeyPairs
  | .entry => .attrEntryKeyPairs
  | _ => .attrKeyPairs

/-- `ATTRS` or `PROPS` -/
def ovBlock : OvWord → P
  | .metaW => propsKey
  | .characterEncodingProps => propsKey
  | _ => attrsKey

/-- the pairs -/
def pairsP (U : Uni) (k : OvWord) : P := compound (ovPairs k) (argWs ?ₚ ~ₚ pairP U k ~ₚ argWs ?ₚ)+ₚ

/-- the grammar of an overlay -/
def ovP (U : Uni) : OvWord → P
  | .metaW => metaR U
  | .label => label U
  | .information => information U
  | .characterEncoding => characterEncoding U
  | .characterEncodingProps => characterEncodingProps U
  | .format => format U
  | .conformance => conformance U
  | .condition => conditional U
  | .cardinality => cardinality U
  | .unit => unit
  | .link => link U
  | .entryCode => entryCode U
  | .entry => entry U

theorem ovP_plain {k : OvWord} (h : k.hasLang = false) (h' : k ≠ .link) : ovP U k = normal (ovRule k) (ilit (k.keyword.map asciiLower) ~ₚ argWs ~ₚ ovBlock k ~ₚ pairsP U k) := by
  cases k <;> first | rfl | (cases h; done) | exact absurd rfl h'

theorem ovP_lang {k : OvWord} (h : k.hasLang = true) : ovP U k = normal (ovRule k) (ilit (k.keyword.map asciiLower) ~ₚ argWs ~ₚ lang ~ₚ argWs ~ₚ ovBlock k ~ₚ pairsP U k) := by
  cases k <;> first | rfl | cases h

theorem ovP_link : ovP U .link = normal (ovRule .link) (ilit c!"link" ~ₚ argWs ~ₚ referenceType U ~ₚ argWs ~ₚ ovBlock .link ~ₚ pairsP U .link) := rfl

theorem ovBlock_eq (k : OvWord) : ovBlock k = (ilit (k.block.map asciiLower) ~ₚ argWs) := by cases k <;> rfl

theorem lower_lower (s : Str) : (s.map asciiLower).map asciiLower = s.map asciiLower := by
  rw [List.map_map]
  congr 1
  funext c
  show asciiLower (asciiLower c) = asciiLower c
  unfold asciiLower
  split
  next h =>
    have h1 : 65 ≤ c.toNat := h.1
    have h2 : c.toNat ≤ 90 := h.2
    have : ∀ n, 65 ≤ n → n ≤ 90 → ¬ ('A' ≤ Char.ofNat (n + 32) ∧ Char.ofNat (n + 32) ≤ 'Z') := by
      intro n ha hb
      have : n = 65 ∨ n = 66 ∨ n = 67 ∨ n = 68 ∨ n = 69 ∨ n = 70 ∨ n = 71 ∨ n = 72 ∨ n = 73 ∨ n = 74 ∨ n = 75 ∨ n = 76 ∨ n = 77 ∨ n = 78 ∨
        n = 79 ∨ n = 80 ∨ n = 81 ∨ n = 82 ∨ n = 83 ∨ n = 84 ∨ n = 85 ∨ n = 86 ∨ n = 87 ∨ n = 88 ∨ n = 89 ∨ n = 90 := by omega
      rcases this with rfl | rfl | rfl | rfl | rfl | rfl | rfl | rfl | rfl | rfl | rfl | rfl | rfl | rfl | rfl | rfl | rfl | rfl | rfl | rfl | rfl | rfl | rfl | rfl | rfl | rfl <;> decide
    rw [if_neg (this _ h1 h2)]
  next h => rfl

theorem Spells.ilit {T s : Str} (h : Spells T s) (a : Bool) (r : Str) : Yields (Peg.ilit (T.map asciiLower) : P) a s [] r :=
  Yields.ilit ((lower_lower T).trans h.symm) a r

/-- the first character of a keyword -/
theorem block_solid {k : OvWord} {b : Str} (h : Spells k.block b) (r : Str) : Solid (b ++ r) := by
  cases k <;> exact Spells.solid h ⟨_, _, rfl, by decide⟩ r

theorem keyword_solid {k : OvWord} {b : Str} (h : Spells k.keyword b) (r : Str) : Solid (b ++ r) := by
  cases k <;> exact Spells.solid h ⟨_, _, rfl, by decide⟩ r

theorem langGap_yields {l : Str} (h : IsLang l) {g : Gap} (hg : g ≠ []) (a : Bool) (r : Str) : Yields lang a l [langTok l] (g.text ++ r) := by
  refine Yields.compound _ _ ?_
  have one : ∀ {c : Char}, c.isAlpha = true → ∀ r, Yields alpha false [c] [] r := fun h r => Yields.cls h _ _
  obtain ⟨c, t, e, hc⟩ := gap_start hg r
  rw [e]
  match l, h with
  | [x, y], h =>
    refine Yields.seq' (s := [x]) (s' := [y]) (ts := []) (one h.1 _) ?_ rfl rfl
    refine Yields.seq' (s := [y]) (s' := []) (ts := []) (one h.2 _) ?_ rfl rfl
    refine Yields.optNone (Fails.seqLeft (Fails.lit ?_ _ _ _))
    rcases hc with rfl | rfl | rfl <;> decide
  | [x, y, m, z, w], h =>
    obtain ⟨h1, h2, rfl, h3, h4⟩ := h
    refine Yields.seq' (s := [x]) (s' := [y, '-', z, w]) (ts := []) (one h1 _) ?_ rfl rfl
    refine Yields.seq' (s := [y]) (s' := ['-', z, w]) (ts := []) (one h2 _) ?_ rfl rfl
    refine Yields.optSome ?_
    refine Yields.seq' (s := ['-']) (s' := [z, w]) (ts := []) (Yields.lit _ _ _) ?_ rfl rfl
    exact Yields.seq' (s := [z]) (s' := [w]) (ts := []) (one h3 _) (one h4 _) rfl rfl

/-- the token of what stands before ATTRS or PROPS -/
def _root_.OCA.MiddleLaid.toks : MiddleLaid → List Tok
  | .none => []
  | .lang l _ => [langTok l]
  | .target r _ => [r.tok]

/-- `ATTRS` or `PROPS`, a gap and the pairs -/
theorem blockLaid_yields {k : OvWord} {b : Str} (hb : Spells k.block b) {g : Gap} (hg : g ≠ []) {s r : Str} {ts : List Tok} (hs : Solid (s ++ r))
    (h : Yields (argWs ?ₚ ~ₚ pairP U k ~ₚ argWs ?ₚ)+ₚ false s ts r) :
    Yields (ovBlock k ~ₚ pairsP U k) false (b ++ g.text ++ s) [.node (ovPairs k) s ts] r := by
  rw [ovBlock_eq]
  refine Yields.seq' (s := b ++ g.text) (s' := s) (ts := []) ?_ (Yields.compound _ _ h) rfl rfl
  exact Yields.seq' (ts := []) (Spells.ilit hb _ _) (gap_yields g hg hs) rfl rfl

theorem overlayLaid_yields {k : OvWord} {kw b : Str} {g1 g2 : Gap} {m : MiddleLaid} (hk : Spells k.keyword kw) (h1 : g1 ≠ []) (hm : m.Ok E U k)
    (hb : Spells k.block b) (h2 : g2 ≠ []) {s r : Str} {ts : List Tok} (hs : Solid (s ++ r))
    (h : Yields (argWs ?ₚ ~ₚ pairP U k ~ₚ argWs ?ₚ)+ₚ false s ts r) :
    Yields (ovP U k) false (kw ++ g1.text ++ m.text ++ b ++ g2.text ++ s)
      [.node (ovRule k) (kw ++ g1.text ++ m.text ++ b ++ g2.text ++ s) (m.toks ++ [.node (ovPairs k) s ts])] r := by
  have hblock := blockLaid_yields (U := U) hb h2 hs h
  cases m with
  | none =>
    rw [ovP_plain hm.1 hm.2]
    refine Yields.normal _ ?_
    refine Yields.seq' (s := kw) (s' := g1.text ++ (b ++ g2.text ++ s)) (ts := []) (Spells.ilit hk _ _) ?_ (by simp [MiddleLaid.text]) rfl
    refine Yields.seq' (ts := []) (gap_yields g1 h1 ?_) hblock rfl rfl
    rw [List.append_assoc, List.append_assoc]
    exact block_solid hb _
  | lang l g =>
    rw [ovP_lang hm.1]
    refine Yields.normal _ ?_
    refine Yields.seq' (s := kw) (s' := g1.text ++ (l ++ (g.text ++ (b ++ g2.text ++ s)))) (ts := []) (Spells.ilit hk _ _) ?_ (by simp [MiddleLaid.text]) rfl
    refine Yields.seq' (ts := []) (gap_yields g1 h1 (by rw [List.append_assoc]; exact IsLang.solid hm.2.1 _)) ?_ rfl rfl
    refine Yields.seq' (ts := [langTok l]) (by rw [List.append_assoc]; exact langGap_yields hm.2.1 hm.2.2 _ _) ?_ rfl rfl
    refine Yields.seq' (ts := []) (gap_yields g hm.2.2 ?_) hblock rfl rfl
    rw [List.append_assoc, List.append_assoc]
    exact block_solid hb _
  | target x g =>
    obtain ⟨rfl, hx, hg⟩ := hm
    rw [ovP_link]
    refine Yields.normal _ ?_
    refine Yields.seq' (s := kw) (s' := g1.text ++ (x.text ++ (g.text ++ (b ++ g2.text ++ s)))) (ts := []) (Spells.ilit (T := c!"LINK") hk _ _) ?_ (by simp [MiddleLaid.text]) rfl
    refine Yields.seq' (ts := []) (gap_yields g1 h1 (by rw [List.append_assoc]; exact RefLaid.solid hx _)) ?_ rfl rfl
    refine Yields.seq' (ts := [x.tok]) (by rw [List.append_assoc]; exact ref_yields hx ((gap_stop hg _).noChar U)) ?_ rfl rfl
    refine Yields.seq' (ts := []) (gap_yields g hg ?_) hblock rfl rfl
    rw [List.append_assoc, List.append_assoc]
    exact block_solid hb _

/-- the alternatives before the overlay do not apply -/
theorem ov_dispatch {k : OvWord} {kw s r : Str} {tok : Tok} (hk : Spells k.keyword kw) (h : Yields (ovP U k) false (kw ++ s) [tok] r)
    (hentry : k = .entry → ∃ c t, s ++ r = c :: t ∧ (c = ' ' ∨ c = '\t' ∨ c = '\\'))
    (hce : k = .characterEncodingProps → Fails (characterEncoding U) false (kw ++ s ++ r)) : Yields (ocaObject U) false (kw ++ s) [tok] r := by
  have F : ∀ {k' : Rule} {kw' : Str} {q : P}, differ kw' k.keyword = true → Fails (normal k' (ilit kw' ~ₚ q)) false (kw ++ s ++ r) := by
    intro k' kw' q hd
    rw [List.append_assoc]
    exact other_fails hk hd _
  cases k with
  | metaW => exact Yields.altLeft h
  | label => exact .altRight (F (by decide)) (.altLeft h)
  | information => exact .altRight (F (by decide)) (.altRight (F (by decide)) (.altRight (F (by decide)) (.altRight (F (by decide)) (.altLeft h))))
  | unit =>
    exact .altRight (F (by decide)) (.altRight (F (by decide)) (.altRight (F (by decide)) (.altRight (F (by decide)) (.altRight (F (by decide)) (.altLeft h)))))
  | characterEncoding =>
    exact .altRight (F (by decide)) (.altRight (F (by decide)) (.altRight (F (by decide)) (.altRight (F (by decide)) (.altRight (F (by decide))
      (.altRight (F (by decide)) (.altLeft h))))))
  | characterEncodingProps =>
    exact .altRight (F (by decide)) (.altRight (F (by decide)) (.altRight (F (by decide)) (.altRight (F (by decide)) (.altRight (F (by decide))
      (.altRight (F (by decide)) (.altRight (hce rfl) (.altLeft h)))))))
  | format =>
    exact .altRight (F (by decide)) (.altRight (F (by decide)) (.altRight (F (by decide)) (.altRight (F (by decide)) (.altRight (F (by decide))
      (.altRight (F (by decide)) (.altRight (F (by decide)) (.altRight (F (by decide)) (.altLeft h))))))))
  | conformance =>
    exact .altRight (F (by decide)) (.altRight (F (by decide)) (.altRight (F (by decide)) (.altRight (F (by decide)) (.altRight (F (by decide))
      (.altRight (F (by decide)) (.altRight (F (by decide)) (.altRight (F (by decide)) (.altRight (F (by decide)) (.altLeft h)))))))))
  | condition =>
    exact .altRight (F (by decide)) (.altRight (F (by decide)) (.altRight (F (by decide)) (.altRight (F (by decide)) (.altRight (F (by decide))
      (.altRight (F (by decide)) (.altRight (F (by decide)) (.altRight (F (by decide)) (.altRight (F (by decide)) (.altRight (F (by decide)) (.altLeft h))))))))))
  | cardinality =>
    exact .altRight (F (by decide)) (.altRight (F (by decide)) (.altRight (F (by decide)) (.altRight (F (by decide)) (.altRight (F (by decide))
      (.altRight (F (by decide)) (.altRight (F (by decide)) (.altRight (F (by decide)) (.altRight (F (by decide)) (.altRight (F (by decide))
        (.altRight (F (by decide)) (.altLeft h)))))))))))
  | entryCode =>
    exact .altRight (F (by decide)) (.altRight (F (by decide)) (.altRight (F (by decide)) (.altRight (F (by decide)) (.altRight (F (by decide))
      (.altRight (F (by decide)) (.altRight (F (by decide)) (.altRight (F (by decide)) (.altRight (F (by decide)) (.altRight (F (by decide))
        (.altRight (F (by decide)) (.altRight (F (by decide)) (.altLeft h))))))))))))
  | entry =>
    have hcode : Fails (entryCode U) false (kw ++ s ++ r) := by
      obtain ⟨c, t, e, hc⟩ := hentry rfl
      have hd : differ c!"entry_code" (kw ++ [c]) = true := by
        have e1 : (kw ++ [c]).map asciiLower = (c!"entry" ++ [c]).map asciiLower := by
          rw [List.map_append, List.map_append, show kw.map asciiLower = c!"entry".map asciiLower from hk]
        rw [differ_congr e1]
        rcases hc with rfl | rfl | rfl <;> decide
      have := kw_fails (k := .entryCode) (q := argWs ~ₚ attrsKey ~ₚ attrEntryCodeKeyPairs U) (a := false) (rest := t) hd
      rw [List.append_assoc, e]
      have e2 : kw ++ [c] ++ t = kw ++ c :: t := by simp
      rw [e2] at this
      exact this
    exact .altRight (F (by decide)) (.altRight (F (by decide)) (.altRight (F (by decide)) (.altRight (F (by decide)) (.altRight (F (by decide))
      (.altRight (F (by decide)) (.altRight (F (by decide)) (.altRight (F (by decide)) (.altRight (F (by decide)) (.altRight (F (by decide))
        (.altRight (F (by decide)) (.altRight (F (by decide)) (.altRight hcode (.altLeft h)))))))))))))
  | link =>
    exact .altRight (F (by decide)) (.altRight (F (by decide)) (.altRight (F (by decide)) (.altRight (F (by decide)) (.altRight (F (by decide))
      (.altRight (F (by decide)) (.altRight (F (by decide)) (.altRight (F (by decide)) (.altRight (F (by decide)) (.altRight (F (by decide))
        (.altRight (F (by decide)) (.altRight (F (by decide)) (.altRight (F (by decide)) (.altRight (F (by decide)) (.altLeft h))))))))))))))

/-- what the token of an overlay means -/
theorem contentOf_laid {k : OvWord} {m : MiddleLaid} (hm : m.Ok E U k) {x s : Str} {ts : List Tok} {ps : List PairLaid}
    (h : All2 (fun p t => Ins.keyPairOf U t = .ok (PairLaid.meaning p)) ps ts) :
    Ins.contentOf E U (.node (ovRule k) x (m.toks ++ [.node (ovPairs k) s ts])) =
      .ok (if k.isProps then ⟨some [], some (imExtend m.props (ps.map PairLaid.meaning))⟩
           else ⟨some (imExtend [] (ps.map PairLaid.meaning)), some m.props⟩) := by
  have hobj := fun acc => keyPairsObj_all (U := U) h acc
  have hmid : ∀ l, Ins.propertiesOf E U (m.toks ++ l) [] = Ins.propertiesOf E U l m.props ∧ Ins.attributesOf U (m.toks ++ l) [] = Ins.attributesOf U l [] := by
    intro l
    cases m with
    | none => exact ⟨rfl, rfl⟩
    | lang lg g => exact ⟨rfl, rfl⟩
    | target r g =>
      cases r with
      | said kw sd =>
        have : E.validSaid sd = true := hm.2.1.2.2
        refine ⟨?_, rfl⟩
        simp only [MiddleLaid.toks, RefLaid.tok, List.cons_append, List.nil_append, Ins.propertiesOf, Ins.propertyStep, Tree.rule, Tree.text, this, if_true]
        rfl
      | name kw sd => exact ⟨rfl, rfl⟩
  simp only [Ins.contentOf, Tree.kids]
  rw [(hmid _).1, (hmid _).2]
  have hprops : ovPairs k = .propKeyPairs ↔ k.isProps = true := by cases k <;> simp [ovPairs, OvWord.isProps]
  cases hp : k.isProps with
  | true =>
    rw [hprops.2 hp]
    simp only [Ins.propertiesOf, Ins.propertyStep, Tree.rule, Tree.kids, Ins.insertPairs, hobj, Ins.attributesOf]
    rfl
  | false =>
    have hk : ovPairs k = .attrKeyPairs ∨ ovPairs k = .attrEntryCodeKeyPairs ∨ ovPairs k = .attrEntryKeyPairs ∨ ovPairs k = .unitAttrKeyPairs := by
      cases k <;> first | cases hp; done | simp [ovPairs]
    have e1 : Ins.propertiesOf E U [.node (ovPairs k) s ts] m.props = .ok m.props := by
      rcases hk with e | e | e | e <;> rw [e] <;> rfl
    have e2 : Ins.attributesOf U [.node (ovPairs k) s ts] [] = .ok (imExtend [] (ps.map PairLaid.meaning)) := by
      simp only [Ins.attributesOf, Tree.rule, Tree.kids, Ins.insertPairs, hobj]
      rw [if_pos]
      rcases hk with e | e | e | e <;> rw [e] <;> simp
    rw [e1, e2]
    rfl

theorem addKind_ovRule (k : OvWord) : Ins.addKind (ovRule k) = some k.kind := by cases k <;> rfl

end Gr
end OCA
