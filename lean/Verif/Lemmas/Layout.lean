import Verif.Props.LayoutSpec
/-!
# Parsing freely laid out text: gaps, quoted texts, words, pairs
-/
namespace OCA
open Peg
namespace Gr
variable {a : Bool} {rest : Str}

/-! ## Gaps -/

theorem eol_yields (e : Eol) (rest : Str) : Yields newline a e.text [] rest := by
  cases e with
  | lf => exact Yields.altLeft (.lit _ _ _)
  | crlf => exact Yields.altRight (Fails.lit (by decide) _ _ _) (Yields.altLeft (.lit _ _ _))

theorem oneBlank_yields (t : Bool) (rest : Str) : Yields ws a (Blanks.text [t]) [] rest := by
  cases t with
  | false => exact ws_space
  | true => exact Yields.altRight (Fails.lit (by decide) _ _ _) (.lit _ _ _)

theorem blanks_yields (w : Blanks) (h : ∀ c t, rest = c :: t → c ≠ ' ' ∧ c ≠ '\t') : Yields ws*ₚ a w.text [] rest := by
  induction w with
  | nil => exact Yields.starNil (ws_fails h)
  | cons t w ih => exact Yields.starCons (s := Blanks.text [t]) (s' := Blanks.text w) (ts := []) (by simp [Blanks.text]) (oneBlank_yields t _) ih

theorem eol_start (e : Eol) (r : Str) : ∃ c t, e.text ++ r = c :: t ∧ (c = '\n' ∨ c = '\r') := by
  cases e with
  | lf => exact ⟨_, _, rfl, .inl rfl⟩
  | crlf => exact ⟨_, _, rfl, .inr rfl⟩

theorem eol_noWs (e : Eol) (r : Str) : ∀ c t, e.text ++ r = c :: t → c ≠ ' ' ∧ c ≠ '\t' := by
  cases e <;> rintro c t ⟨⟩ <;> decide

theorem cont_yields (w : Blanks) (e : Eol) (rest : Str) : Yields lineContinuation a (Blank.text (.cont w e)) [] rest := by
  refine Yields.seq' (s := c!"\\") (ts := []) (Yields.lit _ _ _) ?_ rfl rfl
  exact Yields.seq' (ts := []) (blanks_yields w (eol_noWs e rest)) (eol_yields e rest) rfl rfl

/-- after the gap something solid follows: no line to be skipped starts here -/
theorem gap_noLine (g : Gap) (h : Solid rest) : Fails (commentLine |ₚ emptyLine) a (g.text ++ rest) := by
  have : ∃ (w : Blanks) (c : Char) (t : Str), g.text ++ rest = w.text ++ c :: t ∧ c ≠ ' ' ∧ c ≠ '\t' ∧ c ≠ '#' ∧ c ≠ '\n' ∧ c ≠ '\r' := by
    induction g with
    | nil =>
      obtain ⟨c, t, e, h1, h2, -, h3, h4, h5⟩ := h
      exact ⟨[], c, t, e, h1, h2, h3, h4, h5⟩
    | cons b g ih =>
      cases b with
      | one t =>
        obtain ⟨w, c, u, e, h'⟩ := ih
        refine ⟨t :: w, c, u, ?_, h'⟩
        show Blanks.text [t] ++ Gap.text g ++ rest = _
        rw [List.append_assoc, e]
        rfl
      | cont w e => exact ⟨[], '\\', _, rfl, by decide⟩
  obtain ⟨w, c, t, e, h1, h2, h3, h4, h5⟩ := this
  rw [e]
  have hw : ∀ d u, c :: t = d :: u → d ≠ ' ' ∧ d ≠ '\t' := by rintro d u e; cases e; exact ⟨h1, h2⟩
  refine Fails.alt ?_ ?_
  · exact Fails.seqRight (blanks_yields w hw) (Fails.seqLeft (Fails.atomic _ (Fails.seqLeft (Fails.lit (Ne.symm h3) _ _ _))))
  · exact Fails.atomic _ (Fails.seqRight (blanks_yields w hw) (newline_fails (by rintro d u e; cases e; exact ⟨h4, h5⟩)))

theorem Blank.text_ne (b : Blank) : b.text ≠ [] := by cases b <;> simp [Blank.text, Blanks.text]

theorem gapItem_yields (b : Blank) (g : Gap) (h : Solid rest) :
    Yields (ws |ₚ lineContinuation ~ₚ (commentLine |ₚ emptyLine)*ₚ) a b.text [] (g.text ++ rest) := by
  cases b with
  | one t => exact Yields.altLeft (oneBlank_yields t _)
  | cont w e =>
    refine Yields.altRight (ws_fails (by rintro d u e; cases e; decide)) ?_
    exact Yields.seq' (s' := []) (ts := []) (cont_yields w e _) (Yields.starNil (gap_noLine g h)) (by simp) rfl

theorem gapStar_yields (g : Gap) (h : Solid rest) :
    Yields (ws |ₚ lineContinuation ~ₚ (commentLine |ₚ emptyLine)*ₚ)*ₚ a g.text [] rest := by
  induction g with
  | nil => exact Yields.starNil (wsItem_fails h.nw)
  | cons b g ih => exact Yields.starCons (s := b.text) (s' := Gap.text g) (ts := []) (Blank.text_ne b) (gapItem_yields b g h) ih

theorem gap_yields (g : Gap) (hg : g ≠ []) (h : Solid rest) : Yields argWs a g.text [] rest := by
  cases g with
  | nil => exact absurd rfl hg
  | cons b g => exact Yields.plus (s := b.text) (s' := Gap.text g) (ts := []) (gapItem_yields b g h) (gapStar_yields g h)

theorem gapOpt_yields (g : Gap) (h : Solid rest) : Yields (argWs ?ₚ) a g.text [] rest := by
  cases g with
  | nil => exact Yields.optNone (argWs_fails h.nw)
  | cons b g => exact Yields.optSome (gap_yields _ (by simp) h)

theorem Gap.text_ne {g : Gap} (h : g ≠ []) : g.text ≠ [] := by
  cases g with
  | nil => exact absurd rfl h
  | cons b g =>
    intro e
    exact Blank.text_ne b (List.append_eq_nil_iff.1 (show b.text ++ Gap.text g = [] from e)).1

theorem gapMany_yields (g : Gap) (h : Solid rest) : Yields (argWs*ₚ) a g.text [] rest := by
  by_cases hg : g = []
  · subst hg
    exact Yields.starNil (argWs_fails h.nw)
  · have := Yields.starCons (s := g.text) (ts := []) (Gap.text_ne hg) (gap_yields (rest := [] ++ rest) g hg h)
      (Yields.starNil (a := a) (argWs_fails h.nw))
    simpa using this

/-- blanks before the end of a line -/
theorem blanksOpt_yields (w : Blanks) (h : NW rest) : Yields (argWs ?ₚ) a w.text [] rest := by
  have hstar : ∀ w : Blanks, Yields (ws |ₚ lineContinuation ~ₚ (commentLine |ₚ emptyLine)*ₚ)*ₚ a w.text [] rest := by
    intro w
    induction w with
    | nil => exact Yields.starNil (wsItem_fails h)
    | cons t w ih =>
      exact Yields.starCons (s := Blanks.text [t]) (s' := Blanks.text w) (ts := []) (by simp [Blanks.text]) (Yields.altLeft (oneBlank_yields t _)) ih
  cases w with
  | nil => exact Yields.optNone (argWs_fails h)
  | cons t w =>
    exact Yields.optSome (Yields.plus (s := Blanks.text [t]) (s' := Blanks.text w) (ts := []) (Yields.altLeft (oneBlank_yields t _)) (hstar w))

/-- what ends a word -/
def Stop (r : Str) : Prop := ∀ c t, r = c :: t → c = ' ' ∨ c = '\t' ∨ c = '\\' ∨ c = '\n' ∨ c = '\r' ∨ c = '#'

/-- what follows a command and its blanks: the end of the line or a comment -/
def LineEnd (r : Str) : Prop := ∀ c t, r = c :: t → c = '\n' ∨ c = '\r' ∨ c = '#'

theorem LineEnd.nw {r : Str} (h : LineEnd r) : NW r := by
  intro c t e
  rcases h c t e with rfl | rfl | rfl <;> decide

theorem LineEnd.stop {r : Str} (h : LineEnd r) : Stop r := by
  intro c t e
  rcases h c t e with h | h | h <;> simp [h]

theorem LineEnd.notKey {r : Str} (h : LineEnd r) : ∀ c t, r = c :: t → isAttrKeyChar c = false := by
  intro c t e
  rcases h c t e with rfl | rfl | rfl <;> decide

theorem Stop.notKey {r : Str} (h : Stop r) : ∀ c t, r = c :: t → isAttrKeyChar c = false := by
  intro c t e
  rcases h c t e with rfl | rfl | rfl | rfl | rfl | rfl <;> decide

theorem Stop.noChar {r : Str} (h : Stop r) (U : Uni) : NoChar U r := by
  intro c t e
  rcases h c t e with rfl | rfl | rfl | rfl | rfl | rfl <;> exact isChar_ascii U (by decide) (by decide)

theorem blank_start (b : Blank) (r : Str) : ∃ c t, b.text ++ r = c :: t ∧ (c = ' ' ∨ c = '\t' ∨ c = '\\') := by
  cases b with
  | one t => cases t <;> exact ⟨_, _, rfl, by simp⟩
  | cont w e => exact ⟨_, _, rfl, by simp⟩

theorem gap_start {g : Gap} (hg : g ≠ []) (r : Str) : ∃ c t, g.text ++ r = c :: t ∧ (c = ' ' ∨ c = '\t' ∨ c = '\\') := by
  cases g with
  | nil => exact absurd rfl hg
  | cons b g =>
    have := blank_start b (Gap.text g ++ r)
    rw [← List.append_assoc] at this
    exact this

theorem gap_stop {g : Gap} (hg : g ≠ []) (r : Str) : Stop (g.text ++ r) := by
  obtain ⟨c, t, e, h⟩ := gap_start hg r
  intro d u e'
  rw [e] at e'
  cases e'
  rcases h with h | h | h <;> simp [h]

theorem blanks_stop (w : Blanks) {r : Str} (h : Stop r) : Stop (w.text ++ r) := by
  cases w with
  | nil => exact h
  | cons t w =>
    intro c u e
    cases t <;> (cases e; simp)

theorem IsKey.solid {k : Str} (h : IsKey k) (r : Str) : Solid (k ++ r) := by
  cases k with
  | nil => exact absurd rfl h.1
  | cons c k =>
    have hc := h.2 c (.head _)
    refine ⟨c, _, rfl, ?_, ?_, ?_, ?_, ?_, ?_⟩ <;> (rintro rfl; revert hc; decide)

theorem IsWord.solid {U : Uni} {k : Str} (h : IsWord U k) (r : Str) : Solid (k ++ r) := by
  cases k with
  | nil => exact absurd rfl h.1
  | cons c k =>
    have hc := h.2 c (.head _)
    refine ⟨c, _, rfl, ?_, ?_, ?_, ?_, ?_, ?_⟩ <;> (rintro rfl; rw [isChar_ascii U (by decide) (by decide)] at hc; cases hc)

theorem IsLang.solid {l : Str} (h : IsLang l) (r : Str) : Solid (l ++ r) := by
  have : ∀ {c : Char}, c.isAlpha = true → c ≠ ' ' ∧ c ≠ '\t' ∧ c ≠ '\\' ∧ c ≠ '#' ∧ c ≠ '\n' ∧ c ≠ '\r' := by
    intro c hc
    refine ⟨?_, ?_, ?_, ?_, ?_, ?_⟩ <;> (rintro rfl; revert hc; decide)
  match l, h with
  | [x, y], h => exact ⟨_, _, rfl, this h.1⟩
  | [x, y, m, z, w], h => exact ⟨_, _, rfl, this h.1⟩

/-- a keyword starts with a letter -/
theorem Spells.start {kw s : Str} (h : Spells kw s) {c : Char} {t : Str} (e : kw = c :: t) : ∃ d u, s = d :: u ∧ asciiLower d = asciiLower c := by
  subst e
  cases s with
  | nil => cases h
  | cons d u =>
    injection h with h1 h2
    exact ⟨d, u, rfl, h1⟩

theorem solid_of_lower {c d : Char} (h : asciiLower d = asciiLower c) (hc : asciiLower c ≠ ' ' ∧ asciiLower c ≠ '\t' ∧ asciiLower c ≠ '\\' ∧
    asciiLower c ≠ '#' ∧ asciiLower c ≠ '\n' ∧ asciiLower c ≠ '\r') (r : Str) : Solid (d :: r) := by
  rw [← h] at hc
  refine ⟨d, r, rfl, ?_, ?_, ?_, ?_, ?_, ?_⟩ <;> (rintro rfl; revert hc; decide)

theorem Spells.solid {kw s : Str} (h : Spells kw s) (hk : ∃ c t, kw = c :: t ∧ asciiLower c ≠ ' ' ∧ asciiLower c ≠ '\t' ∧ asciiLower c ≠ '\\' ∧
    asciiLower c ≠ '#' ∧ asciiLower c ≠ '\n' ∧ asciiLower c ≠ '\r') (r : Str) : Solid (s ++ r) := by
  obtain ⟨c, t, e, hc⟩ := hk
  obtain ⟨d, u, rfl, hd⟩ := Spells.start h e
  exact solid_of_lower hd hc _

theorem differ_congr {kw s t : Str} (h : s.map asciiLower = t.map asciiLower) : differ kw s = differ kw t := by
  induction kw generalizing s t with
  | nil => cases s <;> cases t <;> rfl
  | cons c kw ih =>
    cases s with
    | nil => cases t with
      | nil => rfl
      | cons d t => cases h
    | cons e s =>
      cases t with
      | nil => cases h
      | cons d t =>
        injection h with h1 h2
        simp only [differ, h1, ih h2]

/-- another keyword does not fit -/
theorem other_fails {k : Rule} {kw T s : Str} {q : P} (h : Spells T s) (hd : differ kw T = true) (r : Str) :
    Fails (normal k (ilit kw ~ₚ q)) a (s ++ r) := kw_fails ((differ_congr h).trans hd)

/-! ## Texts in single quotes -/

theorem SingleQuotable.plain {c : Char} {r : Str} (h : c ≠ '\\') :
    SingleQuotable (c :: r) = (decide (c ≠ '\'' ∧ c ≠ '\x00' ∧ c ≠ '\x1f') && SingleQuotable r) := by
  rw [SingleQuotable.eq_def]
  simp [h]

theorem SingleQuotable.drop {x y : Str} (h : SingleQuotable (x ++ y) = true) (hx : ∀ c ∈ x, c ≠ '\\') : SingleQuotable y = true := by
  induction x with
  | nil => exact h
  | cons c x ih =>
    rw [List.cons_append, SingleQuotable.plain (hx c (.head _)), Bool.and_eq_true] at h
    exact ih h.2 fun d hd => hx d (.tail _ hd)

theorem prefix_before_single {x y v rest : Str} (h : v ++ '\'' :: rest = x ++ y) (hx : ∀ c ∈ x, c ≠ '\'') :
    ∃ v', v = x ++ v' ∧ y = v' ++ '\'' :: rest := by
  induction x generalizing v with
  | nil => exact ⟨v, rfl, h.symm⟩
  | cons c x ih =>
    cases v with
    | nil =>
      injection h with h1 h2
      exact absurd h1.symm (hx c (.head _))
    | cons d v =>
      injection h with h1 h2
      subst h1
      obtain ⟨v', e1, e2⟩ := ih h2 fun c hc => hx c (.tail _ hc)
      exact ⟨v', by rw [e1]; rfl, e2⟩

theorem singleCore_yields {v : Str} (h : SingleQuotable v = true) (rest : Str) :
    Yields (innerCore '\'' singleQuotedInner) true v [] ('\'' :: rest) := by
  induction hl : v.length using Nat.strongRecOn generalizing v with
  | _ n ih =>
    cases v with
    | nil =>
      have h1 : Yields (plainChar '\'')*ₚ true [] [] ('\'' :: rest) := Yields.starNil (plainChar_fails (.inl rfl))
      have h2 : Yields (escape ~ₚ singleQuotedInner)?ₚ true [] [] ('\'' :: rest) :=
        Yields.optNone (Fails.seqLeft (Fails.atomic _ (Fails.seqLeft (Fails.lit (by decide) _ _ _))))
      exact Yields.seq (s := []) (s' := []) h1 h2
    | cons c v =>
      by_cases hc : c = '\\'
      · subst hc
        obtain ⟨x, y, he, hxy, hcase⟩ := escape_some (v ++ '\'' :: rest)
        have hv : ∃ v', v = x ++ v' ∧ y = v' ++ '\'' :: rest ∧ SingleQuotable v' = true := by
          cases v with
          | nil => simp [SingleQuotable] at h
          | cons d v =>
            rw [SingleQuotable.eq_def] at h
            simp only [if_true] at h
            have hne : d ≠ '\'' → d ≠ '\\' → SingleQuotable (d :: v) = true := by
              intro h1 h2
              rw [if_neg (by simp [h1, h2])] at h
              exact h
            rcases hcase with rfl | rfl | rfl | hx
            · injection hxy with h1 h2
              subst h1
              refine ⟨v, rfl, h2.symm, ?_⟩
              exact SingleQuotable.drop (x := ['"']) (hne (by decide) (by decide)) (by decide)
            · injection hxy with h1 h2
              subst h1
              simp at h
              exact ⟨v, rfl, h2.symm, h⟩
            · injection hxy with h1 h2
              subst h1
              simp at h
              exact ⟨v, rfl, h2.symm, h⟩
            · obtain ⟨v', e1, e2⟩ := prefix_before_single hxy fun c hc => (hx c hc).2.1
              refine ⟨v', e1, e2, ?_⟩
              cases x with
              | cons e x =>
                injection e1 with e0 e1
                subst e0
                have hd := hx d (.head _)
                have := hne hd.2.1 hd.2.2.1
                rw [e1] at this
                exact SingleQuotable.drop (x := d :: x) this fun c hc => (hx c hc).2.2.1
              | nil =>
                have hd1 : d ≠ '\'' := by
                  rintro rfl
                  have : escape true ('\\' :: ('\'' :: v ++ '\'' :: rest)) = some ⟨[], ['\\', '\''], v ++ '\'' :: rest⟩ := by
                    simp [escape, atomic, seq, opt, alt, lit, stripPrefix]
                  rw [this] at he
                  simp at he
                have hd2 : d ≠ '\\' := by
                  rintro rfl
                  have : escape true ('\\' :: ('\\' :: v ++ '\'' :: rest)) = some ⟨[], ['\\', '\\'], v ++ '\'' :: rest⟩ := by
                    simp [escape, atomic, seq, opt, alt, lit, stripPrefix]
                  rw [this] at he
                  simp at he
                rw [List.nil_append] at e1
                rw [← e1]
                exact hne hd1 hd2
        obtain ⟨v', e1, e2, hq⟩ := hv
        have hi := ih v'.length (by rw [← hl, e1]; simp; omega) hq rfl
        have hi' : Yields singleQuotedInner true v' [] ('\'' :: rest) := by
          rw [singleQuotedInner_eq]
          exact Yields.atomicIn _ hi
        have hesc : Yields escape true ('\\' :: x) [] (v' ++ '\'' :: rest) := by
          unfold Yields
          rw [← e2, List.cons_append, ← hxy]
          exact he
        have h2 := Yields.optSome (Yields.seq hesc hi')
        have h1 : Yields (plainChar '\'')*ₚ true [] [] (('\\' :: x ++ v') ++ '\'' :: rest) :=
          Yields.starNil (plainChar_fails (.inr (.inl rfl)))
        have := Yields.seq h1 h2
        rw [e1]
        exact this
      · rw [SingleQuotable.plain hc, Bool.and_eq_true, decide_eq_true_eq] at h
        have hi := ih v.length (by rw [← hl]; simp) h.2 rfl
        exact seqStar_cons (plainChar_yields ⟨h.1.1, hc, h.1.2.1, h.1.2.2⟩) hi

/-- the token of a quoted text -/
def _root_.OCA.Quoted.tok : Quoted → Tok
  | .double s => strTok s
  | .single s => .node .string ('\'' :: s ++ ['\'']) [.node .singleQuotedInner s []]

theorem quotedText_yields {q : Quoted} (h : q.Ok) (a : Bool) (rest : Str) : Yields string a q.text [q.tok] rest := by
  cases q with
  | double s => exact string_yields h a rest
  | single s =>
    refine Yields.compound _ _ (Yields.altLeft ?_)
    have h1 : Yields (lit c!"'" : P) false ['\''] [] ((s ++ ['\'']) ++ rest) := Yields.lit _ _ _
    have hin : Yields singleQuotedInner false s [.node .singleQuotedInner s []] ('\'' :: rest) := by
      rw [singleQuotedInner_eq]
      exact Yields.atomic _ (singleCore_yields h rest)
    have h2 : Yields (singleQuotedInner ~ₚ lit c!"'") false (s ++ ['\'']) ([.node .singleQuotedInner s []] ++ []) rest :=
      Yields.seq (s := s) (s' := ['\'']) (by simpa using hin) (Yields.lit _ _ _)
    exact Yields.seq h1 h2

theorem Quoted.rule_tok (q : Quoted) : q.tok.rule = .string := by cases q <;> rfl
theorem Quoted.lastText_tok (q : Quoted) : Ins.lastText q.tok = .ok q.value := by cases q <;> rfl
theorem Quoted.solid (q : Quoted) (r : Str) : Solid (q.text ++ r) := by cases q <;> exact ⟨_, _, rfl, by decide⟩

end Gr
end OCA
