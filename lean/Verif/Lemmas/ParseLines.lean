import Verif.Lemmas.ParseFraming
/-!
# Parsing printed text: commands and files
-/
namespace OCA
open Peg
namespace Gr
variable {U : Uni}

/-! ## Commands -/

theorem add_yields {s rest : Str} {tok : Tok} (h : Yields (ocaObject U) false s [tok] rest) (hw : NW (s ++ rest)) :
    Yields (add U) false (c!"ADD" ++ (' ' :: s)) [.node .add (c!"ADD" ++ (' ' :: s)) [tok]] rest := by
  refine Yields.normal _ (Yields.seq' (s := c!"ADD") (ts := []) (Yields.ilit (by decide) _ _) ?_ rfl rfl)
  exact Yields.seq' (s := sp 1) (ts := []) (starWs_spaces 1 hw) h rfl rfl

theorem remove_yields {s rest : Str} {tok : Tok} (h : Yields (removeOcaObject U) false s [tok] rest) (hw : NW (s ++ rest)) :
    Yields (remove U) false (c!"REMOVE" ++ (' ' :: s)) [.node .remove (c!"REMOVE" ++ (' ' :: s)) [tok]] rest := by
  refine Yields.normal _ (Yields.seq' (s := c!"REMOVE") (ts := []) (Yields.ilit (by decide) _ _) ?_ rfl rfl)
  exact Yields.seq' (s := sp 1) (ts := []) (starWs_spaces 1 hw) h rfl rfl

theorem addAlt_yields {s rest : Str} {tok : Tok} (h : Yields (add U) false (c!"ADD" ++ s) [tok] rest) :
    Yields (from_ U |ₚ add U |ₚ modify U |ₚ remove U) false (c!"ADD" ++ s) [tok] rest :=
  Yields.altRight (kw_fails (T := c!"ADD") (rest := s ++ rest) (by decide)) (Yields.altLeft h)

theorem removeAlt_yields {s rest : Str} {tok : Tok} (h : Yields (remove U) false (c!"REMOVE" ++ s) [tok] rest) :
    Yields (from_ U |ₚ add U |ₚ modify U |ₚ remove U) false (c!"REMOVE" ++ s) [tok] rest :=
  Yields.altRight (kw_fails (T := c!"REMOVE") (rest := s ++ rest) (by decide)) <|
  Yields.altRight (kw_fails (T := c!"REMOVE") (rest := s ++ rest) (by decide)) <|
  Yields.altRight (kw_fails (T := c!"REMOVE") (rest := s ++ rest) (by decide)) h

/-- a command and the line break after it -/
theorem lineBreak_yields {p : P} {s rest : Str} {tok : Tok} (h : Yields p false s [tok] ('\n' :: rest)) :
    Yields (p ~ₚ newline ?ₚ) false (s ++ ['\n']) [tok] rest :=
  Yields.seq' (ts' := []) h (Yields.optSome (Yields.altLeft (Yields.lit _ _ _))) rfl rfl

/-- a command that contains the line break -/
theorem noBreak_yields {p : P} {s rest : Str} {tok : Tok} (h : Yields p false s [tok] rest) (hr : ∀ a, Fails newline a rest) :
    Yields (p ~ₚ newline ?ₚ) false s [tok] rest :=
  Yields.seq' (s' := []) (ts' := []) h (Yields.optNone (hr _)) (by simp) rfl

/-! ## Lines of a file -/

theorem lineItem_yields {s rest : Str} {tok : Tok} (h : Yields (commands U) false s [tok] rest)
    (hs : ∃ c t, s = c :: t ∧ c ≠ ' ' ∧ c ≠ '\t' ∧ c ≠ '#' ∧ c ≠ '-' ∧ c ≠ '\n' ∧ c ≠ '\r') :
    Yields (emptyLine |ₚ metaCommentLine U semMetaKey |ₚ commentLine |ₚ commands U) false s [tok] rest := by
  obtain ⟨c, t, rfl, h1, h2, h3, h4, h5, h6⟩ := hs
  have hw : ∀ d u, c :: (t ++ rest) = d :: u → d ≠ ' ' ∧ d ≠ '\t' := by intro d u e; cases e; exact ⟨h1, h2⟩
  refine Yields.altRight ?_ (Yields.altRight ?_ (Yields.altRight ?_ h))
  · exact Fails.atomic _ (Fails.seqRight (s := sp 0) (wsRun_yields 0 hw) (newline_fails (by intro d u e; cases e; exact ⟨h5, h6⟩)))
  · exact Fails.seqRight (s := sp 0) (wsRun_yields 0 hw) (Fails.seqLeft (Fails.atomic _ (Fails.seqLeft (Fails.lit (Ne.symm h4) _ _ _))))
  · exact Fails.seqRight (s := sp 0) (wsRun_yields 0 hw) (Fails.seqLeft (Fails.atomic _ (Fails.seqLeft (Fails.lit (Ne.symm h3) _ _ _))))

theorem lineItem_end : Fails (emptyLine |ₚ metaCommentLine U semMetaKey |ₚ commentLine |ₚ commands U) false [] := by
  have hw : ∀ d u, ([] : Str) = d :: u → d ≠ ' ' ∧ d ≠ '\t' := by intro d u e; cases e
  refine Fails.alt ?_ (Fails.alt ?_ (Fails.alt ?_ ?_))
  · exact Fails.atomic _ (Fails.seqRight (s := sp 0) (wsRun_yields 0 hw) rfl)
  · exact Fails.seqRight (s := sp 0) (wsRun_yields 0 hw) (Fails.seqLeft (Fails.atomic _ (Fails.seqLeft rfl)))
  · exact Fails.seqRight (s := sp 0) (wsRun_yields 0 hw) (Fails.seqLeft (Fails.atomic _ (Fails.seqLeft rfl)))
  · exact Fails.seqLeft (Fails.alt (Fails.normal _ (Fails.seqLeft rfl)) (Fails.alt (Fails.normal _ (Fails.seqLeft rfl))
      (Fails.alt (Fails.normal _ (Fails.seqLeft rfl)) (Fails.normal _ (Fails.seqLeft rfl)))))

/-- the text of one command with its line break, and its token -/
structure CmdLine where
  text : Str
  tok : Tok

/-- the text starts a command, and is read as the token when a command or the end follows -/
structure CmdLine.Ok (U : Uni) (x : CmdLine) : Prop where
  start : ∀ r, LineStart (x.text ++ r)
  ne : x.text ≠ []
  reads : ∀ rest, Follow rest → Yields (commands U) false x.text [x.tok] rest
  readsBlank : ∀ rest, Yields (commands U) false x.text [x.tok] ('\n' :: rest) ∨ Yields (commands U) false (x.text ++ ['\n']) [x.tok] rest

/-- the text of the file -/
def linesText (l : List CmdLine) : Str := l.flatMap CmdLine.text

theorem linesText_start (l : List CmdLine) (h : ∀ x ∈ l, x.Ok U) : LineStart (linesText l) := by
  cases l with
  | nil => exact .inl rfl
  | cons x t => simpa [linesText] using (h x (.head _)).start (linesText t)

theorem lines_yields (l : List CmdLine) (h : ∀ x ∈ l, x.Ok U) :
    Yields (emptyLine |ₚ metaCommentLine U semMetaKey |ₚ commentLine |ₚ commands U)*ₚ false (linesText l) (l.map CmdLine.tok) [] := by
  induction l with
  | nil => exact Yields.starNil lineItem_end
  | cons x t ih =>
    have hx := h x (.head _)
    have ht := fun y hy => h y (.tail _ hy)
    refine Yields.of_eq (Yields.starCons hx.ne (lineItem_yields (hx.reads _ (by simpa using (linesText_start t ht).follow)) ?_) (ih ht))
      (by simp [linesText]) rfl
    have hstart := hx.start []
    rw [List.append_nil] at hstart
    rcases hstart with h0 | ⟨c, u, h0, -⟩ | ⟨c, u, h0, -⟩
    · exact absurd h0 hx.ne
    · exact ⟨'A', _, h0, by decide⟩
    · exact ⟨'R', _, h0, by decide⟩

theorem file_parse (l : List CmdLine) (h : ∀ x ∈ l, x.Ok U) :
    file U false (linesText l) =
      some ⟨[.node .file (linesText l) (l.map CmdLine.tok ++ [.node .eoi [] []])], linesText l, []⟩ := by
  have h1 : Yields (file U) false (linesText l) [.node .file (linesText l) (l.map CmdLine.tok ++ [.node .eoi [] []])] [] := by
    refine Yields.normal _ ?_
    have he : Yields eoiTok false [] [.node .eoi [] []] [] := rfl
    exact Yields.seq' (s' := []) (lines_yields l h) he (by simp) rfl
  unfold Yields at h1
  rw [List.append_nil] at h1
  exact h1

/-! ## Attributes to remove, classification -/

/-- ` name` for every name -/
def namesText (l : List Str) : Str := l.flatMap fun k => ' ' :: k

theorem names_yields (l : List Str) (h : ∀ k ∈ l, IsKey k) {rest : Str} (hr : EOL rest) :
    Yields (argWs ~ₚ attrKey)*ₚ false (namesText l) (l.map keyTok) rest := by
  induction l with
  | nil => exact Yields.starNil (Fails.seqLeft (argWs_fails hr.nw))
  | cons k t ih =>
    have hk := h k (.head _)
    refine Yields.of_eq (Yields.starCons (s := ' ' :: k) (ts := [keyTok k]) (by simp) ?_ (ih fun x hx => h x (.tail _ hx)))
      (by simp [namesText]) rfl
    refine Yields.seq' (s := [' ']) (ts := []) (argWs_space (by simpa using hk.nw _)) (attrKey_yields hk _ ?_) rfl rfl
    cases t with
    | nil => exact hr.notKey
    | cons k' t => exact notKey_cons (by decide) _

theorem removeAttribute_yields (l : List Str) (h : ∀ k ∈ l, IsKey k) {rest : Str} (hr : EOL rest) :
    Yields (removeOcaObject U) false (c!"ATTRIBUTE" ++ namesText l)
      [.node .removeAttribute (c!"ATTRIBUTE" ++ namesText l) (l.map keyTok)] rest := by
  refine Yields.altRight (kw_fails (T := c!"ATTRIBUTE") (rest := namesText l ++ rest) (by decide)) <|
    Yields.altRight (kw_fails (T := c!"ATTRIBUTE") (rest := namesText l ++ rest) (by decide)) <| Yields.altLeft ?_
  exact Yields.normal _ (Yields.seq' (ts := []) (Yields.ilit (by decide) _ _) (names_yields l h hr) rfl rfl)

theorem removeClassification_yields (rest : Str) :
    Yields (removeOcaObject U) false c!"CLASSIFICATION" [.node .removeClassification c!"CLASSIFICATION" []] rest := by
  refine Yields.altRight (kw_fails (T := c!"CLASSIFICATION") (rest := rest) (by decide)) <|
    Yields.altRight (kw_fails (T := c!"CLASSIFICATION") (rest := rest) (by decide)) <|
    Yields.altRight (kw_fails (T := c!"CLASSIFICATION") (rest := rest) (by decide)) <| Yields.altLeft ?_
  exact Yields.normal _ (Yields.ilit (by decide) _ _)

theorem removeAttribute_command (l : List Str) (s t : Str) (h : l.Nodup) :
    Ins.removeOf (.node .remove s [.node .removeAttribute t (l.map keyTok)]) =
      .ok ⟨.remove, .captureBase ⟨some (l.map fun k => (k, .null)), none, none⟩⟩ := by
  have e : (l.map keyTok).foldl (fun acc k => imInsert k.text .null acc) [] = l.map fun k => (k, NAttr.null) := by
    have h1 : ∀ (l : List Str) acc, (l.map keyTok).foldl (fun acc k => imInsert k.text NAttr.null acc) acc =
        imExtend acc (l.map fun k => (k, .null)) := by
      intro l
      induction l with
      | nil => intro acc; rfl
      | cons k t ih => intro acc; rw [List.map_cons, List.foldl_cons, ih]; rfl
    rw [h1, imExtend_nil_nodup _ (by simpa [List.map_map, Function.comp_def] using h)]
  simp only [Ins.removeOf, Tree.kids, Ins.removeLoop, Ins.removeStep, Tree.rule, e]

/-- one plain character, outside of atomic rules -/
theorem char_false {c : Char} (hcc : isChar U c = true) : ∃ k, ∀ x, char U false (c :: x) = some ⟨k, [c], x⟩ := by
  simp only [char, normal, alt, cls, lit, stripPrefix, scripts]
  by_cases e1 : U.letter c = true
  · exact ⟨[.node .char [c] []], fun x => by simp [e1]⟩
  by_cases e2 : U.number c = true
  · exact ⟨[.node .char [c] []], fun x => by simp [e1, e2]⟩
  by_cases e3 : '.' = c
  · subst e3; exact ⟨[.node .char ['.'] []], fun x => by simp [e1, e2]⟩
  by_cases e4 : '-' = c
  · subst e4; exact ⟨[.node .char ['-'] []], fun x => by simp [e1, e2]⟩
  by_cases e5 : '_' = c
  · subst e5; exact ⟨[.node .char ['_'] []], fun x => by simp [e1, e2]⟩
  by_cases e6 : '/' = c
  · subst e6; exact ⟨[.node .char ['/'] []], fun x => by simp [e1, e2]⟩
  by_cases e7 : ':' = c
  · subst e7; exact ⟨[.node .char [':'] []], fun x => by simp [e1, e2]⟩
  have e8 : U.script c = true := by
    simp only [isChar] at hcc
    grind
  exact ⟨[.node .char [c] [.node .scripts [c] []]], fun x => by simp [e1, e2, e3, e4, e5, e6, e7, e8]⟩

theorem char_false_fails {c : Char} (hcc : isChar U c = false) (x : Str) : char U false (c :: x) = none := by
  have : char U true (c :: x) = none := by rw [char_true]; simp [cls, hcc]
  simp only [char, normal, alt, cls, lit, stripPrefix, scripts] at this ⊢
  simp only [isChar] at hcc
  grind

/-- a run of plain characters is a classification -/
theorem charStar_false {s : Str} (h : ∀ c ∈ s, isChar U c = true) : ∃ ts, ∀ rest, NoChar U rest → Yields (char U)*ₚ false s ts rest := by
  induction s with
  | nil =>
    refine ⟨[], fun rest hr => Yields.starNil ?_⟩
    cases rest with
    | nil => rfl
    | cons c t => exact char_false_fails (hr c t rfl) t
  | cons c s ih =>
    obtain ⟨ts, hts⟩ := ih fun d hd => h d (.tail _ hd)
    obtain ⟨k, hk⟩ := char_false (h c (.head _))
    exact ⟨k ++ ts, fun rest hr => Yields.starCons (s := [c]) (by simp) (hk _) (hts rest hr)⟩

theorem charPlus_false {s : Str} (h : IsWord U s) : ∃ ts, ∀ rest, NoChar U rest → Yields (char U)+ₚ false s ts rest := by
  obtain ⟨hn, hs⟩ := h
  cases s with
  | nil => exact absurd rfl hn
  | cons c s =>
    obtain ⟨ts, hts⟩ := charStar_false fun d hd => hs d (.tail _ hd)
    obtain ⟨k, hk⟩ := char_false (hs c (.head _))
    exact ⟨k ++ ts, fun rest hr => Yields.seq' (s := [c]) (s' := s) (hk _) (hts rest hr) rfl rfl⟩

/-- what can stand after CLASSIFICATION: a word or a quoted text -/
def IsClass (U : Uni) (v : Str) : Prop := IsWord U v ∨ ∃ q, v = Pr.quoted q ∧ Quotable q = true

theorem IsClass.nw {v : Str} (h : IsClass U v) (r : Str) : NW (v ++ r) := by
  rcases h with h | ⟨q, rfl, -⟩
  · obtain ⟨hn, hs⟩ := h
    cases v with
    | nil => exact absurd rfl hn
    | cons c v =>
      have hc := hs c (.head _)
      refine NW.cons ?_ ?_ ?_ _ <;> rintro rfl
      · rw [isChar_space] at hc; cases hc
      · rw [isChar_ascii U (by decide) (by decide)] at hc; cases hc
      · rw [isChar_ascii U (by decide) (by decide)] at hc; cases hc
  · exact quoted_nw q r

theorem classValue_yields {v : Str} (h : IsClass U v) :
    ∃ ks, ∀ rest, NoChar U rest → Yields (classificationValue U) false v [.node .classificationValue v ks] rest := by
  rcases h with h | ⟨q, rfl, hq⟩
  · obtain ⟨ts, hts⟩ := charPlus_false h
    refine ⟨ts, fun rest hr => Yields.normal _ (Yields.altRight ?_ (hts rest hr))⟩
    obtain ⟨hn, hs⟩ := h
    cases v with
    | nil => exact absurd rfl hn
    | cons c v =>
      have hc := hs c (.head _)
      refine string_fails ?_ ?_ _ <;> rintro rfl
      · rw [isChar_quote] at hc; cases hc
      · rw [isChar_ascii U (by decide) (by decide)] at hc; cases hc
  · exact ⟨_, fun rest _ => Yields.normal _ (value_yields hq _ _)⟩

end Gr
end OCA
