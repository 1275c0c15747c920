import Verif.Lemmas.LayoutLines
/-!
# C75: the layout of a file has no meaning
-/
namespace OCA
open Peg Gr

/-! ## Meta lines -/

/-- `key = value` of a meta line -/
def metaFree (k : Str) (g1 g2 : Gap) (v : ClassLaid) : Str := k ++ (g1.text ++ ('=' :: (g2.text ++ v.text)))

theorem metaFree_yields {U : Uni} {k : Str} (hk : k ∈ semKeys) (w1 : Blanks) (g1 g2 : Gap) {v : ClassLaid} (hv : v.Ok U) {r : Str}
    (hr : ∃ (w : Blanks) (r' : Str), r = w.text ++ r' ∧ LineEnd r') :
    ∃ ts, Yields (metaComment U semMetaKey) false (c!"--" ++ (w1.text ++ metaFree k g1 g2 v))
      [.node .metaComment (c!"--" ++ (w1.text ++ metaFree k g1 g2 v)) [.node .metaAttrKey k [], .node .metaAttrValue v.text ts]] r := by
  obtain ⟨w, r', hr, hl⟩ := hr
  have hst : Stop r := by rw [hr]; exact blanks_stop w hl.stop
  obtain ⟨ts, hts⟩ := classLaid_value hv hst
  refine ⟨ts, ?_⟩
  have hpair : Yields (metaKeyPair U semMetaKey) true (metaFree k g1 g2 v) [.node .metaAttrKey k [], .node .metaAttrValue v.text ts] r := by
    refine Yields.atomicIn _ ?_
    refine Yields.seq' (s := k) (ts := [.node .metaAttrKey k []]) (semKey_yields hk _ _) ?_ rfl rfl
    refine Yields.seq' (ts := []) (gapOpt_yields g1 ⟨'=', _, rfl, by decide⟩) ?_ rfl rfl
    refine Yields.seq' (s := ['=']) (ts := []) (.lit _ _ _) ?_ rfl rfl
    exact Yields.seq' (ts := []) (gapOpt_yields g2 (ClassLaid.solid hv _)) (Yields.compound _ _ hts) rfl rfl
  have hstart : ∀ y, ∃ c t, metaFree k g1 g2 v ++ y = c :: t ∧ c ≠ ' ' ∧ c ≠ '\t' ∧ c ≠ '\n' ∧ c ≠ '\r' ∧ c ≠ '=' ∧ c ≠ '\\' := by
    intro y
    obtain ⟨c, t, hc, h⟩ := semKey_start hk ((g1.text ++ ('=' :: (g2.text ++ v.text))) ++ y)
    exact ⟨c, t, by rw [← hc]; simp [metaFree], h⟩
  have hpair' : Yields (!ₚnewline ~ₚ metaKeyPair U semMetaKey) true (metaFree k g1 g2 v) [.node .metaAttrKey k [], .node .metaAttrValue v.text ts] r := by
    refine Yields.seq' (s := []) (ts := []) (Yields.neg (newline_fails ?_)) hpair rfl rfl
    intro d u e
    obtain ⟨c, t, hc, -, -, h3, h4, -⟩ := hstart r
    rw [hc] at e
    cases e; exact ⟨h3, h4⟩
  have hstop : Fails (!ₚnewline ~ₚ metaKeyPair U semMetaKey) true r := by
    have hkey : ∀ {c : Char} {t : Str}, c = ' ' ∨ c = '\t' ∨ c = '#' → Fails (!ₚnewline ~ₚ metaKeyPair U semMetaKey) true (c :: t) := by
      intro c t hc
      refine Fails.seqRight (s := []) (ts := []) (Yields.neg (newline_fails ?_)) (Fails.atomic _ (Fails.seqLeft (Fails.compound _ ?_)))
      · rintro d u e
        cases e
        rcases hc with rfl | rfl | rfl <;> decide
      · rcases hc with rfl | rfl | rfl <;>
          exact .alt (Fails.lit (by decide) _ _ _) (.alt (Fails.lit (by decide) _ _ _) (Fails.lit (by decide) _ _ _))
    subst hr
    cases w with
    | cons b w => cases b <;> exact hkey (by simp)
    | nil =>
      cases r' with
      | nil =>
        refine Fails.seqRight (s := []) (ts := []) (Yields.neg rfl) (Fails.atomic _ (Fails.seqLeft rfl))
      | cons c t =>
        rcases hl c t rfl with rfl | rfl | rfl
        · exact Fails.seqLeft rfl
        · refine Fails.seqLeft ?_
          unfold Fails Peg.neg
          cases t with
          | nil => rfl
          | cons d t =>
            by_cases hd : d = '\n'
            · subst hd; rfl
            · simp [newline, alt, lit, stripPrefix, Ne.symm hd, Blanks.text]
        · exact hkey (by simp)
  refine Yields.atomic _ (Yields.seq' (s := c!"--") (ts := []) (.lit _ _ _) ?_ rfl rfl)
  refine Yields.seq' (ts := []) (blanks_yields w1 ?_) ?_ rfl rfl
  · intro d u e
    obtain ⟨c, t, hc, h1, h2, -⟩ := hstart r
    rw [hc] at e
    cases e; exact ⟨h1, h2⟩
  · have hne : metaFree k g1 g2 v ≠ [] := by
      obtain ⟨c, t, hc, -⟩ := hstart []
      rw [List.append_nil] at hc
      rw [hc]; simp
    have := Yields.starCons (s' := []) hne hpair' (Yields.starNil hstop)
    simpa using this

/-- what stands before a meta line -/
theorem metaItem_free {U : Uni} (w : Blanks) {s : Str} {tok : Tok} {r : Str} (hs : ∃ t, s = '-' :: t)
    (h : Yields (metaComment U semMetaKey ~ₚ newline ?ₚ) false s [tok] r) : Yields (itemP U) false (w.text ++ s) [tok] r := by
  obtain ⟨t, rfl⟩ := hs
  have hw : ∀ c u, ('-' :: t) ++ r = c :: u → c ≠ ' ' ∧ c ≠ '\t' := by rintro c u e; cases e; decide
  refine Yields.altRight ?_ (Yields.altLeft ?_)
  · rw [List.append_assoc]
    exact Fails.atomic _ (Fails.seqRight (blanks_yields w hw) (newline_fails (by rintro d u e; cases e; decide)))
  · exact Yields.seq' (ts := []) (blanks_yields w hw) h rfl rfl

/-! ## The tokens of a file -/

/-- what a line means: a command, or a meta pair -/
abbrev Item := Command ⊕ (Str × Str)

def FreeLine.item? (l : FreeLine) : Option Item := match l with
  | .command c _ _ _ => some (.inl c.meaning)
  | .metaLine _ _ k _ _ v _ _ _ => some (.inr (k, v.text))
  | _ => none

def itemCommands (l : List Item) : List Command := l.filterMap Sum.getLeft?
def itemMeta (m : FMap Str) (l : List Item) : FMap Str := (l.filterMap Sum.getRight?).foldl (fun m p => m.insert p.1 p.2) m

/-- tokens with these meanings -/
inductive Means (E : Env) (U : Uni) : List Item → List Tok → Prop
  | nil : Means E U [] []
  | fill {t : Tok} {l : List Item} {T : List Tok} (h1 : t.rule = .comment ∨ t.rule = .emptyLine) (h : Means E U l T) : Means E U l (t :: T)
  | cmd {t : Tok} {c : Command} {l : List Item} {T : List Tok} (h1 : t.rule = .add ∨ t.rule = .remove ∨ t.rule = .from_)
      (h2 : Ins.commandOf E U t = .ok c) (h : Means E U l T) : Means E U (.inl c :: l) (t :: T)
  | pair {t : Tok} {k v : Str} {l : List Item} {T : List Tok} (h1 : t.rule = .metaComment)
      (h2 : Ins.metaLoop t.kids ([], []) = .ok (k, v)) (hk : k ≠ []) (hv : v ≠ []) (h : Means E U l T) : Means E U (.inr (k, v) :: l) (t :: T)

theorem Means.fills {E : Env} {U : Uni} {l : List Item} {T : List Tok} (h : Means E U l T) {fs : List Tok}
    (hf : ∀ t ∈ fs, t.rule = .comment ∨ t.rule = .emptyLine) : Means E U l (fs ++ T) := by
  induction fs with
  | nil => exact h
  | cons t fs ih => exact .fill (hf t (.head _)) (ih fun x hx => hf x (.tail _ hx))

theorem means_ok {E : Env} {U : Uni} {l : List Item} {T : List Tok} (h : Means E U l T) : ∀ (ast : OCAAst) (n : Nat), ast.version = c!"1.0.0" →
    (∀ pre c post, itemCommands l = pre ++ c :: post → ¬ BreaksRules (ast.commands ++ pre) c) →
    ∃ out n', (∀ T', Ins.tokLoop E U ast n (T ++ T') = Ins.tokLoop E U out n' T') ∧ out.version = c!"1.0.0" ∧
      out.commands = ast.commands ++ itemCommands l ∧ out.metaMap = itemMeta ast.metaMap l := by
  induction h with
  | nil => intro ast n hv _; exact ⟨ast, n, fun _ => rfl, hv, by simp [itemCommands], rfl⟩
  | fill h1 h ih =>
    intro ast n hv hb
    obtain ⟨out, n', h5, h6, h7, h8⟩ := ih ast (n + 1) hv hb
    exact ⟨out, n', fun T' => by rw [List.cons_append, tokLoop_skip h1, h5], h6, h7, h8⟩
  | @cmd t c l T h1 h2 h ih =>
    intro ast n hv hb
    have hval : astValidate ast c = .ok () :=
      (C10_validate_exact ast c).1.2 ⟨hv, by simpa using hb [] c _ rfl⟩
    obtain ⟨out, n', h5, h6, h7, h8⟩ := ih { ast with
        commands := ast.commands ++ [c],
        commandsMeta := ast.commandsMeta ++ [(ast.commands.length, ⟨n + 1, t.text⟩)] } (n + 1) hv (fun pre d post e => by
      have := hb (c :: pre) d post (by show c :: itemCommands l = _; rw [e]; rfl)
      simpa using this)
    refine ⟨out, n', fun T' => ?_, h6, by rw [h7]; simp [itemCommands], h8⟩
    rw [List.cons_append, Ins.tokLoop, lineOf_cmd h1 h2]
    dsimp only [parseLine]
    rw [hval]
    exact h5 T'
  | pair h1 h2 hk hv' h ih =>
    rename_i k v _ _
    intro ast n hv hb
    obtain ⟨out, n', h5, h6, h7, h8⟩ := ih { ast with metaMap := ast.metaMap.insert k v } (n + 1) hv hb
    exact ⟨out, n', fun T' => by rw [List.cons_append, tokLoop_meta h1 h2 hk hv', h5], h6, h7, h8⟩

theorem means_err {E : Env} {U : Uni} {l : List Item} {T : List Tok} (h : Means E U l T) : ∀ (ast : OCAAst) (n : Nat), ast.version = c!"1.0.0" →
    (∃ pre c post, itemCommands l = pre ++ c :: post ∧ BreaksRules (ast.commands ++ pre) c) →
    ∃ es, ∀ T', Ins.tokLoop E U ast n (T ++ T') = .err (.validation es) := by
  induction h with
  | nil => rintro ast n _ ⟨pre, c, post, e, -⟩; cases pre <;> cases e
  | fill h1 h ih =>
    intro ast n hv hb
    obtain ⟨es, h5⟩ := ih ast (n + 1) hv hb
    exact ⟨es, fun T' => by rw [List.cons_append, tokLoop_skip h1, h5]⟩
  | @cmd t c l T h1 h2 h ih =>
    rintro ast n hv ⟨pre, d, post, e, hb⟩
    have e : c :: itemCommands l = pre ++ d :: post := e
    cases hval : astValidate ast c with
    | panic => exact absurd hval (C10_validate_exact ast c).2
    | err es =>
      refine ⟨es, fun T' => ?_⟩
      rw [List.cons_append, Ins.tokLoop, lineOf_cmd h1 h2]
      dsimp only [parseLine]
      rw [hval]
    | ok u =>
      have hn := ((C10_validate_exact ast c).1.1 hval).2
      cases pre with
      | nil =>
        obtain ⟨rfl, -⟩ := List.cons.inj e
        exact absurd (by simpa using hb) hn
      | cons c' pre =>
        obtain ⟨rfl, e'⟩ := List.cons.inj e
        obtain ⟨es, h5⟩ := ih { ast with
            commands := ast.commands ++ [c],
            commandsMeta := ast.commandsMeta ++ [(ast.commands.length, ⟨n + 1, t.text⟩)] } (n + 1) hv ⟨pre, d, post, e', by simpa using hb⟩
        refine ⟨es, fun T' => ?_⟩
        rw [List.cons_append, Ins.tokLoop, lineOf_cmd h1 h2]
        dsimp only [parseLine]
        rw [hval]
        exact h5 T'
  | pair h1 h2 hk hv' h ih =>
    rename_i k v _ _
    intro ast n hv hb
    obtain ⟨es, h5⟩ := ih { ast with metaMap := ast.metaMap.insert k v } (n + 1) hv hb
    exact ⟨es, fun T' => by rw [List.cons_append, tokLoop_meta h1 h2 hk hv', h5]⟩

theorem unit_stop {c : Laid} {w : Blanks} {t : Option Str} (h1 : c.endsBare = true → w = [] → t = none) (h2 : c.endsBare = true → ∀ u, w ≠ true :: u)
    (hb : c.endsBare = true) (e : Eol) (r : Str) : UStop (w.text ++ (commentText t ++ e.text ++ r)) := by
  cases w with
  | nil =>
    rw [h1 hb rfl]
    cases e <;> rintro c u ⟨⟩ <;> simp
  | cons b w =>
    cases b with
    | true => exact absurd rfl (h2 hb w)
    | false => rintro c u ⟨⟩; simp

/-- the commands among tokens, with their numbers -/
def tokNumbers : Nat → List Tok → List (Nat × Str)
  | _, [] => []
  | n, t :: T => (if t.rule = .comment ∨ t.rule = .emptyLine ∨ t.rule = .metaComment ∨ t.rule = .eoi then [] else [(n + 1, t.text)]) ++ tokNumbers (n + 1) T

theorem tokNumbers_append (T T' : List Tok) : ∀ n, tokNumbers n (T ++ T') = tokNumbers n T ++ tokNumbers (n + T.length) T' := by
  induction T with
  | nil => intro n; rfl
  | cons t T ih =>
    intro n
    rw [List.cons_append, tokNumbers, ih, tokNumbers, List.append_assoc, List.length_cons]
    have : n + 1 + T.length = n + (T.length + 1) := by omega
    rw [this]

theorem tokNumbers_fill {T : List Tok} (h : ∀ t ∈ T, t.rule = .comment ∨ t.rule = .emptyLine) : ∀ n, tokNumbers n T = [] := by
  induction T with
  | nil => intro n; rfl
  | cons t T ih =>
    intro n
    rw [tokNumbers, ih fun x hx => h x (.tail _ hx)]
    rcases h t (.head _) with e | e <;> simp [e]

/-- the token of a command is its text -/
theorem cmdP_text {U : Uni} {s rest : Str} {tok : Tok} (h : Yields (Gr.cmdP U) false s [tok] rest) : tok.text = s := by
  have key : ∀ (k : Rule) (p : P), Yields (Peg.normal k p) false s [tok] rest → tok.text = s := by
    intro k p h
    obtain ⟨o, h1, h2⟩ := normal_some h
    simp at h2
    obtain ⟨⟨rfl⟩, h3, -⟩ := h2
    exact h3.symm
  unfold Yields Gr.cmdP at h
  rcases alt_some h with h | ⟨-, h⟩
  · exact key _ _ h
  rcases alt_some h with h | ⟨-, h⟩
  · exact key _ _ h
  rcases alt_some h with h | ⟨-, h⟩
  · exact key _ _ h
  · exact key _ _ h

theorem freeLine_tokens {E : Env} {U : Uni} {l : FreeLine} (h : l.Ok E U) {z : Str} {T : List Tok} {rest : Str} {its : List Item} (hT : Means E U its T)
    (hz : Yields (itemP U)*ₚ false z T rest) :
    ∃ T', Means E U (l.item?.toList ++ its) T' ∧ Yields (itemP U)*ₚ false (l.text ++ z) T' rest ∧
      ∀ n, tokNumbers n T' = l.kept?.toList.map (fun x => (n + 1, x)) ++ tokNumbers (n + l.numbers) T := by
  cases l with
  | command c w t e =>
    obtain ⟨h1, h2, h3, h4⟩ := h
    obtain ⟨tok, hc, hrule, hy⟩ := laid_yields h1 w (tail_lineEnd (t := t) e (z ++ rest)) (fun hb => unit_stop h3 h4 hb e _)
    have htext : tok.text = if c.takesBlanks = true then c.text ++ w.text else c.text := by
      cases hc : c.takesBlanks with
      | true => exact cmdP_text (hy.1 hc)
      | false => exact cmdP_text (hy.2 hc)
    have hy : if c.takesBlanks = true then Yields (cmdP U) false (c.text ++ w.text) [tok] (commentText t ++ e.text ++ (z ++ rest)) else
        Yields (cmdP U) false c.text [tok] (w.text ++ (commentText t ++ e.text ++ (z ++ rest))) := by
      cases hc : c.takesBlanks with
      | true => exact hy.1 hc
      | false => exact hy.2 hc
    obtain ⟨x, s2, fill, e1, hy1, hf, hlen, hgo⟩ := lineTail (U := U) w h2 e (z ++ rest) c.takesBlanks hy
    refine ⟨tok :: (fill ++ T), .cmd hrule hc (hT.fills hf), ?_, fun n => ?_⟩
    rotate_left
    · rw [tokNumbers, tokNumbers_append, tokNumbers_fill hf, hlen, htext]
      have : n + 1 + behind c.takesBlanks w t = n + (1 + behind c.takesBlanks w t) := by omega
      rw [this]
      rcases hrule with h | h | h <;> simp [h, FreeLine.kept?, FreeLine.numbers]
    have hs1 := laid_start h1 x
    have := Yields.starCons (by obtain ⟨c, t, e, -⟩ := hs1; rw [e]; simp)
      (lineItem_yields (U := U) (rest := (s2 ++ z) ++ rest) (Yields.cast (by simp) hy1) hs1) (hgo z T rest rfl hz)
    refine Yields.of_eq this ?_ rfl
    rw [← List.append_assoc, List.append_assoc c.text, ← e1]
    simp [FreeLine.text]
  | comment w t e =>
    refine ⟨_, .fill (t := .node .comment ('#' :: t) []) (.inl rfl) hT, ?_, fun n => by simp [tokNumbers, Tree.rule, FreeLine.kept?, FreeLine.numbers]⟩
    exact Yields.of_eq (Yields.starCons (by simp) (commentItem_yields w h e _) hz) (by simp [FreeLine.text]) rfl
  | blank w e =>
    refine ⟨_, .fill (t := .node .emptyLine (w.text ++ e.text) []) (.inr rfl) hT, ?_, fun n => by simp [tokNumbers, Tree.rule, FreeLine.kept?, FreeLine.numbers]⟩
    exact Yields.of_eq (Yields.starCons (by simp [eol_ne]) (blankItem_yields w e _) hz) (by simp [FreeLine.text]) rfl
  | metaLine w w1 k g1 g2 v w2 t e =>
    obtain ⟨h1, h2, h3⟩ := h
    have hk : k ∈ semKeys := by simpa [semKeys] using h1
    have hkne : k ≠ [] := by rcases h1 with rfl | rfl | rfl <;> simp
    have hvne : v.text ≠ [] := by
      obtain ⟨c, u, e, -⟩ := ClassLaid.solid h2 []
      rw [List.append_nil] at e
      rw [e]; simp
    obtain ⟨ts, hy⟩ := metaFree_yields hk w1 g1 g2 h2 (r := w2.text ++ (commentText t ++ e.text ++ (z ++ rest))) ⟨w2, _, rfl, tail_lineEnd e _⟩
    obtain ⟨x, s2, fill, e1, hy1, hf, hlen, hgo⟩ := lineTail (U := U) w2 h3 e (z ++ rest) false (by simpa using hy)
    refine ⟨_, .pair (t := .node .metaComment (c!"--" ++ (w1.text ++ metaFree k g1 g2 v)) [.node .metaAttrKey k [], .node .metaAttrValue v.text ts])
      rfl rfl hkne hvne (hT.fills hf), ?_, fun n => ?_⟩
    rotate_left
    · rw [tokNumbers, tokNumbers_append, tokNumbers_fill hf, hlen]
      have : n + 1 + behind false w2 t = n + (1 + behind false w2 t) := by omega
      rw [this]
      simp [Tree.rule, FreeLine.kept?, FreeLine.numbers]
    have := Yields.starCons (by simp) (metaItem_free w (r := (s2 ++ z) ++ rest) ⟨_, rfl⟩ (Yields.cast (by simp) hy1)) (hgo z T rest rfl hz)
    refine Yields.of_eq this ?_ rfl
    have : w.text ++ (c!"--" ++ (w1.text ++ metaFree k g1 g2 v) ++ x) ++ (s2 ++ z) =
        w.text ++ (c!"--" ++ (w1.text ++ metaFree k g1 g2 v) ++ ((x ++ s2) ++ z)) := by simp
    refine Eq.trans this ?_
    rw [← e1]
    simp [FreeLine.text, metaFree]

/-- the commands among lines, with the numbers they get -/
def lineNumbers : Nat → List FreeLine → List (Nat × Str)
  | _, [] => []
  | n, l :: ls => l.kept?.toList.map (fun x => (n + 1, x)) ++ lineNumbers (n + l.numbers) ls

/-- the tokens of the lines before some tokens -/
theorem freeLines_tokens {E : Env} {U : Uni} (ls : List FreeLine) (h : ∀ l ∈ ls, l.Ok E U) {z : Str} {T : List Tok} {rest : Str} {its : List Item}
    (hT : Means E U its T) (hz : Yields (itemP U)*ₚ false z T rest) :
    ∃ T', Means E U (ls.filterMap FreeLine.item? ++ its) T' ∧ Yields (itemP U)*ₚ false (freeText ls ++ z) T' rest ∧
      ∀ n, tokNumbers n T' = lineNumbers n ls ++ tokNumbers (n + (ls.map FreeLine.numbers).sum) T := by
  induction ls with
  | nil => exact ⟨T, hT, hz, fun n => rfl⟩
  | cons l ls ih =>
    obtain ⟨T, hT, hy, hn⟩ := ih fun x hx => h x (.tail _ hx)
    obtain ⟨T', hT', hy', hn'⟩ := freeLine_tokens (h l (.head _)) hT hy
    refine ⟨T', ?_, Yields.of_eq hy' (by simp [freeText]) rfl, fun n => ?_⟩
    rotate_left
    · rw [hn', hn, lineNumbers, List.map_cons, List.sum_cons, List.append_assoc, Nat.add_assoc]
    cases hi : l.item? with
    | none => simpa [hi] using hT'
    | some i => simpa [hi] using hT'

/-- the tokens of a text of items -/
theorem items_parse {E : Env} {U : Uni} {s : Str} {T : List Tok} (hy : Yields (itemP U)*ₚ false s T []) :
    parseText E U s = Ins.tokLoop E U OCAAst.new 0 (T ++ [.node .eoi [] []]) := by
  have h1 : Yields (file U) false s [.node .file s (T ++ [.node .eoi [] []])] [] := by
    refine Yields.normal _ ?_
    have he : Yields eoiTok false [] [.node .eoi [] []] [] := rfl
    exact Yields.seq' (s' := []) hy he (by simp) rfl
  unfold Yields at h1
  rw [List.append_nil] at h1
  unfold parseText
  rw [h1]
  rfl

/-- the items do not reach the end of the text -/
theorem items_stuck {E : Env} {U : Uni} {s : Str} {T : List Tok} {c : Char} {rest : Str} (hy : Yields (itemP U)*ₚ false s T (c :: rest)) :
    parseText E U (s ++ c :: rest) = .err .grammar := by
  have h1 : Fails (file U) false (s ++ c :: rest) := Fails.normal _ (Fails.seqRight hy (Fails.normal _ rfl))
  unfold parseText
  rw [h1]

theorem freeFile_parse {E : Env} {U : Uni} (ls : List FreeLine) (h : ∀ l ∈ ls, l.Ok E U) :
    ∃ T, Means E U (ls.filterMap FreeLine.item?) T ∧ parseText E U (freeText ls) = Ins.tokLoop E U OCAAst.new 0 (T ++ [.node .eoi [] []]) ∧
      ∀ n, tokNumbers n T = lineNumbers n ls := by
  obtain ⟨T, hT, hy, hn⟩ := freeLines_tokens ls h .nil (Yields.starNil (p := itemP U) lineItem_end)
  rw [List.append_nil] at hT hy
  exact ⟨T, hT, items_parse hy, fun n => by rw [hn]; simp [tokNumbers]⟩

theorem items_commands (ls : List FreeLine) : itemCommands (ls.filterMap FreeLine.item?) = freeCommands ls := by
  unfold itemCommands freeCommands
  rw [List.filterMap_filterMap]
  congr 1
  funext l
  cases l <;> rfl

theorem items_meta (m : FMap Str) (ls : List FreeLine) (key : Str) :
    (itemMeta m (ls.filterMap FreeLine.item?)).get key = (freeMeta ls key).or (m.get key) := by
  have e : (ls.filterMap FreeLine.item?).filterMap Sum.getRight? = ls.filterMap FreeLine.meta? := by
    rw [List.filterMap_filterMap]
    congr 1
    funext l
    cases l <;> rfl
  unfold itemMeta freeMeta
  rw [e]
  generalize ls.filterMap FreeLine.meta? = l
  induction l generalizing m with
  | nil => rfl
  | cons p l ih =>
    rw [List.foldl_cons, ih, FMap.get_insert]
    simp only [List.reverse_cons, List.find?_append]
    cases (l.reverse.find? fun p => decide (p.1 = key)) with
    | some q => rfl
    | none =>
      by_cases h : key = p.1
      · subst h; simp
      · have h' : ¬ p.1 = key := fun e => h e.symm
        simp [h, h']

/-! ## Theorems -/

/-- **C75** However a file is laid out, when its commands follow the rules it is read to the commands it means, in their order, and to the last
value of each meta key. -/
theorem C75_free_layout (E : Env) (U : Uni) (ls : List FreeLine) (h : ∀ l ∈ ls, l.Ok E U)
    (hb : ∀ pre c post, freeCommands ls = pre ++ c :: post → ¬ BreaksRules pre c) :
    ∃ out, parseText E U (freeText ls) = .ok out ∧ out.commands = freeCommands ls ∧ (∀ key, out.metaMap.get key = freeMeta ls key) ∧
      out.version = c!"1.0.0" := by
  obtain ⟨T, hT, hp, -⟩ := freeFile_parse ls h
  obtain ⟨out, n', h1, h2, h3, h4⟩ := means_ok hT OCAAst.new 0 rfl (by rw [items_commands]; exact hb)
  refine ⟨out, ?_, by rw [h3, items_commands]; rfl, fun key => ?_, h2⟩
  · rw [hp, h1]; rfl
  · rw [h4, items_meta]
    cases freeMeta ls key <;> rfl

/-- **C75** However a file is laid out, when a command breaks the rules it is refused by the validation. -/
theorem C75_free_refused (E : Env) (U : Uni) (ls : List FreeLine) (h : ∀ l ∈ ls, l.Ok E U) (pre post : List Command) (c : Command)
    (hc : freeCommands ls = pre ++ c :: post) (hb : BreaksRules pre c) :
    ∃ es, parseText E U (freeText ls) = .err (.validation es) := by
  obtain ⟨T, hT, hp, -⟩ := freeFile_parse ls h
  obtain ⟨es, h1⟩ := means_err hT OCAAst.new 0 rfl ⟨pre, c, post, by rw [items_commands]; exact hc, hb⟩
  exact ⟨es, by rw [hp, h1]⟩

/-- **C75** Two layouts of the same commands and meta data are both read, to the same, or both refused by the validation. -/
theorem C75_same_meaning (E : Env) (U : Uni) (ls ls' : List FreeLine) (h : ∀ l ∈ ls, l.Ok E U) (h' : ∀ l ∈ ls', l.Ok E U)
    (hc : freeCommands ls = freeCommands ls') (hm : ∀ key, freeMeta ls key = freeMeta ls' key) :
    (∃ out out', parseText E U (freeText ls) = .ok out ∧ parseText E U (freeText ls') = .ok out' ∧ out.commands = out'.commands ∧
      out.metaMap = out'.metaMap ∧ out.version = out'.version) ∨
    (∃ es es', parseText E U (freeText ls) = .err (.validation es) ∧ parseText E U (freeText ls') = .err (.validation es')) := by
  by_cases hb : ∀ pre c post, freeCommands ls = pre ++ c :: post → ¬ BreaksRules pre c
  · obtain ⟨o, h1, h2, h3, h4⟩ := C75_free_layout E U ls h hb
    obtain ⟨o', h1', h2', h3', h4'⟩ := C75_free_layout E U ls' h' (by rw [← hc]; exact hb)
    refine .inl ⟨o, o', h1, h1', by rw [h2, h2', hc], FMap.ext fun key => by rw [h3, h3', hm], by rw [h4, h4']⟩
  · simp only [Classical.not_forall, Classical.not_not] at hb
    obtain ⟨pre, c, post, e, hb⟩ := hb
    obtain ⟨es, h1⟩ := C75_free_refused E U ls h pre post c e hb
    obtain ⟨es', h2⟩ := C75_free_refused E U ls' h' pre post c (by rw [← hc]; exact e) hb
    exact .inr ⟨es, es', h1, h2⟩

/-! ## Where the layout is not free -/

/-- nothing of the grammar starts with blanks and such a character -/
theorem indented_fails {U : Uni} {w : Blanks} (hw : w ≠ []) {i : Str} (hi : ∀ c t, i = c :: t → c ≠ ' ' ∧ c ≠ '\t' ∧ c ≠ '\n' ∧ c ≠ '\r' ∧ c ≠ '#' ∧ c ≠ '-') :
    Fails (itemP U) false (w.text ++ i) := by
  have hb : ∀ c t, i = c :: t → c ≠ ' ' ∧ c ≠ '\t' := fun c t e => ⟨(hi c t e).1, (hi c t e).2.1⟩
  have hlit : ∀ {x : Char} {y : Str}, (x = '#' ∨ x = '-') → ∀ a, Fails (lit (x :: y) : P) a i := by
    intro x y hx a
    cases i with
    | nil => rfl
    | cons c t =>
      refine Fails.lit ?_ _ _ _
      obtain ⟨-, -, -, -, h1, h2⟩ := hi c t rfl
      rcases hx with rfl | rfl
      · exact Ne.symm h1
      · exact Ne.symm h2
  obtain ⟨b, w', rfl⟩ := List.exists_cons_of_ne_nil hw
  refine Fails.alt ?_ (Fails.alt ?_ (Fails.alt ?_ ?_))
  · exact Fails.atomic _ (Fails.seqRight (blanks_yields _ hb) (newline_fails fun c t e => ⟨(hi c t e).2.2.1, (hi c t e).2.2.2.1⟩))
  · exact Fails.seqRight (blanks_yields _ hb) (Fails.seqLeft (Fails.atomic _ (Fails.seqLeft (hlit (.inr rfl) _))))
  · exact Fails.seqRight (blanks_yields _ hb) (Fails.seqLeft (Fails.atomic _ (Fails.seqLeft (hlit (.inl rfl) _))))
  · have : ∀ {k : Rule} {kw : Str} {q : P}, differ kw (Blanks.text [b]) = true → Fails (normal k (ilit kw ~ₚ q)) false (Blanks.text (b :: w') ++ i) := by
      intro k kw q hd
      exact kw_fails (T := Blanks.text [b]) (rest := Blanks.text w' ++ i) hd
    refine Fails.seqLeft (Fails.alt (this ?_) (Fails.alt (this ?_) (Fails.alt (this ?_) (this ?_)))) <;> cases b <;> decide

/-- **C75** A command may not be indented: after any lines, blanks before anything but a comment, a meta line or the end of the line make the
grammar refuse the file. -/
theorem C75_indented (E : Env) (U : Uni) (ls : List FreeLine) (h : ∀ l ∈ ls, l.Ok E U) (w : Blanks) (hw : w ≠ []) (c : Char) (t : Str)
    (hc : c ≠ ' ' ∧ c ≠ '\t' ∧ c ≠ '\n' ∧ c ≠ '\r' ∧ c ≠ '#' ∧ c ≠ '-') : parseText E U (freeText ls ++ w.text ++ c :: t) = .err .grammar := by
  have hs : Yields (itemP U)*ₚ false [] [] (w.text ++ c :: t) := Yields.starNil (indented_fails hw (by rintro d u e; cases e; exact hc))
  obtain ⟨T, -, hy, -⟩ := freeLines_tokens ls h .nil hs
  obtain ⟨d, u, e⟩ : ∃ d u, w.text ++ c :: t = d :: u := by cases w <;> exact ⟨_, _, rfl⟩
  rw [e] at hy
  have := items_stuck (E := E) hy
  rw [← e] at this
  simpa using this

/-- the last line without line break -/
theorem lastLine_parse {E : Env} {U : Uni} (ls : List FreeLine) (h : ∀ l ∈ ls, l.Ok E U) {c : Laid} (hc : c.Ok E U) (e : Eol) :
    ∃ T, Means E U ((ls ++ [FreeLine.command c [] none e]).filterMap FreeLine.item?) T ∧
      parseText E U (freeText ls ++ c.text) = Ins.tokLoop E U OCAAst.new 0 (T ++ [.node .eoi [] []]) := by
  obtain ⟨tok, h1, h2, h3, h4⟩ := laid_yields hc [] (r := []) (by rintro c t ⟨⟩) (by rintro - c t ⟨⟩)
  have hy : Yields (cmdP U) false c.text [tok] [] := by
    cases hb : c.takesBlanks with
    | true => simpa [Blanks.text] using h3 hb
    | false => simpa [Blanks.text] using h4 hb
  have hstart := laid_start hc []
  rw [List.append_nil] at hstart
  have hcmd : Yields (commands U) false c.text [tok] [] :=
    Yields.seq' (s' := []) (ts' := []) hy (Yields.optNone (newline_fails (by rintro d u ⟨⟩))) (by simp) rfl
  have hone := Yields.starCons (s' := []) (by obtain ⟨d, u, e, -⟩ := hstart; rw [e]; simp) (lineItem_yields (U := U) (rest := [] ++ []) hcmd hstart)
    (Yields.starNil (p := itemP U) lineItem_end)
  rw [List.append_nil] at hone
  obtain ⟨T, hT, hy, -⟩ := freeLines_tokens (U := U) ls h (.cmd h2 h1 .nil) hone
  refine ⟨T, ?_, items_parse hy⟩
  rw [List.filterMap_append]
  exact hT

/-- **C75** The last line needs no line break: without it the file means the same as with it. -/
theorem C75_last_line (E : Env) (U : Uni) (ls : List FreeLine) (h : ∀ l ∈ ls, l.Ok E U) (c : Laid) (hc : c.Ok E U) :
    (∃ out out', parseText E U (freeText ls ++ c.text) = .ok out ∧ parseText E U (freeText (ls ++ [.command c [] none .lf])) = .ok out' ∧
      out.commands = out'.commands ∧ out.metaMap = out'.metaMap ∧ out.version = out'.version) ∨
    (∃ es es', parseText E U (freeText ls ++ c.text) = .err (.validation es) ∧
      parseText E U (freeText (ls ++ [.command c [] none .lf])) = .err (.validation es')) := by
  have h' : ∀ l ∈ ls ++ [.command c [] none .lf], l.Ok E U := by
    intro l hl
    rcases List.mem_append.1 hl with hl | hl
    · exact h l hl
    · rw [List.mem_singleton.1 hl]
      exact ⟨hc, trivial, fun _ _ => rfl, fun _ u => by simp⟩
  obtain ⟨T, hT, hp⟩ := lastLine_parse ls h hc .lf
  obtain ⟨T', hT', hp', -⟩ := freeFile_parse _ h'
  by_cases hb : ∀ pre d post, freeCommands (ls ++ [.command c [] none .lf]) = pre ++ d :: post → ¬ BreaksRules pre d
  · obtain ⟨o, n, h1, h2, h3, h4⟩ := means_ok hT OCAAst.new 0 rfl (by rw [items_commands]; exact hb)
    obtain ⟨o', n', h1', h2', h3', h4'⟩ := means_ok hT' OCAAst.new 0 rfl (by rw [items_commands]; exact hb)
    exact .inl ⟨o, o', by rw [hp, h1]; rfl, by rw [hp', h1']; rfl, by rw [h3, h3'], by rw [h4, h4'], by rw [h2, h2']⟩
  · simp only [Classical.not_forall, Classical.not_not] at hb
    obtain ⟨pre, d, post, e, hb⟩ := hb
    obtain ⟨es, h1⟩ := means_err hT OCAAst.new 0 rfl ⟨pre, d, post, by rw [items_commands]; exact e, hb⟩
    obtain ⟨es', h2⟩ := means_err hT' OCAAst.new 0 rfl ⟨pre, d, post, by rw [items_commands]; exact e, hb⟩
    exact .inr ⟨es, es', by rw [hp, h1], by rw [hp', h2]⟩

/-- **C75** But no blanks may follow there: after the last command, unless it adds an overlay, blanks before the end of the file make the
grammar refuse it. -/
theorem C75_last_blanks (E : Env) (U : Uni) (ls : List FreeLine) (h : ∀ l ∈ ls, l.Ok E U) (c : Laid) (hc : c.Ok E U) (w : Blanks) (hw : w ≠ [])
    (ho : ∀ add g k kw g1 m block g2 ps, c ≠ .addOverlay add g k kw g1 m block g2 ps) :
    parseText E U (freeText ls ++ c.text ++ w.text) = .err .grammar := by
  have hb : c.takesBlanks = false := by
    cases c with
    | addOverlay add g k kw g1 m block g2 ps => exact absurd rfl (ho add g k kw g1 m block g2 ps)
    | _ => rfl
  have he : c.endsBare = true → UStop (w.text ++ []) := by
    cases c <;> first | (intro h; cases h; done) | cases hb
  obtain ⟨tok, h1, h2, -, hy⟩ := laid_yields hc w (r := []) (by rintro c t ⟨⟩) he
  have hs : Yields (itemP U)*ₚ false [] [] (w.text ++ []) := Yields.starNil (indented_fails hw (by rintro d u ⟨⟩))
  have hstart := laid_start hc []
  rw [List.append_nil] at hstart
  have hcmd : Yields (commands U) false c.text [tok] (w.text ++ []) := by
    refine Yields.seq' (s' := []) (ts' := []) (hy hb) (Yields.optNone (newline_fails ?_)) (by simp) rfl
    obtain ⟨b, w', rfl⟩ := List.exists_cons_of_ne_nil hw
    rintro d u e
    cases b <;> (cases e; decide)
  have hone := Yields.starCons (s' := []) (by obtain ⟨d, u, e, -⟩ := hstart; rw [e]; simp) (lineItem_yields (U := U) (by simpa using hcmd) hstart) hs
  rw [List.append_nil, List.append_nil] at hone
  obtain ⟨T, -, hy, -⟩ := freeLines_tokens (U := U) ls h (.cmd h2 h1 .nil) hone
  obtain ⟨d, u, e⟩ : ∃ d u, w.text = d :: u := by
    cases w with
    | nil => exact absurd rfl hw
    | cons b w => exact ⟨_, _, rfl⟩
  rw [List.append_nil, e] at hy
  have := items_stuck (E := E) hy
  rw [← e] at this
  exact this

/-! ## Not vacuous -/

/-- a file by hand -/
def freeDemo : List FreeLine :=
  [.comment [true] c!" by hand" .crlf,
   .metaLine [false] [true] c!"name" [.one false] [] (.quoted (.single c!"my file")) [false] (some c!" x") .lf,
   .command (.addAttributes c!"add" [.one false, .cont [false] .lf, .one true] c!"Attribute"
      [⟨[.one false], c!"a", [.one false], [.cont [] .crlf], .base .text⟩, ⟨[.one true, .one false], c!"b", [], [.one true], .array [.one false] (.base .numeric) [.one true]⟩])
      [false, true] (some c!" two attributes") .crlf,
   .blank [false, true] .lf,
   .command (.addOverlay c!"aDD" [] .label c!"label" [.one true] (.lang c!"en" [.one false, .one false]) c!"attrs" [.cont [] .lf]
      ⟨⟨c!"a", [.one false], [.one false], .quoted (.single c!"The \"A\"")⟩, [([.cont [true] .crlf], ⟨c!"b", [], [], .word c!"B"⟩)]⟩) [true] none .lf,
   .command (.addOverlay c!"ADD" [.one false] .unit c!"Unit" [.one false] .none c!"ATTRS" [.one false]
      ⟨⟨c!"b", [], [], .word c!"m\\s"⟩, [([.one false], ⟨c!"a", [], [], .quoted (.double c!"kg")⟩)]⟩) [] (some c!" units") .lf,
   .command (.addOverlay c!"ADD" [.one false] .entryCode c!"ENTRY_code" [.one false] .none c!"Attrs" [.one true]
      ⟨⟨c!"a", [], [], .groups (.items 1 (.single c!"g", 2, .items (.double c!"x") [(3, .single c!"y")]) [] 0)⟩, []⟩) [false] none .crlf,
   .command (.addClass c!"add" [.one false] c!"classification" [.one true] (.word c!"GICS:1")) [] (some []) .lf,
   .command (.removeAttributes c!"Remove" [.one false] c!"attribute" [([.one true, .one true], c!"b")]) [true] none .lf]

/-- the same in the shortest form -/
def plainDemo : List FreeLine :=
  [.metaLine [] [false] c!"name" [] [] (.quoted (.single c!"my file")) [] none .lf,
   .command (.addAttributes c!"ADD" [.one false] c!"ATTRIBUTE"
      [⟨[.one false], c!"a", [], [], .base .text⟩, ⟨[.one false], c!"b", [], [], .array [] (.base .numeric) []⟩]) [] none .lf,
   .command (.addOverlay c!"ADD" [.one false] .label c!"LABEL" [.one false] (.lang c!"en" [.one false]) c!"ATTRS" [.one false]
      ⟨⟨c!"a", [], [], .quoted (.single c!"The \"A\"")⟩, [([.one false], ⟨c!"b", [], [], .quoted (.double c!"B")⟩)]⟩) [] none .lf,
   .command (.addOverlay c!"ADD" [.one false] .unit c!"UNIT" [.one false] .none c!"ATTRS" [.one false]
      ⟨⟨c!"b", [], [], .word c!"m\\s"⟩, [([.one false], ⟨c!"a", [], [], .word c!"kg"⟩)]⟩) [] none .lf,
   .command (.addOverlay c!"ADD" [.one false] .entryCode c!"ENTRY_CODE" [.one false] .none c!"ATTRS" [.one false]
      ⟨⟨c!"a", [], [], .groups (.items 0 (.double c!"g", 0, .items (.double c!"x") [(0, .double c!"y")]) [] 0)⟩, []⟩) [] none .lf,
   .command (.addClass c!"ADD" [.one false] c!"CLASSIFICATION" [.one false] (.word c!"GICS:1")) [] none .lf,
   .command (.removeAttributes c!"REMOVE" [.one false] c!"ATTRIBUTE" [([.one false], c!"b")]) [] none .lf]

/-- number of commands, name, and whether the last is a REMOVE -/
def freeCheck (s : Str) : Option (Nat × Option Str × Bool) := match parseText Env.demo Uni.ascii s with
  | .ok out => some (out.commands.length, out.metaMap.get c!"name", out.commands.getLast?.map (·.kind) == some .remove)
  | _ => none

set_option maxRecDepth 20000 in
theorem freeDemo_reads : freeCheck (freeText freeDemo) = some (6, some c!"'my file'", true) ∧ freeCheck (freeText plainDemo) = some (6, some c!"'my file'", true) := by
  decide +kernel

instance (a b : Str) : Decidable (Spells a b) := inferInstanceAs (Decidable (_ = _))
instance : (q : Quoted) → Decidable q.Ok
  | .double _ => inferInstanceAs (Decidable (_ = true))
  | .single _ => inferInstanceAs (Decidable (_ = true))
theorem quoted_class {U : Uni} {q : Quoted} (h : q.Ok) : ClassLaid.Ok U (.quoted q) := h
theorem quoted_value {U : Uni} {k : OvWord} {q : Quoted} (h : q.Ok) : ValueLaid.Ok U k (.quoted q) := h

theorem freeDemo_ok : ∀ l ∈ freeDemo, l.Ok Env.demo Uni.ascii := by
  intro l hl
  simp only [freeDemo, List.mem_cons, List.not_mem_nil, or_false] at hl
  rcases hl with rfl | rfl | rfl | rfl | rfl | rfl | rfl | rfl | rfl
  · unfold FreeLine.Ok; decide
  · exact ⟨.inl rfl, quoted_class (by decide +kernel), by unfold CommentOk; decide⟩
  · refine ⟨⟨by decide, by decide, by simp, ?_⟩, by unfold CommentOk; decide, (fun h => by cases h), (fun h => by cases h)⟩
    intro a ha
    simp only [List.mem_cons, List.not_mem_nil, or_false] at ha
    rcases ha with rfl | rfl <;> exact ⟨by simp, isKey_of (by decide), trivial⟩
  · trivial
  · refine ⟨⟨by decide, by decide, by simp, ⟨rfl, ⟨by decide, by decide⟩, by simp⟩, by decide, by simp, ?_, ?_⟩, trivial, (fun h => by cases h), (fun h => by cases h)⟩
    · intro p hp
      simp only [PairsLaid.all, List.map_cons, List.map_nil, List.mem_cons, List.not_mem_nil, or_false] at hp
      rcases hp with rfl | rfl
      · exact ⟨isKey_of (by decide), quoted_value (by decide +kernel), by simp⟩
      · exact ⟨isKey_of (by decide), by simp [ValueLaid.Ok]; exact isWord_of (by decide), by simp⟩
    · exact ⟨⟨by simp, by simp⟩, trivial⟩
  · refine ⟨⟨by decide, by decide, by simp, ⟨rfl, by decide⟩, by decide, by simp, ?_, ?_⟩, by unfold CommentOk; decide, (fun h => by cases h), (fun h => by cases h)⟩
    · intro p hp
      simp only [PairsLaid.all, List.map_cons, List.map_nil, List.mem_cons, List.not_mem_nil, or_false] at hp
      rcases hp with rfl | rfl
      · exact ⟨isKey_of (by decide), by simp [ValueLaid.Ok, IsUnitWord], by simp⟩
      · exact ⟨isKey_of (by decide), quoted_value (by decide +kernel), by simp⟩
    · exact ⟨⟨by simp, by simp⟩, trivial⟩
  · refine ⟨⟨by decide, by decide, by simp, ⟨rfl, by decide⟩, by decide, by simp, ?_, trivial⟩, trivial, (fun h => by cases h), (fun h => by cases h)⟩
    intro p hp
    rw [List.mem_singleton.1 hp]
    refine ⟨isKey_of (by decide), ⟨rfl, ?_⟩, by simp⟩
    intro x hx
    rw [List.mem_singleton.1 hx]
    refine ⟨by decide +kernel, ?_⟩
    intro q hq
    simp only [CodesLaid.all, List.map_cons, List.map_nil, List.mem_cons, List.not_mem_nil, or_false] at hq
    rcases hq with rfl | rfl <;> decide +kernel
  · exact ⟨⟨by decide, by decide, by simp, isWord_of (by decide)⟩, by unfold CommentOk; decide, (fun h => by cases h), (fun h => by cases h)⟩
  · refine ⟨⟨by decide, by decide, ?_⟩, trivial, (fun h => by cases h), (fun h => by cases h)⟩
    intro x hx
    rw [List.mem_singleton.1 hx]
    exact ⟨by simp, isKey_of (by decide)⟩

theorem plainDemo_ok : ∀ l ∈ plainDemo, l.Ok Env.demo Uni.ascii := by
  intro l hl
  simp only [plainDemo, List.mem_cons, List.not_mem_nil, or_false] at hl
  rcases hl with rfl | rfl | rfl | rfl | rfl | rfl | rfl
  · exact ⟨.inl rfl, quoted_class (by decide +kernel), trivial⟩
  · refine ⟨⟨by decide, by decide, by simp, ?_⟩, trivial, (fun h => by cases h), (fun h => by cases h)⟩
    intro a ha
    simp only [List.mem_cons, List.not_mem_nil, or_false] at ha
    rcases ha with rfl | rfl <;> exact ⟨by simp, isKey_of (by decide), trivial⟩
  · refine ⟨⟨by decide, by decide, by simp, ⟨rfl, ⟨by decide, by decide⟩, by simp⟩, by decide, by simp, ?_, ?_⟩, trivial, (fun h => by cases h), (fun h => by cases h)⟩
    · intro p hp
      simp only [PairsLaid.all, List.map_cons, List.map_nil, List.mem_cons, List.not_mem_nil, or_false] at hp
      rcases hp with rfl | rfl
      · exact ⟨isKey_of (by decide), quoted_value (by decide +kernel), by simp⟩
      · exact ⟨isKey_of (by decide), quoted_value (by decide +kernel), by simp⟩
    · exact ⟨⟨by simp, by simp⟩, trivial⟩
  · refine ⟨⟨by decide, by decide, by simp, ⟨rfl, by decide⟩, by decide, by simp, ?_, ?_⟩, trivial, (fun _ _ => rfl), (fun _ u => by simp)⟩
    · intro p hp
      simp only [PairsLaid.all, List.map_cons, List.map_nil, List.mem_cons, List.not_mem_nil, or_false] at hp
      rcases hp with rfl | rfl
      · exact ⟨isKey_of (by decide), by simp [ValueLaid.Ok, IsUnitWord], by simp⟩
      · exact ⟨isKey_of (by decide), by simp [ValueLaid.Ok, IsUnitWord], by simp⟩
    · exact ⟨⟨by simp, by simp⟩, trivial⟩
  · refine ⟨⟨by decide, by decide, by simp, ⟨rfl, by decide⟩, by decide, by simp, ?_, trivial⟩, trivial, (fun h => by cases h), (fun h => by cases h)⟩
    intro p hp
    rw [List.mem_singleton.1 hp]
    refine ⟨isKey_of (by decide), ⟨rfl, ?_⟩, by simp⟩
    intro x hx
    rw [List.mem_singleton.1 hx]
    refine ⟨by decide +kernel, ?_⟩
    intro q hq
    simp only [CodesLaid.all, List.map_cons, List.map_nil, List.mem_cons, List.not_mem_nil, or_false] at hq
    rcases hq with rfl | rfl <;> decide +kernel
  · exact ⟨⟨by decide, by decide, by simp, isWord_of (by decide)⟩, trivial, (fun h => by cases h), (fun h => by cases h)⟩
  · refine ⟨⟨by decide, by decide, ?_⟩, trivial, (fun h => by cases h), (fun h => by cases h)⟩
    intro x hx
    rw [List.mem_singleton.1 hx]
    exact ⟨by simp, isKey_of (by decide)⟩

/-- **C75** is not vacuous: two quite different layouts of the same six commands meet the hypotheses, and the parser reads both. -/
theorem C75_example : (∀ l ∈ freeDemo, l.Ok Env.demo Uni.ascii) ∧ (∀ l ∈ plainDemo, l.Ok Env.demo Uni.ascii) ∧
    freeCommands freeDemo = freeCommands plainDemo ∧ (∀ key, freeMeta freeDemo key = freeMeta plainDemo key) ∧ (freeCommands freeDemo).length = 6 ∧
    freeText freeDemo ≠ freeText plainDemo ∧
    freeCheck (freeText freeDemo) = some (6, some c!"'my file'", true) ∧ freeCheck (freeText plainDemo) = some (6, some c!"'my file'", true) :=
  ⟨freeDemo_ok, plainDemo_ok, rfl, fun _ => rfl, rfl, by decide +kernel, freeDemo_reads.1, freeDemo_reads.2⟩

end OCA
