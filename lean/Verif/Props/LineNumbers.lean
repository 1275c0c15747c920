import Verif.Props.LayoutBuild
import Verif.Props.Replay
import Verif.Props.ToAstFull
import Verif.Props.HistoryTextExample

/-!
# C76: the lines that errors name

An error of the build carries a line number and the text of a command. `C13_text_error_lines` says that the text is that of a rejected
command. Here, for every layout of a file (`Props/LayoutSpec.lean`): which number it is, and when it is the line of the file.
-/

namespace OCA
open Peg Gr

/-- numbers and texts, kept under consecutive indices -/
def numbered : Nat → List (Nat × Str) → List (Nat × CommandMeta)
  | _, [] => []
  | i, x :: l => (i, ⟨x.1, x.2⟩) :: numbered (i + 1) l

theorem numbered_find (l : List (Nat × Str)) : ∀ (k i : Nat), metaAt (numbered k l) (k + i) = l[i]?.map fun x => ⟨x.1, x.2⟩ := by
  induction l with
  | nil => intro k i; rfl
  | cons x l ih =>
    intro k i
    cases i with
    | zero => simp [metaAt, numbered]
    | succ i =>
      have h1 : (k == k + (i + 1)) = false := by simp
      have h2 := ih (k + 1) i
      have e : k + 1 + i = k + (i + 1) := by omega
      rw [e] at h2
      unfold metaAt at h2 ⊢
      rw [numbered, List.find?_cons, h1]
      simpa using h2

theorem means_meta {E : Env} {U : Uni} {l : List Item} {T : List Tok} (h : Means E U l T) : ∀ (ast : OCAAst) (n : Nat) (out : OCAAst),
    Ins.tokLoop E U ast n (T ++ [.node .eoi [] []]) = .ok out →
    out.commandsMeta = ast.commandsMeta ++ numbered ast.commands.length (tokNumbers n T) ∧ out.commands = ast.commands ++ itemCommands l := by
  induction h with
  | nil =>
    intro ast n out h
    have : out = ast := by
      rw [List.nil_append, Ins.tokLoop] at h
      simp only [Ins.lineOf, Tree.rule, parseLine, Ins.tokLoop] at h
      cases h; rfl
    subst this
    exact ⟨by simp [tokNumbers, numbered], by simp [itemCommands]⟩
  | @fill t l T h1 h ih =>
    intro ast n out hp
    rw [List.cons_append, tokLoop_skip h1] at hp
    obtain ⟨h2, h3⟩ := ih _ _ _ hp
    refine ⟨?_, h3⟩
    rw [h2, tokNumbers]
    rcases h1 with e | e <;> simp [e]
  | @cmd t c l T h1 h2 h ih =>
    intro ast n out hp
    rw [List.cons_append, Ins.tokLoop, lineOf_cmd h1 h2] at hp
    dsimp only [parseLine] at hp
    cases hval : astValidate ast c with
    | err e => rw [hval] at hp; cases hp
    | panic => rw [hval] at hp; cases hp
    | ok u =>
      rw [hval] at hp
      obtain ⟨h3, h4⟩ := ih _ _ _ hp
      refine ⟨?_, by rw [h4]; simp [itemCommands]⟩
      rw [h3, tokNumbers]
      rcases h1 with e | e | e <;> simp [e, numbered]
  | @pair t k v l T h1 h2 hk hv h ih =>
    intro ast n out hp
    rw [List.cons_append, tokLoop_meta h1 h2 hk hv] at hp
    obtain ⟨h3, h4⟩ := ih _ _ _ hp
    refine ⟨?_, h4⟩
    rw [h3, tokNumbers]
    simp [h1]

/-- the commands of a layout, their numbers and their texts -/
theorem freeFile_meta {E : Env} {U : Uni} {ls : List FreeLine} (h : ∀ l ∈ ls, l.Ok E U) {ast : OCAAst} (hp : parseText E U (freeText ls) = .ok ast) :
    ast.commands = freeCommands ls ∧ ∀ i, metaAt ast.commandsMeta i = (lineNumbers 0 ls)[i]?.map fun x => ⟨x.1, x.2⟩ := by
  obtain ⟨T, hT, hq, hn⟩ := freeFile_parse ls h
  rw [hq] at hp
  obtain ⟨h1, h2⟩ := means_meta hT _ _ _ hp
  refine ⟨by rw [h2, items_commands]; rfl, fun i => ?_⟩
  rw [h1, hn]
  have := numbered_find (lineNumbers 0 ls) 0 i
  rw [Nat.zero_add] at this
  exact this

/-- the line of the `i`-th command -/
theorem lineNumbers_line (ls : List FreeLine) : ∀ (n i : Nat) (c : Command), (freeCommands ls)[i]? = some c →
    ∃ pre d w t eol post, ls = pre ++ .command d w t eol :: post ∧ (freeCommands pre).length = i ∧ d.meaning = c ∧
      (lineNumbers n ls)[i]? = some (n + 1 + (pre.map FreeLine.numbers).sum, if d.takesBlanks = true then d.text ++ w.text else d.text) := by
  induction ls with
  | nil => intro n i c h; cases h
  | cons l ls ih =>
    intro n i c h
    have skip : l.command? = none → l.kept? = none → ∃ pre d w t eol post, l :: ls = pre ++ .command d w t eol :: post ∧
        (freeCommands pre).length = i ∧ d.meaning = c ∧
        (lineNumbers n (l :: ls))[i]? = some (n + 1 + (pre.map FreeLine.numbers).sum, if d.takesBlanks = true then d.text ++ w.text else d.text) := by
      intro h1 h2
      rw [freeCommands, List.filterMap_cons, h1] at h
      obtain ⟨pre, d, w, t, eol, post, e1, e2, e3, e4⟩ := ih (n + l.numbers) i c h
      refine ⟨l :: pre, d, w, t, eol, post, by rw [e1]; rfl, by rw [freeCommands, List.filterMap_cons, h1]; exact e2, e3, ?_⟩
      rw [lineNumbers, h2, Option.toList, List.map_nil, List.nil_append, e4, List.map_cons, List.sum_cons]
      congr 2
      omega
    cases l with
    | command d w t eol =>
      cases i with
      | zero =>
        refine ⟨[], d, w, t, eol, ls, rfl, rfl, ?_, ?_⟩
        · have : some d.meaning = some c := h
          exact Option.some.inj this
        · simp [lineNumbers, FreeLine.kept?]
      | succ i =>
        have h : (freeCommands ls)[i]? = some c := h
        obtain ⟨pre, d', w', t', eol', post, e1, e2, e3, e4⟩ := ih (n + (FreeLine.command d w t eol).numbers) i c h
        refine ⟨.command d w t eol :: pre, d', w', t', eol', post, by rw [e1]; rfl, ?_, e3, ?_⟩
        · rw [← e2]; rfl
        · rw [lineNumbers]
          simp only [FreeLine.kept?, Option.toList, List.map_cons, List.map_nil, List.cons_append, List.nil_append, List.getElem?_cons_succ,
            List.sum_cons]
          rw [e4]
          congr 2
          omega
    | comment => exact skip rfl rfl
    | blank => exact skip rfl rfl
    | metaLine => exact skip rfl rfl

/-- where the `i`-th result comes from -/
theorem results_at {E : Env} (cs : List Command) : ∀ (b : Option OCABox) (i : Nat) (c : Command) (r : Res (List Str) OCABox), cs[i]? = some c →
    (results E b cs)[i]? = some r → r = applyCommand E (finalState E b (cs.take i)) c := by
  induction cs with
  | nil => intro b i c r h; cases h
  | cons d cs ih =>
    intro b i c r h1 h2
    cases i with
    | zero => cases h1; cases h2; rfl
    | succ i => exact ih _ i c r h1 h2

theorem take_before {pre post : List FreeLine} {d : Laid} {w : Blanks} {t : Option Str} {eol : Eol} {ls : List FreeLine} {i : Nat}
    (h : ls = pre ++ .command d w t eol :: post) (hi : (freeCommands pre).length = i) : (freeCommands ls).take i = freeCommands pre := by
  subst h hi
  simp [freeCommands]

/-- the errors of `from_ast` on a layout whose first `k` commands were taken away -/
theorem free_errors {E : Env} {U : Uni} {Os : Nat → Order} {ls : List FreeLine} (h : ∀ l ∈ ls, l.Ok E U) {ast : OCAAst}
    (hp : parseText E U (freeText ls) = .ok ast) {base : Option Bundle} {start : Option OCABox} (hb : (baseOf E base : Res (List BuildErr) _) = .ok start)
    {cs : List Command} {errs : List BuildErr} (he : fromAst E Os base { ast with commands := cs } = .err errs) {e : BuildErr} (hm : e ∈ errs)
    {c : Command} (hk : (freeCommands ls).drop (if base.isSome then 1 else 0) = cs ∨ (base = none ∧ freeCommands ls = c :: cs)) :
    ∃ i x es, cs[i]? = some x ∧ applyCommand E (finalState E start (cs.take i)) x = .err es ∧ e.message ∈ es ∧
      (lineNumbers 0 ls)[i + (if base.isSome then 1 else 0)]? = some (e.lineNumber, e.rawLine) := by
  obtain ⟨start', hb', rfl⟩ := fromAst_err E Os base _ errs he
  rw [hb] at hb'; cases hb'
  obtain ⟨i, x, es, h1, h2, h3, h4, h5⟩ := mem_errorsFrom _ _ E _ _ _ e hm
  refine ⟨i, x, es, h1, (results_at _ _ _ _ _ h1 h2).symm, h3, ?_⟩
  obtain ⟨hc, hn⟩ := freeFile_meta h hp
  obtain ⟨j, hj⟩ : ∃ j, j = i + (if base.isSome then 1 else 0) := ⟨_, rfl⟩
  have hcmd : ∃ y, (freeCommands ls)[j]? = some y := by
    have hlt : i < cs.length := (List.getElem?_eq_some_iff.1 h1).1
    have : j < (freeCommands ls).length := by
      rcases hk with e | ⟨e1, e2⟩
      · rw [← e, List.length_drop] at hlt; omega
      · subst e1; rw [e2, List.length_cons, hj]; simp; omega
    exact ⟨_, List.getElem?_eq_getElem this⟩
  obtain ⟨y, hy⟩ := hcmd
  obtain ⟨pre, d, w, t, eol, post, -, -, -, e4⟩ := lineNumbers_line ls 0 j y hy
  have hc' : cmdMeta { ast with commands := cs } (0 + i + (if base.isSome then 1 else 0)) =
      ⟨0 + 1 + (pre.map FreeLine.numbers).sum, if d.takesBlanks = true then d.text ++ w.text else d.text⟩ := by
    rw [Nat.zero_add, ← hj]
    have := hn j
    unfold cmdMeta
    dsimp only
    rw [this, e4]
    rfl
  rw [hc'] at h4 h5
  rw [← hj, e4, h4, h5]

theorem validatePlain_err {E : Env} {U : Uni} {S : Serde} {Os : Nat → Order} {f : Facade} {s : Str} {errs : List VErr} {e : BuildErr}
    (hv : f.validateTextPlain E U S Os s = .err errs) (he : .build e ∈ errs) :
    ∃ (ast : OCAAst) (base : Option Bundle) (ast' : OCAAst) (es : List BuildErr), parseText E U s = .ok ast ∧ (checkBase E S f.cache ast : Res (List VErr) _) = .ok (base, ast') ∧
      fromAst E Os base ast' = .err es ∧ e ∈ es := by
  unfold Facade.validateTextPlain at hv
  rcases bind_err_cases (show Res.bind _ _ = _ from hv) with h | ⟨ast, h1, h2⟩
  · exfalso
    cases hp : parseText E U s with
    | ok a => rw [hp] at h; cases h
    | panic => rw [hp] at h; cases h
    | err x => rw [hp] at h; cases h; simp at he
  · have hp : parseText E U s = .ok ast := by
      cases hp : parseText E U s with
      | ok a => rw [hp] at h1; cases h1; rfl
      | panic => rw [hp] at h1; cases h1
      | err x => rw [hp] at h1; cases h1
    rcases bind_err_cases (show Res.bind _ _ = _ from h2) with h | ⟨⟨base, ast'⟩, h3, h4⟩
    · exfalso
      unfold checkBase at h
      split at h
      · split at h
        · split at h <;> cases h
        · cases h
      · cases h
    · dsimp only at h4
      cases hf : fromAst E Os base ast' with
      | ok a => rw [hf] at h4; cases h4
      | panic => rw [hf] at h4; cases h4
      | err es =>
        rw [hf] at h4
        cases h4
        obtain ⟨x, hx, ex⟩ := List.mem_map.1 he
        cases ex
        exact ⟨ast, base, ast', es, hp, h3, hf, hx⟩

/-- **C76** A file that does not start FROM another bundle, in any layout: an error of the build carries the number that counts the lines
before, as `FreeLine.numbers` counts them, and the text of a command; this command, after those of the lines before it, was refused with the
message of the error. -/
theorem C76_error_line (E : Env) (U : Uni) (S : Serde) (Os : Nat → Order) (f : Facade) (ls : List FreeLine) (h : ∀ l ∈ ls, l.Ok E U)
    (hb : ∀ r cs, freeCommands ls ≠ ⟨.«from», .ocaBundle r⟩ :: cs) (errs : List VErr)
    (hv : f.validateTextPlain E U S Os (freeText ls) = .err errs) (e : BuildErr) (he : .build e ∈ errs) :
    ∃ pre d w t eol post es, ls = pre ++ .command d w t eol :: post ∧
      e.lineNumber = 1 + (pre.map FreeLine.numbers).sum ∧ e.rawLine = (if d.takesBlanks = true then d.text ++ w.text else d.text) ∧
      applyCommand E (finalState E none (freeCommands pre)) d.meaning = .err es ∧ e.message ∈ es := by
  obtain ⟨ast, base, ast', es, hp, h1, h2, h3⟩ := validatePlain_err hv he
  have hc := (freeFile_meta h hp).1
  have hbase : base = none ∧ ast' = ast := by
    unfold checkBase at h1
    split at h1
    · rename_i r t hx
      exact absurd (hc ▸ hx) (hb r t)
    · cases h1; exact ⟨rfl, rfl⟩
  obtain ⟨rfl, rfl⟩ := hbase
  obtain ⟨i, x, es, h4, h5, h6, h7⟩ := free_errors (cs := ast'.commands) (start := none) (c := ⟨.add, .ocaBundle (.said [])⟩) h hp rfl h2 h3 (.inl (by rw [hc]; rfl))
  rw [hc] at h4 h5
  obtain ⟨pre, d, w, t, eol, post, e1, e2, e3, e4⟩ := lineNumbers_line ls 0 i x h4
  rw [take_before e1 e2, ← e3] at h5
  have h7 : (lineNumbers 0 ls)[i]? = some (e.lineNumber, e.rawLine) := h7
  rw [e4] at h7
  obtain ⟨h8, h9⟩ := Prod.mk.inj (Option.some.inj h7)
  exact ⟨pre, d, w, t, eol, post, es, e1, by rw [← h8, Nat.zero_add], h9.symm, h5, h6⟩

/-- **C76** The same for a file that starts FROM a bundle the facade has. -/
theorem C76_error_line_from (E : Env) (U : Uni) (S : Serde) (Os : Nat → Order) (f : Facade) (ls : List FreeLine) (h : ∀ l ∈ ls, l.Ok E U)
    (s : Said) (cs : List Command) (hs : freeCommands ls = ⟨.«from», .ocaBundle (.said s)⟩ :: cs) (b : Bundle) (hb : fetchBundle E S f.cache s = .ok b)
    (box : OCABox) (hbox : (OCABox.ofBundle E b : Res (List BuildErr) OCABox) = .ok box) (errs : List VErr)
    (hv : f.validateTextPlain E U S Os (freeText ls) = .err errs) (e : BuildErr) (he : .build e ∈ errs) :
    ∃ pre d w t eol post before es, ls = pre ++ .command d w t eol :: post ∧ freeCommands pre = ⟨.«from», .ocaBundle (.said s)⟩ :: before ∧
      e.lineNumber = 1 + (pre.map FreeLine.numbers).sum ∧ e.rawLine = (if d.takesBlanks = true then d.text ++ w.text else d.text) ∧
      applyCommand E (finalState E (some box) before) d.meaning = .err es ∧ e.message ∈ es := by
  obtain ⟨ast, base, ast', es, hp, h1, h2, h3⟩ := validatePlain_err hv he
  have hc := (freeFile_meta h hp).1
  have hbase : base = some b ∧ ast' = { ast with commands := cs } := by
    unfold checkBase at h1
    rw [hc, hs] at h1
    dsimp only at h1
    rw [hb] at h1
    cases h1; exact ⟨rfl, rfl⟩
  obtain ⟨rfl, rfl⟩ := hbase
  obtain ⟨i, x, es, h4, h5, h6, h7⟩ := free_errors (cs := cs) (base := some b) (start := some box) (c := ⟨.add, .ocaBundle (.said [])⟩) h hp
    (by unfold baseOf; dsimp only; rw [hbox]; rfl) h2 h3 (.inl (by rw [hs]; rfl))
  have h4' : (freeCommands ls)[i + 1]? = some x := by rw [hs]; exact h4
  obtain ⟨pre, d, w, t, eol, post, e1, e2, e3, e4⟩ := lineNumbers_line ls 0 (i + 1) x h4'
  have e5 := take_before e1 e2
  rw [hs, List.take_succ_cons] at e5
  rw [← e3] at h5
  have h7 : (lineNumbers 0 ls)[i + 1]? = some (e.lineNumber, e.rawLine) := h7
  rw [e4] at h7
  obtain ⟨h8, h9⟩ := Prod.mk.inj (Option.some.inj h7)
  exact ⟨pre, d, w, t, eol, post, _, es, e1, e5.symm, by rw [← h8, Nat.zero_add], h9.symm, h5, h6⟩

/-- **C76** is false when the file starts FROM a bundle the facade has not: the error then carries number and text of the command before the
refused one. -/
theorem C76_unknown_base (E : Env) (U : Uni) (S : Serde) (Os : Nat → Order) (f : Facade) (ls : List FreeLine) (h : ∀ l ∈ ls, l.Ok E U)
    (s : Said) (cs : List Command) (hs : freeCommands ls = ⟨.«from», .ocaBundle (.said s)⟩ :: cs) (fe : List Str) (hb : fetchBundle E S f.cache s = .err fe)
    (errs : List VErr) (hv : f.validateTextPlain E U S Os (freeText ls) = .err errs) (e : BuildErr) (he : .build e ∈ errs) :
    ∃ pre d w t eol post c rest es, ls = pre ++ .command d w t eol :: post ∧ freeCommands post = c :: rest ∧
      e.lineNumber = 1 + (pre.map FreeLine.numbers).sum ∧ e.rawLine = (if d.takesBlanks = true then d.text ++ w.text else d.text) ∧
      applyCommand E (finalState E none ((freeCommands pre ++ [d.meaning]).drop 1)) c = .err es ∧ e.message ∈ es := by
  obtain ⟨ast, base, ast', es, hp, h1, h2, h3⟩ := validatePlain_err hv he
  have hc := (freeFile_meta h hp).1
  have hbase : base = none ∧ ast' = { ast with commands := cs } := by
    unfold checkBase at h1
    rw [hc, hs] at h1
    dsimp only at h1
    rw [hb] at h1
    cases h1; exact ⟨rfl, rfl⟩
  obtain ⟨rfl, rfl⟩ := hbase
  obtain ⟨i, x, es, h4, h5, h6, h7⟩ := free_errors (cs := cs) (base := none) (start := none) h hp rfl h2 h3 (.inr ⟨rfl, hs⟩)
  have h4' : (freeCommands ls)[i + 1]? = some x := by rw [hs]; exact h4
  have hlt := (List.getElem?_eq_some_iff.1 h4').1
  obtain ⟨y, hy⟩ : ∃ y, (freeCommands ls)[i]? = some y := ⟨_, List.getElem?_eq_getElem (by omega : i < (freeCommands ls).length)⟩
  obtain ⟨pre, d, w, t, eol, post, e1, e2, e3, e4⟩ := lineNumbers_line ls 0 i y hy
  have h7 : (lineNumbers 0 ls)[i]? = some (e.lineNumber, e.rawLine) := h7
  rw [e4] at h7
  obtain ⟨h8, h9⟩ := Prod.mk.inj (Option.some.inj h7)
  have e5 : freeCommands ls = freeCommands pre ++ d.meaning :: freeCommands post := by rw [e1]; simp [freeCommands, FreeLine.command?]
  have e6 : (freeCommands post)[0]? = some x := by
    rw [e5, List.getElem?_append_right (by omega)] at h4'
    have : i + 1 - (freeCommands pre).length = 1 := by omega
    rw [this] at h4'
    exact h4'
  obtain ⟨rest, e7⟩ : ∃ rest, freeCommands post = x :: rest := by
    cases hq : freeCommands post with
    | nil => rw [hq] at e6; cases e6
    | cons a r => rw [hq] at e6; cases e6; exact ⟨r, rfl⟩
  refine ⟨pre, d, w, t, eol, post, x, rest, es, e1, e7, by rw [← h8, Nat.zero_add], h9.symm, ?_, h6⟩
  have e8 : cs.take i = (freeCommands pre ++ [d.meaning]).drop 1 := by
    have : (freeCommands ls).take (i + 1) = freeCommands pre ++ [d.meaning] := by
      rw [e5, List.take_append, List.take_of_length_le (by omega)]
      have : i + 1 - (freeCommands pre).length = 1 := by omega
      rw [this]
      rfl
    rw [hs, List.take_succ_cons] at this
    rw [← this]
    rfl
  rw [← e8]
  exact h5

/-- a line that is one line of the file, with nothing behind its command or its meta pair -/
def FreeLine.Plain (l : FreeLine) : Prop := l.numbers = 1 ∧ l.text.count '\n' = 1

/-- **C76** When the lines before are plain, the number is that of the line in the file: one more than the line feeds before it. -/
theorem C76_line_of_file (pre : List FreeLine) (h : ∀ l ∈ pre, l.Plain) : 1 + (pre.map FreeLine.numbers).sum = 1 + (freeText pre).count '\n' := by
  congr 1
  induction pre with
  | nil => rfl
  | cons l pre ih =>
    have := h l (.head _)
    rw [List.map_cons, List.sum_cons, ih fun x hx => h x (.tail _ hx), this.1]
    show _ = (List.flatMap FreeLine.text (l :: pre)).count '\n'
    rw [List.flatMap_cons, List.count_append, this.2]
    rfl

theorem count_of_none {s : Str} (h : ∀ c ∈ s, c ≠ '\n') : s.count '\n' = 0 := List.count_eq_zero.2 fun hm => h _ hm rfl

theorem blanks_count (w : Blanks) : w.text.count '\n' = 0 := by
  refine count_of_none fun c hc => ?_
  obtain ⟨b, -, rfl⟩ := List.mem_map.1 hc
  cases b <;> decide

theorem eol_count (e : Eol) : e.text.count '\n' = 1 := by cases e <;> rfl

/-- **C76** Comments and blank lines are plain; so is the line of a command whose text has no line feed and that nothing is behind. -/
theorem C76_plain_lines (E : Env) (U : Uni) : (∀ w t e, (FreeLine.comment w t e).Ok E U → (FreeLine.comment w t e).Plain) ∧
    (∀ w e, (FreeLine.blank w e).Plain) ∧
    (∀ d w e, (∀ c ∈ d.text, c ≠ '\n') → (w = [] ∨ d.takesBlanks = true) → (FreeLine.command d w none e).Plain) := by
  refine ⟨fun w t e h => ⟨rfl, ?_⟩, fun w e => ⟨rfl, ?_⟩, fun d w e h hw => ⟨?_, ?_⟩⟩
  · simp only [FreeLine.text, List.count_append, blanks_count, eol_count, count_of_none fun c hc => (h c hc).1]
    decide
  · simp only [FreeLine.text, List.count_append, blanks_count, eol_count]
  · show 1 + behind d.takesBlanks w none = 1
    unfold behind
    rw [if_pos ⟨rfl, hw.symm⟩]
  · simp only [FreeLine.text, List.count_append, blanks_count, eol_count, count_of_none h, commentText, List.count_nil]

/-- an attribute, a comment, and an encoding nobody knows -/
def lineDemo (t : Option Str) (g : Gap) : List FreeLine :=
  [.command (.addAttributes c!"ADD" g c!"ATTRIBUTE" [⟨[.one false], c!"a", [], [], .base .text⟩]) [] t .lf,
   .comment [] c!" next" .lf,
   .command (.addOverlay c!"ADD" [.one false] .characterEncoding c!"CHARACTER_ENCODING" [.one false] .none c!"ATTRS" [.one false]
      ⟨⟨c!"a", [], [], .quoted (.double c!"morse")⟩, []⟩) [] none .lf]

/-- the numbers and texts of the errors of a file -/
def errorLines (s : Str) : List (Nat × Str) :=
  match Facade.new.validateTextPlain Env.demo Uni.ascii Serde.text (fun _ => Order.sorted) s with
  | .err es => es.filterMap fun
    | .build e => some (e.lineNumber, e.rawLine)
    | _ => none
  | _ => []

theorem lineDemo_ok (t : Option Str) (g : Gap) (ht : CommentOk t) : ∀ l ∈ lineDemo t g, l.Ok Env.demo Uni.ascii := by
  intro l hl
  simp only [lineDemo, List.mem_cons, List.not_mem_nil, or_false] at hl
  rcases hl with rfl | rfl | rfl
  · refine ⟨⟨by decide, by decide, by simp, ?_⟩, ht, (fun h => by cases h), (fun h => by cases h)⟩
    intro a ha
    simp only [List.mem_cons, List.not_mem_nil, or_false] at ha
    rcases ha with rfl; exact ⟨by simp, isKey_of (by decide), trivial⟩
  · unfold FreeLine.Ok; decide
  · refine ⟨⟨by decide, by decide, by simp, (by trivial), by decide, by simp, ?_, ?_⟩, trivial, (fun h => by cases h), (fun h => by cases h)⟩
    · intro p hp
      simp only [PairsLaid.all, List.map_nil, List.mem_cons, List.not_mem_nil, or_false] at hp
      rcases hp with rfl
      exact ⟨isKey_of (by decide), quoted_value (by decide +kernel), by simp⟩
    · trivial

/-- the text of the refused command -/
def morse : Str := c!"ADD CHARACTER_ENCODING ATTRS a=\"morse\""

set_option maxRecDepth 20000 in
/-- **C76** is not vacuous: an unknown encoding on the third line is reported for line 3. -/
theorem C76_example : (∀ l ∈ lineDemo none [.one false], l.Ok Env.demo Uni.ascii) ∧
    (∀ r cs, freeCommands (lineDemo none [.one false]) ≠ ⟨.«from», .ocaBundle r⟩ :: cs) ∧
    errorLines (freeText (lineDemo none [.one false])) = [(3, morse)] :=
  ⟨lineDemo_ok _ _ trivial, (fun r cs h => by cases h), by decide +kernel⟩

set_option maxRecDepth 20000 in
/-- **C76** (what is not so) The number is not always the line of the file: a comment behind the first command makes it 4, and breaking the
first command over two lines leaves it at 3, though the command now is on line 4. -/
theorem C76_not_the_line : (∀ l ∈ lineDemo (some c!" first") [.one false], l.Ok Env.demo Uni.ascii) ∧
    errorLines (freeText (lineDemo (some c!" first") [.one false])) = [(4, morse)] ∧
    (freeText ((lineDemo (some c!" first") [.one false]).take 2)).count '\n' = 2 ∧
    (∀ l ∈ lineDemo none [.cont [] .lf, .one false], l.Ok Env.demo Uni.ascii) ∧
    errorLines (freeText (lineDemo none [.cont [] .lf, .one false])) = [(3, morse)] ∧
    (freeText ((lineDemo none [.cont [] .lf, .one false]).take 2)).count '\n' = 3 :=
  ⟨lineDemo_ok _ _ (by unfold CommentOk; decide), by decide +kernel, by decide +kernel, lineDemo_ok _ _ trivial, by decide +kernel, by decide +kernel⟩

/-- the errors of a file FROM a stored bundle, or from one that is not there -/
def errorsFromBase (there : Bool) : Option (List (Nat × Str)) :=
  match Facade.new.buildFromTextPlain Env.words Uni.ascii Serde.text (fun _ => Order.sorted) .kept c!"ADD ATTRIBUTE a=Text\n" with
  | .ok (f, b) => match b.said with
    | some s => match f.validateTextPlain Env.words Uni.ascii Serde.text (fun _ => Order.sorted)
        (c!"FROM " ++ (if there then s else c!"Eabcdefghijkl") ++ c!"\nADD ATTRIBUTE b=Text\n" ++ morse ++ c!"\n") with
      | .err es => some (es.filterMap fun
        | .build e => some (e.lineNumber, e.rawLine)
        | _ => none)
      | _ => none
    | none => none
  | _ => none

set_option maxRecDepth 20000 in
/-- **C76** The refused command is on line 3: from a stored bundle the error says so, from one that is not there it names line 2 and the
command there. -/
theorem C76_from_example : errorsFromBase true = some [(3, morse)] ∧ errorsFromBase false = some [(2, c!"ADD ATTRIBUTE b=Text")] := by
  decide +kernel

end OCA
