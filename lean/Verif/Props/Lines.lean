import Verif.Props.PrintParse
import Verif.Props.FileDispatch
/-!
# C73: what the lines of a file mean
-/
namespace OCA
open Peg Gr

/-! ## Specification -/

/-- A line of a file: a command as the printer writes it (over one or more lines), `FROM said`, a comment after `n` blanks, `n` blanks alone,
or a meta line `-- key = value` with `n`, `a`, `b` and `e` blanks after the dashes, the key, the `=` and the value. -/
inductive SrcLine where
  | command (c : Command)
  | fromSaid (s : Str)
  | comment (n : Nat) (t : Str)
  | blank (n : Nat)
  | metaLine (n : Nat) (key : Str) (a b : Nat) (value : Str) (e : Nat)

/-- the text of a command, or nothing when the printer aborts -/
def commandLine (c : Command) : Str := match (Pr.command c : Res Unit Str) with
  | .ok s => s ++ ['\n']
  | _ => []

/-- as it stands in the file -/
def SrcLine.render : SrcLine → Str
  | .command c => commandLine c
  | .fromSaid s => c!"FROM " ++ s ++ c!"\n"
  | .comment n t => List.replicate n ' ' ++ c!"#" ++ t ++ c!"\n"
  | .blank n => List.replicate n ' ' ++ c!"\n"
  | .metaLine n k a b v e =>
    c!"--" ++ List.replicate n ' ' ++ k ++ List.replicate a ' ' ++ c!"=" ++ List.replicate b ' ' ++ v ++ List.replicate e ' ' ++ c!"\n"

/-- A command is printable, the SAID after FROM is one and a word, a comment ends with its line, a meta line has one of the three keys and a
value which is a word or stands in double quotes. -/
def SrcLine.Ok (E : Env) (U : Uni) : SrcLine → Prop
  | .command c => Printable E U c
  | .fromSaid s => IsWord U s ∧ E.validSaid s = true
  | .comment _ t => ∀ c ∈ t, c ≠ '\n' ∧ c ≠ '\r'
  | .blank _ => True
  | .metaLine _ k _ _ v _ => (k = c!"name" ∨ k = c!"version" ∨ k = c!"precompiler") ∧
      (IsWord U v ∨ ∃ q, v = '"' :: q ++ ['"'] ∧ Quotable q = true)

/-- the command of a line -/
def SrcLine.command? : SrcLine → Option Command
  | .command c => some c.reread
  | .fromSaid s => some ⟨.«from», .ocaBundle (.said s)⟩
  | _ => none

/-- the meta data of a line -/
def SrcLine.meta? : SrcLine → Option (Str × Str)
  | .metaLine _ k _ _ v _ => some (k, v)
  | _ => none

/-- the commands of a file -/
def commandsIn (ls : List SrcLine) : List Command := ls.filterMap SrcLine.command?

/-- the last value given to a key -/
def metaIn? (ls : List SrcLine) (key : Str) : Option Str :=
  ((ls.filterMap SrcLine.meta?).reverse.find? fun p => decide (p.1 = key)).map (·.2)

/-- the text of a file -/
def fileText (ls : List SrcLine) : Str := ls.flatMap SrcLine.render

/-! ## Tokens -/

/-- the tokens of the lines -/
inductive Toks (E : Env) (U : Uni) : List SrcLine → List Tok → Prop
  | nil : Toks E U [] []
  | skip {l : SrcLine} {t : Tok} {ls : List SrcLine} {T : List Tok} (h1 : l.command? = none) (h2 : l.meta? = none)
      (h3 : t.rule = .comment ∨ t.rule = .emptyLine) (h : Toks E U ls T) : Toks E U (l :: ls) (t :: T)
  | gone {l : SrcLine} {ls : List SrcLine} {T : List Tok} (h1 : l.command? = none) (h2 : l.meta? = none) (h : Toks E U ls T) : Toks E U (l :: ls) T
  | cmd {l : SrcLine} {t : Tok} {ls : List SrcLine} {T : List Tok} (c : Command) (h1 : l.command? = some c) (h2 : l.meta? = none)
      (h3 : t.rule = .add ∨ t.rule = .remove ∨ t.rule = .from_) (h4 : Ins.commandOf E U t = .ok c) (h : Toks E U ls T) : Toks E U (l :: ls) (t :: T)
  | meta1 {l : SrcLine} {t : Tok} {ls : List SrcLine} {T : List Tok} (k v : Str) (h1 : l.command? = none) (h2 : l.meta? = some (k, v))
      (h3 : t.rule = .metaComment) (h4 : Ins.metaLoop t.kids ([], []) = .ok (k, v)) (hk : k ≠ []) (hv : v ≠ []) (h : Toks E U ls T) : Toks E U (l :: ls) (t :: T)
  | meta2 {l : SrcLine} {t t' : Tok} {ls : List SrcLine} {T : List Tok} (k v : Str) (h1 : l.command? = none) (h2 : l.meta? = some (k, v))
      (h3 : t.rule = .metaComment) (h4 : Ins.metaLoop t.kids ([], []) = .ok (k, v)) (hk : k ≠ []) (hv : v ≠ []) (h5 : t'.rule = .emptyLine)
      (h : Toks E U ls T) : Toks E U (l :: ls) (t :: t' :: T)

/-- the meta data after some lines -/
def srcMeta (m : FMap Str) (ls : List SrcLine) : FMap Str := (ls.filterMap SrcLine.meta?).foldl (fun m p => m.insert p.1 p.2) m

theorem srcMeta_get (m : FMap Str) (ls : List SrcLine) (key : Str) : (srcMeta m ls).get key = (metaIn? ls key).or (m.get key) := by
  unfold srcMeta metaIn?
  generalize ls.filterMap SrcLine.meta? = l
  induction l generalizing m with
  | nil => rfl
  | cons p l ih =>
    rw [List.foldl_cons, ih, FMap.get_insert]
    simp only [List.reverse_cons, List.find?_append]
    cases (l.reverse.find? fun p => decide (p.1 = key)) with
    | some q => rfl
    | none =>
      by_cases h : key = p.1
      · subst h; simp
      · have h' : ¬ p.1 = key := fun e => h e.symm
        simp [h, h']

theorem tokLoop_skip {E : Env} {U : Uni} {t : Tok} (h : t.rule = .comment ∨ t.rule = .emptyLine) (ast : OCAAst) (n : Nat) (T : List Tok) :
    Ins.tokLoop E U ast n (t :: T) = Ins.tokLoop E U ast (n + 1) T := by
  rw [Ins.tokLoop]
  unfold Ins.lineOf
  rcases h with h | h <;> rw [h] <;> rfl

theorem tokLoop_meta {E : Env} {U : Uni} {t : Tok} {k v : Str} (h : t.rule = .metaComment) (h4 : Ins.metaLoop t.kids ([], []) = .ok (k, v))
    (hk : k ≠ []) (hv : v ≠ []) (ast : OCAAst) (n : Nat) (T : List Tok) :
    Ins.tokLoop E U ast n (t :: T) = Ins.tokLoop E U { ast with metaMap := ast.metaMap.insert k v } (n + 1) T := by
  rw [Ins.tokLoop]
  unfold Ins.lineOf
  have h1 : k.isEmpty = false := by simpa using hk
  have h2 : v.isEmpty = false := by simpa using hv
  rw [h]
  dsimp only
  rw [h4]
  simp [parseLine, h1, h2]

theorem lineOf_cmd {E : Env} {U : Uni} {t : Tok} {c : Command} (h : t.rule = .add ∨ t.rule = .remove ∨ t.rule = .from_)
    (h4 : Ins.commandOf E U t = .ok c) : Ins.lineOf E U t = .ok (.instr t.text (.ok c)) := by
  unfold Ins.lineOf
  rcases h with h | h | h <;> rw [h] <;> dsimp only <;> rw [h4]

/-- the loop over the tokens of accepted commands -/
theorem toks_ok {E : Env} {U : Uni} {ls : List SrcLine} {T : List Tok} (h : Toks E U ls T) : ∀ (ast : OCAAst) (n : Nat), ast.version = c!"1.0.0" →
    (∀ pre c post, commandsIn ls = pre ++ c :: post → ¬ BreaksRules (ast.commands ++ pre) c) →
    ∃ out n', (∀ T', Ins.tokLoop E U ast n (T ++ T') = Ins.tokLoop E U out n' T') ∧ out.version = c!"1.0.0" ∧
      out.commands = ast.commands ++ commandsIn ls ∧ out.metaMap = srcMeta ast.metaMap ls := by
  induction h with
  | nil => intro ast n hv _; exact ⟨ast, n, fun _ => rfl, hv, by simp [commandsIn], rfl⟩
  | skip h1 h2 h3 h ih =>
    intro ast n hv hb
    simp only [commandsIn, srcMeta, List.filterMap_cons, h1, h2] at hb ⊢
    obtain ⟨out, n', h5, h6, h7, h8⟩ := ih ast (n + 1) hv hb
    exact ⟨out, n', fun T' => by rw [List.cons_append, tokLoop_skip h3, h5], h6, h7, h8⟩
  | gone h1 h2 h ih =>
    intro ast n hv hb
    simp only [commandsIn, srcMeta, List.filterMap_cons, h1, h2] at hb ⊢
    exact ih ast n hv hb
  | cmd c h1 h2 h3 h4 h ih =>
    rename_i l t ls T
    intro ast n hv hb
    simp only [commandsIn, srcMeta, List.filterMap_cons, h1, h2] at hb ⊢
    have hval : astValidate ast c = .ok () :=
      (C10_validate_exact ast c).1.2 ⟨hv, by simpa using hb [] c _ rfl⟩
    obtain ⟨out, n', h5, h6, h7, h8⟩ := ih { ast with
        commands := ast.commands ++ [c],
        commandsMeta := ast.commandsMeta ++ [(ast.commands.length, ⟨n + 1, t.text⟩)] } (n + 1) hv (fun pre d post e => by
      have := hb (c :: pre) d post (by unfold commandsIn at e; rw [e]; rfl)
      simpa using this)
    refine ⟨out, n', fun T' => ?_, h6, by rw [h7]; simp [commandsIn], h8⟩
    rw [List.cons_append, Ins.tokLoop, lineOf_cmd h3 h4]
    dsimp only [parseLine]
    rw [hval]
    exact h5 T'
  | meta1 k v h1 h2 h3 h4 hk hv' h ih =>
    intro ast n hv hb
    simp only [commandsIn, srcMeta, List.filterMap_cons, h1, h2, List.foldl_cons] at hb ⊢
    obtain ⟨out, n', h5, h6, h7, h8⟩ := ih { ast with metaMap := ast.metaMap.insert k v } (n + 1) hv hb
    exact ⟨out, n', fun T' => by rw [List.cons_append, tokLoop_meta h3 h4 hk hv', h5], h6, h7, h8⟩
  | meta2 k v h1 h2 h3 h4 hk hv' h5 h ih =>
    intro ast n hv hb
    simp only [commandsIn, srcMeta, List.filterMap_cons, h1, h2, List.foldl_cons] at hb ⊢
    obtain ⟨out, n', h9, h6, h7, h8⟩ := ih { ast with metaMap := ast.metaMap.insert k v } (n + 1 + 1) hv hb
    exact ⟨out, n', fun T' => by
      rw [List.cons_append, List.cons_append, tokLoop_meta h3 h4 hk hv', tokLoop_skip (.inr h5), h9], h6, h7, h8⟩

/-- the loop over the tokens when a command breaks the rules -/
theorem toks_err {E : Env} {U : Uni} {ls : List SrcLine} {T : List Tok} (h : Toks E U ls T) : ∀ (ast : OCAAst) (n : Nat), ast.version = c!"1.0.0" →
    (∃ pre c post, commandsIn ls = pre ++ c :: post ∧ BreaksRules (ast.commands ++ pre) c) →
    ∃ es, ∀ T', Ins.tokLoop E U ast n (T ++ T') = .err (.validation es) := by
  induction h with
  | nil => rintro ast n _ ⟨pre, c, post, e, -⟩; cases pre <;> cases e
  | skip h1 h2 h3 h ih =>
    intro ast n hv hb
    simp only [commandsIn, List.filterMap_cons, h1] at hb
    obtain ⟨es, h5⟩ := ih ast (n + 1) hv hb
    exact ⟨es, fun T' => by rw [List.cons_append, tokLoop_skip h3, h5]⟩
  | gone h1 h2 h ih =>
    intro ast n hv hb
    simp only [commandsIn, List.filterMap_cons, h1] at hb
    exact ih ast n hv hb
  | cmd c h1 h2 h3 h4 h ih =>
    rename_i l t ls T
    rintro ast n hv ⟨pre, d, post, e, hb⟩
    simp only [commandsIn, List.filterMap_cons, h1] at e
    cases hval : astValidate ast c with
    | panic => exact absurd hval (C10_validate_exact ast c).2
    | err es =>
      refine ⟨es, fun T' => ?_⟩
      rw [List.cons_append, Ins.tokLoop, lineOf_cmd h3 h4]
      dsimp only [parseLine]
      rw [hval]
    | ok u =>
      have hn := ((C10_validate_exact ast c).1.1 hval).2
      cases pre with
      | nil =>
        obtain ⟨rfl, -⟩ := List.cons.inj e
        exact absurd (by simpa using hb) hn
      | cons c' pre =>
        obtain ⟨rfl, e'⟩ := List.cons.inj e
        obtain ⟨es, h5⟩ := ih { ast with
            commands := ast.commands ++ [c],
            commandsMeta := ast.commandsMeta ++ [(ast.commands.length, ⟨n + 1, t.text⟩)] } (n + 1) hv ⟨pre, d, post, e', by simpa using hb⟩
        refine ⟨es, fun T' => ?_⟩
        rw [List.cons_append, Ins.tokLoop, lineOf_cmd h3 h4]
        dsimp only [parseLine]
        rw [hval]
        exact h5 T'
  | meta1 k v h1 h2 h3 h4 hk hv' h ih =>
    intro ast n hv hb
    simp only [commandsIn, List.filterMap_cons, h1] at hb
    obtain ⟨es, h5⟩ := ih { ast with metaMap := ast.metaMap.insert k v } (n + 1) hv hb
    exact ⟨es, fun T' => by rw [List.cons_append, tokLoop_meta h3 h4 hk hv', h5]⟩
  | meta2 k v h1 h2 h3 h4 hk hv' h5 h ih =>
    intro ast n hv hb
    simp only [commandsIn, List.filterMap_cons, h1] at hb
    obtain ⟨es, h9⟩ := ih { ast with metaMap := ast.metaMap.insert k v } (n + 1 + 1) hv hb
    exact ⟨es, fun T' => by rw [List.cons_append, List.cons_append, tokLoop_meta h3 h4 hk hv', tokLoop_skip (.inr h5), h9]⟩

/-! ## What follows a command -/

theorem framing_fails_of {x : Str} (n : Nat) (hx : NW x) (hf : Fails (attrKey ~ₚ argWs ?ₚ ~ₚ lit c!"=" ~ₚ argWs ?ₚ ~ₚ jsonObject) true x) :
    Fails attrFramingKeyPairs false (sp n ++ x) := by
  refine Fails.compound _ ?_
  exact Fails.seqRight (starWs_spaces n hx) (Fails.seqLeft (Fails.atomic _ hf))

/-- blanks and a character that is not part of a name -/
theorem follow_char (n : Nat) {c : Char} (t : Str) (h : isAttrKeyChar c = false) (h1 : c ≠ ' ') (h2 : c ≠ '\t') (h3 : c ≠ '\\') (h4 : n = 0 → c ≠ '\n' ∧ c ≠ '\r') :
    Follow (sp n ++ c :: t) := by
  refine ⟨fun a => newline_fails ?_, framing_fails_of n (NW.cons h1 h2 h3 _) (keyEq_fails (notKey_cons h _))⟩
  intro d u e
  cases n with
  | zero => cases e; exact h4 rfl
  | succ n => cases e; decide

/-- a name and something else than `=` -/
theorem follow_word {w : Str} (hw : IsKey w) (n : Nat) {c : Char} {t : Str} (h1 : c ≠ '=') (h2 : NW (c :: t)) (h3 : n = 0 → isAttrKeyChar c = false)
    {q : P} {a : Bool} : Fails (attrKey ~ₚ argWs ?ₚ ~ₚ lit c!"=" ~ₚ argWs ?ₚ ~ₚ q) a (w ++ (sp n ++ c :: t)) := by
  refine Fails.seqRight (attrKey_yields hw a ?_) ?_
  · intro d r e
    cases n with
    | zero => cases e; exact h3 rfl
    | succ n => cases e; decide
  · exact Fails.seqRight (optWs_spaces n h2) (Fails.seqLeft (Fails.lit (Ne.symm h1) _ _ _))

theorem jsonObject_fails {a : Bool} {i : Str} (h : ∀ c t, i = c :: t → c ≠ '{') : Fails jsonObject a i := by
  rw [jsonObject_eq]
  refine Fails.compound _ (Fails.seqLeft ?_)
  cases i with
  | nil => rfl
  | cons c t => exact Fails.lit (Ne.symm (h c t rfl)) _ _ _

theorem follow_from {U : Uni} {s : Str} (h : IsWord U s) (r : Str) : Follow (c!"FROM " ++ s ++ r) := by
  obtain ⟨hn, hs⟩ := h
  cases s with
  | nil => exact absurd rfl hn
  | cons c s =>
    have hc := hs c (.head _)
    have hw : NW (c :: (s ++ r)) := by
      refine NW.cons ?_ ?_ ?_ _ <;> rintro rfl <;> rw [isChar_ascii U (by decide) (by decide)] at hc <;> cases hc
    have he : c ≠ '=' := by rintro rfl; rw [isChar_ascii U (by decide) (by decide)] at hc; cases hc
    refine ⟨fun a => rfl, ?_⟩
    have := framing_fails_of 0 (x := c!"FROM" ++ (sp 1 ++ c :: (s ++ r))) (NW.cons (by decide) (by decide) (by decide) _)
      (follow_word (w := c!"FROM") ⟨by decide, by decide⟩ 1 he hw (fun e => by cases e))
    simpa [sp] using this

/-! ## Meta lines -/

/-- the three keys -/
def semKeys : List Str := [c!"name", c!"version", c!"precompiler"]

theorem semKey_yields {k : Str} (h : k ∈ semKeys) (a : Bool) (rest : Str) : Yields semMetaKey a k [.node .metaAttrKey k []] rest := by
  simp only [semKeys, List.mem_cons, List.not_mem_nil, or_false] at h
  refine Yields.compound _ _ ?_
  rcases h with rfl | rfl | rfl
  · exact Yields.altLeft (.lit _ _ _)
  · exact Yields.altRight (Fails.lit (by decide) _ _ _) (Yields.altLeft (.lit _ _ _))
  · exact Yields.altRight (Fails.lit (by decide) _ _ _) (Yields.altRight (Fails.lit (by decide) _ _ _) (.lit _ _ _))

theorem semKey_top {k : Str} (h : k ∈ semKeys) : k ∈ topKeys := by
  simp only [semKeys, List.mem_cons, List.not_mem_nil, or_false] at h
  rcases h with rfl | rfl | rfl <;> simp [topKeys]

theorem semKey_blank (r : Str) (a : Bool) : Fails semMetaKey a (' ' :: r) :=
  Fails.compound _ (.alt (Fails.lit (by decide) _ _ _) (.alt (Fails.lit (by decide) _ _ _) (Fails.lit (by decide) _ _ _)))

theorem semKey_start {k : Str} (h : k ∈ semKeys) (r : Str) : ∃ c t, k ++ r = c :: t ∧ c ≠ ' ' ∧ c ≠ '\t' ∧ c ≠ '\n' ∧ c ≠ '\r' ∧ c ≠ '=' ∧ c ≠ '\\' := by
  simp only [semKeys, List.mem_cons, List.not_mem_nil, or_false] at h
  rcases h with rfl | rfl | rfl <;> exact ⟨_, _, rfl, by decide⟩

/-- `-- key = value`: the token of the meta line, and what is left -/
theorem metaItem_yields {U : Uni} {n a b e : Nat} {k v : Str} (hk : k ∈ semKeys) (hv : IsMetaValue U v) :
    ∃ ts, ∀ x r, (∀ r', NoChar U (sp e ++ '\n' :: r')) → (∃ r', sp e ++ '\n' :: r' = x ++ r) → Yields (newline ?ₚ) false x [] r →
      Yields (emptyLine |ₚ metaCommentLine U semMetaKey |ₚ commentLine |ₚ commands U) false (c!"--" ++ (sp n ++ metaPairText k a b v) ++ x)
        [.node .metaComment (c!"--" ++ (sp n ++ metaPairText k a b v)) [.node .metaAttrKey k [], .node .metaAttrValue v ts]] r := by
  obtain ⟨ts, hts⟩ := metaValue_yields hv
  refine ⟨ts, fun x r hno hx hn => ?_⟩
  obtain ⟨r', hx⟩ := hx
  have hpair : Yields (metaKeyPair U semMetaKey) true (metaPairText k a b v) [.node .metaAttrKey k [], .node .metaAttrValue v ts] (x ++ r) := by
    refine Yields.atomicIn _ ?_
    refine Yields.seq' (s := k) (ts := [.node .metaAttrKey k []]) (semKey_yields hk _ _) ?_ rfl rfl
    refine Yields.seq' (s := sp a) (ts := []) (optWs_spaces a (NW.cons (c := '=') (by decide) (by decide) (by decide) _)) ?_ rfl rfl
    refine Yields.seq' (s := ['=']) (ts := []) (.lit _ _ _) ?_ rfl rfl
    exact Yields.seq' (s := sp b) (ts := []) (optWs_spaces b (metaValue_nw hv _)) (hts _ _ (by rw [← hx]; exact hno r')) rfl rfl
  have hpair' : Yields (!ₚnewline ~ₚ metaKeyPair U semMetaKey) true (metaPairText k a b v) [.node .metaAttrKey k [], .node .metaAttrValue v ts] (x ++ r) := by
    refine Yields.seq' (s := []) (ts := []) (Yields.neg ?_) hpair rfl rfl
    obtain ⟨c, t, hc, -, -, h3, h4, -⟩ := semKey_start hk (sp a ++ ('=' :: (sp b ++ v)) ++ (x ++ r))
    refine newline_fails (fun d u e => ?_)
    have : metaPairText k a b v ++ (x ++ r) = c :: t := by rw [← hc]; simp [metaPairText]
    rw [this] at e
    cases e; exact ⟨h3, h4⟩
  have hstop : Fails (!ₚnewline ~ₚ metaKeyPair U semMetaKey) true (x ++ r) := by
    rw [← hx]
    cases e with
    | zero => exact Fails.seqLeft rfl
    | succ e =>
      exact Fails.seqRight (s := []) (ts := []) (Yields.neg (newline_fails (by rintro d u h; cases h; decide)))
        (Fails.atomic _ (Fails.seqLeft (semKey_blank _ _)))
  have hmeta : Yields (metaComment U semMetaKey) false (c!"--" ++ (sp n ++ metaPairText k a b v))
      [.node .metaComment (c!"--" ++ (sp n ++ metaPairText k a b v)) [.node .metaAttrKey k [], .node .metaAttrValue v ts]] (x ++ r) := by
    refine Yields.atomic _ (Yields.seq' (s := c!"--") (ts := []) (.lit _ _ _) ?_ rfl rfl)
    refine Yields.seq' (s := sp n) (ts := []) (wsRun_yields n ?_) ?_ rfl rfl
    · obtain ⟨c, t, hc, h1, h2, -⟩ := semKey_start hk (sp a ++ ('=' :: (sp b ++ v)) ++ (x ++ r))
      intro d u e
      have : metaPairText k a b v ++ (x ++ r) = c :: t := by rw [← hc]; simp [metaPairText]
      rw [this] at e
      cases e; exact ⟨h1, h2⟩
    · have := Yields.starCons (s' := []) (by obtain ⟨c, t, rfl, -⟩ := key_noblank (semKey_top hk); simp [metaPairText]) hpair' (Yields.starNil hstop)
      simpa using this
  refine Yields.altRight ?_ (Yields.altLeft ?_)
  · exact Fails.atomic _ (Fails.seqRight (s := sp 0) (wsRun_yields 0 (by rintro d u e; cases e; decide))
        (newline_fails (by rintro d u e; cases e; decide)))
  · refine Yields.seq' (s := sp 0) (ts := []) (wsRun_yields 0 (by rintro d u e; cases e; decide)) ?_ rfl rfl
    exact Yields.seq' (ts' := []) hmeta hn rfl rfl

theorem semKey_isKey {k : Str} (h : k ∈ semKeys) : IsKey (c!"--" ++ k) := by
  simp only [semKeys, List.mem_cons, List.not_mem_nil, or_false] at h
  rcases h with rfl | rfl | rfl <;> exact ⟨by decide, by decide⟩

theorem metaValue_start {U : Uni} {v : Str} (h : IsMetaValue U v) (r : Str) : ∀ c t, v ++ r = c :: t → c ≠ '{' := by
  rintro c t e rfl
  rcases h with h | ⟨q, rfl, -⟩
  · cases v with
    | nil => exact absurd rfl h.1
    | cons d v =>
      cases e
      have := h.2 '{' (.head _)
      rw [isChar_ascii U (by decide) (by decide)] at this
      cases this
  · cases e

theorem follow_meta {U : Uni} {n a b : Nat} {k v : Str} (hk : k ∈ semKeys) (hv : IsMetaValue U v) (r : Str) :
    Follow (c!"--" ++ (sp n ++ metaPairText k a b v) ++ r) := by
  refine ⟨fun _ => rfl, ?_⟩
  have hs : c!"--" ++ (sp n ++ metaPairText k a b v) ++ r = sp 0 ++ (c!"--" ++ (sp n ++ metaPairText k a b v) ++ r) := rfl
  rw [hs]
  refine framing_fails_of 0 (NW.cons (by decide) (by decide) (by decide) _) ?_
  cases n with
  | zero =>
    rw [show c!"--" ++ (sp 0 ++ metaPairText k a b v) ++ r = (c!"--" ++ k) ++ (sp a ++ ('=' :: (sp b ++ (v ++ r)))) by simp [sp, metaPairText]]
    refine Fails.seqRight (attrKey_yields (semKey_isKey hk) _ ?_) ?_
    · intro d u e
      cases a with
      | zero => cases e; decide
      | succ a => cases e; decide
    · refine Fails.seqRight (optWs_spaces a (NW.cons (by decide) (by decide) (by decide) _)) ?_
      refine Fails.seqRight (s := ['=']) (.lit _ _ _) ?_
      exact Fails.seqRight (optWs_spaces b (metaValue_nw hv _)) (jsonObject_fails (metaValue_start hv r))
  | succ n =>
    obtain ⟨c, t, hc, h1, h2, -, -, h3, h4⟩ := semKey_start hk (sp a ++ ('=' :: (sp b ++ v)) ++ r)
    rw [show c!"--" ++ (sp (n + 1) ++ metaPairText k a b v) ++ r = c!"--" ++ (sp (n + 1) ++ c :: t) by rw [← hc]; simp [metaPairText]]
    exact follow_word (w := c!"--") ⟨by decide, by decide⟩ (n + 1) h3 (NW.cons h1 h2 h4 _) (fun e => by cases e)

/-! ## Comments, blanks, FROM -/

theorem commentText_yields {t : Str} (h : ∀ c ∈ t, c ≠ '\n' ∧ c ≠ '\r') (r : Str) : Yields (!ₚnewline ~ₚ any : P)*ₚ true t [] ('\n' :: r) := by
  induction t with
  | nil => exact Yields.starNil (Fails.seqLeft rfl)
  | cons c t ih =>
    refine Yields.starCons (s := [c]) (ts := []) (by simp) ?_ (ih fun x hx => h x (.tail _ hx))
    refine Yields.seq' (s := []) (s' := [c]) (ts := []) (Yields.neg ?_) (Yields.cls rfl _ _) rfl rfl
    exact newline_fails (by rintro d u e; cases e; exact h c (.head _))

theorem comment_yields {U : Uni} (n : Nat) {t : Str} (h : ∀ c ∈ t, c ≠ '\n' ∧ c ≠ '\r') (r : Str) :
    Yields (emptyLine |ₚ metaCommentLine U semMetaKey |ₚ commentLine |ₚ commands U) false (sp n ++ ('#' :: (t ++ ['\n'])))
      [.node .comment ('#' :: t) []] r := by
  have hw : ∀ y, ∀ c u, '#' :: y = c :: u → c ≠ ' ' ∧ c ≠ '\t' := by rintro y c u e; cases e; decide
  refine Yields.altRight ?_ (Yields.altRight ?_ (Yields.altLeft ?_))
  · rw [List.append_assoc]
    exact Fails.atomic _ (Fails.seqRight (wsRun_yields n (hw _)) (newline_fails (by rintro d u e; cases e; decide)))
  · rw [List.append_assoc]
    exact Fails.seqRight (wsRun_yields n (hw _)) (Fails.seqLeft (Fails.atomic _ (Fails.seqLeft (Fails.lit (by decide) _ _ _))))
  · refine Yields.seq' (s := sp n) (ts := []) (wsRun_yields n (hw _)) ?_ rfl rfl
    refine Yields.seq' (s := '#' :: t) (s' := ['\n']) (ts' := []) (ts := [.node .comment ('#' :: t) []]) ?_ (Yields.optSome (Yields.altLeft (.lit _ _ _))) (by simp) rfl
    exact Yields.atomic _ (Yields.seq' (s := ['#']) (ts := []) (.lit _ _ _) (commentText_yields h r) rfl rfl)

theorem blank_yields {U : Uni} (n : Nat) (r : Str) :
    Yields (emptyLine |ₚ metaCommentLine U semMetaKey |ₚ commentLine |ₚ commands U) false (sp n ++ ['\n']) [.node .emptyLine (sp n ++ ['\n']) []] r := by
  refine Yields.altLeft (Yields.atomic _ ?_)
  exact Yields.seq' (s := sp n) (ts := []) (wsRun_yields n (by rintro c u e; cases e; decide)) (Yields.altLeft (.lit _ _ _)) rfl rfl

theorem from_yields {U : Uni} {s : Str} (h : IsWord U s) : ∃ ts, ∀ r,
    Yields (emptyLine |ₚ metaCommentLine U semMetaKey |ₚ commentLine |ₚ commands U) false (c!"FROM " ++ s ++ ['\n'])
      [.node .from_ (c!"FROM " ++ s) [.node .fromSaid s ts]] r := by
  obtain ⟨ts, hts⟩ := charPlus_false h
  refine ⟨ts, fun r => ?_⟩
  have hs : ∀ y c u, s ++ y = c :: u → c ≠ ' ' ∧ c ≠ '\t' := by
    intro y c u e
    obtain ⟨hn, hs⟩ := h
    cases s with
    | nil => exact absurd rfl hn
    | cons d s =>
      cases e
      have hc := hs c (.head _)
      constructor <;> rintro rfl <;> rw [isChar_ascii U (by decide) (by decide)] at hc <;> cases hc
  refine lineItem_yields ?_ ⟨'F', _, rfl, by decide⟩
  refine lineBreak_yields (Yields.altLeft ?_)
  refine Yields.normal _ ?_
  refine Yields.seq' (s := c!"FROM") (ts := []) (Yields.ilit (by decide) _ _) ?_ rfl rfl
  refine Yields.seq' (s := sp 1) (ts := []) (wsRun_yields 1 (hs _)) ?_ rfl rfl
  refine Yields.normal _ (Yields.seq' (s := sp 0) (ts := []) (wsRun_yields 0 (hs _)) (hts _ ?_) rfl rfl)
  intro c u e
  cases e
  exact isChar_ascii U (by decide) (by decide)

theorem from_command {E : Env} {U : Uni} {s : Str} (hv : E.validSaid s = true) (u : Str) (ts : List Tok) :
    Ins.commandOf E U (.node .from_ u [.node .fromSaid s ts]) = .ok ⟨.«from», .ocaBundle (.said s)⟩ := by
  simp [Ins.commandOf, Tree.rule, Ins.fromOf, Tree.kids, Ins.fromLoop, Tree.text, hv]

/-! ## Whole files -/

theorem commandLine_of {E : Env} {U : Uni} {c : Command} (h : Printable E U c) :
    ∃ x : CmdLine, x.Ok U ∧ commandLine c = x.text ∧ (x.tok.rule = .add ∨ x.tok.rule = .remove) ∧ Ins.commandOf E U x.tok = .ok c.reread := by
  obtain ⟨x, s, hx, hp, ht, hr, hc, -⟩ := lined_of_printable h
  exact ⟨x, hx, by unfold commandLine; rw [hp]; exact ht.symm, hr, hc⟩

theorem render_comment (n : Nat) (t : Str) : (SrcLine.comment n t).render = sp n ++ ('#' :: (t ++ ['\n'])) := by
  simp [SrcLine.render, sp]

theorem render_meta (n : Nat) (k : Str) (a b : Nat) (v : Str) (e : Nat) :
    (SrcLine.metaLine n k a b v e).render = c!"--" ++ (sp n ++ metaPairText k a b v) ++ (sp e ++ ['\n']) := by
  simp [SrcLine.render, metaPairText, sp]

/-- what can follow a command: a line break alone, or something that is neither a frame nor a line break -/
theorem lines_follow {E : Env} {U : Uni} (ls : List SrcLine) (h : ∀ l ∈ ls, l.Ok E U) (rest : Str) (hr : Follow rest) :
    (∃ ls', ls = .blank 0 :: ls') ∨ Follow (fileText ls ++ rest) := by
  cases ls with
  | nil => exact .inr hr
  | cons l ls =>
    have hl := h l (.head _)
    rw [show fileText (l :: ls) ++ rest = l.render ++ (fileText ls ++ rest) by simp [fileText]]
    cases l with
    | command c =>
      obtain ⟨x, hx, ht, -⟩ := commandLine_of hl
      right
      simp only [SrcLine.render]
      rw [ht]
      exact (hx.start _).follow
    | fromSaid s =>
      right
      have := follow_from hl.1 (c!"\n" ++ (fileText ls ++ rest))
      simpa [SrcLine.render] using this
    | comment n t =>
      right
      rw [render_comment, List.append_assoc]
      exact follow_char n _ (by decide) (by decide) (by decide) (by decide) (fun _ => by decide)
    | blank n =>
      cases n with
      | zero => exact .inl ⟨ls, rfl⟩
      | succ n =>
        right
        have := follow_char (n + 1) (c := '\n') (fileText ls ++ rest) (by decide) (by decide) (by decide) (by decide) (fun e => by cases e)
        simpa [SrcLine.render, sp] using this
    | metaLine n k a b v e =>
      right
      rw [render_meta, List.append_assoc]
      exact follow_meta (by simpa [semKeys] using hl.1) (show IsMetaValue U v from hl.2) _

/-- the tokens of a file -/
theorem lines_tokens {E : Env} {U : Uni} (s' r : Str) (ts' : List Tok) (hf : Follow (s' ++ r))
    (hs : Yields (emptyLine |ₚ metaCommentLine U semMetaKey |ₚ commentLine |ₚ commands U)*ₚ false s' ts' r) :
    ∀ (n : Nat) (ls : List SrcLine), ls.length ≤ n → (∀ l ∈ ls, l.Ok E U) → ∃ T, Toks E U ls T ∧
      Yields (emptyLine |ₚ metaCommentLine U semMetaKey |ₚ commentLine |ₚ commands U)*ₚ false (fileText ls ++ s') (T ++ ts') r := by
  intro n
  induction n with
  | zero =>
    intro ls hn _
    cases ls with
    | nil => exact ⟨[], .nil, hs⟩
    | cons l ls => simp at hn
  | succ n ih =>
    intro ls hn h
    cases ls with
    | nil => exact ⟨[], .nil, hs⟩
    | cons l ls =>
      have hl := h l (.head _)
      have ht := fun y hy => h y (.tail _ hy)
      simp only [List.length_cons, Nat.add_le_add_iff_right] at hn
      have hcons : fileText (l :: ls) ++ s' = l.render ++ (fileText ls ++ s') := by simp [fileText]
      rw [hcons]
      obtain ⟨T, hT, hy⟩ := ih ls hn ht
      cases l with
      | command c =>
        obtain ⟨x, hx, htx, hrule, hcmd⟩ := commandLine_of hl
        have hstart := hx.start []
        rw [List.append_nil] at hstart
        have hne : ∀ z, ∃ c t, x.text ++ z = c :: t ∧ c ≠ ' ' ∧ c ≠ '\t' ∧ c ≠ '#' ∧ c ≠ '-' ∧ c ≠ '\n' ∧ c ≠ '\r' := by
          intro z
          rcases hstart with h0 | ⟨c, u, h0, -⟩ | ⟨c, u, h0, -⟩
          · exact absurd h0 hx.ne
          · exact ⟨'A', _, by rw [h0]; rfl, by decide⟩
          · exact ⟨'R', _, by rw [h0]; rfl, by decide⟩
        have hne0 := hne []
        rw [List.append_nil] at hne0
        simp only [SrcLine.render]
        rw [htx]
        have hcase : ∀ x' ls' T', Yields (commands U) false (x.text ++ x') [x.tok] ((fileText ls' ++ s') ++ r) → Toks E U (.command c :: ls) (x.tok :: T') →
            Yields (emptyLine |ₚ metaCommentLine U semMetaKey |ₚ commentLine |ₚ commands U)*ₚ false (fileText ls' ++ s') (T' ++ ts') r →
            x.text ++ (fileText ls ++ s') = (x.text ++ x') ++ (fileText ls' ++ s') →
            ∃ T, Toks E U (.command c :: ls) T ∧
              Yields (emptyLine |ₚ metaCommentLine U semMetaKey |ₚ commentLine |ₚ commands U)*ₚ false (x.text ++ (fileText ls ++ s')) (T ++ ts') r := by
          intro x' ls' T' h1 h2 h3 h4
          refine ⟨x.tok :: T', h2, ?_⟩
          rw [h4]
          exact Yields.of_eq (Yields.starCons (by have := hx.ne; simp [this]) (lineItem_yields h1 (hne x')) h3) rfl rfl
        rcases lines_follow ls ht (s' ++ r) hf with ⟨ls', rfl⟩ | hfo
        · rcases hx.readsBlank ((fileText ls' ++ s') ++ r) with hb | hb
          · refine hcase [] (.blank 0 :: ls') T ?_ (.cmd _ rfl rfl (by rcases hrule with h | h <;> simp [h]) hcmd hT) hy (by simp)
            simpa [fileText, SrcLine.render] using hb
          · obtain ⟨T', hT', hy'⟩ := ih ls' (by simp at hn; omega) fun y hy => ht y (.tail _ hy)
            refine hcase ['\n'] ls' T' hb (.cmd _ rfl rfl (by rcases hrule with h | h <;> simp [h]) hcmd (.gone rfl rfl hT')) hy' ?_
            simp [fileText, SrcLine.render]
        · refine hcase [] ls T ?_ (.cmd _ rfl rfl (by rcases hrule with h | h <;> simp [h]) hcmd hT) hy (by simp)
          simpa using hx.reads _ (by simpa using hfo)
      | fromSaid s =>
        obtain ⟨ts, hts⟩ := from_yields (U := U) hl.1
        refine ⟨_, .cmd _ rfl rfl (.inr (.inr rfl)) (from_command hl.2 (c!"FROM " ++ s) ts) hT, ?_⟩
        exact Yields.of_eq (Yields.starCons (by simp) (hts _) hy) rfl rfl
      | comment m t =>
        refine ⟨.node .comment ('#' :: t) [] :: T, .skip rfl rfl (.inl rfl) hT, ?_⟩
        rw [render_comment]
        exact Yields.of_eq (Yields.starCons (by simp) (comment_yields m hl _) hy) rfl rfl
      | blank m =>
        refine ⟨.node .emptyLine (sp m ++ ['\n']) [] :: T, .skip rfl rfl (.inr rfl) hT, ?_⟩
        exact Yields.of_eq (Yields.starCons (by simp) (blank_yields m _) hy) rfl rfl
      | metaLine m k a b v e =>
        have hk : k ∈ semKeys := by simpa [semKeys] using hl.1
        have hv : IsMetaValue U v := hl.2
        obtain ⟨ts, hts⟩ := metaItem_yields (n := m) (a := a) (b := b) (e := e) hk hv
        have hno : ∀ r', NoChar U (sp e ++ '\n' :: r') := by
          intro r'
          cases e with
          | zero => exact fun c r h => by cases h; exact isChar_ascii U (by decide) (by decide)
          | succ e => exact fun c r h => by cases h; exact isChar_ascii U (by decide) (by decide)
        have hkne : k ≠ [] := by obtain ⟨c, t, rfl, -⟩ := key_noblank (semKey_top hk); simp
        have hvne : v ≠ [] := by
          rcases hv with h | ⟨q, rfl, -⟩
          · exact h.1
          · simp [Pr.quoted]
        rw [render_meta]
        cases e with
        | zero =>
          refine ⟨_, .meta1 (t := (.node .metaComment (c!"--" ++ (sp m ++ metaPairText k a b v)) [.node .metaAttrKey k [], .node .metaAttrValue v ts])) k v rfl rfl rfl rfl hkne hvne hT, ?_⟩
          exact Yields.of_eq (Yields.starCons (by simp) (hts ['\n'] _ hno ⟨_, rfl⟩ (Yields.optSome (Yields.altLeft (.lit _ _ _)))) hy) rfl rfl
        | succ e =>
          refine ⟨_, .meta2 (t := (.node .metaComment (c!"--" ++ (sp m ++ metaPairText k a b v)) [.node .metaAttrKey k [], .node .metaAttrValue v ts]))
            (t' := .node .emptyLine (sp (e + 1) ++ ['\n']) []) k v rfl rfl rfl rfl hkne hvne rfl hT, ?_⟩
          have h2 := Yields.starCons (by simp) (blank_yields (U := U) (e + 1) ((fileText ls ++ s') ++ r)) hy
          have h1 := hts [] ((sp (e + 1) ++ ['\n'] ++ (fileText ls ++ s')) ++ r) hno ⟨(fileText ls ++ s') ++ r, by simp⟩
            (Yields.optNone (newline_fails (by rintro d u h; cases h; decide)))
          refine Yields.of_eq (Yields.starCons (by simp) h1 h2) (by simp) rfl

/-- the tokens of a file of lines and nothing else -/
theorem file_tokens {E : Env} {U : Uni} (ls : List SrcLine) (h : ∀ l ∈ ls, l.Ok E U) :
    ∃ T, Toks E U ls T ∧ parseText E U (fileText ls) = Ins.tokLoop E U OCAAst.new 0 (T ++ [.node .eoi [] []]) := by
  obtain ⟨T, hT, hy⟩ := lines_tokens (E := E) (U := U) [] [] [] (LineStart.follow (.inl rfl)) (Yields.starNil lineItem_end) ls.length ls (Nat.le_refl _) h
  refine ⟨T, hT, ?_⟩
  rw [List.append_nil, List.append_nil] at hy
  have h1 : Yields (file U) false (fileText ls) [.node .file (fileText ls) (T ++ [.node .eoi [] []])] [] := by
    refine Yields.normal _ ?_
    have he : Yields eoiTok false [] [.node .eoi [] []] [] := rfl
    exact Yields.seq' (s' := []) hy he (by simp) rfl
  unfold Yields at h1
  rw [List.append_nil] at h1
  unfold parseText
  rw [h1]
  rfl

/-- **C73** A file of commands, FROM lines, comments, blank lines and meta lines in any order, whose commands follow the rules, is parsed to its
commands in their order and the last value of every meta key: comments and blank lines have no meaning. -/
theorem C73_lines (E : Env) (U : Uni) (ls : List SrcLine) (h : ∀ l ∈ ls, l.Ok E U)
    (hb : ∀ pre c post, commandsIn ls = pre ++ c :: post → ¬ BreaksRules pre c) :
    ∃ out, parseText E U (fileText ls) = .ok out ∧ out.commands = commandsIn ls ∧ (∀ key, out.metaMap.get key = metaIn? ls key) ∧
      out.version = c!"1.0.0" := by
  obtain ⟨T, hT, hp⟩ := file_tokens ls h
  obtain ⟨out, n', h1, h2, h3, h4⟩ := toks_ok hT OCAAst.new 0 rfl hb
  refine ⟨out, ?_, h3, fun key => ?_, h2⟩
  · rw [hp, h1]; rfl
  · rw [h4, srcMeta_get]
    cases metaIn? ls key <;> rfl

/-- **C73** A file of such lines with a command that breaks the rules is refused by the validation. -/
theorem C73_refused (E : Env) (U : Uni) (ls : List SrcLine) (h : ∀ l ∈ ls, l.Ok E U) (pre post : List Command) (c : Command)
    (hc : commandsIn ls = pre ++ c :: post) (hb : BreaksRules pre c) :
    ∃ es, parseText E U (fileText ls) = .err (.validation es) := by
  obtain ⟨T, hT, hp⟩ := file_tokens ls h
  obtain ⟨es, h1⟩ := toks_err hT OCAAst.new 0 rfl ⟨pre, c, post, hc, hb⟩
  exact ⟨es, by rw [hp, h1]⟩

/-- **C73** Two files with the same commands mean the same, whatever comments, blank lines and meta lines they have. -/
theorem C73_same_commands (E : Env) (U : Uni) (ls ls' : List SrcLine) (h : ∀ l ∈ ls, l.Ok E U) (h' : ∀ l ∈ ls', l.Ok E U)
    (hc : commandsIn ls = commandsIn ls') (out : OCAAst) (ho : parseText E U (fileText ls) = .ok out) :
    ∃ out', parseText E U (fileText ls') = .ok out' ∧ out'.commands = out.commands ∧ out'.version = out.version := by
  have hb : ∀ pre c post, commandsIn ls = pre ++ c :: post → ¬ BreaksRules pre c := by
    intro pre c post e hb
    obtain ⟨es, he⟩ := C73_refused E U ls h pre post c e hb
    rw [ho] at he; cases he
  obtain ⟨o, h1, h2, -, h3⟩ := C73_lines E U ls h hb
  rw [ho] at h1
  cases h1
  obtain ⟨o', h1', h2', -, h3'⟩ := C73_lines E U ls' h' (by rw [← hc]; exact hb)
  exact ⟨o', h1', by rw [h2', h2, hc], by rw [h3', h3]⟩

/-! ## MODIFY -/

/-- one step of the loop of the grammar -/
abbrev lineItem (U : Uni) : P := emptyLine |ₚ metaCommentLine U semMetaKey |ₚ commentLine |ₚ commands U

theorem noEq_fails {p q r : P} (hp : Good p) (hq : Good q) {a : Bool} {i : Str} (h : '=' ∉ i) : Fails (p ~ₚ q ~ₚ lit c!"=" ~ₚ r) a i := by
  unfold Fails
  cases hi : (p ~ₚ q ~ₚ lit c!"=" ~ₚ r) a i with
  | none => rfl
  | some o =>
    obtain ⟨o1, o2, h1, h2, -⟩ := seq_some hi
    obtain ⟨o3, o4, h3, h4, -⟩ := seq_some h2
    obtain ⟨o5, o6, h5, -, -⟩ := seq_some h4
    have e1 := hp _ _ _ h1
    have e2 := hq _ _ _ h3
    simp only [Peg.lit, Option.map_eq_some_iff] at h5
    obtain ⟨x, h5, -⟩ := h5
    have e3 := stripPrefix_some h5
    rw [e1, e2, e3] at h
    simp at h

theorem follow_noEq {c : Char} {t : Str} (h : '=' ∉ c :: t) (h1 : NW (c :: t)) (h2 : c ≠ '\n' ∧ c ≠ '\r') : Follow (c :: t) :=
  ⟨fun a => newline_fails (by rintro d u e; cases e; exact h2), framing_fails_of 0 h1 (noEq_fails (good _) (good _) h)⟩

theorem newlineOpt_some (a : Bool) (i : Str) : ∃ o : Out Rule, (newline ?ₚ : P) a i = some o ∧ o.ts = [] := by
  have h : ∀ o : Out Rule, newline a i = some o → o.ts = [] := by
    intro o ho
    rcases alt_some ho with h | ⟨-, h⟩
    · simp only [Peg.lit, Option.map_eq_some_iff] at h; obtain ⟨_, _, rfl⟩ := h; rfl
    · rcases alt_some h with h | ⟨-, h⟩
      · simp only [Peg.lit, Option.map_eq_some_iff] at h; obtain ⟨_, _, rfl⟩ := h; rfl
      · simp only [Peg.lit, Option.map_eq_some_iff] at h; obtain ⟨_, _, rfl⟩ := h; rfl
  simp only [Peg.opt]
  cases hn : (newline : P) a i with
  | none => exact ⟨_, rfl, rfl⟩
  | some o => exact ⟨o, rfl, h o hn⟩

/-- at MODIFY only the rule of that name can succeed -/
theorem lineItem_modify {U : Uni} (rest : Str) {o : Out Rule} (h : lineItem U false (c!"MODIFY" ++ rest) = some o) :
    ∃ t, o.ts = [t] ∧ t.rule = .modify := by
  have hw : ∀ c u, c!"MODIFY" ++ rest = c :: u → c ≠ ' ' ∧ c ≠ '\t' := by rintro c u e; cases e; decide
  have f1 : Fails emptyLine false (c!"MODIFY" ++ rest) :=
    Fails.atomic _ (Fails.seqRight (s := sp 0) (wsRun_yields 0 hw) (newline_fails (by rintro d u e; cases e; decide)))
  have f2 : Fails (metaCommentLine U semMetaKey) false (c!"MODIFY" ++ rest) :=
    Fails.seqRight (s := sp 0) (wsRun_yields 0 hw) (Fails.seqLeft (Fails.atomic _ (Fails.seqLeft (Fails.lit (by decide) _ _ _))))
  have f3 : Fails commentLine false (c!"MODIFY" ++ rest) :=
    Fails.seqRight (s := sp 0) (wsRun_yields 0 hw) (Fails.seqLeft (Fails.atomic _ (Fails.seqLeft (Fails.lit (by decide) _ _ _))))
  have f4 : Fails (from_ U) false (c!"MODIFY" ++ rest) := kw_fails (by decide)
  have f5 : Fails (add U) false (c!"MODIFY" ++ rest) := kw_fails (by decide)
  have f6 : Fails (remove U) false (c!"MODIFY" ++ rest) := kw_fails (by decide)
  rcases alt_some h with h | ⟨-, h⟩
  · rw [f1] at h; cases h
  rcases alt_some h with h | ⟨-, h⟩
  · rw [f2] at h; cases h
  rcases alt_some h with h | ⟨-, h⟩
  · rw [f3] at h; cases h
  obtain ⟨o1, o2, h1, h2, rfl⟩ := seq_some h
  obtain ⟨o2', h2', he⟩ := newlineOpt_some false o1.r
  rw [h2'] at h2
  cases h2
  rcases alt_some h1 with h1 | ⟨-, h1⟩
  · rw [f4] at h1; cases h1
  rcases alt_some h1 with h1 | ⟨-, h1⟩
  · rw [f5] at h1; cases h1
  rcases alt_some h1 with h1 | ⟨-, h1⟩
  · simp only [Gr.modify, Peg.normal, if_false, Bool.false_eq_true] at h1
    obtain ⟨o3, -, h3⟩ := Option.map_eq_some_iff.1 h1
    rw [← h3]
    exact ⟨_, by simp [he]; rfl, rfl⟩
  · rw [f6] at h1; cases h1

/-- **C73** MODIFY is in the grammar but is no instruction: a file is refused at a MODIFY line, whatever follows it. -/
theorem C73_modify (E : Env) (U : Uni) (ls : List SrcLine) (h : ∀ l ∈ ls, l.Ok E U)
    (hb : ∀ pre c post, commandsIn ls = pre ++ c :: post → ¬ BreaksRules pre c) (rest : Str) (hr : '=' ∉ rest) :
    parseText E U (fileText ls ++ c!"MODIFY" ++ rest) = .err .grammar ∨ ∃ e, parseText E U (fileText ls ++ c!"MODIFY" ++ rest) = .err (.instruction e) := by
  have hf : Follow (c!"MODIFY" ++ rest) := follow_noEq (by simpa using hr) (NW.cons (by decide) (by decide) (by decide) _) (by decide)
  obtain ⟨o, ho⟩ := star_isSome (lineItem U) false (c!"MODIFY" ++ rest)
  have hgood := good (p := (lineItem U)*ₚ) _ _ _ ho
  have hy : Yields (lineItem U)*ₚ false o.u o.ts o.r := by
    unfold Yields
    rw [← hgood, ho]
  obtain ⟨T, hT, hy⟩ := lines_tokens (E := E) o.u o.r o.ts (by rw [← hgood]; exact hf) hy ls.length ls (Nat.le_refl _) h
  have htext : fileText ls ++ c!"MODIFY" ++ rest = (fileText ls ++ o.u) ++ o.r := by rw [List.append_assoc, hgood, List.append_assoc]
  rw [htext]
  have hfile : ∀ x y z, Yields (lineItem U)*ₚ false x y z → file U false (x ++ z) =
      (match z with
      | [] => some ⟨[.node .file (x ++ []) (y ++ [.node .eoi [] []])], x ++ [], []⟩
      | _ => none) := by
    intro x y z hxy
    unfold Yields at hxy
    simp only [file, Peg.normal, Peg.seq, hxy, eoiTok, Peg.eoi]
    cases z <;> rfl
  cases hz : o.r with
  | cons c z =>
    left
    rw [hz] at hy
    have := hfile _ _ _ hy
    unfold parseText
    rw [this]
  | nil =>
    right
    rw [hz] at hy
    have hp := hfile _ _ _ hy
    have hp' : parseText E U (fileText ls ++ o.u ++ []) = Ins.tokLoop E U OCAAst.new 0 ((T ++ o.ts) ++ [.node .eoi [] []]) := by
      unfold parseText
      rw [hp]
      rfl
    rw [hp', List.append_assoc]
    obtain ⟨out, n', h1, -⟩ := toks_ok hT OCAAst.new 0 rfl hb
    rw [h1]
    rw [star_eq] at ho
    cases hi : lineItem U false (c!"MODIFY" ++ rest) with
    | none =>
      rw [hi] at ho
      cases ho
      cases hz
    | some o1 =>
      obtain ⟨t, ht, hrule⟩ := lineItem_modify rest hi
      rw [hi] at ho
      have : ∃ tl, o.ts = t :: tl := by
        dsimp only at ho
        split at ho
        · cases h2 : (lineItem U)*ₚ false o1.r with
          | none => rw [h2] at ho; cases ho
          | some o2 => rw [h2] at ho; cases ho; exact ⟨o2.ts, by simp [ht]⟩
        · cases ho; cases hz
      obtain ⟨tl, htl⟩ := this
      refine ⟨c!"unexpected token", ?_⟩
      rw [htl, List.cons_append, Ins.tokLoop]
      simp only [Ins.lineOf, hrule, Ins.commandOf, parseLine]

/-- **C73** A line with the keyword MODIFY (in any case) and a word right after it is recognised, and refused as an unexpected instruction. -/
theorem C73_modify_word (E : Env) (U : Uni) (ls : List SrcLine) (h : ∀ l ∈ ls, l.Ok E U)
    (hb : ∀ pre c post, commandsIn ls = pre ++ c :: post → ¬ BreaksRules pre c) (w : Str) (hw : IsWord U w) :
    parseText E U (fileText ls ++ c!"MODIFY" ++ w ++ c!"\n") = .err (.instruction c!"unexpected token") := by
  obtain ⟨ts, hts⟩ := charPlus_false hw
  have hne : '=' ∉ w := fun e => by
    have := hw.2 _ e
    rw [isChar_ascii U (by decide) (by decide)] at this
    cases this
  have hitem : Yields (lineItem U) false (c!"MODIFY" ++ w ++ ['\n']) [.node .modify (c!"MODIFY" ++ w) ts] [] := by
    refine lineItem_yields ?_ ⟨'M', _, rfl, by decide⟩
    refine lineBreak_yields (Yields.altRight ?_ (Yields.altRight ?_ (Yields.altLeft ?_)))
    · rw [List.append_assoc]; exact kw_fails (by decide)
    · rw [List.append_assoc]; exact kw_fails (by decide)
    · refine Yields.normal _ (Yields.seq' (s := c!"MODIFY") (ts := []) (Yields.ilit (by decide) _ _) (hts _ ?_) rfl rfl)
      intro c u e; cases e; exact isChar_ascii U (by decide) (by decide)
  have hstar := Yields.starCons (s' := []) (by simp) hitem (Yields.starNil lineItem_end)
  rw [List.append_nil, List.append_nil] at hstar
  have hf : Follow (c!"MODIFY" ++ w ++ ['\n'] ++ []) := by
    refine follow_noEq (c := 'M') (t := _) ?_ (NW.cons (by decide) (by decide) (by decide) _) (by decide)
    simp [hne]
  obtain ⟨T, hT, hy⟩ := lines_tokens (E := E) _ _ _ hf hstar ls.length ls (Nat.le_refl _) h
  obtain ⟨out, n', h1, -⟩ := toks_ok hT OCAAst.new 0 rfl hb
  have hp : file U false (fileText ls ++ (c!"MODIFY" ++ w ++ ['\n'])) = some ⟨[.node .file (fileText ls ++ (c!"MODIFY" ++ w ++ ['\n']))
      ((T ++ [.node .modify (c!"MODIFY" ++ w) ts]) ++ [.node .eoi [] []])], fileText ls ++ (c!"MODIFY" ++ w ++ ['\n']), []⟩ := by
    have h1 : Yields (file U) false (fileText ls ++ (c!"MODIFY" ++ w ++ ['\n'])) [.node .file (fileText ls ++ (c!"MODIFY" ++ w ++ ['\n']))
        ((T ++ [.node .modify (c!"MODIFY" ++ w) ts]) ++ [.node .eoi [] []])] [] := by
      refine Yields.normal _ ?_
      have he : Yields eoiTok false [] [.node .eoi [] []] [] := rfl
      exact Yields.seq' (s' := []) hy he (by simp) rfl
    unfold Yields at h1
    rw [List.append_nil] at h1
    exact h1
  rw [show fileText ls ++ c!"MODIFY" ++ w ++ c!"\n" = fileText ls ++ (c!"MODIFY" ++ w ++ ['\n']) by simp]
  unfold parseText
  rw [hp]
  dsimp only [Tree.kids]
  rw [List.append_assoc, h1]
  rfl

/-! ## Through the dispatcher -/

/-- the line as parts of a file of any kind -/
def SrcLine.parts : SrcLine → List FilePart
  | .comment n t => [.text (List.replicate n ' '), .comment t]
  | .metaLine n k a b v e => [.metaLine n k a b v e]
  | l => [.text l.render]

theorem parts_render (l : SrcLine) : l.parts.flatMap FilePart.render = l.render := by
  cases l <;> simp [SrcLine.parts, FilePart.render, SrcLine.render]

theorem lastMeta_parts (key : Str) (ls : List SrcLine) : lastMeta key (ls.flatMap SrcLine.parts) = metaIn? ls key := by
  induction ls with
  | nil => rfl
  | cons l ls ih =>
    rw [List.flatMap_cons]
    have hsplit : ∀ ps qs, lastMeta key (ps ++ qs) = (lastMeta key qs).or (lastMeta key ps) := by
      intro ps qs
      induction ps with
      | nil => simp [lastMeta]
      | cons p ps ih => rw [List.cons_append, lastMeta_cons, ih, lastMeta_cons, Option.or_assoc]
    rw [hsplit, ih]
    cases l with
    | metaLine n k a b v e =>
      simp only [metaIn?, List.filterMap_cons, SrcLine.meta?, List.reverse_cons, List.find?_append, SrcLine.parts, lastMeta, List.reverse_nil,
        List.nil_append, List.findSome?_cons, List.findSome?_nil, List.find?_cons, List.find?_nil]
      cases (List.find? (fun p => decide (p.1 = key)) (List.filterMap SrcLine.meta? ls).reverse) with
      | some q => rfl
      | none => by_cases hk : k = key <;> simp [hk]
    | command c => simp [metaIn?, List.filterMap_cons, SrcLine.meta?, SrcLine.parts, lastMeta]
    | fromSaid s => simp [metaIn?, List.filterMap_cons, SrcLine.meta?, SrcLine.parts, lastMeta]
    | comment n t => simp [metaIn?, List.filterMap_cons, SrcLine.meta?, SrcLine.parts, lastMeta]
    | blank n => simp [metaIn?, List.filterMap_cons, SrcLine.meta?, SrcLine.parts, lastMeta]

/-- the line says nothing to the dispatcher: no `#` and no `--` in a command or a SAID -/
def SrcLine.Quiet : SrcLine → Prop
  | .command c => '#' ∉ (SrcLine.command c).render ∧ ¬ c!"--" <:+: (SrcLine.command c).render
  | .fromSaid s => '#' ∉ (SrcLine.fromSaid s).render ∧ ¬ c!"--" <:+: (SrcLine.fromSaid s).render
  | _ => True

theorem line_parts_ok {E : Env} {U : Uni} {l : SrcLine} (h : l.Ok E U) (hq : l.Quiet) : ∀ p ∈ l.parts, p.Ok U := by
  have hspc : ∀ n, FilePart.Ok U (.text (List.replicate n ' ')) := by
    intro n
    refine ⟨by simp, ?_, ?_⟩
    · rintro ⟨x, y, e⟩
      have : '-' ∈ List.replicate n ' ' := by rw [← e]; simp
      simp at this
    · cases n <;> simp [List.getLast?_replicate]
  cases l with
  | command c =>
    rintro p hp
    rw [List.mem_singleton.1 hp]
    refine ⟨hq.1, hq.2, ?_⟩
    obtain ⟨x, s, -, hp', -⟩ := lined_of_printable h
    simp [SrcLine.render, commandLine, hp' Unit]
  | fromSaid s =>
    rintro p hp
    rw [List.mem_singleton.1 hp]
    refine ⟨hq.1, hq.2, ?_⟩
    show (c!"FROM " ++ s ++ ['\n']).getLast? ≠ some '-'
    rw [List.getLast?_append]
    simp
  | comment n t =>
    intro p hp
    simp only [SrcLine.parts, List.mem_cons, List.not_mem_nil, or_false] at hp
    rcases hp with rfl | rfl
    · exact hspc n
    · exact h
  | blank n =>
    rintro p hp
    rw [List.mem_singleton.1 hp]
    refine ⟨by simp [SrcLine.render], ?_, by simp [SrcLine.render]⟩
    rintro ⟨x, y, e⟩
    have : '-' ∈ (SrcLine.blank n).render := by rw [← e]; simp
    simp [SrcLine.render] at this
  | metaLine n k a b v e =>
    rintro p hp
    rw [List.mem_singleton.1 hp]
    exact ⟨by rcases h.1 with h | h | h <;> simp [h], h.2⟩

/-- **C73** The same through the entry point for files of all kinds, when no command has a `#` or `--` in it: without `precompiler` line, or when the
last one says `semantics`, the file is parsed to its commands. -/
theorem C73_file (E : Env) (U : Uni) (ls : List SrcLine) (h : ∀ l ∈ ls, l.Ok E U) (hq : ∀ l ∈ ls, l.Quiet)
    (hb : ∀ pre c post, commandsIn ls = pre ++ c :: post → ¬ BreaksRules pre c)
    (hm : metaIn? ls c!"precompiler" = none ∨ metaIn? ls c!"precompiler" = some c!"semantics") :
    ∃ out, parseFile E U (fileText ls) = .ok (.semantics out) ∧ out.commands = commandsIn ls ∧ (∀ key, out.metaMap.get key = metaIn? ls key) ∧
      out.version = c!"1.0.0" := by
  obtain ⟨out, h1, h2⟩ := C73_lines E U ls h hb
  refine ⟨out, ?_, h2⟩
  have hs : fileText ls = (ls.flatMap SrcLine.parts).flatMap FilePart.render := by
    rw [List.flatMap_assoc]
    simp only [parts_render]
    rfl
  obtain ⟨-, d1, d2, -⟩ := C45_dispatch E U (ls.flatMap SrcLine.parts) (fun p hp => by
    obtain ⟨l, hl, hp⟩ := List.mem_flatMap.1 hp
    exact line_parts_ok (h l hl) (hq l hl) p hp) (fileText ls) hs
  rw [lastMeta_parts] at d1 d2
  have : parseFile E U (fileText ls) = asSemantics E U (fileText ls) := by
    rcases hm with hm | hm
    · exact d2 hm
    · exact d1 hm
  rw [this, asSemantics, h1]

/-! ## Example -/

/-- a file with FROM, two commands (one over many lines), meta lines, comments and blank lines -/
def srcDemo : List SrcLine :=
  [.metaLine 1 c!"name" 0 0 c!"first" 0, .comment 2 c!" a file", .fromSaid c!"Exyz", .blank 0,
   .command ⟨.add, .captureBase ⟨some [(c!"a", .val .text)], none, none⟩⟩, .blank 3,
   .command ⟨.add, .overlay ⟨.attributeFraming, c!"1.1"⟩ ⟨some [(c!"a", framesVal [(c!"x", [(c!"predicate_id", c!"p"), (c!"framing_justification", c!"j")])])],
      some [(c!"id", .val c!"F"), (c!"label", .val c!"l")]⟩⟩, .blank 0, .blank 0,
   .metaLine 0 c!"name" 1 1 c!"second" 2, .comment 0 c!" the end"]

theorem srcDemo_ok : ∀ l ∈ srcDemo, l.Ok Env.demo Uni.ascii := by
  intro l hl
  simp only [srcDemo, List.mem_cons, List.not_mem_nil, or_false] at hl
  rcases hl with rfl | rfl | rfl | rfl | rfl | rfl | rfl | rfl | rfl | rfl | rfl
  · exact ⟨.inl rfl, .inl (isWord_of (by decide))⟩
  · unfold SrcLine.Ok; decide
  · exact ⟨isWord_of (by decide), by decide⟩
  · trivial
  · refine .attributes _ (by simp) ?_ (by simp [Distinct])
    intro p hp
    rw [List.mem_singleton.1 hp]
    exact ⟨isKey_of (by decide), trivial⟩
  · trivial
  · refine .framing [(c!"id", c!"F"), (c!"label", c!"l")] (by simp) ?_ (by simp [Distinct])
      [(c!"a", [(c!"x", [(c!"predicate_id", c!"p"), (c!"framing_justification", c!"j")])])] (by simp) ?_ (by simp [Distinct])
    · intro r hr
      simp only [List.mem_cons, List.not_mem_nil, or_false] at hr
      rcases hr with rfl | rfl
      · exact ⟨.inl rfl, by decide⟩
      · exact ⟨.inr (.inl rfl), by decide⟩
    · intro r hr
      rw [List.mem_singleton.1 hr]
      refine ⟨isKey_of (by decide), ?_⟩
      refine ⟨by simp, ?_, by simp⟩
      intro f hf
      rw [List.mem_singleton.1 hf]
      refine ⟨by decide, rfl, by simp, ?_, by simp⟩
      intro q hq
      simp only [List.mem_cons, List.not_mem_nil, or_false] at hq
      rcases hq with rfl | rfl
      · exact ⟨by decide, by decide, rfl⟩
      · exact ⟨by decide, by decide, rfl⟩
  · trivial
  · trivial
  · exact ⟨.inl rfl, .inl (isWord_of (by decide))⟩
  · unfold SrcLine.Ok; decide

theorem noDashes_of {a : Str} (h : hasDashes a = false) : ¬ c!"--" <:+: a := by
  rintro ⟨x, y, rfl⟩
  induction x with
  | nil => cases h
  | cons c x ih =>
    apply ih
    simp only [List.cons_append] at h
    unfold hasDashes at h
    exact (Bool.or_eq_false_iff.1 h).2

/-- the number of commands, the name and the first command's kind of a parsed text -/
def srcCheck (s : Str) : Option (Nat × Option Str × Bool) := match parseText Env.demo Uni.ascii s with
  | .ok out => some (out.commands.length, out.metaMap.get c!"name", out.commands.head?.map (·.kind) == some .«from»)
  | _ => none

set_option maxRecDepth 20000 in
theorem srcDemo_reads : srcCheck (fileText srcDemo) = some (3, some c!"second", true) := by decide +kernel

/-- **C73** is not vacuous: the hypotheses of `C73_file` are met by a file with all kinds of lines, and what the theorem says of it is what a run
of the parser gives. -/
theorem C73_example : (∀ l ∈ srcDemo, l.Ok Env.demo Uni.ascii) ∧ (∀ l ∈ srcDemo, l.Quiet) ∧
    (∀ pre c post, commandsIn srcDemo = pre ++ c :: post → ¬ BreaksRules pre c) ∧ metaIn? srcDemo c!"precompiler" = none ∧
    metaIn? srcDemo c!"name" = some c!"second" ∧ (commandsIn srcDemo).length = 3 ∧
    srcCheck (fileText srcDemo) = some (3, some c!"second", true) := by
  refine ⟨srcDemo_ok, ?_, ?_, rfl, rfl, rfl, srcDemo_reads⟩
  · intro l hl
    simp only [srcDemo, List.mem_cons, List.not_mem_nil, or_false] at hl
    rcases hl with rfl | rfl | rfl | rfl | rfl | rfl | rfl | rfl | rfl | rfl | rfl
    · trivial
    · trivial
    · exact ⟨by decide +kernel, noDashes_of (by decide +kernel)⟩
    · trivial
    · exact ⟨by decide +kernel, noDashes_of (by decide +kernel)⟩
    · trivial
    · exact ⟨by decide +kernel, noDashes_of (by decide +kernel)⟩
    · trivial
    · trivial
    · trivial
    · trivial
  · intro pre c post e hb
    obtain ⟨es, h⟩ := C73_refused Env.demo Uni.ascii srcDemo srcDemo_ok pre post c e hb
    have := srcDemo_reads
    unfold srcCheck at this
    rw [h] at this
    cases this

end OCA
