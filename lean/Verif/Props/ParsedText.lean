import Verif.Lemmas.FileShapes
import Verif.Props.AstValidation
import Verif.Props.Builds
import Verif.Props.Commands
import Verif.Props.PrintParse
/-!
# Parsing, for every text (C09, C13, C47, C52, C53)

`parseText E U s` is the parse of the OCA file `s`. Nothing is assumed about `s` here.
-/
namespace OCA
open Peg Gr

/-- the text has a backslash: it may continue a line, or escape a character -/
def hasBackslash (s : Str) : Bool := decide ('\\' ∈ s)

/-- what a line of the text `s` can be: `r` in `instr raw r` is the command the line denotes, or the reason why it is refused -/
def FileLine (E : Env) (U : Uni) (s : Str) : Line → Prop
  | .metaLine k v => (k = [] ∧ v = []) ∨ ((k = c!"name" ∨ k = c!"version" ∨ k = c!"precompiler") ∧ ∃ w, IsValue U v w)
  | .instr raw r => raw <:+: s ∧ Fine (hasBackslash s) r (FromText E U (hasBackslash s))
  | _ => True

theorem tokLoop_lines (E : Env) (U : Uni) (s : Str) : ∀ (ks : List Tok), (∀ t ∈ ks, LineTok U (hasBackslash s) t ∧ t.text <:+: s) →
    ∃ ls : List Line, (∀ l ∈ ls, FileLine E U s l) ∧ ∀ ast n, Ins.tokLoop E U ast n ks = parseLoop ast n ls := by
  intro ks
  induction ks with
  | nil => exact fun _ => ⟨[], by simp, fun _ _ => rfl⟩
  | cons t r ih =>
    intro h
    obtain ⟨ls, h1, h2⟩ := ih fun x hx => h x (.tail _ hx)
    obtain ⟨ht, hs⟩ := h t (.head _)
    obtain ⟨l, e, hl⟩ := ht E
    refine ⟨l :: ls, ?_, fun ast n => ?_⟩
    · intro x hx
      rcases List.mem_cons.1 hx with rfl | hx
      · cases x with
        | instr raw r => exact ⟨by rw [hl.1]; exact hs, hl.2⟩
        | metaLine k v => exact hl
        | _ => trivial
      · exact h1 x hx
    · simp only [Ins.tokLoop, e, parseLoop]
      cases parseLine ast n l with
      | ok a => exact h2 _ _
      | err => rfl
      | panic => rfl

/-- Every text is refused by the grammar, or read line by line. -/
theorem parseText_lines (E : Env) (U : Uni) (s : Str) : parseText E U s = .err .grammar ∨
    ∃ ls : List Line, parseText E U s = parseLines ls ∧ ∀ l ∈ ls, FileLine E U s l := by
  cases hf : file U false s with
  | none => exact .inl (by simp only [parseText, hf])
  | some o =>
    have hg : s = o.u ++ o.r := good (file U) _ _ _ hf
    have hin : o.u <:+: s := by rw [hg]; exact (List.prefix_append _ _).isInfix
    obtain ⟨ks, e, hw⟩ := file_emits (b := hasBackslash s) s o hf (by
      intro hb hm
      simp only [hasBackslash, decide_eq_false_iff_not] at hb
      exact hb (by rw [hg]; exact List.mem_append_left _ hm))
    obtain ⟨ls, h1, h2⟩ := tokLoop_lines E U s ks fun t ht => ⟨(hw t ht).1, (hw t ht).2.trans hin⟩
    refine .inr ⟨ls, ?_, h1⟩
    simp only [parseText, hf, e, Tree.kids]
    exact h2 _ _

theorem parseText_ok {E : Env} {U : Uni} {s : Str} {ast : OCAAst} (h : parseText E U s = .ok ast) :
    ∃ ls : List Line, parseLines ls = .ok ast ∧ ∀ l ∈ ls, FileLine E U s l := by
  rcases parseText_lines E U s with h' | ⟨ls, h1, h2⟩
  · rw [h] at h'; cases h'
  · exact ⟨ls, by rw [← h1]; exact h, h2⟩

/-! ## C52: the commands of a text -/

theorem mem_instrLines {ls : List Line} {x : Nat × Str × Res Str Command} (h : x ∈ instrLines ls) : .instr x.2.1 x.2.2 ∈ ls := by
  simp only [instrLines, List.mem_filterMap] at h
  obtain ⟨⟨l, i⟩, hm, he⟩ := h
  obtain ⟨-, hi, e⟩ := List.mem_zipIdx hm
  simp only at he
  split at he
  · cases he
    rw [e]
    exact List.getElem_mem _
  · cases he

/-- **C52** Whatever the text, every command of the parse has one of the forms of `FromText`: the values are texts, names and references
of the kinds the instruction takes, the names of one list are distinct, and no list is empty. -/
theorem C52_commands_of_text (E : Env) (U : Uni) (s : Str) (ast : OCAAst) (h : parseText E U s = .ok ast) (c : Command) (hc : c ∈ ast.commands) :
    FromText E U (hasBackslash s) c := by
  obtain ⟨ls, h1, h2⟩ := parseText_ok h
  have := (C09_commands_of_the_lines ls ast h1).1
  have hm : (Res.ok c : Res Str Command) ∈ (instrLines ls).map (fun p => p.2.2) := by rw [this]; exact List.mem_map_of_mem hc
  obtain ⟨x, hx, e⟩ := List.mem_map.1 hm
  have := h2 _ (mem_instrLines hx)
  simp only [e] at this
  exact this.2

/-- **C52** A command has the text it stands for recorded, and that text is a part of the file. -/
theorem C52_raw_texts (E : Env) (U : Uni) (s : Str) (ast : OCAAst) (h : parseText E U s = .ok ast) :
    ast.commandsMeta.map (·.1) = List.range ast.commands.length ∧ ∀ p ∈ ast.commandsMeta, p.2.rawLine <:+: s := by
  obtain ⟨ls, h1, h2⟩ := parseText_ok h
  obtain ⟨e1, e2⟩ := C09_commands_of_the_lines ls ast h1
  have hlen : (instrLines ls).length = ast.commands.length := by simpa using congrArg List.length e1
  constructor
  · rw [e2, ← hlen]
    simp only [List.map_map, Function.comp_def]
    exact List.zipIdx_map_snd 0 _ |>.trans (by rw [List.range_eq_range'])
  · rw [e2]
    intro p hp
    obtain ⟨⟨x, i⟩, hx, rfl⟩ := List.mem_map.1 hp
    have hx' : x ∈ instrLines ls := by
      obtain ⟨-, hi, e⟩ := List.mem_zipIdx hx
      rw [e]; exact List.getElem_mem _
    exact (h2 _ (mem_instrLines hx')).1

/-- **C52** The version of the parse is always 1.0.0, and the only keys of the meta data are the three of the grammar. -/
theorem C52_meta_of_text (E : Env) (U : Uni) (s : Str) (ast : OCAAst) (h : parseText E U s = .ok ast) :
    ast.version = c!"1.0.0" ∧ ∀ k v, ast.metaMap.get k = some v → (k = c!"name" ∨ k = c!"version" ∨ k = c!"precompiler") ∧ ∃ w, IsValue U v w := by
  obtain ⟨ls, h1, h2⟩ := parseText_ok h
  clear h
  have key : ∀ (ls : List Line), (∀ l ∈ ls, FileLine E U s l) → ∀ (a : OCAAst) n out, a.version = c!"1.0.0" →
      (∀ k v, a.metaMap.get k = some v → (k = c!"name" ∨ k = c!"version" ∨ k = c!"precompiler") ∧ ∃ w, IsValue U v w) →
      parseLoop a n ls = .ok out → out.version = c!"1.0.0" ∧
      ∀ k v, out.metaMap.get k = some v → (k = c!"name" ∨ k = c!"version" ∨ k = c!"precompiler") ∧ ∃ w, IsValue U v w := by
    intro ls
    induction ls with
    | nil => intro _ a n out hv ha h; cases h; exact ⟨hv, ha⟩
    | cons l ls ih =>
      intro hl a n out hv ha h
      simp only [parseLoop] at h
      cases hp : parseLine a n l with
      | err e => rw [hp] at h; cases h
      | panic => rw [hp] at h; cases h
      | ok a' =>
        rw [hp] at h
        refine ih (fun x hx => hl x (.tail _ hx)) a' (n + 1) out ?_ ?_ h
        · cases l with
          | instr raw r =>
            cases r with
            | ok c =>
              simp only [parseLine] at hp
              split at hp
              · cases hp; exact hv
              · cases hp
              · cases hp
            | err => cases hp
            | panic => cases hp
          | metaLine k v =>
            simp only [parseLine] at hp
            split at hp
            · cases hp
            · split at hp
              · cases hp
              · cases hp; exact hv
          | _ => cases hp; exact hv
        · cases l with
          | instr raw r =>
            cases r with
            | ok c =>
              simp only [parseLine] at hp
              split at hp
              · cases hp; exact ha
              · cases hp
              · cases hp
            | err => cases hp
            | panic => cases hp
          | metaLine k v =>
            have hk := hl _ (.head _)
            simp only [parseLine] at hp
            split at hp
            · cases hp
            · split at hp
              · cases hp
              · rename_i h1 h2
                cases hp
                intro k' v' hg
                simp only [FMap.get_insert] at hg
                split at hg
                · rename_i e
                  cases hg
                  rcases hk with ⟨rfl, -⟩ | hk
                  · exact absurd rfl h1
                  · rw [e]; exact hk
                · exact ha k' v' hg
          | _ => cases hp; exact ha
  exact key ls h2 OCAAst.new 0 ast rfl (by intro k v h; cases h) h1

/-! ## C53: parsing does not abort the process -/

/-- **C53** A text without a backslash is parsed or refused; the parser does not abort. -/
theorem C53_parse_no_abort (E : Env) (U : Uni) (s : Str) (h : '\\' ∉ s) : parseText E U s ≠ .panic := by
  rcases parseText_lines E U s with h' | ⟨ls, h1, h2⟩
  · rw [h']; exact fun h => nomatch h
  · have hb : hasBackslash s = false := by simpa [hasBackslash] using h
    rw [h1]
    clear h1
    have key : ∀ (ls : List Line), (∀ l ∈ ls, FileLine E U s l) → ∀ (a : OCAAst) n, parseLoop a n ls ≠ .panic := by
      intro ls
      induction ls with
      | nil => intro _ a n h; cases h
      | cons l ls ih =>
        intro hl a n
        simp only [parseLoop]
        cases hp : parseLine a n l with
        | ok a' => exact ih (fun x hx => hl x (.tail _ hx)) a' (n + 1)
        | err e => exact fun h => nomatch h
        | panic =>
          exfalso
          cases l with
          | instr raw r =>
            have := (hl _ (.head _)).2
            rw [hb] at this
            cases r with
            | ok c =>
              simp only [parseLine] at hp
              split at hp
              · cases hp
              · cases hp
              · rename_i hv
                simp only [astValidate] at hv
                split at hv
                · simp only [validate100] at hv
                  split at hv
                  · simp only [ruleAdd] at hv; split at hv <;> cases hv
                  · unfold ruleRemove at hv
                    dsimp only at hv
                    generalize (_ ++ _ : List AstErr) = es at hv
                    split at hv <;> cases hv
                  · cases hv
                · split at hv <;> cases hv
            | err e => cases hp
            | panic => cases this
          | metaLine k v =>
            simp only [parseLine] at hp
            split at hp
            · cases hp
            · split at hp <;> cases hp
          | _ => cases hp
    exact key ls h2 _ _

/-- a parse that aborts -/
def aborted {ε α : Type} : Res ε α → Bool
  | .panic => true
  | _ => false

theorem aborted_iff {ε α : Type} {r : Res ε α} : aborted r = true ↔ r = .panic := by cases r <;> simp [aborted]

/-- **C53** The full claim is false: a comment between the lines of a continued frame aborts the process. -/
theorem C53_comment_in_frame_aborts : parseText Env.short Uni.ascii
    c!"ADD ATTR_FRAMING id=f label=l location=l version=v ATTRS a={ \\\n# comment\n \"x\": {\"predicate_id\": \"p\", \"framing_justification\": \"j\"}}\n" = .panic :=
  aborted_iff.1 (by decide +kernel)

/-! ## C09 and C13 for texts -/

/-- **C09** for every text. -/
theorem C09_text_commands_consistent (E : Env) (U : Uni) (s : Str) (ast : OCAAst) (h : parseText E U s = .ok ast) (pre post : List Command) (c : Command)
    (he : ast.commands = pre ++ c :: post) :
    (∀ x, AddsAttr c x → ¬ Present AddsAttr RemovesAttr pre x) ∧
    (∀ x, RemovesAttr c x → Present AddsAttr RemovesAttr pre x) ∧
    (∀ x, RemovesProp c x → Present AddsProp RemovesProp pre x) := by
  obtain ⟨ls, h1, -⟩ := parseText_ok h
  exact C09_parsed_commands_consistent ls ast h1 pre post c he

/-- **C09** for every text: an attribute that two commands add is removed in between. -/
theorem C09_text_no_double_add (E : Env) (U : Uni) (s : Str) (ast : OCAAst) (h : parseText E U s = .ok ast)
    (pre mid post : List Command) (c d : Command) (x : Str)
    (he : ast.commands = pre ++ c :: (mid ++ d :: post)) (hc : AddsAttr c x) (hd : AddsAttr d x) : ∃ r ∈ mid, RemovesAttr r x := by
  obtain ⟨ls, h1, -⟩ := parseText_ok h
  exact C09_no_double_add ls ast h1 pre mid post c d x he hc hd

/-- **C13** for every text: an error of the build names the text of a command that was rejected with this message; the text is a part of
the file. -/
theorem C13_text_error_lines (E : Env) (Os : Nat → Order) (U : Uni) (s : Str) (ast : OCAAst) (hp : parseText E U s = .ok ast)
    (errs : List BuildErr) (h : fromAst E Os none ast = .err errs) (e : BuildErr) (he : e ∈ errs) :
    e.rawLine <:+: s ∧ ∃ (i : Nat) (c : Command) (es : List Str), ast.commands[i]? = some c ∧
      metaAt ast.commandsMeta i = some ⟨e.lineNumber, e.rawLine⟩ ∧
      (results E none ast.commands)[i]? = some (.err es) ∧ e.message ∈ es := by
  obtain ⟨ls, hp1, hp2⟩ := parseText_ok hp
  obtain ⟨base, hb, rfl⟩ := fromAst_err E Os none ast errs h
  cases hb
  obtain ⟨i, c, es, h1, h2, h3, h4, h5⟩ := mem_errorsFrom _ _ E _ _ _ e he
  obtain ⟨j, raw, h6, h7⟩ := (parseLines_meta ls ast hp1).2 i c h1
  have hm : cmdMeta ast (0 + i + (if (none : Option Bundle).isSome then 1 else 0)) = ⟨j + 1, raw⟩ := by
    simp [cmdMeta, h7]
  rw [hm] at h4 h5
  dsimp only at h4 h5
  rw [h4, h5]
  exact ⟨(hp2 _ (List.mem_of_getElem? h6)).1, i, c, es, h1, h7, h2, h3⟩

end OCA
