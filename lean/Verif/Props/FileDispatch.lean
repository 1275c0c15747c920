import Verif.Lemmas.TopFile
import Verif.Props.ParsedText
/-!
# C45: which parser a file goes to
-/
namespace OCA
open Peg Gr

/-! ## Specification: files as parts -/

/-- A part of a file: any text, a comment to the end of its line, or a meta line
`-- key = value` with `n`, `a`, `b` and `e` blanks after the dashes, the key, the `=` and the value. -/
inductive FilePart where
  | text (t : Str)
  | comment (t : Str)
  | metaLine (n : Nat) (key : Str) (a b : Nat) (value : Str) (e : Nat)

/-- as it stands in the file -/
def FilePart.render : FilePart → Str
  | .text t => t
  | .comment t => '#' :: (t ++ ['\n'])
  | .metaLine n k a b v e =>
    c!"--" ++ List.replicate n ' ' ++ k ++ List.replicate a ' ' ++ c!"=" ++ List.replicate b ' ' ++ v ++ List.replicate e ' ' ++ c!"\n"

/-- Text has neither `#` nor `--` and does not end in `-`; a comment ends with its line; a meta line has one of the five keys
and a value which is a word or stands in double quotes. -/
def FilePart.Ok (U : Uni) : FilePart → Prop
  | .text t => '#' ∉ t ∧ ¬ c!"--" <:+: t ∧ t.getLast? ≠ some '-'
  | .comment t => ∀ c ∈ t, c ≠ '\n' ∧ c ≠ '\r'
  | .metaLine _ k _ _ v _ => (k = c!"name" ∨ k = c!"version" ∨ k = c!"precompiler" ∨ k = c!"source" ∨ k = c!"target") ∧
      (IsWord U v ∨ ∃ q, v = '"' :: q ++ ['"'] ∧ Quotable q = true)

/-- the value of the last meta line with this key -/
def lastMeta (key : Str) (ps : List FilePart) : Option Str :=
  ps.reverse.findSome? fun
    | .metaLine _ k _ _ v _ => if k = key then some v else none
    | _ => none

/-! ## Proof -/

/-- the meta after some parts -/
def metaAfter : FMap Str → List FilePart → FMap Str
  | m, [] => m
  | m, .metaLine _ k _ _ v _ :: ps => metaAfter (m.insert k v) ps
  | m, _ :: ps => metaAfter m ps

theorem lastMeta_cons (key : Str) (p : FilePart) (ps : List FilePart) : lastMeta key (p :: ps) =
    (lastMeta key ps).or (match p with
      | .metaLine _ k _ _ v _ => if k = key then some v else none
      | _ => none) := by
  simp only [lastMeta, List.reverse_cons, List.findSome?_append]
  cases p <;> simp

theorem metaAfter_get (key : Str) (ps : List FilePart) (m : FMap Str) : (metaAfter m ps).get key = (lastMeta key ps).or (m.get key) := by
  induction ps generalizing m with
  | nil => rfl
  | cons p ps ih =>
    rw [lastMeta_cons]
    cases p with
    | text t => simpa [metaAfter] using ih m
    | comment t => simpa [metaAfter] using ih m
    | metaLine n k a b v e =>
      simp only [metaAfter]
      rw [ih, FMap.get_insert, Option.or_assoc]
      congr 1
      by_cases h : k = key
      · simp [h]
      · have h' : ¬ key = k := fun e => h e.symm
        simp [h, h']

theorem metaPart_render (n : Nat) (k : Str) (a b : Nat) (v : Str) (e : Nat) :
    (FilePart.metaLine n k a b v e).render = metaLineText n k a b v e := by
  simp [FilePart.render, metaLineText, metaPairText, sp]

theorem topScan_parts (U : Uni) (ps : List FilePart) (h : ∀ p ∈ ps, p.Ok U) (rest : Str) (m : FMap Str) :
    topScan U m (ps.flatMap FilePart.render ++ rest) = topScan U (metaAfter m ps) rest := by
  induction ps generalizing m with
  | nil => rfl
  | cons p ps ih =>
    have ih := fun m => ih (fun x hx => h x (.tail _ hx)) m
    have hp := h p (.head _)
    simp only [List.flatMap_cons, List.append_assoc]
    cases p with
    | text t =>
      simp only [FilePart.render]
      rw [topScan_text m t _ hp.1 hp.2.1 hp.2.2]
      exact ih m
    | comment t =>
      simp only [FilePart.render]
      rw [show '#' :: (t ++ ['\n']) ++ (ps.flatMap FilePart.render ++ rest) = '#' :: t ++ ('\n' :: (ps.flatMap FilePart.render ++ rest)) by simp]
      rw [topScan_comment m t _ hp (by rintro c u e; cases e; exact .inl rfl), topScan_lf]
      exact ih m
    | metaLine n k a b v e =>
      rw [metaPart_render]
      have hk : k ∈ topKeys := by simpa [topKeys] using hp.1
      rw [topScan_meta m hk (show IsMetaValue U v from hp.2)]
      exact ih _

theorem parts_meta (U : Uni) (ps : List FilePart) (h : ∀ p ∈ ps, p.Ok U) :
    fileMeta U (ps.flatMap FilePart.render) = .ok (metaAfter FMap.empty ps) := by
  have := topScan_parts U ps h [] FMap.empty
  rw [List.append_nil] at this
  rw [fileMeta_eq, this]
  rfl

/-- what the semantics parser makes of the file -/
def asSemantics (E : Env) (U : Uni) (s : Str) : Res FileErr FileAst := match parseText E U s with
  | .ok a => .ok (.semantics a)
  | .err e => .err (.semantics e)
  | .panic => .panic

/-- what the transformation parser makes of the file -/
def asTransformation (U : Uni) (s : Str) : Res FileErr FileAst := match parseTransformation U s with
  | .ok a => .ok (.transformation a)
  | .err e => .err (.transformation e)
  | .panic => .panic

theorem parseFile_eq {E : Env} {U : Uni} {s : Str} {m : FMap Str} (h : fileMeta U s = .ok m) : parseFile E U s =
    (match m.get c!"precompiler" with
    | none => asSemantics E U s
    | some v => if v = c!"transformation" then asTransformation U s else if v = c!"semantics" then asSemantics E U s
      else .err (.metaError c!"unknown precompiler")) := by
  simp only [parseFile, h, asSemantics, asTransformation]
  cases m.get c!"precompiler" with
  | none => cases parseText E U s <;> rfl
  | some v =>
    dsimp only
    split
    · cases parseTransformation U s <;> rfl
    · split
      · cases parseText E U s <;> rfl
      · rfl

/-- **C45** The last `precompiler` line of a file decides: `transformation` goes to the transformation parser, `semantics` to
the semantics parser, anything else (also these words in quotes) is refused; without such a line the semantics parser reads the
file. -/
theorem C45_dispatch (E : Env) (U : Uni) (ps : List FilePart) (h : ∀ p ∈ ps, p.Ok U) (s : Str) (hs : s = ps.flatMap FilePart.render) :
    (lastMeta c!"precompiler" ps = some c!"transformation" → parseFile E U s = asTransformation U s) ∧
    (lastMeta c!"precompiler" ps = some c!"semantics" → parseFile E U s = asSemantics E U s) ∧
    (lastMeta c!"precompiler" ps = none → parseFile E U s = asSemantics E U s) ∧
    (∀ v, lastMeta c!"precompiler" ps = some v → v ≠ c!"transformation" → v ≠ c!"semantics" →
      parseFile E U s = .err (.metaError c!"unknown precompiler")) := by
  have hm := parts_meta U ps h
  rw [← hs] at hm
  rw [parseFile_eq hm]
  have hg : (metaAfter FMap.empty ps).get c!"precompiler" = lastMeta c!"precompiler" ps := by
    rw [metaAfter_get]; simp [FMap.get, FMap.empty, FMap.lget]
  rw [hg]
  refine ⟨?_, ?_, ?_, ?_⟩
  · intro e; rw [e]; rfl
  · intro e; rw [e]; rfl
  · intro e; rw [e]
  · intro v e h1 h2; rw [e]; simp [h1, h2]

theorem dropWhile_head {α : Type} (p : α → Bool) (l : List α) {c : α} {u : List α} (h : l.dropWhile p = c :: u) : p c = false := by
  induction l with
  | nil => cases h
  | cons x l ih =>
    rw [List.dropWhile_cons] at h
    cases hx : p x with
    | true => rw [hx] at h; exact ih h
    | false => rw [hx] at h; cases h; exact hx

/-- **C45** A file in which `--` does not occur is read by the semantics parser. -/
theorem C45_no_meta (E : Env) (U : Uni) (s : Str) (h : ¬ c!"--" <:+: s) : parseFile E U s = asSemantics E U s := by
  have key : ∀ (n : Nat) (s : Str), s.length = n → ¬ c!"--" <:+: s → topScan U FMap.empty s = .ok FMap.empty := by
    intro n
    induction n using Nat.strongRecOn with
    | _ n ih =>
      intro s hn h
      cases s with
      | nil => rfl
      | cons c s =>
        have hr : ∀ t, t <:+ c :: s → t.length < n → topScan U FMap.empty t = .ok FMap.empty := fun t ht hl =>
          ih _ hl t rfl fun hx => h (hx.trans ht.isInfix)
        by_cases hc : c = '#'
        · subst hc
          have e : s = s.takeWhile (fun c => c != '\n' && c != '\r') ++ s.dropWhile (fun c => c != '\n' && c != '\r') :=
            (List.takeWhile_append_dropWhile).symm
          have hd : s.dropWhile (fun c => c != '\n' && c != '\r') <:+ '#' :: s := (List.dropWhile_suffix _).trans (List.suffix_cons _ _)
          have := topScan_comment (U := U) FMap.empty (s.takeWhile (fun c => c != '\n' && c != '\r')) (s.dropWhile (fun c => c != '\n' && c != '\r'))
            (by
              intro c hc
              have := List.all_takeWhile (p := fun c : Char => c != '\n' && c != '\r') (l := s)
              have := List.all_eq_true.1 this c hc
              simpa using this)
            (by
              intro c u hu
              have := dropWhile_head (fun c : Char => c != '\n' && c != '\r') s hu
              by_cases h1 : c = '\n'
              · exact .inl h1
              · by_cases h2 : c = '\r'
                · exact .inr h2
                · simp [h1, h2] at this)
          rw [List.cons_append, ← e] at this
          rw [this]
          refine hr _ hd ?_
          have := (List.dropWhile_suffix (fun c : Char => c != '\n' && c != '\r') (l := s)).length_le
          simp only [List.length_cons] at hn
          omega
        · rw [topScan_skip _ hc]
          · exact hr s (List.suffix_cons _ _) (by simp only [List.length_cons] at hn; omega)
          · rintro rfl t rfl
            exact h ⟨[], t, rfl⟩
  have hm : fileMeta U s = .ok FMap.empty := by rw [fileMeta_eq, key _ s rfl h]; rfl
  rw [parseFile_eq hm]
  rfl

/-- **C45** Two dashes anywhere in a file outside comments - also inside a quoted text - that do not start a meta line make the
file be refused. -/
theorem C45_dashes_refused (E : Env) (U : Uni) (ps : List FilePart) (h : ∀ p ∈ ps, p.Ok U) (n : Nat) (rest : Str)
    (hw : ∀ c t, rest = c :: t → c ≠ ' ' ∧ c ≠ '\t')
    (hk : ∀ k ∈ [c!"name", c!"version", c!"precompiler", c!"source", c!"target"], ¬ k <+: rest) :
    parseFile E U (ps.flatMap FilePart.render ++ c!"--" ++ List.replicate n ' ' ++ rest) = .err (.metaError c!"key is empty") := by
  have hm : fileMeta U (ps.flatMap FilePart.render ++ c!"--" ++ List.replicate n ' ' ++ rest) = .err (.metaError c!"key is empty") := by
    rw [fileMeta_eq, List.append_assoc, List.append_assoc, topScan_parts U ps h, ← List.append_assoc]
    rw [show c!"--" ++ List.replicate n ' ' ++ rest = c!"--" ++ sp n ++ rest from rfl, topScan_bad _ n rest hw hk]
    rfl
  simp only [parseFile, hm]

/-- **C45** For every text: the outcome is that of one of the two parsers, or a complaint about the meta lines. -/
theorem C45_outcomes (E : Env) (U : Uni) (s : Str) : parseFile E U s = asSemantics E U s ∨ parseFile E U s = asTransformation U s ∨
    ∃ e, parseFile E U s = .err (.metaError e) := by
  have hl : ∀ (l : List Tok) (m : FMap Str), (∃ m', Ins.topLoop m l = .ok m') ∨ ∃ e, Ins.topLoop m l = .err (.metaError e) := by
    have hml : ∀ (l : List Tok) (acc : Str × Str), (∃ kv, Ins.metaLoop l acc = .ok kv) ∨ ∃ e, Ins.metaLoop l acc = .err (.metaError e) := by
      intro l
      induction l with
      | nil => exact fun acc => .inl ⟨acc, rfl⟩
      | cons t r ih =>
        intro acc
        simp only [Ins.metaLoop]
        split
        · exact ih _
        · exact ih _
        · exact .inr ⟨_, rfl⟩
    intro l
    induction l with
    | nil => exact fun m => .inl ⟨m, rfl⟩
    | cons t r ih =>
      intro m
      simp only [Ins.topLoop]
      have : (∃ m', Ins.topStep m t = .ok m') ∨ ∃ e, Ins.topStep m t = .err (.metaError e) := by
        simp only [Ins.topStep]
        split
        · rcases hml t.kids ([], []) with ⟨kv, e⟩ | ⟨x, e⟩
          · simp only [e]
            split
            · exact .inr ⟨_, rfl⟩
            · split
              · exact .inr ⟨_, rfl⟩
              · exact .inl ⟨_, rfl⟩
          · simp only [e]; exact .inr ⟨_, rfl⟩
        · exact .inl ⟨_, rfl⟩
      rcases this with ⟨m', e⟩ | ⟨x, e⟩
      · simp only [e]; exact ih m'
      · simp only [e]; exact .inr ⟨_, rfl⟩
  obtain ⟨o, h1, -⟩ := topStar_all (U := U) s
  have hm : (∃ m, fileMeta U s = .ok m) ∨ ∃ e, fileMeta U s = .err (.metaError e) := by
    rw [fileMeta_eq]
    simp only [topScan, h1]
    rcases hl o.ts FMap.empty with ⟨m, e⟩ | ⟨x, e⟩
    · rw [e]; exact .inl ⟨m, rfl⟩
    · rw [e]; exact .inr ⟨x, rfl⟩
  rcases hm with ⟨m, e⟩ | ⟨x, e⟩
  · rw [parseFile_eq e]
    cases m.get c!"precompiler" with
    | none => exact .inl rfl
    | some v =>
      dsimp only
      split
      · exact .inr (.inl rfl)
      · split
        · exact .inl rfl
        · exact .inr (.inr ⟨_, rfl⟩)
  · exact .inr (.inr ⟨x, by simp only [parseFile, e]⟩)

/-! ## Examples -/

/-- what became of a file, as a check -/
inductive FileFate where
  | transformation (commands : List TCommand)
  | semantics (commands : Nat)
  | error (e : FileErr)
  | aborted
deriving DecidableEq

/-- see `FileFate` -/
def fileFate (E : Env) (U : Uni) (s : Str) : FileFate := match parseFile E U s with
  | .ok (.transformation a) => .transformation a.commands
  | .ok (.semantics a) => .semantics a.commands.length
  | .err e => .error e
  | .panic => .aborted

/-- whether two dashes in a row occur -/
def hasDashes : Str → Bool
  | [] => false
  | c :: t => (c == '-' && t.head? == some '-') || hasDashes t

theorem hasDashes_append (x y : Str) : hasDashes (x ++ (c!"--" ++ y)) = true := by
  induction x with
  | nil => rfl
  | cons c x ih => rw [List.cons_append, hasDashes, ih, Bool.or_true]

/-- whether the semantics parser reads a file -/
def isRead (r : Res ParseErr OCAAst) : Bool := match r with
  | .ok _ => true
  | _ => false

theorem isRead_iff (r : Res ParseErr OCAAst) : isRead r = true ↔ ∃ a, r = .ok a := by
  cases r <;> simp [isRead]

/-- the parts of a transformation file -/
def dispatchDemo : List FilePart :=
  [.text c!"\n", .metaLine 1 c!"precompiler" 0 0 c!"semantics" 0, .comment c!" -- precompiler=semantics",
   .metaLine 1 c!"precompiler" 1 1 c!"transformation" 2, .metaLine 0 c!"name" 0 0 c!"\"A - B\"" 0, .text c!"RENAME ATTRIBUTE a-b=c d=e\n"]

example : (∀ p ∈ dispatchDemo, p.Ok Uni.ascii) ∧ lastMeta c!"precompiler" dispatchDemo = some c!"transformation" := by
  refine ⟨?_, by decide +kernel⟩
  intro p hp
  have hw : ∀ w : Str, w ≠ [] ∧ w.all (isChar Uni.ascii) = true → IsWord Uni.ascii w := fun w h => isWord_of h
  have hi : ∀ t : Str, hasDashes t = false → ¬ c!"--" <:+: t := by
    rintro t ht ⟨x, y, rfl⟩
    rw [List.append_assoc, hasDashes_append] at ht
    cases ht
  simp only [dispatchDemo, List.mem_cons, List.not_mem_nil, or_false] at hp
  rcases hp with rfl | rfl | rfl | rfl | rfl | rfl
  · exact ⟨by decide, hi _ (by decide), by decide⟩
  · exact ⟨by decide, .inl (hw _ (by decide))⟩
  · exact (by decide : ∀ c ∈ c!" -- precompiler=semantics", c ≠ '\n' ∧ c ≠ '\r')
  · exact ⟨by decide, .inl (hw _ (by decide))⟩
  · exact ⟨by decide, .inr ⟨c!"A - B", rfl, by decide⟩⟩
  · exact ⟨by decide, hi _ (by decide), by decide⟩

example : fileFate Env.short Uni.ascii (dispatchDemo.flatMap FilePart.render) =
    .transformation [⟨.rename, .rename (some [(c!"a-b", c!"c"), (c!"d", c!"e")])⟩] := by decide +kernel

/-- **C45** A label that contains two dashes: the semantics parser reads the file, but the facade refuses it. A quoted
precompiler is unknown. -/
theorem C45_examples :
    fileFate Env.short Uni.ascii c!"ADD ATTRIBUTE a=Text\nADD LABEL en ATTRS a=\"x -- y\"\n" = .error (.metaError c!"key is empty") ∧
    aborted (parseText Env.short Uni.ascii c!"ADD ATTRIBUTE a=Text\nADD LABEL en ATTRS a=\"x -- y\"\n") = false ∧
    (∃ ast, parseText Env.short Uni.ascii c!"ADD ATTRIBUTE a=Text\nADD LABEL en ATTRS a=\"x -- y\"\n" = .ok ast) ∧
    fileFate Env.short Uni.ascii c!"-- precompiler=\"transformation\"\nRENAME ATTRIBUTE a=b\n" = .error (.metaError c!"unknown precompiler") ∧
    fileFate Env.short Uni.ascii c!"-- precompiler=transformation\nLINK ATTRIBUTE a->b\n" = .error (.transformation .grammar) ∧
    fileFate Env.short Uni.ascii c!"-- precompiler=transformation\nLINK ATTRIBUTE a -> b\n" = .transformation [⟨.link, .link (some [(c!"a", c!"b")])⟩] := by
  refine ⟨by decide +kernel, by decide +kernel, ?_, by decide +kernel, by decide +kernel, by decide +kernel⟩
  exact (isRead_iff _).1 (by decide +kernel)

end OCA
