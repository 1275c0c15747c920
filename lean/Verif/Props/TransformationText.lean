import Verif.Lemmas.TransText
import Verif.Props.Transformation
import Verif.Props.FileDispatch
/-!
# C55: transformation files
-/
namespace OCA
open Peg Gr

/-! ## Specification: the lines of a transformation file

A pair (`TPair`) is two names - letters, digits, `-`, `_` - around `=` or `->`, with any number of blanks between the parts (at
least one before `->`, as `-` may be part of a name). -/

/-- A line: blank, a comment, a meta line, or a command with its pairs; the numbers count blanks. -/
inductive TLine where
  | blank (n : Nat)
  | comment (n : Nat) (t : Str)
  | metaLine (n : Nat) (key : Str) (a b : Nat) (value : Str)
  | rename (n : Nat) (l : List TPair)
  | link (n : Nat) (l : List TPair)

/-- as it stands in the file -/
def TLine.render : TLine → Str
  | .blank n => List.replicate n ' ' ++ ['\n']
  | .comment n t => List.replicate n ' ' ++ ('#' :: t ++ ['\n'])
  | .metaLine n k a b v =>
    c!"--" ++ List.replicate n ' ' ++ k ++ List.replicate a ' ' ++ c!"=" ++ List.replicate b ' ' ++ v ++ ['\n']
  | .rename n l => c!"RENAME" ++ List.replicate n ' ' ++ c!"ATTRIBUTE" ++ l.flatMap (TPair.render c!"=") ++ ['\n']
  | .link n l => c!"LINK" ++ List.replicate n ' ' ++ c!"ATTRIBUTE" ++ l.flatMap (TPair.render c!"->") ++ ['\n']

/-- what the parts may be -/
def TLine.Ok (U : Uni) : TLine → Prop
  | .blank _ => True
  | .comment _ t => ∀ c ∈ t, c ≠ '\n' ∧ c ≠ '\r'
  | .metaLine _ k _ _ v => (k = c!"name" ∨ k = c!"version" ∨ k = c!"precompiler" ∨ k = c!"source" ∨ k = c!"target") ∧
      (IsWord U v ∨ ∃ q, v = '"' :: q ++ ['"'] ∧ Quotable q = true)
  | .rename _ l => l ≠ [] ∧ ∀ p ∈ l, p.Ok c!"="
  | .link _ l => l ≠ [] ∧ ∀ p ∈ l, p.Ok c!"->"

/-- the command of a line -/
def TLine.command : TLine → Option TCommand
  | .rename _ l => some ⟨.rename, .rename (some (imExtend [] (l.map fun p => (p.key, p.value))))⟩
  | .link _ l => some ⟨.link, .link (some (imExtend [] (l.map fun p => (p.key, p.value))))⟩
  | _ => none

/-- the pair of a meta line -/
def TLine.metaPair : TLine → Option (Str × Str)
  | .metaLine _ k _ _ v => some (k, v)
  | _ => none

/-- all the pairs of the commands of a file, in order -/
def TLine.pairs : TLine → List (Str × Str)
  | .rename _ l => l.map fun p => (p.key, p.value)
  | .link _ l => l.map fun p => (p.key, p.value)
  | _ => []

/-! ## Proof -/

/-- a line is read as one token, which has this effect -/
structure TLine.Reads (U : Uni) (x : TLine) (tok : Tok) : Prop where
  reads : ∀ rest, Yields (tItem U) false x.render [tok] rest
  meaning : ∀ (ast : TAst) (n : Nat), Ins.tLineStep ast n tok = .ok (match x.command, x.metaPair with
    | some c, _ => { ast with commands := ast.commands ++ [c], commandsMeta := ast.commandsMeta ++ [(ast.commands.length, ⟨n + 1, tok.text⟩)] }
    | none, some kv => { ast with metaMap := ast.metaMap.insert kv.1 kv.2 }
    | none, none => ast)
  text : x.command.isSome = true → x.render = tok.text ++ ['\n']

theorem TLine.reads (U : Uni) (x : TLine) (h : x.Ok U) : ∃ tok, x.Reads U tok := by
  cases x with
  | blank n => exact ⟨_, fun rest => tItem_blank n rest, fun _ _ => rfl, fun h => by cases h⟩
  | comment n t => exact ⟨_, fun rest => tItem_comment n h rest, fun _ _ => rfl, fun h => by cases h⟩
  | metaLine n k a b v =>
    have hk : k ∈ topKeys := by simpa [topKeys] using h.1
    obtain ⟨ts, hts⟩ := tItem_meta n a b hk (show IsMetaValue U v from h.2)
    refine ⟨.node .metaComment (c!"--" ++ (sp n ++ metaPairText k a b v)) [.node .metaAttrKey k [], .node .metaAttrValue v ts], fun rest => ?_, ?_, fun h => by cases h⟩
    · have e : (TLine.metaLine n k a b v).render = metaLineText n k a b v 0 := by
        simp [TLine.render, metaLineText, metaPairText, sp]
      rw [e]; exact hts rest
    · intro ast m
      have h1 : k.isEmpty = false := by
        obtain ⟨c, t, rfl, -⟩ := key_noblank hk; rfl
      have h2 : v.isEmpty = false := by
        rcases h.2 with hv | ⟨q, rfl, -⟩
        · simpa using hv.1
        · rfl
      simp [Ins.tLineStep, Ins.metaLoop, Tree.rule, Tree.kids, Tree.text, h1, h2, TLine.command, TLine.metaPair]
  | rename n l =>
    refine ⟨.node .rename (tCmdText c!"RENAME" c!"=" n l) [.node .renameAttributes (c!"ATTRIBUTE" ++ l.flatMap (TPair.render c!"="))
          [.node .renameAttrPairs (l.flatMap (TPair.render c!"=")) (l.map (TPair.tok c!"=" .renameAttrPair))]], fun rest => ?_, ?_, fun _ => ?_⟩
    · have := tItem_rename (U := U) n h.1 h.2 rest
      simpa [tCmdText, TLine.render, sp] using this
    · intro ast m
      simp only [Ins.tLineStep, Tree.rule, Ins.tCommandOf, Ins.renameOf, Tree.kids, Ins.tObjLoop, Ins.renameAttrsLoop, if_true, renamePairsLoop_toks]
      rfl
    · simp [tCmdText, TLine.render, sp, Tree.text]
  | link n l =>
    refine ⟨.node .tlink (tCmdText c!"LINK" c!"->" n l) [.node .linkAttributes (c!"ATTRIBUTE" ++ l.flatMap (TPair.render c!"->"))
          [.node .linkAttrPairs (l.flatMap (TPair.render c!"->")) (l.map (TPair.tok c!"->" .linkAttrPair))]], fun rest => ?_, ?_, fun _ => ?_⟩
    · have := tItem_link (U := U) n h.1 h.2 rest
      simpa [tCmdText, TLine.render, sp] using this
    · intro ast m
      simp only [Ins.tLineStep, Tree.rule, Ins.tCommandOf, Ins.tLinkOf, Tree.kids, Ins.tObjLoop, Ins.renameAttrsLoop, if_true, renamePairsLoop_toks]
      rfl
    · simp [tCmdText, TLine.render, sp, Tree.text]

theorem TLine.render_ne (x : TLine) : x.render ≠ [] := by
  cases x <;> simp [TLine.render]

theorem tFile_reads (U : Uni) (ls : List TLine) (h : ∀ x ∈ ls, x.Ok U) :
    ∃ toks, All2 (TLine.Reads U) ls toks ∧ Yields (tItem U)*ₚ false (ls.flatMap TLine.render) toks [] := by
  induction ls with
  | nil => exact ⟨[], .nil, Yields.starNil tItem_end⟩
  | cons x ls ih =>
    obtain ⟨toks, h1, h2⟩ := ih fun y hy => h y (.tail _ hy)
    obtain ⟨tok, ht⟩ := x.reads U (h x (.head _))
    exact ⟨tok :: toks, .cons ht h1, Yields.of_eq (Yields.starCons x.render_ne (ht.reads _) h2) (by simp) rfl⟩

/-- the file so far, and what the remaining lines add -/
theorem tLoop_reads {U : Uni} {ls : List TLine} {toks : List Tok} (h : All2 (TLine.Reads U) ls toks) (ast : TAst) (n : Nat) (r : List Tok) :
    ∃ ast', Ins.tLoop ast n (toks ++ r) = Ins.tLoop ast' (n + toks.length) r ∧ ast'.version = ast.version ∧
      ast'.commands = ast.commands ++ ls.filterMap TLine.command ∧
      ast'.metaMap = (ls.filterMap TLine.metaPair).foldl (fun m kv => m.insert kv.1 kv.2) ast.metaMap ∧
      ∃ cm, ast'.commandsMeta = ast.commandsMeta ++ cm ∧
        (∀ j l raw, (j, (⟨l, raw⟩ : CommandMeta)) ∈ cm → ∃ i x c, ls[i]? = some x ∧ x.command = some c ∧ l = n + i + 1 ∧ x.render = raw ++ ['\n'] ∧
          j = ast.commands.length + ((ls.take i).filterMap TLine.command).length) ∧
        cm.map (·.1) = (List.range (ls.filterMap TLine.command).length).map (ast.commands.length + ·) := by
  induction h generalizing ast n with
  | nil => exact ⟨ast, rfl, rfl, by simp, rfl, [], by simp, by simp, rfl⟩
  | @cons x tok ls toks hx _ ih =>
    rw [List.cons_append, Ins.tLoop, hx.meaning]
    cases hc : x.command with
    | some c =>
      have hm : x.metaPair = none := by cases x <;> first | rfl | cases hc
      simp only
      obtain ⟨ast', e, h1, h2, h3, cm, h4, h5, h6⟩ := ih { ast with commands := ast.commands ++ [c], commandsMeta := ast.commandsMeta ++ [(ast.commands.length, ⟨n + 1, tok.text⟩)] } (n + 1)
      refine ⟨ast', by rw [e, List.length_cons, Nat.add_right_comm, Nat.add_assoc], h1, ?_, ?_, (ast.commands.length, ⟨n + 1, tok.text⟩) :: cm, ?_, ?_, ?_⟩
      · rw [h2, List.filterMap_cons, hc]; simp
      · rw [h3, List.filterMap_cons, hm]
      · rw [h4]; simp
      · intro j l raw hmem
        rcases List.mem_cons.1 hmem with e | hmem
        · injection e with e1 e2
          injection e2 with e2 e3
          subst e1 e2 e3
          exact ⟨0, x, c, rfl, hc, by simp, hx.text (by rw [hc]; rfl), by simp⟩
        · obtain ⟨i, y, d, g1, g2, g3, g4, g5⟩ := h5 j l raw hmem
          refine ⟨i + 1, y, d, by simpa using g1, g2, by omega, g4, ?_⟩
          rw [g5]
          simp only [List.length_append, List.length_cons, List.length_nil, List.take_succ_cons, List.filterMap_cons, hc]
          omega
      · rw [List.map_cons, h6, List.filterMap_cons, hc]
        simp only [List.length_append, List.length_cons, List.length_nil, List.range_succ_eq_map, List.map_cons, List.map_map, Nat.add_zero]
        congr 1
        apply List.map_congr_left
        intro i _
        simp only [Function.comp]; omega
    | none =>
      have key : ∀ ast1 : TAst, ast1.commands = ast.commands → ast1.version = ast.version → ast1.commandsMeta = ast.commandsMeta →
          ast1.metaMap = (x.metaPair.toList).foldl (fun m kv => m.insert kv.1 kv.2) ast.metaMap → ∃ ast', Ins.tLoop ast1 (n + 1) (toks ++ r) = Ins.tLoop ast' (n + (tok :: toks).length) r ∧ ast'.version = ast.version ∧
      ast'.commands = ast.commands ++ (x :: ls).filterMap TLine.command ∧
      ast'.metaMap = ((x :: ls).filterMap TLine.metaPair).foldl (fun m kv => m.insert kv.1 kv.2) ast.metaMap ∧
      ∃ cm, ast'.commandsMeta = ast.commandsMeta ++ cm ∧
        (∀ j l raw, (j, (⟨l, raw⟩ : CommandMeta)) ∈ cm → ∃ i x' c, (x :: ls)[i]? = some x' ∧ x'.command = some c ∧ l = n + i + 1 ∧ x'.render = raw ++ ['\n'] ∧
          j = ast.commands.length + (((x :: ls).take i).filterMap TLine.command).length) ∧
        cm.map (·.1) = (List.range ((x :: ls).filterMap TLine.command).length).map (ast.commands.length + ·) := by
        intro ast1 a1 a2 a3 a4
        obtain ⟨ast', e, h1, h2, h3, cm, h4, h5, h6⟩ := ih ast1 (n + 1)
        refine ⟨ast', by rw [e, List.length_cons, Nat.add_right_comm, Nat.add_assoc], by rw [h1, a2], ?_, ?_, cm, by rw [h4, a3], ?_, ?_⟩
        · rw [h2, a1, List.filterMap_cons, hc]
        · rw [h3, a4, List.filterMap_cons]
          cases x.metaPair <;> rfl
        · intro j l raw hmem
          obtain ⟨i, y, d, g1, g2, g3, g4, g5⟩ := h5 j l raw hmem
          refine ⟨i + 1, y, d, by simpa using g1, g2, by omega, g4, ?_⟩
          rw [g5, a1]
          simp only [List.take_succ_cons, List.filterMap_cons, hc]
        · rw [h6, a1, List.filterMap_cons, hc]
      cases hm : x.metaPair with
      | none => exact key ast rfl rfl rfl (by rw [hm]; rfl)
      | some kv => exact key { ast with metaMap := ast.metaMap.insert kv.1 kv.2 } rfl rfl rfl (by rw [hm]; rfl)

theorem metaFold_get (l : List (Str × Str)) (m : FMap Str) (k : Str) :
    (l.foldl (fun m kv => m.insert kv.1 kv.2) m).get k = (FMap.lastVal l k).or (m.get k) := by
  induction l using snoc_ind with
  | h0 => rfl
  | h1 l p ih =>
    rw [List.foldl_append]
    simp only [List.foldl_cons, List.foldl_nil, FMap.get_insert, ih]
    have : FMap.lastVal (l ++ [p]) k = if k = p.1 then some p.2 else FMap.lastVal l k := by simp [FMap.lastVal, List.foldl_append]
    rw [this]
    by_cases h : p.1 = k
    · simp [h]
    · have h' : ¬ k = p.1 := fun e => h e.symm
      simp [h, h']

/-- **C55** A transformation file written with any blanks, comments and meta lines is read as its commands in order (for a name
given twice in a command the last value counts, in the first place), its meta lines (the last value of a key counts), and with each
command the number and text of its line. -/
theorem C55_read (U : Uni) (ls : List TLine) (h : ∀ x ∈ ls, x.Ok U) : ∃ ast, parseTransformation U (ls.flatMap TLine.render) = .ok ast ∧
    ast.version = c!"1.0.0" ∧
    ast.commands = ls.filterMap TLine.command ∧
    (∀ k v, ast.metaMap.get k = some v ↔ LastWith (fun p => p.1 = k) (ls.filterMap TLine.metaPair) (k, v)) ∧
    ast.commandsMeta.map (·.1) = List.range ast.commands.length ∧
    (∀ j l raw, (j, (⟨l, raw⟩ : CommandMeta)) ∈ ast.commandsMeta → ∃ x c, 0 < l ∧ ls[l - 1]? = some x ∧ x.command = some c ∧
      x.render = raw ++ ['\n'] ∧ j = ((ls.take (l - 1)).filterMap TLine.command).length) := by
  obtain ⟨toks, h1, h2⟩ := tFile_reads U ls h
  have hf : Yields (tFile U) false (ls.flatMap TLine.render) [.node .file (ls.flatMap TLine.render) (toks ++ [.node .eoi [] []])] [] := by
    refine Yields.normal _ ?_
    have he : Yields eoiTok false [] [.node .eoi [] []] [] := rfl
    exact Yields.seq' (s' := []) h2 he (by simp) rfl
  unfold Yields at hf
  rw [List.append_nil] at hf
  obtain ⟨ast, e, g1, g2, g3, cm, g4, g5, g6⟩ := tLoop_reads h1 TAst.new 0 [.node .eoi [] []]
  refine ⟨ast, ?_, g1, by simpa [TAst.new] using g2, ?_, ?_, ?_⟩
  · simp only [parseTransformation, hf, Tree.kids]
    rw [e]; rfl
  · intro k v
    rw [g3, metaFold_get, ← lastVal_lastWith]
    simp [TAst.new, FMap.get, FMap.empty, FMap.lget]
  · rw [g4]
    simp only [TAst.new, List.nil_append]
    rw [g6, g2]
    simp [TAst.new]
  · intro j l raw hmem
    rw [g4] at hmem
    obtain ⟨i, x, c, a1, a2, a3, a4, a5⟩ := g5 j l raw (by simpa [TAst.new] using hmem)
    have : l - 1 = i := by omega
    exact ⟨x, c, by omega, by rw [this]; exact a1, a2, a4, by rw [this]; simpa [TAst.new] using a5⟩

theorem pairs_of_commands (ls : List TLine) : (ls.filterMap TLine.command).flatMap TCommand.pairs =
    ls.flatMap fun x => imExtend [] x.pairs := by
  induction ls with
  | nil => rfl
  | cons x ls ih =>
    rw [List.flatMap_cons, ← ih, List.filterMap_cons]
    cases x <;> simp [TLine.command, TLine.pairs, TCommand.pairs, imExtend]

/-! A map written into another map -/

theorem imInsert_twice {V : Type} (k : Str) (v w : V) (l : List (Str × V)) : imInsert k v (imInsert k w l) = imInsert k v l := by
  induction l with
  | nil => simp [imInsert]
  | cons p t ih =>
    obtain ⟨a, b⟩ := p
    simp only [imInsert]
    by_cases h : k = a
    · simp [h, imInsert]
    · simp [h, imInsert, ih]

theorem imInsert_comm {V : Type} {k j : Str} (v w : V) {l : List (Str × V)} (hk : k ∈ l.map (·.1)) (h : j ≠ k) :
    imInsert k v (imInsert j w l) = imInsert j w (imInsert k v l) := by
  induction l with
  | nil => cases hk
  | cons p t ih =>
    obtain ⟨a, b⟩ := p
    by_cases h1 : k = a
    · subst h1
      simp [imInsert, h]
    · have hk' : k ∈ t.map (·.1) := by simpa [h1] using hk
      by_cases h2 : j = a
      · subst h2
        simp [imInsert, h1]
      · simp [imInsert, h1, h2, ih hk']

theorem imInsert_mem {V : Type} (k : Str) (v : V) (l : List (Str × V)) : k ∈ (imInsert k v l).map (·.1) := by
  induction l with
  | nil => simp [imInsert]
  | cons p t ih =>
    simp only [imInsert]
    split
    · simp
    · simp only [List.map_cons, List.mem_cons]; exact .inr ih

theorem imInsert_mono {V : Type} (k j : Str) (v : V) (l : List (Str × V)) (h : j ∈ l.map (·.1)) : j ∈ (imInsert k v l).map (·.1) := by
  induction l with
  | nil => cases h
  | cons p t ih =>
    simp only [List.map_cons, List.mem_cons] at h
    simp only [imInsert]
    split
    · next e => rcases h with h | h
                · simp [h, e]
                · simp only [List.map_cons, List.mem_cons]; exact .inr h
    · rcases h with h | h
      · simp [h]
      · simp only [List.map_cons, List.mem_cons]; exact .inr (ih h)

theorem imInsert_after {V : Type} {k : Str} (v : V) (t : List (Str × V)) (acc : List (Str × V)) (hk : k ∈ acc.map (·.1)) (h : k ∉ t.map (·.1)) :
    imInsert k v (imExtend acc t) = imExtend (imInsert k v acc) t := by
  induction t generalizing acc with
  | nil => rfl
  | cons p t ih =>
    simp only [List.map_cons, List.mem_cons, not_or] at h
    show imInsert k v (imExtend (imInsert p.1 p.2 acc) t) = imExtend (imInsert p.1 p.2 (imInsert k v acc)) t
    rw [ih _ (imInsert_mono _ _ _ _ hk) h.2, imInsert_comm _ _ hk (fun e => h.1 e.symm)]

theorem imExtend_insert {V : Type} (k : Str) (v : V) (l acc : List (Str × V)) (hn : (l.map (·.1)).Nodup) :
    imExtend acc (imInsert k v l) = imInsert k v (imExtend acc l) := by
  induction l generalizing acc with
  | nil => rfl
  | cons p t ih =>
    obtain ⟨a, w⟩ := p
    simp only [List.map_cons, List.nodup_cons] at hn
    simp only [imInsert]
    split
    · next e =>
      subst e
      show imExtend (imInsert k v acc) t = imInsert k v (imExtend (imInsert k w acc) t)
      rw [imInsert_after _ _ _ (imInsert_mem _ _ _) hn.1, imInsert_twice]
    · exact ih (imInsert a w acc) hn.2

theorem imExtend_uniq {V : Type} (l : List (Str × V)) : ((imExtend [] l).map (·.1)).Nodup := by
  induction l using snoc_ind with
  | h0 => exact List.nodup_nil
  | h1 l p ih =>
    have e : imExtend [] (l ++ [p]) = imInsert p.1 p.2 (imExtend [] l) := by simp [imExtend]
    rw [e]; exact Gr.imInsert_nodup _ _ _ ih

theorem imExtend_imExtend {V : Type} (l acc : List (Str × V)) : imExtend acc (imExtend [] l) = imExtend acc l := by
  induction l using snoc_ind with
  | h0 => rfl
  | h1 l p ih =>
    have e : ∀ acc : List (Str × V), imExtend acc (l ++ [p]) = imInsert p.1 p.2 (imExtend acc l) := fun acc => by simp [imExtend]
    rw [e, e, imExtend_insert _ _ _ _ (imExtend_uniq _), ih]

theorem imExtend_flatMap (ls : List TLine) (acc : List (Str × Str)) :
    imExtend acc (ls.flatMap fun x => imExtend [] x.pairs) = imExtend acc (ls.flatMap TLine.pairs) := by
  induction ls generalizing acc with
  | nil => rfl
  | cons x ls ih =>
    rw [List.flatMap_cons, List.flatMap_cons, ← imExtend_assoc, ← imExtend_assoc, ih, imExtend_imExtend]

/-- **C55** From the text to the transformation: it maps exactly the names of the file's pairs, each to what the last pair with that
name says, in the order of first mention; source and target are the last such meta lines. It aborts iff the file has meta lines but
not both of these, or neither meta lines nor commands. -/
theorem C55_build (E : Env) (U : Uni) (ls : List TLine) (h : ∀ x ∈ ls, x.Ok U) : ∃ ast, parseTransformation U (ls.flatMap TLine.render) = .ok ast ∧
    (transBuild (ε := Str) E ast = .panic ↔
      (ls.filterMap TLine.metaPair = [] ∧ ls.filterMap TLine.command = []) ∨
      (ls.filterMap TLine.metaPair ≠ [] ∧ ∃ k ∈ [c!"source", c!"target"], ∀ v, (k, v) ∉ ls.filterMap TLine.metaPair)) ∧
    ∀ t, transBuild (ε := Str) E ast = .ok t →
      (∀ k v, (k, v) ∈ t.attributes ↔ LastWith (fun p => p.1 = k) (ls.flatMap TLine.pairs) (k, v)) ∧
      t.attributes.map (·.1) = ((ls.flatMap TLine.pairs).map (·.1)).eraseDups ∧
      (∀ s, LastWith (fun p => p.1 = c!"source") (ls.filterMap TLine.metaPair) (c!"source", s) → t.source = some (eraseAll c!"refs:" 0 s)) ∧
      (∀ s, LastWith (fun p => p.1 = c!"target") (ls.filterMap TLine.metaPair) (c!"target", s) → t.target = some (eraseAll c!"refs:" 0 s)) := by
  obtain ⟨ast, e, h1, h2, h3, -⟩ := C55_read U ls h
  refine ⟨ast, e, ?_, ?_⟩
  · rw [transBuild_eq]
    have hnone : ∀ k, ast.metaMap.get k = none ↔ ∀ v, (k, v) ∉ ls.filterMap TLine.metaPair := by
      intro k
      constructor
      · intro hk v hm
        have : (FMap.lastVal (ls.filterMap TLine.metaPair) k).isSome = true := isSome_lastVal hm
        obtain ⟨w, hw⟩ := Option.isSome_iff_exists.1 this
        rw [lastVal_lastWith, ← h3, hk] at hw
        cases hw
      · intro hk
        cases hg : ast.metaMap.get k with
        | none => rfl
        | some v =>
          obtain ⟨a, b, e, -⟩ := (h3 k v).1 hg
          exact absurd (by rw [e]; simp) (hk v)
    have hnil : ast.metaMap.l = [] ↔ ls.filterMap TLine.metaPair = [] := by
      constructor
      · intro hl
        have : ∀ p, p ∉ ls.filterMap TLine.metaPair := fun p => (hnone p.1).1 (FMap.get_of_nil hl _) p.2
        exact List.eq_nil_iff_forall_not_mem.2 this
      · intro hl
        have : ∀ k, ast.metaMap.get k = none := fun k => (hnone k).2 (by simp [hl])
        cases hml : ast.metaMap.l with
        | nil => rfl
        | cons p t =>
          have := this p.1
          simp [FMap.get, hml, FMap.lget] at this
    split
    · next hc =>
      simp only [hnil, h2, hnone, ne_eq] at hc
      refine iff_of_true rfl ?_
      rcases hc with hc | ⟨hc, hc' | hc'⟩
      · exact .inl hc
      · exact .inr ⟨hc, _, .head _, hc'⟩
      · exact .inr ⟨hc, _, .tail _ (.head _), hc'⟩
    · next hc =>
      simp only [hnil, h2, hnone, ne_eq] at hc
      refine iff_of_false (by simp) ?_
      rintro (hc' | ⟨h4, k, hk, h5⟩)
      · exact hc (.inl hc')
      · simp only [List.mem_cons, List.not_mem_nil, or_false] at hk
        rcases hk with rfl | rfl
        · exact hc (.inr ⟨h4, .inl h5⟩)
        · exact hc (.inr ⟨h4, .inr h5⟩)
  · intro t ht
    rw [transBuild_eq] at ht
    split at ht
    · cases ht
    · injection ht with ht
      have ha : t.attributes = imExtend [] (ls.flatMap TLine.pairs) := by
        rw [← ht, h2, pairs_of_commands, ← imExtend_flatMap]
        rfl
      have hn : (t.attributes.map (·.1)).Nodup := by rw [ha]; exact imExtend_uniq _
      refine ⟨?_, by rw [ha, imExtend_dups], ?_, ?_⟩
      · intro k v
        rw [← imGet_iff_mem hn, ha, imGet_imExtend, ← lastVal_lastWith]
        simp [imGet, FMap.lget]
      · intro s hs
        rw [← ht]
        show (ast.metaMap.get c!"source").map _ = _
        rw [(h3 _ _).2 hs]; rfl
      · intro s hs
        rw [← ht]
        show (ast.metaMap.get c!"target").map _ = _
        rw [(h3 _ _).2 hs]; rfl

/-! ## Every text -/

/-- what every text that is read gives: RENAME and LINK commands with at least one pair, names of the syntax, no name twice -/
def TCommand.Fair (c : TCommand) : Prop := ∃ l : List (Str × Str), l ≠ [] ∧ (c = ⟨.rename, .rename (some l)⟩ ∨ c = ⟨.link, .link (some l)⟩) ∧
  (l.map (·.1)).Nodup ∧ ∀ p ∈ l, TKey p.1 ∧ TKey p.2

theorem cls_u {f : Char → Bool} {a : Bool} {i : Str} {o : Out Rule} (h : cls f a i = some o) : ∃ c, o.u = [c] ∧ f c = true := by
  cases i with
  | nil => cases h
  | cons c r =>
    simp only [Peg.cls] at h
    split at h
    · next hc => injection h with h; subst h; exact ⟨c, rfl, hc⟩
    · cases h

theorem tAttrKey_emits {b a : Bool} : Emits b tAttrKey a (fun ts u => ts = [keyTok u] ∧ TKey u) := by
  intro i o h hb
  obtain ⟨o', h', rfl⟩ := compound_some h
  obtain ⟨o1, o2, e1, e2, rfl⟩ := seq_some h'
  obtain ⟨c, hu, hc⟩ := cls_u e1
  have h2 : ∀ c ∈ o2.u, isPropKeyChar c = true := by
    refine star_rec (P := fun _ o => ∀ c ∈ o.u, isPropKeyChar c = true) (fun _ _ c hc => by cases hc) ?_ _ _ e2
    intro i o o' e1 _ _ ih c hc
    obtain ⟨d, hd, hd'⟩ := cls_u e1
    simp only [hd, List.mem_append, List.mem_singleton] at hc
    rcases hc with rfl | hc
    · exact hd'
    · exact ih c hc
  refine ⟨by simp [quiet e1, quiet e2, keyTok], ?_, ?_⟩
  · simp [hu]
  · intro d hd
    simp only [hu, List.singleton_append, List.mem_cons] at hd
    rcases hd with rfl | hd
    · exact hc
    · exact h2 d hd

/-- a pair is read as two names -/
def NamesTok (t : Tok) : Prop := ∃ k v, Ins.renamePair t = .ok (k, v) ∧ TKey k ∧ TKey v

theorem tPair_emits {b : Bool} {sign : Str} {rule : Rule} :
    Emits b (atomic rule (tAttrKey ~ₚ argWs ?ₚ ~ₚ lit sign ~ₚ argWs ?ₚ ~ₚ tAttrKey)) false (fun ts _ => ∃ t, ts = [t] ∧ NamesTok t) := by
  refine (Emits.atomic _ (tAttrKey_emits.seq ((Emits.quiet _ _ _).seq ((Emits.quiet _ _ _).seq ((Emits.quiet _ _ _).seq tAttrKey_emits))))).mono ?_
  rintro _ _ ⟨_, rfl, _, _, k, _, rfl, rfl, ⟨rfl, hk⟩, _, _, _, _, rfl, rfl, rfl, _, _, _, _, rfl, rfl, rfl, _, _, _, v, rfl, rfl, rfl, rfl, hv⟩
  exact ⟨_, rfl, k, v, rfl, hk, hv⟩

/-- the tokens between pairs: noise is refused -/
theorem renamePair_noise {t : Tok} (h : IsNoise t) : Ins.renamePair t = .err c!"Missing attribute name" := by
  simp only [Ins.renamePair, h.2, Ins.renameLoop]

/-- good pairs, or nothing read yet -/
def GoodPairs (l : List (Str × Str)) : Prop := (l.map (·.1)).Nodup ∧ ∀ p ∈ l, TKey p.1 ∧ TKey p.2

theorem GoodPairs.insert {l : List (Str × Str)} (h : GoodPairs l) {k v : Str} (hk : TKey k) (hv : TKey v) : GoodPairs (imInsert k v l) := by
  refine ⟨Gr.imInsert_nodup _ _ _ h.1, ?_⟩
  obtain ⟨-, h⟩ := h
  induction l with
  | nil => rintro p hp; rcases List.mem_singleton.1 hp with rfl; exact ⟨hk, hv⟩
  | cons q t ih =>
    intro p hp
    simp only [imInsert] at hp
    split at hp
    · rcases List.mem_cons.1 hp with rfl | hp
      · exact ⟨hk, hv⟩
      · exact h p (.tail _ hp)
    · rcases List.mem_cons.1 hp with rfl | hp
      · exact h _ (.head _)
      · exact ih (fun x hx => h x (.tail _ hx)) p hp

theorem renamePairsLoop_fair {ts : List Tok} (h : Toks (fun t => NamesTok t ∨ IsNoise t) ts) {acc : List (Str × Str)} (ha : GoodPairs acc) :
    (∃ e, Ins.renamePairsLoop ts acc = .err e) ∨ ∃ l, Ins.renamePairsLoop ts acc = .ok l ∧ GoodPairs l ∧ (acc ≠ [] ∨ ts ≠ [] → l ≠ []) := by
  induction ts generalizing acc with
  | nil => exact .inr ⟨acc, rfl, ha, by simp⟩
  | cons t ts ih =>
    rw [Ins.renamePairsLoop]
    rcases h t (.head _) with ⟨k, v, e, hk, hv⟩ | hn
    · rw [e]
      rcases ih (fun x hx => h x (.tail _ hx)) (ha.insert hk hv) with ⟨e, he⟩ | ⟨l, hl, hg, hne⟩
      · exact .inl ⟨e, he⟩
      · exact .inr ⟨l, hl, hg, fun _ => hne (.inl (Gr.imInsert_ne _ _ _))⟩
    · rw [renamePair_noise hn]; exact .inl ⟨_, rfl⟩

/-- a token of pairs -/
def PairsTok (rps : Rule) (t : Tok) : Prop := t.rule = rps ∧ t.kids ≠ [] ∧ Toks (fun t => NamesTok t ∨ IsNoise t) t.kids

theorem renameAttrsLoop_fair {rps : Rule} {ts : List Tok} (h : Toks (PairsTok rps) ts) {acc : List (Str × Str)} (ha : GoodPairs acc) :
    (∃ e, Ins.renameAttrsLoop rps ts acc = .err e) ∨ ∃ l, Ins.renameAttrsLoop rps ts acc = .ok l ∧ GoodPairs l ∧ (acc ≠ [] ∨ ts ≠ [] → l ≠ []) := by
  induction ts generalizing acc with
  | nil => exact .inr ⟨acc, rfl, ha, by simp⟩
  | cons t ts ih =>
    obtain ⟨h1, h2, h3⟩ := h t (.head _)
    rw [Ins.renameAttrsLoop, if_pos h1]
    rcases renamePairsLoop_fair h3 ha with ⟨e, he⟩ | ⟨l, hl, hg, hne⟩
    · rw [he]; exact .inl ⟨e, rfl⟩
    · rw [hl]
      rcases ih (fun x hx => h x (.tail _ hx)) hg with ⟨e, he⟩ | ⟨l', hl', hg', hne'⟩
      · exact .inl ⟨e, he⟩
      · exact .inr ⟨l', hl', hg', fun _ => hne' (.inl (hne (.inr h2)))⟩

/-- a token of a command -/
def TCmdTok (rc ra rps : Rule) (t : Tok) : Prop := t.rule = rc ∧ ∃ ns x, t.kids = ns ++ [x] ∧ Toks IsNoise ns ∧ x.rule = ra ∧ x.kids ≠ [] ∧ Toks (PairsTok rps) x.kids

theorem tObjLoop_fair {ra rps : Rule} {mk : Option (List (Str × Str)) → TObj} {ns : List Tok} {x : Tok} (hra : ra ≠ .comment ∧ ra ≠ .emptyLine)
    (hn : Toks IsNoise ns) (h1 : x.rule = ra) (h2 : x.kids ≠ []) (h3 : Toks (PairsTok rps) x.kids) :
    (∃ e, Ins.tObjLoop ra rps mk (ns ++ [x]) none = .err e) ∨ ∃ l, Ins.tObjLoop ra rps mk (ns ++ [x]) none = .ok (some (mk (some l))) ∧ GoodPairs l ∧ l ≠ [] := by
  cases ns with
  | nil =>
    simp only [List.nil_append, Ins.tObjLoop, h1, if_true]
    rcases renameAttrsLoop_fair h3 (acc := []) ⟨List.nodup_nil, by simp⟩ with ⟨e, he⟩ | ⟨l, hl, hg, hne⟩
    · rw [he]; exact .inl ⟨e, rfl⟩
    · rw [hl]; exact .inr ⟨l, rfl, hg, hne (.inr h2)⟩
  | cons t ns =>
    have ht := hn t (.head _)
    have : t.rule ≠ ra := by
      rcases ht.1 with h | h <;> rw [h]
      · exact hra.1.symm
      · exact hra.2.symm
    rw [List.cons_append, Ins.tObjLoop, if_neg this]
    exact .inl ⟨_, rfl⟩

theorem tCommand_emits {sign kw : Str} {rp rps ra rc : Rule} :
    Emits true (normal rc (ilit kw ~ₚ argWs*ₚ ~ₚ normal ra (ilit c!"attribute" ~ₚ (compound rps
      (argWs ~ₚ atomic rp (tAttrKey ~ₚ argWs ?ₚ ~ₚ lit sign ~ₚ argWs ?ₚ ~ₚ tAttrKey))+ₚ)+ₚ))) false
      (fun ts u => ∃ t, ts = [t] ∧ t.text = u ∧ TCmdTok rc ra rps t) := by
  have hitem : Emits true (argWs ~ₚ atomic rp (tAttrKey ~ₚ argWs ?ₚ ~ₚ lit sign ~ₚ argWs ?ₚ ~ₚ tAttrKey)) false
      (fun ts _ => Toks (fun t => NamesTok t ∨ IsNoise t) ts) :=
    .seqToks (argWs_emits.mono fun _ _ h => h.mono fun _ h => .inr h.2) (tPair_emits.mono (by rintro _ _ ⟨t, rfl, h⟩; exact .one (.inl h)))
  have hne : Emits true (argWs ~ₚ atomic rp (tAttrKey ~ₚ argWs ?ₚ ~ₚ lit sign ~ₚ argWs ?ₚ ~ₚ tAttrKey)) false (fun ts _ => ts ≠ []) :=
    (argWs_emits.seq tPair_emits).mono (by rintro _ _ ⟨_, _, _, _, rfl, -, -, t, rfl, -⟩; simp)
  have hpairs : Emits true (compound rps (argWs ~ₚ atomic rp (tAttrKey ~ₚ argWs ?ₚ ~ₚ lit sign ~ₚ argWs ?ₚ ~ₚ tAttrKey))+ₚ) false
      (fun ts _ => ∃ t, ts = [t] ∧ PairsTok rps t) :=
    (Emits.compound _ (Emits.plusOne hitem hne)).mono (by
      rintro _ u ⟨ks, rfl, h1, t1, t2, _, rfl, h2⟩
      refine ⟨_, rfl, rfl, ?_, h1⟩
      simp [Tree.kids, h2])
  have hpl := Emits.plusOne (S := PairsTok rps) (hpairs.mono (by rintro _ _ ⟨t, rfl, h⟩; exact .one h)) hpairs
  refine (Emits.normal _ ((Emits.quiet _ _ _).seq (argWsStar_emits.seq (Emits.normal _ ((Emits.quiet _ _ _).seq hpl))))).mono ?_
  rintro _ u ⟨_, rfl, _, _, _, _, rfl, -, rfl, ns, _, _, _, rfl, -, hns, ks, rfl, _, _, _, _, rfl, -, rfl, hx, t1, t2, _, rfl, t, rfl, -⟩
  exact ⟨_, rfl, rfl, rfl, ns, _, rfl, hns.mono fun _ h => h.2, rfl, by simp [Tree.kids], hx⟩

/-- a token of a file -/
def TLineTok (U : Uni) (t : Tok) : Prop := t.rule = .eoi ∨ t.rule = .comment ∨ t.rule = .emptyLine ∨ t.rule = .from_ ∨
  (t.rule = .metaComment ∧ MetaToks U (· ∈ topKeys) t.kids) ∨ TCmdTok .rename .renameAttributes .renameAttrPairs t ∨
  TCmdTok .tlink .linkAttributes .linkAttrPairs t

theorem topMetaKey_emits {b a : Bool} : Emits b topMetaKey a (fun ts u => ts = [.node .metaAttrKey u []] ∧ u ∈ topKeys) := by
  have h : ∀ s ∈ topKeys, Emits b (lit s : P) false (fun ts u => ts = [] ∧ u ∈ topKeys) :=
    fun s hs i o h _ => ⟨quiet h, by rw [lit_u h]; exact hs⟩
  refine (Emits.compound _ (Emits.alt (h _ (by decide)) (Emits.alt (h _ (by decide)) (Emits.alt (h _ (by decide)) (Emits.alt (h _ (by decide)) (h _ (by decide))))))).mono ?_
  rintro _ u ⟨_, rfl, rfl, h⟩
  exact ⟨rfl, h⟩

theorem tFile_emits {U : Uni} : Emits true (tFile U) false (fun ts u => ∃ ks, ts = [.node .file u ks] ∧ Within (TLineTok U) ks u) := by
  have hcomm : Emits true comment false (Within (TLineTok U)) :=
    Emits.within (comment_emits.mono (by rintro _ u ⟨_, rfl, rfl⟩; exact ⟨_, rfl, rfl, .inr (.inl rfl)⟩))
  have hempty : Emits true emptyLine false (Within (TLineTok U)) :=
    Emits.within (emptyLine_emits.mono (by rintro _ u ⟨_, rfl, rfl⟩; exact ⟨_, rfl, rfl, .inr (.inr (.inl rfl))⟩))
  have heoi : Emits true eoiTok false (Within (TLineTok U)) :=
    Emits.within ((Emits.normal _ (Emits.quiet _ _ _)).mono (by rintro _ u ⟨_, rfl, rfl⟩; exact ⟨_, rfl, rfl, .inl rfl⟩))
  have hmeta : Emits true (metaComment U topMetaKey) false (Within (TLineTok U)) :=
    Emits.within ((metaComment_emits (K := (· ∈ topKeys)) topMetaKey_emits).mono (by
      rintro _ u ⟨ks, rfl, h⟩; exact ⟨_, rfl, rfl, .inr (.inr (.inr (.inr (.inl ⟨rfl, h⟩))))⟩))
  have hfrom : Emits true (from_ U) false (Within (TLineTok U)) := by
    refine Emits.within (fun i o h hb => ?_)
    obtain ⟨o', h', rfl⟩ := normal_some h
    exact ⟨_, rfl, rfl, .inr (.inr (.inr (.inl rfl)))⟩
  have hren : Emits true rename false (Within (TLineTok U)) :=
    Emits.within (tCommand_emits.mono (by rintro _ u ⟨t, rfl, e, h⟩; exact ⟨t, rfl, e, .inr (.inr (.inr (.inr (.inr (.inl h)))))⟩))
  have hlink : Emits true tLink false (Within (TLineTok U)) :=
    Emits.within (tCommand_emits.mono (by rintro _ u ⟨t, rfl, e, h⟩; exact ⟨t, rfl, e, .inr (.inr (.inr (.inr (.inr (.inr h)))))⟩))
  refine Emits.normal _ (.seqWithin (.starWithin (Emits.alt hempty (Emits.alt ?_ (Emits.alt ?_ ?_)))) heoi)
  · exact .seqWithin .quietWithin (.seqWithin hmeta .quietWithin)
  · exact .seqWithin .quietWithin (.seqWithin hcomm .quietWithin)
  · exact .seqWithin (Emits.alt hfrom (Emits.alt hren hlink)) .quietWithin

/-- what the state may be -/
structure FairAst (s : Str) (ast : TAst) : Prop where
  version : ast.version = c!"1.0.0"
  commands : ∀ c ∈ ast.commands, c.Fair
  meta_ : ∀ k v, ast.metaMap.get k = some v → k ∈ topKeys ∧ v ≠ []
  raw : ∀ j l raw, (j, (⟨l, raw⟩ : CommandMeta)) ∈ ast.commandsMeta → raw <:+: s
  keys : ast.commandsMeta.map (·.1) = List.range ast.commands.length

theorem tLineStep_fair {U : Uni} {s : Str} {t : Tok} (h : TLineTok U t) (hs : t.text <:+: s) {ast : TAst} (ha : FairAst s ast) (n : Nat) :
    (∃ e, Ins.tLineStep ast n t = .err e) ∨ ∃ ast', Ins.tLineStep ast n t = .ok ast' ∧ FairAst s ast' := by
  have hcmd : ∀ c : TCommand, c.Fair → FairAst s { ast with commands := ast.commands ++ [c], commandsMeta := ast.commandsMeta ++ [(ast.commands.length, ⟨n + 1, t.text⟩)] } := by
    intro c hc
    refine ⟨ha.version, ?_, ha.meta_, ?_, by simp [ha.keys, List.range_succ]⟩
    · intro d hd
      rcases List.mem_append.1 hd with hd | hd
      · exact ha.commands d hd
      · rcases List.mem_singleton.1 hd with rfl; exact hc
    · intro j l raw hm
      rcases List.mem_append.1 hm with hm | hm
      · exact ha.raw j l raw hm
      · rcases List.mem_singleton.1 hm with hm
        injection hm with _ hm
        injection hm with _ hm
        rw [hm]; exact hs
  rcases h with h | h | h | h | ⟨h, hm⟩ | ⟨h, ns, x, hk, hn, h1, h2, h3⟩ | ⟨h, ns, x, hk, hn, h1, h2, h3⟩
  · simp only [Ins.tLineStep, h]; exact .inr ⟨ast, rfl, ha⟩
  · simp only [Ins.tLineStep, h]; exact .inr ⟨ast, rfl, ha⟩
  · simp only [Ins.tLineStep, h]; exact .inr ⟨ast, rfl, ha⟩
  · simp only [Ins.tLineStep, h, Ins.tCommandOf]; exact .inl ⟨_, rfl⟩
  · simp only [Ins.tLineStep, h]
    obtain ⟨⟨k, v⟩, e, hkv⟩ := hm ([], []) (.inl rfl) []
    rw [List.append_nil] at e
    rw [e]
    simp only [Ins.metaLoop]
    by_cases e1 : k.isEmpty = true
    · simp only [e1, if_true]; exact .inl ⟨_, rfl⟩
    by_cases e2 : v.isEmpty = true
    · simp only [e1, e2, if_true, if_false]; exact .inl ⟨_, rfl⟩
    simp only [e1, e2, if_false]
    refine .inr ⟨_, rfl, ha.version, ha.commands, ?_, ha.raw, ha.keys⟩
    intro k' v' hg
    simp only [FMap.get_insert] at hg
    split at hg
    · next e =>
      injection hg with hg
      subst e hg
      refine ⟨?_, by simpa using e2⟩
      rcases hkv with hkv | hkv
      · injection hkv with h1 h2; subst h1; exact absurd rfl e1
      · exact hkv.1
    · exact ha.meta_ k' v' hg
  · simp only [Ins.tLineStep, h, Ins.tCommandOf, Ins.renameOf, hk]
    rcases tObjLoop_fair (mk := .rename) (by decide) hn h1 h2 h3 with ⟨e, he⟩ | ⟨l, hl, hg, hne⟩
    · rw [he]; exact .inl ⟨_, rfl⟩
    · rw [hl]; exact .inr ⟨_, rfl, hcmd _ ⟨l, hne, .inl rfl, hg⟩⟩
  · simp only [Ins.tLineStep, h, Ins.tCommandOf, Ins.tLinkOf, hk]
    rcases tObjLoop_fair (mk := .link) (by decide) hn h1 h2 h3 with ⟨e, he⟩ | ⟨l, hl, hg, hne⟩
    · rw [he]; exact .inl ⟨_, rfl⟩
    · rw [hl]; exact .inr ⟨_, rfl, hcmd _ ⟨l, hne, .inr rfl, hg⟩⟩

/-- **C55** For every text: the transformation parser does not abort, and when it accepts, every command is a RENAME or LINK with at
least one pair, no name twice, and names of the syntax; the meta keys are the five known ones, with values; and the recorded texts
are parts of the file, one for each command. -/
theorem C55_every_text (U : Uni) (s : Str) : parseTransformation U s ≠ .panic ∧ ∀ ast, parseTransformation U s = .ok ast →
    ast.version = c!"1.0.0" ∧ (∀ c ∈ ast.commands, c.Fair) ∧
    (∀ k v, ast.metaMap.get k = some v → k ∈ [c!"name", c!"version", c!"precompiler", c!"source", c!"target"] ∧ v ≠ []) ∧
    (∀ j l raw, (j, (⟨l, raw⟩ : CommandMeta)) ∈ ast.commandsMeta → raw <:+: s) ∧
    ast.commandsMeta.map (·.1) = List.range ast.commands.length := by
  have key : ∀ (toks : List Tok) (ast : TAst) (n : Nat), (∀ t ∈ toks, TLineTok U t ∧ t.text <:+: s) → FairAst s ast →
      (∃ e, Ins.tLoop ast n toks = .err e) ∨ ∃ ast', Ins.tLoop ast n toks = .ok ast' ∧ FairAst s ast' := by
    intro toks
    induction toks with
    | nil => exact fun ast n _ ha => .inr ⟨ast, rfl, ha⟩
    | cons t toks ih =>
      intro ast n ht ha
      rw [Ins.tLoop]
      rcases tLineStep_fair (ht t (.head _)).1 (ht t (.head _)).2 ha n with ⟨e, he⟩ | ⟨ast', he, ha'⟩
      · rw [he]; exact .inl ⟨e, rfl⟩
      · rw [he]; exact ih ast' (n + 1) (fun x hx => ht x (.tail _ hx)) ha'
  have h0 : FairAst s TAst.new := ⟨rfl, by simp [TAst.new], by simp [TAst.new, FMap.get, FMap.empty, FMap.lget], by simp [TAst.new], rfl⟩
  unfold parseTransformation
  cases hf : tFile U false s with
  | none => exact ⟨by simp, by simp⟩
  | some o =>
    obtain ⟨ks, e1, e2⟩ := tFile_emits _ _ hf (by simp)
    have hu : o.u <:+: s := by
      have : IsGood (tFile U) := by
        unfold tFile tCommands rename tLink renameAttributes linkAttributes renameAttrPairs linkAttrPairs renameAttrPair linkAttrPair tAttrKey
        infer_instance
      have := good (tFile U) _ _ _ hf
      exact ⟨[], o.r, by simpa using this.symm⟩
    simp only [e1, Tree.kids]
    rcases key ks TAst.new 0 (fun t ht => ⟨(e2 t ht).1, (e2 t ht).2.trans hu⟩) h0 with ⟨e, he⟩ | ⟨ast, he, ha⟩
    · rw [he]; exact ⟨by simp, by simp⟩
    · rw [he]
      refine ⟨by simp, ?_⟩
      rintro ast' e
      injection e with e
      subst e
      exact ⟨ha.version, ha.commands, ha.meta_, ha.raw, ha.keys⟩

/-! ## Examples -/

/-- a transformation file -/
def transDemo : List TLine :=
  [.metaLine 1 c!"precompiler" 0 0 c!"transformation", .metaLine 1 c!"source" 1 1 c!"refs:Eaaa", .metaLine 1 c!"target" 0 0 c!"refs:Ebbb",
   .blank 2, .comment 1 c!" names", .rename 1 [⟨0, c!"a-b", 0, 0, c!"c"⟩, ⟨2, c!"d", 1, 1, c!"e"⟩, ⟨0, c!"a-b", 0, 0, c!"f"⟩],
   .link 0 [⟨0, c!"g", 1, 0, c!"h"⟩], .rename 1 [⟨0, c!"d", 0, 0, c!"z"⟩]]

example : ∀ x ∈ transDemo, x.Ok Uni.ascii := by
  intro x hx
  have hw : ∀ w : Str, w ≠ [] ∧ w.all (isChar Uni.ascii) = true → IsWord Uni.ascii w := fun w h => isWord_of h
  simp only [transDemo, List.mem_cons, List.not_mem_nil, or_false] at hx
  rcases hx with rfl | rfl | rfl | rfl | rfl | rfl | rfl | rfl
  · exact ⟨by decide, .inl (hw _ (by decide))⟩
  · exact ⟨by decide, .inl (hw _ (by decide))⟩
  · exact ⟨by decide, .inl (hw _ (by decide))⟩
  · trivial
  · exact (by decide : ∀ c ∈ c!" names", c ≠ '\n' ∧ c ≠ '\r')
  · refine ⟨by decide, ?_⟩
    simp only [List.mem_cons, List.not_mem_nil, or_false]
    rintro p (rfl | rfl | rfl) <;> exact ⟨by decide, by decide, by decide⟩
  · refine ⟨by decide, ?_⟩
    simp only [List.mem_cons, List.not_mem_nil, or_false]
    rintro p rfl; exact ⟨by decide, by decide, by decide⟩
  · refine ⟨by decide, ?_⟩
    simp only [List.mem_cons, List.not_mem_nil, or_false]
    rintro p rfl; exact ⟨by decide, by decide, by decide⟩

/-- the transformation a text builds, as a check -/
def transOf (E : Env) (U : Uni) (s : Str) : Option (Option Str × Option Str × List (Str × Str)) := match parseTransformation U s with
  | .ok ast => match transBuild (ε := Str) E ast with
    | .ok t => some (t.source, t.target, t.attributes)
    | _ => none
  | _ => none

example : transOf Env.short Uni.ascii (transDemo.flatMap TLine.render) =
    some (some c!"Eaaa", some c!"Ebbb", [(c!"a-b", c!"f"), (c!"d", c!"z"), (c!"g", c!"h")]) := by decide +kernel

/-- **C55** FROM is part of the grammar of transformation files but refused; so is a comment within a continued line. -/
theorem C55_refused :
    fileFate Env.short Uni.ascii c!"-- precompiler=transformation\nFROM Eaaa\nRENAME ATTRIBUTE a=b\n" =
      .error (.transformation (.instruction c!"unexpected token")) ∧
    fileFate Env.short Uni.ascii c!"-- precompiler=transformation\nRENAME ATTRIBUTE a=b \\\n# c\nd=e\n" =
      .error (.transformation (.instruction c!"Missing attribute name")) := by
  decide +kernel

end OCA
