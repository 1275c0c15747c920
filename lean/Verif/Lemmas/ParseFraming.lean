import Verif.Lemmas.ParseCommands
/-!
# Parsing printed text: attribute framings
-/
namespace OCA
open Peg
namespace Gr

/-- starts with a character that is neither white space nor `\` nor `#` -/
def Solid (r : Str) : Prop := ∃ c t, r = c :: t ∧ c ≠ ' ' ∧ c ≠ '\t' ∧ c ≠ '\\' ∧ c ≠ '#' ∧ c ≠ '\n' ∧ c ≠ '\r'

theorem Solid.nw {r : Str} (h : Solid r) : NW r := by
  obtain ⟨c, t, rfl, h1, h2, h3, -⟩ := h
  exact NW.cons h1 h2 h3 t

theorem Solid.append {s : Str} (h : Solid s) (r : Str) : Solid (s ++ r) := by
  obtain ⟨c, t, rfl, h⟩ := h
  exact ⟨c, t ++ r, rfl, h⟩

theorem newline_fails {a : Bool} {r : Str} (h : ∀ c t, r = c :: t → c ≠ '\n' ∧ c ≠ '\r') : Fails newline a r := by
  cases r with
  | nil => rfl
  | cons c t =>
    obtain ⟨h1, h2⟩ := h c t rfl
    exact Fails.alt (Fails.lit (Ne.symm h1) _ _ _) (Fails.alt (Fails.lit (Ne.symm h2) _ _ _) (Fails.lit (Ne.symm h2) _ _ _))

theorem Solid.noNewline {r : Str} (h : Solid r) (a : Bool) : Fails newline a r := by
  obtain ⟨c, t, rfl, -, -, -, -, h1, h2⟩ := h
  exact newline_fails fun d u e => by cases e; exact ⟨h1, h2⟩

theorem wsRun_yields {a : Bool} (n : Nat) {rest : Str} (h : ∀ c t, rest = c :: t → c ≠ ' ' ∧ c ≠ '\t') : Yields ws*ₚ a (sp n) [] rest := by
  induction n with
  | zero => exact Yields.starNil (ws_fails h)
  | succ n ih => exact Yields.starCons (s := [' ']) (ts := []) (by simp) ws_space ih

theorem Solid.noWs {r : Str} (h : Solid r) : ∀ c t, r = c :: t → c ≠ ' ' ∧ c ≠ '\t' := by
  obtain ⟨c, t, rfl, h1, h2, -⟩ := h
  intro d u e; cases e; exact ⟨h1, h2⟩

/-- ` \`, a line break and spaces -/
def brk (n : Nat) : Str := ' ' :: '\\' :: '\n' :: sp n

theorem argWs_brk {a : Bool} (n : Nat) {rest : Str} (h : Solid rest) : Yields argWs a (brk n) [] rest := by
  obtain ⟨c, t, hc, -, -, -, h4, h5, h6⟩ := id h
  have hcl : Fails commentLine a (sp n ++ rest) :=
    Fails.seqRight (wsRun_yields n h.noWs) (Fails.seqLeft (Fails.atomic _ (Fails.seqLeft (by rw [hc]; exact Fails.lit (Ne.symm h4) _ _ _))))
  have hel : Fails emptyLine a (sp n ++ rest) :=
    Fails.atomic _ (Fails.seqRight (wsRun_yields n h.noWs) (h.noNewline _))
  have hstar : Yields (commentLine |ₚ emptyLine)*ₚ a [] [] (sp n ++ rest) := Yields.starNil (Fails.alt hcl hel)
  have hlc : Yields lineContinuation a c!"\\\n" [] (sp n ++ rest) := by
    refine Yields.seq' (s := c!"\\") (s' := c!"\n") (ts := []) (Yields.lit _ _ _) ?_ rfl rfl
    refine Yields.seq' (s := sp 0) (s' := c!"\n") (ts := []) (wsRun_yields 0 (by rintro d u e; cases e; decide)) ?_ rfl rfl
    exact Yields.altLeft (Yields.lit _ _ _)
  have hitem : Yields (ws |ₚ lineContinuation ~ₚ (commentLine |ₚ emptyLine)*ₚ) a c!"\\\n" [] (sp n ++ rest) := by
    refine Yields.altRight (ws_fails (by rintro d u e; cases e; decide)) ?_
    exact Yields.seq' (s := c!"\\\n") (s' := []) (ts := []) hlc hstar rfl rfl
  refine Yields.plus (s := [' ']) (ts := []) (Yields.altLeft ws_space) ?_
  exact Yields.starCons (s := c!"\\\n") (ts := []) (by simp) hitem (wsStar_spaces n h.nw)

theorem starWs_brk {a : Bool} (n : Nat) {rest : Str} (h : Solid rest) : Yields (argWs*ₚ) a (brk n) [] rest := by
  have := Yields.starCons (s := brk n) (ts := []) (by simp [brk]) (argWs_brk (rest := [] ++ rest) n h)
    (Yields.starNil (a := a) (argWs_fails h.nw))
  simpa using this

theorem brkOpt_spaces {a : Bool} (n : Nat) {rest : Str} (h : Solid rest) : Yields (argWs |ₚ newline)?ₚ a (sp n) [] rest := by
  cases n with
  | zero => exact Yields.optNone (Fails.alt (argWs_fails h.nw) (h.noNewline _))
  | succ n => exact Yields.optSome (Yields.altLeft (argWs_spaces n h.nw))

theorem brkOpt_newline {a : Bool} (rest : Str) : Yields (argWs |ₚ newline)?ₚ a ['\n'] [] rest :=
  Yields.optSome (Yields.altRight (argWs_fails (NW.cons (by decide) (by decide) (by decide) _)) (Yields.altLeft (Yields.lit _ _ _)))

theorem quoted_solid (v r : Str) : Solid (Pr.quoted v ++ r) := ⟨'"', _, rfl, by decide, by decide, by decide, by decide, by decide, by decide⟩

theorem brace_solid (r : Str) : Solid ('{' :: r) := ⟨'{', _, rfl, by decide, by decide, by decide, by decide, by decide, by decide⟩
theorem close_solid (r : Str) : Solid ('}' :: r) := ⟨'}', _, rfl, by decide, by decide, by decide, by decide, by decide, by decide⟩

/-! ## Objects over several lines -/

/-- a key and a value -/
structure JItem where
  key : Str
  text : Str
  tok : Tok

/-- what is printed of a pair, with the comma and the line break -/
def JItem.line (x : JItem) : Str := Pr.quoted x.key ++ (':' :: ' ' :: (x.text ++ c!",\n"))

/-- the token of a pair -/
def JItem.pairTok (x : JItem) : Tok :=
  .node .jsonPair x.line [.node .jsonKey (Pr.quoted x.key) [strTok x.key], .node .jsonValue x.text [x.tok]]

/-- what a pair needs to be read -/
structure JItem.Ok (x : JItem) : Prop where
  key : Quotable x.key = true
  solid : Solid x.text
  reads : ∀ r, Yields (jsonValue jsonObject) false x.text [.node .jsonValue x.text [x.tok]] r

theorem jsonPair_yields (x : JItem) (h : x.Ok) (rest : Str) : Yields (jsonPair jsonObject) false x.line [x.pairTok] rest := by
  refine Yields.compound _ _ ?_
  refine Yields.seq' (cstr_yields .jsonKey h.key _ _) ?_ rfl rfl
  refine Yields.seq' (s := sp 0) (ts := []) (starWs_spaces 0 (NW.cons (c := ':') (by decide) (by decide) (by decide) _)) ?_ rfl rfl
  refine Yields.seq' (s := [':']) (ts := []) (Yields.lit _ _ _) ?_ rfl rfl
  refine Yields.seq' (s := sp 1) (s' := x.text ++ c!",\n") (ts := []) (brkOpt_spaces 1 (by simpa using h.solid.append _)) ?_ rfl rfl
  refine Yields.seq' (s' := c!",\n") (ts' := []) (h.reads _) ?_ rfl rfl
  refine Yields.optSome ?_
  refine Yields.seq' (s := []) (ts := []) (optWs_none (NW.cons (c := ',') (by decide) (by decide) (by decide) _)) ?_ rfl rfl
  exact Yields.seq' (s := [',']) (s' := ['\n']) (ts := []) (Yields.lit _ _ _) (brkOpt_newline _) rfl rfl

theorem JItem.line_solid (x : JItem) (r : Str) : Solid (x.line ++ r) := by
  simpa [JItem.line] using quoted_solid x.key _

/-- the pairs, each indented by `m`, and the indentation of what follows -/
def jbody (m close : Nat) : List JItem → Str
  | [] => []
  | x :: t => x.line ++ (sp (if t.isEmpty then close else m) ++ jbody m close t)

/-- an object over several lines -/
def jobj (m close : Nat) (l : List JItem) : Str := '{' :: '\n' :: (sp m ++ (jbody m close l ++ ['}']))

/-- its token -/
def jobjTok (m close : Nat) (l : List JItem) : Tok := .node .jsonObject (jobj m close l) (l.map JItem.pairTok)

theorem jbody_solid (m close : Nat) (l : List JItem) (r : Str) : Solid (jbody m close l ++ '}' :: r) := by
  cases l with
  | nil => exact close_solid r
  | cons x t => simpa [jbody] using x.line_solid _

theorem jitem_yields (x : JItem) (h : x.Ok) (n : Nat) {rest : Str} (hr : Solid rest) :
    Yields ((argWs |ₚ newline)?ₚ ~ₚ argWs*ₚ ~ₚ jsonPair jsonObject ~ₚ (argWs |ₚ newline)?ₚ) false (x.line ++ sp n) [x.pairTok] rest := by
  have hs : Solid (x.line ++ sp n ++ rest) := by simpa using x.line_solid (sp n ++ rest)
  refine Yields.seq' (s := sp 0) (s' := x.line ++ sp n) (ts := []) (brkOpt_spaces 0 hs) ?_ rfl rfl
  refine Yields.seq' (s := sp 0) (s' := x.line ++ sp n) (ts := []) (starWs_spaces 0 hs.nw) ?_ rfl rfl
  exact Yields.seq' (ts' := []) (jsonPair_yields x h _) (brkOpt_spaces n hr) rfl rfl

theorem jitem_first (x : JItem) (h : x.Ok) (m n : Nat) {rest : Str} (hr : Solid rest) :
    Yields ((argWs |ₚ newline)?ₚ ~ₚ argWs*ₚ ~ₚ jsonPair jsonObject ~ₚ (argWs |ₚ newline)?ₚ) false ('\n' :: (sp m ++ (x.line ++ sp n)))
      [x.pairTok] rest := by
  refine Yields.seq' (s := ['\n']) (ts := []) (brkOpt_newline _) ?_ rfl rfl
  refine Yields.seq' (s := sp m) (ts := []) (starWs_spaces m (by simpa using (x.line_solid _).nw)) ?_ rfl rfl
  exact Yields.seq' (ts' := []) (jsonPair_yields x h _) (brkOpt_spaces n hr) rfl rfl

theorem jitem_fails (rest : Str) :
    Fails ((argWs |ₚ newline)?ₚ ~ₚ argWs*ₚ ~ₚ jsonPair jsonObject ~ₚ (argWs |ₚ newline)?ₚ) false ('}' :: rest) := by
  refine Fails.seqRight (s := sp 0) (brkOpt_spaces 0 (close_solid _)) (Fails.seqRight (s := sp 0) (starWs_spaces 0 (close_solid _).nw) (Fails.seqLeft ?_))
  exact Fails.compound _ (Fails.seqLeft (Fails.compound _ (string_fails (by decide) (by decide) _)))

theorem jbodyStar_yields (m close : Nat) (l : List JItem) (h : ∀ x ∈ l, x.Ok) (rest : Str) :
    Yields ((argWs |ₚ newline)?ₚ ~ₚ argWs*ₚ ~ₚ jsonPair jsonObject ~ₚ (argWs |ₚ newline)?ₚ)*ₚ false (jbody m close l) (l.map JItem.pairTok)
      ('}' :: rest) := by
  induction l with
  | nil => exact Yields.starNil (jitem_fails rest)
  | cons x t ih =>
    refine Yields.of_eq (Yields.starCons (s := x.line ++ sp (if t.isEmpty then close else m)) (ts := [x.pairTok]) ?_
      (jitem_yields x (h x (.head _)) _ (jbody_solid m close t rest)) (ih fun y hy => h y (.tail _ hy))) (by simp [jbody]) rfl
    simp [JItem.line]

theorem jobj_yields (m close : Nat) (l : List JItem) (hn : l ≠ []) (h : ∀ x ∈ l, x.Ok) (a : Bool) (rest : Str) :
    Yields jsonObject a (jobj m close l) [jobjTok m close l] rest := by
  rw [jsonObject_eq]
  refine Yields.compound _ _ ?_
  cases l with
  | nil => exact absurd rfl hn
  | cons x t =>
    refine Yields.seq' (s := ['{']) (s' := '\n' :: (sp m ++ (jbody m close (x :: t) ++ ['}']))) (ts := []) (Yields.lit _ _ _) ?_ rfl rfl
    refine Yields.seq' (s := '\n' :: (sp m ++ jbody m close (x :: t))) (s' := ['}']) (ts' := []) ?_ ?_ (by simp) (List.append_nil _)
    · refine Yields.of_eq (Yields.plus (s := '\n' :: (sp m ++ (x.line ++ sp (if t.isEmpty then close else m)))) (ts := [x.pairTok])
        (jitem_first x (h x (.head _)) m _ (jbody_solid m close t rest))
        (jbodyStar_yields m close t (fun y hy => h y (.tail _ hy)) rest)) (by simp [jbody]) rfl
    · exact Yields.seq' (s := sp 0) (ts := []) (starWs_spaces 0 (close_solid _).nw) (Yields.lit _ _ _) rfl rfl

/-! ## Frames -/

/-- a pair of a frame -/
def frameItem (q : Str × Str) : JItem := ⟨q.1, Pr.quoted q.2, strTok q.2⟩

/-- a frame -/
def frameObj (f : Str × List (Str × Str)) : JItem := ⟨f.1, jobj 16 12 (f.2.map frameItem), jobjTok 16 12 (f.2.map frameItem)⟩

theorem frameItem_ok (q : Str × Str) (h1 : Quotable q.1 = true) (h2 : Quotable q.2 = true) : (frameItem q).Ok :=
  ⟨h1, by simpa [frameItem] using quoted_solid q.2 [], fun r => Yields.compound _ _ (Yields.altLeft (string_yields h2 _ _))⟩

/-- what a frame needs to be printed and read: a non-empty table of texts that can be quoted, with distinct lower case names -/
structure FrameOk (U : Uni) (f : Str × List (Str × Str)) : Prop where
  key : Quotable f.1 = true
  low : U.lower f.1 = f.1
  ne : f.2 ≠ []
  quot : ∀ q ∈ f.2, Quotable q.1 = true ∧ Quotable q.2 = true ∧ U.lower q.1 = q.1
  nodup : (f.2.map (·.1)).Nodup

theorem frameObj_ok {U : Uni} (f : Str × List (Str × Str)) (h : FrameOk U f) : (frameObj f).Ok := by
  refine ⟨h.key, ⟨'{', _, rfl, by decide⟩, fun r => Yields.compound _ _ ?_⟩
  refine Yields.altRight (string_fails (by decide) (by decide) _) (Yields.altRight (Fails.compound _ (string_fails (by decide) (by decide) _)) ?_)
  refine jobj_yields 16 12 _ (by simpa using h.ne) ?_ _ _
  intro x hx
  obtain ⟨q, hq, rfl⟩ := List.mem_map.1 hx
  exact frameItem_ok q (h.quot q hq).1 (h.quot q hq).2.1

/-- the value of an attribute in ATTR_FRAMING -/
abbrev Frames := List (Str × List (Str × Str))

/-- as a value of the AST -/
def framesVal (fs : Frames) : NVal := .obj (fs.map fun f => (f.1, .obj (f.2.map fun q => (q.1, .val q.2))))

/-- the text of the frames of an attribute -/
def framesText (fs : Frames) : Str := jobj 12 8 (fs.map frameObj)

/-- what the frames of an attribute need -/
structure FramesOk (U : Uni) (fs : Frames) : Prop where
  ne : fs ≠ []
  each : ∀ f ∈ fs, FrameOk U f
  nodup : (fs.map (·.1)).Nodup

theorem jbody_print (m close : Nat) (l : List JItem) (hn : l ≠ []) :
    (l.flatMap fun x => '\n' :: (sp m ++ (Pr.quoted x.key ++ (':' :: ' ' :: (x.text ++ [',']))))) ++ '\n' :: sp close =
      '\n' :: (sp m ++ jbody m close l) := by
  induction l with
  | nil => exact absurd rfl hn
  | cons x t ih =>
    cases t with
    | nil => simp [jbody, JItem.line]
    | cons y t =>
      have := ih (by simp)
      rw [List.flatMap_cons, List.append_assoc, this]
      simp [jbody, JItem.line]

theorem framePairs_print (l : List (Str × Str)) :
    Pr.framePairs (.obj (l.map fun q => (q.1, .val q.2))) =
      (l.map frameItem).flatMap fun x => '\n' :: (sp 16 ++ (Pr.quoted x.key ++ (':' :: ' ' :: (x.text ++ [','])))) := by
  induction l with
  | nil => rfl
  | cons q t ih =>
    simp only [Pr.framePairs, List.map_cons, List.flatMap_cons] at ih ⊢
    rw [ih]
    simp [frameItem, sp]

theorem frame_print (f : Str × List (Str × Str)) (hn : f.2 ≠ []) :
    Pr.frame (f.1, .obj (f.2.map fun q => (q.1, .val q.2))) =
      '\n' :: (sp 12 ++ (Pr.quoted (frameObj f).key ++ (':' :: ' ' :: ((frameObj f).text ++ [','])))) := by
  have h := jbody_print 16 12 (f.2.map frameItem) (by simpa using hn)
  have h2 : c!"\n            }," = '\n' :: sp 12 ++ c!"}," := rfl
  unfold Pr.frame
  rw [h2]
  have h3 : Pr.framePairs (.obj (f.2.map fun q => (q.1, .val q.2))) ++ ('\n' :: sp 12 ++ c!"},") =
      '\n' :: (sp 16 ++ jbody 16 12 (f.2.map frameItem)) ++ c!"}," := by
    rw [framePairs_print, ← h]; simp
  have : c!"\n            " ++ Pr.quoted f.1 ++ c!": {" ++ Pr.framePairs (.obj (f.2.map fun q => (q.1, .val q.2))) ++ ('\n' :: sp 12 ++ c!"},") =
      c!"\n            " ++ Pr.quoted f.1 ++ c!": {" ++ ('\n' :: (sp 16 ++ jbody 16 12 (f.2.map frameItem)) ++ c!"},") := by
    rw [← h3]; simp
  rw [this]
  simp [frameObj, jobj, sp]

theorem frames_print {U : Uni} (fs : Frames) (h : FramesOk U fs) :
    (fs.map fun f => (f.1, NVal.obj (f.2.map fun q => (q.1, .val q.2)))).flatMap Pr.frame ++ c!"\n        }" =
      '\n' :: (sp 12 ++ (jbody 12 8 (fs.map frameObj) ++ ['}'])) := by
  have h1 := jbody_print 12 8 (fs.map frameObj) (by simpa using h.ne)
  have h2 : (fs.map fun f => (f.1, NVal.obj (f.2.map fun q => (q.1, .val q.2)))).flatMap Pr.frame =
      (fs.map frameObj).flatMap fun x => '\n' :: (sp 12 ++ (Pr.quoted x.key ++ (':' :: ' ' :: (x.text ++ [','])))) := by
    have h' : ∀ f ∈ fs, f.2 ≠ [] := fun f hf => (h.each f hf).ne
    clear h h1
    induction fs with
    | nil => rfl
    | cons f t ih =>
      rw [List.map_cons, List.flatMap_cons, ih fun g hg => h' g (.tail _ hg), frame_print f (h' f (.head _))]
      rfl
  rw [h2, show c!"\n        }" = '\n' :: sp 8 ++ ['}'] from rfl, ← List.append_assoc, h1]
  simp

theorem framingAttr_print {U : Uni} (k : Str) (fs : Frames) (h : FramesOk U fs) :
    Pr.framingAttr (k, framesVal fs) = '\n' :: (sp 8 ++ (k ++ ('=' :: framesText fs))) := by
  have := frames_print fs h
  simp only [Pr.framingAttr, framesVal, framesText, jobj]
  rw [← this]
  simp [sp]

/-- an attribute of ATTR_FRAMING -/
def framingTok (p : Str × Frames) : Tok :=
  .node .attrFramingKeyPair (p.1 ++ ('=' :: framesText p.2)) [keyTok p.1, jobjTok 12 8 (p.2.map frameObj)]

theorem framingPair_yields {U : Uni} (p : Str × Frames) (hk : IsKey p.1) (h : FramesOk U p.2) (rest : Str) :
    Yields attrFramingKeyPair false (p.1 ++ ('=' :: framesText p.2)) [framingTok p] rest := by
  refine Yields.atomic _ (keyEq_yields hk (NW.cons (c := '{') (by decide) (by decide) (by decide) _) ?_)
  refine jobj_yields 12 8 _ (by simpa using h.ne) ?_ _ _
  intro x hx
  obtain ⟨f, hf, rfl⟩ := List.mem_map.1 hx
  exact frameObj_ok f (h.each f hf)

theorem jsonPairs_frameItems {U : Uni} (l : List (Str × Str)) (h : ∀ q ∈ l, U.lower q.1 = q.1) (acc : List (Str × NVal)) :
    Ins.jsonObject U ((l.map frameItem).map JItem.pairTok) acc = .ok (imExtend acc (l.map fun q => (q.1, .val q.2))) := by
  induction l generalizing acc with
  | nil => simp [Ins.jsonObject, imExtend]
  | cons q t ih =>
    have e : Ins.jsonPair U [.node .jsonKey (Pr.quoted q.1) [strTok q.1], .node .jsonValue (Pr.quoted q.2) [strTok q.2]] ([], .val []) =
        .ok (q.1, .val q.2) := by
      simp only [Ins.jsonPair, List.getLast?_singleton, strTok]
      show Res.ok (U.lower q.1, NVal.val q.2) = _
      rw [h q (.head _)]
    simp only [List.map_cons, JItem.pairTok, frameItem, Ins.jsonObject, e]
    have := ih (fun r hr => h r (.tail _ hr)) (imInsert q.1 (.val q.2) acc)
    rw [this]
    rfl

theorem jsonPairs_frameObjs {U : Uni} (fs : Frames) (h : ∀ f ∈ fs, FrameOk U f) (acc : List (Str × NVal)) :
    Ins.jsonObject U ((fs.map frameObj).map JItem.pairTok) acc =
      .ok (imExtend acc (fs.map fun f => (f.1, .obj (f.2.map fun q => (q.1, .val q.2))))) := by
  induction fs generalizing acc with
  | nil => simp [Ins.jsonObject, imExtend]
  | cons f t ih =>
    have hf := h f (.head _)
    have ho := jsonPairs_frameItems (U := U) f.2 (fun q hq => (hf.quot q hq).2.2) []
    rw [imExtend_nil_nodup _ (by simpa [List.map_map, Function.comp_def] using hf.nodup)] at ho
    have e : Ins.jsonPair U [.node .jsonKey (Pr.quoted f.1) [strTok f.1],
        .node .jsonValue (jobj 16 12 (f.2.map frameItem)) [jobjTok 16 12 (f.2.map frameItem)]] ([], .val []) =
        .ok (f.1, .obj (f.2.map fun q => (q.1, .val q.2))) := by
      simp only [Ins.jsonPair, List.getLast?_singleton, lastText_strTok, jobjTok, hf.low, ho]
    simp only [List.map_cons, JItem.pairTok, frameObj, Ins.jsonObject, e]
    have := ih (fun g hg => h g (.tail _ hg)) (imInsert f.1 (.obj (f.2.map fun q => (q.1, .val q.2))) acc)
    rw [this]
    rfl

theorem keyPairOf_framingTok {U : Uni} (p : Str × Frames) (h : FramesOk U p.2) :
    Ins.keyPairOf U (framingTok p) = .ok (p.1, framesVal p.2) := by
  have := jsonPairs_frameObjs p.2 h.each []
  rw [imExtend_nil_nodup _ (by simpa [List.map_map, Function.comp_def] using h.nodup)] at this
  simp only [framingTok, Ins.keyPairOf, Ins.keyPairLoop, keyTok, jobjTok, this, framesVal]

/-! ## The metadata -/

/-- the names of the metadata -/
def IsMetaKey (k : Str) : Prop := k = c!"id" ∨ k = c!"label" ∨ k = c!"location" ∨ k = c!"version"

/-- the token of a pair of the metadata -/
def metaTok (k v : Str) : Tok :=
  .node .framingMetadataPair (pairText k v) [.node .framingMetadataKey k [], .node .framingMetadataValue (Pr.quoted v) [strTok v]]

theorem metaPair_yields {U : Uni} {k v : Str} (hk : IsMetaKey k) (hv : Quotable v = true) (rest : Str) :
    Yields (framingMetadataPair U) false (pairText k v) [metaTok k v] rest := by
  refine Yields.atomic _ ?_
  have hkey : ∀ r, Yields framingMetadataKey true k [.node .framingMetadataKey k []] ('=' :: r) := by
    intro r
    rcases hk with rfl | rfl | rfl | rfl <;> rfl
  refine Yields.seq' (s := k) (s' := '=' :: Pr.quoted v) (hkey _) ?_ rfl rfl
  refine Yields.seq' (s := []) (s' := '=' :: Pr.quoted v) (ts := [])
    (optWs_none (NW.cons (by decide) (by decide) (by decide) _)) ?_ rfl rfl
  refine Yields.seq' (s := ['=']) (s' := Pr.quoted v) (ts := []) (Yields.lit _ _ _) ?_ rfl rfl
  exact Yields.seq' (s := []) (s' := Pr.quoted v) (ts := []) (optWs_none (quoted_nw v rest))
    (Yields.compound _ _ (value_yields hv _ _)) rfl rfl

theorem metaPair_solid {k v : Str} (hk : IsMetaKey k) (r : Str) : Solid (pairText k v ++ r) := by
  rcases hk with rfl | rfl | rfl | rfl
  all_goals exact ⟨_, _, rfl, by decide⟩

theorem keyPairOf_metaTok (U : Uni) (k v : Str) : Ins.keyPairOf U (metaTok k v) = .ok (k, .val v) := by
  simp [metaTok, Ins.keyPairOf, Ins.keyPairLoop, Ins.valueOf, strTok, Tree.rule, Ins.lastText, Tree.kids, Tree.text]

/-- a line break and a pair, for every pair -/
def metasText (l : List (Str × Str)) : Str := l.flatMap fun q => brk 8 ++ pairText q.1 q.2

theorem metasStar_yields {U : Uni} (l : List (Str × Str)) (h : ∀ q ∈ l, IsMetaKey q.1 ∧ Quotable q.2 = true) (rest : Str) :
    Yields (argWs ~ₚ framingMetadataPair U)*ₚ false (metasText l) (l.map fun q => metaTok q.1 q.2) (brk 4 ++ (c!"ATTRS" ++ rest)) := by
  induction l with
  | nil =>
    refine Yields.starNil (Fails.seqRight (s := brk 4) (ts := []) (argWs_brk 4 ⟨'A', _, rfl, by decide⟩) ?_)
    exact Fails.atomic _ (Fails.seqLeft rfl)
  | cons q t ih =>
    have hq := h q (.head _)
    refine Yields.of_eq (Yields.starCons (s := brk 8 ++ pairText q.1 q.2) (ts := [metaTok q.1 q.2]) (by simp [brk]) ?_
      (ih fun r hr => h r (.tail _ hr))) (by simp [metasText]) rfl
    exact Yields.seq' (ts := []) (argWs_brk 8 (by simpa using metaPair_solid hq.1 _)) (metaPair_yields hq.1 hq.2 _) rfl rfl

/-- the token of the metadata -/
def metadataTok (q : Str × Str) (l : List (Str × Str)) : Tok :=
  .node .framingMetadata (pairText q.1 q.2 ++ metasText l) ((q :: l).map fun q => metaTok q.1 q.2)

theorem metadata_yields {U : Uni} (q : Str × Str) (l : List (Str × Str)) (h : ∀ r ∈ q :: l, IsMetaKey r.1 ∧ Quotable r.2 = true) (rest : Str) :
    Yields (framingMetadata U) false (pairText q.1 q.2 ++ metasText l) [metadataTok q l] (brk 4 ++ (c!"ATTRS" ++ rest)) := by
  refine Yields.normal _ ?_
  have hq := h q (.head _)
  exact Yields.seq' (ts := [metaTok q.1 q.2]) (metaPair_yields hq.1 hq.2 _) (metasStar_yields l (fun r hr => h r (.tail _ hr)) rest) rfl rfl

theorem replaceFrame_metaKey {k : Str} (h : IsMetaKey k) : Pr.replaceFrame k = k := by
  rcases h with rfl | rfl | rfl | rfl <;> decide

theorem framingProps_print (q : Str × Str) (l : List (Str × Str)) (h : ∀ r ∈ q :: l, IsMetaKey r.1) :
    c!" \\\n" ++ Pr.framingProps ((q :: l).map fun q => (q.1, .val q.2)) = brk 8 ++ (pairText q.1 q.2 ++ (metasText l ++ c!" \\\n")) := by
  have : ∀ (l : List (Str × Str)), (∀ r ∈ l, IsMetaKey r.1) →
      c!" \\\n" ++ Pr.framingProps (l.map fun q => (q.1, .val q.2)) = metasText l ++ c!" \\\n" := by
    intro l
    induction l with
    | nil => intro _; rfl
    | cons r t ih =>
      intro h
      have h' := ih fun x hx => h x (.tail _ hx)
      have e : Pr.framingProps ((r :: t).map fun q => (q.1, .val q.2)) =
          c!"        " ++ r.1 ++ c!"=" ++ Pr.quoted r.2 ++ c!" \\\n" ++ Pr.framingProps (t.map fun q => (q.1, .val q.2)) := by
        simp only [Pr.framingProps, List.map_cons, List.flatMap_cons, replaceFrame_metaKey (h r (.head _))]
      rw [e, List.append_assoc, List.append_assoc, h']
      simp [metasText, pairText, brk, sp]
  rw [this (q :: l) h]
  simp [metasText]

/-! ## The whole overlay -/

/-- an attribute with its frames and the line break after it -/
def framingLineTok (n : Nat) (p : Str × Frames) : Tok :=
  .node .attrFramingKeyPairs (sp n ++ (p.1 ++ ('=' :: (framesText p.2 ++ ['\n'])))) [framingTok p]

theorem framingLine_yields {U : Uni} (n : Nat) (p : Str × Frames) (hk : IsKey p.1) (h : FramesOk U p.2) (rest : Str) :
    Yields attrFramingKeyPairs false (sp n ++ (p.1 ++ ('=' :: (framesText p.2 ++ ['\n'])))) [framingLineTok n p] rest := by
  refine Yields.compound _ _ ?_
  refine Yields.seq' (ts := []) (starWs_spaces n (by simpa using hk.nw _)) ?_ rfl rfl
  exact Yields.seq' (s := p.1 ++ ('=' :: framesText p.2)) (s' := ['\n']) (ts := [framingTok p]) (framingPair_yields p hk h _)
    (brkOpt_newline _) (by simp) rfl

/-- `rest` starts a command or is empty -/
def LineStart (r : Str) : Prop := r = [] ∨ (∃ c t, r = c!"ADD " ++ c :: t ∧ c ≠ '=' ∧ NW (c :: t)) ∨ ∃ c t, r = c!"REMOVE " ++ c :: t ∧ c ≠ '=' ∧ NW (c :: t)

theorem word_fails {w : Str} (hw : IsKey w) {c : Char} {t : Str} (h1 : c ≠ '=') (h2 : NW (c :: t)) {q : P} {a : Bool} :
    Fails (attrKey ~ₚ argWs ?ₚ ~ₚ lit c!"=" ~ₚ argWs ?ₚ ~ₚ q) a (w ++ ' ' :: c :: t) := by
  refine Fails.seqRight (attrKey_yields hw a (notKey_cons (by decide) _)) ?_
  exact Fails.seqRight (s := [' ']) (optWs_spaces 1 h2) (Fails.seqLeft (Fails.lit (Ne.symm h1) _ _ _))

theorem LineStart.noFraming {r : Str} (h : LineStart r) : Fails attrFramingKeyPairs false r := by
  refine Fails.compound _ ?_
  have : ∀ {x : Str}, NW x → Fails (attrKey ~ₚ argWs ?ₚ ~ₚ lit c!"=" ~ₚ argWs ?ₚ ~ₚ jsonObject) true x →
      Fails (argWs*ₚ ~ₚ attrFramingKeyPair ~ₚ (argWs |ₚ newline)?ₚ) false x := by
    intro x hx hf
    exact Fails.seqRight (s := sp 0) (starWs_spaces 0 hx) (Fails.seqLeft (Fails.atomic _ hf))
  rcases h with rfl | ⟨c, t, rfl, h1, h2⟩ | ⟨c, t, rfl, h1, h2⟩
  · exact this NW.nil (keyEq_fails (by intro c r e; cases e))
  · exact this (NW.cons (by decide) (by decide) (by decide) _) (word_fails (w := c!"ADD") ⟨by decide, by decide⟩ h1 h2)
  · exact this (NW.cons (by decide) (by decide) (by decide) _) (word_fails (w := c!"REMOVE") ⟨by decide, by decide⟩ h1 h2)

/-- no frame and no line break follows -/
structure Follow (r : Str) : Prop where
  noNewline : ∀ a, Fails newline a r
  noFraming : Fails attrFramingKeyPairs false r

theorem LineStart.follow {r : Str} (h : LineStart r) : Follow r := by
  refine ⟨fun a => ?_, h.noFraming⟩
  rcases h with rfl | ⟨c, t, rfl, -⟩ | ⟨c, t, rfl, -⟩
  · rfl
  · rfl
  · rfl

/-- a line break is not the start of a frame -/
theorem newline_noFraming (r : Str) : Fails attrFramingKeyPairs false ('\n' :: r) := by
  refine Fails.compound _ ?_
  exact Fails.seqRight (s := sp 0) (starWs_spaces 0 (NW.cons (by decide) (by decide) (by decide) _))
    (Fails.seqLeft (Fails.atomic _ (keyEq_fails (by intro c r e; cases e; decide))))

/-- the lines of the attributes after the first -/
def framingLines (l : List (Str × Frames)) : Str := l.flatMap fun p => sp 8 ++ (p.1 ++ ('=' :: (framesText p.2 ++ ['\n'])))

theorem framingLines_yields {U : Uni} (l : List (Str × Frames)) (h : ∀ p ∈ l, IsKey p.1 ∧ FramesOk U p.2) {rest : Str} (hr : Fails attrFramingKeyPairs false rest) :
    Yields attrFramingKeyPairs*ₚ false (framingLines l) (l.map (framingLineTok 8)) rest := by
  induction l with
  | nil => exact Yields.starNil hr
  | cons p t ih =>
    have hp := h p (.head _)
    exact Yields.of_eq (Yields.starCons (by simp [sp]) (framingLine_yields 8 p hp.1 hp.2 _) (ih fun q hq => h q (.tail _ hq)))
      (by simp [framingLines]) rfl

/-- the text of ATTR_FRAMING, with the final line break -/
def framingText (q : Str × Str) (ms : List (Str × Str)) (p : Str × Frames) (l : List (Str × Frames)) : Str :=
  c!"ATTR_FRAMING" ++ (brk 8 ++ ((pairText q.1 q.2 ++ metasText ms) ++ (brk 4 ++ (c!"ATTRS" ++ (brk 8 ++
    (p.1 ++ ('=' :: (framesText p.2 ++ ['\n'])) ++ framingLines l))))))

theorem framing_yields {U : Uni} (q : Str × Str) (ms : List (Str × Str)) (p : Str × Frames) (l : List (Str × Frames))
    (hm : ∀ r ∈ q :: ms, IsMetaKey r.1 ∧ Quotable r.2 = true) (h : ∀ r ∈ p :: l, IsKey r.1 ∧ FramesOk U r.2) {rest : Str} (hr : Fails attrFramingKeyPairs false rest) :
    Yields (attributeFraming U) false (framingText q ms p l)
      [.node .attributeFraming (framingText q ms p l) (metadataTok q ms :: framingLineTok 0 p :: l.map (framingLineTok 8))] rest := by
  have hq := hm q (.head _)
  have hp := h p (.head _)
  refine Yields.normal _ ?_
  refine Yields.seq' (s := c!"ATTR_FRAMING") (ts := []) (Yields.ilit (by decide) _ _) ?_ rfl rfl
  refine Yields.seq' (s := brk 8) (ts := []) (argWs_brk 8 ?_) ?_ rfl rfl
  · simpa using metaPair_solid (v := q.2) hq.1 (metasText ms ++ (brk 4 ++ (c!"ATTRS" ++ (brk 8 ++
      (p.1 ++ ('=' :: (framesText p.2 ++ ['\n'])) ++ framingLines l ++ rest)))))
  refine Yields.seq' (s' := brk 4 ++ (c!"ATTRS" ++ (brk 8 ++ (p.1 ++ ('=' :: (framesText p.2 ++ ['\n'])) ++ framingLines l)))) (ts := [metadataTok q ms])
    (by simpa using metadata_yields (U := U) q ms hm (brk 8 ++ (p.1 ++ ('=' :: (framesText p.2 ++ ['\n'])) ++ framingLines l) ++ rest)) ?_ rfl rfl
  refine Yields.seq' (s := brk 4) (ts := []) (argWs_brk 4 ⟨'A', _, rfl, by decide⟩) ?_ rfl rfl
  refine Yields.seq' (s := c!"ATTRS" ++ brk 8) (s' := p.1 ++ ('=' :: (framesText p.2 ++ ['\n'])) ++ framingLines l) (ts := []) ?_ ?_ (by simp) rfl
  · refine Yields.seq' (s := c!"ATTRS") (ts := []) (Yields.ilit (by decide) _ _) (argWs_brk 8 ?_) rfl rfl
    obtain ⟨hne, hall⟩ := hp.1
    cases hk : p.1 with
    | nil => exact absurd hk hne
    | cons c k =>
      have hc := hall c (by rw [hk]; exact .head _)
      refine ⟨c, _, rfl, ?_⟩
      refine ⟨?_, ?_, ?_, ?_, ?_, ?_⟩ <;> (rintro rfl; revert hc; decide)
  · have h0 := framingLine_yields (U := U) 0 p hp.1 hp.2 (framingLines l ++ rest)
    exact Yields.plus (Yields.of_eq h0 (by simp [sp]) rfl) (framingLines_yields l (fun r hr => h r (.tail _ hr)) hr)

theorem contentOf_framing (E : Env) (U : Uni) (r : Rule) (s : Str) (q : Str × Str) (ms : List (Str × Str)) (p : Str × Frames) (l : List (Str × Frames))
    (h : ∀ r ∈ p :: l, FramesOk U r.2) :
    Ins.contentOf E U (.node r s (metadataTok q ms :: framingLineTok 0 p :: l.map (framingLineTok 8))) =
      .ok ⟨some (imExtend [] ((p :: l).map fun r => (r.1, framesVal r.2))), some (imExtend [] ((q :: ms).map fun r => (r.1, .val r.2)))⟩ := by
  have hm : Ins.keyPairsObj U (metadataTok q ms).kids [] = .ok (imExtend [] ((q :: ms).map fun r => (r.1, .val r.2))) :=
    keyPairsObj_toks (fun r : Str × Str => metaTok r.1 r.2) (fun r => (r.1, .val r.2)) (q :: ms) [] fun r _ => keyPairOf_metaTok U r.1 r.2
  have hprop : ∀ (ts : List Tok) acc, (∀ t ∈ ts, t.rule = .attrFramingKeyPairs) → Ins.propertiesOf E U ts acc = .ok acc := by
    intro ts
    induction ts with
    | nil => intro acc _; rfl
    | cons t ts ih =>
      intro acc ht
      have : Ins.propertyStep E U t acc = .ok acc := by simp [Ins.propertyStep, ht t (.head _)]
      simp only [Ins.propertiesOf, this]
      exact ih acc fun x hx => ht x (.tail _ hx)
  have hrule : ∀ t ∈ framingLineTok 0 p :: l.map (framingLineTok 8), t.rule = .attrFramingKeyPairs := by
    intro t ht
    rcases List.mem_cons.1 ht with rfl | ht
    · rfl
    · obtain ⟨x, -, rfl⟩ := List.mem_map.1 ht; rfl
  have h1 : Ins.propertiesOf E U (metadataTok q ms :: framingLineTok 0 p :: l.map (framingLineTok 8)) [] =
      .ok (imExtend [] ((q :: ms).map fun r => (r.1, .val r.2))) := by
    rw [Ins.propertiesOf]
    have : Ins.propertyStep E U (metadataTok q ms) [] = .ok (imExtend [] ((q :: ms).map fun r => (r.1, .val r.2))) := hm
    rw [this]
    exact hprop _ _ hrule
  have hattr : ∀ (l : List (Str × Frames)) acc, (∀ r ∈ l, FramesOk U r.2) →
      Ins.attributesOf U (l.map (framingLineTok 8)) acc = .ok (imExtend acc (l.map fun r => (r.1, framesVal r.2))) := by
    intro l
    induction l with
    | nil => intro acc _; rfl
    | cons x t ih =>
      intro acc hl
      rw [List.map_cons, Ins.attributesOf, if_pos (by simp [framingLineTok, Tree.rule])]
      simp only [framingLineTok, Tree.kids, Ins.insertPairs, Ins.keyPairsObj, keyPairOf_framingTok x (hl x (.head _))]
      exact ih _ fun r hr => hl r (.tail _ hr)
  have h2 : Ins.attributesOf U (metadataTok q ms :: framingLineTok 0 p :: l.map (framingLineTok 8)) [] =
      .ok (imExtend [] ((p :: l).map fun r => (r.1, framesVal r.2))) := by
    rw [Ins.attributesOf, if_neg (by simp [metadataTok, Tree.rule]), Ins.attributesOf, if_pos (by simp [framingLineTok, Tree.rule])]
    simp only [framingLineTok, Tree.kids, Ins.insertPairs, Ins.keyPairsObj, keyPairOf_framingTok p (h p (.head _))]
    exact hattr l _ fun r hr => h r (.tail _ hr)
  simp only [Ins.contentOf, Tree.kids, h1, h2]

end Gr
end OCA
