import Verif.Model.AstValidator
/-!
# C09, C10: AST validation
-/
namespace OCA

/-! ## Specification -/

/-- the command is an ADD ATTRIBUTE naming `x` -/
def AddsAttr (c : Command) (x : Str) : Prop :=
  c.kind = .add ∧ ∃ cc l, c.obj = .captureBase cc ∧ cc.attributes = some l ∧ ∃ t, (x, t) ∈ l

/-- the command is a REMOVE ATTRIBUTE naming `x` -/
def RemovesAttr (c : Command) (x : Str) : Prop :=
  c.kind = .remove ∧ ∃ cc l, c.obj = .captureBase cc ∧ cc.attributes = some l ∧ ∃ t, (x, t) ∈ l

/-- the command adds the capture base property `x` -/
def AddsProp (c : Command) (x : Str) : Prop :=
  c.kind = .add ∧ ∃ cc l, c.obj = .captureBase cc ∧ cc.properties = some l ∧ ∃ t, (x, t) ∈ l

/-- the command removes the capture base property `x` -/
def RemovesProp (c : Command) (x : Str) : Prop :=
  c.kind = .remove ∧ ∃ cc l, c.obj = .captureBase cc ∧ cc.properties = some l ∧ ∃ t, (x, t) ∈ l

/-- `x` was added and not removed since -/
def Present (adds removes : Command → Str → Prop) (cs : List Command) (x : Str) : Prop :=
  ∃ pre c post, cs = pre ++ c :: post ∧ adds c x ∧ ∀ d ∈ post, ¬ removes d x

/-! ## Helper lemmas -/

theorem present_append (adds removes : Command → Str → Prop) (cs : List Command) (c : Command) (x : Str) :
    Present adds removes (cs ++ [c]) x ↔ adds c x ∨ (Present adds removes cs x ∧ ¬ removes c x) := by
  constructor
  · rintro ⟨pre, d, post, he, ha, hr⟩
    rcases List.eq_nil_or_concat post with rfl | ⟨post', e, rfl⟩
    · have := List.append_inj' he (by simp)
      obtain ⟨_, h⟩ := this
      injection h with h _
      exact .inl (h ▸ ha)
    · have he' : cs ++ [c] = (pre ++ d :: post') ++ [e] := by simpa using he
      obtain ⟨h1, h2⟩ := List.append_inj' he' (by simp)
      injection h2 with h2 _
      subst h2
      refine .inr ⟨⟨pre, d, post', h1, ha, fun d' hd => hr d' (by simp [hd])⟩, hr c (by simp)⟩
  · rintro (ha | ⟨⟨pre, d, post, rfl, ha, hr⟩, hn⟩)
    · exact ⟨cs, c, [], rfl, ha, by simp⟩
    · refine ⟨pre, d, post ++ [c], by simp, ha, ?_⟩
      intro d' hd'
      rcases List.mem_append.mp hd' with h | h
      · exact hr d' h
      · rw [List.mem_singleton] at h; subst h; exact hn

theorem imHas_imExtend {V : Type} (l l' : List (Str × V)) (k : Str) :
    imHas k (imExtend l l') = true ↔ imHas k l = true ∨ ∃ t, (k, t) ∈ l' := by
  unfold imHas
  rw [imGet_imExtend]
  cases h : FMap.lastVal l' k with
  | some v =>
    simp only [Option.some_or, Option.isSome_some, true_iff]
    exact .inr ⟨v, FMap.mem_of_lastVal h⟩
  | none =>
    simp only [Option.none_or]
    constructor
    · exact .inl
    · rintro (h' | ⟨t, ht⟩)
      · exact h'
      · exact absurd rfl (FMap.lastVal_eq_none.mp h _ ht)

theorem imHas_imDrop {V : Type} (p : Str → Bool) (l : List (Str × V)) (k : Str) :
    imHas k (imDrop p l) = true ↔ imHas k l = true ∧ p k = false := by
  unfold imHas
  rw [imGet_imDrop]
  cases p k <;> simp

theorem imHas_iff {V : Type} (k : Str) (l : List (Str × V)) : imHas k l = true ↔ ∃ t, (k, t) ∈ l := by
  rw [imHas_iff_mem]; simp

theorem extractAttributes_append (cs : List Command) (c : Command) :
    extractAttributes (cs ++ [c]) = extractAttrStep (extractAttributes cs) c := by
  simp [extractAttributes]

theorem extractProperties_append (cs : List Command) (c : Command) :
    extractProperties (cs ++ [c]) = extractPropStep (extractProperties cs) c := by
  simp [extractProperties]

theorem getD_mem {V : Type} (o : Option (List (Str × V))) (x : Str) :
    (∃ t, (x, t) ∈ o.getD []) ↔ ∃ l, o = some l ∧ ∃ t, (x, t) ∈ l := by
  cases o <;> simp

theorem list_snoc_induction {α : Type} {P : List α → Prop} (h0 : P [])
    (h1 : ∀ l a, P l → P (l ++ [a])) (l : List α) : P l := by
  have : ∀ l : List α, P l.reverse := by
    intro l
    induction l with
    | nil => exact h0
    | cons a l ih => rw [List.reverse_cons]; exact h1 _ _ ih
  have h := this l.reverse
  rwa [List.reverse_reverse] at h

theorem extractAttributes_spec (cs : List Command) (x : Str) :
    imHas x (extractAttributes cs) = true ↔ Present AddsAttr RemovesAttr cs x := by
  induction cs using list_snoc_induction with
  | h0 =>
    constructor
    · intro h; cases h
    · rintro ⟨pre, d, post, he, _⟩; simp at he
  | h1 cs c ih =>
    rw [present_append, extractAttributes_append, ← ih]
    obtain ⟨kind, obj⟩ := c
    cases obj with
    | captureBase cc =>
      cases kind with
      | add =>
        simp only [extractAttrStep, imHas_imExtend, getD_mem]
        simp only [AddsAttr, RemovesAttr, true_and, reduceCtorEq, false_and, not_false_eq_true, and_true,
          ObjKind.captureBase.injEq, exists_and_left, exists_eq_left']
        exact Or.comm
      | remove =>
        simp only [extractAttrStep]
        rw [imHas_imDrop, ← Bool.not_eq_true, imHas_iff x (cc.attributes.getD []), getD_mem]
        simp only [AddsAttr, RemovesAttr, true_and, reduceCtorEq, false_and, false_or,
          ObjKind.captureBase.injEq, exists_and_left, exists_eq_left']
      | modify => simp [extractAttrStep, AddsAttr, RemovesAttr]
      | «from» => simp [extractAttrStep, AddsAttr, RemovesAttr]
    | ocaBundle r => cases kind <;> simp [extractAttrStep, AddsAttr, RemovesAttr]
    | overlay t cc => cases kind <;> simp [extractAttrStep, AddsAttr, RemovesAttr]

theorem extractProperties_spec (cs : List Command) (x : Str) :
    imHas x (extractProperties cs) = true ↔ Present AddsProp RemovesProp cs x := by
  induction cs using list_snoc_induction with
  | h0 =>
    constructor
    · intro h; cases h
    · rintro ⟨pre, d, post, he, _⟩; simp at he
  | h1 cs c ih =>
    rw [present_append, extractProperties_append, ← ih]
    obtain ⟨kind, obj⟩ := c
    cases obj with
    | captureBase cc =>
      cases kind with
      | add =>
        simp only [extractPropStep, imHas_imExtend, getD_mem]
        simp only [AddsProp, RemovesProp, true_and, reduceCtorEq, false_and, not_false_eq_true, and_true,
          ObjKind.captureBase.injEq, exists_and_left, exists_eq_left']
        exact Or.comm
      | remove =>
        simp only [extractPropStep]
        rw [imHas_imDrop, ← Bool.not_eq_true, imHas_iff x (cc.properties.getD []), getD_mem]
        simp only [AddsProp, RemovesProp, true_and, reduceCtorEq, false_and, false_or,
          ObjKind.captureBase.injEq, exists_and_left, exists_eq_left']
      | modify => simp [extractPropStep, AddsProp, RemovesProp]
      | «from» => simp [extractPropStep, AddsProp, RemovesProp]
    | ocaBundle r => cases kind <;> simp [extractPropStep, AddsProp, RemovesProp]
    | overlay t cc => cases kind <;> simp [extractPropStep, AddsProp, RemovesProp]

/-! ## C10 -/

/-- The validation rules: a command breaks them if it adds a present attribute, or removes an absent
attribute or property. -/
def BreaksRules (cs : List Command) (c : Command) : Prop :=
  (∃ x, AddsAttr c x ∧ Present AddsAttr RemovesAttr cs x) ∨
  (∃ x, RemovesAttr c x ∧ ¬ Present AddsAttr RemovesAttr cs x) ∨
  (∃ x, RemovesProp c x ∧ ¬ Present AddsProp RemovesProp cs x)

/-- **C10** validation accepts a command exactly when the AST has version 1.0.0 and the command
breaks none of the rules; it never aborts. -/
theorem C10_validate_exact (ast : OCAAst) (c : Command) :
    (astValidate ast c = .ok () ↔ ast.version = c!"1.0.0" ∧ ¬ BreaksRules ast.commands c) ∧
    astValidate ast c ≠ .panic := by
  unfold astValidate
  by_cases hv : ast.version = c!"1.0.0"
  · rw [if_pos hv]
    simp only [hv, true_and]
    obtain ⟨kind, obj⟩ := c
    have other : ∀ (r : Res (List AstErr) Unit), r = .ok () →
        (¬ BreaksRules ast.commands ⟨kind, obj⟩) →
        (r = .ok () ↔ ¬ BreaksRules ast.commands ⟨kind, obj⟩) ∧ r ≠ .panic := by
      intro r hr hn; subst hr; simp [hn]
    cases obj with
    | captureBase cc =>
      cases kind with
      | add =>
        have hE : (((cc.attributes.getD []).map (·.1)).filter
            (fun k => imHas k (extractAttributes ast.commands))).isEmpty = true ↔
            ∀ p ∈ cc.attributes.getD [], ¬ Present AddsAttr RemovesAttr ast.commands p.1 := by
          simp only [List.isEmpty_iff, List.filter_eq_nil_iff, List.mem_map,
            extractAttributes_spec, forall_exists_index, and_imp, forall_apply_eq_imp_iff₂]
        simp only [validate100, ruleAdd]
        constructor
        · constructor
          · intro h
            split at h
            · next hn =>
              rw [hE] at hn
              rintro (⟨x, ⟨_, cc', l, h1, h2, t, h3⟩, hp⟩ | ⟨x, ⟨h1, _⟩, _⟩ | ⟨x, ⟨h1, _⟩, _⟩)
              · simp only [ObjKind.captureBase.injEq] at h1
                subst h1
                exact hn (x, t) (by simp [h2, h3]) hp
              · cases h1
              · cases h1
            · cases h
          · intro h
            rw [if_pos]
            rw [hE]
            intro p hp hpr
            apply h
            left
            cases hc : cc.attributes with
            | none => rw [hc] at hp; simp at hp
            | some l =>
              rw [hc] at hp
              exact ⟨p.1, ⟨rfl, cc, l, rfl, hc, p.2, hp⟩, hpr⟩
        · split <;> simp
      | remove =>
        have hE : ∀ e1 e2 : List AstErr,
            (if (e1 ++ e2).isEmpty then (.ok () : Res (List AstErr) Unit) else .err (e1 ++ e2)) = .ok () ↔
            e1 = [] ∧ e2 = [] := by
          intro e1 e2
          by_cases h : (e1 ++ e2).isEmpty
          · rw [if_pos h]; simp only [true_iff]; rw [List.isEmpty_iff] at h; exact List.append_eq_nil_iff.mp h
          · rw [if_neg h]; simp only [reduceCtorEq, false_iff]; rintro ⟨rfl, rfl⟩; exact h rfl
        have hP : ∀ e1 e2 : List AstErr,
            (if (e1 ++ e2).isEmpty then (.ok () : Res (List AstErr) Unit) else .err (e1 ++ e2)) ≠ .panic := by
          intro e1 e2; split <;> simp
        simp only [validate100, ruleRemove]
        constructor
        · rw [hE]
          constructor
          · rintro ⟨h1, h2⟩ (⟨x, ⟨hk, _⟩, _⟩ | ⟨x, ⟨_, cc', l, hc, hl, t, ht⟩, hp⟩ | ⟨x, ⟨_, cc', l, hc, hl, t, ht⟩, hp⟩)
            · cases hk
            · simp only [ObjKind.captureBase.injEq] at hc
              subst hc
              rw [hl] at h1
              simp only at h1
              split at h1
              · next ha =>
                rw [List.all_eq_true] at ha
                exact hp ((extractAttributes_spec _ _).mp (ha (x, t) ht))
              · cases h1
            · simp only [ObjKind.captureBase.injEq] at hc
              subst hc
              rw [hl] at h2
              simp only at h2
              split at h2
              · next ha =>
                rw [List.all_eq_true] at ha
                exact hp ((extractProperties_spec _ _).mp (ha (x, t) ht))
              · cases h2
          · intro h
            constructor
            · cases hc : cc.attributes with
              | none => rfl
              | some l =>
                simp only
                rw [if_pos]
                rw [List.all_eq_true]
                intro p hp
                rw [extractAttributes_spec]
                apply Classical.byContradiction
                intro hn
                exact h (.inr (.inl ⟨p.1, ⟨rfl, cc, l, rfl, hc, p.2, hp⟩, hn⟩))
            · cases hc : cc.properties with
              | none => rfl
              | some l =>
                simp only
                rw [if_pos]
                rw [List.all_eq_true]
                intro p hp
                rw [extractProperties_spec]
                apply Classical.byContradiction
                intro hn
                exact h (.inr (.inr ⟨p.1, ⟨rfl, cc, l, rfl, hc, p.2, hp⟩, hn⟩))
        · exact hP _ _
      | modify =>
        apply other _ rfl
        rintro (⟨x, ⟨hk, _⟩, _⟩ | ⟨x, ⟨hk, _⟩, _⟩ | ⟨x, ⟨hk, _⟩, _⟩) <;> cases hk
      | «from» =>
        apply other _ rfl
        rintro (⟨x, ⟨hk, _⟩, _⟩ | ⟨x, ⟨hk, _⟩, _⟩ | ⟨x, ⟨hk, _⟩, _⟩) <;> cases hk
    | ocaBundle r =>
      apply other _ (by cases kind <;> rfl)
      rintro (⟨x, ⟨_, _, _, hk, _⟩, _⟩ | ⟨x, ⟨_, _, _, hk, _⟩, _⟩ | ⟨x, ⟨_, _, _, hk, _⟩, _⟩) <;> cases hk
    | overlay t cc =>
      apply other _ (by cases kind <;> rfl)
      rintro (⟨x, ⟨_, _, _, hk, _⟩, _⟩ | ⟨x, ⟨_, _, _, hk, _⟩, _⟩ | ⟨x, ⟨_, _, _, hk, _⟩, _⟩) <;> cases hk
  · rw [if_neg hv]
    constructor
    · simp only [hv, false_and, iff_false]
      split <;> simp
    · split <;> simp

/-! ## C09 -/

/-- Every command was accepted by the validator against the commands before it. -/
def AcceptedSeq (cs : List Command) : Prop :=
  ∀ pre c post, cs = pre ++ c :: post → ¬ BreaksRules pre c

theorem parseLoop_accepted (ls : List Line) : ∀ (ast : OCAAst) (n : Nat) (out : OCAAst),
    ast.version = c!"1.0.0" → AcceptedSeq ast.commands → parseLoop ast n ls = .ok out →
    out.version = c!"1.0.0" ∧ AcceptedSeq out.commands := by
  induction ls with
  | nil => intro ast n out hv ha h; injection h with h; subst h; exact ⟨hv, ha⟩
  | cons l ls ih =>
    intro ast n out hv ha h
    simp only [parseLoop] at h
    cases hl : parseLine ast n l with
    | err e => rw [hl] at h; cases h
    | panic => rw [hl] at h; cases h
    | ok ast' =>
      rw [hl] at h
      refine ih ast' (n + 1) out ?_ ?_ h
      · cases l with
        | instr raw cmd =>
          cases cmd with
          | ok c =>
            simp only [parseLine] at hl
            split at hl
            · injection hl with hl; rw [← hl]; exact hv
            · cases hl
            · cases hl
          | err e => cases hl
          | panic => cases hl
        | metaLine k v =>
          simp only [parseLine] at hl
          split at hl
          · cases hl
          · split at hl
            · cases hl
            · injection hl with hl; rw [← hl]; exact hv
        | eoi => injection hl with hl; rw [← hl]; exact hv
        | comment => injection hl with hl; rw [← hl]; exact hv
        | emptyLine => injection hl with hl; rw [← hl]; exact hv
      · cases l with
        | instr raw cmd =>
          cases cmd with
          | ok c =>
            simp only [parseLine] at hl
            split at hl
            · next hval =>
              injection hl with hl; rw [← hl]
              intro pre d post he
              rcases List.eq_nil_or_concat post with rfl | ⟨post', e, rfl⟩
              · obtain ⟨h1, h2⟩ := List.append_inj' he (by simp)
                injection h2 with h2 _
                rw [← h1, ← h2]
                exact ((C10_validate_exact ast c).1.mp hval).2
              · have he' : ast.commands ++ [c] = (pre ++ d :: post') ++ [e] := by simpa using he
                obtain ⟨h1, _⟩ := List.append_inj' he' (by simp)
                exact ha pre d post' h1
            · cases hl
            · cases hl
          | err e => cases hl
          | panic => cases hl
        | metaLine k v =>
          simp only [parseLine] at hl
          split at hl
          · cases hl
          · split at hl
            · cases hl
            · injection hl with hl; rw [← hl]; exact ha
        | eoi => injection hl with hl; rw [← hl]; exact ha
        | comment => injection hl with hl; rw [← hl]; exact ha
        | emptyLine => injection hl with hl; rw [← hl]; exact ha

/-- **C09** In the command list of any parsed file, every ADD ATTRIBUTE names only attributes absent at
that point, and every REMOVE ATTRIBUTE (property) only attributes (properties) present at that point. -/
theorem C09_parsed_commands_consistent (ls : List Line) (ast : OCAAst)
    (h : parseLines ls = .ok ast) (pre post : List Command) (c : Command)
    (he : ast.commands = pre ++ c :: post) :
    (∀ x, AddsAttr c x → ¬ Present AddsAttr RemovesAttr pre x) ∧
    (∀ x, RemovesAttr c x → Present AddsAttr RemovesAttr pre x) ∧
    (∀ x, RemovesProp c x → Present AddsProp RemovesProp pre x) := by
  have ha := (parseLoop_accepted ls OCAAst.new 0 ast rfl
    (by intro pre c post he; simp [OCAAst.new] at he) h).2
  have hb := ha pre c post he
  refine ⟨fun x h1 h2 => hb (.inl ⟨x, h1, h2⟩), fun x h1 => ?_, fun x h1 => ?_⟩
  · exact Classical.byContradiction fun hn => hb (.inr (.inl ⟨x, h1, hn⟩))
  · exact Classical.byContradiction fun hn => hb (.inr (.inr ⟨x, h1, hn⟩))

/-- **C09** consequence: between two ADDs of the same attribute there is a REMOVE of it. -/
theorem C09_no_double_add (ls : List Line) (ast : OCAAst) (h : parseLines ls = .ok ast)
    (pre mid post : List Command) (c d : Command) (x : Str)
    (he : ast.commands = pre ++ c :: (mid ++ d :: post)) (hc : AddsAttr c x) (hd : AddsAttr d x) :
    ∃ r ∈ mid, RemovesAttr r x := by
  have := (C09_parsed_commands_consistent ls ast h (pre ++ c :: mid) post d (by simpa using he)).1 x hd
  apply Classical.byContradiction
  intro hn
  apply this
  exact ⟨pre, c, mid, rfl, hc, fun r hr hrx => hn ⟨r, hr, hrx⟩⟩

/-- The instruction lines of a file, each with its position in the file, its text and its command. -/
def instrLines (ls : List Line) : List (Nat × Str × Res Str Command) :=
  ls.zipIdx.filterMap fun p => match p.1 with
    | .instr raw cmd => some (p.2, raw, cmd)
    | _ => none

theorem instrLines_snoc (ls : List Line) (l : Line) :
    instrLines (ls ++ [l]) = instrLines ls ++ (match l with
      | .instr raw cmd => [(ls.length, raw, cmd)]
      | _ => []) := by
  unfold instrLines
  rw [List.zipIdx_append, List.filterMap_append]
  congr 1
  cases l <;> simp

theorem parseLoop_append (l1 l2 : List Line) : ∀ (ast : OCAAst) (n : Nat),
    parseLoop ast n (l1 ++ l2) = (match parseLoop ast n l1 with
      | .ok ast' => parseLoop ast' (n + l1.length) l2
      | .err e => .err e
      | .panic => .panic) := by
  induction l1 with
  | nil => intro ast n; rfl
  | cons l ls ih =>
    intro ast n
    simp only [List.cons_append, parseLoop]
    cases parseLine ast n l with
    | ok a => simp only [ih, List.length_cons]; rw [show n + 1 + ls.length = n + (ls.length + 1) by omega]
    | err e => rfl
    | panic => rfl

/-- **C09** A parsed file has the commands of its instruction lines, in order, and with each command the
number (counting from one) and the text of its line. -/
theorem C09_commands_of_the_lines (ls : List Line) (ast : OCAAst) (h : parseLines ls = .ok ast) :
    (instrLines ls).map (fun p => p.2.2) = ast.commands.map Res.ok ∧
    ast.commandsMeta = (instrLines ls).zipIdx.map (fun p => (p.2, ⟨p.1.1 + 1, p.1.2.1⟩)) := by
  revert ast
  refine list_snoc_induction (P := fun ls => ∀ ast, parseLines ls = .ok ast →
    (instrLines ls).map (fun p => p.2.2) = ast.commands.map Res.ok ∧
    ast.commandsMeta = (instrLines ls).zipIdx.map (fun p => (p.2, ⟨p.1.1 + 1, p.1.2.1⟩))) ?_ ?_ ls
  · intro ast h; injection h with h; subst h; exact ⟨rfl, rfl⟩
  · intro ls l ih out h
    rw [parseLines, parseLoop_append] at h
    cases h1 : parseLoop OCAAst.new 0 ls with
    | err e => rw [h1] at h; cases h
    | panic => rw [h1] at h; cases h
    | ok ast =>
      rw [h1] at h
      obtain ⟨i1, i2⟩ := ih ast h1
      have hlen : (instrLines ls).length = ast.commands.length := by
        have := congrArg List.length i1; simpa using this
      simp only [parseLoop, Nat.zero_add] at h
      rw [instrLines_snoc]
      cases hl : parseLine ast ls.length l with
      | err e => rw [hl] at h; cases h
      | panic => rw [hl] at h; cases h
      | ok ast' =>
        rw [hl] at h
        injection h with h
        subst h
        cases l with
        | instr raw cmd =>
          cases cmd with
          | err e => cases hl
          | panic => cases hl
          | ok c =>
            simp only [parseLine] at hl
            split at hl
            · injection hl with hl
              subst hl
              constructor
              · simp [i1]
              · simp [List.zipIdx_append, i2, hlen]
            · cases hl
            · cases hl
        | metaLine k v =>
          simp only [parseLine] at hl
          split at hl
          · cases hl
          · split at hl
            · cases hl
            · injection hl with hl; rw [← hl]; simpa using ⟨i1, i2⟩
        | eoi => injection hl with hl; rw [← hl]; simpa using ⟨i1, i2⟩
        | comment => injection hl with hl; rw [← hl]; simpa using ⟨i1, i2⟩
        | emptyLine => injection hl with hl; rw [← hl]; simpa using ⟨i1, i2⟩

/-- **C10** what a rejection says: a missing or a wrong version, the attributes added a second time (all of them, in
the order of the command), or that an attribute or a property to remove is missing. -/
theorem C10_rejection (ast : OCAAst) (c : Command) (es : List AstErr) (h : astValidate ast c = .err es) :
    (ast.version ≠ c!"1.0.0" ∧ es = if ast.version = [] then [AstErr.missingVersion] else [AstErr.invalidVersion ast.version]) ∨
    (∃ cc l, c = ⟨.add, .captureBase cc⟩ ∧ cc.attributes = some l ∧
      ∃ ks, es = [AstErr.addExisting ks] ∧ ks ≠ [] ∧ ks.Sublist (l.map (·.1)) ∧
        ∀ k, k ∈ ks ↔ k ∈ l.map (·.1) ∧ Present AddsAttr RemovesAttr ast.commands k) ∨
    (∃ cc, c = ⟨.remove, .captureBase cc⟩ ∧ es ≠ [] ∧ es.Nodup ∧
      ∀ e, e ∈ es ↔ (e = .removeMissingAttr ∧ ∃ x, RemovesAttr c x ∧ ¬ Present AddsAttr RemovesAttr ast.commands x) ∨
        (e = .removeMissingProp ∧ ∃ x, RemovesProp c x ∧ ¬ Present AddsProp RemovesProp ast.commands x)) := by
  unfold astValidate at h
  split at h
  · right
    obtain ⟨kind, obj⟩ := c
    cases obj with
    | ocaBundle r => cases kind <;> cases h
    | overlay t cc => cases kind <;> cases h
    | captureBase cc =>
      cases kind with
      | modify => cases h
      | «from» => cases h
      | add =>
        left
        simp only [validate100, ruleAdd] at h
        split at h
        · cases h
        next hne =>
        injection h with h
        cases hl : cc.attributes with
        | none => rw [hl] at hne; simp at hne
        | some l =>
          refine ⟨cc, l, rfl, hl, _, h.symm, ?_, ?_, ?_⟩
          · simpa [List.isEmpty_iff] using hne
          · rw [hl]; exact List.filter_sublist
          · intro k
            rw [hl, List.mem_filter, extractAttributes_spec, Option.getD_some]
      | remove =>
        right
        have key : ∀ l : List AstErr,
            (if l.isEmpty = true then (.ok () : Res (List AstErr) Unit) else .err l) = .err es → l ≠ [] ∧ l = es := by
          intro l hl
          cases l with
          | nil => cases hl
          | cons a l => injection hl with hl; exact ⟨by simp, hl⟩
        obtain ⟨hne, h⟩ := key _ h
        rw [← h]
        refine ⟨cc, rfl, hne, ?_, ?_⟩
        · cases cc.attributes <;> cases cc.properties <;> simp <;> repeat' split
          all_goals simp
        · have ha : ∀ e, e ∈ (match cc.attributes with
              | some l => if l.all (fun p => imHas p.1 (extractAttributes ast.commands)) then []
                else [AstErr.removeMissingAttr]
              | none => []) ↔ (e = .removeMissingAttr ∧
                ∃ x, RemovesAttr ⟨.remove, .captureBase cc⟩ x ∧ ¬ Present AddsAttr RemovesAttr ast.commands x) := by
            intro e
            cases hc : cc.attributes with
            | none =>
              simp only [List.not_mem_nil, false_iff]
              rintro ⟨_, x, ⟨_, cc', l, h1, h2, _⟩, _⟩
              injection h1 with h1; subst h1; rw [hc] at h2; cases h2
            | some l =>
              dsimp only
              split
              next hall =>
                simp only [List.not_mem_nil, false_iff]
                rintro ⟨_, x, ⟨_, cc', l', h1, h2, t, h3⟩, hn⟩
                injection h1 with h1; subst h1; rw [hc] at h2; injection h2 with h2; subst h2
                exact hn ((extractAttributes_spec _ _).1 (List.all_eq_true.1 hall _ h3))
              next hall =>
                simp only [List.mem_singleton]
                constructor
                · intro he
                  refine ⟨he, ?_⟩
                  have : ∃ p ∈ l, ¬ imHas p.1 (extractAttributes ast.commands) = true := by
                    apply Classical.byContradiction
                    intro hn
                    apply hall
                    rw [List.all_eq_true]
                    intro p hp
                    exact Classical.byContradiction fun h => hn ⟨p, hp, h⟩
                  obtain ⟨p, hp, hn⟩ := this
                  exact ⟨p.1, ⟨rfl, cc, l, rfl, hc, p.2, hp⟩, fun hh => hn ((extractAttributes_spec _ _).2 hh)⟩
                · rintro ⟨he, _⟩; exact he
          have hb : ∀ e, e ∈ (match cc.properties with
              | some l => if l.all (fun p => imHas p.1 (extractProperties ast.commands)) then []
                else [AstErr.removeMissingProp]
              | none => []) ↔ (e = .removeMissingProp ∧
                ∃ x, RemovesProp ⟨.remove, .captureBase cc⟩ x ∧ ¬ Present AddsProp RemovesProp ast.commands x) := by
            intro e
            cases hc : cc.properties with
            | none =>
              simp only [List.not_mem_nil, false_iff]
              rintro ⟨_, x, ⟨_, cc', l, h1, h2, _⟩, _⟩
              injection h1 with h1; subst h1; rw [hc] at h2; cases h2
            | some l =>
              dsimp only
              split
              next hall =>
                simp only [List.not_mem_nil, false_iff]
                rintro ⟨_, x, ⟨_, cc', l', h1, h2, t, h3⟩, hn⟩
                injection h1 with h1; subst h1; rw [hc] at h2; injection h2 with h2; subst h2
                exact hn ((extractProperties_spec _ _).1 (List.all_eq_true.1 hall _ h3))
              next hall =>
                simp only [List.mem_singleton]
                constructor
                · intro he
                  refine ⟨he, ?_⟩
                  have : ∃ p ∈ l, ¬ imHas p.1 (extractProperties ast.commands) = true := by
                    apply Classical.byContradiction
                    intro hn
                    apply hall
                    rw [List.all_eq_true]
                    intro p hp
                    exact Classical.byContradiction fun h => hn ⟨p, hp, h⟩
                  obtain ⟨p, hp, hn⟩ := this
                  exact ⟨p.1, ⟨rfl, cc, l, rfl, hc, p.2, hp⟩, fun hh => hn ((extractProperties_spec _ _).2 hh)⟩
                · rintro ⟨he, _⟩; exact he
          intro e
          rw [List.mem_append]
          exact or_congr (ha e) (hb e)
  · next hv =>
    left
    refine ⟨hv, ?_⟩
    split at h <;> rename_i hv' <;> injection h with h <;> rw [← h]
    · rw [if_pos hv']
    · rw [if_neg hv']

/-- A parse with an add, a remove and a re-add of the same attribute (non-vacuity). -/
def demoLines : List Line :=
  let add : Command := ⟨.add, .captureBase ⟨some [(c!"name", .val .text)], none, none⟩⟩
  let rem : Command := ⟨.remove, .captureBase ⟨some [(c!"name", .null)], none, none⟩⟩
  [.metaLine c!"version" c!"0.0.1", .instr c!"ADD ATTRIBUTE name=Text" (.ok add),
   .emptyLine, .instr c!"REMOVE ATTRIBUTE name" (.ok rem),
   .instr c!"ADD ATTRIBUTE name=Text" (.ok add), .eoi]

example : (match parseLines demoLines with
    | .ok ast => decide (ast.commands.length = 3 ∧ ast.commandsMeta =
      [(0, ⟨2, c!"ADD ATTRIBUTE name=Text"⟩), (1, ⟨4, c!"REMOVE ATTRIBUTE name"⟩),
       (2, ⟨5, c!"ADD ATTRIBUTE name=Text"⟩)])
    | _ => false) = true := by decide

end OCA
