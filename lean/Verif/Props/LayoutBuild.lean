import Verif.Props.LayoutFree
import Verif.Props.FileDispatch
/-!
# C75: the layout of a file is not in what is built

Two layouts of the same commands and meta lines build the same bundle, with the same steps, and leave the facade in the same state. When
building fails, it fails for both; the errors may differ in the lines they name.
-/
namespace OCA

/-- both give the same value, or both an error, or both abort -/
inductive LikeOutcome {ε ε' α : Type} : Res ε α → Res ε' α → Prop
  | ok (a : α) : LikeOutcome (.ok a) (.ok a)
  | err (e : ε) (e' : ε') : LikeOutcome (.err e) (.err e')
  | panic : LikeOutcome .panic .panic

namespace LikeOutcome
variable {ε ε' δ δ' α β : Type}

theorem rfl' (x : Res ε α) : LikeOutcome x x := by cases x <;> constructor

theorem bind {x : Res ε α} {y : Res ε' α} {f : α → Res ε β} {g : α → Res ε' β} (h : LikeOutcome x y) (hf : ∀ a, LikeOutcome (f a) (g a)) :
    LikeOutcome (x >>= f) (y >>= g) := by
  cases h with
  | ok a => exact hf a
  | err => exact .err _ _
  | panic => exact .panic

theorem mapErr {x : Res ε α} {y : Res ε' α} (f : ε → δ) (g : ε' → δ') (h : LikeOutcome x y) : LikeOutcome (x.mapErr f) (y.mapErr g) := by
  cases h <;> constructor

theorem mapOk {x : Res ε α} {y : Res ε' α} (f : α → β) (h : LikeOutcome x y) : LikeOutcome (x.mapOk f) (y.mapOk f) := by
  cases h <;> constructor

end LikeOutcome

/-- the loop's states, but for the lines of the errors -/
def LoopState.Like (s t : LoopState) : Prop := s.steps = t.steps ∧ s.parent = t.parent ∧ s.base = t.base ∧ s.errors.length = t.errors.length

theorem buildStep_like {E : Env} {O : Order} {m m' : CommandMeta} {c : Command} {s t : LoopState} (h : s.Like t) :
    (∃ s' t', buildStep E O m s c = .ok s' ∧ buildStep E O m' t c = .ok t' ∧ s'.Like t') ∨
    (∃ e e', buildStep E O m s c = .err e ∧ buildStep E O m' t c = .err e') ∨
    (buildStep E O m s c = .panic ∧ buildStep E O m' t c = .panic) := by
  obtain ⟨es, st, p, b⟩ := s
  obtain ⟨es', st', p', b'⟩ := t
  obtain ⟨h1, h2, h3, h4⟩ := h
  dsimp only at h1 h2 h3 h4
  subst h1 h2 h3
  unfold buildStep
  dsimp only
  cases applyCommand E b c with
  | panic => exact .inr (.inr ⟨rfl, rfl⟩)
  | err e => exact .inl ⟨_, _, rfl, rfl, rfl, rfl, rfl, by simp [h4]⟩
  | ok x =>
    dsimp only
    cases hg : (generateBundle E O x : Res (List BuildErr) Bundle) with
    | ok bd => exact .inl ⟨_, _, rfl, rfl, rfl, rfl, rfl, h4⟩
    | err e => exact .inr (.inl ⟨_, _, rfl, rfl⟩)
    | panic => exact .inr (.inr ⟨rfl, rfl⟩)

theorem buildLoop_like {E : Env} {Os : Nat → Order} {a a' : OCAAst} {n : Nat} : ∀ (cs : List Command) (i : Nat) (s t : LoopState), s.Like t →
    (∃ s' t', buildLoop E Os a n i s cs = .ok s' ∧ buildLoop E Os a' n i t cs = .ok t' ∧ s'.Like t') ∨
    (∃ e e', buildLoop E Os a n i s cs = .err e ∧ buildLoop E Os a' n i t cs = .err e') ∨
    (buildLoop E Os a n i s cs = .panic ∧ buildLoop E Os a' n i t cs = .panic)
  | [], i, s, t, h => .inl ⟨_, _, rfl, rfl, h⟩
  | c :: cs, i, s, t, h => by
    unfold buildLoop
    rcases buildStep_like (E := E) (O := Os i) (m := cmdMeta a (i + n)) (m' := cmdMeta a' (i + n)) (c := c) h with
      ⟨s', t', e1, e2, h'⟩ | ⟨e, e', e1, e2⟩ | ⟨e1, e2⟩
    · rw [e1, e2]
      exact buildLoop_like cs (i + 1) s' t' h'
    · rw [e1, e2]
      exact .inr (.inl ⟨_, _, rfl, rfl⟩)
    · rw [e1, e2]
      exact .inr (.inr ⟨rfl, rfl⟩)

/-- what `from_ast` builds depends on the commands only -/
theorem fromAst_like {E : Env} {Os : Nat → Order} {b : Option Bundle} {a a' : OCAAst} (h : a.commands = a'.commands) :
    LikeOutcome (fromAst E Os b a) (fromAst E Os b a') := by
  unfold fromAst
  rw [← h]
  refine (LikeOutcome.rfl' _).bind fun base => ?_
  dsimp only
  have hl := buildLoop_like (E := E) (Os := Os) (a := a) (a' := a') (n := if b.isSome then 1 else 0) a.commands 0
    ⟨[], [], b.bind Bundle.said, base⟩ ⟨[], [], b.bind Bundle.said, base⟩ ⟨rfl, rfl, rfl, rfl⟩
  rcases hl with ⟨s, t, e1, e2, h1, h2, h3, h4⟩ | ⟨e, e', e1, e2⟩ | ⟨e1, e2⟩
  · rw [e1, e2]
    show LikeOutcome (buildFinish E (Os a.commands.length) s) (buildFinish E (Os a.commands.length) t)
    unfold buildFinish
    rw [h1, h3]
    have : s.errors.isEmpty = t.errors.isEmpty := by
      cases hs : s.errors <;> cases ht : t.errors <;> simp_all
    rw [this]
    split
    · exact .rfl' _
    · exact .err _ _
  · rw [e1, e2]; exact .err _ _
  · rw [e1, e2]; exact .panic

theorem checkBase_like {ε : Type} {E : Env} {S : Serde} {cache : Store} {a a' : OCAAst} (h : a.commands = a'.commands) (hm : a.metaMap = a'.metaMap) :
    (∃ b c c', (checkBase E S cache a : Res ε _) = .ok (b, c) ∧ (checkBase E S cache a' : Res ε _) = .ok (b, c') ∧ c.commands = c'.commands ∧
      c.metaMap = c'.metaMap) ∨ ((checkBase E S cache a : Res ε _) = .panic ∧ (checkBase E S cache a' : Res ε _) = .panic) := by
  unfold checkBase
  rw [← h]
  split
  · split
    · split
      · exact .inl ⟨_, _, _, rfl, rfl, rfl, hm⟩
      · exact .inl ⟨_, _, _, rfl, rfl, rfl, hm⟩
      · exact .inr ⟨rfl, rfl⟩
    · exact .inr ⟨rfl, rfl⟩
  · exact .inl ⟨_, _, _, rfl, rfl, h, hm⟩

theorem buildWithRefs_like {E : Env} {Os : Nat → Order} {db : Store} {b : Option Bundle} {a a' : OCAAst} (h : a.commands = a'.commands)
    (hm : a.metaMap = a'.metaMap) : LikeOutcome (buildWithRefs E Os db b a) (buildWithRefs E Os db b a') := by
  unfold buildWithRefs
  rw [← h, ← hm]
  refine (LikeOutcome.rfl' _).bind fun cs => LikeOutcome.bind (LikeOutcome.mapErr _ _ (fromAst_like ?_)) fun b => .rfl' _
  rfl

/-- what the parser makes of two layouts, for those who go on with the commands and the meta data -/
theorem parse_like {E : Env} {U : Uni} {ls ls' : List FreeLine} (h : ∀ l ∈ ls, l.Ok E U) (h' : ∀ l ∈ ls', l.Ok E U)
    (hc : freeCommands ls = freeCommands ls') (hm : ∀ key, freeMeta ls key = freeMeta ls' key) {δ α : Type} (w w' : ParseErr → δ)
    {f : OCAAst → Res δ α} (hf : ∀ a a', a.commands = a'.commands → a.metaMap = a'.metaMap → LikeOutcome (f a) (f a')) :
    LikeOutcome ((parseText E U (freeText ls)).mapErr w >>= f) ((parseText E U (freeText ls')).mapErr w' >>= f) := by
  rcases C75_same_meaning E U ls ls' h h' hc hm with ⟨o, o', e1, e2, h1, h2, -⟩ | ⟨es, es', e1, e2⟩
  · rw [e1, e2]; exact hf o o' h1 h2
  · rw [e1, e2]; exact .err _ _

/-- **C75** Validating two layouts of the same commands and meta data: both give the same build (bundle and steps) and the same state of the
facade, or both are refused, or both abort. -/
theorem C75_same_validation (E : Env) (U : Uni) (S : Serde) (Os : Nat → Order) (f : Facade) (ls ls' : List FreeLine) (h : ∀ l ∈ ls, l.Ok E U)
    (h' : ∀ l ∈ ls', l.Ok E U) (hc : freeCommands ls = freeCommands ls') (hm : ∀ key, freeMeta ls key = freeMeta ls' key) :
    LikeOutcome (f.validateText E U S Os (freeText ls)) (f.validateText E U S Os (freeText ls')) := by
  unfold Facade.validateText
  refine parse_like h h' hc hm _ _ fun a a' e1 e2 => ?_
  rcases checkBase_like (ε := List VErr) (E := E) (S := S) (cache := f.cache) e1 e2 with ⟨b, c, c', k1, k2, k3, k4⟩ | ⟨k1, k2⟩
  · rw [k1, k2]
    exact (buildWithRefs_like k3 k4).bind fun _ => .rfl' _
  · rw [k1, k2]; exact .panic

/-- **C75** Building two layouts of the same commands and meta data that are files of semantics (C45 tells which are): both give the same bundle,
with the same identifiers, and the same state of the facade - all that is stored of it -, or both are refused, or both abort. -/
theorem C75_same_build (E : Env) (U : Uni) (S : Serde) (Os : Nat → Order) (O : SetOrder) (f : Facade) (ls ls' : List FreeLine)
    (h : ∀ l ∈ ls, l.Ok E U) (h' : ∀ l ∈ ls', l.Ok E U) (hc : freeCommands ls = freeCommands ls') (hm : ∀ key, freeMeta ls key = freeMeta ls' key)
    (hd : parseFile E U (freeText ls) = asSemantics E U (freeText ls)) (hd' : parseFile E U (freeText ls') = asSemantics E U (freeText ls')) :
    LikeOutcome (f.buildFromText E U S Os O (freeText ls)) (f.buildFromText E U S Os O (freeText ls')) ∧
    LikeOutcome (buildText E U Os (freeText ls)) (buildText E U Os (freeText ls')) := by
  have hv := C75_same_validation E U S Os f ls ls' h h' hc hm
  unfold Facade.buildFromText buildText
  rw [hd, hd']
  unfold asSemantics
  rcases C75_same_meaning E U ls ls' h h' hc hm with ⟨o, o', e1, e2, h1, h2, -⟩ | ⟨es, es', e1, e2⟩
  · rw [e1, e2]
    dsimp only [Res.mapErr, Res.mapOk]
    refine ⟨?_, LikeOutcome.mapOk _ (LikeOutcome.mapErr _ _ (fromAst_like h1))⟩
    generalize f.validateText E U S Os (freeText ls) = x at hv ⊢
    generalize f.validateText E U S Os (freeText ls') = y at hv ⊢
    cases hv with
    | ok a => exact .rfl' _
    | err e e' => exact .err _ _
    | panic => exact .panic
  · rw [e1, e2]
    exact ⟨.err _ _, .err _ _⟩

/-- one attribute and its label, spread over lines -/
def wideLines : List FreeLine :=
  [.command (.addAttributes c!"add" [.cont [] .lf, .one true] c!"Attribute" [⟨[.one true], c!"a", [.one false], [], .base .text⟩]) [] (some c!" one") .crlf,
   .command (.addOverlay c!"Add" [.one false] .label c!"label" [.one false] (.lang c!"en" [.one false]) c!"attrs" [.one false]
      ⟨⟨c!"a", [], [.one false], .quoted (.single c!"An")⟩, []⟩) [] none .lf]

/-- the same, plain -/
def plainLines : List FreeLine :=
  [.command (.addAttributes c!"ADD" [.one false] c!"ATTRIBUTE" [⟨[.one false], c!"a", [], [], .base .text⟩]) [] none .lf,
   .command (.addOverlay c!"ADD" [.one false] .label c!"LABEL" [.one false] (.lang c!"en" [.one false]) c!"ATTRS" [.one false]
      ⟨⟨c!"a", [], [], .quoted (.double c!"An")⟩, []⟩) [] none .lf]

/-- the number of overlays and the identifier of what a file builds -/
def builtOf (s : Str) : Option (Nat × Bool) := match buildText Env.demo Uni.ascii (fun _ => Order.sorted) s with
  | .ok b => some (b.overlays.length, b.said.isSome)
  | _ => none

theorem wideLines_ok : ∀ l ∈ wideLines, l.Ok Env.demo Uni.ascii := by
  intro l hl
  simp only [wideLines, List.mem_cons, List.not_mem_nil, or_false] at hl
  rcases hl with rfl | rfl
  · refine ⟨⟨by decide, by decide, by simp, ?_⟩, by unfold CommentOk; decide, (fun h => by cases h), (fun h => by cases h)⟩
    intro a ha
    simp only [List.mem_cons, List.not_mem_nil, or_false] at ha
    rcases ha with rfl; exact ⟨by simp, isKey_of (by decide), trivial⟩
  · refine ⟨⟨by decide, by decide, by simp, ⟨rfl, ⟨by decide, by decide⟩, by simp⟩, by decide, by simp, ?_, ?_⟩, trivial, (fun h => by cases h), (fun h => by cases h)⟩
    · intro p hp
      simp only [PairsLaid.all, List.map_nil, List.mem_cons, List.not_mem_nil, or_false] at hp
      rcases hp with rfl
      exact ⟨isKey_of (by decide), quoted_value (by decide +kernel), by simp⟩
    · trivial

theorem plainLines_ok : ∀ l ∈ plainLines, l.Ok Env.demo Uni.ascii := by
  intro l hl
  simp only [plainLines, List.mem_cons, List.not_mem_nil, or_false] at hl
  rcases hl with rfl | rfl
  · refine ⟨⟨by decide, by decide, by simp, ?_⟩, trivial, (fun h => by cases h), (fun h => by cases h)⟩
    intro a ha
    simp only [List.mem_cons, List.not_mem_nil, or_false] at ha
    rcases ha with rfl; exact ⟨by simp, isKey_of (by decide), trivial⟩
  · refine ⟨⟨by decide, by decide, by simp, ⟨rfl, ⟨by decide, by decide⟩, by simp⟩, by decide, by simp, ?_, ?_⟩, trivial, (fun h => by cases h), (fun h => by cases h)⟩
    · intro p hp
      simp only [PairsLaid.all, List.map_nil, List.mem_cons, List.not_mem_nil, or_false] at hp
      rcases hp with rfl
      exact ⟨isKey_of (by decide), quoted_value (by decide +kernel), by simp⟩
    · trivial

/-- **C75** is not vacuous for builds: two layouts of an attribute and its label meet the hypotheses, and build a bundle with one overlay. -/
theorem C75_build_example : (∀ l ∈ wideLines, l.Ok Env.demo Uni.ascii) ∧ (∀ l ∈ plainLines, l.Ok Env.demo Uni.ascii) ∧
    freeCommands wideLines = freeCommands plainLines ∧ (∀ key, freeMeta wideLines key = freeMeta plainLines key) ∧
    parseFile Env.demo Uni.ascii (freeText wideLines) = asSemantics Env.demo Uni.ascii (freeText wideLines) ∧
    parseFile Env.demo Uni.ascii (freeText plainLines) = asSemantics Env.demo Uni.ascii (freeText plainLines) ∧
    freeText wideLines ≠ freeText plainLines ∧ builtOf (freeText wideLines) = some (1, true) ∧ builtOf (freeText plainLines) = some (1, true) :=
  ⟨wideLines_ok, plainLines_ok, rfl, fun _ => rfl, C45_no_meta _ _ _ (by decide +kernel), C45_no_meta _ _ _ (by decide +kernel), by decide +kernel,
    by decide +kernel, by decide +kernel⟩

end OCA
