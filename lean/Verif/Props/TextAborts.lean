import Verif.Props.ParsedText
/-!
# C47: which builds of a text abort
-/
namespace OCA
open Peg Gr

/-- the first attribute that the command names is in the build -/
def FirstPresent (b : OCABox) (c : Content) : Prop :=
  ∃ p rest, c.attributes = some (p :: rest) ∧ (b.attributes.get p.1).isSome = true

/-- When a command of an OCA file aborts the process (specification), in the build state `b`:
* REMOVE META and REMOVE LABEL, always;
* ADD META with an unknown language and a property other than `lang`;
* ADD LABEL, INFORMATION, ENTRY with an unknown language whose first attribute is in the build;
* ADD LINK to something that is not a SAID, whose first attribute is in the build;
* ADD ATTR_FRAMING without `id`, whose first attribute is in the build. -/
def TextAborts (E : Env) (b : OCABox) (c : Command) : Prop :=
  match c.kind, c.obj with
  | .remove, .overlay _ _ => True
  | .add, .overlay t cc =>
    (t.kind = .metaOv ∧ cc.lang E = none ∧ ∃ p ∈ cc.properties.getD [], p.1 ≠ c!"lang") ∨
    ((t.kind = .label ∨ t.kind = .information ∨ t.kind = .entry) ∧ cc.lang E = none ∧ FirstPresent b cc) ∨
    (t.kind = .link ∧ cc.target = none ∧ FirstPresent b cc) ∨
    (t.kind = .attributeFraming ∧ (∀ v, (c!"id", v) ∉ cc.properties.getD []) ∧ FirstPresent b cc)
  | _, _ => False

theorem first_bad {E : Env} {b : OCABox} {k : OvKind} {c : Content} (ok : Bool) (h : ∀ p ∈ c.attributes.getD [], valueOk E k c p.2 = ok) :
    (∃ pre n v post, c.attributes.getD [] = pre ++ (n, v) :: post ∧
        (∀ p ∈ pre, (b.attributes.get p.1).isSome = true ∧ valueOk E k c p.2 = true) ∧
        (b.attributes.get n).isSome = true ∧ valueOk E k c v = false) ↔ ok = false ∧ FirstPresent b c := by
  constructor
  · rintro ⟨pre, n, v, post, e, h1, h2, h3⟩
    have hf : ok = false := by rw [← h (n, v) (by rw [e]; simp)]; exact h3
    subst hf
    refine ⟨rfl, ?_⟩
    cases pre with
    | nil =>
      cases ha : c.attributes with
      | none => rw [ha] at e; cases e
      | some l => rw [ha] at e; exact ⟨(n, v), post, by rw [← show l = (n, v) :: post from e, ← ha], h2⟩
    | cons p pre =>
      have h4 := (h1 p (.head _)).2
      rw [h p (by rw [e]; simp)] at h4
      cases h4
  · rintro ⟨rfl, p, rest, e, h1⟩
    refine ⟨[], p.1, p.2, rest, by rw [e]; rfl, by simp, h1, h p (by rw [e]; simp)⟩

theorem _root_.OCA.Gr.PairList.text {b : Bool} {l : List (Str × NVal)} (h : PairList b TextPair l) : ∀ p ∈ l, ∃ s, p.2 = .val s := by
  intro p hp
  rcases h.ok p hp with ⟨-, s, hs, -⟩ | ⟨-, rfl⟩
  · exact ⟨s, hs⟩
  · exact ⟨[], rfl⟩

theorem metaPairs_ne {b : Bool} {ps : List (Str × NVal)} (h : MetaProps b ps) (as : Option (List (Str × NVal))) :
    (Content.metaPairs ⟨as, some ps⟩) ≠ [] ↔ ∃ p ∈ ps, p.1 ≠ c!"lang" := by
  have hv : ∀ p ∈ ps, ∃ s, p.2 = .val s := by
    intro p hp
    rcases h.ok p hp with ⟨-, s, hs, -⟩ | ⟨-, rfl⟩
    · exact ⟨s, hs⟩
    · exact ⟨[], rfl⟩
  simp only [Content.metaPairs, Option.getD_some, textPairs, Ne, imDrop]
  constructor
  · intro hn
    apply Classical.byContradiction
    intro hne
    apply hn
    have : ps.filter (fun p => !decide (p.1 = c!"lang")) = [] := by
      rw [List.filter_eq_nil_iff]
      intro p hp h'
      exact hne ⟨p, hp, by simpa using h'⟩
    rw [this]; rfl
  · rintro ⟨p, hp, hl⟩ hn
    obtain ⟨s, hs⟩ := hv p hp
    have : (p.1, s) ∈ (ps.filter (fun p => !decide (p.1 = c!"lang"))).filterMap fun p => match p.2 with
      | .val s => some (p.1, s)
      | _ => none := by
      rw [List.mem_filterMap]
      exact ⟨p, List.mem_filter.2 ⟨hp, by simpa using hl⟩, by rw [hs]⟩
    exact absurd (hn ▸ this : _ ∈ ([] : List (Str × Str))) (by simp)

theorem frameId_none {ps : List (Str × NVal)} {as : Option (List (Str × NVal))} (h : ∀ p ∈ ps, ∃ s, p.2 = .val s) :
    (Content.frameId ⟨as, some ps⟩) = none ↔ ∀ v, (c!"id", v) ∉ ps := by
  rw [Content.frameId, FMap.lastVal_eq_none]
  simp only [Content.textProps, Option.getD_some]
  constructor
  · intro h1 v hv
    obtain ⟨s, hs⟩ := h _ hv
    exact h1 (c!"id", s) (List.mem_filterMap.2 ⟨_, hv, by rw [hs]⟩) rfl
  · intro h1 p hp e
    obtain ⟨q, hq, e'⟩ := List.mem_filterMap.1 hp
    split at e'
    · cases e'
      exact h1 q.2 (by rw [show (c!"id", q.2) = q from by rw [← e]]; exact hq)
    · cases e'

/-- **C47** Exactly which commands of a text abort, in every build state. (For frames: of a text without a backslash, so that no comment is
inside.) -/
theorem C47_text_aborts_iff (E : Env) (U : Uni) (s : Str) (ast : OCAAst) (h : parseText E U s = .ok ast) (c : Command) (hc : c ∈ ast.commands)
    (hf : '\\' ∉ s ∨ ∀ t cc, c.obj = .overlay t cc → t.kind ≠ .attributeFraming) (st : Option OCABox) :
    applyCommand E st c = .panic ↔ TextAborts E (st.getD OCABox.new) c := by
  have hst : applyCommand E st c = applyCommand E (some (st.getD OCABox.new)) c := by cases st <;> rfl
  rw [hst, C47_apply_aborts_iff]
  generalize st.getD OCABox.new = box
  have hk := C52_commands_of_text E U s ast h c hc
  generalize hb : hasBackslash s = b at hk
  cases hk with
  | overlay k cc hcc =>
    simp only [Aborts, TextAborts]
    cases hcc with
    | plain k hk as h =>
      have hv : ∀ p ∈ as, k ≠ .characterEncoding → valueOk E k ⟨some as, some []⟩ p.2 = true := by
        intro p hp hc
        rcases hk with rfl | rfl | rfl | rfl | rfl <;> first | exact absurd rfl hc | rfl
      have : k ≠ .metaOv ∧ k ≠ .label ∧ k ≠ .information ∧ k ≠ .entry ∧ k ≠ .link ∧ k ≠ .attributeFraming := by
        rcases hk with rfl | rfl | rfl | rfl | rfl <;> decide
      simp only [this, if_false, false_and, or_false, false_or, iff_false, not_and]
      rintro - hc hx
      rw [first_bad true fun p hp => hv p hp hc] at hx
      cases hx.1
    | unit as h =>
      simp only [reduceCtorEq, if_false, false_and, or_false, false_or, iff_false, not_and]
      rintro - - ⟨pre, n, v, post, -, -, -, h4⟩
      cases h4
    | withLang k hk as h l hl =>
      have h1 : k ≠ .metaOv ∧ k ≠ .characterEncoding ∧ k ≠ .link ∧ k ≠ .attributeFraming ∧ k ∈ attributeKinds ∧
          (k = .label ∨ k = .information ∨ k = .entry) := by rcases hk with rfl | rfl <;> decide
      have hv : ∀ p ∈ as, valueOk E k ⟨some as, some [(c!"lang", .val l)]⟩ p.2 = (Content.lang E ⟨some as, some [(c!"lang", .val l)]⟩).isSome := by
        intro p hp
        obtain ⟨s, hs⟩ := h.text p hp
        rcases hk with rfl | rfl <;> simp [valueOk, hs]
      simp only [h1, if_false, false_and, or_false, false_or, true_and, ne_eq, not_false_eq_true]
      rw [first_bad (c := ⟨some as, _⟩) _ hv]
      simp
    | metas ps h =>
      simp only [if_true, reduceCtorEq, false_and, or_false, true_and]
      rw [metaPairs_ne h]
      rfl
    | encodingProps ps h => simp
    | entryCodes as h =>
      simp only [reduceCtorEq, if_false, false_and, or_false, false_or, iff_false, not_and]
      rintro - - ⟨pre, n, v, post, -, -, -, h4⟩
      cases h4
    | entries as h l hl =>
      have hv : ∀ p ∈ as, valueOk E .entry ⟨some as, some [(c!"lang", .val l)]⟩ p.2 = (Content.lang E ⟨some as, some [(c!"lang", .val l)]⟩).isSome := by
        intro p hp
        have : ∃ x, entriesOf p.2 = some x := by
          rcases h.ok p hp with ⟨-, ⟨s, hs, -⟩ | ⟨g, hg, -⟩⟩ | ⟨-, rfl⟩
          · exact ⟨_, by rw [hs]; rfl⟩
          · exact ⟨_, by rw [hg]; rfl⟩
          · exact ⟨_, rfl⟩
        obtain ⟨x, hx⟩ := this
        simp [valueOk, hx]
      simp only [reduceCtorEq, if_false, false_and, or_false, false_or, true_and, or_true, ne_eq, not_false_eq_true, show OvKind.entry ∈ attributeKinds from by decide]
      rw [first_bad (c := ⟨some as, _⟩) _ hv]
      simp
    | link as h ps hp =>
      have hv : ∀ p ∈ as, valueOk E .link ⟨some as, some ps⟩ p.2 = (Content.target ⟨some as, some ps⟩).isSome := by
        intro p hp
        obtain ⟨s, hs⟩ := h.text p hp
        simp [valueOk, hs]
      simp only [reduceCtorEq, if_false, false_and, or_false, false_or, true_and, ne_eq, not_false_eq_true, show OvKind.link ∈ attributeKinds from by decide]
      rw [first_bad (c := ⟨some as, _⟩) _ hv]
      simp
    | framing as h ps hp =>
      have hbs : b = false := by
        rcases hf with hf | hf
        · rw [← hb]; simpa [hasBackslash] using hf
        · exact absurd rfl (hf _ _ rfl)
      subst hbs
      have hv : ∀ p ∈ as, valueOk E .attributeFraming ⟨some as, some ps⟩ p.2 = (Content.frameId ⟨some as, some ps⟩).isSome := by
        intro p hp
        rcases h.ok p hp with ⟨-, -, g, hg⟩ | ⟨h', -⟩
        · simp [valueOk, hg]
        · cases h'
      simp only [reduceCtorEq, if_false, false_and, false_or, true_and, ne_eq, not_false_eq_true, show OvKind.attributeFraming ∈ attributeKinds from by decide]
      rw [first_bad (c := ⟨some as, _⟩) _ hv, Option.isSome_eq_false_iff, Option.isNone_iff_eq_none, frameId_none]
      · rfl
      · intro p hp'
        rcases hp.ok p hp' with ⟨-, s, hs, -⟩ | ⟨h', -⟩
        · exact ⟨s, hs⟩
        · cases h'
  | _ => simp [Aborts, TextAborts]

theorem mem_results {E : Env} {st : Option OCABox} {cs : List Command} {r : Res (List Str) OCABox} :
    r ∈ results E st cs ↔ ∃ pre c post, cs = pre ++ c :: post ∧ applyCommand E (finalState E st pre) c = r := by
  induction cs generalizing st with
  | nil => simp [results]
  | cons d cs ih =>
    simp only [results, List.mem_cons, ih]
    constructor
    · rintro (rfl | ⟨pre, c, post, rfl, h⟩)
      · exact ⟨[], d, cs, rfl, rfl⟩
      · exact ⟨d :: pre, c, post, rfl, h⟩
    · rintro ⟨pre, c, post, e, h⟩
      cases pre with
      | nil => cases e; exact .inl h.symm
      | cons x pre =>
        cases e
        exact .inr ⟨pre, c, post, rfl, h⟩

/-- **C47** Exactly which texts without a backslash abort the build: those with a command that aborts in the state left by the accepted
commands before it, and those without any command. -/
theorem C47_text_build_aborts_iff (E : Env) (Os : Nat → Order) (U : Uni) (s : Str) (hs : '\\' ∉ s) (ast : OCAAst) (h : parseText E U s = .ok ast) :
    fromAst E Os none ast = .panic ↔ ast.commands = [] ∨
      ∃ pre c post, ast.commands = pre ++ c :: post ∧ TextAborts E ((finalState E none pre).getD OCABox.new) c := by
  rw [C47_build_aborts_iff]
  simp only [baseOf, reduceCtorEq, Res.ok.injEq, exists_eq_left', false_or, true_and, mem_results]
  rw [or_comm]
  refine or_congr Iff.rfl ⟨?_, ?_⟩
  · rintro ⟨pre, c, post, e, h'⟩
    exact ⟨pre, c, post, e, (C47_text_aborts_iff E U s ast h c (by rw [e]; simp) (.inl hs) _).1 h'⟩
  · rintro ⟨pre, c, post, e, h'⟩
    exact ⟨pre, c, post, e, (C47_text_aborts_iff E U s ast h c (by rw [e]; simp) (.inl hs) _).2 h'⟩

/-- The same for a build on top of another bundle. -/
theorem C47_text_build_on_aborts_iff (E : Env) (Os : Nat → Order) (U : Uni) (s : Str) (hs : '\\' ∉ s) (ast : OCAAst) (h : parseText E U s = .ok ast)
    (base : Bundle) (box : OCABox) (hb : (OCABox.ofBundle E base : Res (List BuildErr) _) = .ok box) :
    fromAst E Os (some base) ast = .panic ↔
      ∃ pre c post, ast.commands = pre ++ c :: post ∧ TextAborts E ((finalState E (some box) pre).getD OCABox.new) c := by
  rw [C47_build_aborts_iff]
  simp only [baseOf, hb, Res.bind_ok, Res.pure_eq, reduceCtorEq, Res.ok.injEq, exists_eq_left', false_or, false_and, or_false, mem_results]
  refine ⟨?_, ?_⟩
  · rintro ⟨pre, c, post, e, h'⟩
    exact ⟨pre, c, post, e, (C47_text_aborts_iff E U s ast h c (by rw [e]; simp) (.inl hs) _).1 h'⟩
  · rintro ⟨pre, c, post, e, h'⟩
    exact ⟨pre, c, post, e, (C47_text_aborts_iff E U s ast h c (by rw [e]; simp) (.inl hs) _).2 h'⟩

/-! Non-vacuity: a text that builds, and texts that abort. -/

/-- whether a command of the text aborts, or there is none -/
def textOutcome (E : Env) (U : Uni) (s : Str) : Option Bool :=
  match parseText E U s with
  | .ok ast => some (ast.commands.isEmpty || (results E none ast.commands).any aborted)
  | _ => none

example : textOutcome Env.demo Uni.ascii c!"ADD ATTRIBUTE a=Text b=Numeric\nADD LABEL en ATTRS a=\"A\"\nADD META en PROPS name=x\n" = some false := by decide +kernel
example : textOutcome Env.demo Uni.ascii c!"ADD ATTRIBUTE a=Text\nADD LABEL xx ATTRS a=\"A\"\n" = some true := by decide +kernel
example : textOutcome Env.demo Uni.ascii c!"ADD ATTRIBUTE a=Text\nADD LABEL xx ATTRS b=\"A\" a=\"A\"\n" = some false := by decide +kernel
example : textOutcome Env.demo Uni.ascii c!"ADD ATTRIBUTE a=Text\nADD META xx PROPS name=x\n" = some true := by decide +kernel
example : textOutcome Env.demo Uni.ascii c!"ADD ATTRIBUTE a=Text\nADD META xx PROPS lang=en name=x\n" = some false := by decide +kernel
example : textOutcome Env.demo Uni.ascii c!"ADD ATTRIBUTE a=Text\nADD LINK refn:b ATTRS a=x\n" = some true := by decide +kernel
example : textOutcome Env.demo Uni.ascii c!"ADD ATTRIBUTE a=Text\nREMOVE LABEL en ATTRS a\n" = some true := by decide +kernel
example : textOutcome Env.demo Uni.ascii c!"# nothing\n" = some true := by decide +kernel

end OCA
