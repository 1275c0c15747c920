import Verif.Props.ExtendedText
import Verif.Props.TextAborts
import Verif.Props.PortableExample
import Verif.Props.AnyBase
import Verif.Props.Lineage
import Verif.Props.Search
import Verif.Props.HistoryTextExample
/-!
# C82: instructions of an OCA file that do nothing, or always abort

`ADD FLAGGED_ATTRIBUTES` is accepted and read, but building never looks at it. `REMOVE META` and `REMOVE LABEL` are accepted and read, but
whatever they name is forgotten, and building them always aborts.
-/
namespace OCA
open Peg Gr

/-! ## Specification -/

/-- ADD FLAGGED_ATTRIBUTES: it names flagged attributes and says nothing else -/
def Flagging (c : Command) : Prop := ∃ vs, c = ⟨.add, .captureBase ⟨none, none, some vs⟩⟩

/-- Two builds end the same way: with the same bundle, with the same messages, or both abort. -/
def EndsAlike : Res (List BuildErr) Build → Res (List BuildErr) Build → Prop
  | .ok b, .ok b' => b.bundle = b'.bundle
  | .err es, .err es' => es.map (·.message) = es'.map (·.message)
  | .panic, .panic => True
  | _, _ => False

/-- `l'` is `l` without some of its flagging commands -/
inductive Unflagged : List Command → List Command → Prop
  | nil : Unflagged [] []
  | keep (c : Command) {l l' : List Command} : Unflagged l l' → Unflagged (c :: l) (c :: l')
  | drop (c : Command) {l l' : List Command} : Flagging c → Unflagged l l' → Unflagged (c :: l) l'

/-- REMOVE of an overlay -/
def RemovesOverlay (c : Command) : Prop := ∃ t cc, c = ⟨.remove, .overlay t cc⟩

/-! ## Proofs -/

/-- all messages -/
def messages (rs : List (Res (List Str) OCABox)) : List Str := rs.flatMap fun r => match r with
  | .err es => es
  | _ => []

theorem errorsFrom_texts (ast : OCAAst) (shift : Nat) (rs : List (Res (List Str) OCABox)) :
    ∀ i, (errorsFrom ast shift i rs).map (·.message) = messages rs := by
  induction rs with
  | nil => intro i; rfl
  | cons r rs ih =>
    intro i
    cases r <;> simp [errorsFrom, ih, List.map_map, Function.comp_def, messages]

theorem flagging_applies {E : Env} {o : Option OCABox} {c : Command} (h : Flagging c) : applyCommand E o c = .ok (o.getD OCABox.new) := by
  obtain ⟨vs, rfl⟩ := h
  rfl

theorem apply_getD {E : Env} {o o' : Option OCABox} (h : o.getD OCABox.new = o'.getD OCABox.new) (c : Command) :
    applyCommand E o c = applyCommand E o' c := by
  unfold applyCommand
  rw [h]

theorem after_getD {o o' : Option OCABox} (h : o.getD OCABox.new = o'.getD OCABox.new) (r : Res (List Str) OCABox) :
    (afterResult o r).getD OCABox.new = (afterResult o' r).getD OCABox.new := by
  cases r <;> first | rfl | exact h

theorem unflagged_results {E : Env} {l l' : List Command} (h : Unflagged l l') : ∀ o o' : Option OCABox, o.getD OCABox.new = o'.getD OCABox.new →
    (Res.panic ∈ results E o l ↔ Res.panic ∈ results E o' l') ∧
    ((∃ es, Res.err es ∈ results E o l) ↔ ∃ es, Res.err es ∈ results E o' l') ∧
    messages (results E o l) = messages (results E o' l') ∧
    (finalState E o l).getD OCABox.new = (finalState E o' l').getD OCABox.new := by
  induction h with
  | nil => intro o o' ho; exact ⟨Iff.rfl, Iff.rfl, rfl, ho⟩
  | keep c _ ih =>
    intro o o' ho
    obtain ⟨h1, h2, h3, h4⟩ := ih _ _ (after_getD (r := applyCommand E o c) ho)
    rw [results, results, finalState, finalState, ← apply_getD ho c]
    refine ⟨?_, ?_, ?_, h4⟩
    · rw [List.mem_cons, List.mem_cons, h1]
    · simp only [List.mem_cons, exists_or, h2]
    · simp only [messages, List.flatMap_cons] at h3 ⊢
      rw [h3]
  | drop c hc _ ih =>
    intro o o' ho
    rw [results, finalState, flagging_applies hc]
    obtain ⟨h1, h2, h3, h4⟩ := ih (some (o.getD OCABox.new)) o' ho
    refine ⟨?_, ?_, h3, h4⟩
    · rw [List.mem_cons]
      exact ⟨fun h => h.elim (fun h => by cases h) h1.1, fun h => .inr (h1.2 h)⟩
    · simp only [List.mem_cons, afterResult]
      exact ⟨fun ⟨es, h⟩ => h.elim (fun h => by cases h) fun h => h2.1 ⟨es, h⟩, fun h => let ⟨es, h⟩ := h2.2 h; ⟨es, .inr h⟩⟩

theorem final_some {E : Env} : ∀ (l : List Command) (o : Option OCABox), o ≠ none → finalState E o l ≠ none := by
  intro l
  induction l with
  | nil => intro o h; exact h
  | cons c l ih =>
    intro o h
    rw [finalState]
    refine ih _ ?_
    cases applyCommand E o c <;> first | exact h | exact nofun

theorem final_none {E : Env} {o : Option OCABox} {l : List Command} (hp : Res.panic ∉ results E o l) (he : ¬ ∃ es, Res.err es ∈ results E o l) :
    finalState E o l = none ↔ o = none ∧ l = [] := by
  cases l with
  | nil => simp [finalState]
  | cons c l =>
    rw [results] at hp he
    cases ha : applyCommand E o c with
    | panic => rw [ha] at hp; exact absurd (.head _) hp
    | err es => rw [ha] at he; exact absurd ⟨es, .head _⟩ he
    | ok x =>
      constructor
      · intro h
        rw [finalState, ha] at h
        exact absurd h (final_some l _ nofun)
      · rintro ⟨-, h⟩; cases h

/-- **C82** Naming flagged attributes has no effect: a build from the same base with any of the flagging commands left out ends the same way,
with the same bundle, the same messages, or an abort; as long as there is a base or a command is left. -/
theorem C82_flagging_ignored (E : Env) (Os Os' : Nat → Order) (base : Option Bundle) (ast ast' : OCAAst)
    (h : Unflagged ast.commands ast'.commands) (hne : base ≠ none ∨ ast'.commands ≠ [])
    (hO : Os ast.commands.length = Os' ast'.commands.length) : EndsAlike (fromAst E Os base ast) (fromAst E Os' base ast') := by
  cases hb : (baseOf E base : Res (List BuildErr) _) with
  | err e =>
    have : ∀ a Os, fromAst E Os base a = .err e := by intro a Os; unfold fromAst; rw [hb]; rfl
    rw [this, this]; exact rfl
  | panic =>
    have : ∀ a Os, fromAst E Os base a = .panic := by intro a Os; unfold fromAst; rw [hb]; rfl
    rw [this, this]; exact trivial
  | ok o =>
    obtain ⟨h1, h2, h3, h4⟩ := unflagged_results (E := E) h o o rfl
    obtain ⟨a1, a2, a3, a4⟩ := C12_build_outcome E Os base ast o hb
    obtain ⟨b1, b2, b3, b4⟩ := C12_build_outcome E Os' base ast' o hb
    by_cases hp : Res.panic ∈ results E o ast.commands
    · rw [a1 hp, b1 (h1.1 hp)]; trivial
    have hp' := fun x => hp (h1.2 x)
    by_cases he : ∃ es, Res.err es ∈ results E o ast.commands
    · rw [a2 hp he, b2 hp' (h2.1 he)]
      show (errorsFrom _ _ _ _).map (·.message) = (errorsFrom _ _ _ _).map (·.message)
      rw [errorsFrom_texts, errorsFrom_texts, h3]
    have he' := fun x => he (h2.2 x)
    have hn' : finalState E o ast'.commands ≠ none := by
      rw [Ne, final_none hp' he']
      rintro ⟨rfl, hl⟩
      rcases hne with hne | hne
      · cases base with
        | none => exact hne rfl
        | some B =>
          obtain ⟨x, -, hx⟩ := Res.bind_eq_ok.1 (show Res.bind _ _ = _ from hb)
          cases hx
      · exact hne hl
    have hn : finalState E o ast.commands ≠ none := by
      rw [Ne, final_none hp he]
      rintro ⟨rfl, hl⟩
      rw [hl] at h
      have : ast'.commands = [] := by generalize ast'.commands = q at h; cases h; rfl
      rw [this] at hn'
      exact hn' rfl
    obtain ⟨b, e⟩ := a4 hp he hn
    obtain ⟨b', e'⟩ := b4 hp' he' hn'
    rw [e, e']
    obtain ⟨o1, x, p1, -, p3, -, p5⟩ := fromAst_parts e
    obtain ⟨o2, x', q1, -, q3, -, q5⟩ := fromAst_parts e'
    rw [hb] at p1 q1; cases p1; cases q1
    rw [p3, q3] at h4
    have : x = x' := h4
    show b.bundle = b'.bundle
    rw [p5, q5, hO, this]

/-! ### No history flags anything -/

/-- no attribute is flagged -/
def Unmarked (b : OCABox) : Prop := AllAttrs (fun a => a.flagged = false) b.attributes

theorem putX_flagged (E : Env) (k : OvKind) (c : Content) (a : Attribute) (v : NVal) : (a.put E k c v).flagged = a.flagged := by
  unfold Attribute.put
  cases k <;> dsimp only <;> (repeat' split) <;> rfl

theorem unmarked_step {E : Env} {o : Option OCABox} {b' : OCABox} {c : Command} (h : Unmarked (o.getD OCABox.new))
    (ha : applyCommand E o c = .ok b') : Unmarked b' := by
  rw [apply_getD (o := o) (o' := some (o.getD OCABox.new)) rfl] at ha
  generalize o.getD OCABox.new = b at h ha
  obtain ⟨kind, obj⟩ := c
  cases obj with
  | ocaBundle r => cases kind <;> cases ha
  | captureBase cc =>
    cases kind with
    | add =>
      rw [applyAddBase] at ha
      cases ha
      intro n a hg
      rw [get_boxAdd] at hg
      split at hg
      · cases hg
        cases hb : b.attributes.get n with
        | none => rfl
        | some a0 => exact h n a0 hb
      · exact h n a hg
    | remove =>
      rw [applyRemoveBase] at ha
      cases ha
      intro n a hg
      rw [get_boxRemove] at hg
      split at hg
      · cases hg
      · exact h n a hg
    | «from» => cases ha
    | modify => cases ha
  | overlay t cc =>
    cases kind with
    | remove => cases ha
    | «from» => cases ha
    | modify => cases ha
    | add =>
      simp only [OCA.applyCommand, Option.getD_some] at ha
      by_cases hm : t.kind = .metaOv
      · rw [hm, applyOverlay_meta, applyMeta_ok_iff] at ha
        rcases ha with ⟨-, rfl⟩ | ⟨l, hl, rfl⟩
        · exact h
        · exact h
      · unfold applyOverlay at ha
        split at ha
        · rename_i e; exact absurd e hm
        · split at ha
          · cases ha; exact h
          · rename_i errs f hset
            obtain ⟨b1, h1, h2⟩ := Res.bind_eq_ok.mp ha
            have hb1 : Unmarked b1 := by
              refine foldRes_inv_mem Unmarked _ ?_ b b1 h h1
              intro b p hpm b' hb hs
              unfold ovAttrStep at hs
              split at hs
              · cases hs
              · rename_i a hga
                obtain ⟨a', hf, hs⟩ := Res.bind_eq_ok.mp hs
                cases hs
                unfold Unmarked
                rw [addAttribute_some _ _ _ _ hga, merge_setter E _ _ hset _ _ _ hf]
                intro n a2 hg
                simp only [FMap.get_insert] at hg
                split at hg
                · cases hg
                  rw [putX_flagged]
                  exact hb _ _ hga
                · exact hb n a2 hg
            split at h2
            · cases h2; exact hb1
            · cases h2

theorem unmarked_bundle {E : Env} {b : OCABox} (h : Unmarked b) (O : Order) : (bundleOf E O b).captureBase.flagged = [] := by
  cases hl : (bundleOf E O b).captureBase.flagged with
  | nil => rfl
  | cons n t =>
    have e2 : (bundleOf E O b).captureBase.flagged = flagsOf O b.attributes := rfl
    have hn : n ∈ flagsOf O b.attributes := by rw [← e2, hl]; exact .head _
    obtain ⟨a, h1, h2⟩ := mem_flagsOf.1 hn
    rw [h n a h1] at h2; cases h2

theorem unmarked_steps {E : Env} {Os : Nat → Order} (cs : List Command) : ∀ {i : Nat} {p : Option Said} {o : Option OCABox},
    Unmarked (o.getD OCABox.new) →
    (∀ st ∈ stepsFrom E Os i p o cs, st.result.captureBase.flagged = []) ∧ Unmarked ((finalState E o cs).getD OCABox.new) := by
  induction cs with
  | nil => intro i p o h; exact ⟨fun st h => (by cases h), h⟩
  | cons c cs ih =>
    intro i p o h
    unfold stepsFrom finalState
    cases ha : applyCommand E o c with
    | ok x =>
      have hx := unmarked_step h ha
      obtain ⟨i1, i2⟩ := ih (i := i + 1) (p := (bundleOf E (Os i) x).said) (o := some x) hx
      refine ⟨fun st hst => ?_, i2⟩
      rcases List.mem_cons.1 hst with rfl | hst
      · exact unmarked_bundle hx _
      · exact i1 st hst
    | err e => exact ih h
    | panic => exact ih h

theorem unmarked_loaded {ε : Type} {E : Env} {b : Bundle} {box : OCABox} (hb : b.captureBase.flagged = [])
    (h : (OCABox.ofBundle E b : Res ε _) = .ok box) : Unmarked box := by
  obtain ⟨-, h1, -⟩ := ofBundle_ok h
  intro n a ha
  rw [h1] at ha
  obtain ⟨a0, e0, rfl⟩ := Option.map_eq_some_iff.1 ha
  rw [(ty_loadAttrs E n _ _).2]
  rw [baseAttrs_get, hb] at e0
  obtain ⟨t, -, rfl⟩ := Option.map_eq_some_iff.1 e0
  rfl

/-- every bundle that a built facade finds is the result of one of its steps -/
theorem Facade.Built.found {E : Env} {S : Serde} {f : Facade} {l : List Build} (h : f.Built E S l) {s : Said} {B : Bundle}
    (hB : fetchBundle E S f.cache s = .ok B) : ∃ st ∈ stepsOf l, B.captureBase.flagged = sortStr st.result.captureBase.flagged := by
  obtain ⟨o, ho⟩ := f.cache.get_ok .bundlesJson s
  cases o with
  | none => unfold fetchBundle at hB; rw [ho] at hB; cases hB
  | some v =>
    obtain ⟨st, m1, m2, m3⟩ := h.bundle_record ho
    rw [m3] at ho
    obtain ⟨hr, -⟩ := h.ordered.1 st m1
    obtain ⟨B', f1, f2, -, f4⟩ := fetchBundle_eq E S f.cache _ s ho hr.result hr.types
    rw [f1] at hB
    cases hB
    exact ⟨st, m1, by rw [f4]⟩

theorem unmarked_validate {E : Env} {S : Serde} {Os : Nat → Order} {f f' : Facade} {l : List Build} (hf : f.Built E S l)
    (ih : ∀ st ∈ stepsOf l, st.result.captureBase.flagged = []) {ls : List Line} {b : Build} (hv : f.validate E S Os ls = .ok (f', b)) :
    b.bundle.captureBase.flagged = [] ∧ ∀ st ∈ b.steps, st.result.captureBase.flagged = [] := by
  obtain ⟨ast, base, ast', cs, -, h2, -, h4, -⟩ := validate_parts hv
  obtain ⟨o, box, e1, -, e3, e4, e5⟩ := fromAst_parts h4
  have ho : Unmarked (o.getD OCABox.new) := by
    cases base with
    | none => cases e1; intro n a h; cases h
    | some B =>
      obtain ⟨x, hx, e⟩ := Res.bind_eq_ok.1 (show Res.bind _ _ = _ from e1)
      cases e
      obtain ⟨s, hs⟩ := checkBase_parts h2
      obtain ⟨st, m1, m2⟩ := hf.found hs
      rw [ih st m1] at m2
      exact unmarked_loaded m2 hx
  obtain ⟨k1, k2⟩ := unmarked_steps (E := E) (Os := Os) cs (i := 0) (p := base.bind Bundle.said) ho
  rw [e4, e5]
  have e3 : finalState E o cs = some box := e3
  rw [e3] at k2
  exact ⟨unmarked_bundle k2 _, k1⟩

/-- **C82** Whatever files a repository has been given, with whatever names in them, no attribute is flagged in any bundle it has built, at any
step, and none in a bundle it finds. -/
theorem C82_never_flagged (E : Env) (S : Serde) (f : Facade) (l : List Build) (h : f.Built E S l) :
    (∀ b ∈ l, b.bundle.captureBase.flagged = [] ∧ ∀ st ∈ b.steps, st.result.captureBase.flagged = []) ∧
    ∀ s B, fetchBundle E S f.cache s = .ok B → B.captureBase.flagged = [] := by
  have hall : ∀ b ∈ l, b.bundle.captureBase.flagged = [] ∧ ∀ st ∈ b.steps, st.result.captureBase.flagged = [] := by
    induction h with
    | new => intro b hb; cases hb
    | validated _ _ ih => exact ih
    | @built f0 f1 f' l Os O ls B hf hv hc hb ih =>
      intro b hb
      rcases List.mem_append.1 hb with hb | hb
      · exact ih b hb
      · cases List.mem_singleton.1 hb
        refine unmarked_validate hf (fun st hst => ?_) hv
        obtain ⟨b', hb', hst⟩ := mem_stepsOf.1 hst
        exact (ih b' hb').2 st hst
  refine ⟨hall, fun s B hB => ?_⟩
  obtain ⟨st, m1, m2⟩ := h.found hB
  obtain ⟨b', hb', hst⟩ := mem_stepsOf.1 m1
  rw [m2, (hall b' hb').2 st hst]
  rfl

/-- **C82** The same for a text that is only checked or built from such a repository. -/
theorem C82_text_never_flags (E : Env) (U : Uni) (S : Serde) (Os : Nat → Order) (f f' : Facade) (l : List Build) (h : f.Built E S l) (s : Str)
    (b : Build) (hv : f.validateText E U S Os s = .ok (f', b)) :
    b.bundle.captureBase.flagged = [] ∧ ∀ st ∈ b.steps, st.result.captureBase.flagged = [] := by
  rcases C56_text_is_lines E U S Os f s with ⟨-, e, -⟩ | ⟨ls, -, -, e, -⟩
  · rw [hv] at e; cases e
  · refine unmarked_validate h (fun st hst => ?_) (e ▸ hv)
    obtain ⟨b', hb', hst⟩ := mem_stepsOf.1 hst
    exact ((C82_never_flagged E S f l h).1 b' hb').2 st hst

/-! ### What the parser keeps -/

/-- **C82** What a file can say about flags is one text: a command that names flagged attributes says nothing else, and has the whole list, as it
stands in the file, as one name. -/
theorem C82_one_text (E : Env) (U : Uni) (s : Str) (ast : OCAAst) (h : parseText E U s = .ok ast) (c : Command) (hc : c ∈ ast.commands)
    (cc : CaptureContent) (e : c.obj = .captureBase cc) (vs : List Str) (hv : cc.flagged = some vs) :
    ∃ v, c = ⟨.add, .captureBase ⟨none, none, some [v]⟩⟩ ∧ vs = [v] := by
  have hf := C52_commands_of_text E U s ast h c hc
  cases hf <;> cases e <;> cases hv
  exact ⟨_, rfl, rfl⟩

/-- **C82** REMOVE META and REMOVE LABEL forget what they were to remove: the commands read are always the same two, without a language and
without names. -/
theorem C82_remove_forgets (E : Env) (U : Uni) (s : Str) (ast : OCAAst) (h : parseText E U s = .ok ast) (c : Command) (hc : c ∈ ast.commands)
    (hr : RemovesOverlay c) :
    c = ⟨.remove, .overlay ⟨.metaOv, c!"1.1"⟩ ⟨none, some []⟩⟩ ∨ c = ⟨.remove, .overlay ⟨.label, c!"1.1"⟩ ⟨some [], some []⟩⟩ := by
  obtain ⟨t, cc, rfl⟩ := hr
  have hf := C52_commands_of_text E U s ast h _ hc
  generalize hx : (⟨.remove, .overlay t cc⟩ : Command) = c at hf
  cases hf <;> cases hx
  · exact .inl rfl
  · exact .inr rfl

/-- **C82** Building a list of commands with such a command aborts, on any base and whatever else is in the list. -/
theorem C82_remove_aborts (E : Env) (Os : Nat → Order) (base : Option Bundle) (ast : OCAAst) (c : Command) (hc : c ∈ ast.commands)
    (hr : RemovesOverlay c) : fromAst E Os base ast = .panic := by
  cases hb : (baseOf E base : Res (List BuildErr) _) with
  | panic => unfold fromAst; rw [hb]; rfl
  | err e =>
    cases base with
    | none => cases hb
    | some B =>
      rcases bind_err_cases (show Res.bind _ _ = _ from hb) with h | ⟨x, -, h⟩
      · exact absurd h ((C79_load_aborts_iff E B).2 e)
      · cases h
  | ok o =>
    refine (C12_build_outcome E Os base ast o hb).1 (mem_results.2 ?_)
    obtain ⟨pre, post, e⟩ := List.append_of_mem hc
    obtain ⟨t, cc, rfl⟩ := hr
    exact ⟨pre, _, post, e, rfl⟩

/-- **C82** So no file with a REMOVE META or REMOVE LABEL is ever checked successfully, let alone built, in any repository. -/
theorem C82_remove_never_built (E : Env) (U : Uni) (S : Serde) (Os : Nat → Order) (f : Facade) (s : Str) (ast : OCAAst)
    (h : parseText E U s = .ok ast) (c : Command) (hc : c ∈ ast.commands) (hr : RemovesOverlay c) (x : Facade × Build) :
    f.validateText E U S Os s ≠ .ok x := by
  intro hv
  obtain ⟨f', b⟩ := x
  rcases C56_text_is_lines E U S Os f s with ⟨-, e, -⟩ | ⟨ls, -, hpl, e, -⟩
  · rw [hv] at e; cases e
  rw [hv] at e
  obtain ⟨ast1, base, ast2, cs, e1, e2, e3, e4, -⟩ := validate_parts e.symm
  have : ast1 = ast := by
    have : (.ok ast1 : Res ParseErr OCAAst) = .ok ast := by rw [← e1, ← hpl]; exact h
    exact Res.ok.inj this
  subst this
  obtain ⟨t, cc, rfl⟩ := hr
  have hin : (⟨.remove, .overlay t cc⟩ : Command) ∈ ast2.commands := by
    unfold checkBase at e2
    split at e2
    · next r tl hcs =>
      rw [hcs] at hc
      have hc2 := (List.mem_cons.1 hc).resolve_left (by intro h; cases h)
      split at e2
      · split at e2
        · cases e2; exact hc2
        · cases e2; exact hc2
        · cases e2
      · cases e2
    · cases e2; exact hc
  obtain ⟨c', hc', hd⟩ := (derefCommands_all _ e3).left _ hin
  cases hd
  rw [C82_remove_aborts E Os base { ast2 with commands := cs } _ hc' ⟨t, cc, rfl⟩] at e4
  cases e4

/-! ### Non-vacuity -/

/-- a file that flags two attributes -/
def flagText : Str := c!"ADD ATTRIBUTE a=Text b=Numeric\nADD FLAGGED_ATTRIBUTES a b\nADD LABEL en ATTRS a=\"A\"\n"
/-- the same without -/
def noFlagText : Str := c!"ADD ATTRIBUTE a=Text b=Numeric\nADD LABEL en ATTRS a=\"A\"\n"

/-- build a text in an empty repository -/
def flagRun (s : Str) : Option (Facade × Build × Facade) :=
  match Facade.new.validateText Env.words Uni.ascii Serde.text (fun _ => Order.sorted) s with
  | .ok (f1, b) => match (f1.build Env.words Serde.text .kept b : Res (List VErr) _) with
    | .ok f2 => some (f1, b, f2)
    | _ => none
  | _ => none

/-- the names that a command flags, when it does nothing else -/
def flagNames : Command → Option (List Str)
  | ⟨.add, .captureBase ⟨none, none, some vs⟩⟩ => some vs
  | _ => none

theorem flagNames_some {c : Command} {vs : List Str} (h : flagNames c = some vs) : c = ⟨.add, .captureBase ⟨none, none, some vs⟩⟩ := by
  unfold flagNames at h
  split at h
  · cases h; rfl
  · cases h

/-- what the build of the text is asked -/
def flagCheck (s : Str) : Bool := match flagRun s with
  | some (_, b, _) => b.steps.all (fun st => keepB Env.words st.command) && (b.steps.map fun st => flagNames st.command) == [none, some [c!"a b"], none]
  | none => false

/-- commands of a text -/
def removesB (s : Str) : Bool := match parseText Env.words Uni.ascii s with
  | .ok ast => ast.commands.any fun c => match c with
    | ⟨.remove, .overlay _ _⟩ => true
    | _ => false
  | _ => false

set_option maxRecDepth 20000 in
/-- **C82** is not vacuous: a repository that was given a file flagging `a` and `b`, which the parser reads as the one name "a b"; commands one of
which is dropped; files with REMOVE META and REMOVE LABEL that are read. -/
theorem C82_example :
    (∃ (f : Facade) (b : Build), f.Built Env.words Serde.text [b] ∧ ∃ st ∈ b.steps, st.command = ⟨.add, .captureBase ⟨none, none, some [c!"a b"]⟩⟩) ∧
    (∃ (cs cs' : List Command), Unflagged cs cs' ∧ cs ≠ cs' ∧ cs' ≠ []) ∧
    (∃ (ast : OCAAst) (c : Command), parseText Env.words Uni.ascii c!"ADD ATTRIBUTE a=Text\nADD META en PROPS name=\"x\"\nREMOVE META en PROPS name\n" = .ok ast ∧
      c ∈ ast.commands ∧ RemovesOverlay c) ∧
    ∃ (ast : OCAAst) (c : Command), parseText Env.words Uni.ascii c!"ADD ATTRIBUTE a=Text\nREMOVE LABEL en\n" = .ok ast ∧
      c ∈ ast.commands ∧ RemovesOverlay c := by
  have hrem : ∀ s, removesB s = true → ∃ (ast : OCAAst) (c : Command), parseText Env.words Uni.ascii s = .ok ast ∧ c ∈ ast.commands ∧ RemovesOverlay c := by
    intro s h
    unfold removesB at h
    split at h
    · next ast he =>
      obtain ⟨c, hc, hm⟩ := List.any_eq_true.1 h
      refine ⟨ast, c, he, hc, ?_⟩
      split at hm
      · exact ⟨_, _, rfl⟩
      · cases hm
    · cases h
  refine ⟨?_, ⟨[⟨.add, .captureBase ⟨none, none, some [c!"a"]⟩⟩, ⟨.add, .captureBase ⟨some [], none, none⟩⟩], [⟨.add, .captureBase ⟨some [], none, none⟩⟩],
    .drop _ ⟨_, rfl⟩ (.keep _ .nil), (fun h => by cases h), nofun⟩, hrem _ (by decide +kernel), hrem _ (by decide +kernel)⟩
  have hc : flagCheck flagText = true := by decide +kernel
  unfold flagCheck at hc
  split at hc
  · next f1 b f2 hr =>
    unfold flagRun at hr
    split at hr
    · next f1' b' hv =>
      split at hr
      · next f2' hb =>
        cases hr
        obtain ⟨h1, h2⟩ := Bool.and_eq_true_iff.1 hc
        refine ⟨_, _, (Facade.TextBuilt.built .new (by decide) hv (fun st hst => keepB_sound (List.all_eq_true.1 h1 st hst)) hb).builds, ?_⟩
        have h2 : b.steps.map (fun st => flagNames st.command) = [none, some [c!"a b"], none] := by simpa using h2
        have hm : some [c!"a b"] ∈ b.steps.map (fun st => flagNames st.command) := by rw [h2]; simp
        obtain ⟨st, hst, e⟩ := List.mem_map.1 hm
        exact ⟨st, hst, flagNames_some e⟩
      · cases hr
    · cases hr
  · cases hc

end OCA
