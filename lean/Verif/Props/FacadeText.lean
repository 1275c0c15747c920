import Verif.Props.FileDispatch
import Verif.Props.ParsedText
import Verif.Props.Files
import Verif.Props.StoreTotal
/-!
# C56: the entry points that take the text of a file

`build_from_ocafile` (the free function and the method of the facade) and `validate_ocafile`.
-/
namespace OCA

/-- **C56** A transformation file is refused by every entry point that builds, as deprecated. -/
theorem C56_transformation_refused (E : Env) (U : Uni) (S : Serde) (Os : Nat → Order) (O : SetOrder) (f : Facade) (s : Str)
    (t : TAst) (h : parseFile E U s = .ok (.transformation t)) :
    buildText E U Os s = .err .deprecated ∧ f.buildFromText E U S Os O s = .err .deprecated ∧
    f.buildFromTextPlain E U S Os O s = .err .deprecated := by
  simp [buildText, Facade.buildFromText, Facade.buildFromTextPlain, h, Res.mapErr]

/-- **C56** In terms of the text: comments, blank and command lines, the last `precompiler` line says `transformation`, and the
transformation parser reads it. -/
theorem C56_transformation_text (E : Env) (U : Uni) (S : Serde) (Os : Nat → Order) (O : SetOrder) (f : Facade) (ps : List FilePart)
    (hp : ∀ p ∈ ps, p.Ok U) (hm : lastMeta c!"precompiler" ps = some c!"transformation") (t : TAst)
    (ht : parseTransformation U (ps.flatMap FilePart.render) = .ok t) :
    buildText E U Os (ps.flatMap FilePart.render) = .err .deprecated ∧
    f.buildFromText E U S Os O (ps.flatMap FilePart.render) = .err .deprecated ∧
    f.buildFromTextPlain E U S Os O (ps.flatMap FilePart.render) = .err .deprecated := by
  refine C56_transformation_refused E U S Os O f _ t ?_
  rw [(C45_dispatch E U ps hp _ rfl).1 hm, asTransformation, ht]

/-- what the file parser reads as semantics is what the semantics parser reads -/
theorem parseFile_semantics {E : Env} {U : Uni} {s : Str} {a : OCAAst} (h : parseFile E U s = .ok (.semantics a)) :
    parseText E U s = .ok a := by
  rcases C45_outcomes E U s with e | e | ⟨x, e⟩
  · rw [h, asSemantics] at e
    cases hp : parseText E U s with
    | ok b => rw [hp] at e; cases e; rfl
    | err _ => rw [hp] at e; cases e
    | panic => rw [hp] at e; cases e
  · rw [h, asTransformation] at e
    cases hp : parseTransformation U s with
    | ok b => rw [hp] at e; cases e
    | err _ => rw [hp] at e; cases e
    | panic => rw [hp] at e; cases e
  · rw [h] at e; cases e

/-- **C56** Every text is either refused by the grammar, or validating it is validating its lines; so everything proved of lists of
lines holds for texts. -/
theorem C56_text_is_lines (E : Env) (U : Uni) (S : Serde) (Os : Nat → Order) (f : Facade) (s : Str) :
    (parseText E U s = .err .grammar ∧ f.validateText E U S Os s = .err [.parse .grammar] ∧
      f.validateTextPlain E U S Os s = .err [.parse .grammar]) ∨
    ∃ ls : List Line, (∀ l ∈ ls, FileLine E U s l) ∧ parseText E U s = parseLines ls ∧
      f.validateText E U S Os s = f.validate E S Os ls ∧ f.validateTextPlain E U S Os s = f.validatePlain E S Os ls := by
  rcases parseText_lines E U s with h | ⟨ls, h1, h2⟩
  · refine .inl ⟨h, ?_, ?_⟩
    · unfold Facade.validateText; rw [h]; rfl
    · unfold Facade.validateTextPlain; rw [h]; rfl
  · refine .inr ⟨ls, h2, h1, ?_, ?_⟩
    · unfold Facade.validateText Facade.validate; rw [h1]
    · unfold Facade.validateTextPlain Facade.validatePlain; rw [h1]

/-- The facades that validating and building texts leads to. -/
inductive Facade.TextRuns (E : Env) (U : Uni) (S : Serde) : Facade → Prop
  | new : TextRuns E U S Facade.new
  | validated {f f' : Facade} {Os : Nat → Order} {s : Str} {b : Build} :
      TextRuns E U S f → f.validateText E U S Os s = .ok (f', b) → TextRuns E U S f'
  | built {f f1 f' : Facade} {Os : Nat → Order} {O : SetOrder} {s : Str} {b : Build} :
      TextRuns E U S f → f.validateText E U S Os s = .ok (f1, b) → (∀ st ∈ b.steps, st.command.Keepable E) →
      (f1.build E S O b : Res (List VErr) _) = .ok f' → TextRuns E U S f'

theorem Facade.TextRuns.runs {E : Env} {U : Uni} {S : Serde} {f : Facade} (h : Facade.TextRuns E U S f) : Facade.Runs E S f := by
  have key : ∀ {f : Facade} {Os : Nat → Order} {s : Str} {x : Facade × Build}, f.validateText E U S Os s = .ok x →
      ∃ ls, f.validate E S Os ls = .ok x := by
    intro f Os s x h
    rcases C56_text_is_lines E U S Os f s with ⟨-, e, -⟩ | ⟨ls, -, -, e, -⟩
    · rw [h] at e; cases e
    · exact ⟨ls, by rw [← e]; exact h⟩
  induction h with
  | new => exact .new
  | validated _ hv ih => obtain ⟨ls, e⟩ := key hv; exact .validated ih e
  | built _ hv hc hb ih => obtain ⟨ls, e⟩ := key hv; exact .built ih e hc hb

/-- the first command is `FROM` -/
def OCAAst.startsWithFrom (a : OCAAst) : Prop := ∃ r t, a.commands = ⟨.«from», .ocaBundle r⟩ :: t

theorem checkBase_none {ε : Type} {E : Env} {S : Serde} {cache : Store} {a : OCAAst} (h : ¬ a.startsWithFrom) :
    (checkBase E S cache a : Res ε _) = .ok (none, a) := by
  unfold checkBase
  split
  · next r t e => exact absurd ⟨_, _, e⟩ h
  · rfl

/-- what a build gives back -/
def builtBundle : Res FacadeErr (Facade × Bundle) → Res FacadeErr Bundle
  | .ok x => .ok x.2
  | .err e => .err e
  | .panic => .panic

/-- **C56** For a text without `FROM` the facade builds the same bundle as the free function, whatever files were validated and
built on it before; it reports the same errors, and aborts exactly when the function aborts. -/
theorem C56_facade_as_function (E : Env) (hE : E.ShortSaids) (U : Uni) (S : Serde) (Os : Nat → Order) (O : SetOrder) (f : Facade)
    (hf : f.AnyRuns E S) (s : Str) (hn : ∀ a, parseText E U s = .ok a → ¬ a.startsWithFrom) :
    builtBundle (f.buildFromTextPlain E U S Os O s) = buildText E U Os s := by
  unfold Facade.buildFromTextPlain buildText
  cases hp : parseFile E U s with
  | err e => rfl
  | panic => rfl
  | ok x =>
    cases x with
    | transformation t => rfl
    | semantics a =>
      have ha := parseFile_semantics hp
      have hb0 : (checkBase E S f.cache a : Res (List VErr) _) = .ok (none, a) := checkBase_none (hn a ha)
      have hv : f.validateTextPlain E U S Os s = (fromAst E Os none a).mapErr fun es => es.map VErr.build := by
        unfold Facade.validateTextPlain
        rw [ha]
        show Res.bind (checkBase E S f.cache a) _ = _
        rw [hb0]
        rfl
      dsimp only [Res.mapErr]
      rw [hv]
      cases hfa : fromAst E Os none a with
      | panic => rfl
      | err e => rfl
      | ok b =>
        obtain ⟨f', e, -⟩ := build_of_ast (ε := FacadeErr) hE S O (hf.good hE) hb0 hfa
        dsimp only [Res.mapErr]
        rw [e]
        rfl

/-- no state accepts `FROM` -/
theorem results_from {E : Env} {cs : List Command} (h : ∃ c ∈ cs, c.kind = .«from») : ∀ b : Option OCABox,
    ∃ r ∈ results E b cs, r.isOk = false := by
  obtain ⟨c, hc, hk⟩ := h
  induction cs with
  | nil => cases hc
  | cons d t ih =>
    intro b
    rcases List.mem_cons.1 hc with rfl | hc
    · refine ⟨_, List.mem_cons_self .., ?_⟩
      obtain ⟨k, o⟩ := c
      cases hk
      cases b <;> cases o <;> rfl
    · obtain ⟨r, hr, e⟩ := ih hc (afterResult b (applyCommand E b d))
      exact ⟨r, List.mem_cons_of_mem _ hr, e⟩

theorem fromAst_from {E : Env} {Os : Nat → Order} {base : Option Bundle} {a : OCAAst} (h : ∃ c ∈ a.commands, c.kind = .«from») (b : Build) :
    fromAst E Os base a ≠ .ok b := by
  intro hb
  obtain ⟨x, box, -, -, h3, -⟩ := fromAst_steps hb
  obtain ⟨r, hr, e⟩ := results_from h x
  rw [h3 r hr] at e
  cases e

/-- **C56** The free function builds no file with a `FROM`; the facade builds none in which a `FROM` is not the first command. -/
theorem C56_from_only_first (E : Env) (U : Uni) (S : Serde) (Os : Nat → Order) (O : SetOrder) (s : Str) (a : OCAAst)
    (ha : parseText E U s = .ok a) :
    ((∃ c ∈ a.commands, c.kind = .«from») → ∀ b, buildText E U Os s ≠ .ok b) ∧
    ((∃ c ∈ a.commands.tail, c.kind = .«from») → ∀ (f : Facade) x, f.buildFromTextPlain E U S Os O s ≠ .ok x) := by
  refine ⟨fun h b hb => ?_, fun h f x hx => ?_⟩
  · unfold buildText at hb
    cases hp : parseFile E U s with
    | err e => rw [hp] at hb; cases hb
    | panic => rw [hp] at hb; cases hb
    | ok y =>
      cases y with
      | transformation t => rw [hp] at hb; cases hb
      | semantics a' =>
        have := parseFile_semantics hp
        rw [ha] at this
        cases this
        rw [hp] at hb
        cases hfa : fromAst E Os none a with
        | ok b' => exact fromAst_from h b' hfa
        | err e => dsimp only [Res.mapErr] at hb; rw [hfa] at hb; cases hb
        | panic => dsimp only [Res.mapErr] at hb; rw [hfa] at hb; cases hb
  · unfold Facade.buildFromTextPlain at hx
    cases hv : f.validateTextPlain E U S Os s with
    | ok b =>
      unfold Facade.validateTextPlain at hv
      rw [ha] at hv
      obtain ⟨⟨base, a'⟩, hb, hv⟩ := Res.bind_eq_ok.1 (show Res.bind (checkBase E S f.cache a) _ = _ from hv)
      refine fromAst_from ?_ b (mapErr_eq_ok hv)
      obtain ⟨c, hc, hk⟩ := h
      refine ⟨c, ?_, hk⟩
      show c ∈ a'.commands
      unfold checkBase at hb
      split at hb
      · next r t e =>
        rw [e] at hc
        split at hb
        · split at hb
          · cases hb; exact hc
          · cases hb; exact hc
          · cases hb
        · cases hb
      · cases hb; exact List.mem_of_mem_tail hc
    | err e => rw [hv] at hx; cases hp : parseFile E U s with
      | ok y => rw [hp] at hx; cases y <;> cases hx
      | err _ => rw [hp] at hx; cases hx
      | panic => rw [hp] at hx; cases hx
    | panic => rw [hv] at hx; cases hp : parseFile E U s with
      | ok y => rw [hp] at hx; cases y <;> cases hx
      | err _ => rw [hp] at hx; cases hx
      | panic => rw [hp] at hx; cases hx

/-! ## Concrete cases -/

/-- how a build of a text ends -/
def textFate (s : Str) : Option (Except FacadeErr Nat) :=
  match buildText Env.short Uni.ascii (fun _ => Order.sorted) s with
  | .ok b => some (.ok b.overlays.length)
  | .err e => some (.error e)
  | .panic => none

/-- a text built by both, a transformation, and a file with `FROM` -/
theorem C56_examples :
    (match textFate c!"ADD ATTRIBUTE a=Text\nADD LABEL en ATTRS a=\"A\"\n" with | some (.ok n) => n == 1 | _ => false) = true ∧
    (match textFate c!"-- precompiler=transformation\nRENAME ATTRIBUTE a=b\n" with | some (.error e) => e == .deprecated | _ => false) = true ∧
    (match textFate c!"FROM Eabc\nADD ATTRIBUTE a=Text\n" with | some (.error _) => true | _ => false) = true := by
  decide +kernel

end OCA
