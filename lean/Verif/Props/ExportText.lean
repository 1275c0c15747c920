import Verif.Props.HistoryText
import Verif.Props.Replay
/-!
# C51, C56, C57: files of bundles, external references, files of histories over several files
-/
namespace OCA
open Peg Gr

/-! ## When printing aborts -/

/-- What `generate_from_ast` cannot write (specification): MODIFY, REMOVE of an overlay, and attribute types that name another
file. -/
def Unprintable (c : Command) : Prop :=
  match c.kind, c.obj with
  | .modify, _ => True
  | .remove, .overlay _ _ => True
  | .add, .captureBase cc => ∃ p ∈ cc.attributes.getD [], HasName p.2
  | _, _ => False

theorem attrType_any (t : NAttr) : (HasName t ∧ ∀ ε, (Pr.attrType t : Res ε Str) = .panic) ∨
    (¬ HasName t ∧ ∃ s, ∀ ε, (Pr.attrType t : Res ε Str) = .ok s) := by
  induction t with
  | ref r =>
    cases r with
    | said s => exact .inr ⟨id, _, fun ε => rfl⟩
    | name n => exact .inl ⟨trivial, fun ε => rfl⟩
  | val v => exact .inr ⟨id, _, fun ε => rfl⟩
  | null => exact .inr ⟨id, _, fun ε => rfl⟩
  | arr a ih =>
    rcases ih with ⟨h1, h2⟩ | ⟨h1, s, h2⟩
    · exact .inl ⟨h1, fun ε => by rw [Pr.attrType, h2]⟩
    · exact .inr ⟨h1, _, fun ε => by rw [Pr.attrType, h2]⟩

theorem attrTypes_any (l : List (Str × NAttr)) : ((∃ p ∈ l, HasName p.2) ∧ ∀ ε, (Pr.attrTypes l : Res ε Str) = .panic) ∨
    (¬ (∃ p ∈ l, HasName p.2) ∧ ∃ s, ∀ ε, (Pr.attrTypes l : Res ε Str) = .ok s) := by
  induction l with
  | nil => exact .inr ⟨(by rintro ⟨_, h, _⟩; cases h), [], fun ε => rfl⟩
  | cons p t ih =>
    obtain ⟨k, a⟩ := p
    rcases attrType_any a with ⟨h1, h2⟩ | ⟨h1, s, h2⟩
    · exact .inl ⟨⟨_, .head _, h1⟩, fun ε => by rw [Pr.attrTypes, h2]⟩
    · rcases ih with ⟨⟨q, hq, g1⟩, g2⟩ | ⟨g1, r, g2⟩
      · exact .inl ⟨⟨q, .tail _ hq, g1⟩, fun ε => by rw [Pr.attrTypes, h2]; dsimp only; rw [g2]⟩
      · refine .inr ⟨?_, _, fun ε => by rw [Pr.attrTypes, h2]; dsimp only; rw [g2]⟩
        rintro ⟨q, hq, hn⟩
        rcases List.mem_cons.1 hq with rfl | hq
        · exact h1 hn
        · exact g1 ⟨q, hq, hn⟩

theorem command_any (c : Command) : (Unprintable c ∧ ∀ ε, (Pr.command c : Res ε Str) = .panic) ∨
    (¬ Unprintable c ∧ ∃ s, ∀ ε, (Pr.command c : Res ε Str) = .ok s) := by
  obtain ⟨k, o⟩ := c
  cases k with
  | modify => exact .inl ⟨trivial, fun ε => rfl⟩
  | «from» => exact .inr ⟨id, _, fun ε => rfl⟩
  | remove =>
    cases o with
    | captureBase cc => exact .inr ⟨id, _, fun ε => rfl⟩
    | overlay t cc => exact .inl ⟨trivial, fun ε => rfl⟩
    | ocaBundle r => exact .inr ⟨id, _, fun ε => rfl⟩
  | add =>
    cases o with
    | overlay t cc => exact .inr ⟨id, _, fun ε => rfl⟩
    | ocaBundle r => exact .inr ⟨id, _, fun ε => rfl⟩
    | captureBase cc =>
      obtain ⟨as, ps, fl⟩ := cc
      cases as with
      | none => exact .inr ⟨(by rintro ⟨_, h, _⟩; cases h), _, fun ε => rfl⟩
      | some as =>
        rcases attrTypes_any as with ⟨h1, h2⟩ | ⟨h1, s, h2⟩
        · exact .inl ⟨h1, fun ε => by simp only [Pr.command, Pr.addBase, h2]⟩
        · exact .inr ⟨h1, _, fun ε => by simp only [Pr.command, Pr.addBase, h2]; rfl⟩

/-- **C51** For every AST: the text comes out, or printing aborts, and it aborts exactly for a MODIFY, a REMOVE of an overlay or an attribute
whose type names another file. There is no third outcome. -/
theorem C51_print_aborts_iff (ast : OCAAst) :
    ((∃ c ∈ ast.commands, Unprintable c) ∧ ∀ ε, (printAst ast : Res ε Str) = .panic) ∨
    (¬ (∃ c ∈ ast.commands, Unprintable c) ∧ ∃ text, ∀ ε, (printAst ast : Res ε Str) = .ok text) := by
  obtain ⟨v, cs, m, mm⟩ := ast
  show ((∃ c ∈ cs, _) ∧ ∀ ε, (Pr.commands cs : Res ε Str) = .panic) ∨ (¬ (∃ c ∈ cs, _) ∧ ∃ s, ∀ ε, (Pr.commands cs : Res ε Str) = .ok s)
  induction cs with
  | nil => exact .inr ⟨(by rintro ⟨_, h, _⟩; cases h), [], fun ε => rfl⟩
  | cons c t ih =>
    rcases command_any c with ⟨h1, h2⟩ | ⟨h1, s, h2⟩
    · exact .inl ⟨⟨_, .head _, h1⟩, fun ε => by rw [Pr.commands, h2]⟩
    · rcases ih with ⟨⟨q, hq, g1⟩, g2⟩ | ⟨g1, r, g2⟩
      · exact .inl ⟨⟨q, .tail _ hq, g1⟩, fun ε => by rw [Pr.commands, h2]; dsimp only; rw [g2]⟩
      · refine .inr ⟨?_, _, fun ε => by rw [Pr.commands, h2]; dsimp only; rw [g2]⟩
        rintro ⟨q, hq, hn⟩
        rcases List.mem_cons.1 hq with rfl | hq
        · exact h1 hn
        · exact g1 ⟨q, hq, hn⟩

/-- both outcomes occur -/
example : (∃ c ∈ [(⟨.remove, .overlay ⟨.label, c!"1.1"⟩ ⟨none, some [(c!"lang", .val c!"en")]⟩⟩ : Command)], Unprintable c) ∧ ¬ ∃ c ∈ demoCommands, Unprintable c :=
  ⟨⟨_, .head _, trivial⟩, by
    rintro ⟨c, hc, h⟩
    rcases C51_print_aborts_iff (astOf demoCommands) with ⟨-, g⟩ | ⟨g, -⟩
    · have : (match (printAst (astOf demoCommands) : Res Unit Str) with | .ok _ => true | _ => false) = true := by decide +kernel
      rw [g] at this; cases this
    · exact g ⟨c, hc, h⟩⟩

/-- the text does not depend on the type of errors around it -/
theorem printAst_ok_any {ε : Type} {ast : OCAAst} {text : Str} (h : (printAst ast : Res ε Str) = .ok text) (ε' : Type) :
    (printAst ast : Res ε' Str) = .ok text := by
  rcases C51_print_aborts_iff ast with ⟨-, g⟩ | ⟨-, t, g⟩
  · rw [g] at h; cases h
  · rw [g] at h; cases h; exact g ε'

/-! ## The file of a bundle -/

/-- **C51** `parse_oca_bundle_to_ocafile`: the file of a bundle built from nothing is a text that parses, and building that gives the
bundle's capture base and all its overlays but links and framings. -/
theorem C51_file_of_bundle {ε : Type} (E : Env) (U : Uni) (iso : ∀ l s, E.lang1Inv l = some s → IsLang s) (O : Order) (box : OCABox)
    (hr : FromScratch E box) (b : Bundle) (h : (generateBundle E O box : Res ε _) = .ok b) (hw : b.Writable E U) (O' : Order) :
    ∃ text out, b.toFile E O' = .ok text ∧ parseText E U text = .ok out ∧
      ∀ Os, ∃ build, fromAst E Os none out = .ok build ∧ build.bundle.captureBase = b.captureBase ∧
        build.bundle.overlays.Perm (b.overlays.filter fun o => o.body.spoken) := by
  obtain ⟨ast, text, out, h1, h2, h3, h4⟩ := C51_export_rebuilds (ε' := List Str) E U iso O box hr b h hw O'
  refine ⟨text, out, ?_, h3, h4⟩
  show Res.bind (b.toAst E O') _ = _
  rw [h1]
  exact printAst_ok_any h2 _

/-- **C51** … and when the bundle has nothing that an OCA file cannot express, it is the same bundle: same identifier, same JSON (or two of
its overlays have the same identifier). -/
theorem C51_file_same_bundle {ε : Type} (E : Env) (U : Uni) (iso : ∀ l s, E.lang1Inv l = some s → IsLang s) (O : Order) (box : OCABox)
    (hr : Reachable E box) (b : Bundle) (h : (generateBundle E O box : Res ε _) = .ok b) (hx : b.Expressible E) (hw : b.Writable E U) (O' : Order) :
    ∃ text out, b.toFile E O' = .ok text ∧ parseText E U text = .ok out ∧
      ∀ Os, ∃ build, fromAst E Os none out = .ok build ∧
        ((build.bundle.said = b.said ∧ build.bundle.toJson E = b.toJson E) ∨
          ∃ o ∈ b.overlays, ∃ o' ∈ b.overlays, o ≠ o' ∧ o.said = o'.said) := by
  obtain ⟨ast, text, out, h1, h2, h3, h4⟩ := C51_export_same_bundle (ε' := List Str) E U iso O box hr b h hx hw O'
  refine ⟨text, out, ?_, h3, h4⟩
  show Res.bind (b.toAst E O') _ = _
  rw [h1]
  exact printAst_ok_any h2 _

theorem replaceFrame_prefix {k : Str} (h : IsMetaKey k) : Pr.replaceFrame (c!"frame_" ++ k) = k := by
  rcases h with rfl | rfl | rfl | rfl <;> decide

/-- **C51** The names a bundle stores the metadata of a frame under (`frame_id`, `frame_label`, …) are written like the names of the
OCA file (`id`, `label`, …). -/
theorem C51_frame_names {ε : Type} (t : OverlayType) (ht : t.kind = .attributeFraming) (as : Option (List (Str × NVal)))
    (ps : List (Str × NVal)) (hk : ∀ p ∈ ps, IsMetaKey p.1) :
    (printAst (astOf [⟨.add, .overlay t ⟨as, some (ps.map fun p => (c!"frame_" ++ p.1, p.2))⟩⟩]) : Res ε Str) =
      printAst (astOf [⟨.add, .overlay t ⟨as, some ps⟩⟩]) := by
  have e : Pr.framingProps (ps.map fun p => (c!"frame_" ++ p.1, p.2)) = Pr.framingProps ps := by
    induction ps with
    | nil => rfl
    | cons p l ih =>
      have := ih fun q hq => hk q (.tail _ hq)
      simp only [Pr.framingProps, List.map_cons, List.flatMap_cons] at this ⊢
      rw [this]
      rw [replaceFrame_prefix (hk p (.head _)), replaceFrame_metaKey (hk p (.head _))]
  simp only [printAst, astOf, Pr.commands, Pr.command, ht, Pr.overlayText, Pr.onSome, e]

/-! ## References kept outside the facade -/

/-- **C56** Validating a text with references kept elsewhere gives what a facade with those references gives: the same build, the same
errors, and the references it would then have. The facade itself is not written to (it is not returned). -/
theorem C56_external_references (E : Env) (U : Uni) (S : Serde) (Os : Nat → Order) (f : Facade) (refs : Store) (s : Str) :
    f.validateTextExternal E U S Os refs s =
      match ({ f with db := refs } : Facade).validateText E U S Os s with
      | .ok (g, b) => .ok (g.db, b)
      | .err e => .err e
      | .panic => .panic := by
  unfold Facade.validateTextExternal Facade.validateText
  cases h1 : (parseText E U s).mapErr fun e => [VErr.parse e] with
  | err e => rfl
  | panic => rfl
  | ok ast =>
    simp only [Res.bind_ok]
    cases h2 : (checkBase E S f.cache ast : Res (List VErr) _) with
    | err e => rfl
    | panic => rfl
    | ok p =>
      obtain ⟨base, ast'⟩ := p
      simp only [Res.bind_ok]
      cases h3 : buildWithRefs E Os refs base ast' with
      | err e => rfl
      | panic => rfl
      | ok q => rfl

/-! ## Histories over several files -/

/-- The facades that building texts without backslashes leads to, with the builds. -/
inductive Facade.TextBuilt (E : Env) (U : Uni) (S : Serde) : Facade → List Build → Prop
  | new : TextBuilt E U S Facade.new []
  | validated {f f' : Facade} {l : List Build} {Os : Nat → Order} {s : Str} {b : Build} :
      TextBuilt E U S f l → f.validateText E U S Os s = .ok (f', b) → TextBuilt E U S f' l
  | built {f f1 f' : Facade} {l : List Build} {Os : Nat → Order} {O : SetOrder} {s : Str} {b : Build} :
      TextBuilt E U S f l → '\\' ∉ s → f.validateText E U S Os s = .ok (f1, b) → (∀ st ∈ b.steps, st.command.Keepable E) →
      (f1.build E S O b : Res (List VErr) _) = .ok f' → TextBuilt E U S f' (l ++ [b])

theorem Facade.TextBuilt.builds {E : Env} {U : Uni} {S : Serde} {f : Facade} {l : List Build} (h : f.TextBuilt E U S l) : f.Built E S l := by
  have key : ∀ {f : Facade} {Os : Nat → Order} {s : Str} {x : Facade × Build}, f.validateText E U S Os s = .ok x →
      ∃ ls, f.validate E S Os ls = .ok x := by
    intro f Os s x h
    rcases C56_text_is_lines E U S Os f s with ⟨-, e, -⟩ | ⟨ls, -, -, e, -⟩
    · rw [h] at e; cases e
    · exact ⟨ls, by rw [← e]; exact h⟩
  induction h with
  | new => exact .new
  | validated _ hv ih => obtain ⟨ls, e⟩ := key hv; exact .validated ih e
  | built _ _ hv hc hb ih => obtain ⟨ls, e⟩ := key hv; exact .built ih e hc hb

theorem checkBase_commands {ε : Type} {E : Env} {S : Serde} {cache : Store} {ast ast' : OCAAst} {B : Option Bundle}
    (h : (checkBase E S cache ast : Res ε _) = .ok (B, ast')) : ∀ c ∈ ast'.commands, c ∈ ast.commands := by
  intro c hc
  unfold checkBase at h
  split at h
  · next r t e =>
    split at h
    · split at h
      · cases h; rw [e]; exact .tail _ hc
      · cases h; rw [e]; exact .tail _ hc
      · cases h
    · cases h
  · cases h; exact hc

theorem validateText_fromText {E : Env} {U : Uni} (hw : ∀ s, E.validSaid s = true → IsWord U s) {S : Serde} {Os : Nat → Order}
    {f f' : Facade} {s : Str} {b : Build} (hs : '\\' ∉ s) (h : f.validateText E U S Os s = .ok (f', b)) :
    ∀ st ∈ b.steps, FromText E U false st.command := by
  rcases C56_text_is_lines E U S Os f s with ⟨-, e, -⟩ | ⟨ls, -, hpl, e, -⟩
  · rw [h] at e; cases e
  rw [h] at e
  obtain ⟨ast, base, ast', cs, e1, e2, e3, e4, -⟩ := validate_parts e.symm
  obtain ⟨_, _, -, -, -, -, hcs, -⟩ := C12_successful_build E Os base _ b e4
  intro st hst
  have hm : st.command ∈ cs := by
    have := List.mem_map_of_mem (f := (·.command)) hst
    rw [hcs] at this; exact this
  obtain ⟨c, hc, hd⟩ := (derefCommands_all _ e3).right hm
  have := C52_commands_of_text E U s ast (hpl ▸ e1) c (checkBase_commands e2 c hc)
  rw [show hasBackslash s = false by simpa [hasBackslash] using hs] at this
  exact (derefCommand_text hw hd this).1

theorem Facade.TextBuilt.fromText {E : Env} {U : Uni} (hw : ∀ s, E.validSaid s = true → IsWord U s) {S : Serde} {f : Facade}
    {l : List Build} (h : f.TextBuilt E U S l) : ∀ st ∈ stepsOf l, FromText E U false st.command := by
  induction h with
  | new => intro st hst; cases hst
  | validated _ _ ih => exact ih
  | built _ hs hv _ _ ih =>
    intro st hst
    obtain ⟨b', hb', hst'⟩ := mem_stepsOf.1 hst
    rcases List.mem_append.1 hb' with hb' | hb'
    · exact ih st (mem_stepsOf.2 ⟨b', hb', hst'⟩)
    · cases List.mem_singleton.1 hb'
      exact validateText_fromText hw hs hv st hst'

/-- **C57** Whatever texts were built on a facade, on whatever bases: the file it gives out for any history it reports (whose commands can
be written down) is either refused by the parser, exactly when a command repeats what an earlier file already had, or it parses, and building
it from nothing gives a bundle with the identifier asked for and the JSON that is stored. -/
theorem C57_file_of_any_history (E : Env) (U : Uni) (hU : ∀ s, U.lower (U.lower s) = U.lower s) (hw : ∀ s, E.validSaid s = true → IsWord U s)
    (S : Serde) (hv : E.validSaid [] = false) (f : Facade) (bs : List Build) (h : f.TextBuilt E U S bs)
    (hf : SameFrameMeta ((stepsOf bs).map (·.command))) (hn : NoClash E (stepsOf bs)) (fuel : Nat) (s : Said) (l : List BuildStep)
    (hl : f.steps E S fuel s = some (.ok l)) (hr : ∀ st ∈ l, CanReprint st.command) (deref : Bool) :
    ∃ text, f.bundleFile E S fuel s deref = some (.ok text) ∧
      ((¬ AcceptedSeq (l.map (·.command)) ∧ ∃ e, parseText E U text = .err e) ∨
       (AcceptedSeq (l.map (·.command)) ∧ ∃ out, parseText E U text = .ok out ∧ All2 Like (l.map (·.command)) out.commands ∧
        ∀ Os, ∃ b, fromAst E Os none out = .ok b ∧ b.bundle.said = some s ∧
          f.cache.get .bundlesJson s = .ok (some (utf8 (S.print (b.bundle.toJson E)))))) := by
  have hM : ∀ st ∈ stepsOf bs, st.command.FramesAs (frameMetaIn ((stepsOf bs).map (·.command))) :=
    fun st hst => hf.framesAs _ (List.mem_map_of_mem hst)
  obtain ⟨l0, e, hmem, -⟩ := replay_loop hv h.builds hM hn fuel s [] l hl
  rw [List.append_nil] at e
  subst e
  have htext : ∀ st ∈ l, FromText E U false st.command := by
    intro st hst
    obtain ⟨st', h1, h2⟩ := hmem st hst
    rw [← h2]; exact h.fromText hw st' h1
  have hp : ∀ c ∈ (stepsAst l).commands, Printable E U c := by
    intro c hc
    obtain ⟨st, hst, rfl⟩ := List.mem_map.1 hc
    exact printable_of_text hU (htext st hst) (hr st hst)
  have hself : ∀ find, derefCommands E find (stepsAst l).commands = .ok (stepsAst l).commands := by
    intro find
    refine derefCommands_self fun c hc => ?_
    obtain ⟨st, hst, rfl⟩ := List.mem_map.1 hc
    exact derefCommand_self (hr st hst) (htext st hst)
  obtain ⟨text, ht⟩ := printAst_any hp
  refine ⟨text, ?_, ?_⟩
  · unfold Facade.bundleFile
    rw [hl]
    dsimp only
    cases deref with
    | false => exact congrArg some (ht _)
    | true =>
      rw [if_pos rfl, hself]
      exact congrArg some (ht _)
  · by_cases hacc : AcceptedSeq (l.map (·.command))
    · refine .inr ⟨hacc, ?_⟩
      obtain ⟨text', out, h1, h2, h3⟩ := C49_print_parse E U (stepsAst l) hp hacc
      rw [ht] at h1
      cases h1
      refine ⟨out, h2, h3, fun Os => ?_⟩
      obtain ⟨r, a1, -, a3, a4⟩ := C61_history_replays E S hv f bs h.builds hf hn fuel s l hl Os (stepsAst l) rfl
      obtain ⟨b', b1, b2⟩ := sameOutcome_ok (sameOutcome_of_like E h3 (fun c hc => (hp c hc).propsDistinct) Os none) a1
      exact ⟨b', b1, by rw [b2]; exact a3, by rw [b2]; exact a4⟩
    · refine .inl ⟨hacc, ?_⟩
      obtain ⟨text', e, h1, h2⟩ := C57_printed_refused E U (stepsAst l) hp (by
        apply Classical.byContradiction
        intro hn'
        exact hacc fun pre c post e hb => hn' ⟨pre, c, post, e, hb⟩)
      have := (h1 Unit).symm.trans (ht Unit)
      cases this
      exact ⟨e, h2⟩

/-- **C57** A name that the facade does not know: asked to replace the names of the history by identifiers, the export says which name
it does not know and gives no file; asked to leave them, it prints the commands as they are (which aborts, as a name cannot be printed:
`C57_example_unknown`). -/
theorem C57_unknown_name (E : Env) (S : Serde) (f : Facade) (fuel : Nat) (s : Said) (l : List BuildStep)
    (hl : f.steps E S fuel s = some (.ok l)) (refs : Str → Option Str) (hr : ∀ n, (f.db.findRefn n : Res VErr _) = .ok (refs n))
    (hv : ∀ n s, refs n = some s → E.validSaid s = true) (hc : ∀ st ∈ l, st.command.Shallow) :
    (∀ n, n ∈ (l.flatMap fun st => st.command.names) → refs n = none →
      ∃ m ∈ (l.flatMap fun st => st.command.names), refs m = none ∧
        f.bundleFile E S fuel s true = some (.err [c!"Reference " ++ m ++ c!" not found"])) ∧
    f.bundleFile E S fuel s false = some (printAst (stepsAst l)) := by
  refine ⟨?_, ?_⟩
  · intro n hn hnone
    have hcs : (stepsAst l).commands = l.map (·.command) := rfl
    have hfl : (l.map (·.command)).flatMap Command.names = l.flatMap fun st => st.command.names := by
      rw [List.flatMap_map]
    have hd := C36_names_resolved E refs hv (l.map (·.command)) (by
      intro c hc'
      obtain ⟨st, hst, rfl⟩ := List.mem_map.1 hc'
      exact hc st hst)
    rw [hfl] at hd
    have hfind : (f.db.findRefn : Str → Res VErr (Option Str)) = fun n => .ok (refs n) := funext hr
    cases hm : (l.flatMap fun st => st.command.names).find? fun n => (refs n).isNone with
    | none =>
      have := List.find?_eq_none.1 hm n hn
      rw [hnone] at this
      exact absurd rfl this
    | some m =>
      rw [hm] at hd
      refine ⟨m, List.mem_of_find?_eq_some hm, ?_, ?_⟩
      · have := List.find?_some hm
        exact Option.isNone_iff_eq_none.1 this
      · unfold Facade.bundleFile
        rw [hl]
        dsimp only
        rw [if_pos rfl, hcs, hfind, hd]
        rfl
  · unfold Facade.bundleFile
    rw [hl]
    rfl

end OCA
