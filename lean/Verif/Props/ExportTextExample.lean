import Verif.Props.ExportText
import Verif.Props.ReplayExample
/-!
# C57 on a concrete facade: two texts, the second of which starts from the bundle of the first
-/
namespace OCA
open Peg Gr

/-- the first text -/
def firstText : Str := c!"ADD ATTRIBUTE a=Text b=Numeric\nADD LABEL en ATTRS a=\"A\"\n"

/-- build one text, and on its bundle a second one -/
def chainRun (first rest : Str) : Option (Facade × Facade × Build × Facade × Facade × Build × Str) :=
  match Facade.new.validateText Env.words Uni.ascii Serde.text (fun _ => Order.sorted) first with
  | .ok (f1, b1) => match (f1.build Env.words Serde.text .kept b1 : Res (List VErr) _) with
    | .ok f2 => match b1.bundle.said with
      | some s => match f2.validateText Env.words Uni.ascii Serde.text (fun _ => Order.sorted) (c!"FROM " ++ s ++ rest) with
        | .ok (f3, b2) => match (f3.build Env.words Serde.text .kept b2 : Res (List VErr) _) with
          | .ok f4 => some (f1, f2, b1, f3, f4, b2, c!"FROM " ++ s ++ rest)
          | _ => none
        | _ => none
      | none => none
    | _ => none
  | _ => none

/-- what C57 asks of the texts and the two builds, checked -/
def chainOk (first t : Str) (b1 b2 : Build) : Bool :=
  decide ('\\' ∉ first) && decide ('\\' ∉ t) && (b1.steps ++ b2.steps).all (fun st => keepB Env.words st.command &&
    (st.result.overlays.all fun o => st.result.overlays.all fun o' => decide (o.said = o'.said → o = o')) &&
    (b1.steps ++ b2.steps).all fun st' => decide (st.result.said = st'.result.said → st.result = st'.result)) &&
  sameFrameMetaB ((b1.steps ++ b2.steps).map (·.command))

/-- the hypotheses of C57, checked: the number of commands in the history, and whether the file it prints parses -/
def chainCheck (first rest : Str) : Option (Nat × Bool) :=
  match chainRun first rest with
  | some (_, _, b1, _, f, b2, t) =>
    if chainOk first t b1 b2 then
      match b2.bundle.said with
      | some s => match f.steps Env.words Serde.text 20 s with
        | some (.ok l) => if l.all fun st => canReprintB st.command then
            match f.bundleFile Env.words Serde.text 20 s false with
            | some (.ok text) => match parseText Env.words Uni.ascii text with
              | .ok _ => some (l.length, true)
              | _ => some (l.length, false)
            | _ => none
          else none
        | _ => none
      | none => none
    else none
  | none => none

/-- a second text that adds something new -/
def newText : Str := c!"\nADD ATTRIBUTE c=Text\nADD META en PROPS name=\"n\"\n"

/-- a second text that adds the attribute `a` again, with another type -/
def againText : Str := c!"\nADD ATTRIBUTE a=Numeric\n"

set_option maxRecDepth 20000 in
theorem chain_new : chainCheck firstText newText = some (4, true) := by decide +kernel

set_option maxRecDepth 20000 in
theorem chain_again : chainCheck firstText againText = some (3, false) := by decide +kernel

theorem chainCheck_sound {first rest : Str} {n : Nat} {ok : Bool} (h : chainCheck first rest = some (n, ok)) :
    ∃ (f : Facade) (b1 b2 : Build) (s : Said) (l : List BuildStep) (text : Str), f.TextBuilt Env.words Uni.ascii Serde.text [b1, b2] ∧ SameFrameMeta ((stepsOf [b1, b2]).map (·.command)) ∧
      NoClash Env.words (stepsOf [b1, b2]) ∧ b2.bundle.said = some s ∧ f.steps Env.words Serde.text 20 s = some (.ok l) ∧ l.length = n ∧
      (∀ st ∈ l, CanReprint st.command) ∧ f.bundleFile Env.words Serde.text 20 s false = some (.ok text) ∧
      ok = (parseText Env.words Uni.ascii text).isOk := by
  unfold chainCheck at h
  split at h
  · next f1 f2 b1 f3 f b2 t e =>
    split at h
    · next hc =>
      unfold chainOk at hc
      rw [Bool.and_eq_true, Bool.and_eq_true, Bool.and_eq_true, decide_eq_true_eq, decide_eq_true_eq] at hc
      obtain ⟨⟨⟨c1, c2⟩, k1⟩, k2⟩ := hc
      unfold chainRun at e
      split at e
      · next g1 d1 h1 =>
        split at e
        · next g2 h2 =>
          split at e
          · next s0 hs0 =>
            split at e
            · next g3 d3 h3 =>
              split at e
              · next g4 h4 =>
                cases e
                have hst : stepsOf [b1, b2] = b1.steps ++ b2.steps := by simp [stepsOf]
                simp only [List.all_eq_true, Bool.and_eq_true, decide_eq_true_eq] at k1
                have hB : f.TextBuilt Env.words Uni.ascii Serde.text [b1, b2] :=
                  .built (l := [b1]) (.built .new c1 h1 (fun st hst => keepB_sound (k1 st (List.mem_append_left _ hst)).1.1) h2) c2 h3
                    (fun st hst => keepB_sound (k1 st (List.mem_append_right _ hst)).1.1) h4
                have hn : NoClash Env.words (stepsOf [b1, b2]) := by
                  rw [hst]
                  constructor
                  · rintro st hs ⟨o, ho, o', ho', hne, he⟩
                    exact hne ((k1 st hs).1.2 o ho o' ho' he)
                  · intro st hs st' hs' he
                    rw [(k1 st hs).2 st' hs' he]
                split at h
                · next s hs =>
                  split at h
                  · next l hl =>
                    split at h
                    · next hr =>
                      split at h
                      · next text ht =>
                        refine ⟨f, b1, b2, s, l, text, hB, by rw [hst]; exact sameFrameMetaB_sound k2, hn, hs, hl, ?_, ?_, ht, ?_⟩
                        · split at h <;> cases h <;> rfl
                        · intro st hm
                          exact canReprintB_sound (List.all_eq_true.1 hr st hm)
                        · split at h
                          · next hp => cases h; rw [hp]; rfl
                          · next hp =>
                            cases h
                            cases hq : parseText Env.words Uni.ascii text with
                            | ok o => exact absurd hq (hp o)
                            | err _ => rfl
                            | panic => rfl
                      · cases h
                    · cases h
                  · cases h
                · cases h
              · cases e
            · cases e
          · cases e
        · cases e
      · cases e
    · cases h
  · cases h

/-- **C57**, a concrete case: the file of a bundle built in two texts has the four commands of both, and building it gives the stored
bundle. -/
theorem C57_example_chain : ∃ (f : Facade) (s : Said) (text : Str) (out : OCAAst) (b : Build), f.bundleFile Env.words Serde.text 20 s false = some (.ok text) ∧
    parseText Env.words Uni.ascii text = .ok out ∧ out.commands.length = 4 ∧ fromAst Env.words (fun _ => Order.sorted) none out = .ok b ∧
    b.bundle.said = some s ∧ f.cache.get .bundlesJson s = .ok (some (utf8 (Serde.text.print (b.bundle.toJson Env.words)))) := by
  obtain ⟨f, b1, b2, s, l, text, h1, h2, h3, -, h5, h6, h7, h8, h9⟩ := chainCheck_sound chain_new
  obtain ⟨text', g1, g2⟩ := C57_file_of_any_history Env.words Uni.ascii (fun _ => rfl) words_word Serde.text
    (by decide +kernel) f _ h1 h2 h3 20 s l h5 h7 false
  rw [h8] at g1
  cases g1
  rcases g2 with ⟨-, e, he⟩ | ⟨-, out, h, hl, hb⟩
  · rw [he] at h9; cases h9
  · obtain ⟨b, k1, k2, k3⟩ := hb fun _ => Order.sorted
    have := hl.length_eq
    rw [List.length_map, h6] at this
    exact ⟨f, s, text, out, b, h8, h, this.symm, k1, k2, k3⟩

/-- **C57** The other case exists too: a second file may add an attribute its base already has; the facade builds it, reports its history,
and gives out a file that its own parser refuses. -/
theorem C57_example_refused : ∃ (f : Facade) (s : Said) (text : Str) (e : ParseErr), f.bundleFile Env.words Serde.text 20 s false = some (.ok text) ∧
    parseText Env.words Uni.ascii text = .err e := by
  obtain ⟨f, b1, b2, s, l, text, h1, h2, h3, -, h5, h6, h7, h8, h9⟩ := chainCheck_sound chain_again
  obtain ⟨text', g1, g2⟩ := C57_file_of_any_history Env.words Uni.ascii (fun _ => rfl) words_word Serde.text
    (by decide +kernel) f _ h1 h2 h3 20 s l h5 h7 false
  rw [h8] at g1
  cases g1
  rcases g2 with ⟨-, e, he⟩ | ⟨-, out, h, -⟩
  · exact ⟨f, s, text, e, h8, he⟩
  · rw [h] at h9; cases h9

/-- a file that names another bundle, built by a process without the feature `local-references`; what the export with the feature
says, with and without the replacement of names: the error, and whether the second one aborts -/
def unknownRun : Option (List Str × Bool) :=
  match Facade.new.validatePlain Env.words Serde.text (fun _ => Order.sorted) (fileOf [addAttrs [(c!"a", .ref (.name c!"x"))]]) with
  | .ok b => match (Facade.new.build Env.words Serde.text .kept b : Res (List VErr) _), b.bundle.said with
    | .ok f, some s => match f.bundleFile Env.words Serde.text 20 s true, f.bundleFile Env.words Serde.text 20 s false with
      | some (.err e), some r => some (e, r matches .panic)
      | _, _ => none
    | _, _ => none
  | _ => none

set_option maxRecDepth 20000 in
/-- **C57** (a case) A history whose name is unknown to the facade: the export with names replaced names it; the one
without aborts (names cannot be written into a file). -/
theorem C57_example_unknown : unknownRun = some ([c!"Reference x not found"], true) := by decide +kernel

end OCA
