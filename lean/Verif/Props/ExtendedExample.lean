import Verif.Props.ExtendedText
import Verif.Props.ExportTextExample
/-!
# C68 on a concrete facade: a text, and a second one that starts from its bundle and speaks of the same attributes
-/
namespace OCA
open Peg Gr

/-- the base -/
def baseText : Str := c!"ADD ATTRIBUTE a=Text b=Numeric\nADD LABEL en ATTRS a=\"A\" b=\"B\"\nADD UNIT ATTRS b=m\nADD META en PROPS name=x description=d\n"

/-- what comes after FROM: another type and label for `a`, another unit for `b`, another name -/
def overText : Str := c!"\nADD ATTRIBUTE c=Text a=Numeric\nADD LABEL en ATTRS a=\"AA\"\nADD UNIT ATTRS b=km\nADD META en PROPS name=y\n"

/-- the label of an attribute -/
def labelIn (B : Bundle) (l n : Str) : List Str := B.overlays.filterMap fun o => match o.body with
  | .label l' _ m _ => if l' = l then m.get n else none
  | _ => none

/-- the unit of an attribute -/
def unitIn (B : Bundle) (n : Str) : List Str := B.overlays.filterMap fun o => match o.body with
  | .unit m => m.get n
  | _ => none

/-- a value of the meta -/
def metaIn (B : Bundle) (l k : Str) : List Str := B.overlays.filterMap fun o => match o.body with
  | .metaOv l' m => if l' = l then m.get k else none
  | _ => none

/-- that the second file starts with FROM, adds `a` and not `b`, and that the commands are keepable; types, labels, units and meta of the result -/
def overCheck (first rest : Str) : Option (List (Option NAttr) × List (List Str) × Bool) :=
  match chainRun first rest with
  | some (_, f2, b1, _, _, b2, t) =>
    match parseText Env.words Uni.ascii t with
    | .ok ast => match ast.commands with
      | ⟨.«from», .ocaBundle (.said x)⟩ :: tl => match fetchBundle Env.words Serde.text f2.cache x with
        | .ok B => if decide ('\\' ∉ first) && decide ('\\' ∉ t) && (b1.steps ++ b2.steps).all (fun st => keepB Env.words st.command) then
            some (B.captureBase.attributes.get c!"b" :: [c!"a", c!"b", c!"c"].map b2.bundle.captureBase.attributes.get,
              [labelIn b2.bundle c!"eng" c!"a", labelIn b2.bundle c!"eng" c!"b", unitIn b2.bundle c!"b", metaIn b2.bundle c!"eng" c!"name", metaIn b2.bundle c!"eng" c!"description",
               labelIn B c!"eng" c!"a", labelIn B c!"eng" c!"b", unitIn B c!"b"],
              tl.all fun c => match c.kind, c.obj with
                | .add, .captureBase cc => ((cc.attributes.getD []).map (·.1)).all fun n => decide (n ≠ c!"b")
                | _, _ => true)
          else none
        | _ => none
      | _ => none
    | _ => none
  | none => none
set_option maxRecDepth 20000 in
theorem over_check : overCheck baseText overText = some ([some (.val .numeric), some (.val .numeric), some (.val .numeric), some (.val .text)],
    [[c!"AA"], [c!"B"], [c!"m"], [c!"y"], [c!"d"], [c!"A"], [c!"B"], [c!"m"]], true) := by decide +kernel

/-- **C68**, a concrete case: the hypotheses of `C68_base_kept` hold of a façade with a built base, a file that starts from it and the attribute `b`, which
the file does not add; the file gives `a` another type and label, which the result has; the unit it gives `b` is not taken, for the base has one. -/
theorem C68_example : ∃ (f f' : Facade) (l : List Build) (s : Str) (b : Build) (ast : OCAAst) (x : Said) (t : List Command) (B : Bundle),
    f.Built Env.words Serde.text l ∧ f.validateText Env.words Uni.ascii Serde.text (fun _ => Order.sorted) s = .ok (f', b) ∧
    parseText Env.words Uni.ascii s = .ok ast ∧ ast.commands = ⟨.«from», .ocaBundle (.said x)⟩ :: t ∧
    fetchBundle Env.words Serde.text f.cache x = .ok B ∧ (B.captureBase.attributes.get c!"b").isSome = true ∧ (∀ c ∈ ast.commands, ¬ AddsAttr c c!"b") ∧
    b.bundle.captureBase.attributes.get c!"a" = some (.val .numeric) ∧
    labelIn B c!"eng" c!"a" = [c!"A"] ∧ labelIn b.bundle c!"eng" c!"a" = [c!"AA"] ∧ labelIn b.bundle c!"eng" c!"b" = [c!"B"] ∧
    unitIn b.bundle c!"b" = [c!"m"] ∧ metaIn b.bundle c!"eng" c!"name" = [c!"y"] ∧ metaIn b.bundle c!"eng" c!"description" = [c!"d"] := by
  have h := over_check
  unfold overCheck at h
  split at h
  · next f1 f2 b1 f3 f4 b2 t e =>
    split at h
    · next ast hp =>
      split at h
      · next x tl hx =>
        split at h
        · next B hB =>
          split at h
          · next hc =>
            rw [Bool.and_eq_true, Bool.and_eq_true, decide_eq_true_eq, decide_eq_true_eq] at hc
            obtain ⟨⟨c1, c2⟩, k1⟩ := hc
            have h := Option.some.inj h
            obtain ⟨ha, h⟩ := Prod.mk.inj h
            obtain ⟨hl, hno⟩ := Prod.mk.inj h
            simp only [List.map_cons, List.cons.injEq, List.map_nil] at ha hl
            unfold chainRun at e
            split at e
            · next g1 d1 h1 =>
              split at e
              · next g2 h2 =>
                split at e
                · next s0 hs0 =>
                  split at e
                  · next g3 d3 h3 =>
                    split at e
                    · next g4 h4 =>
                      cases e
                      have hT : f2.TextBuilt Env.words Uni.ascii Serde.text [b1] :=
                        .built (l := []) .new c1 h1 (fun st hst => keepB_sound (List.all_eq_true.1 k1 st (List.mem_append_left _ hst))) h2
                      have hF := hT.builds
                      have hno' : ∀ c ∈ ast.commands, ¬ AddsAttr c c!"b" := by
                        intro c hc ⟨hk, cc, l, ho, hl, hm⟩
                        rw [hx] at hc
                        rcases List.mem_cons.1 hc with rfl | hc
                        · cases hk
                        · have := List.all_eq_true.1 hno c hc
                          obtain ⟨k, o⟩ := c
                          dsimp only at hk ho
                          subst hk ho
                          dsimp only at this
                          rw [hl] at this
                          exact of_decide_eq_true (List.all_eq_true.1 this _ (mem_keys.1 hm)) rfl
                      refine ⟨f2, f3, [b1], _, b2, ast, x, tl, B, hF, h3, hp, hx, hB, (by rw [ha.1]; rfl), hno', ha.2.1, hl.2.2.2.2.2.1, hl.1, hl.2.1, hl.2.2.1, hl.2.2.2.1, hl.2.2.2.2.1⟩
                    · cases e
                  · cases e
                · cases e
              · cases e
            · cases e
          · cases h
        · cases h
      · cases h
    · cases h
  · cases h

end OCA
