import Verif.Props.Replay
import Verif.Props.ObjectsExample
/-!
# C61 on a concrete facade: a file, and a second file that starts from the bundle of the first
-/
namespace OCA

/-- ADD ATTRIBUTE c=Text; ADD LABEL fr a -/
def secondSteps : List Command :=
  [addAttrs [(c!"c", .val .text)], addOv .label [(c!"lang", .val c!"fr")] [(c!"a", .val c!"Nom")]]

/-- the file of the first four steps, and a second one with `FROM` the bundle of the first -/
def fromFiles : Option (Facade × Facade × Build × Facade × Facade × Build) :=
  match Facade.new.validate Env.tight Serde.text (fun _ => Order.sorted) (fileOf fourSteps) with
  | .ok (f1, b1) => match (f1.build Env.tight Serde.text .kept b1 : Res (List VErr) _) with
    | .ok f2 => match b1.bundle.said with
      | some s => match f2.validate Env.tight Serde.text (fun _ => Order.sorted)
            (fileOf (⟨.«from», .ocaBundle (.said s)⟩ :: secondSteps)) with
        | .ok (f3, b2) => match (f3.build Env.tight Serde.text .kept b2 : Res (List VErr) _) with
          | .ok f4 => some (f1, f2, b1, f3, f4, b2)
          | _ => none
        | _ => none
      | none => none
    | _ => none
  | _ => none

/-- what the example needs of the two builds -/
def fromFilesCheck (b1 b2 : Build) (f : Facade) : Bool :=
  (b1.steps ++ b2.steps).all (fun st => keepB Env.tight st.command &&
    (st.result.overlays.all fun o => st.result.overlays.all fun o' => decide (o.said = o'.said → o = o')) &&
    (b1.steps ++ b2.steps).all fun st' => decide (st.result.said = st'.result.said → st.result = st'.result)) &&
  sameFrameMetaB ((b1.steps ++ b2.steps).map (·.command)) &&
  match b2.bundle.said with
  | some s => match f.steps Env.tight Serde.text 20 s with
    | some (.ok l) => decide (l.length = 6) && decide (l.getLast?.map (·.parentSaid) ≠ some b1.bundle.said)
    | _ => false
  | none => false

set_option maxRecDepth 20000 in
theorem fromFiles_ok : (match fromFiles with | some (_, _, b1, _, f, b2) => fromFilesCheck b1 b2 f | none => false) = true := by
  decide +kernel

/-- **C61**, a concrete case: the history of the second bundle has the six commands of both files, and building them in one file gives
the bundle that is stored. -/
theorem C61_example : ∃ (f : Facade) (b1 b2 : Build) (s : Said) (l : List BuildStep), f.Built Env.tight Serde.text [b1, b2] ∧
    NoClash Env.tight (stepsOf [b1, b2]) ∧ b2.bundle.said = some s ∧ f.steps Env.tight Serde.text 20 s = some (.ok l) ∧ l.length = 6 ∧
    ∀ Os, ∃ r, fromAst Env.tight Os none (astOf (l.map (·.command))) = .ok r ∧ r.bundle.said = some s ∧ r.steps.length = 6 ∧
      f.cache.get .bundlesJson s = .ok (some (utf8 (Serde.text.print (r.bundle.toJson Env.tight)))) := by
  have h := fromFiles_ok
  split at h
  · next f1 f2 b1 f3 f b2 e =>
    unfold fromFiles at e
    split at e
    · next g1 c1 h1 =>
      split at e
      · next g2 h2 =>
        split at e
        · next s0 hs0 =>
          split at e
          · next g3 c3 h3 =>
            split at e
            · next g4 h4 =>
              cases e
              unfold fromFilesCheck at h
              rw [Bool.and_eq_true, Bool.and_eq_true] at h
              obtain ⟨⟨k1, k2⟩, k3⟩ := h
              have hst : stepsOf [b1, b2] = b1.steps ++ b2.steps := by simp [stepsOf]
              simp only [List.all_eq_true, Bool.and_eq_true, decide_eq_true_eq] at k1
              have hB : f.Built Env.tight Serde.text [b1, b2] :=
                .built (l := [b1]) (.built .new h1 (fun st hst => keepB_sound (k1 st (List.mem_append_left _ hst)).1.1) h2) h3
                  (fun st hst => keepB_sound (k1 st (List.mem_append_right _ hst)).1.1) h4
              have hn : NoClash Env.tight (stepsOf [b1, b2]) := by
                rw [hst]
                constructor
                · rintro st hs ⟨o, ho, o', ho', hne, he⟩
                  exact hne ((k1 st hs).1.2 o ho o' ho' he)
                · intro st hs st' hs' he
                  rw [(k1 st hs).2 st' hs' he]
              split at k3
              · next s hs =>
                split at k3
                · next l hl =>
                  rw [Bool.and_eq_true, decide_eq_true_eq] at k3
                  refine ⟨f, b1, b2, s, l, hB, hn, hs, hl, k3.1, fun Os => ?_⟩
                  obtain ⟨r, a1, a2, a3, a4⟩ := C61_history_replays Env.tight Serde.text (by decide +kernel) f [b1, b2] hB
                    (by rw [hst]; exact sameFrameMetaB_sound k2) hn 20 s l hl Os (astOf (l.map (·.command))) rfl
                  have := congrArg List.length a2
                  rw [List.length_map, List.length_map] at this
                  exact ⟨r, a1, a3, by omega, a4⟩
                · cases k3
              · cases k3
            · cases e
          · cases e
        · cases e
      · cases e
    · cases e
  · cases h

end OCA
