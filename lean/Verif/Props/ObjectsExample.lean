import Verif.Props.Objects
import Verif.Props.HistoryTextExample
/-!
# C62 on a concrete facade
-/
namespace OCA

/-- the objects of a bundle with their identifiers -/
def objectsOf (b : Bundle) : List (Option Said × OCAObject) :=
  (b.captureBase.said, .captureBase b.captureBase) :: b.overlays.map fun o => (o.said, .overlay o)

deriving instance DecidableEq for OCAObject

theorem mem_objectsOf {b : Bundle} {s : Said} {o : OCAObject} : b.Object s o ↔ (some s, o) ∈ objectsOf b := by
  constructor
  · intro h
    cases h with
    | base e => rw [objectsOf, e]; exact .head _
    | overlay ho e => exact .tail _ (List.mem_map.2 ⟨_, ho, by rw [e]⟩)
  · intro h
    rcases List.mem_cons.1 h with h | h
    · obtain ⟨h1, h2⟩ := Prod.mk.inj h
      rw [h2]; exact .base h1.symm
    · obtain ⟨x, hx, e⟩ := List.mem_map.1 h
      obtain ⟨h1, h2⟩ := Prod.mk.inj e
      rw [← h2]; exact .overlay hx h1

/-- what a bundle has under an identifier -/
def hasList (b : Bundle) : List (Option Said × Nat) :=
  (b.said, 1) :: (b.captureBase.said, 0) :: b.overlays.map fun o => (o.said, o.body.kind.code)

theorem mem_hasList {b : Bundle} {s : Said} {k : Nat} (h : b.Has s k) : (some s, k) ∈ hasList b := by
  cases h with
  | bundle e => rw [hasList, e]; exact .head _
  | base e => rw [hasList, e]; exact .tail _ (.head _)
  | overlay ho e => exact .tail _ (.tail _ (List.mem_map.2 ⟨_, ho, by rw [e]⟩))

/-- ADD ATTRIBUTE a=Text; ADD ATTRIBUTE b=Numeric; ADD LABEL en a; ADD META en -/
def fourSteps : List Command :=
  [addAttrs [(c!"a", .val .text)], addAttrs [(c!"b", .val .numeric)],
   addOv .label [(c!"lang", .val c!"en")] [(c!"a", .val c!"Name")],
   addOv .metaOv [(c!"lang", .val c!"en"), (c!"name", .val c!"Person")] []]

/-- what the example needs of the build of the file -/
def fourCheck (b : Build) : Bool :=
  b.steps.all (fun st => keepB Env.tight st.command) &&
  -- the last step is the bundle
  decide (b.steps.getLast?.map (·.result) = some b.bundle) &&
  -- the first step has an object that is not in the bundle
  (match b.steps.head?.bind (·.result.captureBase.said) with
    | some x => (hasList b.bundle).all fun p => decide (p.1 ≠ some x)
    | none => false) &&
  -- no two things with one identifier
  (objectsOf b.bundle).all (fun p => (b.steps.all fun st => (objectsOf st.result).all fun q => decide (q.1 = p.1 → q.2 = p.2)) &&
    (hasList b.bundle).all fun q => decide (q.1 = p.1 → q.2 = p.2.code)) &&
  decide ((objectsOf b.bundle).length = 3)

def fourRun : Option (Facade × Facade × Build) :=
  match Facade.new.validate Env.tight Serde.text (fun _ => Order.sorted) (fileOf fourSteps) with
  | .ok (f1, b) => match (f1.build Env.tight Serde.text .kept b : Res (List VErr) _) with
    | .ok f2 => some (f1, f2, b)
    | _ => none
  | _ => none

set_option maxRecDepth 20000 in
theorem fourRun_ok : (match fourRun with | some (_, f, b) => fourCheck b && decide (f.fts.length = 1) | none => false) = true := by decide +kernel

/-- **C62**, a concrete case: the three objects of the bundle are found, the capture base of the first step makes the facade abort, an
identifier not known is an error, and the search finds the bundle. -/
theorem C62_example : ∃ (f : Facade) (b : Build), f.Built Env.tight Serde.text [b] ∧ (objectsOf b.bundle).length = 3 ∧ b.Stepped ∧
    (∀ s o, b.bundle.Object s o → ∃ o', f.getObject Env.tight Serde.text s = .ok (some o') ∧ o'.json = o.json) ∧
    (∃ s o, Produced [b] s o ∧ f.getObject Env.tight Serde.text s = .panic) ∧
    f.fts.length = 1 := by
  have h := fourRun_ok
  split at h
  · next f1 f b e =>
    unfold fourRun at e
    split at e
    · next g1 b1 h1 =>
      split at e
      · next g2 h2 =>
        cases e
        simp only [fourCheck, Bool.and_eq_true, List.all_eq_true, decide_eq_true_eq] at h
        obtain ⟨⟨⟨⟨⟨k1, k2⟩, k3⟩, k4⟩, k5⟩, k6⟩ := h
        have hB : f.Built Env.tight Serde.text [b] := .built .new h1 (fun st hst => keepB_sound (k1 st hst)) h2
        obtain ⟨last, hl, hle⟩ := Option.map_eq_some_iff.1 k2
        have hlast := List.mem_of_getLast? hl
        refine ⟨f, b, hB, k5, ⟨last, hlast, by rw [hle]⟩, ?_, ?_, ?_⟩
        · intro s o ho
          obtain ⟨o', a1, a2, -⟩ := C62_built_object Env.tight tight_short Serde.text f [b] hB b (.head _) last hlast
            (by rw [hle]; exact ⟨rfl, rfl, rfl, rfl, .refl _⟩) s o ho (by
              rintro o' ⟨b', hb', st, hst, ho'⟩
              cases List.mem_singleton.1 hb'
              exact congrArg OCAObject.json ((k4 _ (mem_objectsOf.1 ho)).1 st hst _ (mem_objectsOf.1 ho') rfl)) (by
              intro b' hb' k' hk'
              cases List.mem_singleton.1 hb'
              exact (k4 _ (mem_objectsOf.1 ho)).2 _ (mem_hasList hk') rfl)
          exact ⟨o', a1, a2⟩
        · split at k3
          · next x hx =>
            obtain ⟨st, hst, hs⟩ := Option.bind_eq_some_iff.1 hx
            have hp : Produced [b] x (.captureBase st.result.captureBase) := ⟨b, .head _, st, List.mem_of_head? hst, .base hs⟩
            refine ⟨x, _, hp, ?_⟩
            refine C62_intermediate_object_aborts Env.tight tight_short Serde.text f [b] hB x _ hp ?_
            intro b' hb' k hk
            cases List.mem_singleton.1 hb'
            simp only [List.all_eq_true, decide_eq_true_eq] at k3
            exact k3 _ (mem_hasList hk) rfl
          · cases k3
        · exact k6
      · cases e
    · cases e
  · cases h

end OCA
