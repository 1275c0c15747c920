import Verif.Props.DagBuild
import Verif.Props.ReplayExample
/-!
# C63 on concrete commands
-/
namespace OCA

theorem tight_noDots : Env.tight.NoDots := by
  intro s hs h
  obtain ⟨-, -, h3⟩ := of_decide_eq_true hs
  exact (h3 _ h).2 rfl

/-- always the same order -/
def sortedOrders : Nat → Order := fun _ => .sorted

/-- the identifier, the attributes and the store of a build -/
def dagShown : Res Str (FMap Bytes × Bundle) → Option (Option Said × List Str × List Str)
  | .ok (db, b) => some (b.said, b.captureBase.attributes.l.map (·.1), db.l.map (·.1))
  | _ => none

/-- does the build succeed with a bundle without two overlays with one identifier -/
def dagFine : Res Str (FMap Bytes × Bundle) → Bool
  | .ok (_, b) => b.overlays.all fun o => b.overlays.all fun o' => decide (o.said = o'.said → o = o')
  | _ => false

theorem dagFine_sound {r : Res Str (FMap Bytes × Bundle)} (h : dagFine r = true) : ∃ db b, r = .ok (db, b) ∧ ¬ b.TwoAlike := by
  cases r with
  | ok p =>
    refine ⟨p.1, p.2, rfl, ?_⟩
    rintro ⟨o, ho, o', ho', hne, he⟩
    exact hne (of_decide_eq_true (List.all_eq_true.1 (List.all_eq_true.1 h o ho) o' ho') he)
  | err e => cases h
  | panic => cases h

set_option maxRecDepth 20000 in
theorem dag_four : dagFine (dagBuild Env.tight Serde.text sortedOrders sortedOrders FMap.empty fourSteps) = true ∧
    dagFine (dagBuild Env.tight Serde.text sortedOrders sortedOrders FMap.empty (fourSteps ++ secondSteps)) = true ∧
    (fourSteps ++ secondSteps).all (fun c => keepB Env.tight c) = true ∧ sameFrameMetaB (fourSteps ++ secondSteps) = true ∧
    (fourSteps ++ secondSteps).all (fun c => decide (c.kind ≠ .«from»)) = true := by
  decide +kernel

/-- **C63**, a concrete case: a second build goes on from the bundle of four commands, whatever the hash orders. -/
theorem C63_example_from : ∃ db1 b1 db b s, dagBuild Env.tight Serde.text sortedOrders sortedOrders FMap.empty fourSteps = .ok (db1, b1) ∧
    b1.said = some s ∧ dagBuild Env.tight Serde.text sortedOrders sortedOrders FMap.empty (fourSteps ++ secondSteps) = .ok (db, b) ∧
    ∀ Os Ps, ∃ db' b', dagBuild Env.tight Serde.text Os Ps db1 (⟨.«from», .ocaBundle (.said s)⟩ :: secondSteps) = .ok (db', b') ∧
      b'.said = b.said ∧ b'.toJson Env.tight = b.toJson Env.tight := by
  obtain ⟨h1, h2, h3, h4, h5⟩ := dag_four
  obtain ⟨db1, b1, e1, n1⟩ := dagFine_sound h1
  obtain ⟨db, b, e2, n2⟩ := dagFine_sound h2
  have hfr : ∀ c ∈ fourSteps ++ secondSteps, c.kind ≠ .«from» := fun c h => of_decide_eq_true (List.all_eq_true.1 h5 c h)
  obtain ⟨-, t, x, -, -, hb, -⟩ := dagBuild_parts tight_short (fun c h => hfr c (List.mem_append_left _ h)) e1
  obtain ⟨j, hj⟩ := bundleOf_said_some Env.tight (sortedOrders fourSteps.length) x
  rw [← hb] at hj
  refine ⟨db1, b1, db, b, _, e1, hj, e2, fun Os Ps => ?_⟩
  exact C63_from_continues Env.tight tight_short tight_noDots Serde.text _ _ Os Ps _ _ _ _ _ _ _ _ b1 b _ hfr
    (fun c h => keepB_sound (List.all_eq_true.1 h3 c (List.mem_append_left _ h))) (sameFrameMetaB_sound h4) e1 hj e2 n1 n2

/-- add `a`, label an attribute that does not exist, add `b` -/
def lostSteps : List Command :=
  [addAttrs [(c!"a", .val .text)], addOv .label [(c!"lang", .val c!"en")] [(c!"zz", .val c!"Name")], addAttrs [(c!"b", .val .text)]]

set_option maxRecDepth 20000 in
/-- **C63**, a concrete case: the second command is rejected, which is not reported, and the attribute of the first is lost. -/
theorem C63_example_lost :
    (∃ es, applyCommand Env.tight (finalState Env.tight none [addAttrs [(c!"a", .val .text)]])
      (addOv .label [(c!"lang", .val c!"en")] [(c!"zz", .val c!"Name")]) = .err es) ∧
    (dagShown (dagBuild Env.tight Serde.text sortedOrders sortedOrders FMap.empty lostSteps)).map (·.2.1) = some [c!"b"] ∧
    (dagShown (dagBuild Env.tight Serde.text sortedOrders sortedOrders FMap.empty lostSteps)).map (·.1) =
      (dagShown (dagBuild Env.tight Serde.text sortedOrders sortedOrders FMap.empty [addAttrs [(c!"b", .val .text)]])).map (·.1) := by
  refine ⟨⟨_, rfl⟩, ?_⟩
  decide +kernel

/-- the record of the bundle -/
def dagRecordOf : Res Str (FMap Bytes × Bundle) → Option (Option Said × Option Bytes)
  | .ok (db, b) => some (b.said, db.get (c!"oca." ++ b.said.getD [] ++ c!".operation"))
  | _ => none

set_option maxRecDepth 20000 in
/-- **C63**, a concrete case: adding the same attribute twice. -/
theorem C63_example_self :
    (match dagRecordOf (dagBuild Env.tight Serde.text sortedOrders sortedOrders FMap.empty
      [addAttrs [(c!"a", .val .text)], addAttrs [(c!"a", .val .text)]]) with
    | some (some s, some r) => decide (r.take 14 = 13 :: utf8 s)
    | _ => false) = true := by
  decide +kernel

end OCA
