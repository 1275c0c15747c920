import Verif.Props.Builds
import Verif.Props.OrderConverse
/-!
# C12, the converse: a build whose frames carry contradictory metadata can return something else than its last step
-/
namespace OCA

/-- **C12** Where the commands give a frame contradictory metadata - the only case excluded in
`C12_result_is_last_step` - the same build can, for suitable iteration orders of the two generations, return a bundle whose
digested text differs from that of its own last step. -/
theorem C12_result_can_differ (E : Env) (Os : Nat → Order) (fromOca : Option Bundle) (ast : OCAAst) (b : Build)
    (h : fromAst E Os fromOca ast = .ok b) (hne : ast.commands ≠ [])
    (hc : ∃ base box, (baseOf E fromOca : Res (List BuildErr) _) = .ok base ∧ finalState E base ast.commands = some box ∧
      ¬ FrameConsistent box) :
    ∃ Os' b' s, fromAst E Os' fromOca ast = .ok b' ∧ b'.steps.getLast? = some s ∧
      b'.bundle.toJson E ≠ s.result.toJson E ∧ b'.bundle.digestInput E ≠ s.result.digestInput E ∧
      b'.bundle.said = some (E.digest (b'.bundle.digestInput E)) ∧ s.result.said = some (E.digest (s.result.digestInput E)) := by
  obtain ⟨base, box, hb, hf, hc⟩ := hc
  obtain ⟨base', box', hb', hok, hf', hr, -⟩ := C12_successful_build E Os fromOca ast b h
  rw [hb] at hb'
  cases hb'
  rw [hf] at hf'
  cases hf'
  obtain ⟨O, O', x, x', g, g', n1, n2, s1, s2⟩ := C19_order_matters E box hr hc
  obtain ⟨b', hb''⟩ := (C12_build_outcome E (fun i => if i = ast.commands.length then O else O') fromOca ast base hb).2.2.2
    (fun hp => by have := hok _ hp; cases this) (fun ⟨es, he⟩ => by have := hok _ he; cases this) (by rw [hf]; exact nofun)
  obtain ⟨base2, box2, hb2, -, hf2, -, hsteps, -, -, hg, hlast⟩ := C12_successful_build E _ fromOca ast b' hb''
  rw [hb] at hb2
  cases hb2
  rw [hf] at hf2
  cases hf2
  have hlen : b'.steps.length = ast.commands.length := by rw [← hsteps, List.length_map]
  have hpos : 0 < ast.commands.length := List.length_pos_iff.2 hne
  obtain ⟨s, hs⟩ : ∃ s, b'.steps.getLast? = some s := by
    cases hb : b'.steps with
    | nil => rw [hb] at hlen; simp only [List.length_nil] at hlen; omega
    | cons a t => exact ⟨_, List.getLast?_cons⟩
  have hl := hlast s hs
  rw [if_neg (by omega)] at hl
  rw [if_pos rfl] at hg
  obtain ⟨-, e1⟩ := generateBundle_eq_ok hg
  obtain ⟨-, e2⟩ := generateBundle_eq_ok hl
  obtain ⟨-, e3⟩ := generateBundle_eq_ok g
  obtain ⟨-, e4⟩ := generateBundle_eq_ok g'
  rw [← e3] at e1
  rw [← e4] at e2
  refine ⟨_, b', s, hb'', hs, ?_⟩
  rw [e1, e2]
  exact ⟨n1, n2, s1, s2⟩

/-- non-vacuity: building the conflicting commands from scratch succeeds and meets the hypotheses -/
example : ∃ b, fromAst Env.demo (fun _ => Order.sorted) none { OCAAst.new with commands := conflictCommands } = .ok b ∧
    ({ OCAAst.new with commands := conflictCommands } : OCAAst).commands ≠ [] ∧
    ∃ base box, (baseOf Env.demo none : Res (List BuildErr) _) = .ok base ∧ finalState Env.demo base conflictCommands = some box ∧
      ¬ FrameConsistent box := by
  have hi := conflict_inconsistent.2
  have hf : finalState Env.demo none conflictCommands = some conflictBox := by decide +kernel
  have hok : ((fromAst Env.demo (fun _ => Order.sorted) none { OCAAst.new with commands := conflictCommands }).isOk) = true := by decide +kernel
  cases hr : fromAst Env.demo (fun _ => Order.sorted) none { OCAAst.new with commands := conflictCommands } with
  | ok b => exact ⟨b, rfl, nofun, none, conflictBox, rfl, hf, hi⟩
  | err e => rw [hr] at hok; cases hok
  | panic => rw [hr] at hok; cases hok

end OCA
