import Verif.Props.Layers
import Verif.Props.Continuation
import Verif.Lemmas.TidyBundle
/-!
# C90 for files: what follows a file, or is put on top of its bundle
-/
namespace OCA

theorem Took.run {E : Env} {b b' : OCABox} {cs : List Command} (h : Took E b cs b') : runAll E b cs = .ok b' := by
  induction h with
  | nil => rfl
  | cons h1 _ ih =>
    show Res.bind (applyCommand E (some _) _) _ = _
    rw [h1]
    exact ih

theorem built_run {E : Env} {Os : Nat → Order} {ast : OCAAst} {b : Build} (h : fromAst E Os none ast = .ok b) :
    ∃ box, runAll E OCABox.new ast.commands = .ok box ∧ Reachable E box ∧
      (generateBundle E (Os ast.commands.length) box : Res (List BuildErr) _) = .ok b.bundle ∧
      (SameFrameMeta ast.commands → FrameConsistent box) := by
  obtain ⟨m, box, h1, h2, h3, rfl⟩ := base_state h (fun _ e => by cases e)
  refine ⟨box, h1.run, h2, h3, fun hf => ?_⟩
  obtain ⟨base, box', hb, -, hfin, hr', -, -, -, hg, -⟩ := C12_successful_build E Os none ast b h
  cases hb
  have hu := finalState_uniform (M := frameMetaIn ast.commands) ast.commands none (fun _ h => by cases h) hf.framesAs box' hfin
  have e : box' = box := by
    have : ∀ (cs : List Command) (m : Option OCABox) (x y : OCABox), (m.getD OCABox.new = x) → Took E x cs box → finalState E m cs = some y →
        cs ≠ [] → y = box := by
      intro cs
      induction cs with
      | nil => intro _ _ _ _ _ _ h; exact absurd rfl h
      | cons c cs ih =>
        intro m x y hm ht hfs _
        cases ht with
        | cons ha ht =>
          rename_i b1
          have ha' : applyCommand E m c = .ok b1 := by
            cases m with
            | none => cases hm; exact ha
            | some m => cases hm; exact ha
          simp only [finalState, ha', afterResult] at hfs
          cases cs with
          | nil => cases ht; cases hfs; rfl
          | cons c2 cs2 => exact ih (some b1) b1 y rfl ht hfs (by simp)
    exact this ast.commands none OCABox.new box' rfl h1 hfin (by intro e; rw [e] at hfin; cases hfin)
  rw [← e]
  exact hu.consistent

/-- **C90** A file that goes on where another file ends and only adds overlays: the bundle of the longer file has the capture base of the shorter one, and each layer the
added commands do not speak of is the same overlay with the same identifier. -/
theorem C90_longer_file (E : Env) (Os Os' : Nat → Order) (ast ast' : OCAAst) (cs : List Command) (he : ast'.commands = ast.commands ++ cs) (r r' : Build)
    (h : fromAst E Os none ast = .ok r) (h' : fromAst E Os' none ast' = .ok r') (S : OvKind × Option Str) (hcs : AddsElsewhere E S cs)
    (hf : S.1 = .attributeFraming → SameFrameMeta ast.commands) :
    r.bundle.captureBase.said = r'.bundle.captureBase.said ∧ r.bundle.captureBase.toJson = r'.bundle.captureBase.toJson ∧
    ∀ o : Overlay, o.body.slot = S → (o ∈ r.bundle.overlays ↔ o ∈ r'.bundle.overlays) := by
  obtain ⟨box, h1, h2, h3, h4⟩ := built_run h
  obtain ⟨box', g1, g2, g3, -⟩ := built_run h'
  rw [he, runAll_append, h1] at g1
  exact C90_adding E _ _ box box' h2 cs g1 S hcs (fun e => h4 (hf e)) r.bundle r'.bundle h3 g3

/-- **C90** The same for overlays put on top of a bundle with `FROM`, however the bundle was built. -/
theorem C90_on_top (E : Env) (cs : List Command) (ss : List BuildStep) (B : Bundle) (hB : Chain E cs ss B) (hf : SameFrameMeta cs) (Os : Nat → Order) (ast : OCAAst)
    (r : Build) (h : fromAst E Os (some B) ast = .ok r) (S : OvKind × Option Str) (hcs : AddsElsewhere E S ast.commands) :
    B.captureBase.said = r.bundle.captureBase.said ∧ B.captureBase.toJson = r.bundle.captureBase.toJson ∧
    ∀ o : Overlay, o.body.slot = S → (o ∈ B.overlays ↔ o ∈ r.bundle.overlays) := by
  obtain ⟨Os1, r1, e1, rfl, -⟩ := C58_chain E cs ss B hB hf { ast with commands := cs } rfl
  have hs := C58_from_continues E Os1 Os { ast with commands := cs } ast { ast with commands := cs ++ ast.commands } r1 e1 hf rfl
  rw [h] at hs
  cases e : fromAst E (splice cs.length Os1 Os) none { ast with commands := cs ++ ast.commands } with
  | err x => rw [e] at hs; exact hs.elim
  | panic => rw [e] at hs; exact hs.elim
  | ok r2 =>
    rw [e] at hs
    rw [← hs.1]
    exact C90_longer_file E Os1 _ { ast with commands := cs } { ast with commands := cs ++ ast.commands } ast.commands rfl r1 r2 e1 e S hcs (fun _ => hf)

/-- **C90** A different capture base: no overlay is shared. -/
theorem C90_rebound {ε : Type} (E : Env) (O O' : Order) (box box' : OCABox) (B B' : Bundle) (h : (generateBundle E O box : Res ε _) = .ok B)
    (h' : (generateBundle E O' box' : Res ε _) = .ok B') (hb : B.captureBase.said ≠ B'.captureBase.said) (o : Overlay) (ho : o ∈ B.overlays) : o ∉ B'.overlays := by
  obtain ⟨-, rfl⟩ := generateBundle_eq_ok h
  obtain ⟨-, rfl⟩ := generateBundle_eq_ok h'
  intro ho'
  have e1 := congrArg Overlay.captureBase (mem_overlays ho).2
  have e2 := congrArg Overlay.captureBase (mem_overlays ho').2
  exact hb (e1.symm.trans e2)

/-! ## A case -/

/-- overlays added to the demo bundle: one of a new layer, and one more label in a language it has labels in -/
def layerMore : List Command :=
  [addOv .information [(c!"lang", .val c!"fr")] [(c!"age", .val c!"En annees")],
   addOv .label [(c!"lang", .val c!"fr")] [(c!"age", .val c!"Age")]]

/-- the overlays of the bundle a build makes: the layer and the identifier of each -/
def layersOf : Res (List BuildErr) Build → List ((OvKind × Option Str) × Option Said)
  | .ok r => r.bundle.overlays.map fun o => (o.body.slot, o.said)
  | _ => []

/-- the added commands do not speak of the English labels -/
theorem C90_example_adds : AddsElsewhere Env.short (.label, some c!"eng") layerMore ∧ SameFrameMeta demoCommands := by
  refine ⟨?_, sameFrameMetaB_sound (by decide +kernel)⟩
  intro c hc
  simp only [layerMore, List.mem_cons, List.not_mem_nil, or_false] at hc
  rcases hc with rfl | rfl
  · exact ⟨_, _, rfl, by decide +kernel, by decide +kernel⟩
  · exact ⟨_, _, rfl, by decide +kernel, by decide +kernel⟩

set_option maxRecDepth 20000 in
/-- **C90** is not vacuous: the demo bundle has nine overlays, -/
theorem C90_example : (layersOf (fromAst Env.short (fun _ => Order.sorted) none (astOf demoCommands))).length = 9 := by decide +kernel

set_option maxRecDepth 20000 in
/-- the longer file makes ten, -/
theorem C90_example_longer : (layersOf (fromAst Env.short (fun _ => Order.sorted) none (astOf (demoCommands ++ layerMore)))).length = 10 := by decide +kernel

set_option maxRecDepth 20000 in
/-- and so do the two builds; -/
theorem C90_example_on_top : (layersOf (fromTwo Env.short Order.sorted demoCommands layerMore)).length = 10 := by decide +kernel

set_option maxRecDepth 20000 in
/-- eight of the first nine are in the longer one - all but the French labels -/
theorem C90_example_shared : ((layersOf (fromAst Env.short (fun _ => Order.sorted) none (astOf demoCommands))).filter fun x =>
    !(layersOf (fromAst Env.short (fun _ => Order.sorted) none (astOf (demoCommands ++ layerMore)))).contains x).map (·.1) =
    [(.label, some c!"fra")] := by decide +kernel

end OCA
