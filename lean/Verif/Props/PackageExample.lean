import Verif.Props.Package
import Verif.Props.HistoryTextExample
/-!
# C64 on a concrete package
-/
namespace OCA

/-- a model with two attributes, one an array of texts, and a label -/
def packAst : OCAAst := astOf [addAttrs [(c!"a", .val .text), (c!"b", .arr (.val .text))],
  addOv .label [(c!"lang", .val c!"en")] [(c!"a", .val c!"A")]]

/-- two transformations: the second one overrides its own first renaming -/
def packTrans : List TAst :=
  [⟨c!"1.0.0", [⟨.rename, .rename (some [(c!"a", c!"x")])⟩], [], FMap.ofList [(c!"source", c!"refs:E1"), (c!"target", c!"E2")]⟩,
   ⟨c!"1.0.0", [⟨.rename, .rename (some [(c!"b", c!"y"), (c!"a", c!"q")])⟩, ⟨.link, .link (some [(c!"b", c!"z")])⟩], [],
     FMap.ofList [(c!"source", c!"E1"), (c!"target", c!"E3")]⟩]

/-- build the model and the transformations, pack them, write, load, write again: how many transformations came back, and whether the
model's identifier and the two texts are the same -/
def packRun : Option (Nat × Bool × Bool) :=
  match fromAst Env.words (fun _ => Order.sorted) none packAst, packTrans.mapM fun t => match transBuild (ε := Str) Env.words t with
    | .ok t => some t
    | _ => none with
  | .ok r, some ts =>
    let p := (BundleElement.structural r.bundle :: ts.map BundleElement.transformation).foldl Package.add {}
    match (p.encode Env.words (fun _ => c!"OCAB00") Serde.text : Res Str Str) with
    | .ok s => match Package.load Env.words Serde.text s with
      | .ok q => some (q.transformations.length, q.structural.map (·.said) == some r.bundle.said,
          match (q.encode Env.words (fun _ => c!"OCAB00") Serde.text : Res Str Str) with
          | .ok s' => s == s'
          | _ => false)
      | _ => none
    | _ => none
  | _, _ => none

set_option maxRecDepth 20000 in
/-- the run itself -/
theorem C64_example_run : packRun = some (2, true, true) := by decide +kernel

/-- the build succeeds, its commands can be stored and the types have few arrays -/
def packOk : Bool :=
  match fromAst Env.words (fun _ => Order.sorted) none packAst with
  | .ok r => r.bundle.captureBase.attributes.l.all fun p => decide (p.2.arrays ≤ 123)
  | _ => false

set_option maxRecDepth 20000 in
theorem packOk_true : packOk = true := by decide +kernel

/-- **C64 is not empty**: the hypotheses of `C64_pack_and_load` hold of this model, with one transformation packed before it and one after. -/
theorem C64_example : ∃ r t u, fromAst Env.words (fun _ => Order.sorted) none packAst = .ok r ∧ (∀ c ∈ packAst.commands, c.Keepable Env.words) ∧
    (∀ n t, r.bundle.captureBase.attributes.get n = some t → t.arrays ≤ 123) ∧
    (∀ x ∈ [t] ++ [u], ∃ a, transBuild (ε := Str) Env.words a = .ok x) ∧ t ≠ u := by
  obtain ⟨t, ht, at'⟩ : ∃ t, transBuild (ε := Str) Env.words ⟨c!"1.0.0", [⟨.rename, .rename (some [(c!"a", c!"x")])⟩], [],
      FMap.ofList [(c!"source", c!"E1"), (c!"target", c!"E2")]⟩ = .ok t ∧ t.attributes = [(c!"a", c!"x")] := ⟨_, rfl, by decide +kernel⟩
  obtain ⟨u, hu, au⟩ : ∃ t, transBuild (ε := Str) Env.words ⟨c!"1.0.0", [⟨.link, .link (some [(c!"b", c!"y")])⟩], [],
      FMap.ofList [(c!"source", c!"E1"), (c!"target", c!"E3")]⟩ = .ok t ∧ t.attributes = [(c!"b", c!"y")] := ⟨_, rfl, by decide +kernel⟩
  have h := packOk_true
  unfold packOk at h
  split at h
  · next r hr =>
    refine ⟨r, t, u, hr, ?_, ?_, ?_, ?_⟩
    · intro c hc
      refine keepB_sound ?_
      simp only [packAst, astOf, List.mem_cons, List.not_mem_nil, or_false] at hc
      rcases hc with rfl | rfl <;> decide +kernel
    · intro n t ht
      have := List.all_eq_true.1 h _ ((FMap.lget_iff_mem r.bundle.captureBase.attributes.sorted n t).1 ht)
      exact of_decide_eq_true this
    · intro x hx
      rcases List.mem_cons.1 hx with rfl | hx
      · exact ⟨_, ht⟩
      · cases List.mem_singleton.1 hx
        exact ⟨_, hu⟩
    · intro e
      rw [e, au] at at'
      revert at'
      decide +kernel
  · cases h

end OCA
