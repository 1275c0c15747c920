import Verif.Model.Facade
/-!
# A build succeeds whatever the type of its errors

`Facade.build` never gives an error, so its type of errors can be anything.
-/
namespace OCA

/-- what succeeds on the left succeeds on the right -/
def Res.Sim {ε ε' α : Type} (x : Res ε α) (y : Res ε' α) : Prop := ∀ a, x = .ok a → y = .ok a

namespace Res.Sim
variable {ε ε' α β : Type}
theorem ok (a : α) : Res.Sim (.ok a : Res ε α) (.ok a : Res ε' α) := fun _ h => by cases h; rfl
theorem pure (a : α) : Res.Sim (Pure.pure a : Res ε α) (Pure.pure a : Res ε' α) := fun _ h => by cases h; rfl
theorem panic : Res.Sim (.panic : Res ε α) (.panic : Res ε' α) := fun _ h => by cases h
theorem unwrap (o : Option α) : Res.Sim (Res.unwrap o : Res ε α) (Res.unwrap o : Res ε' α) := by
  cases o with
  | none => exact panic
  | some a => exact ok a
theorem bind {x : Res ε α} {y : Res ε' α} {g : α → Res ε β} {h : α → Res ε' β} (hx : x.Sim y) (hg : ∀ a, (g a).Sim (h a)) :
    Res.Sim (x >>= g) (y >>= h) := by
  intro b e
  obtain ⟨a, ea, eb⟩ := Res.bind_eq_ok.1 e
  rw [hx a ea, Res.bind_ok]
  exact hg a b eb
theorem put (s : Store) (ns : Namespace) (k : Str) (v : Bytes) : Res.Sim (s.put ns k v : Res ε Store) (s.put ns k v : Res ε' Store) := by
  unfold Store.put
  cases s.insert ns k v with
  | ok s => exact ok s
  | err e => exact panic
  | panic => exact panic
theorem foldRes {σ : Type} {g : σ → α → Res ε σ} {h : σ → α → Res ε' σ} (hg : ∀ s a, (g s a).Sim (h s a)) (l : List α) (s : σ) :
    (OCA.foldRes g s l).Sim (OCA.foldRes h s l) := by
  induction l generalizing s with
  | nil => exact ok s
  | cons a l ih => exact bind (hg s a) fun s' => ih s'
theorem lenPrefixed (s : Str) : Res.Sim (OCA.lenPrefixed s : Res ε Bytes) (OCA.lenPrefixed s : Res ε' Bytes) := by
  refine bind ?_ fun n => pure _
  unfold lenByte
  split
  · exact ok _
  · exact panic
theorem parentBytes (o : Option Said) : Res.Sim (OCA.parentBytes o : Res ε Bytes) (OCA.parentBytes o : Res ε' Bytes) := by
  cases o with
  | none => exact ok _
  | some s => exact lenPrefixed s
theorem lenPrefixedAll (l : List Said) : Res.Sim (OCA.lenPrefixedAll l : Res ε Bytes) (OCA.lenPrefixedAll l : Res ε' Bytes) := by
  induction l with
  | nil => exact ok _
  | cons s l ih => exact bind (lenPrefixed s) fun _ => bind ih fun _ => pure _
theorem objectModelBytes (m : ObjectModel) : Res.Sim (OCA.objectModelBytes m : Res ε Bytes) (OCA.objectModelBytes m : Res ε' Bytes) :=
  bind (parentBytes _) fun _ => bind (lenPrefixed _) fun _ => pure _
theorem putObjectModel (db : Store) (m : Option ObjectModel) :
    Res.Sim (OCA.putObjectModel db m : Res ε Store) (OCA.putObjectModel db m : Res ε' Store) := by
  cases m with
  | none => exact ok _
  | some m => exact bind (objectModelBytes m) fun _ => put _ _ _ _
theorem putModel (S : Serde) (db : Store) (m : ResultModel) :
    Res.Sim (OCA.putModel S db m : Res ε Store) (OCA.putModel S db m : Res ε' Store) :=
  bind (put _ _ _ _) fun _ => bind (putObjectModel _ _) fun _ => bind (putObjectModel _ _) fun _ =>
    bind (bind (parentBytes _) fun _ => bind (lenPrefixed _) fun _ => bind (lenPrefixedAll _) fun _ => pure _) fun _ => put _ _ _ _
theorem unwrapSaids (l : List Overlay) : Res.Sim (OCA.unwrapSaids l : Res ε _) (OCA.unwrapSaids l : Res ε' _) := by
  induction l with
  | nil => exact ok _
  | cons o l ih => exact bind (unwrap _) fun _ => bind ih fun _ => pure _
theorem dagObject (E : Env) (st : DagState) (step : BuildStep) :
    Res.Sim (OCA.dagObject E st step : Res ε _) (OCA.dagObject E st step : Res ε' _) := by
  unfold OCA.dagObject
  split
  · exact bind (unwrap _) fun _ => pure _
  · dsimp only
    split
    · refine bind ?_ fun _ => bind (unwrap _) fun _ => pure _
      unfold overlayKey
      split
      · exact bind (unwrap _) fun _ => pure _
      · exact ok _
    · exact pure _
  · exact pure _
theorem coreModels (E : Env) (l : List BuildStep) (st : DagState) :
    Res.Sim (OCA.coreModels E st l : Res ε _) (OCA.coreModels E st l : Res ε' _) := by
  induction l generalizing st with
  | nil => exact ok _
  | cons s l ih =>
    exact bind (bind (dagObject _ _ _) fun _ => bind (unwrap _) fun _ => bind (unwrap _) fun _ => bind (unwrapSaids _) fun _ => pure _)
      fun r => bind (ih r.1) fun _ => pure _
theorem putOverlays (S : Serde) (os : List Overlay) (db : Store) :
    Res.Sim (OCA.putOverlays S db os : Res ε _) (OCA.putOverlays S db os : Res ε' _) := by
  induction os generalizing db with
  | nil => exact ok _
  | cons o os ih => exact bind (unwrap _) fun _ => bind (put _ _ _ _) fun db' => ih db'
theorem buildStep (E : Env) (S : Serde) (f : Facade) (st : BuildStep) :
    Res.Sim (f.buildStep E S st : Res ε Facade) (f.buildStep E S st : Res ε' Facade) :=
  bind (bind (parentBytes _) fun _ => pure _) fun _ => bind (unwrap _) fun _ => bind (put _ _ _ _) fun _ => bind (put _ _ _ _) fun _ =>
    bind (unwrap _) fun _ => bind (put _ _ _ _) fun _ => bind (putOverlays _ _ _) fun _ => pure _
theorem build (E : Env) (S : Serde) (O : SetOrder) (f : Facade) (b : Build) :
    Res.Sim (f.build E S O b : Res ε Facade) (f.build E S O b : Res ε' Facade) := by
  have models : ∀ g : Facade, Res.Sim (g.buildModels E S b.steps : Res ε Facade) (g.buildModels E S b.steps : Res ε' Facade) := fun g =>
    bind (coreModels _ _ _) fun _ => bind (foldRes (putModel S) _ _) fun _ => pure _
  unfold Facade.build
  refine bind (bind (unwrap _) fun _ => bind (unwrap _) fun _ => pure _) fun f1 => bind ?_ fun f2 =>
    bind (foldRes (buildStep E S) _ _) fun f3 => ?_
  · unfold Facade.buildMeta
    split
    · exact bind (unwrap _) fun _ => pure _
    · exact pure _
  · dsimp only
    cases addRelations O f3.db b.bundle with
    | ok d => exact bind (ok _) models
    | err e => exact bind (ok _) models
    | panic => exact bind panic models
end Res.Sim

end OCA
