import Verif.Props.ThreadHistory
import Verif.Props.ThreadsExample
import Verif.Props.HistoryTextExample
/-! C85: a file is built on a bundle whose own file is still being stored. -/
namespace OCA

theorem Thr.go_happens {E : Env} {S : Serde} {f0 : Facade} {ts0 : List (Thr Unit)} (is : List Nat) : ∀ {f : Facade} {ts : List (Thr Unit)},
    Happens E S f0 ts0 f ts → Happens E S f0 ts0 (Thr.go is f ts).1 (Thr.go is f ts).2 := by
  induction is with
  | nil => exact fun h => h
  | cons i is ih =>
    intro f ts h
    unfold Thr.go
    split
    · exact ih h
    · next t e =>
      split
      · exact ih h
      · next f' t' e' =>
        obtain ⟨hlt, e⟩ := List.getElem?_eq_some_iff.1 e
        refine ih ?_
        have h1 : ts = ts.take i ++ t :: ts.drop (i + 1) := by
          rw [← e, ← List.drop_eq_getElem_cons hlt, List.take_append_drop]
        have h2 : ts.set i t' = ts.take i ++ t' :: ts.drop (i + 1) := by
          rw [List.set_eq_take_append_cons_drop, if_pos hlt]
        rw [h2]
        rw [h1] at h
        exact .turn h e'

/-- the first file's thread has made its first turns, up to the second of its three steps -/
def halfWay (b : Build) : Facade × List (Thr Unit) := Thr.go (List.replicate 9 0) Facade.new [jobT Env.tight Serde.text ⟨none, b, .kept⟩]

/-- a file that continues the second step's bundle -/
def onTop (s : Said) : List Line := fileOf [⟨.«from», .ocaBundle (.said s)⟩, addAttrs [(c!"c", .val .text)]]

/-- the second file is validated then, and both threads take turns until the second one has stored its step -/
def busy : Option (Build × Build × Facade × List (Thr Unit)) :=
  match Facade.new.validatePlain Env.tight Serde.text sortedOrders (fileOf fileOne) with
  | .ok b => match (b.steps.drop 1).head?.bind (·.result.said) with
    | some s => match (halfWay b).1.validatePlain Env.tight Serde.text sortedOrders (onTop s) with
      | .ok c => some (b, c, Thr.go (turnAbout 12) (halfWay b).1 (jobT Env.tight Serde.text ⟨none, c, .kept⟩ :: (halfWay b).2))
      | _ => none
    | none => none
  | _ => none

/-- neither is done, the second file's bundle is there, and its history has three steps -/
def busyCheck : Bool := match busy with
  | some (b, c, f, ts) => (b.steps ++ c.steps).all (fun st => keepB Env.tight st.command) && ts.all (fun t => !t.isDone) && decide (ts.length = 2) &&
    match c.bundle.said with
    | some s => (match fetchBundle Env.tight Serde.text f.cache s with | .ok _ => true | _ => false) &&
      (match stepsAt Env.tight Serde.text 9 (fun _ => f) s [] with | some (.ok l) => decide (l.length = 3) | _ => false)
    | none => false
  | none => false

set_option maxRecDepth 20000 in
theorem busy_check : busyCheck = true := by decide +kernel

/-- the storages at each read: two more turns between every two of them -/
def goOn : Facade × List (Thr Unit) → Nat → Facade × List (Thr Unit)
  | p, 0 => p
  | p, n + 1 => Thr.go [0, 1] (goOn p n).1 (goOn p n).2

/-- Such a case as C85 speaks of: a file is being stored; on one of its bundles, when that is there, another file is built and stored; neither is done, and
both go on while the history of the second file's bundle is read. -/
theorem C85_example : ∃ (F : Nat → Facade) (ts : Nat → List (Thr Unit)) (s : Said) (b : Bundle),
    Happens Env.tight Serde.text Facade.new [] (F 0) (ts 0) ∧ (∀ i, Happens Env.tight Serde.text (F i) (ts i) (F (i + 1)) (ts (i + 1))) ∧
    (ts 0).length = 2 ∧ (∀ t ∈ ts 0, ∀ r, t ≠ .done r) ∧ fetchBundle Env.tight Serde.text (F 0).cache s = .ok b ∧
    ∃ l, stepsAt Env.tight Serde.text 9 (fun _ => F 0) s [] = some (.ok l) ∧ l.length = 3 := by
  have h := busy_check
  unfold busyCheck at h
  split at h
  · next b c f ts e =>
    simp only [Bool.and_eq_true, List.all_eq_true, Bool.not_eq_true', decide_eq_true_eq] at h
    obtain ⟨⟨⟨hk, hd⟩, hl⟩, h⟩ := h
    unfold busy at e
    split at e
    · next b' h1 =>
      split at e
      · next s1 _ =>
        split at e
        · next c' h2 =>
          simp only [Option.some.injEq, Prod.mk.injEq] at e
          obtain ⟨rfl, rfl, e⟩ := e
          have hh : Happens Env.tight Serde.text Facade.new [] f ts := by
            have g1 : Happens Env.tight Serde.text Facade.new [] (halfWay b').1 (halfWay b').2 :=
              Thr.go_happens _ (.validated (j := ⟨none, b', .kept⟩) .rest (.inl h1) fun st hst => keepB_sound (hk st (List.mem_append_left _ hst)))
            have g2 := Thr.go_happens (turnAbout 12)
              (.validated (j := ⟨none, c', .kept⟩) g1 (.inl h2) fun st hst => keepB_sound (hk st (List.mem_append_right _ hst)))
            rw [e] at g2
            exact g2
          split at h
          · next s _ =>
            rw [Bool.and_eq_true] at h
            obtain ⟨ha, hb⟩ := h
            split at ha
            · next bb hbb =>
              split at hb
              · next l hll =>
                refine ⟨fun i => (goOn (f, ts) i).1, fun i => (goOn (f, ts) i).2, s, bb, hh, fun i => Thr.go_happens _ .rest, hl, ?_, hbb, l, hll,
                  of_decide_eq_true hb⟩
                intro t ht r e
                have := hd t ht
                rw [e] at this
                cases this
              · cases hb
            · cases ha
          · cases h
        · cases e
      · cases e
    · cases e
  · cases h

end OCA
