import Verif.Props.ThreadHistory
import Verif.Props.CrashPoints
/-! # C84: what others can meet while a thread stores a build

The states a killed process leaves (C66) are the states other threads meet while the process runs. -/
namespace OCA

/-- Left alone, a thread comes to any number of its writes: what holds at the start and is kept by its turns holds there. -/
theorem Thr.moment {α : Type} (t : Thr α) : ∀ (f : Facade) (n : Nat), ∃ u : Thr α,
    ∀ (P : Facade → Thr α → Prop), P f t → (∀ g v g' v', P g v → v.step g = some (g', v') → P g' v') → P (f.killed (t.alone f).1 n) u := by
  induction t with
  | done r => exact fun f n => ⟨.done r, fun P h _ => by
      show P (f.writes (([] : List Write).take n)) _
      rw [List.take_nil]
      exact h⟩
  | get ns k c ih =>
    intro f n
    obtain ⟨u, h⟩ := ih (f.db.get ns k) f n
    exact ⟨u, fun P hp hs => h P (hs _ _ _ _ hp rfl) hs⟩
  | put w c ih =>
    intro f n
    cases n with
    | zero => exact ⟨.put w c, fun P hp _ => hp⟩
    | succ n =>
      obtain ⟨u, h⟩ := ih (f.write w) n
      exact ⟨u, fun P hp hs => h P (hs _ _ _ _ hp rfl) hs⟩

/-- **C84** Every state that a killed process can leave of a build is met while the build runs, by whoever looks at the right moment; and no others are,
as long as no other thread writes. -/
theorem C84_moments (E : Env) (S : Serde) (f : Facade) (b : Build) (O : SetOrder) (g : Facade) :
    (∃ us, Interleaved f [jobT E S ⟨none, b, O⟩] g us) ↔ ∃ n, g = f.killed (f.buildWrites E S O b) n := by
  have hal : (jobT E S ⟨none, b, O⟩).alone = buildOp E S O b := (buildT_alone E S O b)
  constructor
  · rintro ⟨us, h⟩
    generalize hts : [jobT E S ⟨none, b, O⟩] = ts at h
    suffices hh : ∃ n u, us = [u] ∧ g = f.killed (f.buildWrites E S O b) n ∧ (f.buildWrites E S O b) = (f.buildWrites E S O b).take n ++ (u.alone g).1 by
      obtain ⟨n, -, -, e, -⟩ := hh
      exact ⟨n, e⟩
    induction h with
    | start =>
      refine ⟨0, _, hts.symm, rfl, ?_⟩
      unfold Facade.buildWrites
      rw [hal]
      rfl
    | @step g g' a b' t t' _ hs ih =>
      obtain ⟨n, u, e, hg, hw⟩ := ih
      cases a with
      | cons x a => simp at e
      | nil =>
        obtain ⟨rfl, rfl⟩ := List.cons.inj e
        cases t with
        | done r => cases hs
        | get ns k c =>
          cases hs
          exact ⟨n, _, rfl, hg, hw⟩
        | put w c =>
          cases hs
          -- the number of writes so far
          have hw' : f.buildWrites E S O b = (f.buildWrites E S O b).take n ++ w :: (t'.alone (g.write w)).1 := hw
          have htake : (f.buildWrites E S O b).take ((f.buildWrites E S O b).take n).length = (f.buildWrites E S O b).take n := by
            rw [List.length_take, List.take_eq_take_min.symm]
          refine ⟨((f.buildWrites E S O b).take n).length + 1, t', rfl, ?_, ?_⟩
          · unfold Facade.killed at hg ⊢
            generalize hX : (f.buildWrites E S O b).take n = X at hw' hg
            rw [hw', List.take_append, List.take_of_length_le (by omega), Nat.add_sub_cancel_left]
            rw [show (w :: (t'.alone (g.write w)).1).take 1 = [w] from rfl, Facade.writes_append, ← hg]
            rfl
          · generalize hX : (f.buildWrites E S O b).take n = X at hw'
            have : (f.buildWrites E S O b).take (X.length + 1) = X ++ [w] := by
              rw [hw', List.take_append, List.take_of_length_le (by omega), Nat.add_sub_cancel_left]
              rfl
            rw [this, List.append_assoc]
            exact hw'
  · rintro ⟨n, rfl⟩
    obtain ⟨u, h⟩ := Thr.moment (jobT E S ⟨none, b, O⟩) f n
    rw [hal] at h
    refine ⟨[u], h (fun g v => Interleaved f [jobT E S ⟨none, b, O⟩] g [v]) .start fun g v g' v' hp hs => ?_⟩
    exact .step (a := []) (b := []) hp hs

variable {E : Env} {S : Serde} {O : SetOrder} {f f' : Facade} {b : Build}

/-- **C84, finding** While a thread stores a bundle with a meta overlay that was not there, there is a moment when a search of another thread that finds
the bundle aborts: the row is there, the bundle is not yet. -/
theorem C84_search_aborts {ε : Type} (h : (f.build E S O b : Res Str Facade) = .ok f') (s : Said) (hs : b.bundle.said = some s)
    (hnew : fetchBundle E S f.cache s = .err [c!"No OCA Bundle found for said: " ++ s])
    (hm : ∃ o ∈ b.bundle.overlays, o.body.kind = .metaOv) :
    ∃ g us, Interleaved f [jobT E S ⟨none, b, O⟩] g us ∧ (∃ r : FtsRow, r ∈ g.fts ∧ r.said = s) ∧ (g.searchRecords E S [s] : Res ε _) = .panic := by
  obtain ⟨n, h1, h2⟩ := C66_search_aborts (ε := ε) h s hs hnew hm
  obtain ⟨us, hi⟩ := (C84_moments E S f b O _).2 ⟨n, rfl⟩
  exact ⟨_, us, hi, h1, h2⟩

/-- **C84, finding** Likewise, asking for the history of the first step's result aborts between its two records (before, it is an error). -/
theorem C84_history_aborts (h : (f.build E S O b : Res Str Facade) = .ok f') (st : BuildStep) (t : List BuildStep) (hst : b.steps = st :: t)
    (s : Said) (hs : st.result.said = some s) (hr : st.Readable E) (hp : st.parentSaid ≠ some s) (hse : s ≠ []) (hv : E.validSaid s = true)
    (hnew : fetchBundle E S f.cache s = .err [c!"No OCA Bundle found for said: " ++ s]) :
    ∃ g us, Interleaved f [jobT E S ⟨none, b, O⟩] g us ∧ ∀ fuel, g.steps E S (fuel + 1) s = some .panic := by
  obtain ⟨n, h1⟩ := C66_history_aborts (O := O) h st t hst s hs hr hp hse hv hnew
  obtain ⟨us, hi⟩ := (C84_moments E S f b O _).2 ⟨n, rfl⟩
  exact ⟨_, us, hi, h1⟩

end OCA
