import Verif.Props.CrashRetry
import Verif.Props.CrashPoints
import Verif.Props.ReplayExample
/-!
# C66 on a concrete file
-/
namespace OCA

/-- the file of `labelled`, under the name `person` -/
def namedFile : List Line := .metaLine c!"name" c!"person" :: fileOf labelled

/-- storing it on an empty facade -/
def namedRun : Option (Facade × Facade × Build) :=
  match Facade.new.validate Env.tight Serde.text (fun _ => Order.sorted) namedFile with
  | .ok (f1, b) => match (f1.build Env.tight Serde.text .kept b : Res (List VErr) _) with
    | .ok f2 => some (f1, f2, b)
    | _ => none
  | _ => none

/-- no prefix of these commands frames an attribute -/
def unframedIn (E : Env) (cs : List Command) : Bool := (List.range (cs.length + 1)).all fun n =>
  match finalState E none (cs.take n) with
  | none => true
  | some b => b.unframed

theorem unframedIn_consistent {E : Env} {cs : List Command} (h : unframedIn E cs = true) : FramesConsistent E none cs := by
  intro n box hb
  have key : ∀ n, n ≤ cs.length → finalState E none (cs.take n) = some box → FrameConsistent box := by
    intro n hn hb
    have := List.all_eq_true.1 h n (List.mem_range.2 (by omega))
    rw [hb] at this
    exact unframed_consistent this
  by_cases hn : n ≤ cs.length
  · exact key n hn hb
  · refine key cs.length (Nat.le_refl _) ?_
    rw [List.take_of_length_le (by omega)] at hb
    rw [List.take_length]
    exact hb

/-- what the example needs -/
def namedCheck (b : Build) : Bool :=
  b.steps.all (fun st => keepB Env.tight st.command && !st.result.collides) && !b.bundle.collides && decide b.bundle.saids.Nodup &&
  decide (b.steps.map (·.result.said)).Nodup && decide (b.steps.length = 4) && unframedIn Env.tight (b.steps.map (·.command)) &&
  decide ((Facade.new.fileWrites Env.tight Serde.text (fun _ => Order.sorted) .kept namedFile).length = 44)

/-- what the second example needs -/
def namedCheck2 (f1 f2 : Facade) (b : Build) : Bool :=
  (b.bundle.overlays.any fun o => decide (o.body.kind = .metaOv)) &&
  b.steps.all (fun st => decide (st.result.said.map Env.tight.validSaid = some true)) &&
  match b.bundle.said with
  | some s => (match fetchBundle Env.tight Serde.text f2.cache s with | .ok _ => true | _ => false) &&
    (match f1.db.get .oca (opKey s) with | .ok none => true | _ => false)
  | none => false

set_option maxRecDepth 20000 in
theorem namedRun_ok2 : (match namedRun with | some (f1, f2, b) => namedCheck2 f1 f2 b | none => false) = true := by decide +kernel

set_option maxRecDepth 20000 in
theorem namedRun_ok : (match namedRun with | some (_, _, b) => namedCheck b | none => false) = true := by decide +kernel

/-- **C66**, a concrete case: a file with a name, four commands and 44 writes. Whatever a crash leaves of them, the hypotheses of
the theorems of C66 are met: the state is one of those `C66_always_usable` and `C66_explore` speak of, and storing the file again gives
what storing it without a crash gives. -/
theorem C66_example : ∃ (f1 f2 : Facade) (b : Build),
    Facade.new.validate Env.tight Serde.text (fun _ => Order.sorted) namedFile = .ok (f1, b) ∧
    (f1.build Env.tight Serde.text .kept b : Res (List VErr) _) = .ok f2 ∧ b.steps.length = 4 ∧
    (Facade.new.fileWrites Env.tight Serde.text (fun _ => Order.sorted) .kept namedFile).length = 44 ∧
    ∀ g, Facade.new.Crashed (Facade.new.fileWrites Env.tight Serde.text (fun _ => Order.sorted) .kept namedFile) g →
      g.Crashy Env.tight Serde.text [] [b.bundle] ∧ b.bundle.saids.Nodup ∧
      ∀ Os' O', ∃ g1 b' g2, g.validate Env.tight Serde.text Os' namedFile = .ok (g1, b') ∧
        (g1.build Env.tight Serde.text O' b' : Res (List VErr) _) = .ok g2 ∧ b'.bundle.said = b.bundle.said ∧ f2.SameAnswers g2 := by
  have h := namedRun_ok
  split at h
  · next f1 f2 b e =>
    unfold namedRun at e
    split at e
    · next g1 c1 h1 =>
      split at e
      · next g2 h2 =>
        cases e
        unfold namedCheck at h
        simp only [Bool.and_eq_true, List.all_eq_true, Bool.not_eq_true', decide_eq_true_eq] at h
        obtain ⟨⟨⟨⟨⟨⟨k1, k2⟩, k3⟩, k4⟩, k5⟩, k6⟩, k7⟩ := h
        have hq : ∃ ast, parseLines namedFile = .ok ast ∧ ast.commands = labelled ∧ ast.NoBase :=
          ⟨_, rfl, rfl, fun _ h => by cases h⟩
        obtain ⟨ast, q1, q2, q4⟩ := hq
        have hnames : ∀ c ∈ labelled, c.names = [] := by decide
        refine ⟨f1, f2, b, h1, h2, k5, k7, fun g hg => ⟨?_, k3, fun Os' O' => ?_⟩⟩
        · exact .crashed (m := []) .new h1 (fun st hst => keepB_sound (k1 st hst).1) hg
        · obtain ⟨g1, b', g2, a1, a2, a3, -, -, a6, -⟩ := C66_retry Env.tight tight_short Serde.text Facade.new f1 f2 g .new _ .kept namedFile
            ast q1 b h1 h2 hg (fun n hn c hc => by rw [q2] at hc; rw [hnames c hc]; intro h; cases h)
            (fun p hh => by rw [q2] at hh; cases hh)
            (fun base ast' hb x hx => by
              rw [checkBase_noBase q4] at hb
              cases hb
              cases hx
              exact unframedIn_consistent k6)
            ⟨not_collides k2, fun st hst => not_collides (k1 st hst).2⟩ k3 Os' O'
          exact ⟨g1, b', g2, a1, a2, a3, a6⟩
      · cases e
    · cases e
  · cases h

/-- **C66**, a concrete case: the process is killed while it stores the file. However soon, each of the four bundles is not there or has
its history; and there are points at which the result is listed and cannot be fetched, at which a search aborts, and at which asking for
the first step's history aborts; and a crash of the machine can leave the result without its history. -/
theorem C66_example_points : ∃ (f1 f2 : Facade) (b : Build) (s : Said),
    Facade.new.validate Env.tight Serde.text (fun _ => Order.sorted) namedFile = .ok (f1, b) ∧
    (f1.build Env.tight Serde.text .kept b : Res Str _) = .ok f2 ∧ b.bundle.said = some s ∧
    (∀ n i st t, b.steps[i]? = some st → st.result.said = some t →
      fetchBundle Env.tight Serde.text (Facade.new.killed (Facade.new.fileWrites Env.tight Serde.text (fun _ => Order.sorted) .kept namedFile) n).cache t
        = .err [c!"No OCA Bundle found for said: " ++ t] ∨
      ∃ h, (Facade.new.killed (Facade.new.fileWrites Env.tight Serde.text (fun _ => Order.sorted) .kept namedFile) n).HasHistory
        Env.tight Serde.text t h ∧ h.length = i + 1) ∧
    (∃ v, (s, v) ∈ (f1.killed (f1.buildWrites Env.tight Serde.text .kept b) 1).bundles) ∧
    (∃ n, ((f1.killed (f1.buildWrites Env.tight Serde.text .kept b) n).searchRecords Env.tight Serde.text [s] : Res (List VErr) _) = .panic) ∧
    (∃ n t, (f1.killed (f1.buildWrites Env.tight Serde.text .kept b) n).steps Env.tight Serde.text 9 t = some .panic) ∧
    ∃ g r, f1.Crashed (f1.buildWrites Env.tight Serde.text .kept b) g ∧ fetchBundle Env.tight Serde.text g.cache s = .ok r ∧
      g.steps Env.tight Serde.text 9 s = some (.err [c!"No history found for said: " ++ s]) := by
  have h := namedRun_ok
  have h' := namedRun_ok2
  split at h
  · next f1 f2 b e =>
    rw [e] at h'
    dsimp only at h'
    unfold namedRun at e
    split at e
    · next g1 c1 h1 =>
      split at e
      · next g2 h2 =>
        cases e
        unfold namedCheck at h
        simp only [Bool.and_eq_true, List.all_eq_true, Bool.not_eq_true', decide_eq_true_eq] at h
        obtain ⟨⟨⟨⟨⟨⟨k1, k2⟩, k3⟩, k4⟩, k5⟩, k6⟩, k7⟩ := h
        have hq : ∃ ast, parseLines namedFile = .ok ast ∧ ast.commands = labelled ∧ ast.NoBase :=
          ⟨_, rfl, rfl, fun _ h => by cases h⟩
        obtain ⟨ast, q1, q2, q4⟩ := hq
        have h2' : (f1.build Env.tight Serde.text .kept b : Res Str Facade) = .ok f2 := Res.Sim.build _ _ _ f1 b f2 h2
        have hvalid : Env.tight.validSaid [] = false := by decide +kernel
        have hk : ∀ st ∈ b.steps, st.command.Keepable Env.tight := fun st hst => keepB_sound (k1 st hst).1
        obtain ⟨s, c, hs, -⟩ := build_tables h2'
        obtain ⟨ast0, base, _, _, e1, e2, -, e4, hcache, -⟩ := validate_parts h1
        unfold namedCheck2 at h'
        rw [Bool.and_eq_true, Bool.and_eq_true] at h'
        obtain ⟨⟨m1, m2⟩, m3⟩ := h'
        obtain ⟨o, ho, hok⟩ := List.any_eq_true.1 m1
        rw [decide_eq_true_eq] at hok
        simp only [List.all_eq_true, decide_eq_true_eq] at m2
        have hnew : ∀ t, fetchBundle Env.tight Serde.text f1.cache t = .err [c!"No OCA Bundle found for said: " ++ t] := by
          intro t; rw [hcache]; rfl
        refine ⟨f1, f2, b, s, h1, h2', hs, ?_, (C66_listed_unknown h2' s hs (hnew s)).2.1, ?_, ?_, ?_⟩
        · intro n i st t hi ht
          rcases C66_killed_history Env.tight Serde.text hvalid Facade.new f1 [] [] .new _ .kept namedFile ast q1 b h1 hk k4 []
            (.inl ⟨q4, rfl⟩) n i st hi t ht rfl with h | ⟨h, a1, a2⟩
          · exact .inl h
          · refine .inr ⟨h, a1, ?_⟩
            have hl := congrArg List.length a2
            have := (List.getElem?_eq_some_iff.1 hi).1
            rw [List.length_map, List.length_map, List.length_take] at hl
            omega
        · obtain ⟨n, -, hn⟩ := C66_search_aborts (ε := List VErr) h2' s hs (hnew s) ⟨o, ho, hok⟩
          exact ⟨n, hn⟩
        · cases hsteps : b.steps with
          | nil => rw [hsteps] at k5; cases k5
          | cons st t =>
            have hmem : st ∈ b.steps := by rw [hsteps]; exact .head _
            obtain ⟨x, hx, hxv⟩ := Option.map_eq_some_iff.1 (m2 st hmem)
            have hp : st.parentSaid = none := by
              rw [q1] at e1
              cases e1
              rw [checkBase_noBase q4] at e2
              cases e2
              obtain ⟨_, _, -, -, -, -, -, h0, -⟩ := C12_successful_build _ _ none _ b e4
              exact h0 st (by rw [hsteps]; rfl)
            obtain ⟨n, hn⟩ := C66_history_aborts h2' st t hsteps x hx
              (readable_of (validate_keeps (Facade.Crashy.kept (S := Serde.text) .new) h1 hk).1 st hmem)
              (by rw [hp]; intro h; cases h) (by rintro rfl; rw [hvalid] at hxv; cases hxv) hxv (hnew x)
            exact ⟨n, x, hn 8⟩
        · rw [hs] at m3
          dsimp only at m3
          rw [Bool.and_eq_true] at m3
          obtain ⟨m3, m4⟩ := m3
          split at m3
          · next r hr =>
            split at m4
            · next hg =>
              obtain ⟨g, a1, a2, a3⟩ := C66_history_lost h2' s hg
              exact ⟨g, r, a1, by rw [a2]; exact hr, a3 8⟩
            · cases m4
          · cases m3
      · cases e
    · cases e
  · cases h

end OCA
