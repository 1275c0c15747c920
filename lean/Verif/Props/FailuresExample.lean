import Verif.Props.Failures
import Verif.Props.ThreadsExample
/-! C86: a job whose writes fail. -/
namespace OCA

/-- a run in which the writes that `bad` says fail -/
def Attempt.play {α : Type} (bad : Write → Bool) : Attempt α → Facade → List (Write × Bool) × Res Str α
  | .done r, _ => ([], r)
  | .read c, f => (c f.db).play bad f
  | .put w c, f => match bad w with
    | true => ((w, false) :: ((c false).play bad f).1, ((c false).play bad f).2)
    | false => ((w, true) :: ((c true).play bad (f.write w)).1, ((c true).play bad (f.write w)).2)

theorem Attempt.play_tries {α : Type} (bad : Write → Bool) (m : Attempt α) (f : Facade) : m.Tries f (m.play bad f).1 (m.play bad f).2 := by
  induction m generalizing f with
  | done r => exact .done f r
  | read c ih => exact .read (ih _ f)
  | put w c ih =>
    unfold Attempt.play
    cases bad w with
    | true => exact .fails (ih false f)
    | false => exact .lands (ih true _)

def resKind {α : Type} : Res Str α → Nat
  | .ok _ => 0
  | .err _ => 1
  | .panic => 2

/-- the metadata of overlays -/
def Bundle.overlayMetaB (b : Bundle) (w : Write) : Bool :=
  b.overlays.any fun o => match o.said with
    | some s => decide (w = .db .relations (metaKey s) [UInt8.ofNat o.body.kind.code])
    | none => false

theorem overlayMetaB_sound {b : Bundle} {w : Write} (h : b.overlayMetaB w = true) : b.OverlayMeta w := by
  unfold Bundle.overlayMetaB at h
  obtain ⟨o, ho, h⟩ := List.any_eq_true.1 h
  cases hs : o.said with
  | none => rw [hs] at h; cases h
  | some s =>
    rw [hs] at h
    exact ⟨o, ho, s, hs, of_decide_eq_true h⟩

/-- the first overlay's metadata -/
def firstMeta (b : Bundle) : Option Write := match b.overlays with
  | o :: _ => o.said.map fun s => .db .relations (metaKey s) [UInt8.ofNat o.body.kind.code]
  | [] => none

def failCheck : Bool := match twoJobs with
  | none => false
  | some (i, _) => match firstMeta i.build.bundle with
    | none => false
    | some w =>
      let p := (jobF Env.tight Serde.text i).play (fun x => decide (x = w)) Facade.new
      decide (resKind p.2 = 2) && i.build.bundle.overlayMetaB w && decide (p.1.filter (fun q => !q.2) = [(w, false)]) &&
      (match Facade.store Env.tight Serde.text Facade.new i with
        | .ok _ => true
        | _ => false) &&
      let f := Facade.new.after p.1
      let q := (jobF Env.tight Serde.text i).play (fun x => match x with
        | .bundleRow .. => true
        | _ => false) f
      decide (resKind q.2 = 0) && decide (q.1.any (fun z => !z.2)) && decide (f.db.get .coreModel (coreKey (i.build.bundle.said.getD [])) = .ok none)

set_option maxRecDepth 20000 in
theorem fail_check : failCheck = true := by decide +kernel

theorem resKind_ok {r : Res Str Unit} (h : resKind r = 0) : r = .ok () := by
  cases r with
  | ok u => rfl
  | _ => cases h

theorem resKind_panic {r : Res Str Unit} (h : resKind r = 2) : r = .panic := by
  cases r with
  | panic => rfl
  | _ => cases h

/-- **C86** (finding) The metadata of an overlay is written with `let _ = ...`, as if it did not matter; but `build` aborts when just this one write fails:
the relations are computed from what it should have left. Then the history and the bundles are there, and nothing of the core model is. And the job
can be stored again: here with another write failing, that of the bundle's row, and this time `build` returns. -/
theorem C86_overlay_metadata : ∃ (j : Job) (g0 : Facade) (l l' : List (Write × Bool)) (w : Write) (s : Said), Jobs Env.tight [[j]] ∧ Facade.new.store Env.tight Serde.text j = .ok g0 ∧
    (jobF Env.tight Serde.text j).Tries Facade.new l .panic ∧ l.filter (fun q => !q.2) = [(w, false)] ∧ j.build.bundle.OverlayMeta w ∧
    j.build.bundle.said = some s ∧ (Facade.new.after l).db.get .coreModel (coreKey s) = .ok none ∧
    Facade.Retried Env.tight Serde.text j Facade.new (Facade.new.after l) ∧
    (jobF Env.tight Serde.text j).Tries (Facade.new.after l) l' (.ok ()) ∧ ∃ p ∈ l', p.2 = false := by
  have h := fail_check
  unfold failCheck at h
  cases hj : twoJobs with
  | none => rw [hj] at h; cases h
  | some ij =>
    obtain ⟨i, k⟩ := ij
    rw [hj] at h
    dsimp only at h
    cases hw : firstMeta i.build.bundle with
    | none => rw [hw] at h; cases h
    | some w =>
      rw [hw] at h
      simp only [Bool.and_eq_true, decide_eq_true_eq] at h
      obtain ⟨⟨⟨⟨h1, h2⟩, h3⟩, h4⟩, ⟨h5, h6⟩, h7⟩ := h
      have ht := Attempt.play_tries (fun x => decide (x = w)) (jobF Env.tight Serde.text i) Facade.new
      rw [resKind_panic h1] at ht
      have ht' := Attempt.play_tries (fun x => match x with
        | .bundleRow .. => true
        | _ => false) (jobF Env.tight Serde.text i) (Facade.new.after ((jobF Env.tight Serde.text i).play (fun x => decide (x = w)) Facade.new).1)
      rw [resKind_ok h5] at ht'
      cases hs : Facade.store Env.tight Serde.text Facade.new i with
      | err e => rw [hs] at h4; cases h4
      | panic => rw [hs] at h4; cases h4
      | ok g0 =>
        obtain ⟨s, hsaid⟩ : ∃ s, i.build.bundle.said = some s := by
          obtain ⟨wn, wc, wm, ws, wr, wo, hr, -, -⟩ := jobRun hs
          have := hr.cache
          unfold cacheF at this
          cases hx : i.build.bundle.said with
          | some s => exact ⟨s, rfl⟩
          | none => rw [hx] at this; cases this
        rw [hsaid] at h7
        obtain ⟨p, hp, hf⟩ := List.any_eq_true.1 h6
        have hJ := (twoJobs_fine hj).1
        have hsub : ∀ x ∈ ([[i]] : List (List Job)).flatten, x ∈ ([[i], [k]] : List (List Job)).flatten := fun x hx => by
          rw [List.mem_singleton.1 hx]
          exact .head _
        have hJ : Jobs Env.tight [[i]] := ⟨fun j h => hJ.made j (hsub j h), fun j h => hJ.distinct j (hsub j h),
          fun a ha b hb => hJ.kinds a (hsub a ha) b (hsub b hb)⟩
        exact ⟨i, g0, _, _, w, s, hJ, hs, ht, h3, overlayMetaB_sound h2, hsaid, h7, .more .none ht, ht', p, hp, by simpa using hf⟩

end OCA
