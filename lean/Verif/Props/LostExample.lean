import Verif.Props.Lost
import Verif.Props.ThreadsExample
import Verif.Props.ThreadHistoryExample
/-!
# C87: example
-/
namespace OCA

/-- two files are stored; then the cache is lost -/
def lostCheck : Bool :=
  match twoJobs with
  | none => false
  | some (i, j) =>
    match foldRes (Facade.store Env.tight Serde.text) Facade.new [i, j] with
    | .ok f =>
      (match i.build.bundle.said with
      | some s => Env.tight.validSaid s && decide (f.bundles.length = 2) &&
        (match fetchBundle Env.tight Serde.text f.cache s with | .ok _ => true | _ => false) &&
        (match f.steps Env.tight Serde.text 20 s with | some (.ok l) => decide (1 < l.length) | _ => false)
      | none => false)
    | _ => false

set_option maxRecDepth 20000 in
theorem lost_check : lostCheck = true := by decide +kernel

/-- Two files are stored, which share their capture base. The hypotheses of `C87_restored` are met, and so are those of `C87_cache_lost` about the history: of the first bundle, which has more
than one step, it was given, and asking for it aborts when the cache is lost; and the bundle itself, which was given, is reported as not found. -/
theorem C87_example : ∃ (i j : Job) (f f' : Facade) (s : Said) (l : List BuildStep), Env.tight.ShortSaids ∧ Jobs Env.tight [[i, j]] ∧
    foldRes (Facade.store Env.tight Serde.text) Facade.new [i, j] = .ok f ∧ f.Loses f' ∧ f' = { f with cache := Store.new } ∧ f.bundles.length = 2 ∧
    i.build.bundle.said = some s ∧ Env.tight.validSaid s = true ∧ f.steps Env.tight Serde.text 20 s = some (.ok l) ∧ 1 < l.length ∧
    f'.steps Env.tight Serde.text 20 s = some .panic ∧
    (∃ b, fetchBundle Env.tight Serde.text f.cache s = .ok b) ∧ (∃ e, fetchBundle Env.tight Serde.text f'.cache s = .err e) := by
  have h := lost_check
  unfold lostCheck at h
  cases hj : twoJobs with
  | none => rw [hj] at h; cases h
  | some ij =>
    obtain ⟨i, j⟩ := ij
    rw [hj] at h
    dsimp only at h
    have hJ := (twoJobs_fine hj).1
    have hsub : ∀ x, x ∈ ([[i, j]] : List (List Job)).flatten → x ∈ ([[i], [j]] : List (List Job)).flatten := fun x hx => hx
    have hJ : Jobs Env.tight [[i, j]] := ⟨fun j h => hJ.made j (hsub j h), fun j h => hJ.distinct j (hsub j h),
      fun a ha b hb => hJ.kinds a (hsub a ha) b (hsub b hb)⟩
    split at h
    · next f hf =>
      split at h
      · next s hs =>
        simp only [Bool.and_eq_true, decide_eq_true_eq] at h
        obtain ⟨⟨⟨h1, h2⟩, h3⟩, h4⟩ := h
        split at h3
        · next b hb =>
          split at h4
          · next l hl =>
            have hc := C87_cache_lost Env.tight Serde.text f { f with cache := Store.new } rfl
            exact ⟨i, j, f, { f with cache := Store.new }, s, l, tight_short, hJ, hf, ⟨.inl rfl, .inr rfl, .inl ⟨rfl, rfl, rfl⟩⟩, rfl, h2, hs, h1, hl, of_decide_eq_true h4,
              hc.2.2.2.2.2.2.2.1 20 s l h1 hl, ⟨b, hb⟩, hc.1 s⟩
          · cases h4
        · cases h3
      · cases h
    · cases h

/-- a file, and one that continues its bundle, each validated and built -/
def lostFiles : Option (List Line × List Line × Build × Build × Facade × Facade) :=
  match Facade.new.validatePlain Env.tight Serde.text sortedOrders (fileOf fileOne) with
  | .ok b => match (Facade.new.build Env.tight Serde.text .kept b : Res Str _), b.bundle.said with
    | .ok f, some s => match f.validatePlain Env.tight Serde.text sortedOrders (onTop s) with
      | .ok c => match (f.build Env.tight Serde.text .kept c : Res Str _) with
        | .ok g => some (fileOf fileOne, onTop s, b, c, f, g)
        | _ => none
      | _ => none
    | _, _ => none
  | _ => none

theorem lostFiles_built {l m : List Line} {b c : Build} {f g : Facade} (h : lostFiles = some (l, m, b, c, f, g)) :
    Facade.new.validatePlain Env.tight Serde.text sortedOrders l = .ok b ∧ (Facade.new.build Env.tight Serde.text .kept b : Res Str _) = .ok f ∧
    f.validatePlain Env.tight Serde.text sortedOrders m = .ok c ∧ (f.build Env.tight Serde.text .kept c : Res Str _) = .ok g := by
  unfold lostFiles at h
  split at h
  · next b' e1 =>
    split at h
    · next f' s e2 e3 =>
      split at h
      · next c' e4 =>
        split at h
        · next g' e5 =>
          cases h
          exact ⟨e1, e2, e4, e5⟩
        · cases h
      · cases h
    · cases h
  · cases h

def lostFilesCheck : Bool := match lostFiles with
  | some (_, m, b, c, _, _) => agreeB Env.tight ⟨none, b, .kept⟩ ⟨none, b, .kept⟩ && agreeB Env.tight ⟨none, b, .kept⟩ ⟨none, c, .kept⟩ &&
      agreeB Env.tight ⟨none, c, .kept⟩ ⟨none, b, .kept⟩ && agreeB Env.tight ⟨none, c, .kept⟩ ⟨none, c, .kept⟩ &&
      decide b.bundle.saids.Nodup && decide c.bundle.saids.Nodup && decide (c.steps.head?.bind (·.parentSaid) = b.bundle.said) && b.bundle.said.isSome &&
      (match Facade.new.validatePlain Env.tight Serde.text sortedOrders m with
      | .ok x => !decide (x.bundle.said = c.bundle.said)
      | _ => false)
  | none => false

set_option maxRecDepth 20000 in
theorem lostFiles_check : lostFilesCheck = true := by decide +kernel

/-- The hypotheses of `C87_files` are met: two files, the second of which continues the bundle of the first. And the order matters: when all is lost and only the second file is
validated again, its FROM is passed over, and it gives another bundle. -/
theorem C87_files_example : ∃ (l m : List Line) (b c x : Build) (f f' : Facade) (s : Said), Env.tight.ShortSaids ∧
    Facade.Files Env.tight Serde.text Facade.new [(l, sortedOrders, .kept), (m, sortedOrders, .kept)] [⟨none, b, .kept⟩, ⟨none, c, .kept⟩] f ∧
    Jobs Env.tight [[⟨none, b, .kept⟩, ⟨none, c, .kept⟩]] ∧ f.Loses f' ∧ f'.cache = Store.new ∧
    b.bundle.said = some s ∧ c.steps.head?.bind (·.parentSaid) = some s ∧
    f'.validatePlain Env.tight Serde.text sortedOrders m = .ok x ∧ x.bundle.said ≠ c.bundle.said := by
  have h := lostFiles_check
  unfold lostFilesCheck at h
  cases ht : lostFiles with
  | none => rw [ht] at h; cases h
  | some t =>
    obtain ⟨l, m, b, c, f, g⟩ := t
    rw [ht] at h
    simp only [Bool.and_eq_true, decide_eq_true_eq] at h
    obtain ⟨⟨⟨⟨⟨⟨⟨⟨h1, h2⟩, h3⟩, h4⟩, h5⟩, h6⟩, h7⟩, h8⟩, h9⟩ := h
    obtain ⟨e1, e2, e3, e4⟩ := lostFiles_built ht
    have hb : ∀ x ∈ ([⟨none, b, .kept⟩, ⟨none, c, .kept⟩] : List Job), ∀ y ∈ ([⟨none, b, .kept⟩, ⟨none, c, .kept⟩] : List Job), agreeB Env.tight x y = true := by
      intro x hx y hy
      simp only [List.mem_cons, List.not_mem_nil, or_false] at hx hy
      rcases hx with rfl | rfl <;> rcases hy with rfl | rfl <;> assumption
    have hm1 := C84_validated Env.tight Serde.text sortedOrders _ _ _ (.inl e1)
    have hm2 := C84_validated Env.tight Serde.text sortedOrders _ _ _ (.inl e3)
    have hJ : Jobs Env.tight [[⟨none, b, .kept⟩, ⟨none, c, .kept⟩]] := by
      refine ⟨?_, ?_, (agreeB_sound hb).2⟩
      · intro x hx
        have hx : x ∈ ([⟨none, b, .kept⟩, ⟨none, c, .kept⟩] : List Job) := hx
        simp only [List.mem_cons, List.not_mem_nil, or_false] at hx
        rcases hx with rfl | rfl
        · exact hm1
        · exact hm2
      · intro x hx
        have hx : x ∈ ([⟨none, b, .kept⟩, ⟨none, c, .kept⟩] : List Job) := hx
        simp only [List.mem_cons, List.not_mem_nil, or_false] at hx
        rcases hx with rfl | rfl
        · exact h5
        · exact h6
    obtain ⟨s, hs⟩ := Option.isSome_iff_exists.1 h8
    split at h9
    · next x hx =>
      exact ⟨l, m, b, c, x, g, Facade.new, s, tight_short, .more e1 e2 (.more e3 e4 .none), hJ, ⟨.inr rfl, .inr rfl, .inr ⟨rfl, rfl, rfl⟩⟩, rfl, hs, h7.trans hs, hx,
        fun e => by rw [decide_eq_true e] at h9; cases h9⟩
    · cases h9


end OCA
