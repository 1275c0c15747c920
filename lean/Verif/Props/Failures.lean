import Verif.Lemmas.FailureRels
import Verif.Props.Threads
/-!
# C86: writes that fail

The disk is full, a file is locked: any write of a `build` may fail. Here: what `build` then does, and what can be relied on afterwards.
-/
namespace OCA

/-! ## Specification -/

/-- The write of a record that others depend on: an operation, a bundle, an object, a record of the core model, a name. Not: the rows of the tables that
serve listing and searching, and the relations. -/
def Write.Lasting : Write → Prop
  | .db ns _ _ => ns ≠ .relations
  | .cache _ _ _ => True
  | _ => False

instance (w : Write) : Decidable w.Lasting := by
  cases w <;> (unfold Write.Lasting; infer_instance)

/-- The metadata of an overlay of the bundle. -/
def Bundle.OverlayMeta (b : Bundle) (w : Write) : Prop :=
  ∃ o ∈ b.overlays, ∃ s, o.said = some s ∧ w = .db .relations (metaKey s) [UInt8.ofNat o.body.kind.code]

/-- The same bundles, histories, objects, core model and names. -/
structure Facade.SameRecorded (f g : Facade) : Prop where
  db : ∀ ns k, ns ≠ .relations → g.db.get ns k = f.db.get ns k
  cache : ∀ ns k, g.cache.get ns k = f.cache.get ns k

/-- Storing a job was tried any number of times, each time with any writes failing, and came to any end. -/
inductive Facade.Retried (E : Env) (S : Serde) (j : Job) (f : Facade) : Facade → Prop
  | none : Retried E S j f f
  | more {g : Facade} {l : List (Write × Bool)} {r : Res Str Unit} : Retried E S j f g → (jobF E S j).Tries g l r → Retried E S j f (g.after l)

/-! ## When none fails -/

open Attempt in
theorem undisturbed_relationsF (O : SetOrder) (b : Bundle) : (relationsF O b).undisturbed = relationsOp O b := by
  have hw : ∀ s l, (writeRelsF O s l).undisturbed = writeRelsOp O s l := by
    intro s l
    unfold writeRelsF writeRelsOp
    rw [undisturbed_bind]
    rfl
  have hloop : ∀ bs cs (os : List Overlay) br cr, (relLoopF O bs cs br cr os).undisturbed = relLoopOp O bs cs br cr os := by
    intro bs cs os
    induction os with
    | nil => exact fun _ _ => rfl
    | cons o t ih =>
      intro br cr
      unfold relLoopF relLoopOp
      simp only [undisturbed_bind, undisturbed_of, undisturbed_look, hw, ih]
  unfold relationsF relationsOp metasF metasOp
  simp only [undisturbed_bind, undisturbed_of, undisturbed_look, hw, hloop, undisturbed_ask]
  rw [undisturbed_each (h := overlayMetaOp) fun o => by
    unfold overlayMetaF overlayMetaOp
    rw [undisturbed_bind]
    rfl]

open Attempt in
theorem undisturbed_buildF (E : Env) (S : Serde) (O : SetOrder) (b : Build) : (buildF E S O b).undisturbed = buildOp E S O b := by
  have hc : ∀ k r, (coreF k r).undisturbed = coreOp k r := by
    intro k r
    unfold coreF coreOp
    rw [undisturbed_bind]
    rfl
  unfold buildF buildOp
  simp only [undisturbed_bind, undisturbed_ignore, undisturbed_relationsF]
  have h1 : (cacheF E S b.bundle).undisturbed = cacheOp E S b.bundle := by
    unfold cacheF cacheOp
    simp only [undisturbed_bind, undisturbed_of, undisturbed_may]
  have h2 : (metaF b.bundle).undisturbed = metaOp b.bundle := by
    unfold metaF metaOp
    split
    · have h : ∀ l, (Attempt.each (fun r => Attempt.may (.ftsRow r)) l).undisturbed = Prog.each (fun r => Prog.emit (.ftsRow r)) l :=
        undisturbed_each fun _ => rfl
      simp only [undisturbed_bind, undisturbed_of, h]
    · rfl
  have h3 : (Attempt.each (stepF E S) b.steps).undisturbed = Prog.each (stepOp E S) b.steps := by
    refine undisturbed_each (fun st => ?_) _
    unfold stepF stepOp
    simp only [undisturbed_bind, undisturbed_of, undisturbed_must]
    rw [undisturbed_each (h := overlayOp S) fun o => by
      unfold overlayF overlayOp
      simp only [undisturbed_bind, undisturbed_of, undisturbed_must]]
  have h4 : (modelsF E S b.steps).undisturbed = modelsOp E S b.steps := by
    unfold modelsF modelsOp
    simp only [undisturbed_bind, undisturbed_of]
    have : ∀ ms : List ResultModel, (Attempt.each (modelF S) ms).undisturbed = Prog.each (modelOp S) ms := fun ms => undisturbed_each (fun m => by
      unfold modelF modelOp
      simp only [undisturbed_bind, hc]
      rw [undisturbed_each (h := fun o : ObjectModel => coreOp o.said (objectModelBytes o)) fun o => hc _ _,
        undisturbed_each (h := fun o : ObjectModel => coreOp o.said (objectModelBytes o)) fun o => hc _ _]) ms
    simp only [this]
  rw [h1, h2, h3, h4]

open Attempt in
theorem undisturbed_jobF (E : Env) (S : Serde) (j : Job) (f : Facade) : (jobF E S j).undisturbed.run f = f.store E S j >>= fun g => .ok (g, ()) := by
  unfold jobF Facade.store
  rw [undisturbed_bind, Prog.run_bind]
  simp only [undisturbed_buildF]
  cases j.name with
  | none =>
    show (buildOp E S j.order j.build).run f = _
    rw [run_buildOp]
    rfl
  | some n =>
    show ((Attempt.each _ [n]).undisturbed.run f >>= _) = _
    simp only [Attempt.each]
    rw [undisturbed_bind, Prog.run_bind, undisturbed_bind, Prog.run_bind, undisturbed_of, Prog.run_of]
    cases j.build.bundle.said with
    | none => rfl
    | some s =>
      simp only [Res.unwrap, Res.bind_ok, undisturbed_must, Prog.run_emit, undisturbed_pure, Prog.run_pure, run_buildOp]
      unfold Store.saveRefn
      rw [Store.put_set]
      rfl

/-- **C86** When no write fails, this is the `build` of the other theorems. -/
theorem C86_undisturbed (E : Env) (S : Serde) (j : Job) (f g : Facade) :
    f.store E S j = .ok g ↔ ∃ l, (jobF E S j).Tries f l (.ok ()) ∧ (∀ p ∈ l, p.2 = true) ∧ f.after l = g := by
  have hr := undisturbed_jobF E S j f
  rcases hu : (jobF E S j).undisturbed f with ⟨ws, r⟩
  constructor
  · intro h
    rw [h] at hr
    have hok : r = .ok () := by
      unfold Prog.run at hr
      rw [hu] at hr
      cases r with
      | ok u => rfl
      | err e => cases hr
      | panic => cases hr
    subst hok
    refine ⟨ws.map fun w => (w, true), (Attempt.tries_all _ _ _ _).2 hu, ?_, ?_⟩
    · intro p hp
      obtain ⟨w, -, rfl⟩ := List.mem_map.1 hp
      rfl
    · unfold Facade.after
      rw [Attempt.landed_all]
      have := Prog.run_writes hr
      rw [hu] at this
      exact this.symm
  · rintro ⟨l, ht, hl, rfl⟩
    have e : l = (l.map Prod.fst).map fun w => (w, true) := by
      rw [List.map_map]
      conv => lhs; rw [← List.map_id l]
      refine List.map_congr_left fun p hp => ?_
      obtain ⟨w, b⟩ := p
      have : b = true := hl _ hp
      subst this
      rfl
    rw [e] at ht
    have hu' := (Attempt.tries_all _ _ _ _).1 ht
    have e2 : f.after l = f.writes (l.map Prod.fst) := by
      unfold Facade.after
      rw [e, Attempt.landed_all, ← e]
    rw [e2]
    unfold Prog.run at hr
    rw [hu'] at hr
    cases hs : f.store E S j with
    | ok g => rw [hs] at hr; cases hr; rfl
    | err x => rw [hs] at hr; cases hr
    | panic => rw [hs] at hr; cases hr

/-! ## The records -/

/-- The lasting writes of the program are these: it tries them in this order, stops at the first that fails, and ends well only if it made all. -/
structure Attempt.Fixed (m : Attempt Unit) (W : List Write) (f : Facade) : Prop where
  order : ∀ l r, m.Tries f l r → (l.map Prod.fst).filter (fun w => decide w.Lasting) <+: W
  all : ∀ l, m.Tries f l (.ok ()) → (landed l).filter (fun w => decide w.Lasting) = W
  stops : ∀ l r, m.Tries f l r → ∀ w, (w, false) ∈ l → w.Lasting → r = .panic ∧ l.getLast? = some (w, false)
  good : ∀ l e, ¬ m.Tries f l (.err e)

namespace Attempt

theorem filter_none {l : List Write} (h : ∀ w ∈ l, ¬ w.Lasting) : l.filter (fun w => decide w.Lasting) = [] := by
  rw [List.filter_eq_nil_iff]
  intro w hw
  simpa using h w hw

theorem Fixed.bind {m : Attempt Unit} {k : Unit → Attempt Unit} {W1 W2 : List Write} {f : Facade} (h1 : m.Fixed W1 f)
    (h2 : ∀ l, m.Tries f l (.ok ()) → (k ()).Fixed W2 (f.after l)) : (m >>= k).Fixed (W1 ++ W2) f := by
  refine ⟨?_, ?_, ?_, ?_⟩
  · intro l r h
    rcases tries_bind h with ⟨l1, a, l2, rfl, t1, t2⟩ | ⟨e, rfl, t⟩ | ⟨rfl, t⟩
    · have hp := (h2 l1 t1).order l2 r t2
      have e1 : (l1.map Prod.fst).filter (fun w => decide w.Lasting) = W1 := by
        have ha := h1.all l1 t1
        rw [← ha]
        have hs := h1.stops l1 _ t1
        unfold landed
        clear ha t1 t2 h hp
        induction l1 with
        | nil => rfl
        | cons p t ih =>
          obtain ⟨w, b⟩ := p
          have ih := ih fun w hw hl => by
            have := (hs w (.tail _ hw) hl).1
            cases this
          cases b with
          | true => simp only [List.map_cons, List.filterMap_cons, List.filter_cons, ih]
          | false =>
            have : ¬ w.Lasting := fun hl => by
              have := (hs w (.head _) hl).1
              cases this
            simp only [List.map_cons, List.filterMap_cons, List.filter_cons, ih, this, decide_false, Bool.false_eq_true, if_false]
      rw [List.map_append, List.filter_append, e1]
      exact (List.prefix_append_right_inj _).2 hp
    · exact (h1.good l e t).elim
    · exact (h1.order l _ t).trans (List.prefix_append _ _)
  · intro l h
    rcases tries_bind h with ⟨l1, a, l2, rfl, t1, t2⟩ | ⟨e, he, t⟩ | ⟨he, t⟩
    · rw [landed_append, List.filter_append, h1.all l1 t1, (h2 l1 t1).all l2 t2]
    · cases he
    · cases he
  · intro l r h w hw hl
    rcases tries_bind h with ⟨l1, a, l2, rfl, t1, t2⟩ | ⟨e, rfl, t⟩ | ⟨rfl, t⟩
    · rcases List.mem_append.1 hw with hw | hw
      · cases (h1.stops l1 _ t1 w hw hl).1
      · obtain ⟨e1, e2⟩ := (h2 l1 t1).stops l2 r t2 w hw hl
        exact ⟨e1, by rw [List.getLast?_append, e2]; rfl⟩
    · exact (h1.good l e t).elim
    · exact h1.stops l _ t w hw hl
  · intro l e h
    rcases tries_bind h with ⟨l1, a, l2, rfl, t1, t2⟩ | ⟨e, _, t⟩ | ⟨he, t⟩
    · exact (h2 l1 t1).good l2 e t2
    · exact h1.good l e t
    · cases he

theorem Must.fixed {m : Attempt Unit} (hm : m.Must) {f0 : Facade} {ws : List Write} (hu : m.undisturbed f0 = (ws, .ok ())) (f : Facade) :
    m.Fixed (ws.filter fun w => decide w.Lasting) f := by
  have hfst : ∀ l : List Write, (l.map fun w => (w, true)).map Prod.fst = l := fun l => by
    rw [List.map_map]
    exact List.map_id l
  refine ⟨?_, ?_, ?_, ?_⟩
  · intro l r h
    rcases hm.tries hu h with ⟨-, rfl⟩ | ⟨-, ws', w, t, rfl, rfl⟩
    · rw [hfst]
      exact List.prefix_refl _
    · rw [List.map_append, hfst]
      show ((ws' ++ [w]).filter _) <+: _
      have : ws' ++ w :: t = (ws' ++ [w]) ++ t := by simp
      rw [this, List.filter_append (l₂ := t)]
      exact List.prefix_append _ _
  · intro l h
    rcases hm.tries hu h with ⟨-, rfl⟩ | ⟨e, -⟩
    · rw [landed_all]
    · cases e
  · intro l r h w hw _
    rcases hm.tries hu h with ⟨-, rfl⟩ | ⟨e, ws', x, t, rfl, rfl⟩
    · obtain ⟨y, -, hy⟩ := List.mem_map.1 hw
      cases hy
    · rcases List.mem_append.1 hw with hw | hw
      · obtain ⟨y, -, hy⟩ := List.mem_map.1 hw
        cases hy
      · cases hw with
        | head => exact ⟨e, by simp⟩
        | tail _ h => cases h
  · intro l e h
    rcases hm.tries hu h with ⟨he, -⟩ | ⟨he, -⟩ <;> cases he

/-- a program without lasting writes -/
theorem Tried.fixed {m : Attempt Unit} (hm : m.Tried fun w => ¬ w.Lasting) {f : Facade} (hg : ∀ l e, ¬ m.Tries f l (.err e)) : m.Fixed [] f := by
  refine ⟨?_, ?_, ?_, hg⟩
  · intro l r h
    rw [filter_none]
    · exact List.prefix_refl _
    · intro w hw
      obtain ⟨p, hp, rfl⟩ := List.mem_map.1 hw
      exact hm.tries h p hp
  · intro l h
    exact filter_none fun w hw => hm.tries h (w, true) (mem_landed.1 hw)
  · intro l r h w hw hl
    exact (hm.tries h _ hw hl).elim

end Attempt

/-! ## The whole -/

theorem gives_relationsF (O : SetOrder) (b : Bundle) : (relationsF O b).Gives b.OverlayMeta := by
  have hw : ∀ s l, (writeRelsF O s l).Gives b.OverlayMeta := fun s l => (Attempt.Gives.of _).bind fun v => .ask _
  have hloop : ∀ (os : List Overlay) (bs cs : Said) (br cr : List RelObj), (relLoopF O bs cs br cr os).Gives b.OverlayMeta := by
    intro os bs cs
    induction os with
    | nil => exact fun _ _ => trivial
    | cons o t ih =>
      intro br cr
      unfold relLoopF
      exact (Attempt.Gives.of _).bind fun s => (Attempt.Gives.look _).bind fun _ => (Attempt.Gives.look _).bind fun _ => (Attempt.Gives.look _).bind fun _ =>
        (Attempt.Gives.look _).bind fun _ => (hw s _).bind fun _ => ih _ _
  unfold relationsF
  refine Attempt.Gives.bind ?_ fun _ => (Attempt.Gives.of _).bind fun bs => (Attempt.Gives.of _).bind fun cs => (Attempt.Gives.look _).bind fun _ =>
    (Attempt.Gives.look _).bind fun _ => (Attempt.Gives.look _).bind fun _ => (Attempt.Gives.look _).bind fun _ => (hloop _ _ _ _ _).bind fun r =>
      (hw bs _).bind fun _ => hw cs _
  unfold metasF
  refine (Attempt.Gives.of _).bind fun s => (Attempt.Gives.ask _).bind fun _ => (Attempt.Gives.of _).bind fun c => (Attempt.Gives.ask _).bind fun _ =>
    .each _ fun o h => ?_
  unfold overlayMetaF
  cases hs : o.said with
  | none => trivial
  | some s => exact .may ⟨o, h, s, hs, rfl⟩


theorem Attempt.undisturbed_bind_ok {α β : Type} {m : Attempt α} {k : α → Attempt β} {f : Facade} {ws : List Write} {b : β}
    (h : (m >>= k).undisturbed f = (ws, .ok b)) :
    ∃ ws1 a ws2, m.undisturbed f = (ws1, .ok a) ∧ (k a).undisturbed (f.writes ws1) = (ws2, .ok b) ∧ ws = ws1 ++ ws2 := by
  rw [Attempt.undisturbed_bind] at h
  have h : Prog.next m.undisturbed (fun a => (k a).undisturbed) f = (ws, .ok b) := h
  unfold Prog.next at h
  rcases hm : m.undisturbed f with ⟨ws1, r⟩
  rw [hm] at h
  cases r with
  | ok a =>
    simp only at h
    rcases hk : (k a).undisturbed (f.writes ws1) with ⟨ws2, r2⟩
    rw [hk] at h
    cases h
    exact ⟨ws1, a, ws2, rfl, hk, rfl⟩
  | err e => cases h
  | panic => cases h

/-- the parts of a run without failures -/
structure JobRun (E : Env) (S : Serde) (j : Job) (f : Facade) (wn wc wm ws wr wo : List Write) : Prop where
  name : (nameF j).undisturbed f = (wn, .ok ())
  cache : (cacheF E S j.build.bundle).undisturbed (f.writes wn) = (wc, .ok ())
  search : (metaF j.build.bundle).undisturbed ((f.writes wn).writes wc) = (wm, .ok ())
  steps : (Attempt.each (stepF E S) j.build.steps).undisturbed (((f.writes wn).writes wc).writes wm) = (ws, .ok ())
  relations : (Attempt.ignore (relationsF j.order j.build.bundle)).undisturbed ((((f.writes wn).writes wc).writes wm).writes ws) = (wr, .ok ())
  models : (modelsF E S j.build.steps).undisturbed (((((f.writes wn).writes wc).writes wm).writes ws).writes wr) = (wo, .ok ())

theorem jobRun {E : Env} {S : Serde} {j : Job} {f g : Facade} (h : f.store E S j = .ok g) : ∃ wn wc wm ws wr wo, JobRun E S j f wn wc wm ws wr wo ∧
    (jobF E S j).undisturbed f = (wn ++ (wc ++ (wm ++ (ws ++ (wr ++ wo)))), .ok ()) ∧ g = f.writes (wn ++ (wc ++ (wm ++ (ws ++ (wr ++ wo))))) := by
  have hr := undisturbed_jobF E S j f
  rw [h] at hr
  have hw := Prog.run_writes hr
  rcases hu : (jobF E S j).undisturbed f with ⟨w, r⟩
  rw [hu] at hw
  have hok : r = .ok () := by
    unfold Prog.run at hr
    rw [hu] at hr
    cases r with
    | ok u => rfl
    | err e => cases hr
    | panic => cases hr
  subst hok
  rw [jobF_eq] at hu
  obtain ⟨wn, _, w1, hn, h1, rfl⟩ := Attempt.undisturbed_bind_ok hu
  unfold buildF at h1
  obtain ⟨wc, _, w2, hc, h2, rfl⟩ := Attempt.undisturbed_bind_ok h1
  obtain ⟨wm, _, w3, hm, h3, rfl⟩ := Attempt.undisturbed_bind_ok h2
  obtain ⟨ws, _, w4, hs, h4, rfl⟩ := Attempt.undisturbed_bind_ok h3
  obtain ⟨wr, _, wo, hre, ho, rfl⟩ := Attempt.undisturbed_bind_ok h4
  exact ⟨wn, wc, wm, ws, wr, wo, ⟨hn, hc, hm, hs, hre, ho⟩, rfl, hw⟩

def lastOf (ws : List Write) : List Write := ws.filter fun w => decide w.Lasting

theorem lasting_nameF (j : Job) : (nameF j).Tried Write.Lasting := .each _ fun _ _ => .need fun _ _ => .must (by intro h; cases h)
theorem lasting_stepF (E : Env) (S : Serde) (st : BuildStep) : (stepF E S st).Tried Write.Lasting :=
  .of fun r hr => .need fun s hs => (Attempt.Tried.must (by intro h; cases h)).bind fun _ => (Attempt.Tried.must trivial).bind fun _ =>
    .need fun c hc => (Attempt.Tried.must trivial).bind fun _ => .each _ fun o ho => .need fun s hs => .must trivial
theorem lasting_modelsF (E : Env) (S : Serde) (steps : List BuildStep) : (modelsF E S steps).Tried Write.Lasting :=
  tried_modelsF E S steps fun _ _ h => by cases h
theorem fleeting_cacheF (E : Env) (S : Serde) (b : Bundle) : (cacheF E S b).Tried fun w => ¬ w.Lasting :=
  .need fun s hs => (Attempt.Tried.may id).bind fun _ => .need fun c hc => .may id
theorem fleeting_metaF (b : Bundle) : (metaF b).Tried fun w => ¬ w.Lasting := by
  unfold metaF
  split
  · exact .need fun s hs => .each _ fun r hr => .may id
  · trivial
theorem fleeting_relationsF (O : SetOrder) (b : Bundle) : (relationsF O b).Tried fun w => ¬ w.Lasting :=
  tried_relationsF O b (fun _ _ _ h => h rfl) (fun _ _ _ h => h rfl)

theorem Attempt.Careless.good {m : Attempt Unit} (hm : m.Careless) {f0 : Facade} {ws : List Write} (hu : m.undisturbed f0 = (ws, .ok ())) {f : Facade}
    {l : List (Write × Bool)} {r : Res Str Unit} (h : m.Tries f l r) : r = .ok () := by
  have := hm.tries f0 h
  rw [hu] at this
  exact (Prod.mk.inj this).2.symm

theorem fixed_jobF {E : Env} {S : Serde} {j : Job} {f : Facade} {wn wc wm ws wr wo : List Write} (h : JobRun E S j f wn wc wm ws wr wo) (f' : Facade) :
    (jobF E S j).Fixed (lastOf wn ++ (lastOf ws ++ lastOf wo)) f' := by
  rw [jobF_eq]
  refine ((must_nameF j).fixed h.name f').bind fun _ _ => ?_
  unfold buildF
  rw [← List.nil_append (lastOf ws ++ lastOf wo)]
  refine (Attempt.Tried.fixed (fleeting_cacheF E S _) fun l e t => ?_).bind fun _ _ => ?_
  · cases (careless_cacheF E S _).good h.cache t
  rw [← List.nil_append (lastOf ws ++ lastOf wo)]
  refine (Attempt.Tried.fixed (fleeting_metaF _) fun l e t => ?_).bind fun _ _ => ?_
  · cases (careless_metaF _).good h.search t
  refine (Attempt.Must.fixed (.each (must_stepF E S) _) h.steps _).bind fun _ _ => ?_
  rw [← List.nil_append (lastOf wo)]
  refine (Attempt.Tried.fixed (fleeting_relationsF _ _).ignore fun l e t => ?_).bind fun _ _ => (must_modelsF E S _).fixed h.models _
  rcases Attempt.tries_ignore t with ⟨e, -⟩ | ⟨e, -⟩ <;> cases e

/-! ## What is recorded -/

theorem Facade.SameRecorded.refl (f : Facade) : f.SameRecorded f := ⟨fun _ _ _ => rfl, fun _ _ => rfl⟩
theorem Facade.SameRecorded.symm {f g : Facade} (h : f.SameRecorded g) : g.SameRecorded f := ⟨fun ns k hn => (h.db ns k hn).symm, fun ns k => (h.cache ns k).symm⟩
theorem Facade.SameRecorded.trans {f g e : Facade} (h : f.SameRecorded g) (h' : g.SameRecorded e) : f.SameRecorded e :=
  ⟨fun ns k hn => (h'.db ns k hn).trans (h.db ns k hn), fun ns k => (h'.cache ns k).trans (h.cache ns k)⟩

/-- a difference only where one of these writes is still to come -/
def Off (W : List Write) (f g : Facade) : Prop :=
  (∀ ns k, ns ≠ .relations → g.db.get ns k = f.db.get ns k ∨ ∃ v, .db ns k v ∈ W) ∧ ∀ ns k, g.cache.get ns k = f.cache.get ns k ∨ ∃ v, .cache ns k v ∈ W

theorem Off.write {w : Write} {W : List Write} {f g : Facade} (h : Off (w :: W) f g) : Off W (f.write w) (g.write w) := by
  refine ⟨fun ns k hn => ?_, fun ns k => ?_⟩
  · by_cases he : ∃ v, w = .db ns k v
    · obtain ⟨v, rfl⟩ := he
      refine .inl ?_
      show (g.db.set ns k v).get ns k = (f.db.set ns k v).get ns k
      rw [Store.get_set, Store.get_set, if_pos ⟨rfl, rfl⟩, if_pos ⟨rfl, rfl⟩]
    · have h1 : ∀ e : Facade, (e.write w).db.get ns k = e.db.get ns k := by
        intro e
        cases w with
        | db n x v =>
          show (e.db.set n x v).get ns k = _
          rw [Store.get_set, if_neg]
          rintro ⟨rfl, rfl⟩
          exact he ⟨v, rfl⟩
        | _ => rfl
      rw [h1, h1]
      rcases h.1 ns k hn with h | ⟨v, hv⟩
      · exact .inl h
      · cases hv with
        | head => exact (he ⟨v, rfl⟩).elim
        | tail _ hv => exact .inr ⟨v, hv⟩
  · by_cases he : ∃ v, w = .cache ns k v
    · obtain ⟨v, rfl⟩ := he
      refine .inl ?_
      show (g.cache.set ns k v).get ns k = (f.cache.set ns k v).get ns k
      rw [Store.get_set, Store.get_set, if_pos ⟨rfl, rfl⟩, if_pos ⟨rfl, rfl⟩]
    · have h1 : ∀ e : Facade, (e.write w).cache.get ns k = e.cache.get ns k := by
        intro e
        cases w with
        | cache n x v =>
          show (e.cache.set n x v).get ns k = _
          rw [Store.get_set, if_neg]
          rintro ⟨rfl, rfl⟩
          exact he ⟨v, rfl⟩
        | _ => rfl
      rw [h1, h1]
      rcases h.2 ns k with h | ⟨v, hv⟩
      · exact .inl h
      · cases hv with
        | head => exact (he ⟨v, rfl⟩).elim
        | tail _ hv => exact .inr ⟨v, hv⟩

theorem Off.skip {w : Write} {W : List Write} {f g : Facade} (h : Off W f g) (hw : ¬ w.Lasting) : Off W f (g.write w) := by
  have h1 : (∀ ns k, ns ≠ .relations → (g.write w).db.get ns k = g.db.get ns k) ∧ ∀ ns k, (g.write w).cache.get ns k = g.cache.get ns k := by
    cases w with
    | db n x v =>
      have hn : n = .relations := Classical.byContradiction fun hc => hw hc
      refine ⟨fun ns k hns => ?_, fun _ _ => rfl⟩
      show (g.db.set n x v).get ns k = _
      rw [Store.get_set, if_neg]
      rintro ⟨rfl, rfl⟩
      exact hns hn
    | cache n x v => exact (hw trivial).elim
    | _ => exact ⟨fun _ _ _ => rfl, fun _ _ => rfl⟩
  exact ⟨fun ns k hn => by rw [h1.1 ns k hn]; exact h.1 ns k hn, fun ns k => by rw [h1.2 ns k]; exact h.2 ns k⟩

theorem Off.writes {ws : List Write} : ∀ {f g : Facade}, Off (lastOf ws) f g → (f.writes (lastOf ws)).SameRecorded (g.writes ws) := by
  induction ws with
  | nil =>
    refine fun h => ⟨fun ns k hn => ?_, fun ns k => ?_⟩
    · rcases h.1 ns k hn with h | ⟨v, hv⟩
      · exact h
      · cases hv
    · rcases h.2 ns k with h | ⟨v, hv⟩
      · exact h
      · cases hv
  | cons w t ih =>
    intro f g h
    by_cases hw : w.Lasting
    · have e : lastOf (w :: t) = w :: lastOf t := by simp [lastOf, List.filter_cons, hw]
      rw [e] at h ⊢
      exact ih h.write
    · have e : lastOf (w :: t) = lastOf t := by simp [lastOf, List.filter_cons, hw]
      rw [e] at h ⊢
      exact ih (h.skip hw)

theorem lastOf_append (a b : List Write) : lastOf (a ++ b) = lastOf a ++ lastOf b := List.filter_append ..

theorem lastOf_none {ws : List Write} (h : ∀ w ∈ ws, ¬ w.Lasting) : lastOf ws = [] := Attempt.filter_none h

theorem Attempt.Tried.undisturbed {Q : Write → Prop} {m : Attempt Unit} (hm : m.Tried Q) {f : Facade} {ws : List Write} {r : Res Str Unit}
    (hu : m.undisturbed f = (ws, r)) : ∀ w ∈ ws, Q w := by
  intro w hw
  exact hm.tries ((Attempt.tries_all _ _ _ _).2 hu) (w, true) (List.mem_map.2 ⟨w, hw, rfl⟩)

theorem JobRun.lasting {E : Env} {S : Serde} {j : Job} {f : Facade} {wn wc wm ws wr wo : List Write} (h : JobRun E S j f wn wc wm ws wr wo) :
    lastOf (wn ++ (wc ++ (wm ++ (ws ++ (wr ++ wo))))) = lastOf wn ++ (lastOf ws ++ lastOf wo) := by
  simp only [lastOf_append]
  rw [lastOf_none ((fleeting_cacheF E S _).undisturbed h.cache), lastOf_none ((fleeting_metaF _).undisturbed h.search),
    lastOf_none ((fleeting_relationsF _ _).ignore.undisturbed h.relations)]
  rfl

theorem retried_off {E : Env} {S : Serde} {j : Job} {W : List Write} (hF : ∀ f, (jobF E S j).Fixed W f) {f g : Facade} (h : Facade.Retried E S j f g) : Off W f g := by
  induction h with
  | none => exact ⟨fun _ _ _ => .inl rfl, fun _ _ => .inl rfl⟩
  | @more g l r _ ht ih =>
    have hin : ∀ w ∈ landed l, w.Lasting → w ∈ W := by
      intro w hw hl
      refine ((hF g).order l r ht).subset ?_
      rw [List.mem_filter]
      exact ⟨List.mem_map.2 ⟨(w, true), Attempt.mem_landed.1 hw, rfl⟩, decide_eq_true hl⟩
    refine ⟨fun ns k hn => ?_, fun ns k => ?_⟩
    · rcases g.writes_db (landed l) ns k with h | ⟨v, hv, -⟩
      · unfold Facade.after
        rw [h]
        exact ih.1 ns k hn
      · exact .inr ⟨v, hin _ hv hn⟩
    · rcases g.writes_cache (landed l) ns k with h | ⟨v, hv, -⟩
      · unfold Facade.after
        rw [h]
        exact ih.2 ns k
      · exact .inr ⟨v, hin _ hv trivial⟩

theorem stepsLoop_recorded {f g : Facade} (h : f.SameRecorded g) (E : Env) (S : Serde) (fuel : Nat) (s : Str) (acc : List BuildStep) :
    stepsLoop E S g fuel s acc = stepsLoop E S f fuel s acc := by
  induction fuel generalizing s acc with
  | zero => rfl
  | succ n ih =>
    have e1 : extractOperation E S g.db s = extractOperation E S f.db s := by
      unfold extractOperation
      rw [h.db .oca _ (by intro h; cases h)]
    have e2 : fetchBundle E S g.cache s = fetchBundle E S f.cache s := by
      unfold fetchBundle
      rw [h.cache]
    unfold stepsLoop
    rw [e1, e2]
    simp only [ih]

/-- **C86** If `build` returns, all is recorded, whichever writes failed, and however often it was tried before, and however these attempts ended:
every bundle, every history, every object, the core model and every name is what it is when no write ever fails. -/
theorem C86_returned (E : Env) (S : Serde) (j : Job) (f g0 g : Facade) (l : List (Write × Bool)) (h0 : f.store E S j = .ok g0)
    (hr : Facade.Retried E S j f g) (h : (jobF E S j).Tries g l (.ok ())) :
    g0.SameRecorded (g.after l) ∧ (∀ s, fetchBundle E S (g.after l).cache s = fetchBundle E S g0.cache s) ∧
    ∀ fuel s, (g.after l).steps E S fuel s = g0.steps E S fuel s := by
  obtain ⟨wn, wc, wm, ws, wr, wo, hj, hu, rfl⟩ := jobRun h0
  have hF := fixed_jobF hj
  have hall := (hF g).all l h
  have hoff := retried_off hF hr
  rw [← hall] at hoff
  have h1 := Off.writes (ws := landed l) hoff
  have h2 := Off.writes (ws := wn ++ (wc ++ (wm ++ (ws ++ (wr ++ wo))))) (f := f) (g := f) ⟨fun _ _ _ => .inl rfl, fun _ _ => .inl rfl⟩
  rw [hj.lasting, ← hall] at h2
  have hs : (f.writes (wn ++ (wc ++ (wm ++ (ws ++ (wr ++ wo)))))).SameRecorded (g.after l) := h2.symm.trans h1
  refine ⟨hs, fun s => ?_, fun fuel s => stepsLoop_recorded hs E S fuel s []⟩
  unfold fetchBundle
  rw [hs.cache]

theorem Facade.writes_db_congr (ws : List Write) : ∀ {f g : Facade}, f.db = g.db → (f.writes ws).db = (g.writes ws).db := by
  induction ws with
  | nil => exact fun h => h
  | cons w t ih =>
    intro f g h
    rw [Facade.writes_cons, Facade.writes_cons]
    refine ih ?_
    cases w with
    | db n x v => show f.db.set n x v = g.db.set n x v; rw [h]
    | _ => exact h

theorem Facade.writes_rows_db (ws : List Write) : ∀ {f : Facade}, (∀ w ∈ ws, ∀ n k v, w ≠ .db n k v) → (f.writes ws).db = f.db := by
  induction ws with
  | nil => exact fun _ => rfl
  | cons w t ih =>
    intro f h
    rw [Facade.writes_cons, ih fun x hx => h x (.tail _ hx)]
    cases w with
    | db n x v => exact (h _ (.head _) n x v rfl).elim
    | _ => rfl

theorem Attempt.tries_bind_panic {α β : Type} {m : Attempt α} {k : α → Attempt β} {f : Facade} {l : List (Write × Bool)} (h : (m >>= k).Tries f l .panic) :
    m.Tries f l .panic ∨ ∃ l1 a l2, l = l1 ++ l2 ∧ m.Tries f l1 (.ok a) ∧ (k a).Tries (f.after l1) l2 .panic := by
  rcases Attempt.tries_bind h with h | ⟨e, he, -⟩ | ⟨-, h⟩
  · exact .inr h
  · cases he
  · exact .inl h

theorem rows_cacheF (E : Env) (S : Serde) (b : Bundle) : (cacheF E S b).Tried fun w => ∀ n k v, w ≠ .db n k v :=
  .need fun s hs => (Attempt.Tried.may (by intro _ _ _ h; cases h)).bind fun _ => .need fun c hc => .may (by intro _ _ _ h; cases h)
theorem rows_metaF (b : Bundle) : (metaF b).Tried fun w => ∀ n k v, w ≠ .db n k v := by
  unfold metaF
  split
  · exact .need fun s hs => .each _ fun r hr => .may (by intro _ _ _ h; cases h)
  · trivial

theorem Attempt.Must.landed {m : Attempt Unit} (hm : m.Must) {f f0 : Facade} {ws : List Write} (hu : m.undisturbed f0 = (ws, .ok ()))
    {l : List (Write × Bool)} (h : m.Tries f l (.ok ())) : landed l = ws := by
  rcases hm.tries hu h with ⟨-, rfl⟩ | ⟨e, -⟩
  · exact landed_all ws
  · cases e

/-- when `add_relations` begins, the database is that of a run without failures -/
theorem before_relations {E : Env} {S : Serde} {j : Job} {f : Facade} {wn wc wm ws wr wo : List Write} (hj : JobRun E S j f wn wc wm ws wr wo)
    {ln lc lm ls : List (Write × Bool)} (hn : (nameF j).Tries f ln (.ok ())) (hc : (cacheF E S j.build.bundle).Tries (f.after ln) lc (.ok ()))
    (hm : (metaF j.build.bundle).Tries ((f.after ln).after lc) lm (.ok ()))
    (hs : (Attempt.each (stepF E S) j.build.steps).Tries (((f.after ln).after lc).after lm) ls (.ok ())) :
    ((((f.after ln).after lc).after lm).after ls).db = ((((f.writes wn).writes wc).writes wm).writes ws).db := by
  have en : landed ln = wn := (must_nameF j).landed hj.name hn
  have es : landed ls = ws := (Attempt.Must.each (must_stepF E S) _).landed hj.steps hs
  have h1 : ((f.writes wn).writes wc).db = (f.writes wn).db := Facade.writes_rows_db _ ((rows_cacheF E S _).undisturbed hj.cache)
  have h2 : (((f.writes wn).writes wc).writes wm).db = ((f.writes wn).writes wc).db := Facade.writes_rows_db _ ((rows_metaF _).undisturbed hj.search)
  have h3 : ((f.after ln).after lc).db = (f.after ln).db :=
    Facade.writes_rows_db _ fun w hw => (rows_cacheF E S _).tries hc (w, true) (Attempt.mem_landed.1 hw)
  have h4 : (((f.after ln).after lc).after lm).db = ((f.after ln).after lc).db :=
    Facade.writes_rows_db _ fun w hw => (rows_metaF _).tries hm (w, true) (Attempt.mem_landed.1 hw)
  show ((((f.after ln).after lc).after lm).writes (landed ls)).db = _
  rw [es]
  refine Facade.writes_db_congr ws ?_
  rw [h4, h3, h2, h1]
  show (f.writes (landed ln)).db = _
  rw [en]

/-- **C86** How `build` ends when writes fail, if it returns when none does. It never gives an error. A record that cannot be written ends it there, by an
abort: nothing is tried after. And it aborts only when that happens or when the metadata of an overlay cannot be written. -/
theorem C86_how_it_ends (E : Env) (S : Serde) (j : Job) (f g0 : Facade) (l : List (Write × Bool)) (r : Res Str Unit) (h0 : f.store E S j = .ok g0)
    (h : (jobF E S j).Tries f l r) :
    (∀ e, r ≠ .err e) ∧ (∀ w, (w, false) ∈ l → w.Lasting → r = .panic ∧ l.getLast? = some (w, false)) ∧
    (r = .panic → ∃ w, (w, false) ∈ l ∧ (w.Lasting ∨ j.build.bundle.OverlayMeta w)) := by
  obtain ⟨wn, wc, wm, ws, wr, wo, hj, hu, -⟩ := jobRun h0
  have hF := fixed_jobF hj f
  refine ⟨fun e he => ?_, hF.stops l r h, ?_⟩
  · subst he
    exact hF.good l e h
  rintro rfl
  have must : ∀ {m : Attempt Unit} {f0 f : Facade} {ws : List Write} {l : List (Write × Bool)}, m.Must → m.Tried Write.Lasting →
      m.undisturbed f0 = (ws, .ok ()) → m.Tries f l .panic → ∃ w, (w, false) ∈ l ∧ (w.Lasting ∨ j.build.bundle.OverlayMeta w) := by
    intro m f0 f ws l hm hl hu h
    rcases hm.tries hu h with ⟨e, -⟩ | ⟨-, a, w, t, -, rfl⟩
    · cases e
    · exact ⟨w, by simp, .inl (hl.tries h (w, false) (by simp))⟩
  rw [jobF_eq] at h
  rcases Attempt.tries_bind_panic h with h | ⟨ln, _, l, rfl, hn, h⟩
  · exact must (must_nameF j) (lasting_nameF j) hj.name h
  unfold buildF at h
  rcases Attempt.tries_bind_panic h with h | ⟨lc, _, l, rfl, hc, h⟩
  · cases (careless_cacheF E S _).good hj.cache h
  rcases Attempt.tries_bind_panic h with h | ⟨lm, _, l, rfl, hm, h⟩
  · cases (careless_metaF _).good hj.search h
  have up : ∀ {a b c : List (Write × Bool)} {x : List (Write × Bool)}, (∃ w, (w, false) ∈ x ∧ (w.Lasting ∨ j.build.bundle.OverlayMeta w)) →
      ∃ w, (w, false) ∈ a ++ (b ++ (c ++ x)) ∧ (w.Lasting ∨ j.build.bundle.OverlayMeta w) := by
    rintro a b c x ⟨w, hw, h⟩
    exact ⟨w, by simp [hw], h⟩
  refine up ?_
  rcases Attempt.tries_bind_panic h with h | ⟨ls, _, l, rfl, hs, h⟩
  · exact must (.each (must_stepF E S) _) (.each _ fun st _ => lasting_stepF E S st) hj.steps h
  have hdb := before_relations hj hn hc hm hs
  have up : ∀ {a : List (Write × Bool)} {x : List (Write × Bool)}, (∃ w, (w, false) ∈ x ∧ (w.Lasting ∨ j.build.bundle.OverlayMeta w)) →
      ∃ w, (w, false) ∈ a ++ x ∧ (w.Lasting ∨ j.build.bundle.OverlayMeta w) := by
    rintro a x ⟨w, hw, h⟩
    exact ⟨w, by simp [hw], h⟩
  refine up ?_
  rcases Attempt.tries_bind h with ⟨lr, _, l, rfl, -, h⟩ | ⟨e, he, -⟩ | ⟨-, h⟩
  · exact up (must (must_modelsF E S _) (lasting_modelsF E S _) hj.models h)
  · cases he
  · rcases Attempt.tries_ignore h with ⟨e, -⟩ | ⟨-, h⟩
    · cases e
    · rcases (gives_relationsF _ _).aborts h with hp | ⟨w, hw, hd⟩
      · exfalso
        rcases hu' : (relationsF j.order j.build.bundle).undisturbed ((((f.after ln).after lc).after lm).after ls) with ⟨x, y⟩
        rw [hu'] at hp
        have hp : y = .panic := hp
        subst hp
        have h2 := (Attempt.tries_all _ _ _ _).1 (((Attempt.tries_all _ _ _ _).2 hu').database hdb)
        have h3 := hj.relations
        rw [Attempt.undisturbed_ignore] at h3
        unfold Prog.ignore at h3
        rw [h2] at h3
        cases h3
      · exact ⟨w, hw, .inr hd⟩

/-! ## Nothing is lost -/

theorem Facade.writes_rows (f : Facade) (ws : List Write) :
    (∀ r ∈ (f.writes ws).bundles, r ∈ f.bundles ∨ .bundleRow r.1 r.2 ∈ ws) ∧ (∀ r ∈ (f.writes ws).bases, r ∈ f.bases ∨ .baseRow r.1 r.2 ∈ ws) ∧
    ∀ r ∈ (f.writes ws).fts, r ∈ f.fts ∨ .ftsRow r ∈ ws := by
  have hrow : ∀ (t : Table) s v r, r ∈ t.insertRow s v → r ∈ t ∨ r = (s, v) := by
    intro t s v r h
    unfold Table.insertRow at h
    split at h
    · exact .inl h
    · rcases List.mem_append.1 h with h | h
      · exact .inl h
      · exact .inr (List.mem_singleton.1 h)
  have hfts : ∀ (t : List FtsRow) x r, r ∈ insertFts t x → r ∈ t ∨ r = x := by
    intro t x r h
    unfold insertFts at h
    split at h
    · exact .inl h
    · rcases List.mem_append.1 h with h | h
      · exact .inl h
      · exact .inr (List.mem_singleton.1 h)
  induction ws generalizing f with
  | nil => exact ⟨fun _ h => .inl h, fun _ h => .inl h, fun _ h => .inl h⟩
  | cons w t ih =>
    rw [Facade.writes_cons]
    obtain ⟨h1, h2, h3⟩ := ih (f.write w)
    refine ⟨fun r hr => ?_, fun r hr => ?_, fun r hr => ?_⟩
    · rcases h1 r hr with h | h
      · cases w with
        | bundleRow s v =>
          rcases hrow _ _ _ _ h with h | rfl
          · exact .inl h
          · exact .inr (.head _)
        | _ => exact .inl h
      · exact .inr (.tail _ h)
    · rcases h2 r hr with h | h
      · cases w with
        | baseRow s v =>
          rcases hrow _ _ _ _ h with h | rfl
          · exact .inl h
          · exact .inr (.head _)
        | _ => exact .inl h
      · exact .inr (.tail _ h)
    · rcases h3 r hr with h | h
      · cases w with
        | ftsRow s =>
          rcases hfts _ _ _ h with h | rfl
          · exact .inl h
          · exact .inr (.head _)
        | _ => exact .inl h
      · exact .inr (.tail _ h)

/-- **C86** Nothing that was there is lost, whichever writes fail and however it ends: every bundle and every history of identifiers that no step of the
job has is there unchanged; every name but the job's own is; every row is, in its place, and a new row is one of the job's; and every record under any
key is the old one or one that the job writes under that key. -/
theorem C86_nothing_lost (E : Env) (S : Serde) (j : Job) (f : Facade) (l : List (Write × Bool)) (r : Res Str Unit) (h : (jobF E S j).Tries f l r) :
    (∀ s, some s ∉ j.build.steps.map (·.result.said) → fetchBundle E S (f.after l).cache s = fetchBundle E S f.cache s) ∧
    (∀ fuel s x, f.steps E S fuel s = some (.ok x) → some s ∉ j.build.steps.map (·.result.said) →
      (∀ st ∈ x, ∀ p, st.parentSaid = some p → some p ∉ j.build.steps.map (·.result.said)) → (f.after l).steps E S fuel s = some (.ok x)) ∧
    (∀ n, j.name ≠ some n → (f.after l).db.get .references n = f.db.get .references n) ∧
    (f.bundles <+: (f.after l).bundles ∧ f.bases <+: (f.after l).bases ∧ f.fts <+: (f.after l).fts) ∧
    ((∀ x ∈ (f.after l).bundles, x ∈ f.bundles ∨ j.build.bundle.said = some x.1 ∧ x.2 = S.print (j.build.bundle.toJson E)) ∧
      (∀ x ∈ (f.after l).bases, x ∈ f.bases ∨ j.build.bundle.captureBase.said = some x.1 ∧ x.2 = S.print j.build.bundle.captureBase.toJson) ∧
      ∀ x ∈ (f.after l).fts, x ∈ f.fts ∨ ∃ o ∈ j.build.bundle.overlays, ∃ s, j.build.bundle.said = some s ∧ metaRow s o.body = some x) ∧
    (∀ ns k, (f.after l).db.get ns k = f.db.get ns k ∨ ∃ v, JobWrite E S [j] (.db ns k v) ∧ (f.after l).db.get ns k = .ok (some v)) ∧
    ∀ ns k, (f.after l).cache.get ns k = f.cache.get ns k ∨ ∃ v, JobWrite E S [j] (.cache ns k v) ∧ (f.after l).cache.get ns k = .ok (some v) := by
  have hJ : ∀ w ∈ landed l, JobWrite E S [j] w := fun w hw => (tried_jobF E S j).tries h (w, true) (Attempt.mem_landed.1 hw)
  have hone : ∀ {i : Job}, i ∈ [j] → i = j := fun h => List.mem_singleton.1 h
  have hdb : ∀ ns k, (f.after l).db.get ns k = f.db.get ns k ∨ ∃ v, JobWrite E S [j] (.db ns k v) ∧ (f.after l).db.get ns k = .ok (some v) := by
    intro ns k
    rcases f.writes_db (landed l) ns k with h | ⟨v, hv, h⟩
    · exact .inl h
    · exact .inr ⟨v, hJ _ hv, h⟩
  have hca : ∀ ns k, (f.after l).cache.get ns k = f.cache.get ns k ∨ ∃ v, JobWrite E S [j] (.cache ns k v) ∧ (f.after l).cache.get ns k = .ok (some v) := by
    intro ns k
    rcases f.writes_cache (landed l) ns k with h | ⟨v, hv, h⟩
    · exact .inl h
    · exact .inr ⟨v, hJ _ hv, h⟩
  have hsame : ∀ s, some s ∉ j.build.steps.map (·.result.said) → f.SameRecords (f.after l) s := by
    intro s hs
    refine ⟨?_, ?_⟩
    · rcases hdb .oca (opKey s) with h | ⟨v, hv, -⟩
      · exact h
      · exfalso
        generalize hw : Write.db .oca (opKey s) v = w at hv
        cases hv with
        | name => cases hw
        | build hi hv =>
          cases hone hi
          cases hv with
          | operation h1 h2 _ =>
            simp only [Write.db.injEq, true_and] at hw
            cases opKey_inj hw.1
            exact hs (List.mem_map.2 ⟨_, h1, h2⟩)
          | _ => cases hw
    · rcases hca .bundlesJson s with h | ⟨v, hv, -⟩
      · exact h
      · exfalso
        generalize hw : Write.cache .bundlesJson s v = w at hv
        cases hv with
        | name => cases hw
        | build hi hv =>
          cases hone hi
          cases hv with
          | bundle h1 h2 =>
            cases hw
            exact hs (List.mem_map.2 ⟨_, h1, h2⟩)
          | _ => cases hw
  obtain ⟨r1, r2, r3⟩ := f.writes_rows (landed l)
  refine ⟨?_, ?_, ?_, f.writes_tables _, ⟨?_, ?_, ?_⟩, hdb, hca⟩
  · intro s hs
    unfold fetchBundle
    rw [(hsame s hs).2]
  · intro fuel s x hx hs hp
    exact stepsLoop_same E S f (f.after l) fuel s [] x hx (hsame s hs) fun st hst p hpp => hsame p (hp st hst p hpp)
  · intro n hn
    rcases hdb .references n with h | ⟨v, hv, -⟩
    · exact h
    · exfalso
      generalize hw : Write.db .references n v = w at hv
      cases hv with
      | name hi h1 h2 =>
        cases hone hi
        cases hw
        exact hn h1
      | build hi hv => cases hv with
        | _ => cases hw
  · intro x hx
    rcases r1 x hx with h | h
    · exact .inl h
    · obtain ⟨a, c⟩ := x
      have hv := hJ _ h
      generalize hw : Write.bundleRow a c = w at hv
      cases hv with
      | name => cases hw
      | build hi hv =>
        cases hone hi
        cases hv with
        | bundleRow hs => cases hw; exact .inr ⟨hs, rfl⟩
        | _ => cases hw
  · intro x hx
    rcases r2 x hx with h | h
    · exact .inl h
    · obtain ⟨a, c⟩ := x
      have hv := hJ _ h
      generalize hw : Write.baseRow a c = w at hv
      cases hv with
      | name => cases hw
      | build hi hv =>
        cases hone hi
        cases hv with
        | baseRow hs => cases hw; exact .inr ⟨hs, rfl⟩
        | _ => cases hw
  · intro x hx
    rcases r3 x hx with h | h
    · exact .inl h
    · have hv := hJ _ h
      generalize hw : Write.ftsRow x = w at hv
      cases hv with
      | name => cases hw
      | build hi hv =>
        cases hone hi
        cases hv with
        | search hs ho hm => cases hw; exact .inr ⟨_, ho, _, hs, hm⟩
        | _ => cases hw

/-! ## What is lost silently -/

theorem Attempt.bind_tries_err {α β : Type} {m : Attempt α} {k : α → Attempt β} {f : Facade} {l : List (Write × Bool)} {e : Str} (h : m.Tries f l (.err e)) :
    (m >>= k).Tries f l (.err e) := by
  show (m.andThen k).Tries f l (.err e)
  induction m generalizing f l with
  | done x => cases h; exact .done _ _
  | read c ih => cases h with | read h => exact .read (ih _ h)
  | put w c ih =>
    cases h with
    | lands h => exact .lands (ih _ h)
    | fails h => exact .fails (ih _ h)

theorem landed_none (ws : List Write) : landed (ws.map fun w => (w, false)) = [] := by
  unfold landed
  induction ws with
  | nil => rfl
  | cons w t ih => simp only [List.map_cons, List.filterMap_cons, ih]

theorem after_all (f : Facade) (ws : List Write) : f.after (ws.map fun w => (w, true)) = f.writes ws := by
  unfold Facade.after
  rw [Attempt.landed_all]

theorem after_none (f : Facade) (ws : List Write) : f.after (ws.map fun w => (w, false)) = f := by
  unfold Facade.after
  rw [landed_none]
  rfl

/-- writes that are no rows leave the tables -/
theorem Facade.writes_no_rows (ws : List Write) : ∀ (f : Facade), (∀ w ∈ ws, (∃ n k v, w = .db n k v) ∨ ∃ n k v, w = .cache n k v) →
    (f.writes ws).bundles = f.bundles ∧ (f.writes ws).bases = f.bases ∧ (f.writes ws).fts = f.fts := by
  induction ws with
  | nil => exact fun f _ => ⟨rfl, rfl, rfl⟩
  | cons w t ih =>
    intro f h
    rw [Facade.writes_cons]
    obtain ⟨h1, h2, h3⟩ := ih (f.write w) fun x hx => h x (.tail _ hx)
    rcases h w (.head _) with ⟨n, k, v, rfl⟩ | ⟨n, k, v, rfl⟩ <;> exact ⟨h1, h2, h3⟩

theorem Write.Lasting.no_row {w : Write} (h : w.Lasting) : (∃ n k v, w = .db n k v) ∨ ∃ n k v, w = .cache n k v := by
  cases w with
  | db n k v => exact .inl ⟨n, k, v, rfl⟩
  | cache n k v => exact .inr ⟨n, k, v, rfl⟩
  | _ => exact h.elim

theorem norows_relationsF (O : SetOrder) (b : Bundle) : (relationsF O b).Tried fun w => (∃ n k v, w = .db n k v) ∨ ∃ n k v, w = .cache n k v :=
  tried_relationsF O b (fun _ _ _ => .inl ⟨_, _, _, rfl⟩) (fun _ _ _ => .inl ⟨_, _, _, rfl⟩)

/-- **C86** (finding) Rows can be lost without a sign: there is a run in which every row of the tables fails to be written, and `build` returns as if
nothing had happened. All records and relations are there, but the tables are as they were: the new bundle is in no listing and no search finds it. -/
theorem C86_rows_lost (E : Env) (S : Serde) (j : Job) (f g0 : Facade) (h0 : f.store E S j = .ok g0) : ∃ l, (jobF E S j).Tries f l (.ok ()) ∧
    g0.SameRecorded (f.after l) ∧ (∀ k, (f.after l).db.get .relations k = g0.db.get .relations k) ∧
    (f.after l).bundles = f.bundles ∧ (f.after l).bases = f.bases ∧ (f.after l).fts = f.fts := by
  obtain ⟨wn, wc, wm, ws, wr, wo, hj, hu, e0⟩ := jobRun h0
  let t : List Write → List (Write × Bool) := fun l => l.map fun w => (w, true)
  let n : List Write → List (Write × Bool) := fun l => l.map fun w => (w, false)
  have hfst : ∀ l : List Write, (n l).map Prod.fst = l := fun l => by
    show (l.map _).map _ = l
    rw [List.map_map]
    exact List.map_id l
  have h1 : (nameF j).Tries f (t wn) (.ok ()) := (Attempt.tries_all _ _ _ _).2 hj.name
  have h2 : (cacheF E S j.build.bundle).Tries (f.after (t wn)) (n wc) (.ok ()) := (careless_cacheF E S _).any hj.cache _ (hfst wc) _
  have h3 : (metaF j.build.bundle).Tries ((f.after (t wn)).after (n wc)) (n wm) (.ok ()) := (careless_metaF _).any hj.search _ (hfst wm) _
  have h4 : (Attempt.each (stepF E S) j.build.steps).Tries (((f.after (t wn)).after (n wc)).after (n wm)) (t ws) (.ok ()) :=
    (Attempt.tries_all _ _ _ _).2 ((Attempt.Must.each (must_stepF E S) _).blind _ _ |>.trans hj.steps)
  have hdb := before_relations hj h1 h2 h3 h4
  have h5 : (Attempt.ignore (relationsF j.order j.build.bundle)).Tries ((((f.after (t wn)).after (n wc)).after (n wm)).after (t ws)) (t wr) (.ok ()) :=
    ((Attempt.tries_all _ _ _ _).2 hj.relations).database hdb.symm
  have h6 : (modelsF E S j.build.steps).Tries (((((f.after (t wn)).after (n wc)).after (n wm)).after (t ws)).after (t wr)) (t wo) (.ok ()) :=
    (Attempt.tries_all _ _ _ _).2 ((must_modelsF E S _).blind _ _ |>.trans hj.models)
  have ht : (jobF E S j).Tries f (t wn ++ (n wc ++ (n wm ++ (t ws ++ (t wr ++ t wo))))) (.ok ()) := by
    rw [jobF_eq]
    refine Attempt.bind_tries h1 ?_
    unfold buildF
    exact Attempt.bind_tries h2 (Attempt.bind_tries h3 (Attempt.bind_tries h4 (Attempt.bind_tries h5 h6)))
  have ea : f.after (t wn ++ (n wc ++ (n wm ++ (t ws ++ (t wr ++ t wo))))) = f.writes (wn ++ (ws ++ (wr ++ wo))) := by
    simp only [Attempt.after_append, t, n, after_all, after_none, Facade.writes_append]
  refine ⟨_, ht, (C86_returned E S j f g0 f _ h0 .none ht).1, fun k => ?_, ?_⟩
  · subst e0
    simp only [Attempt.after_append, Facade.writes_append] at hdb ⊢
    simp only [t, after_all] at hdb ⊢
    rw [Facade.writes_db_congr wo (Facade.writes_db_congr wr hdb)]
  · rw [ea]
    refine f.writes_no_rows _ fun w hw => ?_
    simp only [List.mem_append] at hw
    rcases hw with h | h | h | h
    · exact ((lasting_nameF j).undisturbed hj.name w h).no_row
    · exact ((Attempt.Tried.each _ fun st _ => lasting_stepF E S st).undisturbed hj.steps w h).no_row
    · exact (norows_relationsF _ _).ignore.undisturbed hj.relations w h
    · exact ((lasting_modelsF E S _).undisturbed hj.models w h).no_row

/-- **C86** (finding) And so can all relations: there is a run in which a single write fails, the first one of `add_relations`, and `build` returns as if
nothing had happened. All records and rows are there, but no relation was recorded: to `explore` it is as if the bundle had never been stored. -/
theorem C86_relations_lost (E : Env) (S : Serde) (j : Job) (f g0 : Facade) (h0 : f.store E S j = .ok g0) : ∃ l, (jobF E S j).Tries f l (.ok ()) ∧
    (∃ a c s, j.build.bundle.said = some s ∧ l = a ++ (.db .relations (metaKey s) [1], false) :: c ∧ ∀ p ∈ a ++ c, p.2 = true) ∧
    g0.SameRecorded (f.after l) ∧ ((f.after l).bundles = g0.bundles ∧ (f.after l).bases = g0.bases ∧ (f.after l).fts = g0.fts) ∧
    (∀ k, (f.after l).db.get .relations k = f.db.get .relations k) ∧ ∀ x, explore (f.after l).db x = explore f.db x := by
  obtain ⟨wn, wc, wm, ws, wr, wo, hj, hu, e0⟩ := jobRun h0
  let t : List Write → List (Write × Bool) := fun l => l.map fun w => (w, true)
  obtain ⟨s, hs⟩ : ∃ s, j.build.bundle.said = some s := by
    have := hj.cache
    unfold cacheF at this
    cases hs : j.build.bundle.said with
    | some s => exact ⟨s, rfl⟩
    | none => rw [hs] at this; cases this
  have h1 : (nameF j).Tries f (t wn) (.ok ()) := (Attempt.tries_all _ _ _ _).2 hj.name
  have h2 : (cacheF E S j.build.bundle).Tries (f.after (t wn)) (t wc) (.ok ()) := (Attempt.tries_all _ _ _ _).2 (by rw [after_all]; exact hj.cache)
  have h3 : (metaF j.build.bundle).Tries ((f.after (t wn)).after (t wc)) (t wm) (.ok ()) :=
    (Attempt.tries_all _ _ _ _).2 (by rw [after_all, after_all]; exact hj.search)
  have h4 : (Attempt.each (stepF E S) j.build.steps).Tries (((f.after (t wn)).after (t wc)).after (t wm)) (t ws) (.ok ()) :=
    (Attempt.tries_all _ _ _ _).2 (by rw [after_all, after_all, after_all]; exact hj.steps)
  have h5 : ∀ st : Facade, (Attempt.ignore (relationsF j.order j.build.bundle)).Tries st [(.db .relations (metaKey s) [1], false)] (.ok ()) := by
    intro st
    refine Attempt.ignore_tries (e := c!"write failed") (Attempt.bind_tries_err ?_)
    unfold metasF
    rw [hs]
    exact .fails (.done _ _)
  have h6 : ∀ st : Facade, (modelsF E S j.build.steps).Tries st (t wo) (.ok ()) := fun st =>
    (Attempt.tries_all _ _ _ _).2 ((must_modelsF E S _).blind _ _ |>.trans hj.models)
  have ht : (jobF E S j).Tries f (t wn ++ (t wc ++ (t wm ++ (t ws ++ ([(.db .relations (metaKey s) [1], false)] ++ t wo))))) (.ok ()) := by
    rw [jobF_eq]
    refine Attempt.bind_tries h1 ?_
    unfold buildF
    exact Attempt.bind_tries h2 (Attempt.bind_tries h3 (Attempt.bind_tries h4 (Attempt.bind_tries (h5 _) (h6 _))))
  have ea : f.after (t wn ++ (t wc ++ (t wm ++ (t ws ++ ([(.db .relations (metaKey s) [1], false)] ++ t wo))))) =
      (f.writes (wn ++ (wc ++ (wm ++ ws)))).writes wo := by
    simp only [Attempt.after_append, t, after_all, Facade.writes_append]
    rfl
  have hrel : ∀ k, (f.after (t wn ++ (t wc ++ (t wm ++ (t ws ++ ([(.db .relations (metaKey s) [1], false)] ++ t wo)))))).db.get .relations k =
      f.db.get .relations k := by
    intro k
    rw [ea, ← Facade.writes_append]
    rcases f.writes_db ((wn ++ (wc ++ (wm ++ ws))) ++ wo) .relations k with h | ⟨v, hv, -⟩
    · exact h
    · exfalso
      simp only [List.mem_append] at hv
      rcases hv with (h | h | h | h) | h
      · exact (lasting_nameF j).undisturbed hj.name _ h rfl
      · exact (rows_cacheF E S _).undisturbed hj.cache _ h _ _ _ rfl
      · exact (rows_metaF _).undisturbed hj.search _ h _ _ _ rfl
      · exact (Attempt.Tried.each _ fun st _ => lasting_stepF E S st).undisturbed hj.steps _ h rfl
      · exact (lasting_modelsF E S _).undisturbed hj.models _ h rfl
  refine ⟨_, ht, ⟨t wn ++ (t wc ++ (t wm ++ t ws)), t wo, s, hs, ?_, ?_⟩, (C86_returned E S j f g0 f _ h0 .none ht).1, ?_, hrel, ?_⟩
  · simp only [List.append_assoc, List.cons_append, List.nil_append]
  · intro p hp
    simp only [t, ← List.map_append] at hp
    obtain ⟨w, -, rfl⟩ := List.mem_map.1 hp
    rfl
  · have e1 : wn ++ (wc ++ (wm ++ (ws ++ (wr ++ wo)))) = (wn ++ (wc ++ (wm ++ ws))) ++ (wr ++ wo) := by simp only [List.append_assoc]
    rw [e0, ea, e1, Facade.writes_append (a := wn ++ (wc ++ (wm ++ ws)))]
    have ho : ∀ w ∈ wo, (∃ n k v, w = .db n k v) ∨ ∃ n k v, w = .cache n k v := fun w h => ((lasting_modelsF E S _).undisturbed hj.models w h).no_row
    obtain ⟨a1, a2, a3⟩ := Facade.writes_no_rows wo (f.writes (wn ++ (wc ++ (wm ++ ws)))) ho
    obtain ⟨b1, b2, b3⟩ := Facade.writes_no_rows (wr ++ wo) (f.writes (wn ++ (wc ++ (wm ++ ws)))) fun w h => by
      rcases List.mem_append.1 h with h | h
      · exact (norows_relationsF _ _).ignore.undisturbed hj.relations w h
      · exact ho w h
    exact ⟨a1.trans b1.symm, a2.trans b2.symm, a3.trans b3.symm⟩
  · intro x
    unfold explore objectType
    rw [hrel, hrel]

/-! ## The relations -/

/-- **C86** The relations stay right, whichever writes fail and however `build` ends: `explore` answers for every object, the relations it had are all
there, and a new one is one of the bundle that was being stored; and an object that becomes known is one of that bundle. -/
theorem C86_explore (E : Env) (hE : E.ShortSaids) (S : Serde) (f : Facade) (past : List Bundle) (hf : f.Shared E S past) (j : Job) (hj : Jobs E [[j]])
    (hk : ∀ b ∈ past, ∀ x k k', b.Has x k → j.build.bundle.Has x k' → k = k') (l : List (Write × Bool)) (e : Res Str Unit)
    (h : (jobF E S j).Tries f l e) (x : Said) (hx : ∀ t, x ≠ metaKey t) :
    ∃ r r', explore f.db x = .ok r ∧ explore (f.after l).db x = .ok r' ∧ (∀ y ∈ r.getD [], y ∈ r'.getD []) ∧ (r'.getD []).Nodup ∧
      (∀ y ∈ r'.getD [], y ∈ r.getD [] ∨ j.build.bundle.Relates x y) ∧ (r' ≠ none → r ≠ none ∨ some x ∈ j.build.bundle.saids) := by
  obtain ⟨⟨R', M', r', g1, g2⟩, -, g4⟩ := failed_sound hE hj hk (hf.sound hE) h
  obtain ⟨R, M, r, -, -⟩ := hf.right hE
  refine ⟨R x, R' x, r.explore_eq hx, r'.explore_eq hx, fun y hy => ?_, ?_, fun y hy => ?_, fun hn => ?_⟩
  · exact (hasRel_iff r' hx).1 (g4 x y hx ((hasRel_iff r hx).2 hy))
  · cases e : R' x with
    | none => exact List.nodup_nil
    | some l => exact (r'.some' x hx l e).1
  · rcases g2 x y hx hy with h | ⟨b, hb, h⟩
    · exact .inl ((hasRel_iff r hx).1 h)
    · cases List.mem_singleton.1 hb
      exact .inr h
  · rcases g1 x hx hn with h | ⟨b, hb, k, h⟩
    · exact .inl ((recorded_iff r hx).1 h)
    · cases List.mem_singleton.1 hb
      exact .inr (has_saids h)

/-- **C86** And then storing the job again, with no write failing, succeeds, and gives every object exactly the relations that it had before the
first attempt and those that the bundle stands for. -/
theorem C86_repair (E : Env) (hE : E.ShortSaids) (S : Serde) (f : Facade) (past : List Bundle) (hf : f.Shared E S past) (j : Job) (hj : Jobs E [[j]])
    (hk : ∀ b ∈ past, ∀ x k k', b.Has x k → j.build.bundle.Has x k' → k = k') (l : List (Write × Bool)) (e : Res Str Unit)
    (h : (jobF E S j).Tries f l e) :
    ∃ g, (f.after l).store E S j = .ok g ∧ ∀ x, (∀ t, x ≠ metaKey t) → ∃ r r', explore f.db x = .ok r ∧ explore g.db x = .ok r' ∧
      ∀ y, y ∈ r'.getD [] ↔ y ∈ r.getD [] ∨ j.build.bundle.Relates x y := by
  obtain ⟨g, hg, hr⟩ := C84_repair E hE S _ _ (.failed hf hj hk h) j hj
  refine ⟨g, hg, fun x hx => ?_⟩
  obtain ⟨r, r1, q1, q2, q3, -, q4, -⟩ := C86_explore E hE S f past hf j hj hk l e h x hx
  obtain ⟨r1', r', p1, p2, p3⟩ := hr x hx
  rw [q2] at p1
  cases p1
  refine ⟨r, r', q1, p2, fun y => (p3 y).trans ⟨?_, ?_⟩⟩
  · rintro (hy | hy)
    · exact q4 y hy
    · exact .inr hy
  · rintro (hy | hy)
    · exact .inl (q3 y hy)
    · exact .inr hy

end OCA
