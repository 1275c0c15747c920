import Verif.Lemmas.ThreadJob
import Verif.Lemmas.FailureRels
import Verif.Props.CrashRetry
/-!
# C84: several threads

Several threads store bundles in the same storages, their reads and writes coming in any order whatever. None of them ever fails; what is read at
any moment is whole and right; in the end all is there that the same builds, one after the other, would have left - but the relations of an
object that is in the bundles of two threads, of which some can be lost.
-/
namespace OCA

/-! ## Specification -/

/-- Storing a job without other threads: the name of the file, if it has one, and then `build`. -/
def Facade.store (E : Env) (S : Serde) (f : Facade) (j : Job) : Res Str Facade := do
  let f ← match j.name with
    | none => pure f
    | some n => do
      let s ← Res.unwrap j.build.bundle.said
      let db ← f.db.saveRefn n s
      pure { f with db := db }
  f.build E S j.order j.build

/-- The build is one of `from_ast`, of whatever commands and with whatever base, as long as the base's identifier is a valid one. -/
def Build.Made (E : Env) (b : Build) : Prop :=
  ∃ Os base ast, fromAst E Os base ast = .ok b ∧ ∀ s, base.bind Bundle.said = some s → E.validSaid s = true

/-- What threads store: builds of `from_ast`; no two objects of a bundle have the same identifier; and an identifier is not that of objects of two
kinds. -/
structure Jobs (E : Env) (jss : List (List Job)) : Prop where
  made : ∀ j ∈ jss.flatten, j.build.Made E
  distinct : ∀ j ∈ jss.flatten, j.build.bundle.saids.Nodup
  kinds : ∀ i ∈ jss.flatten, ∀ j ∈ jss.flatten, ∀ x k k', i.build.bundle.Has x k → j.build.bundle.Has x k' → k = k'

/-- The database, the cache and the SQLite tables are three storages that the caller supplies, and each may be one in memory, or be deleted: here some of
them, or none, are empty again, the others as they were. -/
structure Facade.Loses (f f' : Facade) : Prop where
  db : f'.db = f.db ∨ f'.db = Store.new
  cache : f'.cache = f.cache ∨ f'.cache = Store.new
  tables : f'.bundles = f.bundles ∧ f'.bases = f.bases ∧ f'.fts = f.fts ∨ f'.bundles = [] ∧ f'.bases = [] ∧ f'.fts = []

/-- Where it can get to: from nothing, threads work, up to any point of their work (they may all be killed there; or the machine
crashes and leaves the database, the cache and the SQLite file each as it was at a point of its own); then other threads work from there; and so on. In between a job may be stored
with any of its writes failing, and come to any end; and any of the three storages may be lost. The list has all bundles that were given to a thread to be stored. -/
inductive Facade.Shared (E : Env) (S : Serde) : Facade → List Bundle → Prop
  | new : Shared E S Facade.new []
  | run {f g : Facade} {past : List Bundle} {jss : List (List Job)} {us : List (Thr Unit)} : Shared E S f past → Jobs E jss →
      Interleaved f (jss.map (threadT E S)) g us → Shared E S g (past ++ jss.flatten.map (·.build.bundle))
  | crashed {f g g' g'' : Facade} {past : List Bundle} {jss : List (List Job)} {us us' us'' : List (Thr Unit)} : Shared E S f past → Jobs E jss →
      Interleaved f (jss.map (threadT E S)) g us → Interleaved f (jss.map (threadT E S)) g' us' → Interleaved f (jss.map (threadT E S)) g'' us'' →
      Shared E S { g'' with db := g.db, cache := g'.cache } (past ++ jss.flatten.map (·.build.bundle))
  | failed {f : Facade} {past : List Bundle} {j : Job} {l : List (Write × Bool)} {r : Res Str Unit} : Shared E S f past → Jobs E [[j]] →
      (∀ b ∈ past, ∀ x k k', b.Has x k → j.build.bundle.Has x k' → k = k') → (jobF E S j).Tries f l r → Shared E S (f.after l) (past ++ [j.build.bundle])
  | lost {f f' : Facade} {past : List Bundle} : Shared E S f past → f.Loses f' → Shared E S f' past

/-- what a job records of the objects of a step -/
inductive BuildStep.Object (st : BuildStep) : Said → Json → Prop
  | base {s : Said} : st.result.captureBase.said = some s → st.Object s st.result.captureBase.toJson
  | overlay {o : Overlay} {s : Said} : o ∈ st.result.overlays → o.said = some s → st.Object s o.toJson

/-- The jobs do not contradict each other: a bundle's identifier is reached by one operation only, nothing else has the identifier of an object, and a
name is given to one bundle. -/
structure Agree (E : Env) (J : List Job) : Prop where
  steps : ∀ i ∈ J, ∀ j ∈ J, ∀ a ∈ i.build.steps, ∀ b ∈ j.build.steps, a.result.said = b.result.said →
    a.parentSaid = b.parentSaid ∧ a.command.toJson = b.command.toJson ∧ a.result.toJson E = b.result.toJson E
  objects : ∀ i ∈ J, ∀ j ∈ J, ∀ a ∈ i.build.steps, ∀ b ∈ j.build.steps, ∀ s v w, a.Object s v → b.Object s w → v = w
  bundles : ∀ i ∈ J, ∀ j ∈ J, i.build.bundle.said = j.build.bundle.said → i.build.bundle.toJson E = j.build.bundle.toJson E
  bases : ∀ i ∈ J, ∀ j ∈ J, i.build.bundle.captureBase.said = j.build.bundle.captureBase.said →
    i.build.bundle.captureBase.toJson = j.build.bundle.captureBase.toJson
  rows : ∀ i ∈ J, ∀ j ∈ J, ∀ s, i.build.bundle.said = some s → j.build.bundle.said = some s → ∀ o ∈ i.build.bundle.overlays,
    ∀ o' ∈ j.build.bundle.overlays, ∀ r r', metaRow s o.body = some r → metaRow s o'.body = some r' → r.lang = r'.lang → r = r'
  names : ∀ i ∈ J, ∀ j ∈ J, ∀ n, i.name = some n → j.name = some n → i.build.bundle.said = j.build.bundle.said

/-- The same records and the same rows, the rows perhaps in another order. -/
structure Facade.SameHeld (f g : Facade) : Prop where
  bundles : ∀ r, r ∈ g.bundles ↔ r ∈ f.bundles
  bases : ∀ r, r ∈ g.bases ↔ r ∈ f.bases
  fts : ∀ r, r ∈ g.fts ↔ r ∈ f.fts
  cache : ∀ ns k, g.cache.get ns k = f.cache.get ns k
  history : ∀ k, g.db.get .oca k = f.db.get .oca k
  names : ∀ k, g.db.get .references k = f.db.get .references k

/-! ## Alone -/

theorem jobT_alone (E : Env) (S : Serde) (j : Job) (f : Facade) : (jobT E S j).alone.run f = f.store E S j >>= fun g => .ok (g, ()) := by
  unfold jobT Facade.store
  rw [Thr.alone_bind, Prog.run_bind, buildT_alone]
  cases j.name with
  | none =>
    show (buildOp E S j.order j.build).run f = _
    rw [run_buildOp]
    rfl
  | some n =>
    show ((Thr.each _ [n]).alone.run f >>= _) = _
    simp only [Thr.each]
    rw [Thr.alone_bind, Prog.run_bind, Thr.alone_bind, Prog.run_bind, Thr.alone_of, Prog.run_of]
    cases j.build.bundle.said with
    | none => rfl
    | some s =>
      simp only [Res.unwrap, Res.bind_ok, Thr.alone_emit, Prog.run_emit, Thr.alone_pure, Prog.run_pure, run_buildOp]
      unfold Store.saveRefn
      rw [Store.put_set]
      rfl

theorem threadT_alone (E : Env) (S : Serde) (js : List Job) (f : Facade) :
    (threadT E S js).alone.run f = foldRes (Facade.store E S) f js >>= fun g => .ok (g, ()) := by
  unfold threadT
  rw [Thr.alone_each (h := fun j => (jobT E S j).alone) (fun _ => rfl)]
  exact Prog.run_each (jobT_alone E S) js f

theorem interleaved_one {f g : Facade} {t : Thr Unit} {us : List (Thr Unit)} (h : Interleaved f [t] g us) :
    ∃ u, us = [u] ∧ t.alone.run f = u.alone.run g := by
  generalize hts : [t] = ts at h
  induction h with
  | start => exact ⟨t, hts.symm, rfl⟩
  | @step g g' a b u u' _ hs ih =>
    obtain ⟨v, e, hr⟩ := ih
    cases a with
    | cons x a => simp at e
    | nil =>
      obtain ⟨rfl, rfl⟩ := List.cons.inj e
      refine ⟨u', rfl, hr.trans ?_⟩
      cases u with
      | done r => cases hs
      | get ns k c => cases hs; rfl
      | put w c =>
        cases hs
        rfl

/-- it can be left alone to its end -/
theorem interleaved_alone {f0 : Facade} {ts : List (Thr Unit)} (t : Thr Unit) : ∀ {f : Facade}, Interleaved f0 ts f [t] →
    ∃ g r, Interleaved f0 ts g [.done r] := by
  induction t with
  | done r => exact fun {f} h => ⟨f, r, h⟩
  | get ns k c ih => exact fun {f} h => ih _ (.step (a := []) (b := []) h rfl)
  | put w c ih => exact fun {f} h => ih (.step (a := []) (b := []) h rfl)

/-- **C84** Without other threads: when the one thread is done, the storages are those that storing its jobs, one after the other, gives; and it ends in
an error or an abort just if that does. -/
theorem C84_alone (E : Env) (S : Serde) (f g : Facade) (js : List Job) (r : Res Str Unit)
    (h : Interleaved f [threadT E S js] g [.done r]) : foldRes (Facade.store E S) f js = r >>= fun _ => .ok g := by
  obtain ⟨u, e, hr⟩ := interleaved_one h
  obtain ⟨rfl, -⟩ := List.cons.inj e
  rw [threadT_alone] at hr
  have h2 : ((Thr.done r).alone.run g : Res Str (Facade × Unit)) = r >>= fun _ => .ok (g, ()) := by cases r <;> rfl
  rw [h2] at hr
  cases hf : foldRes (Facade.store E S) f js <;> rw [hf] at hr <;> cases r <;> cases hr <;> rfl

/-! ## What the threads rely on -/

theorem Build.Made.short {E : Env} (hE : E.ShortSaids) {b : Build} (h : b.Made E) : ∀ st ∈ b.steps, st.Short := by
  obtain ⟨Os, base, ast, h, hb⟩ := h
  obtain ⟨bx, box, -, -, -, -, -, rfl⟩ := fromAst_steps h
  exact stepsFrom_short hE.plain fun s e => (hE s (hb s e)).1

theorem Build.Made.labelled {E : Env} (hE : E.ShortSaids) {b : Build} (h : b.Made E) (hn : b.bundle.saids.Nodup) : b.bundle.Labelled := by
  obtain ⟨Os, base, ast, h, hb⟩ := h
  obtain ⟨bx, box, -, -, -, -, -, rfl⟩ := fromAst_steps h
  exact built_labelled hE.plain hn

/-- the relations of these bundles -/
def Limit.of (l : List Bundle) : Limit := ⟨fun x => ∃ b ∈ l, ∃ k, b.Has x k, fun x y => ∃ b ∈ l, b.Relates x y⟩

/-- what is recorded, and the relations of these bundles -/
def Limit.from (d : Store) (l : List Bundle) : Limit :=
  ⟨fun x => (∃ v, d.get .relations x = .ok (some v)) ∨ ∃ b ∈ l, ∃ k, b.Has x k, fun x y => HasRel d x y ∨ ∃ b ∈ l, b.Relates x y⟩

theorem recorded_iff {d : Store} {R : Str → Option (List RelObj)} {M : Str → Option Nat} (h : RelRep d R M) {x : Said} (hx : ∀ t, x ≠ metaKey t) :
    (∃ v, d.get .relations x = .ok (some v)) ↔ R x ≠ none := by
  cases e : R x with
  | none =>
    rw [h.none' x hx e]
    exact ⟨fun ⟨v, h⟩ => (by cases h), fun h => absurd rfl h⟩
  | some l =>
    obtain ⟨-, -, v, g1, g2⟩ := h.some' x hx l e
    exact ⟨fun _ => nofun, fun _ => ⟨v, g1⟩⟩

theorem RelsRight.from {d : Store} {L : Limit} (h : RelsRight d L) (l : List Bundle) : RelsRight d (.from d l) := by
  obtain ⟨R, M, r, -, -⟩ := h
  exact ⟨R, M, r, fun x px hx => .inl ((recorded_iff r px).2 hx), fun x y px hy => .inl ((hasRel_iff r px).2 hy)⟩

theorem RelsRight.weaken {d : Store} {L L' : Limit} (h : RelsRight d L) (h1 : ∀ x, (∀ t, x ≠ metaKey t) → L.obj x → L'.obj x)
    (h2 : ∀ x y, (∀ t, x ≠ metaKey t) → L.rel x y → L'.rel x y) : RelsRight d L' := by
  obtain ⟨R, M, r, g1, g2⟩ := h
  exact ⟨R, M, r, fun x px hx => h1 x px (g1 x px hx), fun x y px hy => h2 x y px (g2 x y px hy)⟩

theorem Jobs.ctx {E : Env} (hE : E.ShortSaids) {jss : List (List Job)} (h : Jobs E jss) (S : Serde) {L : Limit}
    (ho : ∀ j ∈ jss.flatten, ∀ x k, j.build.bundle.Has x k → L.obj x) (hr : ∀ j ∈ jss.flatten, ∀ x y, j.build.bundle.Relates x y → L.rel x y) :
    ∀ js ∈ jss, ∀ j ∈ js, Ctx E S jss.flatten L js j := by
  intro js hjs j hj
  have hm : j ∈ jss.flatten := List.mem_flatten.2 ⟨js, hjs, hj⟩
  exact ⟨hm, hj, fun h => ho j hm _ _ h, fun h => hr j hm _ _ h, (h.made j hm).labelled hE (h.distinct j hm),
    fun i hi x k k' h1 h2 => h.kinds j hm i hi x k k' h1 h2⟩

theorem Jobs.run {E : Env} (hE : E.ShortSaids) {jss : List (List Job)} (h : Jobs E jss) {S : Serde} {L : Limit} {f g : Facade} (hf : RelsRight f.db L)
    {us : List (Thr Unit)} (hi : Interleaved f (jss.map (threadT E S)) g us) :
    us.length = jss.length ∧ (Calm E S jss.flatten (.from f.db (jss.flatten.map (·.build.bundle))) f g ∧ ∀ i, i < jss.length → Grows (OnlyOf jss i) f g) ∧
    ∀ i (js : List Job), jss[i]? = some js → ∀ r, us[i]? = some (.done r) → r = .ok () ∧ ∀ j ∈ js, JobDone E S jss.flatten (OnlyOf jss i) j g :=
  threads_run (E := E) (S := S) (L := .from f.db (jss.flatten.map (·.build.bundle))) hE.plain
    (fun js hjs j hj => (h.made j (List.mem_flatten.2 ⟨js, hjs, hj⟩)).short hE)
    (h.ctx hE S (fun j hj x k hx => .inr ⟨_, List.mem_map.2 ⟨j, hj, rfl⟩, k, hx⟩)
      (fun j hj x y hx => .inr ⟨_, List.mem_map.2 ⟨j, hj, rfl⟩, hx⟩)) (hf.from _) hi

/-- an object of one of these bundles, and its kind -/
def KindOf (l : List Bundle) (x : Said) (k : Nat) : Prop := ∃ b ∈ l, b.Has x k

/-- a job is stored while writes fail: the relations stay right, and none is lost -/
theorem failed_sound {E : Env} (hE : E.ShortSaids) {S : Serde} {f : Facade} {past : List Bundle} {j : Job} {l : List (Write × Bool)} {r : Res Str Unit}
    (hj : Jobs E [[j]]) (hk : ∀ b ∈ past, ∀ x k k', b.Has x k → j.build.bundle.Has x k' → k = k')
    (hf : RelsRight f.db (.of past) ∧ KindsFrom (KindOf past) f.db) (ht : (jobF E S j).Tries f l r) :
    Sound (.from f.db [j.build.bundle]) (KindOf (past ++ [j.build.bundle])) (HasRel f.db) (f.after l) := by
  have hm : j ∈ [[j]].flatten := .head _
  have hc : Rels j.build.bundle (.from f.db [j.build.bundle]) (KindOf (past ++ [j.build.bundle])) := by
    refine ⟨fun {x k} h => .inr ⟨_, .head _, k, h⟩, fun h => .inr ⟨_, .head _, h⟩,
      (hj.made j hm).labelled hE (hj.distinct j hm), fun h => ⟨_, List.mem_append_right _ (.head _), h⟩, ?_⟩
    rintro x k k' h ⟨b, hb, h'⟩
    rcases List.mem_append.1 hb with hb | hb
    · exact (hk b hb x k' k h' h).symm
    · cases List.mem_singleton.1 hb
      exact hj.kinds j hm j hm x k k' h h'
  refine (hc.job E S f l r ⟨hf.1.from _, ?_, fun _ _ _ h => h⟩ ht).1
  · intro x v hv
    obtain ⟨k, ⟨b, hb, h⟩, e⟩ := hf.2 x v hv
    exact ⟨k, ⟨b, List.mem_append_left _ hb, h⟩, e⟩

theorem Facade.Shared.sound {E : Env} (hE : E.ShortSaids) {S : Serde} {f : Facade} {past : List Bundle} (h : f.Shared E S past) :
    RelsRight f.db (.of past) ∧ KindsFrom (KindOf past) f.db := by
  have key : ∀ {f g : Facade} {past : List Bundle} {jss : List (List Job)} {us : List (Thr Unit)}, RelsRight f.db (.of past) ∧ KindsFrom (KindOf past) f.db → Jobs E jss →
      Interleaved f (jss.map (threadT E S)) g us → RelsRight g.db (.of (past ++ jss.flatten.map (·.build.bundle))) ∧ KindsFrom (KindOf (past ++ jss.flatten.map (·.build.bundle))) g.db := by
    intro f g past jss us ih hj hi
    have hcalm := (hj.run hE ih.1 hi).2.1.1
    have h1 := hcalm.rels (ih.1.from _)
    refine ⟨?_, ?_⟩
    · obtain ⟨R, M, r, g1, g2⟩ := ih.1
      refine h1.weaken ?_ ?_
      · rintro x px (h | ⟨b, hb, hk⟩)
        · obtain ⟨b, hb, hk⟩ := g1 x px ((recorded_iff r px).1 h)
          exact ⟨b, List.mem_append_left _ hb, hk⟩
        · exact ⟨b, List.mem_append_right _ hb, hk⟩
      · rintro x y px (h | ⟨b, hb, hk⟩)
        · obtain ⟨b, hb, hk⟩ := g2 x y px ((hasRel_iff r px).1 h)
          exact ⟨b, List.mem_append_left _ hb, hk⟩
        · exact ⟨b, List.mem_append_right _ hb, hk⟩
    · intro x v hv
      rcases hcalm.db .relations (metaKey x) with h | ⟨v', hw, h⟩
      · rw [h] at hv
        obtain ⟨k, ⟨b, hb, hk⟩, e⟩ := ih.2 x v hv
        exact ⟨k, ⟨b, List.mem_append_left _ hb, hk⟩, e⟩
      · rw [h] at hv
        cases hv
        generalize hwr : Write.db .relations (metaKey x) v = w at hw
        cases hw with
        | name => cases hwr
        | @build i _ hi hw =>
          cases hw with
          | kind hk =>
            simp only [Write.db.injEq, true_and] at hwr
            cases metaKey_inj hwr.1
            exact ⟨_, ⟨_, List.mem_append_right _ (List.mem_map.2 ⟨i, hi, rfl⟩), hk⟩, hwr.2⟩
          | relations hx =>
            simp only [Write.db.injEq, true_and] at hwr
            exact (((hj.made i hi).labelled hE (hj.distinct i hi)).plain _ hx x hwr.1.symm).elim
          | _ => cases hwr
  have empty : ∀ past, RelsRight Store.new (.of past) ∧ KindsFrom (KindOf past) Store.new := by
    intro past
    refine ⟨⟨fun _ => none, fun _ => none, ?_, fun x _ h => absurd rfl h, (fun x y _ h => by cases h)⟩, ?_⟩
    · exact ⟨fun _ _ _ => rfl, (fun _ _ _ h => by cases h), fun _ => rfl, (fun _ _ h => by cases h), (fun _ _ h => by cases h)⟩
    · intro x v hv
      cases hv
  induction h with
  | new => exact empty []
  | @lost f f' past _ hl ih =>
    rcases hl.db with h | h
    · rw [h]; exact ih
    · rw [h]; exact empty past
  | run _ hj hi ih => exact key ih hj hi
  | crashed _ hj hi _ _ ih =>
    have := key ih hj hi
    exact this
  | failed _ hj hk ht ih =>
    have := failed_sound hE hj hk ih ht
    obtain ⟨⟨R, M, r, g1, g2⟩, -⟩ := id ih
    refine ⟨this.1.weaken ?_ ?_, this.2.1⟩
    · rintro x px (h | ⟨b, hb, h⟩)
      · obtain ⟨b, hb, h⟩ := g1 x px ((recorded_iff r px).1 h)
        exact ⟨b, List.mem_append_left _ hb, h⟩
      · exact ⟨b, List.mem_append_right _ hb, h⟩
    · rintro x y px (h | ⟨b, hb, h⟩)
      · obtain ⟨b, hb, h⟩ := g2 x y px ((hasRel_iff r px).1 h)
        exact ⟨b, List.mem_append_left _ hb, h⟩
      · exact ⟨b, List.mem_append_right _ hb, h⟩

theorem Facade.Shared.right {E : Env} (hE : E.ShortSaids) {S : Serde} {f : Facade} {past : List Bundle} (h : f.Shared E S past) :
    RelsRight f.db (.of past) := (h.sound hE).1

/-! ## The threads come to their end -/

/-- **C84** No thread ever ends with an error or aborts, in whatever order the reads and writes of the threads come. -/
theorem C84_no_thread_fails (E : Env) (hE : E.ShortSaids) (S : Serde) (f g : Facade) (past : List Bundle) (hf : f.Shared E S past) (jss : List (List Job))
    (hj : Jobs E jss) (us : List (Thr Unit)) (hi : Interleaved f (jss.map (threadT E S)) g us) (r : Res Str Unit) (hr : Thr.done r ∈ us) : r = .ok () := by
  obtain ⟨hl, -, hd⟩ := hj.run hE (hf.right hE) hi
  obtain ⟨i, hi⟩ := List.mem_iff_getElem?.1 hr
  have : i < jss.length := by rw [← hl]; exact (List.getElem?_eq_some_iff.1 hi).1
  exact (hd i jss[i] (List.getElem?_eq_getElem this) r hi).1

/-- one thread takes its turn -/
def Turn (p q : Facade × List (Thr Unit)) : Prop :=
  ∃ a t t' b, p.2 = a ++ t :: b ∧ t.step p.1 = some (q.1, t') ∧ q.2 = a ++ t' :: b

/-- what a thread can be after its turn -/
def NextOf (t' t : Thr Unit) : Prop := ∃ f f', t.step f = some (f', t')

theorem after_acc (t : Thr Unit) : Acc NextOf t := by
  induction t with
  | done r => exact .intro _ fun t ⟨f, f', h⟩ => (by cases h)
  | get ns k c ih => exact .intro _ fun t ⟨f, f', h⟩ => by cases h; exact ih _
  | put w c ih => exact .intro _ fun t ⟨f, f', h⟩ => by cases h; exact ih

def AfterAll (us' us : List (Thr Unit)) : Prop := ∃ a t t' b, us = a ++ t :: b ∧ us' = a ++ t' :: b ∧ NextOf t' t

theorem afterAll_acc (us : List (Thr Unit)) : Acc AfterAll us := by
  induction us with
  | nil =>
    refine .intro _ ?_
    rintro us ⟨a, t, t', b, h, -, -⟩
    cases a <;> cases h
  | cons t us ih =>
    have ht := after_acc t
    induction ht generalizing us with
    | intro t _ iht =>
    induction ih with
    | intro us hus ihu =>
      refine .intro _ ?_
      rintro vs ⟨a, x, x', b, h1, rfl, h3⟩
      cases a with
      | nil =>
        obtain ⟨rfl, rfl⟩ := List.cons.inj h1
        exact iht x' h3 _ (.intro _ hus)
      | cons z a =>
        obtain ⟨rfl, rfl⟩ := List.cons.inj h1
        exact ihu _ ⟨a, x, x', b, rfl, rfl, h3⟩

/-- **C84** Threads come to their end: there is no endless order of turns. -/
theorem C84_ends (F : Nat → Facade × List (Thr Unit)) : ¬ ∀ n, Turn (F n) (F (n + 1)) := by
  intro h
  have : ∀ us, Acc AfterAll us → ∀ n, (F n).2 ≠ us := by
    intro us ha
    induction ha with
    | intro us _ ih =>
      intro n e
      obtain ⟨a, t, t', b, h1, h2, h3⟩ := h n
      exact ih (F (n + 1)).2 ⟨a, t, t', b, by rw [← e, h1], h3, _, _, h2⟩ (n + 1) rfl
  exact this _ (afterAll_acc _) 0 rfl

/-! ## At any moment -/

theorem jobWrite_bundles {E : Env} {S : Serde} {J : List Job} {s : Str} {v : Bytes} (h : JobWrite E S J (.cache .bundlesJson s v)) :
    ∃ j ∈ J, ∃ st ∈ j.build.steps, st.result.said = some s ∧ v = utf8 (S.print (st.result.toJson E)) := by
  generalize hw : Write.cache .bundlesJson s v = w at h
  cases h with
  | @build j _ hj hb =>
    cases hb with
    | @bundle st _ h1 h2 => cases hw; exact ⟨j, hj, st, h1, h2, rfl⟩
    | _ => cases hw
  | name h1 h2 h3 => cases hw

theorem jobWrite_objects {E : Env} {S : Serde} {J : List Job} {ns : Namespace} {s : Str} {v : Bytes} (h : JobWrite E S J (.cache ns s v)) (hn : ns ≠ .bundlesJson) :
    ns = .objectsJson ∧ ∃ j ∈ J, ∃ st ∈ j.build.steps, ∃ x, st.Object s x ∧ v = utf8 (S.print x) := by
  generalize hw : Write.cache ns s v = w at h
  cases h with
  | @build j _ hj hb =>
    cases hb with
    | bundle h1 h2 => cases hw; exact absurd rfl hn
    | @base st _ h1 h2 => cases hw; exact ⟨rfl, j, hj, st, h1, _, .base h2, rfl⟩
    | @overlay st _ _ h1 h2 h3 => cases hw; exact ⟨rfl, j, hj, st, h1, _, .overlay h2 h3, rfl⟩
    | _ => cases hw
  | name h1 h2 h3 => cases hw

theorem jobWrite_oca {E : Env} {S : Serde} {J : List Job} {k : Str} {v : Bytes} (h : JobWrite E S J (.db .oca k v)) :
    ∃ j ∈ J, ∃ st ∈ j.build.steps, ∃ s, st.result.said = some s ∧ k = opKey s ∧ (operationBytes S st.parentSaid st.command.toJson : Res Str Bytes) = .ok v := by
  generalize hw : Write.db .oca k v = w at h
  cases h with
  | @build j _ hj hb =>
    cases hb with
    | @operation st s _ h1 h2 h3 => cases hw; exact ⟨j, hj, st, h1, s, h2, rfl, h3⟩
    | _ => cases hw
  | name h1 h2 h3 => cases hw

theorem jobWrite_name {E : Env} {S : Serde} {J : List Job} {k : Str} {v : Bytes} (h : JobWrite E S J (.db .references k v)) :
    ∃ j ∈ J, ∃ s, j.name = some k ∧ j.build.bundle.said = some s ∧ v = utf8 s := by
  generalize hw : Write.db .references k v = w at h
  cases h with
  | @build j _ hj hb =>
    cases hb with
    | _ => cases hw
  | @name j n s h1 h2 h3 => cases hw; exact ⟨j, h1, s, h2, h3, rfl⟩

/-- **C84** At any moment of any run, each record is either what it was at the start or, whole, what one of the threads records there: the bundles,
the capture bases and overlays, the operations and the names. -/
theorem C84_whole_records (E : Env) (hE : E.ShortSaids) (S : Serde) (f g : Facade) (past : List Bundle) (hf : f.Shared E S past) (jss : List (List Job))
    (hj : Jobs E jss) (us : List (Thr Unit)) (hi : Interleaved f (jss.map (threadT E S)) g us) (s : Str) :
    (g.cache.get .bundlesJson s = f.cache.get .bundlesJson s ∨ ∃ j ∈ jss.flatten, ∃ st ∈ j.build.steps, st.result.said = some s ∧
      g.cache.get .bundlesJson s = .ok (some (utf8 (S.print (st.result.toJson E))))) ∧
    (g.cache.get .objectsJson s = f.cache.get .objectsJson s ∨ ∃ j ∈ jss.flatten, ∃ st ∈ j.build.steps, ∃ v, st.Object s v ∧
      g.cache.get .objectsJson s = .ok (some (utf8 (S.print v)))) ∧
    (g.db.get .oca (opKey s) = f.db.get .oca (opKey s) ∨ ∃ j ∈ jss.flatten, ∃ st ∈ j.build.steps, ∃ v, st.result.said = some s ∧
      (operationBytes S st.parentSaid st.command.toJson : Res Str Bytes) = .ok v ∧ g.db.get .oca (opKey s) = .ok (some v)) ∧
    (g.db.get .references s = f.db.get .references s ∨ ∃ j ∈ jss.flatten, ∃ x, j.name = some s ∧ j.build.bundle.said = some x ∧
      g.db.get .references s = .ok (some (utf8 x))) := by
  obtain ⟨-, ⟨hc, -⟩, -⟩ := hj.run hE (hf.right hE) hi
  refine ⟨?_, ?_, ?_, ?_⟩
  · rcases hc.cache .bundlesJson s with e | ⟨v, hw, e⟩
    · exact .inl e
    · obtain ⟨j, h1, st, h2, h3, rfl⟩ := jobWrite_bundles hw
      exact .inr ⟨j, h1, st, h2, h3, e⟩
  · rcases hc.cache .objectsJson s with e | ⟨v, hw, e⟩
    · exact .inl e
    · obtain ⟨-, j, h1, st, h2, x, h3, rfl⟩ := jobWrite_objects hw nofun
      exact .inr ⟨j, h1, st, h2, x, h3, e⟩
  · rcases hc.db .oca (opKey s) with e | ⟨v, hw, e⟩
    · exact .inl e
    · obtain ⟨j, h1, st, h2, s', h3, h4, h5⟩ := jobWrite_oca hw
      cases opKey_inj h4
      exact .inr ⟨j, h1, st, h2, v, h3, h5, e⟩
  · rcases hc.db .references s with e | ⟨v, hw, e⟩
    · exact .inl e
    · obtain ⟨j, h1, x, h2, h3, rfl⟩ := jobWrite_name hw
      exact .inr ⟨j, h1, x, h2, h3, e⟩

/-- the rest of a thread's work after its next read or write -/
def Thr.afterOne {α : Type} (t : Thr α) (f : Facade) : Thr α := match t.step f with
  | some (_, t') => t'
  | none => t

/-- **C84** `explore` always answers, whatever the threads are doing, even between its two reads; and it never reports a relation that no bundle given to
a thread stands for. -/
theorem C84_explore (E : Env) (hE : E.ShortSaids) (S : Serde) (f g : Facade) (past : List Bundle) (hf : f.Shared E S past) (jss : List (List Job))
    (hj : Jobs E jss) (us : List (Thr Unit)) (hi : Interleaved f (jss.map (threadT E S)) g us) (x : Said) (hx : ∀ t, x ≠ metaKey t) :
    ∃ r, explore f.db x = .ok r ∧ ((exploreT x).afterOne f).alone g = ([], .ok r) ∧ (r ≠ none → ∃ b ∈ past, ∃ k, b.Has x k) ∧
      ∀ ys, r = some ys → ys.Nodup ∧ ∀ y ∈ ys, ∃ b ∈ past, b.Relates x y := by
  obtain ⟨R, M, r, g1, g2⟩ := hf.right hE
  refine ⟨R x, r.explore_eq hx, ?_, g1 x hx, ?_⟩
  · obtain ⟨-, ⟨hc, -⟩, -⟩ := hj.run hE (hf.right hE) hi
    obtain ⟨R', M', r', -, -⟩ := hc.rels ((hf.right hE).from _)
    unfold exploreT Thr.afterOne
    dsimp only [Thr.step]
    cases e : R x with
    | none => rw [r.none' x hx e]; rfl
    | some l =>
      obtain ⟨-, -, v, q1, q2⟩ := r.some' x hx l e
      obtain ⟨c, hc'⟩ := r.known x l e
      have hk : ∃ c', M' x = some c' := by
        have h1 := r.kind x
        rw [hc'] at h1
        have h2 := r'.kind x
        cases e' : M' x with
        | some c' => exact ⟨c', rfl⟩
        | none =>
          rw [e'] at h2
          rcases hc.db .relations (metaKey x) with q | ⟨v', -, q⟩
          · rw [h1, h2] at q; cases q
          · rw [h2] at q; cases q
      obtain ⟨c', hk⟩ := hk
      rw [q1]
      dsimp only
      rw [Thr.alone_bind, Thr.alone_of, q2]
      simp only [Thr.alone_bind, objectTypeT_alone, Thr.alone_pure]
      rw [Prog.bind_apply]
      simp only [Prog.of]
      rw [Prog.bind_apply]
      simp only [Prog.look, Facade.writes_nil, r'.objectType_eq hk]
      rfl
  · intro ys e
    exact ⟨(r.some' x hx ys e).1, fun y hy => g2 x y hx (by rw [e]; exact hy)⟩

/-! ## When all are done -/

section
variable {E : Env} {S : Serde} {f g : Facade} {jss : List (List Job)} {us : List (Thr Unit)}

/-- what is known when all threads are done -/
structure AllDone (E : Env) (S : Serde) (jss : List (List Job)) (f g : Facade) : Prop where
  calm : Calm E S jss.flatten (.from f.db (jss.flatten.map (·.build.bundle))) f g
  right : RelsRight g.db (.from f.db (jss.flatten.map (·.build.bundle)))
  grows : ∀ i, i < jss.length → Grows (OnlyOf jss i) f g
  done : ∀ i (js : List Job), jss[i]? = some js → ∀ j ∈ js, JobDone E S jss.flatten (OnlyOf jss i) j g

theorem Jobs.allDone (hE : E.ShortSaids) (hj : Jobs E jss) {L : Limit} (hf : RelsRight f.db L) (hi : Interleaved f (jss.map (threadT E S)) g us)
    (hd : ∀ u ∈ us, ∃ r, u = .done r) : AllDone E S jss f g := by
  obtain ⟨hl, ⟨hc, hg⟩, h⟩ := hj.run hE hf hi
  refine ⟨hc, hc.rels (hf.from _), hg, fun i js e j hj' => ?_⟩
  have hlt : i < us.length := by rw [hl]; exact (List.getElem?_eq_some_iff.1 e).1
  obtain ⟨r, hr⟩ := hd us[i] (List.getElem_mem _)
  exact (h i js e r (by rw [List.getElem?_eq_getElem hlt, hr])).2 j hj'

theorem AllDone.job (h : AllDone E S jss f g) {j : Job} (hj : j ∈ jss.flatten) : ∃ Own, JobDone E S jss.flatten Own j g := by
  obtain ⟨js, h1, h2⟩ := List.mem_flatten.1 hj
  obtain ⟨i, hi⟩ := List.mem_iff_getElem?.1 h1
  exact ⟨_, h.done i js hi j h2⟩

/-- all that is to be written in the cache is there -/
theorem AllDone.cache (h : AllDone E S jss f g) {ns : Namespace} {k : Str} {v : Bytes} (hw : JobWrite E S jss.flatten (.cache ns k v)) :
    WrittenC E S jss.flatten ns k g := by
  generalize hw' : Write.cache ns k v = w at hw
  cases hw with
  | @build j _ hj hb =>
    obtain ⟨Own, hd⟩ := h.job hj
    cases hb with
    | bundle h1 h2 => cases hw'; exact ((hd.steps _ h1).bundle _ h2).2
    | base h1 h2 => cases hw'; exact (hd.steps _ h1).base _ h2
    | overlay h1 h2 h3 => cases hw'; exact (hd.steps _ h1).overlay _ h2 _ h3
    | _ => cases hw'
  | name h1 h2 h3 => cases hw'

theorem AllDone.db (h : AllDone E S jss f g) {ns : Namespace} (hns : ns = .oca ∨ ns = .references) {k : Str} {v : Bytes}
    (hw : JobWrite E S jss.flatten (.db ns k v)) : Written E S jss.flatten ns k g := by
  generalize hw' : Write.db ns k v = w at hw
  cases hw with
  | @build j _ hj hb =>
    obtain ⟨Own, hd⟩ := h.job hj
    cases hb with
    | operation h1 h2 h3 => cases hw'; exact ((hd.steps _ h1).bundle _ h2).1
    | kind h1 => cases hw'; rcases hns with e | e <;> cases e
    | relations h1 => cases hw'; rcases hns with e | e <;> cases e
    | model => cases hw'; rcases hns with e | e <;> cases e
    | _ => cases hw'
  | @name j n s h1 h2 h3 =>
    cases hw'
    obtain ⟨Own, hd⟩ := h.job h1
    exact hd.name _ h2

theorem AllDone.bundleRow (h : AllDone E S jss f g) {s : Said} {v : Str} (hw : JobWrite E S jss.flatten (.bundleRow s v)) : ∃ r ∈ g.bundles, r.1 = s := by
  generalize hw' : Write.bundleRow s v = w at hw
  cases hw with
  | @build j _ hj hb =>
    obtain ⟨Own, hd⟩ := h.job hj
    cases hb with
    | bundleRow h1 => cases hw'; exact List.mem_map.1 (hd.bundleRow _ h1)
    | _ => cases hw'
  | name h1 h2 h3 => cases hw'

theorem AllDone.baseRow (h : AllDone E S jss f g) {s : Said} {v : Str} (hw : JobWrite E S jss.flatten (.baseRow s v)) : ∃ r ∈ g.bases, r.1 = s := by
  generalize hw' : Write.baseRow s v = w at hw
  cases hw with
  | @build j _ hj hb =>
    obtain ⟨Own, hd⟩ := h.job hj
    cases hb with
    | baseRow h1 => cases hw'; exact List.mem_map.1 (hd.baseRow _ h1)
    | _ => cases hw'
  | name h1 h2 h3 => cases hw'

theorem AllDone.ftsRow (h : AllDone E S jss f g) {r : FtsRow} (hw : JobWrite E S jss.flatten (.ftsRow r)) : ∃ q ∈ g.fts, q.said = r.said ∧ q.lang = r.lang := by
  generalize hw' : Write.ftsRow r = w at hw
  cases hw with
  | @build j _ hj hb =>
    obtain ⟨Own, hd⟩ := h.job hj
    cases hb with
    | search h1 h2 h3 => cases hw'; exact hd.rows _ h2 _ _ h1 h3
    | _ => cases hw'
  | name h1 h2 h3 => cases hw'

/-- the writes of agreeing jobs agree -/
theorem Agree.cache {J : List Job} (h : Agree E J) {ns : Namespace} {k : Str} {v v' : Bytes} (h1 : JobWrite E S J (.cache ns k v)) (h2 : JobWrite E S J (.cache ns k v')) :
    v = v' := by
  by_cases hn : ns = .bundlesJson
  · subst hn
    obtain ⟨i, hi, a, ha, e, rfl⟩ := jobWrite_bundles h1
    obtain ⟨j, hj, b, hb, e', rfl⟩ := jobWrite_bundles h2
    rw [(h.steps i hi j hj a ha b hb (e.trans e'.symm)).2.2]
  · obtain ⟨-, i, hi, a, ha, x, e, rfl⟩ := jobWrite_objects h1 hn
    obtain ⟨-, j, hj, b, hb, y, e', rfl⟩ := jobWrite_objects h2 hn
    rw [h.objects i hi j hj a ha b hb k x y e e']

theorem Agree.oca {J : List Job} (h : Agree E J) {k : Str} {v v' : Bytes} (h1 : JobWrite E S J (.db .oca k v)) (h2 : JobWrite E S J (.db .oca k v')) :
    v = v' := by
  obtain ⟨i, hi, a, ha, s, e, rfl, o⟩ := jobWrite_oca h1
  obtain ⟨j, hj, b, hb, s', e', ek, o'⟩ := jobWrite_oca h2
  cases opKey_inj ek
  obtain ⟨q1, q2, -⟩ := h.steps i hi j hj a ha b hb (e.trans e'.symm)
  rw [q1, q2, o'] at o
  cases o
  rfl

theorem Agree.name {J : List Job} (h : Agree E J) {k : Str} {v v' : Bytes} (h1 : JobWrite E S J (.db .references k v)) (h2 : JobWrite E S J (.db .references k v')) :
    v = v' := by
  obtain ⟨i, hi, s, e, e2, rfl⟩ := jobWrite_name h1
  obtain ⟨j, hj, s', e', e2', rfl⟩ := jobWrite_name h2
  have := h.names i hi j hj k e e'
  rw [e2, e2'] at this
  cases this
  rfl

theorem Agree.bundleRow {J : List Job} (h : Agree E J) {s : Said} {v v' : Str} (h1 : JobWrite E S J (.bundleRow s v)) (h2 : JobWrite E S J (.bundleRow s v')) : v = v' := by
  have key : ∀ {v}, JobWrite E S J (.bundleRow s v) → ∃ j ∈ J, j.build.bundle.said = some s ∧ v = S.print (j.build.bundle.toJson E) := by
    intro v hw
    generalize hw' : Write.bundleRow s v = w at hw
    cases hw with
    | @build j _ hj hb =>
      cases hb with
      | bundleRow h1 => cases hw'; exact ⟨j, hj, h1, rfl⟩
      | _ => cases hw'
    | name h1 h2 h3 => cases hw'
  obtain ⟨i, hi, e, rfl⟩ := key h1
  obtain ⟨j, hj, e', rfl⟩ := key h2
  rw [h.bundles i hi j hj (e.trans e'.symm)]

theorem Agree.baseRow {J : List Job} (h : Agree E J) {s : Said} {v v' : Str} (h1 : JobWrite E S J (.baseRow s v)) (h2 : JobWrite E S J (.baseRow s v')) : v = v' := by
  have key : ∀ {v}, JobWrite E S J (.baseRow s v) → ∃ j ∈ J, j.build.bundle.captureBase.said = some s ∧ v = S.print j.build.bundle.captureBase.toJson := by
    intro v hw
    generalize hw' : Write.baseRow s v = w at hw
    cases hw with
    | @build j _ hj hb =>
      cases hb with
      | baseRow h1 => cases hw'; exact ⟨j, hj, h1, rfl⟩
      | _ => cases hw'
    | name h1 h2 h3 => cases hw'
  obtain ⟨i, hi, e, rfl⟩ := key h1
  obtain ⟨j, hj, e', rfl⟩ := key h2
  rw [h.bases i hi j hj (e.trans e'.symm)]

theorem metaRow_said {s : Said} {b : OvBody} {r : FtsRow} (h : metaRow s b = some r) : r.said = s := by
  cases b with
  | metaOv l m => cases h; rfl
  | _ => cases h

theorem Agree.ftsRow {J : List Job} (h : Agree E J) {r r' : FtsRow} (h1 : JobWrite E S J (.ftsRow r)) (h2 : JobWrite E S J (.ftsRow r'))
    (hs : r.said = r'.said) (hl : r.lang = r'.lang) : r = r' := by
  have key : ∀ {r}, JobWrite E S J (.ftsRow r) → ∃ j ∈ J, ∃ o ∈ j.build.bundle.overlays, j.build.bundle.said = some r.said ∧ metaRow r.said o.body = some r := by
    intro r hw
    generalize hw' : Write.ftsRow r = w at hw
    cases hw with
    | @build j _ hj hb =>
      cases hb with
      | @search o s _ h1 h2 h3 => cases hw'; cases metaRow_said h3; exact ⟨j, hj, o, h2, h1, h3⟩
      | _ => cases hw'
    | name h1 h2 h3 => cases hw'
  obtain ⟨i, hi, o, ho, e, m⟩ := key h1
  obtain ⟨j, hj, o', ho', e', m'⟩ := key h2
  rw [← hs] at e' m'
  exact h.rows i hi j hj r.said e e' o ho o' ho' r r' m m' hl

theorem JobWrite.mono {J J' : List Job} (h : ∀ j ∈ J, j ∈ J') {w : Write} (hw : JobWrite E S J w) : JobWrite E S J' w := by
  cases hw with
  | build h1 h2 => exact .build (h _ h1) h2
  | name h1 h2 h3 => exact .name (h _ h1) h2 h3

/-- two runs of the same jobs -/
theorem AllDone.same {jss' : List (List Job)} {g' : Facade} (ha : Agree E jss.flatten) (hm : ∀ j, j ∈ jss'.flatten ↔ j ∈ jss.flatten)
    (h : AllDone E S jss f g) (h' : AllDone E S jss' f g') : g'.SameHeld g := by
  have up : ∀ {w}, JobWrite E S jss'.flatten w → JobWrite E S jss.flatten w := fun h => h.mono fun j hj => (hm j).1 hj
  have down : ∀ {w}, JobWrite E S jss.flatten w → JobWrite E S jss'.flatten w := fun h => h.mono fun j hj => (hm j).2 hj
  have cache : ∀ ns k, g.cache.get ns k = g'.cache.get ns k := by
    intro ns k
    rcases h.calm.cache ns k with e | ⟨v, hw, e⟩
    · rcases h'.calm.cache ns k with e' | ⟨v', hw', e'⟩
      · rw [e, e']
      · obtain ⟨v2, hw2, e2⟩ := h.cache (up hw')
        rw [e2, e', ha.cache (up hw') hw2]
    · obtain ⟨v2, hw2, e2⟩ := h'.cache (down hw)
      rw [e, e2, ha.cache hw (up hw2)]
  have db : ∀ ns, (ns = .oca ∨ ns = .references) → (∀ k v v', JobWrite E S jss.flatten (.db ns k v) → JobWrite E S jss.flatten (.db ns k v') → v = v') →
      ∀ k, g.db.get ns k = g'.db.get ns k := by
    intro ns hns hag k
    rcases h.calm.db ns k with e | ⟨v, hw, e⟩
    · rcases h'.calm.db ns k with e' | ⟨v', hw', e'⟩
      · rw [e, e']
      · obtain ⟨v2, hw2, e2⟩ := h.db hns (up hw')
        rw [e2, e', hag k _ _ (up hw') hw2]
    · obtain ⟨v2, hw2, e2⟩ := h'.db hns (down hw)
      rw [e, e2, hag k _ _ hw (up hw2)]
  refine ⟨fun r => ⟨fun hr => ?_, fun hr => ?_⟩, fun r => ⟨fun hr => ?_, fun hr => ?_⟩, fun r => ⟨fun hr => ?_, fun hr => ?_⟩, cache,
    db .oca (.inl rfl) fun k v v' => ha.oca, db .references (.inr rfl) fun k v v' => ha.name⟩
  · rcases h.calm.bundles.2 r hr with e | ⟨hw, hno⟩
    · exact h'.calm.bundles.1.subset e
    · obtain ⟨q, hq, e⟩ := h'.bundleRow (down hw)
      rcases h'.calm.bundles.2 q hq with e' | ⟨hw', -⟩
      · exact absurd e (hno q e')
      · rw [e] at hw'
        have : q = r := Prod.ext e (ha.bundleRow (up hw') hw)
        rwa [← this]
  · rcases h'.calm.bundles.2 r hr with e | ⟨hw, hno⟩
    · exact h.calm.bundles.1.subset e
    · obtain ⟨q, hq, e⟩ := h.bundleRow (up hw)
      rcases h.calm.bundles.2 q hq with e' | ⟨hw', -⟩
      · exact absurd e (hno q e')
      · rw [e] at hw'
        have : q = r := Prod.ext e (ha.bundleRow hw' (up hw))
        rwa [← this]
  · rcases h.calm.bases.2 r hr with e | ⟨hw, hno⟩
    · exact h'.calm.bases.1.subset e
    · obtain ⟨q, hq, e⟩ := h'.baseRow (down hw)
      rcases h'.calm.bases.2 q hq with e' | ⟨hw', -⟩
      · exact absurd e (hno q e')
      · rw [e] at hw'
        have : q = r := Prod.ext e (ha.baseRow (up hw') hw)
        rwa [← this]
  · rcases h'.calm.bases.2 r hr with e | ⟨hw, hno⟩
    · exact h.calm.bases.1.subset e
    · obtain ⟨q, hq, e⟩ := h.baseRow (up hw)
      rcases h.calm.bases.2 q hq with e' | ⟨hw', -⟩
      · exact absurd e (hno q e')
      · rw [e] at hw'
        have : q = r := Prod.ext e (ha.baseRow hw' (up hw))
        rwa [← this]
  · rcases h.calm.fts.2 r hr with e | ⟨hw, hno⟩
    · exact h'.calm.fts.1.subset e
    · obtain ⟨q, hq, e, el⟩ := h'.ftsRow (down hw)
      rcases h'.calm.fts.2 q hq with e' | ⟨hw', -⟩
      · exact absurd ⟨e, el⟩ (hno q e')
      · rwa [← ha.ftsRow (up hw') hw e el]
  · rcases h'.calm.fts.2 r hr with e | ⟨hw, hno⟩
    · exact h.calm.fts.1.subset e
    · obtain ⟨q, hq, e, el⟩ := h.ftsRow (up hw)
      rcases h.calm.fts.2 q hq with e' | ⟨hw', -⟩
      · exact absurd ⟨e, el⟩ (hno q e')
      · rwa [← ha.ftsRow hw' (up hw) e el]

end

/-- **C84** When all threads are done, then for an object that is in the bundles of only one of them, `explore` gives just the relations
there were, and those of the bundles the threads stored. -/
theorem C84_relations (E : Env) (hE : E.ShortSaids) (S : Serde) (f g : Facade) (past : List Bundle) (hf : f.Shared E S past) (jss : List (List Job))
    (hj : Jobs E jss) (us : List (Thr Unit)) (hi : Interleaved f (jss.map (threadT E S)) g us) (hd : ∀ u ∈ us, ∃ r, u = .done r)
    (x : Said) (hx : ∀ t, x ≠ metaKey t) (i : Nat) (hlt : i < jss.length) (ho : OnlyOf jss i x) :
    ∃ r r', explore f.db x = .ok r ∧ explore g.db x = .ok r' ∧ (r' ≠ none ↔ r ≠ none ∨ ∃ j ∈ jss.flatten, some x ∈ j.build.bundle.saids) ∧
      ∀ y, y ∈ r'.getD [] ↔ y ∈ r.getD [] ∨ ∃ j ∈ jss.flatten, j.build.bundle.Relates x y := by
  have h := hj.allDone hE (hf.right hE) hi hd
  obtain ⟨R, M, r, -, -⟩ := hf.right hE
  obtain ⟨R', M', r', g1, g2⟩ := h.right
  have mine : ∀ j ∈ jss.flatten, some x ∈ j.build.bundle.saids → JobDone E S jss.flatten (OnlyOf jss i) j g := by
    intro j hj hs
    obtain ⟨js, h1, h2⟩ := List.mem_flatten.1 hj
    obtain ⟨k, hk⟩ := List.mem_iff_getElem?.1 h1
    by_cases e : k = i
    · subst e; exact h.done k js hk j h2
    · exact absurd hs (ho k js e hk j h2)
  have said : ∀ {b : Bundle} {k : Nat}, b.Has x k → some x ∈ b.saids := has_saids
  refine ⟨R x, R' x, r.explore_eq hx, r'.explore_eq hx, ⟨fun hn => ?_, ?_⟩, fun y => ⟨fun hy => ?_, ?_⟩⟩
  · rcases g1 x hx hn with e | ⟨b, hb, k, hk⟩
    · exact .inl ((recorded_iff r hx).1 e)
    · obtain ⟨j, hj, rfl⟩ := List.mem_map.1 hb
      exact .inr ⟨j, hj, said hk⟩
  · rintro (hn | ⟨j, hj, hs⟩)
    · rw [← recorded_iff r' hx]
      obtain ⟨v, hv⟩ := (recorded_iff r hx).2 hn
      rcases h.calm.db .relations x with e | ⟨v', -, e⟩
      · exact ⟨v, e.trans hv⟩
      · exact ⟨v', e⟩
    · obtain ⟨v, -, e⟩ := ((mine j hj hs).rels x hx).1 hs
      exact (recorded_iff r' hx).1 ⟨v, e⟩
  · rcases g2 x y hx hy with e | ⟨b, hb, hk⟩
    · exact .inl ((hasRel_iff r hx).1 e)
    · obtain ⟨j, hj, rfl⟩ := List.mem_map.1 hb
      exact .inr ⟨j, hj, hk⟩
  · rintro (hy | ⟨j, hj, hrel⟩)
    · exact (hasRel_iff r' hx).1 (h.grows i hlt x y hx ho ((hasRel_iff r hx).2 hy))
    · obtain ⟨-, -, ⟨k, hk⟩, -⟩ := id hrel
      exact (hasRel_iff r' hx).1 (((mine j hj (said hk)).rels x hx).2 ho y hrel)

/-- **C84** When all threads are done, in whatever order their reads and writes came, then what is held is what is held after the same jobs stored one
after the other, in any order: the same bundles, capture bases and overlays, the same operations and names, the same rows. And `explore` gives the same for every
object that is in the bundles of only one thread. (The jobs must not contradict each other.) -/
theorem C84_as_one_after_the_other (E : Env) (hE : E.ShortSaids) (S : Serde) (f g : Facade) (past : List Bundle) (hf : f.Shared E S past) (jss : List (List Job))
    (hj : Jobs E jss) (ha : Agree E jss.flatten) (us : List (Thr Unit)) (hi : Interleaved f (jss.map (threadT E S)) g us) (hd : ∀ u ∈ us, ∃ r, u = .done r)
    (seq : List Job) (hs : ∀ j, j ∈ seq ↔ j ∈ jss.flatten) :
    ∃ f', foldRes (Facade.store E S) f seq = .ok f' ∧ f'.SameHeld g ∧
      ∀ x, (∀ t, x ≠ metaKey t) → ∀ i, i < jss.length → OnlyOf jss i x → f'.SameExplored g x := by
  have hs' : ∀ j, j ∈ [seq].flatten ↔ j ∈ jss.flatten := by simpa using hs
  have hjs : Jobs E [seq] := ⟨fun j h => hj.made j ((hs' j).1 h), fun j h => hj.distinct j ((hs' j).1 h),
    fun i h j h' => hj.kinds i ((hs' i).1 h) j ((hs' j).1 h')⟩
  obtain ⟨f', r, hrun⟩ := interleaved_alone (f0 := f) (ts := [threadT E S seq]) (threadT E S seq) .start
  have hr := C84_no_thread_fails E hE S f f' past hf [seq] hjs _ hrun r (.head _)
  subst hr
  have hdone : ∀ u ∈ [Thr.done (Res.ok ())], ∃ r, u = Thr.done r := fun u hu => ⟨_, List.mem_singleton.1 hu⟩
  have h1 := hj.allDone hE (hf.right hE) hi hd
  have h2 := hjs.allDone hE (hf.right hE) hrun hdone
  refine ⟨f', C84_alone E S f f' seq _ hrun, h1.same ha hs' h2, fun x hx i hlt ho => ?_⟩
  obtain ⟨r, r1, e0, e1, n1, m1⟩ := C84_relations E hE S f g past hf jss hj us hi hd x hx i hlt ho
  obtain ⟨r', r2, e0', e2, n2, m2⟩ := C84_relations E hE S f f' past hf [seq] hjs _ hrun hdone x hx 0 (by simp)
    (fun k js hk e => by cases k with | zero => exact absurd rfl hk | succ k => cases e)
  rw [e0] at e0'
  cases e0'
  refine ⟨r2, r1, e2, e1, ?_, ?_⟩
  · have : r2 ≠ none ↔ r1 ≠ none := by
      rw [n1, n2]
      exact or_congr Iff.rfl ⟨fun ⟨j, h, h'⟩ => ⟨j, (hs' j).1 h, h'⟩, fun ⟨j, h, h'⟩ => ⟨j, (hs' j).2 h, h'⟩⟩
    exact ⟨fun e => Decidable.byContradiction fun h => (this.2 h) e, fun e => Decidable.byContradiction fun h => (this.1 h) e⟩
  · intro ys zs hy hz
    subst hy hz
    obtain ⟨R, M, rr, -, -⟩ := h2.right
    obtain ⟨R', M', rr', -, -⟩ := h1.right
    have n1 : ys.Nodup := by
      rw [rr.explore_eq hx] at e2
      exact (rr.some' x hx ys (Res.ok.inj e2)).1
    have n2 : zs.Nodup := by
      rw [rr'.explore_eq hx] at e1
      exact (rr'.some' x hx zs (Res.ok.inj e1)).1
    refine perm_of_nodup n1 n2 fun y => ?_
    have a1 := m1 y
    have a2 := m2 y
    simp only [Option.getD_some] at a1 a2
    rw [a1, a2]
    exact or_congr Iff.rfl ⟨fun ⟨j, h, h'⟩ => ⟨j, (hs' j).1 h, h'⟩, fun ⟨j, h, h'⟩ => ⟨j, (hs' j).2 h, h'⟩⟩

/-- **C84** What a validation gives - of `validate_ocafile` with the default features or of the one with local references - is what threads may store,
whatever the storages hold that the file was validated against. -/
theorem C84_validated (E : Env) (S : Serde) (Os : Nat → Order) (f : Facade) (ls : List Line) (b : Build)
    (h : f.validatePlain E S Os ls = .ok b ∨ ∃ f', f.validate E S Os ls = .ok (f', b)) : b.Made E := by
  rcases h with h | ⟨f', h⟩
  · obtain ⟨ast, base, ast', -, hb, h⟩ := validatePlain_parts h
    exact ⟨Os, base, ast', h, checkBase_valid hb⟩
  · obtain ⟨ast, base, ast', cs, -, hb, -, h, -⟩ := validate_parts h
    exact ⟨Os, base, _, h, checkBase_valid hb⟩

/-- **C84** Relations that were lost come back: storing a job again, or for the first time, in whatever state threads left, succeeds, and then every
object of its bundle has all relations the bundle stands for, and those it had. -/
theorem C84_repair (E : Env) (hE : E.ShortSaids) (S : Serde) (f : Facade) (past : List Bundle) (hf : f.Shared E S past) (j : Job) (hj : Jobs E [[j]]) :
    ∃ f', f.store E S j = .ok f' ∧ ∀ x, (∀ t, x ≠ metaKey t) → ∃ r r', explore f.db x = .ok r ∧ explore f'.db x = .ok r' ∧
      ∀ y, y ∈ r'.getD [] ↔ y ∈ r.getD [] ∨ j.build.bundle.Relates x y := by
  obtain ⟨g, r, hi⟩ := interleaved_alone (f0 := f) (ts := [threadT E S [j]]) (threadT E S [j]) .start
  obtain rfl := C84_no_thread_fails E hE S f g past hf [[j]] hj _ hi r (.head _)
  refine ⟨g, ?_, fun x hx => ?_⟩
  · have h := C84_alone E S f g [j] _ hi
    simp only [foldRes] at h
    cases hs : f.store E S j with
    | ok a => rw [hs] at h; exact h
    | err e => rw [hs] at h; cases h
    | panic => rw [hs] at h; cases h
  · obtain ⟨r, r', h1, h2, -, h4⟩ := C84_relations E hE S f g past hf [[j]] hj _ hi (fun u hu => ⟨_, List.mem_singleton.1 hu⟩) x hx 0 Nat.one_pos
      (by
        intro k js hk e
        cases k with
        | zero => exact absurd rfl hk
        | succ k => cases e)
    refine ⟨r, r', h1, h2, fun y => (h4 y).trans ?_⟩
    simp

end OCA
