import Verif.Lemmas.Prog
import Verif.Props.Rebuild
import Verif.Props.StoreTotal
import Verif.Props.Files
/-!
# C66: what a crash leaves behind

A build makes many writes, one after the other, into two key-value storages and an SQLite file, without a transaction
(`Verif.Model.Crash`). Here: what can be said of the facade when it is opened again after a crash at any point.
-/
namespace OCA

/-! ## The writes of a build -/

/-- The writes a build may make. -/
inductive BuildWrite (E : Env) (S : Serde) (b : Build) : Write → Prop
  | bundleRow {s : Said} : b.bundle.said = some s → BuildWrite E S b (.bundleRow s (S.print (b.bundle.toJson E)))
  | baseRow {c : Said} : b.bundle.captureBase.said = some c →
      BuildWrite E S b (.baseRow c (S.print b.bundle.captureBase.toJson))
  | search {o : Overlay} {s : Said} {r : FtsRow} : b.bundle.said = some s → o ∈ b.bundle.overlays →
      metaRow s o.body = some r → BuildWrite E S b (.ftsRow r)
  | operation {st : BuildStep} {s : Said} {r : Bytes} : st ∈ b.steps → st.result.said = some s →
      (operationBytes S st.parentSaid st.command.toJson : Res Str Bytes) = .ok r → BuildWrite E S b (.db .oca (opKey s) r)
  | bundle {st : BuildStep} {s : Said} : st ∈ b.steps → st.result.said = some s →
      BuildWrite E S b (.cache .bundlesJson s (utf8 (S.print (st.result.toJson E))))
  | base {st : BuildStep} {c : Said} : st ∈ b.steps → st.result.captureBase.said = some c →
      BuildWrite E S b (.cache .objectsJson c (utf8 (S.print st.result.captureBase.toJson)))
  | overlay {st : BuildStep} {o : Overlay} {s : Said} : st ∈ b.steps → o ∈ st.result.overlays → o.said = some s →
      BuildWrite E S b (.cache .objectsJson s (utf8 (S.print o.toJson)))
  | kind {x : Said} {k : Nat} : b.bundle.Has x k → BuildWrite E S b (.db .relations (metaKey x) [UInt8.ofNat k])
  | relations {x : Said} {v : Bytes} : some x ∈ b.bundle.saids → BuildWrite E S b (.db .relations x v)
  | model {k : Str} {v : Bytes} : BuildWrite E S b (.db .coreModel k v)

namespace Prog
variable {Q : Write → Prop} {α β : Type}
/-- a value computed first -/
theorem only_of_bind {r : Res Str α} {k : α → Prog β} (h : ∀ a, r = .ok a → Only Q (k a)) : Only Q (of r >>= k) :=
  only_bind (only_of r) fun a f f' hr => by
    rw [run_of] at hr
    obtain ⟨a', e, hr⟩ := Res.bind_eq_ok.1 hr
    cases hr
    exact h a e
theorem only_need_bind {o : Option α} {k : α → Prog β} (h : ∀ a, o = some a → Only Q (k a)) :
    Only Q (of (Res.unwrap o) >>= k) := only_of_bind fun a e => h a (Res.unwrap_eq e)
theorem only_look_bind {g : Store → Res Str α} {k : α → Prog β} (h : ∀ a, Only Q (k a)) : Only Q (look g >>= k) :=
  only_bind (only_look g) fun a _ _ _ => h a
theorem only_then {m : Prog α} {k : Prog β} (hm : Only Q m) (hk : Only Q k) : Only Q (m >>= fun _ => k) :=
  only_bind hm fun _ _ _ _ => hk
theorem Only.mono {Q' : Write → Prop} {m : Prog α} (h : Only Q m) (hq : ∀ w, Q w → Q' w) : Only Q' m :=
  fun f w hw => hq w (h f w hw)
end Prog

open Prog in
theorem only_relationsOp (E : Env) (S : Serde) (O : SetOrder) (b : Build) :
    Only (BuildWrite E S b) (relationsOp O b.bundle) := by
  have hb : ∀ s, b.bundle.said = some s → some s ∈ b.bundle.saids := fun s h => by simp [Bundle.saids, h]
  have hc : ∀ s, b.bundle.captureBase.said = some s → some s ∈ b.bundle.saids := fun s h => by simp [Bundle.saids, h]
  have ho : ∀ o ∈ b.bundle.overlays, ∀ s, o.said = some s → some s ∈ b.bundle.saids := by
    intro o ho s h
    unfold Bundle.saids
    exact .tail _ (.tail _ (List.mem_map.2 ⟨o, ho, h⟩))
  have hw : ∀ s l, some s ∈ b.bundle.saids → Only (BuildWrite E S b) (writeRelsOp O s l) := fun s l h =>
    only_of_bind fun v _ => only_emit (.relations h)
  have hloop : ∀ (os : List Overlay) (bs cs : Said) (br cr : List RelObj), (∀ o ∈ os, o ∈ b.bundle.overlays) →
      Only (BuildWrite E S b) (relLoopOp O bs cs br cr os) := by
    intro os bs cs
    induction os with
    | nil => exact fun _ _ _ => only_pure _
    | cons o t ih =>
      intro br cr hos
      unfold relLoopOp
      exact only_need_bind fun s hs => only_look_bind fun _ => only_look_bind fun _ => only_look_bind fun _ =>
        only_look_bind fun _ => only_then (hw s _ (ho o (hos o (.head _)) s hs)) (ih _ _ fun o h => hos o (.tail _ h))
  unfold relationsOp
  refine only_then ?_ (only_need_bind fun bs hbs => only_need_bind fun cs hcs => only_look_bind fun _ => only_look_bind fun _ =>
    only_look_bind fun _ => only_look_bind fun _ => only_bind (hloop _ _ _ _ _ fun o h => h) fun r _ _ _ =>
      only_then (hw bs _ (hb bs hbs)) (hw cs _ (hc cs hcs)))
  unfold metasOp
  exact only_need_bind fun s hs => only_then (only_emit (.kind (.bundle hs))) (only_need_bind fun c hcs =>
    only_then (only_emit (.kind (.base hcs))) (only_each _ fun o h => only_need_bind fun s hs => only_emit (.kind (.overlay h hs))))

open Prog in
theorem only_stepOp (E : Env) (S : Serde) (b : Build) {st : BuildStep} (hst : st ∈ b.steps) :
    Only (BuildWrite E S b) (stepOp E S st) := by
  unfold stepOp
  exact only_of_bind fun r hr => only_need_bind fun s hs => only_then (only_emit (.operation hst hs hr))
    (only_then (only_emit (.bundle hst hs)) (only_need_bind fun c hc => only_then (only_emit (.base hst hc))
      (only_each _ fun o h => only_need_bind fun s hs => only_emit (.overlay hst h hs))))

open Prog in
/-- these are the writes of a build -/
theorem only_buildOp (E : Env) (S : Serde) (O : SetOrder) (b : Build) : Only (BuildWrite E S b) (buildOp E S O b) := by
  unfold buildOp
  refine only_then ?_ (only_then ?_ (only_then (only_each _ fun st h => only_stepOp E S b h)
    (only_then (only_ignore (only_relationsOp E S O b)) ?_)))
  · unfold cacheOp
    exact only_need_bind fun s hs => only_then (only_emit (.bundleRow hs)) (only_need_bind fun c hc => only_emit (.baseRow hc))
  · unfold metaOp
    split
    · refine only_need_bind fun s hs => only_each _ fun r hr => only_emit ?_
      obtain ⟨o, ho, e⟩ := List.mem_filterMap.1 hr
      exact .search hs ho e
    · exact only_pure _
  · unfold modelsOp
    refine only_of_bind fun ms _ => only_each _ fun m _ => ?_
    have hcore : ∀ k r, Only (BuildWrite E S b) (coreOp k r) := fun k r => only_of_bind fun _ _ => only_emit .model
    unfold modelOp
    exact only_then (hcore _ _) (only_then (only_each _ fun _ _ => hcore _ _) (only_then (only_each _ fun _ _ => hcore _ _) (hcore _ _)))

/-- **C66** Run to its end, the build makes exactly the writes that lead to what `build` leads to: the crash points are
points of the run the other theorems speak of. -/
theorem C66_last_point (E : Env) (S : Serde) (O : SetOrder) (f f' : Facade) (b : Build)
    (h : (f.build E S O b : Res Str Facade) = .ok f') :
    f.killed (f.buildWrites E S O b) 0 = f ∧
    f.killed (f.buildWrites E S O b) (f.buildWrites E S O b).length = f' := by
  refine ⟨rfl, ?_⟩
  have hr := run_buildOp E S O b f
  rw [h] at hr
  unfold Facade.killed
  rw [List.take_length]
  exact (Prog.run_writes hr).symm

/-! ## What a crash leaves in each storage -/

theorem Facade.writes_db (f : Facade) (ws : List Write) (ns : Namespace) (k : Str) :
    (f.writes ws).db.get ns k = f.db.get ns k ∨ ∃ v, Write.db ns k v ∈ ws ∧ (f.writes ws).db.get ns k = .ok (some v) := by
  induction ws generalizing f with
  | nil => exact .inl rfl
  | cons w t ih =>
    rw [Facade.writes_cons]
    rcases ih (f.write w) with h | ⟨v, hv, h⟩
    · rw [h]
      cases w with
      | db n x v =>
        show (f.db.set n x v).get ns k = _ ∨ _
        rw [Store.get_set]
        split
        · next e => obtain ⟨rfl, rfl⟩ := e; exact .inr ⟨v, .head _, by show (f.db.set _ _ _).get _ _ = _; rw [Store.get_set, if_pos ⟨rfl, rfl⟩]⟩
        · exact .inl rfl
      | cache n x v => exact .inl rfl
      | bundleRow s v => exact .inl rfl
      | baseRow s v => exact .inl rfl
      | ftsRow r => exact .inl rfl
    · exact .inr ⟨v, .tail _ hv, h⟩

theorem Facade.writes_cache (f : Facade) (ws : List Write) (ns : Namespace) (k : Str) :
    (f.writes ws).cache.get ns k = f.cache.get ns k ∨
      ∃ v, Write.cache ns k v ∈ ws ∧ (f.writes ws).cache.get ns k = .ok (some v) := by
  induction ws generalizing f with
  | nil => exact .inl rfl
  | cons w t ih =>
    rw [Facade.writes_cons]
    rcases ih (f.write w) with h | ⟨v, hv, h⟩
    · rw [h]
      cases w with
      | cache n x v =>
        show (f.cache.set n x v).get ns k = _ ∨ _
        rw [Store.get_set]
        split
        · next e => obtain ⟨rfl, rfl⟩ := e; exact .inr ⟨v, .head _, by show (f.cache.set _ _ _).get _ _ = _; rw [Store.get_set, if_pos ⟨rfl, rfl⟩]⟩
        · exact .inl rfl
      | db n x v => exact .inl rfl
      | bundleRow s v => exact .inl rfl
      | baseRow s v => exact .inl rfl
      | ftsRow r => exact .inl rfl
    · exact .inr ⟨v, .tail _ hv, h⟩

theorem insertRow_keeps (t : Table) (s : Said) (v : Str) : t <+: t.insertRow s v := by
  unfold Table.insertRow
  split
  · exact List.prefix_refl _
  · exact List.prefix_append _ _

theorem insertFts_keeps (t : List FtsRow) (r : FtsRow) : t <+: insertFts t r := by
  unfold insertFts
  split
  · exact List.prefix_refl _
  · exact List.prefix_append _ _

theorem Facade.writes_tables (f : Facade) (ws : List Write) :
    f.bundles <+: (f.writes ws).bundles ∧ f.bases <+: (f.writes ws).bases ∧ f.fts <+: (f.writes ws).fts := by
  induction ws generalizing f with
  | nil => exact ⟨List.prefix_refl _, List.prefix_refl _, List.prefix_refl _⟩
  | cons w t ih =>
    rw [Facade.writes_cons]
    obtain ⟨h1, h2, h3⟩ := ih (f.write w)
    have h0 : f.bundles <+: (f.write w).bundles ∧ f.bases <+: (f.write w).bases ∧ f.fts <+: (f.write w).fts := by
      cases w with
      | db n x v => exact ⟨List.prefix_refl _, List.prefix_refl _, List.prefix_refl _⟩
      | cache n x v => exact ⟨List.prefix_refl _, List.prefix_refl _, List.prefix_refl _⟩
      | bundleRow s v => exact ⟨insertRow_keeps _ _ _, List.prefix_refl _, List.prefix_refl _⟩
      | baseRow s v => exact ⟨List.prefix_refl _, insertRow_keeps _ _ _, List.prefix_refl _⟩
      | ftsRow r => exact ⟨List.prefix_refl _, List.prefix_refl _, insertFts_keeps _ _⟩
    exact ⟨h0.1.trans h1, h0.2.1.trans h2, h0.2.2.trans h3⟩

variable {f g : Facade} {ws : List Write}

theorem Facade.killed_crashed (f : Facade) (ws : List Write) (n : Nat) : f.Crashed ws (f.killed ws n) :=
  ⟨⟨n, rfl⟩, ⟨n, rfl⟩, ⟨n, rfl, rfl, rfl⟩⟩

theorem Facade.Crashed.get_db (h : f.Crashed ws g) (ns : Namespace) (k : Str) :
    g.db.get ns k = f.db.get ns k ∨ ∃ v, Write.db ns k v ∈ ws ∧ g.db.get ns k = .ok (some v) := by
  obtain ⟨n, e⟩ := h.db
  rw [e]
  rcases f.writes_db (ws.take n) ns k with h | ⟨v, hv, h⟩
  · exact .inl h
  · exact .inr ⟨v, List.mem_of_mem_take hv, h⟩

theorem Facade.Crashed.get_cache (h : f.Crashed ws g) (ns : Namespace) (k : Str) :
    g.cache.get ns k = f.cache.get ns k ∨ ∃ v, Write.cache ns k v ∈ ws ∧ g.cache.get ns k = .ok (some v) := by
  obtain ⟨n, e⟩ := h.cache
  rw [e]
  rcases f.writes_cache (ws.take n) ns k with h | ⟨v, hv, h⟩
  · exact .inl h
  · exact .inr ⟨v, List.mem_of_mem_take hv, h⟩

theorem Facade.Crashed.rows (h : f.Crashed ws g) : f.bundles <+: g.bundles ∧ f.bases <+: g.bases ∧ f.fts <+: g.fts := by
  obtain ⟨n, e1, e2, e3⟩ := h.tables
  rw [e1, e2, e3]
  exact f.writes_tables _

/-! ## Nothing is lost -/

/-- a build writes the records of its steps, and of nothing else -/
theorem crashed_records {E : Env} {S : Serde} {O : SetOrder} {b : Build} (h : f.Crashed (f.buildWrites E S O b) g) (s : Said)
    (hs : some s ∉ b.steps.map (·.result.said)) : f.SameRecords g s := by
  refine ⟨?_, ?_⟩
  · rcases h.get_db .oca (opKey s) with h | ⟨v, hv, -⟩
    · exact h
    · exfalso
      generalize hw : Write.db .oca (opKey s) v = w at hv
      cases only_buildOp E S O b f w hv with
      | operation h1 h2 _ =>
        simp only [Write.db.injEq, true_and] at hw
        cases opKey_inj hw.1
        exact hs (List.mem_map.2 ⟨_, h1, h2⟩)
      | _ => cases hw
  · rcases h.get_cache .bundlesJson s with h | ⟨v, hv, -⟩
    · exact h
    · exfalso
      generalize hw : Write.cache .bundlesJson s v = w at hv
      cases only_buildOp E S O b f w hv with
      | bundle h1 h2 =>
        cases hw
        exact hs (List.mem_map.2 ⟨_, h1, h2⟩)
      | _ => cases hw

/-- **C66** Nothing that was there is lost. After a crash at any point of any build: every bundle and every history that
was there before, of an identifier that no step of the build has, is there unchanged; every name is; every row of the
tables is, in its place; and every record under any key is the old one or one that the build writes under that key. -/
theorem C66_nothing_lost (E : Env) (S : Serde) (O : SetOrder) (b : Build) (h : f.Crashed (f.buildWrites E S O b) g) :
    (∀ s, some s ∉ b.steps.map (·.result.said) → fetchBundle E S g.cache s = fetchBundle E S f.cache s) ∧
    (∀ fuel s l, f.steps E S fuel s = some (.ok l) → some s ∉ b.steps.map (·.result.said) →
      (∀ st ∈ l, ∀ p, st.parentSaid = some p → some p ∉ b.steps.map (·.result.said)) → g.steps E S fuel s = some (.ok l)) ∧
    (∀ n, g.db.get .references n = f.db.get .references n) ∧
    (f.bundles <+: g.bundles ∧ f.bases <+: g.bases ∧ f.fts <+: g.fts) ∧
    (∀ ns k, g.db.get ns k = f.db.get ns k ∨ ∃ v, BuildWrite E S b (.db ns k v) ∧ g.db.get ns k = .ok (some v)) ∧
    ∀ ns k, g.cache.get ns k = f.cache.get ns k ∨ ∃ v, BuildWrite E S b (.cache ns k v) ∧ g.cache.get ns k = .ok (some v) := by
  refine ⟨?_, ?_, ?_, h.rows, ?_, ?_⟩
  · intro s hs
    unfold fetchBundle
    rw [(crashed_records h s hs).2]
  · intro fuel s l hl hs hp
    exact stepsLoop_same E S f g fuel s [] l hl (crashed_records h s hs) fun st hst p hpp => crashed_records h p (hp st hst p hpp)
  · intro n
    rcases h.get_db .references n with h | ⟨v, hv, -⟩
    · exact h
    · exfalso
      generalize hw : Write.db .references n v = w at hv
      cases only_buildOp E S O b f w hv with
      | _ => cases hw
  · intro ns k
    rcases h.get_db ns k with h | ⟨v, hv, h⟩
    · exact .inl h
    · exact .inr ⟨v, only_buildOp E S O b f _ hv, h⟩
  · intro ns k
    rcases h.get_cache ns k with h | ⟨v, hv, h⟩
    · exact .inl h
    · exact .inr ⟨v, only_buildOp E S O b f _ hv, h⟩

end OCA
