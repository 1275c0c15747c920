import Verif.Props.CrashHistory
import Verif.Model.Fetch
/-!
# C66: what a crash can leave behind

The guarantees of C66 are as good as they get: each of the following states is left by a process that is killed (or, the last, by a
machine that crashes) in the middle of storing a build.
-/
namespace OCA

theorem Prog.killed_bind {α β : Type} {m : Prog α} {k : α → Prog β} {f f1 : Facade} {a : α} (h : m.run f = .ok (f1, a)) (n : Nat) :
    f.killed ((m >>= k) f).1 ((m f).1.length + n) = f1.killed (k a f1).1 n := by
  have hw := Prog.run_writes h
  rw [Prog.bind_apply]
  unfold Prog.run at h
  rcases e : m f with ⟨ws, r⟩
  rw [e] at h hw
  cases r with
  | err e => cases h
  | panic => cases h
  | ok x =>
    cases h
    dsimp only at hw ⊢
    unfold Facade.killed
    rw [List.take_append, List.take_of_length_le (by omega), Facade.writes_append, ← hw, Nat.add_sub_cancel_left]

variable {E : Env} {S : Serde} {O : SetOrder} {f f' : Facade} {b : Build}

/-- after the rows are in -/
theorem killed_rows (h : (f.build E S O b : Res Str Facade) = .ok f') :
    ∃ (n : Nat) (g : Facade), g.db = f.db ∧ g.cache = f.cache ∧ g.bundles = f'.bundles ∧ g.bases = f'.bases ∧ g.fts = f'.fts ∧
      ∀ i, f.killed (f.buildWrites E S O b) (n + i) =
        g.killed ((Prog.each (stepOp E S) b.steps >>= fun _ => Prog.ignore (relationsOp O b.bundle) >>= fun _ => modelsOp E S b.steps) g).1 i := by
  obtain ⟨s, c, hs, hc, t1, t2, t3⟩ := build_tables h
  have r1 : (cacheOp E S b.bundle).run f = .ok ({ f with bundles := f'.bundles, bases := f'.bases }, ()) := by
    rw [run_cacheOp]
    unfold Facade.buildCache
    rw [hs, hc, t1, t2]
    rfl
  have r2 : (metaOp b.bundle).run { f with bundles := f'.bundles, bases := f'.bases } =
      .ok ({ f with bundles := f'.bundles, bases := f'.bases, fts := f'.fts }, ()) := by
    rw [run_metaOp]
    unfold Facade.buildMeta
    split
    · rw [hs, t3]
      rfl
    · next hm =>
      have : (b.bundle.overlays.filterMap fun o => metaRow s o.body) = [] := by
        rw [List.filterMap_eq_nil_iff]
        intro o ho
        cases hb : o.body with
        | metaOv l ps =>
          exfalso
          apply hm
          rw [List.any_eq_true]
          exact ⟨o, ho, by rw [hb]; rfl⟩
        | _ => rfl
      rw [this] at t3
      rw [t3]
      rfl
  refine ⟨(cacheOp E S b.bundle f).1.length + (metaOp b.bundle { f with bundles := f'.bundles, bases := f'.bases }).1.length,
    { f with bundles := f'.bundles, bases := f'.bases, fts := f'.fts }, rfl, rfl, rfl, rfl, rfl, fun i => ?_⟩
  unfold Facade.buildWrites buildOp
  rw [Nat.add_assoc, Prog.killed_bind r1, Prog.killed_bind r2]

/-- **C66, finding** A process killed after the first write of a build: the bundle is listed by `fetch_all_oca_bundle`, but
`get_oca_bundle` does not know it. -/
theorem C66_listed_unknown (h : (f.build E S O b : Res Str Facade) = .ok f') (s : Said) (hs : b.bundle.said = some s)
    (hnew : fetchBundle E S f.cache s = .err [c!"No OCA Bundle found for said: " ++ s]) :
    f.killed (f.buildWrites E S O b) 1 = { f with bundles := f'.bundles } ∧
    (∃ v, (s, v) ∈ (f.killed (f.buildWrites E S O b) 1).bundles) ∧
    fetchBundle E S (f.killed (f.buildWrites E S O b) 1).cache s = .err [c!"No OCA Bundle found for said: " ++ s] := by
  obtain ⟨s', c, hs', hc, t1, t2, t3⟩ := build_tables h
  rw [hs] at hs'
  cases hs'
  have e : f.killed (f.buildWrites E S O b) 1 = { f with bundles := f'.bundles } := by
    have r : (Prog.of (Res.unwrap b.bundle.said)).run f = .ok (f, s) := by rw [hs]; rfl
    have e1 : ∃ ws, (f.buildWrites E S O b) = .bundleRow s (S.print (b.bundle.toJson E)) :: ws := by
      unfold Facade.buildWrites buildOp
      have hw : ∃ ws r, cacheOp E S b.bundle f = (.bundleRow s (S.print (b.bundle.toJson E)) :: ws, r) := by
        unfold cacheOp
        rw [hs, hc]
        exact ⟨_, _, rfl⟩
      obtain ⟨ws, r, hw⟩ := hw
      rw [Prog.bind_apply, hw]
      cases r with
      | ok a => exact ⟨_, rfl⟩
      | _ => exact ⟨_, rfl⟩
    obtain ⟨ws, e1⟩ := e1
    rw [e1, t1]
    rfl
  rw [e]
  refine ⟨rfl, ?_, hnew⟩
  show ∃ v, (s, v) ∈ f'.bundles
  rw [t1]
  unfold Table.insertRow
  split
  · next hany =>
    obtain ⟨p, hp, e⟩ := List.any_eq_true.1 hany
    exact ⟨p.2, by rw [← (by simpa using e : p.1 = s)]; exact hp⟩
  · exact ⟨_, List.mem_append.2 (.inr (.head _))⟩

/-- **C66, finding** A process killed between the rows and the steps: a search can find the bundle (it has a meta overlay), and then
aborts, because the bundle it found cannot be fetched. -/
theorem C66_search_aborts {ε : Type} (h : (f.build E S O b : Res Str Facade) = .ok f') (s : Said) (hs : b.bundle.said = some s)
    (hnew : fetchBundle E S f.cache s = .err [c!"No OCA Bundle found for said: " ++ s])
    (hm : ∃ o ∈ b.bundle.overlays, o.body.kind = .metaOv) :
    ∃ n, (∃ r : FtsRow, r ∈ (f.killed (f.buildWrites E S O b) n).fts ∧ r.said = s) ∧
      ((f.killed (f.buildWrites E S O b) n).searchRecords E S [s] : Res ε _) = .panic := by
  obtain ⟨n, g, -, g2, -, -, g5, hk⟩ := killed_rows h
  obtain ⟨s', c, hs', hc, t1, t2, t3⟩ := build_tables h
  rw [hs] at hs'
  cases hs'
  refine ⟨n + 0, ?_⟩
  rw [hk 0]
  show (∃ r : FtsRow, r ∈ g.fts ∧ r.said = s) ∧ (g.searchRecords E S [s] : Res ε _) = .panic
  refine ⟨?_, ?_⟩
  · rw [g5, t3]
    obtain ⟨o, ho, hk⟩ := hm
    have : ∃ r, metaRow s o.body = some r ∧ r.said = s := by
      cases hb : o.body with
      | metaOv l ps => exact ⟨_, rfl, rfl⟩
      | _ => rw [hb] at hk; cases hk
    obtain ⟨r, hr, hrs⟩ := this
    have hmem : r ∈ b.bundle.overlays.filterMap fun o => metaRow s o.body := List.mem_filterMap.2 ⟨o, ho, hr⟩
    obtain ⟨x, hx, e, -⟩ := hasRow_fold (b.bundle.overlays.filterMap fun o => metaRow s o.body) f.fts r (.inr hmem)
    exact ⟨x, hx, e.trans hrs⟩
  · unfold Facade.searchRecords
    rw [g2, hnew]

/-- **C66, finding** A process killed between the two records of the first step: asking for the history of its result, which before gave
an error, now aborts. -/
theorem C66_history_aborts (h : (f.build E S O b : Res Str Facade) = .ok f') (st : BuildStep) (t : List BuildStep) (hst : b.steps = st :: t)
    (s : Said) (hs : st.result.said = some s) (hr : st.Readable E) (hp : st.parentSaid ≠ some s) (hse : s ≠ []) (hv : E.validSaid s = true)
    (hnew : fetchBundle E S f.cache s = .err [c!"No OCA Bundle found for said: " ++ s]) :
    ∃ n, ∀ fuel, (f.killed (f.buildWrites E S O b) n).steps E S (fuel + 1) s = some .panic := by
  obtain ⟨n, g, g1, g2, -, -, g5, hk⟩ := killed_rows h
  refine ⟨n + 1, fun fuel => ?_⟩
  rw [hk 1, hst]
  -- the first write of the steps
  obtain ⟨_, _, g', _, -, -, hg', -⟩ := build_parts h
  rw [hst] at hg'
  have hop : ∃ r, (operationBytes S st.parentSaid st.command.toJson : Res Str Bytes) = .ok r := by
    unfold foldRes at hg'
    obtain ⟨x, hx, -⟩ := Res.bind_eq_ok.1 hg'
    unfold Facade.buildStep at hx
    obtain ⟨r, hr, -⟩ := Res.bind_eq_ok.1 hx
    exact ⟨r, hr⟩
  obtain ⟨r, hop⟩ := hop
  have hw : ∃ ws, ((Prog.each (stepOp E S) (st :: t) >>= fun _ => Prog.ignore (relationsOp O b.bundle) >>= fun _ => modelsOp E S (st :: t)) g).1 =
      .db .oca (opKey s) r :: ws := by
    have h1 : ∃ ws x, stepOp E S st g = (.db .oca (opKey s) r :: ws, x) := by
      unfold stepOp
      rw [hop, hs]
      exact ⟨_, _, rfl⟩
    obtain ⟨ws, x, h1⟩ := h1
    have h2 : ∃ ws x, Prog.each (stepOp E S) (st :: t) g = (.db .oca (opKey s) r :: ws, x) := by
      unfold Prog.each
      rw [Prog.bind_apply, h1]
      cases x with
      | ok a => exact ⟨_, _, rfl⟩
      | _ => exact ⟨_, _, rfl⟩
    obtain ⟨ws, x, h2⟩ := h2
    rw [Prog.bind_apply, h2]
    cases x with
    | ok a => exact ⟨_, rfl⟩
    | _ => exact ⟨_, rfl⟩
  obtain ⟨ws, hw⟩ := hw
  rw [hw]
  show Facade.steps E S (g.write (.db .oca (opKey s) r)) (fuel + 1) s = _
  have hx : extractOperation E S (g.write (.db .oca (opKey s) r)).db s = .ok (st.parentSaid.getD [], st.command) := by
    have hlen : ∀ x, st.parentSaid = some x → (utf8 x).length ≤ 255 := by
      intro x hx
      by_cases hl : (utf8 x).length ≤ 255
      · exact hl
      · rw [hx, C32_long_parent_aborts S x _ (by omega)] at hop
        cases hop
    obtain ⟨r', hr', hp'⟩ := C32_operation_round_trip (ε := List Str) S st.parentSaid st.command.toJson hlen
    rw [operationBytes_ok hop] at hr'
    cases hr'
    obtain ⟨j, hj, hc⟩ := C32_command_read_back E S st.command hr.command hr.commandDepth
    unfold extractOperation
    have hget : (g.write (.db .oca (opKey s) r)).db.get .oca (opKey s) = .ok (some r) := by
      show (g.db.set .oca (opKey s) r).get .oca _ = _
      rw [Store.get_set, if_pos ⟨rfl, rfl⟩]
    rw [hget]
    show (operationParse r >>= _ : Res (List Str) _) = _
    rw [hp']
    dsimp only [Res.bind_ok]
    rw [hj]
    dsimp only
    rw [hc]
  unfold Facade.steps stepsLoop
  rw [hx]
  have hcache : (g.write (.db .oca (opKey s) r)).cache = f.cache := g2
  dsimp only
  rw [if_neg, if_neg (by simp [hv]), hcache, hnew]
  intro e
  cases hps : st.parentSaid with
  | none => rw [hps] at e; exact hse e.symm
  | some x => rw [hps] at e hp; exact hp (congrArg some e)

/-- **C66, finding** When the machine crashes, the bundle may survive and its history be lost: what is left is the database from before the build,
with the cache from after it. -/
theorem C66_history_lost (h : (f.build E S O b : Res Str Facade) = .ok f') (s : Said)
    (hnew : f.db.get .oca (opKey s) = .ok none) :
    ∃ g, f.Crashed (f.buildWrites E S O b) g ∧ fetchBundle E S g.cache s = fetchBundle E S f'.cache s ∧
      ∀ fuel, g.steps E S (fuel + 1) s = some (.err [c!"No history found for said: " ++ s]) := by
  obtain ⟨h0, h1⟩ := C66_last_point E S O f f' b h
  refine ⟨{ f' with db := f.db }, ⟨⟨0, by rw [h0]⟩, ⟨_, by rw [h1]⟩, ⟨_, by rw [h1]; exact ⟨rfl, rfl, rfl⟩⟩⟩, rfl, ?_⟩
  intro fuel
  unfold Facade.steps stepsLoop extractOperation
  dsimp only
  rw [hnew]

end OCA
