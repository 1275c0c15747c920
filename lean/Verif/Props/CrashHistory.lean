import Verif.Props.CrashFiles
import Verif.Props.Files
/-!
# C66: histories after a crash

A build records its steps one after the other, the operation of a step before its result. So a process that is killed leaves the
histories of a first part of the steps, whole, and of no other.
-/
namespace OCA

variable {E : Env} {S : Serde} {O : SetOrder} {f f1 g : Facade} {b : Build} {Os : Nat → Order} {ls : List Line}

/-- a write that touches neither operations nor bundles -/
def Write.Quiet (w : Write) : Prop := (∀ k v, w ≠ .db .oca k v) ∧ ∀ k v, w ≠ .cache .bundlesJson k v

theorem Write.Quiet.same {w : Write} (h : w.Quiet) (g : Facade) (s : Said) : g.SameRecords (g.write w) s := by
  cases w with
  | db ns k v =>
    refine ⟨?_, rfl⟩
    show (g.db.set ns k v).get .oca _ = _
    rw [Store.get_set, if_neg]
    rintro ⟨rfl, -⟩
    exact h.1 _ _ rfl
  | cache ns k v =>
    refine ⟨rfl, ?_⟩
    show (g.cache.set ns k v).get .bundlesJson _ = _
    rw [Store.get_set, if_neg]
    rintro ⟨rfl, -⟩
    exact h.2 _ _ rfl
  | _ => exact ⟨rfl, rfl⟩

/-- the first steps are on record, the others are not (their results are as they were in `f`) -/
structure Recorded (E : Env) (S : Serde) (f : Facade) (pre post : List BuildStep) (g : Facade) : Prop where
  holds : ∀ st ∈ pre, ∃ s, g.Holds E S st s
  rest : ∀ st ∈ post, ∀ s, st.result.said = some s → g.cache.get .bundlesJson s = f.cache.get .bundlesJson s

/-- some first part of the steps is on record -/
def RecordedPart (E : Env) (S : Serde) (f : Facade) (l : List BuildStep) (g : Facade) : Prop :=
  ∃ pre post, l = pre ++ post ∧ Recorded E S f pre post g

theorem Facade.Holds.same {st : BuildStep} {s : Said} {g' : Facade} (h : g.Holds E S st s) (hs : g.SameRecords g' s) : g'.Holds E S st s := by
  obtain ⟨r, h1, h2⟩ := h.op
  exact ⟨h.said, ⟨r, h1, hs.1.trans h2⟩, hs.2.trans h.bundle⟩

theorem Recorded.quiet {pre post : List BuildStep} {w : Write} (h : Recorded E S f pre post g) (hw : w.Quiet) :
    Recorded E S f pre post (g.write w) where
  holds st hst := by
    obtain ⟨s, hs⟩ := h.holds st hst
    exact ⟨s, hs.same (hw.same g s)⟩
  rest st hst s hs := (hw.same g s).2.trans (h.rest st hst s hs)

theorem recorded_quiet {α : Type} {m : Prog α} {pre post : List BuildStep} (hm : Prog.Only Write.Quiet m) (h : Recorded E S f pre post g) :
    Prog.Always m (Recorded E S f pre post) g :=
  Prog.always_only hm h fun _ _ h hw => h.quiet hw

/-- a step of the recording -/
theorem stepOp_recorded {pre post : List BuildStep} {st : BuildStep} (hd : ((pre ++ st :: post).map (·.result.said)).Nodup)
    (h : Recorded E S f pre (st :: post) g) :
    Prog.Always (stepOp E S st) (RecordedPart E S f (pre ++ st :: post)) g ∧
      ∀ g' a, (stepOp E S st).run g = .ok (g', a) → Recorded E S f (pre ++ [st]) post g' := by
  have part : ∀ g', Recorded E S f (pre ++ [st]) post g' → RecordedPart E S f (pre ++ st :: post) g' :=
    fun g' h => ⟨_, _, by simp, h⟩
  have hq : ∀ (c : Said), Prog.Only Write.Quiet (Prog.emit (.cache .objectsJson c (utf8 (S.print st.result.captureBase.toJson))) >>=
      fun _ => Prog.each (overlayOp S) st.result.overlays) := fun c =>
    Prog.only_then (Prog.only_emit ⟨fun _ _ => by simp, fun _ _ => by simp⟩)
      (Prog.only_each _ fun o ho => Prog.only_need_bind fun s hs => Prog.only_emit ⟨fun _ _ => by simp, fun _ _ => by simp⟩)
  have base : RecordedPart E S f (pre ++ st :: post) g := ⟨_, _, rfl, h⟩
  -- where the two records are written
  have key : ∀ r s, (operationBytes S st.parentSaid st.command.toJson : Res Str Bytes) = .ok r → st.result.said = some s →
      Recorded E S f pre (st :: post) (g.write (.db .oca (opKey s) r)) ∧
      Recorded E S f (pre ++ [st]) post ((g.write (.db .oca (opKey s) r)).write (.cache .bundlesJson s (utf8 (S.print (st.result.toJson E))))) := by
    intro r s hr hs
    rw [List.map_append, List.map_cons, List.nodup_append] at hd
    obtain ⟨d1, d2, d3⟩ := hd
    rw [List.nodup_cons] at d2
    have hne : ∀ st' ∈ pre, ∀ s', st'.result.said = some s' → s' ≠ s := by
      rintro st' hst' s' hs' rfl
      exact d3 _ (List.mem_map.2 ⟨st', hst', hs'⟩) _ (.head _) hs.symm
    have hop : ∀ s', s' ≠ s → g.SameRecords (g.write (.db .oca (opKey s) r)) s' := by
      intro s' hs'
      refine ⟨?_, rfl⟩
      show (g.db.set .oca (opKey s) r).get .oca _ = _
      rw [Store.get_set, if_neg]
      rintro ⟨-, e⟩
      exact hs' (opKey_inj e.symm)
    have a1 : Recorded E S f pre (st :: post) (g.write (.db .oca (opKey s) r)) := by
      refine ⟨?_, h.rest⟩
      intro st' hst'
      obtain ⟨s', h'⟩ := h.holds st' hst'
      exact ⟨s', h'.same (hop s' (hne st' hst' s' h'.said))⟩
    refine ⟨a1, ?_, ?_⟩
    · intro st' hst'
      rcases List.mem_append.1 hst' with hst' | hst'
      · obtain ⟨s', h'⟩ := a1.holds st' hst'
        refine ⟨s', h'.same ⟨rfl, ?_⟩⟩
        show (g.cache.set .bundlesJson s _).get .bundlesJson s' = _
        rw [Store.get_set, if_neg]
        · rfl
        · rintro ⟨-, e⟩
          exact hne st' hst' s' h'.said e.symm
      · rw [List.mem_singleton.1 hst']
        refine ⟨s, hs, ⟨r, operationBytes_ok hr, ?_⟩, ?_⟩
        · show (g.db.set .oca (opKey s) r).get .oca _ = _
          rw [Store.get_set, if_pos ⟨rfl, rfl⟩]
        · show (g.cache.set .bundlesJson s _).get .bundlesJson s = _
          rw [Store.get_set, if_pos ⟨rfl, rfl⟩]
    · intro st' hst' s' hs'
      show (g.cache.set .bundlesJson s _).get .bundlesJson s' = _
      rw [Store.get_set, if_neg]
      · exact h.rest st' (.tail _ hst') s' hs'
      · rintro ⟨-, rfl⟩
        exact d2.1 (List.mem_map.2 ⟨st', hst', hs'.trans hs.symm⟩)
  refine ⟨?_, ?_⟩
  · unfold stepOp
    refine Prog.always_of_bind base fun r hr => Prog.always_need_bind base fun s hs => ?_
    obtain ⟨k1, k2⟩ := key r s hr hs
    refine Prog.always_emit_bind base (Prog.always_emit_bind ⟨_, _, rfl, k1⟩ ?_)
    refine Prog.always_need_bind (part _ k2) fun c hc => ?_
    exact fun n => part _ (recorded_quiet (hq c) k2 n)
  · intro g' a hr'
    unfold stepOp at hr'
    obtain ⟨r, hr, hr'⟩ := Prog.run_of_bind hr'
    obtain ⟨s, hs, hr'⟩ := Prog.run_need_bind hr'
    obtain ⟨k1, k2⟩ := key r s hr hs
    rw [Prog.run_bind, Prog.run_emit, Res.bind_ok] at hr'
    dsimp only at hr'
    rw [Prog.run_bind, Prog.run_emit, Res.bind_ok] at hr'
    obtain ⟨c, hc, hr'⟩ := Prog.run_need_bind hr'
    exact (recorded_quiet (hq c) k2).finish hr'

theorem steps_recorded {l : List BuildStep} (hd : (l.map (·.result.said)).Nodup) : ∀ (post pre : List BuildStep) (g : Facade),
    l = pre ++ post → Recorded E S f pre post g → Prog.Always (Prog.each (stepOp E S) post) (RecordedPart E S f l) g ∧
      ∀ g' a, (Prog.each (stepOp E S) post).run g = .ok (g', a) → Recorded E S f l [] g' := by
  intro post
  induction post with
  | nil =>
    intro pre g e h
    rw [List.append_nil] at e
    subst e
    exact ⟨Prog.always_pure _ ⟨l, [], by simp, h⟩, fun g' a hr => by cases hr; exact h⟩
  | cons st t ih =>
    intro pre g e h
    subst e
    obtain ⟨a1, a2⟩ := stepOp_recorded hd h
    unfold Prog.each
    refine ⟨Prog.always_bind a1 fun g' a hr => (ih (pre ++ [st]) g' (by simp) (a2 g' a hr)).1, ?_⟩
    intro g' a hr
    rw [Prog.run_bind] at hr
    obtain ⟨⟨g1, a1⟩, hr1, hr⟩ := Res.bind_eq_ok.1 hr
    exact (ih (pre ++ [st]) g1 (by simp) (a2 g1 _ hr1)).2 g' a hr

/-- at every point of a build -/
theorem build_recorded (hd : (b.steps.map (·.result.said)).Nodup) : Prog.Always (buildOp E S O b) (RecordedPart E S f b.steps) f := by
  have q1 : Prog.Only Write.Quiet (cacheOp E S b.bundle) :=
    Prog.only_need_bind fun s hs => Prog.only_then (Prog.only_emit ⟨fun _ _ => by simp, fun _ _ => by simp⟩)
      (Prog.only_need_bind fun c hc => Prog.only_emit ⟨fun _ _ => by simp, fun _ _ => by simp⟩)
  have q2 : Prog.Only Write.Quiet (metaOp b.bundle) := by
    unfold metaOp
    split
    · exact Prog.only_need_bind fun s hs => Prog.only_each _ fun r hr => Prog.only_emit ⟨fun _ _ => by simp, fun _ _ => by simp⟩
    · exact Prog.only_pure _
  have q3 : Prog.Only Write.Quiet (Prog.ignore (relationsOp O b.bundle)) := by
    refine Prog.only_ignore ((only_relationsOp E S O ⟨b.bundle, []⟩).mono fun w hw => ?_)
    cases hw with
    | operation h => cases h
    | bundle h => cases h
    | base h => cases h
    | overlay h => cases h
    | _ => exact ⟨fun _ _ => by simp, fun _ _ => by simp⟩
  have q4 : Prog.Only Write.Quiet (modelsOp E S b.steps) := by
    unfold modelsOp
    refine Prog.only_of_bind fun ms _ => Prog.only_each _ fun m _ => ?_
    have hcore : ∀ k r, Prog.Only Write.Quiet (coreOp k r) :=
      fun k r => Prog.only_of_bind fun _ _ => Prog.only_emit ⟨fun _ _ => by simp, fun _ _ => by simp⟩
    unfold modelOp
    exact Prog.only_then (hcore _ _) (Prog.only_then (Prog.only_each _ fun _ _ => hcore _ _)
      (Prog.only_then (Prog.only_each _ fun _ _ => hcore _ _) (hcore _ _)))
  have r0 : Recorded E S f [] b.steps f := ⟨fun _ h => by (cases h), fun _ _ _ _ => rfl⟩
  have up0 : ∀ g, Recorded E S f [] b.steps g → RecordedPart E S f b.steps g := fun g h => ⟨[], _, rfl, h⟩
  have up1 : ∀ g, Recorded E S f b.steps [] g → RecordedPart E S f b.steps g := fun g h => ⟨_, [], by simp, h⟩
  unfold buildOp
  have a1 := recorded_quiet q1 r0
  refine Prog.always_bind (fun n => up0 _ (a1 n)) fun f1 _ e1 => ?_
  have a2 := recorded_quiet q2 (a1.finish e1)
  refine Prog.always_bind (fun n => up0 _ (a2 n)) fun f2 _ e2 => ?_
  obtain ⟨a3, a3'⟩ := steps_recorded hd b.steps [] f2 rfl (a2.finish e2)
  refine Prog.always_bind a3 fun f3 _ e3 => ?_
  have a4 := recorded_quiet q3 (a3' f3 _ e3)
  refine Prog.always_bind (fun n => up1 _ (a4 n)) fun f4 _ e4 => ?_
  exact fun n => up1 _ (recorded_quiet q4 (a4.finish e4) n)

/-- at every point of the storing of a file -/
theorem file_recorded (hv : f.validate E S Os ls = .ok (f1, b)) (hd : (b.steps.map (·.result.said)).Nodup) (n : Nat) :
    RecordedPart E S f b.steps (f.killed (f.fileWrites E S Os O ls) n) := by
  obtain ⟨ast, _, _, _, hp, -, -, -, hcache, -⟩ := validate_parts hv
  have start : ∀ g : Facade, g.cache = f.cache → RecordedPart E S f b.steps g :=
    fun g e => ⟨[], _, rfl, fun _ h => by (cases h), fun _ _ _ _ => by rw [e]⟩
  rw [fileWrites_eq hp hv, Facade.killed_append]
  have hw := validate_writes hp hv
  split
  · refine start _ ?_
    unfold Facade.killed
    unfold nameWrites
    split
    · cases n with
      | zero => rfl
      | succ n => simp; rfl
    · simp; rfl
  · have h := build_recorded (E := E) (S := S) (O := O) (f := f1) hd
    rw [← hw]
    obtain ⟨pre, post, e1, e2⟩ := h (n - (nameWrites ast b).length)
    exact ⟨pre, post, e1, e2.holds, fun st hst s hs => (e2.rest st hst s hs).trans (by rw [hcache])⟩

/-- the records of the identifiers that no step has -/
theorem file_records (hv : f.validate E S Os ls = .ok (f1, b)) (h : f.Crashed (f.fileWrites E S Os O ls) g) (s : Said)
    (hs : some s ∉ b.steps.map (·.result.said)) : f.SameRecords g s := by
  refine ⟨?_, ?_⟩
  · rcases h.get_db .oca (opKey s) with h | ⟨v, hw, -⟩
    · exact h
    · exfalso
      obtain ⟨f2, b2, hv2, hw⟩ := fileWrites_mem hw
      rw [hv] at hv2
      cases hv2
      rcases hw with ⟨n, x, -, e⟩ | hw
      · cases e
      · generalize hw' : Write.db .oca (opKey s) v = w at hw
        cases hw with
        | operation h1 h2 h3 =>
          simp only [Write.db.injEq, true_and] at hw'
          cases opKey_inj hw'.1
          exact hs (List.mem_map.2 ⟨_, h1, h2⟩)
        | _ => cases hw'
  · rcases h.get_cache .bundlesJson s with h | ⟨v, hw, -⟩
    · exact h
    · exfalso
      obtain ⟨f2, b2, hv2, hw⟩ := fileWrites_mem hw
      rw [hv] at hv2
      cases hv2
      rcases hw with ⟨n, x, -, e⟩ | hw
      · cases e
      · generalize hw' : Write.cache .bundlesJson s v = w at hw
        cases hw with
        | bundle h1 h2 =>
          cases hw'
          exact hs (List.mem_map.2 ⟨_, h1, h2⟩)
        | _ => cases hw'

/-- **C66** Nothing that was there is lost when the storing of a file crashes, at any point: every bundle and every history of
identifiers that no step of the file has is there unchanged, every name but the file's own still stands for what it stood for, the file's
own name for what it stood for or for the result, and the rows of the tables are all there, in their places. -/
theorem C66_file_nothing_lost (E : Env) (S : Serde) (f f1 g : Facade) (Os : Nat → Order) (O : SetOrder) (ls : List Line) (ast : OCAAst)
    (hp : parseLines ls = .ok ast) (b : Build) (hv : f.validate E S Os ls = .ok (f1, b)) (h : f.Crashed (f.fileWrites E S Os O ls) g) :
    (∀ s, some s ∉ b.steps.map (·.result.said) → fetchBundle E S g.cache s = fetchBundle E S f.cache s) ∧
    (∀ fuel s l, f.steps E S fuel s = some (.ok l) → some s ∉ b.steps.map (·.result.said) →
      (∀ st ∈ l, ∀ p, st.parentSaid = some p → some p ∉ b.steps.map (·.result.said)) → g.steps E S fuel s = some (.ok l)) ∧
    (∀ n, (g.db.findRefn n : Res VErr _) = f.db.findRefn n ∨
      ast.metaMap.get c!"name" = some n ∧ (g.db.findRefn n : Res VErr _) = .ok b.bundle.said) ∧
    f.bundles <+: g.bundles ∧ f.bases <+: g.bases ∧ f.fts <+: g.fts := by
  refine ⟨?_, ?_, ?_, h.rows⟩
  · intro s hs
    unfold fetchBundle
    rw [(file_records hv h s hs).2]
  · intro fuel s l hl hs hp
    exact stepsLoop_same E S f g fuel s [] l hl (file_records hv h s hs) fun st hst p hpp => file_records hv h p (hp st hst p hpp)
  · intro n
    unfold Store.findRefn
    rcases h.get_db .references n with e | ⟨v, hw, e⟩
    · rw [e]; exact .inl rfl
    · right
      rw [fileWrites_eq hp hv] at hw
      rcases List.mem_append.1 hw with hw | hw
      · unfold nameWrites at hw
        split at hw
        · next n' s hn hs =>
          cases List.mem_singleton.1 hw
          refine ⟨hn, ?_⟩
          rw [e, hs]
          dsimp only
          rw [fromUtf8_utf8]
          rfl
        · cases hw
      · exfalso
        generalize hw' : Write.db .references n v = w at hw
        cases only_buildOp E S O b f1 w hw with
        | _ => cases hw'

/-- **C66** What a killed process leaves of the histories. A file is being stored, on a facade with any past (crashes included), and the
process is killed, after whatever write. Then for each of its steps whose result was not known before: either the result is still not
known, or it is, and its history is whole: that of the base, if there is one, followed by the file's steps up to it. (No two steps have
the same identifier, and none has that of the base or of a step before it.) -/
theorem C66_killed_history (E : Env) (S : Serde) (hE : E.validSaid [] = false) (f f1 : Facade) (l m : List Bundle) (hf : f.Crashy E S l m)
    (Os : Nat → Order) (O : SetOrder) (ls : List Line) (ast : OCAAst) (hp : parseLines ls = .ok ast) (b : Build)
    (hv : f.validate E S Os ls = .ok (f1, b)) (hc : ∀ st ∈ b.steps, st.command.Keepable E)
    (hd : (b.steps.map (·.result.said)).Nodup) (pre : List BuildStep)
    (hbase : (ast.NoBase ∧ pre = []) ∨ ∃ p rest, ast.commands = ⟨.«from», .ocaBundle (.said p)⟩ :: rest ∧ f.HasHistory E S p pre ∧
      some p ∉ b.steps.map (·.result.said) ∧ ∀ st ∈ pre, ∀ x, st.parentSaid = some x → some x ∉ b.steps.map (·.result.said))
    (n i : Nat) (st : BuildStep) (hst : b.steps[i]? = some st) (s : Said) (hs : st.result.said = some s)
    (hnew : fetchBundle E S f.cache s = .err [c!"No OCA Bundle found for said: " ++ s]) :
    fetchBundle E S (f.killed (f.fileWrites E S Os O ls) n).cache s = .err [c!"No OCA Bundle found for said: " ++ s] ∨
    ∃ h, (f.killed (f.fileWrites E S Os O ls) n).HasHistory E S s (pre ++ h) ∧
      h.map (BuildStep.shown E) = (b.steps.take (i + 1)).map (BuildStep.shown E) := by
  have hk := (validate_keeps hf.kept hv hc).1
  have hr := readable_of hk
  have hcr := Facade.killed_crashed f (f.fileWrites E S Os O ls) n
  obtain ⟨pre', post, e, hrec⟩ := file_recorded (O := O) hv hd n
  generalize f.killed (f.fileWrites E S Os O ls) n = g at hrec hcr ⊢
  by_cases hi : i < pre'.length
  · right
    -- the steps up to this one are on record
    have htake : ∀ x ∈ b.steps.take (i + 1), x ∈ pre' := by
      intro x hx
      rw [e, List.take_append_of_le_length (by omega)] at hx
      exact List.mem_of_mem_take hx
    have hsub : ∀ x, x ∈ (b.steps.take (i + 1)).map (·.result.said) → x ∈ b.steps.map (·.result.said) := by
      intro x hx
      obtain ⟨y, hy, rfl⟩ := List.mem_map.1 hx
      exact List.mem_map.2 ⟨y, List.mem_of_mem_take hy, rfl⟩
    obtain ⟨ast0, base, ast', cs, e1, e2, e3, e4, -⟩ := validate_parts hv
    rw [hp] at e1
    cases e1
    obtain ⟨_, _, -, -, -, -, hcmd, h0, h1, -, -⟩ := C12_successful_build E Os base _ b e4
    have hlink := linked_of _ _ h0 h1
    have hlink' : Linked (base.bind Bundle.said) (b.steps.take (i + 1)) := by
      refine linked_of _ _ ?_ ?_
      · intro x hx
        refine h0 x ?_
        rw [← hx, List.head?_take]
        simp
      · intro j x y hx hy
        rw [List.getElem?_take] at hx hy
        split at hx <;> split at hy
        · exact h1 j x y hx hy
        all_goals first | cases hx | cases hy
    have hb : (base.bind Bundle.said = none ∧ pre = []) ∨ ∃ p, base.bind Bundle.said = some p ∧ E.validSaid p = true ∧
        some p ∉ (b.steps.take (i + 1)).map (·.result.said) ∧ g.HasHistory E S p pre := by
      rcases hbase with ⟨h1, h2⟩ | ⟨p, rest, h1, h2, h3, h4⟩
      · rw [checkBase_noBase h1] at e2
        cases e2
        exact .inl ⟨rfl, h2⟩
      · right
        have hg : g.HasHistory E S p pre := fun fuel hfuel =>
          stepsLoop_same E S f g fuel p [] pre (h2 fuel hfuel) (file_records hv hcr p h3)
            fun st hst x hx => file_records hv hcr x (h4 st hst x hx)
        have hfetch : ∃ b', fetchBundle E S f.cache p = .ok b' ∧ b'.said = some p ∧ E.validSaid p = true := by
          have := h2 (pre.length + 1) (by omega)
          unfold Facade.steps stepsLoop at this
          split at this
          · cases this
          · cases this
          · split at this
            · cases this
            · split at this
              · cases this
              · next hval =>
                rcases hf.kept.fetch p with ⟨b', q1, q2, -⟩ | ⟨-, q1⟩
                · exact ⟨b', q1, q2, by simpa using hval⟩
                · rw [q1] at this
                  cases this
        obtain ⟨b', q1, q2, q3⟩ := hfetch
        refine ⟨p, ?_, q3, fun hx => h3 (hsub _ hx), hg⟩
        unfold checkBase at e2
        rw [h1] at e2
        dsimp only at e2
        rw [q1] at e2
        cases e2
        exact q2
    obtain ⟨h, a1, a2, a3⟩ := chain_history E S g hE (b.steps.take (i + 1)) (fun x hx => hrec.holds x (htake x hx))
      (fun x hx => hr x (List.mem_of_mem_take hx))
      (by rw [List.map_take]; exact hd.sublist (List.take_sublist _ _))
      (base.bind Bundle.said) pre hb hlink' s (by
        have : (b.steps.take (i + 1)).getLast? = some st := by
          rw [List.getLast?_take]
          simp [hst]
        rw [this]
        exact congrArg some hs)
    exact ⟨h, a3, a1⟩
  · left
    have hmem : st ∈ post := by
      rw [e, List.getElem?_append_right (by omega)] at hst
      exact List.mem_of_getElem? hst
    have hsame := hrec.rest st hmem s hs
    unfold fetchBundle at hnew ⊢
    rw [hsame]
    exact hnew

end OCA
