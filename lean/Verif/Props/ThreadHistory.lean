import Verif.Props.Threads
import Verif.Props.History
import Verif.Props.Replay
/-!
# C85: the history while others write

Files are validated and stored at any time, by any number of threads, each at its own pace, and threads may be killed. Whenever a bundle can be
fetched its history can be followed to the start: no operation and no earlier bundle is missing, even if others write between the reads.
-/
namespace OCA

/-! ## Specification -/

/-- What can happen: somebody validates a file against the storages as they are and begins to store what comes out, under a name or not; or some thread
that is not done makes its next read or write; or some thread is killed. (The commands of the files are such that they can be written as JSON and read
back, C06.) -/
inductive Happens (E : Env) (S : Serde) (f : Facade) (ts : List (Thr Unit)) : Facade → List (Thr Unit) → Prop
  | rest : Happens E S f ts f ts
  | validated {g : Facade} {us : List (Thr Unit)} {Os : Nat → Order} {ls : List Line} {j : Job} : Happens E S f ts g us →
      (g.validatePlain E S Os ls = .ok j.build ∨ ∃ g', g.validate E S Os ls = .ok (g', j.build)) → (∀ st ∈ j.build.steps, st.command.Keepable E) →
      Happens E S f ts g (jobT E S j :: us)
  | turn {g g' : Facade} {a b : List (Thr Unit)} {t t' : Thr Unit} : Happens E S f ts g (a ++ t :: b) → t.step g = some (g', t') →
      Happens E S f ts g' (a ++ t' :: b)
  | killed {g : Facade} {a b : List (Thr Unit)} {t : Thr Unit} : Happens E S f ts g (a ++ t :: b) → Happens E S f ts g (a ++ b)

/-- `get_oca_bundle_steps` (`facade/fetch.rs:244-303`), as `stepsLoop`, but with the storages as they are at each of its reads: `F 0` at the first, `F 1`
at the second, and so on. -/
def stepsAt (E : Env) (S : Serde) : Nat → (Nat → Facade) → Str → List BuildStep → Option (Res (List Str) (List BuildStep))
  | 0, _, _, _ => none
  | fuel + 1, F, s, acc => match extractOperation E S (F 0).db s with
    | .err e => some (.err e)
    | .panic => some .panic
    | .ok (parent, c) =>
      if parent = s then some (.err [c!"Malformed history"]) else
      if ¬ E.validSaid s then some .panic else
      match fetchBundle E S (F 1).cache s with
      | .ok b =>
        let acc := ⟨if E.validSaid parent then some parent else none, c, b⟩ :: acc
        if parent = [] then some (.ok acc) else stepsAt E S fuel (fun i => F (i + 2)) parent acc
      | _ => some .panic

/-- Each step's parent is what the step before made, the first one's is `p`. -/
def Chained : Option Said → List BuildStep → Prop
  | _, [] => True
  | p, st :: t => st.parentSaid = p ∧ Chained st.result.said t

/-! ## Where nothing changes it is the lookup of the model -/

/-- **C85** When nothing changes while it reads, the lookup below is that of the model (C30, C70). -/
theorem C85_still (E : Env) (S : Serde) (f : Facade) (fuel : Nat) : ∀ s acc, stepsAt E S fuel (fun _ => f) s acc = stepsLoop E S f fuel s acc := by
  induction fuel with
  | zero => exact fun _ _ => rfl
  | succ n ih =>
    intro s acc
    unfold stepsAt stepsLoop
    simp only [ih]
    rfl

/-! ## What holds at any moment -/

/-- a record that is there -/
inductive Rec where
  | cached (s : Said)
  | op (k : Str)

/-- the record is there -/
def Rec.In : Rec → Facade → Prop
  | .cached s, f => ∃ v, f.cache.get .bundlesJson s = .ok (some v)
  | .op k, f => ∃ v, f.db.get .oca k = .ok (some v)

/-- records there are in this write -/
def Write.recs : Write → List Rec
  | .cache .bundlesJson s _ => [.cached s]
  | .db .oca k _ => [.op k]
  | _ => []

theorem Rec.In.write {r : Rec} {f : Facade} (h : r.In f) (w : Write) : r.In (f.write w) := by
  cases r with
  | cached s =>
    obtain ⟨v, h⟩ := h
    cases w with
    | cache ns k x =>
      by_cases e : ns = .bundlesJson ∧ k = s
      · exact ⟨x, (Store.get_set ..).trans (if_pos e)⟩
      · exact ⟨v, (Store.get_set ..).trans ((if_neg e).trans h)⟩
    | _ => exact ⟨v, h⟩
  | op s =>
    obtain ⟨v, h⟩ := h
    cases w with
    | db ns k x =>
      by_cases e : ns = .oca ∧ k = s
      · exact ⟨x, (Store.get_set ..).trans (if_pos e)⟩
      · exact ⟨v, (Store.get_set ..).trans ((if_neg e).trans h)⟩
    | _ => exact ⟨v, h⟩

theorem Rec.In.written {r : Rec} {w : Write} (h : r ∈ w.recs) (f : Facade) : r.In (f.write w) := by
  unfold Write.recs at h
  split at h
  · cases List.mem_singleton.1 h
    exact ⟨_, (Store.get_set ..).trans (if_pos ⟨rfl, rfl⟩)⟩
  · cases List.mem_singleton.1 h
    exact ⟨_, (Store.get_set ..).trans (if_pos ⟨rfl, rfl⟩)⟩
  · cases h

/-- All histories are whole: every bundle that is there is right and has its operation, and the parent of every operation is there. -/
structure Facade.Whole (E : Env) (S : Serde) (f : Facade) : Prop where
  kept : f.Kept E S
  op : ∀ s, (Rec.cached s).In f → (Rec.op (opKey s)).In f
  parent : ∀ s r, f.db.get .oca (opKey s) = .ok (some r) → ∃ (p : Option Said) (c : Command), c.Keepable E ∧
    (operationBytes S p c.toJson : Res (List Str) Bytes) = .ok r ∧ ∀ x, p = some x → (Rec.cached x).In f

theorem Facade.Whole.new {E : Env} {S : Serde} : Facade.new.Whole E S :=
  ⟨(fun s v h => by cases h), (fun s ⟨v, h⟩ => by cases h), (fun s r h => by cases h)⟩

/-- a write that is neither to the bundles nor to the operations -/
theorem Facade.Whole.other {E : Env} {S : Serde} {f : Facade} (h : f.Whole E S) {w : Write} (hw : w.recs = []) : (f.write w).Whole E S := by
  have h1 : ∀ s, (f.write w).cache.get .bundlesJson s = f.cache.get .bundlesJson s := by
    intro s
    cases w with
    | cache ns k x =>
      refine (Store.get_set ..).trans (if_neg ?_)
      rintro ⟨rfl, -⟩
      cases hw
    | _ => rfl
  have h2 : ∀ s, (f.write w).db.get .oca s = f.db.get .oca s := by
    intro s
    cases w with
    | db ns k x =>
      refine (Store.get_set ..).trans (if_neg ?_)
      rintro ⟨rfl, -⟩
      cases hw
    | _ => rfl
  refine ⟨?_, ?_, ?_⟩
  · intro s v e
    rw [h1] at e
    exact h.kept s v e
  · rintro s ⟨v, e⟩
    rw [h1] at e
    exact (h.op s ⟨v, e⟩).write w
  · intro s r e
    rw [h2] at e
    obtain ⟨p, c, g1, g2, g3⟩ := h.parent s r e
    exact ⟨p, c, g1, g2, fun x hx => (g3 x hx).write w⟩

theorem Facade.Whole.bundle {E : Env} {S : Serde} {f : Facade} (h : f.Whole E S) {b : Bundle} (hb : b.Keepable E) {s : Said} (hs : b.said = some s)
    (ho : (Rec.op (opKey s)).In f) : (f.write (.cache .bundlesJson s (utf8 (S.print (b.toJson E))))).Whole E S := by
  refine ⟨?_, ?_, ?_⟩
  · intro x v e
    rw [show (f.write (.cache .bundlesJson s (utf8 (S.print (b.toJson E))))).cache.get .bundlesJson x = _ from Store.get_set ..] at e
    split at e
    · next e' => cases e; exact ⟨b, hb, e'.2 ▸ hs, rfl⟩
    · exact h.kept x v e
  · rintro x ⟨v, e⟩
    rw [show (f.write (.cache .bundlesJson s (utf8 (S.print (b.toJson E))))).cache.get .bundlesJson x = _ from Store.get_set ..] at e
    split at e
    · next e' => rw [← e'.2]; exact ho.write _
    · exact (h.op x ⟨v, e⟩).write _
  · intro x r e
    obtain ⟨p, c, g1, g2, g3⟩ := h.parent x r e
    exact ⟨p, c, g1, g2, fun y hy => (g3 y hy).write _⟩

theorem Facade.Whole.operation {E : Env} {S : Serde} {f : Facade} (h : f.Whole E S) {p : Option Said} {c : Command} (hc : c.Keepable E) {s : Said}
    {r : Bytes} (hr : (operationBytes S p c.toJson : Res Str Bytes) = .ok r) (hp : ∀ x, p = some x → (Rec.cached x).In f) :
    (f.write (.db .oca (opKey s) r)).Whole E S := by
  refine ⟨h.kept, fun x hx => ?_, ?_⟩
  · obtain ⟨v, e⟩ := hx
    exact (h.op x ⟨v, e⟩).write _
  · intro x r' e
    rw [show (f.write (.db .oca (opKey s) r)).db.get .oca (opKey x) = _ from Store.get_set ..] at e
    split at e
    · cases e
      refine ⟨p, c, hc, ?_, fun y hy => (hp y hy).write _⟩
      unfold operationBytes at hr ⊢
      cases p with
      | none => cases hr; rfl
      | some q =>
        simp only [parentBytes, lenPrefixed, lenByte] at hr ⊢
        split at hr
        · next hl => rw [if_pos hl]; cases hr; rfl
        · cases hr
    · obtain ⟨p, c, g1, g2, g3⟩ := h.parent x r' e
      exact ⟨p, c, g1, g2, fun y hy => (g3 y hy).write _⟩

/-! ## Threads that keep it so -/

variable {α β : Type}

/-- Each write keeps the histories whole, when the records `K` are there at the start; `Q` tells what is there in the end. -/
def Thr.Safe (E : Env) (S : Serde) : Thr α → List Rec → (α → List Rec → Prop) → Prop
  | .done (.ok a), K, Q => Q a K
  | .done _, _, _ => True
  | .get _ _ c, K, Q => ∀ r, (c r).Safe E S K Q
  | .put w c, K, Q => (∀ f : Facade, f.Whole E S → (∀ x ∈ K, x.In f) → (f.write w).Whole E S) ∧ c.Safe E S (w.recs ++ K) Q

variable {E : Env} {S : Serde}

theorem Thr.Safe.bind {t : Thr α} {g : α → Thr β} {Q : β → List Rec → Prop} : ∀ {K}, t.Safe E S K (fun a K' => (g a).Safe E S K' Q) →
    (t >>= g).Safe E S K Q := by
  show ∀ {K}, _ → (t.andThen g).Safe E S K Q
  induction t with
  | done r =>
    intro K h
    cases r with
    | ok a => exact h
    | err e => exact True.intro
    | panic => exact True.intro
  | get ns k c ih => exact fun {K} h r => ih r (h r)
  | put w c ih => exact fun {K} h => ⟨h.1, ih h.2⟩

theorem Thr.Safe.conseq {t : Thr α} {Q Q' : α → List Rec → Prop} (hq : ∀ a K, Q a K → Q' a K) : ∀ {K}, t.Safe E S K Q → t.Safe E S K Q' := by
  induction t with
  | done r =>
    intro K h
    cases r with
    | ok a => exact hq _ _ h
    | err e => exact True.intro
    | panic => exact True.intro
  | get ns k c ih => exact fun {K} h r => ih r (h r)
  | put w c ih => exact fun {K} h => ⟨h.1, ih h.2⟩

/-- a thread that writes neither bundles nor operations -/
def Thr.Quiet : Thr α → Prop
  | .done _ => True
  | .get _ _ c => ∀ r, (c r).Quiet
  | .put w c => w.recs = [] ∧ c.Quiet

theorem Thr.Quiet.bind {t : Thr α} {g : α → Thr β} (ht : t.Quiet) (hg : ∀ a, (g a).Quiet) : (t >>= g).Quiet := by
  show (t.andThen g).Quiet
  induction t with
  | done r =>
    cases r with
    | ok a => exact hg a
    | err e => exact True.intro
    | panic => exact True.intro
  | get ns k c ih => exact fun r => ih r (ht r)
  | put w c ih => exact ⟨ht.1, ih ht.2⟩

theorem Thr.Quiet.of (r : Res Str α) : (Thr.of r).Quiet := True.intro
theorem Thr.Quiet.emit {w : Write} (h : w.recs = []) : (Thr.emit w).Quiet := ⟨h, True.intro⟩
theorem Thr.Quiet.pure (a : α) : (Pure.pure a : Thr α).Quiet := True.intro

theorem Thr.Quiet.each {g : α → Thr Unit} (h : ∀ a, (g a).Quiet) (l : List α) : (Thr.each g l).Quiet := by
  induction l with
  | nil => exact True.intro
  | cons a t ih => exact (h a).bind fun _ => ih

theorem Thr.Quiet.ignore {t : Thr Unit} (h : t.Quiet) : t.ignore.Quiet := by
  induction t with
  | done r => cases r <;> exact True.intro
  | get ns k c ih => exact fun r => ih r (h r)
  | put w c ih => exact ⟨h.1, ih h.2⟩

theorem Thr.Quiet.safe {t : Thr α} (h : t.Quiet) : ∀ K, t.Safe E S K (fun _ K' => K' = K) := by
  induction t with
  | done r =>
    intro K
    cases r with
    | ok a => exact rfl
    | err e => exact True.intro
    | panic => exact True.intro
  | get ns k c ih => exact fun K r => ih r (h r) K
  | put w c ih =>
    intro K
    refine ⟨fun f hf _ => hf.other h.1, ?_⟩
    rw [h.1]
    exact ih h.2 K

theorem Thr.Quiet.then {t : Thr Unit} (h : t.Quiet) {g : Unit → Thr β} {K : List Rec} {Q : β → List Rec → Prop} (hg : (g ()).Safe E S K Q) :
    (t >>= g).Safe E S K Q :=
  .bind ((h.safe K).conseq fun _ K' e => e ▸ hg)

theorem exploreT_quiet (s : Said) : (exploreT s).Quiet := by
  intro r
  cases r with
  | ok o =>
    cases o with
    | none => exact True.intro
    | some b => exact Thr.Quiet.bind (.of _) fun l => Thr.Quiet.bind (fun r => True.intro) fun _ => .pure _
  | err e => exact True.intro
  | panic => exact True.intro

theorem relObjT_quiet (s : Said) : (relObjT s).Quiet := Thr.Quiet.bind (fun r => True.intro) fun _ => .pure _

theorem exploreOrNewT_quiet (s : Said) : (exploreOrNewT s).Quiet :=
  (exploreT_quiet s).bind fun _ => (relObjT_quiet s).bind fun _ => .pure _

theorem writeRelsT_quiet (O : SetOrder) (s : Said) (l : List RelObj) : (writeRelsT O s l).Quiet := Thr.Quiet.bind (.of _) fun _ => .emit rfl

theorem relLoopT_quiet (O : SetOrder) (bs cs : Said) (os : List Overlay) : ∀ br cr, (relLoopT O bs cs br cr os).Quiet := by
  induction os with
  | nil => exact fun _ _ => .pure _
  | cons o t ih => exact fun _ _ => Thr.Quiet.bind (.of _) fun _ => (relObjT_quiet _).bind fun _ => (exploreOrNewT_quiet _).bind fun _ =>
      (relObjT_quiet _).bind fun _ => (relObjT_quiet _).bind fun _ => (writeRelsT_quiet _ _ _).bind fun _ => ih _ _

theorem metasT_quiet (b : Bundle) : (metasT b).Quiet := Thr.Quiet.bind (.of _) fun _ => Thr.Quiet.bind (.emit rfl) fun _ =>
  Thr.Quiet.bind (.of _) fun _ => Thr.Quiet.bind (.emit rfl) fun _ => Thr.Quiet.each (fun _ => Thr.Quiet.bind (.of _) fun _ => .emit rfl) _

theorem relationsT_quiet (O : SetOrder) (b : Bundle) : (relationsT O b).Quiet :=
  (metasT_quiet b).bind fun _ => Thr.Quiet.bind (.of _) fun _ => Thr.Quiet.bind (.of _) fun _ => (exploreOrNewT_quiet _).bind fun _ =>
    (relObjT_quiet _).bind fun _ => (exploreOrNewT_quiet _).bind fun _ => (relObjT_quiet _).bind fun _ => (relLoopT_quiet ..).bind fun _ =>
    (writeRelsT_quiet _ _ _).bind fun _ => writeRelsT_quiet _ _ _

theorem coreT_quiet (k : Said) (r : Res Str Bytes) : (coreT k r).Quiet := Thr.Quiet.bind (.of _) fun _ => .emit rfl

theorem modelsT_quiet (steps : List BuildStep) : (modelsT E S steps).Quiet := Thr.Quiet.bind (.of _) fun _ => Thr.Quiet.each (fun _ =>
  (coreT_quiet _ _).bind fun _ => (Thr.Quiet.each (fun _ => coreT_quiet _ _) _).bind fun _ =>
    (Thr.Quiet.each (fun _ => coreT_quiet _ _) _).bind fun _ => coreT_quiet _ _) _

theorem cacheT_quiet (b : Bundle) : (cacheT E S b).Quiet := Thr.Quiet.bind (.of _) fun _ => Thr.Quiet.bind (.emit rfl) fun _ =>
  Thr.Quiet.bind (.of _) fun _ => .emit rfl

theorem metaT_quiet (b : Bundle) : (metaT b).Quiet := by
  unfold metaT
  split
  · exact Thr.Quiet.bind (.of _) fun _ => .each (fun _ => .emit rfl) _
  · exact .pure _

theorem stepT_safe {st : BuildStep} (hc : st.command.Keepable E) (hr : st.result.Keepable E) {K : List Rec}
    (hp : ∀ x, st.parentSaid = some x → Rec.cached x ∈ K) :
    (stepT E S st).Safe E S K (fun _ K' => ∀ x, st.result.said = some x → Rec.cached x ∈ K') := by
  unfold stepT
  refine Thr.Safe.bind ?_
  cases hb : (operationBytes S st.parentSaid st.command.toJson : Res Str Bytes) with
  | err e => exact True.intro
  | panic => exact True.intro
  | ok r =>
    refine Thr.Safe.bind (t := Thr.of (Res.unwrap st.result.said)) ?_
    cases hs : st.result.said with
    | none => exact True.intro
    | some s =>
      refine ⟨fun f hf hK => hf.operation hc hb fun x hx => hK _ (hp x hx), ?_⟩
      refine ⟨fun f hf hK => hf.bundle hr hs (hK _ (.head _)), ?_⟩
      have hq : ∀ K', Rec.cached s ∈ K' → Thr.Safe E S (do
          let c ← Thr.of (Res.unwrap st.result.captureBase.said)
          Thr.emit (.cache .objectsJson c (utf8 (S.print st.result.captureBase.toJson)))
          Thr.each (overlayT S) st.result.overlays) K' (fun _ K' => ∀ x, some s = some x → Rec.cached x ∈ K') := by
        intro K' hK'
        have : (do
          let c ← Thr.of (Res.unwrap st.result.captureBase.said)
          Thr.emit (.cache .objectsJson c (utf8 (S.print st.result.captureBase.toJson)))
          Thr.each (overlayT S) st.result.overlays : Thr Unit).Quiet :=
          Thr.Quiet.bind (.of _) fun _ => Thr.Quiet.bind (.emit rfl) fun _ => .each (fun _ => Thr.Quiet.bind (.of _) fun _ => .emit rfl) _
        exact (this.safe K').conseq fun _ K'' e x hx => by cases hx; exact e ▸ hK'
      exact hq _ (.head _)

theorem stepsT_safe (l : List BuildStep) : ∀ {p : Option Said} {K : List Rec}, Chained p l → (∀ st ∈ l, st.command.Keepable E ∧ st.result.Keepable E) →
    (∀ x, p = some x → Rec.cached x ∈ K) → (Thr.each (stepT E S) l).Safe E S K (fun _ _ => True) := by
  induction l with
  | nil => exact fun _ _ _ => True.intro
  | cons st t ih =>
    intro p K hc hk hp
    refine Thr.Safe.bind ((stepT_safe (hk st (.head _)).1 (hk st (.head _)).2 (K := K) ?_).conseq ?_)
    · rw [hc.1]
      exact hp
    · exact fun _ K' hK' => ih hc.2 (fun x hx => hk x (.tail _ hx)) hK'

theorem jobT_safe {j : Job} {p : Option Said} {K : List Rec} (hc : Chained p j.build.steps)
    (hk : ∀ st ∈ j.build.steps, st.command.Keepable E ∧ st.result.Keepable E) (hp : ∀ x, p = some x → Rec.cached x ∈ K) :
    (jobT E S j).Safe E S K (fun _ _ => True) := by
  unfold jobT
  refine Thr.Quiet.then (.each (fun n => Thr.Quiet.bind (.of _) fun _ => .emit rfl) _) ?_
  unfold buildT
  refine (cacheT_quiet _).then ((metaT_quiet _).then (.bind ((stepsT_safe _ hc hk hp).conseq fun _ K' _ => ?_)))
  have : (do Thr.ignore (relationsT j.order j.build.bundle); modelsT E S j.build.steps : Thr Unit).Quiet :=
    (relationsT_quiet _ _).ignore.bind fun _ => modelsT_quiet _
  exact (this.safe K').conseq fun _ _ _ => True.intro

theorem stepsFrom_chained {Os : Nat → Order} (cs : List Command) : ∀ i p b, Chained p (stepsFrom E Os i p b cs) := by
  induction cs with
  | nil => exact fun _ _ _ => True.intro
  | cons c cs ih =>
    intro i p b
    unfold stepsFrom
    split
    · exact ⟨rfl, ih _ _ _⟩
    · exact ih _ _ _

/-- What a validation gives can be stored: its steps are chained, and the base they begin with is there. -/
theorem validated_safe {f : Facade} (hf : f.Whole E S) {Os : Nat → Order} {ls : List Line} {j : Job}
    (hv : f.validatePlain E S Os ls = .ok j.build ∨ ∃ f', f.validate E S Os ls = .ok (f', j.build)) (hk : ∀ st ∈ j.build.steps, st.command.Keepable E) :
    ∃ K, (∀ x ∈ K, x.In f) ∧ (jobT E S j).Safe E S K (fun _ _ => True) := by
  obtain ⟨ast, base, ast', hb, h⟩ : ∃ ast base ast', (checkBase E S f.cache ast : Res (List VErr) _) = .ok (base, ast') ∧
      ∃ ast'', fromAst E Os base ast'' = .ok j.build := by
    rcases hv with h | ⟨f', h⟩
    · obtain ⟨ast, base, ast', -, hb, h⟩ := validatePlain_parts h
      exact ⟨ast, base, ast', hb, _, h⟩
    · obtain ⟨ast, base, ast', cs, -, hb, -, h, -⟩ := validate_parts h
      exact ⟨ast, base, ast', hb, _, h⟩
  obtain ⟨ast'', h⟩ := h
  have hcs : ∀ c ∈ ast''.commands, c.Keepable E := by
    obtain ⟨_, _, -, -, -, -, hcs, -⟩ := C12_successful_build E Os base _ _ h
    intro c hc'
    rw [← hcs] at hc'
    obtain ⟨st, hst, rfl⟩ := List.mem_map.1 hc'
    exact hk st hst
  have hkeep := (fromAst_keep h (hf.kept.checkBase hb) hcs).1
  obtain ⟨_, _, -, -, -, -, -, e⟩ := fromAst_steps h
  have hch : Chained (base.bind Bundle.said) j.build.steps := by
    rw [e]
    exact stepsFrom_chained _ _ _ _
  cases base with
  | none => exact ⟨[], (fun x hx => by cases hx), jobT_safe hch (fun st hst => ⟨(hkeep st hst).1, (hkeep st hst).2.1⟩) (fun x hx => by cases hx)⟩
  | some B =>
    obtain ⟨s, hs⟩ := checkBase_parts hb
    rcases hf.kept.fetch s with ⟨b', h1, h2, -⟩ | ⟨-, h1⟩
    · rw [hs] at h1
      cases h1
      refine ⟨[.cached s], ?_, jobT_safe hch (fun st hst => ⟨(hkeep st hst).1, (hkeep st hst).2.1⟩) ?_⟩
      · intro x hx
        cases List.mem_singleton.1 hx
        cases hg : f.cache.get .bundlesJson s with
        | ok o =>
          cases o with
          | some v => exact ⟨v, hg⟩
          | none => unfold fetchBundle at hs; rw [hg] at hs; cases hs
        | err e => unfold fetchBundle at hs; rw [hg] at hs; cases hs
        | panic => unfold fetchBundle at hs; rw [hg] at hs; cases hs
      · intro x hx
        rw [show (some B).bind Bundle.said = B.said from rfl, h2] at hx
        cases hx
        exact .head _
    · rw [hs] at h1
      cases h1

/-! ## Everything that can happen -/

/-- what is known at any moment -/
def AllFine (E : Env) (S : Serde) (f : Facade) (ts : List (Thr Unit)) : Prop :=
  f.Whole E S ∧ ∀ t ∈ ts, ∃ K, (∀ x ∈ K, x.In f) ∧ t.Safe E S K (fun _ _ => True)

theorem Thr.Safe.turn {t t' : Thr Unit} {f f' : Facade} {K : List Rec} (h : t.Safe E S K (fun _ _ => True)) (hK : ∀ x ∈ K, x.In f) (hf : f.Whole E S)
    (hs : t.step f = some (f', t')) : f'.Whole E S ∧ (∀ x : Rec, x.In f → x.In f') ∧ ∃ K', (∀ x ∈ K', x.In f') ∧ t'.Safe E S K' (fun _ _ => True) := by
  cases t with
  | done r => cases hs
  | get ns k c =>
    cases hs
    exact ⟨hf, fun _ h => h, K, hK, h _⟩
  | put w c =>
    cases hs
    refine ⟨h.1 f hf hK, fun _ h => h.write w, _, ?_, h.2⟩
    intro x hx
    rcases List.mem_append.1 hx with hx | hx
    · exact .written hx f
    · exact (hK x hx).write w

theorem Happens.fine {f g : Facade} {ts us : List (Thr Unit)} (h : Happens E S f ts g us) (hf : AllFine E S f ts) :
    AllFine E S g us ∧ ∀ x : Rec, x.In f → x.In g := by
  induction h with
  | rest => exact ⟨hf, fun _ h => h⟩
  | @validated g us Os ls j _ hv hk ih =>
    refine ⟨⟨ih.1.1, ?_⟩, ih.2⟩
    intro t ht
    rcases List.mem_cons.1 ht with rfl | ht
    · exact validated_safe ih.1.1 hv hk
    · exact ih.1.2 t ht
  | @turn g g' a b t t' _ hs ih =>
    obtain ⟨⟨hw, hts⟩, hi⟩ := ih
    obtain ⟨K, hK, hsafe⟩ := hts t (List.mem_append_right _ (.head _))
    obtain ⟨h1, h2, h3⟩ := hsafe.turn hK hw hs
    refine ⟨⟨h1, ?_⟩, fun x hx => h2 x (hi x hx)⟩
    intro u hu
    have : u = t' ∨ u ∈ a ++ t :: b := by
      rcases List.mem_append.1 hu with hu | hu
      · exact .inr (List.mem_append_left _ hu)
      · rcases List.mem_cons.1 hu with e | hu
        · exact .inl e
        · exact .inr (List.mem_append_right _ (.tail _ hu))
    rcases this with rfl | hu
    · exact h3
    · obtain ⟨K, hK, hs⟩ := hts u hu
      exact ⟨K, fun x hx => h2 x (hK x hx), hs⟩
  | @killed g a b t _ ih =>
    refine ⟨⟨ih.1.1, fun u hu => ih.1.2 u ?_⟩, ih.2⟩
    rcases List.mem_append.1 hu with hu | hu
    · exact List.mem_append_left _ hu
    · exact List.mem_append_right _ (.tail _ hu)

/-! ## Reading -/

theorem Facade.Whole.fetched {f : Facade} (h : f.Whole E S) {s : Said} (hs : (Rec.cached s).In f) :
    ∃ b', fetchBundle E S f.cache s = .ok b' ∧ b'.said = some s ∧ E.validSaid s = true := by
  rcases h.kept.fetch s with ⟨b', h1, h2, h3⟩ | ⟨h1, -⟩
  · exact ⟨b', h1, h2, h3.storable.said s h2⟩
  · obtain ⟨v, hv⟩ := hs
    rw [h1] at hv
    cases hv

theorem Facade.Whole.extract {f : Facade} (h : f.Whole E S) {s : Said} (hs : (Rec.cached s).In f) :
    ∃ (p : Option Said) (c : Command), extractOperation E S f.db s = .ok (p.getD [], c) ∧ ∀ x, p = some x → (Rec.cached x).In f := by
  obtain ⟨r, hg⟩ := h.op s hs
  obtain ⟨p, c, hc, hb, hp⟩ := h.parent s r hg
  refine ⟨p, c, ?_, hp⟩
  have hlen : ∀ x, p = some x → (utf8 x).length ≤ 255 := by
    intro x hx
    rw [hx] at hb
    by_cases hl : (utf8 x).length ≤ 255
    · exact hl
    · rw [C32_long_parent_aborts S x _ (by omega)] at hb
      cases hb
  obtain ⟨r', hr', hp'⟩ := C32_operation_round_trip (ε := List Str) S p c.toJson hlen
  rw [hb] at hr'
  cases hr'
  obtain ⟨j, hj, hcj⟩ := C32_command_read_back E S c hc.faithful hc.depth
  unfold extractOperation
  rw [hg]
  show (operationParse r >>= _ : Res (List Str) _) = _
  rw [hp']
  dsimp only [Res.bind_ok]
  rw [hj]
  dsimp only
  rw [hcj]

theorem stepsAt_spec (hv : E.validSaid [] = false) (fuel : Nat) : ∀ (F : Nat → Facade) (s : Said) (acc : List BuildStep),
    (∀ i, (F i).Whole E S) → (∀ i (x : Rec), x.In (F i) → x.In (F (i + 1))) → (Rec.cached s).In (F 0) →
    (stepsAt E S fuel F s acc = none ∨ stepsAt E S fuel F s acc = some (.err [c!"Malformed history"]) ∨
      ∃ l st, stepsAt E S fuel F s acc = some (.ok (l ++ st :: acc)) ∧ Chained none (l ++ [st]) ∧ st.result.said = some s) := by
  induction fuel with
  | zero => exact fun _ _ _ _ _ _ => .inl rfl
  | succ n ih =>
    intro F s acc hw hl hs
    obtain ⟨p, c, h1, h2⟩ := (hw 0).extract hs
    obtain ⟨b', g1, g2, g3⟩ := (hw 1).fetched (hl 0 _ hs)
    unfold stepsAt
    rw [h1]
    dsimp only
    by_cases hps : p.getD [] = s
    · rw [if_pos hps]
      exact .inr (.inl rfl)
    · rw [if_neg hps, if_neg (by simp [g3]), g1]
      dsimp only
      cases p with
      | none =>
        rw [show (none : Option Said).getD [] = [] from rfl, if_pos rfl, hv]
        exact .inr (.inr ⟨[], _, rfl, ⟨rfl, True.intro⟩, g2⟩)
      | some q =>
        rw [show (some q).getD [] = q from rfl]
        have hq := h2 q rfl
        obtain ⟨-, -, -, hqv⟩ := (hw 0).fetched hq
        have hqn : q ≠ [] := fun e => by rw [e, hv] at hqv; cases hqv
        rw [if_neg hqn, hqv]
        rcases ih (fun i => F (i + 2)) q (⟨some q, c, b'⟩ :: acc) (fun i => hw _) (fun i => hl _) (hl 1 _ (hl 0 _ hq)) with e | e | ⟨l, st, e, hc, hst⟩
        · exact .inl e
        · exact .inr (.inl e)
        · refine .inr (.inr ⟨l ++ [st], ⟨some q, c, b'⟩, ?_, ?_, g2⟩)
          · refine e.trans ?_
            rw [List.append_assoc]
            rfl
          · clear e ih
            generalize (none : Option Said) = z at hc ⊢
            induction l generalizing z with
            | nil => exact ⟨hc.1, by show some q = st.result.said; rw [hst], True.intro⟩
            | cons x l ih => exact ⟨hc.1, ih _ hc.2⟩

/-! ## The theorems -/

theorem happens_fine {f : Facade} {ts : List (Thr Unit)} (h : Happens E S Facade.new [] f ts) : AllFine E S f ts :=
  (h.fine ⟨.new, (fun t ht => by cases ht)⟩).1

/-- **C85** At any moment a lookup finds nothing or the whole bundle of that identifier, and once found it is found for ever: what is there stays. -/
theorem C85_fetch (E : Env) (S : Serde) (f g : Facade) (ts us : List (Thr Unit)) (h : Happens E S Facade.new [] f ts) (h' : Happens E S f ts g us)
    (s : Said) : (fetchBundle E S f.cache s = .err [c!"No OCA Bundle found for said: " ++ s] ∨
      ∃ b, fetchBundle E S f.cache s = .ok b ∧ b.said = some s) ∧
    ((∃ b, fetchBundle E S f.cache s = .ok b) → ∃ b, fetchBundle E S g.cache s = .ok b ∧ b.said = some s) := by
  have hf := happens_fine h
  obtain ⟨hg, hi⟩ := h'.fine hf
  rcases hf.1.kept.fetch s with ⟨b', h1, h2, -⟩ | ⟨h0, h1⟩
  · refine ⟨.inr ⟨b', h1, h2⟩, fun _ => ?_⟩
    have hin : (Rec.cached s).In f := by
      obtain ⟨o, ho⟩ := f.cache.get_ok .bundlesJson s
      cases o with
      | some v => exact ⟨v, ho⟩
      | none => unfold fetchBundle at h1; rw [ho] at h1; cases h1
    obtain ⟨b, g1, g2, -⟩ := hg.1.fetched (hi _ hin)
    exact ⟨b, g1, g2⟩
  · refine ⟨.inl h1, ?_⟩
    rintro ⟨b, e⟩
    rw [h1] at e
    cases e

/-- **C85** Whoever can fetch a bundle can follow its history: in whatever way the storages change between the reads, `get_oca_bundle_steps` never
misses a record and never aborts. It goes on reading, or it finds a step that changed nothing (its "malformed history", C30), or it gives steps that begin
with one without a parent, of which each begins where the one before ended, and the last made the bundle asked for. -/
theorem C85_history (E : Env) (S : Serde) (hE : E.validSaid [] = false) (F : Nat → Facade) (ts : Nat → List (Thr Unit))
    (h0 : Happens E S Facade.new [] (F 0) (ts 0)) (hF : ∀ i, Happens E S (F i) (ts i) (F (i + 1)) (ts (i + 1)))
    (s : Said) (b : Bundle) (hb : fetchBundle E S (F 0).cache s = .ok b) (fuel : Nat) :
    stepsAt E S fuel F s [] = none ∨ stepsAt E S fuel F s [] = some (.err [c!"Malformed history"]) ∨
    ∃ l st, stepsAt E S fuel F s [] = some (.ok (l ++ [st])) ∧ Chained none (l ++ [st]) ∧ st.result.said = some s := by
  have hfine : ∀ i, AllFine E S (F i) (ts i) := by
    intro i
    induction i with
    | zero => exact happens_fine h0
    | succ i ih => exact ((hF i).fine ih).1
  refine stepsAt_spec hE fuel F s [] (fun i => (hfine i).1) (fun i => ((hF i).fine (hfine i)).2) ?_
  obtain ⟨o, ho⟩ := (F 0).cache.get_ok .bundlesJson s
  cases o with
  | some v => exact ⟨v, ho⟩
  | none => unfold fetchBundle at hb; rw [ho] at hb; cases hb

end OCA
