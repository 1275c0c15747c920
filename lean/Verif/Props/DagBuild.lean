import Verif.Model.Dag
import Verif.Props.Replay
import Verif.Props.VersionGraph
import Verif.Props.CoreModel
import Verif.Props.StoreTotal
/-!
# C63: builds on the plain key-value store (`build_oca` of `oca-dag`)
-/
namespace OCA

/-! ## Specification -/

/-- The state after a command: what the command makes of the state before it. After a command that is rejected, the state is empty. -/
inductive DagNext (E : Env) (b : Option OCABox) (c : Command) : OCABox → Prop
  | accepted {x : OCABox} : applyCommand E b c = .ok x → DagNext E b c x
  | rejected {es : List Str} : applyCommand E b c = .err es → DagNext E b c OCABox.new

/-- The identifier of a state: that of the bundle generated for it. -/
inductive SaidOfState (E : Env) (P : Order) : Option OCABox → Option Said → Prop
  | none : SaidOfState E P none none
  | some {x : OCABox} {g : Bundle} : (generateBundle E P x : Res Str Bundle) = .ok g → SaidOfState E P (some x) g.said

/-- The steps of a run: for every command the identifier of the state before it, the command, and the bundle of the state after it. -/
inductive DagTrace (E : Env) (Os Ps : Nat → Order) : Nat → Option OCABox → List Command → List BuildStep → Option OCABox → Prop
  | nil (n : Nat) (b : Option OCABox) : DagTrace E Os Ps n b [] [] b
  | cons {n : Nat} {b : Option OCABox} {c : Command} {x : OCABox} {p : Option Said} {g : Bundle} {cs : List Command} {t : List BuildStep}
      {r : Option OCABox} : DagNext E b c x → SaidOfState E (Ps n) b p → (generateBundle E (Os n) x : Res Str Bundle) = .ok g →
      DagTrace E Os Ps (n + 1) (some x) cs t r → DagTrace E Os Ps n b (c :: cs) (⟨p, c, g⟩ :: t) r

/-- the text of the command fits behind one byte -/
def Command.Fits (S : Serde) (c : Command) : Prop := (utf8 (S.print c.toJson)).length ≤ 255

/-- a text behind its length -/
def pascal (s : Str) : Bytes := UInt8.ofNat (utf8 s).length :: utf8 s

/-- an identifier behind its length, a zero when there is none -/
def parentRecord : Option Said → Bytes
  | some p => pascal p
  | none => [0]

/-- the record of a step: the identifier before it and the command -/
def BuildStep.dagRecord (S : Serde) (st : BuildStep) : Bytes := parentRecord st.parentSaid ++ pascal (S.print st.command.toJson)

/-- the identifier of the step's bundle -/
def BuildStep.said (st : BuildStep) : Said := st.result.said.getD []

/-- SAIDs have no dots. -/
def Env.NoDots (E : Env) : Prop := ∀ s, E.validSaid s = true → '.' ∉ s

/-! ## The loop -/

/-- what one step writes -/
def dagWrite (E : Env) (S : Serde) (db : FMap Bytes) (st : BuildStep) : FMap Bytes :=
  (db.insert (c!"oca." ++ st.said ++ c!".operation") (st.dagRecord S)).insert (c!"oca." ++ st.said) (utf8 (S.print (st.result.toJson E)))

theorem bundleOf_said_some (E : Env) (O : Order) (b : OCABox) : ∃ j, (bundleOf E O b).said = some (E.digest j) :=
  bundleOf_saids E O b _ (.head _)

theorem DagNext.reach {E : Env} {b : Option OCABox} {c : Command} {x : OCABox} (h : DagNext E b c x) (hb : OptReach E b) : Reachable E x := by
  cases h with
  | accepted h => exact hb.step h
  | rejected _ => exact .new

theorem DagNext.unique {E : Env} {b : Option OCABox} {c : Command} {x y : OCABox} (h : DagNext E b c x) (h' : DagNext E b c y) : x = y := by
  cases h with
  | accepted h => cases h' with
    | accepted h' => rw [h] at h'; cases h'; rfl
    | rejected h' => rw [h] at h'; cases h'
  | rejected h => cases h' with
    | accepted h' => rw [h] at h'; cases h'
    | rejected h' => rfl

theorem SaidOfState.exists {E : Env} (P : Order) {b : Option OCABox} (hb : OptReach E b) :
    ∃ p, SaidOfState E P b p ∧ (∀ s, p = Option.some s → ∃ j, s = E.digest j) := by
  cases b with
  | none => exact ⟨_, .none, fun s e => by cases e⟩
  | some x =>
    refine ⟨_, .some (reachable_gen (hb x rfl) P), ?_⟩
    obtain ⟨j, hj⟩ := bundleOf_said_some E P x
    rw [hj]
    intro s e
    cases e
    exact ⟨j, rfl⟩

theorem SaidOfState.unique {E : Env} {P : Order} {b : Option OCABox} {p q : Option Said} (h : SaidOfState E P b p)
    (h' : SaidOfState E P b q) : p = q := by
  cases h with
  | none => cases h'; rfl
  | some h => cases h' with
    | some h' => rw [h] at h'; cases h'; rfl

theorem DagNext.model {E : Env} {b : Option OCABox} {c : Command} {x : OCABox} : dagNextBox E b c = .ok x ↔ DagNext E b c x := by
  unfold dagNextBox
  constructor
  · intro h
    cases ha : applyCommand E b c with
    | ok y => rw [ha] at h; cases h; exact .accepted ha
    | err es => rw [ha] at h; cases h; exact .rejected ha
    | panic => rw [ha] at h; cases h
  · intro h
    cases h with
    | accepted h => rw [h]
    | rejected h => rw [h]

theorem dagNextBox_panic {E : Env} {b : Option OCABox} {c : Command} (h : ¬ ∃ x, DagNext E b c x) : dagNextBox E b c = .panic := by
  unfold dagNextBox
  cases ha : applyCommand E b c with
  | ok x => exact absurd ⟨x, .accepted ha⟩ h
  | err es => exact absurd ⟨_, .rejected ha⟩ h
  | panic => rfl

theorem SaidOfState.model {E : Env} (hE : E.ShortSaids) {P : Order} {b : Option OCABox} {p : Option Said} (h : SaidOfState E P b p) :
    dagParent E P b = .ok (parentRecord p) := by
  cases h with
  | none => rfl
  | @some y g hg =>
    have hy := (generateBundle_eq_ok hg).2
    obtain ⟨j', hj'⟩ := bundleOf_said_some E P y
    rw [← hy] at hj'
    have hl : (lenPrefixed (E.digest j') : Res Str Bytes) = .ok (pascal (E.digest j')) := lenPrefixed_ok (hE _ (E.digest_valid j')).1
    unfold dagParent
    simp only [Res.bind_ok, hg, hj', Res.unwrap_some, hl]
    rfl

/-- a step of the model, when the command is accepted or rejected -/
theorem dagBuildStep_next {E : Env} (hE : E.ShortSaids) {S : Serde} {O P : Order} {db : FMap Bytes} {b : Option OCABox}
    (hb : OptReach E b) {c : Command} (hc : c.kind ≠ .«from») {x : OCABox} (h : DagNext E b c x) {p : Option Said}
    (hp : SaidOfState E P b p) (hf : c.Fits S) :
    dagBuildStep E S O P db b c = .ok (dagWrite E S db ⟨p, c, bundleOf E O x⟩, some x) := by
  have hx := reachable_gen (ε := Str) (h.reach hb) O
  obtain ⟨j, hj⟩ := bundleOf_said_some E O x
  have hlp : (lenPrefixed (S.print c.toJson) : Res Str Bytes) = .ok (pascal (S.print c.toJson)) := lenPrefixed_ok hf
  have hs : BuildStep.said ⟨p, c, bundleOf E O x⟩ = E.digest j := by
    show (bundleOf E O x).said.getD [] = _
    rw [hj]; rfl
  unfold dagWrite dagBuildStep dagApply
  rw [hs, if_neg hc]
  simp only [DagNext.model.2 h, Res.bind_ok, hx, hp.model hE, hlp, hj, Res.unwrap_some, Res.pure_eq]
  rfl

/-- and when it aborts, or does not fit -/
theorem dagBuildStep_panic {E : Env} (hE : E.ShortSaids) {S : Serde} {O P : Order} {db : FMap Bytes} {b : Option OCABox}
    (hb : OptReach E b) {c : Command} (hc : c.kind ≠ .«from») (h : ¬ ((∃ x, DagNext E b c x) ∧ c.Fits S)) :
    dagBuildStep E S O P db b c = .panic := by
  unfold dagBuildStep dagApply
  rw [if_neg hc]
  by_cases hx : ∃ x, DagNext E b c x
  · obtain ⟨x, hx⟩ := hx
    have hnf : ¬ c.Fits S := fun hf => h ⟨⟨x, hx⟩, hf⟩
    have hgen := reachable_gen (ε := Str) (hx.reach hb) O
    have hlp : (lenPrefixed (S.print c.toJson) : Res Str Bytes) = .panic := by
      unfold lenPrefixed lenByte
      rw [if_neg (by unfold Command.Fits at hnf; omega)]
      rfl
    obtain ⟨p, hp, -⟩ := SaidOfState.exists P hb
    simp only [DagNext.model.2 hx, Res.bind_ok, hgen, hp.model hE, hlp]
    rfl
  · rw [dagNextBox_panic hx]
    rfl

theorem dagLoop_of_trace {E : Env} (hE : E.ShortSaids) {S : Serde} {Os Ps : Nat → Order} {n : Nat} {b : Option OCABox} {cs : List Command}
    {t : List BuildStep} {r : Option OCABox} (h : DagTrace E Os Ps n b cs t r) : ∀ (db : FMap Bytes), OptReach E b →
    (∀ c ∈ cs, c.kind ≠ .«from» ∧ c.Fits S) → dagBuildLoop E S Os Ps n db b cs = .ok (t.foldl (dagWrite E S) db, r) := by
  induction h with
  | nil n b => intro db _ _; rfl
  | @cons n b c x p g cs t r h1 h2 h3 _ ih =>
    intro db hb hc
    obtain ⟨h4, h5⟩ := hc c (.head _)
    have hg := (generateBundle_eq_ok h3).2
    subst hg
    unfold dagBuildLoop
    rw [dagBuildStep_next hE hb h4 h1 h2 h5]
    exact ih _ (fun y hy => by cases hy; exact h1.reach hb) fun c h => hc c (.tail _ h)

theorem dagLoop_cases {E : Env} (hE : E.ShortSaids) {S : Serde} {Os Ps : Nat → Order} (cs : List Command) : ∀ (n : Nat) (b : Option OCABox)
    (db : FMap Bytes), OptReach E b → (∀ c ∈ cs, c.kind ≠ .«from») →
    ((∀ c ∈ cs, c.Fits S) ∧ ∃ t r, DagTrace E Os Ps n b cs t r) ∨
    (¬ ((∀ c ∈ cs, c.Fits S) ∧ ∃ t r, DagTrace E Os Ps n b cs t r) ∧ dagBuildLoop E S Os Ps n db b cs = .panic) := by
  induction cs with
  | nil => intro n b db _ _; exact .inl ⟨(fun _ h => by cases h), [], b, .nil n b⟩
  | cons c cs ih =>
    intro n b db hb hc
    have hc0 := hc c (.head _)
    by_cases hx : (∃ x, DagNext E b c x) ∧ c.Fits S
    · obtain ⟨⟨x, hx⟩, hf⟩ := hx
      obtain ⟨p, hp, -⟩ := SaidOfState.exists (Ps n) hb
      have hr := hx.reach hb
      rcases ih (n + 1) (some x) (dagWrite E S db ⟨p, c, bundleOf E (Os n) x⟩) (fun y hy => by cases hy; exact hr)
        (fun c h => hc c (.tail _ h)) with ⟨h1, t, r, h2⟩ | ⟨h1, h2⟩
      · refine .inl ⟨?_, _, r, .cons hx hp (reachable_gen hr _) h2⟩
        intro c' hc'
        rcases List.mem_cons.1 hc' with rfl | hc'
        · exact hf
        · exact h1 c' hc'
      · refine .inr ⟨?_, ?_⟩
        · rintro ⟨h3, t, r, h4⟩
          cases h4 with
          | cons k1 k2 k3 k4 =>
            cases hx.unique k1
            exact h1 ⟨fun c h => h3 c (.tail _ h), _, _, k4⟩
        · unfold dagBuildLoop
          rw [dagBuildStep_next hE hb hc0 hx hp hf]
          exact h2
    · refine .inr ⟨?_, ?_⟩
      · rintro ⟨h3, t, r, h4⟩
        cases h4 with
        | cons k1 k2 k3 k4 => exact hx ⟨⟨_, k1⟩, h3 c (.head _)⟩
      · unfold dagBuildLoop
        rw [dagBuildStep_panic hE hb hc0 hx]
        rfl

theorem DagTrace.last {E : Env} {Os Ps : Nat → Order} {n : Nat} {b : Option OCABox} {cs : List Command}
    {t : List BuildStep} {r : Option OCABox} (h : DagTrace E Os Ps n b cs t r) (hb : OptReach E b) : OptReach E r ∧ (cs ≠ [] → ∃ x, r = some x) ∧
    (cs = [] → r = b) ∧ t.map (·.command) = cs := by
  induction h with
  | nil n b => exact ⟨hb, fun h => absurd rfl h, fun _ => rfl, rfl⟩
  | @cons n b c x p g cs t r h1 h2 h3 _ ih =>
    obtain ⟨k1, k2, k3, k4⟩ := ih (fun y hy => by cases hy; exact h1.reach hb)
    refine ⟨k1, fun _ => ?_, (fun h => by cases h), congrArg _ k4⟩
    by_cases h : cs = []
    · exact ⟨_, k3 h⟩
    · exact k2 h

/-! ## C63 -/

/-- **C63** The outcome of a build without `FROM`: it succeeds when there is a command, every command's text has at most 255 bytes and no
command aborts; it aborts otherwise. It never reports an error. -/
theorem C63_outcome (E : Env) (hE : E.ShortSaids) (S : Serde) (Os Ps : Nat → Order) (db : FMap Bytes) (cs : List Command)
    (hc : ∀ c ∈ cs, c.kind ≠ .«from») :
    ((∃ db' b, dagBuild E S Os Ps db cs = .ok (db', b)) ↔
      cs ≠ [] ∧ (∀ c ∈ cs, (utf8 (S.print c.toJson)).length ≤ 255) ∧ ∃ t r, DagTrace E Os Ps 0 none cs t r) ∧
    (∀ e, dagBuild E S Os Ps db cs ≠ .err e) := by
  have h0 : OptReach E none := fun _ h => by cases h
  rcases dagLoop_cases (Os := Os) (Ps := Ps) (S := S) hE cs 0 none db h0 hc with ⟨h1, t, r, h2⟩ | ⟨h1, h2⟩
  · have hl := dagLoop_of_trace (S := S) hE h2 db h0 fun c h => ⟨hc c h, h1 c h⟩
    obtain ⟨k1, k2, k3, -⟩ := h2.last h0
    unfold dagBuild
    rw [hl]
    by_cases hn : cs = []
    · have := k3 hn
      subst this
      subst hn
      exact ⟨⟨(by rintro ⟨_, _, h⟩; cases h), fun h => absurd rfl h.1⟩, fun e h => by cases h⟩
    · obtain ⟨x, rfl⟩ := k2 hn
      have hg := reachable_gen (ε := Str) (k1 x rfl) (Os cs.length)
      simp only [Res.bind_ok, Res.unwrap_some, hg, Res.pure_eq]
      exact ⟨⟨fun _ => ⟨hn, h1, t, _, h2⟩, fun _ => ⟨_, _, rfl⟩⟩, fun e h => by cases h⟩
  · unfold dagBuild
    rw [h2]
    exact ⟨⟨(by rintro ⟨_, _, h⟩; cases h), fun h => absurd h.2 h1⟩, fun e h => by cases h⟩

theorem DagTrace.mem {E : Env} {Os Ps : Nat → Order} {n : Nat} {b : Option OCABox} {cs : List Command}
    {t : List BuildStep} {r : Option OCABox} (h : DagTrace E Os Ps n b cs t r) (hb : OptReach E b) :
    ∀ st ∈ t, ∃ j, st.result.said = some (E.digest j) := by
  induction h with
  | nil n b => intro st hst; cases hst
  | @cons n b c x p g cs t r h1 h2 h3 _ ih =>
    intro st hst
    rcases List.mem_cons.1 hst with rfl | hst
    · rw [(generateBundle_eq_ok h3).2]
      exact bundleOf_said_some E _ _
    · exact ih (fun y hy => by cases hy; exact h1.reach hb) st hst

theorem dag_keys {E : Env} (hd : E.NoDots) {s s' : Said} (h : E.validSaid s = true) (h' : E.validSaid s' = true) :
    c!"oca." ++ s ≠ c!"oca." ++ s' ++ c!".operation" ∧
    (c!"oca." ++ s ++ c!".operation" = c!"oca." ++ s' ++ c!".operation" ↔ s = s') ∧ (c!"oca." ++ s = c!"oca." ++ s' ↔ s = s') := by
  refine ⟨?_, ?_, ?_⟩
  · intro e
    rw [List.append_assoc] at e
    have := List.append_cancel_left e
    subst this
    exact hd _ h (List.mem_append_right _ (by decide))
  · constructor
    · intro e
      exact List.append_cancel_left (List.append_cancel_right e)
    · rintro rfl; rfl
  · constructor
    · intro e
      exact List.append_cancel_left e
    · rintro rfl; rfl

theorem dagWrites_get {E : Env} {S : Serde} (hd : E.NoDots) : ∀ (t : List BuildStep) (db : FMap Bytes),
    (∀ st ∈ t, ∃ j, st.result.said = some (E.digest j)) →
    (∀ st, LastWith (fun y => y.said = st.said) t st →
      (t.foldl (dagWrite E S) db).get (c!"oca." ++ st.said ++ c!".operation") = some (st.dagRecord S) ∧
      (t.foldl (dagWrite E S) db).get (c!"oca." ++ st.said) = some (utf8 (S.print (st.result.toJson E)))) ∧
    (∀ k, (∀ st ∈ t, k ≠ c!"oca." ++ st.said ∧ k ≠ c!"oca." ++ st.said ++ c!".operation") →
      (t.foldl (dagWrite E S) db).get k = db.get k) := by
  intro t
  have hval : ∀ st : BuildStep, (∃ j, st.result.said = some (E.digest j)) → E.validSaid st.said = true := by
    rintro st ⟨j, hj⟩
    unfold BuildStep.said
    rw [hj]
    exact E.digest_valid j
  induction t using snoc_ind with
  | h0 =>
    intro db _
    refine ⟨?_, fun k _ => rfl⟩
    rintro st ⟨a, b, e, -⟩
    cases a <;> cases e
  | h1 t y ih =>
    intro db hj
    obtain ⟨i1, i2⟩ := ih db fun st h => hj st (List.mem_append_left _ h)
    have hy := hval y (hj y (List.mem_append_right _ (.head _)))
    rw [List.foldl_append]
    show (∀ st, _ → (dagWrite E S _ y).get _ = _ ∧ (dagWrite E S _ y).get _ = _) ∧ ∀ k, _ → (dagWrite E S _ y).get k = _
    unfold dagWrite
    refine ⟨?_, ?_⟩
    · rintro st ⟨a, b, e, -, hb⟩
      have hmem : st ∈ t ++ [y] := by rw [e]; exact List.mem_append_right _ (.head _)
      obtain ⟨k1, k2, k3⟩ := dag_keys hd (hval st (hj st hmem)) hy
      obtain ⟨k4, -, -⟩ := dag_keys hd hy (hval st (hj st hmem))
      rw [FMap.get_insert, FMap.get_insert, FMap.get_insert, FMap.get_insert]
      by_cases hs : st.said = y.said
      · have hbn : b = [] := by
          rcases List.eq_nil_or_concat b with h | ⟨b', z, rfl⟩
          · exact h
          · exfalso
            rw [List.concat_eq_append, ← List.cons_append, ← List.append_assoc] at e
            have e2 := (List.append_inj' e rfl).2
            cases e2
            exact hb y (by rw [List.concat_eq_append]; exact List.mem_append_right _ (.head _)) hs.symm
        subst hbn
        have e2 := (List.append_inj' e rfl).2
        cases e2
        rw [if_neg fun h => k4 h.symm, if_pos rfl, if_pos rfl]
        exact ⟨rfl, rfl⟩
      · rw [if_neg fun h => k4 h.symm, if_neg fun h => hs (k2.1 h), if_neg fun h => hs (k3.1 h), if_neg k1]
        refine i1 st ?_
        rcases List.eq_nil_or_concat b with h | ⟨b', z, rfl⟩
        · subst h
          have e2 := (List.append_inj' e rfl).2
          cases e2
          exact absurd rfl hs
        · rw [List.concat_eq_append, ← List.cons_append, ← List.append_assoc] at e
          have e1 := (List.append_inj' e rfl).1
          exact ⟨a, b', e1, rfl, fun w hw => hb w (by rw [List.concat_eq_append]; exact List.mem_append_left _ hw)⟩
    · intro k hk
      obtain ⟨h1, h2⟩ := hk y (List.mem_append_right _ (.head _))
      rw [FMap.get_insert, FMap.get_insert, if_neg h1, if_neg h2]
      exact i2 k fun st h => hk st (List.mem_append_left _ h)

theorem dagBuild_parts {E : Env} (hE : E.ShortSaids) {S : Serde} {Os Ps : Nat → Order} {db db' : FMap Bytes} {cs : List Command} {b : Bundle}
    (hc : ∀ c ∈ cs, c.kind ≠ .«from») (h : dagBuild E S Os Ps db cs = .ok (db', b)) :
    (∀ c ∈ cs, c.Fits S) ∧ ∃ t x, DagTrace E Os Ps 0 none cs t (some x) ∧ Reachable E x ∧ b = bundleOf E (Os cs.length) x ∧
      db' = t.foldl (dagWrite E S) db := by
  have h0 : OptReach E none := fun _ h => by cases h
  obtain ⟨h1, h2, t, r, h3⟩ := (C63_outcome E hE S Os Ps db cs hc).1.1 ⟨db', b, h⟩
  have hl := dagLoop_of_trace (S := S) hE h3 db h0 fun c h => ⟨hc c h, h2 c h⟩
  obtain ⟨k1, k2, k3, -⟩ := h3.last h0
  obtain ⟨x, rfl⟩ := k2 h1
  have hg := reachable_gen (ε := Str) (k1 x rfl) (Os cs.length)
  unfold dagBuild at h
  rw [hl] at h
  simp only [Res.bind_ok, Res.unwrap_some, hg, Res.pure_eq] at h
  obtain ⟨e1, e2⟩ := Prod.mk.inj (Res.ok.inj h)
  exact ⟨h2, t, x, h3, k1 x rfl, e2.symm, e1.symm⟩

theorem dagBuild_of_trace {E : Env} (hE : E.ShortSaids) {S : Serde} {Os Ps : Nat → Order} {db : FMap Bytes} {cs : List Command}
    (hc : ∀ c ∈ cs, c.kind ≠ .«from» ∧ c.Fits S) {t : List BuildStep} {x : OCABox} (h : DagTrace E Os Ps 0 none cs t (some x)) :
    dagBuild E S Os Ps db cs = .ok (t.foldl (dagWrite E S) db, bundleOf E (Os cs.length) x) := by
  have h0 : OptReach E none := fun _ h => by cases h
  have hg := reachable_gen (ε := Str) ((h.last h0).1 x rfl) (Os cs.length)
  unfold dagBuild
  rw [dagLoop_of_trace (S := S) hE h db h0 hc]
  simp only [Res.bind_ok, Res.unwrap_some, hg, Res.pure_eq]

/-- **C63** What a successful build without `FROM` returns and stores: the bundle of the last state; for every step, under the identifier of
its bundle, the bundle, and the record of the step before it and the command, where of several steps with one identifier the last one
counts; and nothing else. -/
theorem C63_result (E : Env) (hE : E.ShortSaids) (hd : E.NoDots) (S : Serde) (Os Ps : Nat → Order) (db db' : FMap Bytes)
    (cs : List Command) (b : Bundle) (hc : ∀ c ∈ cs, c.kind ≠ .«from») (h : dagBuild E S Os Ps db cs = .ok (db', b)) :
    ∃ t x, DagTrace E Os Ps 0 none cs t (some x) ∧ t.map (·.command) = cs ∧ (generateBundle E (Os cs.length) x : Res Str _) = .ok b ∧
      (∀ st, LastWith (fun y => y.said = st.said) t st →
        db'.get (c!"oca." ++ st.said ++ c!".operation") = some (parentRecord st.parentSaid ++ pascal (S.print st.command.toJson)) ∧
        db'.get (c!"oca." ++ st.said) = some (utf8 (S.print (st.result.toJson E)))) ∧
      (∀ k, (∀ st ∈ t, k ≠ c!"oca." ++ st.said ∧ k ≠ c!"oca." ++ st.said ++ c!".operation") → db'.get k = db.get k) := by
  have h0 : OptReach E none := fun _ h => by cases h
  obtain ⟨-, t, x, h1, h2, rfl, rfl⟩ := dagBuild_parts hE hc h
  obtain ⟨g1, g2⟩ := dagWrites_get (S := S) hd t db (h1.mem h0)
  exact ⟨t, x, h1, (h1.last h0).2.2.2, reachable_gen h2 _, g1, g2⟩

/-! ## Rejected commands -/

theorem DagTrace.append {E : Env} {Os Ps : Nat → Order} (l l' : List Command) : ∀ {n : Nat} {b : Option OCABox} {t : List BuildStep}
    {r : Option OCABox}, DagTrace E Os Ps n b (l ++ l') t r →
    ∃ t1 m t2, DagTrace E Os Ps n b l t1 m ∧ DagTrace E Os Ps (n + l.length) m l' t2 r ∧ t = t1 ++ t2 := by
  induction l with
  | nil => intro n b t r h; exact ⟨[], b, t, .nil _ _, h, rfl⟩
  | cons c l ih =>
    intro n b t r h
    cases h with
    | cons h1 h2 h3 h4 =>
      obtain ⟨t1, m, t2, k1, k2, rfl⟩ := ih h4
      refine ⟨_, m, t2, .cons h1 h2 h3 k1, ?_, rfl⟩
      rwa [show n + (c :: l).length = n + 1 + l.length by simp only [List.length_cons]; omega]

theorem DagTrace.unique {E : Env} {Os Ps : Nat → Order} {n : Nat} {b : Option OCABox} {cs : List Command} {t : List BuildStep}
    {r : Option OCABox} (h : DagTrace E Os Ps n b cs t r) : ∀ {t' r'}, DagTrace E Os Ps n b cs t' r' → t = t' ∧ r = r' := by
  induction h with
  | nil n b => intro t' r' h; cases h; exact ⟨rfl, rfl⟩
  | cons h1 h2 h3 _ ih =>
    intro t' r' h
    cases h with
    | cons k1 k2 k3 k4 =>
      cases h1.unique k1
      cases h2.unique k2
      rw [h3] at k3
      cases k3
      obtain ⟨e1, e2⟩ := ih k4
      exact ⟨congrArg _ e1, e2⟩

theorem DagTrace.shift {E : Env} {Os Ps : Nat → Order} (m : Nat) {n : Nat} {b : Option OCABox} {cs : List Command} {t : List BuildStep}
    {r : Option OCABox} (h : DagTrace E Os Ps n b cs t r) : ∀ k, n = m + k → DagTrace E (fun i => Os (m + i)) (fun i => Ps (m + i)) k b cs t r := by
  induction h with
  | nil n b => intro k _; exact .nil _ _
  | cons h1 h2 h3 _ ih =>
    rintro k rfl
    exact .cons h1 h2 h3 (ih (k + 1) (by omega))

theorem DagNext.fresh {E : Env} {c : Command} {x : OCABox} (h : DagNext E (some OCABox.new) c x) : DagNext E none c x := by
  cases h with
  | accepted h => exact .accepted h
  | rejected h => exact .rejected h

/-- **C63** A rejected command is not reported, and everything before it is lost: the build ends in the same bundle as the build of the
commands behind it alone. -/
theorem C63_rejected_is_lost (E : Env) (hE : E.ShortSaids) (S : Serde) (Os Ps : Nat → Order) (db db' : FMap Bytes) (pre suf : List Command)
    (c : Command) (b : Bundle) (hc : ∀ c' ∈ pre ++ c :: suf, c'.kind ≠ .«from»)
    (h : dagBuild E S Os Ps db (pre ++ c :: suf) = .ok (db', b)) (t : List BuildStep) (st : Option OCABox)
    (hp : DagTrace E Os Ps 0 none pre t st) (es : List Str) (hr : applyCommand E st c = .err es) :
    (suf = [] → (generateBundle E (Os (pre.length + 1)) OCABox.new : Res Str _) = .ok b) ∧
    (suf ≠ [] → ∀ db2, ∃ db2', dagBuild E S (fun n => Os (pre.length + 1 + n)) (fun n => Ps (pre.length + 1 + n)) db2 suf = .ok (db2', b)) := by
  obtain ⟨hf, t', x, h1, h2, rfl, -⟩ := dagBuild_parts hE hc h
  obtain ⟨t1, m, t2, k1, k2, -⟩ := h1.append
  obtain ⟨-, rfl⟩ := k1.unique hp
  rw [List.length_append, List.length_cons]
  cases k2 with
  | cons q1 q2 q3 q4 =>
    cases (DagNext.rejected hr).unique q1
    constructor
    · rintro rfl
      cases q4
      exact reachable_gen h2 _
    · intro hn db2
      rw [Nat.zero_add] at q4
      cases suf with
      | nil => exact absurd rfl hn
      | cons d suf =>
        cases q4 with
        | @cons _ _ _ y p g _ t r z1 z2 z3 z4 =>
          have hz := z4.shift (pre.length + 1) 1 rfl
          have htr : DagTrace E (fun n => Os (pre.length + 1 + n)) (fun n => Ps (pre.length + 1 + n)) 0 none (d :: suf) (⟨none, d, g⟩ :: t) (some x) :=
            .cons z1.fresh .none z3 hz
          have hall : ∀ c' ∈ d :: suf, c'.kind ≠ .«from» ∧ c'.Fits S := by
            intro c' hc'
            have : c' ∈ pre ++ c :: d :: suf := List.mem_append_right _ (.tail _ hc')
            exact ⟨hc c' this, hf c' this⟩
          have := dagBuild_of_trace hE (db := db2) hall htr
          rw [show pre.length + 1 + (d :: suf).length = pre.length + ((d :: suf).length + 1) by omega] at this
          exact ⟨_, this⟩

/-! ## The same builds without rejected commands -/

theorem said_any_order {E : Env} {M : Str → FMap Str} {x : OCABox} (hr : Reachable E x) (hu : x.Uniform M) (O O' : Order)
    (hn : ¬ (bundleOf E O x).TwoAlike) :
    (bundleOf E O' x).said = (bundleOf E O x).said ∧ (bundleOf E O' x).toJson E = (bundleOf E O x).toJson E :=
  bundle_equal O O' hr hr hu.consistent hu.consistent rfl hn

/-- the same command, and bundles with the same identifier and JSON, before and after -/
structure BuildStep.SameAs (E : Env) (st st' : BuildStep) : Prop where
  command : st.command = st'.command
  parent : st.parentSaid = st'.parentSaid
  said : st.result.said = st'.result.said
  json : st.result.toJson E = st'.result.toJson E

theorem trace_of_steps {E : Env} {M : Str → FMap Str} {Os' Os Ps : Nat → Order} (cs : List Command) : ∀ (i n : Nat) (p : Option Said)
    (b : Option OCABox), OptReach E b → (∀ x, b = some x → x.Uniform M) → (∀ c ∈ cs, c.FramesAs M) →
    (∀ O, match b with
      | some x => (bundleOf E O x).said = p
      | none => p = none) →
    (∀ r ∈ results E b cs, r.isOk = true) → (∀ st ∈ stepsFrom E Os' i p b cs, ¬ st.result.TwoAlike) →
    ∃ t, DagTrace E Os Ps n b cs t (finalState E b cs) ∧ All2 (BuildStep.SameAs E) t (stepsFrom E Os' i p b cs) := by
  induction cs with
  | nil => intro i n p b _ _ _ _ _ _; exact ⟨[], .nil _ _, .nil⟩
  | cons c cs ih =>
    intro i n p b hb hu hM hp hok hn
    cases ha : applyCommand E b c with
    | err es => have := hok (.err es) (by rw [results, ha]; exact .head _); cases this
    | panic => have := hok .panic (by rw [results, ha]; exact .head _); cases this
    | ok x =>
      have hx : Reachable E x := hb.step ha
      have hux : x.Uniform M := by
        cases b with
        | none => exact OCABox.Uniform.apply (fun n a i fr q sc hg => by cases hg) (hM c (.head _)) (applyCommand_none E c ▸ ha)
        | some y => exact (hu y rfl).apply (hM c (.head _)) ha
      rw [stepsFrom, ha] at hn ⊢
      rw [results, ha] at hok
      rw [finalState, ha]
      dsimp only at hn ⊢
      have hn0 := hn _ (.head _)
      obtain ⟨t, h1, h2⟩ := ih (i + 1) (n + 1) (bundleOf E (Os' i) x).said (some x) (fun y hy => by cases hy; exact hx)
        (fun y hy => by cases hy; exact hux) (fun c h => hM c (.tail _ h)) (fun O => (said_any_order hx hux _ O hn0).1)
        (fun r h => hok r (.tail _ h)) (fun st h => hn st (.tail _ h))
      have hs : SaidOfState E (Ps n) b p := by
        cases b with
        | none => have := hp (Ps n); dsimp only at this; subst this; exact .none
        | some y =>
          have := hp (Ps n)
          dsimp only at this
          rw [← this]
          exact .some (reachable_gen (hb y rfl) _)
      refine ⟨_, .cons (.accepted ha) hs (reachable_gen hx _) h1, .cons ⟨rfl, rfl, ?_, ?_⟩ h2⟩
      · exact (said_any_order hx hux _ _ hn0).1
      · exact (said_any_order hx hux _ _ hn0).2

/-- **C63** When the build of the commands succeeds (C12), and all command texts fit, `build_oca` makes the same bundle, by the same steps:
with the same identifiers before and after every command. The frames must be described in one way, and no bundle of a step may have two
overlays with the same identifier. -/
theorem C63_accepted (E : Env) (hE : E.ShortSaids) (S : Serde) (Os' Os Ps : Nat → Order) (db : FMap Bytes) (ast : OCAAst) (r : Build)
    (h : fromAst E Os' none ast = .ok r) (hl : ∀ c ∈ ast.commands, (utf8 (S.print c.toJson)).length ≤ 255)
    (hf : SameFrameMeta ast.commands) (hn : ∀ st ∈ r.steps, ¬ st.result.TwoAlike) (hn' : ¬ r.bundle.TwoAlike) :
    ∃ db' b t x, dagBuild E S Os Ps db ast.commands = .ok (db', b) ∧ b.said = r.bundle.said ∧ b.toJson E = r.bundle.toJson E ∧
      DagTrace E Os Ps 0 none ast.commands t x ∧ All2 (BuildStep.SameAs E) t r.steps := by
  obtain ⟨base, box, h1, h2, h3, h4, h5, rfl⟩ := fromAst_steps h
  cases h1
  obtain ⟨t, k1, k2⟩ := trace_of_steps (Os := Os) (Ps := Ps) ast.commands 0 0 none none h2 (fun _ h => by cases h) hf.framesAs
    (fun _ => rfl) h3 hn
  rw [h4] at k1
  have hk : ∀ c ∈ ast.commands, c.kind ≠ .«from» ∧ c.Fits S := by
    intro c hc
    refine ⟨?_, hl c hc⟩
    intro hfrom
    obtain ⟨b0, hb0⟩ : ∃ b0, applyCommand E b0 c ∈ results E none ast.commands := by
      have : ∀ (l : List Command) (b : Option OCABox), c ∈ l → ∃ b0, applyCommand E b0 c ∈ results E b l := by
        intro l
        induction l with
        | nil => intro b h; cases h
        | cons d l ih =>
          intro b h
          rcases List.mem_cons.1 h with rfl | h
          · exact ⟨b, .head _⟩
          · obtain ⟨b0, h0⟩ := ih (afterResult b (applyCommand E b d)) h
            exact ⟨b0, .tail _ h0⟩
      exact this _ _ hc
    have := h3 _ hb0
    obtain ⟨k, o⟩ := c
    cases hfrom
    cases this
  have hu := finalState_uniform (M := frameMetaIn _) ast.commands none (fun _ h => by cases h) hf.framesAs box h4
  obtain ⟨e1, e2⟩ := said_any_order h5 hu (Os' ast.commands.length) (Os ast.commands.length) hn'
  exact ⟨_, _, t, _, dagBuild_of_trace hE hk k1, e1, e2, k1, k2⟩

/-! ## FROM -/

theorem DagNext.tidy {E : Env} {x y z : OCABox} {c : Command} (h : DagNext E (some x) c z) (ht : x.tidy = y.tidy) :
    ∃ w, DagNext E (some y) c w ∧ z.tidy = w.tidy := by
  have ha := tidy_apply (E := E) ht c
  cases h with
  | accepted h =>
    rw [h] at ha
    cases hw : applyCommand E (some y) c with
    | ok w => rw [hw] at ha; exact ⟨w, .accepted hw, ha⟩
    | err _ => rw [hw] at ha; exact ha.elim
    | panic => rw [hw] at ha; exact ha.elim
  | rejected h =>
    rw [h] at ha
    cases hw : applyCommand E (some y) c with
    | ok w => rw [hw] at ha; exact ha.elim
    | err _ => exact ⟨_, .rejected hw, rfl⟩
    | panic => rw [hw] at ha; exact ha.elim

theorem trace_tidy {E : Env} {Os Ps Os' Ps' : Nat → Order} (cs : List Command) : ∀ (n n' : Nat) (x y : OCABox) (t : List BuildStep)
    (r : Option OCABox), Reachable E y → x.tidy = y.tidy → DagTrace E Os Ps n (some x) cs t r →
    ∃ t' r1 r2, DagTrace E Os' Ps' n' (some y) cs t' (some r2) ∧ r = some r1 ∧ r1.tidy = r2.tidy := by
  induction cs with
  | nil => intro n n' x y t r _ ht h; cases h; exact ⟨[], x, y, .nil _ _, rfl, ht⟩
  | cons c cs ih =>
    intro n n' x y t r hr ht h
    cases h with
    | cons h1 h2 h3 h4 =>
      obtain ⟨w, hw, e⟩ := h1.tidy ht
      have hry : OptReach E (some y) := fun z hz => by cases hz; exact hr
      have hrw := hw.reach hry
      obtain ⟨t', r1, r2, k1, k2, k3⟩ := ih (n + 1) (n' + 1) _ w _ r hrw e h4
      obtain ⟨p, hp, -⟩ := SaidOfState.exists (Ps' n') hry
      exact ⟨_, r1, r2, .cons hw hp (reachable_gen hrw _) k1, k2, k3⟩

theorem DagTrace.uniform {E : Env} {M : Str → FMap Str} {Os Ps : Nat → Order} {n : Nat} {b : Option OCABox} {cs : List Command}
    {t : List BuildStep} {r : Option OCABox} (h : DagTrace E Os Ps n b cs t r) : (∀ x, b = some x → x.Uniform M) → (∀ c ∈ cs, c.FramesAs M) →
    ∀ x, r = some x → x.Uniform M := by
  induction h with
  | nil n b => intro h _; exact h
  | @cons n b c x p g cs t r h1 h2 h3 _ ih =>
    intro hb hc
    have hnew : OCABox.new.Uniform M := fun n a i fr q sc hg => by cases hg
    refine ih ?_ fun c h => hc c (.tail _ h)
    intro y hy
    cases hy
    cases h1 with
    | rejected _ => exact hnew
    | accepted h => cases b with
      | none => exact hnew.apply (hc c (.head _)) (applyCommand_none E c ▸ h)
      | some z => exact (hb z rfl).apply (hc c (.head _)) h

theorem DagTrace.keep {E : Env} {Os Ps : Nat → Order} {n : Nat} {b : Option OCABox} {cs : List Command}
    {t : List BuildStep} {r : Option OCABox} (h : DagTrace E Os Ps n b cs t r) : (∀ x, b = some x → KeepBox E x) → (∀ c ∈ cs, c.Keepable E) →
    ∀ x, r = some x → KeepBox E x := by
  induction h with
  | nil n b => intro h _; exact h
  | @cons n b c x p g cs t r h1 h2 h3 _ ih =>
    intro hb hc
    refine ih ?_ fun c h => hc c (.tail _ h)
    intro y hy
    cases hy
    cases h1 with
    | rejected _ => exact .new E
    | accepted h => cases b with
      | none => exact (KeepBox.new E).step (hc c (.head _)) h
      | some z => exact (hb z rfl).step (hc c (.head _)) h

/-- the last step has the bundle of the last state -/
theorem DagTrace.last_step {E : Env} {Os Ps : Nat → Order} {n : Nat} {b : Option OCABox} {cs : List Command}
    {t : List BuildStep} {r : Option OCABox} (h : DagTrace E Os Ps n b cs t r) : cs ≠ [] →
    ∃ t' st x O, t = t' ++ [st] ∧ r = some x ∧ st.result = bundleOf E O x := by
  induction h with
  | nil n b => intro h; exact absurd rfl h
  | @cons n b c x p g cs t r h1 h2 h3 h4 ih =>
    intro _
    cases cs with
    | nil => cases h4; exact ⟨[], _, x, _, rfl, rfl, (generateBundle_eq_ok h3).2⟩
    | cons d cs =>
      obtain ⟨t', st, y, O, rfl, e2, e3⟩ := ih (by simp)
      exact ⟨_ :: t', st, y, O, rfl, e2, e3⟩

theorem dagFrom_stored {E : Env} {S : Serde} {db : FMap Bytes} {s : Said} {O : Order} {box : OCABox} (hb : KeepBox E box)
    {M : Str → FMap Str} (hu : box.Uniform M) (h : db.get (c!"oca." ++ s) = some (utf8 (S.print ((bundleOf E O box).toJson E)))) :
    ∃ y, dagFrom E S db (.ocaBundle (.said s)) = .ok y ∧ Reachable E y ∧ y.tidy = box.tidy := by
  obtain ⟨b, h1, h2, -⟩ := stored_loads (O := O) hb
  have hl := h2.load (ε := Str) (E := E) hb.reach.wf
  have hw := (bundleOf E O box).within E 124 (hb.bundle O).types
  refine ⟨shownBox E b, ?_, .loaded b _ hl, h2.tidy hb hu⟩
  unfold dagFrom
  dsimp only
  rw [h]
  dsimp only
  rw [fromUtf8_utf8, Res.unwrap_some, Res.bind_ok, S.parse_print _ (Nat.lt_of_le_of_lt hw.2 (by decide)) hw.1, Res.unwrap_some, Res.bind_ok, h1]
  exact hl

/-- **C63** A build that begins with `FROM` and the identifier of an earlier build goes on where that one ended: it makes the bundle, with the
same identifier and JSON, that one build of all commands makes, whatever was stored before. The frames must be described in one way,
the commands of the base must be storable, and the two bundles may have no two overlays with the same identifier. -/
theorem C63_from_continues (E : Env) (hE : E.ShortSaids) (hd : E.NoDots) (S : Serde) (Os1 Ps1 Os2 Ps2 Os Ps : Nat → Order)
    (db0 db1 db2 db3 : FMap Bytes) (cs1 cs2 : List Command) (b1 b : Bundle) (s : Said) (hc : ∀ c ∈ cs1 ++ cs2, c.kind ≠ .«from»)
    (hk : ∀ c ∈ cs1, c.Keepable E) (hf : SameFrameMeta (cs1 ++ cs2)) (h1 : dagBuild E S Os1 Ps1 db0 cs1 = .ok (db1, b1))
    (hs : b1.said = some s) (h2 : dagBuild E S Os Ps db2 (cs1 ++ cs2) = .ok (db3, b)) (hn1 : ¬ b1.TwoAlike) (hn : ¬ b.TwoAlike) :
    ∃ db' b', dagBuild E S Os2 Ps2 db1 (⟨.«from», .ocaBundle (.said s)⟩ :: cs2) = .ok (db', b') ∧ b'.said = b.said ∧
      b'.toJson E = b.toJson E := by
  have h0 : OptReach E none := fun _ h => by cases h
  have hnone : ∀ {P : OCABox → Prop} x, (none : Option OCABox) = some x → P x := fun _ h => by cases h
  have hc1 : ∀ c ∈ cs1, c.kind ≠ .«from» := fun c h => hc c (List.mem_append_left _ h)
  have hne : cs1 ≠ [] := ((C63_outcome E hE S Os1 Ps1 db0 cs1 hc1).1.1 ⟨_, _, h1⟩).1
  obtain ⟨hf1, t1, x1, tr1, r1, rfl, rfl⟩ := dagBuild_parts hE hc1 h1
  obtain ⟨hf2, t2, x2, tr2, r2, rfl, -⟩ := dagBuild_parts hE hc h2
  have hM := hf.framesAs
  have hu1 := tr1.uniform hnone (fun c h => hM c (List.mem_append_left _ h)) x1 rfl
  have hu2 := tr2.uniform hnone hM x2 rfl
  have hk1 := tr1.keep hnone hk x1 rfl
  -- what is stored
  obtain ⟨g1, -⟩ := dagWrites_get (S := S) hd t1 db0 (tr1.mem h0)
  obtain ⟨t', st, x, O, rfl, e1, e2⟩ := tr1.last_step hne
  cases e1
  obtain ⟨e3, e4⟩ := said_any_order r1 hu1 _ O hn1
  have hsaid : st.said = s := by
    unfold BuildStep.said
    rw [e2, e3, hs]
    rfl
  have hst := (g1 st ⟨t', [], rfl, rfl, fun _ h => by cases h⟩).2
  rw [hsaid, e2] at hst
  obtain ⟨y, k1, k2, k3⟩ := dagFrom_stored hk1 hu1 hst
  -- the rest
  obtain ⟨ta, m, tb, q1, q2, -⟩ := tr2.append
  obtain ⟨tt, m', m'', z1, z2, z3⟩ : ∃ t m m', DagTrace E Os Ps 0 none cs1 t (some m) ∧ some m = some m' ∧ m'.tidy = x1.tidy := by
    have huniq : ∀ {Os Ps Os' Ps' : Nat → Order} {n n' : Nat} {cs : List Command} {b : Option OCABox} {t t' : List BuildStep} {r r' : Option OCABox},
        DagTrace E Os Ps n b cs t r → DagTrace E Os' Ps' n' b cs t' r' → r = r' := by
      intro Os Ps Os' Ps' n n' cs b t t' r r' h
      induction h generalizing n' t' r' with
      | nil n b => intro h'; cases h'; rfl
      | cons a1 _ _ _ ih => intro h'; cases h' with
        | cons b1 _ _ b4 => cases a1.unique b1; exact ih b4
    cases huniq q1 tr1
    exact ⟨ta, x1, x1, q1, rfl, rfl⟩
  cases z2
  obtain ⟨-, rfl⟩ := q1.unique z1
  obtain ⟨t3, w1, w2, v1, v2, v3⟩ := trace_tidy (Os' := Os2) (Ps' := Ps2) cs2 (0 + cs1.length) 1 m' y tb (some x2) k2 (z3.trans k3.symm) q2
  cases v2
  have hy : OptReach E (some y) := fun z hz => by cases hz; exact k2
  have hrw2 := (v1.last hy).1 w2 rfl
  have huy : y.Uniform (frameMetaIn (cs1 ++ cs2)) := hu1.of_tidy k3.symm
  have huw2 := v1.uniform (fun z hz => by cases hz; exact huy) (fun c h => hM c (List.mem_append_right _ h)) w2 rfl
  obtain ⟨f1, f2⟩ := bundle_equal (Os (cs1 ++ cs2).length) (Os2 (cs2.length + 1)) r2 hrw2 hu2.consistent huw2.consistent v3 hn
  refine ⟨t3.foldl (dagWrite E S) ((t' ++ [st]).foldl (dagWrite E S) db0), _, ?_, f1, f2⟩
  · unfold dagBuild dagBuildLoop dagBuildStep
    rw [if_pos rfl, k1]
    simp only [Res.bind_ok, Res.pure_eq]
    rw [dagLoop_of_trace hE v1 _ hy fun c h => ⟨hc c (List.mem_append_right _ h), hf2 c (List.mem_append_right _ h)⟩]
    simp only [Res.bind_ok, Res.unwrap_some]
    rw [reachable_gen hrw2]
    rfl

/-- **C63** `FROM` reports an unknown identifier and refuses names; and what was built before a `FROM` is dropped: the result is that of the
commands from the `FROM` on, over the store the commands before it left. -/
theorem C63_from (E : Env) (S : Serde) (Os Ps : Nat → Order) (db : FMap Bytes) (cs : List Command) :
    (∀ s, db.get (c!"oca." ++ s) = none →
      dagBuild E S Os Ps db (⟨.«from», .ocaBundle (.said s)⟩ :: cs) = .err c!"OCA not found") ∧
    (∀ n, dagBuild E S Os Ps db (⟨.«from», .ocaBundle (.name n)⟩ :: cs) = .err c!"Not implemented") ∧
    (∀ (pre : List Command) (db' : FMap Bytes) (b : Bundle) (o : ObjKind), pre ≠ [] →
      dagBuild E S Os Ps db pre = .ok (db', b) →
      dagBuild E S Os Ps db (pre ++ ⟨.«from», o⟩ :: cs) =
        dagBuild E S (fun n => Os (pre.length + n)) (fun n => Ps (pre.length + n)) db' (⟨.«from», o⟩ :: cs)) := by
  have happ : ∀ (l l' : List Command) (n : Nat) (db : FMap Bytes) (b : Option OCABox), dagBuildLoop E S Os Ps n db b (l ++ l') =
      (dagBuildLoop E S Os Ps n db b l >>= fun r => dagBuildLoop E S Os Ps (n + l.length) r.1 r.2 l') := by
    intro l l'
    induction l with
    | nil => intro n db b; rfl
    | cons c l ih =>
      intro n db b
      show (dagBuildStep E S (Os n) (Ps n) db b c >>= fun r => dagBuildLoop E S Os Ps (n + 1) r.1 r.2 (l ++ l')) =
        ((dagBuildStep E S (Os n) (Ps n) db b c >>= fun r => dagBuildLoop E S Os Ps (n + 1) r.1 r.2 l) >>= _)
      cases dagBuildStep E S (Os n) (Ps n) db b c with
      | ok r =>
        simp only [Res.bind_ok]
        rw [ih]
        rw [show n + (c :: l).length = n + 1 + l.length by simp only [List.length_cons]; omega]
      | err e => rfl
      | panic => rfl
  have hshift : ∀ (m : Nat) (l : List Command) (n : Nat) (db : FMap Bytes) (b : Option OCABox), dagBuildLoop E S Os Ps (m + n) db b l =
      dagBuildLoop E S (fun n => Os (m + n)) (fun n => Ps (m + n)) n db b l := by
    intro m l
    induction l with
    | nil => intro n db b; rfl
    | cons c l ih =>
      intro n db b
      unfold dagBuildLoop
      rw [show m + n + 1 = m + (n + 1) by omega]
      simp only [ih]
  refine ⟨?_, ?_, ?_⟩
  · intro s hs
    unfold dagBuild dagBuildLoop dagBuildStep dagFrom
    rw [if_pos rfl]
    dsimp only
    rw [hs]
    rfl
  · intro n; rfl
  · intro pre db' b o hp h
    unfold dagBuild at h ⊢
    obtain ⟨⟨db1, st⟩, h1, h2⟩ := Res.bind_eq_ok.1 (show Res.bind _ _ = _ from h)
    rw [happ, h1]
    have hdb : db1 = db' := by
      cases st with
      | none => cases h2
      | some x =>
        obtain ⟨y, -, h3⟩ := Res.bind_eq_ok.1 (show Res.bind _ _ = _ from h2)
        obtain ⟨g, -, h4⟩ := Res.bind_eq_ok.1 (show Res.bind _ _ = _ from h3)
        exact (Prod.mk.inj (Res.ok.inj h4)).1
    subst hdb
    have hl : pre.length + (⟨.«from», o⟩ :: cs : List Command).length = (pre ++ ⟨.«from», o⟩ :: cs).length := by rw [List.length_append]
    rw [Res.bind_ok, Nat.zero_add, ← hl]
    rw [show pre.length = pre.length + 0 from rfl, hshift]
    rfl

/-- **C63** A command that changes nothing cuts the history: afterwards the record of the bundle names the bundle itself as the one before,
so the record of how it was made is gone. -/
theorem C63_self_parent (E : Env) (hE : E.ShortSaids) (hd : E.NoDots) (S : Serde) (Os Ps : Nat → Order) (db db' : FMap Bytes)
    (cs : List Command) (c : Command) (b : Bundle) (s : Said) (hc : ∀ c' ∈ cs ++ [c], c'.kind ≠ .«from») (hf : SameFrameMeta (cs ++ [c]))
    (h : dagBuild E S Os Ps db (cs ++ [c]) = .ok (db', b)) (hs : b.said = some s) (hn : ¬ b.TwoAlike)
    (hsame : ∀ t x, DagTrace E Os Ps 0 none cs t (some x) → applyCommand E (some x) c = .ok x) (hne : cs ≠ []) :
    db'.get (c!"oca." ++ s ++ c!".operation") = some (pascal s ++ pascal (S.print c.toJson)) := by
  have h0 : OptReach E none := fun _ h => by cases h
  obtain ⟨-, t, x, h1, h2, rfl, rfl⟩ := dagBuild_parts hE hc h
  have hu := h1.uniform (fun _ h => by cases h) hf.framesAs x rfl
  obtain ⟨t1, m, t2, k1, k2, rfl⟩ := h1.append
  obtain ⟨y, rfl⟩ := (k1.last h0).2.1 hne
  cases k2 with
  | @cons _ _ _ z p g _ t _ q1 q2 q3 q4 =>
    cases q4
    cases (DagNext.accepted (hsame _ _ k1)).unique q1
    have hany := said_any_order h2 hu (Os (cs ++ [c]).length)
    have hg := (generateBundle_eq_ok q3).2
    have hgs : BuildStep.said ⟨p, c, g⟩ = s := by
      unfold BuildStep.said
      dsimp only
      rw [hg, (hany _ hn).1, hs]
      rfl
    have hp : p = some s := by
      cases q2 with
      | some q2 => rw [(generateBundle_eq_ok q2).2, (hany _ hn).1, hs]
    have := ((dagWrites_get (S := S) hd (t1 ++ [⟨p, c, g⟩]) db (h1.mem h0)).1 ⟨p, c, g⟩ ⟨t1, [], rfl, rfl, fun _ h => by cases h⟩).1
    rw [hgs] at this
    rw [this]
    unfold BuildStep.dagRecord
    rw [hp]
    rfl

end OCA
