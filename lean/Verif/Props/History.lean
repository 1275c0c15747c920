import Verif.Lemmas.Frame
import Verif.Lemmas.Depth
import Verif.Props.StoredBuild
import Verif.Props.Builds
/-!
# C30, C31: the history of a bundle
-/
namespace OCA

/-! ## Specification -/

/-- What the history shows of a step: the parent, the command, and the identifier and JSON of the result. -/
def BuildStep.shown (E : Env) (st : BuildStep) : Option Said × Json × Option Said × Json :=
  (st.parentSaid, st.command.toJson, st.result.said, st.result.toJson E)

/-- A step that can be read back: its command survives JSON (C06), its result survives JSON (C29), and neither is nested
deeper than the reader of JSON allows. -/
structure BuildStep.Readable (E : Env) (st : BuildStep) : Prop where
  command : st.command.faithful E
  commandDepth : st.command.toJson.depth < 128
  result : st.result.Storable E
  types : ∀ n t, st.result.captureBase.attributes.get n = some t → t.arrays ≤ 124

/-- Looking up the history of `s` gives `l`, and does so in `l.length` rounds. -/
def Facade.HasHistory (E : Env) (S : Serde) (f : Facade) (s : Said) (l : List BuildStep) : Prop :=
  ∀ fuel, l.length ≤ fuel → f.steps E S fuel s = some (.ok l)

/-! ## One step -/

/-- the two records of a step -/
structure Facade.Holds (E : Env) (S : Serde) (f : Facade) (st : BuildStep) (s : Said) : Prop where
  said : st.result.said = some s
  op : ∃ r, (operationBytes S st.parentSaid st.command.toJson : Res (List Str) Bytes) = .ok r ∧
    f.db.get .oca (opKey s) = .ok (some r)
  bundle : f.cache.get .bundlesJson s = .ok (some (utf8 (S.print (st.result.toJson E))))

theorem extractOperation_eq (E : Env) (S : Serde) (f : Facade) (st : BuildStep) (s : Said) (h : f.Holds E S st s)
    (hr : st.Readable E) : extractOperation E S f.db s = .ok (st.parentSaid.getD [], st.command) := by
  obtain ⟨r, hb, hg⟩ := h.op
  have hlen : ∀ x, st.parentSaid = some x → (utf8 x).length ≤ 255 := by
    intro x hx
    rw [hx] at hb
    by_cases hl : (utf8 x).length ≤ 255
    · exact hl
    · rw [C32_long_parent_aborts S x _ (by omega)] at hb
      cases hb
  obtain ⟨r', hr', hp⟩ := C32_operation_round_trip (ε := List Str) S st.parentSaid st.command.toJson hlen
  rw [hb] at hr'
  cases hr'
  obtain ⟨j, hj, hc⟩ := C32_command_read_back E S st.command hr.command hr.commandDepth
  unfold extractOperation
  rw [hg]
  show (operationParse r >>= _ : Res (List Str) _) = _
  rw [hp]
  dsimp only [Res.bind_ok]
  rw [hj]
  dsimp only
  rw [hc]

/-- What is read back for a stored bundle. -/
theorem fetchBundle_eq (E : Env) (S : Serde) (cache : Store) (b : Bundle) (s : Said)
    (h : cache.get .bundlesJson s = .ok (some (utf8 (S.print (b.toJson E))))) (hb : b.Storable E)
    (ht : ∀ n t, b.captureBase.attributes.get n = some t → t.arrays ≤ 124) :
    ∃ b', fetchBundle E S cache s = .ok b' ∧ b'.said = b.said ∧ b'.toJson E = b.toJson E ∧
      b' = ⟨b.said, { b.captureBase with flagged := sortStr b.captureBase.flagged }, (written b.overlays).map Overlay.norm⟩ := by
  obtain ⟨b', h1, h2, h3, h4, -, h6⟩ := C29_json_round_trip E b hb
  have hw := b.within E 124 ht
  refine ⟨b', ?_, h3, h2, ?_⟩
  · unfold fetchBundle
    rw [h]
    show (Res.unwrap (fromUtf8 (utf8 _)) >>= _ : Res (List Str) _) = _
    rw [fromUtf8_utf8]
    show (match S.parse (S.print (b.toJson E)) with | none => _ | some j => _) = _
    rw [S.parse_print _ (Nat.lt_of_le_of_lt hw.2 (by decide)) hw.1]
    dsimp only
    rw [h1]
  · obtain ⟨s', c', o'⟩ := b'
    cases h3
    cases h4
    cases h6
    rfl

/-- One round of the lookup. -/
theorem stepsLoop_round (E : Env) (S : Serde) (f : Facade) (st : BuildStep) (s : Said) (h : f.Holds E S st s)
    (hr : st.Readable E) (hne : st.parentSaid.getD [] ≠ s) (hp : ∀ p, st.parentSaid = some p → E.validSaid p = true)
    (hv : E.validSaid [] = false) :
    ∃ st', st'.shown E = st.shown E ∧ st'.command = st.command ∧ ∀ fuel acc, stepsLoop E S f (fuel + 1) s acc =
      if st.parentSaid = none then some (.ok (st' :: acc)) else stepsLoop E S f fuel (st.parentSaid.getD []) (st' :: acc) := by
  obtain ⟨b', hb1, hb2, hb3, -⟩ := fetchBundle_eq E S f.cache st.result s h.bundle hr.result hr.types
  refine ⟨⟨st.parentSaid, st.command, b'⟩, ?_, rfl, ?_⟩
  · unfold BuildStep.shown
    rw [hb2, hb3]
  · intro fuel acc
    have hs : E.validSaid s = true := hr.result.said s h.said
    rw [stepsLoop, extractOperation_eq E S f st s h hr]
    dsimp only
    rw [if_neg hne, if_neg (by simp [hs]), hb1]
    dsimp only
    cases hpar : st.parentSaid with
    | none => simp [hv]
    | some p =>
      have hpv := hp p hpar
      have hpn : p ≠ [] := fun e => by rw [e, hv] at hpv; cases hpv
      simp [hpv, hpn]

/-- What was read before stays behind what is read. -/
theorem stepsLoop_append (E : Env) (S : Serde) (f : Facade) (fuel : Nat) (s : Str) (acc acc' : List BuildStep) :
    stepsLoop E S f fuel s (acc ++ acc') = (stepsLoop E S f fuel s acc).map fun r => match r with
      | .ok l => .ok (l ++ acc')
      | r => r := by
  induction fuel generalizing s acc with
  | zero => rfl
  | succ n ih =>
    rw [stepsLoop, stepsLoop]
    cases extractOperation E S f.db s with
    | err e => rfl
    | panic => rfl
    | ok r =>
      obtain ⟨p, c⟩ := r
      dsimp only
      split
      · rfl
      · split
        · rfl
        · cases fetchBundle E S f.cache s with
          | err e => rfl
          | panic => rfl
          | ok b =>
            dsimp only
            split
            · rfl
            · exact ih p (_ :: acc)

theorem stepsLoop_acc {E : Env} {S : Serde} {f : Facade} {fuel : Nat} {s : Str} {l : List BuildStep} {st : BuildStep}
    (h : stepsLoop E S f fuel s [] = some (.ok l)) : stepsLoop E S f fuel s [st] = some (.ok (l ++ [st])) := by
  have := stepsLoop_append E S f fuel s [] [st]
  rw [h] at this
  exact this

/-! ## Chains -/

/-- steps, each the parent of the next, the first with parent `p` -/
inductive Linked : Option Said → List BuildStep → Prop
  | nil (p : Option Said) : Linked p []
  | cons (st : BuildStep) (l : List BuildStep) : Linked st.result.said l → Linked st.parentSaid (st :: l)

theorem linked_of (p : Option Said) (l : List BuildStep) (h0 : ∀ s, l.head? = some s → s.parentSaid = p)
    (h : ∀ j s s', l[j]? = some s → l[j + 1]? = some s' → s'.parentSaid = s.result.said) : Linked p l := by
  induction l generalizing p with
  | nil => exact .nil p
  | cons st t ih =>
    have hp := h0 st rfl
    subst hp
    refine .cons st t (ih _ ?_ ?_)
    · intro s hs
      refine h 0 st s rfl ?_
      show t[0]? = some s
      rw [← List.head?_eq_getElem?]
      exact hs
    · intro j s s' h1 h2
      exact h (j + 1) s s' h1 h2

/-- The history of the last step of a chain is the history it starts from, followed by the chain. -/
theorem chain_history (E : Env) (S : Serde) (f : Facade) (hv : E.validSaid [] = false) (l : List BuildStep)
    (hh : ∀ st ∈ l, ∃ s, f.Holds E S st s) (hr : ∀ st ∈ l, st.Readable E) (hd : (l.map (·.result.said)).Nodup)
    (base : Option Said) (pre : List BuildStep)
    (hb : (base = none ∧ pre = []) ∨ ∃ p, base = some p ∧ E.validSaid p = true ∧ some p ∉ l.map (·.result.said) ∧
      f.HasHistory E S p pre)
    (hl : Linked base l) (s : Said) (hs : (l.getLast?.map (·.result.said)) = some (some s)) :
    ∃ l', l'.map (BuildStep.shown E) = l.map (BuildStep.shown E) ∧ l'.map (·.command) = l.map (·.command) ∧
      f.HasHistory E S s (pre ++ l') := by
  induction l generalizing base pre with
  | nil => cases hs
  | cons st t ih =>
    cases hl with
    | cons _ _ hl =>
    obtain ⟨x, hx⟩ := hh st (.head _)
    have hxv : E.validSaid x = true := (hr st (.head _)).result.said x hx.said
    have hxn : x ≠ [] := fun e => by rw [e, hv] at hxv; cases hxv
    rw [List.map_cons, List.nodup_cons] at hd
    have hne : st.parentSaid.getD [] ≠ x := by
      rcases hb with ⟨e, -⟩ | ⟨p, e, hp, hn, -⟩
      · rw [e]; exact fun e => hxn e.symm
      · rw [e]
        intro e
        have e : p = x := e
        subst e
        exact hn (by rw [List.map_cons, hx.said]; exact .head _)
    have hpv : ∀ p, st.parentSaid = some p → E.validSaid p = true := by
      intro p hp
      rcases hb with ⟨e, -⟩ | ⟨p', e, hp', -⟩
      · rw [e] at hp; cases hp
      · rw [e] at hp; cases hp; exact hp'
    obtain ⟨st', e1, e2, hround⟩ := stepsLoop_round E S f st x hx (hr st (.head _)) hne hpv hv
    -- the history of this step
    have hstep : f.HasHistory E S x (pre ++ [st']) := by
      intro fuel hf
      rw [List.length_append] at hf
      have hf : pre.length + 1 ≤ fuel := hf
      obtain ⟨k, rfl⟩ : ∃ k, fuel = k + 1 := ⟨fuel - 1, by omega⟩
      unfold Facade.steps
      rw [hround]
      rcases hb with ⟨e, ep⟩ | ⟨p, e, -, -, hh⟩
      · rw [if_pos e, ep]; rfl
      · rw [if_neg (by rw [e]; exact fun h => by cases h), e]
        have := hh k (by omega)
        unfold Facade.steps at this
        exact stepsLoop_acc this
    cases ht : t with
    | nil =>
      subst ht
      have hxs : x = s := by
        have : st.result.said = some s := Option.some.inj hs
        rw [hx.said] at this
        exact Option.some.inj this
      subst hxs
      exact ⟨[st'], by simp [e1], by simp [e2], hstep⟩
    | cons st2 t2 =>
      have ht0 : t ≠ [] := by rw [ht]; exact fun h => by cases h
      obtain ⟨l', h1, h2, h3⟩ := ih (fun st h => hh st (.tail _ h)) (fun st h => hr st (.tail _ h)) hd.2 (some x) (pre ++ [st'])
        (.inr ⟨x, rfl, hxv, by rw [← hx.said]; exact hd.1, hstep⟩) (by rw [← hx.said]; exact hl)
        (by
          rw [← hs, ht]
          rfl)
      rw [← ht]
      refine ⟨st' :: l', by simp [e1, h1], by simp [e2, h2], ?_⟩
      rw [List.append_assoc] at h3
      exact h3

/-! ## What a build records -/

theorem opKey_inj {s t : Said} (h : opKey s = opKey t) : s = t := by
  unfold opKey at h
  exact List.append_cancel_left (List.append_cancel_right h)

/-- the records are the same for any type of errors -/
theorem operationBytes_ok {ε ε' : Type} {S : Serde} {p : Option Said} {j : Json} {r : Bytes}
    (h : (operationBytes S p j : Res ε Bytes) = .ok r) : (operationBytes S p j : Res ε' Bytes) = .ok r := by
  by_cases hl : ∀ s, p = some s → (utf8 s).length ≤ 255
  · cases p with
    | none => cases h; rfl
    | some s =>
      have hlt : (utf8 s).length < 256 := Nat.lt_succ_of_le (hl s rfl)
      simp only [operationBytes, parentBytes, lenPrefixed, lenByte, hlt, if_true, Res.bind_ok] at h ⊢
      cases h
      rfl
  · have : ∃ s, p = some s ∧ 255 < (utf8 s).length := by
      apply Classical.byContradiction
      intro hn
      apply hl
      intro s hs
      apply Classical.byContradiction
      intro h
      exact hn ⟨s, hs, by omega⟩
    obtain ⟨s, rfl, hs⟩ := this
    rw [C32_long_parent_aborts S s j hs] at h
    cases h

/-- the records of `s` are untouched -/
def Facade.SameRecords (f f' : Facade) (s : Said) : Prop :=
  f'.db.get .oca (opKey s) = f.db.get .oca (opKey s) ∧ f'.cache.get .bundlesJson s = f.cache.get .bundlesJson s

theorem steps_records {ε : Type} {E : Env} {S : Serde} {l : List BuildStep} {f f' : Facade}
    (h : foldRes (Facade.buildStep E S) f l = (.ok f' : Res ε Facade)) :
    (∀ s, some s ∉ l.map (·.result.said) → f.SameRecords f' s) ∧
    ((l.map (·.result.said)).Nodup → ∀ st ∈ l, ∃ s, f'.Holds E S st s) := by
  induction l generalizing f with
  | nil => cases h; exact ⟨fun s _ => ⟨rfl, rfl⟩, fun _ st hst => by cases hst⟩
  | cons st t ih =>
    simp only [foldRes] at h
    cases ha : (f.buildStep E S st : Res ε Facade) with
    | err e => rw [ha] at h; cases h
    | panic => rw [ha] at h; cases h
    | ok g =>
      rw [ha] at h
      obtain ⟨i1, i2⟩ := ih h
      obtain ⟨-, -, -, x, r, hx, hr, hdb, hc, -⟩ := buildStep_effect ha
      refine ⟨?_, ?_⟩
      · intro s hs
        rw [List.map_cons, List.mem_cons, not_or] at hs
        obtain ⟨h1, h2⟩ := i1 s hs.2
        have hsx : s ≠ x := fun e => hs.1 (by rw [hx, e])
        refine ⟨?_, ?_⟩
        · rw [h1, hdb, if_neg (fun e => hsx (opKey_inj e.2))]
        · rw [h2, hc, if_neg hsx]
      · intro hn
        rw [List.map_cons, List.nodup_cons] at hn
        intro st' hst'
        rcases List.mem_cons.1 hst' with rfl | hst'
        · obtain ⟨h1, h2⟩ := i1 x (by rw [← hx]; exact hn.1)
          refine ⟨x, hx, ⟨r, operationBytes_ok hr, ?_⟩, ?_⟩
          · rw [h1, hdb, if_pos ⟨rfl, rfl⟩]
          · rw [h2, hc, if_pos rfl]
        · exact i2 hn.2 st' hst'

/-- After a build the steps are on record; records of other identifiers are untouched. -/
theorem build_records {ε : Type} {E : Env} {S : Serde} {O : SetOrder} {f f' : Facade} {b : Build}
    (h : (f.build E S O b : Res ε Facade) = .ok f') :
    (∀ s, some s ∉ b.steps.map (·.result.said) → f.SameRecords f' s) ∧
    ((b.steps.map (·.result.said)).Nodup → ∀ st ∈ b.steps, ∃ s, f'.Holds E S st s) := by
  obtain ⟨s, c, g, db, _, _, hg, hr, hm⟩ := build_parts h
  have h2 : ∀ k, db.get .oca k = g.db.get .oca k := by
    intro k
    rcases hr with hr | ⟨_, e⟩
    · exact addRelations_frame hr _ (by decide) k
    · rw [e]
  obtain ⟨m1, -, -, -, m5⟩ := buildModels_frame hm
  have e1 : ∀ k, f'.db.get .oca k = g.db.get .oca k := fun k => by rw [m5 _ (by decide)]; exact h2 k
  have e2 : f'.cache = g.cache := m1
  obtain ⟨r1, r2⟩ := steps_records hg
  refine ⟨?_, ?_⟩
  · intro s hs
    obtain ⟨a, b⟩ := r1 s hs
    exact ⟨(e1 _).trans a, by rw [e2]; exact b⟩
  · intro hn st hst
    obtain ⟨s, h1, ⟨r, hr, hg⟩, h3⟩ := r2 hn st hst
    exact ⟨s, h1, ⟨r, hr, (e1 _).trans hg⟩, by rw [e2]; exact h3⟩

/-! ## C30 -/

/-- **C30**, for any build that `from_ast` returned: recorded by the facade, with steps whose identifiers are pairwise
different, the history of the last step's identifier is the list of commands with the parents and results the build had
(behind the history of the base if there was one). -/
theorem C30_history_of_build {ε : Type} (E : Env) (S : Serde) (hv : E.validSaid [] = false) (Os : Nat → Order) (O : SetOrder)
    (base : Option Bundle) (ast : OCAAst) (b : Build) (hb : fromAst E Os base ast = .ok b) (f f' : Facade)
    (h : (f.build E S O b : Res ε Facade) = .ok f') (hr : ∀ st ∈ b.steps, st.Readable E)
    (hd : (b.steps.map (·.result.said)).Nodup) (pre : List BuildStep)
    (hbase : (base.bind Bundle.said = none ∧ pre = []) ∨ ∃ p, base.bind Bundle.said = some p ∧ E.validSaid p = true ∧
      some p ∉ b.steps.map (·.result.said) ∧ f'.HasHistory E S p pre)
    (last : BuildStep) (hlast : b.steps.getLast? = some last) (s : Said) (hs : last.result.said = some s) :
    ∃ l, f'.HasHistory E S s (pre ++ l) ∧ l.map (·.command) = ast.commands ∧
      l.map (BuildStep.shown E) = b.steps.map (BuildStep.shown E) := by
  obtain ⟨_, _, -, -, -, -, hc, h0, h1, -, -⟩ := C12_successful_build E Os base ast b hb
  obtain ⟨l, e1, e2, hl⟩ := chain_history E S f' hv b.steps ((build_records h).2 hd) hr hd (base.bind Bundle.said) pre hbase
    (linked_of _ _ h0 h1) s (by rw [hlast]; exact congrArg some hs)
  exact ⟨l, hl, by rw [e2, hc], e1⟩

/-! ## C31 -/

/-- The lookup reads the records of `s` and of the parents it reports. -/
theorem stepsLoop_same (E : Env) (S : Serde) (f f' : Facade) (fuel : Nat) (s : Str) (acc l : List BuildStep)
    (h : stepsLoop E S f fuel s acc = some (.ok l)) (hs : f.SameRecords f' s)
    (hp : ∀ st ∈ l, ∀ p, st.parentSaid = some p → f.SameRecords f' p) :
    stepsLoop E S f' fuel s acc = some (.ok l) := by
  have hmem : ∀ fuel s acc l, stepsLoop E S f fuel s acc = some (.ok l) → ∀ st ∈ acc, st ∈ l := by
    intro fuel
    induction fuel with
    | zero => intro s acc l h; cases h
    | succ n ih =>
      intro s acc l h
      rw [stepsLoop] at h
      split at h
      · cases h
      · cases h
      · split at h
        · cases h
        · split at h
          · cases h
          · split at h
            · dsimp only at h
              split at h
              · cases h
                exact fun st hst => .tail _ hst
              · exact fun st hst => ih _ _ _ h st (.tail _ hst)
            · cases h
  induction fuel generalizing s acc with
  | zero => cases h
  | succ n ih =>
    have e1 : extractOperation E S f'.db s = extractOperation E S f.db s := by
      unfold extractOperation
      rw [hs.1]
    have e2 : fetchBundle E S f'.cache s = fetchBundle E S f.cache s := by
      unfold fetchBundle
      rw [hs.2]
    rw [stepsLoop] at h ⊢
    rw [e1]
    rw [e2]
    split at h
    · cases h
    · cases h
    · next p c he =>
      dsimp only
      split at h
      · cases h
      · next hne =>
        rw [if_neg hne]
        split at h
        · cases h
        · next hvs =>
          rw [if_neg hvs]
          split at h
          · next b hb =>
            dsimp only at h ⊢
            split at h
            · next hp0 =>
              rw [if_pos hp0]
              exact h
            · next hp0 =>
              rw [if_neg hp0]
              refine ih _ _ h ?_
              -- the parent is reported, because the next round would abort on an invalid one
              have hpv : E.validSaid p = true := by
                cases n with
                | zero => cases h
                | succ m =>
                  rw [stepsLoop] at h
                  split at h
                  · cases h
                  · cases h
                  · split at h
                    · cases h
                    · split at h
                      · cases h
                      · next hx =>
                        cases hq : E.validSaid p with
                        | true => rfl
                        | false => exact absurd (by simp [hq]) hx
              refine hp _ (hmem _ _ _ _ h _ (.head _)) p ?_
              show (if E.validSaid p then some p else none) = some p
              rw [if_pos hpv]
          · cases h

/-- **C31** A later build that has no step with the identifier `s` or with that of a parent in the history of `s` leaves
the history of `s` as it was. -/
theorem C31_history_kept {ε : Type} (E : Env) (S : Serde) (O : SetOrder) (f f' : Facade) (b : Build)
    (h : (f.build E S O b : Res ε Facade) = .ok f') (fuel : Nat) (s : Said) (l : List BuildStep)
    (hl : f.steps E S fuel s = some (.ok l)) (hs : some s ∉ b.steps.map (·.result.said))
    (hp : ∀ st ∈ l, ∀ p, st.parentSaid = some p → some p ∉ b.steps.map (·.result.said)) :
    f'.steps E S fuel s = some (.ok l) :=
  stepsLoop_same E S f f' fuel s [] l hl ((build_records h).1 s hs) fun st hst p hpp => (build_records h).1 p (hp st hst p hpp)

/-- builds, one after the other -/
def Facade.buildAll (E : Env) (S : Serde) (f : Facade) (bs : List (SetOrder × Build)) : Res (List VErr) Facade :=
  foldRes (fun f p => f.build E S p.1 p.2) f bs

/-- **C31** Any number of later builds. -/
theorem C31_history_kept_forever (E : Env) (S : Serde) (f f' : Facade) (bs : List (SetOrder × Build))
    (h : f.buildAll E S bs = .ok f') (fuel : Nat) (s : Said) (l : List BuildStep)
    (hl : f.steps E S fuel s = some (.ok l)) (hs : ∀ p ∈ bs, some s ∉ p.2.steps.map (·.result.said))
    (hp : ∀ p ∈ bs, ∀ st ∈ l, ∀ x, st.parentSaid = some x → some x ∉ p.2.steps.map (·.result.said)) :
    f'.steps E S fuel s = some (.ok l) := by
  induction bs generalizing f with
  | nil => cases h; exact hl
  | cons p t ih =>
    simp only [Facade.buildAll, foldRes] at h
    cases hb : (f.build E S p.1 p.2 : Res (List VErr) Facade) with
    | err e => rw [hb] at h; cases h
    | panic => rw [hb] at h; cases h
    | ok g =>
      rw [hb] at h
      exact ih g h (C31_history_kept E S p.1 f g p.2 hb fuel s l hl (hs p (.head _)) (hp p (.head _)))
        (fun q hq => hs q (.tail _ hq)) (fun q hq => hp q (.tail _ hq))

/-- **C31** A build on a base: the history of the result is the history of the base, followed by the commands of the file;
the history of the base is what it was. -/
theorem C31_from_history {ε : Type} (E : Env) (S : Serde) (hv : E.validSaid [] = false) (Os : Nat → Order) (O : SetOrder)
    (f f' : Facade) (p : Said) (base : Bundle) (hp : E.validSaid p = true) (hbs : base.said = some p)
    (pre : List BuildStep) (hpre : f.HasHistory E S p pre) (ast : OCAAst) (b : Build)
    (hb : fromAst E Os (some base) ast = .ok b) (h : (f.build E S O b : Res ε Facade) = .ok f')
    (hr : ∀ st ∈ b.steps, st.Readable E) (hd : (b.steps.map (·.result.said)).Nodup)
    (hn : some p ∉ b.steps.map (·.result.said))
    (hn' : ∀ st ∈ pre, ∀ x, st.parentSaid = some x → some x ∉ b.steps.map (·.result.said))
    (last : BuildStep) (hlast : b.steps.getLast? = some last) (s : Said) (hs : last.result.said = some s) :
    f'.HasHistory E S p pre ∧
    ∃ l, f'.HasHistory E S s (pre ++ l) ∧ l.map (·.command) = ast.commands ∧
      l.map (BuildStep.shown E) = b.steps.map (BuildStep.shown E) := by
  have hkeep : f'.HasHistory E S p pre := fun fuel hf =>
    C31_history_kept E S O f f' b h fuel p pre (hpre fuel hf) hn hn'
  exact ⟨hkeep, C30_history_of_build E S hv Os O (some base) ast b hb f f' h hr hd pre
    (.inr ⟨p, hbs, hp, hn, hkeep⟩) last hlast s hs⟩

end OCA
