import Verif.Model.Dag
import Verif.Props.Rebuild
/-!
# C42: the core model
-/
namespace OCA

/-! ## Specification -/

/-- The command adds or removes an overlay of this kind, version and language. -/
def Command.OfOverlay (E : Env) (c : Command) (k : OvKind) (v : Str) (l : Option Lang) : Prop :=
  ∃ cc, c.obj = .overlay ⟨k, v⟩ cc ∧ cc.lang E = l

/-- The command is about the capture base. -/
def Command.OfBase (c : Command) : Prop := ∃ cc, c.obj = .captureBase cc

/-- The overlay is of this kind, version and language. -/
def Overlay.IsOf (o : Overlay) (k : OvKind) (v : Str) (l : Option Lang) : Prop :=
  o.body.kind = k ∧ o.ver = v ∧ o.body.language = l

/-- `x` is the last of the elements of the list with property `p`. -/
def LastWith {α : Type} (p : α → Prop) (l : List α) (x : α) : Prop :=
  ∃ a b, l = a ++ x :: b ∧ p x ∧ ∀ y ∈ b, ¬ p y

/-- What the record of step `i` must say, given the steps and the records. -/
structure RecordOf (E : Env) (hist : List (BuildStep × ResultModel)) (st : BuildStep) (m : ResultModel) : Prop where
  /-- the command -/
  json : m.command.json = st.command.toJson
  digest : m.command.digest = E.digest st.command.toJson
  /-- the bundle, with its capture base, its overlays, and the bundle of the step before -/
  bundle : st.result.said = some m.bundle.said
  base : st.result.captureBase.said = some m.bundle.captureBase
  overlays : st.result.overlays.map (·.said) = m.bundle.overlays.map some
  parent : m.bundle.parent = hist.getLast?.map (·.2.bundle.said)
  /-- the capture base: recorded by commands about it -/
  hasBase : m.captureBase ≠ none ↔ st.command.OfBase
  baseSaid : ∀ c, m.captureBase = some c → st.result.captureBase.said = some c.said ∧ c.commandDigest = m.command.digest
  /-- and pointing to the capture base recorded last -/
  baseParent : ∀ c p, m.captureBase = some c → (c.parent = some p ↔
    ∃ x, LastWith (fun x => x.2.captureBase ≠ none) hist x ∧ x.2.captureBase.map (·.said) = some p)
  /-- the overlay: recorded by commands about overlays, if the result has such an overlay -/
  hasOverlay : m.overlay ≠ none ↔ ∃ k v l, st.command.OfOverlay E k v l ∧ ∃ o ∈ st.result.overlays, o.IsOf k v l
  /-- the first overlay of the kind, version and language -/
  overlaySaid : ∀ r, m.overlay = some r → r.commandDigest = m.command.digest ∧ ∃ k v l a o b,
    st.command.OfOverlay E k v l ∧ st.result.overlays = a ++ o :: b ∧ o.IsOf k v l ∧ (∀ y ∈ a, ¬ y.IsOf k v l) ∧
      o.said = some r.said
  /-- and pointing to the overlay of that kind and language recorded last -/
  overlayParent : ∀ r k v l p, m.overlay = some r → st.command.OfOverlay E k v l → (r.parent = some p ↔
    ∃ x, LastWith (fun x => x.2.overlay ≠ none ∧ ∃ v', x.1.command.OfOverlay E k v' l) hist x ∧
      x.2.overlay.map (·.said) = some p)

/-! ## Proof -/

theorem LastWith.none {α : Type} {p : α → Prop} {x : α} : ¬ LastWith p [] x := by
  rintro ⟨a, b, h, -⟩
  cases a <;> cases h

theorem lastWith_snoc {α : Type} {p : α → Prop} {l : List α} {y x : α} :
    LastWith p (l ++ [y]) x ↔ (p y ∧ x = y) ∨ (¬ p y ∧ LastWith p l x) := by
  constructor
  · rintro ⟨a, b, h, hp, hn⟩
    rcases List.eq_nil_or_concat b with rfl | ⟨b', z, rfl⟩
    · obtain ⟨rfl, e⟩ := List.append_inj' h rfl
      cases e
      exact .inl ⟨hp, rfl⟩
    · rw [List.concat_eq_append, ← List.cons_append, ← List.append_assoc] at h
      obtain ⟨rfl, e⟩ := List.append_inj' h rfl
      cases e
      rw [List.concat_eq_append] at hn
      refine .inr ⟨hn y (List.mem_append_right _ (.head _)), a, b', rfl, hp, fun z hz => hn z (List.mem_append_left _ hz)⟩
  · rintro (⟨hp, rfl⟩ | ⟨hn, a, b, rfl, hp, hb⟩)
    · exact ⟨l, [], rfl, hp, fun _ h => (by cases h)⟩
    · refine ⟨a, b ++ [y], by rw [List.append_assoc]; rfl, hp, ?_⟩
      intro z hz
      rcases List.mem_append.1 hz with hz | hz
      · exact hb z hz
      · rw [List.mem_singleton.1 hz]; exact hn

/-- the key under which overlays are remembered -/
def keyText (E : Env) (k : OvKind) : Option Lang → Option Str
  | some l => (E.lang1Inv l).map fun c => k.display ++ c!"-" ++ c
  | none => some k.display

theorem display_plain (k : OvKind) : '-' ∉ k.display := by cases k <;> decide

theorem display_inj {k k' : OvKind} (h : k.display = k'.display) : k = k' := by
  cases k <;> cases k' <;> first | rfl | (exact absurd h (by decide))

theorem dash_split {a b c d : Str} (ha : '-' ∉ a) (hb : '-' ∉ b) (h : a ++ '-' :: c = b ++ '-' :: d) : a = b ∧ c = d := by
  induction a generalizing b with
  | nil =>
    cases b with
    | nil => cases h; exact ⟨rfl, rfl⟩
    | cons x t => injection h with e; subst e; exact absurd (.head _) hb
  | cons x t ih =>
    cases b with
    | nil => injection h with e; subst e; exact absurd (.head _) ha
    | cons y u =>
      injection h with e h
      subst e
      obtain ⟨rfl, rfl⟩ := ih (fun m => ha (.tail _ m)) (fun m => hb (.tail _ m)) h
      exact ⟨rfl, rfl⟩

theorem keyText_inj {E : Env} {k k' : OvKind} {l l' : Option Lang} {t : Str} (h : keyText E k l = some t)
    (h' : keyText E k' l' = some t) : k = k' ∧ l = l' := by
  have key : ∀ (c : Str), '-' ∈ k.display ++ c!"-" ++ c := fun c => by simp
  cases l with
  | none =>
    cases h
    cases l' with
    | none => exact ⟨display_inj (Option.some.inj h').symm, rfl⟩
    | some l' =>
      obtain ⟨c, hc, e⟩ := Option.map_eq_some_iff.1 h'
      refine absurd (?_ : '-' ∈ k.display) (display_plain k)
      rw [← e]; simp
  | some l =>
    obtain ⟨c, hc, rfl⟩ := Option.map_eq_some_iff.1 h
    cases l' with
    | none =>
      refine absurd (?_ : '-' ∈ k'.display) (display_plain k')
      rw [Option.some.inj h']; simp
    | some l' =>
      obtain ⟨c', hc', e⟩ := Option.map_eq_some_iff.1 h'
      rw [List.append_assoc, List.append_assoc] at e
      obtain ⟨e1, e2⟩ := dash_split (c := c') (d := c) (display_plain _) (display_plain _) e
      subst e2
      refine ⟨(display_inj e1).symm, ?_⟩
      have h1 := E.lang1Inv_inv _ _ hc
      have h2 := E.lang1Inv_inv _ _ hc'
      rw [h1] at h2
      exact h2

theorem overlayKey_eq {ε : Type} {E : Env} {o : Overlay} {t : Str} (h : (overlayKey E o : Res ε Str) = .ok t) :
    keyText E o.body.kind o.body.language = some t := by
  unfold overlayKey at h
  unfold keyText
  cases hl : o.body.language with
  | none => rw [hl] at h; cases h; rfl
  | some l =>
    rw [hl] at h
    dsimp only at h ⊢
    obtain ⟨c, hc, h⟩ := Res.bind_eq_ok.1 h
    cases h
    rw [Res.unwrap_eq hc]; rfl

theorem unwrapSaids_eq {ε : Type} {os : List Overlay} {l : List Said} (h : (unwrapSaids os : Res ε _) = .ok l) :
    os.map (·.said) = l.map some := by
  induction os generalizing l with
  | nil => cases h; rfl
  | cons o t ih =>
    unfold unwrapSaids at h
    obtain ⟨s, hs, h⟩ := Res.bind_eq_ok.1 h
    obtain ⟨r, hr, h⟩ := Res.bind_eq_ok.1 h
    cases h
    rw [List.map_cons, List.map_cons, ih hr, Res.unwrap_eq hs]

/-- the state remembers the records so far -/
structure DagState.Holds (E : Env) (s : DagState) (hist : List (BuildStep × ResultModel)) : Prop where
  bundle : s.bundle = hist.getLast?.map (·.2.bundle.said)
  base : ∀ p, s.captureBase = some p ↔
    ∃ x, LastWith (fun x => x.2.captureBase ≠ none) hist x ∧ x.2.captureBase.map (·.said) = some p
  overlay : ∀ k l t p, keyText E k l = some t → (s.overlays.get t = some p ↔
    ∃ x, LastWith (fun x => x.2.overlay ≠ none ∧ ∃ v, x.1.command.OfOverlay E k v l) hist x ∧
      x.2.overlay.map (·.said) = some p)

theorem dagStep_record {ε : Type} {E : Env} {s s' : DagState} {st : BuildStep} {m : ResultModel}
    {hist : List (BuildStep × ResultModel)} (hs : s.Holds E hist)
    (h : (dagStep E s st : Res ε _) = .ok (s', m)) : RecordOf E hist st m ∧ s'.Holds E (hist ++ [(st, m)]) := by
  unfold dagStep at h
  dsimp only at h
  obtain ⟨⟨r, ca, ov⟩, hr, h⟩ := Res.bind_eq_ok.1 (show Res.bind _ _ = _ from h)
  dsimp only at h
  obtain ⟨bs, hbs, h⟩ := Res.bind_eq_ok.1 h
  obtain ⟨cs, hcs, h⟩ := Res.bind_eq_ok.1 h
  obtain ⟨os, hos, h⟩ := Res.bind_eq_ok.1 h
  have hbs := Res.unwrap_eq hbs
  have hcs := Res.unwrap_eq hcs
  have hos := unwrapSaids_eq hos
  cases h
  unfold dagObject at hr
  cases ho : st.command.obj with
  | captureBase cc =>
    rw [ho] at hr
    dsimp only at hr
    rw [hcs] at hr
    cases hr
    refine ⟨⟨rfl, rfl, hbs, hcs, hos, hs.bundle, ⟨fun _ => ⟨cc, ho⟩, fun _ h => (by cases h)⟩, ?_, ?_,
      ⟨fun h => absurd rfl h, ?_⟩, fun r h => (by cases h), fun r k v l p h => (by cases h)⟩, ⟨?_, ?_, ?_⟩⟩
    · intro c hc
      cases hc
      exact ⟨hcs, rfl⟩
    · intro c p hc
      cases hc
      exact hs.base p
    · rintro ⟨k, v, l, ⟨c, hc, -⟩, -⟩
      rw [ho] at hc
      cases hc
    · simp
    · intro p
      constructor
      · intro h
        cases h
        exact ⟨_, lastWith_snoc.2 (.inl ⟨fun h => (by cases h), rfl⟩), rfl⟩
      · rintro ⟨x, hx, hp⟩
        rcases lastWith_snoc.1 hx with ⟨-, rfl⟩ | ⟨hn, -⟩
        · exact hp
        · exact absurd (fun h => by cases h) hn
    · intro k l t p ht
      rw [hs.overlay k l t p ht]
      refine exists_congr fun x => and_congr_left fun _ => ?_
      rw [lastWith_snoc]
      simp
  | ocaBundle rv =>
    rw [ho] at hr
    cases hr
    refine ⟨⟨rfl, rfl, hbs, hcs, hos, hs.bundle, ⟨fun h => absurd rfl h, ?_⟩, fun c h => (by cases h), fun c p h => (by cases h),
      ⟨fun h => absurd rfl h, ?_⟩, fun r h => (by cases h), fun r k v l p h => (by cases h)⟩, ⟨?_, ?_, ?_⟩⟩
    · rintro ⟨c, hc⟩
      rw [ho] at hc
      cases hc
    · rintro ⟨k, v, l, ⟨c, hc, -⟩, -⟩
      rw [ho] at hc
      cases hc
    · simp
    · intro p
      rw [hs.base]
      refine exists_congr fun x => and_congr_left fun _ => ?_
      rw [lastWith_snoc]
      simp
    · intro k l t p ht
      rw [hs.overlay k l t p ht]
      refine exists_congr fun x => and_congr_left fun _ => ?_
      rw [lastWith_snoc]
      simp
  | overlay ty cc =>
    obtain ⟨k0, v0⟩ := ty
    rw [ho] at hr
    dsimp only at hr
    have hOf : ∀ k v l, st.command.OfOverlay E k v l ↔ k = k0 ∧ v = v0 ∧ l = cc.lang E := by
      intro k v l
      constructor
      · rintro ⟨c, hc, hl⟩
        rw [ho] at hc
        cases hc
        exact ⟨rfl, rfl, hl.symm⟩
      · rintro ⟨rfl, rfl, rfl⟩
        exact ⟨cc, ho, rfl⟩
    have hbase : ∀ p, s.captureBase = some p ↔ ∃ x, LastWith (fun x : BuildStep × ResultModel => x.2.captureBase ≠ none)
        (hist ++ [(st, ⟨⟨E.digest st.command.toJson, st.command.toJson⟩, ⟨bs, s.bundle, cs, os⟩, none, ov⟩)]) x ∧
        x.2.captureBase.map (·.said) = some p := by
      intro p
      rw [hs.base]
      refine exists_congr fun x => and_congr_left fun _ => ?_
      rw [lastWith_snoc]
      simp
    split at hr
    · next o hfind =>
      obtain ⟨t, ht, hr⟩ := Res.bind_eq_ok.1 hr
      obtain ⟨os', hos', hr⟩ := Res.bind_eq_ok.1 hr
      have hos' := Res.unwrap_eq hos'
      have ht := overlayKey_eq ht
      cases hr
      obtain ⟨hoo, a, b, hab, hna⟩ := List.find?_eq_some_iff_append.1 hfind
      have hoo := of_decide_eq_true hoo
      have hna : ∀ y ∈ a, ¬ y.IsOf k0 v0 (cc.lang E) := by
        intro y hy hh
        have := hna y hy
        simp only [Bool.not_eq_true', decide_eq_false_iff_not] at this
        exact this hh
      rw [hoo.1, hoo.2.2] at ht
      refine ⟨⟨rfl, rfl, hbs, hcs, hos, hs.bundle, ⟨fun h => absurd rfl h, ?_⟩, fun c h => (by cases h), fun c p h => (by cases h),
        ⟨?_, fun _ h => (by cases h)⟩, ?_, ?_⟩, ⟨?_, hbase, ?_⟩⟩
      · rintro ⟨c, hc⟩
        rw [ho] at hc
        cases hc
      · intro _
        exact ⟨k0, v0, _, (hOf _ _ _).2 ⟨rfl, rfl, rfl⟩, o, by rw [hab]; exact List.mem_append_right _ (.head _), hoo⟩
      · intro r hr
        cases hr
        exact ⟨rfl, k0, v0, _, a, o, b, (hOf _ _ _).2 ⟨rfl, rfl, rfl⟩, hab, hoo, hna, hos'⟩
      · intro r k v l p hr hof
        cases hr
        obtain ⟨rfl, rfl, rfl⟩ := (hOf _ _ _).1 hof
        exact hs.overlay _ _ _ _ ht
      · simp
      · intro k l t' p ht'
        rw [FMap.get_insert]
        by_cases hkl : k = k0 ∧ l = cc.lang E
        · obtain ⟨rfl, rfl⟩ := hkl
          rw [ht] at ht'
          cases ht'
          rw [if_pos rfl]
          constructor
          · intro h
            cases h
            exact ⟨_, lastWith_snoc.2 (.inl ⟨⟨fun h => (by cases h), v0, (hOf _ _ _).2 ⟨rfl, rfl, rfl⟩⟩, rfl⟩), rfl⟩
          · rintro ⟨x, hx, hp⟩
            rcases lastWith_snoc.1 hx with ⟨-, rfl⟩ | ⟨hn, -⟩
            · exact hp
            · exact absurd ⟨fun h => (by cases h), v0, (hOf _ _ _).2 ⟨rfl, rfl, rfl⟩⟩ hn
        · rw [if_neg (fun e => hkl (by
            rw [e] at ht'
            exact keyText_inj ht' ht)), hs.overlay k l t' p ht']
          refine exists_congr fun x => and_congr_left fun _ => ?_
          rw [lastWith_snoc]
          have hno : ¬ ∃ v, st.command.OfOverlay E k v l := by
            rintro ⟨v, hv⟩
            obtain ⟨rfl, -, rfl⟩ := (hOf _ _ _).1 hv
            exact hkl ⟨rfl, rfl⟩
          simp [hno]
    · next hfind =>
      cases hr
      have hnone : ∀ o ∈ st.result.overlays, ¬ o.IsOf k0 v0 (cc.lang E) := by
        intro o hmem hh
        have := List.find?_eq_none.1 hfind o hmem
        simp only [decide_eq_true_eq] at this
        exact this hh
      refine ⟨⟨rfl, rfl, hbs, hcs, hos, hs.bundle, ⟨fun h => absurd rfl h, ?_⟩, fun c h => (by cases h), fun c p h => (by cases h),
        ⟨fun h => absurd rfl h, ?_⟩, fun r h => (by cases h), fun r k v l p h => (by cases h)⟩, ⟨?_, hbase, ?_⟩⟩
      · rintro ⟨c, hc⟩
        rw [ho] at hc
        cases hc
      · rintro ⟨k, v, l, hof, o, hmem, hio⟩
        obtain ⟨rfl, rfl, rfl⟩ := (hOf _ _ _).1 hof
        exact absurd hio (hnone o hmem)
      · simp
      · intro k l t p ht
        rw [hs.overlay k l t p ht]
        refine exists_congr fun x => and_congr_left fun _ => ?_
        rw [lastWith_snoc]
        simp

/-- every record of the list, given those before it -/
def RecordsOf (E : Env) (all : List (BuildStep × ResultModel)) : Prop :=
  ∀ before st m after, all = before ++ (st, m) :: after → RecordOf E before st m

theorem coreModels_records {ε : Type} {E : Env} {s : DagState} {steps : List BuildStep} {ms : List ResultModel}
    {hist : List (BuildStep × ResultModel)} (hs : s.Holds E hist)
    (h : (coreModels E s steps : Res ε _) = .ok ms) :
    ms.length = steps.length ∧ ∀ before st m after, steps.zip ms = before ++ (st, m) :: after →
      RecordOf E (hist ++ before) st m := by
  induction steps generalizing s ms hist with
  | nil =>
    cases h
    refine ⟨rfl, ?_⟩
    intro before st m after e
    cases before <;> cases e
  | cons st t ih =>
    unfold coreModels at h
    obtain ⟨⟨s', m⟩, hm, h⟩ := Res.bind_eq_ok.1 (show Res.bind _ _ = _ from h)
    obtain ⟨l, hl, h⟩ := Res.bind_eq_ok.1 h
    cases h
    obtain ⟨h1, h2⟩ := dagStep_record hs hm
    obtain ⟨e1, e2⟩ := ih h2 hl
    refine ⟨by rw [List.length_cons, List.length_cons, e1], ?_⟩
    intro before st' m' after e
    rw [List.zip_cons_cons] at e
    cases before with
    | nil =>
      cases e
      rw [List.append_nil]
      exact h1
    | cons x u =>
      rw [List.cons_append] at e
      injection e with e3 e4
      subst e3
      have := e2 u st' m' after e4
      rwa [List.append_assoc] at this

/-- **C42** The core model of a list of steps has one record per step, and each record names its command, its bundle with
capture base and overlays, the bundle of the step before, and, for a command about the capture base or an overlay, that
object and the one recorded last before it (for overlays: of the same kind and language). -/
theorem C42_core_model {ε : Type} (E : Env) (steps : List BuildStep) (ms : List ResultModel)
    (h : (buildCoreModel E steps : Res ε _) = .ok ms) :
    ms.length = steps.length ∧ RecordsOf E (steps.zip ms) := by
  have h0 : (({} : DagState)).Holds E [] := by
    refine ⟨rfl, ?_, ?_⟩
    · intro p
      refine ⟨fun h => (by cases h), ?_⟩
      rintro ⟨x, hx, -⟩
      exact absurd hx LastWith.none
    · intro k l t p _
      refine ⟨fun h => (by cases h), ?_⟩
      rintro ⟨x, hx, -⟩
      exact absurd hx LastWith.none
  obtain ⟨h1, h2⟩ := coreModels_records h0 h
  refine ⟨h1, ?_⟩
  intro before st m after e
  have := h2 before st m after e
  rwa [List.nil_append] at this

/-! ### It always succeeds -/

theorem unwrapSaids_ok {ε : Type} {os : List Overlay} (h : ∀ o ∈ os, o.said ≠ none) : ∃ l, (unwrapSaids os : Res ε _) = .ok l := by
  induction os with
  | nil => exact ⟨_, rfl⟩
  | cons o t ih =>
    obtain ⟨l, hl⟩ := ih fun o ho => h o (.tail _ ho)
    cases hs : o.said with
    | none => exact absurd hs (h o (.head _))
    | some s =>
      refine ⟨s :: l, ?_⟩
      unfold unwrapSaids
      rw [hs, hl]
      rfl

/-- all identifiers are there -/
def BuildStep.Signed (st : BuildStep) : Prop :=
  st.result.said ≠ none ∧ st.result.captureBase.said ≠ none ∧ ∀ o ∈ st.result.overlays, o.said ≠ none

theorem dagStep_ok {ε : Type} (E : Env) (s : DagState) (st : BuildStep) (h : st.Signed) :
    ∃ r, (dagStep E s st : Res ε _) = .ok r := by
  obtain ⟨h1, h2, h3⟩ := h
  obtain ⟨bs, hb⟩ := Option.ne_none_iff_exists'.1 h1
  obtain ⟨cs, hc⟩ := Option.ne_none_iff_exists'.1 h2
  obtain ⟨os, ho⟩ := unwrapSaids_ok (ε := ε) h3
  unfold dagStep
  rw [hb, hc, ho]
  suffices hr : ∃ r, (dagObject E s st : Res ε _) = .ok r by
    obtain ⟨r, hr⟩ := hr
    rw [hr]
    exact ⟨_, rfl⟩
  unfold dagObject
  rw [hc]
  cases hobj : st.command.obj with
  | captureBase cc => exact ⟨_, rfl⟩
  | ocaBundle r => exact ⟨_, rfl⟩
  | overlay ty cc =>
    dsimp only
    split
    · next o hfind =>
      have hmem := List.mem_of_find?_eq_some hfind
      have hp : o.body.kind = ty.kind ∧ o.ver = ty.ver ∧ o.body.language = cc.lang E := by
        have := List.find?_some hfind
        exact of_decide_eq_true this
      obtain ⟨so, hso⟩ := Option.ne_none_iff_exists'.1 (h3 o hmem)
      have hk : ∃ t, (overlayKey E o : Res ε Str) = .ok t := by
        unfold overlayKey
        cases hl : o.body.language with
        | none => exact ⟨_, rfl⟩
        | some l =>
          dsimp only
          have hlang : cc.lang E = some l := by rw [← hp.2.2, hl]
          unfold Content.lang at hlang
          split at hlang
          · next s _ =>
            rw [E.lang1_inv _ _ hlang]
            exact ⟨_, rfl⟩
          · cases hlang
      obtain ⟨t, ht⟩ := hk
      rw [ht, hso]
      exact ⟨_, rfl⟩
    · exact ⟨_, rfl⟩

theorem coreModels_ok {ε : Type} (E : Env) (s : DagState) (steps : List BuildStep) (h : ∀ st ∈ steps, st.Signed) :
    ∃ ms, (coreModels E s steps : Res ε _) = .ok ms := by
  induction steps generalizing s with
  | nil => exact ⟨_, rfl⟩
  | cons st t ih =>
    obtain ⟨r, hr⟩ := dagStep_ok (ε := ε) E s st (h st (.head _))
    obtain ⟨ms, hm⟩ := ih r.1 fun st hst => h st (.tail _ hst)
    refine ⟨r.2 :: ms, ?_⟩
    unfold coreModels
    rw [hr, Res.bind_ok, hm]
    rfl

theorem stepsFrom_signed {E : Env} {Os : Nat → Order} {cs : List Command} {i : Nat} {p : Option Said} {b : Option OCABox} :
    ∀ st ∈ stepsFrom E Os i p b cs, st.Signed := by
  induction cs generalizing i p b with
  | nil => intro st h; cases h
  | cons c t ih =>
    intro st hst
    unfold stepsFrom at hst
    split at hst
    · rcases List.mem_cons.1 hst with rfl | hst
      · refine ⟨fun h => (by cases h), fun h => (by cases h), ?_⟩
        intro o ho
        obtain ⟨body, -, rfl⟩ := List.mem_map.1 (show o ∈ List.map _ _ from ho)
        exact fun h => by cases h
      · exact ih st hst
    · exact ih st hst

/-- **C42** Every build that was accepted has a core model. -/
theorem C42_every_build {ε : Type} (E : Env) (Os : Nat → Order) (fromOca : Option Bundle) (ast : OCAAst) (b : Build)
    (h : fromAst E Os fromOca ast = .ok b) : ∃ ms, (buildCoreModel E b.steps : Res ε _) = .ok ms := by
  obtain ⟨_, _, -, -, -, -, -, rfl⟩ := fromAst_steps h
  exact coreModels_ok E _ _ stepsFrom_signed

/-! ### Concrete cases -/

/-- the records of a file -/
def coreOf (cs : List Command) : Res (List VErr) (List BuildStep × List ResultModel) := do
  let (_, _, b) ← tryFile cs
  let ms ← buildCoreModel Env.short b.steps
  pure (b.steps, ms)

/-- Two labels in the same language and one in another: the second points to the first, the third to nothing. -/
def threeLabels : List Command :=
  [addAttrs [(c!"a", .val .text), (c!"b", .val .text)],
   addOv .label [(c!"lang", .val c!"en")] [(c!"a", .val c!"A")],
   addOv .label [(c!"lang", .val c!"en")] [(c!"b", .val c!"B")],
   addOv .label [(c!"lang", .val c!"fr")] [(c!"a", .val c!"A")]]

/-- the overlay records point as they should -/
def threeLabelsTest : Bool := match coreOf threeLabels with
  | .ok (_, ms) => match ms.filterMap (·.overlay) with
    | [x, y, z] => decide (x.parent = none ∧ y.parent = some x.said ∧ z.parent = none ∧ x.said ≠ y.said)
    | _ => false
  | _ => false

theorem C42_example : threeLabelsTest = true := by decide +kernel

/-- Links of one attribute to two targets: two overlays. -/
def twoLinks : List Command :=
  [addAttrs [(c!"a", .val .text)],
   addOv .link [(c!"target", .ref (.said c!"Eone"))] [(c!"a", .val c!"x")],
   addOv .link [(c!"target", .ref (.said c!"Etwo"))] [(c!"a", .val c!"y")]]

/-- the second link adds an overlay, but its record is again of the overlay of the first -/
def twoLinksTest : Bool := match coreOf twoLinks with
  | .ok ([_, _, st], ms) => match ms.filterMap (·.overlay) with
    | [x, y] => decide (st.result.overlays.length = 2 ∧ y.said = x.said ∧ y.parent = some x.said)
    | _ => false
  | _ => false

/-- Not what a user expects: overlays of one kind that differ in the target of the link are not told apart. The
record of the command that adds the second link names the overlay of the first, as its own parent. -/
theorem C42_links_confused : twoLinksTest = true := by decide +kernel

end OCA
