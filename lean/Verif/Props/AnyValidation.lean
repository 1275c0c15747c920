import Verif.Props.AnyBase
import Verif.Props.Translations
/-!
# C80: validating a bundle of any origin

`Validator::validate` (`state/validator.rs:85-220`) takes any bundle. Exactly when it aborts, what it reports and when it reports nothing.
-/
namespace OCA

/-! ## Specification -/

/-- A text with each number between `${` and `}` replaced by a text it may stand for, every character at which no such number begins staying. -/
inductive Filled (E : Env) (P : Str → Str → Prop) : Str → Str → Prop
  | nil : Filled E P [] []
  | number (g rest v t : Str) : g ≠ [] → (∀ c ∈ g, E.isNd c = true) → P g v → Filled E P rest t → Filled E P (c!"${" ++ g ++ c!"}" ++ rest) (v ++ t)
  | lit (c : Char) (s t : Str) : (¬ ∃ g rest, g ≠ [] ∧ (∀ x ∈ g, E.isNd x = true) ∧ c :: s = c!"${" ++ g ++ c!"}" ++ rest) →
      Filled E P s t → Filled E P (c :: s) (c :: t)

/-- a number stands for the value used in place of the attribute it numbers -/
def Bundle.Stands (b : Bundle) (ds : List Str) (g v : Str) : Prop :=
  (∀ c ∈ g, c.isDigit = true) ∧ ∃ d t, ds[Nat.ofDigitChars 10 g 0]? = some d ∧ b.captureBase.attributes.get d = some t ∧ StandIn v t

/-- The condition `x` of the attribute is one that is checked: it is in the first conditional overlay. `ds` is its list of names, if there is one. -/
def Bundle.Checked (b : Bundle) (n x : Str) (ds : Option (List Str)) : Prop :=
  ∃ pre o post c d, b.overlays = pre ++ o :: post ∧ (∀ y ∈ pre, y.body.kind ≠ .conditional) ∧ o.body = .conditional c d ∧ c.get n = some x ∧ ds = d.get n

/-- Checking the condition aborts: there is no list of names; or the attribute is not in it, and a name in it is not an attribute of a supported type, or
a number has no name. -/
def Bundle.Unchecked (E : Env) (b : Bundle) (n x : Str) : Option (List Str) → Prop
  | none => True
  | some ds => n ∉ ds ∧ (¬ DepsSupported b.captureBase.attributes ds ∨ ¬ ∃ s, Filled E (b.Stands ds) x s)

/-- Checking the condition ends with this report. -/
def Bundle.Reported (E : Env) (b : Bundle) (n x : Str) (ds : Option (List Str)) (e : ValErr) : Prop :=
  ∃ l, ds = some l ∧ ((n ∈ l ∧ e = .selfDependency n) ∨
    (n ∉ l ∧ DepsSupported b.captureBase.attributes l ∧ ∃ s, Filled E (b.Stands l) x s ∧ E.lua (c!"return " ++ s) = none ∧ e = .invalidCondition n))

/-- What the checks other than that of conditions report: identifiers that are not the digest, overlays bound to another capture base, and, if languages are enforced,
a language that is not enforced, an enforced one that is missing, and what one overlay of a kind translates and another does not. -/
def Bundle.OtherReport (E : Env) (enforced : List Lang) (b : Bundle) (e : ValErr) : Prop :=
  (e = .bundleSaid ∧ b.said ≠ some (E.digest (b.digestInput E))) ∨
  (e = .baseSaid ∧ b.captureBase.said ≠ some (E.digest b.captureBase.digestInput)) ∨
  (∃ o ∈ b.overlays, e = .overlaySaid o.body.kind o.body.language ∧ o.said ≠ some (E.digest o.digestInput)) ∨
  (∃ o ∈ b.overlays, e = .overlayBase o.body.kind o.body.language ∧ o.captureBase ≠ b.captureBase.said) ∨
  (enforced ≠ [] ∧ ∃ k, k.Translated ∧ (∃ o ∈ b.overlays, o.body.kind = k) ∧
    ((∃ l, e = .unexpectedLang k l ∧ b.HasLang k l ∧ l ∉ enforced) ∨
     (∃ l, e = .missingLang k l ∧ l ∈ enforced ∧ ¬ b.HasLang k l) ∨
     (∃ o ∈ b.overlays, o.body.kind = k ∧ ∃ l key, o.body.language = some l ∧ e = .missingKey k l key ∧ b.NeedsKey k key ∧ ¬ o.body.Translates key)))

/-! ## Proofs -/

/-- replacing pieces is what the specification says -/
theorem fill_iff {ε : Type} (E : Env) (P : Str → Str → Prop) (f : Str → Res ε Str) (hf : ∀ g v, g ≠ [] → (f g = .ok v ↔ P g v)) (he : ∀ g e, f g ≠ .err e) (c : Str) :
    (∀ s, replacePieces f (scan (matchNum E) 0 c) = .ok s ↔ Filled E P c s) ∧ ∀ e, replacePieces f (scan (matchNum E) 0 c) ≠ .err e := by
  generalize hl : c.length = l
  induction l using Nat.strongRecOn generalizing c with
  | _ l ih =>
    cases c with
    | nil =>
      rw [show scan (matchNum E) 0 [] = [] from rfl]
      refine ⟨fun s => ⟨fun h => ?_, fun h => ?_⟩, fun e h => by cases h⟩
      · cases h; exact .nil
      · generalize hx : ([] : Str) = x at h
        cases h with
        | nil => rfl
        | number g rest v t _ _ _ _ => cases hx
        | lit c s t _ _ => cases hx
    | cons c s =>
      cases hm : matchNum E (c :: s) with
      | none =>
        rw [scan_lit hm]
        obtain ⟨i1, i2⟩ := ih s.length (by rw [← hl]; simp) s rfl
        refine ⟨fun r => ⟨fun h => ?_, fun h => ?_⟩, fun e h => ?_⟩
        · obtain ⟨t, h1, h2⟩ := Res.bind_eq_ok.1 (show Res.bind _ _ = _ from h)
          cases h2
          exact .lit c s t (matchNum_eq_none.1 hm) ((i1 t).1 h1)
        · generalize hx : c :: s = x at h
          cases h with
          | nil => cases hx
          | number g rest v t h1 h2 h3 h4 => exact absurd ⟨g, rest, h1, h2, hx⟩ (matchNum_eq_none.1 hm)
          | lit c' s' t _ h2 =>
            cases hx
            unfold replacePieces
            rw [(i1 t).2 h2]; rfl
        · unfold replacePieces at h
          rcases bind_err_cases (show Res.bind _ _ = _ from h) with h | ⟨t, -, h⟩
          · exact i2 e h
          · cases h
      | some g =>
        obtain ⟨h1, hne, hnd, rest, h2⟩ := matchNum_eq_some.1 hm
        rw [h2] at hm ⊢
        rw [scan_ph hm]
        obtain ⟨i1, i2⟩ := ih rest.length (by rw [← hl, h2]; simp; omega) rest rfl
        refine ⟨fun r => ⟨fun h => ?_, fun h => ?_⟩, fun e h => ?_⟩
        · unfold replacePieces at h
          obtain ⟨v, hv, h⟩ := Res.bind_eq_ok.1 (show Res.bind _ _ = _ from h)
          obtain ⟨u, hu, h⟩ := Res.bind_eq_ok.1 (show Res.bind _ _ = _ from h)
          cases h
          exact .number g rest v u hne hnd ((hf g v hne).1 hv) ((i1 u).1 hu)
        · generalize hx : c!"${" ++ g ++ c!"}" ++ rest = x at h
          cases h with
          | nil => cases hx
          | number g' rest' v t k1 k2 k3 k4 =>
            have hg' : '}' ∉ g' := nd_no_brace k2
            have e1 : splitOnce '}' (g ++ '}' :: rest) = splitOnce '}' (g' ++ '}' :: rest') := by
              have : g ++ '}' :: rest = g' ++ '}' :: rest' := by simpa using hx
              rw [this]
            rw [splitOnce_append rest h1, splitOnce_append rest' hg'] at e1
            cases e1
            unfold replacePieces
            rw [(hf g v hne).2 k3]
            show Res.bind _ _ = _
            rw [(i1 t).2 k4]; rfl
          | lit c' s' t k1 k2 =>
            exact absurd ⟨g, rest, hne, hnd, hx.symm⟩ k1
        · unfold replacePieces at h
          rcases bind_err_cases (show Res.bind _ _ = _ from h) with h | ⟨t, -, h⟩
          · exact he _ _ h
          · rcases bind_err_cases (show Res.bind _ _ = _ from h) with h | ⟨t, -, h⟩
            · exact i2 e h
            · cases h

theorem standIn_iff {ε : Type} (t : NAttr) (v : Str) : StandIn v t ↔ (mockValue t : Res ε _) = .ok v := by
  cases t with
  | null => simp [StandIn, mockValue, eq_comm]
  | ref r => simp [StandIn, mockValue, eq_comm]
  | val t => cases t <;> simp [StandIn, mockValue, eq_comm]
  | arr t => cases t with
    | val t => cases t <;> simp [StandIn, mockValue, eq_comm]
    | null => simp [StandIn, mockValue]
    | ref r => simp [StandIn, mockValue]
    | arr t => simp [StandIn, mockValue]

/-- the check of one condition, whatever it is -/
theorem condCheck_any {ε : Type} (E : Env) (b : Bundle) (deps : FMap (List Str)) (n x : Str) :
    (b.Unchecked E n x (deps.get n) → (condCheck E b.captureBase.attributes deps n x : Res ε _) = .panic) ∧
    (¬ b.Unchecked E n x (deps.get n) → ∃ r, (condCheck E b.captureBase.attributes deps n x : Res ε _) = .ok r ∧
      ∀ e, r = some e ↔ b.Reported E n x (deps.get n) e) := by
  unfold condCheck
  cases hd : deps.get n with
  | none => exact ⟨fun _ => rfl, fun h => absurd trivial h⟩
  | some ds =>
    show (_ → Res.bind (.ok ds) _ = _) ∧ (_ → ∃ r, Res.bind (.ok ds) _ = _ ∧ _)
    rw [show ∀ k : List Str → Res ε (Option ValErr), Res.bind (.ok ds) k = k ds from fun _ => rfl]
    by_cases hn : n ∈ ds
    · rw [if_pos hn]
      refine ⟨fun h => absurd hn h.1, fun _ => ⟨_, rfl, fun e => ?_⟩⟩
      constructor
      · intro h; cases h; exact ⟨ds, rfl, .inl ⟨hn, rfl⟩⟩
      · rintro ⟨l, e', ⟨-, rfl⟩ | ⟨h, -⟩⟩
        · rfl
        · cases e'; exact absurd hn h
    · rw [if_neg hn]
      by_cases hs : DepsSupported b.captureBase.attributes ds
      · obtain ⟨m, h1, h2, -⟩ := mockAll_ok (ε := ε) b.captureBase.attributes ds FMap.empty hs
        rw [h1]
        show (_ → Res.bind (replacePieces _ _) _ = _) ∧ (_ → ∃ r, Res.bind (replacePieces _ _) _ = _ ∧ _)
        obtain ⟨f1, f2⟩ := fill_iff (ε := ε) E (b.Stands ds) (fun g => Res.bind (depAt ds g) fun d => Res.unwrap (m.get d)) (by
          intro g v hg
          refine (Res.bind_eq_ok (x := depAt ds g) (f := fun d => Res.unwrap (m.get d))).trans ?_
          constructor
          · rintro ⟨d, k1, k2⟩
            obtain ⟨k3, k4⟩ := (depAt_eq_ok hg).1 k1
            obtain ⟨t, v', k5, k6, k7⟩ := h2 d (List.mem_of_getElem? k4)
            rw [k7] at k2
            cases k2
            exact ⟨k3, d, t, k4, k5, (standIn_iff t v).2 k6⟩
          · rintro ⟨k3, d, t, k4, k5, k6⟩
            refine ⟨d, (depAt_eq_ok hg).2 ⟨k3, k4⟩, ?_⟩
            obtain ⟨t', v', k5', k6', k7⟩ := h2 d (List.mem_of_getElem? k4)
            rw [k5] at k5'; cases k5'
            have := (standIn_iff (ε := ε) t v).1 k6
            rw [k6'] at this; cases this
            rw [k7]; rfl) (by
          intro g e h
          rcases bind_err_cases h with h | ⟨d, -, h⟩
          · exact depAt_noErr _ _ _ h
          · unfold Res.unwrap at h
            split at h <;> cases h) x
        by_cases hr : ∃ s, Filled E (b.Stands ds) x s
        · obtain ⟨s, hr⟩ := hr
          have e1 := (f1 s).2 hr
          refine ⟨fun h => ?_, fun _ => ?_⟩
          · rcases h.2 with h | h
            · exact absurd hs h
            · exact absurd ⟨s, hr⟩ h
          · have uniq : ∀ s', Filled E (b.Stands ds) x s' → s' = s := by
              intro s' h'
              have := (f1 s').2 h'
              rw [e1] at this; cases this; rfl
            refine ⟨match E.lua (c!"return " ++ s) with | some _ => none | none => some (.invalidCondition n), ?_, ?_⟩
            · refine (congrArg (fun r => Res.bind r _) e1).trans ?_
              show (match E.lua (c!"return " ++ s) with | some _ => pure none | none => pure (some (.invalidCondition n)) : Res ε (Option ValErr)) = _
              cases E.lua (c!"return " ++ s) <;> rfl
            · intro e
              cases hL : E.lua (c!"return " ++ s) with
              | none =>
                constructor
                · intro h; cases h; exact ⟨ds, rfl, .inr ⟨hn, hs, s, hr, hL, rfl⟩⟩
                · rintro ⟨l, e', ⟨h, -⟩ | ⟨-, -, s', -, -, rfl⟩⟩
                  · cases e'; exact absurd h hn
                  · rfl
              | some q =>
                constructor
                · intro h; cases h
                · rintro ⟨l, e', ⟨h, -⟩ | ⟨-, -, s', hs', hL', -⟩⟩
                  · cases e'; exact absurd h hn
                  · cases e'
                    rw [uniq s' hs', hL] at hL'; cases hL'
        · have hp : (replacePieces (fun g => Res.bind (depAt ds g) fun d => Res.unwrap (m.get d)) (scan (matchNum E) 0 x) : Res ε Str) = .panic := by
            cases e : (replacePieces (fun g => Res.bind (depAt ds g) fun d => Res.unwrap (m.get d)) (scan (matchNum E) 0 x) : Res ε Str) with
            | ok s => exact absurd ⟨s, (f1 s).1 e⟩ hr
            | err y => exact absurd e (f2 y)
            | panic => rfl
          refine ⟨fun _ => ?_, fun h => absurd ⟨hn, .inr hr⟩ h⟩
          exact (congrArg (fun r => Res.bind r _) hp).trans rfl
      · refine ⟨fun _ => ?_, fun h => absurd ⟨hn, .inl hs⟩ h⟩
        rw [mockAll_panic _ _ _ hs]
        rfl


theorem condErrorsOf_any {ε : Type} (E : Env) (b : Bundle) (deps : FMap (List Str)) (l : List (Str × Str)) :
    ((∃ p ∈ l, b.Unchecked E p.1 p.2 (deps.get p.1)) → (condErrorsOf E b.captureBase.attributes deps l : Res ε _) = .panic) ∧
    ((∀ p ∈ l, ¬ b.Unchecked E p.1 p.2 (deps.get p.1)) → ∃ es, (condErrorsOf E b.captureBase.attributes deps l : Res ε _) = .ok es ∧
      ∀ e, e ∈ es ↔ ∃ p ∈ l, b.Reported E p.1 p.2 (deps.get p.1) e) := by
  induction l with
  | nil => exact ⟨fun ⟨p, hp, _⟩ => by (cases hp), fun _ => ⟨[], rfl, by simp⟩⟩
  | cons p t ih =>
    obtain ⟨n, x⟩ := p
    obtain ⟨c1, c2⟩ := condCheck_any (ε := ε) E b deps n x
    unfold condErrorsOf
    by_cases hu : b.Unchecked E n x (deps.get n)
    · refine ⟨fun _ => ?_, fun h => absurd hu (h _ (.head _))⟩
      rw [c1 hu]; rfl
    · obtain ⟨r, e1, e2⟩ := c2 hu
      rw [e1]
      show (_ → Res.bind (condErrorsOf _ _ _ t) _ = _) ∧ (_ → ∃ es, Res.bind (condErrorsOf _ _ _ t) _ = _ ∧ _)
      constructor
      · rintro ⟨p, hp, h⟩
        rcases List.mem_cons.1 hp with rfl | hp
        · exact absurd h hu
        · rw [ih.1 ⟨p, hp, h⟩]; rfl
      · intro h
        obtain ⟨es, e3, e4⟩ := ih.2 fun p hp => h p (.tail _ hp)
        refine ⟨r.toList ++ es, by rw [e3]; rfl, fun e => ?_⟩
        rw [List.mem_append, Option.mem_toList, e4]
        constructor
        · rintro (h | ⟨p, hp, h⟩)
          · exact ⟨(n, x), .head _, (e2 e).1 h⟩
          · exact ⟨p, .tail _ hp, h⟩
        · rintro ⟨p, hp, h⟩
          rcases List.mem_cons.1 hp with rfl | hp
          · exact .inl ((e2 e).2 h)
          · exact .inr ⟨p, hp, h⟩

theorem findSome_first {α β : Type} (f : α → Option β) (l : List α) (y : β) :
    l.findSome? f = some y ↔ ∃ pre x post, l = pre ++ x :: post ∧ (∀ z ∈ pre, f z = none) ∧ f x = some y := by
  induction l with
  | nil => simp
  | cons a t ih =>
    rw [List.findSome?_cons]
    cases h : f a with
    | some z =>
      constructor
      · intro e; cases e; exact ⟨[], a, t, rfl, by simp, h⟩
      · rintro ⟨pre, x, post, e, h1, h2⟩
        cases pre with
        | nil => cases e; rw [← h, h2]
        | cons b pre => cases e; rw [h1 a (.head _)] at h; cases h
    | none =>
      dsimp only
      rw [ih]
      constructor
      · rintro ⟨pre, x, post, rfl, h1, h2⟩
        refine ⟨a :: pre, x, post, rfl, ?_, h2⟩
        intro z hz
        rcases List.mem_cons.1 hz with rfl | hz
        · exact h
        · exact h1 z hz
      · rintro ⟨pre, x, post, e, h1, h2⟩
        cases pre with
        | nil => cases e; rw [h] at h2; cases h2
        | cons b pre => cases e; exact ⟨pre, x, post, rfl, fun z hz => h1 z (.tail _ hz), h2⟩

theorem checked_iff (b : Bundle) (n x : Str) (ds : Option (List Str)) :
    b.Checked n x ds ↔ ∃ c d, firstConditional b = some (c, d) ∧ (n, x) ∈ c.l ∧ ds = d.get n := by
  have hk : ∀ o : Overlay, (match o.body with | .conditional c d => some (c, d) | _ => none : Option (FMap Str × FMap (List Str))) = none ↔ o.body.kind ≠ .conditional := by
    intro o
    cases o.body <;> simp [OvBody.kind]
  have hs : ∀ (o : Overlay) c d, (match o.body with | .conditional c d => some (c, d) | _ => none : Option (FMap Str × FMap (List Str))) = some (c, d) ↔ o.body = .conditional c d := by
    intro o c d
    cases o.body <;> simp
  unfold Bundle.Checked firstConditional
  constructor
  · rintro ⟨pre, o, post, c, d, e, h1, h2, h3, h4⟩
    exact ⟨c, d, (findSome_first _ _ _).2 ⟨pre, o, post, e, fun z hz => (hk z).2 (h1 z hz), (hs o c d).2 h2⟩, FMap.get_eq_some_iff.1 h3, h4⟩
  · rintro ⟨c, d, h, h3, h4⟩
    obtain ⟨pre, o, post, e, h1, h2⟩ := (findSome_first _ _ _).1 h
    exact ⟨pre, o, post, c, d, e, fun z hz => (hk z).1 (h1 z hz), (hs o c d).1 h2, FMap.get_eq_some_iff.2 h3, h4⟩

theorem conditionErrors_any {ε : Type} (E : Env) (b : Bundle) :
    ((∃ n x ds, b.Checked n x ds ∧ b.Unchecked E n x ds) → (conditionErrors E b : Res ε _) = .panic) ∧
    ((∀ n x ds, b.Checked n x ds → ¬ b.Unchecked E n x ds) → ∃ es, (conditionErrors E b : Res ε _) = .ok es ∧
      ∀ e, e ∈ es ↔ ∃ n x ds, b.Checked n x ds ∧ b.Reported E n x ds e) := by
  simp only [checked_iff]
  unfold conditionErrors
  cases firstConditional b with
  | none =>
    constructor
    · rintro ⟨n, x, ds, ⟨c, d, h, -⟩, -⟩; cases h
    · intro _
      refine ⟨[], rfl, fun e => ?_⟩
      constructor
      · intro h; cases h
      · rintro ⟨n, x, ds, ⟨c, d, h, -⟩, -⟩; cases h
  | some p =>
    obtain ⟨c, d⟩ := p
    obtain ⟨h1, h2⟩ := condErrorsOf_any (ε := ε) E b d c.l
    constructor
    · rintro ⟨n, x, ds, ⟨c', d', e, hm, rfl⟩, hu⟩
      cases e
      exact h1 ⟨(n, x), hm, hu⟩
    · intro h
      obtain ⟨es, h3, h4⟩ := h2 fun p hp => h p.1 p.2 _ ⟨c, d, rfl, hp, rfl⟩
      refine ⟨es, h3, fun e => (h4 e).trans ?_⟩
      constructor
      · rintro ⟨p, hp, hr⟩; exact ⟨p.1, p.2, _, ⟨c, d, rfl, hp, rfl⟩, hr⟩
      · rintro ⟨n, x, ds, ⟨c', d', e', hm, rfl⟩, hr⟩
        cases e'
        exact ⟨(n, x), hm, hr⟩

theorem otherReport_iff (E : Env) (enforced : List Lang) (b : Bundle) (e : ValErr) :
    e ∈ saidErrors E b ++ allTranslationErrors enforced b ↔ b.OtherReport E enforced e := by
  have ht : e ∈ allTranslationErrors enforced b ↔ _ ∧ _ := ⟨fun h => by
    have he : enforced ≠ [] := by
      rintro rfl
      simp [allTranslationErrors] at h
    exact ⟨he, (C27_reports_exact enforced b he e).1 h⟩, fun h => (C27_reports_exact enforced b h.1 e).2 h.2⟩
  unfold Bundle.OtherReport
  rw [List.mem_append, ht]
  unfold saidErrors overlayErrors
  simp only [List.mem_append, List.mem_flatMap, Bundle.fillSaid, CaptureBase.sign, Overlay.fillSaid]
  have key : ∀ (P : Prop) (i : Decidable P) (z : ValErr), e ∈ (@ite _ P i [z] []) ↔ e = z ∧ P := by
    intro P i z
    split <;> simp_all
  constructor
  · rintro (((h | h) | ⟨o, ho, h | h⟩) | h)
    · exact .inl ((key _ _ _).1 h)
    · exact .inr (.inl ((key _ _ _).1 h))
    · exact .inr (.inr (.inl ⟨o, ho, (key _ _ _).1 h⟩))
    · exact .inr (.inr (.inr (.inl ⟨o, ho, (key _ _ _).1 h⟩)))
    · exact .inr (.inr (.inr (.inr h)))
  · rintro (h | h | ⟨o, ho, h⟩ | ⟨o, ho, h⟩ | h)
    · exact .inl (.inl (.inl ((key _ _ _).2 h)))
    · exact .inl (.inl (.inr ((key _ _ _).2 h)))
    · exact .inl (.inr ⟨o, ho, .inl ((key _ _ _).2 h)⟩)
    · exact .inl (.inr ⟨o, ho, .inr ((key _ _ _).2 h)⟩)
    · exact .inr h

/-- **C80** Validating aborts exactly when checking some condition of the first conditional overlay does. -/
theorem C80_aborts_iff (E : Env) (enforced : List Lang) (b : Bundle) :
    validateBundle E enforced b = .panic ↔ ∃ n x ds, b.Checked n x ds ∧ b.Unchecked E n x ds := by
  obtain ⟨h1, h2⟩ := conditionErrors_any (ε := List ValErr) E b
  unfold validateBundle
  by_cases h : ∃ n x ds, b.Checked n x ds ∧ b.Unchecked E n x ds
  · rw [h1 h]; exact ⟨fun _ => h, fun _ => rfl⟩
  · obtain ⟨es, h3, -⟩ := h2 fun n x ds hc hu => h ⟨n, x, ds, hc, hu⟩
    rw [h3]
    refine ⟨fun h' => ?_, fun h' => absurd h' h⟩
    exfalso
    revert h'
    show (if es = [] then _ else _) = _ → _
    split
    · split <;> exact fun h' => by cases h'
    · exact fun h' => by cases h'

/-- **C80** What is reported. If some condition is reported, the reports are those of the conditions and no others: wrong identifiers and missing translations
are not mentioned. Otherwise they are those of the other checks. -/
theorem C80_reports (E : Env) (enforced : List Lang) (b : Bundle) (es : List ValErr) (h : validateBundle E enforced b = .err es) :
    es ≠ [] ∧
    ((∃ n x ds e, b.Checked n x ds ∧ b.Reported E n x ds e) → ∀ e, e ∈ es ↔ ∃ n x ds, b.Checked n x ds ∧ b.Reported E n x ds e) ∧
    ((¬ ∃ n x ds e, b.Checked n x ds ∧ b.Reported E n x ds e) → ∀ e, e ∈ es ↔ b.OtherReport E enforced e) := by
  obtain ⟨h1, h2⟩ := conditionErrors_any (ε := List ValErr) E b
  unfold validateBundle at h
  by_cases hu : ∃ n x ds, b.Checked n x ds ∧ b.Unchecked E n x ds
  · rw [h1 hu] at h; cases h
  · obtain ⟨ce, h3, h4⟩ := h2 fun n x ds hc hu' => hu ⟨n, x, ds, hc, hu'⟩
    rw [h3] at h
    replace h : (if ce = [] then (if saidErrors E b ++ allTranslationErrors enforced b = [] then pure () else .err (saidErrors E b ++ allTranslationErrors enforced b))
      else .err ce : Res (List ValErr) Unit) = .err es := h
    split at h
    · next hce =>
      split at h
      · cases h
      · next hne =>
        cases h
        refine ⟨hne, ?_, fun _ e => otherReport_iff E enforced b e⟩
        rintro ⟨n, x, ds, e, hr⟩
        have := (h4 e).2 ⟨n, x, ds, hr⟩
        rw [hce] at this; cases this
    · next hce =>
      cases h
      refine ⟨hce, fun _ e => h4 e, fun hno => ?_⟩
      exfalso
      obtain ⟨e, l, rfl⟩ : ∃ e l, es = e :: l := by
        cases es with
        | nil => exact absurd rfl hce
        | cons e l => exact ⟨e, l, rfl⟩
      obtain ⟨n, x, ds, hr⟩ := (h4 e).1 (.head _)
      exact hno ⟨n, x, ds, e, hr⟩

/-- **C80** Validating reports nothing exactly when each condition of the first conditional overlay can be checked and is not reported, all identifiers are right, and the
bundle is translated into exactly the enforced languages (if any are). -/
theorem C80_accepts_iff (E : Env) (enforced : List Lang) (b : Bundle) :
    validateBundle E enforced b = .ok () ↔
      (∀ n x ds, b.Checked n x ds → ¬ b.Unchecked E n x ds ∧ ∀ e, ¬ b.Reported E n x ds e) ∧ b.SaidsValid E ∧ (enforced = [] ∨ b.FullyTranslated enforced) := by
  obtain ⟨h1, h2⟩ := conditionErrors_any (ε := List ValErr) E b
  by_cases hu : ∃ n x ds, b.Checked n x ds ∧ b.Unchecked E n x ds
  · rw [(C80_aborts_iff E enforced b).2 hu]
    obtain ⟨n, x, ds, hc, hu⟩ := hu
    exact ⟨(fun h => by cases h), fun h => absurd hu (h.1 n x ds hc).1⟩
  · obtain ⟨ce, h3, h4⟩ := h2 fun n x ds hc hu' => hu ⟨n, x, ds, hc, hu'⟩
    by_cases hce : ce = []
    · rw [hce] at h3
      rw [C27_validate_iff E enforced b h3]
      have : ∀ n x ds, b.Checked n x ds → ¬ b.Unchecked E n x ds ∧ ∀ e, ¬ b.Reported E n x ds e := by
        intro n x ds hc
        refine ⟨fun hu' => hu ⟨n, x, ds, hc, hu'⟩, fun e hr => ?_⟩
        have := (h4 e).2 ⟨n, x, ds, hc, hr⟩
        rw [hce] at this; cases this
      exact ⟨fun h => ⟨this, h⟩, fun h => h.2⟩
    · constructor
      · intro h
        exfalso
        unfold validateBundle at h
        rw [h3] at h
        replace h : (if ce = [] then (if saidErrors E b ++ allTranslationErrors enforced b = [] then pure () else .err (saidErrors E b ++ allTranslationErrors enforced b))
          else .err ce : Res (List ValErr) Unit) = .ok () := h
        rw [if_neg hce] at h; cases h
      · rintro ⟨h, -⟩
        exfalso
        obtain ⟨e, l, rfl⟩ : ∃ e l, ce = e :: l := by
          cases ce with
          | nil => exact absurd rfl hce
          | cons e l => exact ⟨e, l, rfl⟩
        obtain ⟨n, x, ds, hc, hr⟩ := (h4 e).1 (.head _)
        exact (h n x ds hc).2 e hr

/-! ## Concrete cases -/

/-- the reports on a bundle; nothing if validating aborts -/
def verdict (b : Bundle) (enforced : List Lang) : Option (List ValErr) := match validateBundle Env.words enforced b with
  | .ok _ => some []
  | .err es => some es
  | .panic => none

/-- a conditional overlay with one condition -/
def oneCond (n x : Str) (ds : List Str) : OvBody := .conditional (FMap.ofList [(n, x)]) (FMap.ofList [(n, ds)])

set_option maxRecDepth 20000 in
/-- **C80** A condition on itself in the first conditional overlay is reported, alone, although the bundle's identifier is wrong too; in the second it is not
noticed. A wrong identifier by itself is reported, and so is a missing language. A number without a name, a missing name and a missing list abort. -/
theorem C80_example :
    verdict { foreign [oneCond c!"a" c!"${0}" [c!"a"]] with said := none } [] = some [.selfDependency c!"a"] ∧
    verdict (foreign [oneCond c!"b" c!"${0} == ''" [c!"a"], oneCond c!"a" c!"${0}" [c!"a"]]) [] = some [] ∧
    verdict { foreign [oneCond c!"b" c!"${0} == ''" [c!"a"]] with said := none } [] = some [.bundleSaid] ∧
    verdict (foreign [.label c!"eng" [] (FMap.ofList [(c!"a", c!"A")]) FMap.empty]) [c!"fra", c!"eng"] = some [.missingLang .label c!"fra"] ∧
    verdict (foreign [oneCond c!"b" c!"${1} == ''" [c!"a"]]) [] = none ∧
    verdict (foreign [oneCond c!"b" c!"${0} == ''" [c!"x"]]) [] = none ∧
    verdict (foreign [.conditional (FMap.ofList [(c!"b", c!"1 == 1")]) FMap.empty]) [] = none := by
  decide +kernel

end OCA
