import Verif.Props.LibraryCalls
import Verif.Props.ToAstFull
import Verif.Lemmas.Load
import Verif.Props.HistoryTextExample
/-!
# C79: a bundle of any origin as a base

`OCABox::from` (`state/oca.rs:684-919`) takes any bundle: one built by this program, or one read from a document another program wrote. Exactly when it
aborts, and what a bundle generated from the loaded state tells.
-/
namespace OCA

/-! ## Specification -/

/-- A condition as it is kept (`${0}`, `${1}`, ...) read with its list of names: each number between `${` and `}` stands for the name at that place, every
character at which no such number begins for itself. There is no reading when a number has no name, or is not written in ASCII digits. -/
inductive ReadsBack (E : Env) (ds : List Str) : Str → Str → Prop
  | nil : ReadsBack E ds [] []
  | ref (g rest t : Str) (i : Nat) (d : Str) : g ≠ [] → (∀ c ∈ g, c.isDigit = true) → i = Nat.ofDigitChars 10 g 0 → ds[i]? = some d →
      ReadsBack E ds rest t → ReadsBack E ds (c!"${" ++ g ++ c!"}" ++ rest) (c!"${" ++ d ++ c!"}" ++ t)
  | lit (c : Char) (s t : Str) : (¬ ∃ g rest, g ≠ [] ∧ (∀ x ∈ g, E.isNd x = true) ∧ c :: s = c!"${" ++ g ++ c!"}" ++ rest) →
      ReadsBack E ds s t → ReadsBack E ds (c :: s) (c :: t)

/-- the kinds of overlays that are not loaded -/
def unloaded : List OvKind := [.metaOv, .attributeMapping, .standard, .subset, .entryCodeMapping]

/-- What loading does not survive in an overlay: a name that is not one of the attributes, a condition without a reading, a frame without an identifier. -/
def OvBody.Broken (E : Env) (known : Str → Prop) (b : OvBody) : Prop :=
  (b.kind ∉ unloaded ∧ ∃ n ∈ b.attributes, ¬ known n) ∨
  (∃ c d, b = .conditional c d ∧ ∃ n x, c.get n = some x ∧ ¬ ∃ ds s, d.get n = some ds ∧ ReadsBack E ds x s) ∨
  (∃ md x, b = .framing md x ∧ md.get c!"frame_id" = none)

/-- a flag, or an overlay, that loading does not survive -/
def Bundle.Broken (E : Env) (b : Bundle) : Prop :=
  (∃ n ∈ b.captureBase.flagged, b.captureBase.attributes.get n = none) ∨
  ∃ o ∈ b.overlays, o.body.Broken E fun n => (b.captureBase.attributes.get n).isSome = true

/-- The last overlay of the bundle for which `S` or not `Q` is one for which `S`. -/
def Bundle.LastOverlay (b : Bundle) (S Q : OvBody → Prop) : Prop :=
  ∃ pre o post, b.overlays = pre ++ o :: post ∧ S o.body ∧ ∀ x ∈ post, Q x.body

/-- the overlay gives the attribute this scope in this frame; the scope with the metadata of the frame -/
def OvBody.GivesScope (n id sc : Str) (v : Scope) (b : OvBody) : Prop :=
  ∃ md x fr s, b = .framing md x ∧ md.get c!"frame_id" = some id ∧ x.get n = some fr ∧ fr.get sc = some s ∧
    v = { s with frameMeta := md.erase c!"frame_id" }

/-- the overlay has this pair in the meta of this language -/
def OvBody.GivesMeta (l : Lang) (k v : Str) (b : OvBody) : Prop := ∃ ps, b = .metaOv l ps ∧ ps.get k = some v

/-! ## Conditions -/

theorem matchNum_eq_some {E : Env} {s g : Str} :
    matchNum E s = some g ↔ '}' ∉ g ∧ g ≠ [] ∧ (∀ c ∈ g, E.isNd c = true) ∧ ∃ rest, s = c!"${" ++ g ++ c!"}" ++ rest := by
  unfold matchNum
  rw [Option.filter_eq_some_iff, matchAny_eq_some]
  simp only [Bool.and_eq_true, Bool.not_eq_true', List.isEmpty_eq_false_iff, List.all_eq_true]
  constructor
  · rintro ⟨⟨h1, h2⟩, h3, h4⟩; exact ⟨h1, h3, h4, h2⟩
  · rintro ⟨h1, h3, h4, h2⟩; exact ⟨⟨h1, h2⟩, h3, h4⟩

theorem nd_no_brace {E : Env} {g : Str} (h : ∀ c ∈ g, E.isNd c = true) : '}' ∉ g := by
  intro hc
  have := h _ hc
  rw [E.isNd_ascii '}' (by decide)] at this
  cases this

theorem matchNum_eq_none {E : Env} {s : Str} :
    matchNum E s = none ↔ ¬ ∃ g rest, g ≠ [] ∧ (∀ x ∈ g, E.isNd x = true) ∧ s = c!"${" ++ g ++ c!"}" ++ rest := by
  rw [Option.eq_none_iff_forall_not_mem]
  constructor
  · rintro h ⟨g, rest, h1, h2, e⟩
    exact h g (matchNum_eq_some.2 ⟨nd_no_brace h2, h1, h2, rest, e⟩)
  · intro h g hg
    obtain ⟨-, h1, h2, rest, e⟩ := matchNum_eq_some.1 hg
    exact h ⟨g, rest, h1, h2, e⟩

theorem depAt_eq_ok {ε : Type} {ds : List Str} {g d : Str} (hg : g ≠ []) :
    (depAt ds g : Res ε Str) = .ok d ↔ (∀ c ∈ g, c.isDigit = true) ∧ ds[Nat.ofDigitChars 10 g 0]? = some d := by
  unfold depAt parseNat
  have : g.isEmpty = false := List.isEmpty_eq_false_iff.2 hg
  rw [this]
  by_cases h : g.all Char.isDigit = true
  · rw [h]
    have h' := List.all_eq_true.1 h
    simp only [Bool.not_true, Bool.or_self, Bool.false_eq_true, if_false]
    cases hd : ds[Nat.ofDigitChars 10 g 0]? with
    | none => simp [Res.unwrap]
    | some x =>
      simp only [Res.unwrap, Res.ok.injEq, Option.some.injEq]
      constructor
      · exact fun e => ⟨h', e⟩
      · exact fun e => e.2
  · have h' : ¬ ∀ c ∈ g, c.isDigit = true := fun e => h (List.all_eq_true.2 e)
    simp [h, h']

theorem depAt_noErr {ε : Type} (ds : List Str) (g : Str) (e : ε) : (depAt ds g : Res ε Str) ≠ .err e := by
  unfold depAt
  split
  · exact fun h => by cases h
  · unfold Res.unwrap
    split <;> exact fun h => by cases h

/-- reading a condition back is what the specification says; otherwise it aborts -/
theorem expand_iff {ε : Type} (E : Env) (ds : List Str) (c : Str) :
    (∀ s, (expandCondition E c ds : Res ε Str) = .ok s ↔ ReadsBack E ds c s) ∧ ∀ e, (expandCondition E c ds : Res ε Str) ≠ .err e := by
  unfold expandCondition
  generalize hl : c.length = l
  induction l using Nat.strongRecOn generalizing c with
  | _ l ih =>
    cases c with
    | nil =>
      rw [show scan (matchNum E) 0 [] = [] from rfl]
      refine ⟨fun s => ⟨fun h => ?_, fun h => ?_⟩, fun e h => by cases h⟩
      · cases h; exact .nil
      · generalize hx : ([] : Str) = x at h
        cases h with
        | nil => rfl
        | ref g rest t i d _ _ _ _ _ => cases hx
        | lit c s t _ _ => cases hx
    | cons c s =>
      cases hm : matchNum E (c :: s) with
      | none =>
        rw [scan_lit hm]
        obtain ⟨i1, i2⟩ := ih s.length (by rw [← hl]; simp) s rfl
        refine ⟨fun r => ⟨fun h => ?_, fun h => ?_⟩, fun e h => ?_⟩
        · obtain ⟨t, h1, h2⟩ := Res.bind_eq_ok.1 (show Res.bind _ _ = _ from h)
          cases h2
          exact .lit c s t (matchNum_eq_none.1 hm) ((i1 t).1 h1)
        · generalize hx : c :: s = x at h
          cases h with
          | nil => cases hx
          | ref g rest t i d h1 h2 h3 h4 h5 =>
            exfalso
            refine matchNum_eq_none.1 hm ⟨g, rest, h1, fun y hy => ?_, hx⟩
            rw [E.isNd_ascii y (isDigit_ascii (h2 y hy))]; exact h2 y hy
          | lit c' s' t _ h2 =>
            cases hx
            unfold replacePieces
            rw [(i1 t).2 h2]; rfl
        · unfold replacePieces at h
          rcases bind_err_cases (show Res.bind _ _ = _ from h) with h | ⟨t, -, h⟩
          · exact i2 e h
          · cases h
      | some g =>
        obtain ⟨h1, hne, hnd, rest, h2⟩ := matchNum_eq_some.1 hm
        rw [h2] at hm ⊢
        rw [scan_ph hm]
        obtain ⟨i1, i2⟩ := ih rest.length (by rw [← hl, h2]; simp; omega) rest rfl
        refine ⟨fun r => ⟨fun h => ?_, fun h => ?_⟩, fun e h => ?_⟩
        · unfold replacePieces at h
          obtain ⟨t, ht, h⟩ := Res.bind_eq_ok.1 (show Res.bind _ _ = _ from h)
          obtain ⟨d, hd, ht⟩ := Res.bind_eq_ok.1 (show Res.bind _ _ = _ from ht)
          obtain ⟨u, hu, h⟩ := Res.bind_eq_ok.1 (show Res.bind _ _ = _ from h)
          cases ht
          cases h
          obtain ⟨k1, k2⟩ := (depAt_eq_ok hne).1 hd
          exact .ref g rest u _ d hne k1 rfl k2 ((i1 u).1 hu)
        · generalize hx : c!"${" ++ g ++ c!"}" ++ rest = x at h
          cases h with
          | nil => cases hx
          | ref g' rest' t i d k1 k2 k3 k4 k5 =>
            have hg' : '}' ∉ g' := nd_no_brace (E := E) fun y hy => by
              rw [E.isNd_ascii y (isDigit_ascii (k2 y hy))]; exact k2 y hy
            have e1 : splitOnce '}' (g ++ '}' :: rest) = splitOnce '}' (g' ++ '}' :: rest') := by
              have : g ++ '}' :: rest = g' ++ '}' :: rest' := by simpa using hx
              rw [this]
            rw [splitOnce_append rest h1, splitOnce_append rest' hg'] at e1
            cases e1
            unfold replacePieces
            rw [(depAt_eq_ok hne).2 ⟨k2, k3 ▸ k4⟩]
            show Res.bind _ _ = _
            rw [(i1 t).2 k5]; rfl
          | lit c' s' t k1 k2 =>
            exact absurd ⟨g, rest, hne, hnd, hx.symm⟩ k1
        · unfold replacePieces at h
          rcases bind_err_cases (show Res.bind _ _ = _ from h) with h | ⟨t, -, h⟩
          · rcases bind_err_cases (show Res.bind _ _ = _ from h) with h | ⟨t, -, h⟩
            · exact depAt_noErr _ _ _ h
            · cases h
          · rcases bind_err_cases (show Res.bind _ _ = _ from h) with h | ⟨t, -, h⟩
            · exact i2 e h
            · cases h

theorem expand_panic {ε : Type} {E : Env} {ds : List Str} {c : Str} (h : ¬ ∃ s, ReadsBack E ds c s) :
    (expandCondition E c ds : Res ε Str) = .panic := by
  obtain ⟨h1, h2⟩ := expand_iff (ε := ε) E ds c
  cases e : (expandCondition E c ds : Res ε Str) with
  | ok s => exact absurd ⟨s, (h1 s).1 e⟩ h
  | err x => exact absurd e (h2 x)
  | panic => rfl

/-! ## When loading aborts -/

theorem updAll_panics {ε V : Type} (f : V → Attribute → Attribute) (l : List (Str × V)) (m : FMap Attribute)
    (h : ∃ p ∈ l, m.get p.1 = none) : (updAll f m l : Res ε _) = .panic := by
  induction l generalizing m with
  | nil => obtain ⟨p, hp, -⟩ := h; cases hp
  | cons q t ih =>
    obtain ⟨k, v⟩ := q
    unfold updAll updAttr
    cases hk : m.get k with
    | none => rfl
    | some a =>
      obtain ⟨p, hp, hn⟩ := h
      rcases List.mem_cons.1 hp with rfl | hp
      · rw [hk] at hn; cases hn
      · refine (ih _ ⟨p, hp, ?_⟩ : (updAll f (m.insert k (f v a)) t : Res ε _) = .panic)
        rw [FMap.get_insert]
        split
        · next e => rw [e, hk] at hn; cases hn
        · exact hn

theorem updConds_panics {ε : Type} (E : Env) (d : FMap (List Str)) (l : List (Str × Str)) (m : FMap Attribute)
    (h : ∃ p ∈ l, m.get p.1 = none ∨ ¬ ∃ ds s, d.get p.1 = some ds ∧ ReadsBack E ds p.2 s) : (updConds E d m l : Res ε _) = .panic := by
  induction l generalizing m with
  | nil => obtain ⟨p, hp, -⟩ := h; cases hp
  | cons q t ih =>
    obtain ⟨k, v⟩ := q
    unfold updConds
    cases hd : d.get k with
    | none => rfl
    | some ds =>
      show Res.bind (expandCondition E v ds) _ = _
      by_cases hr : ∃ s, ReadsBack E ds v s
      · obtain ⟨s, hs⟩ := hr
        rw [((expand_iff E ds v).1 s).2 hs]
        show Res.bind (updAttr m k _) _ = _
        unfold updAttr
        cases hk : m.get k with
        | none => rfl
        | some a =>
          obtain ⟨p, hp, hn⟩ := h
          rcases List.mem_cons.1 hp with rfl | hp
          · rcases hn with hn | hn
            · rw [hk] at hn; cases hn
            · exact absurd ⟨ds, s, hd, hs⟩ hn
          · refine (ih _ ⟨p, hp, hn.imp_left fun hn => ?_⟩ : (updConds E d (m.insert k (a.setCond s)) t : Res ε _) = .panic)
            rw [FMap.get_insert]
            split
            · next e => rw [e, hk] at hn; cases hn
            · exact hn
      · rw [expand_panic hr]; rfl

theorem updConds_fine {ε : Type} (E : Env) (d : FMap (List Str)) (l : List (Str × Str)) (m : FMap Attribute)
    (hn : (l.map (·.1)).Nodup)
    (hd : ∀ p ∈ l, (m.get p.1).isSome = true ∧ ∃ ds s, d.get p.1 = some ds ∧ ReadsBack E ds p.2 s) :
    (updConds E d m l : Res ε _) = .ok (m.filterMap fun n a => some (loadCond E (FMap.lget n l) (d.get n) a)) := by
  induction l generalizing m with
  | nil =>
    simp only [updConds, Res.ok.injEq]
    ext n : 1
    rw [FMap.get_filterMap]
    cases m.get n <;> rfl
  | cons p t ih =>
    obtain ⟨k, v⟩ := p
    rw [List.map_cons, List.nodup_cons] at hn
    obtain ⟨hk, ds, s, hds, hs⟩ := hd (k, v) (List.mem_cons_self ..)
    obtain ⟨a, ha⟩ := Option.isSome_iff_exists.mp hk
    dsimp only at ha hds hs
    have hx := ((expand_iff (ε := ε) E ds v).1 s).2 hs
    have hx' := ((expand_iff (ε := Unit) E ds v).1 s).2 hs
    simp only [updConds, updAttr, hds, Res.unwrap, Res.bind_ok, hx]
    rw [ha]
    simp only [Res.bind_ok]
    rw [ih _ hn.2]
    · congr 1
      ext n : 1
      rw [FMap.get_filterMap, FMap.get_filterMap, FMap.get_insert]
      by_cases e : n = k
      · subst e
        have ht : FMap.lget n t = none := imGet_eq_none_of_notMem (k := n) (l := t) hn.1
        simp [FMap.lget, ha, ht, loadCond, hds, hx']
      · simp [FMap.lget, e]
    · intro q hq
      obtain ⟨h1, h2⟩ := hd q (List.mem_cons_of_mem _ hq)
      refine ⟨?_, h2⟩
      rw [FMap.get_insert]
      split
      · rfl
      · exact h1

/-- the attributes of a state under construction -/
abbrev Known (m : FMap Attribute) : Str → Prop := fun n => (m.get n).isSome = true

theorem some_key {V : Type} {x : FMap V} {m : FMap Attribute} (h : ∃ n ∈ x.keys, ¬ Known m n) : ∃ p ∈ x.l, m.get p.1 = none := by
  obtain ⟨n, hn, hk⟩ := h
  obtain ⟨p, hp, rfl⟩ := List.mem_map.1 hn
  exact ⟨p, hp, by simpa [Known] using hk⟩

theorem loadBody_panics {ε : Type} (E : Env) (m : FMap Attribute) (b : OvBody) (h : b.Broken E (Known m)) :
    (loadBody E m b : Res ε _) = .panic := by
  rcases h with ⟨hk, hn⟩ | ⟨c, d, rfl, n, x, hx, hr⟩ | ⟨md, x, rfl, hid⟩
  · cases b
    case conditional c d =>
      obtain ⟨p, hp, e⟩ := some_key hn
      exact updConds_panics E d c.l m ⟨p, hp, .inl e⟩
    case framing md x =>
      unfold loadBody
      cases hid : md.get frameIdKey with
      | none => simp only [hid]; rfl
      | some id => simp only [hid]; exact updAll_panics _ x.l m (some_key hn)
    all_goals first
      | exact updAll_panics _ _ m (some_key hn)
      | exact absurd (by simp [unloaded, OvBody.kind]) hk
  · exact updConds_panics E d c.l m ⟨(n, x), FMap.get_eq_some_iff.1 hx, .inr hr⟩
  · simp only [loadBody, show md.get frameIdKey = none from hid]; rfl

theorem loadBody_fine {ε : Type} (E : Env) (m : FMap Attribute) (b : OvBody) (h : ¬ b.Broken E (Known m)) :
    (loadBody E m b : Res ε _) = .ok (m.filterMap fun n a => some (loadAttr E n a b)) := by
  have hk : b.kind ∉ unloaded → ∀ n ∈ b.attributes, Known m n := by
    intro hk n hn
    by_cases hx : Known m n
    · exact hx
    · exact absurd (.inl ⟨hk, n, hn, hx⟩) h
  cases b
  case conditional c d =>
    simp only [loadBody, loadAttr]
    refine updConds_fine E d c.l m c.keys_nodup fun p hp => ⟨hk (by simp [unloaded, OvBody.kind]) p.1 (List.mem_map_of_mem hp), ?_⟩
    by_cases hr : ∃ ds s, d.get p.1 = some ds ∧ ReadsBack E ds p.2 s
    · exact hr
    · exact absurd (.inr (.inl ⟨c, d, rfl, p.1, p.2, FMap.get_eq_some_iff.2 hp, hr⟩)) h
  case framing md x =>
    simp only [loadBody, loadAttr]
    cases hid : md.get frameIdKey with
    | none => exact absurd (.inr (.inr ⟨md, x, rfl, hid⟩)) h
    | some id =>
      simp only [Res.unwrap, Res.bind_ok]
      exact updAll_map_ok _ x m (hk (by simp [unloaded, OvBody.kind]))
  all_goals first
    | exact updAll_map_ok _ _ m (hk (by simp [unloaded, OvBody.kind]))
    | (simp only [loadBody, loadAttr]; rw [filterMap_some])

theorem broken_known {E : Env} {K K' : Str → Prop} (h : ∀ n, K n ↔ K' n) (b : OvBody) : b.Broken E K ↔ b.Broken E K' := by
  unfold OvBody.Broken
  simp only [h]

theorem known_filterMap (m : FMap Attribute) (f : Str → Attribute → Attribute) (n : Str) :
    Known (m.filterMap fun n a => some (f n a)) n ↔ Known m n := by
  unfold Known
  rw [FMap.get_filterMap]
  cases m.get n <;> simp

theorem loadBodies_panics {ε : Type} (E : Env) (l : List OvBody) (m : FMap Attribute) (h : ∃ b ∈ l, b.Broken E (Known m)) :
    (loadBodies E m l : Res ε _) = .panic := by
  induction l generalizing m with
  | nil => obtain ⟨b, hb, -⟩ := h; cases hb
  | cons b t ih =>
    unfold loadBodies
    by_cases hb : b.Broken E (Known m)
    · rw [loadBody_panics E m b hb]; rfl
    · rw [loadBody_fine E m b hb]
      obtain ⟨b', hb', hx⟩ := h
      rcases List.mem_cons.1 hb' with rfl | hb'
      · exact absurd hx hb
      · exact ih _ ⟨b', hb', (broken_known (known_filterMap m _) b').2 hx⟩

theorem loadBodies_fine {ε : Type} (E : Env) (l : List OvBody) (m : FMap Attribute) (h : ∀ b ∈ l, ¬ b.Broken E (Known m)) :
    (loadBodies E m l : Res ε _) = .ok (m.filterMap fun n a => some (loadAttrs E n l a)) := by
  induction l generalizing m with
  | nil => simp only [loadBodies, loadAttrs, List.foldl_nil, filterMap_some]
  | cons b t ih =>
    simp only [loadBodies]
    rw [loadBody_fine E m b (h b (List.mem_cons_self ..)), Res.bind_ok, ih]
    · congr 1
      ext n : 1
      simp only [FMap.get_filterMap]
      cases m.get n <;> rfl
    · intro b' hb' hx
      exact h b' (List.mem_cons_of_mem _ hb') ((broken_known (known_filterMap m _) b').1 hx)

theorem loadFlags_panics {ε : Type} (l : List Str) (m : FMap Attribute) (h : ∃ n ∈ l, m.get n = none) :
    (loadFlags m l : Res ε _) = .panic := by
  induction l generalizing m with
  | nil => obtain ⟨b, hb, -⟩ := h; cases hb
  | cons k t ih =>
    unfold loadFlags updAttr
    cases hk : m.get k with
    | none => rfl
    | some a =>
      obtain ⟨n, hn, hx⟩ := h
      rcases List.mem_cons.1 hn with rfl | hn
      · rw [hk] at hx; cases hx
      · refine (ih _ ⟨n, hn, ?_⟩ : (loadFlags (m.insert k _) t : Res ε _) = .panic)
        rw [FMap.get_insert]
        split
        · next e => rw [e, hk] at hx; cases hx
        · exact hx

/-- a body is broken only if it is of a kind that is loaded -/
theorem Broken.kind {E : Env} {K : Str → Prop} {b : OvBody} (h : b.Broken E K) : b.kind ∈ loadOrder := by
  rcases h with ⟨hk, -⟩ | ⟨c, d, rfl, -⟩ | ⟨md, x, rfl, -⟩
  · cases b <;> first | (simp [loadOrder, OvBody.kind]; done) | exact absurd (by simp [unloaded, OvBody.kind]) hk
  · simp [loadOrder, OvBody.kind]
  · simp [loadOrder, OvBody.kind]

/-- the attributes before the overlays are loaded -/
def baseAttrs (b : Bundle) : FMap Attribute :=
  (b.captureBase.attributes.filterMap (fun _ t => some ({ ty := some t } : Attribute))).filterMap
    (fun n a => some { a with flagged := a.flagged || decide (n ∈ b.captureBase.flagged) })

theorem baseAttrs_get (b : Bundle) (n : Str) : (baseAttrs b).get n =
    (b.captureBase.attributes.get n).map fun t => { ty := some t, flagged := decide (n ∈ b.captureBase.flagged) } := by
  unfold baseAttrs
  rw [FMap.get_filterMap, FMap.get_filterMap]
  cases b.captureBase.attributes.get n <;> simp

theorem baseAttrs_known (b : Bundle) (n : Str) : Known (baseAttrs b) n ↔ (b.captureBase.attributes.get n).isSome = true := by
  unfold Known
  rw [baseAttrs_get]
  cases b.captureBase.attributes.get n <;> simp

/-- **C79** Exactly when loading a bundle as a build state aborts: when it flags a name that is not one of its attributes, or has an overlay - of a kind that is
loaded - that names such a name, a condition whose numbers have no names, or a frame without an identifier. It never ends with an error. -/
theorem C79_load_aborts_iff {ε : Type} (E : Env) (b : Bundle) :
    ((OCABox.ofBundle E b : Res ε OCABox) = .panic ↔ b.Broken E) ∧ ∀ e, (OCABox.ofBundle E b : Res ε OCABox) ≠ .err e := by
  by_cases hf : ∃ n ∈ b.captureBase.flagged, b.captureBase.attributes.get n = none
  · have hp : (OCABox.ofBundle E b : Res ε OCABox) = .panic := by
      unfold OCABox.ofBundle
      dsimp only
      rw [loadFlags_panics]
      · rfl
      · obtain ⟨n, hn, e⟩ := hf
        exact ⟨n, hn, by rw [FMap.get_filterMap, e]; rfl⟩
    exact ⟨⟨fun _ => .inl hf, fun _ => hp⟩, fun e h => by rw [hp] at h; cases h⟩
  · have hfl : (loadFlags (b.captureBase.attributes.filterMap (fun _ t => some ({ ty := some t } : Attribute))) b.captureBase.flagged : Res ε _) =
        .ok (baseAttrs b) := by
      rw [loadFlags_ok]
      · rfl
      · intro n hn
        rw [FMap.get_filterMap]
        cases e : b.captureBase.attributes.get n with
        | none => exact absurd ⟨n, hn, e⟩ hf
        | some t => rfl
    have hkn : ∀ x : OvBody, x.Broken E (Known (baseAttrs b)) ↔ x.Broken E fun n => (b.captureBase.attributes.get n).isSome = true :=
      fun x => broken_known (baseAttrs_known b) x
    by_cases ho : ∃ o ∈ b.overlays, o.body.Broken E fun n => (b.captureBase.attributes.get n).isSome = true
    · have hp : (OCABox.ofBundle E b : Res ε OCABox) = .panic := by
        unfold OCABox.ofBundle
        dsimp only
        rw [hfl]
        show Res.bind (loadBodies E _ (loadList _)) _ = _
        rw [loadBodies_panics]
        · rfl
        · obtain ⟨o, hm, hx⟩ := ho
          exact ⟨o.body, mem_loadList.2 ⟨List.mem_map_of_mem hm, Broken.kind hx⟩, (hkn _).2 hx⟩
      exact ⟨⟨fun _ => .inr ho, fun _ => hp⟩, fun e h => by rw [hp] at h; cases h⟩
    · have hp : ∃ box, (OCABox.ofBundle E b : Res ε OCABox) = .ok box := by
        refine ⟨{ loadMetas { classification := some b.captureBase.classification } (b.overlays.map Overlay.body) with
            attributes := (baseAttrs b).filterMap fun n a => some (loadAttrs E n (loadList (b.overlays.map Overlay.body)) a) }, ?_⟩
        unfold OCABox.ofBundle
        dsimp only
        rw [hfl]
        show Res.bind (loadBodies E _ (loadList _)) _ = _
        rw [loadBodies_fine]
        · rfl
        · intro x hx hbr
          obtain ⟨hx, -⟩ := mem_loadList.1 hx
          obtain ⟨o, hm, rfl⟩ := List.mem_map.1 hx
          exact ho ⟨o, hm, (hkn _).1 hbr⟩
      obtain ⟨box, hp⟩ := hp
      refine ⟨⟨fun h => ?_, fun h => absurd h ?_⟩, fun e h => ?_⟩
      · rw [hp] at h; cases h
      · rintro (h | h)
        · exact hf h
        · exact ho h
      · rw [hp] at h; cases h

/-! ## What is loaded -/

/-- the last of a list for which `S` or not `Q` is one for which `S` -/
def LastIn {α : Type} (S Q : α → Prop) (l : List α) : Prop := ∃ pre x post, l = pre ++ x :: post ∧ S x ∧ ∀ y ∈ post, Q y

theorem lastIn_nil {α : Type} {S Q : α → Prop} : ¬ LastIn S Q [] := by
  rintro ⟨pre, x, post, e, -⟩
  cases pre <;> cases e

theorem lastIn_cons {α : Type} {S Q : α → Prop} {x : α} {t : List α} : LastIn S Q (x :: t) ↔ LastIn S Q t ∨ (S x ∧ ∀ y ∈ t, Q y) := by
  constructor
  · rintro ⟨pre, y, post, e, hs, hq⟩
    cases pre with
    | nil => cases e; exact .inr ⟨hs, hq⟩
    | cons z pre => cases e; exact .inl ⟨pre, y, post, rfl, hs, hq⟩
  · rintro (⟨pre, y, post, rfl, hs, hq⟩ | ⟨hs, hq⟩)
    · exact ⟨x :: pre, y, post, rfl, hs, hq⟩
    · exact ⟨[], x, t, rfl, hs, hq⟩

theorem foldl_lastIn {α σ : Type} {P : σ → Prop} {S Q : α → Prop} {step : σ → α → σ} (l : List α)
    (h : ∀ s, ∀ x ∈ l, P (step s x) ↔ S x ∨ (Q x ∧ P s)) (s : σ) : P (l.foldl step s) ↔ LastIn S Q l ∨ ((∀ y ∈ l, Q y) ∧ P s) := by
  induction l generalizing s with
  | nil => simp [lastIn_nil]
  | cons x t ih =>
    rw [List.foldl_cons, ih (fun s y hy => h s y (.tail _ hy)), h s x (.head _), lastIn_cons]
    constructor
    · rintro (h1 | ⟨h1, h2 | ⟨h2, h3⟩⟩)
      · exact .inl (.inl h1)
      · exact .inl (.inr ⟨h2, h1⟩)
      · refine .inr ⟨fun y hy => ?_, h3⟩
        rcases List.mem_cons.1 hy with rfl | hy
        · exact h2
        · exact h1 y hy
    · rintro ((h1 | ⟨h1, h2⟩) | ⟨h1, h2⟩)
      · exact .inl h1
      · exact .inr ⟨h2, .inl h1⟩
      · exact .inr ⟨fun y hy => h1 y (.tail _ hy), .inr ⟨h1 x (.head _), h2⟩⟩

theorem lastIn_filter {α : Type} {S Q : α → Prop} (p : α → Bool) (l : List α) (h : ∀ x ∈ l, p x = false → ¬ S x ∧ Q x) :
    LastIn S Q (l.filter p) ↔ LastIn S Q l := by
  induction l with
  | nil => exact Iff.rfl
  | cons x t ih =>
    have ih' := ih fun y hy => h y (.tail _ hy)
    rw [lastIn_cons]
    cases hp : p x with
    | true =>
      rw [List.filter_cons_of_pos hp, lastIn_cons, ih']
      have : (∀ y ∈ t.filter p, Q y) ↔ ∀ y ∈ t, Q y := by
        constructor
        · intro hq y hy
          cases hy' : p y with
          | true => exact hq y (List.mem_filter.2 ⟨hy, hy'⟩)
          | false => exact (h y (.tail _ hy) hy').2
        · exact fun hq y hy => hq y (List.mem_filter.1 hy).1
      rw [this]
    | false =>
      rw [List.filter_cons_of_neg (by simp [hp]), ih']
      exact ⟨.inl, fun h' => h'.elim id fun h' => absurd h'.1 (h x (.head _) hp).1⟩

theorem lastIn_map {α β : Type} {S Q : β → Prop} (f : α → β) (l : List α) :
    LastIn S Q (l.map f) ↔ LastIn (fun x => S (f x)) (fun x => Q (f x)) l := by
  induction l with
  | nil => exact ⟨fun h => absurd h lastIn_nil, fun h => absurd h lastIn_nil⟩
  | cons x t ih => rw [List.map_cons, lastIn_cons, lastIn_cons, ih]; simp

theorem filter_flatMap_kind {α β : Type} [DecidableEq β] (g : α → β) (ks : List β) (hn : ks.Nodup) (k : β) (hk : k ∈ ks) (l : List α) :
    (ks.flatMap fun j => l.filter fun x => decide (g x = j)).filter (fun x => decide (g x = k)) = l.filter fun x => decide (g x = k) := by
  have other : ∀ j, j ≠ k → (l.filter fun x => decide (g x = j)).filter (fun x => decide (g x = k)) = [] := by
    intro j hj
    rw [List.filter_filter, List.filter_eq_nil_iff]
    intro x _ hx
    simp only [Bool.and_eq_true, decide_eq_true_eq] at hx
    exact hj (hx.2.symm.trans hx.1)
  have none : ∀ ks : List β, k ∉ ks →
      (ks.flatMap fun j => l.filter fun x => decide (g x = j)).filter (fun x => decide (g x = k)) = [] := by
    intro ks
    induction ks with
    | nil => intro _; rfl
    | cons j t ih =>
      intro h
      rw [List.flatMap_cons, List.filter_append, other j (fun e => h (e ▸ .head _)), ih fun e => h (.tail _ e)]; rfl
  induction ks with
  | nil => cases hk
  | cons j t ih =>
    rw [List.flatMap_cons, List.filter_append]
    obtain ⟨h1, h2⟩ := List.nodup_cons.1 hn
    by_cases e : j = k
    · subst e
      rw [none t h1, List.append_nil, List.filter_filter]
      congr 1
      funext x
      simp
    · rw [other j e, List.nil_append]
      exact ih h2 ((List.mem_cons.1 hk).resolve_left fun e' => e e'.symm)

theorem lastIn_loadList {S Q : OvBody → Prop} (k : OvKind) (hk : k ∈ loadOrder) (bodies : List OvBody)
    (h : ∀ x : OvBody, x.kind ≠ k → ¬ S x ∧ Q x) : LastIn S Q (loadList bodies) ↔ LastIn S Q bodies := by
  rw [← lastIn_filter (fun x => decide (x.kind = k)) (loadList bodies) fun x _ hx => h x (by simpa using hx),
    ← lastIn_filter (fun x => decide (x.kind = k)) bodies fun x _ hx => h x (by simpa using hx)]
  unfold loadList
  rw [filter_flatMap_kind OvBody.kind loadOrder (by decide) k hk]

/-- what an overlay says about an attribute -/
def OvBody.told (n : Str) : OvBody → Option Fact
  | .charEnc m => (m.get n).map .encoding
  | .format m => (m.get n).map .format
  | .conformance m => (m.get n).map .conformance
  | .cardinality m => (m.get n).map .cardinality
  | .unit m => (m.get n).map .unit
  | .conditional m d => (m.get n).bind fun c => (d.get n).map fun ds => .condition c ds
  | .entryCode m => (m.get n).map .entryCodes
  | .entry l m => (m.get n).map (.entry l)
  | .label l _ m _ => (m.get n).map (.label l)
  | .information l m => (m.get n).map (.information l)
  | .link t m => (m.get n).map (.link t)
  | .framing md m => (md.get c!"frame_id").bind fun i => (m.get n).map (.framing i)
  | _ => none

theorem states_told (n : Str) (b : OvBody) (F : Fact) : b.States n F ↔ b.told n = some F := by
  cases b <;> cases F <;> simp [OvBody.States, OvBody.told, and_assoc, Option.bind_eq_some_iff] <;> grind

theorem told_slot {n : Str} {b : OvBody} {F : Fact} (h : b.told n = some F) : F.slot = b.slot ∧ b.kind = F.slot.1 ∧ b.kind ∈ loadOrder := by
  cases b <;> simp [OvBody.told, Option.bind_eq_some_iff] at h
  case conditional m d => obtain ⟨c, hc, ds, hd, rfl⟩ := h; simp [Fact.slot, OvBody.slot, OvBody.kind, loadOrder]
  case framing md m => obtain ⟨i, hi, fr, hf, rfl⟩ := h; simp [Fact.slot, OvBody.slot, OvBody.kind, loadOrder, hi]
  all_goals
    obtain ⟨v, hv, rfl⟩ := h
    simp [Fact.slot, OvBody.slot, OvBody.kind, loadOrder]

/-- facts that are loaded as they stand: not conditions, which are numbered again, and not frames, which are merged -/
def Fact.asTold : Fact → Bool
  | .condition _ _ => false
  | .framing _ _ => false
  | _ => true

theorem loadAttr_none (E : Env) (n : Str) (a : Attribute) (b : OvBody) (h : b.told n = none) : loadAttr E n a b = a := by
  cases b <;> simp only [OvBody.told] at h <;> try rfl
  case conditional m d =>
    simp only [loadAttr, loadCond]
    cases hm : m.get n with
    | none => rfl
    | some c =>
      cases hd : d.get n with
      | none => rfl
      | some ds => simp [hm, hd] at h
  case framing md m =>
    simp only [loadAttr]
    cases hi : md.get frameIdKey with
    | none => rfl
    | some id =>
      cases hm : m.get n with
      | none => rfl
      | some fr => rw [show md.get c!"frame_id" = some id from hi, hm] at h; cases h
  all_goals
    rename_i m
    first
      | (simp only [loadAttr]; rw [Option.map_eq_none_iff.1 h]; rfl)
      | (rename_i m _; simp only [loadAttr]; rw [Option.map_eq_none_iff.1 h]; rfl)

/-- one overlay: what is loaded is what it says, in its place -/
theorem loadAttr_told (E : Env) (n : Str) (a : Attribute) (b : OvBody) (G : Fact) (h : b.told n = some G) (hp : G.asTold = true) (F : Fact) :
    (loadAttr E n a b).Carries F ↔ F = G ∨ (a.Carries F ∧ F.slot ≠ G.slot) := by
  obtain ⟨-, -, cL, cI, cE, cLk, cEc, cEn, cF, cU, cC, cCa, -, -⟩ := C69_setters a
  cases b <;> simp only [OvBody.told] at h <;> try (cases h; done)
  case conditional m d =>
    obtain ⟨c, hc, h⟩ := Option.bind_eq_some_iff.1 h
    obtain ⟨ds, hd, rfl⟩ := Option.map_eq_some_iff.1 h
    cases hp
  case framing md m =>
    obtain ⟨c, hc, h⟩ := Option.bind_eq_some_iff.1 h
    obtain ⟨ds, hd, rfl⟩ := Option.map_eq_some_iff.1 h
    cases hp
  all_goals
    obtain ⟨v, hv, rfl⟩ := Option.map_eq_some_iff.1 h
    simp only [loadAttr, hv, onSome]
    first
      | exact cL _ _ F
      | exact cI _ _ F
      | exact cE _ _ F
      | exact cLk _ _ F
      | exact cEc _ F
      | exact cEn _ F
      | exact cF _ F
      | exact cU _ F
      | exact cC _ F
      | exact cCa _ F

theorem loadAttr_cond (E : Env) (n : Str) (a : Attribute) (b : OvBody) (c : Str) (ds : List Str) (h : b.told n = some (.condition c ds)) (s : Str)
    (hs : ReadsBack E ds c s) (F : Fact) :
    (loadAttr E n a b).Carries F ↔ F = .condition (setCondition s).1 (setCondition s).2 ∨ (a.Carries F ∧ F.slot ≠ (.conditional, none)) := by
  obtain ⟨-, -, -, -, -, -, -, -, -, -, -, -, cC, -⟩ := C69_setters a
  have : ∃ m d, b = .conditional m d := by
    cases b <;> simp [OvBody.told, Option.bind_eq_some_iff] at h ⊢
  obtain ⟨m, d, rfl⟩ := this
  simp only [OvBody.told] at h
  obtain ⟨c', hc, h⟩ := Option.bind_eq_some_iff.1 h
  obtain ⟨ds', hd, h⟩ := Option.map_eq_some_iff.1 h
  cases h
  simp only [loadAttr, loadCond, hc, hd, ((expand_iff (ε := Unit) E ds c).1 s).2 hs]
  exact cC s F

theorem loadAttr_frame (E : Env) (n : Str) (a : Attribute) (b : OvBody) (id : Str) (fr : FMap Scope) (h : b.told n = some (.framing id fr)) (F : Fact) :
    ∃ md x, b = .framing md x ∧ md.get c!"frame_id" = some id ∧ x.get n = some fr ∧
    ((loadAttr E n a b).Carries F ↔
      (∃ g, F = .framing id g ∧ ∀ sc, g.get sc = ((remeta md fr).get sc).or (((a.framings.bind (·.get id)).getD FMap.empty).get sc)) ∨
      (a.Carries F ∧ F.slot ≠ (.attributeFraming, some id))) := by
  obtain ⟨-, -, -, -, -, -, -, -, -, -, -, -, -, cF⟩ := C69_setters a
  have : ∃ m d, b = .framing m d := by
    cases b <;> simp [OvBody.told, Option.bind_eq_some_iff] at h ⊢
  obtain ⟨md, x, rfl⟩ := this
  simp only [OvBody.told] at h
  obtain ⟨c', hc, h⟩ := Option.bind_eq_some_iff.1 h
  obtain ⟨ds', hd, h⟩ := Option.map_eq_some_iff.1 h
  cases h
  refine ⟨md, x, rfl, hc, hd, ?_⟩
  simp only [loadAttr, show md.get frameIdKey = some id from hc, hd, onSome]
  exact cF id _ F

theorem fact_slot_plain {F G : Fact} (h : F.asTold = true) (h' : G.asTold = false) : F.slot ≠ G.slot := by
  cases F <;> cases G <;> simp [Fact.asTold] at h h' <;> simp [Fact.slot]

/-- the step of loading, for facts that are loaded as they stand -/
theorem loadAttr_step (E : Env) (n : Str) (F : Fact) (hp : F.asTold = true) (known : Str → Prop) (a : Attribute) (b : OvBody) (hb : ¬ b.Broken E known) :
    (loadAttr E n a b).Carries F ↔ b.States n F ∨ ((∀ G : Fact, G.slot = F.slot → ¬ b.States n G) ∧ a.Carries F) := by
  simp only [states_told]
  cases ht : b.told n with
  | none => rw [loadAttr_none E n a b ht]; simp
  | some G =>
    have hsil : (∀ G' : Fact, G'.slot = F.slot → ¬ (some G = some G')) ↔ F.slot ≠ G.slot := by
      constructor
      · exact fun h e => h G e.symm rfl
      · rintro h G' e e'; cases e'; exact h e.symm
    rw [hsil, Option.some.injEq]
    cases hG : G.asTold with
    | true =>
      rw [loadAttr_told E n a b G ht hG F, eq_comm (a := F), and_comm]
    | false =>
      have hne : F.slot ≠ G.slot := fact_slot_plain hp hG
      have hFG : F ≠ G := fun e => hne (by rw [e])
      have hFG' : ¬ G = F := fun e => hFG e.symm
      cases G with
      | condition c ds =>
        have hr : ∃ s, ReadsBack E ds c s := by
          have : ∃ m d, b = .conditional m d := by cases b <;> simp [OvBody.told, Option.bind_eq_some_iff] at ht ⊢
          obtain ⟨m, d, rfl⟩ := this
          simp only [OvBody.told] at ht
          obtain ⟨c', hc, h⟩ := Option.bind_eq_some_iff.1 ht
          obtain ⟨ds', hd, h⟩ := Option.map_eq_some_iff.1 h
          cases h
          by_cases hx : ∃ ds' s, d.get n = some ds' ∧ ReadsBack E ds' c s
          · obtain ⟨ds', s, e, hs⟩ := hx
            rw [hd] at e; cases e
            exact ⟨s, hs⟩
          · exact absurd (.inr (.inl ⟨m, d, rfl, n, c, hc, hx⟩)) hb
        obtain ⟨s, hs⟩ := hr
        rw [loadAttr_cond E n a b c ds ht s hs F]
        have h1 : F ≠ .condition (setCondition s).1 (setCondition s).2 := by
          rintro rfl; cases hp
        have hne' : F.slot ≠ (.conditional, none) := hne
        simp [h1, hne', hFG', hne]
      | framing id fr =>
        obtain ⟨md, x, -, -, -, hiff⟩ := loadAttr_frame E n a b id fr ht F
        rw [hiff]
        have h1 : ∀ g, F ≠ .framing id g := by
          rintro g rfl; cases hp
        have hne' : F.slot ≠ (.attributeFraming, some id) := hne
        simp [h1, hne', hFG', hne]
      | _ => cases hG

/-- the shape of the state a bundle is loaded as -/
theorem ofBundle_ok {ε : Type} {E : Env} {b : Bundle} {box : OCABox} (h : (OCABox.ofBundle E b : Res ε OCABox) = .ok box) :
    ¬ b.Broken E ∧ (∀ n, box.attributes.get n = ((baseAttrs b).get n).map (loadAttrs E n (loadList (b.overlays.map Overlay.body)))) ∧
    box.classification = some b.captureBase.classification ∧ box.metaMap = (b.overlays.map Overlay.body).foldl metaStepOf none := by
  have hnb : ¬ b.Broken E := by
    intro hb
    rw [((C79_load_aborts_iff E b).1).2 hb] at h; cases h
  refine ⟨hnb, ?_⟩
  unfold OCABox.ofBundle at h
  dsimp only at h
  have hfl : (loadFlags (b.captureBase.attributes.filterMap (fun _ t => some ({ ty := some t } : Attribute))) b.captureBase.flagged : Res ε _) =
      .ok (baseAttrs b) := by
    rw [loadFlags_ok]
    · rfl
    · intro n hn
      rw [FMap.get_filterMap]
      cases e : b.captureBase.attributes.get n with
      | none => exact absurd (.inl ⟨n, hn, e⟩) hnb
      | some t => rfl
  rw [hfl] at h
  obtain ⟨attrs, h1, h2⟩ := Res.bind_eq_ok.1 (show Res.bind (loadBodies E (baseAttrs b) (loadList (b.overlays.map Overlay.body))) _ = _ from h)
  rw [loadBodies_fine] at h1
  · cases h1
    cases h2
    refine ⟨fun n => ?_, ?_, ?_⟩
    · dsimp only
      rw [FMap.get_filterMap]
      cases (baseAttrs b).get n <;> rfl
    · rw [loadMetas_eq]
    · rw [loadMetas_eq]
  · intro x hx hbr
    obtain ⟨hx, -⟩ := mem_loadList.1 hx
    obtain ⟨o, hm, rfl⟩ := List.mem_map.1 hx
    exact hnb (.inr ⟨o, hm, (broken_known (baseAttrs_known b) _).1 hbr⟩)

theorem base_carries_none (b : Bundle) (n : Str) (a : Attribute) (h : (baseAttrs b).get n = some a) (F : Fact) : ¬ a.Carries F := by
  rw [baseAttrs_get] at h
  obtain ⟨t, -, rfl⟩ := Option.map_eq_some_iff.1 h
  cases F <;> simp [Attribute.Carries]

theorem lastOverlay_iff (b : Bundle) (S Q : OvBody → Prop) : b.LastOverlay S Q ↔ LastIn S Q (b.overlays.map Overlay.body) := by
  rw [lastIn_map]; rfl

/-- what holds of an attribute after loading, decided overlay by overlay -/
theorem loaded_last {ε : Type} {E : Env} {b : Bundle} {box : OCABox} (h : (OCABox.ofBundle E b : Res ε OCABox) = .ok box) {n : Str}
    {P : Attribute → Prop} {S Q : OvBody → Prop} (k : OvKind) (hk : k ∈ loadOrder)
    (step : ∀ a, ∀ x : OvBody, ¬ x.Broken E (fun n => (b.captureBase.attributes.get n).isSome = true) →
      (P (loadAttr E n a x) ↔ S x ∨ (Q x ∧ P a)))
    (hkind : ∀ x : OvBody, x.kind ≠ k → ¬ S x ∧ Q x) (hbase : ∀ a, (baseAttrs b).get n = some a → ¬ P a)
    (hn : ∀ x : OvBody, ¬ x.Broken E (fun n => (b.captureBase.attributes.get n).isSome = true) → S x → (b.captureBase.attributes.get n).isSome = true) :
    (∃ a, box.attributes.get n = some a ∧ P a) ↔ b.LastOverlay S Q := by
  obtain ⟨hnb, ha, -, -⟩ := ofBundle_ok h
  have fine : ∀ x ∈ b.overlays.map Overlay.body, ¬ x.Broken E (fun n => (b.captureBase.attributes.get n).isSome = true) := by
    intro x hx hb
    obtain ⟨o, ho, rfl⟩ := List.mem_map.1 hx
    exact hnb (.inr ⟨o, ho, hb⟩)
  have key : ∀ a, P (loadAttrs E n (loadList (b.overlays.map Overlay.body)) a) ↔
      LastIn S Q (loadList (b.overlays.map Overlay.body)) ∨ ((∀ y ∈ loadList (b.overlays.map Overlay.body), Q y) ∧ P a) :=
    foldl_lastIn (P := P) (loadList (b.overlays.map Overlay.body)) fun a x hx => step a x (fine x (mem_loadList.1 hx).1)
  rw [lastOverlay_iff, ← lastIn_loadList k hk _ hkind, ha n]
  constructor
  · rintro ⟨a, e, hp⟩
    obtain ⟨a0, h0, rfl⟩ := Option.map_eq_some_iff.1 e
    exact ((key a0).1 hp).resolve_right fun h' => hbase a0 h0 h'.2
  · intro hl
    have hl' := hl
    obtain ⟨pre, x, post, e, hs, -⟩ := hl'
    have hx : x ∈ loadList (b.overlays.map Overlay.body) := by rw [e]; simp
    have := hn x (fine x (mem_loadList.1 hx).1) hs
    obtain ⟨t, ht⟩ := Option.isSome_iff_exists.1 this
    refine ⟨_, by rw [baseAttrs_get, ht]; rfl, (key _).2 (.inl hl)⟩

theorem told_known {E : Env} {K : Str → Prop} {n : Str} {x : OvBody} (hb : ¬ x.Broken E K) {F : Fact} (h : x.told n = some F) : K n := by
  by_cases hk : K n
  · exact hk
  · refine absurd (.inl ⟨?_, n, ?_, hk⟩) hb
    · obtain ⟨-, -, h3⟩ := told_slot h
      intro hu
      revert h3 hu
      generalize x.kind = k
      cases k <;> simp [loadOrder, unloaded]
    · have keys : ∀ {V : Type} (m : FMap V) (v : V), m.get n = some v → n ∈ m.keys := by
        intro V m v e
        exact List.mem_map_of_mem (f := (·.1)) (FMap.get_eq_some_iff.1 e)
      cases x <;> simp [OvBody.told, Option.bind_eq_some_iff] at h <;> simp only [OvBody.attributes]
      case conditional m d => obtain ⟨c, hc, -⟩ := h; exact keys _ _ hc
      case framing md m => obtain ⟨c, -, fr, hc, -⟩ := h; exact keys _ _ hc
      all_goals
        obtain ⟨v, hv, -⟩ := h
        exact keys _ _ hv

/-- **C79** What is loaded of the capture base: a bundle generated from the loaded state has the same attributes with the same types, the same classification,
and flags the same attributes. -/
theorem C79_capture_base {ε : Type} (E : Env) (O : Order) (b : Bundle) (box : OCABox) (h : (OCABox.ofBundle E b : Res ε OCABox) = .ok box)
    (B : Bundle) (hB : (generateBundle E O box : Res Unit _) = .ok B) :
    B.captureBase.attributes = b.captureBase.attributes ∧ B.captureBase.classification = b.captureBase.classification ∧
    ∀ n, n ∈ B.captureBase.flagged ↔ n ∈ b.captureBase.flagged := by
  obtain ⟨hnb, ha, hcl, -⟩ := ofBundle_ok h
  obtain ⟨h1, h2, h3, -, h5⟩ := C14_capture_base_exact E O box B hB
  refine ⟨?_, ?_, ?_⟩
  · ext n : 1
    cases e : b.captureBase.attributes.get n with
    | none =>
      have := h2 n
      rw [ha n, baseAttrs_get, e] at this
      simpa using this
    | some t =>
      refine (h1 n t).2 ⟨_, by rw [ha n, baseAttrs_get, e]; rfl, ?_⟩
      rw [(ty_loadAttrs _ _ _ _).1]
  · rw [h3, hcl]; rfl
  · intro n
    rw [h5 n, ha n, baseAttrs_get]
    cases e : b.captureBase.attributes.get n with
    | none =>
      constructor
      · rintro ⟨a, ea, -⟩; cases ea
      · exact fun hn => absurd (.inl ⟨n, hn, e⟩) hnb
    | some t =>
      simp only [Option.map_some, Option.some.injEq, exists_eq_left', (ty_loadAttrs _ _ _ _).2, decide_eq_true_eq]

/-- **C79** What is told about attributes, conditions and frames apart: the bundle generated from the loaded state tells a fact exactly when, of the overlays of
the base bundle that tell a fact of that kind (for labels, entries and information: in that language; for links: to that target) about the attribute, the last tells it. -/
theorem C79_facts {ε : Type} (E : Env) (O : Order) (b : Bundle) (box : OCABox) (h : (OCABox.ofBundle E b : Res ε OCABox) = .ok box)
    (B : Bundle) (hB : (generateBundle E O box : Res Unit _) = .ok B) (n : Str) (F : Fact) (hF : F.asTold = true) :
    B.Tells n F ↔ b.LastOverlay (fun x => x.States n F) (fun x => ∀ G : Fact, G.slot = F.slot → ¬ x.States n G) := by
  have hr : Reachable E box := .loaded b box h
  refine (C17_overlay_content_exact E O box hr B hB n F).trans ?_
  have hko : F.slot.1 ∈ loadOrder := by cases F <;> simp [Fact.slot, loadOrder]
  refine loaded_last h F.slot.1 hko (fun a x hx => loadAttr_step E n F hF _ a x hx) ?_ (fun a ha => base_carries_none b n a ha F) ?_
  · intro x hx
    refine ⟨fun hs => hx (told_slot ((states_told n x F).1 hs)).2.1, fun G hG hs => hx ?_⟩
    rw [← hG]
    exact (told_slot ((states_told n x G).1 hs)).2.1
  · exact fun x hx hs => told_known hx ((states_told n x F).1 hs)

theorem cond_reads {E : Env} {K : Str → Prop} {x : OvBody} (hb : ¬ x.Broken E K) {n c : Str} {ds : List Str} (h : x.told n = some (.condition c ds)) :
    ∃ s, ReadsBack E ds c s := by
  obtain ⟨m, d, rfl, hc, hd⟩ := (states_told n x (.condition c ds)).2 h
  by_cases hx : ∃ ds' s, d.get n = some ds' ∧ ReadsBack E ds' c s
  · obtain ⟨ds', s, e, hs⟩ := hx
    rw [hd] at e; cases e
    exact ⟨s, hs⟩
  · exact absurd (.inr (.inl ⟨m, d, rfl, n, c, hc, hx⟩)) hb

theorem ReadsBack.unique {E : Env} {ds : List Str} {c s t : Str} (h : ReadsBack E ds c s) (h' : ReadsBack E ds c t) : s = t := by
  have h1 := ((expand_iff (ε := Unit) E ds c).1 s).2 h
  have h2 := ((expand_iff (ε := Unit) E ds c).1 t).2 h'
  rw [h1] at h2; cases h2; rfl

/-- **C79** Conditions: that of the last overlay that has one for the attribute, read back with its names and numbered again. -/
theorem C79_conditions {ε : Type} (E : Env) (O : Order) (b : Bundle) (box : OCABox) (h : (OCABox.ofBundle E b : Res ε OCABox) = .ok box)
    (B : Bundle) (hB : (generateBundle E O box : Res Unit _) = .ok B) (n c : Str) (ds : List Str) :
    B.Tells n (.condition c ds) ↔
      b.LastOverlay (fun x => ∃ c0 ds0 s, x.States n (.condition c0 ds0) ∧ ReadsBack E ds0 c0 s ∧ setCondition s = (c, ds))
        (fun x => ∀ c0 ds0, ¬ x.States n (.condition c0 ds0)) := by
  have hr : Reachable E box := .loaded b box h
  refine (C17_overlay_content_exact E O box hr B hB n _).trans ?_
  refine loaded_last h .conditional (by simp [loadOrder]) (fun a x hx => ?_) ?_ (fun a ha => base_carries_none b n a ha _) ?_
  · simp only [states_told]
    cases ht : x.told n with
    | none => rw [loadAttr_none E n a x ht]; simp
    | some G =>
      by_cases hG : ∃ c0 ds0, G = .condition c0 ds0
      · obtain ⟨c0, ds0, rfl⟩ := hG
        obtain ⟨s, hs⟩ := cond_reads hx ht
        rw [loadAttr_cond E n a x c0 ds0 ht s hs]
        constructor
        · rintro (e | ⟨-, e⟩)
          · cases e; exact .inl ⟨c0, ds0, s, rfl, hs, rfl⟩
          · exact absurd rfl e
        · rintro (⟨c1, ds1, s1, e, hs1, e2⟩ | ⟨e, -⟩)
          · cases e
            cases hs.unique hs1
            rw [e2]; exact .inl rfl
          · exact absurd rfl (e c0 ds0)
      · have hne : ∀ c0 ds0, ¬ some G = some (Fact.condition c0 ds0) := fun c0 ds0 e => hG ⟨c0, ds0, Option.some.inj e⟩
        have hsl : (Fact.condition c ds).slot ≠ G.slot := by
          cases G <;> simp [Fact.slot]
          exact absurd ⟨_, _, rfl⟩ hG
        have hnG : Fact.condition c ds ≠ G := fun e => hG ⟨c, ds, e.symm⟩
        have key : (loadAttr E n a x).Carries (.condition c ds) ↔ a.Carries (.condition c ds) := by
          cases hp : G.asTold with
          | true => rw [loadAttr_told E n a x G ht hp]; simp [hnG, hsl]
          | false =>
            cases G with
            | condition c0 ds0 => exact absurd ⟨_, _, rfl⟩ hG
            | framing id fr =>
              obtain ⟨md, y, -, -, -, hiff⟩ := loadAttr_frame E n a x id fr ht (.condition c ds)
              rw [hiff]
              simp [Fact.slot]
            | _ => cases hp
        rw [key]
        simp [hne]
  · intro x hx
    have : ∀ c0 ds0, ¬ x.States n (.condition c0 ds0) := fun c0 ds0 hs => hx (told_slot ((states_told n x _).1 hs)).2.1
    refine ⟨?_, this⟩
    rintro ⟨c0, ds0, s, hs, -⟩
    exact this c0 ds0 hs
  · rintro x hx ⟨c0, ds0, s, hs, -⟩
    exact told_known hx ((states_told n x _).1 hs)

theorem loadAttr_frame_other {E : Env} {K : Str → Prop} {n : Str} {a : Attribute} {x : OvBody} (hx : ¬ x.Broken E K) {id : Str}
    (h : ∀ fr, ¬ x.States n (.framing id fr)) (g : FMap Scope) : (loadAttr E n a x).Carries (.framing id g) ↔ a.Carries (.framing id g) := by
  cases ht : x.told n with
  | none => rw [loadAttr_none E n a x ht]
  | some G =>
    have hG : ∀ fr, G ≠ .framing id fr := fun fr e => h fr ((states_told n x _).2 (e ▸ ht))
    cases hp : G.asTold with
    | true =>
      have h1 : Fact.framing id g ≠ G := fun e => hG g e.symm
      have h2 : (Fact.framing id g).slot ≠ G.slot := by cases G <;> first | (cases hp; done) | simp [Fact.slot]
      rw [loadAttr_told E n a x G ht hp]; simp [h1, h2]
    | false =>
      cases G with
      | condition c0 ds0 =>
        obtain ⟨s, hs⟩ := cond_reads hx ht
        rw [loadAttr_cond E n a x c0 ds0 ht s hs]
        simp [Fact.slot]
      | framing id' fr =>
        have hne : id' ≠ id := fun e => hG fr (e ▸ rfl)
        obtain ⟨md, y, -, -, -, hiff⟩ := loadAttr_frame E n a x id' fr ht (.framing id g)
        rw [hiff]
        simp [Fact.slot, Ne.symm hne]
      | _ => cases hp

/-- **C79** Frames: each scope an attribute has in a frame is the one of the last overlay that gives it one, with the metadata of that overlay; and the attribute
is in a frame exactly when some overlay has it there. -/
theorem C79_scopes {ε : Type} (E : Env) (O : Order) (b : Bundle) (box : OCABox) (h : (OCABox.ofBundle E b : Res ε OCABox) = .ok box)
    (B : Bundle) (hB : (generateBundle E O box : Res Unit _) = .ok B) (n id : Str) :
    (∀ sc v, B.HasScope n id sc v ↔ b.LastOverlay (fun x => x.GivesScope n id sc v) (fun x => ∀ w, ¬ x.GivesScope n id sc w)) ∧
    ((∃ fr, B.Tells n (.framing id fr)) ↔ ∃ fr, b.Tells n (.framing id fr)) := by
  have hr : Reachable E box := .loaded b box h
  have t := C17_overlay_content_exact E O box hr B hB n
  have gives : ∀ (x : OvBody) sc v, x.GivesScope n id sc v ↔ ∃ md y fr, x = .framing md y ∧ md.get c!"frame_id" = some id ∧ y.get n = some fr ∧ (remeta md fr).get sc = some v := by
    intro x sc v
    unfold OvBody.GivesScope remeta
    constructor
    · rintro ⟨md, y, fr, s, e1, e2, e3, e4, rfl⟩
      refine ⟨md, y, fr, e1, e2, e3, ?_⟩
      rw [FMap.get_filterMap, e4]; rfl
    · rintro ⟨md, y, fr, e1, e2, e3, e4⟩
      rw [FMap.get_filterMap] at e4
      obtain ⟨s, e5, e6⟩ := Option.bind_eq_some_iff.1 e4
      exact ⟨md, y, fr, s, e1, e2, e3, e5, (Option.some.inj e6).symm⟩
  have states : ∀ (x : OvBody) md y, x = .framing md y → ∀ fr, (md.get c!"frame_id" = some id ∧ y.get n = some fr) ↔ x.States n (.framing id fr) := by
    rintro x md y rfl fr
    constructor
    · exact fun e => ⟨md, y, rfl, e.1, e.2⟩
    · rintro ⟨md', y', e, e1, e2⟩; cases e; exact ⟨e1, e2⟩
  constructor
  · intro sc v
    have e : B.HasScope n id sc v ↔ ∃ a, box.attributes.get n = some a ∧ ∃ fr, a.Carries (.framing id fr) ∧ fr.get sc = some v := by
      constructor
      · rintro ⟨fr, ht, hs⟩
        obtain ⟨a, h1, h2⟩ := (t _).1 ht
        exact ⟨a, h1, fr, h2, hs⟩
      · rintro ⟨a, h1, fr, h2, hs⟩
        exact ⟨fr, (t _).2 ⟨a, h1, h2⟩, hs⟩
    rw [e]
    refine loaded_last h .attributeFraming (by simp [loadOrder]) (fun a x hx => ?_) ?_ ?_ ?_
    · by_cases hs : ∃ fr, x.States n (.framing id fr)
      · obtain ⟨fr, hs⟩ := hs
        obtain ⟨md, y, e1, e2, e3, -⟩ := loadAttr_frame E n a x id fr ((states_told n x _).1 hs) (.framing id fr)
        have hiff := fun g => (loadAttr_frame E n a x id fr ((states_told n x _).1 hs) (.framing id g))
        have hg : ∀ w, x.GivesScope n id sc w ↔ (remeta md fr).get sc = some w := by
          intro w
          rw [gives]
          constructor
          · rintro ⟨md', y', fr', e1', e2', e3', e4⟩
            rw [e1] at e1'; cases e1'
            rw [e3] at e3'; cases e3'
            exact e4
          · exact fun e4 => ⟨md, y, fr, e1, e2, e3, e4⟩
        have hold : (∃ g, a.Carries (.framing id g) ∧ g.get sc = some v) ↔ ((a.framings.bind (·.get id)).getD FMap.empty).get sc = some v := by
          simp only [Attribute.Carries]
          cases a.framings with
          | none => simp
          | some m => cases e5 : m.get id <;> simp [e5]
        have hnew : (∃ g, (loadAttr E n a x).Carries (.framing id g) ∧ g.get sc = some v) ↔
            ((remeta md fr).get sc).or (((a.framings.bind (·.get id)).getD FMap.empty).get sc) = some v := by
          constructor
          · rintro ⟨g, hc, hv⟩
            obtain ⟨md', y', e1', -, -, hi⟩ := hiff g
            rw [e1] at e1'; cases e1'
            rcases hi.1 hc with ⟨g', eg, hall⟩ | ⟨-, hne⟩
            · cases eg; rw [← hall sc]; exact hv
            · exact absurd rfl hne
          · intro hv
            have hall : ∀ sc, ((((a.framings.bind (·.get id)).getD FMap.empty).insertAll (remeta md fr).l).get sc) =
                ((remeta md fr).get sc).or (((a.framings.bind (·.get id)).getD FMap.empty).get sc) := fun sc => FMap.get_insertAll_map _ _ _
            obtain ⟨md', y', e1', -, -, hi⟩ := hiff (((a.framings.bind (·.get id)).getD FMap.empty).insertAll (remeta md fr).l)
            rw [e1] at e1'; cases e1'
            exact ⟨_, hi.2 (.inl ⟨_, rfl, hall⟩), by rw [hall]; exact hv⟩
        rw [hnew, hold]
        simp only [hg]
        cases (remeta md fr).get sc <;> simp
      · have hs' : ∀ fr, ¬ x.States n (.framing id fr) := fun fr e => hs ⟨fr, e⟩
        have hng : ∀ w, ¬ x.GivesScope n id sc w := by
          intro w hw
          obtain ⟨md, y, fr, e1, e2, e3, -⟩ := (gives x sc w).1 hw
          exact hs' fr ((states x md y e1 fr).1 ⟨e2, e3⟩)
        simp only [loadAttr_frame_other hx hs']
        simp [hng]
    · intro x hx
      have : ∀ w, ¬ x.GivesScope n id sc w := by
        rintro w ⟨md, y, fr, s, rfl, -⟩
        exact hx rfl
      exact ⟨this v, this⟩
    · rintro a ha ⟨fr, hc, -⟩
      exact base_carries_none b n a ha _ hc
    · intro x hx hs
      obtain ⟨md, y, fr, e1, e2, e3, -⟩ := (gives x sc v).1 hs
      exact told_known hx ((states_told n x _).1 ((states x md y e1 fr).1 ⟨e2, e3⟩))
  · have e : (∃ fr, B.Tells n (.framing id fr)) ↔ ∃ a, box.attributes.get n = some a ∧ ∃ fr, a.Carries (.framing id fr) := by
      constructor
      · rintro ⟨fr, ht⟩
        obtain ⟨a, h1, h2⟩ := (t _).1 ht
        exact ⟨a, h1, fr, h2⟩
      · rintro ⟨a, h1, fr, h2⟩
        exact ⟨fr, (t _).2 ⟨a, h1, h2⟩⟩
    rw [e]
    have := loaded_last h (n := n) (P := fun a => ∃ fr, a.Carries (.framing id fr)) (S := fun x => ∃ fr, x.States n (.framing id fr)) (Q := fun _ => True)
      .attributeFraming (by simp [loadOrder]) (fun a x hx => ?_) ?_ ?_ ?_
    · rw [this]
      constructor
      · rintro ⟨pre, o, post, eo, ⟨fr, hs⟩, -⟩
        exact ⟨fr, o, by rw [eo]; simp, hs⟩
      · rintro ⟨fr, o, ho, hs⟩
        obtain ⟨pre, post, eo⟩ := List.append_of_mem ho
        exact ⟨pre, o, post, eo, ⟨fr, hs⟩, fun _ _ => trivial⟩
    · by_cases hs : ∃ fr, x.States n (.framing id fr)
      · obtain ⟨fr, hs⟩ := hs
        obtain ⟨md, y, e1, e2, e3, -⟩ := loadAttr_frame E n a x id fr ((states_told n x _).1 hs) (.framing id fr)
        refine ⟨fun _ => .inl ⟨fr, hs⟩, fun _ => ?_⟩
        obtain ⟨md', y', e1', -, -, hi⟩ := loadAttr_frame E n a x id fr ((states_told n x _).1 hs)
          (.framing id (((a.framings.bind (·.get id)).getD FMap.empty).insertAll (remeta md fr).l))
        rw [e1] at e1'; cases e1'
        exact ⟨_, hi.2 (.inl ⟨_, rfl, fun sc => FMap.get_insertAll_map _ _ _⟩)⟩
      · have hs' : ∀ fr, ¬ x.States n (.framing id fr) := fun fr e => hs ⟨fr, e⟩
        simp only [loadAttr_frame_other hx hs']
        simp [hs']
    · intro x hx
      exact ⟨fun ⟨fr, hs⟩ => hx (told_slot ((states_told n x _).1 hs)).2.1, trivial⟩
    · rintro a ha ⟨fr, hc⟩
      exact base_carries_none b n a ha _ hc
    · rintro x hx ⟨fr, hs⟩
      exact told_known hx ((states_told n x _).1 hs)

theorem metaStepOf_gives (o : Option (FMap (FMap Str))) (x : OvBody) (l : Lang) (k v : Str) :
    (∃ m ps, metaStepOf o x = some m ∧ m.get l = some ps ∧ ps.get k = some v) ↔
      x.GivesMeta l k v ∨ ((∀ w, ¬ x.GivesMeta l k w) ∧ ∃ m ps, o = some m ∧ m.get l = some ps ∧ ps.get k = some v) := by
  by_cases hx : ∃ ps, x = .metaOv l ps
  · obtain ⟨ps, rfl⟩ := hx
    have hg : ∀ w, (OvBody.metaOv l ps).GivesMeta l k w ↔ ps.get k = some w := by
      intro w
      constructor
      · rintro ⟨ps', e, h⟩; cases e; exact h
      · exact fun h => ⟨ps, rfl, h⟩
    simp only [hg, metaStepOf, metaPut]
    by_cases he : ps.l = []
    · rw [if_pos he]
      have hn : ps.get k = none := by
        cases e : ps.get k with
        | none => rfl
        | some w => have := FMap.get_eq_some_iff.1 e; rw [he] at this; cases this
      simp [hn]
    · rw [if_neg he]
      have hold : (∃ m ps', o = some m ∧ m.get l = some ps' ∧ ps'.get k = some v) ↔ (((o.getD FMap.empty).get l).getD FMap.empty).get k = some v := by
        cases o with
        | none => simp
        | some m => cases e : m.get l <;> simp [e]
      rw [hold]
      constructor
      · rintro ⟨m, ps', em, e', h⟩
        cases em
        rw [FMap.get_insert, if_pos rfl] at e'
        cases e'
        rw [FMap.get_insertAll_map] at h
        cases e : ps.get k with
        | none => rw [e] at h; exact .inr ⟨(fun w hw => by cases hw), h⟩
        | some w => rw [e] at h; exact .inl h
      · intro h
        refine ⟨_, _, rfl, by rw [FMap.get_insert, if_pos rfl], ?_⟩
        rw [FMap.get_insertAll_map]
        rcases h with h | ⟨h1, h2⟩
        · rw [h]; rfl
        · cases e : ps.get k with
          | none => exact h2
          | some w => exact absurd e (h1 w)
  · have hng : ∀ w, ¬ x.GivesMeta l k w := fun w ⟨ps, e, _⟩ => hx ⟨ps, e⟩
    have hs : x.slot ≠ (.metaOv, some l) := by
      intro e
      cases x <;> simp [OvBody.slot, OvBody.kind] at e
      subst e
      exact hx ⟨_, rfl⟩
    have ho := optGet_metaStepOf o x l hs
    have key : ∀ q : Option (FMap (FMap Str)), (∃ m ps, q = some m ∧ m.get l = some ps ∧ ps.get k = some v) ↔ ∃ ps, optGet q l = some ps ∧ ps.get k = some v := by
      intro q
      simp only [optGet_eq_some]
      constructor
      · rintro ⟨m, ps, h1, h2, h3⟩; exact ⟨ps, ⟨m, h1, h2⟩, h3⟩
      · rintro ⟨ps, ⟨m, h1, h2⟩, h3⟩; exact ⟨m, ps, h1, h2, h3⟩
    rw [key, key, ho]
    simp [hng]

/-- **C79** The meta of a language: each key has the value of the last overlay of the language that has the key. -/
theorem C79_meta {ε : Type} (E : Env) (O : Order) (b : Bundle) (box : OCABox) (h : (OCABox.ofBundle E b : Res ε OCABox) = .ok box)
    (B : Bundle) (hB : (generateBundle E O box : Res Unit _) = .ok B) (l : Lang) (k v : Str) :
    B.HasMeta l k v ↔ b.LastOverlay (fun x => x.GivesMeta l k v) (fun x => ∀ w, ¬ x.GivesMeta l k w) := by
  obtain ⟨-, -, -, hm⟩ := ofBundle_ok h
  rw [hasMeta_gen (.loaded b box h) hB, lastOverlay_iff, hm]
  refine (foldl_lastIn (P := fun o : Option (FMap (FMap Str)) => ∃ m ps, o = some m ∧ m.get l = some ps ∧ ps.get k = some v) _
    (fun s x _ => metaStepOf_gives s x l k v) none).trans ?_
  simp

/-- **C79** What is lost: the bundle generated from any state has no overlay of the kinds `attribute_mapping`, `standard`, `subset` and `entry_code_mapping`, its
label overlays have no categories and no category labels, and no overlay names a name that is not one of the attributes. -/
theorem C79_lost {ε : Type} (E : Env) (O : Order) (b : Bundle) (box : OCABox) (h : (OCABox.ofBundle E b : Res ε OCABox) = .ok box)
    (B : Bundle) (hB : (generateBundle E O box : Res Unit _) = .ok B) (o : Overlay) (ho : o ∈ B.overlays) :
    o.body.kind ∉ [OvKind.attributeMapping, .standard, .subset, .entryCodeMapping] ∧
    (∀ l cs m cl, o.body = .label l cs m cl → cs = [] ∧ cl = FMap.empty) ∧
    ∀ n ∈ o.body.attributes, (b.captureBase.attributes.get n).isSome = true := by
  have hr : Reachable E box := .loaded b box h
  have hw := hr.wf
  refine ⟨?_, ?_, ?_⟩
  · rcases (C17_no_empty_overlay E O box hr B hB).1 o ho with ⟨n, f, hs⟩ | ⟨l, ps, e⟩
    · obtain ⟨-, -, h3⟩ := told_slot ((states_told n _ f).1 hs)
      revert h3
      generalize o.body.kind = k
      cases k <;> simp [loadOrder]
    · rw [e]; simp [OvBody.kind]
  · intro l cs m cl e
    obtain ⟨-, rfl⟩ := generateBundle_eq_ok hB
    have hmem : o.body ∈ genBodies O box := by
      rw [← bodies_bundleOf E O box]; exact List.mem_map_of_mem ho
    rcases mem_genBodies O box hw _ hmem with ⟨m, l, ps, -, -, e'⟩ | ⟨K, hK, -⟩
    · rw [e] at e'; cases e'
    · have hk := hK.key
      rw [e] at hk
      cases Option.some.inj hk
      simp only [IsBody] at hK
      rw [e] at hK
      injection hK with e1 e2 e3 e4
      refine ⟨e2, ?_⟩
      rw [e4]
      ext n : 1
      rw [get_collect]
      cases ha : box.attributes.get n with
      | none => rfl
      | some a =>
        simp only [Option.bind_some, (hw.attrs n a ha).noCat]
        split <;> rfl
  · intro n hn
    obtain ⟨t, ht⟩ := C15_overlays_within_capture_base E O box hr B hB o ho n hn
    rw [(C79_capture_base E O b box h B hB).1] at ht
    rw [ht]; rfl

/-! ## A build on it -/

theorem any_base_state {E : Env} {Os : Nat → Order} {b : Bundle} {ast : OCAAst} {d : Build} (h : fromAst E Os (some b) ast = .ok d) :
    ∃ m box, (OCABox.ofBundle E b : Res (List BuildErr) _) = .ok m ∧ Took E m ast.commands box ∧ Reachable E box ∧
      (generateBundle E (Os ast.commands.length) box : Res (List BuildErr) _) = .ok d.bundle := by
  obtain ⟨st, box, h1, h2, h3, h4, -, -, -, h5, -⟩ := C12_successful_build E Os (some b) ast d h
  have took : ∀ (cs : List Command) (m : OCABox), (∀ r ∈ results E (some m) cs, r.isOk = true) → finalState E (some m) cs = some box → Took E m cs box := by
    intro cs
    induction cs with
    | nil => intro m _ hf; cases hf; exact .nil _
    | cons c cs ih =>
      intro m hr hf
      have hc := hr _ (.head _)
      cases ha : applyCommand E (some m) c with
      | ok x =>
        simp only [finalState, results, ha, afterResult] at hf hr
        exact .cons ha (ih x (fun r hr' => hr r (.tail _ hr')) hf)
      | err e => rw [ha] at hc; cases hc
      | panic => rw [ha] at hc; cases hc
  obtain ⟨m, h6, h7⟩ := Res.bind_eq_ok.1 (show (OCABox.ofBundle E b : Res (List BuildErr) _).bind (fun x => .ok (some x)) = .ok st from h1)
  cases h7
  exact ⟨m, box, h6, took _ _ h2 h3, h4, h5⟩

theorem ofBundle_any {ε ε' : Type} {E : Env} {b : Bundle} {box : OCABox} (h : (OCABox.ofBundle E b : Res ε OCABox) = .ok box) :
    (OCABox.ofBundle E b : Res ε' OCABox) = .ok box := by
  have hnb := (ofBundle_ok h).1
  cases e : (OCABox.ofBundle E b : Res ε' OCABox) with
  | ok box' =>
    obtain ⟨-, h1, h2, h3⟩ := ofBundle_ok h
    obtain ⟨-, h1', h2', h3'⟩ := ofBundle_ok e
    have hm : box.mappings = box'.mappings := by
      have : ∀ {ε : Type} {box : OCABox}, (OCABox.ofBundle E b : Res ε OCABox) = .ok box → box.mappings = none := by
        intro ε box h
        unfold OCABox.ofBundle at h
        dsimp only at h
        obtain ⟨_, -, h⟩ := Res.bind_eq_ok.1 (show Res.bind _ _ = _ from h)
        obtain ⟨_, -, h⟩ := Res.bind_eq_ok.1 (show Res.bind _ _ = _ from h)
        cases h
        dsimp only
        rw [loadMetas_eq]
      rw [this h, this e]
    have ha : box.attributes = box'.attributes := by
      ext n : 1
      rw [h1, h1']
    cases box
    cases box'
    simp only at hm ha h2 h3 h2' h3'
    subst hm ha
    rw [h2, h2', h3, h3']
  | err x => exact absurd e ((C79_load_aborts_iff E b).2 x)
  | panic => exact absurd ((C79_load_aborts_iff E b).1.1 e) hnb

/-- **C79** A build on a bundle of any origin: it says of each thing what the last command to speak of it says, and otherwise what the bundle says that is generated
when the base is loaded and nothing is done with it (for which see the theorems above). -/
theorem C79_build (E : Env) (Os : Nat → Order) (O : Order) (b : Bundle) (ast : OCAAst) (d : Build) (h : fromAst E Os (some b) ast = .ok d)
    (hD : ∀ c ∈ ast.commands, c.Distinct) :
    ∃ box B, (OCABox.ofBundle E b : Res Unit _) = .ok box ∧ (generateBundle E O box : Res Unit _) = .ok B ∧
    (∀ n t, d.bundle.captureBase.attributes.get n = some t ↔ LastSays (AddsType · n t) (NotNamed · n) ast.commands ∨
      ((∀ c ∈ ast.commands, NotNamed c n) ∧ B.captureBase.attributes.get n = some t)) ∧
    (∀ n, n ∈ d.bundle.captureBase.flagged ↔ (∀ c ∈ ast.commands, ¬ RemovesAttr c n) ∧ n ∈ B.captureBase.flagged) ∧
    (∀ n (F : Fact), F.overwritten = true → (d.bundle.Tells n F ↔ LastSays (Says E · n F) (Silent E · n F.slot) ast.commands ∨
      ((∀ c ∈ ast.commands, Silent E c n F.slot) ∧ B.Tells n F))) ∧
    (∀ n (F : Fact), F.first = true → (d.bundle.Tells n F ↔
      (∃ pre c post, ast.commands = pre ++ c :: post ∧ Says E c n F ∧ (∀ d ∈ post, ¬ RemovesAttr d n) ∧
        (LastSays (RemovesAttr · n) (Mute E · n F.slot) pre ∨
          ((∀ d ∈ pre, Mute E d n F.slot) ∧ ∀ G : Fact, G.slot = F.slot → ¬ B.Tells n G))) ∨
      ((∀ c ∈ ast.commands, ¬ RemovesAttr c n) ∧ B.Tells n F))) ∧
    (∀ n id sc v, d.bundle.HasScope n id sc v ↔
      LastSays (SaysScope · n id sc v) (fun c => ¬ RemovesAttr c n ∧ ∀ w, ¬ SaysScope c n id sc w) ast.commands ∨
      ((∀ c ∈ ast.commands, ¬ RemovesAttr c n ∧ ∀ w, ¬ SaysScope c n id sc w) ∧ B.HasScope n id sc v)) ∧
    (∀ l k v, d.bundle.HasMeta l k v ↔ LastSays (SaysMeta E · l k v) (fun c => ∀ w, ¬ SaysMeta E c l k w) ast.commands ∨
      ((∀ c ∈ ast.commands, ∀ w, ¬ SaysMeta E c l k w) ∧ B.HasMeta l k v)) := by
  obtain ⟨m, box, h0, h1, h2, h3⟩ := any_base_state h
  have hm : Reachable E m := .loaded b m h0
  have hg := reachable_gen (ε := Unit) hm O
  have told : ∀ n F, (bundleOf E O m).Tells n F ↔ m.Holds n F := fun n F => C17_overlay_content_exact E O m hm _ hg n F
  have told' : ∀ n F, d.bundle.Tells n F ↔ box.Holds n F := fun n F => C17_overlay_content_exact E _ box h2 _ h3 n F
  have meta_gen : ∀ {ε : Type} {O : Order} {box : OCABox} {B : Bundle}, Reachable E box → (generateBundle E O box : Res ε _) = .ok B →
      ∀ l k v, B.HasMeta l k v ↔ box.HasMeta l k v := by
    intro ε O box B hr hB l k v
    have hx := (C17_no_empty_overlay E _ box hr _ hB).2.1
    unfold OCABox.HasMeta
    constructor
    · rintro ⟨o, ho, ps, e, hp⟩
      obtain ⟨mm, h5, h6⟩ := (hx l ps).1 ⟨o, ho, e⟩
      simp [h5, h6, hp]
    · intro hh
      obtain ⟨ps, h5, h6⟩ := Option.bind_eq_some_iff.1 hh
      obtain ⟨mm, h7, h8⟩ := Option.bind_eq_some_iff.1 h5
      obtain ⟨o, ho, e⟩ := (hx l ps).2 ⟨mm, h7, h8⟩
      exact ⟨o, ho, ps, e, h6⟩
  refine ⟨m, bundleOf E O m, ofBundle_any h0, hg, ?_, ?_, ?_, ?_, ?_, ?_⟩
  · intro n t
    rw [(C14_capture_base_exact E _ box _ h3).1 n t, (C14_capture_base_exact E O m _ hg).1 n t]
    exact last_decides' (P := fun b => b.Typed n t) (fun b c b' hD ha => typed_step hD ha n t) h1 hD
  · intro n
    rw [(C14_capture_base_exact E _ box _ h3).2.2.2.2 n, (C14_capture_base_exact E O m _ hg).2.2.2.2 n]
    refine Iff.trans (last_decides' (P := fun b => b.Flags n) (S := fun _ => False) (fun b c b' hD ha => flags_step hD ha n) h1 hD) ?_
    have : ¬ LastSays (fun _ => False) (fun c => ¬ RemovesAttr c n) ast.commands := by rintro ⟨_, _, _, -, h, -⟩; exact h
    simp only [this, false_or]
    exact Iff.rfl
  · intro n F hF
    rw [told', told]
    exact last_decides' (P := fun b => b.Holds n F) (fun b c b' hD ha => holds_step hD ha n hF) h1 hD
  · intro n F hF
    rw [told', told]
    have hk : ∃ k, F.slot = (k, none) ∧ (k = .unit ∨ k = .entryCode) := by
      cases F with
      | unit s => exact ⟨_, rfl, .inl rfl⟩
      | entryCodes s => exact ⟨_, rfl, .inr rfl⟩
      | _ => cases hF
    obtain ⟨k, hs, hk⟩ := hk
    refine Iff.trans (last_decides (P := fun b => b.Holds n F) (S := fun x c => Says E c n F ∧ x.Lacks n F.slot) (Q := fun c => ¬ RemovesAttr c n)
      (fun b c b' hD ha => first_step hD ha n hF) h1 hD) ?_
    refine or_congr ?_ Iff.rfl
    have lacks : ∀ pre x, (∀ c ∈ pre, c.Distinct) → Took E m pre x → (x.Lacks n F.slot ↔ LastSays (RemovesAttr · n) (Mute E · n F.slot) pre ∨
            ((∀ d ∈ pre, Mute E d n F.slot) ∧ ∀ G : Fact, G.slot = F.slot → ¬ (bundleOf E O m).Tells n G)) := by
      intro pre x hpre ht
      simp only [told]
      rw [hs]
      exact last_decides' (P := fun b => b.Lacks n (k, none)) (fun b c b' hD ha => lacks_step hD ha n hk) ht hpre
    constructor
    · rintro ⟨pre, c, post, x, e, ht, ⟨h4, h5⟩, h6⟩
      exact ⟨pre, c, post, e, h4, h6, (lacks pre x (fun d hd => hD d (by rw [e]; exact List.mem_append_left _ hd)) ht).1 h5⟩
    · rintro ⟨pre, c, post, e, h4, h6, h5⟩
      have split : ∀ (l l' : List Command) (m : OCABox), Took E m (l ++ l') box → ∃ x, Took E m l x := by
        intro l
        induction l with
        | nil => intro l' m _; exact ⟨m, .nil m⟩
        | cons y l ih =>
          intro l' m ht
          cases ht with
          | cons hx ht => obtain ⟨x, hx'⟩ := ih l' _ ht; exact ⟨x, .cons hx hx'⟩
      rw [e] at h1
      obtain ⟨x, ht⟩ := split pre _ m h1
      exact ⟨pre, c, post, x, e, ht, ⟨h4, (lacks pre x (fun d hd => hD d (by rw [e]; exact List.mem_append_left _ hd)) ht).2 h5⟩, h6⟩
  · intro n id sc v
    have e1 : d.bundle.HasScope n id sc v ↔ box.HoldsScope n id sc v := exists_congr fun fr => and_congr_left fun _ => told' n (.framing id fr)
    have e2 : (bundleOf E O m).HasScope n id sc v ↔ m.HoldsScope n id sc v := exists_congr fun fr => and_congr_left fun _ => told n (.framing id fr)
    rw [e1, e2]
    exact last_decides' (P := fun b => b.HoldsScope n id sc v) (fun b c b' hD ha => scope_step hD ha n id sc v) h1 hD
  · intro l k v
    rw [meta_gen h2 h3, meta_gen hm hg]
    exact last_decides' (P := fun b => b.HasMeta l k v) (fun b c b' hD ha => meta_step hD ha l k v) h1 hD

/-! ## A concrete case -/

/-- a bundle of these overlays, its identifiers filled -/
def foreign (bodies : List OvBody) : Bundle :=
  let cb := CaptureBase.sign Env.words ⟨none, c!"spec/capture_base/1.0", FMap.ofList [(c!"a", .val .text), (c!"b", .val .text), (c!"c", .val .text)], [], [c!"a"]⟩
  Bundle.fillSaid Env.words ⟨none, cb, bodies.map fun x => Overlay.sign Env.words (cb.said.getD []) ⟨none, none, c!"1.1", x⟩⟩

/-- another program's: two unit overlays, a condition with its names in another order, a category, a standard -/
def foreignBodies : List OvBody :=
  [.unit (FMap.ofList [(c!"a", c!"m"), (c!"b", c!"m")]), .unit (FMap.ofList [(c!"a", c!"kg")]),
   .conditional (FMap.ofList [(c!"c", c!"${1} ~= ${0}")]) (FMap.ofList [(c!"c", [c!"a", c!"b"])]),
   .label c!"eng" [c!"_cat"] (FMap.ofList [(c!"a", c!"A")]) (FMap.ofList [(c!"a", c!"_cat")]),
   .standard (FMap.ofList [(c!"a", c!"urn:iso:std:iso:8601")])]

/-- the overlays of the bundle generated from a bundle loaded, and whether that has the same identifier; nothing if it aborts -/
def rebuilt (b : Bundle) : Option (List OvBody × Bool) :=
  match (OCABox.ofBundle Env.words b : Res Unit _) with
  | .ok box => match (generateBundle Env.words Order.sorted box : Res Unit _) with
    | .ok B => some (B.overlays.map (·.body), B.said == b.said)
    | _ => none
  | _ => none

/-- whether the validator takes a bundle -/
def foreignTaken (b : Bundle) : Bool := match validateBundle Env.words [] b with
  | .ok _ => true
  | _ => false

set_option maxRecDepth 20000 in
/-- **C79** A bundle that the validator takes, and what it becomes: the later unit of `a` and the unit of `b`, the condition numbered again, the label without its
category, no standard, another identifier. Two bundles whose loading aborts: one, taken by the validator, with a unit for a name that is no attribute, one with a condition with a number too high. A subset of unknown
names does not abort, it is dropped. -/
theorem C79_example : foreignTaken (foreign foreignBodies) = true ∧
    rebuilt (foreign foreignBodies) = some ([.unit (FMap.ofList [(c!"a", c!"kg"), (c!"b", c!"m")]),
      .label c!"eng" [] (FMap.ofList [(c!"a", c!"A")]) FMap.empty,
      .conditional (FMap.ofList [(c!"c", c!"${0} ~= ${1}")]) (FMap.ofList [(c!"c", [c!"b", c!"a"])])], false) ∧
    foreignTaken (foreign [.unit (FMap.ofList [(c!"x", c!"m")])]) = true ∧ rebuilt (foreign [.unit (FMap.ofList [(c!"x", c!"m")])]) = none ∧
    rebuilt (foreign [.conditional (FMap.ofList [(c!"c", c!"${2}")]) (FMap.ofList [(c!"c", [c!"a", c!"b"])])]) = none ∧
    rebuilt (foreign [.subset [c!"x"]]) = some ([], false) := by
  decide +kernel

/-- the overlays of a build on it -/
def foreignBuild (cs : List Command) : Option (List OvBody) :=
  match fromAst Env.words (fun _ => Order.sorted) (some (foreign foreignBodies)) (astOf cs) with
  | .ok d => some (d.bundle.overlays.map (·.body))
  | _ => none

set_option maxRecDepth 20000 in
/-- **C79** A build on it: the label is replaced, the units stay as they are. -/
theorem C79_build_example : foreignBuild [addOv .label [(c!"lang", .val c!"en")] [(c!"a", .val c!"Z"), (c!"b", .val c!"Y")], addOv .unit [] [(c!"a", .val c!"cm")]] =
    some [.unit (FMap.ofList [(c!"a", c!"kg"), (c!"b", c!"m")]),
      .label c!"eng" [] (FMap.ofList [(c!"a", c!"Z"), (c!"b", c!"Y")]) FMap.empty,
      .conditional (FMap.ofList [(c!"c", c!"${0} ~= ${1}")]) (FMap.ofList [(c!"c", [c!"b", c!"a"])])] := by
  decide +kernel

end OCA
