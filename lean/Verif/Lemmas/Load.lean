import Verif.Props.Generation
import Verif.Props.Conditions
/-!
# What loading a bundle does to each attribute
-/
namespace OCA

/-- apply an update if there is a value -/
def onSome {V : Type} (o : Option V) (f : V → Attribute → Attribute) (a : Attribute) : Attribute :=
  match o with
  | some v => f v a
  | none => a

theorem updAll_ok {ε V : Type} (f : V → Attribute → Attribute) (l : List (Str × V)) (m : FMap Attribute)
    (hn : (l.map (·.1)).Nodup) (hd : ∀ p ∈ l, (m.get p.1).isSome = true) :
    (updAll f m l : Res ε _) = .ok (m.filterMap fun n a => some (onSome (FMap.lget n l) f a)) := by
  induction l generalizing m with
  | nil =>
    simp only [updAll, Res.ok.injEq]
    ext n : 1
    rw [FMap.get_filterMap]
    cases m.get n <;> rfl
  | cons p t ih =>
    obtain ⟨k, v⟩ := p
    rw [List.map_cons, List.nodup_cons] at hn
    obtain ⟨a, ha⟩ := Option.isSome_iff_exists.mp (hd (k, v) (List.mem_cons_self ..))
    simp only [updAll, updAttr]
    simp only at ha
    rw [ha]
    simp only [Res.bind_ok]
    rw [ih _ hn.2]
    · congr 1
      ext n : 1
      rw [FMap.get_filterMap, FMap.get_filterMap, FMap.get_insert]
      by_cases e : n = k
      · subst e
        have ht : FMap.lget n t = none := by
          have := imGet_eq_none_of_notMem (k := n) (l := t) hn.1
          exact this
        simp [FMap.lget, ha, ht, onSome]
      · simp [FMap.lget, e]
    · intro q hq
      rw [FMap.get_insert]
      split
      · rfl
      · exact hd q (List.mem_cons_of_mem _ hq)

/-- what the conditions loop does to one attribute -/
def loadCond (E : Env) (c : Option Str) (d : Option (List Str)) (a : Attribute) : Attribute :=
  match c, d with
  | some c, some ds => match (expandCondition E c ds : Res Unit Str) with
    | .ok s => a.setCond s
    | _ => a
  | _, _ => a

/-- what loading one overlay does to the attribute named `n` -/
def loadAttr (E : Env) (n : Str) (a : Attribute) : OvBody → Attribute
  | .charEnc x => onSome (x.get n) (fun v a => { a with encoding := some v }) a
  | .conformance x => onSome (x.get n) (fun v a => { a with conformance := some v }) a
  | .conditional c d => loadCond E (c.get n) (d.get n) a
  | .cardinality x => onSome (x.get n) (fun v a => { a with cardinality := some v }) a
  | .format x => onSome (x.get n) (fun v a => { a with format := some v }) a
  | .unit x => onSome (x.get n) (fun v a => { a with unit := some v }) a
  | .entryCode x => onSome (x.get n) (fun v a => { a with entryCodes := some v }) a
  | .entry l x => onSome (x.get n) (fun v a => a.setEntry l v) a
  | .label l _ x _ => onSome (x.get n) (fun v a => a.setLabel l v) a
  | .information l x => onSome (x.get n) (fun v a => a.setInformation l v) a
  | .link t x => onSome (x.get n) (fun v a => a.setLink t v) a
  | .framing md x => match md.get frameIdKey with
    | some id => onSome (x.get n) (fun fr a => a.setFraming id
        (fr.filterMap fun _ sc => some { sc with frameMeta := md.erase frameIdKey })) a
    | none => a
  | _ => a

/-- The conditions and dependencies of an overlay belong together. -/
def CondsOk (c : FMap Str) (d : FMap (List Str)) : Prop :=
  ∀ n x, c.get n = some x → ∃ s, x = (setCondition s).1 ∧ d.get n = some (setCondition s).2

/-- What loading needs of an overlay. -/
def Loadable (m : FMap Attribute) (b : OvBody) : Prop :=
  (∀ n ∈ b.attributes, (m.get n).isSome = true) ∧
  match b with
  | .conditional c d => CondsOk c d
  | .framing md _ => (md.get frameIdKey).isSome = true
  | _ => True

theorem lget_l {V : Type} (x : FMap V) (n : Str) : FMap.lget n x.l = x.get n := rfl

theorem updConds_ok {ε : Type} (E : Env) (c : FMap Str) (d : FMap (List Str)) (hc : CondsOk c d)
    (l : List (Str × Str)) (m : FMap Attribute) (hl : ∀ p ∈ l, c.get p.1 = some p.2)
    (hn : (l.map (·.1)).Nodup) (hd : ∀ p ∈ l, (m.get p.1).isSome = true) :
    (updConds E d m l : Res ε _) = .ok (m.filterMap fun n a => some (loadCond E (FMap.lget n l) (d.get n) a)) := by
  induction l generalizing m with
  | nil =>
    simp only [updConds, Res.ok.injEq]
    ext n : 1
    rw [FMap.get_filterMap]
    cases m.get n <;> rfl
  | cons p t ih =>
    obtain ⟨k, v⟩ := p
    rw [List.map_cons, List.nodup_cons] at hn
    obtain ⟨a, ha⟩ := Option.isSome_iff_exists.mp (hd (k, v) (List.mem_cons_self ..))
    obtain ⟨s, hv, hds⟩ := hc k v (hl (k, v) (List.mem_cons_self ..))
    simp only [updConds, updAttr, hds, Res.unwrap, Res.bind_ok, hv, expand_stored]
    simp only at ha
    rw [ha]
    simp only [Res.bind_ok]
    rw [ih _ (fun p hp => hl p (List.mem_cons_of_mem _ hp)) hn.2]
    · congr 1
      ext n : 1
      rw [FMap.get_filterMap, FMap.get_filterMap, FMap.get_insert]
      by_cases e : n = k
      · subst e
        have ht : FMap.lget n t = none := imGet_eq_none_of_notMem (k := n) (l := t) hn.1
        simp [FMap.lget, ha, ht, loadCond, hds, expand_stored]
      · simp [FMap.lget, e]
    · intro q hq
      rw [FMap.get_insert]
      split
      · rfl
      · exact hd q (List.mem_cons_of_mem _ hq)

theorem updAll_map_ok {ε V : Type} (f : V → Attribute → Attribute) (x : FMap V) (m : FMap Attribute)
    (hd : ∀ n ∈ x.keys, (m.get n).isSome = true) :
    (updAll f m x.l : Res ε _) = .ok (m.filterMap fun n a => some (onSome (x.get n) f a)) :=
  updAll_ok f x.l m x.keys_nodup (fun p hp => hd p.1 (List.mem_map_of_mem hp))

theorem filterMap_some {V : Type} (m : FMap V) : m.filterMap (fun _ a => some a) = m := by
  ext n : 1
  rw [FMap.get_filterMap]
  cases m.get n <;> rfl

theorem loadBody_ok {ε : Type} (E : Env) (m : FMap Attribute) (b : OvBody) (h : Loadable m b) :
    (loadBody E m b : Res ε _) = .ok (m.filterMap fun n a => some (loadAttr E n a b)) := by
  obtain ⟨h1, h2⟩ := h
  cases b <;> simp only [OvBody.attributes] at h1 <;> simp only [loadBody, loadAttr]
  case conditional c d =>
    exact updConds_ok E c d h2 c.l m (fun p hp => FMap.get_eq_some_iff.mpr hp) c.keys_nodup
      (fun p hp => h1 p.1 (List.mem_map_of_mem hp))
  case framing md x =>
    obtain ⟨id, hid⟩ := Option.isSome_iff_exists.mp h2
    rw [hid]
    simp only [Res.unwrap, Res.bind_ok]
    exact updAll_map_ok _ x m h1
  all_goals first
    | exact updAll_map_ok _ _ m h1
    | rw [filterMap_some]

/-- all overlays, one after the other -/
def loadAttrs (E : Env) (n : Str) (l : List OvBody) (a : Attribute) : Attribute :=
  l.foldl (loadAttr E n) a

theorem loadBodies_ok {ε : Type} (E : Env) (l : List OvBody) (m : FMap Attribute) (h : ∀ b ∈ l, Loadable m b) :
    (loadBodies E m l : Res ε _) = .ok (m.filterMap fun n a => some (loadAttrs E n l a)) := by
  induction l generalizing m with
  | nil => simp only [loadBodies, loadAttrs, List.foldl_nil, filterMap_some]
  | cons b t ih =>
    simp only [loadBodies]
    rw [loadBody_ok E m b (h b (List.mem_cons_self ..)), Res.bind_ok, ih]
    · congr 1
      ext n : 1
      simp only [FMap.get_filterMap]
      cases m.get n <;> rfl
    · intro b' hb'
      obtain ⟨h1, h2⟩ := h b' (List.mem_cons_of_mem _ hb')
      refine ⟨?_, h2⟩
      intro n hn
      rw [FMap.get_filterMap]
      obtain ⟨a, ha⟩ := Option.isSome_iff_exists.mp (h1 n hn)
      rw [ha]; rfl

theorem loadFlags_ok {ε : Type} (l : List Str) (m : FMap Attribute) (h : ∀ n ∈ l, (m.get n).isSome = true) :
    (loadFlags m l : Res ε _) = .ok (m.filterMap fun n a =>
      some { a with flagged := a.flagged || decide (n ∈ l) }) := by
  induction l generalizing m with
  | nil =>
    simp only [loadFlags, List.not_mem_nil, decide_false, Bool.or_false]
    exact congrArg _ (filterMap_some m).symm
  | cons k t ih =>
    obtain ⟨a, ha⟩ := Option.isSome_iff_exists.mp (h k (List.mem_cons_self ..))
    simp only [loadFlags, updAttr, ha, Res.bind_ok]
    rw [ih]
    · congr 1
      ext n : 1
      simp only [FMap.get_filterMap, FMap.get_insert]
      by_cases e : n = k
      · subst e; simp [ha]
      · simp [e]
    · intro n hn
      rw [FMap.get_insert]
      split
      · rfl
      · exact h n (List.mem_cons_of_mem _ hn)

/-! ## Facts after loading -/

/-- The scopes as they are loaded: each gets the metadata of the frame. -/
def remeta (md : FMap Str) (fr : FMap Scope) : FMap Scope :=
  fr.filterMap fun _ sc => some { sc with frameMeta := md.erase frameIdKey }

/-- What the loaded attribute carries because of an overlay. -/
def OvBody.Loads (n : Str) (b : OvBody) : Fact → Prop
  | .framing i f => ∃ md x fr, b = .framing md x ∧ md.get frameIdKey = some i ∧ x.get n = some fr ∧
      f = remeta md fr
  | f => b.States n f

theorem loadAttr_other (E : Env) (n : Str) (a : Attribute) (b : OvBody) (f : Fact)
    (h : keyOf b ≠ some f.key) : (loadAttr E n a b).Carries f ↔ a.Carries f := by
  have hp : ∀ {V : Type} (o : Option (FMap V)) (k k' : Str) (v w : V), k ≠ k' →
      ((∃ m, putIn o k v = some m ∧ m.get k' = some w) ↔ ∃ m, o = some m ∧ m.get k' = some w) := by
    intro V o k k' v w hk
    rw [← optGet_eq_some, ← optGet_eq_some]
    cases o <;> simp [putIn, optGet, FMap.get_insert, Ne.symm hk]
  cases b
  case framing md x =>
    simp only [loadAttr]
    cases hid : md.get frameIdKey with
    | none => exact Iff.rfl
    | some id =>
      simp only [keyOf, hid, Option.map_some] at h
      cases x.get n with
      | none => exact Iff.rfl
      | some fr =>
        simp only [onSome]
        rw [setFraming_eq]
        cases f <;> try exact Iff.rfl
        rename_i i g
        simp only [Fact.key, ne_eq, Option.some.injEq, OvKey.framing.injEq] at h
        simp only [Attribute.Carries]
        rw [← optGet_eq_some, ← optGet_eq_some]
        cases a.framings <;> simp [optGet, FMap.get_insert, Ne.symm h]
  case conditional c d =>
    simp only [loadAttr, loadCond]
    split
    · split
      · cases f <;> first | exact Iff.rfl | (exact absurd rfl h)
      · exact Iff.rfl
    · exact Iff.rfl
  all_goals
    first
      | exact Iff.rfl
      | (rename_i x; simp only [loadAttr]; cases x.get n <;> simp only [onSome] <;> cases f <;>
          first
            | exact Iff.rfl
            | exact absurd rfl h
            | (apply hp; intro e; exact h (by rw [e]; rfl)))
      | (rename_i x _; simp only [loadAttr]; cases x.get n <;> simp only [onSome] <;> cases f <;>
          first
            | exact Iff.rfl
            | exact absurd rfl h
            | (apply hp; intro e; exact h (by rw [e]; rfl)))

theorem loadAttr_same (E : Env) (n : Str) (a : Attribute) (b : OvBody) (f : Fact) (m : FMap Attribute)
    (hl : Loadable m b) (h : keyOf b = some f.key) (ha : hasKey f.key a = false)
    (hds : a.condition = none → a.dependencies = none) :
    (loadAttr E n a b).Carries f ↔ b.Loads n f := by
  have hp : ∀ {V : Type} (o : Option (FMap V)) (k : Str) (v w : V),
      ((∃ m, putIn o k v = some m ∧ m.get k = some w) ↔ v = w) := by
    intro V o k v w
    rw [← optGet_eq_some]
    cases o <;> simp [putIn, optGet, FMap.get_insert]
  cases f
  case framing i g =>
    cases b <;> simp only [keyOf, Fact.key, reduceCtorEq, Option.map_eq_some_iff, Option.some.injEq] at h
    rename_i md x
    obtain ⟨id, hid, e⟩ := h
    cases e
    simp only [hasKey, Fact.key] at ha
    have hn : optGet a.framings i = none := by
      cases ho : optGet a.framings i with
      | none => rfl
      | some _ => rw [ho] at ha; cases ha
    simp only [loadAttr, hid, OvBody.Loads]
    cases hx : x.get n with
    | none =>
      simp only [onSome, Attribute.Carries]
      rw [← optGet_eq_some, hn]
      constructor
      · intro h; cases h
      · rintro ⟨md', x', fr, e, -, hx', -⟩
        cases e
        rw [hx] at hx'; cases hx'
    | some fr =>
      simp only [onSome, Attribute.Carries]
      rw [← optGet_eq_some, setFraming_eq]
      have hn' : a.framings.bind (fun x => x.get i) = none := hn
      simp only [optGet, Option.bind_some, FMap.get_insert, if_true, hn', Option.getD_none, Option.some.injEq]
      constructor
      · intro e
        refine ⟨md, x, fr, rfl, hid, hx, ?_⟩
        rw [← e]
        exact FMap.ofList_perm _ (List.Perm.refl _)
      · rintro ⟨md', x', fr', e, -, hx', rfl⟩
        cases e
        rw [hx] at hx'; cases hx'
        exact FMap.ofList_perm _ (List.Perm.refl _)
  case condition c ds =>
    cases b <;> simp only [keyOf, Fact.key, reduceCtorEq, Option.map_eq_some_iff, Option.some.injEq] at h
    case framing => obtain ⟨_, _, h⟩ := h; cases h
    rename_i x d
    simp only [hasKey, Fact.key] at ha
    have hc : a.condition = none := by
      cases ho : a.condition with
      | none => rfl
      | some _ => rw [ho] at ha; cases ha
    have hd := hds hc
    simp only [loadAttr, OvBody.Loads, OvBody.States, Attribute.Carries]
    cases hx : x.get n with
    | none =>
      simp only [loadCond, hc]
      constructor
      · rintro ⟨h, -⟩; cases h
      · rintro ⟨_, _, e, h1, -⟩
        cases e; rw [hx] at h1; cases h1
    | some cx =>
      obtain ⟨s, rfl, h2⟩ := hl.2 n cx hx
      rw [h2]
      simp only [loadCond, expand_stored, Attribute.setCond, Option.some.injEq]
      constructor
      · rintro ⟨rfl, rfl⟩; exact ⟨x, d, rfl, hx, h2⟩
      · rintro ⟨_, _, e, h3, h4⟩
        cases e
        rw [hx] at h3; rw [h2] at h4
        cases h3; cases h4; exact ⟨rfl, rfl⟩
  all_goals
    cases b <;> simp only [keyOf, Fact.key, reduceCtorEq, Option.map_eq_some_iff, Option.some.injEq, and_false,
      exists_false, OvKey.entry.injEq, OvKey.label.injEq, OvKey.information.injEq, OvKey.link.injEq] at h
    try subst h
    simp only [hasKey, Fact.key, Option.isSome_eq_false_iff, Option.isNone_iff_eq_none] at ha
    simp only [loadAttr, OvBody.Loads, OvBody.States, Attribute.Carries]
  case label =>
    rename_i l s cs x cl
    cases hx : x.get n with
    | none =>
      simp only [onSome]
      rw [← optGet_eq_some, ha]
      constructor
      · intro h; cases h
      · rintro ⟨_, _, _, e, h⟩; cases e; rw [hx] at h; cases h
    | some v =>
      simp only [onSome, Attribute.setLabel]
      rw [hp]
      constructor
      · rintro rfl; exact ⟨_, _, _, rfl, hx⟩
      · rintro ⟨_, _, _, e, h⟩; cases e; rw [hx] at h; cases h; rfl
  case entry | information | link =>
    rename_i x
    cases hx : x.get n with
    | none =>
      simp only [onSome]
      rw [← optGet_eq_some, ha]
      constructor
      · intro h; cases h
      · rintro ⟨_, e, h⟩; cases e; rw [hx] at h; cases h
    | some v =>
      simp only [onSome, Attribute.setEntry, Attribute.setInformation, Attribute.setLink]
      rw [hp]
      constructor
      · rintro rfl; exact ⟨_, rfl, hx⟩
      · rintro ⟨_, e, h⟩; cases e; rw [hx] at h; cases h; rfl
  all_goals
    rename_i x
    cases hx : x.get n with
    | none =>
      simp only [onSome, ha]
      constructor
      · intro h; cases h
      · rintro ⟨_, e, h⟩; cases e; rw [hx] at h; cases h
    | some v =>
      simp only [onSome, Option.some.injEq]
      constructor
      · rintro rfl; exact ⟨_, rfl, hx⟩
      · rintro ⟨_, e, h⟩; cases e; rw [hx] at h; cases h; rfl

theorem hasKey_loadAttr (E : Env) (n : Str) (a : Attribute) (b : OvBody) (K : OvKey)
    (h : keyOf b ≠ some K) : hasKey K (loadAttr E n a b) = hasKey K a := by
  have hp : ∀ {V : Type} (o : Option (FMap V)) (k k' : Str) (v : V), k ≠ k' →
      optGet (putIn o k v) k' = optGet o k' := by
    intro V o k k' v hk
    cases o <;> simp [putIn, optGet, FMap.get_insert, Ne.symm hk]
  cases b
  case framing md x =>
    simp only [loadAttr]
    cases hid : md.get frameIdKey with
    | none => rfl
    | some id =>
      simp only [keyOf, hid, Option.map_some] at h
      cases x.get n with
      | none => rfl
      | some fr =>
        simp only [onSome]
        rw [setFraming_eq]
        cases K <;> try rfl
        rename_i i
        simp only [ne_eq, Option.some.injEq, OvKey.framing.injEq] at h
        simp only [hasKey]
        cases a.framings <;> simp [optGet, FMap.get_insert, Ne.symm h]
  case conditional c d =>
    simp only [loadAttr, loadCond]
    split
    · split
      · cases K <;> first | rfl | (exact absurd rfl h)
      · rfl
    · rfl
  all_goals
    first
      | rfl
      | (rename_i x; simp only [loadAttr]; cases x.get n <;> simp only [onSome] <;> cases K <;>
          first
            | rfl
            | exact absurd rfl h
            | (simp only [hasKey]; congr 1; apply hp; intro e; exact h (by rw [e]; rfl)))
      | (rename_i x _; simp only [loadAttr]; cases x.get n <;> simp only [onSome] <;> cases K <;>
          first
            | rfl
            | exact absurd rfl h
            | (simp only [hasKey]; congr 1; apply hp; intro e; exact h (by rw [e]; rfl)))

/-- condition and dependencies are set together -/
def CondPaired (a : Attribute) : Prop := a.condition = none → a.dependencies = none

theorem CondPaired.loadAttr (E : Env) (n : Str) (a : Attribute) (b : OvBody) (h : CondPaired a) :
    CondPaired (OCA.loadAttr E n a b) := by
  cases b
  case conditional c d =>
    simp only [OCA.loadAttr, loadCond]
    split
    · split
      · intro e; cases e
      · exact h
    · exact h
  case framing md x =>
    simp only [OCA.loadAttr]
    split
    · cases x.get n with
      | none => exact h
      | some fr => simp only [onSome]; rw [setFraming_eq]; exact h
    · exact h
  all_goals
    first
      | exact h
      | (rename_i x; simp only [OCA.loadAttr]; cases x.get n <;> exact h)
      | (rename_i x _; simp only [OCA.loadAttr]; cases x.get n <;> exact h)

theorem ty_loadAttr (E : Env) (n : Str) (a : Attribute) (b : OvBody) :
    (loadAttr E n a b).ty = a.ty ∧ (loadAttr E n a b).flagged = a.flagged := by
  cases b
  case conditional c d =>
    simp only [loadAttr, loadCond]
    split
    · split <;> exact ⟨rfl, rfl⟩
    · exact ⟨rfl, rfl⟩
  case framing md x =>
    simp only [loadAttr]
    split
    · cases x.get n with
      | none => exact ⟨rfl, rfl⟩
      | some fr => simp only [onSome]; rw [setFraming_eq]; exact ⟨rfl, rfl⟩
    · exact ⟨rfl, rfl⟩
  all_goals
    first
      | exact ⟨rfl, rfl⟩
      | (rename_i x; simp only [loadAttr]; cases x.get n <;> exact ⟨rfl, rfl⟩)
      | (rename_i x _; simp only [loadAttr]; cases x.get n <;> exact ⟨rfl, rfl⟩)

theorem ty_loadAttrs (E : Env) (n : Str) (l : List OvBody) (a : Attribute) :
    (loadAttrs E n l a).ty = a.ty ∧ (loadAttrs E n l a).flagged = a.flagged := by
  induction l generalizing a with
  | nil => exact ⟨rfl, rfl⟩
  | cons b t ih =>
    have := ty_loadAttr E n a b
    have := ih (loadAttr E n a b)
    simp_all [loadAttrs]

theorem Loads.key {n : Str} {b : OvBody} {f : Fact} (h : b.Loads n f) : keyOf b = some f.key := by
  cases f
  case framing i g =>
    obtain ⟨md, x, fr, rfl, hid, -⟩ := h
    simp [keyOf, hid, Fact.key]
  all_goals exact states_key h

theorem loadAttrs_other (E : Env) (n : Str) (l : List OvBody) (a : Attribute) (f : Fact)
    (h : ∀ b ∈ l, keyOf b ≠ some f.key) : (loadAttrs E n l a).Carries f ↔ a.Carries f := by
  induction l generalizing a with
  | nil => exact Iff.rfl
  | cons b t ih =>
    show (loadAttrs E n t (loadAttr E n a b)).Carries f ↔ _
    rw [ih _ (fun b' hb' => h b' (List.mem_cons_of_mem _ hb')),
      loadAttr_other E n a b f (h b (List.mem_cons_self ..))]

/-- After loading overlays with different keys, a blank attribute carries exactly what they say. -/
theorem loadAttrs_carries (E : Env) (n : Str) (l : List OvBody) (m : FMap Attribute) (a : Attribute) (f : Fact)
    (hl : ∀ b ∈ l, Loadable m b) (hk : (l.filterMap keyOf).Nodup) (ha : hasKey f.key a = false)
    (hp : CondPaired a) : (loadAttrs E n l a).Carries f ↔ ∃ b ∈ l, b.Loads n f := by
  induction l generalizing a with
  | nil =>
    simp only [loadAttrs, List.foldl_nil, List.not_mem_nil, false_and, exists_false, iff_false]
    intro h
    rw [carries_hasKey h] at ha; cases ha
  | cons b t ih =>
    show (loadAttrs E n t (loadAttr E n a b)).Carries f ↔ _
    have hk' : (t.filterMap keyOf).Nodup := by
      rw [List.filterMap_cons] at hk
      split at hk
      · exact hk
      · exact (List.nodup_cons.mp hk).2
    by_cases hb : keyOf b = some f.key
    · have ht : ∀ b' ∈ t, keyOf b' ≠ some f.key := by
        intro b' hb' e
        rw [List.filterMap_cons, hb] at hk
        exact (List.nodup_cons.mp hk).1 (List.mem_filterMap.mpr ⟨b', hb', e⟩)
      rw [loadAttrs_other E n t _ f ht,
        loadAttr_same E n a b f m (hl b (List.mem_cons_self ..)) hb ha hp]
      constructor
      · intro h; exact ⟨b, List.mem_cons_self .., h⟩
      · rintro ⟨b', hb', h⟩
        rcases List.mem_cons.mp hb' with rfl | hb'
        · exact h
        · exact absurd (Loads.key h) (ht b' hb')
    · rw [ih _ (fun b' hb' => hl b' (List.mem_cons_of_mem _ hb')) hk'
        (by rw [hasKey_loadAttr E n a b _ hb]; exact ha) (hp.loadAttr E n a b)]
      constructor
      · rintro ⟨b', hb', h⟩; exact ⟨b', List.mem_cons_of_mem _ hb', h⟩
      · rintro ⟨b', hb', h⟩
        rcases List.mem_cons.mp hb' with rfl | hb'
        · exact absurd (Loads.key h) hb
        · exact ⟨b', hb', h⟩

/-! ## Order of loading -/

theorem flatMap_filter_perm {α β : Type} [DecidableEq β] (g : α → β) (ks : List β) (hn : ks.Nodup) (l : List α) :
    (ks.flatMap fun k => l.filter fun x => decide (g x = k)).Perm (l.filter fun x => decide (g x ∈ ks)) := by
  induction ks with
  | nil => simp
  | cons k t ih =>
    rw [List.nodup_cons] at hn
    rw [List.flatMap_cons]
    refine (List.Perm.append_left _ (ih hn.2)).trans ?_
    have h := List.filter_append_perm (fun x => decide (g x = k)) (l.filter fun x => decide (g x ∈ k :: t))
    refine List.Perm.trans (List.Perm.of_eq ?_) h
    rw [List.filter_filter, List.filter_filter]
    congr 1
    · apply List.filter_congr
      intro x _
      simp
      intro e; exact .inl e
    · apply List.filter_congr
      intro x _
      by_cases e : g x = k
      · simp [e, hn.1]
      · simp [e]

/-- the overlays in the order they are loaded -/
def loadList (bodies : List OvBody) : List OvBody :=
  loadOrder.flatMap fun k => bodies.filter (fun x => x.kind = k)

theorem loadList_perm (bodies : List OvBody) :
    (loadList bodies).Perm (bodies.filter fun x => decide (x.kind ∈ loadOrder)) :=
  flatMap_filter_perm OvBody.kind loadOrder (by decide) bodies

theorem mem_loadList {bodies : List OvBody} {b : OvBody} :
    b ∈ loadList bodies ↔ b ∈ bodies ∧ b.kind ∈ loadOrder := by
  rw [(loadList_perm bodies).mem_iff, List.mem_filter, decide_eq_true_eq]

theorem kind_of_key {b : OvBody} {K : OvKey} (h : keyOf b = some K) : b.kind ∈ loadOrder := by
  cases b <;> simp [keyOf] at h <;> simp [OvBody.kind, loadOrder]

theorem loadList_keys {bodies : List OvBody} (h : (bodies.filterMap keyOf).Nodup) :
    ((loadList bodies).filterMap keyOf).Nodup := by
  rw [((loadList_perm bodies).filterMap keyOf).nodup_iff]
  exact h.sublist (List.filter_sublist.filterMap _)

/-! ## Metas -/

/-- one overlay's metas -/
def metaStepOf (o : Option (FMap (FMap Str))) : OvBody → Option (FMap (FMap Str))
  | .metaOv l m => metaPut o l m.l
  | _ => o

theorem loadMetas_eq (bodies : List OvBody) (b : OCABox) :
    loadMetas b bodies = { b with metaMap := bodies.foldl metaStepOf b.metaMap } := by
  unfold loadMetas
  induction bodies generalizing b with
  | nil => rfl
  | cons x t ih =>
    rw [List.foldl_cons, List.foldl_cons, ih]
    cases x <;> try rfl
    simp only [foldl_addMeta, metaStepOf]

theorem optGet_metaStepOf (o : Option (FMap (FMap Str))) (b : OvBody) (l : Lang)
    (h : b.slot ≠ (.metaOv, some l)) : optGet (metaStepOf o b) l = optGet o l := by
  cases b <;> try rfl
  rename_i l' m
  have hl : l ≠ l' := by rintro rfl; exact h rfl
  simp only [metaStepOf, metaPut]
  split
  · rfl
  · cases o <;> simp [optGet, FMap.get_insert, hl]

theorem optGet_metas_other (bodies : List OvBody) (o : Option (FMap (FMap Str))) (l : Lang)
    (h : ∀ b ∈ bodies, b.slot ≠ (.metaOv, some l)) :
    optGet (bodies.foldl metaStepOf o) l = optGet o l := by
  induction bodies generalizing o with
  | nil => rfl
  | cons x t ih =>
    rw [List.foldl_cons, ih _ (fun b hb => h b (List.mem_cons_of_mem _ hb)),
      optGet_metaStepOf _ _ _ (h x (List.mem_cons_self ..))]

theorem optGet_metas (bodies : List OvBody) (o : Option (FMap (FMap Str))) (l : Lang) (ps : FMap Str)
    (hn : (bodies.map OvBody.slot).Nodup) (ho : optGet o l = none)
    (he : ∀ l ps, OvBody.metaOv l ps ∈ bodies → ps ≠ FMap.empty) :
    optGet (bodies.foldl metaStepOf o) l = some ps ↔ OvBody.metaOv l ps ∈ bodies := by
  induction bodies generalizing o with
  | nil => simp [ho]
  | cons x t ih =>
    rw [List.map_cons, List.nodup_cons] at hn
    rw [List.foldl_cons]
    by_cases hx : x.slot = (.metaOv, some l)
    · have ht : ∀ b ∈ t, b.slot ≠ (.metaOv, some l) := by
        intro b hb e
        exact hn.1 (List.mem_map.mpr ⟨b, hb, by rw [e, hx]⟩)
      rw [optGet_metas_other t _ l ht]
      cases x <;> simp only [OvBody.slot, OvBody.kind, Prod.mk.injEq, reduceCtorEq, false_and, and_false,
        Option.some.injEq, true_and] at hx
      subst hx
      rename_i l m
      have hm : m.l ≠ [] := by
        intro e
        apply he l m (List.mem_cons_self ..)
        cases m; simp only at e; subst e; rfl
      have : ((o.getD FMap.empty).get l) = none := by
        cases o with
        | none => rfl
        | some o => exact ho
      simp only [metaStepOf, metaPut, hm, if_false, this, Option.getD_none, optGet, Option.bind_some,
        FMap.get_insert, if_true, Option.some.injEq]
      rw [show FMap.empty.insertAll m.l = m from FMap.ofList_perm m (List.Perm.refl _)]
      constructor
      · rintro rfl; exact List.mem_cons_self ..
      · intro h
        rcases List.mem_cons.mp h with e | h
        · cases e; rfl
        · exact absurd rfl (ht _ h)
    · rw [ih _ hn.2 (by rw [optGet_metaStepOf _ _ _ hx]; exact ho)
        (fun l ps h => he l ps (List.mem_cons_of_mem _ h))]
      constructor
      · exact List.mem_cons_of_mem _
      · intro h
        rcases List.mem_cons.mp h with rfl | h
        · exact absurd rfl hx
        · exact h

end OCA
