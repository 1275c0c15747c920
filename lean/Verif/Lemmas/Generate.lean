import Verif.Model.OcaBox
/-!
# What `generate_overlays` produces, independently of hash order
-/
namespace OCA

/-- The key an overlay would be found by. -/
def keyOf : OvBody → Option OvKey
  | .charEnc _ => some .charEnc
  | .format _ => some .format
  | .conformance _ => some .conformance
  | .cardinality _ => some .cardinality
  | .unit _ => some .unit
  | .conditional _ _ => some .conditional
  | .entryCode _ => some .entryCode
  | .entry l _ => some (.entry l)
  | .label l _ _ _ => some (.label l)
  | .information l _ => some (.information l)
  | .link t _ => some (.link t)
  | .framing md _ => (md.get frameIdKey).map .framing
  | _ => none

theorem matches_iff (b : OvBody) (K : OvKey) : b.matches K = true ↔ keyOf b = some K := by
  cases b <;> cases K <;>
    simp [OvBody.matches, keyOf, OvBody.kind, OvBody.language]

/-- The attribute carries information that belongs in the overlay of this key. -/
def hasKey : OvKey → Attribute → Bool
  | .charEnc, a => a.encoding.isSome
  | .format, a => a.format.isSome
  | .conformance, a => a.conformance.isSome
  | .cardinality, a => a.cardinality.isSome
  | .conditional, a => a.condition.isSome
  | .unit, a => a.unit.isSome
  | .entryCode, a => a.entryCodes.isSome
  | .entry l, a => (optGet a.entries l).isSome
  | .label l, a => (optGet a.labels l).isSome
  | .information l, a => (optGet a.informations l).isSome
  | .link t, a => (optGet a.links t).isSome
  | .framing id, a => (optGet a.framings id).isSome

theorem keyOf_newBody (K : OvKey) : keyOf K.newBody = some K := by
  cases K <;> simp [OvKey.newBody, keyOf, FMap.get_insert]

/-- No scope's own metadata overrides the frame id. -/
def FrameOk (a : Attribute) : Prop :=
  ∀ id fr sc s, optGet a.framings id = some fr → fr.get sc = some s →
    s.frameMeta.get frameIdKey = none

theorem Order.mem_iter (O : Order) (site : Nat) (ctx : List Str) {V : Type} (m : FMap V) (p : Str × V) :
    p ∈ O.iter site ctx m ↔ m.get p.1 = some p.2 := by
  rw [(O.perm site ctx m).mem_iff, FMap.get_eq_some_iff]

theorem mem_scopeMetaPairs {O : Order} {n : Str} {fr : FMap Scope} {k v : Str} :
    (k, v) ∈ scopeMetaPairs O n fr ↔ ∃ sc s, fr.get sc = some s ∧ s.frameMeta.get k = some v := by
  unfold scopeMetaPairs
  simp only [List.mem_flatMap]
  constructor
  · rintro ⟨p, hp, hk⟩
    exact ⟨p.1, p.2, (O.mem_iter ..).mp hp, (O.mem_iter ..).mp hk⟩
  · rintro ⟨sc, s, h1, h2⟩
    exact ⟨(sc, s), (O.mem_iter ..).mpr h1, (O.mem_iter ..).mpr h2⟩

theorem keyOf_add (O : Order) (n : Str) (a : Attribute) (h : FrameOk a) (b : OvBody) :
    keyOf (b.add O n a) = keyOf b := by
  cases b with
  | framing md m =>
    simp only [OvBody.add]
    cases hid : md.get frameIdKey with
    | none => rfl
    | some id =>
      simp only
      cases hfr : optGet a.framings id with
      | none => rfl
      | some fr =>
        simp only [keyOf, FMap.get_insertAll]
        have : FMap.lastVal (scopeMetaPairs O n fr) frameIdKey = none := by
          rw [FMap.lastVal_eq_none]
          rintro ⟨k, v⟩ hp rfl
          obtain ⟨sc, s, h1, h2⟩ := mem_scopeMetaPairs.mp hp
          rw [h id fr sc s hfr h1] at h2; cases h2
        rw [this]; simp
  | _ => rfl

/-- One find-or-push. -/
abbrev Op := OvKey × Str × Attribute

/-- Apply one find-or-push. -/
def upsertOp (O : Order) (ovs : List OvBody) (op : Op) : List OvBody := upsert O op.1 op.2.1 op.2.2 ovs

/-- Add an attribute to a body. -/
def addOp (O : Order) (b : OvBody) (op : Op) : OvBody := b.add O op.2.1 op.2.2

theorem upsert_mem (O : Order) (K : OvKey) (n : Str) (a : Attribute) (ovs : List OvBody)
    (hK : K ∈ ovs.filterMap keyOf) (hnd : (ovs.filterMap keyOf).Nodup) :
    upsert O K n a ovs = ovs.map (fun b => if keyOf b = some K then b.add O n a else b) := by
  induction ovs with
  | nil => simp at hK
  | cons b l ih =>
    simp only [upsert, List.map_cons]
    by_cases hb : keyOf b = some K
    · rw [if_pos ((matches_iff b K).mpr hb), if_pos hb]
      congr 1
      have hnot : K ∉ l.filterMap keyOf := by
        rw [List.filterMap_cons_some hb] at hnd
        exact (List.nodup_cons.mp hnd).1
      symm
      conv => rhs; rw [← List.map_id l]
      apply List.map_congr_left
      intro b' hb'
      have : keyOf b' ≠ some K := fun e => hnot (List.mem_filterMap.mpr ⟨b', hb', e⟩)
      simp [this]
    · rw [if_neg (fun e => hb ((matches_iff b K).mp e)), if_neg hb]
      congr 1
      cases hkb : keyOf b with
      | none =>
        rw [List.filterMap_cons_none hkb] at hK hnd
        exact ih hK hnd
      | some K' =>
        rw [List.filterMap_cons_some hkb] at hK hnd
        refine ih ?_ (List.nodup_cons.mp hnd).2
        rcases List.mem_cons.mp hK with e | h
        · rw [hkb, e] at hb; exact absurd rfl hb
        · exact h

theorem upsert_new (O : Order) (K : OvKey) (n : Str) (a : Attribute) (ovs : List OvBody)
    (hK : K ∉ ovs.filterMap keyOf) :
    upsert O K n a ovs = ovs ++ [K.newBody.add O n a] := by
  induction ovs with
  | nil => rfl
  | cons b l ih =>
    simp only [upsert]
    have hb : ¬ b.matches K = true := by
      rw [matches_iff]
      intro e
      exact hK (List.mem_filterMap.mpr ⟨b, List.mem_cons_self .., e⟩)
    rw [if_neg hb, ih, List.cons_append]
    intro h
    apply hK
    obtain ⟨b', h1, h2⟩ := List.mem_filterMap.mp h
    exact List.mem_filterMap.mpr ⟨b', List.mem_cons_of_mem _ h1, h2⟩

/-- An existing overlay after all the operations that concern it. -/
def finish (O : Order) (ops : List Op) (b : OvBody) : OvBody :=
  match keyOf b with
  | none => b
  | some K => (ops.filter (fun op => decide (op.1 = K))).foldl (addOp O) b

theorem foldl_upsert (O : Order) (ops : List Op) (hwf : ∀ op ∈ ops, FrameOk op.2.2) :
    ∀ (ovs : List OvBody), (ovs.filterMap keyOf).Nodup →
    ∃ ks : List OvKey, ks.Nodup ∧
      (∀ K, K ∈ ks ↔ K ∈ ops.map (·.1) ∧ K ∉ ovs.filterMap keyOf) ∧
      ops.foldl (upsertOp O) ovs = ovs.map (finish O ops) ++
        ks.map (fun K => (ops.filter (fun op => decide (op.1 = K))).foldl (addOp O) K.newBody) := by
  induction ops with
  | nil =>
    intro ovs _
    refine ⟨[], List.nodup_nil, by simp, ?_⟩
    simp only [List.foldl_nil, List.map_nil, List.append_nil]
    conv => lhs; rw [← List.map_id ovs]
    apply List.map_congr_left
    intro b _
    unfold finish
    cases keyOf b <;> simp
  | cons op ops ih =>
    intro ovs hnd
    have ih := ih (fun o ho => hwf o (List.mem_cons_of_mem _ ho))
    have hop := hwf op (List.mem_cons_self ..)
    obtain ⟨K, n, a⟩ := op
    rw [List.foldl_cons]
    by_cases hK : K ∈ ovs.filterMap keyOf
    · have h1 : upsertOp O ovs (K, n, a) =
          ovs.map (fun b => if keyOf b = some K then b.add O n a else b) := upsert_mem O K n a ovs hK hnd
      have hkeys : (ovs.map (fun b => if keyOf b = some K then b.add O n a else b)).filterMap keyOf
          = ovs.filterMap keyOf := by
        rw [List.filterMap_map]
        congr 1
        funext b
        simp only [Function.comp_apply]
        split
        · exact keyOf_add O n a hop b
        · rfl
      obtain ⟨ks, h2, h3, h4⟩ := ih (ovs.map (fun b => if keyOf b = some K then b.add O n a else b))
        (by rw [hkeys]; exact hnd)
      refine ⟨ks, h2, ?_, ?_⟩
      · intro K'
        rw [h3, hkeys]
        simp only [List.map_cons, List.mem_cons]
        constructor
        · rintro ⟨h, h'⟩; exact ⟨.inr h, h'⟩
        · rintro ⟨h | h, h'⟩
          · rw [h] at h'; exact absurd hK h'
          · exact ⟨h, h'⟩
      · rw [h1, h4, List.map_map]
        congr 1
        · apply List.map_congr_left
          intro b _
          simp only [Function.comp_apply]
          unfold finish
          by_cases hb : keyOf b = some K
          · rw [if_pos hb, keyOf_add O n a hop b, hb]
            simp [addOp]
          · rw [if_neg hb]
            cases hkb : keyOf b with
            | none => rfl
            | some K' =>
              have : ¬ K = K' := by rintro rfl; exact hb hkb
              simp [this]
        · apply List.map_congr_left
          intro K' hK'
          have : ¬ K = K' := by
            rintro rfl
            have := ((h3 K).mp hK').2
            rw [hkeys] at this; exact this hK
          simp [this]
    · have h1 : upsertOp O ovs (K, n, a) = ovs ++ [K.newBody.add O n a] := upsert_new O K n a ovs hK
      have hkn : keyOf (K.newBody.add O n a) = some K := by rw [keyOf_add O n a hop, keyOf_newBody]
      have hkeys : (ovs ++ [K.newBody.add O n a]).filterMap keyOf = ovs.filterMap keyOf ++ [K] := by
        rw [List.filterMap_append, List.filterMap_cons_some hkn, List.filterMap_nil]
      obtain ⟨ks, h2, h3, h4⟩ := ih (ovs ++ [K.newBody.add O n a]) (by
        rw [hkeys, List.nodup_append]
        refine ⟨hnd, by simp, ?_⟩
        intro x hx y hy
        simp at hy; subst hy
        rintro rfl; exact hK hx)
      have hKks : K ∉ ks := by
        intro h
        have := ((h3 K).mp h).2
        rw [hkeys] at this; simp at this
      refine ⟨K :: ks, List.nodup_cons.mpr ⟨hKks, h2⟩, ?_, ?_⟩
      · intro K'
        simp only [List.map_cons, List.mem_cons, h3, hkeys, List.mem_append, List.not_mem_nil, or_false]
        constructor
        · rintro (h | ⟨h, h'⟩)
          · rw [h]; exact ⟨.inl rfl, hK⟩
          · exact ⟨.inr h, fun e => h' (.inl e)⟩
        · rintro ⟨h | h, h'⟩
          · exact .inl h
          · by_cases e : K' = K
            · exact .inl e
            · exact .inr ⟨h, fun e' => e'.elim h' e⟩
      · rw [h1, h4, List.map_append, List.append_assoc]
        congr 1
        · apply List.map_congr_left
          intro b hb
          unfold finish
          cases hkb : keyOf b with
          | none => rfl
          | some K' =>
            have : ¬ K = K' := by
              rintro rfl; exact hK (List.mem_filterMap.mpr ⟨b, hb, hkb⟩)
            simp [this]
        · simp only [List.map_cons, List.map_nil, List.singleton_append]
          congr 1
          · unfold finish
            rw [hkn]
            simp [addOp]
          · apply List.map_congr_left
            intro K' hK'
            have : ¬ K = K' := by rintro rfl; exact hKks hK'
            simp [this]

/-! ## The keys of an attribute -/

theorem mem_oneKey {V : Type} {K k : OvKey} {o : Option V} : K ∈ oneKey k o ↔ K = k ∧ o.isSome = true := by
  cases o <;> simp [oneKey]

theorem mem_optKeys {V : Type} {O : Order} {site : Nat} {n : Str} {o : Option (FMap V)} {l : Str} :
    l ∈ optKeys O site n o ↔ (optGet o l).isSome = true := by
  cases o with
  | none => simp [optKeys, optGet]
  | some m =>
    simp only [optKeys, optGet, Option.bind_some, List.mem_map]
    constructor
    · rintro ⟨p, h, rfl⟩
      rw [(O.mem_iter ..).mp h]; rfl
    · intro h
      obtain ⟨v, hv⟩ := Option.isSome_iff_exists.mp h
      exact ⟨(l, v), (O.mem_iter ..).mpr hv, rfl⟩

theorem optKeys_nodup {V : Type} (O : Order) (site : Nat) (n : Str) (o : Option (FMap V)) :
    (optKeys O site n o).Nodup := by
  cases o with
  | none => exact List.nodup_nil
  | some m => exact ((O.perm site [n] m).map _).nodup_iff.mpr m.keys_nodup

theorem oneKey_nodup {V : Type} (k : OvKey) (o : Option V) : (oneKey k o).Nodup := by
  cases o <;> simp [oneKey]

theorem mem_attrKeys (O : Order) (n : Str) (a : Attribute) (K : OvKey) :
    K ∈ attrKeys O n a ↔ hasKey K a = true := by
  unfold attrKeys
  simp only [List.mem_append, mem_oneKey, List.mem_map, mem_optKeys]
  cases K <;> simp [hasKey]

theorem map_nodup_of_inj {α β : Type} {f : α → β} (hf : ∀ a b, f a = f b → a = b) {l : List α}
    (h : l.Nodup) : (l.map f).Nodup := by
  unfold List.Nodup at *
  rw [List.pairwise_map]
  exact h.imp (fun hne e => hne (hf _ _ e))

/-- Position of the kind of a key in `attrKeys`. -/
def OvKey.rank : OvKey → Nat
  | .charEnc => 0
  | .format => 1
  | .conformance => 2
  | .cardinality => 3
  | .conditional => 4
  | .unit => 5
  | .entryCode => 6
  | .entry _ => 7
  | .label _ => 8
  | .information _ => 9
  | .link _ => 10
  | .framing _ => 11

/-- Distinct keys, all of rank below `c`. -/
def Below (l : List OvKey) (c : Nat) : Prop := l.Nodup ∧ ∀ x ∈ l, x.rank < c

theorem Below.append {l l' : List OvKey} {c : Nat} (h : Below l c) (hn : l'.Nodup)
    (hr : ∀ x ∈ l', x.rank = c) : Below (l ++ l') (c + 1) := by
  refine ⟨List.nodup_append.mpr ⟨h.1, hn, ?_⟩, ?_⟩
  · intro x hx y hy e
    have h1 := h.2 x hx
    have h2 := hr y hy
    rw [e] at h1; omega
  · intro x hx
    rcases List.mem_append.mp hx with hx | hx
    · have := h.2 x hx; omega
    · have := hr x hx; omega

theorem attrKeys_nodup (O : Order) (n : Str) (a : Attribute) : (attrKeys O n a).Nodup := by
  have one : ∀ {V : Type} (k : OvKey) (o : Option V), ∀ x ∈ oneKey k o, x.rank = k.rank := by
    intro V k o x hx
    rw [(mem_oneKey.mp hx).1]
  have many : ∀ (f : Str → OvKey) (l : List Str) (c : Nat), (∀ s, (f s).rank = c) →
      ∀ x ∈ l.map f, x.rank = c := by
    intro f l c hf x hx
    obtain ⟨s, _, rfl⟩ := List.mem_map.mp hx
    exact hf s
  have nd : ∀ {V : Type} (f : Str → OvKey) (site : Nat) (o : Option (FMap V)),
      (∀ a b, f a = f b → a = b) → ((optKeys O site n o).map f).Nodup :=
    fun f site o hf => map_nodup_of_inj hf (optKeys_nodup O site n o)
  have h0 : Below (oneKey .charEnc a.encoding) 1 :=
    ⟨oneKey_nodup .., fun x hx => by rw [one _ _ x hx]; decide⟩
  have h1 := h0.append (oneKey_nodup .format a.format) (one _ _)
  have h2 := h1.append (oneKey_nodup .conformance a.conformance) (one _ _)
  have h3 := h2.append (oneKey_nodup .cardinality a.cardinality) (one _ _)
  have h4 := h3.append (oneKey_nodup .conditional a.condition) (one _ _)
  have h5 := h4.append (oneKey_nodup .unit a.unit) (one _ _)
  have h6 := h5.append (oneKey_nodup .entryCode a.entryCodes) (one _ _)
  have h7 := h6.append (nd .entry 237 a.entries (by intro a b h; injection h)) (many _ _ _ (fun _ => rfl))
  have h8 := h7.append (nd .label 252 a.labels (by intro a b h; injection h)) (many _ _ _ (fun _ => rfl))
  have h9 := h8.append (nd .information 267 a.informations (by intro a b h; injection h)) (many _ _ _ (fun _ => rfl))
  have h10 := h9.append (nd .link 282 a.links (by intro a b h; injection h)) (many _ _ _ (fun _ => rfl))
  have h11 := h10.append (nd .framing 301 a.framings (by intro a b h; injection h)) (many _ _ _ (fun _ => rfl))
  exact h11.1

/-! ## The generated bodies as folds over the attributes -/

/-- All find-or-push operations of `generate_overlays`. -/
def allOps (O : Order) (attrs : List (Str × Attribute)) : List Op :=
  attrs.flatMap fun p => (attrKeys O p.1 p.2).map fun K => (K, p)

theorem genBodies_eq (O : Order) (b : OCABox) :
    genBodies O b = (allOps O (O.iter 142 [] b.attributes)).foldl (upsertOp O) (preBodies O b) := by
  unfold genBodies allOps
  rw [List.foldl_flatMap]
  congr 1
  funext ovs p
  unfold addAttrOverlays
  rw [List.foldl_map]
  rfl

theorem filter_eq_singleton {α : Type} [DecidableEq α] {l : List α} (h : l.Nodup) (x : α) :
    l.filter (fun y => decide (y = x)) = if x ∈ l then [x] else [] := by
  induction l with
  | nil => simp
  | cons a t ih =>
    obtain ⟨h1, h2⟩ := List.nodup_cons.mp h
    by_cases e : a = x
    · subst e
      have : t.filter (fun y => decide (y = a)) = [] := by rw [ih h2, if_neg h1]
      simp [this]
    · have e' : ¬ x = a := fun h => e h.symm
      simp [e, ih h2, e']

theorem allOps_filter (O : Order) (attrs : List (Str × Attribute)) (K : OvKey) :
    (allOps O attrs).filter (fun op => decide (op.1 = K))
      = (attrs.filter fun p => hasKey K p.2).map fun p => (K, p) := by
  unfold allOps
  induction attrs with
  | nil => rfl
  | cons p t ih =>
    simp only [List.flatMap_cons, List.filter_append, ih, List.filter_map, Function.comp_def]
    rw [filter_eq_singleton (attrKeys_nodup O p.1 p.2)]
    simp only [mem_attrKeys]
    by_cases h : hasKey K p.2 = true
    · simp [h]
    · simp [h]

/-- The overlay of key `K` as a fold over the attributes that have it. -/
def bodyOf (O : Order) (attrs : List (Str × Attribute)) (K : OvKey) : OvBody :=
  (attrs.filter fun p => hasKey K p.2).foldl (fun b p => b.add O p.1 p.2) K.newBody

theorem preBodies_keys (O : Order) (b : OCABox) : (preBodies O b).filterMap keyOf = [] := by
  rw [List.filterMap_eq_nil_iff]
  intro x hx
  unfold preBodies at hx
  rcases List.mem_append.mp hx with h | h
  · obtain ⟨m, _, rfl⟩ := List.mem_map.mp h; rfl
  · split at h
    · cases h
    · obtain ⟨m, _, rfl⟩ := List.mem_map.mp h; rfl

theorem genBodies_spec (O : Order) (b : OCABox)
    (hwf : ∀ n a, b.attributes.get n = some a → FrameOk a) :
    ∃ ks : List OvKey, ks.Nodup ∧
      (∀ K, K ∈ ks ↔ ∃ n a, b.attributes.get n = some a ∧ hasKey K a = true) ∧
      genBodies O b = preBodies O b ++ ks.map (bodyOf O (O.iter 142 [] b.attributes)) := by
  have hmem : ∀ op ∈ allOps O (O.iter 142 [] b.attributes),
      b.attributes.get op.2.1 = some op.2.2 ∧ hasKey op.1 op.2.2 = true := by
    rintro ⟨K, p⟩ hop
    obtain ⟨q, hq, h⟩ := List.mem_flatMap.mp hop
    obtain ⟨K', hK', e⟩ := List.mem_map.mp h
    injection e with e1 e2
    subst e1 e2
    exact ⟨(O.mem_iter ..).mp hq, (mem_attrKeys ..).mp hK'⟩
  obtain ⟨ks, h1, h2, h3⟩ := foldl_upsert O (allOps O (O.iter 142 [] b.attributes))
    (fun op hop => hwf op.2.1 op.2.2 (hmem op hop).1) (preBodies O b) (by rw [preBodies_keys]; exact List.nodup_nil)
  refine ⟨ks, h1, ?_, ?_⟩
  · intro K
    rw [h2, preBodies_keys]
    simp only [List.not_mem_nil, not_false_eq_true, and_true, List.mem_map]
    constructor
    · rintro ⟨op, hop, rfl⟩
      exact ⟨op.2.1, op.2.2, hmem op hop⟩
    · rintro ⟨n, a, h, hk⟩
      refine ⟨(K, n, a), ?_, rfl⟩
      exact List.mem_flatMap.mpr ⟨(n, a), (O.mem_iter ..).mpr h, List.mem_map.mpr ⟨K, (mem_attrKeys ..).mpr hk, rfl⟩⟩
  · rw [genBodies_eq, h3]
    congr 1
    · conv => rhs; rw [← List.map_id (preBodies O b)]
      apply List.map_congr_left
      intro x hx
      have : keyOf x = none := by
        have := preBodies_keys O b
        rw [List.filterMap_eq_nil_iff] at this
        exact this x hx
      unfold finish
      rw [this]; rfl
    · apply List.map_congr_left
      intro K _
      rw [allOps_filter, List.foldl_map]
      rfl

/-! ## Declarative form of the bodies -/

theorem foldl_insOpt_get {V : Type} (f : Attribute → Option V) (l : List (Str × Attribute)) (m : FMap V)
    (k : Str) :
    (l.foldl (fun acc p => insOpt acc p.1 (f p.2)) m).get k
      = (FMap.lastVal (l.filterMap fun p => (f p.2).map fun v => (p.1, v)) k).or (m.get k) := by
  induction l generalizing m with
  | nil => simp
  | cons p t ih =>
    rw [List.foldl_cons, ih]
    cases h : f p.2 with
    | none => simp [insOpt, h]
    | some v =>
      rw [List.filterMap_cons_some (b := (p.1, v)) (by simp [h]), FMap.lastVal_cons]
      simp only [insOpt, FMap.get_insert]
      cases FMap.lastVal (t.filterMap fun p => (f p.2).map fun v => (p.1, v)) k with
      | some w => simp
      | none => split <;> simp

/-- Collecting a field over the attributes selected by `h`, in any order. -/
theorem foldl_insOpt_perm {V : Type} (f : Attribute → Option V) (h : Attribute → Bool)
    (m : FMap Attribute) {l : List (Str × Attribute)} (hp : l.Perm m.l) :
    (l.filter fun p => h p.2).foldl (fun acc p => insOpt acc p.1 (f p.2)) FMap.empty
      = m.filterMap (fun _ a => if h a then f a else none) := by
  ext k : 1
  rw [foldl_insOpt_get, FMap.get_filterMap]
  simp only [FMap.get_empty, Option.or_none]
  have hn : (l.map (·.1)).Nodup := (hp.map _).nodup_iff.mpr m.keys_nodup
  have hsub : (((l.filter fun p => h p.2).filterMap fun p => (f p.2).map fun v => (p.1, v)).map (·.1)).Nodup := by
    have : (((l.filter fun p => h p.2).filterMap fun p => (f p.2).map fun v => (p.1, v)).map (·.1)).Sublist
        (l.map (·.1)) := by
      clear hp hn
      induction l with
      | nil => simp
      | cons p t ih =>
        by_cases hh : h p.2 = true
        · rw [List.filter_cons_of_pos (by simpa using hh)]
          cases hf : f p.2 with
          | none =>
            rw [List.filterMap_cons_none (by simp [hf])]
            exact ih.trans (by simp)
          | some v =>
            rw [List.filterMap_cons_some (b := (p.1, v)) (by simp [hf])]
            simpa using ih
        · rw [List.filter_cons_of_neg (by simpa using hh)]
          exact ih.trans (by simp)
    exact hn.sublist this
  apply Option.ext
  intro v
  rw [FMap.lastVal_of_nodup hsub]
  simp only [List.mem_filterMap, List.mem_filter, Option.map_eq_some_iff, Option.bind_eq_some_iff]
  constructor
  · rintro ⟨p, ⟨hp1, hp2⟩, w, hw, e⟩
    injection e with e1 e2
    subst e1 e2
    refine ⟨p.2, ?_, ?_⟩
    · rw [FMap.get_eq_some_iff, ← hp.mem_iff]; exact hp1
    · rw [if_pos hp2]; exact hw
  · rintro ⟨a, ha, hv⟩
    split at hv
    · next hh =>
      exact ⟨(k, a), ⟨hp.mem_iff.mpr (FMap.get_eq_some_iff.mp ha), hh⟩, v, hv, rfl⟩
    · cases hv

/-- Collect a field of the attributes. -/
def collect {V : Type} (m : FMap Attribute) (f : Attribute → Option V) : FMap V :=
  m.filterMap fun _ a => f a

theorem get_collect {V : Type} (m : FMap Attribute) (f : Attribute → Option V) (n : Str) :
    (collect m f).get n = (m.get n).bind f := FMap.get_filterMap ..

/-- The frame metadata of a generated framing overlay: the frame id, and for every other key a value given
by some scope of the frame (unspecified which if they disagree), for exactly the keys some scope gives. -/
structure FrameMd (m : FMap Attribute) (id : Str) (md : FMap Str) : Prop where
  hasId : md.get frameIdKey = some id
  sound : ∀ k v, k ≠ frameIdKey → md.get k = some v →
    ∃ n a fr sc s, m.get n = some a ∧ optGet a.framings id = some fr ∧ fr.get sc = some s ∧
      s.frameMeta.get k = some v
  complete : ∀ n a fr sc s k, m.get n = some a → optGet a.framings id = some fr → fr.get sc = some s →
    (s.frameMeta.get k).isSome = true → (md.get k).isSome = true

/-- What the overlay of a key must be, given the attributes. -/
def IsBody (m : FMap Attribute) : OvKey → OvBody → Prop
  | .charEnc, b => b = .charEnc (collect m (·.encoding))
  | .format, b => b = .format (collect m (·.format))
  | .conformance, b => b = .conformance (collect m (·.conformance))
  | .cardinality, b => b = .cardinality (collect m (·.cardinality))
  | .conditional, b => b = .conditional (collect m (·.condition))
      (collect m fun a => if a.condition.isSome then a.dependencies else none)
  | .unit, b => b = .unit (collect m (·.unit))
  | .entryCode, b => b = .entryCode (collect m (·.entryCodes))
  | .entry l, b => b = .entry l (collect m fun a => optGet a.entries l)
  | .label l, b => b = .label l [] (collect m fun a => optGet a.labels l)
      (collect m fun a => if (optGet a.labels l).isSome then optGet a.categoryLabels l else none)
  | .information l, b => b = .information l (collect m fun a => optGet a.informations l)
  | .link t, b => b = .link t (collect m fun a => optGet a.links t)
  | .framing id, b => ∃ md, b = .framing md (collect m fun a => optGet a.framings id) ∧ FrameMd m id md

theorem ite_isSome {V : Type} (o : Option V) : (if o.isSome = true then o else none) = o := by
  cases o <;> rfl

theorem foldl_hom {α β γ : Type} (g : γ → β) (f : β → α → β) (f' : γ → α → γ) (l : List α) (c : γ)
    (h : ∀ c a, f (g c) a = g (f' c a)) : l.foldl f (g c) = g (l.foldl f' c) := by
  induction l generalizing c with
  | nil => rfl
  | cons a t ih => rw [List.foldl_cons, List.foldl_cons, h, ih]

theorem foldl_prod {α β γ : Type} (f : β → α → β) (g : γ → α → γ) (l : List α) (b : β) (c : γ) :
    l.foldl (fun p a => (f p.1 a, g p.2 a)) (b, c) = (l.foldl f b, l.foldl g c) := by
  induction l generalizing b c with
  | nil => rfl
  | cons a t ih => rw [List.foldl_cons, List.foldl_cons, List.foldl_cons, ih]

theorem foldl_framing (O : Order) (id : Str) (l : List (Str × Attribute))
    (hwf : ∀ p ∈ l, FrameOk p.2) (md : FMap Str) (m : FMap (FMap Scope)) (hid : md.get frameIdKey = some id) :
    l.foldl (fun b p => b.add O p.1 p.2) (OvBody.framing md m)
      = .framing (md.insertAll (l.flatMap fun p => match optGet p.2.framings id with
            | none => []
            | some fr => scopeMetaPairs O p.1 fr))
          (l.foldl (fun acc p => insOpt acc p.1 (optGet p.2.framings id)) m) := by
  induction l generalizing md m with
  | nil => simp
  | cons p t ih =>
    rw [List.foldl_cons, List.foldl_cons, List.flatMap_cons]
    have ih := ih (fun q hq => hwf q (List.mem_cons_of_mem _ hq))
    cases hfr : optGet p.2.framings id with
    | none =>
      have e1 : (OvBody.framing md m).add O p.1 p.2 = .framing md m := by simp [OvBody.add, hid, hfr]
      have e2 : insOpt m p.1 (none : Option (FMap Scope)) = m := rfl
      rw [e1, e2, ih md m hid]
      rfl
    | some fr =>
      have e1 : (OvBody.framing md m).add O p.1 p.2
          = .framing (md.insertAll (scopeMetaPairs O p.1 fr)) (m.insert p.1 fr) := by
        simp [OvBody.add, hid, hfr]
      have e2 : insOpt m p.1 (some fr) = m.insert p.1 fr := rfl
      rw [e1, e2, ih]
      · simp only [FMap.insertAll, List.foldl_append]
      · rw [FMap.get_insertAll]
        have : FMap.lastVal (scopeMetaPairs O p.1 fr) frameIdKey = none := by
          rw [FMap.lastVal_eq_none]
          rintro ⟨k, v⟩ hp rfl
          obtain ⟨sc, s, h1, h2⟩ := mem_scopeMetaPairs.mp hp
          rw [hwf p (List.mem_cons_self ..) id fr sc s hfr h1] at h2; cases h2
        rw [this]; simpa using hid

theorem isSome_lastVal {V : Type} {l : List (Str × V)} {k : Str} {v : V} (h : (k, v) ∈ l) :
    (FMap.lastVal l k).isSome = true := by
  cases hl : FMap.lastVal l k with
  | some w => rfl
  | none => rw [FMap.lastVal_eq_none] at hl; exact absurd rfl (hl _ h)

theorem bodyOf_isBody (O : Order) (m : FMap Attribute) {l : List (Str × Attribute)} (hp : l.Perm m.l)
    (hwf : ∀ n a, m.get n = some a → FrameOk a) (K : OvKey) : IsBody m K (bodyOf O l K) := by
  have key : ∀ {V : Type} (f : Attribute → Option V) (h : Attribute → Bool),
      (l.filter fun p => h p.2).foldl (fun acc p => insOpt acc p.1 (f p.2)) FMap.empty
        = collect m (fun a => if h a then f a else none) := fun f h => foldl_insOpt_perm f h m hp
  have simple : ∀ {V : Type} (g : FMap V → OvBody) (f : Attribute → Option V) (h : Attribute → Bool),
      (∀ a, h a = (f a).isSome) →
      (∀ x n a, (g x).add O n a = g (insOpt x n (f a))) →
      (l.filter fun p => h p.2).foldl (fun b p => b.add O p.1 p.2) (g FMap.empty) = g (collect m f) := by
    intro V g f h hh hg
    rw [foldl_hom g _ (fun acc p => insOpt acc p.1 (f p.2)) _ _ (fun c p => hg c p.1 p.2), key]
    congr 2
    funext a
    rw [hh, ite_isSome]
  have pair : ∀ {V W : Type} (g : FMap V → FMap W → OvBody) (f : Attribute → Option V)
      (f2 : Attribute → Option W) (h : Attribute → Bool), (∀ a, h a = (f a).isSome) →
      (∀ x y n a, (g x y).add O n a = g (insOpt x n (f a)) (insOpt y n (f2 a))) →
      (l.filter fun p => h p.2).foldl (fun b p => b.add O p.1 p.2) (g FMap.empty FMap.empty)
        = g (collect m f) (collect m fun a => if (f a).isSome then f2 a else none) := by
    intro V W g f f2 h hh hg
    rw [foldl_hom (fun q : FMap V × FMap W => g q.1 q.2) _
      (fun q p => (insOpt q.1 p.1 (f p.2), insOpt q.2 p.1 (f2 p.2))) _ (FMap.empty, FMap.empty)
      (fun c p => hg c.1 c.2 p.1 p.2)]
    rw [foldl_prod (fun x (p : Str × Attribute) => insOpt x p.1 (f p.2)) (fun y (p : Str × Attribute) => insOpt y p.1 (f2 p.2)), key, key]
    show g (collect m fun a => if h a = true then f a else none)
      (collect m fun a => if h a = true then f2 a else none) = _
    congr 2
    · funext a
      rw [hh, ite_isSome]
    · funext a
      rw [hh]
  cases K with
  | charEnc => exact simple OvBody.charEnc (·.encoding) _ (fun _ => rfl) (fun _ _ _ => rfl)
  | format => exact simple OvBody.format (·.format) _ (fun _ => rfl) (fun _ _ _ => rfl)
  | conformance => exact simple OvBody.conformance (·.conformance) _ (fun _ => rfl) (fun _ _ _ => rfl)
  | cardinality => exact simple OvBody.cardinality (·.cardinality) _ (fun _ => rfl) (fun _ _ _ => rfl)
  | unit => exact simple OvBody.unit (·.unit) _ (fun _ => rfl) (fun _ _ _ => rfl)
  | entryCode => exact simple OvBody.entryCode (·.entryCodes) _ (fun _ => rfl) (fun _ _ _ => rfl)
  | entry lang => exact simple (OvBody.entry lang) (fun a => optGet a.entries lang) _ (fun _ => rfl) (fun _ _ _ => rfl)
  | information lang =>
    exact simple (OvBody.information lang) (fun a => optGet a.informations lang) _ (fun _ => rfl) (fun _ _ _ => rfl)
  | link t => exact simple (OvBody.link t) (fun a => optGet a.links t) _ (fun _ => rfl) (fun _ _ _ => rfl)
  | conditional =>
    exact pair OvBody.conditional (·.condition) (·.dependencies) _ (fun _ => rfl) (fun _ _ _ _ => rfl)
  | label lang =>
    exact pair (OvBody.label lang []) (fun a => optGet a.labels lang) (fun a => optGet a.categoryLabels lang) _
      (fun _ => rfl) (fun _ _ _ _ => rfl)
  | framing id =>
    have hmem : ∀ p ∈ l.filter (fun p => hasKey (.framing id) p.2), m.get p.1 = some p.2 ∧
        (optGet p.2.framings id).isSome = true := by
      intro p hpm
      obtain ⟨h1, h2⟩ := List.mem_filter.mp hpm
      exact ⟨FMap.get_eq_some_iff.mpr (hp.mem_iff.mp h1), h2⟩
    refine ⟨(FMap.empty.insert frameIdKey id).insertAll
      ((l.filter fun p => hasKey (.framing id) p.2).flatMap fun p =>
          match optGet p.2.framings id with
            | none => []
            | some fr => scopeMetaPairs O p.1 fr), ?_, ?_⟩
    · unfold bodyOf
      exact (foldl_framing O id _ (fun p hpm => hwf p.1 p.2 (hmem p hpm).1) _ _ (by simp [FMap.get_insert])).trans
        (by
          congr 1
          rw [foldl_insOpt_perm (fun a => optGet a.framings id) (hasKey (.framing id)) m hp]
          unfold collect
          congr 1
          funext _ a
          exact ite_isSome _)
    · have hsound : ∀ k v, (k, v) ∈ ((l.filter fun p => hasKey (.framing id) p.2).flatMap fun p =>
          match optGet p.2.framings id with
            | none => []
            | some fr => scopeMetaPairs O p.1 fr) →
          ∃ n a fr sc s, m.get n = some a ∧ optGet a.framings id = some fr ∧ fr.get sc = some s ∧
            s.frameMeta.get k = some v := by
        intro k v h
        obtain ⟨p, hpm, h⟩ := List.mem_flatMap.mp h
        cases hfr : optGet p.2.framings id with
        | none => rw [hfr] at h; cases h
        | some fr =>
          rw [hfr] at h
          obtain ⟨sc, s, h1, h2⟩ := mem_scopeMetaPairs.mp h
          exact ⟨p.1, p.2, fr, sc, s, (hmem p hpm).1, hfr, h1, h2⟩
      refine ⟨?_, ?_, ?_⟩
      · rw [FMap.get_insertAll]
        have : FMap.lastVal ((l.filter fun p => hasKey (.framing id) p.2).flatMap fun p =>
          match optGet p.2.framings id with
            | none => []
            | some fr => scopeMetaPairs O p.1 fr) frameIdKey = none := by
          rw [FMap.lastVal_eq_none]
          rintro ⟨k, v⟩ h rfl
          obtain ⟨n, a, fr, sc, s, h1, h2, h3, h4⟩ := hsound _ _ h
          rw [hwf n a h1 id fr sc s h2 h3] at h4; cases h4
        rw [this]; simp [FMap.get_insert]
      · intro k v hk h
        rw [FMap.get_insertAll] at h
        cases hl : FMap.lastVal ((l.filter fun p => hasKey (.framing id) p.2).flatMap fun p =>
          match optGet p.2.framings id with
            | none => []
            | some fr => scopeMetaPairs O p.1 fr) k with
        | some w =>
          rw [hl] at h; simp at h; subst h
          exact hsound _ _ (FMap.mem_of_lastVal hl)
        | none =>
          rw [hl] at h
          simp [FMap.get_insert, hk] at h
      · intro n a fr sc s k h1 h2 h3 h4
        obtain ⟨v, hv⟩ := Option.isSome_iff_exists.mp h4
        rw [FMap.get_insertAll]
        have : (FMap.lastVal ((l.filter fun p => hasKey (.framing id) p.2).flatMap fun p =>
          match optGet p.2.framings id with
            | none => []
            | some fr => scopeMetaPairs O p.1 fr) k).isSome = true := by
          apply isSome_lastVal (v := v)
          refine List.mem_flatMap.mpr ⟨(n, a), List.mem_filter.mpr
            ⟨hp.mem_iff.mpr (FMap.get_eq_some_iff.mp h1), by simp [hasKey, h2]⟩, ?_⟩
          simp only [h2]
          exact mem_scopeMetaPairs.mpr ⟨sc, s, h3, hv⟩
        obtain ⟨w, hw⟩ := Option.isSome_iff_exists.mp this
        rw [hw]; rfl

end OCA
