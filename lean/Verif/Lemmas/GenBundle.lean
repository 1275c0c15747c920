import Verif.Lemmas.Reach
/-!
# What `generate_bundle` produces
-/
namespace OCA

/-! ## The capture base -/

theorem addAllAttrs_ok {ε : Type} (l : List (Str × Attribute)) (c : CaptureBase)
    (h : ∀ p ∈ l, p.2.ty.isSome = true) :
    (addAllAttrs c l : Res ε _) = .ok { c with
      attributes := c.attributes.insertAll (l.filterMap fun p => p.2.ty.map fun t => (p.1, t)),
      flagged := c.flagged ++ (l.filter fun p => p.2.flagged).map (·.1) } := by
  induction l generalizing c with
  | nil => simp [addAllAttrs]
  | cons p t ih =>
    have hp := h p (List.mem_cons_self ..)
    obtain ⟨ty, hty⟩ := Option.isSome_iff_exists.mp hp
    simp only [addAllAttrs, CaptureBase.add, hty, Res.bind_ok]
    rw [ih _ (fun q hq => h q (List.mem_cons_of_mem _ hq))]
    rw [List.filterMap_cons_some (b := (p.1, ty)) (by simp [hty])]
    cases hf : p.2.flagged <;> simp [hf]

theorem addAllAttrs_panic {ε : Type} (l : List (Str × Attribute)) (c : CaptureBase)
    (h : ∃ p ∈ l, p.2.ty = none) : (addAllAttrs c l : Res ε _) = .panic := by
  induction l generalizing c with
  | nil => obtain ⟨_, h, _⟩ := h; cases h
  | cons p t ih =>
    simp only [addAllAttrs, CaptureBase.add]
    cases hty : p.2.ty with
    | none => rfl
    | some ty =>
      simp only [Res.bind_ok]
      apply ih
      obtain ⟨q, hq, hn⟩ := h
      rcases List.mem_cons.mp hq with rfl | hq
      · rw [hty] at hn; cases hn
      · exact ⟨q, hq, hn⟩

/-- the types of the attributes -/
def typesOf (m : FMap Attribute) : FMap NAttr := collect m (·.ty)

/-- the flagged attributes, in hash order -/
def flagsOf (O : Order) (m : FMap Attribute) : List Str :=
  ((O.iter 327 [] m).filter fun p => p.2.flagged).map (·.1)

/-- the capture base before signing -/
def baseOfBox (O : Order) (b : OCABox) : CaptureBase :=
  { CaptureBase.new with
    classification := b.classification.getD [], attributes := typesOf b.attributes,
    flagged := flagsOf O b.attributes }

theorem collect_perm {V : Type} (f : Attribute → Option V) (m : FMap Attribute) {l : List (Str × Attribute)}
    (hp : l.Perm m.l) :
    FMap.empty.insertAll (l.filterMap fun p => (f p.2).map fun t => (p.1, t)) = collect m f := by
  have := foldl_insOpt_perm f (fun _ => true) m hp
  have ef : l.filter (fun _ => true) = l := List.filter_eq_self.mpr (fun _ _ => rfl)
  rw [ef] at this
  simp only [if_true] at this
  unfold collect
  rw [← this]
  ext k : 1
  rw [foldl_insOpt_get, FMap.get_insertAll]

theorem genCaptureBase_ok {ε : Type} (O : Order) (b : OCABox)
    (h : ∀ n a, b.attributes.get n = some a → a.ty.isSome = true) :
    (genCaptureBase O b : Res ε _) = .ok (baseOfBox O b) := by
  unfold genCaptureBase
  rw [addAllAttrs_ok _ _ (fun p hp => h p.1 p.2 ((O.mem_iter ..).mp hp))]
  unfold baseOfBox typesOf
  rw [← collect_perm (·.ty) b.attributes (O.perm 327 [] b.attributes)]
  rfl

theorem genCaptureBase_panic {ε : Type} (O : Order) (b : OCABox)
    (h : ∃ n a, b.attributes.get n = some a ∧ a.ty = none) :
    (genCaptureBase O b : Res ε _) = .panic := by
  unfold genCaptureBase
  obtain ⟨n, a, h1, h2⟩ := h
  exact addAllAttrs_panic _ _ ⟨(n, a), (O.mem_iter ..).mpr h1, h2⟩

/-! ## The bundle -/

/-- the generated bundle -/
def bundleOf (E : Env) (O : Order) (b : OCABox) : Bundle :=
  Bundle.fillSaid E ⟨none, (baseOfBox O b).sign E,
    (genBodies O b).map fun body =>
      Overlay.sign E (E.digest (baseOfBox O b).digestInput) ⟨none, none, c!"1.1", body⟩⟩

theorem generateBundle_ok {ε : Type} (E : Env) (O : Order) (b : OCABox)
    (h : ∀ n a, b.attributes.get n = some a → a.ty.isSome = true) :
    (generateBundle E O b : Res ε _) = .ok (bundleOf E O b) := by
  unfold generateBundle
  rw [genCaptureBase_ok O b h]
  rfl

theorem generateBundle_eq_ok {ε : Type} {E : Env} {O : Order} {b : OCABox} {r : Bundle}
    (h : (generateBundle E O b : Res ε _) = .ok r) :
    (∀ n a, b.attributes.get n = some a → a.ty.isSome = true) ∧ r = bundleOf E O b := by
  have h1 : ∀ n a, b.attributes.get n = some a → a.ty.isSome = true := by
    intro n a ha
    cases hty : a.ty with
    | some t => rfl
    | none =>
      unfold generateBundle at h
      rw [genCaptureBase_panic O b ⟨n, a, ha, hty⟩] at h
      cases h
  rw [generateBundle_ok E O b h1] at h
  cases h
  exact ⟨h1, rfl⟩

theorem mem_overlays {E : Env} {O : Order} {b : OCABox} {o : Overlay} (h : o ∈ (bundleOf E O b).overlays) :
    o.body ∈ genBodies O b ∧ o = Overlay.sign E (E.digest (baseOfBox O b).digestInput) ⟨none, none, c!"1.1", o.body⟩ := by
  obtain ⟨body, h1, rfl⟩ := List.mem_map.mp h
  exact ⟨h1, rfl⟩

theorem bodies_bundleOf (E : Env) (O : Order) (b : OCABox) :
    (bundleOf E O b).overlays.map Overlay.body = genBodies O b := by
  show List.map _ (List.map _ _) = _
  rw [List.map_map]
  exact List.map_id _

/-! ## Sorting -/

theorem insStr_comm (a b : Str) (l : List Str) : insStr a (insStr b l) = insStr b (insStr a l) := by
  induction l with
  | nil =>
    simp only [insStr]
    rcases Str.lt_trichotomy a b with h | h | h
    · simp [h, Str.lt_asymm h]
    · subst h; rfl
    · simp [h, Str.lt_asymm h]
  | cons t l ih =>
    simp only [insStr]
    by_cases ha : Str.lt t a = true <;> by_cases hb : Str.lt t b = true
    · simp [ha, hb, insStr, ih]
    · have : Str.lt b a = true := by
        rcases Str.lt_trichotomy t b with h | h | h
        · exact absurd h hb
        · subst h; exact ha
        · exact Str.lt_trans h ha
      simp [ha, hb, insStr, this]
    · have : Str.lt a b = true := by
        rcases Str.lt_trichotomy t a with h | h | h
        · exact absurd h ha
        · subst h; exact hb
        · exact Str.lt_trans h hb
      simp [ha, hb, insStr, this]
    · rcases Str.lt_trichotomy a b with h | h | h
      · simp [ha, hb, insStr, h, Str.lt_asymm h]
      · subst h; rfl
      · simp [ha, hb, insStr, h, Str.lt_asymm h]

theorem sortStr_perm {l l' : List Str} (h : l.Perm l') : sortStr l = sortStr l' := by
  induction h with
  | nil => rfl
  | cons x _ ih => simp [sortStr, ih]
  | swap x y l => simp [sortStr, insStr_comm]
  | trans _ _ ih1 ih2 => exact ih1.trans ih2

theorem perm_insStr (s : Str) (l : List Str) : (insStr s l).Perm (s :: l) := by
  induction l with
  | nil => exact List.Perm.refl _
  | cons t l ih =>
    simp only [insStr]
    split
    · exact (ih.cons t).trans (List.Perm.swap ..)
    · exact List.Perm.refl _

theorem perm_sortStr (l : List Str) : (sortStr l).Perm l := by
  induction l with
  | nil => exact List.Perm.refl _
  | cons s l ih => exact (perm_insStr s _).trans (ih.cons s)

/-- Overlays are told apart by their SAIDs. -/
def SaidsSeparate (l : List Overlay) : Prop :=
  (∀ o ∈ l, o.said.isSome = true) ∧ ∀ o ∈ l, ∀ o' ∈ l, o.said = o'.said → o = o'

theorem saidLe_total {a b : Overlay} (ha : a.said.isSome = true) (hb : b.said.isSome = true) :
    saidLe a b = true ∨ saidLe b a = true := by
  obtain ⟨x, hx⟩ := Option.isSome_iff_exists.mp ha
  obtain ⟨y, hy⟩ := Option.isSome_iff_exists.mp hb
  simp only [saidLe, hx, hy]
  rcases Str.lt_trichotomy x y with h | h | h
  · simp [Str.lt_asymm h]
  · subst h; simp [Str.lt_irrefl]
  · simp [Str.lt_asymm h]

theorem saidLe_trans {a b c : Overlay} (ha : a.said.isSome = true) (hb : b.said.isSome = true)
    (hc : c.said.isSome = true) (h1 : saidLe a b = true) (h2 : saidLe b c = true) : saidLe a c = true := by
  obtain ⟨x, hx⟩ := Option.isSome_iff_exists.mp ha
  obtain ⟨y, hy⟩ := Option.isSome_iff_exists.mp hb
  obtain ⟨z, hz⟩ := Option.isSome_iff_exists.mp hc
  simp only [saidLe, hx, hy, hz, Bool.not_eq_true'] at *
  cases h : Str.lt z x with
  | false => rfl
  | true =>
    rcases Str.lt_trichotomy x y with h' | h' | h'
    · rw [Str.lt_trans h h'] at h2; cases h2
    · subst h'; rw [h] at h2; cases h2
    · rw [h'] at h1; cases h1

theorem saidLe_antisymm {a b : Overlay} (ha : a.said.isSome = true) (hb : b.said.isSome = true)
    (h1 : saidLe a b = true) (h2 : saidLe b a = true) : a.said = b.said := by
  obtain ⟨x, hx⟩ := Option.isSome_iff_exists.mp ha
  obtain ⟨y, hy⟩ := Option.isSome_iff_exists.mp hb
  simp only [saidLe, hx, hy, Bool.not_eq_true'] at *
  rcases Str.lt_trichotomy x y with h | h | h
  · rw [h] at h2; cases h2
  · rw [h]
  · rw [h] at h1; cases h1

theorem insOv_comm (a b : Overlay) (l : List Overlay) (ha : a.said.isSome = true) (hb : b.said.isSome = true)
    (hl : ∀ o ∈ l, o.said.isSome = true) (he : a.said = b.said → a = b) :
    insOv a (insOv b l) = insOv b (insOv a l) := by
  by_cases hab : a = b
  · subst hab; rfl
  have hne : ¬ (saidLe a b = true ∧ saidLe b a = true) := fun h => hab (he (saidLe_antisymm ha hb h.1 h.2))
  induction l with
  | nil =>
    simp only [insOv]
    rcases saidLe_total ha hb with h | h
    · have : saidLe b a = false := by
        cases h' : saidLe b a with
        | false => rfl
        | true => exact absurd ⟨h, h'⟩ hne
      simp [h, this]
    · have : saidLe a b = false := by
        cases h' : saidLe a b with
        | false => rfl
        | true => exact absurd ⟨h', h⟩ hne
      simp [h, this]
  | cons t l ih =>
    have ht := hl t (List.mem_cons_self ..)
    have ih := ih (fun o ho => hl o (List.mem_cons_of_mem _ ho))
    simp only [insOv]
    by_cases h1 : saidLe a t = true <;> by_cases h2 : saidLe b t = true
    · rcases saidLe_total ha hb with h | h
      · have : saidLe b a = false := by
          cases h' : saidLe b a with
          | false => rfl
          | true => exact absurd ⟨h, h'⟩ hne
        simp [h1, h2, insOv, h, this]
      · have : saidLe a b = false := by
          cases h' : saidLe a b with
          | false => rfl
          | true => exact absurd ⟨h', h⟩ hne
        simp [h1, h2, insOv, h, this]
    · have h3 : saidLe b a = false := by
        cases h' : saidLe b a with
        | false => rfl
        | true => exact absurd (saidLe_trans hb ha ht h' h1) h2
      simp [h1, h2, insOv, h3]
    · have h3 : saidLe a b = false := by
        cases h' : saidLe a b with
        | false => rfl
        | true => exact absurd (saidLe_trans ha hb ht h' h2) h1
      simp [h1, h2, insOv, h3]
    · simp [h1, h2, insOv, ih]

theorem perm_insOv (s : Overlay) (l : List Overlay) : (insOv s l).Perm (s :: l) := by
  induction l with
  | nil => exact List.Perm.refl _
  | cons t l ih =>
    simp only [insOv]
    split
    · exact List.Perm.refl _
    · exact (ih.cons t).trans (List.Perm.swap ..)

theorem perm_sortOvs (l : List Overlay) : (sortOvs l).Perm l := by
  induction l with
  | nil => exact List.Perm.refl _
  | cons s l ih => exact (perm_insOv s _).trans (ih.cons s)

theorem sortOvs_perm {l l' : List Overlay} (h : l.Perm l') (hs : SaidsSeparate l) : sortOvs l = sortOvs l' := by
  induction h with
  | nil => rfl
  | cons x _ ih =>
    simp only [sortOvs]
    rw [ih ⟨fun o ho => hs.1 o (List.mem_cons_of_mem _ ho),
      fun o ho o' ho' => hs.2 o (List.mem_cons_of_mem _ ho) o' (List.mem_cons_of_mem _ ho')⟩]
  | swap x y l =>
    simp only [sortOvs]
    apply insOv_comm
    · exact hs.1 _ (by simp)
    · exact hs.1 _ (by simp)
    · intro o ho
      exact hs.1 o (by have := (perm_sortOvs l).mem_iff.mp ho; simp [this])
    · exact hs.2 _ (by simp) _ (by simp)
  | trans h1 _ ih1 ih2 =>
    exact (ih1 hs).trans (ih2 ⟨fun o ho => hs.1 o (h1.mem_iff.mpr ho),
      fun o ho o' ho' => hs.2 o (h1.mem_iff.mpr ho) o' (h1.mem_iff.mpr ho')⟩)

/-! ## Grouping -/

theorem snake_inj (k k' : OvKind) (h : k.snake = k'.snake) : k = k' := by
  cases k <;> cases k' <;> first | rfl | (exfalso; revert h; decide)

/-- The overlays of a group name. -/
def groupOf (ovs : List Overlay) (k : Str) : List Overlay := ovs.filter fun o => decide (o.body.kind.snake = k)

/-- the group as kept by the serialiser -/
def keptGroup (ovs : List Overlay) (k : Str) : Option (List Overlay) :=
  match (groupOf ovs k).getLast? with
  | none => none
  | some o => if o.body.kind.many then some (groupOf ovs k) else some [o]

theorem groupOf_append (l l' : List Overlay) (k : Str) : groupOf (l ++ l') k = groupOf l k ++ groupOf l' k := by
  simp [groupOf]

theorem many_of_groupOf {ovs : List Overlay} {k : Str} {o o' : Overlay} (h : o ∈ groupOf ovs k)
    (h' : o' ∈ groupOf ovs k) : o.body.kind = o'.body.kind := by
  apply snake_inj
  have h1 := (List.mem_filter.mp h).2
  have h2 := (List.mem_filter.mp h').2
  simp only [decide_eq_true_eq] at h1 h2
  rw [h1, h2]

theorem get_groups (ovs : List Overlay) (k : Str) :
    (ovs.foldl groupStep FMap.empty).get k = keptGroup ovs k := by
  suffices h : ∀ (pre rest : List Overlay) (g : FMap (List Overlay)), (∀ k, g.get k = keptGroup pre k) →
      ∀ k, (rest.foldl groupStep g).get k = keptGroup (pre ++ rest) k by
    exact h [] ovs FMap.empty (fun _ => rfl) k
  intro pre rest
  induction rest generalizing pre with
  | nil => intro g hg k; simpa using hg k
  | cons o t ih =>
    intro g hg k
    rw [List.foldl_cons]
    have : pre ++ o :: t = (pre ++ [o]) ++ t := by simp
    rw [this]
    apply ih
    intro k
    by_cases hk : o.body.kind.snake = k
    · have e1 : groupOf (pre ++ [o]) k = groupOf pre k ++ [o] := by
        rw [groupOf_append]; simp [groupOf, hk]
      have e2 : keptGroup (pre ++ [o]) k = if o.body.kind.many then some (groupOf pre k ++ [o]) else some [o] := by
        unfold keptGroup
        rw [e1, List.getLast?_concat]
      rw [e2]
      unfold groupStep
      simp only [hk]
      by_cases hm : o.body.kind.many = true
      · rw [if_pos hm, if_pos hm, hg]
        unfold keptGroup
        cases hl : (groupOf pre k).getLast? with
        | none =>
          rw [List.getLast?_eq_none_iff] at hl
          rw [hl]
          simp [FMap.get_insert]
        | some o' =>
          have ho' : o' ∈ groupOf (pre ++ [o]) k := by
            rw [e1]; exact List.mem_append_left _ (List.mem_of_getLast? hl)
          have ho : o ∈ groupOf (pre ++ [o]) k := by rw [e1]; simp
          have := many_of_groupOf ho ho'
          rw [this] at hm
          simp [hm, FMap.get_insert]
      · rw [if_neg hm, if_neg hm]
        simp [FMap.get_insert]
    · have e1 : groupOf (pre ++ [o]) k = groupOf pre k := by
        rw [groupOf_append]; simp [groupOf, hk]
      have e2 : keptGroup (pre ++ [o]) k = keptGroup pre k := by
        unfold keptGroup; rw [e1]
      rw [e2, ← hg]
      have hk' : ¬ k = o.body.kind.snake := fun e => hk e.symm
      unfold groupStep
      dsimp only
      split
      · split <;> simp only [FMap.get_insert, if_neg hk']
      · simp only [FMap.get_insert, if_neg hk']

theorem toList_map_eq {V W : Type} (f : Str → V → W) (m : FMap V) :
    (m.filterMap fun k v => some (f k v)).l = m.l.map fun p => (p.1, f p.1 p.2) := by
  show List.filterMap _ _ = _
  simp [List.filterMap_eq_map']

/-- Kinds that may occur only once do. -/
def SinglesOnce (ovs : List Overlay) : Prop :=
  ∀ k : OvKind, k.many = false → (ovs.filter fun o => decide (o.body.kind = k)).length ≤ 1

theorem many_table (k : OvKind) :
    (OvKind.all.filter OvKind.many).any (fun q => decide (q.snake = k.snake)) = k.many := by
  cases k <;> decide

theorem overlaysJson_perm {l l' : List Overlay} (h : l.Perm l') (hs : SaidsSeparate l) (h1 : SinglesOnce l) :
    overlaysJson l = overlaysJson l' := by
  unfold overlaysJson
  rw [← toList_map_eq groupJson, ← toList_map_eq groupJson]
  have : (FMap.filterMap (fun k v => some (groupJson k v)) (l.foldl groupStep FMap.empty))
      = (FMap.filterMap (fun k v => some (groupJson k v)) (l'.foldl groupStep FMap.empty)) := by
    ext k : 1
    rw [FMap.get_filterMap, FMap.get_filterMap, get_groups, get_groups]
    have hp : (groupOf l k).Perm (groupOf l' k) := h.filter _
    unfold keptGroup
    cases hl : (groupOf l k).getLast? with
    | none =>
      rw [List.getLast?_eq_none_iff] at hl
      rw [hl] at hp
      rw [List.nil_perm.mp hp]; rfl
    | some o =>
      have ho := List.mem_of_getLast? hl
      have ho' := hp.mem_iff.mp ho
      have hk : o.body.kind.snake = k := by simpa [groupOf] using (List.mem_filter.mp ho).2
      cases hl' : (groupOf l' k).getLast? with
      | none =>
        rw [List.getLast?_eq_none_iff] at hl'
        rw [hl'] at ho'; cases ho'
      | some o' =>
        have ho2 := List.mem_of_getLast? hl'
        have hkind := many_of_groupOf ho' ho2
        simp only
        rw [← hkind]
        cases hm : o.body.kind.many with
        | true =>
          simp only [if_true, Option.bind_some]
          have ht := many_table o.body.kind
          rw [hk, hm] at ht
          unfold groupJson
          rw [if_pos ht, if_pos ht]
          have hsub : SaidsSeparate (groupOf l k) :=
            ⟨fun o ho => hs.1 o (List.mem_filter.mp ho).1,
             fun o ho o' ho' => hs.2 o (List.mem_filter.mp ho).1 o' (List.mem_filter.mp ho').1⟩
          rw [sortOvs_perm hp hsub]
        | false =>
          simp only [Bool.false_eq_true, if_false, Option.bind_some]
          have h2 := h1 o.body.kind hm
          have e : (l.filter fun x => decide (x.body.kind = o.body.kind)) = groupOf l k := by
            apply List.filter_congr
            intro x _
            apply decide_eq_decide.mpr
            constructor
            · intro e; rw [e, hk]
            · intro e; exact snake_inj _ _ (e.trans hk.symm)
          rw [e] at h2
          have : ∀ x ∈ groupOf l k, x = o := by
            intro x hx
            match hg : groupOf l k with
            | [] => rw [hg] at hx; cases hx
            | [y] => rw [hg] at hx ho; simp at hx ho; rw [hx, ho]
            | _ :: _ :: _ => rw [hg] at h2; simp at h2
          rw [this o' (hp.mem_iff.mpr ho2)]
  rw [this]

end OCA
