import Verif.Props.WholeAst
/-!
# C65: exactly which JSON objects are read as a transformation command
-/
namespace OCA

/-! ## Specification -/

/-- an entry `"object_kind"` with a text that is neither kind: it is passed over -/
def PassedOver (p : Str × Json) : Prop := p.1 = c!"object_kind" ∧ ∃ s, p.2 = .str s ∧ s ≠ c!"Rename" ∧ s ≠ c!"Link"

/-- the entry `"type"` of a command of this kind -/
def TypeEntry (k : TKind) (p : Str × Json) : Prop := p.1 = c!"type" ∧ (variantName p.2).bind TKind.ofStr = some k

/-- the entry `"object_kind"` and the entry after it, whatever its key, that is read as the content -/
def KindEntries (o : TObj) (p q : Str × Json) : Prop := p.1 = c!"object_kind" ∧ ∃ a, tContentOfJson q.2 = some a ∧
  ((p.2 = .str c!"Rename" ∧ o = .rename a) ∨ (p.2 = .str c!"Link" ∧ o = .link a))

/-! ## Proofs -/

theorem visit_done (k : TKind) (o : TObj) (l : List (Str × Json)) (c : TCommand) : TCommand.visit (some k) (some o) l = some c ↔ l = [] ∧ c = ⟨k, o⟩ := by
  match l with
  | [] => simp [TCommand.visit, eq_comm]
  | [(key, v)] =>
    simp only [TCommand.visit, tVisitType, tVisitObj]
    split <;> (try split) <;> simp
  | (key, v) :: (key', j) :: t =>
    simp only [TCommand.visit, tVisitType, tVisitObj]
    split <;> (try split) <;> simp

theorem visit_cons_type {kind : Option TKind} {o : Option TObj} {v : Json} {t : List (Str × Json)} :
    TCommand.visit kind o ((c!"type", v) :: t) = (tVisitType kind v).bind fun k => TCommand.visit (some k) o t := by
  match t with
  | [] => simp only [TCommand.visit, if_true]; cases tVisitType kind v <;> rfl
  | (key', j) :: t => simp only [TCommand.visit, if_true]; cases tVisitType kind v <;> rfl

/-- what comes first when something is read -/
theorem visit_head {kind : Option TKind} {o : Option TObj} {p : Str × Json} {t : List (Str × Json)} {c : TCommand} (h : TCommand.visit kind o (p :: t) = some c) :
    (∃ k, kind = none ∧ TypeEntry k p ∧ TCommand.visit (some k) o t = some c) ∨
    (o = none ∧ PassedOver p ∧ TCommand.visit kind o t = some c) ∨
    (∃ x q t', o = none ∧ t = q :: t' ∧ KindEntries x p q ∧ TCommand.visit kind (some x) t' = some c) := by
  obtain ⟨key, v⟩ := p
  by_cases hk : key = c!"type"
  · subst hk
    rw [visit_cons_type] at h
    obtain ⟨k, h1, h2⟩ := Option.bind_eq_some_iff.1 h
    unfold tVisitType at h1
    split at h1
    · exact .inl ⟨k, rfl, ⟨rfl, h1⟩, h2⟩
    · cases h1
  · have key2 : ∀ {n}, tVisitObj o v = some n → key = c!"object_kind" → o = none ∧ ∃ s, v = .str s ∧ n = tNext s := by
      intro n hn _
      unfold tVisitObj at hn
      split at hn
      · obtain ⟨s, hs, rfl⟩ := Option.map_eq_some_iff.1 hn
        refine ⟨rfl, s, ?_, rfl⟩
        unfold jStr at hs
        split at hs
        · cases hs; rfl
        · cases hs
      · cases hn
    have nx : ∀ {s : Str} {f}, tNext s = .content f → (s = c!"Rename" ∧ f = .rename) ∨ (s = c!"Link" ∧ f = .link) := by
      intro s f hf
      unfold tNext at hf
      split at hf
      · next e => exact .inl ⟨e, by cases hf; rfl⟩
      · split at hf
        · next e => exact .inr ⟨e, by cases hf; rfl⟩
        · cases hf
    have nn : ∀ {s : Str}, tNext s = .nothing → s ≠ c!"Rename" ∧ s ≠ c!"Link" := by
      intro s hf
      unfold tNext at hf
      split at hf
      · cases hf
      · next e =>
        split at hf
        · cases hf
        · next e' => exact ⟨e, e'⟩
    match t with
    | [] =>
      simp only [TCommand.visit, hk, if_false] at h
      split at h
      · next ho =>
        subst ho
        split at h
        · next hv =>
          obtain ⟨rfl, s, rfl, hs⟩ := key2 hv rfl
          exact .inr (.inl ⟨rfl, ⟨rfl, s, rfl, nn hs.symm⟩, h⟩)
        · cases h
      · cases h
    | (key', j) :: t =>
      simp only [TCommand.visit, hk, if_false] at h
      split at h
      · next ho =>
        subst ho
        split at h
        · next f hv =>
          obtain ⟨rfl, s, rfl, hs⟩ := key2 hv rfl
          split at h
          · next a ha =>
            refine .inr (.inr ⟨_, (key', j), t, rfl, rfl, ⟨rfl, a, ha, ?_⟩, h⟩)
            rcases nx hs.symm with ⟨rfl, rfl⟩ | ⟨rfl, rfl⟩
            · exact .inl ⟨rfl, rfl⟩
            · exact .inr ⟨rfl, rfl⟩
          · cases h
        · next hv =>
          obtain ⟨rfl, s, rfl, hs⟩ := key2 hv rfl
          exact .inr (.inl ⟨rfl, ⟨rfl, s, rfl, nn hs.symm⟩, h⟩)
        · cases h
      · cases h

theorem visit_type {k : TKind} {o : Option TObj} {p : Str × Json} {t : List (Str × Json)} (h : TypeEntry k p) :
    TCommand.visit none o (p :: t) = TCommand.visit (some k) o t := by
  obtain ⟨key, v⟩ := p
  obtain ⟨rfl, hv⟩ := h
  rw [visit_cons_type]
  show ((variantName v).bind TKind.ofStr).bind _ = _
  rw [hv]; rfl

theorem visit_passed {kind : Option TKind} {p : Str × Json} {t : List (Str × Json)} (h : PassedOver p) :
    TCommand.visit kind none (p :: t) = TCommand.visit kind none t := by
  obtain ⟨key, v⟩ := p
  obtain ⟨rfl, s, rfl, h1, h2⟩ := h
  have hn : tVisitObj none (.str s) = some .nothing := by simp [tVisitObj, jStr, tNext, h1, h2]
  match t with
  | [] => simp [TCommand.visit, hn]
  | (key', j) :: t => simp [TCommand.visit, hn]

theorem visit_kind {kind : Option TKind} {o : TObj} {p q : Str × Json} {t : List (Str × Json)} (h : KindEntries o p q) :
    TCommand.visit kind none (p :: q :: t) = TCommand.visit kind (some o) t := by
  obtain ⟨key, v⟩ := p
  obtain ⟨key', j⟩ := q
  obtain ⟨rfl, a, ha, ⟨rfl, rfl⟩ | ⟨rfl, rfl⟩⟩ := h
  · simp [TCommand.visit, tVisitObj, jStr, tNext, ha]
  · simp [TCommand.visit, tVisitObj, jStr, tNext, ha]

theorem visit_passed_all {kind : Option TKind} {s t : List (Str × Json)} (h : ∀ p ∈ s, PassedOver p) :
    TCommand.visit kind none (s ++ t) = TCommand.visit kind none t := by
  induction s with
  | nil => rfl
  | cons p s ih =>
    rw [List.cons_append, visit_passed (h p (List.mem_cons_self ..)), ih fun p hp => h p (List.mem_cons_of_mem _ hp)]

theorem visit_has_obj (o : TObj) (l : List (Str × Json)) (c : TCommand) (h : TCommand.visit none (some o) l = some c) :
    ∃ p, l = [p] ∧ TypeEntry c.kind p ∧ c.obj = o := by
  cases l with
  | nil => simp [TCommand.visit] at h
  | cons p t =>
    rcases visit_head h with ⟨k, -, h1, h2⟩ | ⟨h1, -⟩ | ⟨_, _, _, h1, -⟩
    · obtain ⟨rfl, rfl⟩ := (visit_done ..).1 h2
      exact ⟨p, rfl, h1, rfl⟩
    · cases h1
    · cases h1

theorem visit_has_kind (k : TKind) (l : List (Str × Json)) (c : TCommand) (h : TCommand.visit (some k) none l = some c) :
    ∃ s p q, l = s ++ [p, q] ∧ (∀ x ∈ s, PassedOver x) ∧ KindEntries c.obj p q ∧ c.kind = k := by
  induction l with
  | nil => simp [TCommand.visit] at h
  | cons p t ih =>
    rcases visit_head h with ⟨_, h1, -⟩ | ⟨-, h1, h2⟩ | ⟨x, q, t', -, rfl, h1, h2⟩
    · cases h1
    · obtain ⟨s, p', q, rfl, h3, h4, h5⟩ := ih h2
      exact ⟨p :: s, p', q, rfl, fun y hy => (List.mem_cons.1 hy).elim (fun e => e ▸ h1) (h3 y), h4, h5⟩
    · obtain ⟨rfl, rfl⟩ := (visit_done ..).1 h2
      exact ⟨[], p, q, rfl, fun _ h => (by cases h), h1, rfl⟩

/-- **C65** Exactly these objects are read as a transformation command: one `type` entry with its kind and one `object_kind` entry with one of the two
kinds, followed by an entry (whatever its key) that is a content; before these there may be `object_kind` entries with other texts; in either order, nothing
else. So a kind or an object given twice, a key of another name, and anything that is not an object are refused. -/
theorem C65_trans_read_exact (j : Json) (c : TCommand) : TCommand.ofJson j = some c ↔
    ∃ l, j = .obj l ∧
      ((∃ s1 ty s2 p q, l = s1 ++ ty :: (s2 ++ [p, q]) ∧ (∀ x ∈ s1, PassedOver x) ∧ (∀ x ∈ s2, PassedOver x) ∧ TypeEntry c.kind ty ∧ KindEntries c.obj p q) ∨
       (∃ s p q ty, l = s ++ [p, q, ty] ∧ (∀ x ∈ s, PassedOver x) ∧ KindEntries c.obj p q ∧ TypeEntry c.kind ty)) := by
  constructor
  · intro h
    unfold TCommand.ofJson at h
    split at h
    · next l =>
      refine ⟨l, rfl, ?_⟩
      induction l with
      | nil => simp [TCommand.visit] at h
      | cons p t ih =>
        rcases visit_head h with ⟨k, -, h1, h2⟩ | ⟨-, h1, h2⟩ | ⟨x, q, t', -, rfl, h1, h2⟩
        · obtain ⟨s, p', q, rfl, h3, h4, rfl⟩ := visit_has_kind _ _ _ h2
          exact .inl ⟨[], p, s, p', q, rfl, fun _ h => (by cases h), h3, h1, h4⟩
        · have hs : ∀ {s : List (Str × Json)}, (∀ x ∈ s, PassedOver x) → ∀ x ∈ p :: s, PassedOver x :=
            fun h3 y hy => (List.mem_cons.1 hy).elim (fun e => e ▸ h1) (h3 y)
          rcases ih h2 with ⟨s1, ty, s2, p', q, rfl, a1, a2, a3, a4⟩ | ⟨s, p', q, ty, rfl, a1, a2, a3⟩
          · exact .inl ⟨p :: s1, ty, s2, p', q, rfl, hs a1, a2, a3, a4⟩
          · exact .inr ⟨p :: s, p', q, ty, rfl, hs a1, a2, a3⟩
        · obtain ⟨ty, rfl, h3, rfl⟩ := visit_has_obj _ _ _ h2
          exact .inr ⟨[], p, q, ty, rfl, fun _ h => (by cases h), h1, h3⟩
    · cases h
  · rintro ⟨l, rfl, ⟨s1, ty, s2, p, q, rfl, a1, a2, a3, a4⟩ | ⟨s, p, q, ty, rfl, a1, a2, a3⟩⟩
    · show TCommand.visit none none _ = _
      rw [visit_passed_all a1, visit_type a3, visit_passed_all a2, visit_kind a4]
      rfl
    · show TCommand.visit none none _ = _
      rw [visit_passed_all a1, visit_kind a2, visit_type a3]
      rfl

/-- **C65** In particular: a command with the kind given twice is refused. -/
theorem C65_trans_type_once (j : Json) (c : TCommand) (h : TCommand.ofJson j = some c) :
    ∃ l, j = .obj l ∧ ∀ a b t p q, TypeEntry a p → TypeEntry b q → l ≠ p :: q :: t := by
  obtain ⟨l, hj, hr⟩ := (C65_trans_read_exact j c).1 h
  clear h
  refine ⟨l, hj, ?_⟩
  rintro a b t p q hp hq e0
  clear hj
  have no : ∀ {x k}, PassedOver x → TypeEntry k x → False := by
    intro x k h1 h2; have := h1.1.symm.trans h2.1; revert this; decide
  have no' : ∀ {x y o k}, KindEntries o x y → TypeEntry k x → False := by
    intro x y o k h1 h2; have := h1.1.symm.trans h2.1; revert this; decide
  rcases hr with ⟨s1, ty, s2, x, y, e, a1, a2, a3, a4⟩ | ⟨s, x, y, ty, e, a1, a2, a3⟩ <;> rw [e0] at e
  · cases s1 with
    | nil =>
      cases s2 with
      | nil => cases e; exact no' a4 hq
      | cons z s2 => cases e; exact no (a2 _ (List.mem_cons_self ..)) hq
    | cons z s1 => have e1 := (List.cons.inj e).1; exact no (a1 _ (List.mem_cons_self ..)) (e1 ▸ hp)
  · cases s with
    | nil => cases e; exact no' a2 hp
    | cons z s => have e1 := (List.cons.inj e).1; exact no (a1 _ (List.mem_cons_self ..)) (e1 ▸ hp)

/-- **C65**, a concrete case: an object with an unknown kind first, then content under another key, then the type. -/
theorem C65_trans_read_example : TCommand.ofJson (.obj [(c!"object_kind", .str c!"Other"), (c!"object_kind", .str c!"Link"),
    (c!"x", .obj [(c!"attributes", .obj [(c!"a", .str c!"b")])]), (c!"type", .str c!"Rename")]) = some ⟨.rename, .link (some [(c!"a", c!"b")])⟩ := by
  refine (C65_trans_read_exact _ _).2 ⟨_, rfl, .inr ⟨[_], _, _, _, rfl, ?_, ⟨rfl, some [(c!"a", c!"b")], rfl, .inr ⟨rfl, rfl⟩⟩, ⟨rfl, rfl⟩⟩⟩
  intro x hx
  rw [List.mem_singleton.1 hx]
  exact ⟨rfl, _, rfl, by decide, by decide⟩

end OCA
