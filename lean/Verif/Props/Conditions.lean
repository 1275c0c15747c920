import Verif.Model.Condition
import Verif.Lemmas.Str
/-!
# C01, C02, C03: conditions
-/
namespace OCA

/-! ## Specification -/

/-- `Decomp s ps`: the text `s` reads as the pieces `ps`, from left to right; `${name}` where `name`
has no `}` is a placeholder, every character at which no placeholder begins is itself. -/
inductive Decomp : Str → List Piece → Prop
  | nil : Decomp [] []
  | ph (name rest ps) : '}' ∉ name → Decomp rest ps →
      Decomp (c!"${" ++ name ++ c!"}" ++ rest) (.ph name :: ps)
  | lit (c s ps) : (¬ ∃ name rest, '}' ∉ name ∧ c :: s = c!"${" ++ name ++ c!"}" ++ rest) →
      Decomp s ps → Decomp (c :: s) (.lit c :: ps)

/-- The names of the placeholders, in order, with repetitions. -/
def phNames : List Piece → List Str
  | [] => []
  | .lit _ :: ps => phNames ps
  | .ph n :: ps => n :: phNames ps

/-- The text with every placeholder replaced by what `f` says about its name. -/
def substNames (f : Str → Str) : List Piece → Str
  | [] => []
  | .lit c :: ps => c :: substNames f ps
  | .ph n :: ps => f n ++ substNames f ps

/-! ## Helper lemmas -/

theorem matchAny_eq_some {s n : Str} :
    matchAny s = some n ↔ '}' ∉ n ∧ ∃ rest, s = c!"${" ++ n ++ c!"}" ++ rest := by
  unfold matchAny
  constructor
  · intro h
    split at h
    · cases h
    · next r hr =>
      have hr := stripPrefix_eq_some.mp hr
      simp only [Option.map_eq_some_iff, Prod.exists, exists_and_right, exists_eq_right] at h
      obtain ⟨rest, h⟩ := h
      obtain ⟨h1, h2⟩ := splitOnce_eq_some.mp h
      exact ⟨h2, rest, by rw [hr, h1]; simp⟩
  · rintro ⟨hn, rest, rfl⟩
    have : stripPrefix c!"${" (c!"${" ++ n ++ c!"}" ++ rest) = some (n ++ '}' :: rest) := by
      rw [stripPrefix_eq_some]; simp
    rw [this]
    simp only [splitOnce_append rest hn, Option.map_some]

theorem matchAny_eq_none {s : Str} :
    matchAny s = none ↔ ¬ ∃ name rest, '}' ∉ name ∧ s = c!"${" ++ name ++ c!"}" ++ rest := by
  rw [Option.eq_none_iff_forall_not_mem]
  constructor
  · rintro h ⟨n, rest, hn, e⟩
    exact h n (matchAny_eq_some.mpr ⟨hn, rest, e⟩)
  · intro h n hn
    obtain ⟨h1, rest, h2⟩ := matchAny_eq_some.mp hn
    exact h ⟨n, rest, h1, h2⟩

theorem scan_drop (m : Str → Option Str) (k : Nat) (s : Str) : scan m k s = scan m 0 (s.drop k) := by
  induction k generalizing s with
  | zero => rfl
  | succ k ih =>
    cases s with
    | nil => simp [scan]
    | cons c s => simp only [scan, List.drop_succ_cons]; exact ih s

theorem scan_ph {m : Str → Option Str} {n rest : Str}
    (h : m (c!"${" ++ n ++ c!"}" ++ rest) = some n) :
    scan m 0 (c!"${" ++ n ++ c!"}" ++ rest) = .ph n :: scan m 0 rest := by
  have e : c!"${" ++ n ++ c!"}" ++ rest = '$' :: ('{' :: (n ++ '}' :: rest)) := by simp
  rw [e] at h ⊢
  simp only [scan, h]
  rw [scan_drop]
  have : List.drop (n.length + 1) (n ++ '}' :: rest) = rest := by
    rw [List.drop_append]
    simp
  rw [this]

theorem scan_lit {m : Str → Option Str} {c : Char} {s : Str} (h : m (c :: s) = none) :
    scan m 0 (c :: s) = .lit c :: scan m 0 s := by
  simp only [scan, h]

theorem Decomp.unique {s : Str} {ps : List Piece} (h : Decomp s ps) : scan matchAny 0 s = ps := by
  induction h with
  | nil => rfl
  | ph name rest ps hn _ ih =>
    rw [scan_ph (matchAny_eq_some.mpr ⟨hn, rest, rfl⟩), ih]
  | lit c s ps hn _ ih =>
    rw [scan_lit (matchAny_eq_none.mpr hn), ih]

theorem Decomp.scan (s : Str) : Decomp s (scan matchAny 0 s) := by
  generalize hl : s.length = l
  induction l using Nat.strongRecOn generalizing s with
  | _ l ih =>
    cases s with
    | nil => exact .nil
    | cons c s =>
      cases hm : matchAny (c :: s) with
      | none =>
        rw [scan_lit hm]
        exact .lit c s _ (matchAny_eq_none.mp hm) (ih s.length (by rw [← hl]; simp) s rfl)
      | some n =>
        obtain ⟨h1, rest, h2⟩ := matchAny_eq_some.mp hm
        rw [h2] at hm ⊢
        rw [scan_ph hm]
        refine .ph n rest _ h1 (ih rest.length ?_ rest rfl)
        rw [← hl, h2]; simp; omega

/-- The specification gives every text exactly one reading. -/
theorem Decomp.exists_unique (s : Str) : ∃ ps, Decomp s ps ∧ ∀ ps', Decomp s ps' → ps' = ps :=
  ⟨_, Decomp.scan s, fun _ h => h.unique.symm⟩

theorem Decomp.render {s : Str} {ps : List Piece} (h : Decomp s ps) : OCA.render ps = s := by
  induction h with
  | nil => rfl
  | ph name rest ps _ _ ih => simp only [OCA.render] at *; simp [Piece.text, ih]
  | lit c s ps _ _ ih => simp only [OCA.render] at *; simp [Piece.text, ih]

/-- Same literals, possibly other names. -/
inductive SameShape : List Piece → List Piece → Prop
  | nil : SameShape [] []
  | lit (c ps ps') : SameShape ps ps' → SameShape (.lit c :: ps) (.lit c :: ps')
  | ph (n n' ps ps') : SameShape ps ps' → SameShape (.ph n :: ps) (.ph n' :: ps')

theorem no_ph_of_no_brace {s : Str} {ps : List Piece} (h : Decomp s ps) (hn : '}' ∉ s) :
    ∀ ps', SameShape ps ps' → OCA.render ps' = s := by
  induction h with
  | nil => intro ps' h; cases h; rfl
  | ph name rest ps _ _ ih => simp at hn
  | lit c s ps _ _ ih =>
    intro ps' h
    cases h with
    | lit _ _ ps' h =>
      have := ih (fun hm => hn (List.mem_cons_of_mem _ hm)) ps' h
      simp only [OCA.render] at *
      simp [Piece.text, this]

/-- Changing the names of placeholders does not create or destroy matches. -/
theorem matchAny_none_of_shape {c : Char} {s : Str} {ps ps' : List Piece} (hd : Decomp s ps)
    (hs : SameShape ps ps') (h : matchAny (c :: s) = none) :
    matchAny (c :: OCA.render ps') = none := by
  rw [matchAny_eq_none] at h ⊢
  rintro ⟨name, rest, hn, e⟩
  simp only [List.cons_append, List.nil_append, List.cons.injEq] at e
  obtain ⟨rfl, e⟩ := e
  cases hd with
  | nil => cases hs; simp [OCA.render] at e
  | ph name' rest' ps _ _ =>
    cases hs
    simp [OCA.render, Piece.text] at e
  | lit c s ps hnl hd =>
    cases hs with
    | lit _ _ ps' hs =>
      simp only [OCA.render, List.map_cons, List.flatten_cons, Piece.text, List.cons_append, List.nil_append,
        List.cons.injEq] at e
      obtain ⟨rfl, e⟩ := e
      by_cases hb : '}' ∈ s
      · apply h
        obtain ⟨a, b, hab, hna⟩ : ∃ a b, s = a ++ '}' :: b ∧ '}' ∉ a := by
          cases hsp : splitOnce '}' s with
          | none => exact absurd hb (splitOnce_eq_none.mp hsp)
          | some p => exact ⟨p.1, p.2, splitOnce_eq_some.mp hsp⟩
        exact ⟨a, b, hna, by rw [hab]; simp⟩
      · have := no_ph_of_no_brace hd hb ps' hs
        simp only [OCA.render] at this
        rw [this] at e
        exact hb (by rw [e]; simp)

theorem scan_render_shape {m : Str → Option Str} (hm : ∀ s, matchAny s = none → m s = none)
    {s : Str} {ps ps' : List Piece} (hd : Decomp s ps) (hs : SameShape ps ps')
    (hg : ∀ n, Piece.ph n ∈ ps' → ∀ rest, m (c!"${" ++ n ++ c!"}" ++ rest) = some n) :
    scan m 0 (OCA.render ps') = ps' := by
  induction hs generalizing s with
  | nil => rfl
  | lit c ps ps' hs ih =>
    cases hd with
    | lit _ s _ hnl hd =>
      have e : OCA.render (.lit c :: ps') = c :: OCA.render ps' := by simp [OCA.render, Piece.text]
      rw [e, scan_lit (hm _ (matchAny_none_of_shape hd hs (matchAny_eq_none.mpr hnl)))]
      rw [ih hd (fun n hn => hg n (List.mem_cons_of_mem _ hn))]
  | ph n n' ps ps' hs ih =>
    cases hd with
    | ph _ rest _ hn hd =>
      have e : OCA.render (.ph n' :: ps') = c!"${" ++ n' ++ c!"}" ++ OCA.render ps' := by
        simp [OCA.render, Piece.text]
      rw [e, scan_ph (hg n' (List.mem_cons_self ..) _)]
      rw [ih hd (fun n hn => hg n (List.mem_cons_of_mem _ hn))]

theorem indexPieces_shape (ps : List Piece) (deps : List Str) :
    SameShape ps (indexPieces ps deps).1 := by
  induction ps generalizing deps with
  | nil => exact .nil
  | cons p ps ih =>
    cases p with
    | lit c => exact .lit _ _ _ (ih deps)
    | ph n => exact .ph _ _ _ _ (ih _)

theorem indexPieces_names (ps : List Piece) (deps : List Str) (n : Str)
    (h : Piece.ph n ∈ (indexPieces ps deps).1) : ∃ i, n = natText i := by
  induction ps generalizing deps with
  | nil => cases h
  | cons p ps ih =>
    cases p with
    | lit c =>
      simp only [indexPieces, List.mem_cons, reduceCtorEq, false_or] at h
      exact ih deps h
    | ph n' =>
      simp only [indexPieces, List.mem_cons, Piece.ph.injEq] at h
      rcases h with h | h
      · exact ⟨_, h⟩
      · exact ih _ h

theorem natText_digit {i : Nat} {c : Char} (h : c ∈ natText i) : c.isDigit = true :=
  Nat.isDigit_of_mem_toDigits (by decide) (by decide) h

theorem natText_ne_nil (i : Nat) : natText i ≠ [] := Nat.toDigits_ne_nil

theorem isDigit_ascii {c : Char} (h : c.isDigit = true) : c.toNat < 128 := by
  simp only [Char.isDigit, Bool.and_eq_true, decide_eq_true_eq] at h
  have h2 := UInt32.le_iff_toNat_le.mp h.2
  have : c.toNat = c.val.toNat := rfl
  rw [this]
  have : ('9'.val).toNat = 57 := rfl
  omega

theorem natText_no_brace (i : Nat) : '}' ∉ natText i := by
  intro h
  have := natText_digit h
  revert this; decide

theorem parseNat_natText (i : Nat) : parseNat (natText i) = some i := by
  unfold parseNat
  have h1 : (natText i).isEmpty = false := List.isEmpty_eq_false_iff.mpr (natText_ne_nil i)
  have h2 : (natText i).all Char.isDigit = true := by
    rw [List.all_eq_true]; intro c hc; exact natText_digit hc
  simp only [h1, h2, Bool.not_true, Bool.or_self, Bool.false_eq_true, if_false]
  rw [natText, Nat.ofDigitChars_ten_toDigits]

theorem matchNum_natText (E : Env) (i : Nat) (rest : Str) :
    matchNum E (c!"${" ++ natText i ++ c!"}" ++ rest) = some (natText i) := by
  unfold matchNum
  rw [matchAny_eq_some.mpr ⟨natText_no_brace i, rest, rfl⟩]
  have h1 : (natText i).isEmpty = false := List.isEmpty_eq_false_iff.mpr (natText_ne_nil i)
  have h2 : (natText i).all E.isNd = true := by
    rw [List.all_eq_true]; intro c hc
    rw [E.isNd_ascii c (isDigit_ascii (natText_digit hc))]
    exact natText_digit hc
  simp [Option.filter, h1, h2]

theorem matchNum_none {E : Env} {s : Str} (h : matchAny s = none) : matchNum E s = none := by
  simp [matchNum, h]

/-- Scanning a stored condition finds exactly the placeholders written into it. -/
theorem scan_stored (E : Env) (s : Str) :
    scan (matchNum E) 0 (setCondition s).1 = (indexPieces (scan matchAny 0 s) []).1 := by
  apply scan_render_shape (s := s) (ps := scan matchAny 0 s) (fun _ h => matchNum_none h)
    (Decomp.scan s) (indexPieces_shape _ _)
  intro n hn rest
  obtain ⟨i, rfl⟩ := indexPieces_names _ _ n hn
  exact matchNum_natText E i rest

theorem depIndex_prefix (deps : List Str) (n : Str) : deps <+: (depIndex deps n).2 := by
  unfold depIndex; split
  · exact List.prefix_rfl
  · exact List.prefix_append ..

theorem depIndex_get (deps : List Str) (n : Str) :
    (depIndex deps n).2[(depIndex deps n).1]? = some n := by
  unfold depIndex; split
  · next h =>
    simp only
    rw [List.getElem?_eq_getElem (List.idxOf_lt_length_of_mem h)]
    rw [List.getElem_idxOf]
  · simp

theorem indexPieces_prefix (ps : List Piece) (deps : List Str) : deps <+: (indexPieces ps deps).2 := by
  induction ps generalizing deps with
  | nil => exact List.prefix_rfl
  | cons p ps ih =>
    cases p with
    | lit c => exact ih deps
    | ph n => exact (depIndex_prefix deps n).trans (ih _)

theorem getElem?_of_prefix {α : Type} {l l' : List α} {i : Nat} {a : α} (h : l <+: l')
    (hg : l[i]? = some a) : l'[i]? = some a := by
  obtain ⟨t, rfl⟩ := h
  rw [List.getElem?_append_left]
  · exact hg
  · exact (List.getElem?_eq_some_iff.mp hg).1

/-- Replacing the placeholders of a stored condition by what `f` says about the dependency they point
to gives the original text with its placeholders replaced by what `f` says about their names. -/
theorem replace_stored {ε : Type} (f : Str → Str) (F : Str → Res ε Str) (ps : List Piece)
    (deps ds : List Str) (hp : (indexPieces ps deps).2 <+: ds)
    (hF : ∀ g d, d ∈ phNames ps → depAt (ε := ε) ds g = .ok d → F g = .ok (f d)) :
    replacePieces F (indexPieces ps deps).1 = .ok (substNames f ps) := by
  induction ps generalizing deps with
  | nil => rfl
  | cons p ps ih =>
    cases p with
    | lit c =>
      simp only [indexPieces, replacePieces] at hp ⊢
      rw [ih deps hp hF]; rfl
    | ph n =>
      simp only [indexPieces, replacePieces] at hp ⊢
      have h1 := getElem?_of_prefix ((indexPieces_prefix ps _).trans hp) (depIndex_get deps n)
      have h2 : depAt (ε := ε) ds (natText (depIndex deps n).1) = .ok n := by
        simp [depAt, parseNat_natText, h1]
      rw [hF _ n (by simp [phNames]) h2]
      rw [ih _ hp (fun g d hd => hF g d (by simp [phNames, hd]))]
      rfl

theorem substNames_render (ps : List Piece) :
    substNames (fun n => c!"${" ++ n ++ c!"}") ps = OCA.render ps := by
  induction ps with
  | nil => rfl
  | cons p ps ih =>
    cases p with
    | lit c => simp only [substNames, ih]; simp [OCA.render, Piece.text]
    | ph n => simp only [substNames, ih]; simp [OCA.render, Piece.text]

theorem indexPieces_deps (ps : List Piece) (deps : List Str) :
    (indexPieces ps deps).2 = deps ++ ((phNames ps).filter (fun n => !deps.contains n)).eraseDups := by
  induction ps generalizing deps with
  | nil => simp [indexPieces, phNames]
  | cons p ps ih =>
    cases p with
    | lit c => simp only [indexPieces, phNames]; exact ih deps
    | ph n =>
      simp only [indexPieces, phNames]
      rw [ih]
      unfold depIndex
      split
      · next h => simp [h]
      · next h =>
        simp only [List.filter_cons, List.contains_eq_mem, h, decide_false, Bool.not_false, if_true,
          List.eraseDups_cons, List.append_assoc, List.cons_append, List.nil_append, List.filter_filter]
        congr 3
        apply List.filter_congr
        intro x _
        simp only [List.mem_append, List.mem_singleton]
        by_cases hx : x = n
        · simp [hx]
        · simp [hx]

theorem nodup_eraseDups {α : Type} [BEq α] [LawfulBEq α] (l : List α) : l.eraseDups.Nodup := by
  generalize hl : l.length = k
  induction k using Nat.strongRecOn generalizing l with
  | _ k ih =>
    cases l with
    | nil => simp
    | cons a l =>
      rw [List.eraseDups_cons, List.nodup_cons]
      constructor
      · rw [List.mem_eraseDups]; simp
      · refine ih _ ?_ _ rfl
        rw [← hl, List.length_cons]
        have := List.length_filter_le (fun b => !b == a) l
        omega

/-! ## C01 -/

theorem expand_stored {ε : Type} (E : Env) (s : Str) :
    (expandCondition E (setCondition s).1 (setCondition s).2 : Res ε Str) = .ok s := by
  unfold expandCondition
  rw [scan_stored]
  have := replace_stored (ε := ε) (fun n => c!"${" ++ n ++ c!"}")
    (fun g => do let d ← depAt (setCondition s).2 g; pure (c!"${" ++ d ++ c!"}"))
    (scan matchAny 0 s) [] (setCondition s).2 List.prefix_rfl
    (by intro g d _ h; simp only [h, Res.bind_ok, Res.pure_eq])
  rw [this, substNames_render, (Decomp.scan s).render]

/-- **C01** Whatever text was set as a condition, reading the stored condition back gives that text
(and reading it back never aborts). -/
theorem C01_condition_read_back (E : Env) (s : Str) :
    (expandCondition E (setCondition s).1 (setCondition s).2 : Res Unit Str) = .ok s := expand_stored E s

/-- **C01** Setting again what was read back stores the same text and dependencies. -/
theorem C01_condition_set_again (E : Env) (s t : Str)
    (h : (expandCondition E (setCondition s).1 (setCondition s).2 : Res Unit Str) = .ok t) :
    setCondition t = setCondition s := by
  rw [C01_condition_read_back] at h
  injection h with h
  rw [h]

/-- **C01** Two different condition texts are never stored the same. -/
theorem C01_condition_storage_injective (E : Env) (s t : Str) (h : setCondition s = setCondition t) :
    s = t := by
  have h1 := C01_condition_read_back E s
  rw [h, C01_condition_read_back] at h1
  injection h1 with h1
  exact h1.symm

/-! ## C02 -/

/-- **C02** The stored dependencies are the placeholder names of the text in order of first
occurrence, without repetition. -/
theorem C02_dependencies_exact (s : Str) (ps : List Piece) (h : Decomp s ps) :
    (setCondition s).2 = (phNames ps).eraseDups ∧ (setCondition s).2.Nodup ∧
    (∀ n, n ∈ (setCondition s).2 ↔ Piece.ph n ∈ ps) := by
  have h1 : (setCondition s).2 = (phNames ps).eraseDups := by
    simp only [setCondition, h.unique]
    rw [indexPieces_deps, List.filter_eq_self.mpr (by simp)]; simp
  refine ⟨h1, by rw [h1]; exact nodup_eraseDups _, ?_⟩
  intro n
  rw [h1, List.mem_eraseDups]
  clear h1 h
  induction ps with
  | nil => simp [phNames]
  | cons p ps ih => cases p <;> simp [phNames, ih]

theorem indexPieces_lt (ps : List Piece) (deps : List Str) (n : Str)
    (h : Piece.ph n ∈ (indexPieces ps deps).1) :
    ∃ i, n = natText i ∧ i < (indexPieces ps deps).2.length := by
  induction ps generalizing deps with
  | nil => cases h
  | cons p ps ih =>
    cases p with
    | lit c =>
      simp only [indexPieces, List.mem_cons, reduceCtorEq, false_or] at h
      exact ih deps h
    | ph n' =>
      simp only [indexPieces, List.mem_cons, Piece.ph.injEq] at h ⊢
      rcases h with h | h
      · have := getElem?_of_prefix (indexPieces_prefix ps (depIndex deps n').2) (depIndex_get deps n')
        exact ⟨_, h, (List.getElem?_eq_some_iff.mp this).1⟩
      · exact ih _ h

/-- **C02** Every placeholder left in the stored text is a decimal number below the number of
dependencies. -/
theorem C02_indices_in_range (s : Str) (ps : List Piece) (h : Decomp (setCondition s).1 ps)
    (n : Str) (hn : Piece.ph n ∈ ps) : ∃ i, n = natText i ∧ i < (setCondition s).2.length := by
  have : ps = (indexPieces (scan matchAny 0 s) []).1 := by
    rw [← h.unique]
    refine scan_render_shape (s := s) (ps := scan matchAny 0 s) (fun _ h => h)
      (Decomp.scan s) (indexPieces_shape _ _) ?_
    intro n hn rest
    obtain ⟨i, rfl⟩ := indexPieces_names _ _ n hn
    exact matchAny_eq_some.mpr ⟨natText_no_brace i, rest, rfl⟩
  rw [this] at hn
  exact indexPieces_lt _ _ n hn

/-! ## C03 -/

/-- **C03** For a condition that was set with text `s` on attribute `attr`: with a self reference or
missing values the errors are exactly: the self reference first, then the dependencies without a
value in order of first occurrence; otherwise Lua runs `return ` followed by the text with every
placeholder replaced by the value of the attribute it names. It never aborts. -/
theorem C03_check_condition (E : Env) (attr s : Str) (vals : FMap Str) (ps : List Piece)
    (h : Decomp s ps) :
    checkCondition E attr (some (setCondition s).1) (some (setCondition s).2) vals =
      if attr ∈ phNames ps ∨ ∃ d ∈ phNames ps, vals.get d = none then
        .err ((if attr ∈ phNames ps then [CondErr.selfDependency attr] else []) ++
          ((phNames ps).eraseDups.filter (fun d => (vals.get d).isNone)).map CondErr.missing)
      else match E.lua (c!"return " ++ substNames (fun d => (vals.get d).getD []) ps) with
        | some b => .ok b
        | none => .err [CondErr.invalid attr] := by
  have hdeps := (C02_dependencies_exact s ps h).1
  have herr : condErrors attr (setCondition s).2 vals =
      (if attr ∈ phNames ps then [CondErr.selfDependency attr] else []) ++
        ((phNames ps).eraseDups.filter (fun d => (vals.get d).isNone)).map CondErr.missing := by
    unfold condErrors
    rw [hdeps]
    simp only [List.mem_eraseDups]
    congr 2
    apply List.filter_congr
    intro d _
    simp [FMap.contains]
  simp only [checkCondition]
  rw [herr]
  by_cases hc : attr ∈ phNames ps ∨ ∃ d ∈ phNames ps, vals.get d = none
  · rw [if_pos hc, if_neg]
    rw [Bool.not_eq_true, List.isEmpty_eq_false_iff]
    rcases hc with hc | ⟨d, hd, hv⟩
    · simp [hc]
    · intro e
      have := (List.append_eq_nil_iff.mp e).2
      rw [List.map_eq_nil_iff, List.filter_eq_nil_iff] at this
      exact this d (List.mem_eraseDups.mpr hd) (by simp [hv])
  · rw [if_neg hc]
    have hc1 : attr ∉ phNames ps := fun h => hc (.inl h)
    have hc2 : ∀ d ∈ phNames ps, vals.get d ≠ none := fun d hd hv => hc (.inr ⟨d, hd, hv⟩)
    rw [if_pos]
    · rw [scan_stored]
      have := replace_stored (ε := List CondErr) (fun d => (vals.get d).getD [])
        (fun g => do let d ← depAt (setCondition s).2 g; Res.unwrap (vals.get d))
        (scan matchAny 0 s) [] (setCondition s).2 List.prefix_rfl
        (by
          intro g d hd h'
          simp only [h', Res.bind_ok]
          rw [h.unique] at hd
          cases hv : vals.get d with
          | none => exact absurd hv (hc2 d hd)
          | some v => simp)
      rw [this, h.unique]
      rfl
    · rw [List.isEmpty_iff]
      simp only [hc1, if_false, List.nil_append, List.map_eq_nil_iff, List.filter_eq_nil_iff,
        List.mem_eraseDups]
      intro d hd
      cases hv : vals.get d with
      | none => exact absurd hv (hc2 d hd)
      | some v => simp

/-- non-vacuity: a condition naming two attributes, one of them twice -/
example : setCondition c!"${age} > 18 and ${n}+${age} < $" =
    (c!"${0} > 18 and ${1}+${0} < $", [c!"age", c!"n"]) := by decide
example : scan matchAny 0 c!"${a}$" = [.ph c!"a", .lit '$'] := by decide
example : Decomp c!"${a}$" [.ph c!"a", .lit '$'] := Decomp.scan c!"${a}$"

end OCA
