import Verif.Model.JsonText
/-!
# JSON text is read back
-/
namespace OCA

theorem skipWs_cons {c : Char} {t : Str} (h : isJsonWs c = false) : skipWs (c :: t) = c :: t := by
  simp [skipWs, h]

theorem hexVal_hexDigit : ∀ k, k < 16 → hexVal (hexDigit k) = some k := by decide

theorem char_ofNat_toNat (c : Char) : Char.ofNat c.toNat = c := by
  exact Char.ofNat_toNat c

theorem hexVal_zero : hexVal '0' = some 0 := by decide

theorem readStr_u (fuel : Nat) (a b x d : Char) (t : Str) (n : Nat) (h : hex4 a b x d = some n) (hn : n < 0xD800) :
    readStr (fuel + 1) ('\\' :: 'u' :: a :: b :: x :: d :: t) =
      (readStr fuel t).map fun r => (Char.ofNat n :: r.1, r.2) := by
  rw [readStr]
  rw [if_neg (by decide), if_pos rfl]
  simp only [h]
  rw [if_neg (by omega), if_neg (by omega)]

theorem readStr_esc (fuel : Nat) (c : Char) (t : Str) (hf : 0 < fuel) :
    readStr fuel (escChar c ++ t) = (readStr (fuel - 1) t).map fun r => (c :: r.1, r.2) := by
  obtain ⟨fuel, rfl⟩ : ∃ k, fuel = k + 1 := ⟨fuel - 1, by omega⟩
  rw [Nat.add_sub_cancel]
  unfold escChar
  split
  · next h => subst h; rfl
  split
  · next h => subst h; rfl
  split
  · next h =>
    have : c = Char.ofNat 8 := by rw [← h, char_ofNat_toNat]
    subst this; rfl
  split
  · next h =>
    have : c = Char.ofNat 12 := by rw [← h, char_ofNat_toNat]
    subst this; rfl
  split
  · next h =>
    have : c = Char.ofNat 10 := by rw [← h, char_ofNat_toNat]
    subst this; rfl
  split
  · next h =>
    have : c = Char.ofNat 13 := by rw [← h, char_ofNat_toNat]
    subst this; rfl
  split
  · next h =>
    have : c = Char.ofNat 9 := by rw [← h, char_ofNat_toNat]
    subst this; rfl
  split
  · next h =>
    have hx : hex4 '0' '0' (hexDigit (c.toNat / 16)) (hexDigit (c.toNat % 16)) = some c.toNat := by
      unfold hex4
      rw [hexVal_hexDigit _ (by omega), hexVal_hexDigit _ (by omega), hexVal_zero]
      show some _ = some _
      congr 1
      omega
    have := readStr_u fuel _ _ _ _ t _ hx (by omega)
    rw [char_ofNat_toNat] at this
    exact this
  · next h1 h2 _ _ _ _ _ h3 =>
    show readStr (fuel + 1) (c :: t) = _
    rw [readStr.eq_def]
    dsimp only
    rw [if_neg h1, if_neg h2, if_neg h3]

theorem readStr_print (s rest : Str) (fuel : Nat) (h : s.length < fuel) :
    readStr fuel (s.flatMap escChar ++ '"' :: rest) = some (s, rest) := by
  induction s generalizing fuel with
  | nil =>
    obtain ⟨fuel, rfl⟩ : ∃ k, fuel = k + 1 := ⟨fuel - 1, by simp at h; omega⟩
    cases rest <;> rfl
  | cons c t ih =>
    rw [List.flatMap_cons, List.append_assoc, readStr_esc _ _ _ (by omega), ih (fuel - 1) (by simp at h; omega)]
    rfl

theorem escChar_length (c : Char) : 1 ≤ (escChar c).length := by
  unfold escChar
  repeat' split
  all_goals simp

theorem flatMap_esc_length (s : Str) : s.length ≤ (s.flatMap escChar).length := by
  induction s with
  | nil => exact Nat.le_refl _
  | cons c t ih =>
    rw [List.flatMap_cons, List.length_append, List.length_cons]
    have := escChar_length c
    omega

/-! ## Numbers -/

theorem decDigit_spec : ∀ n, n < 10 → isDec (decDigit n) = true ∧ (decDigit n).toNat - 48 = n ∧
    (decDigit n = '0' → n = 0) := by decide

theorem printNat_lt {n : Nat} (h : n < 10) : printNat n = [decDigit n] := by
  rw [printNat, if_pos h]

theorem printNat_ge {n : Nat} (h : ¬ n < 10) : printNat n = printNat (n / 10) ++ [decDigit (n % 10)] := by
  rw [printNat, if_neg h]

theorem readDigits_print (n : Nat) : ∀ acc rest, readDigits acc (printNat n ++ rest) =
    readDigits (acc * 10 ^ (printNat n).length + n) rest := by
  induction n using Nat.strongRecOn with
  | ind n ih =>
    intro acc rest
    by_cases h : n < 10
    · obtain ⟨h1, h2, _⟩ := decDigit_spec n h
      rw [printNat_lt h]
      simp only [List.cons_append, List.nil_append, readDigits, h1, if_true, h2, List.length_singleton, Nat.pow_one]
    · obtain ⟨h1, h2, _⟩ := decDigit_spec (n % 10) (Nat.mod_lt _ (by decide))
      rw [printNat_ge h, List.append_assoc, ih (n / 10) (by omega)]
      simp only [List.cons_append, List.nil_append, readDigits, h1, if_true, h2, List.length_append,
        List.length_singleton, Nat.pow_succ]
      congr 1
      rw [Nat.add_mul, Nat.mul_assoc]
      omega

theorem printNat_ne_nil (n : Nat) : printNat n ≠ [] := by
  by_cases h : n < 10
  · rw [printNat_lt h]; exact List.cons_ne_nil _ _
  · rw [printNat_ge h]; simp

/-- the first digit -/
theorem printNat_head (n : Nat) (hn : n ≠ 0) : ∃ c t, printNat n = c :: t ∧ isDec c = true ∧ c ≠ '0' := by
  induction n using Nat.strongRecOn with
  | ind n ih =>
    by_cases h : n < 10
    · obtain ⟨h1, _, h3⟩ := decDigit_spec n h
      exact ⟨_, _, printNat_lt h, h1, fun e => hn (h3 e)⟩
    · obtain ⟨c, t, h1, h2, h3⟩ := ih (n / 10) (by omega) (by omega)
      exact ⟨c, t ++ [decDigit (n % 10)], by rw [printNat_ge h, h1]; rfl, h2, h3⟩

/-- What follows a number is no digit. -/
def NoDigit (s : Str) : Prop := ∀ c t, s = c :: t → isDec c = false

theorem readNat_print (n : Nat) (hn : n < 18446744073709551616) (rest : Str) (hr : NoDigit rest) :
    readNat (printNat n ++ rest) = some (n, rest) := by
  have hend : ∀ a, readDigits a rest = (a, rest) := by
    intro a
    cases rest with
    | nil => rfl
    | cons c t => simp [readDigits, hr c t rfl]
  by_cases h0 : n = 0
  · subst h0
    rw [printNat_lt (by decide)]
    show readNat ('0' :: rest) = _
    cases rest with
    | nil => rfl
    | cons c t => simp [readNat, hr c t rfl]
  · obtain ⟨c, t, h1, h2, h3⟩ := printNat_head n h0
    have h4 := readDigits_print n 0 rest
    rw [h1] at h4 ⊢
    rw [Nat.zero_mul, Nat.zero_add, hend] at h4
    simp only [List.cons_append, readDigits, h2, if_true, Nat.zero_mul, Nat.zero_add] at h4
    simp only [List.cons_append, readNat, if_neg h3, h2, if_true, h4, hn]

/-! ## Values -/

theorem isDec_facts (c : Char) (h : isDec c = true) : isJsonWs c = false ∧ c ≠ ']' ∧ c ≠ '}' ∧ c ≠ 'n' ∧ c ≠ 't' ∧ c ≠ 'f' ∧
    c ≠ '"' ∧ c ≠ '[' ∧ c ≠ '{' := by
  have hne : ∀ d : Char, isDec d = false → c ≠ d := by
    intro d hd e
    rw [e, hd] at h
    cases h
  refine ⟨?_, hne _ rfl, hne _ rfl, hne _ rfl, hne _ rfl, hne _ rfl, hne _ rfl, hne _ rfl, hne _ rfl⟩
  unfold isJsonWs
  simp [hne ' ' rfl, hne '\n' rfl, hne '\t' rfl, hne '\r' rfl]

theorem print_head (j : Json) : ∃ c t, j.print = c :: t ∧ isJsonWs c = false ∧ c ≠ ']' := by
  cases j with
  | null => exact ⟨_, _, rfl, rfl, by decide⟩
  | bool b => cases b <;> exact ⟨_, _, rfl, rfl, by decide⟩
  | num n =>
    rw [Json.print]
    by_cases h : n = 0
    · subst h
      rw [printNat_lt (by decide)]
      exact ⟨_, _, rfl, rfl, by decide⟩
    · obtain ⟨c, t, h1, h2, _⟩ := printNat_head n h
      exact ⟨c, t, h1, (isDec_facts c h2).1, (isDec_facts c h2).2.1⟩
  | str s => exact ⟨_, _, by rw [Json.print, printStr], rfl, by decide⟩
  | arr l => exact ⟨_, _, by rw [Json.print], rfl, by decide⟩
  | obj l => exact ⟨_, _, by rw [Json.print], rfl, by decide⟩

theorem noDigit_cons {c : Char} {t : Str} (h : isDec c = false) : NoDigit (c :: t) := by
  intro c' t' e
  cases e
  exact h

theorem printElems_noDigit (l : List Json) (rest : Str) : NoDigit (Json.printElems l ++ rest) := by
  cases l <;> rw [Json.printElems] <;> exact noDigit_cons rfl

theorem printMembers_noDigit (l : List (Str × Json)) (rest : Str) : NoDigit (Json.printMembers l ++ rest) := by
  cases l with
  | nil => rw [Json.printMembers]; exact noDigit_cons rfl
  | cons p l => obtain ⟨k, j⟩ := p; rw [Json.printMembers]; exact noDigit_cons rfl

theorem readStr_printStr (s rest : Str) :
    readStr ((s.flatMap escChar ++ '"' :: rest).length + 1) (s.flatMap escChar ++ '"' :: rest) = some (s, rest) := by
  refine readStr_print s rest _ ?_
  have := flatMap_esc_length s
  rw [List.length_append]
  omega

mutual
theorem readVal_print (j : Json) (fuel d : Nat) (rest : Str) (hf : 2 * j.print.length ≤ fuel) (hd : j.depth < d)
    (hs : j.Small) (hr : NoDigit rest) : readVal fuel d (j.print ++ rest) = some (j, rest) := by
  obtain ⟨c, t, hc, hw, _⟩ := print_head j
  obtain ⟨fuel, rfl⟩ : ∃ k, fuel = k + 1 := ⟨fuel - 1, by rw [hc] at hf; simp at hf; omega⟩
  match j, hf, hd, hs with
  | .null, _, _, _ => rfl
  | .bool true, _, _, _ => rfl
  | .bool false, _, _, _ => rfl
  | .num n, _, _, hs =>
    rw [Json.print] at hc ⊢
    have hdec : isDec c = true := by
      by_cases h : n = 0
      · subst h
        rw [printNat_lt (by decide)] at hc
        cases hc
        rfl
      · obtain ⟨c', t', h1, h2, _⟩ := printNat_head n h
        rw [h1] at hc
        cases hc
        exact h2
    obtain ⟨-, -, -, f1, f2, f3, f4, f5, f6⟩ := isDec_facts c hdec
    have hrd := readNat_print n hs rest hr
    rw [hc] at hrd ⊢
    rw [List.cons_append] at hrd ⊢
    rw [readVal, skipWs_cons hw]
    simp only [if_neg f1, if_neg f2, if_neg f3, if_neg f4, if_neg f5, if_neg f6, hrd]
    rfl
  | .str s, _, _, _ =>
    rw [Json.print, printStr, List.cons_append, List.append_assoc, readVal, skipWs_cons rfl]
    rw [List.cons_append, List.nil_append]
    have := readStr_printStr s rest
    simp only [this]
    rfl
  | .arr l, hf, hd, hs =>
    rw [Json.print, List.cons_append, readVal, skipWs_cons rfl]
    rw [Json.depth] at hd
    simp only [show ('[' : Char) ≠ 'n' from by decide, show ('[' : Char) ≠ 't' from by decide,
      show ('[' : Char) ≠ 'f' from by decide, show ('[' : Char) ≠ '"' from by decide, if_false, if_true]
    rw [if_neg (by omega)]
    cases l with
    | nil => rfl
    | cons j l =>
      rw [Json.printArr, List.append_assoc]
      obtain ⟨c', t', hc', hw', hb'⟩ := print_head j
      have hg := readElems_print j l fuel (d - 1) rest (by
        rw [Json.print, Json.printArr] at hf
        simp only [List.length_cons, List.length_append] at hf ⊢
        omega) (by omega) (by rw [Json.Small] at hs; exact hs)
      rw [List.append_assoc] at hg
      rw [hc'] at hg ⊢
      rw [List.cons_append] at hg ⊢
      rw [skipWs_cons hw']
      split
      · next e => cases e; exact absurd rfl hb'
      · rw [hg]; rfl
  | .obj l, hf, hd, hs =>
    rw [Json.print, List.cons_append, readVal, skipWs_cons rfl]
    rw [Json.depth] at hd
    simp only [show ('{' : Char) ≠ 'n' from by decide, show ('{' : Char) ≠ 't' from by decide,
      show ('{' : Char) ≠ 'f' from by decide, show ('{' : Char) ≠ '"' from by decide,
      show ('{' : Char) ≠ '[' from by decide, if_false, if_true]
    rw [if_neg (by omega)]
    cases l with
    | nil => rfl
    | cons p l =>
      obtain ⟨k, j⟩ := p
      have hg := readMembers_print k j l fuel (d - 1) rest (by
        rw [Json.print, Json.printObj] at hf
        simp only [List.length_cons, List.length_append] at hf ⊢
        omega) (by omega) (by rw [Json.Small] at hs; exact hs)
      rw [Json.printObj]
      rw [printStr] at hg ⊢
      simp only [List.cons_append] at hg ⊢
      rw [skipWs_cons rfl]
      split
      · next e => cases e
      · rw [hg]; rfl
termination_by fuel

theorem readElems_print (j : Json) (l : List Json) (fuel d : Nat) (rest : Str)
    (hf : 2 * (j.print ++ Json.printElems l).length ≤ fuel) (hd : Json.depthArr (j :: l) < d)
    (hs : Json.SmallArr (j :: l)) :
    readElems fuel d (j.print ++ Json.printElems l ++ rest) = some (j :: l, rest) := by
  obtain ⟨c, t, hc, hw, _⟩ := print_head j
  have hlen : (j.print ++ Json.printElems l).length = j.print.length + (Json.printElems l).length := List.length_append
  have hpos : 1 ≤ j.print.length := by rw [hc]; simp
  have hpos' : 1 ≤ (Json.printElems l).length := by cases l <;> rw [Json.printElems] <;> simp
  obtain ⟨fuel, rfl⟩ : ∃ k, fuel = k + 1 := ⟨fuel - 1, by omega⟩
  rw [Json.depthArr] at hd
  rw [Json.SmallArr] at hs
  rw [List.append_assoc, readElems,
    readVal_print j fuel d (Json.printElems l ++ rest) (by omega) (by omega) hs.1 (printElems_noDigit l rest)]
  dsimp only
  cases l with
  | nil => rfl
  | cons j' l =>
    rw [Json.printElems, List.cons_append, skipWs_cons rfl]
    show (readElems fuel d _).map _ = _
    rw [readElems_print j' l fuel d rest (by
      rw [Json.printElems] at hlen
      simp only [List.length_cons, List.length_append] at hlen hf ⊢
      rw [Json.printElems] at hf
      simp only [List.length_cons, List.length_append] at hf
      omega) (by omega) hs.2]
    rfl
termination_by fuel

theorem readMembers_print (k : Str) (j : Json) (l : List (Str × Json)) (fuel d : Nat) (rest : Str)
    (hf : 2 * (printStr k ++ ':' :: (j.print ++ Json.printMembers l)).length ≤ fuel)
    (hd : Json.depthObj ((k, j) :: l) < d) (hs : Json.SmallObj ((k, j) :: l)) :
    readMembers fuel d (printStr k ++ ':' :: (j.print ++ Json.printMembers l) ++ rest) = some ((k, j) :: l, rest) := by
  have hlen : (printStr k ++ ':' :: (j.print ++ Json.printMembers l)).length =
      (printStr k).length + j.print.length + (Json.printMembers l).length + 1 := by
    simp only [List.length_append, List.length_cons]
    omega
  have hpos : 1 ≤ (printStr k).length := by unfold printStr; simp
  obtain ⟨fuel, rfl⟩ : ∃ n, fuel = n + 1 := ⟨fuel - 1, by omega⟩
  rw [Json.depthObj] at hd
  rw [Json.SmallObj] at hs
  have hv := readVal_print j fuel d (Json.printMembers l ++ rest) (by omega) (by omega) hs.1 (printMembers_noDigit l rest)
  have hrs := readStr_printStr k (':' :: (j.print ++ Json.printMembers l ++ rest))
  rw [printStr]
  simp only [List.cons_append, List.append_assoc, List.nil_append] at hrs ⊢
  rw [readMembers, skipWs_cons rfl]
  show (match readStr _ _ with | none => none | some (_, _) => _) = _
  rw [hrs]
  dsimp only
  rw [skipWs_cons rfl]
  show (match readVal fuel d (j.print ++ (Json.printMembers l ++ rest)) with | none => none | some (_, _) => _) = _
  rw [hv]
  dsimp only
  cases l with
  | nil => rfl
  | cons p l =>
    obtain ⟨k', j'⟩ := p
    have hm := readMembers_print k' j' l fuel d rest (by
      rw [Json.printMembers] at hlen
      simp only [List.length_cons, List.length_append] at hlen hf ⊢
      rw [Json.printMembers] at hf
      simp only [List.length_cons, List.length_append] at hf
      omega) (by omega) hs.2
    rw [Json.printMembers, List.cons_append, skipWs_cons rfl]
    show (readMembers fuel d _).map _ = _
    rw [hm]
    rfl
termination_by fuel
end

/-- Whatever is printed is read back, down to the recursion limit. -/
theorem Json.read_print (j : Json) (hd : j.depth < 128) (hs : j.Small) : Json.read j.print = some j := by
  have h := readVal_print j (2 * j.print.length + 1) 128 [] (by omega) hd hs (fun _ _ e => (by cases e))
  rw [List.append_nil] at h
  unfold Json.read
  rw [h]
  rfl

/-! ## Beyond the recursion limit -/

mutual
theorem readVal_deep (j : Json) (fuel d : Nat) (rest : Str) (hf : 2 * j.print.length ≤ fuel) (hd : d ≤ j.depth)
    (hd1 : 1 ≤ d) (hs : j.Small) : readVal fuel d (j.print ++ rest) = none := by
  obtain ⟨c, t, hc, hw, _⟩ := print_head j
  obtain ⟨fuel, rfl⟩ : ∃ k, fuel = k + 1 := ⟨fuel - 1, by rw [hc] at hf; simp at hf; omega⟩
  match j, hf, hd, hs with
  | .null, _, hd, _ => rw [Json.depth] at hd; omega; all_goals intro _ e; cases e
  | .bool _, _, hd, _ => rw [Json.depth] at hd; omega; all_goals intro _ e; cases e
  | .num n, _, hd, hs => rw [Json.depth] at hd; omega; all_goals intro _ e; cases e
  | .str s, _, hd, _ => rw [Json.depth] at hd; omega; all_goals intro _ e; cases e
  | .arr l, hf, hd, hs =>
    rw [Json.print, List.cons_append, readVal, skipWs_cons rfl]
    rw [Json.depth] at hd
    simp only [show ('[' : Char) ≠ 'n' from by decide, show ('[' : Char) ≠ 't' from by decide,
      show ('[' : Char) ≠ 'f' from by decide, show ('[' : Char) ≠ '"' from by decide, if_false, if_true]
    by_cases hd2 : d ≤ 1
    · rw [if_pos hd2]
    rw [if_neg hd2]
    cases l with
    | nil => rw [Json.depthArr] at hd; omega
    | cons j l =>
      rw [Json.printArr, List.append_assoc]
      obtain ⟨c', t', hc', hw', hb'⟩ := print_head j
      have hg := readElems_deep j l fuel (d - 1) rest (by
        rw [Json.print, Json.printArr] at hf
        simp only [List.length_cons, List.length_append] at hf ⊢
        omega) (by omega) (by omega) (by rw [Json.Small] at hs; exact hs)
      rw [List.append_assoc] at hg
      rw [hc'] at hg ⊢
      rw [List.cons_append] at hg ⊢
      rw [skipWs_cons hw']
      split
      · next e => cases e; exact absurd rfl hb'
      · rw [hg]; rfl
  | .obj l, hf, hd, hs =>
    rw [Json.print, List.cons_append, readVal, skipWs_cons rfl]
    rw [Json.depth] at hd
    simp only [show ('{' : Char) ≠ 'n' from by decide, show ('{' : Char) ≠ 't' from by decide,
      show ('{' : Char) ≠ 'f' from by decide, show ('{' : Char) ≠ '"' from by decide,
      show ('{' : Char) ≠ '[' from by decide, if_false, if_true]
    by_cases hd2 : d ≤ 1
    · rw [if_pos hd2]
    rw [if_neg hd2]
    cases l with
    | nil => rw [Json.depthObj] at hd; omega
    | cons p l =>
      obtain ⟨k, j⟩ := p
      have hg := readMembers_deep k j l fuel (d - 1) rest (by
        rw [Json.print, Json.printObj] at hf
        simp only [List.length_cons, List.length_append] at hf ⊢
        omega) (by omega) (by omega) (by rw [Json.Small] at hs; exact hs)
      rw [Json.printObj]
      rw [printStr] at hg ⊢
      simp only [List.cons_append] at hg ⊢
      rw [skipWs_cons rfl]
      split
      · next e => cases e
      · rw [hg]; rfl
termination_by fuel

theorem readElems_deep (j : Json) (l : List Json) (fuel d : Nat) (rest : Str)
    (hf : 2 * (j.print ++ Json.printElems l).length ≤ fuel) (hd : d ≤ Json.depthArr (j :: l)) (hd1 : 1 ≤ d)
    (hs : Json.SmallArr (j :: l)) :
    readElems fuel d (j.print ++ Json.printElems l ++ rest) = none := by
  obtain ⟨c, t, hc, hw, _⟩ := print_head j
  have hlen : (j.print ++ Json.printElems l).length = j.print.length + (Json.printElems l).length := List.length_append
  have hpos : 1 ≤ j.print.length := by rw [hc]; simp
  have hpos' : 1 ≤ (Json.printElems l).length := by cases l <;> rw [Json.printElems] <;> simp
  obtain ⟨fuel, rfl⟩ : ∃ k, fuel = k + 1 := ⟨fuel - 1, by omega⟩
  rw [Json.depthArr] at hd
  rw [Json.SmallArr] at hs
  rw [List.append_assoc, readElems]
  by_cases hj : d ≤ j.depth
  · rw [readVal_deep j fuel d (Json.printElems l ++ rest) (by omega) hj hd1 hs.1]
  rw [readVal_print j fuel d (Json.printElems l ++ rest) (by omega) (by omega) hs.1 (printElems_noDigit l rest)]
  dsimp only
  cases l with
  | nil => rw [Json.depthArr] at hd; omega
  | cons j' l =>
    rw [Json.printElems, List.cons_append, skipWs_cons rfl]
    show (readElems fuel d _).map _ = _
    rw [readElems_deep j' l fuel d rest (by
      rw [Json.printElems] at hlen
      simp only [List.length_cons, List.length_append] at hlen hf ⊢
      rw [Json.printElems] at hf
      simp only [List.length_cons, List.length_append] at hf
      omega) (by omega) hd1 hs.2]
    rfl
termination_by fuel

theorem readMembers_deep (k : Str) (j : Json) (l : List (Str × Json)) (fuel d : Nat) (rest : Str)
    (hf : 2 * (printStr k ++ ':' :: (j.print ++ Json.printMembers l)).length ≤ fuel)
    (hd : d ≤ Json.depthObj ((k, j) :: l)) (hd1 : 1 ≤ d) (hs : Json.SmallObj ((k, j) :: l)) :
    readMembers fuel d (printStr k ++ ':' :: (j.print ++ Json.printMembers l) ++ rest) = none := by
  have hlen : (printStr k ++ ':' :: (j.print ++ Json.printMembers l)).length =
      (printStr k).length + j.print.length + (Json.printMembers l).length + 1 := by
    simp only [List.length_append, List.length_cons]
    omega
  have hpos : 1 ≤ (printStr k).length := by unfold printStr; simp
  obtain ⟨fuel, rfl⟩ : ∃ n, fuel = n + 1 := ⟨fuel - 1, by omega⟩
  rw [Json.depthObj] at hd
  rw [Json.SmallObj] at hs
  have hrs := readStr_printStr k (':' :: (j.print ++ Json.printMembers l ++ rest))
  rw [printStr]
  simp only [List.cons_append, List.append_assoc, List.nil_append] at hrs ⊢
  rw [readMembers, skipWs_cons rfl]
  show (match readStr _ _ with | none => none | some (_, _) => _) = _
  rw [hrs]
  dsimp only
  rw [skipWs_cons rfl]
  show (match readVal fuel d (j.print ++ (Json.printMembers l ++ rest)) with | none => none | some (_, _) => _) = _
  by_cases hj : d ≤ j.depth
  · rw [readVal_deep j fuel d (Json.printMembers l ++ rest) (by omega) hj hd1 hs.1]
  rw [readVal_print j fuel d (Json.printMembers l ++ rest) (by omega) (by omega) hs.1 (printMembers_noDigit l rest)]
  dsimp only
  cases l with
  | nil => rw [Json.depthObj] at hd; omega
  | cons p l =>
    obtain ⟨k', j'⟩ := p
    have hm := readMembers_deep k' j' l fuel d rest (by
      rw [Json.printMembers] at hlen
      simp only [List.length_cons, List.length_append] at hlen hf ⊢
      rw [Json.printMembers] at hf
      simp only [List.length_cons, List.length_append] at hf
      omega) (by omega) hd1 hs.2
    rw [Json.printMembers, List.cons_append, skipWs_cons rfl]
    show (readMembers fuel d _).map _ = _
    rw [hm]
    rfl
termination_by fuel
end

/-- What is nested 128 deep or deeper is printed, but not read back. -/
theorem Json.read_deep (j : Json) (hd : 128 ≤ j.depth) (hs : j.Small) : Json.read j.print = none := by
  have h := readVal_deep j (2 * j.print.length + 1) 128 [] (by omega) hd (by decide) hs
  rw [List.append_nil] at h
  unfold Json.read
  rw [h]

end OCA
