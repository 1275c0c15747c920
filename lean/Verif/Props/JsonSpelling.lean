import Verif.Props.JsonText
import Verif.Lemmas.Str
import Verif.Props.Storage
import Verif.Props.LoadJson
import Verif.Model.Package
import Verif.Model.Fetch
/-!
# C89: how a JSON document is written does not matter

A JSON text as anybody may write it: white space between the tokens, characters escaped or not. The reader accepts exactly these texts, and
what it reads is the value written.
-/
namespace OCA

/-! ## Specification (RFC 8259) -/

/-- white space -/
def JsonWs (w : Str) : Prop := ∀ c ∈ w, c = ' ' ∨ c = '\n' ∨ c = '\t' ∨ c = '\r'

/-- the letter `c` is the hexadecimal digit of `n`, in either case -/
def HexDigit (c : Char) (n : Nat) : Prop :=
  (n < 10 ∧ c.toNat = 48 + n) ∨ (10 ≤ n ∧ n < 16 ∧ (c.toNat = 97 + (n - 10) ∨ c.toNat = 65 + (n - 10)))

/-- the four letters are the hexadecimal notation of `n` -/
def Hex4 (a b x d : Char) (n : Nat) : Prop :=
  ∃ p q r s, HexDigit a p ∧ HexDigit b q ∧ HexDigit x r ∧ HexDigit d s ∧ n = p * 4096 + q * 256 + r * 16 + s

/-- the ways to write a character inside quotes -/
inductive SpellsChar : Char → Str → Prop
  /-- as it is, unless it is a quote, a backslash or a control character -/
  | plain (c : Char) : c ≠ '"' → c ≠ '\\' → 32 ≤ c.toNat → SpellsChar c [c]
  | quote : SpellsChar '"' ['\\', '"']
  | backslash : SpellsChar '\\' ['\\', '\\']
  | slash : SpellsChar '/' ['\\', '/']
  | backspace : SpellsChar '\x08' ['\\', 'b']
  | formFeed : SpellsChar '\x0c' ['\\', 'f']
  | lineFeed : SpellsChar '\n' ['\\', 'n']
  | carriageReturn : SpellsChar '\r' ['\\', 'r']
  | tab : SpellsChar '\t' ['\\', 't']
  /-- `\uXXXX` -/
  | hex (k : Char) (a b x d : Char) : Hex4 a b x d k.toNat → SpellsChar k ['\\', 'u', a, b, x, d]
  /-- beyond that, as a pair of surrogates -/
  | pair (k : Char) (a b x d a' b' x' d' : Char) (n m : Nat) : Hex4 a b x d n → Hex4 a' b' x' d' m → 0xD800 ≤ n → n < 0xDC00 → 0xDC00 ≤ m →
      m < 0xE000 → k.toNat = 0x10000 + (n - 0xD800) * 0x400 + (m - 0xDC00) →
      SpellsChar k ['\\', 'u', a, b, x, d, '\\', 'u', a', b', x', d']

/-- the ways to write a text inside quotes -/
inductive SpellsText : Str → Str → Prop
  | nil : SpellsText [] []
  | cons {c : Char} {s p t : Str} : SpellsChar c p → SpellsText s t → SpellsText (c :: s) (p ++ t)

/-- decimal notation, without leading zeros -/
inductive Decimal : Nat → Str → Prop
  | digit (n : Nat) : n < 10 → Decimal n [Char.ofNat (48 + n)]
  | more (n k : Nat) {t : Str} : Decimal n t → n ≠ 0 → k < 10 → Decimal (10 * n + k) (t ++ [Char.ofNat (48 + k)])

mutual
/-- the ways to write a value -/
inductive SpellsValue : Json → Str → Prop
  | null : SpellsValue .null c!"null"
  | true : SpellsValue (.bool true) c!"true"
  | false : SpellsValue (.bool false) c!"false"
  | num {n : Nat} {t : Str} : Decimal n t → SpellsValue (.num n) t
  | str {s t : Str} : SpellsText s t → SpellsValue (.str s) ('"' :: (t ++ ['"']))
  | emptyArr {w : Str} : JsonWs w → SpellsValue (.arr []) ('[' :: (w ++ [']']))
  | arr {w u : Str} {l : List Json} : JsonWs w → SpellsElems l u → SpellsValue (.arr l) ('[' :: (w ++ u))
  | emptyObj {w : Str} : JsonWs w → SpellsValue (.obj []) ('{' :: (w ++ ['}']))
  | obj {w u : Str} {l : List (Str × Json)} : JsonWs w → SpellsMembers l u → SpellsValue (.obj l) ('{' :: (w ++ u))

/-- elements, with the closing bracket -/
inductive SpellsElems : List Json → Str → Prop
  | last {j : Json} {t w : Str} : SpellsValue j t → JsonWs w → SpellsElems [j] (t ++ (w ++ [']']))
  | more {j : Json} {t w w' u : Str} {l : List Json} : SpellsValue j t → JsonWs w → JsonWs w' → SpellsElems l u →
      SpellsElems (j :: l) (t ++ (w ++ ',' :: (w' ++ u)))

/-- members, with the closing brace -/
inductive SpellsMembers : List (Str × Json) → Str → Prop
  | last {k q : Str} {j : Json} {t w1 w2 w : Str} : SpellsText k q → JsonWs w1 → JsonWs w2 → SpellsValue j t → JsonWs w →
      SpellsMembers [(k, j)] ('"' :: (q ++ '"' :: (w1 ++ ':' :: (w2 ++ (t ++ (w ++ ['}']))))))
  | more {k q : Str} {j : Json} {t w1 w2 w w' u : Str} {l : List (Str × Json)} : SpellsText k q → JsonWs w1 → JsonWs w2 → SpellsValue j t →
      JsonWs w → JsonWs w' → SpellsMembers l u →
      SpellsMembers ((k, j) :: l) ('"' :: (q ++ '"' :: (w1 ++ ':' :: (w2 ++ (t ++ (w ++ ',' :: (w' ++ u)))))))
end

/-- a document: a value with white space round it -/
def Document (j : Json) (s : Str) : Prop := ∃ w t w', s = w ++ (t ++ w') ∧ JsonWs w ∧ JsonWs w' ∧ SpellsValue j t

/-! ## White space -/

theorem ws_iff (c : Char) : isJsonWs c = true ↔ c = ' ' ∨ c = '\n' ∨ c = '\t' ∨ c = '\r' := by
  simp [isJsonWs, or_assoc]

theorem skip_ws {w : Str} (h : JsonWs w) (s : Str) : skipWs (w ++ s) = skipWs s := by
  induction w with
  | nil => rfl
  | cons c w ih =>
    have hc := (ws_iff c).2 (h c (.head _))
    show skipWs (c :: (w ++ s)) = _
    rw [skipWs, if_pos hc]
    exact ih fun d hd => h d (.tail _ hd)

theorem skip_split (s : Str) : ∃ w, JsonWs w ∧ s = w ++ skipWs s ∧ ∀ c t, skipWs s = c :: t → isJsonWs c = false := by
  induction s with
  | nil => exact ⟨[], (fun _ h => by cases h), rfl, fun _ _ h => by cases h⟩
  | cons c s ih =>
    by_cases hc : isJsonWs c = true
    · obtain ⟨w, h1, h2, h3⟩ := ih
      rw [skipWs, if_pos hc]
      refine ⟨c :: w, ?_, by rw [List.cons_append, ← h2], h3⟩
      intro d hd
      rcases List.mem_cons.1 hd with rfl | hd
      · exact (ws_iff _).1 hc
      · exact h1 d hd
    · rw [skipWs, if_neg hc]
      refine ⟨[], (fun _ h => by cases h), rfl, ?_⟩
      intro d t e
      cases e
      exact Bool.eq_false_iff.2 hc

theorem ws_noDigit {w : Str} (h : JsonWs w) {s : Str} (hs : NoDigit s) : NoDigit (w ++ s) := by
  cases w with
  | nil => exact hs
  | cons c w =>
    refine noDigit_cons ?_
    rcases h c (.head _) with rfl | rfl | rfl | rfl <;> rfl

/-! ## Strings -/

theorem hexVal_iff (c : Char) (n : Nat) : hexVal c = some n ↔ HexDigit c n := by
  unfold hexVal HexDigit
  dsimp only
  constructor
  · intro h
    split at h
    · cases h; omega
    split at h
    · cases h; omega
    split at h
    · cases h; omega
    · cases h
  · intro h
    split
    · congr 1; omega
    split
    · congr 1; omega
    split
    · congr 1; omega
    · omega

theorem hex4_iff (a b x d : Char) (n : Nat) : hex4 a b x d = some n ↔ Hex4 a b x d n := by
  unfold hex4 Hex4
  constructor
  · intro h
    cases ha : hexVal a with
    | none => rw [ha] at h; cases h
    | some p =>
    cases hb : hexVal b with
    | none => rw [ha, hb] at h; cases h
    | some q =>
    cases hx : hexVal x with
    | none => rw [ha, hb, hx] at h; cases h
    | some r =>
    cases hd : hexVal d with
    | none => rw [ha, hb, hx, hd] at h; cases h
    | some s =>
      rw [ha, hb, hx, hd] at h
      refine ⟨p, q, r, s, (hexVal_iff _ _).1 ha, (hexVal_iff _ _).1 hb, (hexVal_iff _ _).1 hx, (hexVal_iff _ _).1 hd, ?_⟩
      have h : some (((p * 16 + q) * 16 + r) * 16 + s) = some n := h
      have := Option.some.inj h
      omega
  · rintro ⟨p, q, r, s, ha, hb, hx, hd, e⟩
    rw [(hexVal_iff _ _).2 ha, (hexVal_iff _ _).2 hb, (hexVal_iff _ _).2 hx, (hexVal_iff _ _).2 hd]
    show some (((p * 16 + q) * 16 + r) * 16 + s) = some n
    congr 1
    omega

theorem char_range (c : Char) : c.toNat < 0xD800 ∨ (0xE000 ≤ c.toNat ∧ c.toNat < 0x110000) := by
  have h := c.valid
  rcases h with h | ⟨h1, h2⟩
  · exact .inl h
  · exact .inr ⟨by show 0xE000 ≤ c.val.toNat; have : 0xDFFF < c.val.toNat := h1; omega, h2⟩

theorem toNat_ofNat {n : Nat} (h : n < 0xD800 ∨ (0xE000 ≤ n ∧ n < 0x110000)) : (Char.ofNat n).toNat = n := by
  have hv : n.isValidChar := by
    rcases h with h | h
    · exact .inl h
    · exact .inr ⟨by omega, h.2⟩
  unfold Char.ofNat
  rw [dif_pos hv]
  show (Char.ofNatAux n hv).val.toNat = n
  simp [Char.ofNatAux, UInt32.toNat]

theorem readStr_char (fuel : Nat) {c : Char} {p : Str} (h : SpellsChar c p) (t : Str) :
    readStr (fuel + 1) (p ++ t) = (readStr fuel t).map fun r => (c :: r.1, r.2) := by
  cases h with
  | plain _ h1 h2 h3 =>
    show readStr (fuel + 1) (c :: t) = _
    rw [readStr.eq_def]
    dsimp only
    rw [if_neg h1, if_neg h2, if_neg (by omega)]
  | hex _ a b x d h =>
    show readStr (fuel + 1) ('\\' :: 'u' :: a :: b :: x :: d :: t) = _
    rw [readStr, if_neg (by decide), if_pos rfl]
    simp only [(hex4_iff _ _ _ _ _).2 h]
    have := char_range c
    rw [if_neg (by omega), if_neg (by omega), char_ofNat_toNat]
  | pair _ a b x d a' b' x' d' n m h1 h2 n1 n2 m1 m2 e =>
    show readStr (fuel + 1) ('\\' :: 'u' :: a :: b :: x :: d :: '\\' :: 'u' :: a' :: b' :: x' :: d' :: t) = _
    rw [readStr, if_neg (by decide), if_pos rfl]
    simp only [(hex4_iff _ _ _ _ _).2 h1, (hex4_iff _ _ _ _ _).2 h2]
    rw [if_pos ⟨n1, n2⟩, if_pos ⟨m1, m2⟩, ← e, char_ofNat_toNat]
  | _ => rfl

theorem spells_length {c : Char} {p : Str} (h : SpellsChar c p) : 1 ≤ p.length := by
  cases h <;> simp

theorem spellsText_length {s t : Str} (h : SpellsText s t) : s.length ≤ t.length := by
  induction h with
  | nil => exact Nat.le_refl _
  | cons h _ ih =>
    have := spells_length h
    rw [List.length_cons, List.length_append]
    omega

theorem readStr_text {s t : Str} (h : SpellsText s t) (rest : Str) (fuel : Nat) (hf : s.length < fuel) :
    readStr fuel (t ++ '"' :: rest) = some (s, rest) := by
  induction h generalizing fuel with
  | nil =>
    obtain ⟨fuel, rfl⟩ : ∃ k, fuel = k + 1 := ⟨fuel - 1, by simp at hf; omega⟩
    cases rest <;> rfl
  | cons hc _ ih =>
    obtain ⟨fuel, rfl⟩ : ∃ k, fuel = k + 1 := ⟨fuel - 1, by simp at hf; omega⟩
    rw [List.append_assoc, readStr_char fuel hc, ih fuel (by simp at hf; omega)]
    rfl

theorem readStr_quoted {s t : Str} (h : SpellsText s t) (rest : Str) :
    readStr ((t ++ '"' :: rest).length + 1) (t ++ '"' :: rest) = some (s, rest) := by
  refine readStr_text h rest _ ?_
  have := spellsText_length h
  rw [List.length_append]
  omega

theorem simpleEsc_spells {e c : Char} (h : simpleEsc e = some c) : SpellsChar c ['\\', e] := by
  unfold simpleEsc at h
  split at h
  · next he => cases h; rw [he]; exact .quote
  split at h
  · next he => cases h; rw [he]; exact .backslash
  split at h
  · next he => cases h; rw [he]; exact .slash
  split at h
  · next he => cases h; rw [he]; exact .backspace
  split at h
  · next he => cases h; rw [he]; exact .formFeed
  split at h
  · next he => cases h; rw [he]; exact .lineFeed
  split at h
  · next he => cases h; rw [he]; exact .carriageReturn
  split at h
  · next he => cases h; rw [he]; exact .tab
  · cases h

theorem map_some {α β : Type} {f : α → β} {o : Option α} {b : β} (h : o.map f = some b) : ∃ a, o = some a ∧ f a = b := by
  cases o with
  | none => cases h
  | some a => exact ⟨a, rfl, Option.some.inj h⟩

/-- what is read was written -/
theorem readStr_only (fuel : Nat) (s : Str) (k rest : Str) (h : readStr fuel s = some (k, rest)) :
    ∃ t, s = t ++ '"' :: rest ∧ SpellsText k t := by
  induction fuel generalizing s k rest with
  | zero => rw [readStr] at h; cases h
  | succ fuel ih =>
    have go : ∀ {c : Char} {p t : Str}, SpellsChar c p → s = p ++ t → ((readStr fuel t).map fun r => (c :: r.1, r.2)) = some (k, rest) →
        ∃ t, s = t ++ '"' :: rest ∧ SpellsText k t := by
      intro c p t hp e h
      obtain ⟨⟨k', r'⟩, h1, h2⟩ := map_some h
      cases h2
      obtain ⟨t', e', ht⟩ := ih _ _ _ h1
      exact ⟨p ++ t', by rw [e, e', List.append_assoc], .cons hp ht⟩
    cases s with
    | nil => rw [readStr] at h; cases h; intro e; cases e
    | cons c t =>
      rw [readStr.eq_def] at h
      dsimp only at h
      split at h
      · next hc => cases h; exact ⟨[], by rw [hc]; rfl, .nil⟩
      next hc =>
      split at h
      · next hc2 =>
        split at h
        · next a b x d t =>
          split at h
          · cases h
          · next n hn =>
            have hn' := (hex4_iff _ _ _ _ _).1 hn
            split at h
            · next hr =>
              split at h
              · next a' b' x' d' t' =>
                split at h
                · cases h
                · next m hm =>
                  split at h
                  · next hr' =>
                    refine go (.pair _ a b x d a' b' x' d' n m hn' ((hex4_iff _ _ _ _ _).1 hm) hr.1 hr.2 hr'.1 hr'.2 ?_) (by rw [hc2]; rfl) h
                    exact toNat_ofNat (by omega)
                  · cases h
              · cases h
            · next hr =>
              split at h
              · cases h
              · next hr' =>
                refine go (.hex _ a b x d ?_) (by rw [hc2]; rfl) h
                rw [toNat_ofNat]
                · exact hn'
                · obtain ⟨p, q, r, s, h1, h2, h3, h4, e⟩ := hn'
                  unfold HexDigit at h1 h2 h3 h4
                  omega
        · next e t _ =>
          split at h
          · cases h
          · next c' he => exact go (simpleEsc_spells he) (by rw [hc2]; rfl) h
        · cases h
      · next hc2 =>
        split at h
        · cases h
        · next hc3 => exact go (.plain c hc hc2 (by omega)) rfl h

/-! ## Numbers -/

theorem decimal_print {n : Nat} {t : Str} (h : Decimal n t) : t = printNat n := by
  induction h with
  | digit n h => rw [printNat_lt h]; rfl
  | more n k _ hn hk ih =>
    rw [printNat_ge (by omega), show (10 * n + k) / 10 = n by omega, show (10 * n + k) % 10 = k by omega, ih]
    rfl

theorem print_decimal (n : Nat) : Decimal n (printNat n) := by
  induction n using Nat.strongRecOn with
  | ind n ih =>
    by_cases h : n < 10
    · rw [printNat_lt h]; exact .digit n h
    · rw [printNat_ge h]
      have := Decimal.more (n / 10) (n % 10) (ih (n / 10) (by omega)) (by omega) (by omega)
      rwa [show 10 * (n / 10) + n % 10 = n by omega] at this

theorem isDec_digit {c : Char} (h : isDec c = true) : c.toNat - 48 < 10 ∧ c = Char.ofNat (48 + (c.toNat - 48)) := by
  simp only [isDec, Bool.and_eq_true, decide_eq_true_eq] at h
  refine ⟨by omega, ?_⟩
  rw [show 48 + (c.toNat - 48) = c.toNat by omega, char_ofNat_toNat]

theorem readDigits_only (s : Str) : ∀ acc : Nat, ∀ p, Decimal acc p → acc ≠ 0 →
    ∃ q, s = q ++ (readDigits acc s).2 ∧ Decimal (readDigits acc s).1 (p ++ q) := by
  induction s with
  | nil => intro acc p h _; exact ⟨[], rfl, by rw [List.append_nil]; exact h⟩
  | cons c s ih =>
    intro acc p h ha
    rw [readDigits]
    split
    · next hc =>
      obtain ⟨h1, h2⟩ := isDec_digit hc
      have := Decimal.more acc _ h ha h1
      rw [← h2, Nat.mul_comm] at this
      obtain ⟨q, e, hq⟩ := ih _ _ this (by omega)
      refine ⟨c :: q, by rw [List.cons_append, ← e], ?_⟩
      rwa [List.append_assoc] at hq
    · exact ⟨[], rfl, by rw [List.append_nil]; exact h⟩

theorem readNat_only {s r : Str} {n : Nat} (h : readNat s = some (n, r)) : ∃ t, s = t ++ r ∧ Decimal n t ∧ n < 18446744073709551616 := by
  cases s with
  | nil => rw [readNat] at h; cases h
  | cons c t =>
    rw [readNat.eq_def] at h
    dsimp only at h
    split at h
    · next hc =>
      have : t = r ∧ n = 0 := by
        split at h
        · split at h
          · cases h
          · cases h; exact ⟨rfl, rfl⟩
        · cases h; exact ⟨rfl, rfl⟩
      obtain ⟨rfl, rfl⟩ := this
      exact ⟨[c], rfl, by rw [hc]; exact .digit 0 (by decide), by decide⟩
    · next hc =>
      split at h
      · next hd =>
        split at h
        · next hlt =>
          obtain ⟨h1, h2⟩ := isDec_digit hd
          have hd0 : Decimal (c.toNat - 48) [c] := by
            have := Decimal.digit _ h1
            rwa [← h2] at this
          have hne : c.toNat - 48 ≠ 0 := by
            intro e
            rw [e] at h2
            exact hc h2
          obtain ⟨q, e, hq⟩ := readDigits_only t _ _ hd0 hne
          have h := Option.some.inj h
          rw [h] at e hq hlt
          exact ⟨c :: q, by rw [List.cons_append, ← e], hq, hlt⟩
        · cases h
      · cases h

/-! ## Values: what is written is read -/

theorem writes_head {j : Json} {t : Str} (h : SpellsValue j t) : ∃ c u, t = c :: u ∧ isJsonWs c = false ∧ c ≠ ']' := by
  cases h with
  | num h =>
    rename_i n
    have := print_head (.num n)
    rw [Json.print, ← decimal_print h] at this
    exact this
  | _ => exact ⟨_, _, rfl, rfl, by decide⟩

theorem elems_head {l : List Json} {u : Str} (h : SpellsElems l u) : ∃ c v, u = c :: v ∧ isJsonWs c = false ∧ c ≠ ']' := by
  cases h with
  | last hj _ =>
    obtain ⟨c, u, rfl, h1, h2⟩ := writes_head hj
    exact ⟨c, _, rfl, h1, h2⟩
  | more hj _ _ _ =>
    obtain ⟨c, u, rfl, h1, h2⟩ := writes_head hj
    exact ⟨c, _, rfl, h1, h2⟩

theorem members_head {l : List (Str × Json)} {u : Str} (h : SpellsMembers l u) : ∃ v, u = '"' :: v := by
  cases h <;> exact ⟨_, rfl⟩

theorem skip_cons {w : Str} (h : JsonWs w) {c : Char} (hc : isJsonWs c = false) (s : Str) : skipWs (w ++ c :: s) = c :: s := by
  rw [skip_ws h, skipWs_cons hc]

mutual
theorem readVal_writes {j : Json} {t : Str} (h : SpellsValue j t) (fuel d : Nat) (w rest : Str) (hf : 2 * t.length ≤ fuel) (hd : j.depth < d)
    (hs : j.Small) (hw : JsonWs w) (hr : NoDigit rest) : readVal fuel d (w ++ (t ++ rest)) = some (j, rest) := by
  obtain ⟨c, u, hc, hcw, -⟩ := writes_head h
  obtain ⟨fuel, rfl⟩ : ∃ k, fuel = k + 1 := ⟨fuel - 1, by rw [hc] at hf; simp at hf; omega⟩
  have hskip : skipWs (w ++ (t ++ rest)) = t ++ rest := by
    rw [skip_ws hw, hc]
    exact skipWs_cons hcw
  rw [readVal, hskip]
  cases h with
  | null => rfl
  | true => rfl
  | false => rfl
  | num h =>
    rename_i n
    rw [decimal_print h] at hc ⊢
    have hdec : isDec c = true := by
      by_cases h : n = 0
      · subst h
        rw [printNat_lt (by decide)] at hc
        cases hc
        rfl
      · obtain ⟨c', t', h1, h2, _⟩ := printNat_head n h
        rw [h1] at hc
        cases hc
        exact h2
    obtain ⟨-, -, -, f1, f2, f3, f4, f5, f6⟩ := isDec_facts c hdec
    have hrd := readNat_print n hs rest hr
    rw [hc] at hrd ⊢
    rw [List.cons_append] at hrd ⊢
    simp only [if_neg f1, if_neg f2, if_neg f3, if_neg f4, if_neg f5, if_neg f6, hrd]
    rfl
  | str h =>
    rw [List.cons_append, List.append_assoc]
    have := readStr_quoted h rest
    rw [List.cons_append, List.nil_append]
    simp only [this]
    rfl
  | emptyArr h =>
    rename_i w'
    rw [List.cons_append, List.append_assoc]
    simp only [show ('[' : Char) ≠ 'n' from by decide, show ('[' : Char) ≠ 't' from by decide,
      show ('[' : Char) ≠ 'f' from by decide, show ('[' : Char) ≠ '"' from by decide, if_false, if_true]
    rw [Json.depth, Json.depthArr] at hd
    rw [if_neg (by omega), List.cons_append, List.nil_append, skip_cons h rfl]
    rfl
  | arr h h' =>
    rename_i w' u' l
    obtain ⟨c', v, hv, hvw, hvb⟩ := elems_head h'
    rw [List.cons_append, List.append_assoc]
    simp only [show ('[' : Char) ≠ 'n' from by decide, show ('[' : Char) ≠ 't' from by decide,
      show ('[' : Char) ≠ 'f' from by decide, show ('[' : Char) ≠ '"' from by decide, if_false, if_true]
    rw [Json.depth] at hd
    rw [if_neg (by omega)]
    have hg := readElems_writes h' fuel (d - 1) [] rest (by
      simp only [List.length_cons, List.length_append] at hf
      omega) (by omega) (by rw [Json.Small] at hs; exact hs) (fun _ h => by cases h)
    rw [List.nil_append] at hg
    rw [hv] at hg ⊢
    rw [List.cons_append] at hg ⊢
    rw [skip_cons h hvw]
    split
    · next e => cases e; exact absurd rfl hvb
    · rw [hg]; rfl
  | emptyObj h =>
    rename_i w'
    rw [List.cons_append, List.append_assoc]
    simp only [show ('{' : Char) ≠ 'n' from by decide, show ('{' : Char) ≠ 't' from by decide,
      show ('{' : Char) ≠ 'f' from by decide, show ('{' : Char) ≠ '"' from by decide,
      show ('{' : Char) ≠ '[' from by decide, if_false, if_true]
    rw [Json.depth, Json.depthObj] at hd
    rw [if_neg (by omega), List.cons_append, List.nil_append, skip_cons h rfl]
    rfl
  | obj h h' =>
    rename_i w' u' l
    obtain ⟨v, hv⟩ := members_head h'
    rw [List.cons_append, List.append_assoc]
    simp only [show ('{' : Char) ≠ 'n' from by decide, show ('{' : Char) ≠ 't' from by decide,
      show ('{' : Char) ≠ 'f' from by decide, show ('{' : Char) ≠ '"' from by decide,
      show ('{' : Char) ≠ '[' from by decide, if_false, if_true]
    rw [Json.depth] at hd
    rw [if_neg (by omega)]
    have hg := readMembers_writes h' fuel (d - 1) [] rest (by
      simp only [List.length_cons, List.length_append] at hf
      omega) (by omega) (by rw [Json.Small] at hs; exact hs) (fun _ h => by cases h)
    rw [List.nil_append] at hg
    rw [hv] at hg ⊢
    rw [List.cons_append] at hg ⊢
    rw [skip_cons h rfl]
    split
    · next e => cases e
    · rw [hg]; rfl
termination_by fuel

theorem readElems_writes {l : List Json} {u : Str} (h : SpellsElems l u) (fuel d : Nat) (w rest : Str) (hf : 2 * u.length ≤ fuel)
    (hd : Json.depthArr l < d) (hs : Json.SmallArr l) (hw : JsonWs w) : readElems fuel d (w ++ (u ++ rest)) = some (l, rest) := by
  obtain ⟨c, v, hc, -, -⟩ := elems_head h
  obtain ⟨fuel, rfl⟩ : ∃ k, fuel = k + 1 := ⟨fuel - 1, by rw [hc] at hf; simp at hf; omega⟩
  rw [readElems]
  cases h with
  | last hj hw2 =>
    rename_i j t w2
    rw [Json.depthArr] at hd
    rw [Json.SmallArr] at hs
    have hv := readVal_writes hj fuel d w (w2 ++ ']' :: rest) (by simp only [List.length_append, List.length_cons] at hf; omega) (by omega) hs.1 hw
      (ws_noDigit hw2 (noDigit_cons rfl))
    rw [List.append_assoc, List.append_assoc, List.cons_append, List.nil_append, hv]
    dsimp only
    rw [skip_cons hw2 rfl]
    rfl
  | more hj hw2 hw3 h' =>
    rename_i j t w2 w3 u' l'
    rw [Json.depthArr] at hd
    rw [Json.SmallArr] at hs
    have hv := readVal_writes hj fuel d w (w2 ++ ',' :: (w3 ++ (u' ++ rest))) (by simp only [List.length_append, List.length_cons] at hf; omega) (by omega)
      hs.1 hw (ws_noDigit hw2 (noDigit_cons rfl))
    rw [List.append_assoc, List.append_assoc, List.cons_append, List.append_assoc, hv]
    dsimp only
    rw [skip_cons hw2 rfl]
    show (readElems fuel d _).map _ = _
    rw [readElems_writes h' fuel d w3 rest (by simp only [List.length_append, List.length_cons] at hf; omega) (by omega) hs.2 hw3]
    rfl
termination_by fuel

theorem readMembers_writes {l : List (Str × Json)} {u : Str} (h : SpellsMembers l u) (fuel d : Nat) (w rest : Str) (hf : 2 * u.length ≤ fuel)
    (hd : Json.depthObj l < d) (hs : Json.SmallObj l) (hw : JsonWs w) : readMembers fuel d (w ++ (u ++ rest)) = some (l, rest) := by
  obtain ⟨v, hc⟩ := members_head h
  obtain ⟨fuel, rfl⟩ : ∃ k, fuel = k + 1 := ⟨fuel - 1, by rw [hc] at hf; simp at hf; omega⟩
  rw [readMembers, hc, List.cons_append, skip_cons hw rfl, ← List.cons_append, ← hc]
  cases h with
  | last hk hw1 hw2 hj hw3 =>
    rename_i k q j t w1 w2 w3
    rw [Json.depthObj] at hd
    rw [Json.SmallObj] at hs
    have hv := readVal_writes hj fuel d w2 (w3 ++ '}' :: rest) (by simp only [List.length_append, List.length_cons] at hf; omega) (by omega) hs.1 hw2
      (ws_noDigit hw3 (noDigit_cons rfl))
    have hq := readStr_quoted hk (w1 ++ ':' :: (w2 ++ (t ++ (w3 ++ '}' :: rest))))
    simp only [List.cons_append, List.append_assoc, List.nil_append]
    show (match readStr _ _ with | none => none | some (_, _) => _) = _
    rw [hq]
    dsimp only
    rw [skip_cons hw1 rfl]
    show (match readVal fuel d _ with | none => none | some (_, _) => _) = _
    rw [hv]
    dsimp only
    rw [skip_cons hw3 rfl]
    rfl
  | more hk hw1 hw2 hj hw3 hw4 h' =>
    rename_i k q j t w1 w2 w3 w4 u' l'
    rw [Json.depthObj] at hd
    rw [Json.SmallObj] at hs
    have hv := readVal_writes hj fuel d w2 (w3 ++ ',' :: (w4 ++ (u' ++ rest))) (by simp only [List.length_append, List.length_cons] at hf; omega) (by omega)
      hs.1 hw2 (ws_noDigit hw3 (noDigit_cons rfl))
    have hq := readStr_quoted hk (w1 ++ ':' :: (w2 ++ (t ++ (w3 ++ ',' :: (w4 ++ (u' ++ rest))))))
    have hm := readMembers_writes h' fuel d w4 rest (by simp only [List.length_append, List.length_cons] at hf; omega) (by omega) hs.2 hw4
    simp only [List.cons_append, List.append_assoc]
    show (match readStr _ _ with | none => none | some (_, _) => _) = _
    rw [hq]
    dsimp only
    rw [skip_cons hw1 rfl]
    show (match readVal fuel d _ with | none => none | some (_, _) => _) = _
    rw [hv]
    dsimp only
    rw [skip_cons hw3 rfl]
    show (readMembers fuel d _).map _ = _
    rw [hm]
    rfl
termination_by fuel
end

/-! ## Values: what is read was written -/

theorem lit_only {p t r : Str} {j v : Json} (c : Char) (h : (stripPrefix p t).map (fun r => (v, r)) = some (j, r)) :
    c :: t = (c :: p) ++ r ∧ v = j := by
  obtain ⟨r', h1, h2⟩ := map_some h
  cases h2
  exact ⟨by rw [stripPrefix_eq_some.1 h1]; rfl, rfl⟩

theorem read_only (fuel : Nat) :
    (∀ d s j r, readVal fuel d s = some (j, r) → 1 ≤ d → ∃ w t, s = w ++ (t ++ r) ∧ JsonWs w ∧ SpellsValue j t ∧ j.depth < d ∧ j.Small) ∧
    (∀ d s l r, readElems fuel d s = some (l, r) → 1 ≤ d →
      ∃ w t, s = w ++ (t ++ r) ∧ JsonWs w ∧ SpellsElems l t ∧ Json.depthArr l < d ∧ Json.SmallArr l) ∧
    (∀ d s l r, readMembers fuel d s = some (l, r) → 1 ≤ d →
      ∃ w t, s = w ++ (t ++ r) ∧ JsonWs w ∧ SpellsMembers l t ∧ Json.depthObj l < d ∧ Json.SmallObj l) := by
  induction fuel with
  | zero =>
    refine ⟨?_, ?_, ?_⟩
    · intro d s j r h; rw [readVal] at h; cases h
    · intro d s j r h; rw [readElems] at h; cases h
    · intro d s j r h; rw [readMembers] at h; cases h
  | succ fuel ih =>
    obtain ⟨ihv, ihe, ihm⟩ := ih
    refine ⟨?_, ?_, ?_⟩
    · intro d s j r h hd
      obtain ⟨w, hw, hs, -⟩ := skip_split s
      rw [readVal] at h
      revert h hs
      generalize skipWs s = s'
      intro h hs
      suffices ∃ t, s' = t ++ r ∧ SpellsValue j t ∧ j.depth < d ∧ j.Small by
        obtain ⟨t, e, h⟩ := this
        exact ⟨w, t, by rw [hs, e], hw, h⟩
      cases s' with
      | nil => cases h
      | cons c t =>
      dsimp only at h
      split at h
      · next hc =>
        obtain ⟨e, rfl⟩ := lit_only c h
        exact ⟨_, e, by rw [hc]; exact .null, (by simp only [Json.depth]; omega), by simp [Json.Small]⟩
      split at h
      · next hc =>
        obtain ⟨e, rfl⟩ := lit_only c h
        exact ⟨_, e, by rw [hc]; exact .true, (by simp only [Json.depth]; omega), by simp [Json.Small]⟩
      split at h
      · next hc =>
        obtain ⟨e, rfl⟩ := lit_only c h
        exact ⟨_, e, by rw [hc]; exact .false, (by simp only [Json.depth]; omega), by simp [Json.Small]⟩
      split at h
      · next hc =>
        obtain ⟨⟨k, r'⟩, h1, h2⟩ := map_some h
        cases h2
        obtain ⟨q, e, hq⟩ := readStr_only _ _ _ _ h1
        exact ⟨'"' :: (q ++ ['"']), by rw [hc, e]; simp, .str hq, (by simp only [Json.depth]; omega), by simp [Json.Small]⟩
      split at h
      · next hc =>
        split at h
        · cases h
        next hd1 =>
        obtain ⟨w1, hw1, ht, -⟩ := skip_split t
        split at h
        · next t' e =>
          cases h
          refine ⟨'[' :: (w1 ++ [']']), ?_, .emptyArr hw1, ?_, ?_⟩
          · rw [hc, ht, e]; simp
          · rw [Json.depth, Json.depthArr]; omega
          · trivial
        · obtain ⟨⟨l, r'⟩, h1, h2⟩ := map_some h
          cases h2
          obtain ⟨w2, u, e, hw2, hl, hdep, hsm⟩ := ihe _ _ _ _ h1 (by omega)
          refine ⟨'[' :: ((w1 ++ w2) ++ u), ?_, .arr (fun c hc => ?_) hl, ?_, ?_⟩
          · rw [hc, ht, e]; simp
          · rcases List.mem_append.1 hc with h | h
            · exact hw1 _ h
            · exact hw2 _ h
          · rw [Json.depth]; dsimp only; omega
          · rw [Json.Small]; exact hsm
      split at h
      · next hc =>
        split at h
        · cases h
        next hd1 =>
        obtain ⟨w1, hw1, ht, -⟩ := skip_split t
        split at h
        · next t' e =>
          cases h
          refine ⟨'{' :: (w1 ++ ['}']), ?_, .emptyObj hw1, ?_, ?_⟩
          · rw [hc, ht, e]; simp
          · rw [Json.depth, Json.depthObj]; omega
          · trivial
        · obtain ⟨⟨l, r'⟩, h1, h2⟩ := map_some h
          cases h2
          obtain ⟨w2, u, e, hw2, hl, hdep, hsm⟩ := ihm _ _ _ _ h1 (by omega)
          refine ⟨'{' :: ((w1 ++ w2) ++ u), ?_, .obj (fun c hc => ?_) hl, ?_, ?_⟩
          · rw [hc, ht, e]; simp
          · rcases List.mem_append.1 hc with h | h
            · exact hw1 _ h
            · exact hw2 _ h
          · rw [Json.depth]; dsimp only; omega
          · rw [Json.Small]; exact hsm
      · obtain ⟨⟨n, r'⟩, h1, h2⟩ := map_some h
        cases h2
        obtain ⟨q, e, hq, hn⟩ := readNat_only h1
        exact ⟨q, e, .num hq, (by simp only [Json.depth]; omega), by simpa [Json.Small] using hn⟩
    · intro d s l r h hd
      rw [readElems] at h
      split at h
      · cases h
      next j t hv =>
      obtain ⟨w, u, e, hw, hj, hdep, hsm⟩ := ihv _ _ _ _ hv hd
      obtain ⟨w1, hw1, ht, -⟩ := skip_split t
      split at h
      · next t' e' =>
        cases h
        refine ⟨w, u ++ (w1 ++ [']']), ?_, hw, .last hj hw1, ?_, ?_⟩
        · rw [e, ht, e']; simp
        · rw [Json.depthArr, Json.depthArr]; omega
        · rw [Json.SmallArr, Json.SmallArr]; exact ⟨hsm, trivial⟩
      · next t' e' =>
        obtain ⟨⟨l', r'⟩, h1, h2⟩ := map_some h
        cases h2
        obtain ⟨w2, u', e2, hw2, hl, hdep', hsm'⟩ := ihe _ _ _ _ h1 hd
        refine ⟨w, u ++ (w1 ++ ',' :: (w2 ++ u')), ?_, hw, .more hj hw1 hw2 hl, ?_, ?_⟩
        · rw [e, ht, e', e2]; simp
        · rw [Json.depthArr]; dsimp only; omega
        · rw [Json.SmallArr]; exact ⟨hsm, hsm'⟩
      · cases h
    · intro d s l r h hd
      rw [readMembers] at h
      obtain ⟨w, hw, hs, -⟩ := skip_split s
      split at h
      · next t es =>
        split at h
        · cases h
        next k t1 hk =>
        obtain ⟨q, eq, hq⟩ := readStr_only _ _ _ _ hk
        obtain ⟨w1, hw1, ht1, -⟩ := skip_split t1
        split at h
        · next t2 e1 =>
          split at h
          · cases h
          next j t3 hv =>
          obtain ⟨w2, u, e2, hw2, hj, hdep, hsm⟩ := ihv _ _ _ _ hv hd
          obtain ⟨w3, hw3, ht3, -⟩ := skip_split t3
          split at h
          · next t4 e3 =>
            cases h
            refine ⟨w, '"' :: (q ++ '"' :: (w1 ++ ':' :: (w2 ++ (u ++ (w3 ++ ['}']))))), ?_, hw, .last hq hw1 hw2 hj hw3, ?_, ?_⟩
            · rw [hs, es, eq, ht1, e1, e2, ht3, e3]; simp
            · rw [Json.depthObj, Json.depthObj]; omega
            · rw [Json.SmallObj, Json.SmallObj]; exact ⟨hsm, trivial⟩
          · next t4 e3 =>
            obtain ⟨⟨l', r'⟩, h1, h2⟩ := map_some h
            cases h2
            obtain ⟨w4, u', e4, hw4, hl, hdep', hsm'⟩ := ihm _ _ _ _ h1 hd
            refine ⟨w, '"' :: (q ++ '"' :: (w1 ++ ':' :: (w2 ++ (u ++ (w3 ++ ',' :: (w4 ++ u')))))), ?_, hw, .more hq hw1 hw2 hj hw3 hw4 hl, ?_, ?_⟩
            · rw [hs, es, eq, ht1, e1, e2, ht3, e3, e4]; simp
            · rw [Json.depthObj]; dsimp only; omega
            · rw [Json.SmallObj]; exact ⟨hsm, hsm'⟩
          · cases h
        · cases h
      · cases h

/-! ## Documents -/

theorem skip_nil_iff (s : Str) : skipWs s = [] ↔ JsonWs s := by
  constructor
  · intro h
    obtain ⟨w, hw, e, -⟩ := skip_split s
    rw [h, List.append_nil] at e
    rw [e]
    exact hw
  · intro h
    have := skip_ws h []
    rwa [List.append_nil] at this

/-- The reader accepts exactly the JSON texts (nested at most 127 deep, the numbers natural numbers of 64 bits), and what it reads is the value
written. -/
theorem C89_read_iff (s : Str) (j : Json) : Json.read s = some j ↔ Document j s ∧ j.depth < 128 ∧ j.Small := by
  constructor
  · intro h
    unfold Json.read at h
    split at h
    · next j' t hv =>
      split at h
      · next ht =>
        cases h
        obtain ⟨w, u, e, hw, hj, hd, hs⟩ := (read_only _).1 _ _ _ _ hv (by decide)
        exact ⟨⟨w, u, t, e, hw, (skip_nil_iff t).1 ht, hj⟩, hd, hs⟩
      · cases h
    · cases h
  · rintro ⟨⟨w, t, w', rfl, hw, hw', hj⟩, hd, hs⟩
    unfold Json.read
    have hn : NoDigit w' := by
      have := ws_noDigit hw' (s := []) (fun _ _ h => by cases h)
      rwa [List.append_nil] at this
    rw [readVal_writes hj _ _ _ _ (by simp only [List.length_append]; omega) hd hs hw hn]
    dsimp only
    rw [if_pos ((skip_nil_iff w').2 hw')]

/-- So how a document is written does not matter. -/
theorem C89_spelling {s s' : Str} {j : Json} (h : Document j s) (h' : Document j s') (hd : j.depth < 128) (hs : j.Small) :
    Json.read s = Json.read s' := by
  rw [(C89_read_iff s j).2 ⟨h, hd, hs⟩, (C89_read_iff s' j).2 ⟨h', hd, hs⟩]

/-- A text is a document of one value. -/
theorem C89_one_value {s : Str} {j k : Json} (h : Document j s) (h' : Document k s) (hd : j.depth < 128) (hs : j.Small) (hd' : k.depth < 128)
    (hs' : k.Small) : j = k :=
  Option.some.inj (((C89_read_iff s j).2 ⟨h, hd, hs⟩).symm.trans ((C89_read_iff s k).2 ⟨h', hd', hs'⟩))

/-- What is written out is a document of the value. -/
theorem C89_printed (j : Json) (hd : j.depth < 128) (hs : j.Small) : Document j j.print :=
  ((C89_read_iff _ _).1 (Json.read_print j hd hs)).1

/-- **C89** A file from which a bundle, or a package, is loaded, and an object found in the store, may be written in any way. -/
theorem C89_load (E : Env) {s s' : Str} {j : Json} (h : Document j s) (h' : Document j s') (hd : j.depth < 128) (hs : j.Small) :
    parseBundle E Serde.text s = parseBundle E Serde.text s' ∧ parseBase E Serde.text s = parseBase E Serde.text s' ∧
    Package.load E Serde.text s = Package.load E Serde.text s' := by
  have e : Serde.text.parse s = Serde.text.parse s' := C89_spelling h h' hd hs
  refine ⟨?_, ?_, ?_⟩
  · unfold parseBundle; rw [e]
  · unfold parseBase; rw [e]
  · unfold Package.load; rw [e]

/-- **C89** A text that is not a JSON document is refused: never an abort. -/
theorem C89_refused (E : Env) (s : Str) (h : ∀ j, ¬ Document j s) :
    (∃ e, parseBundle E Serde.text s = .err e) ∧ (∃ e, parseBase E Serde.text s = .err e) ∧ ∃ e, Package.load E Serde.text s = .err e := by
  have e : Serde.text.parse s = none := by
    show Json.read s = none
    cases e : Json.read s with
    | none => rfl
    | some j => exact absurd ((C89_read_iff s j).1 e).1 (h j)
  refine ⟨⟨_, by unfold parseBundle; rw [e]⟩, ⟨_, by unfold parseBase; rw [e]⟩, ⟨_, by unfold Package.load; rw [e]⟩⟩

/-! ## Example -/

/-- a bundle as a person would write it, with escapes -/
def handWritten : Str := c!"
{
  \"v\": \"OCAS11JSON\",
  \"d\": \"Ebundle\",
  \"overlays\" : {
\t\"label\": [
      { \"type\": \"spec\\/overlays\\/label\\/1.1\", \"d\": \"E\\u006Cabel\", \"capture_base\": \"Ebase\",
        \"language\": \"e\\u006Eg\",
        \"attribute_labels\": { \"\\u0061\": \"A\" },
        \"attribute_categories\": [ ],
        \"category_labels\": { }
      }
    ]
  },
  \"capture_base\": {
    \"d\": \"Ebase\" , \"type\": \"spec/capture_base/1.0\",
    \"classification\": \"\",
    \"attributes\": {\"a\" : \"Text\"},
    \"flagged_attributes\": []
  }
}
"

/-- the document of C59 -/
def sameDoc : Json := .obj (loadDoc c!"spec/overlays/label/1.1" c!"eng")

theorem sameDoc_plain : sameDoc.depth < 128 ∧ sameDoc.Small := by
  constructor
  · decide +kernel
  · simp [sameDoc, loadDoc, Json.Small, Json.SmallObj, Json.SmallArr]

set_option maxRecDepth 20000 in
theorem handWritten_read : (Json.read handWritten).map Json.print = some sameDoc.print := by decide +kernel

set_option maxRecDepth 20000 in
/-- the text above is a document of the value of C59, and so it is loaded as that -/
theorem C89_example : Document sameDoc handWritten ∧ handWritten ≠ sameDoc.print ∧ loadFate (parseBundle Env.demo Serde.text handWritten) = some (some 1) := by
  have hr : Json.read handWritten = some sameDoc := by
    obtain ⟨j, h1, h2⟩ := map_some handWritten_read
    obtain ⟨-, hd, hs⟩ := (C89_read_iff _ _).1 h1
    have e1 := Json.read_print j hd hs
    have e2 := Json.read_print sameDoc sameDoc_plain.1 sameDoc_plain.2
    rw [h2, e2] at e1
    rw [h1, e1]
  refine ⟨((C89_read_iff _ _).1 hr).1, ?_, ?_⟩
  · intro e
    have := congrArg List.head? e
    revert this
    decide +kernel
  · have e : Serde.text.parse handWritten = some sameDoc := hr
    unfold parseBundle
    rw [e]
    decide +kernel

end OCA
