import Verif.Lemmas.Grammar
/-!
# Parsing printed text: white space, quoted strings, keys
-/
namespace OCA
open Peg

namespace Peg
variable {R : Type}
/-- Inside an atomic rule the parser emits nothing. -/
class IsSilent (p : Peg R) : Prop where
  silent : ∀ i o, p true i = some o → o.ts = []

section
variable {p q : Peg R}
instance (s : Str) : IsSilent (lit s : Peg R) := ⟨fun i o h => by
  simp only [Peg.lit, Option.map_eq_some_iff] at h
  obtain ⟨r, -, rfl⟩ := h; rfl⟩
instance (s : Str) : IsSilent (ilit s : Peg R) := ⟨fun i o h => by
  cases s with
  | nil => injection h with h; subst h; rfl
  | cons c s =>
    cases i with
    | nil => cases h
    | cons d i =>
      simp only [Peg.ilit] at h
      split at h
      · obtain ⟨r, -, rfl⟩ := Option.map_eq_some_iff.1 h; rfl
      · cases h⟩
instance (f : Char → Bool) : IsSilent (cls f : Peg R) := ⟨fun i o h => by
  cases i with
  | nil => cases h
  | cons d i =>
    simp only [Peg.cls] at h
    split at h
    · injection h with h; subst h; rfl
    · cases h⟩
instance : IsSilent (any : Peg R) := inferInstanceAs (IsSilent (cls _))
instance [hp : IsSilent p] [hq : IsSilent q] : IsSilent (seq p q) := ⟨fun i o h => by
  obtain ⟨o1, o2, h1, h2, rfl⟩ := seq_some h
  simp [hp.silent _ _ h1, hq.silent _ _ h2]⟩
instance [hp : IsSilent p] [hq : IsSilent q] : IsSilent (alt p q) := ⟨fun i o h => by
  rcases alt_some h with h | ⟨-, h⟩
  · exact hp.silent _ _ h
  · exact hq.silent _ _ h⟩
instance [hp : IsSilent p] : IsSilent (opt p) := ⟨fun i o h => by
  rcases opt_some h with h | ⟨-, rfl⟩
  · exact hp.silent _ _ h
  · rfl⟩
instance : IsSilent (neg p) := ⟨fun i o h => by obtain ⟨-, rfl⟩ := neg_some h; rfl⟩
instance [hp : IsSilent p] : IsSilent (star p) := ⟨fun i o h => by
  refine star_rec (P := fun _ o => o.ts = []) (fun _ _ => rfl) ?_ i o h
  intro i o o' h1 _ _ h2
  simp [hp.silent _ _ h1, h2]⟩
instance [IsSilent p] : IsSilent (plus p) := inferInstanceAs (IsSilent (seq p (star p)))
instance (k : R) [hp : IsSilent p] : IsSilent (normal k p) := ⟨fun i o h => by
  obtain ⟨o', h', rfl⟩ := normal_some h; exact hp.silent _ _ h'⟩
instance (k : R) [hp : IsSilent p] : IsSilent (atomic k p) := ⟨fun i o h => by
  obtain ⟨o', h', rfl⟩ := atomic_some h; exact hp.silent _ _ h'⟩
theorem silent (p : Peg R) [h : IsSilent p] {i o} (e : p true i = some o) : o.ts = [] := h.silent i o e
end
end Peg

namespace Gr
variable (U : Uni)
instance : IsSilent newline := by unfold newline; infer_instance
instance : IsSilent hexDigit := by unfold hexDigit; infer_instance
instance : IsSilent ws := by unfold ws; infer_instance
instance : IsSilent comment := by unfold comment; infer_instance
instance : IsSilent commentLine := by unfold commentLine; infer_instance
instance : IsSilent emptyLine := by unfold emptyLine; infer_instance
instance : IsSilent unicode := by unfold unicode; infer_instance
instance : IsSilent escape := by unfold escape; infer_instance
instance : IsSilent lineContinuation := by unfold lineContinuation; infer_instance
instance : IsSilent argWs := by unfold argWs; infer_instance
instance : IsSilent (scripts U) := by unfold scripts; infer_instance
instance : IsSilent (char U) := by unfold char; infer_instance
instance : IsSilent (said U) := by unfold said; infer_instance
instance : IsSilent (alias U) := by unfold alias; infer_instance

/-! ## White space -/

/-- `n` spaces -/
def sp (n : Nat) : Str := List.replicate n ' '

/-- does not start with a space, a tab or a backslash -/
def NW (r : Str) : Prop := ∀ c t, r = c :: t → c ≠ ' ' ∧ c ≠ '\t' ∧ c ≠ '\\'

theorem NW.nil : NW [] := fun _ _ h => by cases h
theorem NW.cons {c : Char} (h1 : c ≠ ' ') (h2 : c ≠ '\t') (h3 : c ≠ '\\') (t : Str) : NW (c :: t) :=
  fun _ _ h => by cases h; exact ⟨h1, h2, h3⟩

variable {a : Bool} {rest : Str}

theorem ws_fails (h : ∀ c t, rest = c :: t → c ≠ ' ' ∧ c ≠ '\t') : Fails ws a rest := by
  cases rest with
  | nil => rfl
  | cons c r =>
    obtain ⟨h1, h2⟩ := h c r rfl
    exact Fails.alt (Fails.lit (Ne.symm h1) _ _ _) (Fails.lit (Ne.symm h2) _ _ _)

theorem ws_space : Yields ws a [' '] [] rest := Yields.altLeft (.lit _ _ _)

theorem wsItem_fails {q : P} (h : NW rest) : Fails (ws |ₚ lineContinuation ~ₚ q) a rest := by
  refine Fails.alt (ws_fails fun c t e => ⟨(h c t e).1, (h c t e).2.1⟩) (Fails.seqLeft (Fails.seqLeft ?_))
  cases rest with
  | nil => rfl
  | cons c r => exact Fails.lit (Ne.symm (h c r rfl).2.2) _ _ _

theorem wsStar_spaces {q : P} (n : Nat) (h : NW rest) : Yields ((ws |ₚ lineContinuation ~ₚ q)*ₚ) a (sp n) [] rest := by
  induction n with
  | zero => exact Yields.starNil (wsItem_fails h)
  | succ n ih => exact Yields.starCons (s := [' ']) (ts := []) (by simp) (Yields.altLeft ws_space) ih

theorem argWs_fails (h : NW rest) : Fails argWs a rest := Fails.plus (wsItem_fails h)

/-- one or more spaces -/
theorem argWs_spaces (n : Nat) (h : NW rest) : Yields argWs a (sp (n + 1)) [] rest :=
  Yields.plus (s := [' ']) (ts := []) (Yields.altLeft ws_space) (wsStar_spaces n h)

theorem optWs_spaces (n : Nat) (h : NW rest) : Yields (argWs ?ₚ) a (sp n) [] rest := by
  cases n with
  | zero => exact Yields.optNone (argWs_fails h)
  | succ n => exact Yields.optSome (argWs_spaces n h)

theorem optWs_none (h : NW rest) : Yields (argWs ?ₚ) a [] [] rest := optWs_spaces 0 h

theorem argWs_space (h : NW rest) : Yields argWs a [' '] [] rest := argWs_spaces 0 h

theorem starWs_spaces (n : Nat) (h : NW rest) : Yields (argWs*ₚ) a (sp n) [] rest := by
  cases n with
  | zero => exact Yields.starNil (argWs_fails h)
  | succ n =>
    have := Yields.starCons (s := sp (n + 1)) (ts := []) (by simp [sp, List.replicate_succ]) (argWs_spaces (rest := [] ++ rest) n h)
      (Yields.starNil (a := a) (argWs_fails h))
    simpa using this

/-! ## Quoted strings -/

/-- A text that can stand between double quotes: no quote and no backslash before the end other than as part of
`\"` and `\\` pairs read from the left, and neither U+0000 nor U+001F. -/
def Quotable : Str → Bool
  | [] => true
  | c :: r =>
    if c = '\\' then
      match r with
      | [] => false
      | d :: r' => if d = '"' ∨ d = '\\' then Quotable r' else Quotable (d :: r')
    else decide (c ≠ '"' ∧ c ≠ '\x00' ∧ c ≠ '\x1f') && Quotable r

theorem Quotable.plain {c : Char} {r : Str} (h : c ≠ '\\') :
    Quotable (c :: r) = (decide (c ≠ '"' ∧ c ≠ '\x00' ∧ c ≠ '\x1f') && Quotable r) := by
  rw [Quotable.eq_def]
  simp [h]

theorem Quotable.drop {x y : Str} (h : Quotable (x ++ y) = true) (hx : ∀ c ∈ x, c ≠ '\\') : Quotable y = true := by
  induction x with
  | nil => exact h
  | cons c x ih =>
    rw [List.cons_append, Quotable.plain (hx c (.head _)), Bool.and_eq_true] at h
    exact ih h.2 fun d hd => hx d (.tail _ hd)

/-- A run of harmless characters. -/
theorem Quotable.of_plain {s : Str} (h : ∀ c ∈ s, c ≠ '\\' ∧ c ≠ '"' ∧ c ≠ '\x00' ∧ c ≠ '\x1f') :
    Quotable s = true := by
  induction s with
  | nil => rfl
  | cons c s ih =>
    have := h c (.head _)
    rw [Quotable.plain this.1]
    simp only [ne_eq, this.2.1, not_false_eq_true, this.2.2.1, this.2.2.2, and_self, decide_true, Bool.true_and]
    exact ih fun d hd => h d (.tail _ hd)

theorem plainChar_yields {q c : Char} (h : c ≠ q ∧ c ≠ '\\' ∧ c ≠ '\x00' ∧ c ≠ '\x1f') :
    Yields (plainChar q) a [c] [] rest := by
  have : Fails (lit [q] |ₚ lit c!"\\" |ₚ lit ['\x00'] |ₚ lit ['\x1f'] : P) a (c :: rest) :=
    Fails.alt (Fails.lit (Ne.symm h.1) _ _ _) (Fails.alt (Fails.lit (Ne.symm h.2.1) _ _ _)
      (Fails.alt (Fails.lit (Ne.symm h.2.2.1) _ _ _) (Fails.lit (Ne.symm h.2.2.2) _ _ _)))
  exact Yields.seq (s := []) (ts := []) (Yields.neg this) (Yields.cls rfl _ _)

theorem plainChar_fails {q c : Char} {r : Str} (h : c = q ∨ c = '\\' ∨ c = '\x00' ∨ c = '\x1f') :
    Fails (plainChar q) a (c :: r) := by
  refine Fails.seqLeft (Fails.neg (s := [c]) (ts := []) ?_)
  show (lit [q] |ₚ lit c!"\\" |ₚ lit ['\x00'] |ₚ lit ['\x1f'] : P) a (c :: r) = _
  rcases h with rfl | rfl | rfl | rfl
  · simp [alt, lit, stripPrefix]
  · by_cases h : q = '\\' <;> simp [alt, lit, stripPrefix, h]
  · by_cases h : q = '\x00' <;> simp [alt, lit, stripPrefix, h]
  · by_cases h : q = '\x1f' <;> simp [alt, lit, stripPrefix, h]

/-- the part of `inner` after its token -/
def innerCore (q : Char) (self : P) : P := (plainChar q)*ₚ ~ₚ (escape ~ₚ self)?ₚ

theorem hexDigit_some {i : Str} {o : Out Rule} (h : hexDigit true i = some o) : ∃ c, o.u = [c] ∧ c ≠ '"' ∧ c ≠ '\'' ∧ c ≠ '\\' ∧ c ≠ '\x00' ∧ c ≠ '\x1f' := by
  cases i with
  | nil => cases h
  | cons c i =>
    simp only [hexDigit, cls] at h
    split at h
    next hc =>
      injection h with h
      subst h
      refine ⟨c, rfl, ?_, ?_, ?_, ?_, ?_⟩
      all_goals (rintro rfl; revert hc; decide)
    · cases h

theorem escape_some (i : Str) : ∃ x y, escape true ('\\' :: i) = some ⟨[], '\\' :: x, y⟩ ∧ i = x ++ y ∧
    (x = ['"'] ∨ x = ['\''] ∨ x = ['\\'] ∨ ∀ c ∈ x, c ≠ '"' ∧ c ≠ '\'' ∧ c ≠ '\\' ∧ c ≠ '\x00' ∧ c ≠ '\x1f') := by
  have hsome : ∃ o, escape true ('\\' :: i) = some o ∧ ∃ o', o = ⟨[], '\\' :: o'.u, o'.r⟩ ∧
      (lit c!"b" |ₚ lit c!"t" |ₚ lit c!"n" |ₚ lit c!"f" |ₚ lit c!"r" |ₚ lit c!"\"" |ₚ lit c!"\\" |ₚ lit c!"'" |ₚ unicode |ₚ newline)?ₚ true i = some o' := by
    have h1 : ∃ o', (lit c!"b" |ₚ lit c!"t" |ₚ lit c!"n" |ₚ lit c!"f" |ₚ lit c!"r" |ₚ lit c!"\"" |ₚ lit c!"\\" |ₚ lit c!"'" |ₚ unicode |ₚ newline)?ₚ true i = some o' := by
      unfold opt
      split
      · exact ⟨_, rfl⟩
      · exact ⟨_, rfl⟩
    obtain ⟨o', ho'⟩ := h1
    have hs : o'.ts = [] := silent _ ho'
    refine ⟨_, ?_, o', rfl, ho'⟩
    simp only [escape, atomic, if_true, Option.map_eq_some_iff]
    refine ⟨⟨[], '\\' :: o'.u, o'.r⟩, ?_, rfl⟩
    simp only [seq, lit, stripPrefix, if_true, Option.map_some]
    rw [ho']
    simp [hs]
  obtain ⟨o, ho, o', rfl, ho'⟩ := hsome
  have hg := good _ _ _ _ ho'
  refine ⟨o'.u, o'.r, ho, hg, ?_⟩
  have hlit : ∀ (c : Char) , lit [c] true i = some o' → o'.u = [c] := by
    intro c h
    simp only [lit, Option.map_eq_some_iff] at h
    obtain ⟨r, -, rfl⟩ := h
    rfl
  rcases opt_some ho' with h | ⟨-, rfl⟩
  · rcases alt_some h with h | ⟨-, h⟩
    · right; right; right; rw [hlit _ h]; decide
    rcases alt_some h with h | ⟨-, h⟩
    · right; right; right; rw [hlit _ h]; decide
    rcases alt_some h with h | ⟨-, h⟩
    · right; right; right; rw [hlit _ h]; decide
    rcases alt_some h with h | ⟨-, h⟩
    · right; right; right; rw [hlit _ h]; decide
    rcases alt_some h with h | ⟨-, h⟩
    · right; right; right; rw [hlit _ h]; decide
    rcases alt_some h with h | ⟨-, h⟩
    · left; exact hlit _ h
    rcases alt_some h with h | ⟨-, h⟩
    · right; right; left; exact hlit _ h
    rcases alt_some h with h | ⟨-, h⟩
    · right; left; exact hlit _ h
    right; right; right
    have happ : ∀ x y : Str, (∀ c ∈ x, c ≠ '"' ∧ c ≠ '\'' ∧ c ≠ '\\' ∧ c ≠ '\x00' ∧ c ≠ '\x1f') → (∀ c ∈ y, c ≠ '"' ∧ c ≠ '\'' ∧ c ≠ '\\' ∧ c ≠ '\x00' ∧ c ≠ '\x1f') →
        ∀ c ∈ x ++ y, c ≠ '"' ∧ c ≠ '\'' ∧ c ≠ '\\' ∧ c ≠ '\x00' ∧ c ≠ '\x1f' := by
      intro x y hx hy c hc
      rcases List.mem_append.1 hc with hc | hc
      · exact hx c hc
      · exact hy c hc
    have hhex : ∀ i o, hexDigit true i = some o → ∀ c ∈ o.u, c ≠ '"' ∧ c ≠ '\'' ∧ c ≠ '\\' ∧ c ≠ '\x00' ∧ c ≠ '\x1f' := by
      intro i o h
      obtain ⟨c, e, hc⟩ := hexDigit_some h
      rw [e]; simpa using hc
    have hl : ∀ (s : Str), (∀ c ∈ s, c ≠ '"' ∧ c ≠ '\'' ∧ c ≠ '\\' ∧ c ≠ '\x00' ∧ c ≠ '\x1f') → ∀ i o, (lit s : P) true i = some o →
        ∀ c ∈ o.u, c ≠ '"' ∧ c ≠ '\'' ∧ c ≠ '\\' ∧ c ≠ '\x00' ∧ c ≠ '\x1f' := by
      intro s hs i o h
      simp only [lit, Option.map_eq_some_iff] at h
      obtain ⟨r, -, rfl⟩ := h
      exact hs
    have hseq : ∀ (p q : P), (∀ i o, p true i = some o → ∀ c ∈ o.u, c ≠ '"' ∧ c ≠ '\'' ∧ c ≠ '\\' ∧ c ≠ '\x00' ∧ c ≠ '\x1f') →
        (∀ i o, q true i = some o → ∀ c ∈ o.u, c ≠ '"' ∧ c ≠ '\'' ∧ c ≠ '\\' ∧ c ≠ '\x00' ∧ c ≠ '\x1f') →
        ∀ i o, (p ~ₚ q) true i = some o → ∀ c ∈ o.u, c ≠ '"' ∧ c ≠ '\'' ∧ c ≠ '\\' ∧ c ≠ '\x00' ∧ c ≠ '\x1f' := by
      intro p q hp hq i o h
      obtain ⟨o1, o2, h1, h2, rfl⟩ := seq_some h
      exact happ _ _ (hp _ _ h1) (hq _ _ h2)
    rcases alt_some h with h | ⟨-, h⟩
    · obtain ⟨o2, h2, rfl⟩ := atomic_some h
      rcases alt_some h2 with h2 | ⟨-, h2⟩
      · exact hseq _ _ (hl _ (by decide)) (hseq _ _ hhex (hseq _ _ hhex (hseq _ _ hhex hhex))) _ _ h2
      · exact hseq _ _ (hl _ (by decide)) (hseq _ _ hhex (hseq _ _ hhex (hseq _ _ hhex (hseq _ _ hhex
          (hseq _ _ hhex (hseq _ _ hhex (hseq _ _ hhex hhex))))))) _ _ h2
    · rcases alt_some h with h | ⟨-, h⟩
      · exact hl _ (by decide) _ _ h
      rcases alt_some h with h | ⟨-, h⟩
      · exact hl _ (by decide) _ _ h
      · exact hl _ (by decide) _ _ h
  · right; right; right
    intro c hc; cases hc

/-- A prefix without quotes does not reach past a quote. -/
theorem prefix_before_quote {x y v rest : Str} (h : v ++ '"' :: rest = x ++ y) (hx : ∀ c ∈ x, c ≠ '"') :
    ∃ v', v = x ++ v' ∧ y = v' ++ '"' :: rest := by
  induction x generalizing v with
  | nil => exact ⟨v, rfl, h.symm⟩
  | cons c x ih =>
    cases v with
    | nil =>
      injection h with h1 h2
      exact absurd h1.symm (hx c (.head _))
    | cons d v =>
      injection h with h1 h2
      subst h1
      obtain ⟨v', e1, e2⟩ := ih h2 fun c hc => hx c (.tail _ hc)
      exact ⟨v', by rw [e1]; rfl, e2⟩

theorem seqStar_cons {p q : P} {a : Bool} {c : Char} {s rest : Str} (hc : Yields p a [c] [] (s ++ rest))
    (h : Yields (p*ₚ ~ₚ q) a s [] rest) : Yields (p*ₚ ~ₚ q) a (c :: s) [] rest := by
  obtain ⟨o1, o2, h1, h2, e⟩ := seq_some h
  simp only [Out.mk.injEq] at e
  obtain ⟨e1, e2, e3⟩ := e
  show seq _ _ _ _ = _
  unfold seq
  have hs : p*ₚ a (c :: s ++ rest) = some ⟨o1.ts, c :: o1.u, o1.r⟩ := by
    rw [star_eq]
    have : p a (c :: s ++ rest) = some ⟨[], [c], s ++ rest⟩ := hc
    rw [this]
    dsimp only
    rw [if_pos (by simp), h1]
    rfl
  rw [hs]
  dsimp only
  rw [h2]
  rw [Option.some.injEq, Out.mk.injEq]
  exact ⟨e1.symm, by rw [e2]; rfl, e3.symm⟩

theorem innerCore_yields {v : Str} (h : Quotable v = true) (rest : Str) :
    Yields (innerCore '"' inner) true v [] ('"' :: rest) := by
  induction hl : v.length using Nat.strongRecOn generalizing v with
  | _ n ih =>
    cases v with
    | nil =>
      have h1 : Yields (plainChar '"')*ₚ true [] [] ('"' :: rest) := Yields.starNil (plainChar_fails (.inl rfl))
      have h2 : Yields (escape ~ₚ inner)?ₚ true [] [] ('"' :: rest) :=
        Yields.optNone (Fails.seqLeft (Fails.atomic _ (Fails.seqLeft (Fails.lit (by decide) _ _ _))))
      exact Yields.seq (s := []) (s' := []) h1 h2
    | cons c v =>
      by_cases hc : c = '\\'
      · subst hc
        obtain ⟨x, y, he, hxy, hcase⟩ := escape_some (v ++ '"' :: rest)
        -- the remainder of the text after the escape
        have hv : ∃ v', v = x ++ v' ∧ y = v' ++ '"' :: rest ∧ Quotable v' = true := by
          cases v with
          | nil => simp [Quotable] at h
          | cons d v =>
            rw [Quotable.eq_def] at h
            simp only [if_true] at h
            have hne : d ≠ '"' → d ≠ '\\' → Quotable (d :: v) = true := by
              intro h1 h2
              rw [if_neg (by simp [h1, h2])] at h
              exact h
            rcases hcase with rfl | rfl | rfl | hx
            · injection hxy with h1 h2
              subst h1
              simp at h
              exact ⟨v, rfl, h2.symm, h⟩
            · injection hxy with h1 h2
              subst h1
              refine ⟨v, rfl, h2.symm, ?_⟩
              exact Quotable.drop (x := ['\'']) (hne (by decide) (by decide)) (by decide)
            · injection hxy with h1 h2
              subst h1
              simp at h
              exact ⟨v, rfl, h2.symm, h⟩
            · obtain ⟨v', e1, e2⟩ := prefix_before_quote hxy fun c hc => (hx c hc).1
              refine ⟨v', e1, e2, ?_⟩
              cases x with
              | cons e x =>
                injection e1 with e0 e1
                subst e0
                have hd := hx d (.head _)
                have := hne hd.1 hd.2.2.1
                rw [e1] at this
                exact Quotable.drop (x := d :: x) this fun c hc => (hx c hc).2.2.1
              | nil =>
                -- nothing after the backslash was consumed: then `d` is neither a quote nor a backslash
                have hd1 : d ≠ '"' := by
                  rintro rfl
                  have : escape true ('\\' :: ('"' :: v ++ '"' :: rest)) = some ⟨[], ['\\', '"'], v ++ '"' :: rest⟩ := by
                    simp [escape, atomic, seq, opt, alt, lit, stripPrefix]
                  rw [this] at he
                  simp at he
                have hd2 : d ≠ '\\' := by
                  rintro rfl
                  have : escape true ('\\' :: ('\\' :: v ++ '"' :: rest)) = some ⟨[], ['\\', '\\'], v ++ '"' :: rest⟩ := by
                    simp [escape, atomic, seq, opt, alt, lit, stripPrefix]
                  rw [this] at he
                  simp at he
                rw [List.nil_append] at e1
                rw [← e1]
                exact hne hd1 hd2
        obtain ⟨v', e1, e2, hq⟩ := hv
        have hi := ih v'.length (by rw [← hl, e1]; simp; omega) hq rfl
        have hi' : Yields inner true v' [] ('"' :: rest) := by
          rw [inner_eq]
          exact Yields.atomicIn _ hi
        have hesc : Yields escape true ('\\' :: x) [] (v' ++ '"' :: rest) := by
          unfold Yields
          rw [← e2, List.cons_append, ← hxy]
          exact he
        have h2 := Yields.optSome (Yields.seq hesc hi')
        have h1 : Yields (plainChar '"')*ₚ true [] [] (('\\' :: x ++ v') ++ '"' :: rest) :=
          Yields.starNil (plainChar_fails (.inr (.inl rfl)))
        have := Yields.seq h1 h2
        rw [e1]
        exact this
      · rw [Quotable.plain hc, Bool.and_eq_true, decide_eq_true_eq] at h
        have hi := ih v.length (by rw [← hl]; simp) h.2 rfl
        exact seqStar_cons (plainChar_yields ⟨h.1.1, hc, h.1.2.1, h.1.2.2⟩) hi

theorem inner_yields {v : Str} (h : Quotable v = true) (rest : Str) :
    Yields inner false v [.node .inner v []] ('"' :: rest) := by
  rw [inner_eq]
  exact Yields.atomic _ (innerCore_yields h rest)

/-- the token of a quoted string -/
def strTok (v : Str) : Tok := .node .string ('"' :: v ++ ['"']) [.node .inner v []]

/-- A quotable text between quotes is a `string`, whatever follows. -/
theorem string_yields {v : Str} (h : Quotable v = true) (a : Bool) (rest : Str) :
    Yields string a ('"' :: v ++ ['"']) [strTok v] rest := by
  refine Yields.compound _ _ (Yields.altRight (Fails.seqLeft (Fails.lit (by decide) _ _ _)) ?_)
  have h1 : Yields (lit c!"\"" : P) false ['"'] [] ((v ++ ['"']) ++ rest) := Yields.lit _ _ _
  have h2 : Yields (inner ~ₚ lit c!"\"") false (v ++ ['"']) ([.node .inner v []] ++ []) rest :=
    Yields.seq (s := v) (s' := ['"']) (by simpa using inner_yields h rest) (Yields.lit _ _ _)
  exact Yields.seq h1 h2

theorem string_fails {c : Char} {r : Str} (h1 : c ≠ '"') (h2 : c ≠ '\'') (a : Bool) : Fails string a (c :: r) :=
  Fails.compound _ (Fails.alt (Fails.seqLeft (Fails.lit (Ne.symm h2) _ _ _)) (Fails.seqLeft (Fails.lit (Ne.symm h1) _ _ _)))

end Gr
end OCA
