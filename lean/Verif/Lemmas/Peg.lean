import Verif.Model.Peg
import Verif.Lemmas.Str
/-!
# Reasoning about parsing expressions
-/
namespace OCA
namespace Peg
variable {R : Type}

/-! ## What a parser consumes -/

/-- What a parser consumes and what it leaves make up its input. -/
def Good (p : Peg R) : Prop := ∀ a i o, p a i = some o → i = o.u ++ o.r

theorem Good.le {p : Peg R} (h : Good p) {a i o} (e : p a i = some o) : o.r.length ≤ i.length := by
  have := h a i o e
  rw [this]; simp

/-- A parser that consumes something whenever it succeeds. -/
def Strict (p : Peg R) : Prop := ∀ a i o, p a i = some o → o.r.length < i.length

theorem stripPrefix_some {s i r : Str} (h : stripPrefix s i = some r) : i = s ++ r := by
  induction s generalizing i with
  | nil => simpa [stripPrefix] using h
  | cons c s ih =>
    cases i with
    | nil => cases h
    | cons d i =>
      simp only [stripPrefix] at h
      split at h
      · next e => subst e; rw [ih h]; rfl
      · cases h

theorem Good.lit (s : Str) : Good (lit s : Peg R) := by
  intro a i o h
  simp only [Peg.lit, Option.map_eq_some_iff] at h
  obtain ⟨r, h, rfl⟩ := h
  exact stripPrefix_some h

theorem Good.ilit (s : Str) : Good (ilit s : Peg R) := by
  induction s with
  | nil => intro a i o h; injection h with h; subst h; rfl
  | cons c s ih =>
    intro a i o h
    cases i with
    | nil => cases h
    | cons d i =>
      simp only [Peg.ilit] at h
      split at h
      · obtain ⟨o', h', rfl⟩ := Option.map_eq_some_iff.1 h
        rw [ih a i o' h']; rfl
      · cases h

theorem Good.cls (f : Char → Bool) : Good (cls f : Peg R) := by
  intro a i o h
  cases i with
  | nil => cases h
  | cons c i =>
    simp only [Peg.cls] at h
    split at h
    · injection h with h; subst h; rfl
    · cases h

theorem Good.eoi : Good (eoi : Peg R) := by
  intro a i o h
  cases i with
  | nil => injection h with h; subst h; rfl
  | cons c i => cases h

theorem seq_some {p q : Peg R} {a i o} (h : seq p q a i = some o) :
    ∃ o1 o2, p a i = some o1 ∧ q a o1.r = some o2 ∧ o = ⟨o1.ts ++ o2.ts, o1.u ++ o2.u, o2.r⟩ := by
  simp only [Peg.seq] at h
  split at h
  · cases h
  next o1 h1 =>
    split at h
    · cases h
    next o2 h2 => injection h with h; exact ⟨o1, o2, h1, h2, h.symm⟩

theorem Good.seq {p q : Peg R} (hp : Good p) (hq : Good q) : Good (seq p q) := by
  intro a i o h
  obtain ⟨o1, o2, h1, h2, rfl⟩ := seq_some h
  rw [hp _ _ _ h1, hq _ _ _ h2]; simp

theorem alt_some {p q : Peg R} {a i o} (h : alt p q a i = some o) :
    p a i = some o ∨ (p a i = none ∧ q a i = some o) := by
  simp only [Peg.alt] at h
  split at h
  next o' h' => injection h with h; subst h; exact .inl h'
  next h' => exact .inr ⟨h', h⟩

theorem Good.alt {p q : Peg R} (hp : Good p) (hq : Good q) : Good (alt p q) := by
  intro a i o h
  rcases alt_some h with h | ⟨-, h⟩
  · exact hp _ _ _ h
  · exact hq _ _ _ h

theorem opt_some {p : Peg R} {a i o} (h : opt p a i = some o) :
    p a i = some o ∨ (p a i = none ∧ o = ⟨[], [], i⟩) := by
  simp only [Peg.opt] at h
  split at h
  next o' h' => injection h with h; subst h; exact .inl h'
  next h' => injection h with h; exact .inr ⟨h', h.symm⟩

theorem Good.opt {p : Peg R} (hp : Good p) : Good (opt p) := by
  intro a i o h
  rcases opt_some h with h | ⟨-, rfl⟩
  · exact hp _ _ _ h
  · rfl

theorem neg_some {p : Peg R} {a i o} (h : neg p a i = some o) : p a i = none ∧ o = ⟨[], [], i⟩ := by
  simp only [Peg.neg] at h
  split at h
  · cases h
  next h' => injection h with h; exact ⟨h', h.symm⟩

theorem Good.neg (p : Peg R) : Good (neg p) := by
  intro a i o h
  obtain ⟨-, rfl⟩ := neg_some h
  rfl

/-! ## Repetition -/

/-- Enough iterations are enough. -/
theorem starN_stable (p : Peg R) (n m : Nat) (a : Bool) (i : Str) (hn : i.length ≤ n) (hm : i.length ≤ m) :
    starN p n a i = starN p m a i := by
  induction n generalizing m i with
  | zero =>
    have : i = [] := List.length_eq_zero_iff.1 (Nat.le_zero.1 hn)
    subst this
    cases m with
    | zero => rfl
    | succ m =>
      simp only [starN]
      cases p a [] with
      | none => rfl
      | some o => simp
  | succ n ih =>
    cases m with
    | zero =>
      have : i = [] := List.length_eq_zero_iff.1 (Nat.le_zero.1 hm)
      subst this
      simp only [starN]
      cases p a [] with
      | none => rfl
      | some o => simp
    | succ m =>
      simp only [starN]
      cases p a i with
      | none => rfl
      | some o =>
        dsimp only
        split
        · rw [ih m o.r (by omega) (by omega)]
        · rfl

/-- `p*` is `(p ~ p*)?`, as long as `p` consumes something. -/
theorem star_eq (p : Peg R) (a : Bool) (i : Str) :
    star p a i = (match p a i with
      | none => some ⟨[], [], i⟩
      | some o =>
        if o.r.length < i.length then
          match star p a o.r with
          | none => none
          | some o' => some ⟨o.ts ++ o'.ts, o.u ++ o'.u, o'.r⟩
        else some ⟨[], [], i⟩) := by
  unfold star
  rw [starN_stable p i.length (i.length + 1) a i (Nat.le_refl _) (by omega), starN]
  dsimp only
  cases p a i with
  | none => rfl
  | some o =>
    dsimp only
    split
    · rw [starN_stable p i.length o.r.length a o.r (by omega) (Nat.le_refl _)]
      rfl
    · rfl

/-- A repetition never fails. -/
theorem star_isSome (p : Peg R) (a : Bool) (i : Str) : ∃ o, star p a i = some o := by
  induction h : i.length using Nat.strongRecOn generalizing i with
  | _ n ih =>
    rw [star_eq]
    cases p a i with
    | none => exact ⟨_, rfl⟩
    | some o =>
      dsimp only
      split
      next hl =>
        obtain ⟨o', ho'⟩ := ih o.r.length (h ▸ hl) o.r rfl
        rw [ho']; exact ⟨_, rfl⟩
      · exact ⟨_, rfl⟩

/-- Induction over the iterations of a successful repetition. -/
theorem star_rec {p : Peg R} {a : Bool} {P : Str → Out R → Prop}
    (hnil : ∀ i, (p a i = none ∨ ∃ o, p a i = some o ∧ ¬ o.r.length < i.length) → P i ⟨[], [], i⟩)
    (hcons : ∀ i o o', p a i = some o → o.r.length < i.length → star p a o.r = some o' → P o.r o' →
      P i ⟨o.ts ++ o'.ts, o.u ++ o'.u, o'.r⟩)
    (i : Str) (o : Out R) (h : star p a i = some o) : P i o := by
  induction hl : i.length using Nat.strongRecOn generalizing i o with
  | _ n ih =>
    rw [star_eq] at h
    cases hp : p a i with
    | none => rw [hp] at h; injection h with h; subst h; exact hnil i (.inl hp)
    | some o1 =>
      rw [hp] at h
      dsimp only at h
      split at h
      next hlt =>
        obtain ⟨o2, ho2⟩ := star_isSome p a o1.r
        rw [ho2] at h
        injection h with h
        subst h
        exact hcons i o1 o2 hp hlt ho2 (ih _ (hl ▸ hlt) o1.r o2 ho2 rfl)
      next hlt => injection h with h; subst h; exact hnil i (.inr ⟨o1, hp, hlt⟩)

theorem Good.star {p : Peg R} (hp : Good p) : Good (star p) := by
  intro a i o h
  refine star_rec (P := fun i o => i = o.u ++ o.r) (fun i _ => rfl) ?_ i o h
  intro i o o' h1 _ _ h2
  rw [hp _ _ _ h1, h2]; simp

theorem Good.plus {p : Peg R} (hp : Good p) : Good (plus p) := hp.seq hp.star

theorem normal_some {k : R} {p : Peg R} {a i o} (h : normal k p a i = some o) :
    ∃ o', p a i = some o' ∧ o = if a then o' else ⟨[.node k o'.u o'.ts], o'.u, o'.r⟩ := by
  obtain ⟨o', h1, rfl⟩ := Option.map_eq_some_iff.1 h
  exact ⟨o', h1, rfl⟩

theorem atomic_some {k : R} {p : Peg R} {a i o} (h : atomic k p a i = some o) :
    ∃ o', p true i = some o' ∧ o = if a then o' else ⟨[.node k o'.u o'.ts], o'.u, o'.r⟩ := by
  obtain ⟨o', h1, rfl⟩ := Option.map_eq_some_iff.1 h
  exact ⟨o', h1, rfl⟩

theorem compound_some {k : R} {p : Peg R} {a i o} (h : compound k p a i = some o) :
    ∃ o', p false i = some o' ∧ o = ⟨[.node k o'.u o'.ts], o'.u, o'.r⟩ := by
  obtain ⟨o', h1, rfl⟩ := Option.map_eq_some_iff.1 h
  exact ⟨o', h1, rfl⟩

theorem Good.normal (k : R) {p : Peg R} (hp : Good p) : Good (normal k p) := by
  intro a i o h
  obtain ⟨o', h1, rfl⟩ := normal_some h
  have := hp _ _ _ h1
  cases a <;> exact this

theorem Good.atomic (k : R) {p : Peg R} (hp : Good p) : Good (atomic k p) := by
  intro a i o h
  obtain ⟨o', h1, rfl⟩ := atomic_some h
  have := hp _ _ _ h1
  cases a <;> exact this

theorem Good.compound (k : R) {p : Peg R} (hp : Good p) : Good (compound k p) := by
  intro a i o h
  obtain ⟨o', h1, rfl⟩ := compound_some h
  exact hp false i o' h1

theorem Good.fixN {f : Peg R → Peg R} (hf : ∀ p, Good p → Good (f p)) (n : Nat) : Good (fixN f n) := by
  induction n with
  | zero => intro a i o h; cases h
  | succ n ih => exact hf _ ih

theorem Good.fix {f : Peg R → Peg R} (hf : ∀ p, Good p → Good (f p)) : Good (fix f) :=
  fun a i o h => Good.fixN hf _ a i o h

/-! ## Recursion -/

/-- the two parsers agree on texts shorter than `n` -/
def Below (n : Nat) (p q : Peg R) : Prop := ∀ a i, i.length < n → p a i = q a i

theorem Below.refl (n : Nat) (p : Peg R) : Below n p p := fun _ _ _ => rfl

theorem Below.mono {n m : Nat} {p q : Peg R} (h : Below n p q) (hm : m ≤ n) : Below m p q :=
  fun a i hi => h a i (by omega)

/-- A body calls itself only on shorter texts. -/
def Guarded (f : Peg R → Peg R) : Prop := ∀ p q n, Good p → Good q → Below n p q → Below (n + 1) (f p) (f q)

theorem fixN_stable {f : Peg R → Peg R} (hf : Guarded f) (hg : ∀ p, Good p → Good (f p)) (n m k : Nat) (hn : k ≤ n)
    (hm : k ≤ m) : Below k (fixN f n) (fixN f m) := by
  induction k generalizing n m with
  | zero => intro a i hi; omega
  | succ k ih =>
    cases n with
    | zero => omega
    | succ n =>
      cases m with
      | zero => omega
      | succ m => exact hf _ _ k (Good.fixN hg n) (Good.fixN hg m) (ih n m (by omega) (by omega))

/-- a recursive rule is its body -/
theorem Guarded.fix_eq {f : Peg R → Peg R} (hf : Guarded f) (hg : ∀ p, Good p → Good (f p)) : fix f = f (fix f) := by
  funext a i
  have h1 : Below (i.length) (fix f) (fixN f i.length) := by
    intro b j hj
    show fixN f (j.length + 1) b j = _
    exact fixN_stable hf hg (j.length + 1) i.length (j.length + 1) (Nat.le_refl _) hj b j (Nat.lt_succ_self _)
  show f (fixN f i.length) a i = _
  exact (hf _ _ _ (Good.fix hg) (Good.fixN hg _) h1 a i (Nat.lt_succ_self _)).symm

section below
variable {n : Nat} {p p' q q' : Peg R}

theorem Below.seq (hp : Below n p p') (hq : Below n q q') (hg : Good p') : Below n (seq p q) (seq p' q') := by
  intro a i hi
  simp only [Peg.seq]
  rw [hp a i hi]
  cases h : p' a i with
  | none => rfl
  | some o => dsimp only; rw [hq a o.r (Nat.lt_of_le_of_lt (hg.le h) hi)]

/-- after something was consumed it is enough to agree on shorter texts -/
theorem Below.seqStrict (hs : Strict p) (hq : Below n q q') : Below (n + 1) (Peg.seq p q) (Peg.seq p q') := by
  intro a i hi
  simp only [Peg.seq]
  cases h : p a i with
  | none => rfl
  | some o => dsimp only; rw [hq a o.r (by have := hs a i o h; omega)]

theorem Below.alt (hp : Below n p p') (hq : Below n q q') : Below n (alt p q) (alt p' q') := by
  intro a i hi
  simp only [Peg.alt]
  rw [hp a i hi, hq a i hi]

theorem Below.opt (hp : Below n p p') : Below n (opt p) (opt p') := by
  intro a i hi
  simp only [Peg.opt]
  rw [hp a i hi]

theorem Below.star (hp : Below n p p') : Below n (star p) (star p') := by
  intro a i hi
  induction h : i.length using Nat.strongRecOn generalizing i with
  | _ k ih =>
    rw [star_eq, star_eq, hp a i hi]
    cases p' a i with
    | none => rfl
    | some o =>
      dsimp only
      split
      next hl => rw [ih o.r.length (h ▸ hl) o.r (by omega) rfl]
      · rfl

theorem Below.plus (hp : Below n p p') (hg : Good p') : Below n (plus p) (plus p') := hp.seq hp.star hg

theorem Below.normal (k : R) (hp : Below n p p') : Below n (normal k p) (normal k p') := by
  intro a i hi
  simp only [Peg.normal]
  rw [hp a i hi]

theorem Below.atomic (k : R) (hp : Below n p p') : Below n (atomic k p) (atomic k p') := by
  intro a i hi
  simp only [Peg.atomic]
  rw [hp true i hi]

theorem Below.compound (k : R) (hp : Below n p p') : Below n (compound k p) (compound k p') := by
  intro a i hi
  simp only [Peg.compound]
  rw [hp false i hi]

end below

/-! ## Consuming something -/

theorem Strict.cls (f : Char → Bool) : Strict (cls f : Peg R) := by
  intro a i o h
  cases i with
  | nil => cases h
  | cons c i =>
    simp only [Peg.cls] at h
    split at h
    · injection h with h; subst h; simp
    · cases h

theorem Strict.lit (c : Char) (s : Str) : Strict (lit (c :: s) : Peg R) := by
  intro a i o h
  have := Good.lit (c :: s) a i o h
  simp only [Peg.lit, Option.map_eq_some_iff] at h
  obtain ⟨r, h, rfl⟩ := h
  rw [this]
  simp only [List.length_append, List.length_cons]
  omega

theorem Strict.ilit (c : Char) (s : Str) : Strict (ilit (c :: s) : Peg R) := by
  intro a i o h
  cases i with
  | nil => cases h
  | cons d i =>
    simp only [Peg.ilit] at h
    split at h
    · obtain ⟨o', h', rfl⟩ := Option.map_eq_some_iff.1 h
      have := (Good.ilit s).le h'
      simp only [List.length_cons]; omega
    · cases h

theorem Strict.seqLeft {p q : Peg R} (hp : Strict p) (hq : Good q) : Strict (seq p q) := by
  intro a i o h
  obtain ⟨o1, o2, h1, h2, rfl⟩ := seq_some h
  have := hp _ _ _ h1
  have := hq.le h2
  dsimp only
  omega

theorem Strict.seqRight {p q : Peg R} (hp : Good p) (hq : Strict q) : Strict (seq p q) := by
  intro a i o h
  obtain ⟨o1, o2, h1, h2, rfl⟩ := seq_some h
  have := hp.le h1
  have := hq _ _ _ h2
  dsimp only
  omega

theorem Strict.alt {p q : Peg R} (hp : Strict p) (hq : Strict q) : Strict (alt p q) := by
  intro a i o h
  rcases alt_some h with h | ⟨-, h⟩
  · exact hp _ _ _ h
  · exact hq _ _ _ h

theorem Strict.plus {p : Peg R} (hp : Strict p) (hg : Good p) : Strict (plus p) := hp.seqLeft hg.star

theorem Strict.normal (k : R) {p : Peg R} (hp : Strict p) : Strict (normal k p) := by
  intro a i o h
  obtain ⟨o', h1, rfl⟩ := normal_some h
  have := hp _ _ _ h1
  cases a <;> exact this

theorem Strict.atomic (k : R) {p : Peg R} (hp : Strict p) : Strict (atomic k p) := by
  intro a i o h
  obtain ⟨o', h1, rfl⟩ := atomic_some h
  have := hp _ _ _ h1
  cases a <;> exact this

theorem Strict.compound (k : R) {p : Peg R} (hp : Strict p) : Strict (compound k p) := by
  intro a i o h
  obtain ⟨o', h1, rfl⟩ := compound_some h
  exact hp false i o' h1

/-! ## Parsing a given text -/

/-- `p` consumes exactly `s` in front of `rest` and emits `ts`. -/
def Yields (p : Peg R) (a : Bool) (s : Str) (ts : List (Tree R)) (rest : Str) : Prop :=
  p a (s ++ rest) = some ⟨ts, s, rest⟩

/-- `p` fails -/
def Fails (p : Peg R) (a : Bool) (i : Str) : Prop := p a i = none

section yields
variable {p q : Peg R} {a : Bool} {s s' rest : Str} {ts ts' : List (Tree R)}

theorem Yields.lit (s : Str) (a : Bool) (rest : Str) : Yields (Peg.lit s : Peg R) a s [] rest := by
  unfold Yields Peg.lit
  have : stripPrefix s (s ++ rest) = some rest := by
    induction s with
    | nil => rfl
    | cons c s ih => simpa [stripPrefix] using ih
  rw [this]; rfl

theorem Yields.ilit {k s : Str} (h : k.map asciiLower = s.map asciiLower) (a : Bool) (rest : Str) :
    Yields (Peg.ilit k : Peg R) a s [] rest := by
  induction k generalizing s with
  | nil => cases s with
    | nil => rfl
    | cons d s => cases h
  | cons c k ih => cases s with
    | nil => cases h
    | cons d s =>
      simp only [List.map_cons, List.cons.injEq] at h
      have := ih h.2
      unfold Yields at this ⊢
      simp only [List.cons_append, Peg.ilit, h.1, if_true, this]
      rfl

theorem Yields.cls {f : Char → Bool} {c : Char} (h : f c = true) (a : Bool) (rest : Str) :
    Yields (Peg.cls f : Peg R) a [c] [] rest := by
  unfold Yields
  simp [Peg.cls, h]

theorem Yields.seq (hp : Yields p a s ts (s' ++ rest)) (hq : Yields q a s' ts' rest) :
    Yields (Peg.seq p q) a (s ++ s') (ts ++ ts') rest := by
  unfold Yields at *
  simp only [Peg.seq, List.append_assoc, hp, hq]

theorem Yields.altLeft (hp : Yields p a s ts rest) : Yields (Peg.alt p q) a s ts rest := by
  unfold Yields at *
  simp only [Peg.alt, hp]

theorem Yields.altRight (hp : Fails p a (s ++ rest)) (hq : Yields q a s ts rest) :
    Yields (Peg.alt p q) a s ts rest := by
  unfold Yields Fails at *
  simp only [Peg.alt, hp, hq]

theorem Yields.optSome (hp : Yields p a s ts rest) : Yields (Peg.opt p) a s ts rest := by
  unfold Yields at *
  simp only [Peg.opt, hp]

theorem Yields.optNone (hp : Fails p a rest) : Yields (Peg.opt p) a [] [] rest := by
  unfold Yields Fails at *
  simp only [Peg.opt, List.nil_append, hp]

theorem Yields.neg (hp : Fails p a rest) : Yields (Peg.neg p) a [] [] rest := by
  unfold Yields Fails at *
  simp only [Peg.neg, List.nil_append, hp]

theorem Yields.starNil (hp : Fails p a rest) : Yields (Peg.star p) a [] [] rest := by
  unfold Yields Fails at *
  rw [List.nil_append, star_eq, hp]

theorem Yields.starCons (hs : s ≠ []) (hp : Yields p a s ts (s' ++ rest)) (hq : Yields (Peg.star p) a s' ts' rest) :
    Yields (Peg.star p) a (s ++ s') (ts ++ ts') rest := by
  unfold Yields at *
  rw [star_eq, List.append_assoc, hp]
  dsimp only
  rw [if_pos, hq]
  have : 0 < s.length := List.length_pos_iff.2 hs
  simp only [List.length_append]; omega

theorem Yields.plus (hp : Yields p a s ts (s' ++ rest)) (hq : Yields (Peg.star p) a s' ts' rest) :
    Yields (Peg.plus p) a (s ++ s') (ts ++ ts') rest := hp.seq hq

/-- one iteration only -/
theorem Yields.plusOne (hp : Yields p a s ts rest) (hf : Fails p a rest) : Yields (Peg.plus p) a s ts rest := by
  have := Yields.plus (s' := []) (ts' := []) hp (Yields.starNil hf)
  simpa using this

theorem Yields.normal (k : R) (hp : Yields p false s ts rest) :
    Yields (Peg.normal k p) false s [.node k s ts] rest := by
  unfold Yields at *
  simp [Peg.normal, hp]

theorem Yields.normalIn (k : R) (hp : Yields p true s ts rest) : Yields (Peg.normal k p) true s ts rest := by
  unfold Yields at *
  simp [Peg.normal, hp]

theorem Yields.atomic (k : R) (hp : Yields p true s ts rest) :
    Yields (Peg.atomic k p) false s [.node k s ts] rest := by
  unfold Yields at *
  simp [Peg.atomic, hp]

theorem Yields.atomicIn (k : R) (hp : Yields p true s ts rest) : Yields (Peg.atomic k p) true s ts rest := by
  unfold Yields at *
  simp [Peg.atomic, hp]

theorem Yields.compound (k : R) (a : Bool) (hp : Yields p false s ts rest) :
    Yields (Peg.compound k p) a s [.node k s ts] rest := by
  unfold Yields at *
  simp [Peg.compound, hp]

theorem Fails.seqLeft {i : Str} (h : Fails p a i) : Fails (Peg.seq p q) a i := by
  unfold Fails at *
  simp [Peg.seq, h]

theorem Fails.seqRight (h : Yields p a s ts rest) (hq : Fails q a rest) : Fails (Peg.seq p q) a (s ++ rest) := by
  unfold Fails Yields at *
  simp [Peg.seq, h, hq]

theorem Fails.alt {i : Str} (hp : Fails p a i) (hq : Fails q a i) : Fails (Peg.alt p q) a i := by
  unfold Fails at *
  simp [Peg.alt, hp, hq]

theorem Fails.plus {i : Str} (h : Fails p a i) : Fails (Peg.plus p) a i := Fails.seqLeft h

theorem Fails.normal (k : R) {i : Str} (h : Fails p a i) : Fails (Peg.normal k p) a i := by
  unfold Fails at *
  simp [Peg.normal, h]

theorem Fails.atomic (k : R) {i : Str} (h : Fails p true i) : Fails (Peg.atomic k p) a i := by
  unfold Fails at *
  simp [Peg.atomic, h]

theorem Fails.compound (k : R) {i : Str} (h : Fails p false i) : Fails (Peg.compound k p) a i := by
  unfold Fails at *
  simp [Peg.compound, h]

theorem Fails.neg (h : Yields p a s ts rest) : Fails (Peg.neg p) a (s ++ rest) := by
  unfold Fails Yields at *
  simp [Peg.neg, h]

theorem Fails.cls {f : Char → Bool} {c : Char} (h : f c = false) (a : Bool) (r : Str) :
    Fails (Peg.cls f : Peg R) a (c :: r) := by
  unfold Fails
  simp [Peg.cls, h]

theorem Fails.clsNil (f : Char → Bool) (a : Bool) : Fails (Peg.cls f : Peg R) a [] := rfl

theorem Fails.litNil (c : Char) (s : Str) (a : Bool) : Fails (Peg.lit (c :: s) : Peg R) a [] := rfl

theorem Fails.lit {c d : Char} (h : c ≠ d) (s : Str) (a : Bool) (r : Str) :
    Fails (Peg.lit (c :: s) : Peg R) a (d :: r) := by
  unfold Fails
  simp [Peg.lit, stripPrefix, h]

theorem Fails.ilit {c d : Char} (h : asciiLower c ≠ asciiLower d) (s : Str) (a : Bool) (r : Str) :
    Fails (Peg.ilit (c :: s) : Peg R) a (d :: r) := by
  unfold Fails
  simp [Peg.ilit, h]

theorem Fails.ilitNil (c : Char) (s : Str) (a : Bool) : Fails (Peg.ilit (c :: s) : Peg R) a [] := rfl

/-- A run of characters of a class, up to a character outside it. -/
theorem Yields.clsStar {f : Char → Bool} (hs : ∀ c ∈ s, f c = true) (hr : ∀ c r, rest = c :: r → f c = false) :
    Yields (Peg.star (Peg.cls f) : Peg R) a s [] rest := by
  induction s with
  | nil =>
    apply Yields.starNil
    cases rest with
    | nil => exact Fails.clsNil f a
    | cons c r => exact Fails.cls (hr c r rfl) a r
  | cons c s ih =>
    have h1 := Yields.cls (R := R) (hs c (.head _)) a (s ++ rest)
    have := Yields.starCons (by simp) h1 (ih fun d hd => hs d (.tail _ hd))
    simpa using this

theorem Yields.clsPlus {f : Char → Bool} (hn : s ≠ []) (hs : ∀ c ∈ s, f c = true)
    (hr : ∀ c r, rest = c :: r → f c = false) : Yields (Peg.plus (Peg.cls f) : Peg R) a s [] rest := by
  cases s with
  | nil => exact absurd rfl hn
  | cons c s =>
    have h1 := Yields.cls (R := R) (hs c (.head _)) a (s ++ rest)
    have := Yields.plus h1 (Yields.clsStar (a := a) (fun d hd => hs d (.tail _ hd)) hr)
    simpa using this

end yields
end Peg
end OCA
