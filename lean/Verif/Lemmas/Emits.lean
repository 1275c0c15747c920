import Verif.Lemmas.Grammar
import Verif.Lemmas.ParseLines
import Verif.Model.Instructions
/-!
# What the parser can emit, for every text

`Emits b p a Q`: whenever `p` succeeds, the tokens and the consumed text satisfy `Q`. `b = false` restricts this to
consumed texts without a backslash, in which no line is continued.
-/
namespace OCA
open Peg

namespace Peg
variable {R : Type}

/-- emits no tokens -/
class Quiet (p : Peg R) (a : Bool) : Prop where
  quiet : ∀ i o, p a i = some o → o.ts = []

section
variable {p q : Peg R} {a : Bool}
theorem quiet {i o} (h : p a i = some o) [hq : Quiet p a] : o.ts = [] := hq.quiet i o h

instance (s : Str) : Quiet (lit s : Peg R) a := ⟨fun i o h => by
  simp only [Peg.lit, Option.map_eq_some_iff] at h; obtain ⟨r, -, rfl⟩ := h; rfl⟩
instance (s : Str) : Quiet (ilit s : Peg R) a := ⟨by
  intro i o h
  cases s with
  | nil => injection h with h; subst h; rfl
  | cons c s =>
    cases i with
    | nil => cases h
    | cons d r =>
      simp only [Peg.ilit] at h
      split at h
      · simp only [Option.map_eq_some_iff] at h; obtain ⟨r, -, rfl⟩ := h; rfl
      · cases h⟩
instance (f : Char → Bool) : Quiet (cls f : Peg R) a := ⟨by
  intro i o h
  cases i with
  | nil => cases h
  | cons c r =>
    simp only [Peg.cls] at h
    split at h
    · injection h with h; subst h; rfl
    · cases h⟩
instance : Quiet (any : Peg R) a := inferInstanceAs (Quiet (cls _) a)
instance : Quiet (eoi : Peg R) a := ⟨by
  intro i o h
  cases i with
  | nil => injection h with h; subst h; rfl
  | cons => cases h⟩
instance : Quiet (neg p) a := ⟨fun i o h => by obtain ⟨-, rfl⟩ := neg_some h; rfl⟩
instance [hp : Quiet p a] [hq : Quiet q a] : Quiet (seq p q) a := ⟨fun i o h => by
  obtain ⟨o1, o2, h1, h2, rfl⟩ := seq_some h
  simp [hp.quiet _ _ h1, hq.quiet _ _ h2]⟩
instance [hp : Quiet p a] [hq : Quiet q a] : Quiet (alt p q) a := ⟨fun i o h => by
  rcases alt_some h with h | ⟨-, h⟩
  · exact hp.quiet _ _ h
  · exact hq.quiet _ _ h⟩
instance [hp : Quiet p a] : Quiet (opt p) a := ⟨fun i o h => by
  rcases opt_some h with h | ⟨-, rfl⟩
  · exact hp.quiet _ _ h
  · rfl⟩
instance [hp : Quiet p a] : Quiet (star p) a := ⟨fun i o h => by
  refine star_rec (P := fun _ o => o.ts = []) (fun _ _ => rfl) ?_ i o h
  intro i o o' h1 _ _ h2
  simp [hp.quiet _ _ h1, h2]⟩
instance [hp : Quiet p a] : Quiet (plus p) a := inferInstanceAs (Quiet (seq p (star p)) a)
instance (k : R) [hp : Quiet p true] : Quiet (normal k p) true := ⟨fun i o h => by
  obtain ⟨o', h1, rfl⟩ := normal_some h
  simpa using hp.quiet _ _ h1⟩
instance (k : R) [hp : Quiet p true] : Quiet (atomic k p) true := ⟨fun i o h => by
  obtain ⟨o', h1, rfl⟩ := atomic_some h
  simpa using hp.quiet _ _ h1⟩
end

/-- whenever `p` succeeds, tokens and consumed text satisfy `Q` -/
def Emits (b : Bool) (p : Peg R) (a : Bool) (Q : List (Tree R) → Str → Prop) : Prop :=
  ∀ i o, p a i = some o → (b = false → '\\' ∉ o.u) → Q o.ts o.u

section
variable {b : Bool} {p q : Peg R} {a : Bool} {Q Q1 Q2 : List (Tree R) → Str → Prop}

theorem Emits.mono (h : Emits b p a Q1) (hq : ∀ ts u, Q1 ts u → Q ts u) : Emits b p a Q :=
  fun i o h1 h2 => hq _ _ (h i o h1 h2)

theorem Emits.quiet (b : Bool) (p : Peg R) (a : Bool) [Quiet p a] : Emits b p a (fun ts _ => ts = []) :=
  fun _ _ h _ => Peg.quiet h

theorem Emits.seq (h1 : Emits b p a Q1) (h2 : Emits b q a Q2) :
    Emits b (p ~ₚ q) a (fun ts u => ∃ t1 t2 u1 u2, ts = t1 ++ t2 ∧ u = u1 ++ u2 ∧ Q1 t1 u1 ∧ Q2 t2 u2) := by
  intro i o h hb
  obtain ⟨o1, o2, e1, e2, rfl⟩ := seq_some h
  refine ⟨_, _, _, _, rfl, rfl, h1 _ _ e1 fun e m => hb e ?_, h2 _ _ e2 fun e m => hb e ?_⟩ <;> simp [m]

/-- nothing emitted before -/
theorem Emits.after [Quiet p a] (h2 : Emits b q a (fun ts _ => Q2 ts [])) : Emits b (p ~ₚ q) a (fun ts _ => Q2 ts []) := by
  intro i o h hb
  obtain ⟨o1, o2, e1, e2, rfl⟩ := seq_some h
  have := h2 _ _ e2 fun e m => hb e (by simp [m])
  simpa [Peg.quiet e1] using this

theorem Emits.alt (h1 : Emits b p a Q) (h2 : Emits b q a Q) : Emits b (p |ₚ q) a Q := by
  intro i o h hb
  rcases alt_some h with h | ⟨-, h⟩
  · exact h1 _ _ h hb
  · exact h2 _ _ h hb

theorem Emits.opt (h1 : Emits b p a Q) (h0 : Q [] []) : Emits b (p ?ₚ) a Q := by
  intro i o h hb
  rcases opt_some h with h | ⟨-, rfl⟩
  · exact h1 _ _ h hb
  · exact h0

/-- every token satisfies `S` -/
def Toks (S : Tree R → Prop) (ts : List (Tree R)) : Prop := ∀ t ∈ ts, S t

theorem Toks.nil {S : Tree R → Prop} : Toks S [] := fun _ h => by cases h
theorem Toks.append {S : Tree R → Prop} {l l' : List (Tree R)} (h : Toks S l) (h' : Toks S l') : Toks S (l ++ l') :=
  fun t ht => (List.mem_append.1 ht).elim (h t) (h' t)
theorem Toks.one {S : Tree R → Prop} {t : Tree R} (h : S t) : Toks S [t] := fun x hx => by
  rcases List.mem_singleton.1 hx with rfl; exact h
theorem Toks.mono {S S' : Tree R → Prop} {l : List (Tree R)} (h : Toks S l) (hs : ∀ t, S t → S' t) : Toks S' l :=
  fun t ht => hs t (h t ht)

theorem Emits.star {S : Tree R → Prop} (h1 : Emits b p a (fun ts _ => Toks S ts)) : Emits b p*ₚ a (fun ts _ => Toks S ts) := by
  intro i o h hb
  have : (b = false → '\\' ∉ o.u) → Toks S o.ts := by
    refine star_rec (P := fun _ o => (b = false → '\\' ∉ o.u) → Toks S o.ts) (fun _ _ _ => Toks.nil) ?_ i o h
    intro i o o' e1 _ _ ih hb
    exact (h1 _ _ e1 fun e m => hb e (by simp [m])).append (ih fun e m => hb e (by simp [m]))
  exact this hb

theorem Emits.plus {S : Tree R → Prop} (h1 : Emits b p a (fun ts _ => Toks S ts)) : Emits b p+ₚ a (fun ts _ => Toks S ts) := by
  refine (h1.seq h1.star).mono ?_
  rintro _ _ ⟨t1, t2, _, _, rfl, -, h1, h2⟩
  exact h1.append h2

/-- at least one iteration -/
theorem Emits.plusOne {S : Tree R → Prop} (h1 : Emits b p a (fun ts _ => Toks S ts)) (h2 : Emits b p a Q2) :
    Emits b p+ₚ a (fun ts _ => Toks S ts ∧ ∃ t1 t2 u1, ts = t1 ++ t2 ∧ Q2 t1 u1) := by
  intro i o h hb
  refine ⟨Emits.plus h1 i o h hb, ?_⟩
  obtain ⟨o1, o2, e1, e2, rfl⟩ := seq_some h
  exact ⟨_, _, _, rfl, h2 _ _ e1 fun e m => hb e (by simp [m])⟩

theorem Emits.seqToks {S : Tree R → Prop} (h1 : Emits b p a (fun ts _ => Toks S ts)) (h2 : Emits b q a (fun ts _ => Toks S ts)) :
    Emits b (p ~ₚ q) a (fun ts _ => Toks S ts) := by
  refine (h1.seq h2).mono ?_
  rintro _ _ ⟨t1, t2, _, _, rfl, -, h1, h2⟩
  exact h1.append h2

theorem Emits.optToks {S : Tree R → Prop} (h1 : Emits b p a (fun ts _ => Toks S ts)) : Emits b (p ?ₚ) a (fun ts _ => Toks S ts) :=
  h1.opt Toks.nil

theorem Emits.quietToks {S : Tree R → Prop} [Quiet p a] : Emits b p a (fun ts _ => Toks S ts) :=
  (Emits.quiet b p a).mono fun _ _ h => h ▸ Toks.nil

theorem Emits.normal (k : R) (h1 : Emits b p false Q) :
    Emits b (normal k p) false (fun ts u => ∃ ks, ts = [.node k u ks] ∧ Q ks u) := by
  intro i o h hb
  obtain ⟨o', e, rfl⟩ := normal_some h
  exact ⟨_, rfl, h1 _ _ e hb⟩

theorem Emits.atomic (k : R) (h1 : Emits b p true Q) :
    Emits b (atomic k p) false (fun ts u => ∃ ks, ts = [.node k u ks] ∧ Q ks u) := by
  intro i o h hb
  obtain ⟨o', e, rfl⟩ := atomic_some h
  exact ⟨_, rfl, h1 _ _ e hb⟩

theorem Emits.compound (k : R) (h1 : Emits b p false Q) :
    Emits b (compound k p) a (fun ts u => ∃ ks, ts = [.node k u ks] ∧ Q ks u) := by
  intro i o h hb
  obtain ⟨o', e, rfl⟩ := compound_some h
  exact ⟨_, rfl, h1 _ _ e hb⟩

theorem Emits.fixN {f : Peg R → Peg R} (hf : ∀ p, (∀ a, Emits b p a Q) → ∀ a, Emits b (f p) a Q) (n : Nat) (a : Bool) :
    Emits b (fixN f n) a Q := by
  induction n generalizing a with
  | zero => intro i o h; cases h
  | succ n ih => exact hf _ ih a

theorem Emits.fix {f : Peg R → Peg R} (hf : ∀ p, (∀ a, Emits b p a Q) → ∀ a, Emits b (f p) a Q) (a : Bool) :
    Emits b (fix f) a Q := fun i o h => Emits.fixN hf _ a i o h
end

end Peg

namespace Gr
variable {b : Bool} (U : Uni)

instance {a} : Quiet newline a := by unfold newline; infer_instance
instance {a} : Quiet alpha a := by unfold alpha; infer_instance
instance {a} : Quiet hexDigit a := by unfold hexDigit; infer_instance
instance {a} : Quiet ws a := by unfold ws; infer_instance
instance : Quiet comment true := by unfold comment; infer_instance
instance : Quiet commentLine true := by unfold commentLine; infer_instance
instance : Quiet emptyLine true := by unfold emptyLine; infer_instance
instance : Quiet unicode true := by unfold unicode; infer_instance
instance : Quiet escape true := by unfold escape; infer_instance
instance {a} (q : Char) : Quiet (plainChar q) a := by unfold plainChar; infer_instance
instance {a} : Quiet lineContinuation a := by unfold lineContinuation; infer_instance
instance : Quiet argWs true := by unfold argWs; infer_instance
instance {a} : Quiet spaces a := by unfold spaces; infer_instance
instance : Quiet (scripts U) true := by unfold scripts; infer_instance
instance : Quiet (char U) true := by unfold char; infer_instance
instance : Quiet attrsKey true := by unfold attrsKey; infer_instance
instance : Quiet propsKey true := by unfold propsKey; infer_instance

/-- tokens of comments and empty lines between continued lines -/
def IsNoise (t : Tok) : Prop := (t.rule = .comment ∨ t.rule = .emptyLine) ∧ t.kids = []

/-- a text that was emitted by a continued line -/
def Noise (b : Bool) (t : Tok) : Prop := b = true ∧ IsNoise t

theorem comment_emits : Emits b comment false (fun ts u => ∃ ks, ts = [.node .comment u ks] ∧ ks = []) :=
  Emits.atomic _ (Emits.quiet _ _ _)

theorem emptyLine_emits : Emits b emptyLine false (fun ts u => ∃ ks, ts = [.node .emptyLine u ks] ∧ ks = []) :=
  Emits.atomic _ (Emits.quiet _ _ _)

theorem commentLine_emits : Emits b commentLine false (fun ts _ => Toks IsNoise ts) :=
  .seqToks .quietToks (.seqToks (comment_emits.mono (by rintro _ _ ⟨_, rfl, rfl⟩; exact .one ⟨.inl rfl, rfl⟩)) .quietToks)

theorem lit_u {s i : Str} {a : Bool} {o : Out Rule} (h : lit s a i = some o) : o.u = s := by
  simp only [Peg.lit, Option.map_eq_some_iff] at h
  obtain ⟨r, -, rfl⟩ := h
  rfl

theorem lineContinuation_u {a : Bool} {i : Str} {o : Out Rule} (h : lineContinuation a i = some o) : '\\' ∈ o.u := by
  obtain ⟨o1, o2, h1, -, rfl⟩ := seq_some h
  simp [lit_u h1]

theorem argWs_emits : Emits b argWs false (fun ts _ => Toks (Noise b) ts) := by
  refine Emits.plus (Emits.alt .quietToks ?_)
  intro i o h hb
  obtain ⟨o1, o2, h1, h2, rfl⟩ := seq_some h
  have hb' : b = true := by
    cases b with
    | true => rfl
    | false => exact absurd (List.mem_append_left _ (lineContinuation_u h1)) (hb rfl)
  subst hb'
  simp only [Peg.quiet h1, List.nil_append]
  refine (Emits.star (b := true) (S := IsNoise) (Emits.alt commentLine_emits ?_) _ _ h2 (by simp)).mono fun t ht => ⟨rfl, ht⟩
  exact emptyLine_emits.mono (by rintro _ _ ⟨_, rfl, rfl⟩; exact .one ⟨.inr rfl, rfl⟩)

theorem argWsOpt_emits : Emits b (argWs ?ₚ) false (fun ts _ => Toks (Noise b) ts) := argWs_emits.optToks
theorem argWsStar_emits : Emits b (argWs *ₚ) false (fun ts _ => Toks (Noise b) ts) := argWs_emits.star
theorem attrsKey_emits : Emits b attrsKey false (fun ts _ => Toks (Noise b) ts) := .seqToks .quietToks argWs_emits
theorem propsKey_emits : Emits b propsKey false (fun ts _ => Toks (Noise b) ts) := .seqToks .quietToks argWs_emits

end Gr
end OCA
