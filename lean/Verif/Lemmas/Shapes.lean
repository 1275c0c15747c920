import Verif.Lemmas.Emits
/-!
# The shapes of the tokens of words, names, strings and values
-/
namespace OCA
open Peg
namespace Gr
variable {b : Bool} {U : Uni} {a : Bool}

/-! ## Words -/

theorem cls_emits (f : Char → Bool) : Emits b (cls f : P) a (fun ts u => ts = [] ∧ ∃ c, u = [c] ∧ f c = true) := by
  intro i o h _
  cases i with
  | nil => cases h
  | cons c r =>
    simp only [Peg.cls] at h
    split at h
    next hc => injection h with h; subst h; exact ⟨rfl, c, rfl, hc⟩
    · cases h

theorem clsStar_emits (f : Char → Bool) : Emits b (cls f : P)*ₚ a (fun ts u => ts = [] ∧ ∀ c ∈ u, f c = true) := by
  intro i o h _
  refine star_rec (P := fun _ o => o.ts = [] ∧ ∀ c ∈ o.u, f c = true) (fun _ _ => ⟨rfl, by simp⟩) ?_ i o h
  intro i o o' e1 _ _ ih
  obtain ⟨h1, c, h2, h3⟩ := cls_emits (b := true) f _ _ e1 (by simp)
  refine ⟨by simp [h1, ih.1], ?_⟩
  simp only [h2]
  intro d hd
  rcases List.mem_cons.1 hd with rfl | hd
  · exact h3
  · exact ih.2 d hd

theorem clsPlus_emits (f : Char → Bool) : Emits b (cls f : P)+ₚ a (fun ts u => ts = [] ∧ u ≠ [] ∧ ∀ c ∈ u, f c = true) := by
  refine ((cls_emits f).seq (clsStar_emits f)).mono ?_
  rintro _ _ ⟨_, _, _, _, rfl, rfl, ⟨rfl, c, rfl, hc⟩, rfl, h⟩
  refine ⟨rfl, by simp, fun d hd => ?_⟩
  rcases List.mem_cons.1 hd with rfl | hd
  · exact hc
  · exact h d hd

/-- an attribute name -/
theorem attrKey_emits : Emits b attrKey a (fun ts u => ts = [.node .attrKey u []] ∧ IsKey u) := by
  refine (Emits.compound (a := a) _ (clsPlus_emits isAttrKeyChar)).mono ?_
  rintro _ u ⟨_, rfl, rfl, h1, h2⟩
  exact ⟨rfl, h1, fun c hc => (attrKeyChar_eq c).symm.trans (h2 c hc)⟩

theorem propKey_emits : Emits b propKey a (fun ts u => ts = [.node .propKey u []]) := by
  refine (Emits.compound (a := a) _ (clsPlus_emits isPropKeyChar)).mono ?_
  rintro _ u ⟨_, rfl, rfl, h1, h2⟩
  rfl

/-- a language -/
theorem lang_emits : Emits b lang a (fun ts u => ts = [.node .lang u []] ∧ IsLang u) := by
  refine (Emits.compound (a := a) (Q := fun ts u => ts = [] ∧ IsLang u) _ ?_).mono ?_
  · refine ((cls_emits Char.isAlpha).seq ((cls_emits Char.isAlpha).seq (Emits.opt (Q := fun ts u => ts = [] ∧
      (u = [] ∨ ∃ c d, u = ['-', c, d] ∧ c.isAlpha = true ∧ d.isAlpha = true)) ?_ ⟨rfl, .inl rfl⟩))).mono ?_
    · intro i o h hb
      obtain ⟨o1, o2, e1, e2, rfl⟩ := seq_some h
      obtain ⟨o3, o4, e3, e4, rfl⟩ := seq_some e2
      obtain ⟨h3, c, h3', hc⟩ := cls_emits (b := true) Char.isAlpha _ _ e3 (by simp)
      obtain ⟨h4, d, h4', hd⟩ := cls_emits (b := true) Char.isAlpha _ _ e4 (by simp)
      exact ⟨by simp [quiet e1, h3, h4], .inr ⟨c, d, by simp [lit_u e1, h3', h4'], hc, hd⟩⟩
    · rintro _ _ ⟨_, _, _, _, rfl, rfl, ⟨rfl, c, rfl, hc⟩, _, _, _, _, rfl, rfl, ⟨rfl, d, rfl, hd⟩, rfl, h⟩
      refine ⟨rfl, ?_⟩
      rcases h with rfl | ⟨e, f, rfl, he, hf⟩
      · exact ⟨hc, hd⟩
      · exact ⟨hc, hd, rfl, he, hf⟩
  · rintro _ _ ⟨_, rfl, rfl, h⟩
    exact ⟨rfl, h⟩

/-- a plain character -/
theorem char_emits : Emits b (char U) a (fun ts u => Toks (fun t => t.rule = .char) ts ∧ (a = false → ts ≠ []) ∧
    ∃ c, u = [c] ∧ isChar U c = true) := by
  intro i o h _
  obtain ⟨o', e, rfl⟩ := normal_some h
  have hu : ∃ c, o'.u = [c] ∧ isChar U c = true := by
    rcases alt_some e with e | ⟨-, e⟩
    · obtain ⟨-, c, h1, h2⟩ := cls_emits (b := true) _ _ _ e (by simp)
      exact ⟨c, h1, by simp [isChar, h2]⟩
    rcases alt_some e with e | ⟨-, e⟩
    · obtain ⟨-, c, h1, h2⟩ := cls_emits (b := true) _ _ _ e (by simp)
      exact ⟨c, h1, by simp [isChar, h2]⟩
    rcases alt_some e with e | ⟨-, e⟩
    · exact ⟨_, lit_u e, by simp [isChar]⟩
    rcases alt_some e with e | ⟨-, e⟩
    · exact ⟨_, lit_u e, by simp [isChar]⟩
    rcases alt_some e with e | ⟨-, e⟩
    · exact ⟨_, lit_u e, by simp [isChar]⟩
    rcases alt_some e with e | ⟨-, e⟩
    · exact ⟨_, lit_u e, by simp [isChar]⟩
    rcases alt_some e with e | ⟨-, e⟩
    · exact ⟨_, lit_u e, by simp [isChar]⟩
    · obtain ⟨o2, e2, he⟩ := normal_some e
      obtain ⟨-, c, h1, h2⟩ := cls_emits (b := true) _ _ _ e2 (by simp)
      exact ⟨c, by rw [he]; cases a <;> exact h1, by simp [isChar, h2]⟩
  cases a with
  | false => exact ⟨Toks.one rfl, fun _ => by simp, by simpa using hu⟩
  | true =>
    have := quiet (p := char U) h
    exact ⟨by rw [this]; exact Toks.nil, (fun h => nomatch h), by simpa using hu⟩

theorem word_emits : Emits b (char U)+ₚ a (fun ts u => Toks (fun t => t.rule = .char) ts ∧ (a = false → ts ≠ []) ∧ IsWord U u) := by
  have hs : Emits b (char U)*ₚ a (fun ts u => Toks (fun t => t.rule = .char) ts ∧ ∀ c ∈ u, isChar U c = true) := by
    intro i o h hb
    refine star_rec (P := fun _ o => Toks (fun t => t.rule = Rule.char) o.ts ∧ ∀ c ∈ o.u, isChar U c = true) (fun _ _ => ⟨Toks.nil, by simp⟩) ?_ i o h
    intro i o o' e1 _ _ ih
    obtain ⟨h1, -, c, h2, h3⟩ := char_emits (b := true) _ _ e1 (by simp)
    refine ⟨h1.append ih.1, ?_⟩
    simp only [h2]
    intro d hd
    rcases List.mem_cons.1 hd with rfl | hd
    · exact h3
    · exact ih.2 d hd
  refine (char_emits.seq hs).mono ?_
  rintro _ _ ⟨_, _, _, _, rfl, rfl, ⟨h1, h2, c, rfl, h3⟩, h4, h5⟩
  refine ⟨h1.append h4, fun ha => by simp [h2 ha], by simp, fun d hd => ?_⟩
  rcases List.mem_cons.1 hd with rfl | hd
  · exact h3
  · exact h5 d hd

/-! ## Strings -/

instance innerCore_quiet (q : Char) (p : P) [Quiet p true] : Quiet (innerCore q p) true := by unfold innerCore; infer_instance

theorem innerBody_true (k : Rule) (q : Char) (p : P) (i : Str) : innerBody k q p true i = innerCore q p true i := by
  simp only [innerBody, atomic, innerCore, if_true]
  cases (((plainChar q)*ₚ ~ₚ (escape ~ₚ p)?ₚ : P) true i) <;> rfl

theorem innerFixN_quiet (k : Rule) (q : Char) (n : Nat) : Quiet (fixN (innerBody k q) n) true := by
  induction n with
  | zero => exact ⟨fun i o h => by cases h⟩
  | succ n ih =>
    refine ⟨fun i o h => ?_⟩
    change innerBody k q _ true i = some o at h
    rw [innerBody_true] at h
    exact quiet h

instance : Quiet inner true := ⟨fun i o h => (innerFixN_quiet _ _ _).quiet i o h⟩
instance : Quiet singleQuotedInner true := ⟨fun i o h => (innerFixN_quiet _ _ _).quiet i o h⟩

theorem inner_emits : Emits b inner false (fun ts u => ts = [.node .inner u []]) := by
  rw [inner_eq]
  refine (Emits.atomic (Q := fun ts _ => ts = []) _ (Emits.quiet _ _ _)).mono ?_
  rintro _ _ ⟨_, rfl, rfl⟩; rfl

theorem singleQuotedInner_emits : Emits b singleQuotedInner false (fun ts u => ts = [.node .singleQuotedInner u []]) := by
  rw [singleQuotedInner_eq]
  refine (Emits.atomic (Q := fun ts _ => ts = []) _ (Emits.quiet _ _ _)).mono ?_
  rintro _ _ ⟨_, rfl, rfl⟩; rfl

theorem plainStar_u {q : Char} {i : Str} {o : Out Rule} (h : (plainChar q)*ₚ a i = some o) :
    ∀ c ∈ o.u, c ≠ '\\' ∧ c ≠ q ∧ c ≠ '\x00' ∧ c ≠ '\x1f' := by
  refine star_rec (P := fun _ o => ∀ c ∈ o.u, c ≠ '\\' ∧ c ≠ q ∧ c ≠ '\x00' ∧ c ≠ '\x1f') (fun _ _ => by simp) ?_ i o h
  intro i o o' e1 _ _ ih
  obtain ⟨o1, o2, h1, h2, rfl⟩ := seq_some e1
  obtain ⟨hn, rfl⟩ := neg_some h1
  obtain ⟨-, c, hu, -⟩ := cls_emits (b := true) _ _ _ h2 (by simp)
  have hg := good _ _ _ _ h2
  rw [hu] at hg
  simp only [List.singleton_append] at hg
  simp only [List.nil_append, hu, List.singleton_append]
  intro d hd
  rcases List.mem_cons.1 hd with rfl | hd
  · rw [hg] at hn
    refine ⟨?_, ?_, ?_, ?_⟩
    · rintro rfl; by_cases hq : q = '\\' <;> simp [alt, lit, stripPrefix, hq] at hn
    · rintro rfl; simp [alt, lit, stripPrefix] at hn
    · rintro rfl; by_cases hq : q = '\x00' <;> simp [alt, lit, stripPrefix, hq] at hn
    · rintro rfl; by_cases hq : q = '\x1f' <;> simp [alt, lit, stripPrefix, hq] at hn
  · exact ih d hd

theorem Quotable.plainAppend {x y : Str} (hx : ∀ c ∈ x, c ≠ '\\' ∧ c ≠ '"' ∧ c ≠ '\x00' ∧ c ≠ '\x1f') (hy : Quotable y = true) :
    Quotable (x ++ y) = true := by
  induction x with
  | nil => exact hy
  | cons c x ih =>
    have := hx c (.head _)
    rw [List.cons_append, Quotable.plain this.1]
    simp only [ne_eq, this.2.1, not_false_eq_true, this.2.2.1, this.2.2.2, and_self, decide_true, Bool.true_and]
    exact ih fun d hd => hx d (.tail _ hd)

/-- What stands between double quotes can be put between double quotes again. -/
theorem innerCore_quotable : ∀ (n : Nat) (i : Str) (o : Out Rule), i.length ≤ n → innerCore '"' inner true i = some o →
    (∃ r, o.r = '"' :: r) → Quotable o.u = true := by
  intro n
  induction n with
  | zero =>
    intro i o hn h hr
    have hg := good (innerCore '"' inner) (h := ⟨by unfold innerCore; exact good _⟩) _ _ _ h
    obtain ⟨r, hr⟩ := hr
    rw [hr] at hg
    rw [hg] at hn
    simp at hn
  | succ n ih =>
    intro i o hn h hr
    obtain ⟨o1, o2, h1, h2, rfl⟩ := seq_some h
    have hp : ∀ c ∈ o1.u, c ≠ '\\' ∧ c ≠ '"' ∧ c ≠ '\x00' ∧ c ≠ '\x1f' := plainStar_u h1
    refine Quotable.plainAppend hp ?_
    rcases opt_some h2 with h2 | ⟨-, rfl⟩
    · obtain ⟨o3, o4, h3, h4, rfl⟩ := seq_some h2
      have hl1 := (good ((plainChar '"')*ₚ)).le h1
      -- the escape starts with a backslash
      have hb : ∃ j, o1.r = '\\' :: j := by
        obtain ⟨o', e, -⟩ := atomic_some h3
        obtain ⟨o5, o6, e1, -, -⟩ := seq_some e
        have := good _ _ _ _ e1
        rw [lit_u e1] at this
        exact ⟨_, this⟩
      obtain ⟨j, hj⟩ := hb
      obtain ⟨x, y, he, hxy, hcase⟩ := escape_some j
      rw [hj, he] at h3
      injection h3 with h3
      subst h3
      rw [inner_eq] at h4
      rw [innerBody_true] at h4
      have hly : y.length ≤ n := by
        rw [hj] at hl1
        simp only [List.length_cons, hxy, List.length_append] at hl1 hn
        omega
      have hq := ih y o4 hly h4 hr
      have hgy := good (innerCore '"' inner) (h := ⟨by unfold innerCore; exact good _⟩) _ _ _ h4
      dsimp only at hgy hr
      show Quotable ('\\' :: x ++ o4.u) = true
      rcases hcase with rfl | rfl | rfl | hx
      · rw [List.cons_append, Quotable.eq_def]; simpa using hq
      · rw [List.cons_append, Quotable.eq_def]
        simp only [if_true, List.singleton_append]
        rw [if_neg (by decide), Quotable.plain (by decide)]
        simpa using hq
      · rw [List.cons_append, Quotable.eq_def]; simpa using hq
      · have hx' : ∀ c ∈ x, c ≠ '\\' ∧ c ≠ '"' ∧ c ≠ '\x00' ∧ c ≠ '\x1f' := fun c hc =>
          ⟨(hx c hc).2.2.1, (hx c hc).1, (hx c hc).2.2.2.1, (hx c hc).2.2.2.2⟩
        cases x with
        | cons e x =>
          have := Quotable.plainAppend hx' hq
          have hd := hx e (.head _)
          rw [List.cons_append, List.cons_append, Quotable.eq_def]
          simp only [if_true]
          rw [if_neg (by simp [hd.1, hd.2.2.1])]
          exact this
        | nil =>
          -- then neither a quote nor a backslash follows
          obtain ⟨r, hr⟩ := hr
          rw [List.nil_append] at hxy
          subst hxy
          cases hu : o4.u with
          | nil =>
            rw [hu, hr] at hgy
            rw [hgy] at he
            have : escape true ('\\' :: '"' :: r) = some ⟨[], ['\\', '"'], r⟩ := by
              simp [escape, atomic, seq, opt, alt, lit, stripPrefix]
            rw [List.nil_append, this] at he
            simp at he
          | cons d v =>
            rw [hu] at hgy
            have hd1 : d ≠ '"' := by
              rintro rfl
              have : escape true ('\\' :: ('"' :: v ++ o4.r)) = some ⟨[], ['\\', '"'], v ++ o4.r⟩ := by
                simp [escape, atomic, seq, opt, alt, lit, stripPrefix]
              rw [hgy, this] at he
              simp at he
            have hd2 : d ≠ '\\' := by
              rintro rfl
              have : escape true ('\\' :: ('\\' :: v ++ o4.r)) = some ⟨[], ['\\', '\\'], v ++ o4.r⟩ := by
                simp [escape, atomic, seq, opt, alt, lit, stripPrefix]
              rw [hgy, this] at he
              simp at he
            rw [List.singleton_append, Quotable.eq_def]
            simp only [if_true]
            rw [if_neg (by simp [hd1, hd2]), ← hu]
            exact hq
    · rfl

/-- What stands between single quotes can be put between double quotes if it has no double quote. -/
theorem singleCore_quotable : ∀ (n : Nat) (i : Str) (o : Out Rule), i.length ≤ n → innerCore '\'' singleQuotedInner true i = some o →
    (∃ r, o.r = '\'' :: r) → '"' ∉ o.u → Quotable o.u = true := by
  intro n
  induction n with
  | zero =>
    intro i o hn h hr
    have hg := good (innerCore '\'' singleQuotedInner) (h := ⟨by unfold innerCore; exact good _⟩) _ _ _ h
    obtain ⟨r, hr⟩ := hr
    rw [hr] at hg
    rw [hg] at hn
    simp at hn
  | succ n ih =>
    intro i o hn h hr hnq
    obtain ⟨o1, o2, h1, h2, rfl⟩ := seq_some h
    have hp : ∀ c ∈ o1.u, c ≠ '\\' ∧ c ≠ '"' ∧ c ≠ '\x00' ∧ c ≠ '\x1f' := fun c hc =>
      ⟨(plainStar_u h1 c hc).1, fun e => hnq (List.mem_append_left _ (e ▸ hc)), (plainStar_u h1 c hc).2.2⟩
    refine Quotable.plainAppend hp ?_
    have hnq2 : '"' ∉ o2.u := fun m => hnq (List.mem_append_right _ m)
    rcases opt_some h2 with h2 | ⟨-, rfl⟩
    · obtain ⟨o3, o4, h3, h4, rfl⟩ := seq_some h2
      have hl1 := (good ((plainChar '\'')*ₚ)).le h1
      have hb : ∃ j, o1.r = '\\' :: j := by
        obtain ⟨o', e, -⟩ := atomic_some h3
        obtain ⟨o5, o6, e1, -, -⟩ := seq_some e
        have := good _ _ _ _ e1
        rw [lit_u e1] at this
        exact ⟨_, this⟩
      obtain ⟨j, hj⟩ := hb
      obtain ⟨x, y, he, hxy, hcase⟩ := escape_some j
      rw [hj, he] at h3
      injection h3 with h3
      subst h3
      rw [singleQuotedInner_eq] at h4
      rw [innerBody_true] at h4
      have hly : y.length ≤ n := by
        rw [hj] at hl1
        simp only [List.length_cons, hxy, List.length_append] at hl1 hn
        omega
      dsimp only at hr hnq2
      have hnq4 : '"' ∉ o4.u := fun m => hnq2 (List.mem_append_right _ m)
      have hq := ih y o4 hly h4 hr hnq4
      have hgy := good (innerCore '\'' singleQuotedInner) (h := ⟨by unfold innerCore; exact good _⟩) _ _ _ h4
      dsimp only at hgy
      show Quotable ('\\' :: x ++ o4.u) = true
      rcases hcase with rfl | rfl | rfl | hx
      · exact absurd (by simp) hnq2
      · rw [List.cons_append, Quotable.eq_def]
        simp only [if_true, List.singleton_append]
        rw [if_neg (by decide), Quotable.plain (by decide)]
        simpa using hq
      · rw [List.cons_append, Quotable.eq_def]; simpa using hq
      · have hx' : ∀ c ∈ x, c ≠ '\\' ∧ c ≠ '"' ∧ c ≠ '\x00' ∧ c ≠ '\x1f' := fun c hc =>
          ⟨(hx c hc).2.2.1, (hx c hc).1, (hx c hc).2.2.2.1, (hx c hc).2.2.2.2⟩
        cases x with
        | cons e x =>
          have := Quotable.plainAppend hx' hq
          have hd := hx e (.head _)
          rw [List.cons_append, List.cons_append, Quotable.eq_def]
          simp only [if_true]
          rw [if_neg (by simp [hd.1, hd.2.2.1])]
          exact this
        | nil =>
          obtain ⟨r, hr⟩ := hr
          rw [List.nil_append] at hxy
          subst hxy
          cases hu : o4.u with
          | nil =>
            rw [hu, hr] at hgy
            rw [hgy] at he
            have : escape true ('\\' :: '\'' :: r) = some ⟨[], ['\\', '\''], r⟩ := by
              simp [escape, atomic, seq, opt, alt, lit, stripPrefix]
            rw [List.nil_append, this] at he
            simp at he
          | cons d v =>
            rw [hu] at hgy hnq4
            have hd1 : d ≠ '"' := by rintro rfl; exact hnq4 (.head _)
            have hd2 : d ≠ '\\' := by
              rintro rfl
              have : escape true ('\\' :: ('\\' :: v ++ o4.r)) = some ⟨[], ['\\', '\\'], v ++ o4.r⟩ := by
                simp [escape, atomic, seq, opt, alt, lit, stripPrefix]
              rw [hgy, this] at he
              simp at he
            rw [List.singleton_append, Quotable.eq_def]
            simp only [if_true]
            rw [if_neg (by simp [hd1, hd2]), ← hu]
            exact hq
    · rfl

/-- A text that can be put between double quotes at least if it has no double quote. -/
def Clean (v : Str) : Prop := '"' ∉ v → Quotable v = true

/-- A quoted value: `u` is the text in the file, `v` the value. -/
def IsString (u v : Str) : Prop := (u = '"' :: v ++ ['"'] ∧ Quotable v = true) ∨ (u = '\'' :: v ++ ['\''] ∧ Clean v)

theorem IsString.clean {u v : Str} (h : IsString u v) : Clean v := by
  rcases h with ⟨-, h⟩ | ⟨-, h⟩
  · exact fun _ => h
  · exact h

/-- a quoted string -/
theorem string_emits : Emits b string a (fun ts u => ∃ k v, ts = [.node .string u [.node k v []]] ∧ IsString u v) := by
  refine (Emits.compound (a := a) (Q := fun ts u => ∃ k v, ts = [.node k v []] ∧ IsString u v) _ (Emits.alt ?_ ?_)).mono ?_
  · intro i o h hb
    obtain ⟨o1, o2, e1, e2, rfl⟩ := seq_some h
    obtain ⟨o3, o4, e3, e4, rfl⟩ := seq_some e2
    refine ⟨.singleQuotedInner, o3.u, by simp [quiet e1, quiet e4, singleQuotedInner_emits (b := true) _ _ e3 (by simp)], .inr ⟨?_, ?_⟩⟩
    · simp [lit_u e1, lit_u e4]
    · rw [singleQuotedInner_eq] at e3
      obtain ⟨o5, e5, he⟩ := atomic_some e3
      have hg := good _ _ _ _ e4
      rw [lit_u e4] at hg
      have hr : o5.r = o3.r := by rw [he]; rfl
      have hu : o5.u = o3.u := by rw [he]; rfl
      rw [← hu]
      exact singleCore_quotable _ _ o5 (Nat.le_refl _) e5 ⟨_, by rw [hr]; exact hg⟩
  · intro i o h hb
    obtain ⟨o1, o2, e1, e2, rfl⟩ := seq_some h
    obtain ⟨o3, o4, e3, e4, rfl⟩ := seq_some e2
    refine ⟨.inner, o3.u, by simp [quiet e1, quiet e4, inner_emits (b := true) _ _ e3 (by simp)], .inl ⟨?_, ?_⟩⟩
    · simp [lit_u e1, lit_u e4]
    · rw [inner_eq] at e3
      obtain ⟨o5, e5, he⟩ := atomic_some e3
      have hg := good _ _ _ _ e4
      rw [lit_u e4] at hg
      have hr : o5.r = o3.r := by rw [he]; rfl
      have hu : o5.u = o3.u := by rw [he]; rfl
      rw [← hu]
      exact innerCore_quotable _ _ o5 (Nat.le_refl _) e5 ⟨_, by rw [hr]; exact hg⟩
  · rintro _ _ ⟨_, rfl, k, v, rfl, h⟩
    exact ⟨k, v, rfl, h⟩

theorem isWord_quotable {v : Str} (h : IsWord U v) : Quotable v = true := by
  refine Quotable.of_plain fun c hc => ?_
  have := h.2 c hc
  refine ⟨?_, ?_, ?_, ?_⟩ <;>
    · rintro rfl
      rw [isChar_ascii U (by decide) (by decide)] at this
      cases this

/-- A value in the file: a word, or the inside of a quoted string. -/
def IsValue (U : Uni) (u v : Str) : Prop := (v = u ∧ IsWord U u) ∨ IsString u v

theorem IsValue.clean {u v : Str} (h : IsValue U u v) : Clean v := by
  rcases h with ⟨rfl, h⟩ | h
  · exact fun _ => isWord_quotable h
  · exact h.clean

/-- The tokens inside a value, `u` its text and `v` what it stands for. -/
def ValKids (ks : List Tok) (u v : Str) : Prop := ∀ r old, Ins.valueOf (.node r u []) ks old = .ok (.val v)

theorem valueOf_text (r : Rule) (u : Str) (ks ks' : List Tok) (old : NVal) :
    Ins.valueOf (.node r u ks') ks old = Ins.valueOf (.node r u []) ks old := by
  cases ks with
  | nil => rfl
  | cons k t => simp only [Ins.valueOf, Tree.text]

theorem string_valKids {k : Rule} {u v : Str} : ValKids [.node .string u [.node k v []]] u v := by
  intro r old
  simp [Ins.valueOf, Ins.lastText, Tree.rule, Tree.kids, Tree.text]

theorem words_valKids {ks : List Tok} {u : Str} {r : Rule} (hr : r ≠ .string) (h : Toks (fun t => t.rule = r) ks) (hn : ks ≠ []) : ValKids ks u u := by
  intro r' old
  cases ks with
  | nil => exact absurd rfl hn
  | cons k t =>
    have := h k (.head _)
    simp only [Ins.valueOf, this, Tree.text]

theorem value_emits : Emits b (value U) false (fun ts u => ∃ v, ValKids ts u v ∧ IsValue U u v) := by
  refine Emits.alt (string_emits.mono ?_) (word_emits.mono ?_)
  · rintro _ u ⟨k, v, rfl, h⟩
    exact ⟨v, string_valKids, .inr h⟩
  · rintro ts u ⟨h1, h2, h3⟩
    exact ⟨u, words_valKids (by decide) h1 (h2 rfl), .inl ⟨rfl, h3⟩⟩

theorem keyValue_emits : Emits b (keyValue U) a (fun ts u => ∃ ks v, ts = [.node .keyValue u ks] ∧ ValKids ks u v ∧ IsValue U u v) := by
  refine (Emits.compound (a := a) _ value_emits).mono ?_
  rintro _ u ⟨ks, rfl, v, h1, h2⟩
  exact ⟨ks, v, rfl, h1, h2⟩

/-- an unquoted unit value -/
theorem unitValue_emits : Emits b unitValue a (fun ts u => ∃ ks v, ts = [.node .unitValue u ks] ∧ ValKids ks u v ∧ (v = u ∨ IsString u v)) := by
  have hc : Emits b unitChar false (fun ts _ => ∃ u ks, ts = [.node .unitChar u ks]) :=
    (Emits.compound _ (Q := fun _ _ => True) (fun _ _ _ _ => trivial)).mono (by rintro _ _ ⟨ks, rfl, -⟩; exact ⟨_, _, rfl⟩)
  refine (Emits.compound (a := a) (Q := fun ts u => ∃ v, ValKids ts u v ∧ (v = u ∨ IsString u v)) _ (Emits.alt (string_emits.mono ?_) ?_)).mono ?_
  · rintro _ u ⟨k, v, rfl, h⟩
    exact ⟨v, string_valKids, .inr h⟩
  · have := Emits.plusOne (S := fun t => t.rule = .unitChar) (hc.mono (by rintro _ _ ⟨_, _, rfl⟩; exact Toks.one rfl)) hc
    refine this.mono ?_
    rintro _ u ⟨h, t1, t2, u1, rfl, _, _, rfl⟩
    exact ⟨u, words_valKids (by decide) h (by simp), .inl rfl⟩
  · rintro _ u ⟨ks, rfl, v, h1, h2⟩
    exact ⟨ks, v, rfl, h1, h2⟩

end Gr
end OCA
