import Verif.Lemmas.Shapes
/-!
# The shapes of the pairs, lists and objects of a command, for every text
-/
namespace OCA
open Peg
namespace Gr
variable {b : Bool} {U : Uni} {a : Bool}

/-- a token that is read as a pair satisfying `A` -/
def PairTok (U : Uni) (A : Str × NVal → Prop) (t : Tok) : Prop := ∃ kv, Ins.keyPairOf U t = .ok kv ∧ A kv

/-- `name=value` with a name and a text -/
def TextPair (p : Str × NVal) : Prop := IsKey p.1 ∧ ∃ s, p.2 = .val s ∧ Clean s

/-- what a comment or empty line inside a continued line is read as -/
def NoisePair (b : Bool) (p : Str × NVal) : Prop := b = true ∧ p = ([], .val [])

theorem noise_pair {A : Str × NVal → Prop} {t : Tok} (h : Noise b t) (hA : A ([], .val [])) : PairTok U A t := by
  obtain ⟨-, -, hk⟩ := h
  cases t with
  | node r u ks =>
    cases hk
    exact ⟨_, rfl, hA⟩

/-! ## `name=value` -/

/-- the shape of `key ~ arg_ws? ~ "=" ~ arg_ws? ~ value` inside an atomic rule -/
theorem keyEq_emits {key val : P} {Q1 Q2 : List Tok → Str → Prop} (h1 : Emits b key true Q1) (h2 : Emits b val true Q2) :
    Emits b (key ~ₚ argWs ?ₚ ~ₚ lit c!"=" ~ₚ argWs ?ₚ ~ₚ val) true
      (fun ts _ => ∃ t1 t2 u1 u2, ts = t1 ++ t2 ∧ Q1 t1 u1 ∧ Q2 t2 u2) := by
  intro i o h hb
  obtain ⟨o1, o2, e1, e2, rfl⟩ := seq_some h
  obtain ⟨o3, o4, e3, e4, rfl⟩ := seq_some e2
  obtain ⟨o5, o6, e5, e6, rfl⟩ := seq_some e4
  obtain ⟨o7, o8, e7, e8, rfl⟩ := seq_some e6
  exact ⟨o1.ts, o8.ts, o1.u, o8.u, by simp [quiet e3, quiet e5, quiet e7], h1 _ _ e1 fun e m => hb e (by simp [m]),
    h2 _ _ e8 fun e m => hb e (by simp [m])⟩

theorem keyPair_emits : Emits b (keyPair U) false (fun ts _ => ∃ t, ts = [t] ∧ PairTok U TextPair t) := by
  refine (Emits.atomic _ (keyEq_emits attrKey_emits keyValue_emits)).mono ?_
  rintro _ _ ⟨_, rfl, _, _, k, u, rfl, ⟨rfl, hk⟩, ks, v, rfl, h1, h2⟩
  refine ⟨_, rfl, (k, .val v), ?_, hk, v, rfl, h2.clean⟩
  simp only [List.singleton_append, Ins.keyPairOf, Ins.keyPairLoop]
  rw [valueOf_text, h1 _ _]

/-- a pair whose value is not restricted -/
def AnyPair (p : Str × NVal) : Prop := IsKey p.1 ∧ ∃ s, p.2 = .val s

theorem unitKeyPair_emits : Emits b unitKeyPair false (fun ts _ => ∃ t, ts = [t] ∧ PairTok U AnyPair t) := by
  refine (Emits.atomic _ (keyEq_emits attrKey_emits unitValue_emits)).mono ?_
  rintro _ _ ⟨_, rfl, _, _, k, u, rfl, ⟨rfl, hk⟩, ks, v, rfl, h1, h2⟩
  refine ⟨_, rfl, (k, .val v), ?_, hk, v, rfl⟩
  simp only [List.singleton_append, Ins.keyPairOf, Ins.keyPairLoop]
  rw [valueOf_text, h1 _ _]

/-- the tokens of a list of pairs: pairs satisfying `A`, at least one, and noise -/
def PairToks (U : Uni) (b : Bool) (A : Str × NVal → Prop) (ks : List Tok) : Prop :=
  Toks (PairTok U fun p => A p ∨ NoisePair b p) ks ∧ ∃ t ∈ ks, PairTok U A t

theorem pairs_emits {pair : P} {A : Str × NVal → Prop} (h : Emits b pair false (fun ts _ => ∃ t, ts = [t] ∧ PairTok U A t)) :
    Emits b (argWs ?ₚ ~ₚ pair ~ₚ argWs ?ₚ)+ₚ false (fun ts _ => PairToks U b A ts) := by
  have hn : Emits b (argWs ?ₚ) false (fun ts _ => Toks (PairTok U fun p => A p ∨ NoisePair b p) ts) :=
    argWsOpt_emits.mono fun _ _ h => h.mono fun t ht => noise_pair ht (.inr ⟨ht.1, rfl⟩)
  have h1 : Emits b (argWs ?ₚ ~ₚ pair ~ₚ argWs ?ₚ) false (fun ts _ => Toks (PairTok U fun p => A p ∨ NoisePair b p) ts) := by
    refine .seqToks hn (.seqToks (h.mono ?_) hn)
    rintro _ _ ⟨t, rfl, kv, h1, h2⟩
    exact .one ⟨kv, h1, .inl h2⟩
  have h2 : Emits b (argWs ?ₚ ~ₚ pair ~ₚ argWs ?ₚ) false (fun ts _ => ∃ t ∈ ts, PairTok U A t) := by
    refine (hn.seq (h.seq hn)).mono ?_
    rintro _ _ ⟨_, _, _, _, rfl, -, -, _, _, _, _, rfl, -, ⟨t, rfl, ht⟩, -⟩
    exact ⟨t, by simp, ht⟩
  refine (Emits.plusOne h1 h2).mono ?_
  rintro _ _ ⟨h, t1, t2, u1, rfl, t, ht, h2⟩
  exact ⟨h, t, List.mem_append_left _ ht, h2⟩

theorem attrKeyPairs_emits : Emits b (attrKeyPairs U) false (fun ts _ => ∃ u ks, ts = [.node .attrKeyPairs u ks] ∧ PairToks U b TextPair ks) :=
  (Emits.compound _ (pairs_emits keyPair_emits)).mono (by rintro _ u ⟨ks, rfl, h⟩; exact ⟨_, ks, rfl, h⟩)

theorem propKeyPairs_emits : Emits b (propKeyPairs U) false (fun ts _ => ∃ u ks, ts = [.node .propKeyPairs u ks] ∧ PairToks U b TextPair ks) :=
  (Emits.compound _ (pairs_emits keyPair_emits)).mono (by rintro _ u ⟨ks, rfl, h⟩; exact ⟨_, ks, rfl, h⟩)

theorem unitAttrKeyPairs_emits : Emits b unitAttrKeyPairs false (fun ts _ => ∃ u ks, ts = [.node .unitAttrKeyPairs u ks] ∧ PairToks U b AnyPair ks) :=
  (Emits.compound _ (pairs_emits unitKeyPair_emits)).mono (by rintro _ u ⟨ks, rfl, h⟩; exact ⟨_, ks, rfl, h⟩)

/-! ## Distinct names -/

theorem imInsert_keys {V : Type} (k : Str) (v : V) (l : List (Str × V)) :
    (imInsert k v l).map (·.1) = if k ∈ l.map (·.1) then l.map (·.1) else l.map (·.1) ++ [k] := by
  induction l with
  | nil => rfl
  | cons p t ih =>
    obtain ⟨k', v'⟩ := p
    by_cases h : k = k'
    · subst h; simp [imInsert]
    · simp only [imInsert, h, if_false, List.map_cons, ih]
      by_cases hm : k ∈ t.map (·.1)
      · rw [if_pos hm, if_pos (by simp [hm])]
      · rw [if_neg hm, if_neg (by simp only [List.mem_cons, not_or]; exact ⟨h, hm⟩)]
        rfl

theorem imInsert_nodup {V : Type} (k : Str) (v : V) (l : List (Str × V)) (h : (l.map (·.1)).Nodup) : ((imInsert k v l).map (·.1)).Nodup := by
  rw [imInsert_keys]
  split
  · exact h
  · next hm =>
    refine List.nodup_append.2 ⟨h, by simp, ?_⟩
    intro x hx y hy
    rcases List.mem_singleton.1 hy with rfl
    rintro rfl
    exact hm hx

theorem mem_imInsert {V : Type} {k : Str} {v : V} {l : List (Str × V)} {p : Str × V} (h : p ∈ imInsert k v l) : p = (k, v) ∨ p ∈ l := by
  induction l with
  | nil => exact .inl (List.mem_singleton.1 h)
  | cons q t ih =>
    obtain ⟨k', v'⟩ := q
    by_cases hk : k = k'
    · subst hk
      simp only [imInsert, if_true, List.mem_cons] at h
      rcases h with h | h
      · exact .inl h
      · exact .inr (.tail _ h)
    · simp only [imInsert, hk, if_false, List.mem_cons] at h
      rcases h with h | h
      · exact .inr (h ▸ .head _)
      · rcases ih h with h | h
        · exact .inl h
        · exact .inr (.tail _ h)

theorem imInsert_has {V : Type} (k : Str) (v : V) (l : List (Str × V)) : k ∈ (imInsert k v l).map (·.1) := by
  rw [imInsert_keys]
  split
  · assumption
  · simp

theorem imInsert_keeps {V : Type} {k k' : Str} {v : V} {l : List (Str × V)} (h : k' ∈ l.map (·.1)) : k' ∈ (imInsert k v l).map (·.1) := by
  rw [imInsert_keys]
  split
  · exact h
  · exact List.mem_append_left _ h

theorem imInsert_ne {V : Type} (k : Str) (v : V) (l : List (Str × V)) : imInsert k v l ≠ [] := by
  intro h
  have := imInsert_has k v l
  rw [h] at this
  cases this

/-- Reading a list of pairs. -/
theorem keyPairsObj_list {A : Str × NVal → Prop} {ks : List Tok} (h : Toks (PairTok U A) ks) (acc : List (Str × NVal)) (ha : ∀ p ∈ acc, A p)
    (hd : (acc.map (·.1)).Nodup) :
    ∃ l, Ins.keyPairsObj U ks acc = .ok l ∧ (∀ p ∈ l, A p) ∧ (l.map (·.1)).Nodup ∧ (∀ k ∈ acc.map (·.1), k ∈ l.map (·.1)) ∧
      ∀ t ∈ ks, ∀ kv, Ins.keyPairOf U t = .ok kv → kv.1 ∈ l.map (·.1) := by
  induction ks generalizing acc with
  | nil => exact ⟨acc, rfl, ha, hd, fun _ h => h, by simp⟩
  | cons t r ih =>
    obtain ⟨kv, h1, h2⟩ := h t (.head _)
    obtain ⟨l, e, hl1, hl2, hl3, hl4⟩ := ih (fun x hx => h x (.tail _ hx)) (imInsert kv.1 kv.2 acc)
      (fun p hp => by
        rcases mem_imInsert hp with rfl | hp
        · exact h2
        · exact ha p hp) (imInsert_nodup _ _ _ hd)
    refine ⟨l, by simp only [Ins.keyPairsObj, h1]; exact e, hl1, hl2, fun k hk => hl3 k (imInsert_keeps hk), ?_⟩
    intro x hx kv' hkv
    rcases List.mem_cons.1 hx with rfl | hx
    · rw [h1] at hkv
      injection hkv with hkv
      subst hkv
      exact hl3 _ (imInsert_has _ _ _)
    · exact hl4 x hx kv' hkv

/-- a list of pairs as it stands in a command: at least one proper pair, distinct names -/
structure PairList (b : Bool) (A : Str × NVal → Prop) (l : List (Str × NVal)) : Prop where
  ok : ∀ p ∈ l, A p ∨ NoisePair b p
  distinct : (l.map (·.1)).Nodup
  ne : ∃ n, IsKey n ∧ n ∈ l.map (·.1)

theorem keyPairsObj_pairs {A : Str × NVal → Prop} (hA : ∀ p, A p → IsKey p.1) {ks : List Tok} (h : PairToks U b A ks) :
    ∃ l, Ins.keyPairsObj U ks [] = .ok l ∧ PairList b A l := by
  obtain ⟨l, e, h1, h2, -, h3⟩ := keyPairsObj_list h.1 [] (by simp) (by simp)
  obtain ⟨t, ht, kv, hkv, hA'⟩ := h.2
  exact ⟨l, e, h1, h2, kv.1, hA _ hA', h3 t ht kv hkv⟩

/-! ## Entry codes -/

/-- the texts of a list of codes -/
def IsCodes (v : NVal) : Prop := ∃ l : List Str, v = .arr (l.map .val) ∧ ∀ s ∈ l, Clean s

theorem codesOf_strings {ks : List Tok} (h : Toks (fun t => ∃ k u v, t = .node .string u [.node k v []] ∧ Clean v) ks) :
    ∃ l : List Str, Ins.codesOf ks = .ok (l.map .val) ∧ ∀ s ∈ l, Clean s := by
  induction ks with
  | nil => exact ⟨[], rfl, by simp⟩
  | cons t r ih =>
    obtain ⟨l, e, hl⟩ := ih fun x hx => h x (.tail _ hx)
    obtain ⟨k, u, v, rfl, hv⟩ := h t (.head _)
    refine ⟨v :: l, ?_, by simpa using ⟨hv, hl⟩⟩
    simp [Ins.codesOf, Tree.rule, Ins.lastText, Tree.kids, Tree.text, e]

theorem stringTok_emits : Emits b string a (fun ts _ => Toks (fun t => ∃ k u v, t = .node .string u [.node k v []] ∧ Clean v) ts) :=
  string_emits.mono (by rintro _ _ ⟨k, v, rfl, h⟩; exact .one ⟨k, _, v, rfl, h.clean⟩)

theorem entryCodeList_emits : Emits b entryCodeList false (fun ts _ => ∃ u ks, ts = [.node .entryCodeList u ks] ∧
    ∃ l : List Str, Ins.codesOf ks = .ok (l.map .val) ∧ ∀ s ∈ l, Clean s) := by
  refine (Emits.normal _ (Emits.alt .quietToks (.seqToks .quietToks (.seqToks stringTok_emits (.seqToks (.star (.seqToks .quietToks
    (.seqToks .quietToks stringTok_emits))) .quietToks))))).mono ?_
  rintro _ u ⟨ks, rfl, h⟩
  exact ⟨u, ks, rfl, codesOf_strings h⟩

/-- a group of codes -/
def GroupPair (p : Str × NVal) : Prop := Clean p.1 ∧ IsCodes p.2

theorem entryCodeGroupKey_emits : Emits b entryCodeGroupKey a (fun ts _ => ∃ u v, (∃ k s, ts = [.node .entryCodeGroupKey u [.node .string s [.node k v []]]]) ∧ Clean v) :=
  (Emits.compound _ string_emits).mono (by rintro _ _ ⟨_, rfl, k, v, rfl, h⟩; exact ⟨_, v, ⟨k, _, rfl⟩, h.clean⟩)

theorem entryCodeKeyValuePair_emits : Emits b entryCodeKeyValuePair false (fun ts _ => ∃ t, ts = [t] ∧ PairTok U GroupPair t) := by
  refine (Emits.normal _ (entryCodeGroupKey_emits.seq (Emits.seq (Emits.quiet _ _ _) (Emits.seq (Emits.quiet _ _ _) entryCodeList_emits)))).mono ?_
  rintro _ _ ⟨_, rfl, _, _, _, _, rfl, -, ⟨u, v, ⟨k, s, rfl⟩, hv⟩, _, _, _, _, rfl, -, rfl, _, _, _, _, rfl, -, rfl, u', ks, rfl, l, e, hl⟩
  refine ⟨_, rfl, (v, .arr (l.map .val)), ?_, hv, l, rfl, hl⟩
  simp [Ins.keyPairOf, Ins.keyPairLoop, Ins.innerString, Tree.rule, Ins.lastText, Tree.kids, Tree.text, e]

theorem entryCodeObject_emits : Emits b entryCodeObject false (fun ts _ => ∃ u ks, ts = [.node .entryCodeObject u ks] ∧ Toks (PairTok U GroupPair) ks) := by
  have h1 : Emits b entryCodeKeyValuePair false (fun ts _ => Toks (PairTok U GroupPair) ts) :=
    entryCodeKeyValuePair_emits.mono (by rintro _ _ ⟨t, rfl, h⟩; exact .one h)
  refine (Emits.normal _ (Emits.alt .quietToks (.seqToks .quietToks (.seqToks .quietToks (.seqToks h1 (.seqToks (.star (.seqToks .quietToks
    (.seqToks .quietToks h1))) (.seqToks .quietToks .quietToks))))))).mono ?_
  rintro _ u ⟨ks, rfl, h⟩
  exact ⟨u, ks, rfl, h⟩

/-- the value of an attribute in ENTRY_CODE -/
def IsCodeVal (v : NVal) : Prop := (∃ s, v = .val s ∧ Clean s) ∨ IsCodes v ∨
  ∃ g, v = .obj g ∧ (∀ p ∈ g, GroupPair p) ∧ (g.map (·.1)).Nodup

/-- a pair of ENTRY_CODE -/
def CodePair (p : Str × NVal) : Prop := IsKey p.1 ∧ IsCodeVal p.2

theorem entryCodeKeyPair_emits : Emits b (entryCodeKeyPair U) false (fun ts _ => ∃ t, ts = [t] ∧ PairTok U CodePair t) := by
  have hv : Emits b (entryCodeKeyValue U) false (fun ts _ => ∃ t, ts = [t] ∧ ∃ v, (∀ k, Ins.keyPairLoop U [t] (k, .val []) = .ok (k, v)) ∧ IsCodeVal v) := by
    refine (Emits.normal (Q := fun ts u => ∃ v, (∀ k, Ins.keyPairLoop U [.node .entryCodeKeyValue u ts] (k, .val []) = .ok (k, v)) ∧ IsCodeVal v) _
      (Emits.alt (keyValue_emits.mono ?_) (Emits.alt (entryCodeList_emits.mono ?_) ((entryCodeObject_emits (U := U)).mono ?_)))).mono ?_
    · rintro _ u ⟨ks, v, rfl, h1, h2⟩
      refine ⟨.val v, fun k => ?_, .inl ⟨v, rfl, h2.clean⟩⟩
      simp only [Ins.keyPairLoop]
      rw [h1 _ _]
    · rintro _ u ⟨u', ks, rfl, l, e, hl⟩
      refine ⟨.arr (l.map .val), fun k => ?_, .inr (.inl ⟨l, rfl, hl⟩)⟩
      simp only [Ins.keyPairLoop, e]
    · rintro _ u ⟨u', ks, rfl, h⟩
      obtain ⟨l, e, h1, h2, -⟩ := keyPairsObj_list h [] (by simp) (by simp)
      refine ⟨.obj l, fun k => ?_, .inr (.inr ⟨l, rfl, h1, h2⟩)⟩
      simp only [Ins.keyPairLoop, e]
    · rintro _ u ⟨ks, rfl, v, h1, h2⟩
      exact ⟨_, rfl, v, h1, h2⟩
  refine (Emits.compound _ (attrKey_emits.seq ((Emits.quiet _ _ _).seq hv))).mono ?_
  rintro _ _ ⟨_, rfl, _, _, k, _, rfl, -, ⟨rfl, hk⟩, _, _, _, _, rfl, -, rfl, t, rfl, v, h1, h2⟩
  refine ⟨_, rfl, (k, v), ?_, hk, h2⟩
  simp only [List.singleton_append, List.nil_append, Ins.keyPairOf]
  rw [Ins.keyPairLoop]
  exact h1 k

theorem attrEntryCodeKeyPairs_emits : Emits b (attrEntryCodeKeyPairs U) false (fun ts _ => ∃ u ks, ts = [.node .attrEntryCodeKeyPairs u ks] ∧ PairToks U b CodePair ks) :=
  (Emits.compound _ (pairs_emits entryCodeKeyPair_emits)).mono (by rintro _ u ⟨ks, rfl, h⟩; exact ⟨_, ks, rfl, h⟩)

/-! ## Entries -/

theorem entryKey_emits : Emits b entryKey a (fun ts _ => ∃ u v, (∃ k s, ts = [.node .entryKey u [.node .string s [.node k v []]]]) ∧ Clean v) :=
  (Emits.compound _ string_emits).mono (by rintro _ _ ⟨_, rfl, k, v, rfl, h⟩; exact ⟨_, v, ⟨k, _, rfl⟩, h.clean⟩)

theorem entryValue_emits : Emits b entryValue a (fun ts _ => ∃ u v, (∃ k s, ts = [.node .entryValue u [.node .string s [.node k v []]]]) ∧ Clean v) :=
  (Emits.compound _ string_emits).mono (by rintro _ _ ⟨_, rfl, k, v, rfl, h⟩; exact ⟨_, v, ⟨k, _, rfl⟩, h.clean⟩)

/-- one entry -/
def EntryPair (p : Str × NVal) : Prop := Clean p.1 ∧ ∃ s, p.2 = .val s ∧ Clean s

theorem entryKeyValuePair_emits : Emits b entryKeyValuePair false (fun ts _ => ∃ t, ts = [t] ∧ PairTok U EntryPair t) := by
  refine (Emits.normal _ (entryKey_emits.seq (Emits.seq (Emits.quiet _ _ _) (Emits.seq (Emits.quiet _ _ _) entryValue_emits)))).mono ?_
  rintro _ _ ⟨_, rfl, _, _, _, _, rfl, -, ⟨u, v, ⟨k, s, rfl⟩, hv⟩, _, _, _, _, rfl, -, rfl, _, _, _, _, rfl, -, rfl, u', v', ⟨k', s', rfl⟩, hv'⟩
  refine ⟨_, rfl, (v, .val v'), ?_, hv, v', rfl, hv'⟩
  simp [Ins.keyPairOf, Ins.keyPairLoop, Ins.innerString, Tree.rule, Ins.lastText, Tree.kids, Tree.text]

theorem entryObject_emits : Emits b entryObject false (fun ts _ => ∃ u ks, ts = [.node .entryObject u ks] ∧ Toks (PairTok U EntryPair) ks) := by
  have h1 : Emits b entryKeyValuePair false (fun ts _ => Toks (PairTok U EntryPair) ts) :=
    entryKeyValuePair_emits.mono (by rintro _ _ ⟨t, rfl, h⟩; exact .one h)
  refine (Emits.normal _ (Emits.alt .quietToks (.seqToks .quietToks (.seqToks .quietToks (.seqToks h1 (.seqToks (.star (.seqToks .quietToks
    (.seqToks .quietToks h1))) (.seqToks .quietToks .quietToks))))))).mono ?_
  rintro _ u ⟨ks, rfl, h⟩
  exact ⟨u, ks, rfl, h⟩

/-- the value of an attribute in ENTRY -/
def IsEntryVal (v : NVal) : Prop := (∃ s, v = .val s ∧ Clean s) ∨
  ∃ g, v = .obj g ∧ (∀ p ∈ g, EntryPair p) ∧ (g.map (·.1)).Nodup

/-- a pair of ENTRY -/
def EntriesPair (p : Str × NVal) : Prop := IsKey p.1 ∧ IsEntryVal p.2

theorem entryKeyPair_emits : Emits b (entryKeyPair U) false (fun ts _ => ∃ t, ts = [t] ∧ PairTok U EntriesPair t) := by
  have hv : Emits b (entryKeyValue U) false (fun ts _ => ∃ t, ts = [t] ∧ ∃ v, (∀ k, Ins.keyPairLoop U [t] (k, .val []) = .ok (k, v)) ∧ IsEntryVal v) := by
    refine (Emits.normal (Q := fun ts u => ∃ v, (∀ k, Ins.keyPairLoop U [.node .entryKeyValue u ts] (k, .val []) = .ok (k, v)) ∧ IsEntryVal v) _
      (Emits.alt (keyValue_emits.mono ?_) ((entryObject_emits (U := U)).mono ?_))).mono ?_
    · rintro _ u ⟨ks, v, rfl, h1, h2⟩
      refine ⟨.val v, fun k => ?_, .inl ⟨v, rfl, h2.clean⟩⟩
      simp only [Ins.keyPairLoop]
      rw [h1 _ _]
    · rintro _ u ⟨u', ks, rfl, h⟩
      obtain ⟨l, e, h1, h2, -⟩ := keyPairsObj_list h [] (by simp) (by simp)
      refine ⟨.obj l, fun k => ?_, .inr ⟨l, rfl, h1, h2⟩⟩
      simp only [Ins.keyPairLoop, e]
    · rintro _ u ⟨ks, rfl, v, h1, h2⟩
      exact ⟨_, rfl, v, h1, h2⟩
  refine (Emits.compound _ (attrKey_emits.seq ((Emits.quiet _ _ _).seq hv))).mono ?_
  rintro _ _ ⟨_, rfl, _, _, k, _, rfl, -, ⟨rfl, hk⟩, _, _, _, _, rfl, -, rfl, t, rfl, v, h1, h2⟩
  refine ⟨_, rfl, (k, v), ?_, hk, h2⟩
  simp only [List.singleton_append, List.nil_append, Ins.keyPairOf]
  rw [Ins.keyPairLoop]
  exact h1 k

theorem attrEntryKeyPairs_emits : Emits b (attrEntryKeyPairs U) false (fun ts _ => ∃ u ks, ts = [.node .attrEntryKeyPairs u ks] ∧ PairToks U b EntriesPair ks) :=
  (Emits.compound _ (pairs_emits entryKeyPair_emits)).mono (by rintro _ u ⟨ks, rfl, h⟩; exact ⟨_, ks, rfl, h⟩)

end Gr
end OCA
