import Verif.Lemmas.PairShapes
/-!
# The shapes of whole commands, for every text
-/
namespace OCA

/-- Success satisfies `P`; an error is fine; a panic only if `b`. -/
def Fine {ε α : Type} (b : Bool) (r : Res ε α) (P : α → Prop) : Prop :=
  match r with
  | .ok a => P a
  | .err _ => True
  | .panic => b = true

theorem Fine.mono {ε α : Type} {b : Bool} {r : Res ε α} {P Q : α → Prop} (h : Fine b r P) (hq : ∀ a, P a → Q a) : Fine b r Q := by
  cases r with
  | ok a => exact hq a h
  | err => trivial
  | panic => exact h

theorem Fine.ok {ε α : Type} {b : Bool} {r : Res ε α} {P : α → Prop} {a : α} (h : Fine b r P) (e : r = .ok a) : P a := by subst e; exact h

theorem Fine.of_ok {ε α : Type} {b : Bool} {r : Res ε α} {P : α → Prop} {a : α} (e : r = .ok a) (h : P a) : Fine b r P := by subst e; exact h

theorem Fine.false {ε α : Type} {b : Bool} {r : Res ε α} {P : α → Prop} (h : Fine false r P) : Fine b r P := by
  cases r with
  | ok a => exact h
  | err => trivial
  | panic => cases h

open Peg
namespace Gr
variable {b : Bool} {E : Env} {U : Uni} {a : Bool}

/-! ## Inserting pairs -/

/-- the loops that insert the pairs read from tokens -/
def insLoop {V : Type} (f : Tok → Ins.R (Str × V)) : List Tok → List (Str × V) → Ins.R (List (Str × V))
  | [], acc => .ok acc
  | t :: r, acc => match f t with
    | .ok kv => insLoop f r (imInsert kv.1 kv.2 acc)
    | .err e => .err e
    | .panic => .panic

theorem keyPairsObj_loop (ks : List Tok) (acc : List (Str × NVal)) : Ins.keyPairsObj U ks acc = insLoop (Ins.keyPairOf U) ks acc := by
  induction ks generalizing acc with
  | nil => rfl
  | cons t r ih => simp only [Ins.keyPairsObj, insLoop]; split <;> simp_all

theorem attrPairsLoop_loop (ks : List Tok) (acc : List (Str × NAttr)) : Ins.attrPairsLoop E ks acc = insLoop (Ins.attributeOf E) ks acc := by
  induction ks generalizing acc with
  | nil => rfl
  | cons t r ih => simp only [Ins.attrPairsLoop, insLoop]; split <;> simp_all

/-- a list of pairs, some of which have proper names -/
structure Listed {V : Type} (A : Str × V → Prop) (names : List Str) (l : List (Str × V)) : Prop where
  all : ∀ p ∈ l, A p
  distinct : (l.map (·.1)).Nodup
  has : ∀ n ∈ names, n ∈ l.map (·.1)

theorem insLoop_fine {V : Type} {f : Tok → Ins.R (Str × V)} {A : Str × V → Prop} {ks : List Tok} (h : ∀ t ∈ ks, Fine b (f t) A)
    {names : List Str} {acc : List (Str × V)} (ha : Listed A names acc) :
    Fine b (insLoop f ks acc) (fun l => Listed A names l ∧ ∀ t ∈ ks, ∀ kv, f t = .ok kv → kv.1 ∈ l.map (·.1)) := by
  induction ks generalizing acc names with
  | nil => exact ⟨ha, by simp⟩
  | cons t r ih =>
    have ht := h t (.head _)
    simp only [insLoop]
    cases hf : f t with
    | err e => trivial
    | panic => rw [hf] at ht; exact ht
    | ok kv =>
      rw [hf] at ht
      have hacc : Listed A (kv.1 :: names) (imInsert kv.1 kv.2 acc) :=
        ⟨fun p hp => by
          rcases mem_imInsert hp with rfl | hp
          · exact ht
          · exact ha.all p hp, imInsert_nodup _ _ _ ha.distinct, by
          intro n hn
          rcases List.mem_cons.1 hn with rfl | hn
          · exact imInsert_has _ _ _
          · exact imInsert_keeps (ha.has n hn)⟩
      refine (ih (fun x hx => h x (.tail _ hx)) hacc).mono ?_
      rintro l ⟨h1, h2⟩
      refine ⟨⟨h1.all, h1.distinct, fun n hn => h1.has n (.tail _ hn)⟩, ?_⟩
      intro x hx kv' hkv
      rcases List.mem_cons.1 hx with rfl | hx
      · rw [hf] at hkv; injection hkv with hkv; subst hkv
        exact h1.has _ (.head _)
      · exact h2 x hx kv' hkv

/-! ## Attribute types -/

/-- the attribute types an OCA file can name -/
inductive FileType (E : Env) (U : Uni) : NAttr → Prop
  | val (t : AttrType) : FileType E U (.val t)
  | said (s : Str) (hw : IsWord U s) (hs : E.validSaid s = true) : FileType E U (.ref (.said s))
  | name (n : Str) (hw : IsWord U n) : FileType E U (.ref (.name n))
  | arr (t : NAttr) (h : FileType E U t) : FileType E U (.arr t)

/-- a token that is read as an attribute type, or refused -/
def TypeTok (E : Env) (U : Uni) (t : Tok) : Prop := Fine false (Ins.attrTypeOf E t) (FileType E U)

theorem noise_type {t : Tok} (h : Noise b t) : TypeTok E U t := by
  obtain ⟨-, hr, -⟩ := h
  cases t with
  | node r u ks =>
    rcases hr with hr | hr <;> (simp only [Tree.rule] at hr; subst hr) <;> exact trivial

theorem baseAttrType_emits : Emits b baseAttrType false (fun ts _ => ∃ t, ts = [t] ∧ TypeTok E U t) := by
  refine (Emits.atomic _ (Emits.quiet _ _ _)).mono ?_
  rintro _ u ⟨ks, rfl, rfl⟩
  refine ⟨_, rfl, ?_⟩
  simp only [TypeTok, Ins.attrTypeOf]
  cases AttrType.ofStr u with
  | none => exact trivial
  | some a => exact .val a

theorem said_emits : Emits b (said U) false (fun ts u => ts = [.node .said u []] ∧ IsWord U u) := by
  refine (Emits.atomic (Q := fun ts u => ts = [] ∧ IsWord U u) _ ?_).mono (by rintro _ u ⟨_, rfl, rfl, h⟩; exact ⟨rfl, h⟩)
  intro i o h hb
  exact ⟨quiet h, (word_emits i o h hb).2.2⟩

theorem alias_emits : Emits b (alias U) false (fun ts u => ts = [.node .alias u []] ∧ IsWord U u) := by
  refine (Emits.atomic (Q := fun ts u => ts = [] ∧ IsWord U u) _ ?_).mono (by rintro _ u ⟨_, rfl, rfl, h⟩; exact ⟨rfl, h⟩)
  intro i o h hb
  exact ⟨quiet h, (word_emits i o h hb).2.2⟩

theorem refSaid_emits : Emits b (refSaid U) false (fun ts _ => ∃ s, ts = [.node .said s []] ∧ IsWord U s) :=
  ((Emits.quiet _ _ _).seq said_emits).mono (by rintro _ _ ⟨_, _, _, u, rfl, rfl, rfl, rfl, h⟩; exact ⟨u, rfl, h⟩)

theorem refAlias_emits : Emits b (refAlias U) false (fun ts _ => ∃ s, ts = [.node .alias s []] ∧ IsWord U s) :=
  ((Emits.quiet _ _ _).seq alias_emits).mono (by rintro _ _ ⟨_, _, _, u, rfl, rfl, rfl, rfl, h⟩; exact ⟨u, rfl, h⟩)

theorem saidTok_type {s : Str} (h : IsWord U s) : TypeTok E U (.node .said s []) := by
  simp only [TypeTok, Ins.attrTypeOf]
  split
  · exact .said s h ‹_›
  · trivial

theorem refSaid_type : Emits b (refSaid U) false (fun ts _ => ∃ t, ts = [t] ∧ TypeTok E U t) :=
  refSaid_emits.mono (by rintro _ _ ⟨s, rfl, h⟩; exact ⟨_, rfl, saidTok_type h⟩)

theorem refAlias_type : Emits b (refAlias U) false (fun ts _ => ∃ t, ts = [t] ∧ TypeTok E U t) :=
  refAlias_emits.mono (by rintro _ _ ⟨s, rfl, h⟩; exact ⟨_, rfl, FileType.name s h⟩)

theorem arrayTok {u : Str} {k : Tok} {r : List Tok} (h : TypeTok E U k) : TypeTok E U (.node .arrayAttrType u (k :: r)) := by
  simp only [TypeTok, Ins.attrTypeOf]
  have := h
  unfold TypeTok at this
  revert this
  cases Ins.attrTypeOf E k with
  | ok a => exact fun h => .arr a h
  | err e => exact fun _ => trivial
  | panic => exact fun h => h

theorem arrayAttrType_emits : Emits b (arrayAttrType U) a (fun ts _ => ∃ t, ts = [t] ∧ TypeTok E U t) := by
  refine Emits.fix ?_ a
  intro p hp a
  refine (Emits.compound _ ((Emits.quiet _ _ _).seq (argWsOpt_emits.seq ((Emits.alt baseAttrType_emits (Emits.alt (Emits.alt refSaid_type refAlias_type) (hp false))).seq
    (argWsOpt_emits.seq (Emits.quiet _ _ _)))))).mono ?_
  rintro _ u ⟨_, rfl, _, _, _, _, rfl, -, rfl, n1, _, _, _, rfl, -, hn1, _, _, _, _, rfl, -, ⟨t, rfl, ht⟩, n2, _, _, _, rfl, -, -, rfl⟩
  refine ⟨_, rfl, ?_⟩
  cases n1 with
  | nil => exact arrayTok ht
  | cons n n1 => exact arrayTok (noise_type (hn1 n (.head _)))

theorem attrType_emits : Emits b (attrType U) a (fun ts _ => ∃ u t, ts = [.node .attrType u [t]] ∧ TypeTok E U t) := by
  refine (Emits.compound _ (Emits.alt (baseAttrType_emits (E := E)) (Emits.alt arrayAttrType_emits (Emits.alt refSaid_type refAlias_type)))).mono ?_
  rintro _ u ⟨_, rfl, t, rfl, h⟩
  exact ⟨u, t, rfl, h⟩

/-! ## ADD ATTRIBUTE -/

/-- an attribute with its type -/
def FileAttr (E : Env) (U : Uni) (p : Str × NAttr) : Prop := IsKey p.1 ∧ FileType E U p.2

/-- what a comment or empty line inside a continued line is read as -/
def NoiseAttr (b : Bool) (p : Str × NAttr) : Prop := b = true ∧ p = ([], .val .text)

theorem attrPair_emits : Emits b (attrPair U) false (fun ts _ => ∃ t, ts = [t] ∧ Fine false (Ins.attributeOf E t) (FileAttr E U)) := by
  refine (Emits.atomic _ (keyEq_emits attrKey_emits (attrType_emits (E := E)))).mono ?_
  rintro _ _ ⟨_, rfl, _, _, k, u, rfl, ⟨rfl, hk⟩, u', t, rfl, h⟩
  refine ⟨_, rfl, ?_⟩
  simp only [Ins.attributeOf, Tree.kids, List.singleton_append, Ins.attributeLoop]
  have := h
  unfold TypeTok at this
  revert this
  cases Ins.attrTypeOf E t with
  | ok a => exact fun h => ⟨hk, h⟩
  | err e => exact fun _ => trivial
  | panic => exact fun h => h

/-- the tokens of a list of attributes -/
def AttrToks (E : Env) (U : Uni) (b : Bool) (ks : List Tok) : Prop :=
  (∀ t ∈ ks, Fine false (Ins.attributeOf E t) (fun p => FileAttr E U p ∨ NoiseAttr b p)) ∧
    ∃ t ∈ ks, Fine false (Ins.attributeOf E t) (FileAttr E U)

theorem attrPairs_emits : Emits b (attrPairs U) false (fun ts _ => ∃ u ks, ts = [.node .attrPairs u ks] ∧ AttrToks E U b ks) := by
  have hn : Emits b argWs false (fun ts _ => Toks (fun t => Fine false (Ins.attributeOf E t) (fun p => FileAttr E U p ∨ NoiseAttr b p)) ts) := by
    refine argWs_emits.mono fun _ _ h => h.mono fun t ht => ?_
    obtain ⟨hb, -, hk⟩ := ht
    cases t with
    | node r u ks => cases hk; exact .inr ⟨hb, rfl⟩
  have h1 : Emits b (argWs ~ₚ attrPair U) false (fun ts _ => Toks (fun t => Fine false (Ins.attributeOf E t) (fun p => FileAttr E U p ∨ NoiseAttr b p)) ts) :=
    .seqToks hn (attrPair_emits.mono (by rintro _ _ ⟨t, rfl, h⟩; exact .one (h.mono fun _ => .inl)))
  have h2 : Emits b (argWs ~ₚ attrPair U) false (fun ts _ => ∃ t ∈ ts, Fine false (Ins.attributeOf E t) (FileAttr E U)) :=
    (hn.seq attrPair_emits).mono (by rintro _ _ ⟨_, _, _, _, rfl, -, -, t, rfl, h⟩; exact ⟨t, by simp, h⟩)
  refine (Emits.compound _ (Emits.plusOne h1 h2)).mono ?_
  rintro _ u ⟨_, rfl, h, t1, t2, _, rfl, t, ht, h2⟩
  exact ⟨u, _, rfl, h, t, List.mem_append_left _ ht, h2⟩

/-- a list of attributes as it stands in a command -/
structure AttrList (E : Env) (U : Uni) (b : Bool) (l : List (Str × NAttr)) : Prop where
  ok : ∀ p ∈ l, FileAttr E U p ∨ NoiseAttr b p
  distinct : (l.map (·.1)).Nodup
  ne : ∃ n, IsKey n ∧ n ∈ l.map (·.1)

theorem attrPairsLoop_fine {ks : List Tok} (h : AttrToks E U b ks) {names : List Str} {acc : List (Str × NAttr)}
    (ha : Listed (fun p => FileAttr E U p ∨ NoiseAttr b p) names acc) :
    Fine false (Ins.attrPairsLoop E ks acc) (fun l => ∃ n, IsKey n ∧ Listed (fun p => FileAttr E U p ∨ NoiseAttr b p) (n :: names) l) := by
  rw [attrPairsLoop_loop]
  have := insLoop_fine h.1 ha
  revert this
  cases hl : insLoop (Ins.attributeOf E) ks acc with
  | err e => exact fun _ => trivial
  | panic => exact fun h => h
  | ok l =>
    rintro ⟨h1, h2⟩
    obtain ⟨t, ht, hf⟩ := h.2
    cases hkv : Ins.attributeOf E t with
    | ok kv =>
      refine ⟨kv.1, (hf.ok hkv).1, h1.all, h1.distinct, ?_⟩
      intro n hn
      rcases List.mem_cons.1 hn with rfl | hn
      · exact h2 t ht kv hkv
      · exact h1.has n hn
    | err e =>
      exfalso
      have : ∀ (ks : List Tok) (acc l : List (Str × NAttr)), t ∈ ks → insLoop (Ins.attributeOf E) ks acc ≠ .ok l := by
        intro ks
        induction ks with
        | nil => intro _ _ h; cases h
        | cons x r ih =>
          intro acc l hx
          simp only [insLoop]
          rcases List.mem_cons.1 hx with rfl | hx
          · rw [hkv]; simp
          · cases Ins.attributeOf E x with
            | ok kv => exact ih _ _ hx
            | err e => simp
            | panic => simp
      exact this _ _ _ ht hl
    | panic => rw [hkv] at hf; cases hf

theorem addAttributes_fine {ks : List Tok} (h : Toks (fun t => ∃ u ks, t = .node .attrPairs u ks ∧ AttrToks E U b ks) ks) {names : List Str}
    {acc : List (Str × NAttr)} (ha : Listed (fun p => FileAttr E U p ∨ NoiseAttr b p) names acc) :
    Fine false (Ins.addAttributes E ks acc) (fun l => Listed (fun p => FileAttr E U p ∨ NoiseAttr b p) names l ∧
      (ks ≠ [] → ∃ n, IsKey n ∧ n ∈ l.map (·.1))) := by
  induction ks generalizing acc names with
  | nil => exact ⟨ha, fun h => absurd rfl h⟩
  | cons t r ih =>
    obtain ⟨u, ks, rfl, hk⟩ := h t (.head _)
    simp only [Ins.addAttributes, Tree.rule, if_true, Tree.kids]
    have := attrPairsLoop_fine hk ha
    revert this
    cases Ins.attrPairsLoop E ks acc with
    | err e => exact fun _ => trivial
    | panic => exact fun h => h
    | ok l =>
      rintro ⟨n, hn, hl⟩
      refine (ih (fun x hx => h x (.tail _ hx)) hl).mono ?_
      rintro l' ⟨h1, -⟩
      exact ⟨⟨h1.all, h1.distinct, fun m hm => h1.has m (.tail _ hm)⟩, fun _ => ⟨n, hn, h1.has n (.head _)⟩⟩

theorem attribute_emits : Emits b (attributeR U) false (fun ts _ => ∃ u ks, ts = [.node .attribute u ks] ∧
    Fine false (Ins.addAttributes E ks []) (AttrList E U b)) := by
  have h1 : Emits b (attrPairs U) false (fun ts _ => Toks (fun t => ∃ u ks, t = .node .attrPairs u ks ∧ AttrToks E U b ks) ts) :=
    attrPairs_emits.mono (by rintro _ _ ⟨u, ks, rfl, h⟩; exact .one ⟨u, ks, rfl, h⟩)
  have h2 : Emits b (attrPairs U) false (fun ts _ => ts ≠ []) :=
    (attrPairs_emits (E := E)).mono (by rintro _ _ ⟨u, ks, rfl, h⟩; simp)
  refine (Emits.normal _ ((Emits.quiet _ _ _).seq (Emits.plusOne h1 h2))).mono ?_
  rintro _ u ⟨_, rfl, _, _, _, _, rfl, -, rfl, h, t1, t2, _, rfl, hne⟩
  refine ⟨u, _, rfl, ?_⟩
  refine (addAttributes_fine (names := []) h ⟨by simp, by simp, by simp⟩).mono ?_
  rintro l ⟨h3, h4⟩
  exact ⟨h3.all, h3.distinct, h4 (by simp [hne])⟩

/-! ## JSON objects of ATTR_FRAMING -/

/-- a text or an object with at least one pair; object names are lower-cased strings -/
inductive IsJson (U : Uni) : NVal → Prop
  | str (s : Str) (h : Clean s) : IsJson U (.val s)
  | obj (g : List (Str × NVal)) (hn : g ≠ []) (hd : (g.map (·.1)).Nodup) (hk : ∀ p ∈ g, ∃ s, p.1 = U.lower s ∧ Clean s)
      (h : ∀ p ∈ g, IsJson U p.2) : IsJson U (.obj g)

/-- a pair of an object -/
def JsonPair (U : Uni) (p : Str × NVal) : Prop := (∃ s, p.1 = U.lower s ∧ Clean s) ∧ IsJson U p.2

/-- the object an object token is read as -/
def JsonTok (U : Uni) (b : Bool) (ts : List Tok) : Prop :=
  ∃ u ks, ts = [.node .jsonObject u ks] ∧ Fine b (Ins.jsonObject U ks []) (fun g => IsJson U (.obj g))

theorem jsonKey_emits : Emits b jsonKey a (fun ts _ => ∃ u v, (∃ k s, ts = [.node .jsonKey u [.node .string s [.node k v []]]]) ∧ Clean v) :=
  (Emits.compound _ string_emits).mono (by rintro _ _ ⟨_, rfl, k, v, rfl, h⟩; exact ⟨_, v, ⟨k, _, rfl⟩, h.clean⟩)

theorem jsonValue_emits {self : P} (hp : Emits b self false (fun ts _ => JsonTok U b ts)) : Emits b (jsonValue self) a (fun ts _ =>
    ∃ t, ts = [t] ∧ ∀ key, ∀ rest, (∀ v, IsJson U v → Fine b (Ins.jsonPair U rest (key, v)) (fun kv => kv.1 = key ∧ IsJson U kv.2)) →
      Fine b (Ins.jsonPair U (t :: rest) (key, .val [])) (fun kv => kv.1 = key ∧ IsJson U kv.2)) := by
  refine (Emits.compound (Q := fun ks _ => (∃ k s v, ks = [.node .string s [.node k v []]] ∧ Clean v) ∨ JsonTok U b ks) _ ?_).mono ?_
  · intro i o h hb
    rcases alt_some h with h | ⟨hf, h⟩
    · obtain ⟨k, v, e, h⟩ := string_emits _ _ h hb
      exact .inl ⟨k, _, v, e, h.clean⟩
    · rcases alt_some h with h | ⟨-, h⟩
      · obtain ⟨o', h, -⟩ := compound_some h
        rw [h] at hf; cases hf
      · exact .inr (hp _ _ h hb)
  · rintro _ u ⟨_, rfl, ⟨k, s, v, rfl, hv⟩ | ⟨u', ks, rfl, h⟩⟩
    · refine ⟨_, rfl, fun key rest hr => ?_⟩
      simpa [Ins.jsonPair, Ins.lastText, Tree.kids, Tree.text] using hr (.val v) (.str v hv)
    · refine ⟨_, rfl, fun key rest hr => ?_⟩
      simp only [Ins.jsonPair]
      revert h
      cases Ins.jsonObject U ks [] with
      | ok g => exact fun h => hr _ h
      | err e => exact fun _ => trivial
      | panic => exact fun h => h

theorem jsonPair_noise {t : Tok} {r : List Tok} {acc : Str × NVal} (h : Noise b t) : Ins.jsonPair U (t :: r) acc = .panic := by
  obtain ⟨-, hr, hk⟩ := h
  cases t with
  | node k u ks => rcases hr with hr | hr <;> (simp only [Tree.rule] at hr; subst hr; simp [Ins.jsonPair])

theorem jsonPair_noises {n : List Tok} {r : List Tok} {acc : Str × NVal} {P : Str × NVal → Prop} (h : Toks (Noise b) n)
    (hr : Fine b (Ins.jsonPair U r acc) P) : Fine b (Ins.jsonPair U (n ++ r) acc) P := by
  cases n with
  | nil => exact hr
  | cons t n =>
    rw [List.cons_append, jsonPair_noise (h t (.head _))]
    exact (h t (.head _)).1

theorem argWsNewline_emits : Emits b ((argWs |ₚ newline) ?ₚ) false (fun ts _ => Toks (Noise b) ts) :=
  .optToks (.alt argWs_emits .quietToks)

theorem jsonPair_emits {self : P} (hp : Emits b self false (fun ts _ => JsonTok U b ts)) : Emits b (jsonPair self) a (fun ts _ =>
    ∃ u ks, ts = [.node .jsonPair u ks] ∧ Fine b (Ins.jsonPair U ks ([], .val [])) (JsonPair U)) := by
  have hend : Emits b (((argWs ?ₚ) ~ₚ lit c!"," ~ₚ ((argWs |ₚ newline)?ₚ))?ₚ) false (fun ts _ => Toks (Noise b) ts) :=
    .optToks (.seqToks argWsOpt_emits (.seqToks .quietToks argWsNewline_emits))
  refine (Emits.compound _ (jsonKey_emits.seq (argWsStar_emits.seq ((Emits.quiet _ _ _).seq (argWsNewline_emits.seq ((jsonValue_emits hp).seq hend)))))).mono ?_
  rintro _ u ⟨_, rfl, _, _, _, _, rfl, -, ⟨u1, v, ⟨k, s, rfl⟩, hv⟩, n1, _, _, _, rfl, -, hn1, _, _, _, _, rfl, -, rfl, n2, _, _, _, rfl, -, hn2,
    _, n3, _, _, rfl, -, ⟨t, rfl, ht⟩, hn3⟩
  refine ⟨u, _, rfl, ?_⟩
  have h1 : Fine b (Ins.jsonPair U (n1 ++ ([] ++ (n2 ++ ([t] ++ n3)))) (U.lower v, .val [])) (fun kv => kv.1 = U.lower v ∧ IsJson U kv.2) := by
    refine jsonPair_noises hn1 (jsonPair_noises (n := []) Toks.nil (jsonPair_noises hn2 ?_))
    refine ht _ _ fun x hx => ?_
    have := jsonPair_noises (b := b) (r := []) (acc := (U.lower v, x)) (P := fun kv => kv.1 = U.lower v ∧ IsJson U kv.2) (U := U) hn3 (by simpa [Ins.jsonPair, Fine] using hx)
    simpa using this
  have h2 : Ins.jsonPair U ([.node .jsonKey u1 [.node .string s [.node k v []]]] ++ (n1 ++ ([] ++ (n2 ++ ([t] ++ n3))))) ([], .val []) =
      Ins.jsonPair U (n1 ++ ([] ++ (n2 ++ ([t] ++ n3)))) (U.lower v, .val []) := by
    rw [List.singleton_append, Ins.jsonPair]
    simp [Ins.lastText, Tree.kids, Tree.text]
  rw [h2]
  exact h1.mono fun kv h => ⟨⟨v, h.1, hv⟩, h.2⟩

theorem jsonObject_loop {ks : List Tok} (h : Toks (fun t => Noise b t ∨ ∃ u k, t = .node .jsonPair u k ∧ Fine b (Ins.jsonPair U k ([], .val [])) (JsonPair U)) ks)
    {acc : List (Str × NVal)} (ha : Listed (JsonPair U) [] acc) :
    Fine b (Ins.jsonObject U ks acc) (fun g => Listed (JsonPair U) [] g ∧ ((ks ≠ [] ∨ acc ≠ []) → g ≠ [])) := by
  induction ks generalizing acc with
  | nil => simp only [Ins.jsonObject]; exact ⟨ha, by simp⟩
  | cons t r ih =>
    rcases h t (.head _) with ht | ⟨u, k, rfl, hk⟩
    · obtain ⟨hb, hr, -⟩ := ht
      cases t with
      | node k u ks =>
        rcases hr with hr | hr <;> (simp only [Tree.rule] at hr; subst hr; simp only [Ins.jsonObject]; exact hb)
    · simp only [Ins.jsonObject]
      revert hk
      cases Ins.jsonPair U k ([], .val []) with
      | err e => exact fun _ => trivial
      | panic => exact fun h => h
      | ok kv =>
        intro hkv
        refine (ih (fun x hx => h x (.tail _ hx)) (acc := imInsert kv.1 kv.2 acc) ⟨fun p hp => ?_, imInsert_nodup _ _ _ ha.distinct, by simp⟩).mono ?_
        · rcases mem_imInsert hp with rfl | hp
          · exact hkv
          · exact ha.all p hp
        · rintro g ⟨h1, h2⟩
          exact ⟨h1, fun _ => h2 (.inr (imInsert_ne _ _ _))⟩

theorem jsonObject_emits : Emits b jsonObject a (fun ts _ => JsonTok U b ts) := by
  refine Emits.fix ?_ a
  intro p hp a
  have hn : ∀ {q : P}, Emits b q false (fun ts _ => Toks (Noise b) ts) → Emits b q false (fun ts _ =>
      Toks (fun t => Noise b t ∨ ∃ u k, t = .node .jsonPair u k ∧ Fine b (Ins.jsonPair U k ([], .val [])) (JsonPair U)) ts) :=
    fun h => h.mono fun _ _ h => h.mono fun _ => .inl
  have h1 : Emits b ((argWs |ₚ newline)?ₚ ~ₚ argWs*ₚ ~ₚ jsonPair p ~ₚ (argWs |ₚ newline)?ₚ) false (fun ts _ =>
      Toks (fun t => Noise b t ∨ ∃ u k, t = .node .jsonPair u k ∧ Fine b (Ins.jsonPair U k ([], .val [])) (JsonPair U)) ts) :=
    .seqToks (hn argWsNewline_emits) (.seqToks (hn argWsStar_emits) (.seqToks ((jsonPair_emits (hp false)).mono (by
      rintro _ _ ⟨u, ks, rfl, h⟩; exact .one (.inr ⟨u, ks, rfl, h⟩))) (hn argWsNewline_emits)))
  have h2 : Emits b ((argWs |ₚ newline)?ₚ ~ₚ argWs*ₚ ~ₚ jsonPair p ~ₚ (argWs |ₚ newline)?ₚ) false (fun ts _ => ts ≠ []) := by
    refine (argWsNewline_emits.seq (argWsStar_emits.seq ((jsonPair_emits (U := U) (hp false)).seq argWsNewline_emits))).mono ?_
    rintro _ _ ⟨_, _, _, _, rfl, -, -, _, _, _, _, rfl, -, -, _, _, _, _, rfl, -, ⟨u, ks, rfl, h⟩, -⟩
    simp
  refine (Emits.compound _ ((Emits.quiet _ _ _).seq ((Emits.plusOne h1 h2).seq (Emits.seq (hn argWsStar_emits) (Emits.quiet _ _ _))))).mono ?_
  rintro _ u ⟨_, rfl, _, _, _, _, rfl, -, rfl, _, _, _, _, rfl, -, ⟨h, t1, t2, _, rfl, hne⟩, _, _, _, _, rfl, -, hn2, rfl⟩
  refine ⟨u, _, rfl, ?_⟩
  refine (jsonObject_loop (acc := []) (h.append (hn2.append Toks.nil)) ⟨by simp, by simp, by simp⟩).mono ?_
  rintro g ⟨h3, h4⟩
  exact .obj g (h4 (.inl (by simp [hne]))) h3.distinct (fun p hp => (h3.all p hp).1) (fun p hp => (h3.all p hp).2)

end Gr
end OCA
