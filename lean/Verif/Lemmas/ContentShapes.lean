import Verif.Lemmas.CommandShapes
import Verif.Lemmas.ParseFraming
/-!
# The contents of ADD commands, for every text
-/
namespace OCA
open Peg
namespace Gr
variable {b : Bool} {E : Env} {U : Uni} {a : Bool}

/-! ## Tokens without effect -/

/-- tokens that carry no properties -/
def SkipP (t : Tok) : Prop := ∀ (E : Env) (U : Uni) acc, Ins.propertyStep E U t acc = .ok acc

/-- tokens that carry no attributes -/
def SkipA (t : Tok) : Prop :=
  ¬ (t.rule = .attrKeyPairs ∨ t.rule = .attrEntryCodeKeyPairs ∨ t.rule = .attrEntryKeyPairs ∨ t.rule = .unitAttrKeyPairs ∨ t.rule = .attrFramingKeyPairs)

theorem noise_skipP {t : Tok} (h : Noise b t) : SkipP t := by
  obtain ⟨-, hr, -⟩ := h
  intro E U acc
  cases t with
  | node r u ks => rcases hr with hr | hr <;> (simp only [Tree.rule] at hr; subst hr; rfl)

theorem noise_skipA {t : Tok} (h : Noise b t) : SkipA t := by
  obtain ⟨-, hr, -⟩ := h
  cases t with
  | node r u ks => rcases hr with hr | hr <;> (simp only [Tree.rule] at hr; subst hr; simp [SkipA, Tree.rule])

theorem propertiesOf_skip {n r : List Tok} {acc : List (Str × NVal)} (h : Toks SkipP n) :
    Ins.propertiesOf E U (n ++ r) acc = Ins.propertiesOf E U r acc := by
  induction n with
  | nil => rfl
  | cons t n ih =>
    have := h t (.head _)
    unfold SkipP at this
    simp only [List.cons_append, Ins.propertiesOf, this]
    exact ih fun x hx => h x (.tail _ hx)

theorem attributesOf_skip {n r : List Tok} {acc : List (Str × NVal)} (h : Toks SkipA n) :
    Ins.attributesOf U (n ++ r) acc = Ins.attributesOf U r acc := by
  induction n with
  | nil => rfl
  | cons t n ih =>
    have := h t (.head _)
    unfold SkipA at this
    simp only [List.cons_append, Ins.attributesOf, if_neg this]
    exact ih fun x hx => h x (.tail _ hx)

theorem propertiesOf_noise {n r : List Tok} {acc : List (Str × NVal)} (h : Toks (Noise b) n) :
    Ins.propertiesOf E U (n ++ r) acc = Ins.propertiesOf E U r acc := propertiesOf_skip (h.mono fun _ => noise_skipP)

theorem attributesOf_noise {n r : List Tok} {acc : List (Str × NVal)} (h : Toks (Noise b) n) :
    Ins.attributesOf U (n ++ r) acc = Ins.attributesOf U r acc := attributesOf_skip (h.mono fun _ => noise_skipA)

/-! ## Contents -/

/-- rules of lists of attributes -/
def AttrsRule (r : Rule) : Prop := r = .attrKeyPairs ∨ r = .attrEntryCodeKeyPairs ∨ r = .attrEntryKeyPairs ∨ r = .unitAttrKeyPairs

/-- tokens of a list of attributes -/
def AttrsTok (U : Uni) (b : Bool) (A : Str × NVal → Prop) (ts : List Tok) : Prop :=
  ∃ r u ks, ts = [.node r u ks] ∧ AttrsRule r ∧ PairToks U b A ks

theorem attrsTok_content {A : Str × NVal → Prop} (hA : ∀ p, A p → IsKey p.1) {ts : List Tok} (h : AttrsTok U b A ts) :
    ∃ as, Ins.attributesOf U ts [] = .ok as ∧ PairList b A as ∧ ∀ E acc, Ins.propertiesOf E U ts acc = .ok acc := by
  obtain ⟨r, u, ks, rfl, hr, hk⟩ := h
  obtain ⟨l, e, hl⟩ := keyPairsObj_pairs hA hk
  refine ⟨l, ?_, hl, fun E acc => ?_⟩
  · rcases hr with rfl | rfl | rfl | rfl <;> simp [Ins.attributesOf, Tree.rule, Tree.kids, Ins.insertPairs, e]
  · rcases hr with rfl | rfl | rfl | rfl <;> simp [Ins.propertiesOf, Ins.propertyStep, Tree.rule]

theorem contentOf_ok {t : Tok} {as ps : List (Str × NVal)} (h1 : Ins.propertiesOf E U t.kids [] = .ok ps) (h2 : Ins.attributesOf U t.kids [] = .ok as) :
    Ins.contentOf E U t = .ok ⟨some as, some ps⟩ := by
  simp only [Ins.contentOf, h1, h2]

/-- keyword, ATTRS, pairs -/
theorem plain_content {A : Str × NVal → Prop} (hA : ∀ p, A p → IsKey p.1) {pairs : P} (kw : Str) (k : Rule)
    (hp : Emits b pairs false (fun ts _ => AttrsTok U b A ts)) :
    Emits b (normal k (ilit kw ~ₚ argWs ~ₚ attrsKey ~ₚ pairs)) false (fun ts _ => ∃ u ks as, ts = [.node k u ks] ∧
      (∀ E, Ins.contentOf E U (.node k u ks) = .ok ⟨some as, some []⟩) ∧ PairList b A as) := by
  refine (Emits.normal _ ((Emits.quiet _ _ _).seq (argWs_emits.seq (attrsKey_emits.seq hp)))).mono ?_
  rintro _ u ⟨_, rfl, _, _, _, _, rfl, -, rfl, n1, _, _, _, rfl, -, h1, n2, ts, _, _, rfl, -, h2, h⟩
  obtain ⟨as, ha, hl, hs⟩ := attrsTok_content hA h
  refine ⟨u, _, as, rfl, fun E => contentOf_ok ?_ ?_, hl⟩
  · simp only [Tree.kids, List.nil_append, propertiesOf_noise h1, propertiesOf_noise h2, hs]
  · simp only [Tree.kids, List.nil_append, attributesOf_noise h1, attributesOf_noise h2, ha]

theorem langTok_skipA {l : Str} : SkipA (.node .lang l []) := by simp [SkipA, Tree.rule]

/-- keyword, language, ATTRS, pairs -/
theorem lang_content {A : Str × NVal → Prop} (hA : ∀ p, A p → IsKey p.1) {pairs : P} (kw : Str) (k : Rule)
    (hp : Emits b pairs false (fun ts _ => AttrsTok U b A ts)) :
    Emits b (normal k (ilit kw ~ₚ argWs ~ₚ lang ~ₚ argWs ~ₚ attrsKey ~ₚ pairs)) false (fun ts _ => ∃ u ks as l, ts = [.node k u ks] ∧
      (∀ E, Ins.contentOf E U (.node k u ks) = .ok ⟨some as, some [(c!"lang", .val l)]⟩) ∧ PairList b A as ∧ IsLang l) := by
  refine (Emits.normal _ ((Emits.quiet _ _ _).seq (argWs_emits.seq (lang_emits.seq (argWs_emits.seq (attrsKey_emits.seq hp)))))).mono ?_
  rintro _ u ⟨_, rfl, _, _, _, _, rfl, -, rfl, n1, _, _, _, rfl, -, h1, _, _, l, _, rfl, -, ⟨rfl, hl⟩, n2, _, _, _, rfl, -, h2, n3, ts, _, _, rfl, -, h3, h⟩
  obtain ⟨as, ha, hp, hs⟩ := attrsTok_content hA h
  refine ⟨u, _, as, l, rfl, fun E => contentOf_ok ?_ ?_, hp, hl⟩
  · simp only [Tree.kids, List.nil_append, propertiesOf_noise h1]
    simp only [List.singleton_append, Ins.propertiesOf, Ins.propertyStep, Tree.rule, Tree.text, propertiesOf_noise h2, propertiesOf_noise h3, hs, imInsert]
  · simp only [Tree.kids, List.nil_append, attributesOf_noise h1, attributesOf_skip (Toks.one langTok_skipA), attributesOf_noise h2, attributesOf_noise h3, ha]

/-! ### META and CHARACTER_ENCODING PROPS -/

theorem propToks_skipA {u : Str} {ks : List Tok} : SkipA (.node .propKeyPairs u ks) := by simp [SkipA, Tree.rule]

theorem isLang_quotable {l : Str} (h : IsLang l) : Quotable l = true := by
  have hq : ∀ (s : Str), (∀ c ∈ s, c ≠ '\\' ∧ c ≠ '"' ∧ c ≠ '\x00' ∧ c ≠ '\x1f') → Quotable s = true := by
    intro s hs
    have := Quotable.plainAppend (y := []) hs rfl
    simpa using this
  have ha : ∀ c : Char, c.isAlpha = true → c ≠ '\\' ∧ c ≠ '"' ∧ c ≠ '\x00' ∧ c ≠ '\x1f' := by
    intro c hc
    refine ⟨?_, ?_, ?_, ?_⟩ <;> (rintro rfl; revert hc; decide)
  refine hq l fun c hc => ?_
  unfold IsLang at h
  split at h
  · obtain ⟨h1, h2⟩ := h
    simp only [List.mem_cons, List.not_mem_nil, or_false] at hc
    rcases hc with rfl | rfl <;> exact ha _ ‹_›
  · obtain ⟨h1, h2, h3, h4, h5⟩ := h
    simp only [List.mem_cons, List.not_mem_nil, or_false] at hc
    rcases hc with rfl | rfl | rfl | rfl | rfl
    · exact ha _ ‹_›
    · exact ha _ ‹_›
    · subst h3; decide
    · exact ha _ ‹_›
    · exact ha _ ‹_›
  · exact h.elim

theorem langPair {l : Str} (h : IsLang l) : TextPair (c!"lang", .val l) :=
  ⟨(⟨by simp, by decide⟩ : IsKey c!"lang"), l, rfl, fun _ => isLang_quotable h⟩

theorem keyPairsObj_into {A : Str × NVal → Prop} {ks : List Tok} (h : PairToks U b A ks) (hA : ∀ p, A p → IsKey p.1) {names : List Str} {acc : List (Str × NVal)}
    (ha : Listed (fun p => A p ∨ NoisePair b p) names acc) :
    ∃ l n, Ins.keyPairsObj U ks acc = .ok l ∧ IsKey n ∧ Listed (fun p => A p ∨ NoisePair b p) (n :: names) l := by
  obtain ⟨l, e, h1, h2, h3, h4⟩ := keyPairsObj_list h.1 acc ha.all ha.distinct
  obtain ⟨t, ht, kv, hkv, hA'⟩ := h.2
  refine ⟨l, kv.1, e, hA _ hA', h1, h2, ?_⟩
  intro n hn
  rcases List.mem_cons.1 hn with rfl | hn
  · exact h4 t ht kv hkv
  · exact h3 n (ha.has n hn)

/-- the properties of ADD META: pairs, one of them the language -/
structure MetaProps (b : Bool) (ps : List (Str × NVal)) : Prop where
  ok : ∀ p ∈ ps, TextPair p ∨ NoisePair b p
  distinct : (ps.map (·.1)).Nodup
  lang : ∃ l, (c!"lang", NVal.val l) ∈ ps

theorem meta_content : Emits b (metaR U) false (fun ts _ => ∃ u ks ps, ts = [.node .metaR u ks] ∧
      (∀ E, Ins.contentOf E U (.node .metaR u ks) = .ok ⟨some [], some ps⟩) ∧ MetaProps b ps) := by
  refine (Emits.normal _ ((Emits.quiet _ _ _).seq (argWs_emits.seq (lang_emits.seq (argWs_emits.seq (propsKey_emits.seq propKeyPairs_emits)))))).mono ?_
  rintro _ u ⟨_, rfl, _, _, _, _, rfl, -, rfl, n1, _, _, _, rfl, -, h1, _, _, l, _, rfl, -, ⟨rfl, hl⟩, n2, _, _, _, rfl, -, h2, n3, _, _, _, rfl, -, h3, u', ks, rfl, hk⟩
  obtain ⟨ps, n, e, -, hps⟩ := keyPairsObj_into (names := [c!"lang"]) (acc := [(c!"lang", .val l)]) hk (fun p hp => hp.1) ⟨by simpa using .inl (langPair hl), by simp, by simp⟩
  refine ⟨u, _, ps, rfl, fun E => contentOf_ok ?_ ?_, hps.all, hps.distinct, ?_⟩
  · simp only [Tree.kids, List.nil_append, propertiesOf_noise h1]
    simp only [List.singleton_append, Ins.propertiesOf, Ins.propertyStep, Tree.rule, Tree.text, propertiesOf_noise h2, propertiesOf_noise h3, imInsert, Tree.kids,
      Ins.insertPairs, e]
  · simp only [Tree.kids, List.nil_append, attributesOf_noise h1, attributesOf_skip (Toks.one langTok_skipA), attributesOf_noise h2, attributesOf_noise h3]
    have := attributesOf_skip (U := U) (r := []) (acc := []) (Toks.one (propToks_skipA (u := u') (ks := ks)))
    simpa [Ins.attributesOf] using this
  · have hm := hps.has c!"lang" (by simp)
    obtain ⟨p, hp, hp1⟩ := List.mem_map.1 hm
    rcases hps.all p hp with ⟨-, v, hv, -⟩ | ⟨-, rfl⟩
    · refine ⟨v, ?_⟩
      obtain ⟨p1, p2⟩ := p
      simp only at hp1 hv
      subst hp1; subst hv
      exact hp
    · simp at hp1

theorem encodingProps_content : Emits b (characterEncodingProps U) false (fun ts _ => ∃ u ks ps, ts = [.node .characterEncodingProps u ks] ∧
      (∀ E, Ins.contentOf E U (.node .characterEncodingProps u ks) = .ok ⟨some [], some ps⟩) ∧ PairList b TextPair ps) := by
  refine (Emits.normal _ ((Emits.quiet _ _ _).seq (argWs_emits.seq (propsKey_emits.seq propKeyPairs_emits)))).mono ?_
  rintro _ u ⟨_, rfl, _, _, _, _, rfl, -, rfl, n1, _, _, _, rfl, -, h1, n3, _, _, _, rfl, -, h3, u', ks, rfl, hk⟩
  obtain ⟨ps, e, hps⟩ := keyPairsObj_pairs (fun p hp => hp.1) hk
  refine ⟨u, _, ps, rfl, fun E => contentOf_ok ?_ ?_, hps⟩
  · simp only [Tree.kids, List.nil_append, propertiesOf_noise h1, propertiesOf_noise h3]
    simp only [Ins.propertiesOf, Ins.propertyStep, Tree.rule, imInsert, Tree.kids, Ins.insertPairs, e]
  · simp only [Tree.kids, List.nil_append, attributesOf_noise h1, attributesOf_noise h3]
    have := attributesOf_skip (U := U) (r := []) (acc := []) (Toks.one (propToks_skipA (u := u') (ks := ks)))
    simpa [Ins.attributesOf] using this

/-! ### LINK -/

/-- the properties of ADD LINK -/
def LinkProps (E : Env) (U : Uni) (ps : List (Str × NVal)) : Prop :=
  ∃ s, IsWord U s ∧ (ps = [(c!"target", .ref (.name s))] ∨ (E.validSaid s = true ∧ ps = [(c!"target", .ref (.said s))]) ∨
    (E.validSaid s = false ∧ ps = []))

theorem link_content {A : Str × NVal → Prop} (hA : ∀ p, A p → IsKey p.1) {pairs : P} (kw : Str) (k : Rule)
    (hp : Emits b pairs false (fun ts _ => AttrsTok U b A ts)) :
    Emits b (normal k (ilit kw ~ₚ argWs ~ₚ referenceType U ~ₚ argWs ~ₚ attrsKey ~ₚ pairs)) false (fun ts _ => ∃ u ks as, ts = [.node k u ks] ∧
      (∀ E, ∃ ps, Ins.contentOf E U (.node k u ks) = .ok ⟨some as, some ps⟩ ∧ LinkProps E U ps) ∧ PairList b A as) := by
  have href : Emits b (referenceType U) false (fun ts _ => ∃ t, ts = [t] ∧ SkipA t ∧ ∀ E : Env, ∃ ps, Ins.propertyStep E U t [] = .ok ps ∧ LinkProps E U ps) := by
    refine Emits.alt (refSaid_emits.mono ?_) (refAlias_emits.mono ?_)
    · rintro _ _ ⟨s, rfl, hs⟩
      refine ⟨_, rfl, by simp [SkipA, Tree.rule], fun E => ?_⟩
      cases hv : E.validSaid s with
      | true => exact ⟨_, by simp only [Ins.propertyStep, Tree.rule, Tree.text, hv, if_true, imInsert], s, hs, .inr (.inl ⟨hv, rfl⟩)⟩
      | false => exact ⟨[], by simp [Ins.propertyStep, Tree.rule, Tree.text, hv], s, hs, .inr (.inr ⟨hv, rfl⟩)⟩
    · rintro _ _ ⟨s, rfl, hs⟩
      exact ⟨_, rfl, by simp [SkipA, Tree.rule], fun E => ⟨_, rfl, s, hs, .inl rfl⟩⟩
  refine (Emits.normal _ ((Emits.quiet _ _ _).seq (argWs_emits.seq (href.seq (argWs_emits.seq (attrsKey_emits.seq hp)))))).mono ?_
  rintro _ u ⟨_, rfl, _, _, _, _, rfl, -, rfl, n1, _, _, _, rfl, -, h1, _, _, l, _, rfl, -, ⟨t, rfl, hsk, ht⟩, n2, _, _, _, rfl, -, h2, n3, ts, _, _, rfl, -, h3, h⟩
  obtain ⟨as, ha, hp, hs⟩ := attrsTok_content hA h
  refine ⟨u, _, as, rfl, fun E => ?_, hp⟩
  obtain ⟨ps, e, hps⟩ := ht E
  refine ⟨ps, contentOf_ok ?_ ?_, hps⟩
  · simp only [Tree.kids, List.nil_append, propertiesOf_noise h1]
    simp only [List.singleton_append, Ins.propertiesOf, e, propertiesOf_noise h2, propertiesOf_noise h3, hs]
  · simp only [Tree.kids, List.nil_append, attributesOf_noise h1, attributesOf_skip (Toks.one hsk), attributesOf_noise h2, attributesOf_noise h3, ha]

/-! ### ATTR_FRAMING -/

/-- a pair of the metadata of a frame -/
def FrameMeta (p : Str × NVal) : Prop := IsMetaKey p.1 ∧ ∃ s, p.2 = .val s ∧ Clean s

theorem IsMetaKey.isKey {k : Str} (h : IsMetaKey k) : IsKey k := by
  rcases h with rfl | rfl | rfl | rfl <;> exact ⟨by simp, by decide⟩

theorem framingMetadataKey_emits : Emits b framingMetadataKey a (fun ts u => ts = [.node .framingMetadataKey u []] ∧ IsMetaKey u) := by
  have h : ∀ s : Str, IsMetaKey s → Emits b (lit s : P) false (fun ts u => ts = [] ∧ IsMetaKey u) :=
    fun s hs i o h _ => ⟨quiet h, by rw [lit_u h]; exact hs⟩
  refine (Emits.compound _ (Emits.alt (h _ (.inl rfl)) (Emits.alt (h _ (.inr (.inl rfl))) (Emits.alt (h _ (.inr (.inr (.inl rfl)))) (h _ (.inr (.inr (.inr rfl)))))))).mono ?_
  rintro _ u ⟨_, rfl, rfl, h⟩
  exact ⟨rfl, h⟩

theorem framingMetadataValue_emits : Emits b (framingMetadataValue U) a (fun ts u => ∃ ks v, ts = [.node .framingMetadataValue u ks] ∧ ValKids ks u v ∧ IsValue U u v) :=
  (Emits.compound _ value_emits).mono (by rintro _ u ⟨ks, rfl, v, h1, h2⟩; exact ⟨ks, v, rfl, h1, h2⟩)

theorem framingMetadataPair_emits : Emits b (framingMetadataPair U) false (fun ts _ => ∃ t, ts = [t] ∧ PairTok U FrameMeta t) := by
  refine (Emits.atomic _ (keyEq_emits framingMetadataKey_emits framingMetadataValue_emits)).mono ?_
  rintro _ _ ⟨_, rfl, _, _, k, u, rfl, ⟨rfl, hk⟩, ks, v, rfl, h1, h2⟩
  refine ⟨_, rfl, (k, .val v), ?_, hk, v, rfl, h2.clean⟩
  simp only [List.singleton_append, Ins.keyPairOf, Ins.keyPairLoop]
  rw [valueOf_text, h1 _ _]

theorem framingMetadata_emits : Emits b (framingMetadata U) false (fun ts _ => ∃ u ks, ts = [.node .framingMetadata u ks] ∧ PairToks U b FrameMeta ks) := by
  have h1 : Emits b (framingMetadataPair U) false (fun ts _ => Toks (PairTok U fun p => FrameMeta p ∨ NoisePair b p) ts) :=
    framingMetadataPair_emits.mono (by rintro _ _ ⟨t, rfl, kv, h1, h2⟩; exact .one ⟨kv, h1, .inl h2⟩)
  have hn : Emits b argWs false (fun ts _ => Toks (PairTok U fun p => FrameMeta p ∨ NoisePair b p) ts) :=
    argWs_emits.mono fun _ _ h => h.mono fun t ht => noise_pair ht (.inr ⟨ht.1, rfl⟩)
  refine (Emits.normal _ (framingMetadataPair_emits.seq (Emits.star (.seqToks hn h1)))).mono ?_
  rintro _ u ⟨_, rfl, _, _, _, _, rfl, -, ⟨t, rfl, kv, e1, e2⟩, h⟩
  exact ⟨u, _, rfl, (Toks.one ⟨kv, e1, .inl e2⟩).append h, t, by simp, kv, e1, e2⟩

/-- an attribute with its frames -/
def FramePair (U : Uni) (p : Str × NVal) : Prop := IsKey p.1 ∧ IsJson U p.2 ∧ ∃ g, p.2 = .obj g

theorem attrFramingKeyPair_emits : Emits b attrFramingKeyPair false (fun ts _ => ∃ t, ts = [t] ∧ Fine b (Ins.keyPairOf U t) (FramePair U)) := by
  refine (Emits.atomic _ (keyEq_emits attrKey_emits (jsonObject_emits (U := U)))).mono ?_
  rintro _ _ ⟨_, rfl, _, _, k, u, rfl, ⟨rfl, hk⟩, u', ks, rfl, h⟩
  refine ⟨_, rfl, ?_⟩
  simp only [List.singleton_append, Ins.keyPairOf, Ins.keyPairLoop]
  revert h
  cases Ins.jsonObject U ks [] with
  | ok g => exact fun h => ⟨hk, h, g, rfl⟩
  | err e => exact fun _ => trivial
  | panic => exact fun h => h

/-- tokens of the attributes of a framing -/
def FramingTok (U : Uni) (b : Bool) (t : Tok) : Prop := ∃ u ks, t = .node .attrFramingKeyPairs u ks ∧
  (∀ k ∈ ks, Fine b (Ins.keyPairOf U k) (fun p => FramePair U p ∨ NoisePair b p)) ∧ ∃ k ∈ ks, Fine b (Ins.keyPairOf U k) (FramePair U)

theorem attrFramingKeyPairs_emits : Emits b attrFramingKeyPairs false (fun ts _ => ∃ t, ts = [t] ∧ FramingTok U b t) := by
  have hn : ∀ {t : Tok}, Noise b t → Fine b (Ins.keyPairOf U t) (fun p => FramePair U p ∨ NoisePair b p) := by
    intro t ht
    obtain ⟨kv, h1, h2⟩ := noise_pair (U := U) (A := NoisePair b) ht ⟨ht.1, rfl⟩
    exact Fine.of_ok h1 (.inr h2)
  refine (Emits.compound _ (argWsStar_emits.seq ((attrFramingKeyPair_emits (U := U)).seq argWsNewline_emits))).mono ?_
  rintro _ u ⟨_, rfl, n1, _, _, _, rfl, -, h1, _, n2, _, _, rfl, -, ⟨t, rfl, ht⟩, h2⟩
  refine ⟨_, rfl, u, _, rfl, ?_, t, by simp, ht⟩
  intro k hk
  simp only [List.mem_append, List.mem_singleton] at hk
  rcases hk with hk | rfl | hk
  · exact hn (h1 k hk)
  · exact ht.mono fun _ => .inl
  · exact hn (h2 k hk)

theorem insLoop_err {V : Type} {f : Tok → Ins.R (Str × V)} {t : Tok} {ks : List Tok} (h : t ∈ ks) (hf : ∀ kv, f t ≠ .ok kv) (acc l : List (Str × V)) :
    insLoop f ks acc ≠ .ok l := by
  induction ks generalizing acc with
  | nil => cases h
  | cons x r ih =>
    simp only [insLoop]
    rcases List.mem_cons.1 h with rfl | h
    · cases hx : f t with
      | ok kv => exact absurd hx (hf kv)
      | err e => simp
      | panic => simp
    · cases f x with
      | ok kv => exact ih h _
      | err e => simp
      | panic => simp

theorem framingAttrs_fine {ks : List Tok} (h : Toks (FramingTok U b) ks) {names : List Str} {acc : List (Str × NVal)}
    (ha : Listed (fun p => FramePair U p ∨ NoisePair b p) names acc) :
    Fine b (Ins.attributesOf U ks acc) (fun l => Listed (fun p => FramePair U p ∨ NoisePair b p) names l ∧ (ks ≠ [] → ∃ n, IsKey n ∧ n ∈ l.map (·.1))) := by
  induction ks generalizing acc names with
  | nil => exact ⟨ha, fun h => absurd rfl h⟩
  | cons t r ih =>
    obtain ⟨u, ks, rfl, hk, t, ht, hf⟩ := h t (.head _)
    simp only [Ins.attributesOf, Tree.rule, or_true, if_true, Tree.kids, Ins.insertPairs, keyPairsObj_loop]
    have := insLoop_fine hk ha
    revert this
    cases hl : insLoop (Ins.keyPairOf U) ks acc with
    | err e => exact fun _ => trivial
    | panic => exact fun h => h
    | ok l =>
      rintro ⟨h1, h2⟩
      cases hkv : Ins.keyPairOf U t with
      | ok kv =>
        have hn := h2 t ht kv hkv
        refine (ih (names := kv.1 :: names) (fun x hx => h x (.tail _ hx)) ⟨h1.all, h1.distinct, ?_⟩).mono ?_
        · intro n hm
          rcases List.mem_cons.1 hm with rfl | hm
          · exact hn
          · exact h1.has n hm
        · rintro l' ⟨h3, -⟩
          exact ⟨⟨h3.all, h3.distinct, fun m hm => h3.has m (.tail _ hm)⟩, fun _ => ⟨kv.1, (hf.ok hkv).1, h3.has _ (.head _)⟩⟩
      | err e => exact absurd hl (insLoop_err ht (by simp [hkv]) _ _)
      | panic => exact absurd hl (insLoop_err ht (by simp [hkv]) _ _)

theorem framingTok_skipP {t : Tok} (h : FramingTok U b t) : SkipP t := by
  obtain ⟨u, ks, rfl, -⟩ := h
  intro E U acc
  rfl

theorem framing_content : Emits b (attributeFraming U) false (fun ts _ => ∃ u ks, ts = [.node .attributeFraming u ks] ∧
      ∀ E, Fine b (Ins.contentOf E U (.node .attributeFraming u ks)) (fun c => ∃ as ps, c = ⟨some as, some ps⟩ ∧ PairList b FrameMeta ps ∧ PairList b (FramePair U) as)) := by
  have hm : Emits b attrFramingKeyPairs false (fun ts _ => Toks (FramingTok U b) ts) :=
    attrFramingKeyPairs_emits.mono (by rintro _ _ ⟨t, rfl, h⟩; exact .one h)
  have hne : Emits b attrFramingKeyPairs false (fun ts _ => ts ≠ []) :=
    (attrFramingKeyPairs_emits (U := U)).mono (by rintro _ _ ⟨t, rfl, h⟩; simp)
  refine (Emits.normal _ ((Emits.quiet _ _ _).seq (argWs_emits.seq (framingMetadata_emits.seq (argWs_emits.seq (attrsKey_emits.seq (Emits.plusOne hm hne))))))).mono ?_
  rintro _ u ⟨_, rfl, _, _, _, _, rfl, -, rfl, n1, _, _, _, rfl, -, h1, _, _, _, _, rfl, -, ⟨u', ks, rfl, hk⟩, n2, _, _, _, rfl, -, h2, n3, _, _, _, rfl, -, h3, h4, t1, t2, _, rfl, h5⟩
  refine ⟨u, _, rfl, fun E => ?_⟩
  obtain ⟨ps, e, hps⟩ := keyPairsObj_pairs (fun p hp => hp.1.isKey) hk
  have ep : Ins.propertiesOf E U ([] ++ (n1 ++ ([Tree.node .framingMetadata u' ks] ++ (n2 ++ (n3 ++ (t1 ++ t2)))))) [] = .ok ps := by
    simp only [List.nil_append, propertiesOf_noise h1]
    simp only [List.singleton_append, Ins.propertiesOf, Ins.propertyStep, Tree.rule, Tree.kids, Ins.insertPairs, e, propertiesOf_noise h2, propertiesOf_noise h3]
    have := propertiesOf_skip (E := E) (U := U) (r := []) (acc := ps) (h4.mono fun _ => framingTok_skipP)
    simpa [Ins.propertiesOf] using this
  have ea : Ins.attributesOf U ([] ++ (n1 ++ ([Tree.node .framingMetadata u' ks] ++ (n2 ++ (n3 ++ (t1 ++ t2)))))) [] = Ins.attributesOf U (t1 ++ t2) [] := by
    simp only [List.nil_append, attributesOf_noise h1, attributesOf_noise h2, attributesOf_noise h3,
      attributesOf_skip (Toks.one (show SkipA (Tree.node .framingMetadata u' ks) by simp [SkipA, Tree.rule]))]
  simp only [Ins.contentOf, Tree.kids, ep, ea]
  have := framingAttrs_fine h4 (acc := []) (names := []) ⟨by simp, by simp, by simp⟩
  revert this
  cases Ins.attributesOf U (t1 ++ t2) [] with
  | err e => exact fun _ => trivial
  | panic => exact fun h => h
  | ok as =>
    rintro ⟨h6, h7⟩
    exact ⟨as, ps, rfl, hps, h6.all, h6.distinct, h7 (by simp [h5])⟩

end Gr
end OCA
