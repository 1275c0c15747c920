import Verif.Lemmas.ContentShapes
/-!
# The commands a file can hold, for every text

`FromText E U b c`: `c` is a command that the parser can make of a text; `b` says whether the text has a backslash, which is
what a continued line needs. Comments and empty lines between the pieces of a continued command are read as parts of it.
-/
namespace OCA
open Peg
namespace Gr
variable {b : Bool} {E : Env} {U : Uni} {a : Bool}

/-- the contents of ADD overlay commands -/
inductive FileContent (E : Env) (U : Uni) (b : Bool) : OvKind → Content → Prop
  | plain (k : OvKind) (hk : k = .characterEncoding ∨ k = .format ∨ k = .conformance ∨ k = .conditional ∨ k = .cardinality)
      (as : List (Str × NVal)) (h : PairList b TextPair as) : FileContent E U b k ⟨some as, some []⟩
  | unit (as : List (Str × NVal)) (h : PairList b AnyPair as) : FileContent E U b .unit ⟨some as, some []⟩
  | withLang (k : OvKind) (hk : k = .label ∨ k = .information) (as : List (Str × NVal)) (h : PairList b TextPair as) (l : Str) (hl : IsLang l) :
      FileContent E U b k ⟨some as, some [(c!"lang", .val l)]⟩
  | metas (ps : List (Str × NVal)) (h : MetaProps b ps) : FileContent E U b .metaOv ⟨some [], some ps⟩
  | encodingProps (ps : List (Str × NVal)) (h : PairList b TextPair ps) : FileContent E U b .characterEncoding ⟨some [], some ps⟩
  | entryCodes (as : List (Str × NVal)) (h : PairList b CodePair as) : FileContent E U b .entryCode ⟨some as, some []⟩
  | entries (as : List (Str × NVal)) (h : PairList b EntriesPair as) (l : Str) (hl : IsLang l) :
      FileContent E U b .entry ⟨some as, some [(c!"lang", .val l)]⟩
  | link (as : List (Str × NVal)) (h : PairList b TextPair as) (ps : List (Str × NVal)) (hp : LinkProps E U ps) :
      FileContent E U b .link ⟨some as, some ps⟩
  | framing (as : List (Str × NVal)) (h : PairList b (FramePair U) as) (ps : List (Str × NVal)) (hp : PairList b FrameMeta ps) :
      FileContent E U b .attributeFraming ⟨some as, some ps⟩

/-- the commands of a file -/
inductive FromText (E : Env) (U : Uni) (b : Bool) : Command → Prop
  | «from» (s : Str) (hs : E.validSaid s = true) : FromText E U b ⟨.«from», .ocaBundle (.said s)⟩
  | attributes (l : List (Str × NAttr)) (h : AttrList E U b l) : FromText E U b ⟨.add, .captureBase ⟨some l, none, none⟩⟩
  | classification (v : Str) (h : (∃ w, IsValue U v w) ∨ b = true) :
      FromText E U b ⟨.add, .captureBase ⟨none, some [(c!"classification", .val v)], none⟩⟩
  | flagged (v : Str) : FromText E U b ⟨.add, .captureBase ⟨none, none, some [v]⟩⟩
  | overlay (k : OvKind) (c : Content) (h : FileContent E U b k c) : FromText E U b ⟨.add, .overlay ⟨k, c!"1.1"⟩ c⟩
  | removeAttributes (l : List Str) (hd : l.Nodup) (h : ∀ k ∈ l, IsKey k ∨ b = true) :
      FromText E U b ⟨.remove, .captureBase ⟨some (l.map fun k => (k, .null)), none, none⟩⟩
  | removeClassification : FromText E U b ⟨.remove, .captureBase ⟨none, some [(c!"classification", .val [])], none⟩⟩
  | removeMeta : FromText E U b ⟨.remove, .overlay ⟨.metaOv, c!"1.1"⟩ ⟨none, some []⟩⟩
  | removeLabel : FromText E U b ⟨.remove, .overlay ⟨.label, c!"1.1"⟩ ⟨some [], some []⟩⟩

/-! ## ADD -/

/-- what an object token is read as -/
def ObjTok (U : Uni) (b : Bool) (t : Tok) : Prop :=
  ∀ (E : Env) (old : Option ObjKind), Fine b (Ins.addStep E U t old) (fun o => ∃ x, o = some x ∧ FromText E U b ⟨.add, x⟩)

theorem overlayTok {k : OvKind} {r : Rule} {u : Str} {ks : List Tok} (hk : Ins.addKind r = some k)
    (h : ∀ E, Fine b (Ins.contentOf E U (.node r u ks)) (FileContent E U b k)) : ObjTok U b (.node r u ks) := by
  intro E old
  simp only [Ins.addStep, Tree.rule, hk]
  have := h E
  revert this
  cases Ins.contentOf E U (.node r u ks) with
  | ok c => exact fun h => ⟨_, rfl, .overlay k c h⟩
  | err e => exact fun _ => trivial
  | panic => exact fun h => h

theorem attrKeyPairs_attrs : Emits b (attrKeyPairs U) false (fun ts _ => AttrsTok U b TextPair ts) :=
  attrKeyPairs_emits.mono (by rintro _ _ ⟨u, ks, rfl, h⟩; exact ⟨_, u, ks, rfl, .inl rfl, h⟩)

theorem plainTok {p : P} {r : Rule} (k : OvKind) (hk : Ins.addKind r = some k)
    (hk' : k = .characterEncoding ∨ k = .format ∨ k = .conformance ∨ k = .conditional ∨ k = .cardinality)
    (h : Emits b p false (fun ts _ => ∃ u ks as, ts = [.node r u ks] ∧ (∀ E, Ins.contentOf E U (.node r u ks) = .ok ⟨some as, some []⟩) ∧ PairList b TextPair as)) :
    Emits b p false (fun ts _ => ∃ t, ts = [t] ∧ ObjTok U b t) := by
  refine h.mono ?_
  rintro _ _ ⟨u, ks, as, rfl, h1, h2⟩
  exact ⟨_, rfl, overlayTok hk fun E => Fine.of_ok (h1 E) (.plain k hk' as h2)⟩

theorem langObj_tok {p : P} {r : Rule} (k : OvKind) (hk : Ins.addKind r = some k) (hk' : k = .label ∨ k = .information)
    (h : Emits b p false (fun ts _ => ∃ u ks as l, ts = [.node r u ks] ∧
      (∀ E, Ins.contentOf E U (.node r u ks) = .ok ⟨some as, some [(c!"lang", .val l)]⟩) ∧ PairList b TextPair as ∧ IsLang l)) :
    Emits b p false (fun ts _ => ∃ t, ts = [t] ∧ ObjTok U b t) := by
  refine h.mono ?_
  rintro _ _ ⟨u, ks, as, l, rfl, h1, h2, h3⟩
  exact ⟨_, rfl, overlayTok hk fun E => Fine.of_ok (h1 E) (.withLang k hk' as h2 l h3)⟩

theorem classificationValue_emits : Emits b (classificationValue U) false (fun ts u => ∃ ks, ts = [.node .classificationValue u ks] ∧ ∃ w, IsValue U u w) :=
  (Emits.normal _ value_emits).mono (by rintro _ u ⟨ks, rfl, v, -, h⟩; exact ⟨ks, rfl, v, h⟩)

theorem classification_tok : Emits b (classification U) false (fun ts _ => ∃ t, ts = [t] ∧ ObjTok U b t) := by
  refine (Emits.normal _ ((Emits.quiet _ _ _).seq (argWs_emits.seq classificationValue_emits))).mono ?_
  rintro _ u ⟨_, rfl, _, _, _, _, rfl, -, rfl, n1, _, _, v, rfl, -, h1, ks, rfl, w, hw⟩
  refine ⟨_, rfl, fun E old => ?_⟩
  cases n1 with
  | nil => exact ⟨_, rfl, .classification v (.inl ⟨w, hw⟩)⟩
  | cons t n1 => exact ⟨_, rfl, .classification _ (.inr (h1 t (.head _)).1)⟩

theorem flagged_tok : Emits b (flaggedAttrs U) false (fun ts _ => ∃ t, ts = [t] ∧ ObjTok U b t) := by
  have hl : Emits b (listValue U) false (fun ts _ => ∃ u ks, ts = [.node .listValue u ks]) := by
    intro i o h _
    obtain ⟨o', -, rfl⟩ := compound_some h
    exact ⟨_, _, rfl⟩
  refine (Emits.normal _ ((Emits.quiet _ _ _).seq (argWs_emits.seq hl))).mono ?_
  rintro _ u ⟨_, rfl, _, _, _, _, rfl, -, rfl, n1, _, _, _, rfl, -, h1, v, ks, rfl⟩
  refine ⟨_, rfl, fun E old => ?_⟩
  have hn : n1.filter (fun k => k.rule = .listValue) = [] := by
    rw [List.filter_eq_nil_iff]
    intro t ht
    rcases (h1 t ht).2.1 with h | h <;> rw [h] <;> decide
  have : Ins.flaggedOf (.node .flaggedAttrs u ([] ++ (n1 ++ [.node .listValue v ks]))) = [v] := by
    simp only [Ins.flaggedOf, Tree.kids, List.nil_append, List.filter_append, hn]
    rfl
  simp only [Ins.addStep, Tree.rule, Ins.addKind, this]
  exact ⟨_, rfl, .flagged v⟩

theorem objectTail_tok : Emits b (objectTail U) false (fun ts _ => ∃ t, ts = [t] ∧ ObjTok U b t) := by
  have ht : ∀ p, TextPair p → IsKey p.1 := fun p h => h.1
  refine Emits.alt (langObj_tok .information rfl (.inr rfl) (lang_content ht _ _ attrKeyPairs_attrs)) ?_
  refine Emits.alt ?_ ?_
  · refine (plain_content (A := AnyPair) (U := U) (fun p h => h.1) c!"unit" .unit ((unitAttrKeyPairs_emits (U := U)).mono ?_)).mono ?_
    · rintro _ _ ⟨u, ks, rfl, h⟩; exact ⟨_, u, ks, rfl, .inr (.inr (.inr rfl)), h⟩
    · rintro _ _ ⟨u, ks, as, rfl, h1, h2⟩
      exact ⟨_, rfl, overlayTok rfl fun E => Fine.of_ok (h1 E) (.unit as h2)⟩
  refine Emits.alt (plainTok .characterEncoding rfl (by simp) (plain_content ht _ _ attrKeyPairs_attrs)) ?_
  refine Emits.alt ?_ ?_
  · refine encodingProps_content.mono ?_
    rintro _ _ ⟨u, ks, ps, rfl, h1, h2⟩
    exact ⟨_, rfl, overlayTok rfl fun E => Fine.of_ok (h1 E) (.encodingProps ps h2)⟩
  refine Emits.alt (plainTok .format rfl (by simp) (plain_content ht _ _ attrKeyPairs_attrs)) ?_
  refine Emits.alt (plainTok .conformance rfl (by simp) (plain_content ht _ _ attrKeyPairs_attrs)) ?_
  refine Emits.alt (plainTok .conditional rfl (by simp) (plain_content ht _ _ attrKeyPairs_attrs)) ?_
  refine Emits.alt (plainTok .cardinality rfl (by simp) (plain_content ht _ _ attrKeyPairs_attrs)) ?_
  refine Emits.alt ?_ ?_
  · refine (plain_content (A := CodePair) (U := U) (fun p h => h.1) c!"entry_code" .entryCode (attrEntryCodeKeyPairs_emits.mono ?_)).mono ?_
    · rintro _ _ ⟨u, ks, rfl, h⟩; exact ⟨_, u, ks, rfl, .inr (.inl rfl), h⟩
    · rintro _ _ ⟨u, ks, as, rfl, h1, h2⟩
      exact ⟨_, rfl, overlayTok rfl fun E => Fine.of_ok (h1 E) (.entryCodes as h2)⟩
  refine Emits.alt ?_ ?_
  · refine (lang_content (A := EntriesPair) (U := U) (fun p h => h.1) c!"entry" .entry (attrEntryKeyPairs_emits.mono ?_)).mono ?_
    · rintro _ _ ⟨u, ks, rfl, h⟩; exact ⟨_, u, ks, rfl, .inr (.inr (.inl rfl)), h⟩
    · rintro _ _ ⟨u, ks, as, l, rfl, h1, h2, h3⟩
      exact ⟨_, rfl, overlayTok rfl fun E => Fine.of_ok (h1 E) (.entries as h2 l h3)⟩
  refine Emits.alt ?_ ?_
  · refine (link_content ht c!"link" .link attrKeyPairs_attrs).mono ?_
    rintro _ _ ⟨u, ks, as, rfl, h1, h2⟩
    refine ⟨_, rfl, overlayTok rfl fun E => ?_⟩
    obtain ⟨ps, e, hp⟩ := h1 E
    exact Fine.of_ok e (.link as h2 ps hp)
  refine Emits.alt ?_ flagged_tok
  refine framing_content.mono ?_
  rintro _ _ ⟨u, ks, rfl, h⟩
  refine ⟨_, rfl, overlayTok rfl fun E => (h E).mono ?_⟩
  rintro c ⟨as, ps, rfl, h1, h2⟩
  exact .framing as h2 ps h1

theorem attribute_tok : Emits b (attributeR U) false (fun ts _ => ∃ t, ts = [t] ∧ ObjTok U b t) := by
  intro i o h hb
  obtain ⟨o', -, e⟩ := normal_some h
  simp only [if_neg (show ¬ (false = true) by decide)] at e
  refine ⟨.node .attribute o'.u o'.ts, by rw [e], fun E old => ?_⟩
  obtain ⟨u, ks, e2, hf⟩ := attribute_emits (E := E) i o h hb
  rw [e] at e2
  injection e2 with e2
  injection e2 with _ e3 e4
  subst e3; subst e4
  simp only [Ins.addStep, Tree.rule, Ins.addKind, Tree.kids]
  revert hf
  cases Ins.addAttributes E o'.ts [] with
  | ok l => exact fun h => ⟨_, rfl, .attributes l h⟩
  | err e => exact fun _ => trivial
  | panic => exact fun h => by cases h

theorem ocaObject_tok : Emits b (ocaObject U) false (fun ts _ => ∃ t, ts = [t] ∧ ObjTok U b t) := by
  have ht : ∀ p, TextPair p → IsKey p.1 := fun p h => h.1
  refine Emits.alt (meta_content.mono ?_) (Emits.alt (langObj_tok .label rfl (.inl rfl) (lang_content ht _ _ attrKeyPairs_attrs))
    (Emits.alt attribute_tok (Emits.alt classification_tok objectTail_tok)))
  rintro _ _ ⟨u, ks, ps, rfl, h1, h2⟩
  exact ⟨_, rfl, overlayTok rfl fun E => Fine.of_ok (h1 E) (.metas ps h2)⟩

theorem addLoop_noise {n : List Tok} {t : Tok} (hn : Toks (Noise b) n) (ht : ObjTok U b t) (old : Option ObjKind) :
    Fine b (Ins.addLoop E U (n ++ [t]) old) (fun o => ∃ x, o = some x ∧ FromText E U b ⟨.add, x⟩) := by
  induction n generalizing old with
  | nil =>
    simp only [List.nil_append, Ins.addLoop]
    have := ht E old
    revert this
    cases Ins.addStep E U t old with
    | ok o => exact fun h => h
    | err e => exact fun _ => trivial
    | panic => exact fun h => h
  | cons x n ih =>
    obtain ⟨-, hr, -⟩ := hn x (.head _)
    cases x with
    | node r u ks =>
      rcases hr with hr | hr <;> (simp only [Tree.rule] at hr; subst hr)
      · exact ih (fun y hy => hn y (.tail _ hy)) old
      · exact trivial

/-- what a command token is read as -/
def CmdTok (U : Uni) (b : Bool) (t : Tok) : Prop :=
  (t.rule ≠ .eoi ∧ t.rule ≠ .comment ∧ t.rule ≠ .metaComment ∧ t.rule ≠ .emptyLine) ∧ ∀ E, Fine b (Ins.commandOf E U t) (FromText E U b)

theorem add_tok : Emits b (add U) false (fun ts u => ∃ t, ts = [t] ∧ t.text = u ∧ CmdTok U b t) := by
  refine (Emits.normal _ ((Emits.quiet _ _ _).seq (argWsStar_emits.seq ocaObject_tok))).mono ?_
  rintro _ u ⟨_, rfl, _, _, _, _, rfl, -, rfl, n, _, _, _, rfl, -, hn, t, rfl, ht⟩
  refine ⟨_, rfl, rfl, by simp [Tree.rule], fun E => ?_⟩
  simp only [Ins.commandOf, Tree.rule, Ins.addOf, Tree.kids, List.nil_append]
  have := addLoop_noise (E := E) hn ht none
  revert this
  cases Ins.addLoop E U (n ++ [t]) none with
  | ok o => rintro ⟨x, rfl, h⟩; exact h
  | err e => exact fun _ => trivial
  | panic => exact fun h => h

/-! ## REMOVE -/

/-- what an object token of REMOVE is read as -/
def RemTok (U : Uni) (b : Bool) (t : Tok) : Prop := ∀ E, Fine b (Ins.removeStep t) (fun x => FromText E U b ⟨.remove, x⟩)

theorem tail_rem : Emits b (objectTail U) false (fun ts _ => ∃ t, ts = [t] ∧ RemTok U b t) := by
  have hn : ∀ (k : Rule) (p : P), (∀ u ks, Ins.removeStep (.node k u ks) = .err c!"unexpected token") →
      Emits b (normal k p) false (fun ts _ => ∃ t, ts = [t] ∧ RemTok U b t) := by
    intro k p hk i o h _
    obtain ⟨o', -, e⟩ := normal_some h
    simp only [if_neg (show ¬ (false = true) by decide)] at e
    refine ⟨.node k o'.u o'.ts, by rw [e], fun E => ?_⟩
    rw [hk]; trivial
  unfold objectTail
  repeat' apply Emits.alt
  all_goals exact hn _ _ (fun _ _ => rfl)

theorem namesOf_noise {k : Rule} {n r : List Tok} {l : Str} (hk : k = .propKey ∨ k = .attrKey) (hn : Toks (Noise b) n) :
    Ins.namesOf k (n ++ (.node .lang l [] :: r)) [] = [] := by
  cases n with
  | nil => rcases hk with rfl | rfl <;> rfl
  | cons t n =>
    have := (hn t (.head _)).2.1
    simp only [List.cons_append, Ins.namesOf]
    rw [if_neg]
    rcases hk with rfl | rfl <;> rcases this with h | h <;> rw [h] <;> decide

theorem removeMeta_rem : Emits b removeMeta false (fun ts _ => ∃ t, ts = [t] ∧ RemTok U b t) := by
  intro i o h hb
  obtain ⟨o', h', e⟩ := normal_some h
  simp only [if_neg (show ¬ (false = true) by decide)] at e
  refine ⟨.node .removeMeta o'.u o'.ts, by rw [e], fun E => ?_⟩
  subst e
  obtain ⟨o1, o2, e1, e2, rfl⟩ := seq_some h'
  obtain ⟨o3, o4, e3, e4, rfl⟩ := seq_some e2
  obtain ⟨o5, o6, e5, e6, rfl⟩ := seq_some e4
  have h3 := argWs_emits (b := b) _ _ e3 fun e m => hb e (by simp [m])
  obtain ⟨h5, -⟩ := lang_emits (b := b) _ _ e5 fun e m => hb e (by simp [m])
  simp only [Ins.removeStep, Tree.rule, Tree.kids, quiet e1, List.nil_append, h5, List.singleton_append, namesOf_noise (.inl rfl) h3]
  exact .removeMeta

theorem removeLabel_rem : Emits b removeLabel false (fun ts _ => ∃ t, ts = [t] ∧ RemTok U b t) := by
  intro i o h hb
  obtain ⟨o', h', e⟩ := normal_some h
  simp only [if_neg (show ¬ (false = true) by decide)] at e
  refine ⟨.node .removeLabel o'.u o'.ts, by rw [e], fun E => ?_⟩
  subst e
  obtain ⟨o1, o2, e1, e2, rfl⟩ := seq_some h'
  obtain ⟨o3, o4, e3, e4, rfl⟩ := seq_some e2
  obtain ⟨o5, o6, e5, e6, rfl⟩ := seq_some e4
  have h3 := argWs_emits (b := b) _ _ e3 fun e m => hb e (by simp [m])
  obtain ⟨h5, -⟩ := lang_emits (b := b) _ _ e5 fun e m => hb e (by simp [m])
  simp only [Ins.removeStep, Tree.rule, Tree.kids, quiet e1, List.nil_append, h5, List.singleton_append, namesOf_noise (.inl rfl) h3, namesOf_noise (.inr rfl) h3]
  exact .removeLabel

theorem removeNames (ks : List Tok) (acc : List Str) (hd : acc.Nodup) (h : ∀ t ∈ ks, IsKey t.text ∨ b = true) (ha : ∀ k ∈ acc, IsKey k ∨ b = true) :
    ∃ l : List Str, ks.foldl (fun acc k => imInsert k.text NAttr.null acc) (acc.map fun k => (k, .null)) = l.map (fun k => (k, .null)) ∧ l.Nodup ∧
      ∀ k ∈ l, IsKey k ∨ b = true := by
  induction ks generalizing acc with
  | nil => exact ⟨acc, rfl, hd, ha⟩
  | cons t r ih =>
    have hi : ∀ (acc : List Str), imInsert t.text NAttr.null (acc.map fun k => (k, .null)) =
        (if t.text ∈ acc then acc else acc ++ [t.text]).map fun k => (k, .null) := by
      intro acc
      induction acc with
      | nil => rfl
      | cons x acc ih =>
        simp only [List.map_cons, imInsert]
        by_cases hx : t.text = x
        · subst hx; simp
        · rw [if_neg hx, ih]
          by_cases hm : t.text ∈ acc
          · rw [if_pos hm, if_pos (by simp [hm])]; rfl
          · rw [if_neg hm, if_neg (by simp [hm, hx])]; rfl
    rw [List.foldl_cons, hi]
    refine ih _ ?_ (fun x hx => h x (.tail _ hx)) ?_
    · split
      · exact hd
      · next hm =>
        refine List.nodup_append.2 ⟨hd, by simp, ?_⟩
        intro x hx y hy
        rcases List.mem_singleton.1 hy with rfl
        rintro rfl
        exact hm hx
    · intro k hk
      split at hk
      · exact ha k hk
      · rcases List.mem_append.1 hk with hk | hk
        · exact ha k hk
        · rcases List.mem_singleton.1 hk with rfl
          exact h t (.head _)

theorem removeAttribute_rem : Emits b removeAttribute false (fun ts _ => ∃ t, ts = [t] ∧ RemTok U b t) := by
  have h1 : Emits b (argWs ~ₚ attrKey) false (fun ts _ => Toks (fun t => IsKey t.text ∨ b = true) ts) :=
    .seqToks (argWs_emits.mono fun _ _ h => h.mono fun t ht => .inr ht.1)
      (attrKey_emits.mono (by rintro _ _ ⟨rfl, h⟩; exact .one (.inl h)))
  refine (Emits.normal _ ((Emits.quiet _ _ _).seq h1.star)).mono ?_
  rintro _ u ⟨_, rfl, _, ks, _, _, rfl, -, rfl, h⟩
  refine ⟨_, rfl, fun E => ?_⟩
  obtain ⟨l, e, hd, hl⟩ := removeNames ks [] (by simp) h (by simp)
  simp only [Ins.removeStep, Tree.rule, Tree.kids, List.nil_append]
  simp only [List.map_nil] at e
  rw [e]
  exact .removeAttributes l hd hl

theorem removeClassification_rem : Emits b removeClassification false (fun ts _ => ∃ t, ts = [t] ∧ RemTok U b t) := by
  refine (Emits.normal _ (Emits.quiet _ _ _)).mono ?_
  rintro _ u ⟨_, rfl, rfl⟩
  exact ⟨_, rfl, fun E => .removeClassification⟩

theorem remove_tok : Emits b (remove U) false (fun ts u => ∃ t, ts = [t] ∧ t.text = u ∧ CmdTok U b t) := by
  refine (Emits.normal _ ((Emits.quiet _ _ _).seq (argWsStar_emits.seq (Emits.alt removeMeta_rem (Emits.alt removeLabel_rem
    (Emits.alt removeAttribute_rem (Emits.alt removeClassification_rem tail_rem))))))).mono ?_
  rintro _ u ⟨_, rfl, _, _, _, _, rfl, -, rfl, n, _, _, _, rfl, -, hn, t, rfl, ht⟩
  refine ⟨_, rfl, rfl, by simp [Tree.rule], fun E => ?_⟩
  simp only [Ins.commandOf, Tree.rule, Ins.removeOf, Tree.kids, List.nil_append]
  cases n with
  | nil =>
    simp only [List.nil_append, Ins.removeLoop]
    have := ht E
    revert this
    cases Ins.removeStep t with
    | ok o => exact fun h => h
    | err e => exact fun _ => trivial
    | panic => exact fun h => h
  | cons x n =>
    obtain ⟨-, hr, -⟩ := hn x (.head _)
    cases x with
    | node r u ks => rcases hr with hr | hr <;> (simp only [Tree.rule] at hr; subst hr) <;> exact trivial

/-! ## FROM and MODIFY -/

theorem from_tok : Emits b (from_ U) false (fun ts u => ∃ t, ts = [t] ∧ t.text = u ∧ CmdTok U b t) := by
  intro i o h hb
  obtain ⟨o', h', e⟩ := normal_some h
  simp only [if_neg (show ¬ (false = true) by decide)] at e
  refine ⟨.node .from_ o'.u o'.ts, by rw [e], by rw [e]; rfl, by simp [Tree.rule], fun E => ?_⟩
  obtain ⟨o1, o2, e1, e2, rfl⟩ := seq_some h'
  obtain ⟨o3, o4, e3, e4, rfl⟩ := seq_some e2
  obtain ⟨o5, -, e5⟩ := normal_some e4
  simp only [if_neg (show ¬ (false = true) by decide)] at e5
  subst e5
  simp only [Ins.commandOf, Tree.rule, Ins.fromOf, Tree.kids, quiet e1, quiet e3, List.nil_append, Ins.fromLoop, Tree.text]
  split
  · exact .«from» _ ‹_›
  · trivial

theorem modify_tok : Emits b (modify U) false (fun ts u => ∃ t, ts = [t] ∧ t.text = u ∧ CmdTok U b t) := by
  intro i o h hb
  obtain ⟨o', h', e⟩ := normal_some h
  simp only [if_neg (show ¬ (false = true) by decide)] at e
  exact ⟨.node .modify o'.u o'.ts, by rw [e], by rw [e]; rfl, by simp [Tree.rule], fun E => trivial⟩

/-! ## Lines -/

/-- what a token of the file is read as -/
def LineTok (U : Uni) (b : Bool) (t : Tok) : Prop := ∀ E, ∃ l, Ins.lineOf E U t = .ok l ∧
  match l with
  | .eoi => True
  | .comment => True
  | .emptyLine => True
  | .metaLine k v => (k = [] ∧ v = []) ∨ ((k = c!"name" ∨ k = c!"version" ∨ k = c!"precompiler") ∧ ∃ w, IsValue U v w)
  | .instr raw r => raw = t.text ∧ Fine b r (FromText E U b)

theorem CmdTok.line {t : Tok} (h : CmdTok U b t) : LineTok U b t := by
  intro E
  obtain ⟨⟨h1, h2, h3, h4⟩, h⟩ := h
  refine ⟨.instr t.text (Ins.commandOf E U t), ?_, rfl, h E⟩
  unfold Ins.lineOf
  split <;> first | (exfalso; contradiction) | rfl

/-- tokens with their texts inside the text -/
def Within (S : Tok → Prop) (ts : List Tok) (u : Str) : Prop := ∀ t ∈ ts, S t ∧ t.text <:+: u

theorem Within.append {S : Tok → Prop} {t1 t2 : List Tok} {u1 u2 : Str} (h1 : Within S t1 u1) (h2 : Within S t2 u2) : Within S (t1 ++ t2) (u1 ++ u2) := by
  intro t ht
  rcases List.mem_append.1 ht with ht | ht
  · exact ⟨(h1 t ht).1, (h1 t ht).2.trans (List.prefix_append _ _).isInfix⟩
  · exact ⟨(h2 t ht).1, (h2 t ht).2.trans (List.suffix_append _ _).isInfix⟩

theorem _root_.OCA.Peg.Emits.within {S : Tok → Prop} {p : P} (h : Emits b p a (fun ts u => ∃ t, ts = [t] ∧ t.text = u ∧ S t)) : Emits b p a (Within S) := by
  refine h.mono ?_
  rintro _ u ⟨t, rfl, rfl, h⟩ x hx
  rcases List.mem_singleton.1 hx with rfl
  exact ⟨h, List.infix_refl _⟩

theorem _root_.OCA.Peg.Emits.seqWithin {S : Tok → Prop} {p q : P} (h1 : Emits b p a (Within S)) (h2 : Emits b q a (Within S)) : Emits b (p ~ₚ q) a (Within S) := by
  refine (h1.seq h2).mono ?_
  rintro _ _ ⟨_, _, _, _, rfl, rfl, h1, h2⟩
  exact h1.append h2

theorem _root_.OCA.Peg.Emits.quietWithin {S : Tok → Prop} {p : P} [Quiet p a] : Emits b p a (Within S) :=
  fun i o h _ => by rw [quiet h]; intro t ht; cases ht

theorem _root_.OCA.Peg.Emits.starWithin {S : Tok → Prop} {p : P} (h1 : Emits b p a (Within S)) : Emits b p*ₚ a (Within S) := by
  intro i o h hb
  have : (b = false → '\\' ∉ o.u) → Within S o.ts o.u := by
    refine star_rec (P := fun _ o => (b = false → '\\' ∉ o.u) → Within S o.ts o.u) (fun _ _ _ => (by intro t ht; cases ht)) ?_ i o h
    intro i o o' e1 _ _ ih hb
    exact (h1 _ _ e1 fun e m => hb e (by simp [m])).append (ih fun e m => hb e (by simp [m]))
  exact this hb

theorem semMetaKey_emits : Emits b semMetaKey a (fun ts u => ts = [.node .metaAttrKey u []] ∧ (u = c!"name" ∨ u = c!"version" ∨ u = c!"precompiler")) := by
  have h : ∀ s : Str, (s = c!"name" ∨ s = c!"version" ∨ s = c!"precompiler") →
      Emits b (lit s : P) false (fun ts u => ts = [] ∧ (u = c!"name" ∨ u = c!"version" ∨ u = c!"precompiler")) :=
    fun s hs i o h _ => ⟨quiet h, by rw [lit_u h]; exact hs⟩
  refine (Emits.compound _ (Emits.alt (h _ (.inl rfl)) (Emits.alt (h _ (.inr (.inl rfl))) (h _ (.inr (.inr rfl)))))).mono ?_
  rintro _ u ⟨_, rfl, rfl, h⟩
  exact ⟨rfl, h⟩

theorem metaAttrValue_emits : Emits b (metaAttrValue U) a (fun ts u => ∃ ks, ts = [.node .metaAttrValue u ks] ∧ ∃ v, IsValue U u v) :=
  (Emits.compound _ value_emits).mono (by rintro _ u ⟨ks, rfl, v, -, h2⟩; exact ⟨ks, rfl, v, h2⟩)

/-- what the pairs of a meta comment are read as -/
def MetaToks (U : Uni) (K : Str → Prop) (ts : List Tok) : Prop := ∀ acc : Str × Str, (acc = ([], []) ∨ (K acc.1 ∧ ∃ w, IsValue U acc.2 w)) → ∀ r,
  ∃ acc', Ins.metaLoop (ts ++ r) acc = Ins.metaLoop r acc' ∧ (acc' = ([], []) ∨ (K acc'.1 ∧ ∃ w, IsValue U acc'.2 w))

theorem MetaToks.append {K : Str → Prop} {t1 t2 : List Tok} (h1 : MetaToks U K t1) (h2 : MetaToks U K t2) : MetaToks U K (t1 ++ t2) := by
  intro acc ha r
  obtain ⟨acc', e, ha'⟩ := h1 acc ha (t2 ++ r)
  obtain ⟨acc'', e', ha''⟩ := h2 acc' ha' r
  exact ⟨acc'', by rw [List.append_assoc, e, e'], ha''⟩

theorem metaKeyPair_emits {K : Str → Prop} {key : P} (hk : Emits b key true (fun ts u => ts = [.node .metaAttrKey u []] ∧ K u)) :
    Emits b (metaKeyPair U key) true (fun ts _ => MetaToks U K ts) := by
  intro i o h hb
  obtain ⟨o', h', e⟩ := atomic_some h
  rw [if_pos rfl] at e
  subst e
  obtain ⟨t1, t2, u1, u2, e, ⟨rfl, h1⟩, ks, rfl, v, h2⟩ := keyEq_emits hk metaAttrValue_emits i o h' hb
  rw [e]
  intro acc ha r
  exact ⟨(u1, u2), by simp [Ins.metaLoop, Tree.rule, Tree.text], .inr ⟨h1, v, h2⟩⟩

theorem metaComment_emits {K : Str → Prop} {key : P} (hk : Emits b key true (fun ts u => ts = [.node .metaAttrKey u []] ∧ K u)) :
    Emits b (metaComment U key) false (fun ts u => ∃ ks, ts = [.node .metaComment u ks] ∧ MetaToks U K ks) := by
  refine Emits.atomic _ ?_
  intro i o h hb
  obtain ⟨o1, o2, e1, e2, rfl⟩ := seq_some h
  obtain ⟨o3, o4, e3, e4, rfl⟩ := seq_some e2
  simp only [quiet e1, quiet e3, List.nil_append]
  have : (b = false → '\\' ∉ o4.u) → MetaToks U K o4.ts := by
    refine star_rec (P := fun _ o => (b = false → '\\' ∉ o.u) → MetaToks U K o.ts) (fun _ _ _ => fun acc ha r => ⟨acc, rfl, ha⟩) ?_ _ _ e4
    intro i o o' e1 _ _ ih hb
    obtain ⟨o5, o6, e5, e6, rfl⟩ := seq_some e1
    have h1 := metaKeyPair_emits hk _ _ e6 fun e m => hb e (by simp [m])
    have h2 := ih fun e m => hb e (by simp [m])
    simp only [quiet e5, List.nil_append]
    exact h1.append h2
  exact this fun e m => hb e (by simp [m])

theorem metaComment_line : Emits b (metaComment U semMetaKey) false (fun ts u => ∃ t, ts = [t] ∧ t.text = u ∧ LineTok U b t) := by
  refine (metaComment_emits (K := fun u => u = c!"name" ∨ u = c!"version" ∨ u = c!"precompiler") semMetaKey_emits).mono ?_
  rintro _ u ⟨ks, rfl, h⟩
  refine ⟨_, rfl, rfl, fun E => ?_⟩
  obtain ⟨⟨k, v⟩, e, hkv⟩ := h ([], []) (.inl rfl) []
  rw [List.append_nil] at e
  refine ⟨.metaLine k v, by simp only [Ins.lineOf, Tree.rule, Tree.kids, e, Ins.metaLoop], ?_⟩
  rcases hkv with hkv | hkv
  · injection hkv with h1 h2
    exact .inl ⟨h1, h2⟩
  · exact .inr hkv

theorem file_emits : Emits b (file U) false (fun ts u => ∃ ks, ts = [.node .file u ks] ∧ Within (LineTok U b) ks u) := by
  have hcomm : Emits b comment false (Within (LineTok U b)) :=
    Emits.within (comment_emits.mono (by rintro _ u ⟨_, rfl, rfl⟩; exact ⟨_, rfl, rfl, fun E => ⟨.comment, rfl, trivial⟩⟩))
  have hempty : Emits b emptyLine false (Within (LineTok U b)) :=
    Emits.within (emptyLine_emits.mono (by rintro _ u ⟨_, rfl, rfl⟩; exact ⟨_, rfl, rfl, fun E => ⟨.emptyLine, rfl, trivial⟩⟩))
  have hcmd : ∀ {p : P}, Emits b p false (fun ts u => ∃ t, ts = [t] ∧ t.text = u ∧ CmdTok U b t) → Emits b p false (Within (LineTok U b)) :=
    fun h => Emits.within (h.mono (by rintro _ u ⟨t, rfl, h1, h2⟩; exact ⟨t, rfl, h1, h2.line⟩))
  have heoi : Emits b eoiTok false (Within (LineTok U b)) :=
    Emits.within ((Emits.normal _ (Emits.quiet _ _ _)).mono (by rintro _ u ⟨_, rfl, rfl⟩; exact ⟨_, rfl, rfl, fun E => ⟨.eoi, rfl, trivial⟩⟩))
  refine Emits.normal _ (.seqWithin (.starWithin (Emits.alt hempty (Emits.alt ?_ (Emits.alt ?_ ?_)))) heoi)
  · exact .seqWithin .quietWithin (.seqWithin (.within metaComment_line) .quietWithin)
  · exact .seqWithin .quietWithin (.seqWithin hcomm .quietWithin)
  · exact .seqWithin (Emits.alt (hcmd from_tok) (Emits.alt (hcmd add_tok) (Emits.alt (hcmd modify_tok) (hcmd remove_tok)))) .quietWithin

end Gr
end OCA
