import Verif.Lemmas.Layout
import Verif.Lemmas.All2
/-!
# Parsing freely laid out text: values and pairs
-/
namespace OCA
open Peg
namespace Gr
variable {U : Uni}

/-! ## Words -/

theorem char_tok {c : Char} (hcc : isChar U c = true) (x : Str) : ∃ t, t.rule = .char ∧ char U false (c :: x) = some ⟨[t], [c], x⟩ := by
  obtain ⟨k, hk⟩ := char_false hcc
  have hk := hk x
  obtain ⟨o', -, e⟩ := normal_some hk
  simp only [Bool.false_eq_true, if_false, Out.mk.injEq] at e
  exact ⟨_, rfl, by rw [hk, e.1]⟩

theorem charWord_yields {s rest : Str} (h : IsWord U s) (hr : NoChar U rest) :
    ∃ t ts, t.rule = .char ∧ Yields (char U)+ₚ false s (t :: ts) rest := by
  obtain ⟨hn, hs⟩ := h
  cases s with
  | nil => exact absurd rfl hn
  | cons c s =>
    obtain ⟨ts, hts⟩ := charStar_false fun d hd => hs d (.tail _ hd)
    obtain ⟨t, ht, hk⟩ := char_tok (hs c (.head _)) (s ++ rest)
    exact ⟨t, ts, ht, Yields.seq' (s := [c]) (s' := s) (ts := [t]) hk (hts rest hr) rfl rfl⟩

theorem string_fails_word {s rest : Str} (h : IsWord U s) (a : Bool) : Fails string a (s ++ rest) := by
  obtain ⟨hn, hs⟩ := h
  cases s with
  | nil => exact absurd rfl hn
  | cons c v =>
    have hc := hs c (.head _)
    refine string_fails ?_ ?_ _ <;> rintro rfl <;> rw [isChar_ascii U (by decide) (by decide)] at hc <;> cases hc

theorem unitChar_yields {c : Char} (h : c ≠ ' ' ∧ c ≠ '\n' ∧ c ≠ '\r') (rest : Str) :
    Yields unitChar false [c] [.node .unitChar [c] []] rest := by
  refine Yields.compound _ _ ?_
  refine Yields.seq' (s := []) (s' := [c]) (ts := []) (Yields.neg (Fails.lit (Ne.symm h.1) _ _ _)) ?_ rfl rfl
  refine Yields.seq' (s := []) (s' := [c]) (ts := []) (Yields.neg (newline_fails ?_)) (Yields.cls rfl _ _) rfl rfl
  rintro d u e; cases e; exact h.2

/-- what ends a bare unit -/
def UStop (r : Str) : Prop := ∀ c t, r = c :: t → c = ' ' ∨ c = '\n' ∨ c = '\r'

theorem unitChar_fails {r : Str} (h : UStop r) : Fails unitChar false r := by
  refine Fails.compound _ ?_
  cases r with
  | nil => rfl
  | cons c t =>
    rcases h c t rfl with rfl | rfl | rfl
    · exact Fails.seqLeft (Fails.neg (s := [' ']) (Yields.lit _ _ _))
    · exact Fails.seqRight (s := []) (Yields.neg (Fails.lit (by decide) _ _ _)) (Fails.seqLeft (Fails.neg (s := ['\n']) (Yields.altLeft (Yields.lit _ _ _))))
    · refine Fails.seqRight (s := []) (Yields.neg (Fails.lit (by decide) _ _ _)) (Fails.seqLeft ?_)
      show neg newline false ('\r' :: t) = none
      have : ∃ o, newline false ('\r' :: t) = some o := by
        simp only [newline, alt, lit, stripPrefix]
        cases t with
        | nil => exact ⟨_, rfl⟩
        | cons d t =>
          by_cases hd : '\n' = d
          · subst hd; exact ⟨_, rfl⟩
          · simp [stripPrefix, hd]
      obtain ⟨o, ho⟩ := this
      simp [neg, ho]

theorem unitStar_yields {s rest : Str} (h : ∀ c ∈ s, c ≠ ' ' ∧ c ≠ '\n' ∧ c ≠ '\r') (hr : UStop rest) :
    Yields unitChar*ₚ false s (s.map fun c => .node .unitChar [c] []) rest := by
  induction s with
  | nil => exact Yields.starNil (unitChar_fails hr)
  | cons c s ih =>
    exact Yields.starCons (s := [c]) (s' := s) (ts := [.node .unitChar [c] []]) (by simp) (unitChar_yields (h c (.head _)) _) (ih fun d hd => h d (.tail _ hd))

/-! ## `name = value` -/

/-- a name, `=`, and something solid, with gaps -/
theorem keyGap_yields {k : Str} (h : IsKey k) {q : P} {a : Bool} {v rest : Str} {ts : List Tok} (g1 g2 : Gap) (hv : Solid (v ++ rest))
    (hq : Yields q a v ts rest) :
    Yields (attrKey ~ₚ argWs ?ₚ ~ₚ lit c!"=" ~ₚ argWs ?ₚ ~ₚ q) a (k ++ g1.text ++ c!"=" ++ g2.text ++ v) (keyTok k :: ts) rest := by
  have hk : Yields attrKey a k [keyTok k] ((g1.text ++ (c!"=" ++ (g2.text ++ v))) ++ rest) := by
    refine attrKey_yields h a ?_
    by_cases hg : g1 = []
    · subst hg
      exact notKey_cons (by decide) _
    · rw [List.append_assoc]
      exact (gap_stop hg _).notKey
  refine Yields.seq' (ts := [keyTok k]) hk ?_ (by simp) rfl
  refine Yields.seq' (ts := []) (gapOpt_yields g1 ⟨'=', _, rfl, by decide⟩) ?_ rfl rfl
  refine Yields.seq' (s := ['=']) (ts := []) (Yields.lit _ _ _) ?_ rfl rfl
  exact Yields.seq' (ts := []) (gapOpt_yields g2 hv) hq rfl rfl

/-- a name, `=` and something, without gaps -/
theorem keyTight_yields {k : Str} (h : IsKey k) {q : P} {a : Bool} {v rest : Str} {ts : List Tok} (hq : Yields q a v ts rest) :
    Yields (attrKey ~ₚ lit c!"=" ~ₚ q) a (k ++ c!"=" ++ v) (keyTok k :: ts) rest := by
  refine Yields.seq' (s := k) (s' := '=' :: v) (ts := [keyTok k]) (attrKey_yields h a (notKey_cons (by decide) _)) ?_ (by simp) rfl
  exact Yields.seq' (s := ['=']) (ts := []) (Yields.lit _ _ _) hq rfl rfl

/-- a word or a quoted text as `value`, and what it means -/
theorem wordOrQuoted_yields {v : ValueLaid} {rest : Str} (hs : Stop rest) (h : (∃ s, v = .word s ∧ IsWord U s) ∨ ∃ q, v = .quoted q ∧ q.Ok) :
    ∃ t ts, (∀ item old, Tree.text item = v.text → Ins.valueOf item (t :: ts) old = .ok v.meaning) ∧ Yields (value U) false v.text (t :: ts) rest := by
  rcases h with ⟨s, rfl, h⟩ | ⟨q, rfl, h⟩
  · obtain ⟨t, ts, ht, hy⟩ := charWord_yields h (hs.noChar U)
    refine ⟨t, ts, ?_, Yields.altRight (string_fails_word h _) hy⟩
    intro item old he
    simp only [Ins.valueOf, ht, he]
    rfl
  · refine ⟨q.tok, [], ?_, Yields.altLeft (quotedText_yields h _ _)⟩
    intro item old he
    simp only [Ins.valueOf, Quoted.rule_tok, Quoted.lastText_tok]
    rfl

/-! ## Codes and entries -/

/-- `, item` any number of times -/
theorem commas_yields {item : P} {α : Type} (txt : α → Str) (R : α → Tok → Prop) (l : List (Nat × α))
    (h : ∀ x ∈ l, ∃ t, R x.2 t ∧ ∀ r, Yields item false (txt x.2) [t] r) (hn : ∀ x ∈ l, ∀ r c t, txt x.2 ++ r = c :: t → c ≠ ' ')
    {rest : Str} (hr : ∀ c t, rest = c :: t → c ≠ ',') :
    ∃ ts, All2 R (l.map (·.2)) ts ∧
      Yields (lit c!"," ~ₚ spaces ~ₚ item)*ₚ false (l.flatMap fun p => ',' :: (List.replicate p.1 ' ' ++ txt p.2)) ts rest := by
  induction l with
  | nil =>
    refine ⟨[], .nil, Yields.starNil (Fails.seqLeft ?_)⟩
    cases rest with
    | nil => rfl
    | cons c t => exact Fails.lit (Ne.symm (hr c t rfl)) _ _ _
  | cons x l ih =>
    obtain ⟨ts, hts, hy⟩ := ih (fun y hy => h y (.tail _ hy)) (fun y hy => hn y (.tail _ hy))
    obtain ⟨t, ht, hx⟩ := h x (.head _)
    refine ⟨t :: ts, .cons ht hts, ?_⟩
    refine Yields.of_eq (Yields.starCons (s := ',' :: (List.replicate x.1 ' ' ++ txt x.2)) (ts := [t]) (by simp) ?_ hy) (by simp) rfl
    refine Yields.seq' (s := [',']) (ts := []) (Yields.lit _ _ _) ?_ rfl rfl
    exact Yields.seq' (s := sp x.1) (ts := []) (spaces_yields x.1 (hn x (.head _) _)) (hx _) rfl rfl

theorem quotedC_yields (k : Rule) {q : Quoted} (h : q.Ok) (a : Bool) (rest : Str) :
    Yields (compound k string) a q.text [.node k q.text [q.tok]] rest := Yields.compound _ _ (quotedText_yields h _ _)

theorem Quoted.noSpace (q : Quoted) (r : Str) : ∀ c t, q.text ++ r = c :: t → c ≠ ' ' := by
  intro c t e
  obtain ⟨d, u, e', h, -⟩ := Quoted.solid q r
  rw [e] at e'
  cases e'
  exact h

theorem codesLaid_yields {l : CodesLaid} (h : l.Ok) (rest : Str) :
    Yields entryCodeList false l.text [.node .entryCodeList l.text (l.all.map Quoted.tok)] rest := by
  cases l with
  | empty => exact Yields.normal _ (Yields.altLeft (Yields.seq' (s := c!"[") (s' := c!"]") (ts := []) (Yields.lit _ _ _) (Yields.lit _ _ _) rfl rfl))
  | items y more =>
    obtain ⟨ts, hts, hy⟩ := commas_yields (item := string) Quoted.text (fun q t => t = Quoted.tok q) more
      (fun z hz => ⟨_, rfl, fun r => quotedText_yields (h z.2 (.tail _ (List.mem_map.2 ⟨z, hz, rfl⟩))) _ _⟩)
      (fun z _ r => Quoted.noSpace z.2 r) (rest := ']' :: rest) (by rintro c t e; cases e; decide)
    have e : ts = (more.map (·.2)).map Quoted.tok := by
      clear hy
      generalize more.map (·.2) = l at hts
      induction hts with
      | nil => rfl
      | cons hx _ ih => rw [hx, ih]; rfl
    subst e
    refine Yields.normal _ (Yields.altRight ?_ ?_)
    · refine Fails.seqRight (s := c!"[") (Yields.lit _ _ _) ?_
      cases y <;> exact Fails.lit (by decide) _ _ _
    · refine Yields.seq' (s := c!"[") (s' := y.text ++ ((more.flatMap fun p => ',' :: (List.replicate p.1 ' ' ++ p.2.text)) ++ c!"]")) (ts := [])
        (Yields.lit _ _ _) ?_ (by simp [CodesLaid.text]) rfl
      refine Yields.seq' (ts := [y.tok]) (quotedText_yields (h y (.head _)) _ _) ?_ rfl rfl
      exact Yields.seq' (ts' := []) hy (Yields.lit _ _ _) rfl (by simp)

theorem codesOf_all (l : CodesLaid) : Ins.codesOf (l.all.map Quoted.tok) = .ok (l.values.map .val) := by
  unfold CodesLaid.values
  induction l.all with
  | nil => rfl
  | cons q l ih => simp only [Ins.codesOf, List.map_cons, Quoted.rule_tok, Quoted.lastText_tok, ih]

/-- an object -/
theorem objLaid_yields {α : Type} {item : P} (f : α → Str) (R : Quoted × Nat × α → Tok → Prop) (o : ObjLaid α)
    (h : ∀ x ∈ o.all, ∃ t, R x t ∧ ∀ r, Yields item false (ObjLaid.itemText f x) [t] r) (rest : Str) :
    ∃ ts, All2 R o.all ts ∧ Yields (lit c!"{" ~ₚ lit c!"}" |ₚ
      lit c!"{" ~ₚ spaces ~ₚ item ~ₚ (lit c!"," ~ₚ spaces ~ₚ item)*ₚ ~ₚ spaces ~ₚ lit c!"}") false (o.text f) ts rest := by
  cases o with
  | empty =>
    exact ⟨[], .nil, Yields.altLeft (Yields.seq' (s := c!"{") (s' := c!"}") (ts := []) (Yields.lit _ _ _) (Yields.lit _ _ _) rfl rfl)⟩
  | items a x more b =>
    have hsp : ∀ (y : Quoted × Nat × α) r c t, ObjLaid.itemText f y ++ r = c :: t → c ≠ ' ' := by
      intro y r c t e
      unfold ObjLaid.itemText at e
      rw [List.append_assoc] at e
      exact Quoted.noSpace y.1 _ c t e
    obtain ⟨t, ht, hx⟩ := h x (.head _)
    have hrest : ∀ c t, sp b ++ (c!"}" ++ rest) = c :: t → c ≠ ',' := by
      intro c t e
      cases b with
      | zero => cases e; decide
      | succ b => cases e; decide
    obtain ⟨ts, hts, hy⟩ := commas_yields (item := item) (ObjLaid.itemText f) R more
      (fun y hy => h y.2 (.tail _ (List.mem_map.2 ⟨y, hy, rfl⟩))) (fun y _ r => hsp y.2 r) (rest := sp b ++ (c!"}" ++ rest)) hrest
    refine ⟨t :: ts, .cons ht hts, Yields.altRight ?_ ?_⟩
    · rw [show (ObjLaid.items a x more b).text f ++ rest = c!"{" ++ (sp a ++ (ObjLaid.itemText f x ++ ((more.flatMap fun p => ',' :: (List.replicate p.1 ' ' ++ ObjLaid.itemText f p.2)) ++ (sp b ++ (c!"}" ++ rest))))) by
        simp [ObjLaid.text, sp]]
      refine Fails.seqRight (Yields.lit _ _ _) ?_
      cases a with
      | zero =>
        rcases x with ⟨q, n, y⟩
        cases q <;> exact Fails.lit (by decide) _ _ _
      | succ a => exact Fails.lit (by decide) _ _ _
    · refine Yields.seq' (s := c!"{") (s' := sp a ++ (ObjLaid.itemText f x ++ ((more.flatMap fun p => ',' :: (List.replicate p.1 ' ' ++ ObjLaid.itemText f p.2)) ++ (sp b ++ c!"}")))) (ts := [])
        (Yields.lit _ _ _) ?_ (by simp [ObjLaid.text, sp]) rfl
      refine Yields.seq' (s := sp a) (ts := []) (spaces_yields a (by intro c t e; rw [List.append_assoc] at e; exact hsp x _ c t e)) ?_ rfl rfl
      refine Yields.seq' (ts := [t]) (hx _) ?_ rfl rfl
      refine Yields.seq' (ts' := []) (by rw [List.append_assoc]; exact hy) ?_ rfl (by simp)
      exact Yields.seq' (s := sp b) (ts := []) (spaces_yields b (nosp (by decide) _)) (Yields.lit _ _ _) rfl rfl

theorem keyPairsObj_all {α : Type} {g : α → Str × NVal} {l : List α} {ts : List Tok} (h : All2 (fun x t => Ins.keyPairOf U t = .ok (g x)) l ts) :
    ∀ acc, Ins.keyPairsObj U ts acc = .ok (imExtend acc (l.map g)) := by
  induction h with
  | nil => intro acc; rfl
  | cons hx _ ih => intro acc; rw [Ins.keyPairsObj, hx]; exact ih _

theorem group_laid {x : Quoted × Nat × CodesLaid} (h : x.1.Ok ∧ x.2.2.Ok) :
    ∃ t, Ins.keyPairOf U t = .ok (x.1.value, .arr (x.2.2.values.map .val)) ∧
      ∀ r, Yields entryCodeKeyValuePair false (ObjLaid.itemText CodesLaid.text x) [t] r := by
  refine ⟨.node .entryCodeKeyValuePair (ObjLaid.itemText CodesLaid.text x)
    [.node .entryCodeGroupKey x.1.text [x.1.tok], .node .entryCodeList x.2.2.text (x.2.2.all.map Quoted.tok)], ?_, fun r => Yields.normal _ ?_⟩
  · simp only [Ins.keyPairOf, Ins.keyPairLoop, Ins.innerString, Quoted.rule_tok, Quoted.lastText_tok, codesOf_all]
  · have hkey : ∀ r, Yields entryCodeGroupKey false x.1.text [.node .entryCodeGroupKey x.1.text [x.1.tok]] r := fun r => quotedC_yields .entryCodeGroupKey h.1 _ _
    refine Yields.seq' (hkey _) ?_ rfl rfl
    refine Yields.seq' (s := [':']) (ts := []) (Yields.lit _ _ _) ?_ rfl rfl
    refine Yields.seq' (s := sp x.2.1) (ts := []) (spaces_yields x.2.1 ?_) (codesLaid_yields h.2 r) rfl rfl
    cases x.2.2 <;> exact nosp (by decide) _

theorem entry_laid {x : Quoted × Nat × Quoted} (h : x.1.Ok ∧ x.2.2.Ok) :
    ∃ t, Ins.keyPairOf U t = .ok (x.1.value, .val x.2.2.value) ∧
      ∀ r, Yields entryKeyValuePair false (ObjLaid.itemText Quoted.text x) [t] r := by
  refine ⟨.node .entryKeyValuePair (ObjLaid.itemText Quoted.text x)
    [.node .entryKey x.1.text [x.1.tok], .node .entryValue x.2.2.text [x.2.2.tok]], ?_, fun r => Yields.normal _ ?_⟩
  · obtain ⟨q, n, v⟩ := x
    cases q <;> cases v <;> rfl
  · have hkey : ∀ r, Yields entryKey false x.1.text [.node .entryKey x.1.text [x.1.tok]] r := fun r => quotedC_yields .entryKey h.1 _ _
    refine Yields.seq' (hkey _) ?_ rfl rfl
    refine Yields.seq' (s := [':']) (ts := []) (Yields.lit _ _ _) ?_ rfl rfl
    exact Yields.seq' (s := sp x.2.1) (ts := []) (spaces_yields x.2.1 (Quoted.noSpace _ _)) (quotedC_yields .entryValue h.2 _ _) rfl rfl

/-! ## Pairs -/

/-- the rule of a pair -/
def pairP (U : Uni) : OvWord → P
  | .unit => unitKeyPair
  | .entryCode => entryCodeKeyPair U
  | .entry => entryKeyPair U
  | _ => keyPair U

/-- what may follow a pair -/
def PStop (k : OvWord) (p : PairLaid) (r : Str) : Prop := Stop r ∧ (k = .unit → p.isBare = true → UStop r)

theorem value_solid {k : OvWord} {v : ValueLaid} (h : v.Ok U k) (r : Str) : Solid (v.text ++ r) := by
  cases v with
  | word s =>
    by_cases hk : k = .unit
    · obtain ⟨h1, c, t, rfl, h2, h3, h4, -⟩ : IsUnitWord s := by simpa [ValueLaid.Ok, hk] using h
      have := h1 c (.head _)
      exact ⟨c, _, rfl, this.1, h2, h3, h4, this.2.1, this.2.2⟩
    · have hw : IsWord U s := by simpa [ValueLaid.Ok, hk] using h
      exact IsWord.solid hw r
  | quoted q => exact Quoted.solid q r
  | codes l => cases l <;> exact ⟨_, _, rfl, by decide⟩
  | groups o => cases o <;> exact ⟨_, _, rfl, by decide⟩
  | entries o => cases o <;> exact ⟨_, _, rfl, by decide⟩

/-- a pair is read as what it means -/
theorem pair_yields {k : OvWord} {p : PairLaid} (h : p.Ok U k) {r : Str} (hr : PStop k p r) :
    ∃ t, Ins.keyPairOf U t = .ok p.meaning ∧ Yields (pairP U k) false p.text [t] r := by
  obtain ⟨name, g1, g2, v⟩ := p
  obtain ⟨hk, hv, hg⟩ := h
  have hsol := value_solid hv r
  dsimp only at hk hv hg hsol
  -- the value of `key_value`
  have hword : ∀ (a : Bool), ((∃ s, v = .word s ∧ IsWord U s) ∨ ∃ q, v = .quoted q ∧ q.Ok) →
      ∃ t ts, (∀ item old, Tree.text item = v.text → Ins.valueOf item (t :: ts) old = .ok v.meaning) ∧
        Yields (keyValue U) a v.text [.node .keyValue v.text (t :: ts)] r := by
    intro a hv
    obtain ⟨t, ts, h1, h2⟩ := wordOrQuoted_yields hr.1 hv
    exact ⟨t, ts, h1, Yields.compound _ _ h2⟩
  have hplain : k ≠ .unit → k ≠ .entryCode → k ≠ .entry → ((∃ s, v = .word s ∧ IsWord U s) ∨ ∃ q, v = .quoted q ∧ q.Ok) := by
    intro h1 h2 h3
    cases v with
    | word s => exact .inl ⟨s, rfl, by simpa [ValueLaid.Ok, h1] using hv⟩
    | quoted q => exact .inr ⟨q, rfl, hv⟩
    | codes l => exact absurd hv.1 h2
    | groups o => exact absurd hv.1 h2
    | entries o => exact absurd hv.1 h3
  by_cases hu : k = .unit
  · subst hu
    have : ∃ t ts, (∀ item old, Tree.text item = v.text → Ins.valueOf item (t :: ts) old = .ok v.meaning) ∧
        Yields unitValue true v.text [.node .unitValue v.text (t :: ts)] r := by
      cases v with
      | word s =>
        obtain ⟨h1, c, t, rfl, -, -, -, h4, h5⟩ : IsUnitWord s := hv
        refine ⟨.node .unitChar [c] [], t.map fun c => .node .unitChar [c] [], fun item old e => ?_, Yields.compound _ _ (Yields.altRight ?_ ?_)⟩
        · simp only [Ins.valueOf, Tree.rule, e]; rfl
        · exact string_fails h4 h5 _
        · exact Yields.plus (s := [c]) (s' := t) (ts := [.node .unitChar [c] []]) (unitChar_yields (h1 c (.head _)) _)
            (unitStar_yields (fun d hd => h1 d (.tail _ hd)) (hr.2 rfl rfl))
      | quoted q =>
        refine ⟨q.tok, [], fun item old _ => ?_, Yields.compound _ _ (Yields.altLeft (quotedText_yields hv _ _))⟩
        simp only [Ins.valueOf, Quoted.rule_tok, Quoted.lastText_tok]; rfl
      | codes l => cases hv.1
      | groups o => cases hv.1
      | entries o => cases hv.1
    obtain ⟨t, ts, h1, h2⟩ := this
    refine ⟨_, ?_, Yields.atomic _ (keyGap_yields hk g1 g2 hsol h2)⟩
    simp only [Ins.keyPairOf, Ins.keyPairLoop, keyTok, h1 (.node .unitValue v.text (t :: ts)) _ rfl]
    rfl
  by_cases hc : k = .entryCode
  · subst hc
    obtain ⟨rfl, rfl⟩ := hg (.inl rfl)
    have : ∃ t, (∀ acc : Str × NVal, Ins.keyPairLoop U [t] acc = .ok (acc.1, v.meaning)) ∧ Yields (entryCodeKeyValue U) false v.text [t] r := by
      by_cases hw : (∃ s, v = .word s ∧ IsWord U s) ∨ ∃ q, v = .quoted q ∧ q.Ok
      · obtain ⟨t, ts, h1, h2⟩ := hword false hw
        refine ⟨_, fun acc => ?_, Yields.normal _ (Yields.altLeft h2)⟩
        simp only [Ins.keyPairLoop, h1 (.node .entryCodeKeyValue v.text []) _ rfl]
      · cases v with
        | word s => exact absurd (.inl ⟨s, rfl, by simpa [ValueLaid.Ok] using hv⟩) hw
        | quoted q => exact absurd (.inr ⟨q, rfl, hv⟩) hw
        | codes l =>
          refine ⟨_, fun acc => ?_, Yields.normal _ (Yields.altRight ?_ (Yields.altLeft (codesLaid_yields hv.2 r)))⟩
          · simp only [Ins.keyPairLoop, codesOf_all]; rfl
          · cases l <;> exact Fails.compound _ (value_fails (by decide) (isChar_open U) _ _)
        | groups o =>
          obtain ⟨ts, hts, hy⟩ := objLaid_yields (item := entryCodeKeyValuePair) CodesLaid.text
            (fun x t => Ins.keyPairOf U t = .ok (x.1.value, .arr (x.2.2.values.map .val))) o
            (fun x hx => group_laid (hv.2 x hx)) r
          refine ⟨_, fun acc => ?_, Yields.normal _ (Yields.altRight ?_ (Yields.altRight ?_ (Yields.normal _ hy)))⟩
          · simp only [Ins.keyPairLoop, keyPairsObj_all hts]; rfl
          · cases o <;> exact Fails.compound _ (value_fails (by decide) (isChar_brace U) _ _)
          · cases o <;> exact Fails.normal _ (Fails.alt (Fails.seqLeft (Fails.lit (by decide) _ _ _)) (Fails.seqLeft (Fails.lit (by decide) _ _ _)))
        | entries o => cases hv.1
    obtain ⟨t, h1, h2⟩ := this
    refine ⟨_, ?_, Yields.compound _ _ (Yields.of_eq (keyTight_yields hk h2) (by simp [PairLaid.text, Gap.text]) rfl)⟩
    simp only [Ins.keyPairOf, keyTok]
    rw [Ins.keyPairLoop, h1]
    rfl
  by_cases he : k = .entry
  · subst he
    obtain ⟨rfl, rfl⟩ := hg (.inr rfl)
    have : ∃ t, (∀ acc : Str × NVal, Ins.keyPairLoop U [t] acc = .ok (acc.1, v.meaning)) ∧ Yields (entryKeyValue U) false v.text [t] r := by
      by_cases hw : (∃ s, v = .word s ∧ IsWord U s) ∨ ∃ q, v = .quoted q ∧ q.Ok
      · obtain ⟨t, ts, h1, h2⟩ := hword false hw
        refine ⟨_, fun acc => ?_, Yields.normal _ (Yields.altLeft h2)⟩
        simp only [Ins.keyPairLoop, h1 (.node .entryKeyValue v.text []) _ rfl]
      · cases v with
        | word s => exact absurd (.inl ⟨s, rfl, by simpa [ValueLaid.Ok] using hv⟩) hw
        | quoted q => exact absurd (.inr ⟨q, rfl, hv⟩) hw
        | codes l => cases hv.1
        | groups o => cases hv.1
        | entries o =>
          obtain ⟨ts, hts, hy⟩ := objLaid_yields (item := entryKeyValuePair) Quoted.text
            (fun x t => Ins.keyPairOf U t = .ok (x.1.value, .val x.2.2.value)) o
            (fun x hx => entry_laid (hv.2 x hx)) r
          refine ⟨_, fun acc => ?_, Yields.normal _ (Yields.altRight ?_ (Yields.normal _ hy))⟩
          · simp only [Ins.keyPairLoop, keyPairsObj_all hts]; rfl
          · cases o <;> exact Fails.compound _ (value_fails (by decide) (isChar_brace U) _ _)
    obtain ⟨t, h1, h2⟩ := this
    refine ⟨_, ?_, Yields.compound _ _ (Yields.of_eq (keyTight_yields hk h2) (by simp [PairLaid.text, Gap.text]) rfl)⟩
    simp only [Ins.keyPairOf, keyTok]
    rw [Ins.keyPairLoop, h1]
    rfl
  · have e : pairP U k = keyPair U := by
      cases k <;> first | rfl | exact absurd rfl hu | exact absurd rfl hc | exact absurd rfl he
    rw [e]
    obtain ⟨t, ts, h1, h2⟩ := hword true (hplain hu hc he)
    refine ⟨_, ?_, Yields.atomic _ (keyGap_yields hk g1 g2 hsol h2)⟩
    simp only [Ins.keyPairOf, Ins.keyPairLoop, keyTok, h1 (.node .keyValue v.text (t :: ts)) _ rfl]
    rfl

theorem pair_fails {k : OvWord} {r : Str} (h : LineEnd r) : Fails (pairP U k) false r := by
  have h' := h.notKey
  cases k <;> first
    | exact Fails.atomic _ (keyEq_fails h')
    | exact Fails.compound _ (Fails.seqLeft (attrKey_fails _ h'))

theorem pairText_solid {k : OvWord} {p : PairLaid} (h : p.Ok U k) (r : Str) : Solid (p.text ++ r) := by
  rw [show p.text ++ r = p.name ++ (p.g1.text ++ (c!"=" ++ (p.g2.text ++ (p.value.text ++ r)))) by simp [PairLaid.text]]
  exact IsKey.solid h.1 _

/-- a pair and the blanks after it -/
theorem pairItem_yields {k : OvWord} {p : PairLaid} (h : p.Ok U k) {t : Tok} {s r : Str} (h1 : Yields (pairP U k) false p.text [t] (s ++ r))
    (h2 : Yields (argWs ?ₚ) false s [] r) : Yields (argWs ?ₚ ~ₚ pairP U k ~ₚ argWs ?ₚ) false (p.text ++ s) [t] r := by
  refine Yields.seq' (s := []) (ts := []) (optWs_none ?_) ?_ rfl rfl
  · have := (pairText_solid h (s ++ r)).nw
    simpa using this
  · exact Yields.seq' h1 h2 rfl rfl

theorem gap_pstop {k : OvWord} {p : PairLaid} {g : Gap} (h : p.Then k g) (r : Str) : PStop k p (g.text ++ r) := by
  refine ⟨gap_stop h.1 r, fun h1 h2 => ?_⟩
  obtain ⟨t, rfl⟩ := h.2 h1 h2
  rintro c u e
  cases e
  simp

/-- the last of the pairs -/
def lastOf (p : PairLaid) : List (Gap × PairLaid) → PairLaid
  | [] => p
  | x :: t => lastOf x.2 t

/-- pairs, gaps, and blanks at the end -/
theorem pairsStar_yields {k : OvWord} (more : List (Gap × PairLaid)) (p : PairLaid) (hp : p.Ok U k) (hm : ∀ x ∈ more, x.2.Ok U k)
    (hg : PairsLaid.gapsOk k p more) (w : Blanks) {r : Str} (hr : LineEnd r) (hl : PStop k (lastOf p more) (w.text ++ r)) :
    ∃ ts, All2 (fun x t => Ins.keyPairOf U t = .ok (PairLaid.meaning x)) (p :: more.map (·.2)) ts ∧
      Yields (argWs ?ₚ ~ₚ pairP U k ~ₚ argWs ?ₚ)+ₚ false (p.text ++ (more.flatMap fun x => x.1.text ++ x.2.text) ++ w.text) ts r ∧
      Yields (argWs ?ₚ ~ₚ pairP U k ~ₚ argWs ?ₚ)*ₚ false (p.text ++ (more.flatMap fun x => x.1.text ++ x.2.text) ++ w.text) ts r := by
  have hne : ∀ (p : PairLaid), p.text ≠ [] := by intro p; simp [PairLaid.text]
  induction more generalizing p with
  | nil =>
    obtain ⟨t, ht, hy⟩ := pair_yields hp hl
    have h1 := pairItem_yields hp hy (blanksOpt_yields w hr.nw)
    have hf : Yields (argWs ?ₚ ~ₚ pairP U k ~ₚ argWs ?ₚ)*ₚ false [] [] r :=
      Yields.starNil (Fails.seqRight (s := []) (optWs_none hr.nw) (Fails.seqLeft (pair_fails hr)))
    refine ⟨[t], .cons ht .nil, ?_, ?_⟩
    · exact Yields.of_eq (Yields.plus (s' := []) h1 hf) (by simp) rfl
    · exact Yields.of_eq (Yields.starCons (s' := []) (by simp [hne]) h1 hf) (by simp) rfl
  | cons x more ih =>
    obtain ⟨g, q⟩ := x
    obtain ⟨hg1, hg2⟩ := hg
    have hq := hm _ (.head _)
    obtain ⟨ts, hts, -, hstar⟩ := ih q hq (fun y hy => hm y (.tail _ hy)) hg2 hl
    obtain ⟨t, ht, hy⟩ := pair_yields hp (gap_pstop hg1 ((q.text ++ (more.flatMap fun x => x.1.text ++ x.2.text) ++ w.text) ++ r))
    have hs : Solid ((q.text ++ (more.flatMap fun x => x.1.text ++ x.2.text) ++ w.text) ++ r) := by
      rw [List.append_assoc, List.append_assoc]
      exact pairText_solid hq _
    have h1 := pairItem_yields hp hy (gapOpt_yields g hs)
    refine ⟨t :: ts, .cons ht hts, ?_, ?_⟩
    · exact Yields.of_eq (Yields.plus h1 hstar) (by simp) rfl
    · exact Yields.of_eq (Yields.starCons (by simp [hne]) h1 hstar) (by simp) rfl

end Gr
end OCA
