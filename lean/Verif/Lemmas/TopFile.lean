import Verif.Model.FileText
import Verif.Lemmas.ParseLines
import Verif.Lemmas.Emits
/-!
# Scanning a file for its meta lines
-/
namespace OCA
open Peg
namespace Gr
variable {U : Uni}

/-- one step of the scan -/
def topItem (U : Uni) : P := emptyLine |ₚ metaCommentLine U topMetaKey |ₚ commentLine |ₚ any

/-- the meta of the rest of a file -/
def topScan (U : Uni) (m : FMap Str) (s : Str) : Res ParseErr (FMap Str) :=
  match (topItem U)*ₚ false s with
  | none => .panic
  | some o => Ins.topLoop m o.ts

instance : IsGood (topItem U) := by unfold topItem; infer_instance

theorem topLoop_append (m : FMap Str) (l l' : List Tok) : Ins.topLoop m (l ++ l') =
    (match Ins.topLoop m l with
    | .ok m => Ins.topLoop m l'
    | .err e => .err e
    | .panic => .panic) := by
  induction l generalizing m with
  | nil => rfl
  | cons t r ih =>
    simp only [List.cons_append, Ins.topLoop]
    cases Ins.topStep m t with
    | ok m => exact ih m
    | err e => rfl
    | panic => rfl

theorem emptyLine_strict : Strict emptyLine := by
  refine .atomic _ (.seqRight (good _) ?_)
  exact .alt (.lit _ _) (.alt (.lit _ _) (.lit _ _))

theorem topItem_strict : Strict (topItem U) := by
  refine .alt emptyLine_strict (.alt ?_ (.alt ?_ (.cls _)))
  · exact .seqRight (good _) (.seqLeft (.atomic _ (.seqLeft (.lit _ _) (good _))) (good _))
  · exact .seqRight (good _) (.seqLeft (.atomic _ (.seqLeft (.lit _ _) (good _))) (good _))

theorem topItem_some (c : Char) (s : Str) : ∃ o, topItem U false (c :: s) = some o := by
  unfold topItem
  simp only [Peg.alt, any, Peg.cls, if_true]
  cases emptyLine false (c :: s) with
  | some o => exact ⟨o, rfl⟩
  | none =>
    cases metaCommentLine U topMetaKey false (c :: s) with
    | some o => exact ⟨o, rfl⟩
    | none =>
      cases commentLine false (c :: s) with
      | some o => exact ⟨o, rfl⟩
      | none => exact ⟨_, rfl⟩

/-- the whole text is scanned -/
theorem topStar_all (s : Str) : ∃ o, (topItem U)*ₚ false s = some o ∧ o.r = [] := by
  induction h : s.length using Nat.strongRecOn generalizing s with
  | _ n ih =>
    rw [star_eq]
    cases s with
    | nil => exact ⟨⟨[], [], []⟩, rfl, rfl⟩
    | cons c s =>
      obtain ⟨o, ho⟩ := topItem_some (U := U) c s
      have hl := topItem_strict _ _ _ ho
      obtain ⟨o', h1, h2⟩ := ih _ (h ▸ hl) o.r rfl
      rw [ho]
      simp only [hl, if_true, h1]
      exact ⟨_, rfl, h2⟩

theorem topScan_nil (m : FMap Str) : topScan U m [] = .ok m := rfl

theorem topScan_step {m : FMap Str} {s : Str} {o : Out Rule} (h : topItem U false s = some o) : topScan U m s =
    (match Ins.topLoop m o.ts with
    | .ok m => topScan U m o.r
    | .err e => .err e
    | .panic => .panic) := by
  have hl := topItem_strict _ _ _ h
  simp only [topScan]
  rw [star_eq, h]
  simp only [hl, if_true]
  obtain ⟨o', h1, -⟩ := topStar_all (U := U) o.r
  simp only [h1, topLoop_append]

/-- The grammar accepts every text. -/
theorem fileMeta_eq (U : Uni) (s : Str) : fileMeta U s = (topScan U FMap.empty s).mapErr FileErr.ofTop := by
  obtain ⟨o, h1, h2⟩ := topStar_all (U := U) s
  have : topFile U false s = some ⟨[.node .file (o.u ++ []) (o.ts ++ [.node .eoi [] []])], o.u ++ [], []⟩ := by
    have h1' : (emptyLine |ₚ metaCommentLine U topMetaKey |ₚ commentLine |ₚ any)*ₚ false s = some o := h1
    simp only [topFile, Peg.normal, Peg.seq, h1', h2, eoiTok, Peg.eoi]
    rfl
  simp only [fileMeta, this, Tree.kids, topLoop_append]
  simp only [topScan, h1]
  cases Ins.topLoop FMap.empty o.ts with
  | ok m => rfl
  | err e => rfl
  | panic => rfl

/-! ## Steps of the scan -/

theorem starSkip {p : P} {a : Bool} {c : Char} {s : Str} (h : p a (c :: s) = some ⟨[], [c], s⟩) :
    p*ₚ a (c :: s) = (p*ₚ a s).map fun o => ⟨o.ts, c :: o.u, o.r⟩ := by
  rw [star_eq, h]
  simp only [List.length_cons, Nat.lt_succ_self, if_true]
  obtain ⟨o, ho⟩ := star_isSome p a s
  rw [ho]; rfl

theorem ws_one {a : Bool} {c : Char} (h : c = ' ' ∨ c = '\t') (s : Str) : ws a (c :: s) = some ⟨[], [c], s⟩ := by
  rcases h with rfl | rfl <;> rfl

/-- a leading blank changes nothing but the text of a rule that skips blanks -/
theorem wsSeq_skip {q : P} {a : Bool} {c : Char} (h : c = ' ' ∨ c = '\t') (s : Str) :
    (ws*ₚ ~ₚ q) a (c :: s) = ((ws*ₚ ~ₚ q) a s).map fun o => ⟨o.ts, c :: o.u, o.r⟩ := by
  simp only [Peg.seq]
  rw [starSkip (ws_one h s)]
  obtain ⟨o, ho⟩ := star_isSome ws a s
  rw [ho]
  simp only [Option.map_some]
  cases q a o.r with
  | none => rfl
  | some o' => rfl

theorem topLoop_empty (m : FMap Str) (u : Str) (ks : List Tok) : Ins.topLoop m [.node .emptyLine u ks] = .ok m := rfl

theorem topScan_ws {m : FMap Str} {c : Char} (h : c = ' ' ∨ c = '\t') (s : Str) : topScan U m (c :: s) = topScan U m s := by
  cases s with
  | nil =>
    have : topItem U false [c] = some ⟨[], [c], []⟩ := by rcases h with rfl | rfl <;> rfl
    rw [topScan_step this]; rfl
  | cons d s =>
    have e1 : emptyLine false (c :: d :: s) = ((ws*ₚ ~ₚ newline) true (d :: s)).map fun o => ⟨[.node .emptyLine (c :: o.u) o.ts], c :: o.u, o.r⟩ := by
      simp only [emptyLine, Peg.atomic]
      rw [wsSeq_skip h, Option.map_map]; rfl
    have e2 : emptyLine false (d :: s) = ((ws*ₚ ~ₚ newline) true (d :: s)).map fun o => ⟨[.node .emptyLine o.u o.ts], o.u, o.r⟩ := rfl
    have e3 : metaCommentLine U topMetaKey false (c :: d :: s) = (metaCommentLine U topMetaKey false (d :: s)).map fun o => ⟨o.ts, c :: o.u, o.r⟩ :=
      wsSeq_skip h _
    have e4 : commentLine false (c :: d :: s) = (commentLine false (d :: s)).map fun o => ⟨o.ts, c :: o.u, o.r⟩ := wsSeq_skip h _
    cases h1 : (ws*ₚ ~ₚ newline) true (d :: s) with
    | some o =>
      have a1 : topItem U false (c :: d :: s) = some ⟨[.node .emptyLine (c :: o.u) o.ts], c :: o.u, o.r⟩ := by
        simp only [topItem, Peg.alt, e1, h1, Option.map_some]
      have a2 : topItem U false (d :: s) = some ⟨[.node .emptyLine o.u o.ts], o.u, o.r⟩ := by
        simp only [topItem, Peg.alt, e2, h1, Option.map_some]
      rw [topScan_step a1, topScan_step a2]
      rfl
    | none =>
      rw [h1, Option.map_none] at e1 e2
      cases h2 : metaCommentLine U topMetaKey false (d :: s) with
      | some o =>
        rw [h2, Option.map_some] at e3
        have a1 : topItem U false (c :: d :: s) = some ⟨o.ts, c :: o.u, o.r⟩ := by simp only [topItem, Peg.alt, e1, e3]
        have a2 : topItem U false (d :: s) = some o := by simp only [topItem, Peg.alt, e2, h2]
        rw [topScan_step a1, topScan_step a2]
      | none =>
        rw [h2, Option.map_none] at e3
        cases h3 : commentLine false (d :: s) with
        | some o =>
          rw [h3, Option.map_some] at e4
          have a1 : topItem U false (c :: d :: s) = some ⟨o.ts, c :: o.u, o.r⟩ := by simp only [topItem, Peg.alt, e1, e3, e4]
          have a2 : topItem U false (d :: s) = some o := by simp only [topItem, Peg.alt, e2, h2, h3]
          rw [topScan_step a1, topScan_step a2]
        | none =>
          rw [h3, Option.map_none] at e4
          have a1 : topItem U false (c :: d :: s) = some ⟨[], [c], d :: s⟩ := by
            simp only [topItem, Peg.alt, e1, e3, e4, any, Peg.cls, if_true]
          rw [topScan_step a1]
          rfl

theorem topScan_lf (m : FMap Str) (s : Str) : topScan U m ('\n' :: s) = topScan U m s := by
  have : topItem U false ('\n' :: s) = some ⟨[.node .emptyLine ['\n'] []], ['\n'], s⟩ :=
    Yields.altLeft (s := ['\n']) (Yields.atomic _ (Yields.seq' (s := sp 0) (ts := []) (wsRun_yields 0 (by rintro d u e; cases e; decide))
      (Yields.altLeft (.lit _ _ _)) rfl rfl))
  rw [topScan_step this]; rfl

theorem topScan_cr (m : FMap Str) (s : Str) : topScan U m ('\r' :: s) = topScan U m s := by
  have hw : ∀ t, Yields ws*ₚ true (sp 0) [] ('\r' :: t) := fun t => wsRun_yields 0 (by rintro d u e; cases e; decide)
  by_cases h : ∃ t, s = '\n' :: t
  · obtain ⟨t, rfl⟩ := h
    have : topItem U false ('\r' :: '\n' :: t) = some ⟨[.node .emptyLine ['\r', '\n'] []], ['\r', '\n'], t⟩ :=
      Yields.altLeft (s := ['\r', '\n']) (Yields.atomic _ (Yields.seq' (s := sp 0) (ts := []) (hw _)
        (Yields.altRight (Fails.lit (by decide) _ _ _) (Yields.altLeft (.lit _ _ _))) rfl rfl))
    rw [topScan_step this, topScan_lf]; rfl
  · have : topItem U false ('\r' :: s) = some ⟨[.node .emptyLine ['\r'] []], ['\r'], s⟩ := by
      refine Yields.altLeft (s := ['\r']) (Yields.atomic _ (Yields.seq' (s := sp 0) (ts := []) (hw _)
        (Yields.altRight (Fails.lit (by decide) _ _ _) (Yields.altRight ?_ (.lit _ _ _))) rfl rfl))
      cases s with
      | nil => rfl
      | cons d t =>
        have hd : '\n' ≠ d := by rintro rfl; exact h ⟨t, rfl⟩
        simp [Fails, Peg.lit, stripPrefix, hd]
    rw [topScan_step this]; rfl

/-- Any character that starts neither a comment nor a meta line is skipped. -/
theorem topScan_skip (m : FMap Str) {c : Char} {s : Str} (h1 : c ≠ '#') (h2 : c = '-' → ∀ t, s ≠ '-' :: t) :
    topScan U m (c :: s) = topScan U m s := by
  by_cases hw : c = ' ' ∨ c = '\t'
  · exact topScan_ws hw s
  by_cases hn : c = '\n'
  · subst hn; exact topScan_lf m s
  by_cases hr : c = '\r'
  · subst hr; exact topScan_cr m s
  have hw' : ∀ d u, c :: s = d :: u → d ≠ ' ' ∧ d ≠ '\t' := by
    rintro d u e; cases e; exact ⟨fun h => hw (.inl h), fun h => hw (.inr h)⟩
  have : topItem U false (c :: s) = some ⟨[], [c], s⟩ := by
    refine Yields.altRight (s := [c]) ?_ (Yields.altRight ?_ (Yields.altRight ?_ (Yields.cls rfl _ _)))
    · exact Fails.atomic _ (Fails.seqRight (s := sp 0) (wsRun_yields 0 hw') (newline_fails (by rintro d u e; cases e; exact ⟨hn, hr⟩)))
    · refine Fails.seqRight (s := sp 0) (wsRun_yields 0 hw') (Fails.seqLeft (Fails.atomic _ (Fails.seqLeft ?_)))
      by_cases hd : c = '-'
      · subst hd
        cases s with
        | nil => rfl
        | cons d t =>
          have : '-' ≠ d := by rintro rfl; exact h2 rfl t rfl
          simp [Fails, Peg.lit, stripPrefix, this]
      · exact Fails.lit (Ne.symm hd) _ _ _
    · exact Fails.seqRight (s := sp 0) (wsRun_yields 0 hw') (Fails.seqLeft (Fails.atomic _ (Fails.seqLeft (Fails.lit (Ne.symm h1) _ _ _))))
  rw [topScan_step this]; rfl

/-- A text without `#` and `--` that does not end in `-` is skipped. -/
theorem topScan_text (m : FMap Str) (t rest : Str) (h1 : '#' ∉ t) (h2 : ¬ c!"--" <:+: t) (h3 : t.getLast? ≠ some '-') :
    topScan U m (t ++ rest) = topScan U m rest := by
  induction t with
  | nil => rfl
  | cons c t ih =>
    have hc : c ≠ '#' := by rintro rfl; exact h1 (.head _)
    rw [List.cons_append, topScan_skip m hc]
    · refine ih (fun h => h1 (.tail _ h)) (fun h => h2 (h.trans (List.suffix_cons _ _).isInfix)) ?_
      cases t with
      | nil => simp
      | cons d t => simpa using h3
    · rintro rfl u e
      cases t with
      | nil => exact h3 rfl
      | cons d t =>
        injection e with e1 e2
        subst e1
        exact h2 ⟨[], t, rfl⟩

/-- a comment to the end of the line or of the file -/
theorem topScan_comment (m : FMap Str) (t rest : Str) (h : ∀ c ∈ t, c ≠ '\n' ∧ c ≠ '\r') (hr : ∀ c u, rest = c :: u → c = '\n' ∨ c = '\r') :
    topScan U m ('#' :: t ++ rest) = topScan U m rest := by
  have hb : Yields (!ₚnewline ~ₚ any : P)*ₚ true t [] rest := by
    induction t with
    | nil =>
      refine Yields.starNil ?_
      cases rest with
      | nil => rfl
      | cons c u =>
        refine Fails.seqLeft ?_
        rcases hr c u rfl with rfl | rfl
        · rfl
        · cases u with
          | nil => rfl
          | cons d v =>
            by_cases hd : '\n' = d
            · subst hd; rfl
            · simp [Fails, Peg.neg, newline, Peg.alt, Peg.lit, stripPrefix, hd]
    | cons c t ih =>
      refine Yields.starCons (s := [c]) (ts := []) (by simp) ?_ (ih fun x hx => h x (.tail _ hx))
      refine Yields.seq' (s := []) (s' := [c]) (ts := []) (Yields.neg ?_) (Yields.cls rfl _ _) rfl rfl
      exact newline_fails (by rintro d u e; cases e; exact h c (.head _))
  have hc : Yields commentLine false ('#' :: t) [.node .comment ('#' :: t) []] rest ∨
      ∃ n r, rest = n ++ r ∧ (n = ['\n'] ∨ n = ['\r'] ∨ n = ['\r', '\n']) ∧ Yields commentLine false ('#' :: t ++ n) [.node .comment ('#' :: t) []] r := by
    have h1 : ∀ r, r = rest → Yields comment false ('#' :: t) [.node .comment ('#' :: t) []] r := by
      rintro r rfl
      exact Yields.atomic _ (Yields.seq' (s := ['#']) (ts := []) (.lit _ _ _) hb rfl rfl)
    have h0 : ∀ r, Yields ws*ₚ false (sp 0) [] ('#' :: t ++ r) := fun r => wsRun_yields 0 (by rintro d u e; cases e; decide)
    cases rest with
    | nil =>
      left
      refine Yields.seq' (s := sp 0) (ts := []) (by simpa using h0 []) (Yields.seq' (s' := []) (ts' := []) (h1 _ rfl) (Yields.optNone rfl) (by simp) rfl) rfl rfl
    | cons c u =>
      right
      have step : ∀ n r, c :: u = n ++ r → Yields newline false n [] r → Yields commentLine false ('#' :: t ++ n) [.node .comment ('#' :: t) []] r := by
        intro n r e hn
        refine Yields.seq' (s := sp 0) (ts := []) (by simpa using h0 (n ++ r)) (Yields.seq' (ts' := []) (h1 _ e.symm) (Yields.optSome hn) rfl rfl) rfl rfl
      rcases hr c u rfl with rfl | rfl
      · exact ⟨['\n'], u, rfl, .inl rfl, step _ _ rfl (Yields.altLeft (.lit _ _ _))⟩
      · by_cases h' : ∃ v, u = '\n' :: v
        · obtain ⟨v, rfl⟩ := h'
          exact ⟨['\r', '\n'], v, rfl, .inr (.inr rfl), step _ _ rfl (Yields.altRight (Fails.lit (by decide) _ _ _) (Yields.altLeft (.lit _ _ _)))⟩
        · refine ⟨['\r'], u, rfl, .inr (.inl rfl), step _ _ rfl (Yields.altRight (Fails.lit (by decide) _ _ _) (Yields.altRight ?_ (.lit _ _ _)))⟩
          cases u with
          | nil => rfl
          | cons d t =>
            have hd : '\n' ≠ d := by rintro rfl; exact h' ⟨t, rfl⟩
            simp [Fails, Peg.lit, stripPrefix, hd]
  have hitem : ∀ s r, Yields commentLine false ('#' :: s) [.node .comment ('#' :: t) []] r → topScan U m ('#' :: s ++ r) = topScan U m r := by
    intro s r hy
    have hw : ∀ d u, '#' :: s ++ r = d :: u → d ≠ ' ' ∧ d ≠ '\t' := by rintro d u e; cases e; decide
    have : topItem U false ('#' :: s ++ r) = some ⟨[.node .comment ('#' :: t) []], '#' :: s, r⟩ := by
      refine Yields.altRight ?_ (Yields.altRight ?_ (Yields.altLeft hy))
      · exact Fails.atomic _ (Fails.seqRight (s := sp 0) (wsRun_yields 0 hw) (newline_fails (by rintro d u e; cases e; decide)))
      · exact Fails.seqRight (s := sp 0) (wsRun_yields 0 hw) (Fails.seqLeft (Fails.atomic _ (Fails.seqLeft (Fails.lit (by decide) _ _ _))))
    rw [topScan_step this]; rfl
  rcases hc with hc | ⟨n, r, rfl, hn, hc⟩
  · exact hitem _ _ hc
  · have := hitem (t ++ n) r hc
    rw [show '#' :: (t ++ n) ++ r = '#' :: t ++ (n ++ r) by simp] at this
    rw [this]
    rcases hn with rfl | rfl | rfl
    · exact (topScan_lf m r).symm
    · exact (topScan_cr m r).symm
    · rw [show ['\r', '\n'] ++ r = '\r' :: '\n' :: r from rfl, topScan_cr, topScan_lf]

/-! ## Meta lines -/

/-- the five keys -/
def topKeys : List Str := [c!"name", c!"version", c!"precompiler", c!"source", c!"target"]

theorem topKey_yields {k : Str} (h : k ∈ topKeys) (a : Bool) (rest : Str) : Yields topMetaKey a k [.node .metaAttrKey k []] rest := by
  simp only [topKeys, List.mem_cons, List.not_mem_nil, or_false] at h
  refine Yields.compound _ _ ?_
  rcases h with rfl | rfl | rfl | rfl | rfl
  · exact Yields.altLeft (.lit _ _ _)
  · exact Yields.altRight (Fails.lit (by decide) _ _ _) (Yields.altLeft (.lit _ _ _))
  · exact Yields.altRight (Fails.lit (by decide) _ _ _) (Yields.altRight (Fails.lit (by decide) _ _ _) (Yields.altLeft (.lit _ _ _)))
  · exact Yields.altRight (Fails.lit (by decide) _ _ _) (Yields.altRight (Fails.lit (by decide) _ _ _)
      (Yields.altRight (Fails.lit (by decide) _ _ _) (Yields.altLeft (.lit _ _ _))))
  · exact Yields.altRight (Fails.lit (by decide) _ _ _) (Yields.altRight (Fails.lit (by decide) _ _ _)
      (Yields.altRight (Fails.lit (by decide) _ _ _) (Yields.altRight (Fails.lit (by decide) _ _ _) (.lit _ _ _))))

theorem topKey_fails {s : Str} (h : ∀ k ∈ topKeys, ¬ k <+: s) (a : Bool) : Fails topMetaKey a s := by
  have key : ∀ k ∈ topKeys, Fails (lit k : P) false s := by
    intro k hk
    simp only [Fails, Peg.lit]
    cases hs : stripPrefix k s with
    | none => rfl
    | some r => exact absurd ⟨r, (stripPrefix_some hs).symm⟩ (h k hk)
  refine Fails.compound _ (.alt (key _ (by simp [topKeys])) (.alt (key _ (by simp [topKeys])) (.alt (key _ (by simp [topKeys]))
    (.alt (key _ (by simp [topKeys])) (key _ (by simp [topKeys]))))))

/-- a value of a meta line, as it stands in the file -/
def IsMetaValue (U : Uni) (v : Str) : Prop := IsWord U v ∨ ∃ q, v = Pr.quoted q ∧ Quotable q = true

theorem metaValue_yields {v : Str} (h : IsMetaValue U v) : ∃ ts, ∀ a rest, NoChar U rest → Yields (metaAttrValue U) a v [.node .metaAttrValue v ts] rest := by
  rcases h with h | ⟨q, rfl, hq⟩
  · obtain ⟨ts, hts⟩ := charPlus_false h
    refine ⟨ts, fun a rest hr => Yields.compound _ _ (Yields.altRight ?_ (hts rest hr))⟩
    obtain ⟨c, t, rfl⟩ := List.exists_cons_of_ne_nil h.1
    have hc := h.2 c (.head _)
    exact string_fails (by rintro rfl; exact absurd hc (by rw [isChar_ascii U (by decide) (by decide)]; decide))
      (by rintro rfl; exact absurd hc (by rw [isChar_ascii U (by decide) (by decide)]; decide)) _
  · exact ⟨[strTok q], fun a rest _ => Yields.compound _ _ (value_yields hq _ _)⟩

theorem metaValue_nw {v : Str} (h : IsMetaValue U v) (r : Str) : NW (v ++ r) := IsClass.nw (U := U) h r

/-- `key = value`, with blanks -/
def metaPairText (k : Str) (a b : Nat) (v : Str) : Str := k ++ (sp a ++ ('=' :: (sp b ++ v)))

theorem topPair_yields {k v : Str} {a b : Nat} (hk : k ∈ topKeys) (hv : IsMetaValue U v) :
    ∃ ts, ∀ rest, NoChar U rest → Yields (metaKeyPair U topMetaKey) true (metaPairText k a b v) [.node .metaAttrKey k [], .node .metaAttrValue v ts] rest := by
  obtain ⟨ts, hts⟩ := metaValue_yields hv
  refine ⟨ts, fun rest hr => Yields.atomicIn _ ?_⟩
  refine Yields.seq' (s := k) (ts := [.node .metaAttrKey k []]) (topKey_yields hk _ _) ?_ rfl rfl
  refine Yields.seq' (s := sp a) (ts := []) (optWs_spaces a (NW.cons (c := '=') (by decide) (by decide) (by decide) _)) ?_ rfl rfl
  refine Yields.seq' (s := ['=']) (ts := []) (.lit _ _ _) ?_ rfl rfl
  exact Yields.seq' (s := sp b) (ts := []) (optWs_spaces b (metaValue_nw hv _)) (hts _ _ hr) rfl rfl

/-- a meta line; `n`, `a`, `b` and `e` blanks -/
def metaLineText (n : Nat) (k : Str) (a b : Nat) (v : Str) (e : Nat) : Str :=
  c!"--" ++ (sp n ++ metaPairText k a b v) ++ sp e ++ ['\n']

theorem key_noblank {k : Str} (h : k ∈ topKeys) : ∃ c t, k = c :: t ∧ c ≠ ' ' ∧ c ≠ '\t' := by
  simp only [topKeys, List.mem_cons, List.not_mem_nil, or_false] at h
  rcases h with rfl | rfl | rfl | rfl | rfl <;> exact ⟨_, _, rfl, by decide, by decide⟩

theorem topScan_meta (m : FMap Str) {k v : Str} {n a b e : Nat} (hk : k ∈ topKeys) (hv : IsMetaValue U v) (rest : Str) :
    topScan U m (metaLineText n k a b v e ++ rest) = topScan U (m.insert k v) rest := by
  obtain ⟨ts, hts⟩ := topPair_yields (a := a) (b := b) hk hv
  have hvne : v ≠ [] := by
    rcases hv with h | ⟨q, rfl, -⟩
    · exact h.1
    · simp [Pr.quoted]
  have hkne : k ≠ [] := by obtain ⟨c, t, rfl, -⟩ := key_noblank hk; simp
  have hno : NoChar U (sp e ++ '\n' :: rest) := by
    cases e with
    | zero => exact fun c r h => by cases h; exact isChar_ascii U (by decide) (by decide)
    | succ e => exact fun c r h => by cases h; exact isChar_ascii U (by decide) (by decide)
  have hpair : Yields (!ₚnewline ~ₚ metaKeyPair U topMetaKey) true (metaPairText k a b v) [.node .metaAttrKey k [], .node .metaAttrValue v ts] (sp e ++ '\n' :: rest) := by
    refine Yields.seq' (s := []) (ts := []) (Yields.neg ?_) (hts _ hno) rfl rfl
    obtain ⟨c, t, rfl, -⟩ := key_noblank hk
    refine newline_fails (fun d u e => ?_)
    simp only [topKeys, List.mem_cons, List.not_mem_nil, or_false] at hk
    rcases hk with h | h | h | h | h <;> injection h with h1 h2 <;> subst h1 <;> (injection e with e1 e2; subst e1; decide)
  have hstop : Fails (!ₚnewline ~ₚ metaKeyPair U topMetaKey) true (sp e ++ '\n' :: rest) := by
    cases e with
    | zero => exact Fails.seqLeft rfl
    | succ e =>
      refine Fails.seqRight (s := []) (ts := []) (Yields.neg (newline_fails (by rintro d u h; cases h; decide))) (Fails.atomic _ (Fails.seqLeft (topKey_fails ?_ _)))
      intro k hk hp
      simp only [topKeys, List.mem_cons, List.not_mem_nil, or_false] at hk
      obtain ⟨t, ht⟩ := hp
      rcases hk with rfl | rfl | rfl | rfl | rfl <;> cases ht
  have hmeta : Yields (metaComment U topMetaKey) false (c!"--" ++ (sp n ++ metaPairText k a b v))
      [.node .metaComment (c!"--" ++ (sp n ++ metaPairText k a b v)) [.node .metaAttrKey k [], .node .metaAttrValue v ts]] (sp e ++ '\n' :: rest) := by
    refine Yields.atomic _ (Yields.seq' (s := c!"--") (ts := []) (.lit _ _ _) ?_ rfl rfl)
    refine Yields.seq' (s := sp n) (ts := []) (wsRun_yields n ?_) ?_ rfl rfl
    · obtain ⟨c, t, rfl, h⟩ := key_noblank hk
      intro d u e
      cases e; exact h
    · have := Yields.starCons (s' := []) (by obtain ⟨c, t, rfl, -⟩ := key_noblank hk; simp [metaPairText]) hpair (Yields.starNil hstop)
      simpa using this
  have hloop : ∀ u, Ins.topLoop m [.node .metaComment u [.node .metaAttrKey k [], .node .metaAttrValue v ts]] = .ok (m.insert k v) := by
    intro u
    have h1 : k.isEmpty = false := by simpa using hkne
    have h2 : v.isEmpty = false := by simpa using hvne
    simp [Ins.topLoop, Ins.topStep, Ins.metaLoop, Tree.rule, Tree.kids, Tree.text, h1, h2]
  have hitem : ∀ x r, sp e ++ '\n' :: rest = x ++ r → Yields (newline ?ₚ) false x [] r →
      topScan U m (metaLineText n k a b v e ++ rest) = topScan U (m.insert k v) r := by
    intro x r hx hn
    rw [hx] at hmeta
    have hy : Yields (metaCommentLine U topMetaKey) false (c!"--" ++ (sp n ++ metaPairText k a b v) ++ x)
        [.node .metaComment (c!"--" ++ (sp n ++ metaPairText k a b v)) [.node .metaAttrKey k [], .node .metaAttrValue v ts]] r := by
      refine Yields.seq' (s := sp 0) (ts := []) (wsRun_yields 0 (by rintro d u e; cases e; decide)) ?_ rfl rfl
      exact Yields.seq' (ts' := []) hmeta hn rfl rfl
    have := Yields.altRight (s := c!"--" ++ (sp n ++ metaPairText k a b v) ++ x) (rest := r) (p := emptyLine) (q := metaCommentLine U topMetaKey |ₚ commentLine |ₚ any)
      (Fails.atomic _ (Fails.seqRight (s := sp 0) (wsRun_yields 0 (by rintro d u e; cases e; decide))
        (newline_fails (by rintro d u e; cases e; decide)))) (Yields.altLeft hy)
    have e1 : metaLineText n k a b v e ++ rest = c!"--" ++ (sp n ++ metaPairText k a b v) ++ x ++ r := by
      simp only [metaLineText, List.append_assoc]
      rw [← hx]; rfl
    rw [e1, topScan_step (U := U) (o := ⟨_, _, r⟩) this]
    simp only [hloop]
  cases e with
  | zero => exact hitem ['\n'] rest rfl (Yields.optSome (Yields.altLeft (.lit _ _ _)))
  | succ e =>
    rw [hitem [] (sp (e + 1) ++ '\n' :: rest) rfl (Yields.optNone (newline_fails (by rintro d u h; cases h; decide)))]
    rw [show sp (e + 1) ++ '\n' :: rest = (sp (e + 1) ++ ['\n']) ++ rest by simp]
    refine topScan_text _ _ _ ?_ ?_ ?_
    · simp [sp]
    · rintro ⟨x, y, h⟩
      have : '-' ∈ sp (e + 1) ++ ['\n'] := by rw [← h]; simp
      simp [sp] at this
    · simp

/-- `--` that is not followed by a key is an error. -/
theorem topScan_bad (m : FMap Str) (n : Nat) (s : Str) (hw : ∀ c t, s = c :: t → c ≠ ' ' ∧ c ≠ '\t') (h : ∀ k ∈ topKeys, ¬ k <+: s) :
    topScan U m (c!"--" ++ sp n ++ s) = .err (.metaError c!"key is empty") := by
  have hmeta : Yields (metaComment U topMetaKey) false (c!"--" ++ sp n) [.node .metaComment (c!"--" ++ sp n) []] s := by
    refine Yields.atomic _ (Yields.seq' (s := c!"--") (ts := []) (.lit _ _ _) ?_ rfl rfl)
    refine Yields.seq' (s' := []) (ts := []) (wsRun_yields n hw) (Yields.starNil ?_) (by simp) rfl
    cases hn : (!ₚnewline : P) true s with
    | none => exact Fails.seqLeft hn
    | some o =>
      obtain ⟨-, rfl⟩ := neg_some hn
      exact Fails.seqRight (s := []) (ts := []) hn (Fails.atomic _ (Fails.seqLeft (topKey_fails h _)))
  obtain ⟨o, ho⟩ : ∃ o, (newline ?ₚ : P) false s = some o := by
    simp only [Peg.opt]
    cases (newline : P) false s with
    | none => exact ⟨_, rfl⟩
    | some o => exact ⟨o, rfl⟩
  have hi : topItem U false (c!"--" ++ sp n ++ s) = some ⟨[.node .metaComment (c!"--" ++ sp n) []] ++ o.ts, (c!"--" ++ sp n) ++ o.u, o.r⟩ := by
    have h1 : Fails emptyLine false (c!"--" ++ sp n ++ s) :=
      Fails.atomic _ (Fails.seqRight (s := sp 0) (wsRun_yields 0 (by rintro d u e; cases e; decide))
        (newline_fails (by rintro d u e; cases e; decide)))
    have h2 : metaCommentLine U topMetaKey false (c!"--" ++ sp n ++ s) = some ⟨[.node .metaComment (c!"--" ++ sp n) []] ++ o.ts, (c!"--" ++ sp n) ++ o.u, o.r⟩ := by
      have h3 : ws*ₚ false (c!"--" ++ sp n ++ s) = some ⟨[], [], c!"--" ++ sp n ++ s⟩ := wsRun_yields 0 (by rintro d u e; cases e; decide)
      have h4 : metaComment U topMetaKey false (c!"--" ++ sp n ++ s) = some ⟨[.node .metaComment (c!"--" ++ sp n) []], c!"--" ++ sp n, s⟩ := hmeta
      simp only [metaCommentLine, Peg.seq, h3, h4, ho, List.nil_append]
    have h1' : emptyLine false (c!"--" ++ sp n ++ s) = none := h1
    simp only [topItem, Peg.alt, h1', h2]
  rw [topScan_step hi]
  simp [Ins.topLoop, Ins.topStep, Ins.metaLoop, Tree.rule, Tree.kids]

end Gr
end OCA
