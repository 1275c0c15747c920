import Verif.Lemmas.TopFile
import Verif.Lemmas.FileShapes
/-!
# Transformation files: reading rendered lines, and what any text can give
-/
namespace OCA
open Peg
namespace Gr
variable {U : Uni} {b : Bool}

/-- an attribute name of a transformation: letters, digits, `-`, `_` -/
def TKey (k : Str) : Prop := k ≠ [] ∧ ∀ c ∈ k, isPropKeyChar c = true

instance (k : Str) : Decidable (TKey k) := by unfold TKey; infer_instance

theorem TKey.start {k : Str} (h : TKey k) (r : Str) : ∀ c t, k ++ r = c :: t → isPropKeyChar c = true := by
  rintro c t e
  obtain ⟨hn, hk⟩ := h
  cases k with
  | nil => exact absurd rfl hn
  | cons d k => injection e with e1 e2; subst e1; exact hk _ (.head _)

theorem TKey.nw {k : Str} (h : TKey k) (r : Str) : NW (k ++ r) := by
  intro c t e
  have := h.start r c t e
  refine ⟨?_, ?_, ?_⟩ <;> rintro rfl <;> exact absurd this (by decide)

theorem tAttrKey_yields {k : Str} (h : TKey k) (a : Bool) {rest : Str}
    (hr : ∀ c r, rest = c :: r → isPropKeyChar c = false) : Yields tAttrKey a k [keyTok k] rest :=
  Yields.compound _ _ (Yields.clsPlus h.1 h.2 hr)

theorem notPropKey_sp {n : Nat} {r : Str} (hr : ∀ c t, r = c :: t → isPropKeyChar c = false) : ∀ c t, sp n ++ r = c :: t → isPropKeyChar c = false := by
  cases n with
  | zero => simpa [sp] using hr
  | succ n => rintro c t e; cases e; decide

/-! ## Pairs -/

/-- one pair of a command: blanks before it, the two names and the blanks around the sign -/
structure TPair where
  gap : Nat
  key : Str
  before : Nat
  after : Nat
  value : Str

/-- as it stands in the file -/
def TPair.render (sign : Str) (p : TPair) : Str := sp (p.gap + 1) ++ (p.key ++ (sp p.before ++ (sign ++ (sp p.after ++ p.value))))

/-- the pair without the blanks before it -/
def TPair.body (sign : Str) (p : TPair) : Str := p.key ++ (sp p.before ++ (sign ++ (sp p.after ++ p.value)))

/-- two names; before `->` there is a blank, as `-` may be part of a name -/
def TPair.Ok (sign : Str) (p : TPair) : Prop := TKey p.key ∧ TKey p.value ∧ (sign = c!"->" → p.before ≠ 0)

/-- its token -/
def TPair.tok (sign : Str) (rule : Rule) (p : TPair) : Tok := .node rule (p.body sign) [keyTok p.key, keyTok p.value]

/-- the signs of the two commands -/
def IsSign (sign : Str) : Prop := sign = c!"=" ∨ sign = c!"->"

theorem pairBody_yields {sign : Str} (hs : IsSign sign) {rule : Rule} {p : TPair} (h : p.Ok sign) {rest : Str}
    (hr : ∀ c r, rest = c :: r → isPropKeyChar c = false) :
    Yields (atomic rule (tAttrKey ~ₚ argWs ?ₚ ~ₚ lit sign ~ₚ argWs ?ₚ ~ₚ tAttrKey)) false (p.body sign) [p.tok sign rule] rest := by
  obtain ⟨h1, h2, h3⟩ := h
  refine Yields.atomic _ ?_
  refine Yields.seq' (s := p.key) (ts := [keyTok p.key]) (tAttrKey_yields h1 _ ?_) ?_ rfl rfl
  · intro c r e
    cases hb : p.before with
    | zero =>
      rcases hs with rfl | rfl
      · rw [hb] at e; cases e; decide
      · exact absurd hb (h3 rfl)
    | succ n => rw [hb] at e; cases e; decide
  refine Yields.seq' (s := sp p.before) (ts := []) (optWs_spaces _ ?_) ?_ rfl rfl
  · rcases hs with rfl | rfl
    · exact NW.cons (c := '=') (by decide) (by decide) (by decide) _
    · exact NW.cons (c := '-') (by decide) (by decide) (by decide) _
  refine Yields.seq' (s := sign) (ts := []) (.lit _ _ _) ?_ rfl rfl
  exact Yields.seq' (s := sp p.after) (ts := []) (optWs_spaces _ (h2.nw _)) (tAttrKey_yields h2 _ hr) rfl rfl

theorem tAttrKey_fails {rest : Str} (a : Bool) (hr : ∀ c r, rest = c :: r → isPropKeyChar c = false) : Fails tAttrKey a rest := by
  refine Fails.compound _ (Fails.plus ?_)
  cases rest with
  | nil => rfl
  | cons c r => exact Fails.cls (hr c r rfl) _ _

/-- a run of pairs, up to the end of the line -/
theorem pairs_yields {sign : Str} (hs : IsSign sign) {rule : Rule} (l : List TPair) (h : ∀ p ∈ l, p.Ok sign) (rest : Str) :
    Yields (argWs ~ₚ atomic rule (tAttrKey ~ₚ argWs ?ₚ ~ₚ lit sign ~ₚ argWs ?ₚ ~ₚ tAttrKey))*ₚ false (l.flatMap (TPair.render sign))
      (l.map (TPair.tok sign rule)) ('\n' :: rest) := by
  induction l with
  | nil => exact Yields.starNil (Fails.seqLeft (argWs_fails (NW.cons (by decide) (by decide) (by decide) _)))
  | cons p t ih =>
    have hp := h p (.head _)
    refine Yields.of_eq (Yields.starCons (s := p.render sign) (ts := [p.tok sign rule]) (by simp [TPair.render, sp]) ?_ (ih fun x hx => h x (.tail _ hx)))
      (by simp) rfl
    refine Yields.seq' (s := sp (p.gap + 1)) (s' := p.body sign) (ts := []) (argWs_spaces _ ?_) (pairBody_yields hs hp ?_) rfl rfl
    · have := hp.1.nw (sp p.before ++ (sign ++ (sp p.after ++ p.value)) ++ (t.flatMap (TPair.render sign) ++ '\n' :: rest))
      simpa [TPair.body] using this
    · cases t with
      | nil => rintro c r e; cases e; decide
      | cons q t => rintro c r e; cases e; decide

/-- a whole command up to the end of the line -/
theorem tCommand_yields {sign kw : Str} (hs : IsSign sign) {rp rps ra rc : Rule} (n : Nat) {l : List TPair} (hn : l ≠ []) (h : ∀ p ∈ l, p.Ok sign) (rest : Str) :
    Yields (normal rc (ilit kw ~ₚ argWs*ₚ ~ₚ normal ra (ilit c!"attribute" ~ₚ (compound rps
      (argWs ~ₚ atomic rp (tAttrKey ~ₚ argWs ?ₚ ~ₚ lit sign ~ₚ argWs ?ₚ ~ₚ tAttrKey))+ₚ)+ₚ))) false
      (kw ++ (sp n ++ (c!"ATTRIBUTE" ++ l.flatMap (TPair.render sign))))
      [.node rc (kw ++ (sp n ++ (c!"ATTRIBUTE" ++ l.flatMap (TPair.render sign))))
        [.node ra (c!"ATTRIBUTE" ++ l.flatMap (TPair.render sign))
          [.node rps (l.flatMap (TPair.render sign)) (l.map (TPair.tok sign rp))]]] ('\n' :: rest) := by
  refine Yields.normal _ (Yields.seq' (s := kw) (ts := []) (Yields.ilit rfl _ _) ?_ rfl rfl)
  refine Yields.seq' (s := sp n) (ts := []) (starWs_spaces n (NW.cons (c := 'A') (by decide) (by decide) (by decide) _)) ?_ rfl rfl
  refine Yields.normal _ (Yields.seq' (s := c!"ATTRIBUTE") (ts := []) (Yields.ilit (by decide) _ _) ?_ rfl rfl)
  have hend : Fails argWs false ('\n' :: rest) := argWs_fails (NW.cons (by decide) (by decide) (by decide) _)
  refine Yields.plusOne (Yields.compound _ _ ?_) (Fails.compound _ (Fails.plus (Fails.seqLeft hend)))
  cases l with
  | nil => exact absurd rfl hn
  | cons p t =>
    have hp := h p (.head _)
    refine Yields.of_eq (Yields.plus (s := p.render sign) (ts := [p.tok sign rp]) ?_ (pairs_yields hs t (fun x hx => h x (.tail _ hx)) rest)) (by simp) rfl
    refine Yields.seq' (s := sp (p.gap + 1)) (s' := p.body sign) (ts := []) (argWs_spaces _ ?_) (pairBody_yields hs hp ?_) rfl rfl
    · have := hp.1.nw (sp p.before ++ (sign ++ (sp p.after ++ p.value)) ++ (t.flatMap (TPair.render sign) ++ '\n' :: rest))
      simpa [TPair.body] using this
    · cases t with
      | nil => rintro c r e; cases e; decide
      | cons q t => rintro c r e; cases e; decide

/-! ## Instructions on these tokens -/

theorem renamePair_tok {sign : Str} {rule : Rule} (p : TPair) : Ins.renamePair (p.tok sign rule) = .ok (p.key, p.value) := rfl

theorem renamePairsLoop_toks {sign : Str} {rule : Rule} (l : List TPair) (acc : List (Str × Str)) :
    Ins.renamePairsLoop (l.map (TPair.tok sign rule)) acc = .ok (imExtend acc (l.map fun p => (p.key, p.value))) := by
  induction l generalizing acc with
  | nil => rfl
  | cons p t ih =>
    rw [List.map_cons, Ins.renamePairsLoop, renamePair_tok]
    exact ih _

/-! ## Lines -/

/-- one step of reading a file -/
def tItem (U : Uni) : P := emptyLine |ₚ metaCommentLine U topMetaKey |ₚ commentLine |ₚ tCommands U

theorem tItem_end : Fails (tItem U) false [] := by
  have hw : ∀ d u, ([] : Str) = d :: u → d ≠ ' ' ∧ d ≠ '\t' := by intro d u e; cases e
  refine Fails.alt ?_ (Fails.alt ?_ (Fails.alt ?_ ?_))
  · exact Fails.atomic _ (Fails.seqRight (s := sp 0) (wsRun_yields 0 hw) rfl)
  · exact Fails.seqRight (s := sp 0) (wsRun_yields 0 hw) (Fails.seqLeft (Fails.atomic _ (Fails.seqLeft rfl)))
  · exact Fails.seqRight (s := sp 0) (wsRun_yields 0 hw) (Fails.seqLeft (Fails.atomic _ (Fails.seqLeft rfl)))
  · exact Fails.seqLeft (Fails.alt (Fails.normal _ (Fails.seqLeft rfl)) (Fails.alt (Fails.normal _ (Fails.seqLeft rfl))
      (Fails.normal _ (Fails.seqLeft rfl))))

theorem tItem_blank (n : Nat) (rest : Str) : Yields (tItem U) false (sp n ++ ['\n']) [.node .emptyLine (sp n ++ ['\n']) []] rest :=
  Yields.altLeft (Yields.atomic _ (Yields.seq' (ts := []) (wsRun_yields n (by rintro c t e; cases e; decide)) (Yields.altLeft (.lit _ _ _)) rfl rfl))

theorem commentBody_yields {t : Str} (h : ∀ c ∈ t, c ≠ '\n' ∧ c ≠ '\r') (rest : Str) : Yields (!ₚnewline ~ₚ any)*ₚ true t [] ('\n' :: rest) := by
  induction t with
  | nil => exact Yields.starNil (Fails.seqLeft (Fails.neg (s := ['\n']) (Yields.altLeft (.lit _ _ _))))
  | cons c t ih =>
    refine Yields.starCons (s := [c]) (ts := []) (by simp) ?_ (ih fun x hx => h x (.tail _ hx))
    refine Yields.seq' (s := []) (s' := [c]) (ts := []) (Yields.neg ?_) (Yields.cls rfl _ _) rfl rfl
    exact newline_fails (by rintro d u e; cases e; exact h c (.head _))

theorem tItem_comment (n : Nat) {t : Str} (h : ∀ c ∈ t, c ≠ '\n' ∧ c ≠ '\r') (rest : Str) :
    Yields (tItem U) false (sp n ++ ('#' :: t ++ ['\n'])) [.node .comment ('#' :: t) []] rest := by
  have hw : ∀ d u, '#' :: t ++ ['\n'] ++ rest = d :: u → d ≠ ' ' ∧ d ≠ '\t' := by rintro d u e; cases e; decide
  refine Yields.altRight ?_ (Yields.altRight ?_ (Yields.altLeft ?_))
  · rw [List.append_assoc]
    exact Fails.atomic _ (Fails.seqRight (wsRun_yields n hw) (newline_fails (by rintro d u e; cases e; decide)))
  · rw [List.append_assoc]
    exact Fails.seqRight (wsRun_yields n hw) (Fails.seqLeft (Fails.atomic _ (Fails.seqLeft (Fails.lit (by decide) _ _ _))))
  · refine Yields.seq' (ts := []) (wsRun_yields n hw) ?_ rfl rfl
    refine Yields.seq' (s := '#' :: t) (s' := ['\n']) (ts' := []) (Yields.atomic _ ?_) (Yields.optSome (Yields.altLeft (.lit _ _ _))) rfl rfl
    exact Yields.seq' (s := ['#']) (ts := []) (.lit _ _ _) (commentBody_yields h rest) rfl rfl

theorem tItem_meta {k v : Str} (n a b : Nat) (hk : k ∈ topKeys) (hv : IsMetaValue U v) :
    ∃ ts, ∀ rest, Yields (tItem U) false (metaLineText n k a b v 0)
      [.node .metaComment (c!"--" ++ (sp n ++ metaPairText k a b v)) [.node .metaAttrKey k [], .node .metaAttrValue v ts]] rest := by
  obtain ⟨ts, hts⟩ := topPair_yields (a := a) (b := b) hk hv
  refine ⟨ts, fun rest => ?_⟩
  have hno : NoChar U ('\n' :: rest) := fun c r h => by cases h; exact isChar_ascii U (by decide) (by decide)
  have hpair : Yields (!ₚnewline ~ₚ metaKeyPair U topMetaKey) true (metaPairText k a b v) [.node .metaAttrKey k [], .node .metaAttrValue v ts] ('\n' :: rest) := by
    refine Yields.seq' (s := []) (ts := []) (Yields.neg ?_) (hts _ hno) rfl rfl
    obtain ⟨c, t, rfl, -⟩ := key_noblank hk
    refine newline_fails (fun d u e => ?_)
    simp only [topKeys, List.mem_cons, List.not_mem_nil, or_false] at hk
    rcases hk with h | h | h | h | h <;> injection h with h1 h2 <;> subst h1 <;> (injection e with e1 e2; subst e1; decide)
  have hstop : Fails (!ₚnewline ~ₚ metaKeyPair U topMetaKey) true ('\n' :: rest) := Fails.seqLeft rfl
  have hmeta : Yields (metaComment U topMetaKey) false (c!"--" ++ (sp n ++ metaPairText k a b v))
      [.node .metaComment (c!"--" ++ (sp n ++ metaPairText k a b v)) [.node .metaAttrKey k [], .node .metaAttrValue v ts]] ('\n' :: rest) := by
    refine Yields.atomic _ (Yields.seq' (s := c!"--") (ts := []) (.lit _ _ _) ?_ rfl rfl)
    refine Yields.seq' (s := sp n) (ts := []) (wsRun_yields n ?_) ?_ rfl rfl
    · obtain ⟨c, t, rfl, h⟩ := key_noblank hk
      intro d u e
      cases e; exact h
    · have := Yields.starCons (s' := []) (by obtain ⟨c, t, rfl, -⟩ := key_noblank hk; simp [metaPairText]) hpair (Yields.starNil hstop)
      simpa using this
  have hy : Yields (metaCommentLine U topMetaKey) false (metaLineText n k a b v 0)
      [.node .metaComment (c!"--" ++ (sp n ++ metaPairText k a b v)) [.node .metaAttrKey k [], .node .metaAttrValue v ts]] rest := by
    refine Yields.seq' (s := sp 0) (ts := []) (wsRun_yields 0 (by rintro d u e; cases e; decide)) ?_ rfl rfl
    exact Yields.seq' (ts' := []) hmeta (Yields.optSome (Yields.altLeft (.lit _ _ _))) (by simp [metaLineText, sp]) rfl
  refine Yields.altRight ?_ (Yields.altLeft hy)
  exact Fails.atomic _ (Fails.seqRight (s := sp 0) (wsRun_yields 0 (by rintro d u e; cases e; decide))
        (newline_fails (by rintro d u e; cases e; decide)))

/-- a line that starts with a letter is neither blank nor a comment -/
theorem tItem_cmd {s rest : Str} {tok : Tok} (h : Yields (tCommands U) false s [tok] rest) (hs : ∃ t, s = 'R' :: t ∨ s = 'L' :: t) :
    Yields (tItem U) false s [tok] rest := by
  obtain ⟨c, t, rfl, h1, h2, h3, h4, h5, h6⟩ : ∃ c t, s = c :: t ∧ c ≠ ' ' ∧ c ≠ '\t' ∧ c ≠ '#' ∧ c ≠ '-' ∧ c ≠ '\n' ∧ c ≠ '\r' := by
    obtain ⟨t, rfl | rfl⟩ := hs <;> exact ⟨_, t, rfl, by decide⟩
  have hw : ∀ d u, c :: (t ++ rest) = d :: u → d ≠ ' ' ∧ d ≠ '\t' := by intro d u e; cases e; exact ⟨h1, h2⟩
  refine Yields.altRight ?_ (Yields.altRight ?_ (Yields.altRight ?_ h))
  · exact Fails.atomic _ (Fails.seqRight (s := sp 0) (wsRun_yields 0 hw) (newline_fails (by intro d u e; cases e; exact ⟨h5, h6⟩)))
  · exact Fails.seqRight (s := sp 0) (wsRun_yields 0 hw) (Fails.seqLeft (Fails.atomic _ (Fails.seqLeft (Fails.lit (Ne.symm h4) _ _ _))))
  · exact Fails.seqRight (s := sp 0) (wsRun_yields 0 hw) (Fails.seqLeft (Fails.atomic _ (Fails.seqLeft (Fails.lit (Ne.symm h3) _ _ _))))

/-- the text of a command without the line break -/
def tCmdText (kw sign : Str) (n : Nat) (l : List TPair) : Str := kw ++ (sp n ++ (c!"ATTRIBUTE" ++ l.flatMap (TPair.render sign)))

theorem tItem_rename (n : Nat) {l : List TPair} (hn : l ≠ []) (h : ∀ p ∈ l, p.Ok c!"=") (rest : Str) :
    Yields (tItem U) false (tCmdText c!"RENAME" c!"=" n l ++ ['\n']) [.node .rename (tCmdText c!"RENAME" c!"=" n l)
        [.node .renameAttributes (c!"ATTRIBUTE" ++ l.flatMap (TPair.render c!"="))
          [.node .renameAttrPairs (l.flatMap (TPair.render c!"=")) (l.map (TPair.tok c!"=" .renameAttrPair))]]] rest := by
  refine tItem_cmd (lineBreak_yields ?_) ⟨_, .inl rfl⟩
  refine Yields.altRight (Fails.normal _ (Fails.seqLeft (Fails.ilit (by decide) _ _ _))) (Yields.altLeft ?_)
  exact tCommand_yields (kw := c!"RENAME") (.inl rfl) n hn h rest

theorem tItem_link (n : Nat) {l : List TPair} (hn : l ≠ []) (h : ∀ p ∈ l, p.Ok c!"->") (rest : Str) :
    Yields (tItem U) false (tCmdText c!"LINK" c!"->" n l ++ ['\n']) [.node .tlink (tCmdText c!"LINK" c!"->" n l)
        [.node .linkAttributes (c!"ATTRIBUTE" ++ l.flatMap (TPair.render c!"->"))
          [.node .linkAttrPairs (l.flatMap (TPair.render c!"->")) (l.map (TPair.tok c!"->" .linkAttrPair))]]] rest := by
  refine tItem_cmd (lineBreak_yields ?_) ⟨_, .inr rfl⟩
  refine Yields.altRight (Fails.normal _ (Fails.seqLeft (Fails.ilit (by decide) _ _ _)))
    (Yields.altRight (Fails.normal _ (Fails.seqLeft (Fails.ilit (by decide) _ _ _))) ?_)
  exact tCommand_yields (kw := c!"LINK") (.inr rfl) n hn h rest

end Gr
end OCA
