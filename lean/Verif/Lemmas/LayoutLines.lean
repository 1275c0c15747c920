import Verif.Lemmas.LayoutCommands
/-!
# Parsing freely laid out text: whole commands and lines
-/
namespace OCA
open Peg
namespace Gr
variable {U : Uni} {E : Env}

/-! ## ADD, REMOVE, FROM -/

/-- the alternatives of a command -/
def cmdP (U : Uni) : P := from_ U |ₚ add U |ₚ modify U |ₚ remove U

theorem addLaid_yields {kw : Str} (hk : Spells c!"ADD" kw) (g : Gap) {s r : Str} {tok : Tok} (hs : Solid (s ++ r)) (h : Yields (ocaObject U) false s [tok] r) :
    Yields (cmdP U) false (kw ++ g.text ++ s) [.node .add (kw ++ g.text ++ s) [tok]] r := by
  have F : ∀ {k' : Rule} {kw' : Str} {q : P}, differ kw' c!"ADD" = true → Fails (normal k' (ilit kw' ~ₚ q)) false (kw ++ g.text ++ s ++ r) := by
    intro k' kw' q hd
    rw [List.append_assoc, List.append_assoc]
    exact other_fails hk hd _
  refine Yields.altRight (F (by decide)) (Yields.altLeft ?_)
  refine Yields.normal _ (Yields.seq' (s := kw) (s' := g.text ++ s) (ts := []) (Yields.ilit hk.symm _ _) ?_ (by simp) rfl)
  exact Yields.seq' (ts := []) (gapMany_yields g hs) h rfl rfl

theorem removeLaid_yields {kw : Str} (hk : Spells c!"REMOVE" kw) (g : Gap) {s r : Str} {tok : Tok} (hs : Solid (s ++ r))
    (h : Yields (removeOcaObject U) false s [tok] r) :
    Yields (cmdP U) false (kw ++ g.text ++ s) [.node .remove (kw ++ g.text ++ s) [tok]] r := by
  have F : ∀ {k' : Rule} {kw' : Str} {q : P}, differ kw' c!"REMOVE" = true → Fails (normal k' (ilit kw' ~ₚ q)) false (kw ++ g.text ++ s ++ r) := by
    intro k' kw' q hd
    rw [List.append_assoc, List.append_assoc]
    exact other_fails hk hd _
  refine Yields.altRight (F (by decide)) (Yields.altRight (F (by decide)) (Yields.altRight (F (by decide)) ?_))
  refine Yields.normal _ (Yields.seq' (s := kw) (s' := g.text ++ s) (ts := []) (Yields.ilit hk.symm _ _) ?_ (by simp) rfl)
  exact Yields.seq' (ts := []) (gapMany_yields g hs) h rfl rfl

/-! ## CLASSIFICATION -/

theorem ClassLaid.solid {v : ClassLaid} (h : v.Ok U) (r : Str) : Solid (v.text ++ r) := by
  cases v with
  | word s => exact IsWord.solid h r
  | quoted q => exact Quoted.solid q r

theorem classLaid_value {v : ClassLaid} (h : v.Ok U) {r : Str} (hr : Stop r) : ∃ ts, Yields (value U) false v.text ts r := by
  cases v with
  | word s =>
    obtain ⟨t, ts, -, hy⟩ := wordOrQuoted_yields (v := .word s) hr (.inl ⟨s, rfl, h⟩)
    exact ⟨_, hy⟩
  | quoted q =>
    obtain ⟨t, ts, -, hy⟩ := wordOrQuoted_yields (U := U) (v := .quoted q) hr (.inr ⟨q, rfl, h⟩)
    exact ⟨_, hy⟩

theorem classLaid_yields {kw : Str} (hk : Spells c!"CLASSIFICATION" kw) {g : Gap} (hg : g ≠ []) {v : ClassLaid} (h : v.Ok U) {r : Str} (hr : Stop r) :
    ∃ tok, Ins.addStep E U tok none = .ok (some (.captureBase ⟨none, some [(c!"classification", .val v.text)], none⟩)) ∧
      Yields (ocaObject U) false (kw ++ g.text ++ v.text) [tok] r := by
  obtain ⟨ts, hv⟩ := classLaid_value h hr
  refine ⟨.node .classification (kw ++ g.text ++ v.text) [.node .classificationValue v.text ts], rfl, ?_⟩
  have F : ∀ {k' : Rule} {kw' : Str} {q : P}, differ kw' c!"CLASSIFICATION" = true → Fails (normal k' (ilit kw' ~ₚ q)) false (kw ++ g.text ++ v.text ++ r) := by
    intro k' kw' q hd
    rw [List.append_assoc, List.append_assoc]
    exact other_fails hk hd _
  refine Yields.altRight (F (by decide)) (Yields.altRight (F (by decide)) (Yields.altRight (F (by decide)) (Yields.altLeft ?_)))
  refine Yields.normal _ (Yields.seq' (s := kw) (s' := g.text ++ v.text) (ts := []) (Yields.ilit hk.symm _ _) ?_ (by simp) rfl)
  exact Yields.seq' (ts := []) (gap_yields g hg (ClassLaid.solid h r)) (Yields.normal _ hv) rfl rfl

theorem removeClassLaid_yields {kw : Str} (hk : Spells c!"CLASSIFICATION" kw) (r : Str) :
    Yields (removeOcaObject U) false kw [.node .removeClassification kw []] r := by
  have F : ∀ {k' : Rule} {kw' : Str} {q : P}, differ kw' c!"CLASSIFICATION" = true → Fails (normal k' (ilit kw' ~ₚ q)) false (kw ++ r) :=
    fun hd => other_fails hk hd _
  refine Yields.altRight (F (by decide)) (Yields.altRight (F (by decide)) (Yields.altRight (F (by decide)) (Yields.altLeft ?_)))
  exact Yields.normal _ (Yields.ilit hk.symm _ _)

/-! ## REMOVE ATTRIBUTE -/

theorem names_stop (l : List (Gap × Str)) (h : ∀ x ∈ l, x.1 ≠ [] ∧ IsKey x.2) {r : Str} (hr : Stop r) : Stop ((l.flatMap fun x => x.1.text ++ x.2) ++ r) := by
  cases l with
  | nil => exact hr
  | cons x l =>
    have := gap_stop (h x (.head _)).1 (x.2 ++ ((l.flatMap fun x => x.1.text ++ x.2) ++ r))
    simpa using this

theorem namesLaid_yields (l : List (Gap × Str)) (h : ∀ x ∈ l, x.1 ≠ [] ∧ IsKey x.2) (w : Blanks) {r : Str} (hr : LineEnd r) :
    Yields (argWs ~ₚ attrKey)*ₚ false (l.flatMap fun x => x.1.text ++ x.2) (l.map fun x => keyTok x.2) (w.text ++ r) := by
  induction l with
  | nil => exact Yields.starNil (tail_fails w hr (attrKey_end hr))
  | cons x l ih =>
    have hl := fun y hy => h y (.tail _ hy)
    obtain ⟨h1, h2⟩ := h x (.head _)
    refine Yields.of_eq (Yields.starCons (s := x.1.text ++ x.2) (ts := [keyTok x.2]) ?_ ?_ (ih hl)) (by simp) rfl
    · have := Gap.text_ne h1
      simp [this]
    · refine Yields.seq' (ts := []) (gap_yields x.1 h1 (IsKey.solid h2 _)) (attrKey_yields h2 _ ?_) rfl rfl
      exact (names_stop l hl (blanks_stop w hr.stop)).notKey

theorem removeAttributesLaid_yields {kw : Str} (hk : Spells c!"ATTRIBUTE" kw) (l : List (Gap × Str)) (h : ∀ x ∈ l, x.1 ≠ [] ∧ IsKey x.2) (w : Blanks) {r : Str}
    (hr : LineEnd r) : Yields (removeOcaObject U) false (kw ++ l.flatMap fun x => x.1.text ++ x.2)
      [.node .removeAttribute (kw ++ l.flatMap fun x => x.1.text ++ x.2) (l.map fun x => keyTok x.2)] (w.text ++ r) := by
  have F : ∀ {k' : Rule} {kw' : Str} {q : P}, differ kw' c!"ATTRIBUTE" = true →
      Fails (normal k' (ilit kw' ~ₚ q)) false ((kw ++ l.flatMap fun x => x.1.text ++ x.2) ++ (w.text ++ r)) := by
    intro k' kw' q hd
    rw [List.append_assoc]
    exact other_fails hk hd _
  refine Yields.altRight (F (by decide)) (Yields.altRight (F (by decide)) (Yields.altLeft ?_))
  exact Yields.normal _ (Yields.seq' (ts := []) (Yields.ilit hk.symm _ _) (namesLaid_yields l h w hr) rfl rfl)

theorem namesLaid_fold (l : List (Gap × Str)) : ∀ acc, (l.map fun x => keyTok x.2).foldl (fun acc k => imInsert k.text NAttr.null acc) acc =
    imExtend acc (l.map fun x => (x.2, .null)) := by
  induction l with
  | nil => intro acc; rfl
  | cons x l ih => intro acc; exact ih _

/-! ## Commands -/

theorem lastOf_last (p : PairsLaid) : lastOf p.first p.more = p.last := by
  obtain ⟨f, m⟩ := p
  unfold PairsLaid.last
  dsimp only
  induction m generalizing f with
  | nil => rfl
  | cons x t ih =>
    rw [lastOf, ih x.2]
    cases t with
    | nil => rfl
    | cons y t => rw [List.getLast?_cons_cons, List.getLast?_eq_some_getLast (by simp)]

/-- **a command, the blanks after it, and the end of the line or a comment** -/
theorem laid_yields {x : Laid} (h : x.Ok E U) (w : Blanks) {r : Str} (hr : LineEnd r) (hb : x.endsBare = true → UStop (w.text ++ r)) :
    ∃ tok, Ins.commandOf E U tok = .ok x.meaning ∧ (tok.rule = .add ∨ tok.rule = .remove ∨ tok.rule = .from_) ∧
      (x.takesBlanks = true → Yields (cmdP U) false (x.text ++ w.text) [tok] r) ∧
      (x.takesBlanks = false → Yields (cmdP U) false x.text [tok] (w.text ++ r)) := by
  have hst := blanks_stop w hr.stop
  cases x with
  | addAttributes add g kw attrs =>
    obtain ⟨h1, h2, h3, h4⟩ := h
    obtain ⟨t, ht, hy⟩ := attributeLaid_yields (E := E) (U := U) h2 attrs h3 h4 w hr
    have := addLaid_yields h1 g (by rw [List.append_assoc]; exact Spells.solid h2 ⟨_, _, rfl, by decide⟩ _) hy
    exact ⟨_, addCommand_of ht, .inl rfl, (fun h => by cases h), fun _ => Yields.of_eq this (by simp [Laid.text]) rfl⟩
  | addOverlay add g k kw g1 m block g2 ps =>
    obtain ⟨h1, h2, h3, h4, h5, h6, h7, h8⟩ := h
    have hlast : PStop k (lastOf ps.first ps.more) (w.text ++ r) := by
      refine ⟨hst, fun e1 e2 => hb ?_⟩
      rw [lastOf_last] at e2
      simp [Laid.endsBare, e1, e2]
    obtain ⟨ts, hts, hp, -⟩ := pairsStar_yields ps.more ps.first (h7 _ (.head _))
      (fun x hx => h7 _ (.tail _ (List.mem_map_of_mem hx))) h8 w hr hlast
    have hsol : ∀ z, Solid (ps.text ++ z) := by
      intro z
      unfold PairsLaid.text
      rw [List.append_assoc]
      exact pairText_solid (h7 _ (.head _)) _
    have ho := overlayLaid_yields h2 h3 h4 h5 h6 (s := ps.text ++ w.text) (by rw [List.append_assoc]; exact hsol _) hp
    have hstart : ∀ z, Solid (kw ++ z) := keyword_solid h2
    have ho' : Yields (ocaObject U) false (kw ++ (g1.text ++ m.text ++ block ++ g2.text ++ (ps.text ++ w.text)))
        [.node (ovRule k) (kw ++ g1.text ++ m.text ++ block ++ g2.text ++ (ps.text ++ w.text)) (m.toks ++ [.node (ovPairs k) (ps.text ++ w.text) ts])] r := by
      refine ov_dispatch h2 (Yields.of_eq ho (by simp) rfl) (fun _ => ?_) (fun e => ?_)
      · obtain ⟨c, t, e, hc⟩ := gap_start h3 (m.text ++ block ++ g2.text ++ (ps.text ++ w.text) ++ r)
        exact ⟨c, t, by rw [← e]; simp, hc⟩
      · subst e
        cases m with
        | lang l g => cases h4.1
        | target x g => cases h4.1
        | none =>
          have e1 : kw ++ (g1.text ++ MiddleLaid.text .none ++ block ++ g2.text ++ (ps.text ++ w.text)) ++ r =
              kw ++ (g1.text ++ (block ++ (g2.text ++ (ps.text ++ w.text) ++ r))) := by simp [MiddleLaid.text]
          rw [e1]
          refine Fails.normal _ (Fails.seqRight (Spells.ilit (T := c!"CHARACTER_ENCODING") h2 _ _) ?_)
          refine Fails.seqRight (gap_yields g1 h3 (block_solid h5 _)) (Fails.seqLeft (Fails.seqLeft ?_))
          exact ilit_fails ((differ_congr (t := c!"PROPS") h5).trans (by decide)) _ _
    have := addLaid_yields h1 g (by rw [List.append_assoc]; exact hstart _) ho'
    exact ⟨_, addCommand_of (overlay_step (tok := .node (ovRule k) _ _) (addKind_ovRule k) (contentOf_laid h4 hts)), .inl rfl, fun _ => Yields.of_eq this (by simp [Laid.text]) rfl, (fun h => by cases h)⟩
  | addClass add g kw g1 v =>
    obtain ⟨h1, h2, h3, h4⟩ := h
    obtain ⟨t, ht, hy⟩ := classLaid_yields (E := E) (U := U) h2 h3 h4 hst
    have := addLaid_yields h1 g (by rw [List.append_assoc, List.append_assoc]; exact Spells.solid h2 ⟨_, _, rfl, by decide⟩ _) hy
    exact ⟨_, addCommand_of ht, .inl rfl, (fun h => by cases h), fun _ => Yields.of_eq this (by simp [Laid.text]) rfl⟩
  | removeAttributes remove g kw names =>
    obtain ⟨h1, h2, h3⟩ := h
    have := removeLaid_yields h1 g (by rw [List.append_assoc]; exact Spells.solid h2 ⟨_, _, rfl, by decide⟩ _)
      (removeAttributesLaid_yields (U := U) h2 names h3 w hr)
    refine ⟨_, ?_, .inr (.inl rfl), (fun h => by cases h), fun _ => Yields.of_eq this (by simp [Laid.text]) rfl⟩
    simp only [Ins.commandOf, Tree.rule, Ins.removeOf, Tree.kids, Ins.removeLoop, Ins.removeStep, namesLaid_fold]
    rfl
  | removeClass remove g kw =>
    obtain ⟨h1, h2⟩ := h
    have := removeLaid_yields h1 g (Spells.solid h2 ⟨_, _, rfl, by decide⟩ _) (removeClassLaid_yields (U := U) h2 (w.text ++ r))
    exact ⟨_, rfl, .inr (.inl rfl), (fun h => by cases h), fun _ => Yields.of_eq this (by simp [Laid.text]) rfl⟩
  | fromSaid kw w' s =>
    obtain ⟨h1, h2, h3⟩ := h
    obtain ⟨ts, hts⟩ := charPlus_false h2
    refine ⟨_, from_command (u := kw ++ w'.text ++ s) h3 ts, .inr (.inr rfl), (fun h => by cases h), fun _ => Yields.altLeft ?_⟩
    have hs : ∀ y c u, s ++ y = c :: u → c ≠ ' ' ∧ c ≠ '\t' := by
      intro y c u e
      obtain ⟨d, v, e', hd1, hd2, -⟩ := IsWord.solid h2 y
      rw [e] at e'
      cases e'
      exact ⟨hd1, hd2⟩
    refine Yields.normal _ (Yields.seq' (s := kw) (s' := w'.text ++ s) (ts := []) (Yields.ilit h1.symm _ _) ?_ (by simp [Laid.text]) rfl)
    refine Yields.seq' (ts := []) (blanks_yields w' (hs _)) ?_ rfl rfl
    exact Yields.normal _ (Yields.seq' (s := sp 0) (ts := []) (wsRun_yields 0 (hs _)) (hts _ (hst.noChar U)) rfl rfl)

theorem laid_start {x : Laid} (h : x.Ok E U) (r : Str) : ∃ c t, x.text ++ r = c :: t ∧ c ≠ ' ' ∧ c ≠ '\t' ∧ c ≠ '#' ∧ c ≠ '-' ∧ c ≠ '\n' ∧ c ≠ '\r' := by
  have key : ∀ {kw0 : Str} {c : Char} {kw s : Str}, Spells (c :: kw0) kw → (asciiLower c = 'a' ∨ asciiLower c = 'r' ∨ asciiLower c = 'f') →
      ∃ c t, kw ++ s = c :: t ∧ c ≠ ' ' ∧ c ≠ '\t' ∧ c ≠ '#' ∧ c ≠ '-' ∧ c ≠ '\n' ∧ c ≠ '\r' := by
    intro kw0 c kw s h hc
    obtain ⟨d, u, rfl, hd⟩ := Spells.start h rfl
    refine ⟨d, _, rfl, ?_⟩
    rw [← hd] at hc
    refine ⟨?_, ?_, ?_, ?_, ?_, ?_⟩ <;> (rintro rfl; revert hc; decide)
  cases x with
  | addAttributes add g kw attrs =>
    have := key (kw0 := c!"DD") (c := 'A') (s := g.text ++ kw ++ attrs.flatMap AttrLaid.text ++ r) h.1 (by decide)
    simpa [Laid.text] using this
  | addOverlay add g k kw g1 m block g2 ps =>
    have := key (kw0 := c!"DD") (c := 'A') (s := g.text ++ kw ++ g1.text ++ m.text ++ block ++ g2.text ++ ps.text ++ r) h.1 (by decide)
    simpa [Laid.text] using this
  | addClass add g kw g1 v =>
    have := key (kw0 := c!"DD") (c := 'A') (s := g.text ++ kw ++ g1.text ++ v.text ++ r) h.1 (by decide)
    simpa [Laid.text] using this
  | removeAttributes remove g kw names =>
    have := key (kw0 := c!"EMOVE") (c := 'R') (s := g.text ++ kw ++ (names.flatMap fun x => x.1.text ++ x.2) ++ r) h.1 (by decide)
    simpa [Laid.text] using this
  | removeClass remove g kw =>
    have := key (kw0 := c!"EMOVE") (c := 'R') (s := g.text ++ kw ++ r) h.1 (by decide)
    simpa [Laid.text] using this
  | fromSaid kw w' s =>
    have := key (kw0 := c!"ROM") (c := 'F') (s := w'.text ++ s ++ r) h.1 (by decide)
    simpa [Laid.text] using this

/-! ## Lines -/

theorem Yields.cast {p : P} {a : Bool} {s r r' : Str} {ts : List Tok} (e : r = r') (h : Yields p a s ts r) : Yields p a s ts r' := e ▸ h


/-- one item of a file -/
def itemP (U : Uni) : P := emptyLine |ₚ metaCommentLine U semMetaKey |ₚ commentLine |ₚ commands U

theorem commentFree_yields {t : Str} (h : ∀ c ∈ t, c ≠ '\n' ∧ c ≠ '\r') (e : Eol) (r : Str) : Yields (!ₚnewline ~ₚ any : P)*ₚ true t [] (e.text ++ r) := by
  induction t with
  | nil =>
    refine Yields.starNil (Fails.seqLeft ?_)
    cases e <;> rfl
  | cons c t ih =>
    refine Yields.starCons (s := [c]) (ts := []) (by simp) ?_ (ih fun x hx => h x (.tail _ hx))
    refine Yields.seq' (s := []) (s' := [c]) (ts := []) (Yields.neg ?_) (Yields.cls rfl _ _) rfl rfl
    exact newline_fails (by rintro d u e; cases e; exact h c (.head _))

theorem commentItem_yields (w : Blanks) {t : Str} (h : ∀ c ∈ t, c ≠ '\n' ∧ c ≠ '\r') (e : Eol) (r : Str) :
    Yields (itemP U) false (w.text ++ ('#' :: (t ++ e.text))) [.node .comment ('#' :: t) []] r := by
  have hw : ∀ y, ∀ c u, '#' :: y = c :: u → c ≠ ' ' ∧ c ≠ '\t' := by rintro y c u e; cases e; decide
  refine Yields.altRight ?_ (Yields.altRight ?_ (Yields.altLeft ?_))
  · rw [List.append_assoc]
    exact Fails.atomic _ (Fails.seqRight (blanks_yields w (hw _)) (newline_fails (by rintro d u e; cases e; decide)))
  · rw [List.append_assoc]
    exact Fails.seqRight (blanks_yields w (hw _)) (Fails.seqLeft (Fails.atomic _ (Fails.seqLeft (Fails.lit (by decide) _ _ _))))
  · refine Yields.seq' (ts := []) (blanks_yields w (hw _)) ?_ rfl rfl
    refine Yields.seq' (s := '#' :: t) (s' := e.text) (ts' := []) (ts := [.node .comment ('#' :: t) []]) ?_ (Yields.optSome (eol_yields e r)) (by simp) rfl
    exact Yields.atomic _ (Yields.seq' (s := ['#']) (ts := []) (.lit _ _ _) (commentFree_yields h e r) rfl rfl)

theorem blankItem_yields (w : Blanks) (e : Eol) (r : Str) :
    Yields (itemP U) false (w.text ++ e.text) [.node .emptyLine (w.text ++ e.text) []] r := by
  refine Yields.altLeft (Yields.atomic _ ?_)
  exact Yields.seq' (ts := []) (blanks_yields w (eol_noWs e r)) (eol_yields e r) rfl rfl

theorem tail_lineEnd {t : Option Str} (e : Eol) (r : Str) : LineEnd (commentText t ++ e.text ++ r) := by
  cases t with
  | some t => intro c u h; cases h; simp
  | none =>
    intro c u h
    obtain ⟨d, v, e', hd⟩ := eol_start e r
    have : e.text ++ r = c :: u := h
    rw [e'] at this
    cases this
    rcases hd with hd | hd <;> simp [hd]

theorem eol_ne (e : Eol) : e.text ≠ [] := by cases e <;> simp [Eol.text]

/-- the rest of a line after a command or a meta pair: the line break goes with it, or the rest is a line of its own -/
theorem lineTail {p : P} {s : Str} {tok : Tok} (w : Blanks) {t : Option Str} (ht : CommentOk t) (e : Eol) (r : Str)
    (taken : Bool) (h : if taken = true then Yields p false (s ++ w.text) [tok] (commentText t ++ e.text ++ r) else Yields p false s [tok] (w.text ++ (commentText t ++ e.text ++ r))) :
    ∃ (x s2 : Str) (fill : List Tok), w.text ++ commentText t ++ e.text = x ++ s2 ∧ Yields (p ~ₚ newline ?ₚ) false (s ++ x) [tok] (s2 ++ r) ∧
      (∀ t ∈ fill, t.rule = .comment ∨ t.rule = .emptyLine) ∧ fill.length = behind taken w t ∧
      ∀ z T rest, z ++ rest = r → Yields (itemP U)*ₚ false z T rest → Yields (itemP U)*ₚ false (s2 ++ z) (fill ++ T) rest := by
  have case1 : ∀ w : Blanks, taken = true ∨ w = [] → Yields p false (s ++ w.text) [tok] (commentText t ++ e.text ++ r) →
      ∃ (x s2 : Str) (fill : List Tok), w.text ++ commentText t ++ e.text = x ++ s2 ∧ Yields (p ~ₚ newline ?ₚ) false (s ++ x) [tok] (s2 ++ r) ∧
      (∀ t ∈ fill, t.rule = .comment ∨ t.rule = .emptyLine) ∧ fill.length = behind taken w t ∧
      ∀ z T rest, z ++ rest = r → Yields (itemP U)*ₚ false z T rest → Yields (itemP U)*ₚ false (s2 ++ z) (fill ++ T) rest := by
    intro w hw h
    cases t with
    | none =>
      refine ⟨w.text ++ e.text, [], [], by simp [commentText], ?_, by simp, by simp [behind, hw], fun z T rest _ hz => by simpa using hz⟩
      exact Yields.seq' (s' := e.text) (ts' := []) h (Yields.optSome (eol_yields e r)) (by simp) rfl
    | some t =>
      refine ⟨w.text, '#' :: t ++ e.text, [.node .comment ('#' :: t) []], by simp [commentText], ?_, by simp [Tree.rule], by simp [behind], ?_⟩
      · exact Yields.seq' (s' := []) (ts' := []) h (Yields.optNone (newline_fails (by rintro d u e; cases e; decide))) (by simp) rfl
      · intro z T rest er hz
        have := commentItem_yields (U := U) [] ht e (z ++ rest)
        exact Yields.of_eq (Yields.starCons (by simp [Blanks.text]) this hz) (by simp [Blanks.text]) rfl
  cases taken with
  | true => exact case1 _ (.inl rfl) (by simpa using h)
  | false =>
    have h : Yields p false s [tok] (w.text ++ (commentText t ++ e.text ++ r)) := by simpa using h
    cases w with
    | nil => exact case1 [] (.inr rfl) (by simpa [Blanks.text] using h)
    | cons b w =>
      have hnl : ∀ a y, Fails newline a (Blanks.text (b :: w) ++ y) := by
        intro a y
        refine newline_fails ?_
        intro d u e
        cases b <;> (cases e; decide)
      refine ⟨[], Blanks.text (b :: w) ++ commentText t ++ e.text, ?_⟩
      have hfirst : Yields (p ~ₚ newline ?ₚ) false (s ++ []) [tok] (Blanks.text (b :: w) ++ commentText t ++ e.text ++ r) := by
        refine Yields.seq' (s' := []) (ts' := []) (Yields.cast ?_ h) (Yields.optNone ?_) rfl rfl
        · simp
        · rw [List.append_assoc, List.append_assoc]
          exact hnl _ _
      cases t with
      | none =>
        refine ⟨[.node .emptyLine (Blanks.text (b :: w) ++ e.text) []], by simp, hfirst, by simp [Tree.rule], by simp [behind], ?_⟩
        intro z T rest er hz
        have := blankItem_yields (U := U) (b :: w) e (z ++ rest)
        exact Yields.of_eq (Yields.starCons (by simp [eol_ne]) this hz) (by simp [commentText]) rfl
      | some t =>
        refine ⟨[.node .comment ('#' :: t) []], by simp, hfirst, by simp [Tree.rule], by simp [behind], ?_⟩
        intro z T rest er hz
        have := commentItem_yields (U := U) (b :: w) ht e (z ++ rest)
        exact Yields.of_eq (Yields.starCons (by simp) this hz) (by simp [commentText]) rfl

end Gr
end OCA
