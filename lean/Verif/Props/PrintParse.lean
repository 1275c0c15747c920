import Verif.Demo
import Verif.Lemmas.All2
import Verif.Lemmas.ParseLines
import Verif.Props.AstValidation
/-!
# Printing an AST and parsing the text again (C49, C46)
-/
namespace OCA
open Peg Gr

/-! ## Specification -/

/-- The same command, up to the order of the properties of an overlay and to an absent list being written as an empty one. -/
def Like (c c' : Command) : Prop :=
  c.kind = c'.kind ∧ match c.obj, c'.obj with
    | .overlay t a, .overlay t' b => t = t' ∧ a.attributes.getD [] = b.attributes.getD [] ∧
        (a.properties.getD []).Perm (b.properties.getD [])
    | x, y => x = y

/-- The overlays whose text is a keyword and `name="value"` pairs. -/
def PlainKind (k : OvKind) : Prop :=
  k = .unit ∨ k = .format ∨ k = .conformance ∨ k = .cardinality ∨ k = .conditional ∨ k = .characterEncoding

/-- no properties -/
def NoProps (p : Option (List (Str × NVal))) : Prop := p = none ∨ p = some []

/-- distinct names -/
def Distinct {V : Type} (l : List (Str × V)) : Prop := (l.map (·.1)).Nodup

/-- a non-empty list of distinct attribute names with values that can be quoted -/
structure Pairs (l : List (Str × NVal)) : Prop where
  ne : l ≠ []
  ok : ∀ p ∈ l, PairOk p
  distinct : Distinct l

/-- The commands that the printer can print and the parser can read. -/
inductive Printable (E : Env) (U : Uni) : Command → Prop
  /-- ADD ATTRIBUTE -/
  | attributes (l : List (Str × NAttr)) (hn : l ≠ []) (h : ∀ p ∈ l, AttrOk E U p) (hd : Distinct l) :
      Printable E U ⟨.add, .captureBase ⟨some l, none, none⟩⟩
  /-- ADD CLASSIFICATION -/
  | classification (v : Str) (h : IsClass U v) :
      Printable E U ⟨.add, .captureBase ⟨none, some [(c!"classification", .val v)], none⟩⟩
  /-- REMOVE ATTRIBUTE -/
  | removeAttributes (l : List Str) (h : ∀ k ∈ l, IsKey k) (hd : l.Nodup) :
      Printable E U ⟨.remove, .captureBase ⟨some (l.map fun k => (k, .null)), none, none⟩⟩
  /-- REMOVE CLASSIFICATION -/
  | removeClassification :
      Printable E U ⟨.remove, .captureBase ⟨none, some [(c!"classification", .val [])], none⟩⟩
  /-- ADD UNIT, FORMAT, CONFORMANCE, CARDINALITY, CONDITION, CHARACTER_ENCODING -/
  | plain (k : OvKind) (hk : PlainKind k) (as : List (Str × NVal)) (h : Pairs as) (ps : Option (List (Str × NVal))) (hp : NoProps ps) :
      Printable E U ⟨.add, .overlay ⟨k, c!"1.1"⟩ ⟨some as, ps⟩⟩
  /-- ADD LABEL, INFORMATION -/
  | withLang (k : OvKind) (hk : k = .label ∨ k = .information) (as : List (Str × NVal)) (h : Pairs as) (lg : Str) (hl : IsLang lg) :
      Printable E U ⟨.add, .overlay ⟨k, c!"1.1"⟩ ⟨some as, some [(c!"lang", .val lg)]⟩⟩
  /-- ADD META -/
  | metas (as : Option (List (Str × NVal))) (ha : NoProps as) (ps : List (Str × NVal)) (hd : Distinct ps) (lg : Str)
      (hl : (c!"lang", NVal.val lg) ∈ ps) (hg : IsLang lg) (h : ∀ p ∈ ps, p.1 ≠ c!"lang" → PairOk p) (hne : ∃ p ∈ ps, p.1 ≠ c!"lang") :
      Printable E U ⟨.add, .overlay ⟨.metaOv, c!"1.1"⟩ ⟨as, some ps⟩⟩
  /-- ADD ENTRY_CODE -/
  | entryCodes (l : List (Str × CodeVal)) (hn : l ≠ []) (h : ∀ p ∈ l, IsKey p.1 ∧ p.2.Ok) (hd : Distinct l)
      (ps : Option (List (Str × NVal))) (hp : NoProps ps) :
      Printable E U ⟨.add, .overlay ⟨.entryCode, c!"1.1"⟩ ⟨some (l.map fun p => (p.1, p.2.val)), ps⟩⟩
  /-- ADD ENTRY -/
  | entries (l : List (Str × EntryVal)) (hn : l ≠ []) (h : ∀ p ∈ l, IsKey p.1 ∧ p.2.Ok) (hd : Distinct l) (lg : Str) (hl : IsLang lg) :
      Printable E U ⟨.add, .overlay ⟨.entry, c!"1.1"⟩ ⟨some (l.map fun p => (p.1, p.2.val)), some [(c!"lang", .val lg)]⟩⟩
  /-- ADD LINK -/
  | link (as : List (Str × NVal)) (h : Pairs as) (s : Str) (hs : IsWord U s) (hv : E.validSaid s = true) :
      Printable E U ⟨.add, .overlay ⟨.link, c!"1.1"⟩ ⟨some as, some [(c!"target", .ref (.said s))]⟩⟩
  /-- ADD ATTR_FRAMING -/
  | framing (ms : List (Str × Str)) (hm : ms ≠ []) (hk : ∀ r ∈ ms, IsMetaKey r.1 ∧ Quotable r.2 = true) (hdm : Distinct ms)
      (l : List (Str × Frames)) (hn : l ≠ []) (h : ∀ r ∈ l, IsKey r.1 ∧ FramesOk U r.2) (hd : Distinct l) :
      Printable E U ⟨.add, .overlay ⟨.attributeFraming, c!"1.1"⟩
        ⟨some (l.map fun r => (r.1, framesVal r.2)), some (ms.map fun r => (r.1, .val r.2))⟩⟩

/-! ## One command -/

/-- The properties of a META command as they are read back: the language first; the others in their order, but the last one
in the place where the language was (`IndexMap::remove` moves it there). -/
def langFirst (ps : List (Str × NVal)) : List (Str × NVal) := (ps.filter fun p => decide (p.1 = c!"lang")) ++ Pr.swapRemove c!"lang" ps

/-- What a printed command is read back as (specification): the same; lists that are not there are read as empty lists, and the properties of
META are reordered. -/
def Command.reread (c : Command) : Command :=
  match c.obj with
  | .overlay t cc => ⟨c.kind, .overlay t ⟨some (cc.attributes.getD []),
      some (if t.kind = .metaOv then langFirst (cc.properties.getD []) else cc.properties.getD [])⟩⟩
  | _ => c

/-- the command is printed as a line that is read as the token of a command like it -/
def Lined (E : Env) (U : Uni) (c : Command) : Prop :=
  ∃ (x : CmdLine) (s : Str), x.Ok U ∧ (∀ ε, (Pr.command c : Res ε Str) = .ok s) ∧ x.text = s ++ ['\n'] ∧
    (x.tok.rule = .add ∨ x.tok.rule = .remove) ∧ Ins.commandOf E U x.tok = .ok c.reread ∧ Like c c.reread

theorem EOL.newline (r : Str) : EOL ('\n' :: r) := .inr ⟨r, rfl⟩

theorem addLine_ok {U : Uni} {s : Str} {tok : Tok} (hs : ∃ c t, s = c :: t ∧ c ≠ '=' ∧ c ≠ ' ' ∧ c ≠ '\t' ∧ c ≠ '\\') (h : ReadsObj U s tok) :
    CmdLine.Ok U ⟨c!"ADD " ++ s ++ ['\n'], .node .add (c!"ADD" ++ (' ' :: s)) [tok]⟩ := by
  obtain ⟨c, t, rfl, h1, h2, h3, h4⟩ := hs
  have key : ∀ rest, Yields (commands U) false (c!"ADD " ++ (c :: t) ++ ['\n']) [.node .add (c!"ADD" ++ (' ' :: (c :: t))) [tok]] rest := fun rest =>
    lineBreak_yields (addAlt_yields (add_yields (h ('\n' :: rest) (EOL.newline rest)) (NW.cons h2 h3 h4 _)))
  refine ⟨fun r => .inr (.inl ⟨c, t ++ ['\n'] ++ r, by simp, h1, NW.cons h2 h3 h4 _⟩), by simp, fun rest _ => key rest, fun rest => .inl (key _)⟩

theorem addCommand_of {E : Env} {U : Uni} {s : Str} {tok : Tok} {o : ObjKind} (h : Ins.addStep E U tok none = .ok (some o)) :
    Ins.commandOf E U (.node .add s [tok]) = .ok ⟨.add, o⟩ := by
  simp only [Ins.commandOf, Tree.rule, Ins.addOf, Tree.kids, Ins.addLoop, h]

theorem overlay_step {E : Env} {U : Uni} {tok : Tok} {k : OvKind} {c : Content} (h1 : Ins.addKind tok.rule = some k)
    (h2 : Ins.contentOf E U tok = .ok c) : Ins.addStep E U tok none = .ok (some (.overlay ⟨k, c!"1.1"⟩ c)) := by
  simp only [Ins.addStep, h1, h2]

/-- an ADD overlay that is printed on one line -/
theorem lined_overlay {E : Env} {U : Uni} {k : OvKind} {c c' : Content} {s : Str} {tok : Tok}
    (hs : ∃ c t, s = c :: t ∧ c ≠ '=' ∧ c ≠ ' ' ∧ c ≠ '\t' ∧ c ≠ '\\') (hp : Pr.overlayText k c = s) (hr : ReadsObj U s tok)
    (h1 : Ins.addKind tok.rule = some k) (h2 : Ins.contentOf E U tok = .ok c')
    (h3 : (⟨.add, .overlay ⟨k, c!"1.1"⟩ c⟩ : Command).reread = ⟨.add, .overlay ⟨k, c!"1.1"⟩ c'⟩)
    (h4 : (c.properties.getD []).Perm (c'.properties.getD [])) :
    Lined E U ⟨.add, .overlay ⟨k, c!"1.1"⟩ c⟩ := by
  subst hp
  refine ⟨_, _, addLine_ok hs hr, fun _ => rfl, rfl, .inl rfl, ?_, ?_⟩
  · rw [h3]; exact addCommand_of (overlay_step h1 h2)
  · have e : c'.attributes = some (c.attributes.getD []) := by cases h3; rfl
    rw [h3]
    exact ⟨rfl, rfl, by rw [e]; rfl, h4⟩

theorem pieces_ne {α : Type} {f : α → Gr.Piece} {l : List α} (h : l ≠ []) : l.map f ≠ [] := by simpa using h

theorem pairPieces_ok {U : Uni} {as : List (Str × NVal)} (h : ∀ p ∈ as, PairOk p) : ∀ x ∈ as.map (pairPiece pairTok), x.Ok (keyPair U) := by
  intro x hx
  obtain ⟨p, hp, rfl⟩ := List.mem_map.1 hx
  exact pairPiece_ok p (h p hp)

theorem unitPieces_ok {as : List (Str × NVal)} (h : ∀ p ∈ as, PairOk p) : ∀ x ∈ as.map (pairPiece unitTok), x.Ok unitKeyPair := by
  intro x hx
  obtain ⟨p, hp, rfl⟩ := List.mem_map.1 hx
  exact unitPiece_ok p (h p hp)

theorem gapOf_pairs (tok : Str → Str → Tok) {as : List (Str × NVal)} (h : as ≠ []) : gapOf (as.map (pairPiece tok)) = 1 := by
  cases as with
  | nil => exact absurd rfl h
  | cons p t => rfl

theorem quotedPairs_text (tok : Str → Str → Tok) (as : List (Str × NVal)) (h : Pairs as) :
    Pr.quotedPairs as = sp (0 + 1) ++ piecesText (as.map (pairPiece tok)) := by
  rw [quotedPairs_eq tok as h.ok, gappedText_eq, gapOf_pairs tok h.ne]

theorem noProps_text {ps : Option (List (Str × NVal))} (h : NoProps ps) :
    Pr.onSome (fun ps => Pr.langText ps ++ Pr.propsText Pr.quotedPairs ps) ps = [] ∧ Pr.onSome Pr.plainPropsText ps = [] ∧
      (ps.getD []).Perm (some ([] : List (Str × NVal)) |>.getD []) := by
  rcases h with rfl | rfl
  · exact ⟨rfl, rfl, .nil⟩
  · exact ⟨rfl, rfl, .nil⟩

theorem lined_plain (E : Env) (U : Uni) (k : OvKind) (hk : PlainKind k) (as : List (Str × NVal)) (h : Pairs as)
    (ps : Option (List (Str × NVal))) (hp : NoProps ps) : Lined E U ⟨.add, .overlay ⟨k, c!"1.1"⟩ ⟨some as, ps⟩⟩ := by
  obtain ⟨hp1, hp2, hp3⟩ := noProps_text hp
  have hq := quotedPairs_text pairTok as h
  have hu := quotedPairs_text unitTok as h
  have hok := pairPieces_ok (U := U) h.ok
  have hku := unitPieces_ok h.ok
  have hob : Ins.keyPairsObj U ((as.map (pairPiece pairTok)).map Gr.Piece.tok) [] = .ok as := by
    rw [pairToks pairTok (keyPairOf_pairTok U) as h.ok, imExtend_nil_nodup _ h.distinct]
  have hobu : Ins.keyPairsObj U ((as.map (pairPiece unitTok)).map Gr.Piece.tok) [] = .ok as := by
    rw [pairToks unitTok (keyPairOf_unitTok U) as h.ok, imExtend_nil_nodup _ h.distinct]
  rcases hk with rfl | rfl | rfl | rfl | rfl | rfl
  · refine lined_overlay (s := c!"UNIT" ++ (' ' :: (c!"ATTRS" ++ (sp (0 + 1) ++ piecesText (as.map (pairPiece unitTok))))))
      ⟨_, _, rfl, by decide⟩ ?_ (reads_unit fun rest hr => plainOv_yields (by decide) 0 _ (pieces_ne h.ne) hku hr.nw (unitKeyPair_fails hr)) rfl
      (contentOf_plain E U _ _ _ _ _ as (by simp) hobu) (by rcases hp with rfl | rfl <;> rfl) hp3
    simp only [Pr.overlayText, Pr.onSome, hu]; rfl
  · refine lined_overlay (s := c!"FORMAT" ++ (' ' :: (c!"ATTRS" ++ (sp (0 + 1) ++ piecesText (as.map (pairPiece pairTok))))))
      ⟨_, _, rfl, by decide⟩ ?_ (reads_format fun rest hr => plainOv_yields (by decide) 0 _ (pieces_ne h.ne) hok hr.nw (keyPair_fails hr)) rfl
      (contentOf_plain E U _ _ _ _ _ as (by simp) hob) (by rcases hp with rfl | rfl <;> rfl) hp3
    simp only [Pr.overlayText, hp1]; simp only [Pr.onSome, hq, Pr.upperSnake]; rfl
  · refine lined_overlay (s := c!"CONFORMANCE" ++ (' ' :: (c!"ATTRS" ++ (sp (0 + 1) ++ piecesText (as.map (pairPiece pairTok))))))
      ⟨_, _, rfl, by decide⟩ ?_ (reads_conformance fun rest hr => plainOv_yields (by decide) 0 _ (pieces_ne h.ne) hok hr.nw (keyPair_fails hr)) rfl
      (contentOf_plain E U _ _ _ _ _ as (by simp) hob) (by rcases hp with rfl | rfl <;> rfl) hp3
    simp only [Pr.overlayText, hp1]; simp only [Pr.onSome, hq, Pr.upperSnake]; rfl
  · refine lined_overlay (s := c!"CARDINALITY" ++ (' ' :: (c!"ATTRS" ++ (sp (0 + 1) ++ piecesText (as.map (pairPiece pairTok))))))
      ⟨_, _, rfl, by decide⟩ ?_ (reads_cardinality fun rest hr => plainOv_yields (by decide) 0 _ (pieces_ne h.ne) hok hr.nw (keyPair_fails hr)) rfl
      (contentOf_plain E U _ _ _ _ _ as (by simp) hob) (by rcases hp with rfl | rfl <;> rfl) hp3
    simp only [Pr.overlayText, hp1]; simp only [Pr.onSome, hq, Pr.upperSnake]; rfl
  · refine lined_overlay (s := c!"CONDITION" ++ (' ' :: (c!"ATTRS" ++ (sp (0 + 1) ++ piecesText (as.map (pairPiece pairTok))))))
      ⟨_, _, rfl, by decide⟩ ?_ (reads_conditional fun rest hr => plainOv_yields (by decide) 0 _ (pieces_ne h.ne) hok hr.nw (keyPair_fails hr)) rfl
      (contentOf_plain E U _ _ _ _ _ as (by simp) hob) (by rcases hp with rfl | rfl <;> rfl) hp3
    simp only [Pr.overlayText, hp2]; simp only [Pr.onSome, hq]; rfl
  · refine lined_overlay (s := c!"CHARACTER_ENCODING" ++ (' ' :: (c!"ATTRS" ++ (sp (0 + 1) ++ piecesText (as.map (pairPiece pairTok))))))
      ⟨_, _, rfl, by decide⟩ ?_ (reads_characterEncoding fun rest hr => plainOv_yields (by decide) 0 _ (pieces_ne h.ne) hok hr.nw (keyPair_fails hr)) rfl
      (contentOf_plain E U _ _ _ _ _ as (by simp) hob) (by rcases hp with rfl | rfl <;> rfl) hp3
    simp only [Pr.overlayText, hp1]; simp only [Pr.onSome, hq, Pr.upperSnake]; rfl

theorem langOnly_text (lg : Str) (f : List (Str × NVal) → Str) :
    Pr.langText [(c!"lang", .val lg)] = lg ++ c!" " ∧ Pr.propsText f [(c!"lang", .val lg)] = [] := ⟨rfl, rfl⟩

theorem lined_withLang (E : Env) (U : Uni) (k : OvKind) (hk : k = .label ∨ k = .information) (as : List (Str × NVal)) (h : Pairs as)
    (lg : Str) (hl : IsLang lg) : Lined E U ⟨.add, .overlay ⟨k, c!"1.1"⟩ ⟨some as, some [(c!"lang", .val lg)]⟩⟩ := by
  have hq := quotedPairs_text pairTok as h
  have hok := pairPieces_ok (U := U) h.ok
  have hob : Ins.keyPairsObj U ((as.map (pairPiece pairTok)).map Gr.Piece.tok) [] = .ok as := by
    rw [pairToks pairTok (keyPairOf_pairTok U) as h.ok, imExtend_nil_nodup _ h.distinct]
  have hw : ∀ r, NW (c!"ATTRS" ++ r) := fun r => NW.cons (by decide) (by decide) (by decide) _
  rcases hk with rfl | rfl
  · refine lined_overlay (s := c!"LABEL" ++ (' ' :: (lg ++ (' ' :: (c!"ATTRS" ++ (sp (0 + 1) ++ piecesText (as.map (pairPiece pairTok))))))))
      ⟨_, _, rfl, by decide⟩ ?_
      (reads_label fun rest hr => langOv_yields (by decide) (by decide) hw 0 _ hl (pieces_ne h.ne) hok hr.nw (keyPair_fails hr)) rfl
      (contentOf_lang E U _ _ _ _ _ _ as (by simp) hob) rfl (.refl _)
    simp only [Pr.overlayText, Pr.onSome, (langOnly_text lg Pr.quotedPairs).1, (langOnly_text lg Pr.quotedPairs).2, hq, Pr.upperSnake]
    simp
  · refine lined_overlay (s := c!"INFORMATION" ++ (' ' :: (lg ++ (' ' :: (c!"ATTRS" ++ (sp (0 + 1) ++ piecesText (as.map (pairPiece pairTok))))))))
      ⟨_, _, rfl, by decide⟩ ?_
      (reads_information fun rest hr => langOv_yields (by decide) (by decide) hw 0 _ hl (pieces_ne h.ne) hok hr.nw (keyPair_fails hr)) rfl
      (contentOf_lang E U _ _ _ _ _ _ as (by simp) hob) rfl (.refl _)
    simp only [Pr.overlayText, Pr.onSome, (langOnly_text lg Pr.quotedPairs).1, (langOnly_text lg Pr.quotedPairs).2, hq, Pr.upperSnake]
    simp

/-! ### META -/

theorem swapRemove_perm {V : Type} (k : Str) (v : V) (l : List (Str × V)) (hd : (l.map (·.1)).Nodup) (h : (k, v) ∈ l) :
    l.Perm ((k, v) :: Pr.swapRemove k l) := by
  induction l with
  | nil => cases h
  | cons p t ih =>
    rw [List.map_cons, List.nodup_cons] at hd
    rw [Pr.swapRemove]
    by_cases hp : p.1 = k
    · rw [if_pos hp]
      have hpe : p = (k, v) := by
        rcases List.mem_cons.1 h with h | h
        · exact h.symm
        · exact absurd (List.mem_map.2 ⟨_, h, rfl⟩) (by rw [← hp]; exact hd.1)
      subst hpe
      cases hg : t.getLast? with
      | none =>
        rw [List.getLast?_eq_none_iff] at hg
        subst hg
        exact .refl _
      | some q =>
        refine List.Perm.cons _ ?_
        have hne : t ≠ [] := by rintro rfl; cases hg
        have h2 : t.dropLast ++ [q] = t := by
          have h4 := List.dropLast_concat_getLast hne
          rw [List.getLast?_eq_some_getLast hne] at hg
          injection hg with hg
          rw [hg] at h4
          exact h4
        have h3 : (t.dropLast ++ [q]).Perm (q :: t.dropLast) := List.perm_append_comm
        rw [h2] at h3
        exact h3
    · rw [if_neg hp]
      have ht : (k, v) ∈ t := by
        rcases List.mem_cons.1 h with h | h
        · subst h; exact absurd rfl hp
        · exact h
      exact ((ih hd.2 ht).cons p).trans (.swap _ _ _)

theorem imGet_listed {V : Type} (k : Str) (v : V) (l : List (Str × V)) (hd : (l.map (·.1)).Nodup) (h : (k, v) ∈ l) : imGet k l = some v := by
  induction l with
  | nil => cases h
  | cons p t ih =>
    obtain ⟨k', v'⟩ := p
    rw [List.map_cons, List.nodup_cons] at hd
    unfold imGet at *
    rw [FMap.lget]
    rcases List.mem_cons.1 h with h | h
    · cases h; simp
    · rw [if_neg, ih hd.2 h]
      intro e
      exact hd.1 (List.mem_map.2 ⟨_, h, e⟩)

theorem lined_meta (E : Env) (U : Uni) (as : Option (List (Str × NVal))) (ha : NoProps as) (ps : List (Str × NVal)) (hd : Distinct ps) (lg : Str)
    (hl : (c!"lang", NVal.val lg) ∈ ps) (hg : IsLang lg) (h : ∀ p ∈ ps, p.1 ≠ c!"lang" → PairOk p) (hne : ∃ p ∈ ps, p.1 ≠ c!"lang") :
    Lined E U ⟨.add, .overlay ⟨.metaOv, c!"1.1"⟩ ⟨as, some ps⟩⟩ := by
  have hperm := swapRemove_perm c!"lang" (NVal.val lg) ps hd hl
  have hnd : (((c!"lang", NVal.val lg) :: Pr.swapRemove c!"lang" ps).map (·.1)).Nodup := (hperm.map _).nodup_iff.1 hd
  generalize hrs : Pr.swapRemove c!"lang" ps = rs at hperm hnd
  have hkey : ∀ p ∈ rs, p.1 ≠ c!"lang" := by
    intro p hp e
    rw [List.map_cons, List.nodup_cons] at hnd
    exact hnd.1 (List.mem_map.2 ⟨p, hp, e⟩)
  have hrok : Pairs rs := by
    refine ⟨?_, fun p hp => h p (hperm.mem_iff.2 (.tail _ hp)) (hkey p hp), (List.nodup_cons.1 hnd).2⟩
    rintro rfl
    obtain ⟨p, hp, hpl⟩ := hne
    have := hperm.mem_iff.1 hp
    simp only [List.mem_singleton] at this
    exact hpl (by rw [this])
  have hq := quotedPairs_text pairTok rs hrok
  have hok := pairPieces_ok (U := U) hrok.ok
  have hob : Ins.keyPairsObj U ((rs.map (pairPiece pairTok)).map Gr.Piece.tok) [(c!"lang", .val lg)] = .ok ((c!"lang", .val lg) :: rs) := by
    rw [pairToks pairTok (keyPairOf_pairTok U) rs hrok.ok]
    have : imExtend [] ((c!"lang", NVal.val lg) :: rs) = (c!"lang", .val lg) :: rs := imExtend_nil_nodup _ hnd
    rw [← this]; rfl
  have hw : ∀ r, NW (c!"PROPS" ++ r) := fun r => NW.cons (by decide) (by decide) (by decide) _
  refine lined_overlay (s := c!"META" ++ (' ' :: (lg ++ (' ' :: (c!"PROPS" ++ (sp (1 + 1) ++ piecesText (rs.map (pairPiece pairTok))))))))
    ⟨_, _, rfl, by decide⟩ ?_
    (reads_metaR fun rest hr => langOv_yields (by decide) (by decide) hw 1 _ hg (pieces_ne hrok.ne) hok hr.nw (keyPair_fails hr)) rfl
    (contentOf_meta E U _ _ _ _ _ _ hob) ?_ ?_
  · have h1 : Pr.langText ps = lg ++ c!" " := by
      unfold Pr.langText
      rw [imGet_listed c!"lang" (NVal.val lg) ps hd hl]
    have h2 : Pr.propsText Pr.quotedPairs ps = c!"PROPS " ++ Pr.quotedPairs rs := by
      unfold Pr.propsText
      dsimp only
      rw [hrs, if_neg]
      have := hrok.ne
      cases rs with
      | nil => exact absurd rfl this
      | cons p t => simp
    simp only [Pr.overlayText, Pr.onSome, h1, h2, hq]
    simp [sp]
  · have hf : (ps.filter fun p => decide (p.1 = c!"lang")) = [(c!"lang", NVal.val lg)] := by
      have h1 : ((c!"lang", NVal.val lg) :: rs).filter (fun p => decide (p.1 = c!"lang")) = [(c!"lang", NVal.val lg)] := by
        rw [List.filter_cons_of_pos (by simp), List.filter_eq_nil_iff.2]
        intro p hp
        simpa using hkey p hp
      exact List.perm_singleton.1 (h1 ▸ hperm.filter _)
    have e : langFirst ps = (c!"lang", NVal.val lg) :: rs := by rw [langFirst, hf, hrs]; rfl
    show (⟨.add, .overlay _ ⟨some (as.getD []), some (langFirst ps)⟩⟩ : Command) = _
    rw [e]
    rcases ha with rfl | rfl <;> rfl
  · exact hperm

/-! ### Entry codes, entries, links, framings -/

theorem entryCodes_print (l : List (Str × CodeVal)) :
    (l.map fun p => (p.1, p.2.val)).flatMap Pr.entryCodeAttr = gappedText (l.map codePiece) := by
  induction l with
  | nil => rfl
  | cons p t ih =>
    rw [List.map_cons, List.flatMap_cons, codeVal_print, ih]
    simp [gappedText, codePiece, sp]

theorem lined_entryCodes (E : Env) (U : Uni) (l : List (Str × CodeVal)) (hn : l ≠ []) (h : ∀ p ∈ l, IsKey p.1 ∧ p.2.Ok) (hd : Distinct l)
    (ps : Option (List (Str × NVal))) (hp : NoProps ps) :
    Lined E U ⟨.add, .overlay ⟨.entryCode, c!"1.1"⟩ ⟨some (l.map fun p => (p.1, p.2.val)), ps⟩⟩ := by
  obtain ⟨-, hp2, hp3⟩ := noProps_text hp
  have hok : ∀ x ∈ l.map codePiece, x.Ok (entryCodeKeyPair U) := by
    intro x hx
    obtain ⟨p, hp, rfl⟩ := List.mem_map.1 hx
    exact codePiece_ok p (h p hp).1 (h p hp).2
  have hob : Ins.keyPairsObj U ((l.map codePiece).map Gr.Piece.tok) [] = .ok (l.map fun p => (p.1, p.2.val)) := by
    rw [List.map_map, keyPairsObj_toks (Gr.Piece.tok ∘ codePiece) (fun p => (p.1, p.2.val)) l [] fun p hp => keyPairOf_codePiece U p (h p hp).2,
      imExtend_nil_nodup _ (by simpa [Distinct, List.map_map, Function.comp_def] using hd)]
  refine lined_overlay (s := c!"ENTRY_CODE" ++ (' ' :: (c!"ATTRS" ++ (sp (0 + 1) ++ piecesText (l.map codePiece)))))
    ⟨_, _, rfl, by decide⟩ ?_ (reads_entryCode fun rest hr => plainOv_yields (by decide) 0 _ (pieces_ne hn) hok hr.nw (entryCodeKeyPair_fails hr)) rfl
    (contentOf_plain E U _ _ _ _ _ _ (by simp) hob) (by rcases hp with rfl | rfl <;> rfl) hp3
  have hg : gapOf (l.map codePiece) = 0 + 1 := by
    cases l with
    | nil => exact absurd rfl hn
    | cons p t => rfl
  simp only [Pr.overlayText, hp2]
  simp only [Pr.onSome, entryCodes_print, gappedText_eq, hg]; rfl

theorem entries_print (l : List (Str × EntryVal)) :
    (l.map fun p => (p.1, p.2.val)).flatMap Pr.entryAttr = gappedText (l.map entryAttrPiece) := by
  induction l with
  | nil => rfl
  | cons p t ih =>
    rw [List.map_cons, List.flatMap_cons, entryVal_print, ih]
    simp [gappedText, entryAttrPiece]

theorem lined_entries (E : Env) (U : Uni) (l : List (Str × EntryVal)) (hn : l ≠ []) (h : ∀ p ∈ l, IsKey p.1 ∧ p.2.Ok) (hd : Distinct l)
    (lg : Str) (hl : IsLang lg) :
    Lined E U ⟨.add, .overlay ⟨.entry, c!"1.1"⟩ ⟨some (l.map fun p => (p.1, p.2.val)), some [(c!"lang", .val lg)]⟩⟩ := by
  have hok : ∀ x ∈ l.map entryAttrPiece, x.Ok (entryKeyPair U) := by
    intro x hx
    obtain ⟨p, hp, rfl⟩ := List.mem_map.1 hx
    exact entryAttrPiece_ok p (h p hp).1 (h p hp).2
  have hob : Ins.keyPairsObj U ((l.map entryAttrPiece).map Gr.Piece.tok) [] = .ok (l.map fun p => (p.1, p.2.val)) := by
    rw [List.map_map, keyPairsObj_toks (Gr.Piece.tok ∘ entryAttrPiece) (fun p => (p.1, p.2.val)) l [] fun p hp => keyPairOf_entryAttrPiece U p (h p hp).2,
      imExtend_nil_nodup _ (by simpa [Distinct, List.map_map, Function.comp_def] using hd)]
  have hw : ∀ r, NW (c!"ATTRS" ++ r) := fun r => NW.cons (by decide) (by decide) (by decide) _
  refine lined_overlay (s := c!"ENTRY" ++ (' ' :: (lg ++ (' ' :: (c!"ATTRS" ++ (sp (gapOf (l.map entryAttrPiece) + 1) ++ piecesText (l.map entryAttrPiece)))))))
    ⟨_, _, rfl, by decide⟩ ?_
    (reads_entry (s := lg ++ (' ' :: (c!"ATTRS" ++ (sp (gapOf (l.map entryAttrPiece) + 1) ++ piecesText (l.map entryAttrPiece))))) fun rest hr =>
      langOv_yields (T := c!"ENTRY") (by decide) (by decide) hw (gapOf (l.map entryAttrPiece)) _ hl (pieces_ne hn) hok hr.nw (entryKeyPair_fails hr)) rfl
    (contentOf_lang E U _ _ _ _ _ _ _ (by simp) hob) rfl (.refl _)
  have hsp : sp (gapOf (l.map entryAttrPiece) + 1) = ' ' :: sp (gapOf (l.map entryAttrPiece)) := rfl
  simp only [Pr.overlayText, Pr.onSome, (langOnly_text lg Pr.barePairs).1, (langOnly_text lg Pr.barePairs).2, entries_print, gappedText_eq, hsp]
  simp

theorem lined_link (E : Env) (U : Uni) (as : List (Str × NVal)) (h : Pairs as) (s : Str) (hs : IsWord U s) (hv : E.validSaid s = true) :
    Lined E U ⟨.add, .overlay ⟨.link, c!"1.1"⟩ ⟨some as, some [(c!"target", .ref (.said s))]⟩⟩ := by
  have hq := quotedPairs_text pairTok as h
  have hok := pairPieces_ok (U := U) h.ok
  have hob : Ins.keyPairsObj U ((as.map (pairPiece pairTok)).map Gr.Piece.tok) [] = .ok as := by
    rw [pairToks pairTok (keyPairOf_pairTok U) as h.ok, imExtend_nil_nodup _ h.distinct]
  have hy : ∀ rest, EOL rest → Yields (link U) false
      (c!"LINK" ++ (' ' :: ((c!"refs:" ++ s) ++ (' ' :: (c!"ATTRS" ++ (sp (0 + 1) ++ piecesText (as.map (pairPiece pairTok))))))))
      [.node .link (c!"LINK" ++ (' ' :: ((c!"refs:" ++ s) ++ (' ' :: (c!"ATTRS" ++ (sp (0 + 1) ++ piecesText (as.map (pairPiece pairTok))))))))
        [.node .said s [], .node .attrKeyPairs (piecesText (as.map (pairPiece pairTok))) ((as.map (pairPiece pairTok)).map Gr.Piece.tok)]] rest := by
    intro rest hr
    have h4 := block_yields (kw := c!"attrs") (T := c!"ATTRS") (by decide) (k := .attrKeyPairs) 0 _ (pieces_ne h.ne) hok hr.nw (keyPair_fails hr)
    have h3 := Yields.seq' (s := [' ']) (ts := []) (argWs_space (NW.cons (c := 'A') (by decide) (by decide) (by decide) _)) h4 rfl rfl
    have h2a : Yields (referenceType U) false (c!"refs:" ++ s) [.node .said s []]
        ((' ' :: (c!"ATTRS" ++ (sp (0 + 1) ++ piecesText (as.map (pairPiece pairTok))))) ++ rest) :=
      Yields.altLeft (refSaid_yields hs (NoChar.cons (isChar_space U) _))
    have h2 := Yields.seq' h2a h3 rfl rfl
    have h1 := Yields.seq' (s := [' ']) (ts := []) (argWs_space (NW.cons (c := 'r') (by decide) (by decide) (by decide) _)) h2 rfl rfl
    exact Yields.normal _ (Yields.seq' (s := c!"LINK") (ts := []) (Yields.ilit (by decide) _ _) h1 rfl rfl)
  refine lined_overlay ⟨_, _, rfl, by decide⟩ ?_ (reads_link hy) rfl (contentOf_link E U _ _ _ _ _ as hv hob) rfl (.refl _)
  simp only [Pr.overlayText, Pr.onSome, hq, imGet, FMap.lget, if_true]
  simp

theorem lined_framing (E : Env) (U : Uni) (ms : List (Str × Str)) (hm : ms ≠ []) (hk : ∀ r ∈ ms, IsMetaKey r.1 ∧ Quotable r.2 = true) (hdm : Distinct ms)
    (l : List (Str × Frames)) (hn : l ≠ []) (h : ∀ r ∈ l, IsKey r.1 ∧ FramesOk U r.2) (hd : Distinct l) :
    Lined E U ⟨.add, .overlay ⟨.attributeFraming, c!"1.1"⟩ ⟨some (l.map fun r => (r.1, framesVal r.2)), some (ms.map fun r => (r.1, .val r.2))⟩⟩ := by
  cases ms with
  | nil => exact absurd rfl hm
  | cons q ms =>
    cases l with
    | nil => exact absurd rfl hn
    | cons p l =>
      let tok : Tok := .node .attributeFraming (framingText q ms p l) (metadataTok q ms :: framingLineTok 0 p :: l.map (framingLineTok 8))
      have hc := contentOf_framing E U .attributeFraming (framingText q ms p l) q ms p l fun r hr => (h r hr).2
      rw [imExtend_nil_nodup _ (by simpa [Distinct, List.map_map, Function.comp_def] using hd),
        imExtend_nil_nodup _ (by simpa [Distinct, List.map_map, Function.comp_def] using hdm)] at hc
      have hfr : ∀ (l : List (Str × Frames)), (∀ r ∈ l, FramesOk U r.2) →
          (l.map fun r => (r.1, framesVal r.2)).flatMap Pr.framingAttr ++ ['\n'] = '\n' :: framingLines l := by
        intro l
        induction l with
        | nil => intro _; rfl
        | cons x t ih =>
          intro hx
          rw [List.map_cons, List.flatMap_cons, framingAttr_print x.1 x.2 (hx x (.head _)), List.append_assoc, ih fun r hr => hx r (.tail _ hr)]
          simp [framingLines]
      have hprint : Pr.overlayText .attributeFraming ⟨some ((p :: l).map fun r => (r.1, framesVal r.2)), some ((q :: ms).map fun r => (r.1, .val r.2))⟩ ++ ['\n'] =
          framingText q ms p l := by
        have h1 := framingProps_print q ms fun r hr => (hk r hr).1
        have h2 := hfr (p :: l) fun r hr => (h r hr).2
        simp only [Pr.overlayText, Pr.onSome]
        rw [show c!"ATTR_FRAMING \\\n" = c!"ATTR_FRAMING" ++ c!" \\\n" from rfl]
        rw [List.append_assoc, List.append_assoc, List.append_assoc, List.append_assoc, h2, ← List.append_assoc c!" \\\n", h1]
        simp [framingText, framingLines, brk, sp]
      have key : ∀ rest, Fails attrFramingKeyPairs false rest → Yields (from_ U |ₚ add U |ₚ modify U |ₚ remove U) false
          (c!"ADD" ++ (' ' :: framingText q ms p l)) [.node .add (c!"ADD" ++ (' ' :: framingText q ms p l)) [tok]] rest := by
        intro rest hr
        have hy := framing_yields (U := U) q ms p l hk h hr
        have hobj : Yields (ocaObject U) false (framingText q ms p l) [tok] rest := by
          have e : framingText q ms p l ++ rest = c!"ATTR_FRAMING" ++ ((brk 8 ++ ((pairText q.1 q.2 ++ metasText ms) ++ (brk 4 ++ (c!"ATTRS" ++ (brk 8 ++
            (p.1 ++ ('=' :: (framesText p.2 ++ ['\n'])) ++ framingLines l)))))) ++ rest) := by simp [framingText]
          refine Yields.altRight ?_ <| Yields.altRight ?_ <| Yields.altRight ?_ <| Yields.altRight ?_ <| Yields.altRight ?_ <|
            Yields.altRight ?_ <| Yields.altRight ?_ <| Yields.altRight ?_ <| Yields.altRight ?_ <| Yields.altRight ?_ <| Yields.altRight ?_ <|
            Yields.altRight ?_ <| Yields.altRight ?_ <| Yields.altRight ?_ <| Yields.altRight ?_ <| Yields.altLeft hy
          all_goals (rw [e]; exact kw_fails (by decide))
        exact addAlt_yields (add_yields hobj (NW.cons (by decide) (by decide) (by decide) _))
      refine ⟨⟨c!"ADD" ++ (' ' :: framingText q ms p l), .node .add (c!"ADD" ++ (' ' :: framingText q ms p l)) [tok]⟩, _,
        ⟨fun r => ?_, by simp, fun rest hr => ?_, fun rest => ?_⟩, fun _ => rfl, ?_, .inl rfl, addCommand_of (overlay_step rfl hc), rfl, rfl, rfl, .refl _⟩
      · exact .inr (.inl ⟨'A', _, rfl, by decide, NW.cons (by decide) (by decide) (by decide) _⟩)
      · exact noBreak_yields (key rest hr.noFraming) hr.noNewline
      · exact .inr (lineBreak_yields (key _ (newline_noFraming rest)))
      · show c!"ADD" ++ (' ' :: framingText q ms p l) = c!"ADD " ++ _ ++ ['\n']
        rw [← hprint]; simp

/-! ### Capture bases -/

theorem lined_attributes (E : Env) (U : Uni) (l : List (Str × NAttr)) (hn : l ≠ []) (h : ∀ p ∈ l, AttrOk E U p) (hd : Distinct l) :
    Lined E U ⟨.add, .captureBase ⟨some l, none, none⟩⟩ := by
  have hr : ReadsObj U (c!"ATTRIBUTE" ++ attrsText l) (attributeTok l) :=
    reads_attribute fun rest hr => attribute_yields E U l hn h (hr.noChar U) hr.nw
  refine ⟨_, c!"ADD " ++ (c!"ATTRIBUTE" ++ attrsText l), addLine_ok ⟨_, _, rfl, by decide⟩ hr, fun ε => ?_, rfl, .inl rfl, addCommand_of (o := .captureBase ⟨some l, none, none⟩) ?_, rfl, rfl⟩
  · simp only [Pr.command, Pr.addBase, attrTypes_print E U l h, Pr.onSome]
    simp
  · have := addAttributes_toks E U l h
    rw [imExtend_nil_nodup _ hd] at this
    simp only [Ins.addStep, attributeTok, Tree.rule, Ins.addKind, Tree.kids] at this ⊢
    rw [this]

theorem lined_classification (E : Env) (U : Uni) (v : Str) (h : IsClass U v) :
    Lined E U ⟨.add, .captureBase ⟨none, some [(c!"classification", .val v)], none⟩⟩ := by
  obtain ⟨ks, hks⟩ := classValue_yields h
  have hr : ReadsObj U (c!"CLASSIFICATION" ++ (' ' :: v)) (.node .classification (c!"CLASSIFICATION" ++ (' ' :: v)) [.node .classificationValue v ks]) :=
    reads_classification fun rest hr => Yields.normal _ (Yields.seq' (ts := []) (Yields.ilit (by decide) _ _)
      (Yields.seq' (s := [' ']) (ts := []) (argWs_space (h.nw _)) (hks rest (hr.noChar U)) rfl rfl) rfl rfl)
  refine ⟨_, c!"ADD " ++ (c!"CLASSIFICATION" ++ (' ' :: v)), addLine_ok ⟨_, _, rfl, by decide⟩ hr, fun ε => ?_, rfl, .inl rfl,
    addCommand_of (o := .captureBase ⟨none, some [(c!"classification", .val v)], none⟩) rfl, rfl, rfl⟩
  simp [Pr.command, Pr.addBase, Pr.onSome, Pr.addProps]

theorem removeLine_ok {U : Uni} {s : Str} {tok : Tok} (hs : ∃ c t, s = c :: t ∧ c ≠ '=' ∧ c ≠ ' ' ∧ c ≠ '\t' ∧ c ≠ '\\')
    (h : ∀ rest, EOL rest → Yields (removeOcaObject U) false s [tok] rest) :
    CmdLine.Ok U ⟨c!"REMOVE " ++ s ++ ['\n'], .node .remove (c!"REMOVE" ++ (' ' :: s)) [tok]⟩ := by
  obtain ⟨c, t, rfl, h1, h2, h3, h4⟩ := hs
  have key : ∀ rest, Yields (commands U) false (c!"REMOVE " ++ (c :: t) ++ ['\n']) [.node .remove (c!"REMOVE" ++ (' ' :: (c :: t))) [tok]] rest := fun rest =>
    lineBreak_yields (removeAlt_yields (remove_yields (h ('\n' :: rest) (EOL.newline rest)) (NW.cons h2 h3 h4 _)))
  refine ⟨fun r => .inr (.inr ⟨c, t ++ ['\n'] ++ r, by simp, h1, NW.cons h2 h3 h4 _⟩), by simp, fun rest _ => key rest, fun rest => .inl (key _)⟩

theorem lined_removeAttributes (E : Env) (U : Uni) (l : List Str) (h : ∀ k ∈ l, IsKey k) (hd : l.Nodup) :
    Lined E U ⟨.remove, .captureBase ⟨some (l.map fun k => (k, .null)), none, none⟩⟩ := by
  refine ⟨_, c!"REMOVE " ++ (c!"ATTRIBUTE" ++ namesText l),
    removeLine_ok ⟨_, _, rfl, by decide⟩ fun rest hr => removeAttribute_yields (U := U) l h hr, fun ε => ?_, rfl, .inr rfl,
    removeAttribute_command l (c!"REMOVE" ++ (' ' :: (c!"ATTRIBUTE" ++ namesText l))) (c!"ATTRIBUTE" ++ namesText l) hd, rfl, rfl⟩
  simp only [Pr.command, Pr.removeBase, Pr.onSome, namesText, List.flatMap_map, List.append_nil]
  rfl

theorem lined_removeClassification (E : Env) (U : Uni) :
    Lined E U ⟨.remove, .captureBase ⟨none, some [(c!"classification", .val [])], none⟩⟩ :=
  ⟨_, c!"REMOVE " ++ c!"CLASSIFICATION",
    removeLine_ok ⟨_, _, rfl, by decide⟩ fun rest _ => removeClassification_yields (U := U) rest, fun _ => rfl, rfl, .inr rfl, rfl, rfl, rfl⟩

theorem lined_of_printable {E : Env} {U : Uni} {c : Command} (h : Printable E U c) : Lined E U c := by
  cases h with
  | attributes l hn h hd => exact lined_attributes E U l hn h hd
  | classification v h => exact lined_classification E U v h
  | removeAttributes l h hd => exact lined_removeAttributes E U l h hd
  | removeClassification => exact lined_removeClassification E U
  | plain k hk as h ps hp => exact lined_plain E U k hk as h ps hp
  | withLang k hk as h lg hl => exact lined_withLang E U k hk as h lg hl
  | metas as ha ps hd lg hl hg h hne => exact lined_meta E U as ha ps hd lg hl hg h hne
  | entryCodes l hn h hd ps hp => exact lined_entryCodes E U l hn h hd ps hp
  | entries l hn h hd lg hl => exact lined_entries E U l hn h hd lg hl
  | link as h s hs hv => exact lined_link E U as h s hs hv
  | framing ms hm hk hdm l hn h hd => exact lined_framing E U ms hm hk hdm l hn h hd

/-! ## Files -/

theorem extract_like {cs cs' : List Command} (h : All2 Like cs cs') :
    (∀ a, cs.foldl extractAttrStep a = cs'.foldl extractAttrStep a) ∧ (∀ a, cs.foldl extractPropStep a = cs'.foldl extractPropStep a) := by
  induction h with
  | nil => exact ⟨fun _ => rfl, fun _ => rfl⟩
  | cons hx _ ih =>
    rename_i c c' _ _ _
    have : ∀ a b, extractAttrStep a c = extractAttrStep a c' ∧ extractPropStep b c = extractPropStep b c' := by
      intro a b
      obtain ⟨k, o⟩ := c
      obtain ⟨k', o'⟩ := c'
      obtain ⟨hk, ho⟩ := hx
      dsimp only at hk ho
      subst hk
      cases o with
      | overlay t x =>
        cases o' with
        | overlay t' y => cases k <;> exact ⟨rfl, rfl⟩
        | captureBase _ => simp at ho
        | ocaBundle _ => simp at ho
      | captureBase x => simp only at ho; subst ho; exact ⟨rfl, rfl⟩
      | ocaBundle x => simp only at ho; subst ho; exact ⟨rfl, rfl⟩
    exact ⟨fun a => by rw [List.foldl_cons, List.foldl_cons, (this a []).1, ih.1],
      fun b => by rw [List.foldl_cons, List.foldl_cons, (this [] b).2, ih.2]⟩

theorem validate_like {cs cs' : List Command} (h : All2 Like cs cs') {c c' : Command} (hc : Like c c') :
    validate100 cs c = validate100 cs' c' := by
  have h1 : extractAttributes cs = extractAttributes cs' := (extract_like h).1 []
  have h2 : extractProperties cs = extractProperties cs' := (extract_like h).2 []
  obtain ⟨k, o⟩ := c
  obtain ⟨k', o'⟩ := c'
  obtain ⟨hk, ho⟩ := hc
  dsimp only at hk ho
  subst hk
  cases o with
  | overlay t x =>
    cases o' with
    | overlay t' y => cases k <;> rfl
    | captureBase _ => simp at ho
    | ocaBundle _ => simp at ho
  | captureBase x => simp only at ho; subst ho; simp only [validate100, ruleAdd, ruleRemove, h1, h2]
  | ocaBundle x => simp only at ho; subst ho; cases k <;> rfl

theorem tokLoop_lined (E : Env) (U : Uni) : ∀ (cs : List Command) (done : List Command) (xs : List CmdLine) (ast : OCAAst) (n : Nat),
    ast.version = c!"1.0.0" → All2 Like done ast.commands →
    (∀ pre c post, done ++ cs = pre ++ c :: post → ¬ BreaksRules pre c) →
    All2 (fun c (x : CmdLine) => (x.tok.rule = .add ∨ x.tok.rule = .remove) ∧ Ins.commandOf E U x.tok = .ok c.reread ∧ Like c c.reread) cs xs →
    ∃ out, Ins.tokLoop E U ast n (xs.map CmdLine.tok ++ [.node .eoi [] []]) = .ok out ∧ All2 Like (done ++ cs) out.commands ∧
      out.version = ast.version ∧ out.metaMap = ast.metaMap ∧ out.commands = ast.commands ++ cs.map Command.reread := by
  intro cs
  induction cs with
  | nil =>
    intro done xs ast n hv hd _ hx
    cases hx
    exact ⟨ast, rfl, by simpa using hd, rfl, rfl, by simp⟩
  | cons c cs ih =>
    intro done xs ast n hv hd hb hx
    cases hx with
    | cons h1 h2 =>
      rename_i x xs
      obtain ⟨hr, hc, hl⟩ := h1
      generalize hc' : c.reread = c' at hc hl
      have hline : Ins.lineOf E U x.tok = .ok (.instr x.tok.text (.ok c')) := by
        unfold Ins.lineOf
        rcases hr with hr | hr <;> rw [hr] <;> dsimp only <;> rw [hc]
      have hval : astValidate ast c' = .ok () := by
        have h3 := (C10_validate_exact ⟨c!"1.0.0", done, ast.commandsMeta, ast.metaMap⟩ c).1.2 ⟨rfl, hb done c cs rfl⟩
        unfold astValidate at h3 ⊢
        rw [if_pos hv, ← validate_like hd hl]
        rw [if_pos rfl] at h3
        exact h3
      have hstep : parseLine ast n (.instr x.tok.text (.ok c')) = .ok { ast with
          commands := ast.commands ++ [c'],
          commandsMeta := ast.commandsMeta ++ [(ast.commands.length, ⟨n + 1, x.tok.text⟩)] } := by
        simp only [parseLine, hval]
      obtain ⟨out, ho, h4, h5, h6, h7⟩ := ih (done ++ [c]) xs { ast with
          commands := ast.commands ++ [c'],
          commandsMeta := ast.commandsMeta ++ [(ast.commands.length, ⟨n + 1, x.tok.text⟩)] } (n + 1) hv (hd.snoc hl)
        (fun pre d post e => hb pre d post (by rw [← e]; simp)) h2
      refine ⟨out, ?_, by simpa using h4, h5, h6, by rw [h7]; simp [hc']⟩
      rw [List.map_cons, List.cons_append, Ins.tokLoop, hline]
      dsimp only
      rw [hstep]
      exact ho

theorem lines_of {E : Env} {U : Uni} (cs : List Command) (h : ∀ c ∈ cs, Lined E U c) :
    ∃ xs : List CmdLine, (∀ x ∈ xs, x.Ok U) ∧ (∀ ε, (Pr.commands cs : Res ε Str) = .ok (linesText xs)) ∧
      All2 (fun c (x : CmdLine) => (x.tok.rule = .add ∨ x.tok.rule = .remove) ∧ Ins.commandOf E U x.tok = .ok c.reread ∧ Like c c.reread) cs xs := by
  induction cs with
  | nil => exact ⟨[], by simp, fun _ => rfl, .nil⟩
  | cons c cs ih =>
    obtain ⟨xs, h1, h2, h3⟩ := ih fun d hd => h d (.tail _ hd)
    obtain ⟨x, s, hx, hp, ht, hr, hc, hl⟩ := h c (.head _)
    refine ⟨x :: xs, ?_, fun ε => ?_, .cons ⟨hr, hc, hl⟩ h3⟩
    · intro y hy
      rcases List.mem_cons.1 hy with rfl | hy
      · exact hx
      · exact h1 y hy
    · rw [Pr.commands, hp, h2]
      dsimp only [linesText]
      rw [List.flatMap_cons, ht]

/-- **C49** Printing an AST and parsing the text, exactly: the text parses to the commands with the properties of META reordered and nothing
else changed; there is no meta line, and the version is 1.0.0. -/
theorem C49_print_parse_exact (E : Env) (U : Uni) (ast : OCAAst) (hp : ∀ c ∈ ast.commands, Printable E U c)
    (hr : ∀ pre c post, ast.commands = pre ++ c :: post → ¬ BreaksRules pre c) :
    ∃ text out, (∀ ε, (printAst ast : Res ε Str) = .ok text) ∧ parseText E U text = .ok out ∧ out.commands = ast.commands.map Command.reread ∧
      All2 Like ast.commands out.commands ∧ out.metaMap = FMap.empty ∧ out.version = c!"1.0.0" := by
  obtain ⟨xs, h1, h2, h3⟩ := lines_of ast.commands fun c hc => lined_of_printable (hp c hc)
  obtain ⟨out, ho, h4, h5, h6, h7⟩ := tokLoop_lined E U ast.commands [] xs OCAAst.new 0 rfl .nil hr h3
  refine ⟨linesText xs, out, h2, ?_, h7, h4, h6, h5⟩
  unfold parseText
  rw [file_parse xs h1]
  exact ho

/-- **C49** Printing an AST and parsing the text gives the same commands in the same order (up to the order of the properties of an overlay),
for every AST whose commands are printable and consistent with the commands before them. -/
theorem C49_print_parse (E : Env) (U : Uni) (ast : OCAAst) (hp : ∀ c ∈ ast.commands, Printable E U c)
    (hr : ∀ pre c post, ast.commands = pre ++ c :: post → ¬ BreaksRules pre c) :
    ∃ text out, (printAst ast : Res ParseErr Str) = .ok text ∧ parseText E U text = .ok out ∧ All2 Like ast.commands out.commands := by
  obtain ⟨text, out, h1, h2, -, h3, -⟩ := C49_print_parse_exact E U ast hp hr
  exact ⟨text, out, h1 _, h2, h3⟩

/-! ## Attribute types (C46) -/

/-- the type contains a reference by name -/
def HasName : NAttr → Prop
  | .ref (.name _) => True
  | .arr a => HasName a
  | _ => False

/-- **C46** The text of an attribute type without references by name and without null is read back as that type, at any array nesting,
whatever the attribute is called. (The SAIDs in it are valid SAIDs made of the characters of the grammar.) -/
theorem C46_type_round_trip (E : Env) (U : Uni) (t : NAttr) (ht : TypeOk E U t) (name : Str) (hk : IsKey name) :
    ∃ text out, (Pr.attrType t : Res ParseErr Str) = .ok text ∧
      parseText E U (c!"ADD ATTRIBUTE " ++ name ++ c!"=" ++ text ++ c!"\n") = .ok out ∧
      out.commands = [⟨.add, .captureBase ⟨some [(name, t)], none, none⟩⟩] := by
  have hl : ∀ p ∈ [(name, t)], AttrOk E U p := by
    intro p hp
    rcases List.mem_cons.1 hp with rfl | hp
    · exact ⟨hk, ht⟩
    · cases hp
  have hb : ∀ pre c post, [(⟨.add, .captureBase ⟨some [(name, t)], none, none⟩⟩ : Command)] = pre ++ c :: post → ¬ BreaksRules pre c := by
    intro pre c post e
    have hv := (C10_validate_exact ⟨c!"1.0.0", [], [], OCAAst.new.metaMap⟩ ⟨.add, .captureBase ⟨some [(name, t)], none, none⟩⟩).1.1 rfl
    cases pre with
    | nil => injection e with e1 e2; subst e1; exact hv.2
    | cons x pre =>
      have := congrArg List.length e
      simp at this
  obtain ⟨text, out, h1, h2, h3⟩ := C49_print_parse E U ⟨c!"1.0.0", [⟨.add, .captureBase ⟨some [(name, t)], none, none⟩⟩], [], OCAAst.new.metaMap⟩
    (fun c hc => by
      rcases List.mem_cons.1 hc with rfl | hc
      · exact .attributes _ (by simp) hl (by simp [Distinct])
      · cases hc) hb
  have htext := attrType_print (ε := ParseErr) E U t ht
  refine ⟨typeText t, out, htext, ?_, ?_⟩
  · simp only [printAst, Pr.commands, Pr.command, Pr.addBase, Pr.attrTypes, htext, Pr.onSome] at h1
    injection h1 with h1
    rw [← h2, ← h1]
    simp
  · cases h : out.commands with
    | nil => rw [h] at h3; cases h3
    | cons c cs =>
      rw [h] at h3
      cases h3 with
      | cons hc hcs =>
        cases hcs
        obtain ⟨k, o⟩ := c
        obtain ⟨hk', ho⟩ := hc
        dsimp only at hk' ho
        subst hk'
        rw [← ho]

/-- **C46** Printing a type aborts exactly when it contains a reference by name. -/
theorem C46_print_aborts_iff {ε : Type} (t : NAttr) : (Pr.attrType t : Res ε Str) = .panic ↔ HasName t := by
  induction t with
  | ref r => cases r <;> simp [Pr.attrType, Pr.reference, HasName]
  | val t => simp [Pr.attrType, HasName]
  | arr a ih =>
    simp only [Pr.attrType, HasName]
    rw [← ih]
    cases (Pr.attrType a : Res ε Str) <;> simp
  | null => simp [Pr.attrType, HasName]

/-! ## A concrete case -/

/-- a concrete alphabet: the ASCII letters and digits -/
def Uni.ascii : Uni := ⟨Char.isAlpha, Char.isDigit, fun _ => false, id, fun _ _ => rfl, fun _ _ => rfl, fun _ _ h => by cases h⟩

/-- an AST with a command of every printable kind -/
def printDemo : OCAAst := ⟨c!"1.0.0", [
  ⟨.add, .captureBase ⟨some [(c!"a", .val .text), (c!"b_1", .arr (.arr (.ref (.said c!"Exyz"))))], none, none⟩⟩,
  ⟨.add, .captureBase ⟨none, some [(c!"classification", .val c!"GICS:1")], none⟩⟩,
  ⟨.add, .overlay ⟨.label, c!"1.1"⟩ ⟨some [(c!"a", .val c!"Name of \\\"a\\\""), (c!"zz", .val [])], some [(c!"lang", .val c!"en")]⟩⟩,
  ⟨.add, .overlay ⟨.metaOv, c!"1.1"⟩ ⟨none, some [(c!"lang", .val c!"en"), (c!"name", .val c!"n"), (c!"description", .val c!"d")]⟩⟩,
  ⟨.add, .overlay ⟨.characterEncoding, c!"1.1"⟩ ⟨some [(c!"a", .val c!"utf-8")], none⟩⟩,
  ⟨.remove, .captureBase ⟨some [(c!"a", .null)], none, none⟩⟩,
  ⟨.remove, .captureBase ⟨none, some [(c!"classification", .val [])], none⟩⟩], [], OCAAst.new.metaMap⟩

theorem isKey_of {k : Str} (h : k ≠ [] ∧ k.all nameChar = true) : IsKey k := ⟨h.1, fun c hc => List.all_eq_true.1 h.2 c hc⟩

theorem isWord_of {k : Str} (h : k ≠ [] ∧ k.all (isChar Uni.ascii) = true) : IsWord Uni.ascii k :=
  ⟨h.1, fun c hc => List.all_eq_true.1 h.2 c hc⟩

/-- the hypotheses of C49 are met by an AST with a command of (almost) every kind -/
example : (∀ c ∈ printDemo.commands, Printable Env.demo Uni.ascii c) ∧
    (∀ pre c post, printDemo.commands = pre ++ c :: post → ¬ BreaksRules pre c) := by
  constructor
  · intro c hc
    simp only [printDemo, List.mem_cons, List.not_mem_nil, or_false] at hc
    rcases hc with rfl | rfl | rfl | rfl | rfl | rfl | rfl
    · refine .attributes _ (by simp) ?_ (by simp [Distinct])
      intro p hp
      simp only [List.mem_cons, List.not_mem_nil, or_false] at hp
      rcases hp with rfl | rfl
      · exact ⟨isKey_of (by decide), trivial⟩
      · exact ⟨isKey_of (by decide), isWord_of (by decide), by decide⟩
    · exact .classification _ (.inl (isWord_of (by decide)))
    · refine .withLang .label (.inl rfl) _ ⟨by simp, ?_, by simp [Distinct]⟩ _ (by simp [IsLang])
      intro p hp
      simp only [List.mem_cons, List.not_mem_nil, or_false] at hp
      rcases hp with rfl | rfl
      · exact ⟨isKey_of (by decide), _, rfl, by decide⟩
      · exact ⟨isKey_of (by decide), _, rfl, by decide⟩
    · refine .metas _ (.inl rfl) _ (by simp [Distinct]) c!"en" (by simp) (by simp [IsLang]) ?_ ⟨(c!"name", .val c!"n"), by simp, by decide⟩
      intro p hp hne
      simp only [List.mem_cons, List.not_mem_nil, or_false] at hp
      rcases hp with rfl | rfl | rfl
      · exact absurd rfl hne
      · exact ⟨isKey_of (by decide), _, rfl, by decide⟩
      · exact ⟨isKey_of (by decide), _, rfl, by decide⟩
    · refine .plain .characterEncoding (by simp [PlainKind]) _ ⟨by simp, ?_, by simp [Distinct]⟩ _ (.inl rfl)
      intro p hp
      simp only [List.mem_cons, List.not_mem_nil, or_false] at hp
      subst hp
      exact ⟨isKey_of (by decide), _, rfl, by decide⟩
    · exact .removeAttributes [c!"a"] (by intro k hk; simp only [List.mem_cons, List.not_mem_nil, or_false] at hk; subst hk; exact isKey_of (by decide)) (by simp)
    · exact .removeClassification
  · have hstep : ∀ (n : Nat), n < 7 → ∀ pre c post, printDemo.commands = pre ++ c :: post → pre.length = n → ¬ BreaksRules pre c := by
      intro n hn pre c post e hl
      have hpre : pre = printDemo.commands.take n := by rw [e, ← hl]; simp
      have hc : printDemo.commands[n]? = some c := by rw [e, ← hl]; simp
      subst hpre
      have hv : astValidate ⟨c!"1.0.0", printDemo.commands.take n, [], OCAAst.new.metaMap⟩ c = .ok () := by
        have hall : ∀ n, n < 7 → ∀ c, printDemo.commands[n]? = some c → validate100 (printDemo.commands.take n) c = .ok () := by
          intro n hn
          rcases n with _ | _ | _ | _ | _ | _ | _ | n
          all_goals first | omega | (intro c hc; cases hc; decide +kernel)
        unfold astValidate
        rw [if_pos rfl]
        exact hall n hn c hc
      exact ((C10_validate_exact _ c).1.1 hv).2
    intro pre c post e
    refine hstep pre.length ?_ pre c post e rfl
    have := congrArg List.length e
    simp only [List.length_append, List.length_cons] at this
    have h7 : printDemo.commands.length = 7 := rfl
    omega

/-- ... and the text is read back -/
example : (match (printAst printDemo : Res ParseErr Str) with
    | .ok s => (match parseText Env.demo Uni.ascii s with
      | .ok out => decide (out.commands.length = 7)
      | _ => false)
    | _ => false) = true := by decide +kernel

/-- the hypothesis of C46 is met by a nested type -/
example : TypeOk Env.demo Uni.ascii (.arr (.arr (.ref (.said c!"Exyz")))) := ⟨isWord_of (by decide), by decide⟩

end OCA
