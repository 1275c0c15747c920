import Verif.Props.ParsedText
/-!
# C54: writing a parsed file down again

`generate_from_ast` applied to the result of `parse_from_string`, and parsed again.
-/
namespace OCA
open Peg Gr

/-- every text in the value can stand between double quotes -/
inductive QuotableVal : NVal → Prop
  | val (s : Str) (h : Quotable s = true) : QuotableVal (.val s)
  | ref (r : RefVal) : QuotableVal (.ref r)
  | arr (l : List NVal) (h : ∀ v ∈ l, QuotableVal v) : QuotableVal (.arr l)
  | obj (l : List (Str × NVal)) (hk : ∀ p ∈ l, Quotable p.1 = true) (h : ∀ p ∈ l, QuotableVal p.2) : QuotableVal (.obj l)

/-- `{"frame": {"key": "text"}}`: exactly two levels of objects -/
def TwoLevels (v : NVal) : Prop := ∃ g, v = .obj g ∧ ∀ p ∈ g, ∃ g', p.2 = .obj g' ∧ ∀ q ∈ g', ∃ s, q.2 = .val s

/-- What a command of a file needs to be written down again (specification). -/
def CanReprint (c : Command) : Prop :=
  match c.kind, c.obj with
  | .add, .captureBase cc => cc.flagged = none ∧
      (∀ p ∈ cc.attributes.getD [], ¬ HasName p.2) ∧                               -- no reference by name
      ∀ p ∈ cc.properties.getD [], ∀ v, p.2 = .val v → v.head? ≠ some '\''          -- no classification in single quotes
  | .remove, .captureBase _ => True
  | .add, .overlay t cc => (∀ p ∈ cc.attributes.getD [], QuotableVal p.2) ∧ (∀ p ∈ cc.properties.getD [], QuotableVal p.2) ∧
      match t.kind with
      | .characterEncoding => cc.attributes ≠ some []                              -- not CHARACTER_ENCODING PROPS
      | .metaOv => (∃ p ∈ cc.properties.getD [], p.1 ≠ c!"lang") ∧ ∀ l, (c!"lang", NVal.val l) ∈ cc.properties.getD [] → IsLang l
      | .link => cc.target ≠ none                                                  -- the target is a SAID
      | .attributeFraming => ∀ p ∈ cc.attributes.getD [], TwoLevels p.2
      | _ => True
  | _, _ => False                                                                  -- no FROM, no REMOVE META, no REMOVE LABEL

theorem typeOk_of {E : Env} {U : Uni} {t : NAttr} (h : FileType E U t) (hn : ¬ HasName t) : TypeOk E U t := by
  induction h with
  | val t => trivial
  | said s hw hs => exact ⟨hw, hs⟩
  | name n hw => exact hn trivial
  | arr t _ ih => exact ih hn

theorem QuotableVal.of_val {s : Str} (h : QuotableVal (.val s)) : Quotable s = true := by cases h; assumption

theorem pairs_of {A : Str × NVal → Prop} {as : List (Str × NVal)} (h : PairList false A as) (hA : ∀ p, A p → IsKey p.1 ∧ ∃ s, p.2 = .val s)
    (hq : ∀ p ∈ as, QuotableVal p.2) : Pairs as := by
  refine ⟨?_, fun p hp => ?_, h.distinct⟩
  · obtain ⟨n, -, hn⟩ := h.ne
    rintro rfl
    cases hn
  · rcases h.ok p hp with h' | ⟨h', -⟩
    · obtain ⟨hk, s, hs⟩ := hA p h'
      exact ⟨hk, s, hs, QuotableVal.of_val (by rw [← hs]; exact hq p hp)⟩
    · cases h'

theorem text_pair {p : Str × NVal} (h : TextPair p) : IsKey p.1 ∧ ∃ s, p.2 = .val s := ⟨h.1, h.2.imp fun _ h => h.1⟩

theorem map_preimage {α β : Type} {f : α → β} {P : α → Prop} (l : List β) (h : ∀ b ∈ l, ∃ a, f a = b ∧ P a) : ∃ l' : List α, l'.map f = l ∧ ∀ a ∈ l', P a := by
  induction l with
  | nil => exact ⟨[], rfl, by simp⟩
  | cons b l ih =>
    obtain ⟨a, ha, hp⟩ := h b (.head _)
    obtain ⟨l', hl, hl'⟩ := ih fun x hx => h x (.tail _ hx)
    refine ⟨a :: l', by simp [ha, hl], fun x hx => ?_⟩
    rcases List.mem_cons.1 hx with rfl | hx
    · exact hp
    · exact hl' x hx

theorem codes_of {v : NVal} (h : IsCodeVal v) (hq : QuotableVal v) : ∃ c : CodeVal, c.val = v ∧ c.Ok := by
  rcases h with ⟨s, rfl, -⟩ | ⟨l, rfl, -⟩ | ⟨g, rfl, hg, hd⟩
  · exact ⟨.one s, rfl, hq.of_val⟩
  · refine ⟨.list l, rfl, fun s hs => ?_⟩
    cases hq with
    | arr _ h => exact (h (.val s) (List.mem_map_of_mem hs)).of_val
  · obtain ⟨l, rfl, hl⟩ := map_preimage (f := fun g : Str × List Str => ((g.1, .arr (g.2.map .val)) : Str × NVal)) (P := fun _ => True) g (by
      intro p hp
      obtain ⟨-, l, hl, -⟩ := hg p hp
      exact ⟨(p.1, l), by rw [← hl], trivial⟩)
    refine ⟨.groups l, rfl, fun p hp => ?_, by simpa [Function.comp_def] using hd⟩
    cases hq with
    | obj _ hk hv =>
      have hm := List.mem_map_of_mem (f := fun g : Str × List Str => ((g.1, .arr (g.2.map .val)) : Str × NVal)) hp
      refine ⟨hk _ hm, fun s hs => ?_⟩
      have := hv _ hm
      cases this with
      | arr _ h => exact (h (.val s) (List.mem_map_of_mem hs)).of_val

theorem entries_of {v : NVal} (h : IsEntryVal v) (hq : QuotableVal v) : ∃ c : EntryVal, c.val = v ∧ c.Ok := by
  rcases h with ⟨s, rfl, -⟩ | ⟨g, rfl, hg, hd⟩
  · exact ⟨.one s, rfl, hq.of_val⟩
  · obtain ⟨l, rfl, hl⟩ := map_preimage (f := fun g : Str × Str => ((g.1, .val g.2) : Str × NVal)) (P := fun _ => True) g (by
      intro p hp
      obtain ⟨-, s, hs, -⟩ := hg p hp
      exact ⟨(p.1, s), by rw [← hs], trivial⟩)
    refine ⟨.table l, rfl, fun p hp => ?_, by simpa [Function.comp_def] using hd⟩
    cases hq with
    | obj _ hk hv =>
      have hm := List.mem_map_of_mem (f := fun g : Str × Str => ((g.1, .val g.2) : Str × NVal)) hp
      exact ⟨hk _ hm, (hv _ hm).of_val⟩

theorem frames_of {U : Uni} (hU : ∀ s, U.lower (U.lower s) = U.lower s) {v : NVal} (h : IsJson U v) (hq : QuotableVal v) (h2 : TwoLevels v) :
    ∃ fs : Frames, framesVal fs = v ∧ FramesOk U fs := by
  obtain ⟨g, rfl, hg⟩ := h2
  cases h with
  | obj _ hn hd hk hj =>
    cases hq with
    | obj _ hqk hqv =>
      obtain ⟨fs, hfs, hok⟩ := map_preimage (f := fun f : Str × List (Str × Str) => ((f.1, .obj (f.2.map fun q => (q.1, .val q.2))) : Str × NVal))
        (P := Gr.FrameOk U) g (by
          intro p hp
          obtain ⟨g', e, hv⟩ := hg p hp
          have hj' := hj p hp
          have hq' := hqv p hp
          obtain ⟨s, hs, -⟩ := hk p hp
          rw [e] at hj' hq'
          obtain ⟨l, hl, -⟩ := map_preimage (f := fun q : Str × Str => ((q.1, .val q.2) : Str × NVal)) (P := fun _ => True) g' (by
            intro q hq
            obtain ⟨s, hs⟩ := hv q hq
            exact ⟨(q.1, s), by rw [← hs], trivial⟩)
          subst hl
          refine ⟨(p.1, l), by rw [← e], hqk p hp, by rw [hs]; exact hU s, ?_, ?_, ?_⟩
          · cases hj' with
            | obj _ hn' _ _ _ => rintro h; exact hn' (by rw [show l = [] from h]; rfl)
          · intro q hq
            have hm := List.mem_map_of_mem (f := fun q : Str × Str => ((q.1, .val q.2) : Str × NVal)) hq
            cases hq' with
            | obj _ hk2 hv2 =>
              cases hj' with
              | obj _ _ _ hk3 _ =>
                obtain ⟨s', hs', -⟩ := hk3 _ hm
                refine ⟨hk2 _ hm, (hv2 _ hm).of_val, ?_⟩
                have : q.1 = U.lower s' := hs'
                rw [this, hU]
          · cases hj' with
            | obj _ _ hd' _ _ => simpa [Function.comp_def] using hd')
      refine ⟨fs, by rw [framesVal, hfs], ?_, hok, ?_⟩
      · rintro rfl; exact hn hfs.symm
      · rw [← hfs] at hd; simpa [Function.comp_def] using hd

theorem printable_of_text {E : Env} {U : Uni} (hU : ∀ s, U.lower (U.lower s) = U.lower s) {c : Command} (h : FromText E U false c) (hr : CanReprint c) :
    Printable E U c := by
  cases h with
  | «from» s hs => exact hr.elim
  | attributes l h =>
    refine .attributes l ?_ (fun p hp => ?_) h.distinct
    · obtain ⟨n, -, hn⟩ := h.ne
      rintro rfl; cases hn
    · rcases h.ok p hp with h' | ⟨h', -⟩
      · exact ⟨h'.1, typeOk_of h'.2 (hr.2.1 p hp)⟩
      · cases h'
  | classification v h =>
    refine .classification v ?_
    have hq := hr.2.2 (c!"classification", .val v) (.head _) v rfl
    rcases h with ⟨w, ⟨-, h⟩ | ⟨h, h'⟩ | ⟨h, -⟩⟩ | h
    · exact .inl h
    · exact .inr ⟨w, h, h'⟩
    · rw [h] at hq; exact absurd rfl hq
    · cases h
  | flagged v => cases hr.1
  | removeAttributes l hd h => exact .removeAttributes l (fun k hk => (h k hk).resolve_right (by simp)) hd
  | removeClassification => exact .removeClassification
  | removeMeta => exact hr.elim
  | removeLabel => exact hr.elim
  | overlay k cc h =>
    obtain ⟨ha, hp, hx⟩ := hr
    cases h with
    | plain k hk as h =>
      exact .plain k (by rcases hk with rfl | rfl | rfl | rfl | rfl <;> simp [PlainKind]) as (pairs_of h (fun _ => text_pair) ha) _ (.inr rfl)
    | unit as h => exact .plain .unit (.inl rfl) as (pairs_of h (fun _ h => h) ha) _ (.inr rfl)
    | withLang k hk as h l hl => exact .withLang k hk as (pairs_of h (fun _ => text_pair) ha) l hl
    | metas ps h =>
      obtain ⟨lg, hl⟩ := h.lang
      refine .metas _ (.inr rfl) ps h.distinct lg hl (hx.2 lg hl) (fun p hp' _ => ?_) hx.1
      rcases h.ok p hp' with h' | ⟨h', -⟩
      · obtain ⟨hk, s, hs⟩ := text_pair h'
        exact ⟨hk, s, hs, QuotableVal.of_val (by rw [← hs]; exact hp p hp')⟩
      · cases h'
    | encodingProps ps h => exact absurd rfl hx
    | entryCodes as h =>
      obtain ⟨l, rfl, hl⟩ := map_preimage (f := fun p : Str × CodeVal => ((p.1, p.2.val) : Str × NVal)) (P := fun p => IsKey p.1 ∧ p.2.Ok) as (by
        intro p hp
        rcases h.ok p hp with h' | ⟨h', -⟩
        · obtain ⟨c, hc, hok⟩ := codes_of h'.2 (ha p hp)
          exact ⟨(p.1, c), by rw [hc], h'.1, hok⟩
        · cases h')
      refine .entryCodes l ?_ hl (by simpa [Distinct, Function.comp_def] using h.distinct) _ (.inr rfl)
      obtain ⟨n, -, hn⟩ := h.ne
      rintro rfl; cases hn
    | entries as h lg hlg =>
      obtain ⟨l, rfl, hl⟩ := map_preimage (f := fun p : Str × EntryVal => ((p.1, p.2.val) : Str × NVal)) (P := fun p => IsKey p.1 ∧ p.2.Ok) as (by
        intro p hp
        rcases h.ok p hp with h' | ⟨h', -⟩
        · obtain ⟨c, hc, hok⟩ := entries_of h'.2 (ha p hp)
          exact ⟨(p.1, c), by rw [hc], h'.1, hok⟩
        · cases h')
      refine .entries l ?_ hl (by simpa [Distinct, Function.comp_def] using h.distinct) lg hlg
      obtain ⟨n, -, hn⟩ := h.ne
      rintro rfl; cases hn
    | link as h ps hps =>
      obtain ⟨s, hw, rfl | ⟨hs, rfl⟩ | ⟨-, rfl⟩⟩ := hps
      · exact absurd rfl hx
      · exact .link as (pairs_of h (fun _ => text_pair) ha) s hw hs
      · exact absurd rfl hx
    | framing as h ps hps =>
      obtain ⟨l, rfl, hl⟩ := map_preimage (f := fun r : Str × Frames => ((r.1, framesVal r.2) : Str × NVal)) (P := fun r => IsKey r.1 ∧ FramesOk U r.2) as (by
        intro p hp
        rcases h.ok p hp with h' | ⟨h', -⟩
        · obtain ⟨c, hc, hok⟩ := frames_of hU h'.2.1 (ha p hp) (hx p hp)
          exact ⟨(p.1, c), by rw [hc], h'.1, hok⟩
        · cases h')
      obtain ⟨ms, rfl, hms⟩ := map_preimage (f := fun r : Str × Str => ((r.1, .val r.2) : Str × NVal)) (P := fun r => IsMetaKey r.1 ∧ Quotable r.2 = true) ps (by
        intro p hp'
        rcases hps.ok p hp' with ⟨hk, s, hs, -⟩ | ⟨h', -⟩
        · exact ⟨(p.1, s), by rw [← hs], hk, QuotableVal.of_val (by rw [← hs]; exact hp p hp')⟩
        · cases h')
      refine .framing ms ?_ hms (by simpa [Distinct, Function.comp_def] using hps.distinct) l ?_ hl (by simpa [Distinct, Function.comp_def] using h.distinct)
      · obtain ⟨n, -, hn⟩ := hps.ne
        rintro rfl; cases hn
      · obtain ⟨n, -, hn⟩ := h.ne
        rintro rfl; cases hn

/-- **C54** A file without backslashes whose commands can be written down again: printing its AST succeeds, the printed text parses, and gives
the same commands in the same order (up to the order of the properties of an overlay). `hU` is a law of `str::to_lowercase`, used for the keys
of frames. -/
theorem C54_reprint (E : Env) (U : Uni) (hU : ∀ s, U.lower (U.lower s) = U.lower s) (s : Str) (hs : '\\' ∉ s) (ast : OCAAst)
    (h : parseText E U s = .ok ast) (hr : ∀ c ∈ ast.commands, CanReprint c) :
    ∃ text out, (printAst ast : Res ParseErr Str) = .ok text ∧ parseText E U text = .ok out ∧ All2 Like ast.commands out.commands := by
  refine C49_print_parse E U ast (fun c hc => ?_) ?_
  · have := C52_commands_of_text E U s ast h c hc
    rw [show hasBackslash s = false by simpa [hasBackslash] using hs] at this
    exact printable_of_text hU this (hr c hc)
  · obtain ⟨ls, h1, -⟩ := parseText_ok h
    intro pre c post e
    exact (parseLoop_accepted ls OCAAst.new 0 ast rfl (by intro pre c post he; simp [OCAAst.new] at he) h1).2 pre c post e

/-! ## The hypotheses are met, and what happens without them -/

mutual
/-- `QuotableVal` as a check -/
def quotB : NVal → Bool
  | .val s => Quotable s
  | .ref _ => true
  | .arr l => quotL l
  | .obj l => quotP l
/-- all of a list -/
def quotL : List NVal → Bool
  | [] => true
  | v :: l => quotB v && quotL l
/-- all pairs -/
def quotP : List (Str × NVal) → Bool
  | [] => true
  | (k, v) :: l => Quotable k && (quotB v && quotP l)
end

mutual
theorem quotB_sound : ∀ v, quotB v = true → QuotableVal v
  | .val s, h => .val s h
  | .ref r, _ => .ref r
  | .arr l, h => .arr l (quotL_sound l h)
  | .obj l, h => .obj l (fun p hp => (quotP_sound l h p hp).1) (fun p hp => (quotP_sound l h p hp).2)
theorem quotL_sound : ∀ l, quotL l = true → ∀ v ∈ l, QuotableVal v
  | [], _ => by simp
  | v :: l, h => by
    simp only [quotL, Bool.and_eq_true] at h
    intro x hx
    rcases List.mem_cons.1 hx with hx | hx
    · rw [hx]; exact quotB_sound v h.1
    · exact quotL_sound l h.2 x hx
theorem quotP_sound : ∀ l, quotP l = true → ∀ p ∈ l, Quotable p.1 = true ∧ QuotableVal p.2
  | [], _ => by simp
  | (k, v) :: l, h => by
    simp only [quotP, Bool.and_eq_true] at h
    intro x hx
    rcases List.mem_cons.1 hx with hx | hx
    · rw [hx]; exact ⟨h.1, quotB_sound v h.2.1⟩
    · exact quotP_sound l h.2.2 x hx
end

/-- `TwoLevels` as a check -/
def twoB : NVal → Bool
  | .obj g => g.all fun p => match p.2 with
    | .obj g' => g'.all fun q => match q.2 with
      | .val _ => true
      | _ => false
    | _ => false
  | _ => false

theorem twoB_sound {v : NVal} (h : twoB v = true) : TwoLevels v := by
  cases v with
  | obj g =>
    refine ⟨g, rfl, fun p hp => ?_⟩
    have := List.all_eq_true.1 h p hp
    split at this
    · next g' e =>
      refine ⟨g', e, fun q hq => ?_⟩
      have := List.all_eq_true.1 this q hq
      split at this
      · next s e => exact ⟨s, e⟩
      · cases this
    · cases this
  | _ => cases h

/-- the type contains a reference by name, as a check -/
def hasNameB : NAttr → Bool
  | .ref (.name _) => true
  | .arr a => hasNameB a
  | _ => false

theorem hasNameB_sound {t : NAttr} (h : hasNameB t = false) : ¬ HasName t := by
  induction t with
  | ref r => cases r <;> first | exact id | cases h
  | arr a ih => exact ih h
  | _ => exact id

/-- `IsLang` as a check -/
def langB : Str → Bool
  | [a, b] => a.isAlpha && b.isAlpha
  | [a, b, m, c, d] => a.isAlpha && b.isAlpha && decide (m = '-') && c.isAlpha && d.isAlpha
  | _ => false

theorem langB_sound {l : Str} (h : langB l = true) : IsLang l := by
  unfold langB at h
  split at h
  · simpa [IsLang] using h
  · simp only [Bool.and_eq_true, decide_eq_true_eq] at h
    exact ⟨h.1.1.1.1, h.1.1.1.2, h.1.1.2, h.1.2, h.2⟩
  · cases h

/-- `CanReprint` as a check -/
def canReprintB (c : Command) : Bool :=
  match c.kind, c.obj with
  | .add, .captureBase cc => cc.flagged.isNone && (cc.attributes.getD []).all (fun p => !hasNameB p.2) &&
      (cc.properties.getD []).all fun p => match p.2 with
        | .val v => decide (v.head? ≠ some '\'')
        | _ => true
  | .remove, .captureBase _ => true
  | .add, .overlay t cc => (cc.attributes.getD []).all (fun p => quotB p.2) && (cc.properties.getD []).all (fun p => quotB p.2) &&
      match t.kind with
      | .characterEncoding => match cc.attributes with
        | some [] => false
        | _ => true
      | .metaOv => (cc.properties.getD []).any (fun p => decide (p.1 ≠ c!"lang")) && (cc.properties.getD []).all fun p => match p.2 with
        | .val l => decide (p.1 ≠ c!"lang") || langB l
        | _ => true
      | .link => cc.target.isSome
      | .attributeFraming => (cc.attributes.getD []).all fun p => twoB p.2
      | _ => true
  | _, _ => false

theorem canReprintB_sound {c : Command} (h : canReprintB c = true) : CanReprint c := by
  obtain ⟨k, o⟩ := c
  cases k <;> cases o <;> simp only [canReprintB, Bool.and_eq_true, List.all_eq_true, Bool.false_eq_true] at h <;> simp only [CanReprint]
  · obtain ⟨⟨h1, h2⟩, h3⟩ := h
    refine ⟨by simpa using h1, fun p hp => hasNameB_sound (by simpa using h2 p hp), fun p hp v hv => ?_⟩
    have := h3 p hp
    rw [hv] at this
    simpa using this
  · rename_i t cc
    obtain ⟨⟨h1, h2⟩, h3⟩ := h
    refine ⟨fun p hp => quotB_sound _ (h1 p hp), fun p hp => quotB_sound _ (h2 p hp), ?_⟩
    cases hk : t.kind <;> rw [hk] at h3 <;> simp only at h3 ⊢
    · split at h3
      · cases h3
      · next hne => exact fun e => hne e
    · simp only [Bool.and_eq_true, List.any_eq_true, List.all_eq_true, decide_eq_true_eq] at h3
      refine ⟨h3.1, fun l hl => ?_⟩
      have := h3.2 _ hl
      simp only [ne_eq, not_true_eq_false, decide_false, Bool.false_or] at this
      exact langB_sound this
    · intro e; rw [e] at h3; cases h3
    · exact fun p hp => twoB_sound (List.all_eq_true.1 h3 p hp)

/-- a file with a command of every kind that can be written down again -/
def reprintDemo : Str := c!"-- name=demo\n# a comment\nADD ATTRIBUTE a=Text b=Array[Numeric] c=refs:Eabc\nADD CLASSIFICATION GICS:1\n\nADD LABEL en ATTRS a='A' b=\"the b\"\nADD META pl-PL PROPS name=x description=\"d\"\nADD ENTRY_CODE ATTRS a=[\"x\", \"y\"] b={\"g\": [\"1\"]}\nADD ENTRY en ATTRS a={\"x\": \"X\"}\nADD UNIT ATTRS b=m\nADD LINK refs:Exyz ATTRS a=n\nADD ATTR_FRAMING id=f label=l location=l version=v ATTRS a={\"X\": {\"predicate_id\": \"p\"}}\nREMOVE ATTRIBUTE c\nREMOVE CLASSIFICATION\n"

/-- the hypotheses of C54, checked -/
def reprintCheck (s : Str) : Option Nat :=
  match parseText Env.demo Uni.ascii s with
  | .ok ast => if ast.commands.all canReprintB then some ast.commands.length else none
  | _ => none

/-- Non-vacuity: the demo file meets the hypotheses of C54. -/
example : '\\' ∉ reprintDemo ∧ (∀ s, Uni.ascii.lower (Uni.ascii.lower s) = Uni.ascii.lower s) ∧
    ∃ ast, parseText Env.demo Uni.ascii reprintDemo = .ok ast ∧ ast.commands.length = 11 ∧ ∀ c ∈ ast.commands, CanReprint c := by
  refine ⟨by decide, fun _ => rfl, ?_⟩
  have h : reprintCheck reprintDemo = some 11 := by decide +kernel
  unfold reprintCheck at h
  split at h
  · next ast e =>
    refine ⟨ast, e, ?_⟩
    split at h
    · next hall =>
      exact ⟨by simpa using h, fun c hc => canReprintB_sound (List.all_eq_true.1 hall c hc)⟩
    · cases h
  · cases h

/-- what becomes of a file that is parsed, printed and parsed again: the number of commands, or `none` if the second parse fails -/
inductive Fate where
  | notParsed
  | printAborts
  | unreadable (text : Str)
  | read (n : Nat)
deriving DecidableEq

/-- parse, print, parse -/
def fate (E : Env) (U : Uni) (s : Str) : Fate :=
  match parseText E U s with
  | .ok ast => match (printAst ast : Res ParseErr Str) with
    | .ok text => match parseText E U text with
      | .ok out => .read out.commands.length
      | _ => .unreadable text
    | _ => .printAborts
  | _ => .notParsed

/-- **C54** What happens without the restrictions: FROM is printed without its SAID; flagged attributes as `ADD ` alone; REMOVE LABEL, REMOVE META
and a type with a reference by name abort the printer; CHARACTER_ENCODING PROPS and values with a double quote are printed as a text that
cannot be read. -/
theorem C54_not_reprintable :
    fate Env.demo Uni.ascii c!"FROM Eabc\nADD ATTRIBUTE a=Text\n" = .unreadable c!"FROM \nADD ATTRIBUTE a=Text\n" ∧
    fate Env.demo Uni.ascii c!"ADD FLAGGED_ATTRIBUTES a b\n" = .unreadable c!"ADD \n" ∧
    fate Env.demo Uni.ascii c!"REMOVE LABEL en\n" = .printAborts ∧
    fate Env.demo Uni.ascii c!"REMOVE META en\n" = .printAborts ∧
    fate Env.demo Uni.ascii c!"ADD ATTRIBUTE a=refn:b\n" = .printAborts ∧
    fate Env.demo Uni.ascii c!"ADD UNIT ATTRS a=5\"\n" = .unreadable c!"ADD UNIT ATTRS a=\"5\"\"\n" ∧
    fate Env.demo Uni.ascii c!"ADD LABEL en ATTRS a='say \"a\"'\n" = .unreadable c!"ADD LABEL en ATTRS a=\"say \"a\"\"\n" := by
  decide +kernel

end OCA
