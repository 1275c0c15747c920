import Verif.Props.WholeAst
import Verif.Props.ParsedText
import Verif.Props.TransformationText
import Verif.Lemmas.Stored
/-!
# C65 for the trees of texts

The tree parsed from a text reads back from its JSON exactly when no value in it that is plain text has the form of a reference.
-/
namespace OCA
open Gr

mutual
/-- the plain texts in a value -/
def NVal.plainTexts : NVal → List Str
  | .ref _ => []
  | .val s => [s]
  | .obj l => NVal.plainTextsObj l
  | .arr l => NVal.plainTextsArr l
/-- the plain texts in the values of an object -/
def NVal.plainTextsObj : List (Str × NVal) → List Str
  | [] => []
  | (_, v) :: t => v.plainTexts ++ NVal.plainTextsObj t
/-- the plain texts in the elements of an array -/
def NVal.plainTextsArr : List NVal → List Str
  | [] => []
  | v :: t => v.plainTexts ++ NVal.plainTextsArr t
end

/-- the plain texts among the values of a command -/
def Command.plainTexts (c : Command) : List Str :=
  match c.obj with
  | .captureBase cc => NVal.plainTextsObj (cc.properties.getD [])
  | .ocaBundle _ => []
  | .overlay _ cc => NVal.plainTextsObj (cc.attributes.getD []) ++ NVal.plainTextsObj (cc.properties.getD [])

/-- a text that would be read as a reference: `refs:` with a valid identifier, or `refn:` -/
def LooksLikeRef (E : Env) (s : Str) : Prop := ∃ r, RefVal.parse E s = .ok r

theorem not_looks {E : Env} {s : Str} : ¬ LooksLikeRef E s ↔ (RefVal.parse E s).isOk = false := by
  unfold LooksLikeRef
  cases h : RefVal.parse E s <;> simp [Res.isOk]

mutual
theorem NVal.faithful_texts {E : Env} : (v : NVal) → v.faithful E → ∀ s ∈ v.plainTexts, ¬ LooksLikeRef E s
  | .ref r, _, s, hs => by cases hs
  | .val x, h, s, hs => by
    cases List.mem_singleton.1 hs
    exact not_looks.2 h
  | .obj l, h, s, hs => by
    simp only [NVal.faithful] at h
    exact NVal.faithfulObj_texts l h.2 s hs
  | .arr l, h, s, hs => by
    simp only [NVal.faithful] at h
    exact NVal.faithfulArr_texts l h s hs
theorem NVal.faithfulObj_texts {E : Env} : (l : List (Str × NVal)) → NVal.faithfulObj E l → ∀ s ∈ NVal.plainTextsObj l, ¬ LooksLikeRef E s
  | [], _, s, hs => by cases hs
  | (k, v) :: t, h, s, hs => by
    simp only [NVal.faithfulObj] at h
    rcases List.mem_append.1 hs with hs | hs
    · exact NVal.faithful_texts v h.1 s hs
    · exact NVal.faithfulObj_texts t h.2 s hs
theorem NVal.faithfulArr_texts {E : Env} : (l : List NVal) → NVal.faithfulArr E l → ∀ s ∈ NVal.plainTextsArr l, ¬ LooksLikeRef E s
  | [], _, s, hs => by cases hs
  | v :: t, h, s, hs => by
    simp only [NVal.faithfulArr] at h
    rcases List.mem_append.1 hs with hs | hs
    · exact NVal.faithful_texts v h.1 s hs
    · exact NVal.faithfulArr_texts t h.2 s hs
end

theorem faithfulObj_of {E : Env} {l : List (Str × NVal)} (h : ∀ p ∈ l, p.2.faithful E) : NVal.faithfulObj E l := by
  induction l with
  | nil => simp only [NVal.faithfulObj]
  | cons p l ih =>
    obtain ⟨k, v⟩ := p
    simp only [NVal.faithfulObj]
    exact ⟨h _ (.head _), ih fun p hp => h p (.tail _ hp)⟩

theorem faithfulArr_of {E : Env} {l : List NVal} (h : ∀ v ∈ l, v.faithful E) : NVal.faithfulArr E l := by
  induction l with
  | nil => simp only [NVal.faithfulArr]
  | cons p l ih =>
    simp only [NVal.faithfulArr]
    exact ⟨h _ (.head _), ih fun p hp => h p (.tail _ hp)⟩

theorem mem_textsObj {l : List (Str × NVal)} {p : Str × NVal} (hp : p ∈ l) {s : Str} (hs : s ∈ p.2.plainTexts) : s ∈ NVal.plainTextsObj l := by
  induction l with
  | nil => cases hp
  | cons q l ih =>
    rcases List.mem_cons.1 hp with rfl | hp
    · exact List.mem_append_left _ hs
    · exact List.mem_append_right _ (ih hp)

theorem mem_textsArr {l : List NVal} {v : NVal} (hp : v ∈ l) {s : Str} (hs : s ∈ v.plainTexts) : s ∈ NVal.plainTextsArr l := by
  induction l with
  | nil => cases hp
  | cons q l ih =>
    rcases List.mem_cons.1 hp with rfl | hp
    · exact List.mem_append_left _ hs
    · exact List.mem_append_right _ (ih hp)

theorem faithful_val {E : Env} {s : Str} (h : ¬ LooksLikeRef E s) : (NVal.val s).faithful E := by
  simp only [NVal.faithful]
  exact not_looks.1 h

/-- what is asked of a value of a text -/
def ValOk (E : Env) (v : NVal) : Prop := (∀ s ∈ v.plainTexts, ¬ LooksLikeRef E s) → v.faithful E

theorem ValOk.val {E : Env} (s : Str) : ValOk E (.val s) := fun h => faithful_val (h s (.head _))

theorem ValOk.codes {E : Env} {v : NVal} (h : IsCodes v) : ValOk E v := by
  obtain ⟨l, rfl, -⟩ := h
  intro h
  simp only [NVal.faithful]
  refine faithfulArr_of fun v hv => ?_
  obtain ⟨s, hs, rfl⟩ := List.mem_map.1 hv
  exact faithful_val (h s (mem_textsArr hv (.head _)))

theorem ValOk.obj {E : Env} {g : List (Str × NVal)} (hd : (g.map (·.1)).Nodup) (h : ∀ p ∈ g, ValOk E p.2) : ValOk E (.obj g) := by
  intro ht
  simp only [NVal.faithful]
  exact ⟨hd, faithfulObj_of fun p hp => h p hp fun s hs => ht s (mem_textsObj hp hs)⟩

theorem ValOk.codeVal {E : Env} {v : NVal} (h : IsCodeVal v) : ValOk E v := by
  rcases h with ⟨s, rfl, -⟩ | h | ⟨g, rfl, hg, hd⟩
  · exact .val s
  · exact .codes h
  · exact .obj hd fun p hp => .codes (hg p hp).2

theorem ValOk.entryVal {E : Env} {v : NVal} (h : IsEntryVal v) : ValOk E v := by
  rcases h with ⟨s, rfl, -⟩ | ⟨g, rfl, hg, hd⟩
  · exact .val s
  · refine .obj hd fun p hp => ?_
    obtain ⟨-, s, e, -⟩ := hg p hp
    rw [e]
    exact .val s

theorem ValOk.json {E : Env} {U : Uni} {v : NVal} (h : IsJson U v) : ValOk E v := by
  induction h with
  | str s _ => exact .val s
  | obj g _ hd _ _ ih => exact .obj hd ih

theorem faithfulVals_of {E : Env} {l : List (Str × NVal)} (hd : (l.map (·.1)).Nodup) (h : ∀ p ∈ l, ValOk E p.2)
    (ht : ∀ s ∈ NVal.plainTextsObj l, ¬ LooksLikeRef E s) : faithfulVals E (some l) := by
  rintro _ ⟨⟩
  exact ⟨hd, faithfulObj_of fun p hp => h p hp fun s hs => ht s (mem_textsObj hp hs)⟩

theorem faithfulVals_none {E : Env} : faithfulVals E none := fun _ e => by cases e

theorem faithfulVals_nil {E : Env} : faithfulVals E (some []) := by
  rintro _ ⟨⟩
  exact ⟨List.nodup_nil, faithfulObj_of (by simp)⟩

theorem Gr.PairList.vals {E : Env} {b : Bool} {A : Str × NVal → Prop} {l : List (Str × NVal)} (h : PairList b A l) (hA : ∀ p, A p → ValOk E p.2)
    (ht : ∀ s ∈ NVal.plainTextsObj l, ¬ LooksLikeRef E s) : faithfulVals E (some l) := by
  refine faithfulVals_of h.distinct (fun p hp => ?_) ht
  rcases h.ok p hp with h | h
  · exact hA p h
  · rw [h.2]
    exact .val []

theorem Gr.TextPair.valOk {E : Env} {p : Str × NVal} (h : TextPair p) : ValOk E p.2 := by
  obtain ⟨-, s, e, -⟩ := h
  rw [e]
  exact .val s

theorem Gr.FileType.wf {E : Env} {U : Uni} {t : NAttr} (h : FileType E U t) : t.wf E := by
  induction h with
  | val => simp [NAttr.wf]
  | said s _ hs => simpa [NAttr.wf, RefVal.wf] using hs
  | name => simp [NAttr.wf, RefVal.wf]
  | arr t _ ih => simpa [NAttr.wf] using ih

/-- The content of an overlay command of a text. -/
theorem fileContent_faithful {E : Env} {U : Uni} {b : Bool} {k : OvKind} {c : Content} (h : FileContent E U b k c)
    (ht : ∀ s ∈ NVal.plainTextsObj (c.attributes.getD []) ++ NVal.plainTextsObj (c.properties.getD []), ¬ LooksLikeRef E s) :
    k ≠ .attributeMapping ∧ faithfulVals E c.attributes ∧ faithfulVals E c.properties := by
  have h1 : ∀ s ∈ NVal.plainTextsObj (c.attributes.getD []), ¬ LooksLikeRef E s := fun s hs => ht s (List.mem_append_left _ hs)
  have h2 : ∀ s ∈ NVal.plainTextsObj (c.properties.getD []), ¬ LooksLikeRef E s := fun s hs => ht s (List.mem_append_right _ hs)
  have hlang : ∀ l : Str, (∀ s ∈ NVal.plainTextsObj [(c!"lang", NVal.val l)], ¬ LooksLikeRef E s) → faithfulVals E (some [(c!"lang", .val l)]) := by
    intro l h
    refine faithfulVals_of (by simp) (fun p hp => ?_) h
    cases List.mem_singleton.1 hp
    exact .val l
  cases h with
  | plain _ hk as h => exact ⟨by rcases hk with rfl | rfl | rfl | rfl | rfl <;> simp, h.vals (fun p hp => hp.valOk) h1, faithfulVals_nil⟩
  | unit as h => exact ⟨by simp, h.vals (fun p hp => by obtain ⟨-, s, e⟩ := hp; rw [e]; exact .val s) h1, faithfulVals_nil⟩
  | withLang _ hk as h l hl => exact ⟨by rcases hk with rfl | rfl <;> simp, h.vals (fun p hp => hp.valOk) h1, hlang l h2⟩
  | metas ps h =>
    refine ⟨by simp, faithfulVals_nil, faithfulVals_of h.distinct (fun p hp => ?_) h2⟩
    rcases h.ok p hp with h | h
    · exact Gr.TextPair.valOk h
    · rw [h.2]
      exact .val []
  | encodingProps ps h => exact ⟨by simp, faithfulVals_nil, h.vals (fun p hp => hp.valOk) h2⟩
  | entryCodes as h => exact ⟨by simp, h.vals (fun p hp => .codeVal hp.2) h1, faithfulVals_nil⟩
  | entries as h l hl => exact ⟨by simp, h.vals (fun p hp => .entryVal hp.2) h1, hlang l h2⟩
  | link as h ps hp =>
    refine ⟨by simp, h.vals (fun p hp => hp.valOk) h1, ?_⟩
    obtain ⟨s, -, rfl | ⟨hs, rfl⟩ | ⟨-, rfl⟩⟩ := hp
    · rintro _ ⟨⟩
      simp [NVal.faithfulObj, NVal.faithful, RefVal.wf]
    · rintro _ ⟨⟩
      simp [NVal.faithfulObj, NVal.faithful, RefVal.wf, hs]
    · exact faithfulVals_nil
  | framing as h ps hp =>
    exact ⟨by simp, h.vals (fun p hp => .json hp.2.1) h1, hp.vals (fun p hp => by obtain ⟨-, s, e, -⟩ := hp; rw [e]; exact .val s) h2⟩

/-- **C65** A command of any text reads back from its JSON exactly when none of its values that are plain text looks like a reference. -/
theorem C65_text_command (E : Env) (U : Uni) (b : Bool) (c : Command) (h : FromText E U b c) :
    c.faithful E ↔ ∀ s ∈ c.plainTexts, ¬ LooksLikeRef E s := by
  constructor
  · intro hf s hs
    obtain ⟨k, o⟩ := c
    cases o with
    | captureBase cc =>
      simp only [Command.faithful] at hf
      simp only [Command.plainTexts] at hs
      cases hp : cc.properties with
      | none => rw [hp] at hs; cases hs
      | some l => rw [hp] at hs; exact NVal.faithfulObj_texts l (hf.2 l hp).2 s hs
    | ocaBundle r => cases hs
    | overlay t cc =>
      simp only [Command.faithful] at hf
      simp only [Command.plainTexts] at hs
      rcases List.mem_append.1 hs with hs | hs
      · cases hp : cc.attributes with
        | none => rw [hp] at hs; cases hs
        | some l => rw [hp] at hs; exact NVal.faithfulObj_texts l (hf.2.2.1 l hp).2 s hs
      · cases hp : cc.properties with
        | none => rw [hp] at hs; cases hs
        | some l => rw [hp] at hs; exact NVal.faithfulObj_texts l (hf.2.2.2 l hp).2 s hs
  · intro ht
    have hn : faithfulAttrs E none := fun _ e => by cases e
    cases h with
    | «from» s hs => exact hs
    | attributes l h =>
      refine ⟨?_, faithfulVals_none⟩
      rintro _ ⟨⟩
      refine ⟨h.distinct, fun p hp => ?_⟩
      rcases h.ok p hp with h | h
      · exact h.2.wf
      · rw [h.2]
        simp [NAttr.wf]
    | classification v h =>
      refine ⟨hn, faithfulVals_of (by simp) (fun p hp => ?_) ht⟩
      cases List.mem_singleton.1 hp
      exact .val v
    | flagged v => exact ⟨hn, faithfulVals_none⟩
    | overlay k c h =>
      have := fileContent_faithful h ht
      exact ⟨rfl, this⟩
    | removeAttributes l hd h =>
      refine ⟨?_, faithfulVals_none⟩
      rintro _ ⟨⟩
      constructor
      · simpa [List.map_map, Function.comp_def] using hd
      · intro p hp
        obtain ⟨k, -, rfl⟩ := List.mem_map.1 hp
        simp [NAttr.wf]
    | removeClassification =>
      refine ⟨hn, faithfulVals_of (by simp) (fun p hp => ?_) ht⟩
      cases List.mem_singleton.1 hp
      exact .val []
    | removeMeta => exact ⟨rfl, by simp, faithfulVals_none, faithfulVals_nil⟩
    | removeLabel => exact ⟨rfl, by simp, faithfulVals_nil, faithfulVals_nil⟩

/-- **C65** The tree of any text reads back from its JSON exactly when no value in it that is plain text looks like a reference (the
numbers being those of a machine word). -/
theorem C65_text_reads_back (E : Env) (U : Uni) (O : Order) (s : Str) (ast : OCAAst) (h : parseText E U s = .ok ast)
    (hl : ast.commands.length ≤ 18446744073709551616) (hm : ∀ p ∈ ast.commandsMeta, p.2.lineNumber < 18446744073709551616) :
    OCAAst.ofJson E (ast.toJson O) = .ok ast ↔ ∀ c ∈ ast.commands, ∀ t ∈ c.plainTexts, ¬ LooksLikeRef E t := by
  rw [C65_ast_reads_back]
  have hk := (C52_raw_texts E U s ast h).1
  constructor
  · intro hs c hc
    exact (C65_text_command E U _ c (C52_commands_of_text E U s ast h c hc)).1 (hs.commands c hc)
  · intro ht
    refine ⟨fun c hc => (C65_text_command E U _ c (C52_commands_of_text E U s ast h c hc)).2 (ht c hc), ?_, fun p hp => ⟨?_, hm p hp⟩⟩
    · rw [hk]
      exact List.nodup_range
    · have : p.1 ∈ List.range ast.commands.length := by
        rw [← hk]
        exact List.mem_map_of_mem hp
      exact Nat.lt_of_lt_of_le (List.mem_range.1 this) hl

/-- **C65** The tree of any transformation text reads back from its JSON (the numbers being those of a machine word). -/
theorem C65_trans_text_reads_back (U : Uni) (O : Order) (s : Str) (ast : TAst) (h : parseTransformation U s = .ok ast)
    (hl : ast.commands.length ≤ 18446744073709551616) (hm : ∀ p ∈ ast.commandsMeta, p.2.lineNumber < 18446744073709551616) :
    TAst.ofJson (ast.toJson O) = .ok ast := by
  obtain ⟨-, hc, -, -, hk⟩ := (C55_every_text U s).2 ast h
  refine (C65_trans_reads_back O ast).2 ⟨fun c h => ?_, ?_, fun p hp => ⟨?_, hm p hp⟩⟩
  · obtain ⟨l, -, rfl | rfl, hd, -⟩ := hc c h <;>
    · rintro _ ⟨⟩
      exact hd
  · rw [hk]
    exact List.nodup_range
  · have : p.1 ∈ List.range ast.commands.length := by
      rw [← hk]
      exact List.mem_map_of_mem hp
    exact Nat.lt_of_lt_of_le (List.mem_range.1 this) hl

/-! ## What the façade asks of a command, for the commands of texts -/

/-- the values of ENTRY_CODE that are groups have them in the order of their names; META has no property named like a member of every overlay -/
structure Command.Tidy (c : Command) : Prop where
  props : ∀ t cc l, c.obj = .overlay t cc → t.kind = .metaOv → cc.properties = some l →
    ∀ p ∈ l, p.1 ∉ [c!"d", c!"capture_base", c!"type", c!"language"]
  groups : ∀ t cc l, c.obj = .overlay t cc → t.kind = .entryCode → cc.attributes = some l →
    ∀ n gs, (n, NVal.obj gs) ∈ l → gs.Pairwise fun a b => Str.lt a.1 b.1 = true

/-- **C57** What C56, C57 and C61 ask of the commands is met by every command of a text in which no plain text looks like a reference, the
nesting is within the limit of `serde_json`, no META property has a reserved name and groups of entry codes are in order. -/
theorem C57_text_keepable (E : Env) (U : Uni) (b : Bool) (c : Command) (h : FromText E U b c) (ht : ∀ s ∈ c.plainTexts, ¬ LooksLikeRef E s)
    (hd : c.toJson.depth < 128) (ha : c.givesOnly fun t => t.arrays ≤ 124) (htidy : c.Tidy) : c.Keepable E := by
  have hf := (C65_text_command E U b c h).2 ht
  refine ⟨⟨?_, htidy.props, htidy.groups⟩, hf, hd, ha⟩
  rintro cc l e hl p hp
  obtain ⟨k, o⟩ := c
  cases e
  exact (hf.1 l hl).2 p hp

end OCA
