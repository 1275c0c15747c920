import Verif.Props.HistoryText
import Verif.Props.StoreTotal
/-!
# C57 on a concrete file
-/
namespace OCA
open Peg Gr

/-! ## Keepable commands as a check -/

/-- `RefVal.wf` as a check -/
def refB (E : Env) : RefVal → Bool
  | .said s => E.validSaid s
  | .name _ => true

/-- `NAttr.wf` as a check -/
def typeB (E : Env) : NAttr → Bool
  | .ref r => refB E r
  | .arr a => typeB E a
  | _ => true

theorem refB_sound {E : Env} {r : RefVal} (h : refB E r = true) : r.wf E := by
  cases r with
  | said s => exact h
  | name n => trivial

theorem typeB_sound {E : Env} {t : NAttr} (h : typeB E t = true) : t.wf E := by
  induction t with
  | ref r => exact refB_sound h
  | arr a ih => exact ih h
  | _ => trivial

mutual
/-- `NVal.faithful` as a check -/
def faithB (E : Env) : NVal → Bool
  | .ref r => refB E r
  | .val s => !(RefVal.parse E s).isOk
  | .obj l => decide (l.map (·.1)).Nodup && faithP E l
  | .arr l => faithL E l
/-- all pairs -/
def faithP (E : Env) : List (Str × NVal) → Bool
  | [] => true
  | (_, v) :: t => faithB E v && faithP E t
/-- all of a list -/
def faithL (E : Env) : List NVal → Bool
  | [] => true
  | v :: t => faithB E v && faithL E t
end

mutual
theorem faithB_sound {E : Env} : ∀ v, faithB E v = true → v.faithful E
  | .ref r, h => refB_sound h
  | .val s, h => by simpa [faithB, NVal.faithful] using h
  | .obj l, h => by
    simp only [faithB, Bool.and_eq_true, decide_eq_true_eq] at h
    exact ⟨h.1, faithP_sound l h.2⟩
  | .arr l, h => by rw [faithB] at h; rw [NVal.faithful]; exact faithL_sound l h
theorem faithP_sound {E : Env} : ∀ l, faithP E l = true → NVal.faithfulObj E l
  | [], _ => by rw [NVal.faithfulObj]; trivial
  | (_, v) :: t, h => by
    simp only [faithP, Bool.and_eq_true] at h
    rw [NVal.faithfulObj]
    exact ⟨faithB_sound v h.1, faithP_sound t h.2⟩
theorem faithL_sound {E : Env} : ∀ l, faithL E l = true → NVal.faithfulArr E l
  | [], _ => by rw [NVal.faithfulArr]; trivial
  | v :: t, h => by
    simp only [faithL, Bool.and_eq_true] at h
    rw [NVal.faithfulArr]
    exact ⟨faithB_sound v h.1, faithL_sound t h.2⟩
end

/-- `faithfulVals` as a check -/
def faithV (E : Env) (o : Option (List (Str × NVal))) : Bool := match o with
  | none => true
  | some l => decide (l.map (·.1)).Nodup && faithP E l

theorem faithV_sound {E : Env} {o : Option (List (Str × NVal))} (h : faithV E o = true) : faithfulVals E o := by
  rintro l rfl
  simp only [faithV, Bool.and_eq_true, decide_eq_true_eq] at h
  exact ⟨h.1, faithP_sound l h.2⟩

/-- `Command.Keepable` as a check -/
def keepB (E : Env) (c : Command) : Bool :=
  decide (c.toJson.depth < 128) &&
  match c.obj with
  | .ocaBundle r => refB E r
  | .captureBase cc => faithV E cc.properties && decide ((cc.attributes.getD []).map (·.1)).Nodup &&
      (cc.attributes.getD []).all fun p => typeB E p.2 && decide (p.2.arrays ≤ 124)
  | .overlay t cc => decide (t.ver = c!"1.1") && decide (t.kind ≠ .attributeMapping) && faithV E cc.attributes && faithV E cc.properties &&
      (decide (t.kind ≠ .metaOv) || (cc.properties.getD []).all fun p => decide (p.1 ∉ [c!"d", c!"capture_base", c!"type", c!"language"])) &&
      (decide (t.kind ≠ .entryCode) || (cc.attributes.getD []).all fun p => match p.2 with
        | .obj gs => decide (gs.Pairwise fun a b => Str.lt a.1 b.1 = true)
        | _ => true)

theorem keepB_sound {E : Env} {c : Command} (h : keepB E c = true) : c.Keepable E := by
  obtain ⟨k, o⟩ := c
  unfold keepB at h
  rw [Bool.and_eq_true, decide_eq_true_eq] at h
  obtain ⟨hd, h⟩ := h
  cases o with
  | ocaBundle r =>
    exact ⟨⟨(fun _ _ e => by cases e), (fun _ _ _ e => by cases e), (fun _ _ _ e => by cases e)⟩, refB_sound h, hd, (fun _ _ e => by cases e)⟩
  | captureBase cc =>
    simp only [Bool.and_eq_true, List.all_eq_true, decide_eq_true_eq] at h
    obtain ⟨⟨h1, h2⟩, h3⟩ := h
    have ht : ∀ l, cc.attributes = some l → ∀ p ∈ l, p.2.wf E ∧ p.2.arrays ≤ 124 := by
      intro l e p hp
      have := h3 p (by rw [e]; exact hp)
      exact ⟨typeB_sound this.1, this.2⟩
    refine ⟨⟨?_, (fun _ _ _ e => by cases e), (fun _ _ _ e => by cases e)⟩, ⟨?_, faithV_sound h1⟩, hd, ?_⟩
    · intro _ l e1 e2 p hp
      cases e1
      exact (ht l e2 p hp).1
    · intro l e
      exact ⟨by rw [e] at h2; exact h2, fun p hp => (ht l e p hp).1⟩
    · intro _ l e1 e2 p hp
      cases e1
      exact (ht l e2 p hp).2
  | overlay t cc =>
    simp only [Bool.and_eq_true, Bool.or_eq_true, List.all_eq_true, decide_eq_true_eq] at h
    obtain ⟨⟨⟨⟨⟨h1, h2⟩, h3⟩, h4⟩, h5⟩, h6⟩ := h
    refine ⟨⟨(fun _ _ e => by cases e), ?_, ?_⟩, ⟨h1, h2, faithV_sound h3, faithV_sound h4⟩, hd, (fun _ _ e => by cases e)⟩
    · intro _ _ l e1 e2 e3 p hp
      cases e1
      rcases h5 with h5 | h5
      · exact absurd e2 h5
      · exact h5 p (by rw [e3]; exact hp)
    · intro _ _ l e1 e2 e3 n gs hp
      cases e1
      rcases h6 with h6 | h6
      · exact absurd e2 h6
      · have := h6 _ (by rw [e3]; exact hp)
        exact of_decide_eq_true this

/-! ## An environment whose identifiers are words -/

theorem letters_alnum {n k : Nat} {c : Char} (h : c ∈ letters n k) : c.isAlphanum = true := by
  have : ∀ k < 26, (Char.ofNat (97 + k)).isAlphanum = true := by decide +kernel
  induction n generalizing k with
  | zero => cases h
  | succ n ih =>
    rcases List.mem_cons.1 (show c ∈ _ :: letters n _ from h) with rfl | h
    · exact this _ (Nat.mod_lt _ (by decide))
    · exact ih h

/-- The example environment, in which an identifier is an `E` and twelve letters or digits. -/
def Env.words : Env := { Env.short with
  validSaid := fun s => decide (s.head? = some 'E' ∧ s.length = 13 ∧ ∀ c ∈ s, c.isAlphanum = true)
  digest_valid := fun j => by
    refine decide_eq_true ⟨rfl, ?_, ?_⟩
    · show ('E' :: letters 12 _).length = 13
      rw [List.length_cons, letters_length]
    · intro c hc
      rcases List.mem_cons.1 (show c ∈ 'E' :: letters _ _ from hc) with rfl | hc
      · decide
      · exact letters_alnum hc }

theorem words_word (s : Str) (h : Env.words.validSaid s = true) : IsWord Uni.ascii s := by
  obtain ⟨h1, h2, h3⟩ := of_decide_eq_true h
  refine ⟨(by rintro rfl; cases h1), fun c hc => ?_⟩
  have := h3 c hc
  unfold isChar
  simp only [Char.isAlphanum, Bool.or_eq_true] at this
  rcases this with h | h <;> simp [Uni.ascii, h]

/-! ## The example -/

/-- a file with many kinds of commands -/
def exportDemo : Str := c!"# a comment\nADD ATTRIBUTE a=Text b=Array[Numeric] c=Numeric\nADD CLASSIFICATION GICS:1\n\nADD LABEL en ATTRS a='A' b=\"the b\"\nADD META en PROPS name=x description=\"d\"\nADD ENTRY_CODE ATTRS a=[\"x\", \"y\"]\nADD ENTRY en ATTRS a={\"x\": \"X\"}\nADD UNIT ATTRS b=m\nREMOVE ATTRIBUTE c\nREMOVE CLASSIFICATION\n"

/-- validating and building the text on an empty facade, and whether the hypotheses of C57 hold -/
def exportRun (s : Str) : Option (OCAAst × Facade × Build × Facade) :=
  match parseText Env.words Uni.ascii s with
  | .ok ast => match Facade.new.validateText Env.words Uni.ascii Serde.text (fun _ => Order.sorted) s with
    | .ok (f1, b) => match (f1.build Env.words Serde.text .kept b : Res (List VErr) _) with
      | .ok f2 => some (ast, f1, b, f2)
      | _ => none
    | _ => none
  | _ => none

/-- the file does not start with FROM -/
def noFromB : List Command → Bool
  | ⟨.«from», _⟩ :: _ => false
  | _ => true

/-- the hypotheses of C57, checked: the number of steps -/
def exportCheck (s : Str) : Option Nat :=
  match exportRun s with
  | some (ast, _, b, _) =>
    if noFromB ast.commands && b.steps.all (fun st => keepB Env.words st.command) &&
        decide (b.steps.map (·.result.said)).Nodup && b.steps.all (fun st => canReprintB st.command) &&
        (b.steps.getLast?.bind (·.result.said)).isSome then some b.steps.length else none
  | none => none

set_option maxRecDepth 20000 in
theorem exportDemo_ok : exportCheck exportDemo = some 9 := by decide +kernel

/-- Non-vacuity: the demo file meets the hypotheses of C57. -/
theorem C57_example : ∃ ast f1 b f2 last x, parseText Env.words Uni.ascii exportDemo = .ok ast ∧ ast.NoBase ∧ '\\' ∉ exportDemo ∧
    Facade.new.validateText Env.words Uni.ascii Serde.text (fun _ => Order.sorted) exportDemo = .ok (f1, b) ∧
    (∀ st ∈ b.steps, st.command.Keepable Env.words) ∧ (f1.build Env.words Serde.text .kept b : Res (List VErr) _) = .ok f2 ∧
    (b.steps.map (·.result.said)).Nodup ∧ (∀ st ∈ b.steps, CanReprint st.command) ∧
    b.steps.getLast? = some last ∧ last.result.said = some x ∧ b.steps.length = 9 ∧
    ∃ text out b', f2.bundleFile Env.words Serde.text 9 x false = some (.ok text) ∧ parseText Env.words Uni.ascii text = .ok out ∧
      fromAst Env.words (fun _ => Order.sorted) none out = .ok b' ∧ b'.bundle = b.bundle := by
  have h := exportDemo_ok
  unfold exportCheck at h
  split at h
  · next ast f1 b f2 e =>
    split at h
    · next hall =>
      simp only [Bool.and_eq_true, List.all_eq_true, decide_eq_true_eq, Option.isSome_iff_exists] at hall
      obtain ⟨⟨⟨⟨c1, c2⟩, c3⟩, c4⟩, x, c5⟩ := hall
      obtain ⟨last, l1, l2⟩ := Option.bind_eq_some_iff.1 c5
      unfold exportRun at e
      split at e
      · next a1 e1 =>
        split at e
        · next g1 b1 e2 =>
          split at e
          · next g2 e3 =>
            cases e
            have hnb : ast.NoBase := by
              intro r hr
              cases hc : ast.commands with
              | nil => rw [hc] at hr; cases hr
              | cons c t =>
                rw [hc] at hr c1
                injection hr with hr
                subst hr
                cases c1
            have hk := fun st hst => keepB_sound (c2 st hst)
            have hcr := fun st hst => canReprintB_sound (c4 st hst)
            have hlen : b.steps.length = 9 := by injection h
            refine ⟨ast, f1, b, f2, last, x, e1, hnb, by decide, e2, hk, e3, c3, hcr, l1, l2, hlen, ?_⟩
            obtain ⟨text, out, t1, t2, -, b', t3, t4⟩ := C57_exported_file Env.words Uni.ascii (fun _ => rfl) words_word Serde.text (by decide)
              Facade.new f1 f2 .new (fun _ => Order.sorted) .kept exportDemo (by decide) ast e1 hnb b e2 hk e3 c3 hcr last l1 x l2
            exact ⟨text, out, b', t1 9 false (by omega), t2, t3, t4⟩
          · cases e
        · cases e
      · cases e
    · cases h
  · cases h

end OCA
