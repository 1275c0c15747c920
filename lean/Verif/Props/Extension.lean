import Verif.Props.Histories
import Verif.Props.Replay
/-!
# C68: what the commands of a file make of its base

The bundle a build gives, told from the list of commands alone: attribute by attribute, fact by fact. The last command that speaks about a
thing decides; what no command speaks about is as in the base.
-/
namespace OCA

/-! ## Specification -/

/-- the keys of a command are distinct (they are those of an IndexMap) -/
def Command.Distinct (c : Command) : Prop := match c.obj with
  | .captureBase cc => ((cc.attributes.getD []).map (·.1)).Nodup ∧ ((cc.properties.getD []).map (·.1)).Nodup
  | .overlay _ cc => ((cc.attributes.getD []).map (·.1)).Nodup ∧ ((cc.properties.getD []).map (·.1)).Nodup
  | _ => True

/-- ADD ATTRIBUTE with this name and type -/
def AddsType (c : Command) (n : Str) (t : NAttr) : Prop :=
  c.kind = .add ∧ ∃ cc l, c.obj = .captureBase cc ∧ cc.attributes = some l ∧ (n, t) ∈ l

/-- ADD of an overlay that says this about the attribute -/
def Says (E : Env) (c : Command) (n : Str) (F : Fact) : Prop :=
  c.kind = .add ∧ ∃ t cc l v, c.obj = .overlay t cc ∧ cc.attributes = some l ∧ (n, v) ∈ l ∧ factOf E t.kind cc v = some F

/-- ADD of a frame that gives the attribute this scope -/
def SaysScope (c : Command) (n id sc : Str) (v : Scope) : Prop :=
  c.kind = .add ∧ ∃ t cc l fr, c.obj = .overlay t cc ∧ t.kind = .attributeFraming ∧ cc.frameId = some id ∧ cc.attributes = some l ∧ (n, .obj fr) ∈ l ∧
    (framingOf cc.frameMeta fr).get sc = some v

/-- ADD META with this pair in this language -/
def SaysMeta (E : Env) (c : Command) (la : Lang) (k v : Str) : Prop :=
  c.kind = .add ∧ ∃ t cc l, c.obj = .overlay t cc ∧ t.kind = .metaOv ∧ cc.lang E = some la ∧ cc.properties = some l ∧ (k, .val v) ∈ l ∧ k ≠ c!"lang"

/-- The last of the commands for which `S` or not `Q` is one for which `S`. -/
def LastSays (S Q : Command → Prop) (cs : List Command) : Prop := ∃ pre c post, cs = pre ++ c :: post ∧ S c ∧ ∀ d ∈ post, Q d

/-- the commands, all accepted, lead from a state to another -/
inductive Took (E : Env) : OCABox → List Command → OCABox → Prop
  | nil (b : OCABox) : Took E b [] b
  | cons {b b1 b' : OCABox} {c : Command} {cs : List Command} : applyCommand E (some b) c = .ok b1 → Took E b1 cs b' → Took E b (c :: cs) b'

/-! ## The last one decides -/

theorem last_decides {E : Env} {P : OCABox → Prop} {S : OCABox → Command → Prop} {Q D : Command → Prop}
    (step : ∀ b c b', D c → applyCommand E (some b) c = .ok b' → (P b' ↔ S b c ∨ (Q c ∧ P b))) {b b' : OCABox} {cs : List Command}
    (h : Took E b cs b') (hD : ∀ c ∈ cs, D c) :
    P b' ↔ (∃ pre c post m, cs = pre ++ c :: post ∧ Took E b pre m ∧ S m c ∧ ∀ d ∈ post, Q d) ∨ ((∀ d ∈ cs, Q d) ∧ P b) := by
  induction h with
  | nil b =>
    constructor
    · intro h; exact .inr ⟨(fun d hd => by cases hd), h⟩
    · rintro (⟨pre, c, post, m, e, -⟩ | ⟨-, h⟩)
      · cases pre <;> cases e
      · exact h
  | @cons b b1 b' c cs hc ht ih =>
    rw [ih fun d hd => hD d (.tail _ hd), step b c b1 (hD c (.head _)) hc]
    constructor
    · rintro (⟨pre, d, post, m, e, h1, h2, h3⟩ | ⟨hq, hs | ⟨hqc, hp⟩⟩)
      · exact .inl ⟨c :: pre, d, post, m, by rw [e]; rfl, .cons hc h1, h2, h3⟩
      · exact .inl ⟨[], c, cs, b, rfl, .nil b, hs, hq⟩
      · refine .inr ⟨?_, hp⟩
        intro d hd
        cases hd with
        | head => exact hqc
        | tail _ hd => exact hq d hd
    · rintro (⟨pre, d, post, m, e, h1, h2, h3⟩ | ⟨hq, hp⟩)
      · cases pre with
        | nil =>
          cases e
          cases h1
          exact .inr ⟨h3, .inl h2⟩
        | cons x pre =>
          cases e
          cases h1 with
          | cons hx h1 =>
            rw [hc] at hx
            cases hx
            exact .inl ⟨pre, d, post, m, rfl, h1, h2, h3⟩
      · exact .inr ⟨fun d hd => hq d (.tail _ hd), .inr ⟨hq c (.head _), hp⟩⟩

/-- and when what is said does not depend on the state -/
theorem last_decides' {E : Env} {P : OCABox → Prop} {S Q D : Command → Prop}
    (step : ∀ b c b', D c → applyCommand E (some b) c = .ok b' → (P b' ↔ S c ∨ (Q c ∧ P b))) {b b' : OCABox} {cs : List Command}
    (h : Took E b cs b') (hD : ∀ c ∈ cs, D c) : P b' ↔ LastSays S Q cs ∨ ((∀ d ∈ cs, Q d) ∧ P b) := by
  rw [last_decides (S := fun _ => S) step h hD]
  constructor
  · rintro (⟨pre, c, post, m, e, -, h2, h3⟩ | h)
    · exact .inl ⟨pre, c, post, e, h2, h3⟩
    · exact .inr h
  · rintro (⟨pre, c, post, e, h2, h3⟩ | h')
    · left
      have : ∀ (l l' : List Command) (b : OCABox), Took E b (l ++ l') b' → ∃ m, Took E b l m := by
        intro l
        induction l with
        | nil => intro l' b _; exact ⟨b, .nil b⟩
        | cons x l ih =>
          intro l' b ht
          cases ht with
          | cons hx ht => obtain ⟨m, hm⟩ := ih l' _ ht; exact ⟨m, .cons hx hm⟩
      rw [e] at h
      obtain ⟨m, hm⟩ := this pre _ b h
      exact ⟨pre, c, post, m, e, hm, h2, h3⟩
    · exact .inr h'

/-! ## One command -/

theorem lastVal_nodup {V : Type} {l : List (Str × V)} (hn : (l.map (·.1)).Nodup) (k : Str) (v : V) : FMap.lastVal l k = some v ↔ (k, v) ∈ l := by
  have key : ∀ (l : List (Str × V)) (a : Option V), (l.map (·.1)).Nodup → (k ∈ l.map (·.1) → a = none) →
      (l.foldl (fun acc p => if k = p.1 then some p.2 else acc) a = some v ↔ (k, v) ∈ l ∨ a = some v) := by
    intro l
    induction l with
    | nil => intro a _ _; simp
    | cons p t ih =>
      intro a hn ha
      rw [List.map_cons, List.nodup_cons] at hn
      rw [List.foldl_cons]
      by_cases hk : k = p.1
      · rw [if_pos hk, foldl_last_acc']
        · have hnone : a = none := ha (by rw [hk]; exact .head _)
          rw [hnone]
          constructor
          · intro h; cases h; left; rw [hk]; exact .head _
          · rintro (h | h)
            · cases h with
              | head => rfl
              | tail _ h => exact absurd (hk ▸ List.mem_map.2 ⟨_, h, rfl⟩) hn.1
            · cases h
        · intro q hq e
          exact hn.1 (hk ▸ e ▸ List.mem_map.2 ⟨q, hq, rfl⟩)
      · rw [if_neg hk, ih a hn.2 fun h => ha (.tail _ h)]
        constructor
        · rintro (h | h)
          · exact .inl (.tail _ h)
          · exact .inr h
        · rintro (h | h)
          · cases h with
            | head => exact absurd rfl hk
            | tail _ h => exact .inl h
          · exact .inr h
  have := key l none hn fun _ => rfl
  simpa [FMap.lastVal] using this
where
  foldl_last_acc' {V : Type} {k : Str} {t : List (Str × V)} {a : Option V} (h : ∀ q ∈ t, k ≠ q.1) :
      t.foldl (fun acc p => if k = p.1 then some p.2 else acc) a = a := by
    induction t with
    | nil => rfl
    | cons q t ih =>
      rw [List.foldl_cons, if_neg (h q (.head _)), ih fun q hq => h q (.tail _ hq)]


theorem accepted_cases {E : Env} {b b' : OCABox} {c : Command} (hD : c.Distinct) (h : applyCommand E (some b) c = .ok b') :
    (∃ cc, c = ⟨.add, .captureBase cc⟩ ∧ b' = boxAdd cc b) ∨ (∃ cc, c = ⟨.remove, .captureBase cc⟩ ∧ b' = boxRemove cc b) ∨
    ∃ t cc, c = ⟨.add, .overlay t cc⟩ ∧
      ((loopKind t.kind = true ∧ b' = boxPut E t.kind cc b ∧ ∀ p ∈ cc.attrs, (b.attributes.get p.1).isSome = true ∧ valueOk E t.kind cc p.2 = true) ∨
       (t.kind = .metaOv ∧ cc.metaPairs = [] ∧ b' = b) ∨
       (t.kind = .metaOv ∧ ∃ l, cc.lang E = some l ∧ b' = { b with metaMap := metaPut b.metaMap l cc.metaPairs }) ∨
       (loopKind t.kind = false ∧ t.kind ≠ .metaOv ∧ b' = b)) := by
  obtain ⟨k, o⟩ := c
  cases k with
  | add =>
    cases o with
    | captureBase cc => rw [applyAddBase] at h; cases h; exact .inl ⟨cc, rfl, rfl⟩
    | overlay t cc =>
      refine .inr (.inr ⟨t, cc, rfl, ?_⟩)
      have h' : applyOverlay E b t.kind cc = .ok b' := h
      by_cases hk : loopKind t.kind = true
      · rw [applyOverlay_ok_iff E _ _ _ _ hk hD.1] at h'
        exact .inl ⟨hk, h'.2.2, h'.2.1⟩
      · by_cases hm : t.kind = .metaOv
        · rw [hm, applyOverlay_meta, applyMeta_ok_iff] at h'
          rcases h' with ⟨h1, h2⟩ | ⟨l, h1, h2⟩
          · exact .inr (.inl ⟨hm, h1, h2⟩)
          · exact .inr (.inr (.inl ⟨hm, l, h1, h2⟩))
        · rw [applyOverlay_other E _ _ _ (by simpa using hk) hm] at h'
          cases h'
          exact .inr (.inr (.inr ⟨by simpa using hk, hm, rfl⟩))
    | ocaBundle _ => cases h
  | remove =>
    cases o with
    | captureBase cc => rw [applyRemoveBase] at h; cases h; exact .inr (.inl ⟨cc, rfl, rfl⟩)
    | overlay _ _ => cases h
    | ocaBundle _ => cases h
  | «from» => cases h
  | modify => cases h

theorem mem_getD {α : Type} {o : Option (List α)} {a : α} : a ∈ o.getD [] ↔ ∃ l, o = some l ∧ a ∈ l := by
  cases o with
  | none => simp
  | some l => simp

theorem addsType_iff {cc : CaptureContent} {n : Str} {t : NAttr} : AddsType ⟨.add, .captureBase cc⟩ n t ↔ (n, t) ∈ cc.attributes.getD [] := by
  rw [mem_getD]
  constructor
  · rintro ⟨-, _, l, e, h⟩; cases e; exact ⟨l, h⟩
  · rintro ⟨l, h⟩; exact ⟨rfl, cc, l, rfl, h⟩

theorem removesAttr_iff {cc : CaptureContent} {n : Str} : RemovesAttr ⟨.remove, .captureBase cc⟩ n ↔ n ∈ (cc.attributes.getD []).map (·.1) := by
  rw [List.mem_map]
  constructor
  · rintro ⟨-, _, l, e, h, t, ht⟩; cases e; exact ⟨(n, t), mem_getD.2 ⟨l, h, ht⟩, rfl⟩
  · rintro ⟨⟨_, t⟩, ht, rfl⟩
    obtain ⟨l, h, ht⟩ := mem_getD.1 ht
    exact ⟨rfl, cc, l, rfl, h, t, ht⟩

theorem addsAttr_iff {c : Command} {n : Str} : AddsAttr c n ↔ ∃ t, AddsType c n t := by
  constructor
  · rintro ⟨k, cc, l, e, h, t, ht⟩; exact ⟨t, k, cc, l, e, h, ht⟩
  · rintro ⟨t, k, cc, l, e, h, ht⟩; exact ⟨k, cc, l, e, h, t, ht⟩

theorem says_iff {E : Env} {t : OverlayType} {cc : Content} {n : Str} {F : Fact} :
    Says E ⟨.add, .overlay t cc⟩ n F ↔ ∃ v, (n, v) ∈ cc.attrs ∧ factOf E t.kind cc v = some F := by
  constructor
  · rintro ⟨-, _, _, l, v, e, h, hv, hf⟩; cases e; exact ⟨v, mem_getD.2 ⟨l, h, hv⟩, hf⟩
  · rintro ⟨v, hv, hf⟩
    obtain ⟨l, h, hv⟩ := mem_getD.1 hv
    exact ⟨rfl, t, cc, l, v, rfl, h, hv, hf⟩

theorem not_says_base {E : Env} {k : CmdType} {cc : CaptureContent} {n : Str} {F : Fact} : ¬ Says E ⟨k, .captureBase cc⟩ n F := by
  rintro ⟨-, _, _, _, _, e, -⟩; cases e

theorem not_removes_add {o : ObjKind} {n : Str} : ¬ RemovesAttr ⟨.add, o⟩ n := by rintro ⟨h, -⟩; cases h

theorem not_adds_overlay {k : CmdType} {t : OverlayType} {cc : Content} {n : Str} {ty : NAttr} : ¬ AddsType ⟨k, .overlay t cc⟩ n ty := by
  rintro ⟨-, _, _, e, -⟩; cases e

/-! ### Types and flags -/

/-- the attribute is there with this type -/
def OCABox.Typed (b : OCABox) (n : Str) (t : NAttr) : Prop := ∃ a, b.attributes.get n = some a ∧ a.ty = some t

/-- no ADD and no REMOVE ATTRIBUTE of this name -/
def NotNamed (c : Command) (n : Str) : Prop := ¬ AddsAttr c n ∧ ¬ RemovesAttr c n

theorem typed_put {E : Env} {k : OvKind} {cc : Content} {b : OCABox} {n : Str} {t : NAttr} : (boxPut E k cc b).Typed n t ↔ b.Typed n t := by
  unfold OCABox.Typed
  rw [get_boxPut]
  cases b.attributes.get n with
  | none => simp
  | some a =>
    simp only [Option.map_some, Option.some.injEq, exists_eq_left']
    unfold putOne
    split
    · rw [(put_ty E k cc a _).1]
    · rfl

theorem typed_step {E : Env} {b b' : OCABox} {c : Command} (hD : c.Distinct) (h : applyCommand E (some b) c = .ok b') (n : Str) (t : NAttr) :
    b'.Typed n t ↔ AddsType c n t ∨ (NotNamed c n ∧ b.Typed n t) := by
  rcases accepted_cases hD h with ⟨cc, rfl, rfl⟩ | ⟨cc, rfl, rfl⟩ | ⟨ot, cc, rfl, hc⟩
  · have hl := fun t => lastVal_nodup hD.1 n t
    have hR : ¬ RemovesAttr ⟨.add, .captureBase cc⟩ n := not_removes_add
    unfold OCABox.Typed
    rw [get_boxAdd]
    cases hv : FMap.lastVal (cc.attributes.getD []) n with
    | none =>
      have hno : ∀ t, ¬ AddsType ⟨.add, .captureBase cc⟩ n t := by
        intro t ht
        rw [(hl t).2 (addsType_iff.1 ht)] at hv
        cases hv
      have hA : ¬ AddsAttr ⟨.add, .captureBase cc⟩ n := by
        rw [addsAttr_iff]; rintro ⟨t, ht⟩; exact hno t ht
      simp [hno, NotNamed, hA, hR]
    | some u =>
      have hu : AddsType ⟨.add, .captureBase cc⟩ n u := addsType_iff.2 ((hl u).1 hv)
      have hA : AddsAttr ⟨.add, .captureBase cc⟩ n := addsAttr_iff.2 ⟨u, hu⟩
      simp only [NotNamed, hA, not_true_eq_false, false_and, or_false, Option.some.injEq, exists_eq_left']
      have : (setType (b.attributes.get n) u).ty = some u := by cases b.attributes.get n <;> rfl
      rw [this, addsType_iff, ← hl t, hv]
  · have hno : ∀ t, ¬ AddsType ⟨.remove, .captureBase cc⟩ n t := by rintro t ⟨h, -⟩; cases h
    have hA : ¬ AddsAttr ⟨.remove, .captureBase cc⟩ n := by
      rw [addsAttr_iff]; rintro ⟨t, ht⟩; exact hno t ht
    unfold OCABox.Typed
    rw [get_boxRemove]
    unfold NotNamed
    rw [removesAttr_iff]
    by_cases hn : n ∈ (cc.attributes.getD []).map (·.1)
    · rw [if_pos hn]; simp [hn, hno]
    · rw [if_neg hn]; simp only [hn, hno, hA, false_or, not_false_eq_true, true_and]
  · have hno : ∀ t, ¬ AddsType ⟨.add, .overlay ot cc⟩ n t := fun t => not_adds_overlay
    have hA : ¬ AddsAttr ⟨.add, .overlay ot cc⟩ n := by
      rw [addsAttr_iff]; rintro ⟨t, ht⟩; exact hno t ht
    have hR : ¬ RemovesAttr ⟨.add, .overlay ot cc⟩ n := not_removes_add
    have : b'.Typed n t ↔ b.Typed n t := by
      rcases hc with ⟨-, rfl, -⟩ | ⟨-, -, rfl⟩ | ⟨-, l, -, rfl⟩ | ⟨-, -, rfl⟩
      · exact typed_put
      · rfl
      · rfl
      · rfl
    rw [this]
    simp [hno, NotNamed, hA, hR]

/-- the attribute is flagged -/
def OCABox.Flags (b : OCABox) (n : Str) : Prop := ∃ a, b.attributes.get n = some a ∧ a.flagged = true

theorem flags_step {E : Env} {b b' : OCABox} {c : Command} (hD : c.Distinct) (h : applyCommand E (some b) c = .ok b') (n : Str) :
    b'.Flags n ↔ False ∨ (¬ RemovesAttr c n ∧ b.Flags n) := by
  rcases accepted_cases hD h with ⟨cc, rfl, rfl⟩ | ⟨cc, rfl, rfl⟩ | ⟨ot, cc, rfl, hc⟩
  · have hR : ¬ RemovesAttr ⟨.add, .captureBase cc⟩ n := not_removes_add
    unfold OCABox.Flags
    rw [get_boxAdd]
    simp only [hR, not_false_eq_true, true_and, false_or]
    cases FMap.lastVal (cc.attributes.getD []) n with
    | none => rfl
    | some u =>
      cases b.attributes.get n with
      | none => simp [setType]
      | some a => simp [setType]
  · unfold OCABox.Flags
    rw [get_boxRemove, removesAttr_iff]
    by_cases hn : n ∈ (cc.attributes.getD []).map (·.1)
    · rw [if_pos hn]; simp [hn]
    · rw [if_neg hn]; simp only [hn, false_or, not_false_eq_true, true_and]
  · have hR : ¬ RemovesAttr ⟨.add, .overlay ot cc⟩ n := not_removes_add
    simp only [hR, not_false_eq_true, true_and, false_or]
    rcases hc with ⟨-, rfl, -⟩ | ⟨-, -, rfl⟩ | ⟨-, l, -, rfl⟩ | ⟨-, -, rfl⟩
    · unfold OCABox.Flags
      rw [get_boxPut]
      cases b.attributes.get n with
      | none => simp
      | some a =>
        simp only [Option.map_some, Option.some.injEq, exists_eq_left']
        unfold putOne
        split
        · rw [(put_ty E _ cc a _).2]
        · rfl
    · rfl
    · rfl
    · rfl

/-! ### Facts -/

/-- the attribute is there with this fact -/
def OCABox.Holds (b : OCABox) (n : Str) (F : Fact) : Prop := ∃ a, b.attributes.get n = some a ∧ a.Carries F

theorem carries_unique {a : Attribute} {F G : Fact} (hF : a.Carries F) (hG : a.Carries G) (h : F.slot = G.slot) : F = G := by
  have mapCase : ∀ {V : Type} {o : Option (FMap V)} {l : Str} {x y : V}, (∃ m, o = some m ∧ m.get l = some x) →
      (∃ m, o = some m ∧ m.get l = some y) → x = y := by
    rintro V o l x y ⟨m, h1, h2⟩ ⟨m', h3, h4⟩
    rw [h1] at h3; cases h3
    rw [h2] at h4; cases h4; rfl
  cases F <;> cases G <;> simp only [Fact.slot, Prod.mk.injEq, reduceCtorEq, false_and, and_false, Option.some.injEq, true_and] at h
  case condition.condition =>
    obtain ⟨h1, h2⟩ := hF
    obtain ⟨h3, h4⟩ := hG
    rw [h1] at h3; rw [h2] at h4
    cases h3; cases h4; rfl
  all_goals first
    | (subst h; rw [mapCase hF hG]; done)
    | (simp only [Attribute.Carries] at hF hG; rw [hF] at hG; cases hG; rfl)

theorem factOf_slot {E : Env} {k : OvKind} {c : Content} {v : NVal} {G : Fact} (h : factOf E k c v = some G) : G.slot = addressed E k c := by
  cases k
  case entry =>
    simp only [factOf, Option.bind_eq_some_iff, Option.map_eq_some_iff] at h
    obtain ⟨e, he, l, hl, rfl⟩ := h
    simp [Fact.slot, addressed, hl]
  case entryCode =>
    simp only [factOf, Option.map_eq_some_iff] at h
    obtain ⟨e, he, rfl⟩ := h
    rfl
  all_goals
    cases v <;> simp only [factOf, Option.map_eq_some_iff, Option.some.injEq, reduceCtorEq] at h
  case label => obtain ⟨l, hl, rfl⟩ := h; simp [Fact.slot, addressed, hl]
  case information => obtain ⟨l, hl, rfl⟩ := h; simp [Fact.slot, addressed, hl]
  case link => obtain ⟨l, hl, rfl⟩ := h; simp [Fact.slot, addressed, hl]
  case characterEncoding => obtain ⟨l, hl, rfl⟩ := h; rfl
  all_goals subst h; rfl

theorem put_of_none {E : Env} {k : OvKind} {c : Content} {v : NVal} (h : factOf E k c v = none) (hk : k ≠ .attributeFraming) (a : Attribute) :
    a.put E k c v = a := by
  cases k
  case attributeFraming => exact absurd rfl hk
  case entry =>
    simp only [factOf] at h
    simp only [Attribute.put]
    split
    · next e l he hl =>
      rw [he, hl] at h
      cases h
    · rfl
  case entryCode =>
    simp only [factOf, Option.map_eq_none_iff] at h
    simp only [Attribute.put, h]
  all_goals
    cases v <;> simp only [factOf, Option.map_eq_none_iff, reduceCtorEq] at h <;> simp only [Attribute.put]
  all_goals rw [h]

/-- a fact of a kind whose last writer wins -/
def Fact.overwritten : Fact → Bool
  | .unit _ => false
  | .entryCodes _ => false
  | .framing _ _ => false
  | _ => true

theorem put_exact {E : Env} {k : OvKind} {c : Content} {v : NVal} {F : Fact} (hF : F.overwritten = true) (a : Attribute) :
    (a.put E k c v).Carries F ↔ factOf E k c v = some F ∨ ((∀ G, factOf E k c v = some G → G.slot ≠ F.slot) ∧ a.Carries F) := by
  by_cases hk : k = .attributeFraming
  · have : F.slot ≠ addressed E k c := by
      rw [hk]
      intro e
      have := congrArg Prod.fst e
      cases F <;> first | (cases this; done) | (cases hF; done)
    rw [put_other E k c a v F this]
    have hn : factOf E k c v = none := by rw [hk]; cases v <;> rfl
    simp [hn]
  · cases hf : factOf E k c v with
    | none => rw [put_of_none hf hk]; simp
    | some G =>
      have hs := factOf_slot hf
      simp only [Option.some.injEq, forall_eq']
      by_cases hGF : G.slot = F.slot
      · have hu : k ≠ .unit := by
          rintro rfl
          rw [hs] at hGF
          have := congrArg Prod.fst hGF
          cases F <;> first | (cases this; done) | (cases hF; done)
        have he : k ≠ .entryCode := by
          rintro rfl
          rw [hs] at hGF
          have := congrArg Prod.fst hGF
          cases F <;> first | (cases this; done) | (cases hF; done)
        have hc := put_carries E k c a v G hf hu he
        constructor
        · intro h; exact .inl (carries_unique hc h hGF)
        · rintro (rfl | ⟨h, -⟩)
          · exact hc
          · exact absurd hGF h
      · rw [put_other E k c a v F (by rw [← hs]; exact fun e => hGF e.symm)]
        constructor
        · intro h; exact .inr ⟨hGF, h⟩
        · rintro (rfl | ⟨-, h⟩)
          · exact absurd rfl hGF
          · exact h

/-- the command neither removes the attribute nor says anything about it in this slot -/
def Silent (E : Env) (c : Command) (n : Str) (slot : OvKind × Option Str) : Prop := ¬ RemovesAttr c n ∧ ∀ G, Says E c n G → G.slot ≠ slot

theorem setType_carries {o : Option Attribute} {t : NAttr} {F : Fact} : (setType o t).Carries F ↔ ∃ a, o = some a ∧ a.Carries F := by
  cases o with
  | none => cases F <;> simp [setType, Attribute.Carries]
  | some a =>
    simp only [Option.some.injEq, exists_eq_left']
    cases F <;> rfl

theorem holds_add {cc : CaptureContent} {b : OCABox} {n : Str} {F : Fact} : (boxAdd cc b).Holds n F ↔ b.Holds n F := by
  unfold OCABox.Holds
  rw [get_boxAdd]
  cases FMap.lastVal (cc.attributes.getD []) n with
  | none => rfl
  | some t => simp only [Option.some.injEq, exists_eq_left']; exact setType_carries

theorem holds_remove {cc : CaptureContent} {b : OCABox} {n : Str} {F : Fact} :
    (boxRemove cc b).Holds n F ↔ ¬ RemovesAttr ⟨.remove, .captureBase cc⟩ n ∧ b.Holds n F := by
  unfold OCABox.Holds
  rw [get_boxRemove, removesAttr_iff]
  by_cases hn : n ∈ (cc.attributes.getD []).map (·.1)
  · rw [if_pos hn]; simp [hn]
  · rw [if_neg hn]; simp only [hn, not_false_eq_true, true_and]

/-- what an overlay command does to the attributes it names and to the others -/
theorem holds_put {E : Env} {ot : OverlayType} {cc : Content} {b : OCABox} {n : Str} {F : Fact} (hD : (cc.attrs.map (·.1)).Nodup)
    (hs : ∀ p ∈ cc.attrs, (b.attributes.get p.1).isSome = true) :
    ((∀ v, (n, v) ∉ cc.attrs) ∧ ((boxPut E ot.kind cc b).Holds n F ↔ b.Holds n F) ∧ ∀ G, ¬ Says E ⟨.add, .overlay ot cc⟩ n G) ∨
    ∃ v a, (n, v) ∈ cc.attrs ∧ b.attributes.get n = some a ∧ ((boxPut E ot.kind cc b).Holds n F ↔ (a.put E ot.kind cc v).Carries F) ∧
      ∀ G, Says E ⟨.add, .overlay ot cc⟩ n G ↔ factOf E ot.kind cc v = some G := by
  unfold OCABox.Holds
  rw [get_boxPut]
  by_cases hn : ∃ v, (n, v) ∈ cc.attrs
  · obtain ⟨v, hv⟩ := hn
    right
    obtain ⟨a, ha⟩ := Option.isSome_iff_exists.1 (hs _ hv)
    refine ⟨v, a, hv, ha, ?_, ?_⟩
    · dsimp only at ha
      rw [ha]
      simp only [Option.map_some, Option.some.injEq, exists_eq_left', putOne, imGet_of_mem hD hv]
    · intro G
      rw [says_iff]
      constructor
      · rintro ⟨w, hw, hf⟩
        have h1 := imGet_of_mem hD hv
        have h2 := imGet_of_mem hD hw
        rw [h1] at h2; cases h2
        exact hf
      · intro hf; exact ⟨v, hv, hf⟩
  · left
    have hn' : ∀ v, (n, v) ∉ cc.attrs := fun v hv => hn ⟨v, hv⟩
    refine ⟨hn', ?_, ?_⟩
    · have : imGet n cc.attrs = none := by
        cases hi : imGet n cc.attrs with
        | none => rfl
        | some v => exact absurd (imGet_mem hi) (hn' v)
      cases b.attributes.get n with
      | none => simp
      | some a => simp only [Option.map_some, Option.some.injEq, exists_eq_left', putOne, this]
    · intro G hG
      obtain ⟨v, hv, -⟩ := says_iff.1 hG
      exact hn' v hv

/-- facts whose last writer wins -/
theorem holds_step {E : Env} {b b' : OCABox} {c : Command} (hD : c.Distinct) (h : applyCommand E (some b) c = .ok b') (n : Str) {F : Fact}
    (hF : F.overwritten = true) : b'.Holds n F ↔ Says E c n F ∨ (Silent E c n F.slot ∧ b.Holds n F) := by
  rcases accepted_cases hD h with ⟨cc, rfl, rfl⟩ | ⟨cc, rfl, rfl⟩ | ⟨ot, cc, rfl, hc⟩
  · rw [holds_add]
    simp [Silent, not_says_base, not_removes_add]
  · rw [holds_remove]
    simp [Silent, not_says_base]
  · have hR : ¬ RemovesAttr ⟨.add, .overlay ot cc⟩ n := not_removes_add
    have quiet : (∀ G, ¬ Says E ⟨.add, .overlay ot cc⟩ n G) → b' = b →
        (b'.Holds n F ↔ Says E ⟨.add, .overlay ot cc⟩ n F ∨ (Silent E ⟨.add, .overlay ot cc⟩ n F.slot ∧ b.Holds n F)) := by
      intro hq e
      rw [e]
      simp [Silent, hq, hR]
    rcases hc with ⟨hk, rfl, hs⟩ | ⟨hk, -, e⟩ | ⟨hk, l, -, rfl⟩ | ⟨hk, hm, e⟩
    · rcases holds_put (E := E) (ot := ot) (F := F) (n := n) hD.1 (fun p hp => (hs p hp).1) with ⟨-, h1, h2⟩ | ⟨v, a, -, h2, h3, h4⟩
      · rw [h1]
        simp [Silent, h2, hR]
      · rw [h3, put_exact hF]
        unfold Silent OCABox.Holds
        simp only [h4, h2, hR, not_false_eq_true, true_and, Option.some.injEq, exists_eq_left']
    · refine quiet ?_ e
      intro G hG
      obtain ⟨v, -, hf⟩ := says_iff.1 hG
      rw [hk] at hf; cases v <;> cases hf
    · have : ∀ G, ¬ Says E ⟨.add, .overlay ot cc⟩ n G := by
        intro G hG
        obtain ⟨v, -, hf⟩ := says_iff.1 hG
        rw [hk] at hf; cases v <;> cases hf
      show b.Holds n F ↔ _
      simp [Silent, this, hR]
    · refine quiet ?_ e
      intro G hG
      obtain ⟨v, -, hf⟩ := says_iff.1 hG
      generalize ot.kind = k at *
      cases k <;> first | (cases hk; done) | exact absurd rfl hm | (cases v <;> cases hf; done)

/-! ### Units and entry codes: the first writer wins -/

/-- a fact of a kind whose first writer wins -/
def Fact.first : Fact → Bool
  | .unit _ => true
  | .entryCodes _ => true
  | _ => false

theorem put_first {E : Env} {k : OvKind} {c : Content} {v : NVal} {F : Fact} (hF : F.first = true) (a : Attribute) :
    (a.put E k c v).Carries F ↔ (factOf E k c v = some F ∧ ∀ G, G.slot = F.slot → ¬ a.Carries G) ∨ a.Carries F := by
  by_cases hs : F.slot = addressed E k c
  · cases F with
    | unit s =>
      have hk : k = .unit := by
        cases k <;> simp only [Fact.slot, addressed, Prod.mk.injEq, reduceCtorEq, false_and] at hs
        rfl
      subst hk
      have lacks : (∀ G : Fact, G.slot = (Fact.unit s).slot → ¬ a.Carries G) ↔ a.unit = none := by
        constructor
        · intro h
          cases hu : a.unit with
          | none => rfl
          | some u => exact absurd hu (h (.unit u) rfl)
        · intro hu G hG
          cases G <;> cases hG
          simp only [Attribute.Carries, hu]; simp
      rw [lacks]
      cases v <;> simp only [Attribute.put, factOf, Attribute.Carries, Option.some.injEq, Fact.unit.injEq, reduceCtorEq, false_and, false_or]
      cases a.unit <;> simp
    | entryCodes e =>
      have hk : k = .entryCode := by
        cases k <;> simp only [Fact.slot, addressed, Prod.mk.injEq, reduceCtorEq, false_and] at hs
        rfl
      subst hk
      have lacks : (∀ G : Fact, G.slot = (Fact.entryCodes e).slot → ¬ a.Carries G) ↔ a.entryCodes = none := by
        constructor
        · intro h
          cases hu : a.entryCodes with
          | none => rfl
          | some u => exact absurd hu (h (.entryCodes u) rfl)
        · intro hu G hG
          cases G <;> cases hG
          simp only [Attribute.Carries, hu]; simp
      rw [lacks]
      simp only [Attribute.put, factOf, Attribute.Carries]
      cases entryCodesOf v with
      | none => simp
      | some e' => cases a.entryCodes <;> simp
    | _ => cases hF
  · rw [put_other E k c a v F hs]
    constructor
    · exact .inr
    · rintro (⟨h, -⟩ | h)
      · exact absurd (factOf_slot h) hs
      · exact h

/-- nothing is said of the attribute in this slot, or there is no such attribute -/
def OCABox.Lacks (b : OCABox) (n : Str) (slot : OvKind × Option Str) : Prop := ∀ G : Fact, G.slot = slot → ¬ b.Holds n G

theorem overlay_quiet {E : Env} {ot : OverlayType} {cc : Content} (h : ot.kind = .metaOv ∨ loopKind ot.kind = false) {n : Str} {G : Fact} :
    ¬ Says E ⟨.add, .overlay ot cc⟩ n G := by
  intro hG
  obtain ⟨v, -, hf⟩ := says_iff.1 hG
  generalize ot.kind = k at *
  cases k <;> first | (simp [loopKind] at h; done) | (cases v <;> cases hf; done)

theorem first_step {E : Env} {b b' : OCABox} {c : Command} (hD : c.Distinct) (h : applyCommand E (some b) c = .ok b') (n : Str) {F : Fact}
    (hF : F.first = true) : b'.Holds n F ↔ (Says E c n F ∧ b.Lacks n F.slot) ∨ (¬ RemovesAttr c n ∧ b.Holds n F) := by
  rcases accepted_cases hD h with ⟨cc, rfl, rfl⟩ | ⟨cc, rfl, rfl⟩ | ⟨ot, cc, rfl, hc⟩
  · rw [holds_add]
    simp [not_says_base, not_removes_add]
  · rw [holds_remove]
    simp [not_says_base]
  · have hR : ¬ RemovesAttr ⟨.add, .overlay ot cc⟩ n := not_removes_add
    rcases hc with ⟨hk, rfl, hs⟩ | ⟨hk, -, rfl⟩ | ⟨hk, l, -, rfl⟩ | ⟨hk, hm, rfl⟩
    · rcases holds_put (E := E) (ot := ot) (F := F) (n := n) hD.1 (fun p hp => (hs p hp).1) with ⟨-, h1, h2⟩ | ⟨v, a, -, h2, h3, h4⟩
      · rw [h1]
        simp [h2, hR]
      · rw [h3, put_first hF]
        unfold OCABox.Lacks OCABox.Holds
        simp only [h4, h2, hR, not_false_eq_true, true_and, Option.some.injEq, exists_eq_left']
    · simp [overlay_quiet (.inl hk), hR]
    · show b.Holds n F ↔ _
      simp [overlay_quiet (.inl hk), hR]
    · simp [overlay_quiet (.inr hk), hR]

/-- the command says nothing about the attribute in this slot -/
def Mute (E : Env) (c : Command) (n : Str) (slot : OvKind × Option Str) : Prop := ∀ G, Says E c n G → G.slot ≠ slot

theorem lacks_step {E : Env} {b b' : OCABox} {c : Command} (hD : c.Distinct) (h : applyCommand E (some b) c = .ok b') (n : Str) {k : OvKind}
    (hk : k = .unit ∨ k = .entryCode) : b'.Lacks n (k, none) ↔ RemovesAttr c n ∨ (Mute E c n (k, none) ∧ b.Lacks n (k, none)) := by
  have hfirst : ∀ G : Fact, G.slot = (k, none) → G.first = true := by
    intro G hG
    rcases hk with rfl | rfl <;> cases G <;> first | rfl | (cases hG; done)
  have hst : ∀ G : Fact, G.slot = (k, none) → (b'.Holds n G ↔ (Says E c n G ∧ b.Lacks n (k, none)) ∨ (¬ RemovesAttr c n ∧ b.Holds n G)) := by
    intro G hG
    have := first_step hD h n (hfirst G hG)
    rw [hG] at this
    exact this
  by_cases hR : RemovesAttr c n
  · have hno : ∀ G, ¬ Says E c n G := by
      rintro G ⟨h1, -⟩
      rw [hR.1] at h1; cases h1
    simp only [hR, true_or, iff_true]
    intro G hG hH
    rcases (hst G hG).1 hH with ⟨h1, -⟩ | ⟨h1, -⟩
    · exact hno G h1
    · exact h1 hR
  · simp only [hR, false_or]
    constructor
    · intro hl
      have hb : b.Lacks n (k, none) := fun G hG hH => hl G hG ((hst G hG).2 (.inr ⟨hR, hH⟩))
      refine ⟨?_, hb⟩
      intro G hG e
      exact hl G e ((hst G e).2 (.inl ⟨hG, hb⟩))
    · rintro ⟨h1, h2⟩ G hG hH
      rcases (hst G hG).1 hH with ⟨h3, -⟩ | ⟨-, h3⟩
      · exact h1 G h3 hG
      · exact h2 G hG h3

/-! ### Frames: scope by scope -/

/-- the attribute has this scope in this frame -/
def OCABox.HoldsScope (b : OCABox) (n id sc : Str) (v : Scope) : Prop := ∃ fr, b.Holds n (.framing id fr) ∧ fr.get sc = some v

theorem saysScope_iff {ot : OverlayType} {cc : Content} {n id sc : Str} {v : Scope} :
    SaysScope ⟨.add, .overlay ot cc⟩ n id sc v ↔ ot.kind = .attributeFraming ∧ cc.frameId = some id ∧
      ∃ fr, (n, .obj fr) ∈ cc.attrs ∧ (framingOf cc.frameMeta fr).get sc = some v := by
  constructor
  · rintro ⟨-, _, _, l, fr, e, h1, h2, h3, h4, h5⟩
    cases e
    exact ⟨h1, h2, fr, mem_getD.2 ⟨l, h3, h4⟩, h5⟩
  · rintro ⟨h1, h2, fr, h4, h5⟩
    obtain ⟨l, h3, h4⟩ := mem_getD.1 h4
    exact ⟨rfl, ot, cc, l, fr, rfl, h1, h2, h3, h4, h5⟩

theorem scope_step {E : Env} {b b' : OCABox} {c : Command} (hD : c.Distinct) (h : applyCommand E (some b) c = .ok b') (n id sc : Str) (v : Scope) :
    b'.HoldsScope n id sc v ↔ SaysScope c n id sc v ∨ ((¬ RemovesAttr c n ∧ ∀ w, ¬ SaysScope c n id sc w) ∧ b.HoldsScope n id sc v) := by
  rcases accepted_cases hD h with ⟨cc, rfl, rfl⟩ | ⟨cc, rfl, rfl⟩ | ⟨ot, cc, rfl, hc⟩
  · have hno : ∀ w, ¬ SaysScope ⟨.add, .captureBase cc⟩ n id sc w := by rintro w ⟨-, _, _, _, _, e, -⟩; cases e
    unfold OCABox.HoldsScope
    simp only [holds_add, hno, not_removes_add, not_false_eq_true, false_or, implies_true, and_self, true_and]
  · have hno : ∀ w, ¬ SaysScope ⟨.remove, .captureBase cc⟩ n id sc w := by rintro w ⟨e, -⟩; cases e
    unfold OCABox.HoldsScope
    simp only [holds_remove, hno, not_false_eq_true, false_or, implies_true, and_true]
    constructor
    · rintro ⟨fr, ⟨h1, h2⟩, h3⟩; exact ⟨h1, fr, h2, h3⟩
    · rintro ⟨h1, fr, h2, h3⟩; exact ⟨fr, ⟨h1, h2⟩, h3⟩
  · have hR : ¬ RemovesAttr ⟨.add, .overlay ot cc⟩ n := not_removes_add
    have quiet : ot.kind ≠ .attributeFraming → ∀ w, ¬ SaysScope ⟨.add, .overlay ot cc⟩ n id sc w := by
      intro hne w hw
      exact hne (saysScope_iff.1 hw).1
    have same : (∀ w, ¬ SaysScope ⟨.add, .overlay ot cc⟩ n id sc w) → (∀ fr, b'.Holds n (.framing id fr) ↔ b.Holds n (.framing id fr)) →
        (b'.HoldsScope n id sc v ↔ SaysScope ⟨.add, .overlay ot cc⟩ n id sc v ∨
          ((¬ RemovesAttr ⟨.add, .overlay ot cc⟩ n ∧ ∀ w, ¬ SaysScope ⟨.add, .overlay ot cc⟩ n id sc w) ∧ b.HoldsScope n id sc v)) := by
      intro h1 h2
      unfold OCABox.HoldsScope
      simp only [h1, h2, hR, not_false_eq_true, false_or, implies_true, and_self, true_and]
    rcases hc with ⟨hk, rfl, hs⟩ | ⟨hk, -, rfl⟩ | ⟨hk, l, -, rfl⟩ | ⟨hk, hm, rfl⟩
    · by_cases hfr : ot.kind = .attributeFraming
      · by_cases hid : cc.frameId = some id
        · by_cases hn : ∃ w, (n, w) ∈ cc.attrs
          · obtain ⟨w, hw⟩ := hn
            have hi := imGet_of_mem hD.1 hw
            obtain ⟨a, ha⟩ := Option.isSome_iff_exists.1 (hs _ hw).1
            dsimp only at ha
            have hget : (boxPut E ot.kind cc b).attributes.get n = some (a.put E ot.kind cc w) := by
              rw [get_boxPut, ha]
              simp only [Option.map_some, putOne]
              rw [show imGet n cc.attrs = some w from hi]
            have hok := (hs _ hw).2
            cases w with
            | obj fr0 =>
              have e1 : (boxPut E ot.kind cc b).HoldsScope n id sc v ↔
                  ((framingOf cc.frameMeta fr0).get sc).or ((((optGet a.framings id).getD FMap.empty)).get sc) = some v := by
                unfold OCABox.HoldsScope OCABox.Holds
                simp only [hget, Option.some.injEq, exists_eq_left']
                rw [hfr]
                simp only [Attribute.put, hid, Attribute.Carries, Option.some.injEq, exists_eq_left', FMap.get_insert, if_true]
                rw [FMap.get_insertAll_map]
              have e2 : ∀ w, SaysScope ⟨.add, .overlay ot cc⟩ n id sc w ↔ (framingOf cc.frameMeta fr0).get sc = some w := by
                intro w
                rw [saysScope_iff]
                constructor
                · rintro ⟨-, -, fr, h1, h2⟩
                  have := imGet_of_mem hD.1 h1
                  rw [hi] at this; cases this
                  exact h2
                · intro h2; exact ⟨hfr, hid, fr0, hw, h2⟩
              have e3 : b.HoldsScope n id sc v ↔ ((optGet a.framings id).getD FMap.empty).get sc = some v := by
                unfold OCABox.HoldsScope OCABox.Holds
                simp only [ha, Option.some.injEq, exists_eq_left', Attribute.Carries]
                constructor
                · rintro ⟨fr, ⟨m, h1, h2⟩, h3⟩
                  simp [optGet, h1, h2, h3]
                · intro h1
                  cases ho : optGet a.framings id with
                  | none => rw [ho] at h1; simp at h1
                  | some fr =>
                    rw [ho] at h1
                    exact ⟨fr, optGet_eq_some.1 ho, h1⟩
              rw [e1, e3]
              simp only [e2, hR, not_false_eq_true, true_and]
              cases (framingOf cc.frameMeta fr0).get sc with
              | none => simp
              | some x => simp
            | _ => 
              refine same ?_ ?_
              · intro w hw'
                obtain ⟨-, -, fr, h1, -⟩ := saysScope_iff.1 hw'
                have := imGet_of_mem hD.1 h1
                rw [hi] at this; cases this
              · intro fr
                unfold OCABox.Holds
                rw [hget, ha, hfr]
                rfl
          · refine same ?_ ?_
            · intro w hw'
              obtain ⟨-, -, fr, h1, -⟩ := saysScope_iff.1 hw'
              exact hn ⟨_, h1⟩
            · intro fr
              rcases holds_put (E := E) (ot := ot) (F := .framing id fr) (n := n) hD.1 (fun p hp => (hs p hp).1) with ⟨-, h1, -⟩ | ⟨w, -, h1, -⟩
              · exact h1
              · exact absurd ⟨w, h1⟩ hn
        · refine same ?_ ?_
          · intro w hw'
            exact hid (saysScope_iff.1 hw').2.1
          · intro fr
            rcases holds_put (E := E) (ot := ot) (F := .framing id fr) (n := n) hD.1 (fun p hp => (hs p hp).1) with ⟨-, h1, -⟩ | ⟨w, a, -, h2, h3, -⟩
            · exact h1
            · rw [h3, put_other]
              · unfold OCABox.Holds
                simp only [h2, Option.some.injEq, exists_eq_left']
              · rw [hfr]
                simp only [Fact.slot, addressed, ne_eq, Prod.mk.injEq, true_and]
                exact fun e => hid e.symm
      · refine same (quiet hfr) ?_
        intro fr
        rcases holds_put (E := E) (ot := ot) (F := .framing id fr) (n := n) hD.1 (fun p hp => (hs p hp).1) with ⟨-, h1, -⟩ | ⟨w, a, -, h2, h3, -⟩
        · exact h1
        · rw [h3, put_other]
          · unfold OCABox.Holds
            simp only [h2, Option.some.injEq, exists_eq_left']
          · intro e
            have := congrArg Prod.fst e
            have h5 : (addressed E ot.kind cc).1 = ot.kind := by cases ot.kind <;> rfl
            rw [h5] at this
            exact hfr this.symm
    · exact same (quiet (by rw [hk]; decide)) (fun _ => Iff.rfl)
    · exact same (quiet (by rw [hk]; decide)) (fun _ => Iff.rfl)
    · refine same (quiet ?_) (fun _ => Iff.rfl)
      intro e; rw [e] at hk; cases hk

/-! ### Meta -/

/-- the meta of the language has this pair -/
def OCABox.HasMeta (b : OCABox) (l : Lang) (k v : Str) : Prop := (b.metaMap.bind (·.get l)).bind (·.get k) = some v

theorem mem_metaPairs {cc : Content} {k v : Str} : (k, v) ∈ cc.metaPairs ↔ (k, NVal.val v) ∈ cc.properties.getD [] ∧ k ≠ c!"lang" := by
  unfold Content.metaPairs textPairs imDrop
  rw [List.mem_filterMap]
  constructor
  · rintro ⟨⟨k', w⟩, h1, h2⟩
    rw [List.mem_filter] at h1
    cases w <;> cases h2
    exact ⟨h1.1, by simpa using h1.2⟩
  · rintro ⟨h1, h2⟩
    exact ⟨(k, .val v), List.mem_filter.2 ⟨h1, by simpa using h2⟩, rfl⟩

theorem metaPairs_nodup {cc : Content} (h : ((cc.properties.getD []).map (·.1)).Nodup) : (cc.metaPairs.map (·.1)).Nodup := by
  have key : ∀ l : List (Str × NVal), (l.map (·.1)).Nodup → ((textPairs l).map (·.1)).Nodup := by
    intro l hl
    refine hl.sublist ?_
    clear hl
    induction l with
    | nil => exact .slnil
    | cons p t ih =>
      obtain ⟨k, w⟩ := p
      unfold textPairs at *
      cases w with
      | val s => exact ih.cons₂ _
      | _ => exact ih.cons _
  exact key _ (h.sublist (List.filter_sublist.map _))

theorem meta_step {E : Env} {b b' : OCABox} {c : Command} (hD : c.Distinct) (h : applyCommand E (some b) c = .ok b') (l : Lang) (k v : Str) :
    b'.HasMeta l k v ↔ SaysMeta E c l k v ∨ ((∀ w, ¬ SaysMeta E c l k w) ∧ b.HasMeta l k v) := by
  have same : (∀ w, ¬ SaysMeta E c l k w) → b'.metaMap.bind (·.get l) = b.metaMap.bind (·.get l) →
      (b'.HasMeta l k v ↔ SaysMeta E c l k v ∨ ((∀ w, ¬ SaysMeta E c l k w) ∧ b.HasMeta l k v)) := by
    intro h1 h2
    unfold OCABox.HasMeta
    simp only [h1, h2, not_false_eq_true, false_or, implies_true, true_and]
  have hc := accepted_cases hD h
  rcases hc with ⟨cc, rfl, rfl⟩ | ⟨cc, rfl, rfl⟩ | ⟨ot, cc, rfl, hc⟩
  · refine same (by rintro w ⟨-, _, _, _, e, -⟩; cases e) ?_
    rw [(boxAdd_rest cc b).2.1]
  · exact same (by rintro w ⟨-, _, _, _, e, -⟩; cases e) rfl
  · by_cases hm : ot.kind = .metaOv
    · cases hl : cc.lang E with
      | none =>
        refine same (by rintro w ⟨-, _, _, _, e, -, h1, -⟩; cases e; rw [hl] at h1; cases h1) ?_
        rcases hc with ⟨hk, -⟩ | ⟨-, -, rfl⟩ | ⟨-, l', h1, -⟩ | ⟨-, h1, -⟩
        · rw [hm] at hk; cases hk
        · rfl
        · rw [hl] at h1; cases h1
        · exact absurd hm h1
      | some l' =>
        obtain ⟨h1, h2, -⟩ := C24_add_meta E b b' ot hm cc l' hl h
        by_cases hll : l = l'
        · subst hll
          have hs : ∀ w, SaysMeta E ⟨.add, .overlay ot cc⟩ l k w ↔ FMap.lastVal cc.metaPairs k = some w := by
            intro w
            rw [lastVal_nodup (metaPairs_nodup hD.2), mem_metaPairs]
            constructor
            · rintro ⟨-, _, _, ps, e, -, -, h3, h4, h5⟩
              cases e
              exact ⟨mem_getD.2 ⟨ps, h3, h4⟩, h5⟩
            · rintro ⟨h4, h5⟩
              obtain ⟨ps, h3, h4⟩ := mem_getD.1 h4
              exact ⟨rfl, ot, cc, ps, rfl, hm, hl, h3, h4, h5⟩
          unfold OCABox.HasMeta
          rw [h1 k]
          simp only [hs]
          cases FMap.lastVal cc.metaPairs k with
          | none => simp
          | some x => simp
        · refine same ?_ (h2 l hll)
          rintro w ⟨-, _, _, _, e, -, h3, -⟩
          cases e
          rw [hl] at h3
          exact hll (Option.some.inj h3).symm
    · refine same (by rintro w ⟨-, _, _, _, e, h1, -⟩; cases e; exact hm h1) ?_
      rcases hc with ⟨hk, rfl, -⟩ | ⟨h1, -⟩ | ⟨h1, -⟩ | ⟨-, -, rfl⟩
      · rfl
      · exact absurd h1 hm
      · exact absurd h1 hm
      · rfl

end OCA
