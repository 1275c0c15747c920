import Verif.Props.Extended
import Verif.Lemmas.Plain
/-!
# C69: building with the calls of the library
-/
namespace OCA

/-! ## Setters -/

theorem putIn_get {V : Type} {o : Option (FMap V)} {k k' : Str} {v w : V} :
    (∃ m, putIn o k v = some m ∧ m.get k' = some w) ↔ (k' = k ∧ w = v) ∨ ((∃ m, o = some m ∧ m.get k' = some w) ∧ k' ≠ k) := by
  rw [putIn_eq]
  simp only [Option.some.injEq, exists_eq_left', FMap.get_insert]
  by_cases e : k' = k
  · simp [e, eq_comm]
  · cases o <;> simp [e]

/-- **C69** What each setter does to an attribute: it carries what was set and nothing else in its place (same kind, and same language, target or frame), and
everything it carried in other places; the scopes of a frame are added to those that were there. The type is the one last set, a flag stays. -/
theorem C69_setters (a : Attribute) :
    (∀ t, (a.setTy t).ty = some t ∧ (a.setTy t).flagged = a.flagged ∧ ∀ F, (a.setTy t).Carries F ↔ a.Carries F) ∧
    (a.setFlagged.flagged = true ∧ a.setFlagged.ty = a.ty ∧ ∀ F, a.setFlagged.Carries F ↔ a.Carries F) ∧
    (∀ l s F, (a.setLabel l s).Carries F ↔ F = .label l s ∨ (a.Carries F ∧ F.slot ≠ (.label, some l))) ∧
    (∀ l s F, (a.setInformation l s).Carries F ↔ F = .information l s ∨ (a.Carries F ∧ F.slot ≠ (.information, some l))) ∧
    (∀ l e F, (a.setEntry l e).Carries F ↔ F = .entry l e ∨ (a.Carries F ∧ F.slot ≠ (.entry, some l))) ∧
    (∀ t s F, (a.setLink t s).Carries F ↔ F = .link t s ∨ (a.Carries F ∧ F.slot ≠ (.link, some t))) ∧
    (∀ e F, (a.setEntryCodes e).Carries F ↔ F = .entryCodes e ∨ (a.Carries F ∧ F.slot ≠ (.entryCode, none))) ∧
    (∀ e F, (a.setEncoding e).Carries F ↔ F = .encoding e ∨ (a.Carries F ∧ F.slot ≠ (.characterEncoding, none))) ∧
    (∀ s F, (a.setFormat s).Carries F ↔ F = .format s ∨ (a.Carries F ∧ F.slot ≠ (.format, none))) ∧
    (∀ s F, (a.setUnit s).Carries F ↔ F = .unit s ∨ (a.Carries F ∧ F.slot ≠ (.unit, none))) ∧
    (∀ s F, (a.setConformance s).Carries F ↔ F = .conformance s ∨ (a.Carries F ∧ F.slot ≠ (.conformance, none))) ∧
    (∀ s F, (a.setCardinality s).Carries F ↔ F = .cardinality s ∨ (a.Carries F ∧ F.slot ≠ (.cardinality, none))) ∧
    (∀ s F, (a.setCond s).Carries F ↔ F = .condition (setCondition s).1 (setCondition s).2 ∨ (a.Carries F ∧ F.slot ≠ (.conditional, none))) ∧
    (∀ id f F, (a.setFraming id f).Carries F ↔
      (∃ g, F = .framing id g ∧ ∀ sc, g.get sc = (f.get sc).or (((a.framings.bind (·.get id)).getD FMap.empty).get sc)) ∨
      (a.Carries F ∧ F.slot ≠ (.attributeFraming, some id))) := by
  refine ⟨fun t => ⟨rfl, rfl, fun F => by cases F <;> exact Iff.rfl⟩, ⟨rfl, rfl, fun F => by cases F <;> exact Iff.rfl⟩, ?_, ?_, ?_, ?_, ?_, ?_, ?_, ?_, ?_, ?_, ?_, ?_⟩
  case refine_1 | refine_2 | refine_3 | refine_4 =>
    intro l s F
    cases F <;> simp [Attribute.Carries, Fact.slot, Attribute.setLabel, Attribute.setInformation, Attribute.setEntry, Attribute.setLink, putIn_get]
  case refine_12 =>
    intro id f F
    rw [setFraming_eq]
    cases F with
    | framing i g =>
      simp only [Attribute.Carries, Fact.slot, Option.some.injEq, exists_eq_left', FMap.get_insert, Fact.framing.injEq, ne_eq, Prod.mk.injEq, true_and]
      by_cases e : i = id
      · subst e
        simp only [if_true, not_true_eq_false, and_false, or_false, Option.some.injEq]
        constructor
        · rintro rfl
          exact ⟨_, ⟨trivial, rfl⟩, fun sc => FMap.get_insertAll_map ..⟩
        · rintro ⟨g', ⟨-, rfl⟩, h⟩
          exact FMap.ext fun sc => by rw [FMap.get_insertAll_map, h]; rfl
      · simp only [if_neg e, not_false_eq_true, and_true]
        cases a.framings <;> simp [e]
    | _ => simp [Attribute.Carries, Fact.slot]
  all_goals
    intro s F
    cases F <;> simp [Attribute.Carries, Fact.slot, Attribute.setEntryCodes, Attribute.setEncoding, Attribute.setFormat, Attribute.setUnit, Attribute.setConformance,
      Attribute.setCardinality, Attribute.setCond, eq_comm]

/-! ## Adding to an attribute that is there -/

/-- Units and entry codes: what is there stays. -/
def Fact.keepsOld : Fact → Bool
  | .unit _ | .entryCodes _ => true
  | _ => false

/-- What is given takes the place of this: the same kind, for links and framings (all links, all frames are replaced together), and else the same kind
and the same language. -/
def Fact.Replaces (G F : Fact) : Prop :=
  match F with
  | .link _ _ | .framing _ _ => G.slot.1 = F.slot.1
  | _ => G.slot = F.slot

/-- What an attribute says after what `New` says is added to one that says `Old`. -/
def Joined (Old New : Fact → Prop) (F : Fact) : Prop :=
  if F.keepsOld then Old F ∨ (New F ∧ ∀ G, Old G → G.slot ≠ F.slot) else New F ∨ (Old F ∧ ∀ G, New G → ¬ G.Replaces F)

theorem optGet_mergeMaps {V : Type} (o o' : Option (FMap V)) (k : Str) : optGet (mergeMaps o o') k = (optGet o' k).or (optGet o k) := by
  cases o with
  | none => simp [mergeMaps, optGet]
  | some m =>
    cases o' with
    | none => simp [mergeMaps, optGet]
    | some m' =>
      simp only [mergeMaps, optGet]
      show (m.insertAll m'.l).get k = _
      rw [FMap.get_insertAll_map]; rfl

/-- A condition comes with its dependencies. -/
def Attribute.Paired (a : Attribute) : Prop := a.condition.isSome = a.dependencies.isSome

theorem AttrWF.paired {a : Attribute} (h : AttrWF a) : a.Paired := by
  rcases h.cond with ⟨h1, h2⟩ | ⟨s, h1, h2⟩ <;> simp [Attribute.Paired, h1, h2]

theorem Attribute.Made.paired {a : Attribute} (h : a.Made) : a.Paired := by
  have := (h.wf .null).paired
  exact this

theorem fmap_some_get {V : Type} {m : FMap V} (h : m ≠ FMap.empty) : ∃ k v, m.get k = some v := by
  apply Classical.byContradiction
  intro hc
  refine h (FMap.ext fun k => ?_)
  cases e : m.get k with
  | none => simp
  | some v => exact absurd ⟨k, v, e⟩ hc

theorem merge_carries {a a' : Attribute} (hp : AttrPlain a') (hc : a.Paired) (hc' : a'.Paired) (F : Fact) :
    (a.merge a').Carries F ↔ Joined a.Carries a'.Carries F := by
  have maps : ∀ {V : Type} (o o' : Option (FMap V)) (k : Str) (v : V),
      (∃ m, mergeMaps o o' = some m ∧ m.get k = some v) ↔ optGet o' k = some v ∨ (optGet o k = some v ∧ optGet o' k = none) := by
    intro V o o' k v
    rw [← optGet_eq_some, optGet_mergeMaps]
    cases optGet o' k <;> simp
  have over : ∀ {α : Type} (o o' : Option α) (v : α), overwrite o o' = some v ↔ o' = some v ∨ (o = some v ∧ o' = none) := by
    intro α o o' v; cases o' <;> simp [overwrite]
  have keep : ∀ {α : Type} (o o' : Option α) (v : α), keepFirst o o' = some v ↔ o = some v ∨ (o' = some v ∧ o = none) := by
    intro α o o' v; cases o <;> simp [keepFirst]
  have whole : ∀ {V : Type} (o o' : Option (FMap V)) (k : Str) (v : V), o' ≠ some FMap.empty →
      ((∃ m, overwrite o o' = some m ∧ m.get k = some v) ↔ optGet o' k = some v ∨ (optGet o k = some v ∧ ∀ k' v', optGet o' k' ≠ some v')) := by
    intro V o o' k v hne
    cases o' with
    | none => simp [overwrite, ← optGet_eq_some, optGet]
    | some m =>
      obtain ⟨k', v', e⟩ := fmap_some_get (m := m) (fun e => hne (by rw [e]))
      simp only [overwrite, Option.some.injEq, exists_eq_left', optGet, Option.bind_some]
      constructor
      · intro h; exact .inl h
      · rintro (h | ⟨-, h⟩)
        · exact h
        · exact absurd e (h k' v')
  have none_of : ∀ {α : Type} (o : Option α), (∀ v, o ≠ some v) ↔ o = none := by
    intro α o; cases o <;> simp
  cases F with
  | condition c ds =>
    simp only [Joined, Fact.keepsOld, Fact.Replaces, Attribute.Carries, Attribute.merge, Bool.false_eq_true, if_false]
    have free : (∀ G, a'.Carries G → ¬ G.slot = (Fact.condition c ds).slot) ↔ a'.condition = none := by
      rw [← none_of]
      constructor
      · intro h v e
        obtain ⟨d, hd⟩ := Option.isSome_iff_exists.1 (hc' ▸ (by rw [e]; rfl : a'.condition.isSome = true))
        exact h (.condition v d) ⟨e, hd⟩ rfl
      · intro h G hG e
        cases G <;> simp_all [Fact.slot, Attribute.Carries]
    refine Iff.trans ?_ (or_congr Iff.rfl (and_congr Iff.rfl free.symm))
    unfold Attribute.Paired at hc'
    cases e : a'.condition with
    | none => rw [e] at hc'; simp [overwrite, mergeDeps]
    | some v =>
      rw [e] at hc'
      obtain ⟨d, hd⟩ := Option.isSome_iff_exists.1 hc'.symm
      simp [overwrite, mergeDeps, hd]
  | encoding | format | conformance | cardinality =>
    simp only [Joined, Fact.keepsOld, Fact.Replaces, Attribute.Carries, Attribute.merge, over, Bool.false_eq_true, if_false]
    refine or_congr Iff.rfl (and_congr Iff.rfl ?_)
    rw [← none_of]
    constructor
    · intro h G hG e
      cases G <;> simp_all [Fact.slot, Attribute.Carries]
    · intro h v e
      first
        | exact h (.encoding v) e rfl
        | exact h (.format v) e rfl
        | exact h (.conformance v) e rfl
        | exact h (.cardinality v) e rfl
  | unit | entryCodes =>
    simp only [Joined, Fact.keepsOld, Attribute.Carries, Attribute.merge, keep, if_true]
    refine or_congr Iff.rfl (and_congr Iff.rfl ?_)
    rw [← none_of]
    constructor
    · intro h G hG e
      cases G <;> simp_all [Fact.slot, Attribute.Carries]
    · intro h v e
      first
        | exact h (.unit v) e rfl
        | exact h (.entryCodes v) e rfl
  | entry l | label l | information l =>
    simp only [Joined, Fact.keepsOld, Fact.Replaces, Attribute.Carries, Attribute.merge, maps, Bool.false_eq_true, if_false, ← optGet_eq_some]
    refine or_congr Iff.rfl (and_congr Iff.rfl ?_)
    rw [← none_of]
    constructor
    · intro h G hG e
      cases G <;> simp_all [Fact.slot, Attribute.Carries, ← optGet_eq_some]
    · intro h v e
      first
        | exact h (.entry l v) (optGet_eq_some.1 e) rfl
        | exact h (.entry l v) e rfl
        | exact h (.label l v) (optGet_eq_some.1 e) rfl
        | exact h (.label l v) e rfl
        | exact h (.information l v) (optGet_eq_some.1 e) rfl
        | exact h (.information l v) e rfl
  | link i v =>
    have free : (∀ G, a'.Carries G → ¬ G.slot.1 = (Fact.link i v).slot.1) ↔ ∀ k' v', optGet a'.links k' ≠ some v' := by
      constructor
      · intro h k v e
        exact h (.link k v) (optGet_eq_some.1 e) rfl
      · intro h G hG e
        cases G with
        | link i' v' => exact h i' v' (optGet_eq_some.2 hG)
        | _ => cases e
    refine Iff.trans (whole _ _ i v hp.links) ?_
    exact or_congr optGet_eq_some (and_congr optGet_eq_some free.symm)
  | framing i v =>
    have free : (∀ G, a'.Carries G → ¬ G.slot.1 = (Fact.framing i v).slot.1) ↔ ∀ k' v', optGet a'.framings k' ≠ some v' := by
      constructor
      · intro h k v e
        exact h (.framing k v) (optGet_eq_some.1 e) rfl
      · intro h G hG e
        cases G with
        | framing i' v' => exact h i' v' (optGet_eq_some.2 hG)
        | _ => cases e
    refine Iff.trans (whole _ _ i v hp.framings) ?_
    exact or_congr optGet_eq_some (and_congr optGet_eq_some free.symm)

end OCA
