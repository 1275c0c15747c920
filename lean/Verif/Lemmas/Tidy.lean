import Verif.Props.Continuation
import Verif.Props.BundleJson
/-!
# States up to what is not written

What a stored bundle does not keep of a state: the order of a list of entry codes (it is written sorted), and the difference
between no classification and an empty one.
-/
namespace OCA

/-- entry codes with a list sorted -/
def EntryCodes.tidy : EntryCodes → EntryCodes
  | .array l => .array (sortStr l)
  | e => e

/-- the attribute with its list of entry codes sorted -/
def Attribute.tidy (a : Attribute) : Attribute := { a with entryCodes := a.entryCodes.map EntryCodes.tidy }

/-- the state with all lists of entry codes sorted and a classification -/
def OCABox.tidy (b : OCABox) : OCABox :=
  { b with attributes := b.attributes.filterMap (fun _ a => some a.tidy), classification := some (b.classification.getD []) }

theorem tidy_tidy (e : EntryCodes) : e.tidy.tidy = e.tidy := by
  cases e <;> first | rfl | exact congrArg EntryCodes.array (sortStr_idem _)

theorem tidy_json (e : EntryCodes) : e.tidy.toJson = e.toJson := by
  cases e <;> first | rfl | exact congrArg strsJson (sortStr_idem _)

theorem get_tidy (b : OCABox) (n : Str) : b.tidy.attributes.get n = (b.attributes.get n).map Attribute.tidy := by
  show (b.attributes.filterMap _).get n = _
  rw [FMap.get_filterMap]
  cases b.attributes.get n <;> rfl

theorem tidy_eq {a a' : Attribute} (h : a.tidy = a'.tidy) :
    a' = { a with entryCodes := a'.entryCodes } ∧ a'.entryCodes.map EntryCodes.tidy = a.entryCodes.map EntryCodes.tidy := by
  cases a; cases a'
  simp only [Attribute.tidy, Attribute.mk.injEq] at h
  simp only [Attribute.mk.injEq, true_and, and_true]
  exact ⟨by simp [h], h.2.2.2.2.2.1.symm⟩

/-- The states agree in all that is written. -/
theorem tidy_iff {b b' : OCABox} : b.tidy = b'.tidy ↔
    (∀ n, (b.attributes.get n).map Attribute.tidy = (b'.attributes.get n).map Attribute.tidy) ∧ b.mappings = b'.mappings ∧
      b.metaMap = b'.metaMap ∧ b.classification.getD [] = b'.classification.getD [] := by
  constructor
  · intro h
    refine ⟨fun n => ?_, ?_, ?_, ?_⟩
    · rw [← get_tidy, ← get_tidy, h]
    · exact (congrArg OCABox.mappings h : _)
    · exact (congrArg OCABox.metaMap h : _)
    · exact Option.some.inj (congrArg OCABox.classification h : _)
  · rintro ⟨h1, h2, h3, h4⟩
    apply OCABox.ext'
    · intro n; rw [get_tidy, get_tidy, h1]
    · exact h2
    · exact h3
    · exact congrArg some h4

theorem SameState.tidy {b b' : OCABox} (h : SameState b b') : b.tidy = b'.tidy := by
  obtain ⟨cl, rfl, hc⟩ := h
  exact tidy_iff.mpr ⟨fun _ => rfl, rfl, rfl, hc.symm⟩

/-! ## Commands -/

theorem put_tidy (E : Env) (k : OvKind) (c : Content) (v : NVal) {a a' : Attribute} (h : a.tidy = a'.tidy) :
    (a.put E k c v).tidy = (a'.put E k c v).tidy := by
  obtain ⟨h1, h2⟩ := tidy_eq h
  rw [h1]
  generalize a'.entryCodes = o at h2
  clear h1 h
  unfold Attribute.put
  cases k <;> dsimp only
  case entryCode =>
    cases entryCodesOf v with
    | none => simp [Attribute.tidy, h2]
    | some e =>
      simp only [Attribute.tidy, Attribute.mk.injEq, true_and, and_true]
      cases o with
      | none => cases ha : a.entryCodes with
        | none => rfl
        | some x => rw [ha] at h2; cases h2
      | some y => cases ha : a.entryCodes with
        | none => rw [ha] at h2; cases h2
        | some x => rw [ha] at h2; exact h2.symm
  all_goals first
    | (simp [Attribute.tidy, h2]; done)
    | (split <;> first
        | (simp [Attribute.tidy, h2]; done)
        | (split <;> simp [Attribute.tidy, h2]; done))

/-- the same kind of result, and the same state up to what is not written, or the same messages -/
def TidyResult : Res (List Str) OCABox → Res (List Str) OCABox → Prop
  | .ok b, .ok b' => b.tidy = b'.tidy
  | .err e, .err e' => e = e'
  | .panic, .panic => True
  | _, _ => False

theorem foldRes_tidy {α : Type} {f : OCABox → α → Res (List Str) OCABox}
    (hf : ∀ b b' a, b.tidy = b'.tidy → TidyResult (f b a) (f b' a)) (l : List α) :
    ∀ b b' : OCABox, b.tidy = b'.tidy → TidyResult (foldRes f b l) (foldRes f b' l) := by
  induction l with
  | nil => intro b b' h; exact h
  | cons a t ih =>
    intro b b' h
    have := hf b b' a h
    simp only [foldRes]
    cases h1 : f b a <;> cases h2 : f b' a <;> rw [h1, h2] at this <;> first
      | exact this.elim
      | exact ih _ _ this
      | exact this

theorem insert_tidy {b b' : OCABox} (h : b.tidy = b'.tidy) (n : Str) {a a' : Attribute} (ha : a.tidy = a'.tidy) :
    ({ b with attributes := b.attributes.insert n a } : OCABox).tidy = ({ b' with attributes := b'.attributes.insert n a' } : OCABox).tidy := by
  obtain ⟨h1, h2, h3, h4⟩ := tidy_iff.mp h
  refine tidy_iff.mpr ⟨fun m => ?_, h2, h3, h4⟩
  simp only [FMap.get_insert]
  split
  · exact congrArg some ha
  · exact h1 m

theorem tidy_apply {E : Env} {b b' : OCABox} (h : b.tidy = b'.tidy) (c : Command) :
    TidyResult (applyCommand E (some b) c) (applyCommand E (some b') c) := by
  have h0 := tidy_iff.mp h
  obtain ⟨kind, obj⟩ := c
  cases kind with
  | «from» => cases obj <;> exact rfl
  | modify => cases obj <;> exact trivial
  | remove =>
    cases obj with
    | ocaBundle r => exact trivial
    | overlay t cc => exact trivial
    | captureBase cc =>
      rw [applyRemoveBase, applyRemoveBase]
      refine tidy_iff.mpr ⟨fun n => ?_, h0.2.1, h0.2.2.1, ?_⟩
      · rw [get_boxRemove, get_boxRemove]
        split
        · rfl
        · exact h0.1 n
      · simp only [boxRemove]
        split
        · rfl
        · exact h0.2.2.2
  | add =>
    cases obj with
    | ocaBundle r => exact trivial
    | captureBase cc =>
      rw [applyAddBase, applyAddBase]
      refine tidy_iff.mpr ⟨fun n => ?_, ?_, ?_, ?_⟩
      · rw [get_boxAdd, get_boxAdd]
        split
        · rename_i t _
          have := h0.1 n
          cases h1 : b.attributes.get n with
          | none =>
            cases h2 : b'.attributes.get n with
            | none => rfl
            | some a' => rw [h1, h2] at this; cases this
          | some a =>
            cases h2 : b'.attributes.get n with
            | none => rw [h1, h2] at this; cases this
            | some a' =>
              rw [h1, h2] at this
              obtain ⟨e1, e2⟩ := tidy_eq (Option.some.inj this)
              rw [e1]
              simp [setType, Attribute.tidy, e2]
        · exact h0.1 n
      · rw [(boxAdd_rest cc b).1, (boxAdd_rest cc b').1]; exact h0.2.1
      · rw [(boxAdd_rest cc b).2.1, (boxAdd_rest cc b').2.1]; exact h0.2.2.1
      · rw [(boxAdd_rest cc b).2.2, (boxAdd_rest cc b').2.2]
        cases classOf (cc.properties.getD []) with
        | none => exact h0.2.2.2
        | some s => rfl
    | overlay t cc =>
      show TidyResult (applyOverlay E b t.kind cc) (applyOverlay E b' t.kind cc)
      by_cases hm : t.kind = .metaOv
      · rw [hm, applyOverlay_meta, applyOverlay_meta]
        unfold applyMeta
        cases cc.properties with
        | none => exact h
        | some ps =>
          apply foldRes_tidy _ _ _ _ h
          intro b b' p h
          unfold metaStep
          have h0 := tidy_iff.mp h
          cases p.2 <;> first
            | exact h
            | (cases cc.lang E with
               | none => exact trivial
               | some l =>
                 refine tidy_iff.mpr ⟨h0.1, h0.2.1, ?_, h0.2.2.2⟩
                 simp only [OCABox.addMeta, h0.2.2.1])
      · by_cases hk : loopKind t.kind = true
        · obtain ⟨errs, f, h1, -⟩ := (ovSetter_loop E t.kind cc).1 hk
          rw [applyOverlay_loop E _ t.kind cc h1, applyOverlay_loop E b' t.kind cc h1]
          have hstep : TidyResult (foldRes (ovAttrStep errs f) b cc.attrs) (foldRes (ovAttrStep errs f) b' cc.attrs) := by
            apply foldRes_tidy _ _ _ _ h
            intro b b' p h
            have h0 := (tidy_iff.mp h).1 p.1
            unfold ovAttrStep
            cases hb : b.attributes.get p.1 <;> cases hb' : b'.attributes.get p.1 <;> rw [hb, hb'] at h0
            · exact rfl
            · cases h0
            · cases h0
            · rename_i a a'
              have h0 := Option.some.inj h0
              dsimp only
              rcases setter_cases E _ cc h1 a p.2 with ⟨g1, x, g2⟩ | ⟨g1, g2, s, g3, g4⟩ | ⟨g1, g2, g3⟩ <;>
                rcases setter_cases E _ cc h1 a' p.2 with ⟨k1, x', k2⟩ | ⟨k1, k2, s', k3, k4⟩ | ⟨k1, k2, k3⟩
              · rw [g2, k2]
                show OCABox.tidy _ = OCABox.tidy _
                rw [addAttribute_some b p.1 a x hb, addAttribute_some b' p.1 a' x' hb', merge_setter E _ _ h1 _ _ _ g2,
                  merge_setter E _ _ h1 _ _ _ k2]
                exact insert_tidy h p.1 (put_tidy E _ _ _ h0)
              · rw [g1] at k1; cases k1
              · rw [g1] at k1; cases k1
              · rw [g1] at k1; cases k1
              · rw [g4, k4]
                rw [g3] at k3
                cases k3
                exact rfl
              · exact absurd g2 k2
              · rw [g1] at k1; cases k1
              · exact absurd k2 g2
              · rw [g3, k3]; exact trivial
          cases hx : foldRes (ovAttrStep errs f) b cc.attrs <;> cases hy : foldRes (ovAttrStep errs f) b' cc.attrs <;>
            rw [hx, hy] at hstep <;> first
            | exact hstep.elim
            | (simp only [Res.bind_ok]; split <;> first | exact hstep | exact rfl)
            | exact hstep
        · rw [applyOverlay_other E _ _ _ (by simpa using hk) hm, applyOverlay_other E _ _ _ (by simpa using hk) hm]
          exact h

end OCA
