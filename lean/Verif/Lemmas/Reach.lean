import Verif.Lemmas.Effect
import Verif.Model.Api
/-!
# Build states that can occur
-/
namespace OCA

/-- The build states that can occur: the empty one, the one loaded from any bundle (`FROM`), every
state an accepted command leads to, and every state a program makes of these with the calls of the library (`Model/Api.lean`). -/
inductive Reachable (E : Env) : OCABox → Prop
  | new : Reachable E OCABox.new
  | loaded {ε : Type} (b : Bundle) (box : OCABox) :
      (OCABox.ofBundle E b : Res ε OCABox) = .ok box → Reachable E box
  | step (box box' : OCABox) (c : Command) :
      Reachable E box → applyCommand E (some box) c = .ok box' → Reachable E box'
  | api (box box' : OCABox) : Reachable E box → ApiCall box box' → Reachable E box'

/-- What holds of every attribute of a reachable state. -/
structure AttrWF (a : Attribute) : Prop where
  typed : a.ty.isSome = true
  cond : (a.condition = none ∧ a.dependencies = none) ∨
    ∃ s, a.condition = some (setCondition s).1 ∧ a.dependencies = some (setCondition s).2
  frames : FrameOk a
  noCat : a.categoryLabels = none

/-- What holds of every reachable state. -/
structure BoxWF (b : OCABox) : Prop where
  attrs : ∀ n a, b.attributes.get n = some a → AttrWF a
  mappings : b.mappings = none
  metas : ∀ m l ps, b.metaMap = some m → m.get l = some ps → ps ≠ FMap.empty

theorem foldRes_inv {ε α β : Type} {f : β → α → Res ε β} (P : β → Prop)
    (h : ∀ b a b', P b → f b a = .ok b' → P b') (l : List α) (b b' : β) (hb : P b)
    (hf : foldRes f b l = .ok b') : P b' := by
  induction l generalizing b with
  | nil => simp only [foldRes, Res.ok.injEq] at hf; subst hf; exact hb
  | cons a t ih =>
    simp only [foldRes] at hf
    obtain ⟨b1, h1, h2⟩ := Res.bind_eq_ok.mp hf
    exact ih b1 (h b a b1 hb h1) h2

theorem foldl_inv {α β : Type} {f : β → α → β} (P : β → Prop)
    (h : ∀ b a, P b → P (f b a)) (l : List α) (b : β) (hb : P b) : P (l.foldl f b) := by
  induction l generalizing b with
  | nil => exact hb
  | cons a t ih => exact ih _ (h b a hb)

theorem frame_key_ne_id (s : Str) (h : s ≠ c!"id") : c!"frame_" ++ s ≠ frameIdKey := by
  intro e
  apply h
  exact List.append_cancel_left (as := c!"frame_") (e.trans (by decide))

theorem frameMeta_ok (c : Content) : c.frameMeta.get frameIdKey = none := by
  unfold Content.frameMeta FMap.ofList
  rw [FMap.get_insertAll]
  have : FMap.lastVal ((c.textProps.filter fun p => decide (p.1 ≠ c!"id")).map
      fun p => (c!"frame_" ++ p.1, p.2)) frameIdKey = none := by
    rw [FMap.lastVal_eq_none]
    intro q hq
    obtain ⟨p, hp, rfl⟩ := List.mem_map.mp hq
    have := (List.mem_filter.mp hp).2
    exact frame_key_ne_id p.1 (by simpa using this)
  rw [this]; rfl

theorem framingOf_meta (fm : FMap Str) (l : List (Str × NVal)) (sc : Str) (s : Scope)
    (h : (framingOf fm l).get sc = some s) : s.frameMeta = fm := by
  unfold framingOf FMap.ofList at h
  rw [FMap.get_insertAll] at h
  simp only [FMap.get_empty, Option.or_none] at h
  have hm := FMap.mem_of_lastVal h
  obtain ⟨p, -, hp⟩ := List.mem_filterMap.mp hm
  cases hs : scopeOf fm p.2 with
  | none => rw [hs] at hp; cases hp
  | some s' =>
    rw [hs] at hp
    simp only [Option.map_some, Option.some.injEq, Prod.mk.injEq] at hp
    obtain ⟨-, rfl⟩ := hp
    unfold scopeOf at hs
    split at hs
    · split at hs
      · split at hs
        · cases hs; rfl
        · cases hs
      · cases hs
    · cases hs

theorem AttrWF.put (E : Env) (k : OvKind) (c : Content) (a : Attribute) (v : NVal) (h : AttrWF a) :
    AttrWF (a.put E k c v) := by
  obtain ⟨h1, h2, h3, h4⟩ := h
  unfold Attribute.put
  cases k <;> dsimp only
  case conditional =>
    split
    · rename_i s
      exact ⟨h1, .inr ⟨s, rfl, rfl⟩, h3, h4⟩
    · exact ⟨h1, h2, h3, h4⟩
  case attributeFraming =>
    split
    · rename_i l id _
      refine ⟨h1, h2, ?_, h4⟩
      intro id' fr sc s hfr hs
      simp only [optGet, Option.bind_some, FMap.get_insert] at hfr
      by_cases e : id' = id
      · rw [if_pos e] at hfr
        cases hfr
        rw [FMap.get_insertAll_map] at hs
        cases hg : (framingOf c.frameMeta l).get sc with
        | some s' =>
          rw [hg] at hs
          simp only [Option.some_or, Option.some.injEq] at hs
          subst hs
          rw [framingOf_meta _ _ _ _ hg]; exact frameMeta_ok c
        | none =>
          rw [hg] at hs
          simp only [Option.none_or] at hs
          cases ho : a.framings.bind (fun x => x.get id) with
          | none => rw [ho] at hs; cases hs
          | some g => rw [ho] at hs; exact h3 id g sc s ho hs
      · rw [if_neg e] at hfr
        cases ho : a.framings with
        | none => rw [ho] at hfr; cases hfr
        | some m => rw [ho] at hfr; exact h3 id' fr sc s (by rw [ho]; exact hfr) hs
    · exact ⟨h1, h2, h3, h4⟩
  all_goals first
    | exact ⟨h1, h2, h3, h4⟩
    | (split <;> first | exact ⟨h1, h2, h3, h4⟩ | (split <;> exact ⟨h1, h2, h3, h4⟩))

theorem AttrWF.ofType (t : NAttr) : AttrWF { ty := some t } :=
  ⟨rfl, .inl ⟨rfl, rfl⟩, fun _ _ _ _ h => (by cases h), rfl⟩

theorem AttrWF.setType (o : Option Attribute) (t : NAttr) (h : ∀ a, o = some a → AttrWF a) :
    AttrWF (setType o t) := by
  cases o with
  | none => exact AttrWF.ofType t
  | some a => have := h a rfl; exact ⟨rfl, this.cond, this.frames, this.noCat⟩

theorem BoxWF.new : BoxWF OCABox.new :=
  ⟨fun _ _ h => (by cases h), rfl, fun _ _ _ h => by cases h⟩

theorem BoxWF.insert (b : OCABox) (h : BoxWF b) (n : Str) (a : Attribute) (ha : AttrWF a) :
    BoxWF { b with attributes := b.attributes.insert n a } := by
  refine ⟨?_, h.mappings, h.metas⟩
  intro n' a' hg
  simp only [FMap.get_insert] at hg
  split at hg
  · cases hg; exact ha
  · exact h.attrs n' a' hg

theorem BoxWF.addMeta (b : OCABox) (h : BoxWF b) (l : Lang) (k v : Str) : BoxWF (b.addMeta l k v) := by
  refine ⟨h.attrs, h.mappings, ?_⟩
  intro m l' ps hm hg e
  simp only [OCABox.addMeta, Option.some.injEq] at hm
  subst hm
  rw [FMap.get_insert] at hg
  split at hg
  · cases hg
    have : (((b.metaMap.getD FMap.empty).get l).getD FMap.empty |>.insert k v).get k = none := by rw [e]; rfl
    rw [FMap.get_insert] at this; simp at this
  · cases hb : b.metaMap with
    | none => rw [hb] at hg; cases hg
    | some m => rw [hb] at hg; exact h.metas m l' ps hb hg e

theorem BoxWF.applyCommand (E : Env) (b b' : OCABox) (c : Command) (h : BoxWF b)
    (ha : applyCommand E (some b) c = .ok b') : BoxWF b' := by
  obtain ⟨kind, obj⟩ := c
  cases kind <;> cases obj <;> simp only [OCA.applyCommand, Option.getD_some, reduceCtorEq, Res.ok.injEq] at ha
  · -- add capture base
    subst ha
    rw [addPropStep_eq]
    have h1 : BoxWF (List.foldl addAttrStep b (CaptureContent.attributes ‹_› |>.getD [])) := by
      apply foldl_inv BoxWF _ _ _ h
      intro b p hb
      rw [addAttrStep_eq]
      exact hb.insert b p.1 _ (AttrWF.setType _ _ (fun a e => hb.attrs _ a e))
    exact ⟨h1.attrs, h1.mappings, h1.metas⟩
  · -- add overlay
    rename_i t cc
    unfold applyOverlay at ha
    split at ha
    · unfold applyMeta at ha
      split at ha
      · cases ha; exact h
      · refine foldRes_inv BoxWF ?_ _ b b' h ha
        intro b p b' hb hs
        unfold metaStep at hs
        split at hs
        · obtain ⟨l, -, hs⟩ := Res.bind_eq_ok.mp hs
          cases hs
          exact hb.addMeta b l _ _
        · cases hs; exact hb
    · split at ha
      · cases ha; exact h
      · rename_i errs f hset
        obtain ⟨b1, h1, h2⟩ := Res.bind_eq_ok.mp ha
        have hb1 : BoxWF b1 := by
          refine foldRes_inv BoxWF ?_ _ b b1 h h1
          intro b p b' hb hs
          unfold ovAttrStep at hs
          split at hs
          · cases hs
          · rename_i a hga
            obtain ⟨a', hf, hs⟩ := Res.bind_eq_ok.mp hs
            cases hs
            rw [addAttribute_some _ _ _ _ hga, merge_setter E _ _ hset _ _ _ hf]
            exact hb.insert b p.1 _ (AttrWF.put E _ _ _ _ (hb.attrs _ _ hga))
        split at h2
        · cases h2; exact hb1
        · cases h2
  · -- remove capture base
    subst ha
    rw [removeProps_eq]
    have h1 : BoxWF (List.foldl (fun b p => b.removeAttribute p.1) b (CaptureContent.attributes ‹_› |>.getD [])) := by
      apply foldl_inv BoxWF _ _ _ h
      intro b p hb
      refine ⟨?_, hb.mappings, hb.metas⟩
      intro n a hg
      simp only [OCABox.removeAttribute, FMap.get_erase] at hg
      split at hg
      · cases hg
      · exact hb.attrs n a hg
    exact ⟨h1.attrs, h1.mappings, h1.metas⟩

/-! ## Loading -/

/-- every attribute of a map -/
def AllWF (m : FMap Attribute) : Prop := ∀ n a, m.get n = some a → AttrWF a

theorem AllWF.updAttr {ε : Type} {m m' : FMap Attribute} {n : Str} {f : Attribute → Attribute} (h : AllWF m)
    (hf : ∀ a, AttrWF a → AttrWF (f a)) (hu : (updAttr m n f : Res ε _) = .ok m') : AllWF m' := by
  unfold OCA.updAttr at hu
  split at hu
  · cases hu
  · rename_i a ha
    cases hu
    intro n' a' hg
    rw [FMap.get_insert] at hg
    split at hg
    · cases hg; exact hf a (h n a ha)
    · exact h n' a' hg

theorem AllWF.updAll {ε V : Type} {f : V → Attribute → Attribute} (hf : ∀ v a, AttrWF a → AttrWF (f v a))
    (l : List (Str × V)) {m m' : FMap Attribute} (h : AllWF m)
    (hu : (updAll f m l : Res ε _) = .ok m') : AllWF m' := by
  induction l generalizing m with
  | nil => cases hu; exact h
  | cons p t ih =>
    obtain ⟨n, v⟩ := p
    simp only [OCA.updAll] at hu
    obtain ⟨m1, h1, h2⟩ := Res.bind_eq_ok.mp hu
    exact ih (h.updAttr (hf v) h1) h2

theorem AttrWF.setCond (a : Attribute) (s : Str) (h : AttrWF a) : AttrWF (a.setCond s) :=
  ⟨h.typed, .inr ⟨s, rfl, rfl⟩, h.frames, h.noCat⟩

theorem AllWF.updConds {ε : Type} (E : Env) (deps : FMap (List Str))
    (l : List (Str × Str)) {m m' : FMap Attribute} (h : AllWF m)
    (hu : (updConds E deps m l : Res ε _) = .ok m') : AllWF m' := by
  induction l generalizing m with
  | nil => cases hu; exact h
  | cons p t ih =>
    obtain ⟨n, c⟩ := p
    simp only [OCA.updConds] at hu
    obtain ⟨ds, -, hu⟩ := Res.bind_eq_ok.mp hu
    obtain ⟨s, -, hu⟩ := Res.bind_eq_ok.mp hu
    obtain ⟨m1, h1, h2⟩ := Res.bind_eq_ok.mp hu
    exact ih (h.updAttr (fun a ha => ha.setCond a s) h1) h2

theorem AttrWF.setFraming (a : Attribute) (id : Str) (f : FMap Scope) (h : AttrWF a)
    (hf : ∀ sc s, f.get sc = some s → s.frameMeta.get frameIdKey = none) : AttrWF (a.setFraming id f) := by
  rw [setFraming_eq]
  refine ⟨h.typed, h.cond, ?_, h.noCat⟩
  intro id' fr sc s hfr hs
  simp only [optGet, Option.bind_some, FMap.get_insert] at hfr
  by_cases e : id' = id
  · rw [if_pos e] at hfr
    cases hfr
    rw [FMap.get_insertAll_map] at hs
    cases hg : f.get sc with
    | some s' =>
      rw [hg] at hs
      simp only [Option.some_or, Option.some.injEq] at hs
      subst hs
      exact hf sc s' hg
    | none =>
      rw [hg] at hs
      simp only [Option.none_or] at hs
      cases ho : a.framings.bind (fun x => x.get id) with
      | none => rw [ho] at hs; cases hs
      | some g => rw [ho] at hs; exact h.frames id g sc s ho hs
  · rw [if_neg e] at hfr
    cases ho : a.framings with
    | none => rw [ho] at hfr; cases hfr
    | some m => rw [ho] at hfr; exact h.frames id' fr sc s (by rw [ho]; exact hfr) hs

theorem AllWF.loadBody {ε : Type} (E : Env) (body : OvBody) {m m' : FMap Attribute} (h : AllWF m)
    (hu : (loadBody E m body : Res ε _) = .ok m') : AllWF m' := by
  cases body <;> simp only [OCA.loadBody] at hu
  case conditional c d => exact h.updConds E d _ hu
  case framing md x =>
    obtain ⟨id, -, hu⟩ := Res.bind_eq_ok.mp hu
    refine h.updAll ?_ _ hu
    intro fr a ha
    apply ha.setFraming
    intro sc s hs
    rw [FMap.get_filterMap] at hs
    cases hg : fr.get sc with
    | none => rw [hg] at hs; cases hs
    | some s' =>
      rw [hg] at hs
      cases hs
      simp [FMap.get_erase]
  all_goals first
    | (cases hu; exact h)
    | (refine h.updAll ?_ _ hu; intro v a ha; exact ⟨ha.typed, ha.cond, ha.frames, ha.noCat⟩)

theorem AllWF.loadBodies {ε : Type} (E : Env) (l : List OvBody) {m m' : FMap Attribute} (h : AllWF m)
    (hu : (loadBodies E m l : Res ε _) = .ok m') : AllWF m' := by
  induction l generalizing m with
  | nil => cases hu; exact h
  | cons b t ih =>
    simp only [OCA.loadBodies] at hu
    obtain ⟨m1, h1, h2⟩ := Res.bind_eq_ok.mp hu
    exact ih (h.loadBody E b h1) h2

theorem AllWF.loadFlags {ε : Type} (l : List Str) {m m' : FMap Attribute} (h : AllWF m)
    (hu : (loadFlags m l : Res ε _) = .ok m') : AllWF m' := by
  induction l generalizing m with
  | nil => cases hu; exact h
  | cons b t ih =>
    simp only [OCA.loadFlags] at hu
    obtain ⟨m1, h1, h2⟩ := Res.bind_eq_ok.mp hu
    refine ih (h.updAttr ?_ h1) h2
    intro a ha
    exact ⟨ha.typed, ha.cond, ha.frames, ha.noCat⟩

theorem BoxWF.loadMetas (b : OCABox) (h : BoxWF b) (l : List OvBody) : BoxWF (loadMetas b l) := by
  unfold OCA.loadMetas
  apply foldl_inv BoxWF _ _ _ h
  intro b body hb
  split
  · apply foldl_inv BoxWF _ _ _ hb
    intro b p hb
    exact hb.addMeta b _ _ _
  · exact hb

theorem BoxWF.ofBundle {ε : Type} (E : Env) (b : Bundle) (box : OCABox)
    (h : (OCABox.ofBundle E b : Res ε OCABox) = .ok box) : BoxWF box := by
  unfold OCABox.ofBundle at h
  obtain ⟨m1, h1, h⟩ := Res.bind_eq_ok.mp h
  obtain ⟨m2, h2, h⟩ := Res.bind_eq_ok.mp h
  cases h
  have h0 : AllWF (b.captureBase.attributes.filterMap (fun _ t => some { ty := some t : Attribute })) := by
    intro n a hg
    rw [FMap.get_filterMap] at hg
    cases hb : b.captureBase.attributes.get n with
    | none => rw [hb] at hg; cases hg
    | some t => rw [hb] at hg; cases hg; exact AttrWF.ofType t
  have hm := BoxWF.loadMetas { classification := some b.captureBase.classification }
    ⟨fun _ _ h => (by cases h), rfl, fun _ _ _ h => by cases h⟩ (b.overlays.map Overlay.body)
  exact ⟨(h0.loadFlags _ h1).loadBodies E _ h2, hm.mappings, hm.metas⟩

/-! ## Calls of the library -/

/-- an attribute that a program made is as one of a reachable state, but for its type -/
theorem Attribute.Made.wf {a : Attribute} (h : a.Made) (t : NAttr) : AttrWF (a.setTy t) := by
  induction h with
  | new => exact AttrWF.ofType t
  | @set a a' _ hc ih =>
    cases hc with
    | condition s => exact AttrWF.setCond (a.setTy t) s ih
    | framing id f hf => exact AttrWF.setFraming (a.setTy t) id f ih hf
    | _ => exact ⟨rfl, ih.cond, ih.frames, ih.noCat⟩
  | @merge a a' _ _ ih ih' =>
    obtain ⟨-, c, f, n⟩ := ih
    obtain ⟨-, c', f', n'⟩ := ih'
    refine ⟨rfl, ?_, ?_, ?_⟩
    · show (overwrite a.condition a'.condition = none ∧ mergeDeps a'.condition a.dependencies a'.dependencies = none) ∨
        ∃ s, overwrite a.condition a'.condition = some (setCondition s).1 ∧ mergeDeps a'.condition a.dependencies a'.dependencies = some (setCondition s).2
      rcases c' with ⟨h1, h2⟩ | ⟨s, h1, h2⟩
      · have h1 : a'.condition = none := h1
        rw [h1]; exact c
      · have h1 : a'.condition = some _ := h1
        have h2 : a'.dependencies = some _ := h2
        rw [h1, h2]; exact .inr ⟨s, rfl, rfl⟩
    · intro id fr sc s hfr hs
      have hfr : optGet (overwrite a.framings a'.framings) id = some fr := hfr
      cases e : a'.framings with
      | none => rw [e] at hfr; exact f id fr sc s hfr hs
      | some m => rw [e] at hfr; exact f' id fr sc s (by show optGet a'.framings id = _; rw [e]; exact hfr) hs
    · have n : a.categoryLabels = none := n
      have n' : a'.categoryLabels = none := n'
      show mergeMaps a.categoryLabels a'.categoryLabels = none
      rw [n, n']; rfl

theorem AttrWF.retype {a : Attribute} {t : NAttr} (h : AttrWF (a.setTy t)) (ht : a.ty.isSome = true) : AttrWF a :=
  ⟨ht, h.cond, h.frames, h.noCat⟩

theorem AttrWF.merge {a a' : Attribute} (h : AttrWF a) (h' : a'.Made) : AttrWF (a.merge a') := by
  obtain ⟨t, ht⟩ := Option.isSome_iff_exists.1 h.typed
  obtain ⟨-, c, f, n⟩ := h
  obtain ⟨-, c', f', n'⟩ := h'.wf t
  refine ⟨?_, ?_, ?_, ?_⟩
  · show (overwrite a.ty a'.ty).isSome = true
    unfold overwrite
    split
    · rfl
    · rw [ht]; rfl
  · show (overwrite a.condition a'.condition = none ∧ mergeDeps a'.condition a.dependencies a'.dependencies = none) ∨
      ∃ s, overwrite a.condition a'.condition = some (setCondition s).1 ∧ mergeDeps a'.condition a.dependencies a'.dependencies = some (setCondition s).2
    rcases c' with ⟨h1, h2⟩ | ⟨s, h1, h2⟩
    · have h1 : a'.condition = none := h1
      rw [h1]; exact c
    · have h1 : a'.condition = some _ := h1
      have h2 : a'.dependencies = some _ := h2
      rw [h1, h2]; exact .inr ⟨s, rfl, rfl⟩
  · intro id fr sc s hfr hs
    have hfr : optGet (overwrite a.framings a'.framings) id = some fr := hfr
    cases e : a'.framings with
    | none => rw [e] at hfr; exact f id fr sc s hfr hs
    | some m => rw [e] at hfr; exact f' id fr sc s (by show optGet a'.framings id = _; rw [e]; exact hfr) hs
  · have n' : a'.categoryLabels = none := n'
    show mergeMaps a.categoryLabels a'.categoryLabels = none
    rw [n, n']; rfl

theorem BoxWF.api {b b' : OCABox} (h : BoxWF b) (hc : ApiCall b b') : BoxWF b' := by
  cases hc with
  | add n a ha ht =>
    unfold OCABox.addAttribute
    split
    · next a0 e => exact h.insert b n _ ((h.attrs n a0 e).merge ha)
    · next e =>
      rw [e] at ht
      rcases ht with ht | ht
      · obtain ⟨t, -⟩ := Option.isSome_iff_exists.1 ht
        exact h.insert b n _ ((ha.wf t).retype ht)
      · cases ht
  | remove n =>
    refine ⟨?_, h.mappings, h.metas⟩
    intro n' a' hg
    simp only [OCABox.removeAttribute, FMap.get_erase] at hg
    split at hg
    · cases hg
    · exact h.attrs n' a' hg
  | addMeta l k v => exact h.addMeta b l k v
  | addClassification s => exact ⟨h.attrs, h.mappings, h.metas⟩
  | removeClassification => exact ⟨h.attrs, h.mappings, h.metas⟩

theorem Reachable.wf {E : Env} {b : OCABox} (h : Reachable E b) : BoxWF b := by
  induction h with
  | new => exact BoxWF.new
  | loaded b box h => exact BoxWF.ofBundle E b box h
  | step box box' c _ ha ih => exact ih.applyCommand E box box' c ha
  | api box box' _ hc ih => exact ih.api hc

end OCA
