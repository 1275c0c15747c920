import Verif.Lemmas.Reach
/-!
# Reachable states hold no empty maps and nothing commands cannot set
-/
namespace OCA

/-- What holds of every attribute of a reachable state: its maps are absent or not empty, and nothing is set that no command and
no overlay sets. -/
structure AttrPlain (a : Attribute) : Prop where
  labels : a.labels ≠ some FMap.empty
  informations : a.informations ≠ some FMap.empty
  entries : a.entries ≠ some FMap.empty
  links : a.links ≠ some FMap.empty
  framings : a.framings ≠ some FMap.empty
  mapping : a.mapping = none
  codesMapping : a.entryCodesMapping = none
  standards : a.standards = none

/-- What holds of every reachable state. -/
structure BoxPlain (b : OCABox) : Prop where
  attrs : ∀ n a, b.attributes.get n = some a → AttrPlain a
  metas : b.metaMap ≠ some FMap.empty

theorem insert_ne_empty {V : Type} (m : FMap V) (k : Str) (v : V) : some (m.insert k v) ≠ some (FMap.empty : FMap V) := by
  intro h
  have h := Option.some.inj h
  have := congrArg (fun m => m.get k) h
  simp [FMap.get_insert] at this

theorem putIn_ne_empty {V : Type} (o : Option (FMap V)) (k : Str) (v : V) : putIn o k v ≠ some (FMap.empty : FMap V) := by
  rw [putIn_eq]; exact insert_ne_empty _ _ _

theorem AttrPlain.put (E : Env) (k : OvKind) (c : Content) (a : Attribute) (v : NVal) (h : AttrPlain a) :
    AttrPlain (a.put E k c v) := by
  obtain ⟨h1, h2, h3, h4, h5, h6, h7, h8⟩ := h
  unfold Attribute.put
  cases k <;> dsimp only
  all_goals first
    | exact ⟨h1, h2, h3, h4, h5, h6, h7, h8⟩
    | (split <;> first
        | exact ⟨h1, h2, h3, h4, h5, h6, h7, h8⟩
        | exact ⟨insert_ne_empty _ _ _, h2, h3, h4, h5, h6, h7, h8⟩
        | exact ⟨h1, insert_ne_empty _ _ _, h3, h4, h5, h6, h7, h8⟩
        | exact ⟨h1, h2, insert_ne_empty _ _ _, h4, h5, h6, h7, h8⟩
        | exact ⟨h1, h2, h3, insert_ne_empty _ _ _, h5, h6, h7, h8⟩
        | exact ⟨h1, h2, h3, h4, insert_ne_empty _ _ _, h6, h7, h8⟩
        | (split <;> exact ⟨h1, h2, h3, h4, h5, h6, h7, h8⟩))

theorem AttrPlain.ofType (t : NAttr) : AttrPlain { ty := some t } := by constructor <;> simp

theorem AttrPlain.setType (o : Option Attribute) (t : NAttr) (h : ∀ a, o = some a → AttrPlain a) :
    AttrPlain (setType o t) := by
  cases o with
  | none => exact AttrPlain.ofType t
  | some a =>
    obtain ⟨h1, h2, h3, h4, h5, h6, h7, h8⟩ := h a rfl
    exact ⟨h1, h2, h3, h4, h5, h6, h7, h8⟩

theorem BoxPlain.new : BoxPlain OCABox.new := ⟨fun _ _ h => (by cases h), by simp [OCABox.new]⟩

theorem BoxPlain.insert (b : OCABox) (h : BoxPlain b) (n : Str) (a : Attribute) (ha : AttrPlain a) :
    BoxPlain { b with attributes := b.attributes.insert n a } := by
  refine ⟨?_, h.metas⟩
  intro n' a' hg
  simp only [FMap.get_insert] at hg
  split at hg
  · cases hg; exact ha
  · exact h.attrs n' a' hg

theorem BoxPlain.addMeta (b : OCABox) (h : BoxPlain b) (l : Lang) (k v : Str) : BoxPlain (b.addMeta l k v) :=
  ⟨h.attrs, insert_ne_empty _ _ _⟩

theorem BoxPlain.applyCommand (E : Env) (b b' : OCABox) (c : Command) (h : BoxPlain b)
    (ha : applyCommand E (some b) c = .ok b') : BoxPlain b' := by
  obtain ⟨kind, obj⟩ := c
  cases kind <;> cases obj <;> simp only [OCA.applyCommand, Option.getD_some, reduceCtorEq, Res.ok.injEq] at ha
  · -- add capture base
    subst ha
    rw [addPropStep_eq]
    have h1 : BoxPlain (List.foldl addAttrStep b (CaptureContent.attributes ‹_› |>.getD [])) := by
      apply foldl_inv BoxPlain _ _ _ h
      intro b p hb
      rw [addAttrStep_eq]
      exact hb.insert b p.1 _ (AttrPlain.setType _ _ (fun a e => hb.attrs _ a e))
    exact ⟨h1.attrs, h1.metas⟩
  · -- add overlay
    rename_i t cc
    unfold applyOverlay at ha
    split at ha
    · unfold applyMeta at ha
      split at ha
      · cases ha; exact h
      · refine foldRes_inv BoxPlain ?_ _ b b' h ha
        intro b p b' hb hs
        unfold metaStep at hs
        split at hs
        · obtain ⟨l, -, hs⟩ := Res.bind_eq_ok.mp hs
          cases hs
          exact hb.addMeta b l _ _
        · cases hs; exact hb
    · split at ha
      · cases ha; exact h
      · rename_i errs f hset
        obtain ⟨b1, h1, h2⟩ := Res.bind_eq_ok.mp ha
        have hb1 : BoxPlain b1 := by
          refine foldRes_inv BoxPlain ?_ _ b b1 h h1
          intro b p b' hb hs
          unfold ovAttrStep at hs
          split at hs
          · cases hs
          · rename_i a hga
            obtain ⟨a', hf, hs⟩ := Res.bind_eq_ok.mp hs
            cases hs
            rw [addAttribute_some _ _ _ _ hga, merge_setter E _ _ hset _ _ _ hf]
            exact hb.insert b p.1 _ (AttrPlain.put E _ _ _ _ (hb.attrs _ _ hga))
        split at h2
        · cases h2; exact hb1
        · cases h2
  · -- remove capture base
    subst ha
    rw [removeProps_eq]
    have h1 : BoxPlain (List.foldl (fun b p => b.removeAttribute p.1) b (CaptureContent.attributes ‹_› |>.getD [])) := by
      apply foldl_inv BoxPlain _ _ _ h
      intro b p hb
      refine ⟨?_, hb.metas⟩
      intro n a hg
      simp only [OCABox.removeAttribute, FMap.get_erase] at hg
      split at hg
      · cases hg
      · exact hb.attrs n a hg
    exact ⟨h1.attrs, h1.metas⟩

/-! ## Loading -/

/-- every attribute of a map -/
def AllPlain (m : FMap Attribute) : Prop := ∀ n a, m.get n = some a → AttrPlain a

theorem AllPlain.updAttr {ε : Type} {m m' : FMap Attribute} {n : Str} {f : Attribute → Attribute} (h : AllPlain m)
    (hf : ∀ a, AttrPlain a → AttrPlain (f a)) (hu : (updAttr m n f : Res ε _) = .ok m') : AllPlain m' := by
  unfold OCA.updAttr at hu
  split at hu
  · cases hu
  · rename_i a ha
    cases hu
    intro n' a' hg
    rw [FMap.get_insert] at hg
    split at hg
    · cases hg; exact hf a (h n a ha)
    · exact h n' a' hg

theorem AllPlain.updAll {ε V : Type} {f : V → Attribute → Attribute} (hf : ∀ v a, AttrPlain a → AttrPlain (f v a))
    (l : List (Str × V)) {m m' : FMap Attribute} (h : AllPlain m)
    (hu : (updAll f m l : Res ε _) = .ok m') : AllPlain m' := by
  induction l generalizing m with
  | nil => cases hu; exact h
  | cons p t ih =>
    obtain ⟨n, v⟩ := p
    simp only [OCA.updAll] at hu
    obtain ⟨m1, h1, h2⟩ := Res.bind_eq_ok.mp hu
    exact ih (h.updAttr (hf v) h1) h2

theorem AttrPlain.setCond (a : Attribute) (s : Str) (h : AttrPlain a) : AttrPlain (a.setCond s) := by
  obtain ⟨h1, h2, h3, h4, h5, h6, h7, h8⟩ := h
  exact ⟨h1, h2, h3, h4, h5, h6, h7, h8⟩

theorem AllPlain.updConds {ε : Type} (E : Env) (deps : FMap (List Str))
    (l : List (Str × Str)) {m m' : FMap Attribute} (h : AllPlain m)
    (hu : (updConds E deps m l : Res ε _) = .ok m') : AllPlain m' := by
  induction l generalizing m with
  | nil => cases hu; exact h
  | cons p t ih =>
    obtain ⟨n, c⟩ := p
    simp only [OCA.updConds] at hu
    obtain ⟨ds, -, hu⟩ := Res.bind_eq_ok.mp hu
    obtain ⟨s, -, hu⟩ := Res.bind_eq_ok.mp hu
    obtain ⟨m1, h1, h2⟩ := Res.bind_eq_ok.mp hu
    exact ih (h.updAttr (fun a ha => ha.setCond a s) h1) h2

theorem AttrPlain.setFraming (a : Attribute) (id : Str) (f : FMap Scope) (h : AttrPlain a) : AttrPlain (a.setFraming id f) := by
  obtain ⟨h1, h2, h3, h4, h5, h6, h7, h8⟩ := h
  rw [setFraming_eq]
  exact ⟨h1, h2, h3, h4, insert_ne_empty _ _ _, h6, h7, h8⟩

theorem AllPlain.loadBody {ε : Type} (E : Env) (body : OvBody) {m m' : FMap Attribute} (h : AllPlain m)
    (hu : (loadBody E m body : Res ε _) = .ok m') : AllPlain m' := by
  cases body <;> simp only [OCA.loadBody] at hu
  case conditional c d => exact h.updConds E d _ hu
  case framing md x =>
    obtain ⟨id, -, hu⟩ := Res.bind_eq_ok.mp hu
    exact h.updAll (fun fr a ha => ha.setFraming a id _) _ hu
  all_goals first
    | (cases hu; exact h)
    | (refine h.updAll ?_ _ hu
       intro v a ha
       obtain ⟨h1, h2, h3, h4, h5, h6, h7, h8⟩ := ha
       first
        | exact ⟨h1, h2, h3, h4, h5, h6, h7, h8⟩
        | exact ⟨putIn_ne_empty _ _ _, h2, h3, h4, h5, h6, h7, h8⟩
        | exact ⟨h1, putIn_ne_empty _ _ _, h3, h4, h5, h6, h7, h8⟩
        | exact ⟨h1, h2, putIn_ne_empty _ _ _, h4, h5, h6, h7, h8⟩
        | exact ⟨h1, h2, h3, putIn_ne_empty _ _ _, h5, h6, h7, h8⟩)

theorem AllPlain.loadBodies {ε : Type} (E : Env) (l : List OvBody) {m m' : FMap Attribute} (h : AllPlain m)
    (hu : (loadBodies E m l : Res ε _) = .ok m') : AllPlain m' := by
  induction l generalizing m with
  | nil => cases hu; exact h
  | cons b t ih =>
    simp only [OCA.loadBodies] at hu
    obtain ⟨m1, h1, h2⟩ := Res.bind_eq_ok.mp hu
    exact ih (h.loadBody E b h1) h2

theorem AllPlain.loadFlags {ε : Type} (l : List Str) {m m' : FMap Attribute} (h : AllPlain m)
    (hu : (loadFlags m l : Res ε _) = .ok m') : AllPlain m' := by
  induction l generalizing m with
  | nil => cases hu; exact h
  | cons b t ih =>
    simp only [OCA.loadFlags] at hu
    obtain ⟨m1, h1, h2⟩ := Res.bind_eq_ok.mp hu
    refine ih (h.updAttr ?_ h1) h2
    intro a ha
    obtain ⟨h1, h2, h3, h4, h5, h6, h7, h8⟩ := ha
    exact ⟨h1, h2, h3, h4, h5, h6, h7, h8⟩

theorem BoxPlain.loadMetas (b : OCABox) (h : BoxPlain b) (l : List OvBody) : BoxPlain (loadMetas b l) := by
  unfold OCA.loadMetas
  apply foldl_inv BoxPlain _ _ _ h
  intro b body hb
  split
  · apply foldl_inv BoxPlain _ _ _ hb
    intro b p hb
    exact hb.addMeta b _ _ _
  · exact hb

theorem BoxPlain.ofBundle {ε : Type} (E : Env) (b : Bundle) (box : OCABox)
    (h : (OCABox.ofBundle E b : Res ε OCABox) = .ok box) : BoxPlain box := by
  unfold OCABox.ofBundle at h
  obtain ⟨m1, h1, h⟩ := Res.bind_eq_ok.mp h
  obtain ⟨m2, h2, h⟩ := Res.bind_eq_ok.mp h
  cases h
  have h0 : AllPlain (b.captureBase.attributes.filterMap (fun _ t => some { ty := some t : Attribute })) := by
    intro n a hg
    rw [FMap.get_filterMap] at hg
    cases hb : b.captureBase.attributes.get n with
    | none => rw [hb] at hg; cases hg
    | some t => rw [hb] at hg; cases hg; exact AttrPlain.ofType t
  have hm := BoxPlain.loadMetas { classification := some b.captureBase.classification }
    ⟨fun _ _ h => (by cases h), by simp⟩ (b.overlays.map Overlay.body)
  exact ⟨(h0.loadFlags _ h1).loadBodies E _ h2, hm.metas⟩

theorem mergeMaps_ne_empty {V : Type} {o o' : Option (FMap V)} (h : o ≠ some FMap.empty) (h' : o' ≠ some FMap.empty) : mergeMaps o o' ≠ some FMap.empty := by
  unfold mergeMaps
  split
  · exact h'
  · next m =>
    split
    · exact h
    · next m' =>
      intro e
      have e := Option.some.inj e
      refine h' (congrArg some (FMap.ext fun k => ?_))
      have := congrArg (fun x => x.get k) e
      simp only [FMap.get_insertAll_map] at this
      cases hk : m'.get k with
      | none => rfl
      | some v => rw [hk] at this; cases this

theorem AttrPlain.merge {a a' : Attribute} (h : AttrPlain a) (h' : AttrPlain a') : AttrPlain (a.merge a') := by
  have ow : ∀ {α : Type} {o o' : Option α} {x : Option α}, o ≠ x → o' ≠ x → overwrite o o' ≠ x := by
    intro α o o' x h1 h2; unfold overwrite; split
    · exact h2
    · exact h1
  refine ⟨mergeMaps_ne_empty h.labels h'.labels, mergeMaps_ne_empty h.informations h'.informations, mergeMaps_ne_empty h.entries h'.entries,
    ow h.links h'.links, ow h.framings h'.framings, ?_, ?_, ?_⟩
  · show overwrite a.mapping a'.mapping = none
    rw [h.mapping, h'.mapping]; rfl
  · show keepFirst a.entryCodesMapping a'.entryCodesMapping = none
    rw [h.codesMapping, h'.codesMapping]; rfl
  · show overwrite a.standards a'.standards = none
    rw [h.standards, h'.standards]; rfl

theorem Attribute.Made.plain {a : Attribute} (h : a.Made) : AttrPlain a := by
  induction h with
  | new => constructor <;> simp
  | @set a a' _ hc ih =>
    obtain ⟨h1, h2, h3, h4, h5, h6, h7, h8⟩ := ih
    cases hc with
    | label l s => exact ⟨putIn_ne_empty _ _ _, h2, h3, h4, h5, h6, h7, h8⟩
    | information l s => exact ⟨h1, putIn_ne_empty _ _ _, h3, h4, h5, h6, h7, h8⟩
    | entry l e => exact ⟨h1, h2, putIn_ne_empty _ _ _, h4, h5, h6, h7, h8⟩
    | link t s => exact ⟨h1, h2, h3, putIn_ne_empty _ _ _, h5, h6, h7, h8⟩
    | framing id f _ => rw [setFraming_eq]; exact ⟨h1, h2, h3, h4, insert_ne_empty _ _ _, h6, h7, h8⟩
    | _ => exact ⟨h1, h2, h3, h4, h5, h6, h7, h8⟩
  | merge _ _ ih ih' => exact ih.merge ih'

theorem BoxPlain.api {b b' : OCABox} (h : BoxPlain b) (hc : ApiCall b b') : BoxPlain b' := by
  have ins : ∀ (n : Str) (a : Attribute), AttrPlain a → BoxPlain { b with attributes := b.attributes.insert n a } := by
    intro n a ha
    refine ⟨fun n' a' hg => ?_, h.metas⟩
    simp only [FMap.get_insert] at hg
    split at hg
    · cases hg; exact ha
    · exact h.attrs n' a' hg
  cases hc with
  | add n a ha _ =>
    unfold OCABox.addAttribute
    split
    · next a0 e => exact ins n _ ((h.attrs n a0 e).merge ha.plain)
    · exact ins n a ha.plain
  | remove n =>
    refine ⟨fun n' a' hg => ?_, h.metas⟩
    simp only [OCABox.removeAttribute, FMap.get_erase] at hg
    split at hg
    · cases hg
    · exact h.attrs n' a' hg
  | addMeta l k v => exact ⟨h.attrs, insert_ne_empty _ _ _⟩
  | addClassification s => exact ⟨h.attrs, h.metas⟩
  | removeClassification => exact ⟨h.attrs, h.metas⟩

theorem Reachable.plain {E : Env} {b : OCABox} (h : Reachable E b) : BoxPlain b := by
  induction h with
  | new => exact BoxPlain.new
  | loaded b box hb => exact BoxPlain.ofBundle E b box hb
  | step b b' c _ ha ih => exact ih.applyCommand E b b' c ha
  | api b b' _ hc ih => exact ih.api hc

/-! ## An attribute is what it carries -/

theorem opt_map_ext {V : Type} {o o' : Option (FMap V)} (h : o ≠ some FMap.empty) (h' : o' ≠ some FMap.empty)
    (e : ∀ k v, (∃ m, o = some m ∧ m.get k = some v) ↔ ∃ m, o' = some m ∧ m.get k = some v) : o = o' := by
  have ne : ∀ m : FMap V, some m ≠ some (FMap.empty : FMap V) → ∃ k v, m.get k = some v := by
    intro m hm
    rcases m with ⟨l, hs⟩
    cases l with
    | nil => exact absurd rfl hm
    | cons p t => exact ⟨p.1, p.2, FMap.get_eq_some_iff.2 (List.mem_cons_self ..)⟩
  cases o with
  | none =>
    cases o' with
    | none => rfl
    | some m =>
      obtain ⟨k, v, hk⟩ := ne m h'
      obtain ⟨_, h, -⟩ := (e k v).2 ⟨m, rfl, hk⟩
      cases h
  | some m =>
    cases o' with
    | none =>
      obtain ⟨k, v, hk⟩ := ne m h
      obtain ⟨_, h, -⟩ := (e k v).1 ⟨m, rfl, hk⟩
      cases h
    | some m' =>
      congr 1
      ext k : 1
      apply Option.ext
      intro v
      constructor
      · intro hk; obtain ⟨_, h1, h2⟩ := (e k v).1 ⟨m, rfl, hk⟩; cases h1; exact h2
      · intro hk; obtain ⟨_, h1, h2⟩ := (e k v).2 ⟨m', rfl, hk⟩; cases h1; exact h2

end OCA
