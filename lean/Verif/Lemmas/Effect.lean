import Verif.Model.Build
import Verif.Lemmas.Generate
/-!
# The effect of commands on the build state
-/
namespace OCA

/-! ## Merging a modified clone back -/

theorem FMap.get_insertAll_map {V : Type} (m m' : FMap V) (k : Str) :
    (m.insertAll m'.l).get k = (m'.get k).or (m.get k) := by
  rw [FMap.get_insertAll, FMap.lastVal_perm m' (List.Perm.refl _)]

theorem FMap.insertAll_self {V : Type} (m : FMap V) : m.insertAll m.l = m := by
  ext k : 1
  rw [FMap.get_insertAll_map]
  cases m.get k <;> simp

theorem FMap.insertAll_insert {V : Type} (m : FMap V) (k : Str) (v : V) :
    m.insertAll (m.insert k v).l = m.insert k v := by
  ext k' : 1
  rw [FMap.get_insertAll_map, FMap.get_insert]
  split
  · simp
  · cases m.get k' <;> simp

@[simp] theorem overwrite_self {α : Type} (o : Option α) : overwrite o o = o := by cases o <;> rfl
@[simp] theorem overwrite_some {α : Type} (o : Option α) (v : α) : overwrite o (some v) = some v := rfl
@[simp] theorem overwrite_none {α : Type} (o : Option α) : overwrite o none = o := rfl
@[simp] theorem keepFirst_self {α : Type} (o : Option α) : keepFirst o o = o := by cases o <;> rfl
@[simp] theorem mergeMaps_self {V : Type} (o : Option (FMap V)) : mergeMaps o o = o := by
  cases o <;> simp [mergeMaps, FMap.insertAll_self]
@[simp] theorem mergeMaps_none {V : Type} (o : Option (FMap V)) : mergeMaps o none = o := by
  cases o <;> simp [mergeMaps]
@[simp] theorem keepFirst_none {V : Type} (o : Option V) : keepFirst o none = o := by
  cases o <;> simp [keepFirst]

@[simp] theorem mergeMaps_putIn {V : Type} (o : Option (FMap V)) (k : Str) (v : V) :
    mergeMaps o (putIn o k v) = putIn o k v := by
  cases o <;> simp [mergeMaps, putIn, FMap.insertAll_insert]

@[simp] theorem mergeDeps_self (c : Option Str) (d : Option (List Str)) : mergeDeps c d d = d := by
  cases c <;> simp [mergeDeps]

@[simp] theorem mergeDeps_some (s : Str) (d d' : Option (List Str)) :
    mergeDeps (some s) d d' = overwrite d d' := rfl

@[simp] theorem mergeDeps_none (d d' : Option (List Str)) : mergeDeps none d d' = d := rfl

theorem merge_self (a : Attribute) : a.merge a = a := by
  cases a; simp [Attribute.merge]

/-- The value an ADD overlay command puts into an attribute: the meaning of each overlay kind, field by
field. For units and entry codes a value already present is kept. -/
def Attribute.put (E : Env) (k : OvKind) (c : Content) (a : Attribute) (v : NVal) : Attribute :=
  match k with
  | .label => match v, c.lang E with
    | .val s, some l => { a with labels := some ((a.labels.getD FMap.empty).insert l s) }
    | _, _ => a
  | .information => match v, c.lang E with
    | .val s, some l => { a with informations := some ((a.informations.getD FMap.empty).insert l s) }
    | _, _ => a
  | .characterEncoding => match v with
    | .val s => match Encoding.ofStr s with
      | some e => { a with encoding := some e }
      | none => a
    | _ => a
  | .conformance => match v with
    | .val s => { a with conformance := some s }
    | _ => a
  | .format => match v with
    | .val s => { a with format := some s }
    | _ => a
  | .unit => match v with
    | .val s => { a with unit := a.unit.or (some s) }
    | _ => a
  | .cardinality => match v with
    | .val s => { a with cardinality := some s }
    | _ => a
  | .conditional => match v with
    | .val s => { a with condition := some (setCondition s).1, dependencies := some (setCondition s).2 }
    | _ => a
  | .entryCode => match entryCodesOf v with
    | some e => { a with entryCodes := a.entryCodes.or (some e) }
    | none => a
  | .entry => match entriesOf v, c.lang E with
    | some e, some l => { a with entries := some ((a.entries.getD FMap.empty).insert l e) }
    | _, _ => a
  | .link => match v, c.target with
    | .val s, some t => { a with links := some ((a.links.getD FMap.empty).insert t s) }
    | _, _ => a
  | .attributeFraming => match v, c.frameId with
    | .obj l, some id => { a with framings := some ((a.framings.getD FMap.empty).insert id
        (((optGet a.framings id).getD FMap.empty).insertAll (framingOf c.frameMeta l).l)) }
    | _, _ => a
  | _ => a

@[simp] theorem mergeMaps_insert {V : Type} (o : Option (FMap V)) (k : Str) (v : V) :
    mergeMaps o (some ((o.getD FMap.empty).insert k v)) = some ((o.getD FMap.empty).insert k v) := by
  cases o <;> simp [mergeMaps, FMap.insertAll_insert]

theorem putIn_eq {V : Type} (o : Option (FMap V)) (k : Str) (v : V) :
    putIn o k v = some ((o.getD FMap.empty).insert k v) := by cases o <;> rfl

theorem setFraming_eq (a : Attribute) (id : Str) (f : FMap Scope) :
    a.setFraming id f = { a with framings := some ((a.framings.getD FMap.empty).insert id
        (((optGet a.framings id).getD FMap.empty).insertAll f.l)) } := by
  have h0 : (FMap.empty : FMap Scope).insertAll f.l = f := by
    ext k : 1
    rw [FMap.get_insertAll_map]; simp
  unfold Attribute.setFraming
  cases hf : a.framings with
  | none => simp [optGet, h0]
  | some m =>
    cases hg : m.get id with
    | none => simp [optGet, hg, h0]
    | some g => simp [optGet, hg]

theorem keepFirst_or {α : Type} (o : Option α) (v : α) : keepFirst o (some v) = o.or (some v) := by
  cases o <;> rfl

/-- Merging the clone changed by the command's setter is exactly `put`. -/
theorem merge_setter (E : Env) (k : OvKind) (c : Content) {errs f} (h : ovSetter E k c = some (errs, f))
    (a a' : Attribute) (v : NVal) (hf : f a v = .ok a') : a.merge a' = a.put E k c v := by
  cases k <;> simp only [ovSetter, Option.some.injEq, Prod.mk.injEq, reduceCtorEq] at h <;>
    (obtain ⟨-, rfl⟩ := h; dsimp only at hf)
  case label =>
    cases v <;> simp only [Res.ok.injEq] at hf <;>
      first
        | (subst hf; simp [merge_self, Attribute.put])
        | (cases hl : c.lang E <;> rw [hl] at hf <;> simp at hf
           subst hf
           simp [Attribute.put, hl, Attribute.merge, Attribute.setLabel, putIn_eq])
  case information =>
    cases v <;> simp only [Res.ok.injEq] at hf <;>
      first
        | (subst hf; simp [merge_self, Attribute.put])
        | (cases hl : c.lang E <;> rw [hl] at hf <;> simp at hf
           subst hf
           simp [Attribute.put, hl, Attribute.merge, Attribute.setInformation, putIn_eq])
  case characterEncoding =>
    cases v <;> simp only [Res.ok.injEq] at hf <;>
      first
        | (subst hf; simp [merge_self, Attribute.put])
        | (rename_i s
           cases hl : Encoding.ofStr s <;> rw [hl] at hf <;> simp at hf
           subst hf
           simp [Attribute.put, hl, Attribute.merge])
  case entryCode =>
    cases hv : entryCodesOf v <;> rw [hv] at hf <;> simp only [Res.ok.injEq] at hf <;> subst hf
    · simp [merge_self, Attribute.put, hv]
    · simp [Attribute.put, hv, Attribute.merge, keepFirst_or]
  case entry =>
    cases hv : entriesOf v <;> rw [hv] at hf
    · simp only [Res.ok.injEq] at hf
      subst hf
      simp [merge_self, Attribute.put, hv]
    · cases hl : c.lang E <;> rw [hl] at hf <;> simp at hf
      subst hf
      simp [Attribute.put, hv, hl, Attribute.merge, Attribute.setEntry, putIn_eq]
  case link =>
    cases v <;> simp only [Res.ok.injEq] at hf <;>
      first
        | (subst hf; simp [merge_self, Attribute.put])
        | (cases hl : c.target <;> rw [hl] at hf <;> simp at hf
           subst hf
           simp [Attribute.put, hl, Attribute.merge, Attribute.setLink, putIn_eq])
  case attributeFraming =>
    cases v <;> simp only [Res.ok.injEq] at hf <;>
      first
        | (subst hf; simp [merge_self, Attribute.put])
        | (cases hl : c.frameId <;> rw [hl] at hf <;> simp at hf
           subst hf
           simp [Attribute.put, hl, Attribute.merge, setFraming_eq])
  all_goals
    cases v <;> simp only [Res.ok.injEq] at hf <;> subst hf <;>
      first
        | (simp [merge_self, Attribute.put]; done)
        | (simp [Attribute.put, Attribute.merge, Attribute.setCond, keepFirst_or]; done)

/-! ## Which values a command can carry -/

/-- The value can be used by a command of this kind: texts of language dependent kinds need a known
language, encodings must be known, links need a target and frames an id. -/
def valueOk (E : Env) (k : OvKind) (c : Content) (v : NVal) : Bool :=
  match k with
  | .label | .information => match v with
    | .val _ => (c.lang E).isSome
    | _ => true
  | .characterEncoding => match v with
    | .val s => (Encoding.ofStr s).isSome
    | _ => true
  | .entry => match entriesOf v with
    | some _ => (c.lang E).isSome
    | none => true
  | .link => match v with
    | .val _ => c.target.isSome
    | _ => true
  | .attributeFraming => match v with
    | .obj _ => c.frameId.isSome
    | _ => true
  | _ => true

theorem setter_cases (E : Env) (k : OvKind) (c : Content) {errs f} (h : ovSetter E k c = some (errs, f))
    (a : Attribute) (v : NVal) :
    (valueOk E k c v = true ∧ ∃ a', f a v = .ok a') ∨
    (valueOk E k c v = false ∧ k = .characterEncoding ∧ ∃ s, v = .val s ∧
      f a v = .err [c!"Unknown encoding: " ++ s]) ∨
    (valueOk E k c v = false ∧ k ≠ .characterEncoding ∧ f a v = .panic) := by
  cases k <;> simp only [ovSetter, Option.some.injEq, Prod.mk.injEq, reduceCtorEq] at h <;>
    (obtain ⟨-, rfl⟩ := h; dsimp only)
  case label => cases v <;> simp [valueOk]; cases c.lang E <;> simp
  case information => cases v <;> simp [valueOk]; cases c.lang E <;> simp
  case characterEncoding => cases v <;> simp [valueOk]; split <;> simp [*]
  case entry => cases hv : entriesOf v <;> simp [valueOk, hv]; cases c.lang E <;> simp
  case entryCode => cases hv : entryCodesOf v <;> simp [valueOk]
  case link => cases v <;> simp [valueOk]; cases c.target <;> simp
  case attributeFraming => cases v <;> simp [valueOk]; cases c.frameId <;> simp
  all_goals cases v <;> simp [valueOk]

theorem setter_ok_iff (E : Env) (k : OvKind) (c : Content) {errs f} (h : ovSetter E k c = some (errs, f))
    (a : Attribute) (v : NVal) : (∃ a', f a v = .ok a') ↔ valueOk E k c v = true := by
  rcases setter_cases E k c h a v with ⟨h1, h2⟩ | ⟨h1, -, s, -, h2⟩ | ⟨h1, -, h2⟩
  · simp [h1, h2]
  · simp [h1, h2]
  · simp [h1, h2]

/-! ## The attribute loop -/

/-- The attributes after an overlay command: named ones are changed, the others kept. -/
def putAll (E : Env) (k : OvKind) (c : Content) (m : FMap Attribute) (l : List (Str × NVal)) (n : Str) :
    Option Attribute :=
  match imGet n l with
  | some v => (m.get n).map fun a => a.put E k c v
  | none => m.get n

theorem addAttribute_some (b : OCABox) (n : Str) (a a' : Attribute) (h : b.attributes.get n = some a) :
    b.addAttribute n a' = { b with attributes := b.attributes.insert n (a.merge a') } := by
  unfold OCABox.addAttribute; rw [h]

theorem addAttribute_none (b : OCABox) (n : Str) (a' : Attribute) (h : b.attributes.get n = none) :
    b.addAttribute n a' = { b with attributes := b.attributes.insert n a' } := by
  unfold OCABox.addAttribute; rw [h]

theorem imGet_eq_none_of_notMem {V : Type} {k : Str} {l : List (Str × V)} (h : k ∉ l.map (·.1)) :
    imGet k l = none := by
  have := mt (imHas_iff_mem k l).mp h
  simpa [imHas] using this

theorem imGet_cons {V : Type} (k n : Str) (v : V) (l : List (Str × V)) :
    imGet k ((n, v) :: l) = if k = n then some v else imGet k l := rfl

theorem mem_of_imGet {V : Type} {k : Str} {v : V} {l : List (Str × V)} (h : imGet k l = some v) :
    (k, v) ∈ l := by
  induction l with
  | nil => cases h
  | cons p t ih =>
    obtain ⟨n, w⟩ := p
    rw [imGet_cons] at h
    split at h
    · next e => cases h; subst e; exact List.mem_cons_self ..
    · exact List.mem_cons_of_mem _ (ih h)

theorem imGet_of_mem {V : Type} {k : Str} {v : V} {l : List (Str × V)} (hn : (l.map (·.1)).Nodup)
    (h : (k, v) ∈ l) : imGet k l = some v := by
  induction l with
  | nil => cases h
  | cons p t ih =>
    obtain ⟨n, w⟩ := p
    simp only [List.map_cons, List.nodup_cons] at hn
    rw [imGet_cons]
    rcases List.mem_cons.mp h with e | h'
    · injection e with e1 e2; subst e1 e2; simp
    · have : k ≠ n := by
        rintro rfl
        exact hn.1 (List.mem_map.mpr ⟨(k, v), h', rfl⟩)
      rw [if_neg this]
      exact ih hn.2 h'

theorem foldRes_ov_ok (E : Env) (k : OvKind) (c : Content) {errs f} (h : ovSetter E k c = some (errs, f))
    (l : List (Str × NVal)) (hn : (l.map (·.1)).Nodup) (b b' : OCABox) :
    foldRes (ovAttrStep errs f) b l = .ok b' ↔
      (∀ p ∈ l, (b.attributes.get p.1).isSome = true ∧ valueOk E k c p.2 = true) ∧
      (∀ n, b'.attributes.get n = putAll E k c b.attributes l n) ∧
      b'.mappings = b.mappings ∧ b'.metaMap = b.metaMap ∧ b'.classification = b.classification := by
  induction l generalizing b with
  | nil =>
    simp only [foldRes, Res.ok.injEq, List.not_mem_nil, false_implies, implies_true, true_and, putAll]
    have : ∀ n, imGet n ([] : List (Str × NVal)) = none := fun _ => rfl
    simp only [this]
    constructor
    · rintro rfl; simp
    · rintro ⟨h1, h2, h3, h4⟩
      obtain ⟨x1, x2, x3, x4⟩ := b
      obtain ⟨y1, y2, y3, y4⟩ := b'
      have e : y1 = x1 := FMap.ext h1
      simp only at h2 h3 h4
      rw [e, h2, h3, h4]
  | cons p t ih =>
    obtain ⟨n, v⟩ := p
    simp only [List.map_cons, List.nodup_cons] at hn
    simp only [foldRes, ovAttrStep]
    cases hg : b.attributes.get n with
    | none =>
      simp only [Res.bind_err, reduceCtorEq, false_iff]
      rintro ⟨h1, -⟩
      have := (h1 (n, v) (List.mem_cons_self ..)).1
      rw [hg] at this; cases this
    | some a =>
      simp only
      rcases setter_cases E k c h a v with ⟨h1, a', h2⟩ | ⟨h1, -, s, -, h2⟩ | ⟨h1, -, h2⟩
      · rw [h2]
        simp only [Res.bind_ok, Res.pure_eq]
        rw [addAttribute_some b n a a' hg, merge_setter E k c h a a' v h2, ih hn.2]
        have key : ∀ m, putAll E k c (b.attributes.insert n (a.put E k c v)) t m
            = putAll E k c b.attributes ((n, v) :: t) m := by
          intro m
          unfold putAll
          rw [imGet_cons]
          by_cases e : m = n
          · subst e
            rw [if_pos rfl, imGet_eq_none_of_notMem hn.1]
            simp [FMap.get_insert, hg]
          · rw [if_neg e]
            simp [FMap.get_insert, e]
        have hall : (∀ p ∈ t, ((b.attributes.insert n (a.put E k c v)).get p.1).isSome = true ∧
              valueOk E k c p.2 = true) ↔
            ∀ p ∈ (n, v) :: t, (b.attributes.get p.1).isSome = true ∧ valueOk E k c p.2 = true := by
          constructor
          · intro hh p hp
            rcases List.mem_cons.mp hp with rfl | hp
            · exact ⟨by simp [hg], h1⟩
            · have := hh p hp
              have e : p.1 ≠ n := fun e => hn.1 (e ▸ List.mem_map_of_mem hp)
              rw [FMap.get_insert, if_neg e] at this; exact this
          · intro hh p hp
            have := hh p (List.mem_cons_of_mem _ hp)
            have e : p.1 ≠ n := fun e => hn.1 (e ▸ List.mem_map_of_mem hp)
            rw [FMap.get_insert, if_neg e]; exact this
        rw [hall]
        simp only [key]
      · rw [h2]
        simp only [Res.bind_err, reduceCtorEq, false_iff]
        rintro ⟨hh, -⟩
        have := (hh (n, v) (List.mem_cons_self ..)).2
        rw [h1] at this; cases this
      · rw [h2]
        simp only [Res.bind_panic, reduceCtorEq, false_iff]
        rintro ⟨hh, -⟩
        have := (hh (n, v) (List.mem_cons_self ..)).2
        rw [h1] at this; cases this

/-! ## Metas -/

/-- the text among the properties -/
def textPairs (l : List (Str × NVal)) : List (Str × Str) :=
  l.filterMap fun p => match p.2 with
    | .val s => some (p.1, s)
    | _ => none

theorem FMap.insert_insert {V : Type} (m : FMap V) (k : Str) (v w : V) :
    (m.insert k v).insert k w = m.insert k w := by
  ext k' : 1
  simp only [FMap.get_insert]
  split <;> rfl

theorem FMap.insert_comm {V : Type} (m : FMap V) (k k' : Str) (v w : V) (h : k ≠ k') :
    (m.insert k v).insert k' w = (m.insert k' w).insert k v := by
  ext x : 1
  simp only [FMap.get_insert]
  by_cases h1 : x = k
  · subst h1; simp [h]
  · simp [h1]

/-- the metas after adding pairs for one language -/
def metaPut (m : Option (FMap (FMap Str))) (l : Lang) (ps : List (Str × Str)) : Option (FMap (FMap Str)) :=
  if ps = [] then m else
    some ((m.getD FMap.empty).insert l ((((m.getD FMap.empty).get l).getD FMap.empty).insertAll ps))

theorem foldl_addMeta (l : Lang) (ps : List (Str × Str)) (b : OCABox) :
    ps.foldl (fun b p => b.addMeta l p.1 p.2) b =
      { b with metaMap := metaPut b.metaMap l ps } := by
  unfold metaPut
  induction ps generalizing b with
  | nil => simp
  | cons p t ih =>
    rw [List.foldl_cons, ih]
    by_cases ht : t = []
    · subst ht
      simp [OCABox.addMeta]
    · simp [ht, OCABox.addMeta, FMap.get_insert, FMap.insert_insert]

theorem foldRes_meta {ε : Type} (lang : Option Lang) (l : List (Str × NVal)) (b b' : OCABox) :
    foldRes (ε := ε) (metaStep lang) b l = .ok b' ↔
      (textPairs l = [] ∧ b' = b) ∨
      (∃ la, lang = some la ∧ b' = (textPairs l).foldl (fun b p => b.addMeta la p.1 p.2) b) := by
  induction l generalizing b with
  | nil =>
    simp only [foldRes, Res.ok.injEq, textPairs, List.filterMap_nil, List.foldl_nil, true_and]
    constructor
    · intro h; exact .inl h.symm
    · rintro (h | ⟨-, -, h⟩) <;> exact h.symm
  | cons p t ih =>
    obtain ⟨n, v⟩ := p
    simp only [foldRes, metaStep]
    cases v with
    | val s =>
      have e : textPairs ((n, NVal.val s) :: t) = (n, s) :: textPairs t := rfl
      rw [e]
      cases lang with
      | none => simp
      | some la =>
        simp only [Res.unwrap_some, Res.bind_ok, Res.pure_eq]
        rw [ih]
        simp only [reduceCtorEq, false_and, false_or, List.foldl_cons, Option.some.injEq]
        constructor
        · rintro (⟨h, rfl⟩ | h)
          · exact ⟨la, rfl, by rw [h]; rfl⟩
          · obtain ⟨_, rfl, h⟩ := h; exact ⟨_, rfl, h⟩
        · rintro ⟨_, rfl, h⟩; exact .inr ⟨_, rfl, h⟩
    | _ =>
      simp only [Res.bind_ok]
      rw [ih]
      rfl

theorem foldRes_meta_cases {ε : Type} (lang : Option Lang) (l : List (Str × NVal)) (b : OCABox) :
    (∃ b', foldRes (ε := ε) (metaStep lang) b l = .ok b') ∨
    (foldRes (ε := ε) (metaStep lang) b l = .panic ∧ lang = none ∧ textPairs l ≠ []) := by
  induction l generalizing b with
  | nil => exact .inl ⟨b, rfl⟩
  | cons p t ih =>
    obtain ⟨n, v⟩ := p
    simp only [foldRes, metaStep]
    cases v with
    | val s =>
      have e : textPairs ((n, NVal.val s) :: t) = (n, s) :: textPairs t := rfl
      rw [e]
      cases lang with
      | none => right; simp
      | some la =>
        simp only [Res.unwrap_some, Res.bind_ok, Res.pure_eq]
        rcases ih (b.addMeta la n s) with h | ⟨-, h, -⟩
        · exact .inl h
        · cases h
    | _ =>
      simp only [Res.bind_ok]
      exact ih b

/-! ## Capture base commands -/

/-- ADD ATTRIBUTE on one attribute: a new one is blank but for its type, an existing one gets the type. -/
def setType (o : Option Attribute) (t : NAttr) : Attribute :=
  match o with
  | some a => { a with ty := some t }
  | none => { ty := some t }

theorem merge_ty (a : Attribute) (t : NAttr) : a.merge { ty := some t } = { a with ty := some t } := by
  cases a; simp [Attribute.merge]

theorem addAttrStep_eq (b : OCABox) (p : Str × NAttr) :
    addAttrStep b p = { b with attributes := b.attributes.insert p.1 (setType (b.attributes.get p.1) p.2) } := by
  unfold addAttrStep
  cases h : b.attributes.get p.1 with
  | none => rw [addAttribute_none b p.1 _ h]; rfl
  | some a => rw [addAttribute_some b p.1 a _ h, merge_ty]; rfl

theorem foldl_addAttr (l : List (Str × NAttr)) (b : OCABox) :
    (∀ n, (l.foldl addAttrStep b).attributes.get n =
      match FMap.lastVal l n with
      | some t => some (setType (b.attributes.get n) t)
      | none => b.attributes.get n) ∧
    (l.foldl addAttrStep b).mappings = b.mappings ∧ (l.foldl addAttrStep b).metaMap = b.metaMap ∧
    (l.foldl addAttrStep b).classification = b.classification := by
  induction l generalizing b with
  | nil => simp
  | cons p t ih =>
    rw [List.foldl_cons, addAttrStep_eq]
    obtain ⟨h1, h2, h3, h4⟩ := ih { b with attributes := b.attributes.insert p.1 (setType (b.attributes.get p.1) p.2) }
    refine ⟨?_, h2, h3, h4⟩
    intro n
    rw [h1, FMap.lastVal_cons]
    simp only [FMap.get_insert]
    by_cases e : n = p.1
    · subst e
      simp only [if_pos]
      cases FMap.lastVal t p.1 with
      | none => simp
      | some w =>
        simp only [Option.some_or, Option.some.injEq]
        cases b.attributes.get p.1 <;> rfl
    · simp only [if_neg e, Option.or_none]

/-- the classification a list of properties sets, if any: the last text property named `classification` -/
def classOf (l : List (Str × NVal)) : Option Str := FMap.lastVal (textPairs l) c!"classification"

theorem addPropStep_eq (b : OCABox) (l : List (Str × NVal)) :
    l.foldl addPropStep b = { b with classification := (classOf l).or b.classification } := by
  induction l generalizing b with
  | nil => simp [classOf, textPairs]
  | cons p t ih =>
    obtain ⟨n, v⟩ := p
    rw [List.foldl_cons, ih]
    unfold addPropStep
    by_cases hn : n = c!"classification"
    · subst hn
      cases v with
      | val s =>
        have e : textPairs ((c!"classification", NVal.val s) :: t) = (c!"classification", s) :: textPairs t := rfl
        simp only [if_true, classOf, e, FMap.lastVal_cons]
        cases FMap.lastVal (textPairs t) c!"classification" <;> simp
      | _ => rfl
    · simp only [if_neg hn]
      cases v with
      | val s =>
        have e : textPairs ((n, NVal.val s) :: t) = (n, s) :: textPairs t := rfl
        simp only [classOf, e, FMap.lastVal_cons, if_neg (fun e => hn (Eq.symm e)), Option.or_none]
      | _ => rfl

theorem removeProps_eq (b : OCABox) (l : List (Str × NVal)) :
    l.foldl removePropStep b =
      { b with classification := if c!"classification" ∈ l.map (·.1) then none else b.classification } := by
  induction l generalizing b with
  | nil => simp
  | cons p t ih =>
    rw [List.foldl_cons, ih]
    unfold removePropStep
    by_cases hn : p.1 = c!"classification"
    · simp [hn]
    · simp only [if_neg hn, List.map_cons]
      congr 1
      have hn' : ¬ c!"classification" = p.1 := fun e => hn e.symm
      by_cases ht : c!"classification" ∈ t.map (·.1)
      · rw [if_pos ht, if_pos (List.mem_cons_of_mem _ ht)]
      · rw [if_neg ht, if_neg (fun h => (List.mem_cons.mp h).elim hn' ht)]

theorem removeAttrs_eq (b : OCABox) (l : List (Str × NAttr)) :
    (∀ n, (l.foldl (fun b p => b.removeAttribute p.1) b).attributes.get n =
      if n ∈ l.map (·.1) then none else b.attributes.get n) ∧
    (l.foldl (fun b p => b.removeAttribute p.1) b).mappings = b.mappings ∧
    (l.foldl (fun b p => b.removeAttribute p.1) b).metaMap = b.metaMap ∧
    (l.foldl (fun b p => b.removeAttribute p.1) b).classification = b.classification := by
  induction l generalizing b with
  | nil => simp
  | cons p t ih =>
    rw [List.foldl_cons]
    obtain ⟨h1, h2, h3, h4⟩ := ih (b.removeAttribute p.1)
    refine ⟨?_, h2, h3, h4⟩
    intro n
    rw [h1]
    simp only [OCABox.removeAttribute, FMap.get_erase, List.map_cons]
    by_cases e : n = p.1
    · simp [e]
    · rw [if_neg e]
      by_cases ht : n ∈ t.map (·.1)
      · rw [if_pos ht, if_pos (List.mem_cons_of_mem _ ht)]
      · rw [if_neg ht, if_neg (fun h => (List.mem_cons.mp h).elim e ht)]

end OCA
