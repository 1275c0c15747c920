import Verif.Props.Histories
/-!
# C20: independent ADD commands commute
-/
namespace OCA

/-! ## Specification -/

/-- the attribute names a command mentions -/
def Command.touches (c : Command) : List Str :=
  match c.obj with
  | .captureBase cc => (cc.attributes.getD []).map (·.1)
  | .overlay _ cc => (cc.attributes.getD []).map (·.1)
  | .ocaBundle _ => []

/-- the language of a META command and the names of the texts it sets -/
def metaKeys (E : Env) (cc : Content) : List (Option Lang × Str) :=
  cc.metaPairs.map fun p => (cc.lang E, p.1)

/-- Two ADD commands are independent:
* on the capture base: they name different attributes and do not both set the classification;
* one on the capture base, one overlay: they name different attributes;
* two METAs: they set texts in different languages or with different names;
* two other overlays: different attributes, or a different kind, language, link target or frame. -/
def Independent (E : Env) (c c' : Command) : Prop :=
  c.kind = .add ∧ c'.kind = .add ∧
  match c.obj, c'.obj with
  | .captureBase _, .captureBase _ =>
    (∀ n ∈ c.touches, n ∉ c'.touches) ∧ (classEffect c = none ∨ classEffect c' = none)
  | .captureBase _, .overlay _ _ => ∀ n ∈ c.touches, n ∉ c'.touches
  | .overlay _ _, .captureBase _ => ∀ n ∈ c.touches, n ∉ c'.touches
  | .overlay t x, .overlay t' y =>
    if t.kind = .metaOv ∧ t'.kind = .metaOv then
      (∀ p ∈ metaKeys E x, p ∉ metaKeys E y)
    else (∀ n ∈ c.touches, n ∉ c'.touches) ∨ addressed E t.kind x ≠ addressed E t'.kind y
  | _, _ => False

/-! ## Lemmas -/

theorem FMap.insertAll_comm {V : Type} (m : FMap V) (l l' : List (Str × V))
    (h : ∀ p ∈ l, ∀ q ∈ l', p.1 ≠ q.1) : (m.insertAll l).insertAll l' = (m.insertAll l').insertAll l := by
  ext k : 1
  simp only [FMap.get_insertAll]
  cases h1 : FMap.lastVal l k with
  | none => cases FMap.lastVal l' k <;> simp
  | some v =>
    cases h2 : FMap.lastVal l' k with
    | none => simp
    | some w => exact absurd rfl (h (k, v) (FMap.mem_of_lastVal h1) (k, w) (FMap.mem_of_lastVal h2))

/-- a change to one field of an attribute -/
inductive Delta where
  | none
  | labels (g : Option (FMap Str) → Option (FMap Str))
  | informations (g : Option (FMap Str) → Option (FMap Str))
  | links (g : Option (FMap Str) → Option (FMap Str))
  | framings (g : Option (FMap (FMap Scope)) → Option (FMap (FMap Scope)))
  | entries (g : Option (FMap EntriesEl) → Option (FMap EntriesEl))
  | encoding (g : Option Encoding → Option Encoding)
  | entryCodes (g : Option EntryCodes → Option EntryCodes)
  | conformance (g : Option Str → Option Str)
  | format (g : Option Str → Option Str)
  | cardinality (g : Option Str → Option Str)
  | unit (g : Option Str → Option Str)
  | condition (g : Option Str → Option Str) (g' : Option (List Str) → Option (List Str))

/-- make the change -/
def Delta.run (a : Attribute) : Delta → Attribute
  | .none => a
  | .labels g => { a with labels := g a.labels }
  | .informations g => { a with informations := g a.informations }
  | .links g => { a with links := g a.links }
  | .framings g => { a with framings := g a.framings }
  | .entries g => { a with entries := g a.entries }
  | .encoding g => { a with encoding := g a.encoding }
  | .entryCodes g => { a with entryCodes := g a.entryCodes }
  | .conformance g => { a with conformance := g a.conformance }
  | .format g => { a with format := g a.format }
  | .cardinality g => { a with cardinality := g a.cardinality }
  | .unit g => { a with unit := g a.unit }
  | .condition g g' => { a with condition := g a.condition, dependencies := g' a.dependencies }

/-- the kind of overlay the field belongs to -/
def Delta.kind : Delta → Option OvKind
  | .none => Option.none
  | .labels _ => some .label
  | .informations _ => some .information
  | .links _ => some .link
  | .framings _ => some .attributeFraming
  | .entries _ => some .entry
  | .encoding _ => some .characterEncoding
  | .entryCodes _ => some .entryCode
  | .conformance _ => some .conformance
  | .format _ => some .format
  | .cardinality _ => some .cardinality
  | .unit _ => some .unit
  | .condition _ _ => some .conditional

theorem Delta.comm (d d' : Delta) (h : d.kind ≠ d'.kind) (a : Attribute) : d'.run (d.run a) = d.run (d'.run a) := by
  cases d <;> cases d' <;> first | rfl | exact absurd rfl h

theorem put_delta (E : Env) (k : OvKind) (c : Content) (v : NVal) :
    ∃ d : Delta, (d = .none ∨ d.kind = some k) ∧ ∀ a : Attribute, a.put E k c v = d.run a := by
  cases k
  case label =>
    cases v <;> (try exact ⟨.none, .inl rfl, fun a => rfl⟩)
    rename_i s
    cases hl : c.lang E with
    | none => exact ⟨.none, .inl rfl, fun a => by simp [Attribute.put, hl, Delta.run]⟩
    | some l => exact ⟨.labels (fun o => some ((o.getD FMap.empty).insert l s)), .inr rfl,
        fun a => by simp [Attribute.put, hl, Delta.run]⟩
  case information =>
    cases v <;> (try exact ⟨.none, .inl rfl, fun a => rfl⟩)
    rename_i s
    cases hl : c.lang E with
    | none => exact ⟨.none, .inl rfl, fun a => by simp [Attribute.put, hl, Delta.run]⟩
    | some l => exact ⟨.informations (fun o => some ((o.getD FMap.empty).insert l s)), .inr rfl,
        fun a => by simp [Attribute.put, hl, Delta.run]⟩
  case link =>
    cases v <;> (try exact ⟨.none, .inl rfl, fun a => rfl⟩)
    rename_i s
    cases hl : c.target with
    | none => exact ⟨.none, .inl rfl, fun a => by simp [Attribute.put, hl, Delta.run]⟩
    | some l => exact ⟨.links (fun o => some ((o.getD FMap.empty).insert l s)), .inr rfl,
        fun a => by simp [Attribute.put, hl, Delta.run]⟩
  case attributeFraming =>
    cases v <;> (try exact ⟨.none, .inl rfl, fun a => rfl⟩)
    rename_i l
    cases hl : c.frameId with
    | none => exact ⟨.none, .inl rfl, fun a => by simp [Attribute.put, hl, Delta.run]⟩
    | some id => exact ⟨.framings (fun o => some ((o.getD FMap.empty).insert id
        (((optGet o id).getD FMap.empty).insertAll (framingOf c.frameMeta l).l))), .inr rfl,
        fun a => by simp [Attribute.put, hl, Delta.run]⟩
  case entry =>
    cases hv : entriesOf v with
    | none => exact ⟨.none, .inl rfl, fun a => by simp [Attribute.put, hv, Delta.run]⟩
    | some e =>
      cases hl : c.lang E with
      | none => exact ⟨.none, .inl rfl, fun a => by simp [Attribute.put, hl, hv, Delta.run]⟩
      | some l => exact ⟨.entries (fun o => some ((o.getD FMap.empty).insert l e)), .inr rfl,
          fun a => by simp [Attribute.put, hl, hv, Delta.run]⟩
  case characterEncoding =>
    cases v <;> (try exact ⟨.none, .inl rfl, fun a => rfl⟩)
    rename_i s
    cases hl : Encoding.ofStr s with
    | none => exact ⟨.none, .inl rfl, fun a => by simp [Attribute.put, hl, Delta.run]⟩
    | some l => exact ⟨.encoding (fun _ => some l), .inr rfl, fun a => by simp [Attribute.put, hl, Delta.run]⟩
  case entryCode =>
    cases hv : entryCodesOf v with
    | none => exact ⟨.none, .inl rfl, fun a => by simp [Attribute.put, hv, Delta.run]⟩
    | some e => exact ⟨.entryCodes (fun o => o.or (some e)), .inr rfl,
        fun a => by simp [Attribute.put, hv, Delta.run]⟩
  case conformance =>
    cases v <;> (try exact ⟨.none, .inl rfl, fun a => rfl⟩)
    rename_i s; exact ⟨.conformance (fun _ => some s), .inr rfl, fun a => rfl⟩
  case format =>
    cases v <;> (try exact ⟨.none, .inl rfl, fun a => rfl⟩)
    rename_i s; exact ⟨.format (fun _ => some s), .inr rfl, fun a => rfl⟩
  case cardinality =>
    cases v <;> (try exact ⟨.none, .inl rfl, fun a => rfl⟩)
    rename_i s; exact ⟨.cardinality (fun _ => some s), .inr rfl, fun a => rfl⟩
  case unit =>
    cases v <;> (try exact ⟨.none, .inl rfl, fun a => rfl⟩)
    rename_i s; exact ⟨.unit (fun o => o.or (some s)), .inr rfl, fun a => rfl⟩
  case conditional =>
    cases v <;> (try exact ⟨.none, .inl rfl, fun a => rfl⟩)
    rename_i s
    exact ⟨.condition (fun _ => some (setCondition s).1) (fun _ => some (setCondition s).2), .inr rfl, fun a => rfl⟩
  all_goals exact ⟨.none, .inl rfl, fun a => rfl⟩

theorem put_comm (E : Env) (k k' : OvKind) (c c' : Content) (a : Attribute) (v v' : NVal)
    (h : addressed E k c ≠ addressed E k' c') :
    (a.put E k c v).put E k' c' v' = (a.put E k' c' v').put E k c v := by
  by_cases hk : k = k'
  · subst hk
    have ins : ∀ {V : Type} (o : Option (FMap V)) (l l' : Str) (x y : V), l ≠ l' →
        (some (((some ((o.getD FMap.empty).insert l x)).getD FMap.empty).insert l' y) : Option (FMap V)) =
        some (((some ((o.getD FMap.empty).insert l' y)).getD FMap.empty).insert l x) := by
      intro V o l l' x y hne
      simp only [Option.getD_some, FMap.insert_comm _ _ _ _ _ hne]
    cases k
    case label =>
      cases v <;> cases v' <;> try rfl
      simp only [Attribute.put]
      cases hl : c.lang E <;> cases hl' : c'.lang E <;> try rfl
      rename_i l l'
      have hne : l ≠ l' := by rintro rfl; exact h (by simp [addressed, hl, hl'])
      simp only [ins _ l l' _ _ hne]
    case information =>
      cases v <;> cases v' <;> try rfl
      simp only [Attribute.put]
      cases hl : c.lang E <;> cases hl' : c'.lang E <;> try rfl
      rename_i l l'
      have hne : l ≠ l' := by rintro rfl; exact h (by simp [addressed, hl, hl'])
      simp only [ins _ l l' _ _ hne]
    case link =>
      cases v <;> cases v' <;> try rfl
      simp only [Attribute.put]
      cases hl : c.target <;> cases hl' : c'.target <;> try rfl
      rename_i l l'
      have hne : l ≠ l' := by rintro rfl; exact h (by simp [addressed, hl, hl'])
      simp only [ins _ l l' _ _ hne]
    case entry =>
      simp only [Attribute.put]
      cases hv : entriesOf v <;> cases hv' : entriesOf v' <;> try rfl
      cases hl : c.lang E <;> cases hl' : c'.lang E <;> try rfl
      rename_i l l'
      have hne : l ≠ l' := by rintro rfl; exact h (by simp [addressed, hl, hl'])
      simp only [ins _ l l' _ _ hne]
    case attributeFraming =>
      cases v <;> cases v' <;> try rfl
      simp only [Attribute.put]
      cases hl : c.frameId <;> cases hl' : c'.frameId <;> try rfl
      rename_i l l'
      have hne : l ≠ l' := by rintro rfl; exact h (by simp [addressed, hl, hl'])
      have hne' : l' ≠ l := fun e => hne e.symm
      simp only [optGet, Option.bind_some, FMap.get_insert, if_neg hne, if_neg hne', ins _ l l' _ _ hne]
      cases a.framings <;> simp
    all_goals exact absurd rfl h
  · obtain ⟨d, hd, e⟩ := put_delta E k c v
    obtain ⟨d', hd', e'⟩ := put_delta E k' c' v'
    rw [e, e', e', e]
    rcases hd with rfl | hd
    · rfl
    · rcases hd' with rfl | hd'
      · rfl
      · refine Delta.comm d d' ?_ a
        rw [hd, hd']
        intro x; exact hk (Option.some.inj x)

/-! ## Accepted ADD commands in closed form -/

/-- when an ADD command is accepted -/
def AddOk (E : Env) (o : ObjKind) (b : OCABox) : Prop :=
  match o with
  | .captureBase _ => True
  | .ocaBundle _ => False
  | .overlay t c =>
    if t.kind = .metaOv then c.metaPairs = [] ∨ (c.lang E).isSome = true
    else if loopKind t.kind = true then headOk t.kind c = true ∧
      ∀ p ∈ c.attrs, (b.attributes.get p.1).isSome = true ∧ valueOk E t.kind c p.2 = true
    else True

/-- its effect -/
def addEff (E : Env) (o : ObjKind) (b : OCABox) : OCABox :=
  match o with
  | .captureBase c => boxAdd c b
  | .ocaBundle _ => b
  | .overlay t c =>
    if t.kind = .metaOv then
      match c.lang E with
      | some l => { b with metaMap := metaPut b.metaMap l c.metaPairs }
      | none => b
    else if loopKind t.kind = true then boxPut E t.kind c b
    else b

theorem add_ok_iff (E : Env) (o : ObjKind) (hd : Command.DistinctKeys ⟨.add, o⟩) (b b' : OCABox) :
    applyCommand E (some b) ⟨.add, o⟩ = .ok b' ↔ AddOk E o b ∧ b' = addEff E o b := by
  cases o with
  | captureBase c => rw [applyAddBase]; simp [AddOk, addEff, eq_comm]
  | ocaBundle r => simp [applyCommand, AddOk]
  | overlay t c =>
    have e : applyCommand E (some b) ⟨.add, .overlay t c⟩ = applyOverlay E b t.kind c := rfl
    rw [e]
    simp only [AddOk, addEff]
    by_cases hm : t.kind = .metaOv
    · rw [if_pos hm, if_pos hm, hm, applyOverlay_meta, applyMeta_ok_iff]
      cases hl : c.lang E with
      | none => simp
      | some l =>
        simp only [Option.some.injEq, exists_eq_left', Option.isSome_some, or_true, true_and]
        constructor
        · rintro (⟨h1, rfl⟩ | h)
          · simp [h1, metaPut]
          · exact h
        · exact fun h => .inr h
    · rw [if_neg hm, if_neg hm]
      by_cases hk : loopKind t.kind = true
      · rw [if_pos hk, if_pos hk, applyOverlay_ok_iff E _ _ _ _ hk hd, and_assoc]
      · rw [if_neg hk, if_neg hk, applyOverlay_other E _ _ _ (by simpa using hk) hm]
        simp [eq_comm]

theorem addEff_present (E : Env) (o o' : ObjKind) (b : OCABox) (n : Str)
    (h : n ∉ Command.touches ⟨.add, o⟩ ∨ ∃ t c, o = .overlay t c) (_ : o' = o') :
    ((addEff E o b).attributes.get n).isSome = (b.attributes.get n).isSome := by
  cases o with
  | captureBase c =>
    rcases h with h | ⟨t, c', e⟩
    · simp only [addEff, get_boxAdd]
      have : FMap.lastVal (c.attributes.getD []) n = none := by
        rw [FMap.lastVal_eq_none]
        intro p hp e
        exact h (List.mem_map.mpr ⟨p, hp, e⟩)
      rw [this]
    · cases e
  | ocaBundle r => rfl
  | overlay t c =>
    simp only [addEff]
    split
    · split <;> rfl
    · split
      · rw [get_boxPut]; simp
      · rfl

theorem metaPut_comm (m : Option (FMap (FMap Str))) (l l' : Lang) (ps ps' : List (Str × Str))
    (h : l ≠ l' ∨ ∀ p ∈ ps, ∀ q ∈ ps', p.1 ≠ q.1) :
    metaPut (metaPut m l ps) l' ps' = metaPut (metaPut m l' ps') l ps := by
  unfold metaPut
  by_cases h1 : ps = []
  · simp [h1]
  · by_cases h2 : ps' = []
    · simp [h2]
    · simp only [h1, h2, if_false, Option.getD_some, FMap.get_insert]
      by_cases hl : l = l'
      · subst hl
        simp only [if_true, Option.getD_some, FMap.insert_insert]
        rcases h with h | h
        · exact absurd rfl h
        · rw [FMap.insertAll_comm _ _ _ h]
      · have hl' : ¬ l' = l := fun e => hl e.symm
        simp only [hl, hl', if_false]
        rw [FMap.insert_comm _ _ _ _ _ hl]

theorem boxPut_comm (E : Env) (k k' : OvKind) (c c' : Content) (b : OCABox)
    (h : (∀ n ∈ c.attrs.map (·.1), n ∉ c'.attrs.map (·.1)) ∨ addressed E k c ≠ addressed E k' c') :
    boxPut E k' c' (boxPut E k c b) = boxPut E k c (boxPut E k' c' b) := by
  refine OCABox.ext' (fun n => ?_) rfl rfl rfl
  simp only [get_boxPut, Option.map_map]
  cases b.attributes.get n with
  | none => rfl
  | some a =>
    simp only [Option.map_some, Function.comp_apply, Option.some.injEq]
    unfold putOne
    cases h1 : imGet n c.attrs with
    | none => rfl
    | some v =>
      cases h2 : imGet n c'.attrs with
      | none => rfl
      | some v' =>
        simp only
        rcases h with h | h
        · exact absurd (List.mem_map.mpr ⟨_, mem_of_imGet h2, rfl⟩) (h n (List.mem_map.mpr ⟨_, mem_of_imGet h1, rfl⟩))
        · exact put_comm E k k' c c' a v v' h

theorem boxAdd_boxPut (E : Env) (k : OvKind) (c : Content) (cc : CaptureContent) (b : OCABox)
    (h : ∀ n ∈ (cc.attributes.getD []).map (·.1), n ∉ c.attrs.map (·.1)) :
    boxPut E k c (boxAdd cc b) = boxAdd cc (boxPut E k c b) := by
  refine OCABox.ext' (fun n => ?_) ?_ ?_ ?_
  · rw [get_boxPut, get_boxAdd, get_boxAdd, get_boxPut]
    cases h1 : FMap.lastVal (cc.attributes.getD []) n with
    | none => rfl
    | some t =>
      have hn : n ∉ c.attrs.map (·.1) := h n (List.mem_map.mpr ⟨_, FMap.mem_of_lastVal h1, rfl⟩)
      have e : ∀ a, putOne E k c n a = a := by
        intro a; unfold putOne; rw [imGet_eq_none_of_notMem hn]
      cases b.attributes.get n <;> simp [e]
  · rw [(boxAdd_rest cc _).1]; exact (boxAdd_rest cc b).1
  · rw [(boxAdd_rest cc _).2.1]; exact (boxAdd_rest cc b).2.1
  · rw [(boxAdd_rest cc _).2.2]; exact (boxAdd_rest cc b).2.2

theorem boxAdd_meta (cc : CaptureContent) (b : OCABox) (f : Option (FMap (FMap Str)) → Option (FMap (FMap Str))) :
    boxAdd cc { b with metaMap := f b.metaMap } = { boxAdd cc b with metaMap := f (boxAdd cc b).metaMap } := by
  refine OCABox.ext' (fun n => ?_) ?_ ?_ ?_
  · rw [get_boxAdd]; exact (get_boxAdd cc b n).symm
  · rw [(boxAdd_rest cc _).1]; exact (boxAdd_rest cc b).1.symm
  · rw [(boxAdd_rest cc _).2.1]; simp only [(boxAdd_rest cc b).2.1]
  · rfl

theorem boxAdd_comm (c c' : CaptureContent) (b : OCABox)
    (h : ∀ n ∈ (c.attributes.getD []).map (·.1), n ∉ (c'.attributes.getD []).map (·.1))
    (hc : classOf (c.properties.getD []) = none ∨ classOf (c'.properties.getD []) = none) :
    boxAdd c' (boxAdd c b) = boxAdd c (boxAdd c' b) := by
  refine OCABox.ext' (fun n => ?_) ?_ ?_ ?_
  · simp only [get_boxAdd]
    cases h1 : FMap.lastVal (c.attributes.getD []) n with
    | none => cases FMap.lastVal (c'.attributes.getD []) n <;> rfl
    | some t =>
      cases h2 : FMap.lastVal (c'.attributes.getD []) n with
      | none => rfl
      | some t' =>
        have m1 : n ∈ (c.attributes.getD []).map (·.1) := List.mem_map.mpr ⟨_, FMap.mem_of_lastVal h1, rfl⟩
        have m2 : n ∈ (c'.attributes.getD []).map (·.1) := List.mem_map.mpr ⟨_, FMap.mem_of_lastVal h2, rfl⟩
        exact absurd m2 (h n m1)
  · simp only [(boxAdd_rest _ _).1]
  · simp only [(boxAdd_rest _ _).2.1]
  · simp only [(boxAdd_rest _ _).2.2]
    rcases hc with hc | hc <;> rw [hc] <;> simp

theorem Independent.symm {E : Env} {c c' : Command} (h : Independent E c c') : Independent E c' c := by
  obtain ⟨k, o⟩ := c
  obtain ⟨k', o'⟩ := c'
  obtain ⟨h1, h2, h3⟩ := h
  refine ⟨h2, h1, ?_⟩
  cases o <;> cases o' <;> simp only at h3 ⊢
  · exact ⟨fun n hn hn' => h3.1 n hn' hn, h3.2.symm⟩
  · exact fun n hn hn' => h3 n hn' hn
  · exact fun n hn hn' => h3 n hn' hn
  · split at h3
    · next hh => rw [if_pos ⟨hh.2, hh.1⟩]; exact fun p hp hp' => h3 p hp' hp
    · next hh =>
      rw [if_neg (fun x => hh ⟨x.2, x.1⟩)]
      rcases h3 with h3 | h3
      · exact .inl (fun n hn hn' => h3 n hn' hn)
      · exact .inr (fun e => h3 e.symm)

theorem addEff_comm (E : Env) (o o' : ObjKind) (b : OCABox) (h : Independent E ⟨.add, o⟩ ⟨.add, o'⟩) :
    addEff E o' (addEff E o b) = addEff E o (addEff E o' b) := by
  have mixed : ∀ (c : CaptureContent) (t : OverlayType) (x : Content),
      (∀ n ∈ (c.attributes.getD []).map (·.1), n ∉ (x.attributes.getD []).map (·.1)) →
      addEff E (.overlay t x) (addEff E (.captureBase c) b) = addEff E (.captureBase c) (addEff E (.overlay t x) b) := by
    intro c t x hd
    simp only [addEff]
    by_cases hm : t.kind = .metaOv
    · simp only [hm, if_true]
      cases x.lang E with
      | none => rfl
      | some l => exact (boxAdd_meta c b (fun m => metaPut m l x.metaPairs)).symm
    · simp only [hm, if_false]
      split
      · exact boxAdd_boxPut E t.kind x c b hd
      · rfl
  obtain ⟨-, -, h3⟩ := h
  cases o with
  | ocaBundle r => cases o' <;> exact h3.elim
  | captureBase c =>
    cases o' with
    | ocaBundle r => exact h3.elim
    | captureBase c' =>
      obtain ⟨h3, h4⟩ := h3
      simp only [classEffect, Option.map_eq_none_iff] at h4
      exact boxAdd_comm c c' b h3 h4
    | overlay t x => exact mixed c t x h3
  | overlay t x =>
    cases o' with
    | ocaBundle r => exact h3.elim
    | captureBase c => exact (mixed c t x (fun n hn hn' => h3 n hn' hn)).symm
    | overlay t' y =>
      simp only at h3
      simp only [addEff]
      by_cases hm : t.kind = .metaOv <;> by_cases hm' : t'.kind = .metaOv
      · rw [if_pos ⟨hm, hm'⟩] at h3
        simp only [hm, hm', if_true]
        cases hl : x.lang E with
        | none => rfl
        | some l =>
          cases hl' : y.lang E with
          | none => rfl
          | some l' =>
            have := metaPut_comm b.metaMap l l' x.metaPairs y.metaPairs (by
              by_cases e : l = l'
              · right
                intro p hp q hq epq
                refine h3 (x.lang E, p.1) (List.mem_map_of_mem hp) ?_
                rw [epq, hl, e, ← hl']
                exact List.mem_map_of_mem hq
              · exact .inl e)
            simp only [this]
      · simp only [hm, hm', if_true, if_false]
        cases x.lang E with
        | none => rfl
        | some l => by_cases hk : loopKind t'.kind = true <;> simp only [hk, if_true, Bool.false_eq_true, if_false] <;> rfl
      · simp only [hm, hm', if_true, if_false]
        cases y.lang E with
        | none => rfl
        | some l => by_cases hk : loopKind t.kind = true <;> simp only [hk, if_true, Bool.false_eq_true, if_false] <;> rfl
      · rw [if_neg (fun e => hm e.1)] at h3
        simp only [hm, hm', if_false]
        split <;> split
        · exact boxPut_comm E _ _ x y b h3
        all_goals rfl

theorem addOk_stable (E : Env) (o o' : ObjKind) (b : OCABox) (h : Independent E ⟨.add, o⟩ ⟨.add, o'⟩) :
    AddOk E o' (addEff E o b) ↔ AddOk E o' b := by
  cases o' with
  | captureBase c => exact Iff.rfl
  | ocaBundle r => exact Iff.rfl
  | overlay t c =>
    simp only [AddOk]
    split
    · exact Iff.rfl
    · split
      · refine and_congr_right fun _ => ?_
        have key : ∀ p ∈ c.attrs, ((addEff E o b).attributes.get p.1).isSome = (b.attributes.get p.1).isSome := by
          intro p hp
          refine addEff_present E o o b p.1 ?_ rfl
          cases o with
          | ocaBundle r => exact h.2.2.elim
          | overlay t' c' => exact .inr ⟨_, _, rfl⟩
          | captureBase c' =>
            left
            intro hn
            exact h.2.2 p.1 hn (List.mem_map_of_mem hp)
        constructor
        · intro hh p hp
          have := hh p hp
          rw [key p hp] at this; exact this
        · intro hh p hp
          rw [key p hp]; exact hh p hp
      · exact Iff.rfl

/-! ## C20 -/

/-- **C20** Two independent ADD commands can be applied in either order: if one order is accepted so is the
other, with the same state (hence the same bundles). -/
theorem C20_commute (E : Env) (b : OCABox) (c c' : Command) (h : Independent E c c')
    (hd : c.DistinctKeys) (hd' : c'.DistinctKeys) (r : OCABox) :
    runAll E b [c, c'] = .ok r ↔ runAll E b [c', c] = .ok r := by
  have two : ∀ (o o' : ObjKind), Command.DistinctKeys ⟨.add, o⟩ → Command.DistinctKeys ⟨.add, o'⟩ →
      (runAll E b [⟨.add, o⟩, ⟨.add, o'⟩] = .ok r ↔
        AddOk E o b ∧ AddOk E o' (addEff E o b) ∧ r = addEff E o' (addEff E o b)) := by
    intro o o' hd hd'
    unfold runAll
    simp only [foldRes]
    constructor
    · intro hx
      obtain ⟨x, h1, h2⟩ := Res.bind_eq_ok.mp hx
      obtain ⟨y, h3, h4⟩ := Res.bind_eq_ok.mp h2
      cases h4
      rw [add_ok_iff E _ hd] at h1
      obtain ⟨h1, rfl⟩ := h1
      rw [add_ok_iff E _ hd'] at h3
      exact ⟨h1, h3.1, h3.2⟩
    · rintro ⟨h1, h2, h3⟩
      rw [(add_ok_iff E _ hd b _).mpr ⟨h1, rfl⟩]
      simp only [Res.bind_ok]
      rw [(add_ok_iff E _ hd' _ r).mpr ⟨h2, h3⟩]
      rfl
  have hs := h.symm
  obtain ⟨k, o⟩ := c
  obtain ⟨k', o'⟩ := c'
  have e1 : k = .add := h.1
  have e2 : k' = .add := h.2.1
  subst e1
  subst e2
  rw [two o o' hd hd', two o' o hd' hd, addOk_stable E o o' b h, addOk_stable E o' o b hs, addEff_comm E o o' b h]
  constructor
  · rintro ⟨h1, h2, h3⟩; exact ⟨h2, h1, h3⟩
  · rintro ⟨h1, h2, h3⟩; exact ⟨h2, h1, h3⟩

theorem runAll_append (E : Env) (b : OCABox) (l l' : List Command) :
    runAll E b (l ++ l') = (do
      let x ← runAll E b l
      runAll E x l') := foldRes_append _ l l' b

/-- **C20** Any reordering of a history of pairwise independent ADD commands is accepted if the history is,
and leads to the same state, so to the same bundles. -/
theorem C20_reorder (E : Env) (cs cs' : List Command) (hp : cs.Perm cs')
    (hi : cs.Pairwise (Independent E)) (hd : ∀ c ∈ cs, c.DistinctKeys) (b r : OCABox) :
    runAll E b cs = .ok r ↔ runAll E b cs' = .ok r := by
  induction hp generalizing b with
  | nil => exact Iff.rfl
  | cons c _ ih =>
    rw [List.pairwise_cons] at hi
    unfold runAll
    simp only [foldRes]
    rw [Res.bind_eq_ok, Res.bind_eq_ok]
    refine exists_congr fun x => and_congr_right fun _ => ?_
    exact ih hi.2 (fun d hd' => hd d (List.mem_cons_of_mem _ hd')) x
  | swap c c' l =>
    have e : ∀ x y : Command, x :: y :: l = [x, y] ++ l := fun _ _ => rfl
    rw [e, e, runAll_append, runAll_append, Res.bind_eq_ok, Res.bind_eq_ok]
    refine exists_congr fun x => and_congr_left fun _ => ?_
    have hi' := (List.pairwise_cons.mp hi).1 c (List.mem_cons_self ..)
    exact C20_commute E b c' c hi' (hd _ (List.mem_cons_self ..))
      (hd _ (List.mem_cons_of_mem _ (List.mem_cons_self ..))) x
  | trans h1 h2 ih1 ih2 =>
    rw [ih1 hi hd]
    exact ih2 ((h1.pairwise_iff (fun h => h.symm)).mp hi) (fun d hd' => hd d (h1.symm.subset hd')) b

theorem imGet_perm {V : Type} {l l' : List (Str × V)} (hn : (l.map (·.1)).Nodup) (h : l.Perm l') (n : Str) :
    imGet n l = imGet n l' := by
  have hn' : (l'.map (·.1)).Nodup := (h.map _).nodup_iff.mp hn
  apply Option.ext
  intro v
  constructor
  · intro hv; exact imGet_of_mem hn' (h.mem_iff.mp (mem_of_imGet hv))
  · intro hv; exact imGet_of_mem hn (h.mem_iff.mpr (mem_of_imGet hv))

/-- **C20** The order in which one ADD command lists its attributes does not matter. -/
theorem C20_attribute_order (E : Env) (b r : OCABox) (o o' : ObjKind)
    (h : (∃ l l' p f, o = .captureBase ⟨some l, p, f⟩ ∧ o' = .captureBase ⟨some l', p, f⟩ ∧ l.Perm l' ∧
        (l.map (·.1)).Nodup) ∨
      (∃ t l l' p, o = .overlay t ⟨some l, p⟩ ∧ o' = .overlay t ⟨some l', p⟩ ∧ l.Perm l' ∧ (l.map (·.1)).Nodup)) :
    applyCommand E (some b) ⟨.add, o⟩ = .ok r ↔ applyCommand E (some b) ⟨.add, o'⟩ = .ok r := by
  rcases h with ⟨l, l', p, f, rfl, rfl, hp, hn⟩ | ⟨t, l, l', p, rfl, rfl, hp, hn⟩
  · rw [applyAddBase, applyAddBase]
    have : boxAdd ⟨some l, p, f⟩ b = boxAdd ⟨some l', p, f⟩ b := by
      have hn' : (l'.map (·.1)).Nodup := (hp.map _).nodup_iff.mp hn
      refine OCABox.ext' (fun n => ?_) ?_ ?_ rfl
      · simp only [get_boxAdd, Option.getD_some]
        have : FMap.lastVal l n = FMap.lastVal l' n := by
          apply Option.ext
          intro v
          rw [FMap.lastVal_of_nodup hn, FMap.lastVal_of_nodup hn', hp.mem_iff]
        rw [this]
      · simp only [(boxAdd_rest _ _).1]
      · simp only [(boxAdd_rest _ _).2.1]
    rw [this]
  · have hd : Command.DistinctKeys ⟨.add, .overlay t ⟨some l, p⟩⟩ := hn
    have hd' : Command.DistinctKeys ⟨.add, .overlay t ⟨some l', p⟩⟩ := (hp.map _).nodup_iff.mp hn
    rw [add_ok_iff E _ hd, add_ok_iff E _ hd']
    have hv : ∀ v, valueOk E t.kind ⟨some l, p⟩ v = valueOk E t.kind ⟨some l', p⟩ v := fun v => rfl
    have hput : ∀ (a : Attribute) v, a.put E t.kind ⟨some l, p⟩ v = a.put E t.kind ⟨some l', p⟩ v := fun a v => rfl
    have hok : AddOk E (.overlay t ⟨some l, p⟩) b ↔ AddOk E (.overlay t ⟨some l', p⟩) b := by
      simp only [AddOk]
      split
      · exact Iff.rfl
      · split
        · refine and_congr Iff.rfl ?_
          constructor
          · intro h q hq; exact h q (hp.mem_iff.mpr hq)
          · intro h q hq; exact h q (hp.mem_iff.mp hq)
        · exact Iff.rfl
    have heff : addEff E (.overlay t ⟨some l, p⟩) b = addEff E (.overlay t ⟨some l', p⟩) b := by
      simp only [addEff]
      split
      · rfl
      · split
        · refine OCABox.ext' (fun n => ?_) rfl rfl rfl
          rw [get_boxPut, get_boxPut]
          congr 1
          funext a
          unfold putOne
          have : imGet n (Content.attrs ⟨some l, p⟩) = imGet n (Content.attrs ⟨some l', p⟩) := imGet_perm hn hp n
          rw [this]
          cases imGet n (Content.attrs ⟨some l', p⟩) with
          | none => rfl
          | some v => exact hput a v
        · rfl
    rw [hok, heff]

/-- The hypotheses are met: the demo overlays on different languages, kinds and attributes are pairwise
independent, and the reordered history is accepted. -/
example : (demoCommands.drop 2).Pairwise (Independent Env.demo) := by
  unfold demoCommands
  simp only [List.drop_succ_cons, List.drop_zero, List.pairwise_cons, List.mem_cons, List.not_mem_nil, or_false,
    forall_eq_or_imp, forall_eq, false_implies, implies_true, List.Pairwise.nil, and_true]
  have ind : ∀ k p a k' p' a', decide (k = OvKind.metaOv ∧ k' = OvKind.metaOv) = false →
      decide (addressed Env.demo k ⟨some a, some p⟩ ≠ addressed Env.demo k' ⟨some a', some p'⟩) = true →
      Independent Env.demo (addOv k p a) (addOv k' p' a') := by
    intro k p a k' p' a' h1 h2
    refine ⟨rfl, rfl, ?_⟩
    simp only [addOv]
    rw [if_neg (of_decide_eq_false h1)]
    exact .inr (of_decide_eq_true h2)
  repeat' (first | (apply ind <;> decide) | constructor)

end OCA
