import Verif.Model.ToAst
import Verif.Props.Reload
import Verif.Props.Builds
/-!
# C23: the AST of a bundle rebuilds the bundle
-/
namespace OCA

/-! ## Specification -/

/-- What `to_ast` can express: no links, no framings, no flags; every language has a two letter code; no meta
entry is called `lang`; grouped entry codes have distinct group names (they are an `IndexMap`). -/
structure Bundle.Expressible (E : Env) (b : Bundle) : Prop where
  noLink : ∀ o ∈ b.overlays, o.body.kind ≠ .link
  noFraming : ∀ o ∈ b.overlays, o.body.kind ≠ .attributeFraming
  noFlags : b.captureBase.flagged = []
  langs : ∀ o ∈ b.overlays, ∀ l, o.body.language = some l → (E.lang1Inv l).isSome = true
  noLangPair : ∀ o ∈ b.overlays, ∀ l ps, o.body = .metaOv l ps → ps.get c!"lang" = none
  codes : ∀ o ∈ b.overlays, ∀ m, o.body = .entryCode m → ∀ n g, m.get n = some (.object g) → (g.map (·.1)).Nodup

/-- Restrictions on a bundle: languages have two letter codes, no META pair is named `lang` and grouped entry codes have
distinct group names. They hold of every bundle built from scratch (`FromScratch.speakable`). -/
structure Bundle.Speakable (E : Env) (b : Bundle) : Prop where
  langs : ∀ o ∈ b.overlays, ∀ l, o.body.language = some l → (E.lang1Inv l).isSome = true
  noLangPair : ∀ o ∈ b.overlays, ∀ l ps, o.body = .metaOv l ps → ps.get c!"lang" = none
  codes : ∀ o ∈ b.overlays, ∀ m, o.body = .entryCode m → ∀ n g, m.get n = some (.object g) → (g.map (·.1)).Nodup

/-! ## Proofs -/

theorem lget_perm {V : Type} {l l' : List (Str × V)} (hp : l.Perm l') (hn : (l.map (·.1)).Nodup) (n : Str) :
    FMap.lget n l = FMap.lget n l' := by
  induction hp with
  | nil => rfl
  | cons p _ ih =>
    obtain ⟨k, v⟩ := p
    rw [List.map_cons, List.nodup_cons] at hn
    simp only [FMap.lget, ih hn.2]
  | swap p q t =>
    obtain ⟨k, v⟩ := p
    obtain ⟨k', v'⟩ := q
    simp only [List.map_cons, List.nodup_cons, List.mem_cons, not_or] at hn
    simp only [FMap.lget]
    by_cases h1 : n = k
    · have h2 : n ≠ k' := fun h2 => hn.1.1 (h2.symm.trans h1)
      rw [if_neg h2, if_pos h1, if_pos h1]
    · rw [if_neg h1, if_neg h1]
  | trans p1 _ ih1 ih2 => rw [ih1 hn, ih2 ((p1.map _).nodup_iff.mp hn)]

theorem lget_map {V W : Type} (g : Str → V → W) (l : List (Str × V)) (n : Str) :
    FMap.lget n (l.map fun p => (p.1, g p.1 p.2)) = (FMap.lget n l).map (g n) := by
  induction l with
  | nil => rfl
  | cons p t ih =>
    obtain ⟨k, v⟩ := p
    simp only [List.map_cons, FMap.lget]
    by_cases h : n = k
    · subst h; simp
    · simp [h, ih]

theorem iter_nodup {V : Type} (O : Order) (site : Nat) (m : FMap V) : ((O.iter site [] m).map (·.1)).Nodup :=
  ((O.perm site [] m).map _).nodup_iff.mpr m.keys_nodup

theorem imGet_iter {V W : Type} (O : Order) (site : Nat) (g : Str → V → W) (m : FMap V) (n : Str) :
    imGet n ((O.iter site [] m).map fun p => (p.1, g p.1 p.2)) = (m.get n).map (g n) := by
  unfold imGet
  rw [lget_map, lget_perm (O.perm site [] m) (iter_nodup O site m)]
  rfl

theorem encoding_roundtrip (e : Encoding) : Encoding.ofStr e.toStr = some e := by cases e <;> decide

theorem texts_map (l : List Str) : NVal.texts (l.map .val) = l := by
  induction l with
  | nil => rfl
  | cons a t ih => exact congrArg (a :: ·) ih

theorem imInsert_new {V : Type} (k : Str) (v : V) (l : List (Str × V)) (h : k ∉ l.map (·.1)) :
    imInsert k v l = l ++ [(k, v)] := by
  induction l with
  | nil => rfl
  | cons p t ih =>
    obtain ⟨k', v'⟩ := p
    simp only [List.map_cons, List.mem_cons, not_or] at h
    rw [imInsert, if_neg h.1, ih h.2]; rfl

theorem imExtend_nodup {V : Type} (l l' : List (Str × V)) (h : ((l ++ l').map (·.1)).Nodup) : imExtend l l' = l ++ l' := by
  unfold imExtend
  induction l' generalizing l with
  | nil => simp
  | cons p t ih =>
    obtain ⟨k, v⟩ := p
    have hk : k ∉ l.map (·.1) := by
      rw [List.map_append, List.nodup_append] at h
      intro hk
      exact h.2.2 k hk k (.head _) rfl
    rw [List.foldl_cons, imInsert_new k v l hk, ih (l ++ [(k, v)]) (by simpa using h)]
    simp

theorem entryCodes_roundtrip (e : EntryCodes) (h : ∀ g, e = .object g → (g.map (·.1)).Nodup) :
    entryCodesOf e.toVal = some e := by
  cases e with
  | sai s => rfl
  | array l => simp only [EntryCodes.toVal, entryCodesOf, texts_map]
  | object l =>
    have hf : (l.map fun p => (p.1, NVal.arr (p.2.map .val))).filterMap
        (fun p => match p.2 with | .arr cs => some (p.1, NVal.texts cs) | _ => none) = l := by
      clear h
      induction l with
      | nil => rfl
      | cons p t ih => simp only [List.map_cons, List.filterMap_cons, texts_map, ih]
    exact congrArg (fun x => some (EntryCodes.object x))
      ((congrArg (imExtend []) hf).trans (imExtend_nodup [] l (by simpa using h l rfl)))

theorem entries_roundtrip (O : Order) (e : EntriesEl) : entriesOf (e.toVal O) = some e := by
  cases e with
  | sai s => rfl
  | object m =>
    have hf : ∀ l : List (Str × Str), (l.map fun p => (p.1, NVal.val p.2)).filterMap
        (fun p => match p.2 with | .val s => some (p.1, s) | _ => none) = l := by
      intro l
      induction l with
      | nil => rfl
      | cons p t ih => simp only [List.map_cons, List.filterMap_cons, ih]
    refine congrArg (fun x => some (EntriesEl.object x)) ((congrArg FMap.ofList (hf _)).trans ?_)
    ext n : 1
    unfold FMap.ofList
    rw [FMap.get_insertAll]
    simp only [FMap.get_empty, Option.or_none]
    apply Option.ext
    intro v
    rw [FMap.lastVal_of_nodup (iter_nodup O 1229 m), (O.perm 1229 [] m).mem_iff, FMap.get_eq_some_iff]

/-! ### Loading in any order -/

/-- the text of a condition as loaded -/
def condOf (E : Env) (c : Option Str) (d : Option (List Str)) : Option Str :=
  c.bind fun c => d.bind fun ds => match (expandCondition E c ds : Res Unit Str) with
    | .ok s => some s
    | _ => none

theorem loadCond_eq (E : Env) (c : Option Str) (d : Option (List Str)) (a : Attribute) :
    loadCond E c d a = onSome (condOf E c d) (fun s a => a.setCond s) a := by
  unfold loadCond condOf
  cases c with
  | none => rfl
  | some c => cases d with
    | none => rfl
    | some ds =>
      simp only [Option.bind_some]
      cases (expandCondition E c ds : Res Unit Str) <;> rfl

theorem onSome_comm {V W : Type} (o : Option V) (o' : Option W) (f : V → Attribute → Attribute)
    (g : W → Attribute → Attribute) (a : Attribute) (h : ∀ v w, f v (g w a) = g w (f v a)) :
    onSome o f (onSome o' g a) = onSome o' g (onSome o f a) := by
  cases o <;> cases o' <;> simp [onSome, h]

theorem putIn_comm {V : Type} (o : Option (FMap V)) (k k' : Str) (v w : V) (h : k ≠ k') :
    putIn (putIn o k v) k' w = putIn (putIn o k' w) k v := by
  have : ∀ m : FMap V, (m.insert k v).insert k' w = (m.insert k' w).insert k v := by
    intro m
    ext n : 1
    simp only [FMap.get_insert]
    by_cases h1 : n = k' <;> by_cases h2 : n = k <;> simp [h1, h2]
    · exact absurd (h2.symm.trans h1) h
    · intro e; exact absurd e.symm h
    · intro e; exact absurd e h
  cases o <;> simp [putIn, this]

theorem loadAttr_comm (E : Env) (n : Str) (a : Attribute) (b b' : OvBody)
    (hb : b.kind ≠ .attributeFraming) (hb' : b'.kind ≠ .attributeFraming)
    (h : keyOf b ≠ keyOf b' ∨ keyOf b = none ∨ b = b') :
    loadAttr E n (loadAttr E n a b) b' = loadAttr E n (loadAttr E n a b') b := by
  rcases h with h | h | rfl
  · cases b <;> try (exact absurd rfl hb)
    all_goals
      cases b' <;> try (exact absurd rfl hb')
      all_goals
        simp only [loadAttr, loadCond_eq]
        try rfl
        try
          first
          | exact absurd rfl h
          | (apply onSome_comm
             intro v w
             first
             | rfl
             | (simp only [keyOf, ne_eq, Option.some.injEq, OvKey.entry.injEq, OvKey.label.injEq,
                  OvKey.information.injEq, OvKey.link.injEq] at h
                simp only [Attribute.setEntry, Attribute.setLabel, Attribute.setInformation, Attribute.setLink]
                rw [putIn_comm _ _ _ _ _ h]))
  · cases b <;> simp only [keyOf, reduceCtorEq] at h <;> first | rfl | exact absurd rfl hb
  · rfl

theorem loadAttrs_perm (E : Env) (n : Str) (a : Attribute) {l l' : List OvBody} (hp : l.Perm l')
    (hk : (l.filterMap keyOf).Nodup) (hf : ∀ b ∈ l, b.kind ≠ .attributeFraming) :
    loadAttrs E n l a = loadAttrs E n l' a := by
  unfold loadAttrs
  apply hp.foldl_eq'
  intro b hb b' hb' z
  apply loadAttr_comm E n z b b' (hf b hb) (hf b' hb')
  by_cases e : keyOf b = keyOf b'
  · cases hkb : keyOf b with
    | none => exact .inr (.inl rfl)
    | some K =>
      refine .inr (.inr ?_)
      rw [hkb] at e
      clear hp hf
      induction l with
      | nil => cases hb
      | cons x t ih =>
        have hx : ∀ y ∈ t, keyOf x = some K → keyOf y ≠ some K := by
          intro y hy hx hy'
          rw [List.filterMap_cons, hx] at hk
          exact (List.nodup_cons.mp hk).1 (List.mem_filterMap.mpr ⟨y, hy, hy'⟩)
        have hk' : (t.filterMap keyOf).Nodup := by
          rw [List.filterMap_cons] at hk
          split at hk
          · exact hk
          · exact (List.nodup_cons.mp hk).2
        rcases List.mem_cons.mp hb with rfl | h1
        · rcases List.mem_cons.mp hb' with rfl | h2
          · rfl
          · exact absurd e.symm (hx b' h2 hkb)
        · rcases List.mem_cons.mp hb' with rfl | h2
          · exact absurd hkb (hx b h1 e.symm)
          · exact ih hk' h1 h2
  · exact .inl e

/-! ### The commands -/

/-- the expanded condition -/
def condText (E : Env) (d : FMap (List Str)) (n c : Str) : Str := (condOf E (some c) (d.get n)).getD []

theorem condTexts_ok {ε : Type} (E : Env) (c : FMap Str) (d : FMap (List Str)) (hc : CondsOk c d)
    (l : List (Str × Str)) (hl : ∀ p ∈ l, c.get p.1 = some p.2) :
    (condTexts E d l : Res ε _) = .ok (l.map fun p => (p.1, .val (condText E d p.1 p.2))) := by
  induction l with
  | nil => rfl
  | cons p t ih =>
    obtain ⟨n, x⟩ := p
    obtain ⟨s, hx, hd⟩ := hc n x (hl _ (.head _))
    subst hx
    have h1 : condText E d n (setCondition s).1 = s := by
      unfold condText condOf
      simp only [hd, Option.bind_some, expand_stored, Option.getD_some]
    simp only [condTexts, hd, Res.unwrap_some, Res.bind_ok, expand_stored]
    rw [ih (fun p hp => hl p (.tail _ hp))]
    simp [h1]

/-- A body's overlay command applied to a state: as if it had been loaded. -/
def AppliesAs (E : Env) (o : Overlay) (oc : Option Command) : Prop :=
  ∀ x : OCABox, (∀ n ∈ o.body.attributes, (x.attributes.get n).isSome = true) →
    (∀ n a K, x.attributes.get n = some a → keyOf o.body = some K → hasKey K a = false) →
    foldRes (fun b c => applyCommand E (some b) c) x oc.toList =
      .ok { x with
        attributes := x.attributes.filterMap fun n a => some (loadAttr E n a o.body)
        metaMap := metaStepOf x.metaMap o.body }

theorem foldRes_one (E : Env) (x : OCABox) (c : Command) :
    foldRes (fun b c => applyCommand E (some b) c) x [c] = applyCommand E (some x) c := by
  simp only [foldRes]
  cases applyCommand E (some x) c <;> rfl

theorem applies_attrs {V : Type} (E : Env) (o : Overlay) (O : Order) (site : Nat) (g : Str → V → NVal) (m : FMap V)
    (props : Option (List (Str × NVal))) (hk : loopKind o.body.kind = true)
    (hh : headOk o.body.kind ⟨some ((O.iter site [] m).map fun p => (p.1, g p.1 p.2)), props⟩ = true)
    (ha : o.body.attributes = m.keys) (hm : ∀ y, metaStepOf y o.body = y)
    (hv : ∀ n v, m.get n = some v →
      valueOk E o.body.kind ⟨some ((O.iter site [] m).map fun p => (p.1, g p.1 p.2)), props⟩ (g n v) = true)
    (hp : ∀ n a, (∀ K, keyOf o.body = some K → hasKey K a = false) →
      loadAttr E n a o.body = match m.get n with
        | some v => a.put E o.body.kind ⟨some ((O.iter site [] m).map fun p => (p.1, g p.1 p.2)), props⟩ (g n v)
        | none => a) :
    AppliesAs E o (some (ovAdd o (some ((O.iter site [] m).map fun p => (p.1, g p.1 p.2))) props)) := by
  intro x h1 h2
  have happ : applyCommand E (some x) (ovAdd o (some ((O.iter site [] m).map fun p => (p.1, g p.1 p.2))) props) =
      applyOverlay E x o.body.kind ⟨some ((O.iter site [] m).map fun p => (p.1, g p.1 p.2)), props⟩ := rfl
  show foldRes _ x [_] = _
  rw [foldRes_one, happ]
  rw [applyOverlay_ok_iff E x _ _ _ hk]
  · refine ⟨hh, ?_, ?_⟩
    · intro p hpm
      obtain ⟨q, hq, rfl⟩ := List.mem_map.mp hpm
      have hq' := (O.perm site [] m).mem_iff.mp hq
      refine ⟨h1 q.1 ?_, hv q.1 q.2 (FMap.get_eq_some_iff.mpr hq')⟩
      rw [ha]
      exact List.mem_map_of_mem hq'
    · refine OCABox.ext' ?_ rfl (hm _) rfl
      intro n
      rw [get_boxPut]
      simp only [FMap.get_filterMap]
      cases hx : x.attributes.get n with
      | none => rfl
      | some a =>
        simp only [Option.map_some, Option.bind_some]
        rw [hp n a (fun K hK => h2 n a K hx hK)]
        unfold putOne
        have : imGet n (Content.attrs ⟨some ((O.iter site [] m).map fun p => (p.1, g p.1 p.2)), props⟩) =
            (m.get n).map (g n) := imGet_iter O site g m n
        rw [this]
        cases m.get n <;> rfl
  · show (((O.iter site [] m).map fun p => (p.1, g p.1 p.2)).map (·.1)).Nodup
    rw [List.map_map]
    exact iter_nodup O site m

theorem lang_langProp (E : Env) (as : Option (List (Str × NVal))) (l : Lang) (s : Str) (h : E.lang1Inv l = some s) :
    Content.lang E ⟨as, some [(c!"lang", .val s)]⟩ = some l := by
  show E.lang1 s = some l
  exact E.lang1Inv_inv s l h

/-- What a single overlay needs to be expressible. -/
structure Overlay.Expressible (E : Env) (o : Overlay) : Prop where
  noLink : o.body.kind ≠ .link
  noFraming : o.body.kind ≠ .attributeFraming
  loads : o.body.kind = .metaOv ∨ o.body.kind ∈ loadOrder
  langs : ∀ l, o.body.language = some l → (E.lang1Inv l).isSome = true
  noLangPair : ∀ l ps, o.body = .metaOv l ps → ps.get c!"lang" = none
  codes : ∀ m, o.body = .entryCode m → ∀ n g, m.get n = some (.object g) → (g.map (·.1)).Nodup
  conds : ∀ c d, o.body = .conditional c d → CondsOk c d

theorem onSome_match {V : Type} (x : Option V) (f : V → Attribute → Attribute) (a : Attribute) :
    onSome x f a = match x with
      | some v => f v a
      | none => a := by cases x <;> rfl

theorem match_congr {V : Type} (x : Option V) (f g : V → Attribute) (a : Attribute)
    (h : ∀ v, x = some v → f v = g v) :
    (match (generalizing := false) x with | some v => f v | none => a) =
      match (generalizing := false) x with | some v => g v | none => a := by
  cases x with
  | none => rfl
  | some v => exact h v rfl

theorem foldl_imInsert_new {V : Type} (l acc : List (Str × V)) (h : ((acc ++ l).map (·.1)).Nodup) :
    l.foldl (fun acc q => imInsert q.1 q.2 acc) acc = acc ++ l := imExtend_nodup acc l h

theorem put_putIn {V : Type} (o : Option (FMap V)) (k : Str) (v : V) :
    some ((o.getD FMap.empty).insert k v) = putIn o k v := by cases o <;> rfl

theorem ovCommand_ok {ε : Type} (E : Env) (O : Order) (o : Overlay) (h : o.Expressible E) :
    ∃ oc, (ovCommand E O o : Res ε _) = .ok oc ∧ AppliesAs E o oc := by
  obtain ⟨h1, h2, h0, h3, h4, h5, h6⟩ := h
  obtain ⟨said, cb, ver, body⟩ := o
  have plain : ∀ {V : Type} (b : OvBody) (site : Nat) (g : V → NVal) (m : FMap V), b = body →
      loopKind b.kind = true → b.kind ≠ .link → b.kind ≠ .attributeFraming → b.attributes = m.keys →
      (∀ y, metaStepOf y b = y) →
      (∀ c n v, m.get n = some v → valueOk E b.kind c (g v) = true) →
      (∀ c n a, (∀ K, keyOf b = some K → hasKey K a = false) →
        loadAttr E n a b = match m.get n with
          | some v => a.put E b.kind c (g v)
          | none => a) →
      AppliesAs E ⟨said, cb, ver, b⟩ (some (ovAdd ⟨said, cb, ver, b⟩ (some (attrsOf O site g m)) none)) := by
    intro V b site g m hb hk hl hf ha hm hv hp
    refine applies_attrs E ⟨said, cb, ver, b⟩ O site (fun _ => g) m none hk ?_ ha hm (fun n v => hv _ n v)
      (fun n a => hp _ n a)
    show headOk b.kind _ = true
    cases hb : b.kind <;> first | rfl | exact absurd hb hl | exact absurd hb hf
  have langed : ∀ {V : Type} (b : OvBody) (l : Lang) (s : Str) (site : Nat) (g : V → NVal) (m : FMap V), b = body →
      E.lang1Inv l = some s →
      loopKind b.kind = true → b.kind ≠ .link → b.kind ≠ .attributeFraming → b.attributes = m.keys →
      (∀ y, metaStepOf y b = y) →
      (∀ c n v, c.lang E = some l → m.get n = some v → valueOk E b.kind c (g v) = true) →
      (∀ c n a, c.lang E = some l → (∀ K, keyOf b = some K → hasKey K a = false) →
        loadAttr E n a b = match m.get n with
          | some v => a.put E b.kind c (g v)
          | none => a) →
      AppliesAs E ⟨said, cb, ver, b⟩
        (some (ovAdd ⟨said, cb, ver, b⟩ (some (attrsOf O site g m)) (some [(c!"lang", .val s)]))) := by
    intro V b l s site g m hb hs hk hl hf ha hm hv hp
    refine applies_attrs E ⟨said, cb, ver, b⟩ O site (fun _ => g) m _ hk ?_ ha hm
      (fun n v => hv _ n v (lang_langProp E _ l s hs)) (fun n a => hp _ n a (lang_langProp E _ l s hs))
    show headOk b.kind _ = true
    cases hb : b.kind <;> first | rfl | exact absurd hb hl | exact absurd hb hf
  cases body with
  | charEnc m =>
    refine ⟨_, rfl, plain _ 968 _ m rfl rfl (by simp [OvBody.kind]) (by simp [OvBody.kind]) rfl (fun _ => rfl) ?_ ?_⟩
    · intro c n v _
      simp only [OvBody.kind, valueOk, encoding_roundtrip]; rfl
    · intro c n a _
      simp only [loadAttr, onSome_match]
      apply match_congr
      intro v _
      simp only [OvBody.kind, Attribute.put, encoding_roundtrip]
  | format m =>
    refine ⟨_, rfl, plain _ 992 _ m rfl rfl (by simp [OvBody.kind]) (by simp [OvBody.kind]) rfl (fun _ => rfl)
      (fun _ _ _ _ => rfl) ?_⟩
    intro c n a _
    simp only [loadAttr, onSome_match, OvBody.kind, Attribute.put]
  | conformance m =>
    refine ⟨_, rfl, plain _ 1130 _ m rfl rfl (by simp [OvBody.kind]) (by simp [OvBody.kind]) rfl (fun _ => rfl)
      (fun _ _ _ _ => rfl) ?_⟩
    intro c n a _
    simp only [loadAttr, onSome_match, OvBody.kind, Attribute.put]
  | cardinality m =>
    refine ⟨_, rfl, plain _ 1257 _ m rfl rfl (by simp [OvBody.kind]) (by simp [OvBody.kind]) rfl (fun _ => rfl)
      (fun _ _ _ _ => rfl) ?_⟩
    intro c n a _
    simp only [loadAttr, onSome_match, OvBody.kind, Attribute.put]
  | unit m =>
    refine ⟨_, rfl, plain _ 1276 _ m rfl rfl (by simp [OvBody.kind]) (by simp [OvBody.kind]) rfl (fun _ => rfl)
      (fun _ _ _ _ => rfl) ?_⟩
    intro c n a ha
    have := ha .unit rfl
    simp only [hasKey, Option.isSome_eq_false_iff, Option.isNone_iff_eq_none] at this
    simp only [loadAttr, onSome_match, OvBody.kind, Attribute.put, this, Option.none_or]
  | entryCode m =>
    refine ⟨_, rfl, plain _ 1152 _ m rfl rfl (by simp [OvBody.kind]) (by simp [OvBody.kind]) rfl (fun _ => rfl)
      (fun _ _ _ _ => rfl) ?_⟩
    intro c n a ha
    have := ha .entryCode rfl
    simp only [hasKey, Option.isSome_eq_false_iff, Option.isNone_iff_eq_none] at this
    simp only [loadAttr, onSome_match]
    apply match_congr
    intro v hv
    simp only [OvBody.kind, Attribute.put]
    rw [entryCodes_roundtrip v (fun g e => h5 m rfl n g (e ▸ hv))]
    simp only [this, Option.none_or]
  | entry l m =>
    obtain ⟨s, hs⟩ := Option.isSome_iff_exists.mp (h3 l rfl)
    refine ⟨some _, by simp [ovCommand, langProp, hs]; rfl, langed _ l s 1214 _ m rfl hs rfl (by simp [OvBody.kind])
      (by simp [OvBody.kind]) rfl (fun _ => rfl) ?_ ?_⟩
    · intro c n v hc _
      simp only [OvBody.kind, valueOk, entries_roundtrip, hc]; rfl
    · intro c n a hc _
      simp only [loadAttr, onSome_match]
      apply match_congr
      intro v _
      simp only [OvBody.kind, Attribute.put, entries_roundtrip, hc, put_putIn]
      rfl
  | label l _ m _ =>
    obtain ⟨s, hs⟩ := Option.isSome_iff_exists.mp (h3 l rfl)
    refine ⟨some _, by simp [ovCommand, langProp, hs]; rfl, langed _ l s 1043 _ m rfl hs rfl (by simp [OvBody.kind])
      (by simp [OvBody.kind]) rfl (fun _ => rfl) ?_ ?_⟩
    · intro c n v hc _
      simp only [OvBody.kind, valueOk, hc]; rfl
    · intro c n a hc _
      simp only [loadAttr, onSome_match]
      apply match_congr
      intro v _
      simp only [OvBody.kind, Attribute.put, hc, put_putIn]
      rfl
  | information l m =>
    obtain ⟨s, hs⟩ := Option.isSome_iff_exists.mp (h3 l rfl)
    refine ⟨some _, by simp [ovCommand, langProp, hs]; rfl, langed _ l s 1076 _ m rfl hs rfl (by simp [OvBody.kind])
      (by simp [OvBody.kind]) rfl (fun _ => rfl) ?_ ?_⟩
    · intro c n v hc _
      simp only [OvBody.kind, valueOk, hc]; rfl
    · intro c n a hc _
      simp only [loadAttr, onSome_match]
      apply match_congr
      intro v _
      simp only [OvBody.kind, Attribute.put, hc, put_putIn]
      rfl
  | conditional c d =>
    have hc := h6 c d rfl
    have hl : ∀ p ∈ O.iter 1098 [] c, c.get p.1 = some p.2 := by
      intro p hp
      exact FMap.get_eq_some_iff.mpr ((O.perm 1098 [] c).mem_iff.mp hp)
    refine ⟨some _, by simp only [ovCommand]; rw [condTexts_ok E c d hc _ hl]; rfl, ?_⟩
    refine applies_attrs E ⟨said, cb, ver, .conditional c d⟩ O 1098 (fun n x => .val (condText E d n x)) c none rfl
      rfl rfl (fun _ => rfl) (fun _ _ _ => rfl) ?_
    intro n a _
    simp only [loadAttr, loadCond_eq]
    cases hx : c.get n with
    | none => rfl
    | some x =>
      obtain ⟨s, hx', hd⟩ := hc n x hx
      subst hx'
      have : condOf E (some (setCondition s).1) (d.get n) = some s := by
        simp only [condOf, hd, Option.bind_some, expand_stored]
      simp only [condText, this, onSome, OvBody.kind, Attribute.put, Option.getD_some]
      rfl
  | metaOv l ps =>
    obtain ⟨s, hs⟩ := Option.isSome_iff_exists.mp (h3 l rfl)
    have hnl := h4 l ps rfl
    have hiter : ∀ p ∈ O.iter 1017 [] ps, p.1 ≠ c!"lang" := by
      intro p hp e
      have := FMap.get_eq_some_iff.mpr ((O.perm 1017 [] ps).mem_iff.mp hp)
      rw [e, hnl] at this
      cases this
    have hfold : (O.iter 1017 [] ps).foldl (fun acc q => imInsert q.1 (NVal.val q.2) acc) [(c!"lang", .val s)] =
        (c!"lang", .val s) :: (O.iter 1017 [] ps).map fun q => (q.1, NVal.val q.2) := by
      have := foldl_imInsert_new ((O.iter 1017 [] ps).map fun q => (q.1, NVal.val q.2)) [(c!"lang", NVal.val s)] (by
        simp only [List.singleton_append, List.map_cons, List.map_map, List.nodup_cons]
        refine ⟨?_, iter_nodup O 1017 ps⟩
        intro hm
        obtain ⟨p, hp, e⟩ := List.mem_map.mp hm
        exact hiter p hp e)
      rw [List.foldl_map] at this
      exact this
    refine ⟨some _, by simp [ovCommand, langProp, hs]; rfl, ?_⟩
    intro x _ _
    show foldRes _ x [_] = _
    rw [foldRes_one, hfold]
    show applyMeta E x ⟨none, some _⟩ = _
    rw [applyMeta_ok_iff]
    right
    refine ⟨l, E.lang1Inv_inv s l hs, ?_⟩
    have hpairs : Content.metaPairs ⟨none, some ((c!"lang", .val s) :: (O.iter 1017 [] ps).map fun q => (q.1, NVal.val q.2))⟩
        = O.iter 1017 [] ps := by
      show textPairs (imDrop _ ((c!"lang", .val s) :: _)) = _
      have : imDrop (fun k => decide (k = c!"lang")) ((c!"lang", NVal.val s) :: (O.iter 1017 [] ps).map fun q => (q.1, NVal.val q.2))
          = (O.iter 1017 [] ps).map fun q => (q.1, NVal.val q.2) := by
        unfold imDrop
        rw [List.filter_cons_of_neg (by simp), List.filter_eq_self]
        intro p hp
        obtain ⟨q, hq, rfl⟩ := List.mem_map.mp hp
        simp [hiter q hq]
      rw [this]
      generalize O.iter 1017 [] ps = L
      induction L with
      | nil => rfl
      | cons q t ih => exact congrArg (q :: ·) ih
    rw [hpairs]
    have hput : metaPut x.metaMap l (O.iter 1017 [] ps) = metaStepOf x.metaMap (.metaOv l ps) := by
      show _ = metaPut x.metaMap l ps.l
      have hp := O.perm 1017 [] ps
      unfold metaPut
      by_cases he : ps.l = []
      · have : O.iter 1017 [] ps = [] := by rw [he] at hp; exact hp.eq_nil
        rw [if_pos this, if_pos he]
      · have : O.iter 1017 [] ps ≠ [] := by intro e; rw [e] at hp; exact he hp.symm.eq_nil
        rw [if_neg this, if_neg he]
        congr 2
        ext k : 1
        rw [FMap.get_insertAll, FMap.get_insertAll]
        congr 1
        apply Option.ext
        intro v
        rw [FMap.lastVal_of_nodup (iter_nodup O 1017 ps), FMap.lastVal_of_nodup ps.keys_nodup, hp.mem_iff]
    rw [hput]
    refine OCABox.ext' ?_ rfl rfl rfl
    intro n
    simp only [FMap.get_filterMap, loadAttr]
    cases x.attributes.get n <;> rfl
  | link t m => exact absurd rfl h1
  | framing md m => exact absurd rfl h2
  | mapping m => simp [OvBody.kind, loadOrder] at h0
  | standard m => simp [OvBody.kind, loadOrder] at h0
  | subset m => simp [OvBody.kind, loadOrder] at h0
  | entryCodeMapping m => simp [OvBody.kind, loadOrder] at h0

theorem foldRes_append' {ε α β : Type} (f : β → α → Res ε β) (l l' : List α) (b : β) :
    foldRes f b (l ++ l') = (foldRes f b l >>= fun b => foldRes f b l') := by
  induction l generalizing b with
  | nil => rfl
  | cons a t ih =>
    simp only [List.cons_append, foldRes]
    cases f b a with
    | ok x => simp only [Res.bind_ok]; exact ih x
    | err e => rfl
    | panic => rfl

theorem ovCommands_run {ε : Type} (E : Env) (O : Order) (l : List Overlay) (x : OCABox)
    (h : ∀ o ∈ l, o.Expressible E) (hl : ∀ o ∈ l, ∀ n ∈ o.body.attributes, (x.attributes.get n).isSome = true)
    (hk : ((l.map Overlay.body).filterMap keyOf).Nodup)
    (hx : ∀ n a K, x.attributes.get n = some a → K ∈ (l.map Overlay.body).filterMap keyOf → hasKey K a = false) :
    ∃ cs, (ovCommands E O l : Res ε _) = .ok cs ∧
      foldRes (fun b c => applyCommand E (some b) c) x cs =
        .ok { x with
          attributes := x.attributes.filterMap fun n a => some (loadAttrs E n (l.map Overlay.body) a)
          metaMap := (l.map Overlay.body).foldl metaStepOf x.metaMap } := by
  induction l generalizing x with
  | nil =>
    refine ⟨[], rfl, ?_⟩
    simp only [foldRes, List.map_nil, List.foldl_nil, loadAttrs, filterMap_some]
  | cons o t ih =>
    obtain ⟨oc, h1, h2⟩ := ovCommand_ok (ε := ε) E O o (h o (.head _))
    have h2 := h2 x (hl o (.head _)) (by
      intro n a K hg hK
      apply hx n a K hg
      rw [List.map_cons, List.filterMap_cons, hK]
      exact .head _)
    have hk' : ((t.map Overlay.body).filterMap keyOf).Nodup ∧
        ∀ K, keyOf o.body = some K → K ∉ (t.map Overlay.body).filterMap keyOf := by
      rw [List.map_cons, List.filterMap_cons] at hk
      cases hko : keyOf o.body with
      | none => rw [hko] at hk; exact ⟨hk, fun K hK => (by cases hK)⟩
      | some K =>
        rw [hko] at hk
        refine ⟨(List.nodup_cons.mp hk).2, ?_⟩
        intro K' hK'
        cases hK'
        exact (List.nodup_cons.mp hk).1
    obtain ⟨cs, h3, h4⟩ := ih { x with
        attributes := x.attributes.filterMap fun n a => some (loadAttr E n a o.body)
        metaMap := metaStepOf x.metaMap o.body } (fun o' ho' => h o' (.tail _ ho')) (by
      intro o' ho' n hn
      have := hl o' (.tail _ ho') n hn
      simp only [FMap.get_filterMap]
      obtain ⟨a, ha⟩ := Option.isSome_iff_exists.mp this
      rw [ha]; rfl) hk'.1 (by
      intro n a K hg hK
      simp only [FMap.get_filterMap] at hg
      obtain ⟨a0, ha0, he⟩ := Option.bind_eq_some_iff.mp hg
      cases he
      rw [hasKey_loadAttr E n a0 o.body K (fun e => hk'.2 K e hK)]
      apply hx n a0 K ha0
      rw [List.map_cons, List.filterMap_cons]
      split
      · exact hK
      · exact .tail _ hK)
    refine ⟨oc.toList ++ cs, by simp [ovCommands, h1, h3], ?_⟩
    rw [foldRes_append', h2]
    simp only [Res.bind_ok]
    rw [h4]
    congr 1
    refine OCABox.ext' ?_ rfl rfl rfl
    intro n
    simp only [FMap.get_filterMap]
    cases x.attributes.get n <;> rfl

/-- The results of commands that all succeed. -/
theorem run_results (E : Env) (cs : List Command) (x y : OCABox)
    (h : foldRes (fun b c => applyCommand E (some b) c) x cs = .ok y) :
    (∀ r ∈ results E (some x) cs, r.isOk = true) ∧ finalState E (some x) cs = some y := by
  induction cs generalizing x with
  | nil => cases h; exact ⟨fun r hr => (by cases hr), rfl⟩
  | cons c t ih =>
    simp only [foldRes] at h
    obtain ⟨z, hz, h⟩ := Res.bind_eq_ok.mp h
    obtain ⟨h1, h2⟩ := ih z h
    simp only [results, finalState, hz, afterResult]
    refine ⟨?_, h2⟩
    intro r hr
    rcases List.mem_cons.mp hr with rfl | hr
    · rfl
    · exact h1 r hr

theorem run_builds (E : Env) (Os : Nat → Order) (c : Command) (cs : List Command) (ast : OCAAst)
    (hc : ast.commands = c :: cs) (y : OCABox)
    (h : foldRes (fun b c => applyCommand E (some b) c) OCABox.new (c :: cs) = .ok y) :
    ∃ build, fromAst E Os none ast = .ok build ∧
      (generateBundle E (Os ast.commands.length) y : Res (List BuildErr) _) = .ok build.bundle := by
  have hz : ∃ z, applyCommand E (some OCABox.new) c = .ok z := by
    simp only [foldRes] at h
    obtain ⟨z, hz, -⟩ := Res.bind_eq_ok.mp h
    exact ⟨z, hz⟩
  obtain ⟨z, hz⟩ := hz
  have hz' : applyCommand E none c = .ok z := hz
  have hr : results E none ast.commands = results E (some OCABox.new) (c :: cs) := by
    rw [hc]; simp only [results, hz, hz', afterResult]
  have hf : finalState E none ast.commands = finalState E (some OCABox.new) (c :: cs) := by
    rw [hc]; simp only [finalState, hz, hz', afterResult]
  obtain ⟨h1, h2⟩ := run_results E (c :: cs) _ _ h
  have hok : ∃ b, fromAst E Os none ast = .ok b := by
    apply (C12_build_outcome E Os none ast none rfl).2.2.2
    · intro hp; rw [hr] at hp; have := h1 _ hp; cases this
    · rintro ⟨es, hp⟩; rw [hr] at hp; have := h1 _ hp; cases this
    · rw [hf, h2]; simp
  obtain ⟨b, hb⟩ := hok
  refine ⟨b, hb, ?_⟩
  obtain ⟨base, box, hb1, -, hb3, -, -, -, -, hg, -⟩ := C12_successful_build E Os none ast b hb
  cases hb1
  rw [hf, h2] at hb3
  cases hb3
  exact hg

/-- The classification counts only as a text. -/
theorem bundleOf_class (E : Env) (O : Order) (x : OCABox) (c : Option Str)
    (h : c.getD [] = x.classification.getD []) : bundleOf E O { x with classification := c } = bundleOf E O x := by
  have hb : baseOfBox O { x with classification := c } = baseOfBox O x := by
    unfold baseOfBox
    rw [h]
  have hg : genBodies O { x with classification := c } = genBodies O x := rfl
  unfold bundleOf
  rw [hb, hg]

/-- **C23** For a bundle produced by any accepted command history, if it is expressible then `to_ast` succeeds
(in whatever order the hash maps are iterated) and building the AST from scratch succeeds and gives a bundle with
the same SAID and the same JSON - or two different overlays of the bundle have the same SAID. -/
theorem C23_same_bundle {ε ε' : Type} (E : Env) (O : Order) (box : OCABox) (hr : Reachable E box)
    (b : Bundle) (h : (generateBundle E O box : Res ε _) = .ok b) (hx : b.Expressible E) (O' : Order) :
    ∃ ast, (b.toAst E O' : Res ε' _) = .ok ast ∧
      ∀ Os, ∃ build, fromAst E Os none ast = .ok build ∧
        ((build.bundle.said = b.said ∧ build.bundle.toJson E = b.toJson E) ∨
          ∃ o ∈ b.overlays, ∃ o' ∈ b.overlays, o ≠ o' ∧ o.said = o'.said) := by
  have hw := hr.wf
  obtain ⟨box', hl, -, hc22⟩ := C22_reload_lossless (ε' := ε) E O box hr b h
  have hgen := h
  obtain ⟨-, rfl⟩ := generateBundle_eq_ok h
  rw [ofBundle_generated E O box hw] at hl
  cases hl
  -- the bodies
  have hbodies : (bundleOf E O box).overlays.map Overlay.body = genBodies O box := bodies_bundleOf E O box
  have hmem : ∀ o ∈ (bundleOf E O box).overlays, o.body ∈ genBodies O box := fun o ho => (mem_overlays ho).1
  have hex : ∀ o ∈ (bundleOf E O box).overlays, o.Expressible E := by
    intro o ho
    refine ⟨hx.noLink o ho, hx.noFraming o ho, ?_, hx.langs o ho, hx.noLangPair o ho, hx.codes o ho, ?_⟩
    · rcases mem_genBodies O box hw _ (hmem o ho) with ⟨m, l, ps, -, -, e⟩ | ⟨K, hK, -⟩
      · rw [e]; exact .inl rfl
      · right
        cases K <;> simp only [IsBody] at hK
        case framing id => obtain ⟨md, e, -⟩ := hK; rw [e]; simp [OvBody.kind, loadOrder]
        all_goals rw [hK]; simp [OvBody.kind, loadOrder]
    · intro c d e
      have := (genBody_loadable hw (hmem o ho)).2
      rw [e] at this
      exact this
  -- the first command
  have hty : ∀ n, (boxAdd ⟨some (O'.iter 954 [] (typesOf box.attributes)),
      if (box.classification.getD []).isEmpty then none
        else some [(c!"classification", .val (box.classification.getD []))], none⟩ OCABox.new).attributes.get n =
      ((typesOf box.attributes).get n).map fun t => { ty := some t } := by
    intro n
    rw [get_boxAdd]
    have : FMap.lastVal (O'.iter 954 [] (typesOf box.attributes)) n = (typesOf box.attributes).get n := by
      apply Option.ext
      intro v
      rw [FMap.lastVal_of_nodup (iter_nodup O' 954 _), (O'.perm 954 [] _).mem_iff, FMap.get_eq_some_iff]
    simp only [Option.getD_some, this]
    cases (typesOf box.attributes).get n <;> rfl
  obtain ⟨cs, h1, h2⟩ := ovCommands_run (ε := ε') E O' (bundleOf E O box).overlays
    (boxAdd ⟨some (O'.iter 954 [] (typesOf box.attributes)),
      if (box.classification.getD []).isEmpty then none
        else some [(c!"classification", .val (box.classification.getD []))], none⟩ OCABox.new) hex (by
      intro o ho n hn
      rw [hty, Option.isSome_map]
      have := (genBody_loadable hw (hmem o ho)).1 n hn
      obtain ⟨a, ha⟩ := Option.isSome_iff_exists.mp this
      unfold typesOf
      rw [get_collect, ha]
      exact (hw.attrs n a ha).typed) (by rw [hbodies]; exact genBodies_keys_nodup O box hw) (by
      intro n a K hg _
      rw [hty] at hg
      obtain ⟨t, -, rfl⟩ := Option.map_eq_some_iff.mp hg
      cases K <;> rfl)
  refine ⟨_, by unfold Bundle.toAst; rw [h1]; rfl, ?_⟩
  intro Os
  have hrun := run_builds E Os (baseCommand O' (bundleOf E O box).captureBase) cs
    { OCAAst.new with commands := baseCommand O' (bundleOf E O box).captureBase :: cs } rfl
    { boxAdd ⟨some (O'.iter 954 [] (typesOf box.attributes)),
      if (box.classification.getD []).isEmpty then none
        else some [(c!"classification", .val (box.classification.getD []))], none⟩ OCABox.new with
      attributes := (boxAdd ⟨some (O'.iter 954 [] (typesOf box.attributes)),
        if (box.classification.getD []).isEmpty then none
        else some [(c!"classification", .val (box.classification.getD []))], none⟩ OCABox.new).attributes.filterMap
          fun n a => some (loadAttrs E n ((bundleOf E O box).overlays.map Overlay.body) a)
      metaMap := ((bundleOf E O box).overlays.map Overlay.body).foldl metaStepOf none } (by
      simp only [foldRes]
      rw [show applyCommand E (some OCABox.new) (baseCommand O' (bundleOf E O box).captureBase) =
        .ok (boxAdd ⟨some (O'.iter 954 [] (typesOf box.attributes)),
          if (box.classification.getD []).isEmpty then none
            else some [(c!"classification", .val (box.classification.getD []))], none⟩ OCABox.new) from
        applyAddBase E OCABox.new _]
      simp only [Res.bind_ok]
      rw [h2, (boxAdd_rest _ _).2.1]
      rfl)
  obtain ⟨build, hb1, hb2⟩ := hrun
  refine ⟨build, hb1, ?_⟩
  obtain ⟨b', hb', hres⟩ := hc22 (Os (cs.length + 1))
  -- the rebuilt state is the reloaded one up to the classification
  have hsame : ∃ c : Option Str, c.getD [] = box.classification.getD [] ∧
      ({ boxAdd ⟨some (O'.iter 954 [] (typesOf box.attributes)),
          if (box.classification.getD []).isEmpty then none
            else some [(c!"classification", .val (box.classification.getD []))], none⟩ OCABox.new with
        attributes := (boxAdd ⟨some (O'.iter 954 [] (typesOf box.attributes)),
          if (box.classification.getD []).isEmpty then none
          else some [(c!"classification", .val (box.classification.getD []))], none⟩ OCABox.new).attributes.filterMap
            fun n a => some (loadAttrs E n ((bundleOf E O box).overlays.map Overlay.body) a)
        metaMap := ((bundleOf E O box).overlays.map Overlay.body).foldl metaStepOf none } : OCABox) =
      { reloadBox E O box with classification := c } := by
    refine ⟨(classOf ((if (box.classification.getD []).isEmpty then none
        else some [(c!"classification", NVal.val (box.classification.getD []))]).getD [])).or none, ?_, ?_⟩
    · by_cases he : (box.classification.getD []).isEmpty = true
      · rw [if_pos he]
        rw [List.isEmpty_iff.mp he]
        rfl
      · rw [if_neg he]
        rfl
    · refine OCABox.ext' ?_ (boxAdd_rest _ _).1 ?_ (boxAdd_rest _ _).2.2
      · intro n
        simp only [reloadBox, FMap.get_filterMap]
        rw [hty, hbodies]
        cases ht : (typesOf box.attributes).get n with
        | none => rfl
        | some t =>
          simp only [Option.map_some, Option.bind_some, Option.some.injEq]
          unfold reloadAttr
          have hfl : flagsOf O box.attributes = [] := hx.noFlags
          rw [hfl]
          have hnf : ∀ x ∈ genBodies O box, x.kind ≠ .attributeFraming := by
            intro x hxm
            rw [← hbodies] at hxm
            obtain ⟨o, ho, rfl⟩ := List.mem_map.mp hxm
            exact hx.noFraming o ho
          -- bodies that load nothing do not matter
          have hskip : ∀ (l : List OvBody) (a : Attribute),
              loadAttrs E n l a = loadAttrs E n (l.filter fun x => decide (x.kind ∈ loadOrder)) a := by
            intro l
            induction l with
            | nil => intro a; rfl
            | cons x t ih =>
              intro a
              by_cases hk : x.kind ∈ loadOrder
              · rw [List.filter_cons_of_pos (by simpa using hk)]
                exact ih _
              · rw [List.filter_cons_of_neg (by simpa using hk)]
                have : loadAttr E n a x = a := by
                  cases x <;> first | rfl | (exfalso; revert hk; simp [OvBody.kind, loadOrder])
                show loadAttrs E n t (loadAttr E n a x) = _
                rw [this]
                exact ih a
          rw [hskip (genBodies O box)]
          apply loadAttrs_perm E n _ (loadList_perm (genBodies O box)).symm
          · have := genBodies_keys_nodup O box hw
            exact ((List.filter_sublist).filterMap keyOf).nodup this
          · intro x hxm
            exact hnf x (List.mem_filter.mp hxm).1
      · rw [hbodies]; rfl
  obtain ⟨c, hc, hsame⟩ := hsame
  rw [hsame] at hb2
  have hlen : ({ OCAAst.new with commands := baseCommand O' (bundleOf E O box).captureBase :: cs } : OCAAst).commands.length
      = cs.length + 1 := rfl
  rw [hlen] at hb2
  obtain ⟨-, e1⟩ := generateBundle_eq_ok hb2
  obtain ⟨-, e2⟩ := generateBundle_eq_ok hb'
  rw [bundleOf_class E _ (reloadBox E O box) c hc] at e1
  rw [e1, ← e2]
  exact hres

/-! ## Builds from scratch by commands -/

/-- A command that is not about links or framings. -/
def Command.Plain (c : Command) : Prop :=
  ∀ t cc, c.obj = .overlay t cc → t.kind ≠ .link ∧ t.kind ≠ .attributeFraming

/-- The states reached from the empty one by accepted commands that are not about links or framings. -/
inductive PlainBuild (E : Env) : OCABox → Prop
  | new : PlainBuild E OCABox.new
  | step (box box' : OCABox) (c : Command) :
      PlainBuild E box → c.Plain → applyCommand E (some box) c = .ok box' → PlainBuild E box'

theorem PlainBuild.reachable {E : Env} {b : OCABox} (h : PlainBuild E b) : Reachable E b := by
  induction h with
  | new => exact .new
  | step b b' c _ _ ha ih => exact .step b b' c ih ha

/-- what `to_ast` can express of an attribute; links and framings are excluded if `p` -/
structure ExprAttr (E : Env) (p : Prop) (a : Attribute) : Prop where
  flagged : a.flagged = false
  links : p → a.links = none
  framings : p → a.framings = none
  labels : ∀ l, (optGet a.labels l).isSome = true → (E.lang1Inv l).isSome = true
  informations : ∀ l, (optGet a.informations l).isSome = true → (E.lang1Inv l).isSome = true
  entries : ∀ l, (optGet a.entries l).isSome = true → (E.lang1Inv l).isSome = true
  codes : ∀ g, a.entryCodes = some (.object g) → (g.map (·.1)).Nodup

/-- and of a state -/
structure ExprBox (E : Env) (p : Prop) (b : OCABox) : Prop where
  attrs : ∀ n a, b.attributes.get n = some a → ExprAttr E p a
  metas : ∀ m l ps, b.metaMap = some m → m.get l = some ps →
    (E.lang1Inv l).isSome = true ∧ ps.get c!"lang" = none

theorem imInsert_nodup {V : Type} (k : Str) (v : V) (l : List (Str × V)) (h : (l.map (·.1)).Nodup) :
    ((imInsert k v l).map (·.1)).Nodup ∧ ∀ x, x ∈ (imInsert k v l).map (·.1) ↔ x = k ∨ x ∈ l.map (·.1) := by
  induction l with
  | nil => simp [imInsert]
  | cons p t ih =>
    obtain ⟨k', v'⟩ := p
    rw [List.map_cons, List.nodup_cons] at h
    obtain ⟨h1, h2⟩ := ih h.2
    simp only [imInsert]
    split
    · rename_i e
      subst e
      exact ⟨List.nodup_cons.mpr h, fun x => by simp⟩
    · rename_i e
      rw [List.map_cons, List.nodup_cons]
      refine ⟨⟨?_, h1⟩, fun x => ?_⟩
      · rw [h2]
        rintro (e' | e')
        · exact e e'.symm
        · exact h.1 e'
      · rw [List.mem_cons, h2, List.map_cons, List.mem_cons]
        constructor
        · rintro (a | a | a) <;> simp [a]
        · rintro (a | a | a) <;> simp [a]

theorem imExtend_keys {V : Type} (l l' : List (Str × V)) (h : (l.map (·.1)).Nodup) :
    ((imExtend l l').map (·.1)).Nodup := by
  unfold imExtend
  exact foldl_inv (fun l : List (Str × V) => (l.map (·.1)).Nodup) (fun b p hb => (imInsert_nodup p.1 p.2 b hb).1) l' l h

theorem lang_isSome {E : Env} {c : Content} {l : Lang} (h : c.lang E = some l) : (E.lang1Inv l).isSome = true := by
  unfold Content.lang at h
  split at h
  · rw [E.lang1_inv _ _ h]; rfl
  · cases h

theorem optGet_insert_some {V : Type} {P : Str → Prop} (m : Option (FMap V)) (k : Str) (v : V) (hk : P k)
    (h : ∀ l, (optGet m l).isSome = true → P l) (l : Str)
    (hl : (optGet (some ((m.getD FMap.empty).insert k v)) l).isSome = true) : P l := by
  simp only [optGet, Option.bind_some, FMap.get_insert] at hl
  split at hl
  · rename_i e; subst e; exact hk
  · apply h
    cases m with
    | none => cases hl
    | some m => exact hl

theorem entryCodesOf_nodup (v : NVal) (g : List (Str × List Str)) (h : entryCodesOf v = some (.object g)) :
    (g.map (·.1)).Nodup := by
  cases v <;> simp only [entryCodesOf, Option.some.injEq, reduceCtorEq, EntryCodes.object.injEq] at h
  rw [← h]
  exact imExtend_keys _ _ List.nodup_nil

theorem ExprAttr.put (E : Env) (p : Prop) (k : OvKind) (c : Content) (a : Attribute) (v : NVal) (h : ExprAttr E p a)
    (h1 : p → k ≠ .link) (h2 : p → k ≠ .attributeFraming) : ExprAttr E p (a.put E k c v) := by
  unfold Attribute.put
  cases k <;> dsimp only
  case link =>
    split <;> first | exact h | exact { h with links := fun hp => absurd rfl (h1 hp) } | (split <;> first | exact h | exact { h with links := fun hp => absurd rfl (h1 hp) })
  case attributeFraming =>
    split <;> first | exact h | exact { h with framings := fun hp => absurd rfl (h2 hp) } | (split <;> first | exact h | exact { h with framings := fun hp => absurd rfl (h2 hp) })
  case label =>
    split
    · rename_i l hl
      exact { h with labels := optGet_insert_some a.labels l _ (lang_isSome hl) h.labels }
    · exact h
  case information =>
    split
    · rename_i l hl
      exact { h with informations := optGet_insert_some a.informations l _ (lang_isSome hl) h.informations }
    · exact h
  case entry =>
    split
    · rename_i l he hl
      exact { h with entries := optGet_insert_some a.entries l _ (lang_isSome hl) h.entries }
    · exact h
  case entryCode =>
    split
    · rename_i e he
      refine { h with codes := ?_ }
      intro g hg
      dsimp only at hg
      cases ha : a.entryCodes with
      | some e' => rw [ha] at hg; cases hg; exact h.codes g ha
      | none => rw [ha] at hg; cases hg; exact entryCodesOf_nodup v g he
    · exact h
  all_goals first
    | exact h
    | (split <;> first | exact { h with } | (split <;> exact { h with }))

theorem ExprBox.applyCommand (E : Env) (p : Prop) (b b' : OCABox) (c : Command) (h : ExprBox E p b) (hp : p → c.Plain)
    (ha : applyCommand E (some b) c = .ok b') : ExprBox E p b' := by
  obtain ⟨kind, obj⟩ := c
  cases obj with
  | ocaBundle r => cases kind <;> cases ha
  | captureBase cc =>
    cases kind with
    | add =>
      rw [applyAddBase] at ha
      cases ha
      refine ⟨?_, ?_⟩
      · intro n a hg
        rw [get_boxAdd] at hg
        split at hg
        · cases hg
          cases hb : b.attributes.get n with
          | none => exact ⟨rfl, fun _ => rfl, fun _ => rfl, fun _ h => (by cases h), fun _ h => (by cases h), fun _ h => (by cases h),
              fun _ h => (by cases h)⟩
          | some a0 => exact { h.attrs n a0 hb with }
        · exact h.attrs n a hg
      · intro m l ps hm
        rw [(boxAdd_rest _ _).2.1] at hm
        exact h.metas m l ps hm
    | remove =>
      rw [applyRemoveBase] at ha
      cases ha
      refine ⟨?_, h.metas⟩
      intro n a hg
      rw [get_boxRemove] at hg
      split at hg
      · cases hg
      · exact h.attrs n a hg
    | «from» => cases ha
    | modify => cases ha
  | overlay t cc =>
    cases kind with
    | remove => cases ha
    | «from» => cases ha
    | modify => cases ha
    | add =>
      have hp1 := fun x => (hp x t cc rfl).1
      have hp2 := fun x => (hp x t cc rfl).2
      simp only [OCA.applyCommand, Option.getD_some] at ha
      by_cases hm : t.kind = .metaOv
      · rw [hm, applyOverlay_meta, applyMeta_ok_iff] at ha
        rcases ha with ⟨-, rfl⟩ | ⟨l, hl, rfl⟩
        · exact h
        · refine ⟨h.attrs, ?_⟩
          intro m l' ps hm hg
          dsimp only at hm
          unfold metaPut at hm
          split at hm
          · exact h.metas m l' ps hm hg
          · cases hm
            rw [FMap.get_insert] at hg
            have hold : ∀ l ps, (b.metaMap.getD FMap.empty).get l = some ps →
                (E.lang1Inv l).isSome = true ∧ ps.get c!"lang" = none := by
              intro l ps hg
              cases hb : b.metaMap with
              | none => rw [hb] at hg; cases hg
              | some m => rw [hb] at hg; exact h.metas m l ps hb hg
            split at hg
            · rename_i e
              subst e
              cases hg
              refine ⟨lang_isSome hl, ?_⟩
              rw [FMap.get_insertAll]
              have : FMap.lastVal cc.metaPairs c!"lang" = none := by
                rw [FMap.lastVal_eq_none]
                intro q hq e
                unfold Content.metaPairs textPairs at hq
                obtain ⟨p, hp, he⟩ := List.mem_filterMap.mp hq
                unfold imDrop at hp
                have := (List.mem_filter.mp hp).2
                split at he
                · cases he
                  simp only [Bool.not_eq_true', decide_eq_false_iff_not] at this
                  exact this e
                · cases he
              rw [this]
              cases hb : (b.metaMap.getD FMap.empty).get l' with
              | none => rfl
              | some ps => exact (hold _ _ hb).2
            · exact hold _ _ hg
      · unfold applyOverlay at ha
        split at ha
        · rename_i e; exact absurd e hm
        · split at ha
          · cases ha; exact h
          · rename_i errs f hset
            obtain ⟨b1, h1, h2⟩ := Res.bind_eq_ok.mp ha
            have hb1 : ExprBox E p b1 := by
              refine foldRes_inv (ExprBox E p) ?_ _ b b1 h h1
              intro b q b' hb hs
              unfold ovAttrStep at hs
              split at hs
              · cases hs
              · rename_i a hga
                obtain ⟨a', hf, hs⟩ := Res.bind_eq_ok.mp hs
                cases hs
                rw [addAttribute_some _ _ _ _ hga, merge_setter E _ _ hset _ _ _ hf]
                refine ⟨?_, hb.metas⟩
                intro n a2 hg
                simp only [FMap.get_insert] at hg
                split at hg
                · cases hg; exact ExprAttr.put E p _ _ _ _ (hb.attrs _ _ hga) hp1 hp2
                · exact hb.attrs n a2 hg
            split at h2
            · cases h2; exact hb1
            · cases h2

theorem PlainBuild.expr {E : Env} {b : OCABox} (h : PlainBuild E b) : ExprBox E True b := by
  induction h with
  | new => exact ⟨fun _ _ h => (by cases h), fun _ _ _ h => (by cases h)⟩
  | step b b' c _ hp ha ih => exact ih.applyCommand E True b b' c (fun _ => hp) ha

theorem ExprBox.speakable {E : Env} {p : Prop} {box : OCABox} (hr : Reachable E box) (he : ExprBox E p box) (O : Order) :
    (bundleOf E O box).captureBase.flagged = [] ∧ (bundleOf E O box).Speakable E := by
  have hw := hr.wf
  have hb : ∀ o ∈ (bundleOf E O box).overlays, (∃ m l ps, box.metaMap = some m ∧ m.get l = some ps ∧ o.body = .metaOv l ps) ∨
      ∃ K, IsBody box.attributes K o.body ∧ ∃ n a, box.attributes.get n = some a ∧ hasKey K a = true :=
    fun o ho => mem_genBodies O box hw _ (mem_overlays ho).1
  refine ⟨?_, ?_, ?_, ?_⟩
  · show flagsOf O box.attributes = []
    unfold flagsOf
    rw [List.map_eq_nil_iff, List.filter_eq_nil_iff]
    intro p hp
    rw [(O.perm 327 [] box.attributes).mem_iff] at hp
    have := (he.attrs p.1 p.2 (FMap.get_eq_some_iff.mpr hp)).flagged
    simp [this]
  · intro o ho l hl
    rcases hb o ho with ⟨m, l', ps, hm, hg, e⟩ | ⟨K, hK, n, a, hg, hh⟩
    · rw [e] at hl; cases hl; exact (he.metas m l ps hm hg).1
    · cases K <;> simp only [IsBody] at hK
      case framing id => obtain ⟨md, e, -⟩ := hK; rw [e] at hl; cases hl
      case entry => rw [hK] at hl; cases hl; exact (he.attrs n a hg).entries _ hh
      case label => rw [hK] at hl; cases hl; exact (he.attrs n a hg).labels _ hh
      case information => rw [hK] at hl; cases hl; exact (he.attrs n a hg).informations _ hh
      all_goals rw [hK] at hl; cases hl
  · intro o ho l ps hbo
    rcases hb o ho with ⟨m, l', ps', hm, hg, e⟩ | ⟨K, hK, n, a, hg, hh⟩
    · rw [e] at hbo; cases hbo; exact (he.metas m l ps hm hg).2
    · cases K <;> simp only [IsBody] at hK
      case framing id => obtain ⟨md, e, -⟩ := hK; rw [e] at hbo; cases hbo
      all_goals rw [hK] at hbo; cases hbo
  · intro o ho m hbo n g hg
    rcases hb o ho with ⟨m', l', ps', hm, hg', e⟩ | ⟨K, hK, n', a, hg', hh⟩
    · rw [e] at hbo; cases hbo
    · cases K <;> simp only [IsBody] at hK
      case framing id => obtain ⟨md, e, -⟩ := hK; rw [e] at hbo; cases hbo
      case entryCode =>
        rw [hK] at hbo; cases hbo
        rw [get_collect] at hg
        obtain ⟨a', ha', hc⟩ := Option.bind_eq_some_iff.mp hg
        exact (he.attrs n a' ha').codes g hc
      all_goals rw [hK] at hbo; cases hbo

theorem PlainBuild.expressible {E : Env} {box : OCABox} (h : PlainBuild E box) (O : Order) :
    (bundleOf E O box).Expressible E := by
  have hw := h.reachable.wf
  have he := h.expr
  have hb : ∀ o ∈ (bundleOf E O box).overlays, (∃ m l ps, box.metaMap = some m ∧ m.get l = some ps ∧ o.body = .metaOv l ps) ∨
      ∃ K, IsBody box.attributes K o.body ∧ ∃ n a, box.attributes.get n = some a ∧ hasKey K a = true :=
    fun o ho => mem_genBodies O box hw _ (mem_overlays ho).1
  obtain ⟨hs1, hs2⟩ := he.speakable h.reachable O
  refine ⟨?_, ?_, hs1, hs2.langs, hs2.noLangPair, hs2.codes⟩
  · intro o ho hk
    rcases hb o ho with ⟨m, l, ps, -, -, e⟩ | ⟨K, hK, n, a, hg, hh⟩
    · rw [e] at hk; cases hk
    · cases K <;> simp only [IsBody] at hK
      case framing id => obtain ⟨md, e, -⟩ := hK; rw [e] at hk; cases hk
      case link t =>
        simp only [hasKey, (he.attrs n a hg).links trivial, optGet, Option.bind_none] at hh
        cases hh
      all_goals rw [hK] at hk; cases hk
  · intro o ho hk
    rcases hb o ho with ⟨m, l, ps, -, -, e⟩ | ⟨K, hK, n, a, hg, hh⟩
    · rw [e] at hk; cases hk
    · cases K <;> simp only [IsBody] at hK
      case framing id =>
        simp only [hasKey, (he.attrs n a hg).framings trivial, optGet, Option.bind_none] at hh
        cases hh
      all_goals rw [hK] at hk; cases hk

/-- **C23**, for whole histories: any bundle built from scratch by commands other than LINK and FRAMING is
rebuilt by its own AST (or two different overlays of it have the same SAID). -/
theorem C23_plain_history_same_bundle {ε ε' : Type} (E : Env) (O : Order) (box : OCABox) (hr : PlainBuild E box)
    (b : Bundle) (h : (generateBundle E O box : Res ε _) = .ok b) (O' : Order) :
    ∃ ast, (b.toAst E O' : Res ε' _) = .ok ast ∧
      ∀ Os, ∃ build, fromAst E Os none ast = .ok build ∧
        ((build.bundle.said = b.said ∧ build.bundle.toJson E = b.toJson E) ∨
          ∃ o ∈ b.overlays, ∃ o' ∈ b.overlays, o ≠ o' ∧ o.said = o'.said) := by
  refine C23_same_bundle E O box hr.reachable b h ?_ O'
  obtain ⟨-, rfl⟩ := generateBundle_eq_ok h
  exact hr.expressible O

/-! ## Non-vacuity and limits -/

theorem runAll_plain (E : Env) (cs : List Command) (b b' : OCABox) (h : PlainBuild E b)
    (hp : ∀ c ∈ cs, c.Plain) (hr : runAll E b cs = .ok b') : PlainBuild E b' := by
  induction cs generalizing b with
  | nil => cases hr; exact h
  | cons c t ih =>
    unfold runAll at hr
    simp only [foldRes] at hr
    obtain ⟨z, hz, hr⟩ := Res.bind_eq_ok.mp hr
    exact ih z (.step b z c h (hp c (.head _)) hz) (fun c hc => hp c (.tail _ hc)) hr

/-- The demo build without its link and its framing meets the hypothesis; seven overlays come out. -/
example : ∃ box, PlainBuild Env.demo box ∧ (genBodies Order.sorted box).length = 7 := by
  have h : ∃ box, runAll Env.demo OCABox.new (demoCommands.take 9) = .ok box ∧
      (genBodies Order.sorted box).length = 7 := by
    have h0 : (match runAll Env.demo OCABox.new (demoCommands.take 9) with
      | .ok b => decide ((genBodies Order.sorted b).length = 7)
      | _ => false) = true := by decide
    split at h0
    · rename_i b hb; exact ⟨b, hb, of_decide_eq_true h0⟩
    · cases h0
  obtain ⟨box, h1, h2⟩ := h
  refine ⟨box, runAll_plain _ _ _ _ .new ?_ h1, h2⟩
  intro c hc t cc e
  simp only [demoCommands, List.take, List.mem_cons, List.not_mem_nil, or_false] at hc
  rcases hc with rfl | rfl | rfl | rfl | rfl | rfl | rfl | rfl | rfl <;>
    first | (cases e; decide) | (cases e)

/-- a bundle with one attribute and one overlay -/
def lossyBox (c : Command) : OCABox :=
  match runAll Env.demo OCABox.new [addAttrs [(c!"name", .val .text)], c] with
  | .ok b => b
  | _ => OCABox.new

/-- The number of overlays before and after `to_ast` and a rebuild. -/
def overlaysBeforeAfter (b : OCABox) : Nat × Option Nat :=
  let g := bundleOf Env.demo Order.sorted b
  (g.overlays.length, match (g.toAst Env.demo Order.sorted : Res Str _) with
    | .ok ast => match fromAst Env.demo (fun _ => Order.sorted) none ast with
      | .ok r => some r.bundle.overlays.length
      | _ => none
    | _ => none)

/-- Links are lost: the restriction of C23 is needed. -/
theorem C23_links_dropped :
    overlaysBeforeAfter (lossyBox (addOv .link [(c!"target", .ref (.said c!"Etarget"))] [(c!"name", .val c!"fullName")]))
      = (1, some 0) := by decide

/-- So are framings. -/
theorem C23_framings_dropped :
    overlaysBeforeAfter (lossyBox (addOv .attributeFraming [(c!"id", .val c!"frame1")]
     [(c!"name", .obj [(c!"http://x", .obj [(c!"predicate_id", .val c!"skos:exactMatch"),
        (c!"framing_justification", .val c!"semapv:ManualMappingCuration")])])]))
      = (1, some 0) := by decide

/-- A label is not (the check above can succeed). -/
example : overlaysBeforeAfter (lossyBox (addOv .label [(c!"lang", .val c!"en")] [(c!"name", .val c!"Name")]))
      = (1, some 1) := by decide

/-- A loaded bundle with a language that has no two letter code makes `to_ast` abort. -/
theorem C23_language_aborts {ε : Type} (E : Env) (O : Order) (l : Lang) (h : E.lang1Inv l = none) (m : FMap Str)
    (cb : CaptureBase) (s : Option Said) (v : Str) :
    (Bundle.toAst E O ⟨s, cb, [⟨none, none, v, .information l m⟩]⟩ : Res ε _) = .panic := by
  simp [Bundle.toAst, ovCommands, ovCommand, langProp, h, Res.unwrap]

end OCA
