import Verif.Lemmas.Load
import Verif.Props.OrderIndependence
/-!
# C22: loading a generated bundle as a base and regenerating gives the same bundle
-/
namespace OCA

/-! ## The loaded state -/

/-- the attribute loaded under the name `n` -/
def reloadAttr (E : Env) (O : Order) (box : OCABox) (n : Str) (t : NAttr) : Attribute :=
  loadAttrs E n (loadList (genBodies O box))
    { ty := some t, flagged := decide (n ∈ flagsOf O box.attributes) }

/-- the state loaded from a generated bundle -/
def reloadBox (E : Env) (O : Order) (box : OCABox) : OCABox where
  attributes := (typesOf box.attributes).filterMap fun n t => some (reloadAttr E O box n t)
  mappings := none
  metaMap := (genBodies O box).foldl metaStepOf none
  classification := some (box.classification.getD [])

theorem genBody_loadable {O : Order} {box : OCABox} (hw : BoxWF box) {b : OvBody} (hb : b ∈ genBodies O box) :
    Loadable box.attributes b := by
  have key : ∀ {V : Type} (n : Str) (f : Attribute → Option V), n ∈ (collect box.attributes f).keys →
      (box.attributes.get n).isSome = true := by
    intro V n f hk
    rw [FMap.mem_keys_iff, get_collect] at hk
    cases hg : box.attributes.get n with
    | none => rw [hg] at hk; cases hk
    | some a => rfl
  rcases mem_genBodies O box hw _ hb with ⟨m, l, ps, -, -, rfl⟩ | ⟨K, hK, -⟩
  · exact ⟨fun n hn => (by cases hn), trivial⟩
  · cases K <;> simp only [IsBody] at hK
    case framing id =>
      obtain ⟨md, rfl, hmd⟩ := hK
      refine ⟨fun n hn => key n _ hn, ?_⟩
      simp only
      rw [hmd.hasId]; rfl
    case conditional =>
      subst hK
      refine ⟨fun n hn => key n _ hn, ?_⟩
      intro n x hx
      rw [get_collect] at hx
      obtain ⟨a, ha, hc⟩ := Option.bind_eq_some_iff.mp hx
      rcases (hw.attrs n a ha).cond with ⟨h1, -⟩ | ⟨s, h1, h2⟩
      · rw [h1] at hc; cases hc
      · rw [h1] at hc; cases hc
        refine ⟨s, rfl, ?_⟩
        rw [get_collect, ha]
        simp [h1, h2]
    all_goals subst hK; exact ⟨fun n hn => key n _ hn, trivial⟩

theorem ofBundle_generated {ε : Type} (E : Env) (O : Order) (box : OCABox) (hw : BoxWF box) :
    (OCABox.ofBundle E (bundleOf E O box) : Res ε _) = .ok (reloadBox E O box) := by
  have hdom : ∀ n, (box.attributes.get n).isSome = true →
      ((typesOf box.attributes).get n).isSome = true := by
    intro n h
    obtain ⟨a, ha⟩ := Option.isSome_iff_exists.mp h
    unfold typesOf
    rw [get_collect, ha]
    exact (hw.attrs n a ha).typed
  unfold OCABox.ofBundle
  simp only [bodies_bundleOf]
  have e1 : (bundleOf E O box).captureBase.attributes = typesOf box.attributes := rfl
  have e2 : (bundleOf E O box).captureBase.flagged = flagsOf O box.attributes := rfl
  have e3 : (bundleOf E O box).captureBase.classification = box.classification.getD [] := rfl
  rw [e1, e2, e3, loadFlags_ok]
  · simp only [Res.bind_ok]
    have hl := loadBodies_ok (ε := ε) E (loadList (genBodies O box))
      (((typesOf box.attributes).filterMap (fun _ t => some { ty := some t : Attribute })).filterMap fun n a =>
      some { a with flagged := a.flagged || decide (n ∈ flagsOf O box.attributes) }) (by
        intro b hb
        obtain ⟨h1, h2⟩ := genBody_loadable hw (mem_loadList.mp hb).1
        refine ⟨?_, h2⟩
        intro n hn
        obtain ⟨t, ht⟩ := Option.isSome_iff_exists.mp (hdom n (h1 n hn))
        simp [FMap.get_filterMap, ht])
    unfold loadList at hl
    rw [hl, loadMetas_eq]
    simp only [Res.bind_ok, Res.pure_eq, Res.ok.injEq, reloadBox, OCABox.mk.injEq, and_true]
    ext n : 1
    simp only [FMap.get_filterMap]
    cases (typesOf box.attributes).get n with
    | none => rfl
    | some t => simp [reloadAttr, loadList]
  · intro n hn
    unfold flagsOf at hn
    obtain ⟨p, hp, rfl⟩ := List.mem_map.mp hn
    have := (O.mem_iter 327 [] box.attributes p).mp (List.mem_filter.mp hp).1
    rw [FMap.get_filterMap]
    obtain ⟨t, ht⟩ := Option.isSome_iff_exists.mp (hdom p.1 (by rw [this]; rfl))
    rw [ht]; rfl

theorem reload_get {E : Env} {O : Order} {box : OCABox} {n : Str} {a' : Attribute} :
    (reloadBox E O box).attributes.get n = some a' ↔
      ∃ a t, box.attributes.get n = some a ∧ a.ty = some t ∧ a' = reloadAttr E O box n t := by
  simp only [reloadBox, FMap.get_filterMap, typesOf, get_collect]
  cases hg : box.attributes.get n with
  | none => simp
  | some a =>
    cases ht : a.ty with
    | none => simp [ht]
    | some t =>
      simp [ht]
      exact eq_comm

theorem genBodies_keys_nodup (O : Order) (box : OCABox) (hw : BoxWF box) :
    ((genBodies O box).filterMap keyOf).Nodup := by
  obtain ⟨ks, h1, -, h3, h4⟩ := genBodies_wf O box hw
  rw [h3, List.filterMap_append, preBodies_keys, List.nil_append, List.filterMap_map]
  have : ks.filterMap (keyOf ∘ bodyOf O (O.iter 142 [] box.attributes)) = ks := by
    have : (keyOf ∘ bodyOf O (O.iter 142 [] box.attributes)) = some := by
      funext K
      exact (h4 K).key
    rw [this, List.filterMap_some]
  rw [this]; exact h1

theorem reload_carries {E : Env} {O : Order} {box : OCABox} (hw : BoxWF box) (n : Str) (t : NAttr) (f : Fact) :
    (reloadAttr E O box n t).Carries f ↔ ∃ b ∈ genBodies O box, b.Loads n f := by
  unfold reloadAttr
  rw [loadAttrs_carries E n _ box.attributes _ f ?_ (loadList_keys (genBodies_keys_nodup O box hw)) ?_ ?_]
  · constructor
    · rintro ⟨b, hb, h⟩; exact ⟨b, (mem_loadList.mp hb).1, h⟩
    · rintro ⟨b, hb, h⟩; exact ⟨b, mem_loadList.mpr ⟨hb, kind_of_key (Loads.key h)⟩, h⟩
  · intro b hb
    exact genBody_loadable hw (mem_loadList.mp hb).1
  · cases f <;> rfl
  · intro _; rfl

/-- a fact that is not about framing -/
def Fact.plain : Fact → Bool
  | .framing _ _ => false
  | _ => true

theorem exists_states {O : Order} {box : OCABox} (hw : BoxWF box) (n : Str) (f : Fact) :
    (∃ b ∈ genBodies O box, b.States n f) ↔ ∃ a, box.attributes.get n = some a ∧ a.Carries f := by
  constructor
  · rintro ⟨b, hb, hs⟩
    have hk := states_key hs
    rcases mem_genBodies O box hw _ hb with ⟨m, l, ps, -, -, e⟩ | ⟨K, hK, -⟩
    · rw [e] at hk; cases hk
    · have hk' := hK.key
      rw [hk] at hk'
      cases hk'
      exact (isBody_states n f hK).mp hs
  · rintro ⟨a, hg, hc⟩
    obtain ⟨x, hx, hK⟩ := exists_genBody O box hw f.key n a hg (carries_hasKey hc)
    exact ⟨x, hx, (isBody_states n f hK).mpr ⟨a, hg, hc⟩⟩

theorem reload_plain {E : Env} {O : Order} {box : OCABox} (hw : BoxWF box) {n : Str} {a : Attribute} {t : NAttr}
    (ha : box.attributes.get n = some a) {f : Fact} (hf : f.plain = true) :
    (reloadAttr E O box n t).Carries f ↔ a.Carries f := by
  rw [reload_carries hw]
  have : (∃ b ∈ genBodies O box, b.Loads n f) ↔ ∃ b ∈ genBodies O box, b.States n f := by
    cases f <;> first | exact Iff.rfl | cases hf
  rw [this, exists_states hw]
  constructor
  · rintro ⟨a', h, hc⟩; rw [ha] at h; cases h; exact hc
  · intro h; exact ⟨a, ha, h⟩

theorem reload_framing {E : Env} {O : Order} {box : OCABox} (hw : BoxWF box) {n : Str} {t : NAttr}
    {i : Str} {g : FMap Scope} :
    (reloadAttr E O box n t).Carries (.framing i g) ↔ ∃ md x fr, OvBody.framing md x ∈ genBodies O box ∧
      md.get frameIdKey = some i ∧ x.get n = some fr ∧ g = remeta md fr := by
  rw [reload_carries hw]
  constructor
  · rintro ⟨b, hb, md, x, fr, rfl, h⟩; exact ⟨md, x, fr, hb, h⟩
  · rintro ⟨md, x, fr, hb, h⟩; exact ⟨_, hb, md, x, fr, rfl, h⟩

theorem hasKey_carries {a : Attribute} (hw : AttrWF a) {K : OvKey} (hk : hasKey K a = true) :
    ∃ f : Fact, f.key = K ∧ a.Carries f := by
  cases K <;> simp only [hasKey] at hk <;> obtain ⟨v, hv⟩ := Option.isSome_iff_exists.mp hk
  case charEnc => exact ⟨.encoding v, rfl, hv⟩
  case format => exact ⟨.format v, rfl, hv⟩
  case conformance => exact ⟨.conformance v, rfl, hv⟩
  case cardinality => exact ⟨.cardinality v, rfl, hv⟩
  case unit => exact ⟨.unit v, rfl, hv⟩
  case entryCode => exact ⟨.entryCodes v, rfl, hv⟩
  case conditional =>
    rcases hw.cond with ⟨h1, -⟩ | ⟨s, h1, h2⟩
    · rw [h1] at hv; cases hv
    · exact ⟨.condition _ _, rfl, h1, h2⟩
  case entry l => exact ⟨.entry l v, rfl, optGet_eq_some.mp hv⟩
  case label l => exact ⟨.label l v, rfl, optGet_eq_some.mp hv⟩
  case information l => exact ⟨.information l v, rfl, optGet_eq_some.mp hv⟩
  case link l => exact ⟨.link l v, rfl, optGet_eq_some.mp hv⟩
  case framing l => exact ⟨.framing l v, rfl, optGet_eq_some.mp hv⟩

theorem reload_wf {E : Env} {O : Order} {box : OCABox} (hw : BoxWF box) : BoxWF (reloadBox E O box) :=
  BoxWF.ofBundle E (bundleOf E O box) _ (ofBundle_generated (ε := Unit) E O box hw)

theorem reload_hasKey {E : Env} {O : Order} {box : OCABox} (hw : BoxWF box) {n : Str} {a : Attribute} {t : NAttr}
    (ha : box.attributes.get n = some a) (ht : a.ty = some t) (K : OvKey) :
    hasKey K (reloadAttr E O box n t) = true ↔ hasKey K a = true := by
  have hw' : AttrWF (reloadAttr E O box n t) := (reload_wf (E := E) (O := O) hw).attrs n _
    (reload_get.mpr ⟨a, t, ha, ht, rfl⟩)
  constructor
  · intro h
    obtain ⟨f, rfl, hc⟩ := hasKey_carries hw' h
    by_cases hp : f.plain = true
    · exact carries_hasKey ((reload_plain hw ha hp).mp hc)
    · cases f <;> first | exact absurd rfl hp | skip
      rename_i i g
      obtain ⟨md, x, fr, h1, h2, h3, -⟩ := (reload_framing hw).mp hc
      obtain ⟨a', h4, h5⟩ := (exists_states hw n (.framing i fr)).mp ⟨_, h1, md, x, rfl, h2, h3⟩
      rw [ha] at h4; cases h4
      exact carries_hasKey (f := .framing i fr) h5
  · intro h
    obtain ⟨f, rfl, hc⟩ := hasKey_carries (hw.attrs n a ha) h
    by_cases hp : f.plain = true
    · exact carries_hasKey ((reload_plain hw ha hp).mpr hc)
    · cases f <;> first | exact absurd rfl hp | skip
      rename_i i g
      obtain ⟨b, h1, md, x, rfl, h2, h3⟩ := (exists_states (O := O) hw n (.framing i g)).mpr ⟨a, ha, hc⟩
      exact carries_hasKey (f := .framing i (remeta md g)) ((reload_framing hw).mpr ⟨md, x, g, h1, h2, h3, rfl⟩)

/-! ## Scope metadata is not part of an overlay's JSON -/

/-- a frame's scopes without their metadata -/
def stripScopes (fr : FMap Scope) : FMap Scope := fr.filterMap fun _ sc => some { sc with frameMeta := FMap.empty }

/-- an overlay without the scopes' metadata, which is not written to JSON -/
def OvBody.strip : OvBody → OvBody
  | .framing md x => .framing md (x.filterMap fun _ fr => some (stripScopes fr))
  | b => b

theorem toJson_map {V W : Type} (f : V → W) (g : W → Json) (m : FMap V) :
    (m.filterMap fun _ v => some (f v)).toJson g = m.toJson fun v => g (f v) := by
  unfold FMap.toJson
  rw [toList_map_eq (fun _ v => f v), List.map_map]
  rfl

theorem fields_strip (b : OvBody) : b.strip.fields = b.fields := by
  cases b <;> try rfl
  have h : ∀ fr : FMap Scope, (stripScopes fr).toJson Scope.toJson = fr.toJson Scope.toJson := by
    intro fr
    unfold stripScopes
    rw [toJson_map]; rfl
  simp only [OvBody.strip, OvBody.fields, toJson_map, h]

theorem kind_strip (b : OvBody) : b.strip.kind = b.kind := by cases b <;> rfl

theorem slot_strip (b : OvBody) : b.strip.slot = b.slot := by cases b <;> rfl

/-- the overlay object likewise -/
def Overlay.strip (o : Overlay) : Overlay := { o with body := o.body.strip }

theorem fieldsWith_strip (o : Overlay) (d : Json) : o.strip.fieldsWith d = o.fieldsWith d := by
  unfold Overlay.fieldsWith Overlay.strip Overlay.type
  simp only [fields_strip, kind_strip]
  cases o.body <;> rfl

theorem toJson_strip (o : Overlay) : o.strip.toJson = o.toJson := by
  unfold Overlay.toJson
  rw [fieldsWith_strip]; rfl

theorem strip_sign (E : Env) (cb : Said) (b : OvBody) :
    (Overlay.sign E cb ⟨none, none, c!"1.1", b⟩).strip = Overlay.sign E cb ⟨none, none, c!"1.1", b.strip⟩ := by
  have : (Overlay.digestInput ⟨none, some cb, c!"1.1", b.strip⟩) = Overlay.digestInput ⟨none, some cb, c!"1.1", b⟩ := by
    unfold Overlay.digestInput
    rw [← fieldsWith_strip ⟨none, some cb, c!"1.1", b⟩]; rfl
  unfold Overlay.sign Overlay.strip
  simp only [this]

theorem insOv_strip (o : Overlay) (l : List Overlay) :
    insOv o.strip (l.map Overlay.strip) = (insOv o l).map Overlay.strip := by
  induction l with
  | nil => rfl
  | cons p t ih =>
    rw [List.map_cons, insOv, insOv]
    have : saidLe o.strip p.strip = saidLe o p := rfl
    rw [this]
    split
    · rfl
    · rw [ih]; rfl

theorem sortOvs_strip (l : List Overlay) : sortOvs (l.map Overlay.strip) = (sortOvs l).map Overlay.strip := by
  induction l with
  | nil => rfl
  | cons o t ih => rw [List.map_cons, sortOvs, ih, insOv_strip]; rfl

theorem map_strip_json (l : List Overlay) : (l.map Overlay.strip).map Overlay.toJson = l.map Overlay.toJson := by
  rw [List.map_map]
  apply List.map_congr_left
  intro o _
  exact toJson_strip o

theorem groupJson_strip (k : Str) (l : List Overlay) : groupJson k (l.map Overlay.strip) = groupJson k l := by
  unfold groupJson
  rw [sortOvs_strip, map_strip_json]
  split
  · rfl
  · match l with
    | [] => rfl
    | [o] => exact toJson_strip o
    | a :: b :: t => exact congrArg Json.arr (map_strip_json (a :: b :: t))

theorem groupOf_strip (l : List Overlay) (k : Str) : groupOf (l.map Overlay.strip) k = (groupOf l k).map Overlay.strip := by
  unfold groupOf
  rw [List.filter_map]
  congr 1
  apply List.filter_congr
  intro o _
  show decide (o.body.strip.kind.snake = k) = _
  rw [kind_strip]

theorem keptGroup_strip (l : List Overlay) (k : Str) :
    keptGroup (l.map Overlay.strip) k = (keptGroup l k).map (List.map Overlay.strip) := by
  unfold keptGroup
  rw [groupOf_strip, List.getLast?_map]
  cases (groupOf l k).getLast? with
  | none => rfl
  | some o =>
    simp only [Option.map_some]
    have : o.strip.body.kind = o.body.kind := kind_strip o.body
    rw [this]
    split <;> rfl

theorem overlaysJson_strip (l : List Overlay) : overlaysJson (l.map Overlay.strip) = overlaysJson l := by
  unfold overlaysJson
  rw [← toList_map_eq groupJson, ← toList_map_eq groupJson]
  congr 2
  ext k : 1
  rw [FMap.get_filterMap, FMap.get_filterMap, get_groups, get_groups, keptGroup_strip]
  cases keptGroup l k with
  | none => rfl
  | some g => simp [groupJson_strip]

/-! ## The regenerated overlays -/

theorem collect_reload {V : Type} {E : Env} {O : Order} {box : OCABox} (hw : BoxWF box) (g : Attribute → Option V)
    (F : V → Fact) (hp : ∀ v, (F v).plain = true) (hg : ∀ a v, a.Carries (F v) ↔ g a = some v) :
    collect (reloadBox E O box).attributes g = collect box.attributes g := by
  ext n : 1
  rw [get_collect, get_collect]
  cases ha : box.attributes.get n with
  | none =>
    cases ha' : (reloadBox E O box).attributes.get n with
    | none => rfl
    | some a' =>
      obtain ⟨a, t, h, -⟩ := reload_get.mp ha'
      rw [ha] at h; cases h
  | some a =>
    obtain ⟨t, ht⟩ := Option.isSome_iff_exists.mp (hw.attrs n a ha).typed
    rw [reload_get.mpr ⟨a, t, ha, ht, rfl⟩]
    simp only [Option.bind_some]
    apply Option.ext
    intro v
    rw [← hg, ← hg]
    exact reload_plain hw ha (hp v)

theorem cond_same {a a' : Attribute} (h : AttrWF a) (h' : AttrWF a')
    (hc : ∀ c ds, a'.Carries (.condition c ds) ↔ a.Carries (.condition c ds)) :
    a'.condition = a.condition ∧ a'.dependencies = a.dependencies := by
  rcases h.cond with ⟨h1, h2⟩ | ⟨s, h1, h2⟩
  · rcases h'.cond with ⟨h1', h2'⟩ | ⟨s', h1', h2'⟩
    · rw [h1, h2, h1', h2']; exact ⟨rfl, rfl⟩
    · have := ((hc _ _).mp ⟨h1', h2'⟩).1
      rw [h1] at this; cases this
  · have := (hc _ _).mpr ⟨h1, h2⟩
    rw [h1, h2]; exact this

theorem collect_congr {V : Type} {m m' : FMap Attribute} {g : Attribute → Option V}
    (h : ∀ n, (m.get n).bind g = (m'.get n).bind g) : collect m g = collect m' g := by
  ext n : 1
  rw [get_collect, get_collect, h]

theorem genBody_unique {O : Order} {box : OCABox} (hw : BoxWF box) {b b' : OvBody} {K : OvKey}
    (hb : b ∈ genBodies O box) (hb' : b' ∈ genBodies O box) (h : keyOf b = some K) (h' : keyOf b' = some K) :
    b = b' := by
  have hn := genBodies_keys_nodup O box hw
  generalize genBodies O box = l at hb hb' hn
  induction l with
  | nil => cases hb
  | cons x t ih =>
    have hx : ∀ y ∈ t, keyOf x = some K → keyOf y ≠ some K := by
      intro y hy e e'
      rw [List.filterMap_cons, e] at hn
      exact (List.nodup_cons.mp hn).1 (List.mem_filterMap.mpr ⟨y, hy, e'⟩)
    have ht : (t.filterMap keyOf).Nodup := by
      rw [List.filterMap_cons] at hn
      split at hn
      · exact hn
      · exact (List.nodup_cons.mp hn).2
    rcases List.mem_cons.mp hb with e | hb1 <;> rcases List.mem_cons.mp hb' with e' | hb1'
    · rw [e, e']
    · subst e; exact absurd h' (hx _ hb1' h)
    · subst e'; exact absurd h (hx _ hb1 h')
    · exact ih hb1 hb1' ht

theorem reload_body {E : Env} {O : Order} {box : OCABox} (hw : BoxWF box) {K : OvKey} {b b' : OvBody}
    (hb : b ∈ genBodies O box) (h : IsBody box.attributes K b)
    (h' : IsBody (reloadBox E O box).attributes K b') : b'.strip = b.strip := by
  have hw' := reload_wf (E := E) (O := O) hw
  have lift : ∀ {n a'}, (reloadBox E O box).attributes.get n = some a' →
      ∃ a t, box.attributes.get n = some a ∧ a.ty = some t ∧ a' = reloadAttr E O box n t := fun h => reload_get.mp h
  cases K
  case charEnc =>
    simp only [IsBody] at h h'
    rw [h, h', collect_reload hw _ Fact.encoding (fun _ => rfl) (fun _ _ => Iff.rfl)]
  case format =>
    simp only [IsBody] at h h'
    rw [h, h', collect_reload hw _ Fact.format (fun _ => rfl) (fun _ _ => Iff.rfl)]
  case conformance =>
    simp only [IsBody] at h h'
    rw [h, h', collect_reload hw _ Fact.conformance (fun _ => rfl) (fun _ _ => Iff.rfl)]
  case cardinality =>
    simp only [IsBody] at h h'
    rw [h, h', collect_reload hw _ Fact.cardinality (fun _ => rfl) (fun _ _ => Iff.rfl)]
  case unit =>
    simp only [IsBody] at h h'
    rw [h, h', collect_reload hw _ Fact.unit (fun _ => rfl) (fun _ _ => Iff.rfl)]
  case entryCode =>
    simp only [IsBody] at h h'
    rw [h, h', collect_reload hw _ Fact.entryCodes (fun _ => rfl) (fun _ _ => Iff.rfl)]
  case entry l =>
    simp only [IsBody] at h h'
    rw [h, h', collect_reload hw _ (Fact.entry l) (fun _ => rfl) (fun _ _ => optGet_eq_some.symm)]
  case information l =>
    simp only [IsBody] at h h'
    rw [h, h', collect_reload hw _ (Fact.information l) (fun _ => rfl) (fun _ _ => optGet_eq_some.symm)]
  case link l =>
    simp only [IsBody] at h h'
    rw [h, h', collect_reload hw _ (Fact.link l) (fun _ => rfl) (fun _ _ => optGet_eq_some.symm)]
  case label l =>
    simp only [IsBody] at h h'
    have hc : ∀ {box : OCABox}, BoxWF box → (collect box.attributes fun a =>
        if (optGet a.labels l).isSome then optGet a.categoryLabels l else none) = FMap.empty := by
      intro box hw
      ext n : 1
      rw [get_collect]
      cases ha : box.attributes.get n with
      | none => rfl
      | some a =>
        simp only [Option.bind_some, (hw.attrs n a ha).noCat]
        split <;> rfl
    rw [h, h', hc hw, hc hw', collect_reload hw _ (Fact.label l) (fun _ => rfl) (fun _ _ => optGet_eq_some.symm)]
  case conditional =>
    simp only [IsBody] at h h'
    have key : ∀ n, (∃ a a', (reloadBox E O box).attributes.get n = some a' ∧ box.attributes.get n = some a ∧
        a'.condition = a.condition ∧ a'.dependencies = a.dependencies) ∨
        ((reloadBox E O box).attributes.get n = none ∧ box.attributes.get n = none) := by
      intro n
      cases ha : box.attributes.get n with
      | none =>
        right
        cases ha' : (reloadBox E O box).attributes.get n with
        | none => exact ⟨rfl, rfl⟩
        | some a' => obtain ⟨a, t, h, -⟩ := lift ha'; rw [ha] at h; cases h
      | some a =>
        left
        obtain ⟨t, ht⟩ := Option.isSome_iff_exists.mp (hw.attrs n a ha).typed
        have hg := reload_get (E := E) (O := O).mpr ⟨a, t, ha, ht, rfl⟩
        exact ⟨a, _, hg, rfl, cond_same (hw.attrs n a ha) (hw'.attrs n _ hg)
          (fun c ds => reload_plain hw ha rfl)⟩
    rw [h, h']
    congr 2
    · apply collect_congr
      intro n
      rcases key n with ⟨a, a', h1, h2, h3, -⟩ | ⟨h1, h2⟩
      · rw [h1, h2]; exact h3
      · rw [h1, h2]
    · apply collect_congr
      intro n
      rcases key n with ⟨a, a', h1, h2, h3, h4⟩ | ⟨h1, h2⟩
      · rw [h1, h2]; simp only [Option.bind_some, h3, h4]
      · rw [h1, h2]
  case framing id =>
    have hkey := h.key
    obtain ⟨md, rfl, hmd⟩ := h
    obtain ⟨md', rfl, hmd'⟩ := h'
    have huniq : ∀ {md1 x1}, OvBody.framing md1 x1 ∈ genBodies O box → md1.get frameIdKey = some id →
        md1 = md ∧ x1 = collect box.attributes fun a => optGet a.framings id := by
      intro md1 x1 h1 h2
      have := genBody_unique hw h1 hb (K := .framing id) (by simp [keyOf, h2]) hkey
      injection this with e1 e2
      exact ⟨e1, e2⟩
    -- the frames carried after loading
    have hfr : ∀ {n a g}, (reloadBox E O box).attributes.get n = some a → optGet a.framings id = some g →
        ∃ a0 fr, box.attributes.get n = some a0 ∧ optGet a0.framings id = some fr ∧ g = remeta md fr := by
      intro n a g h1 h2
      obtain ⟨a0, t, h3, h4, rfl⟩ := lift h1
      obtain ⟨md1, x1, fr, h5, h6, h7, h8⟩ := (reload_framing hw (i := id)).mp (optGet_eq_some.mp h2)
      obtain ⟨rfl, rfl⟩ := huniq h5 h6
      rw [get_collect, h3] at h7
      exact ⟨a0, fr, h3, h7, h8⟩
    have hfr' : ∀ {n a0 fr}, box.attributes.get n = some a0 → optGet a0.framings id = some fr →
        ∃ a, (reloadBox E O box).attributes.get n = some a ∧ optGet a.framings id = some (remeta md fr) := by
      intro n a0 fr h1 h2
      obtain ⟨t, ht⟩ := Option.isSome_iff_exists.mp (hw.attrs n a0 h1).typed
      refine ⟨_, reload_get.mpr ⟨a0, t, h1, ht, rfl⟩, ?_⟩
      refine optGet_eq_some.mpr ((reload_framing hw (i := id)).mpr ⟨md, _, fr, hb, hmd.hasId, ?_, rfl⟩)
      rw [get_collect, h1]; exact h2
    have hmd_eq : md' = md := by
      ext k : 1
      by_cases hk : k = frameIdKey
      · subst hk; rw [hmd.hasId, hmd'.hasId]
      · apply Option.ext
        intro v
        have hre : ∀ {fr : FMap Scope} {sc s}, (remeta md fr).get sc = some s → s.frameMeta = md.erase frameIdKey := by
          intro fr sc s h
          unfold remeta at h
          rw [FMap.get_filterMap] at h
          cases hf : fr.get sc with
          | none => rw [hf] at h; cases h
          | some s0 => rw [hf] at h; cases h; rfl
        constructor
        · intro hv
          obtain ⟨n, a, fr, sc, s, h1, h2, h3, h4⟩ := hmd'.sound k v hk hv
          obtain ⟨a0, fr0, -, -, rfl⟩ := hfr h1 h2
          rw [hre h3, FMap.get_erase, if_neg hk] at h4
          exact h4
        · intro hv
          obtain ⟨n, a0, fr, sc, s, h1, h2, h3, h4⟩ := hmd.sound k v hk hv
          obtain ⟨a, h5, h6⟩ := hfr' h1 h2
          have h7 : (remeta md fr).get sc = some { s with frameMeta := md.erase frameIdKey } := by
            unfold remeta
            rw [FMap.get_filterMap, h3]; rfl
          have h8 : (md.erase frameIdKey).get k = some v := by rw [FMap.get_erase, if_neg hk]; exact hv
          obtain ⟨w, hw1⟩ := Option.isSome_iff_exists.mp
            (hmd'.complete n a _ sc _ k h5 h6 h7 (by simp [h8]))
          obtain ⟨n', a', fr', sc', s', g1, g2, g3, g4⟩ := hmd'.sound k w hk hw1
          obtain ⟨a0', fr0', -, -, rfl⟩ := hfr g1 g2
          rw [hre g3, h8] at g4
          rw [hw1, ← g4]
    subst hmd_eq
    simp only [OvBody.strip, OvBody.framing.injEq, true_and]
    ext n : 1
    rw [FMap.get_filterMap, FMap.get_filterMap, get_collect, get_collect]
    cases ha : box.attributes.get n with
    | none =>
      cases ha' : (reloadBox E O box).attributes.get n with
      | none => rfl
      | some a' => obtain ⟨a, t, h, -⟩ := lift ha'; rw [ha] at h; cases h
    | some a =>
      obtain ⟨t, ht⟩ := Option.isSome_iff_exists.mp (hw.attrs n a ha).typed
      have hg := reload_get (E := E) (O := O).mpr ⟨a, t, ha, ht, rfl⟩
      rw [hg]
      simp only [Option.bind_some]
      cases hf : optGet a.framings id with
      | none =>
        cases hf' : optGet (reloadAttr E O box n t).framings id with
        | none => rfl
        | some g =>
          obtain ⟨a0, fr, g1, g2, -⟩ := hfr hg hf'
          rw [ha] at g1; cases g1
          rw [hf] at g2; cases g2
      | some fr =>
        obtain ⟨a1, g1, g2⟩ := hfr' ha hf
        rw [hg] at g1; cases g1
        rw [g2]
        simp only [Option.bind_some, Option.some.injEq]
        ext sc : 1
        simp only [stripScopes, remeta, FMap.get_filterMap]
        cases fr.get sc <;> rfl

theorem reload_meta {E : Env} {O : Order} {box : OCABox} (hw : BoxWF box) (l : Lang) (ps : FMap Str) :
    optGet (reloadBox E O box).metaMap l = some ps ↔ optGet box.metaMap l = some ps := by
  have hmem : ∀ l ps, OvBody.metaOv l ps ∈ genBodies O box ↔ optGet box.metaMap l = some ps := by
    intro l ps
    rw [optGet_eq_some]
    constructor
    · intro hx
      rcases mem_genBodies O box hw _ hx with ⟨m, l', ps', h1, h2, e⟩ | ⟨K, hK, -⟩
      · cases e; exact ⟨m, h1, h2⟩
      · have := hK.key; cases this
    · rintro ⟨m, h1, h2⟩
      obtain ⟨ks, -, -, h3, -⟩ := genBodies_wf O box hw
      rw [h3]
      exact List.mem_append_left _ ((mem_preBodies O box hw _).mpr ⟨m, l, ps, h1, h2, rfl⟩)
  show optGet ((genBodies O box).foldl metaStepOf none) l = some ps ↔ _
  rw [optGet_metas _ _ _ _ (slots_nodup O box hw) rfl, hmem]
  intro l ps h
  obtain ⟨m, h1, h2⟩ := optGet_eq_some.mp ((hmem l ps).mp h)
  exact hw.metas m l ps h1 h2

theorem mem_preBodies' (O : Order) (b : OCABox) (h : BoxWF b) (x : OvBody) :
    x ∈ preBodies O b ↔ ∃ l ps, optGet b.metaMap l = some ps ∧ x = .metaOv l ps := by
  rw [mem_preBodies O b h]
  constructor
  · rintro ⟨m, l, ps, h1, h2, rfl⟩; exact ⟨l, ps, optGet_eq_some.mpr ⟨m, h1, h2⟩, rfl⟩
  · rintro ⟨l, ps, h1, rfl⟩
    obtain ⟨m, h1, h2⟩ := optGet_eq_some.mp h1
    exact ⟨m, l, ps, h1, h2, rfl⟩

theorem reload_bodies_perm (E : Env) (O O' : Order) (box : OCABox) (hw : BoxWF box) :
    ((genBodies O' (reloadBox E O box)).map OvBody.strip).Perm ((genBodies O box).map OvBody.strip) := by
  have hw' := reload_wf (E := E) (O := O) hw
  have hnd : ∀ (O : Order) (b : OCABox), BoxWF b → ((genBodies O b).map OvBody.strip).Nodup := by
    intro O b hb
    have h := slots_nodup O b hb
    have e : (genBodies O b).map OvBody.slot = ((genBodies O b).map OvBody.strip).map OvBody.slot := by
      rw [List.map_map]
      apply List.map_congr_left
      intro x _
      exact (slot_strip x).symm
    rw [e] at h
    exact List.Pairwise.of_map _ (fun a b hn e => hn (by rw [e])) h
  apply perm_of_nodup (hnd _ _ hw') (hnd _ _ hw)
  obtain ⟨ks, h1, h2, h3, h4⟩ := genBodies_wf O box hw
  obtain ⟨ks', h1', h2', h3', h4'⟩ := genBodies_wf O' (reloadBox E O box) hw'
  have hks : ∀ K, K ∈ ks' ↔ K ∈ ks := by
    intro K
    rw [h2, h2']
    constructor
    · rintro ⟨n, a', hg, hk⟩
      obtain ⟨a, t, ha, ht, rfl⟩ := reload_get.mp hg
      exact ⟨n, a, ha, (reload_hasKey hw ha ht K).mp hk⟩
    · rintro ⟨n, a, ha, hk⟩
      obtain ⟨t, ht⟩ := Option.isSome_iff_exists.mp (hw.attrs n a ha).typed
      exact ⟨n, _, reload_get.mpr ⟨a, t, ha, ht, rfl⟩, (reload_hasKey hw ha ht K).mpr hk⟩
  intro x
  simp only [List.mem_map]
  constructor
  · rintro ⟨b', hb', rfl⟩
    rw [h3'] at hb'
    rcases List.mem_append.mp hb' with hb' | hb'
    · obtain ⟨l, ps, hm, rfl⟩ := (mem_preBodies' _ _ hw' _).mp hb'
      refine ⟨.metaOv l ps, ?_, rfl⟩
      rw [h3]
      exact List.mem_append_left _ ((mem_preBodies' _ _ hw _).mpr ⟨l, ps, (reload_meta hw l ps).mp hm, rfl⟩)
    · obtain ⟨K, hK, rfl⟩ := List.mem_map.mp hb'
      have hb : bodyOf O (O.iter 142 [] box.attributes) K ∈ genBodies O box := by
        rw [h3]
        exact List.mem_append_right _ (List.mem_map_of_mem ((hks K).mp hK))
      exact ⟨_, hb, (reload_body hw hb (h4 K) (h4' K)).symm⟩
  · rintro ⟨b, hb, rfl⟩
    have hb0 := hb
    rw [h3] at hb
    rcases List.mem_append.mp hb with hb | hb
    · obtain ⟨l, ps, hm, rfl⟩ := (mem_preBodies' _ _ hw _).mp hb
      refine ⟨.metaOv l ps, ?_, rfl⟩
      rw [h3']
      exact List.mem_append_left _ ((mem_preBodies' _ _ hw' _).mpr ⟨l, ps, (reload_meta hw l ps).mpr hm, rfl⟩)
    · obtain ⟨K, hK, rfl⟩ := List.mem_map.mp hb
      refine ⟨_, ?_, reload_body hw hb0 (h4 K) (h4' K)⟩
      rw [h3']
      exact List.mem_append_right _ (List.mem_map_of_mem ((hks K).mpr hK))

theorem reload_base_fields (E : Env) (O O' : Order) (box : OCABox) (hw : BoxWF box) (d : Json) :
    (baseOfBox O' (reloadBox E O box)).fieldsWith d = (baseOfBox O box).fieldsWith d := by
  have hty : typesOf (reloadBox E O box).attributes = typesOf box.attributes := by
    ext n : 1
    unfold typesOf
    rw [get_collect, get_collect]
    cases ha : box.attributes.get n with
    | none =>
      cases ha' : (reloadBox E O box).attributes.get n with
      | none => rfl
      | some a' => obtain ⟨a, t, h, -⟩ := reload_get.mp ha'; rw [ha] at h; cases h
    | some a =>
      obtain ⟨t, ht⟩ := Option.isSome_iff_exists.mp (hw.attrs n a ha).typed
      rw [reload_get.mpr ⟨a, t, ha, ht, rfl⟩]
      simp only [Option.bind_some, ht]
      exact (ty_loadAttrs ..).1
  have hmem : ∀ (O : Order) (m : FMap Attribute) n, n ∈ flagsOf O m ↔ ∃ a, m.get n = some a ∧ a.flagged = true := by
    intro O m n
    unfold flagsOf
    simp only [List.mem_map, List.mem_filter, O.mem_iter]
    constructor
    · rintro ⟨p, ⟨h1, h2⟩, rfl⟩; exact ⟨p.2, h1, h2⟩
    · rintro ⟨a, h1, h2⟩; exact ⟨(n, a), ⟨h1, h2⟩, rfl⟩
  have hnd : ∀ (O : Order) (m : FMap Attribute), (flagsOf O m).Nodup := by
    intro O m
    have : (flagsOf O m).Sublist ((O.iter 327 [] m).map (·.1)) := (List.filter_sublist).map _
    exact ((((O.perm 327 [] m).map _).nodup_iff).mpr m.keys_nodup).sublist this
  have hfl : (flagsOf O' (reloadBox E O box).attributes).Perm (flagsOf O box.attributes) := by
    apply perm_of_nodup (hnd _ _) (hnd _ _)
    intro n
    rw [hmem, hmem]
    constructor
    · rintro ⟨a', hg, hf⟩
      obtain ⟨a, t, ha, ht, rfl⟩ := reload_get.mp hg
      unfold reloadAttr at hf
      rw [(ty_loadAttrs ..).2] at hf
      simp only [decide_eq_true_eq] at hf
      exact (hmem O _ n).mp hf
    · rintro ⟨a, ha, hf⟩
      obtain ⟨t, ht⟩ := Option.isSome_iff_exists.mp (hw.attrs n a ha).typed
      refine ⟨_, reload_get.mpr ⟨a, t, ha, ht, rfl⟩, ?_⟩
      unfold reloadAttr
      rw [(ty_loadAttrs ..).2]
      simp only [decide_eq_true_eq]
      exact (hmem O _ n).mpr ⟨a, ha, hf⟩
  unfold CaptureBase.fieldsWith baseOfBox
  simp only
  rw [hty, sortStr_perm hfl]
  rfl

/-- **C22** Turning a bundle generated from a reachable state back into a build state succeeds, and
regenerating - whatever the hash orders of either generation - gives the same JSON and the same SAID; the
only other possibility is that the bundle held two different overlays with the same digest. -/
theorem C22_reload_lossless {ε ε' : Type} (E : Env) (O : Order) (box : OCABox) (hr : Reachable E box)
    (b : Bundle) (h : (generateBundle E O box : Res ε _) = .ok b) :
    ∃ box', (OCABox.ofBundle E b : Res ε' _) = .ok box' ∧ Reachable E box' ∧
      ∀ O', ∃ b', (generateBundle E O' box' : Res ε _) = .ok b' ∧
        ((b'.said = b.said ∧ b'.toJson E = b.toJson E) ∨
          ∃ o ∈ b.overlays, ∃ o' ∈ b.overlays, o ≠ o' ∧ o.said = o'.said) := by
  have hC16 := C16_one_overlay_per_slot E O box hr b h
  obtain ⟨-, rfl⟩ := generateBundle_eq_ok h
  have hw := hr.wf
  have hl := ofBundle_generated (ε := ε') E O box hw
  have hr' : Reachable E (reloadBox E O box) := Reachable.loaded _ _ hl
  refine ⟨_, hl, hr', ?_⟩
  intro O'
  refine ⟨_, generateBundle_ok E O' _ (reachable_typed hr'), ?_⟩
  by_cases hx : ∃ o ∈ (bundleOf E O box).overlays, ∃ o' ∈ (bundleOf E O box).overlays, o ≠ o' ∧ o.said = o'.said
  · exact .inr hx
  · left
    have hbf := reload_base_fields E O O' box hw
    have hdig : (baseOfBox O' (reloadBox E O box)).digestInput = (baseOfBox O box).digestInput := by
      unfold CaptureBase.digestInput; rw [hbf]
    have hcb : ((baseOfBox O' (reloadBox E O box)).sign E).toJson = ((baseOfBox O box).sign E).toJson := by
      show Json.obj (CaptureBase.fieldsWith _ (.str (E.digest (baseOfBox O' (reloadBox E O box)).digestInput))) =
        Json.obj (CaptureBase.fieldsWith _ (.str (E.digest (baseOfBox O box).digestInput)))
      have := hbf (.str (E.digest (baseOfBox O box).digestInput))
      rw [hdig]
      exact congrArg Json.obj this
    have hstrip : ∀ (O : Order) (bx : OCABox), (bundleOf E O bx).overlays.map Overlay.strip =
        ((genBodies O bx).map OvBody.strip).map fun body =>
          Overlay.sign E (E.digest (baseOfBox O bx).digestInput) ⟨none, none, c!"1.1", body⟩ := by
      intro O bx
      show List.map _ (List.map _ _) = _
      rw [List.map_map, List.map_map]
      apply List.map_congr_left
      intro x _
      exact strip_sign E _ x
    have hperm : ((bundleOf E O box).overlays.map Overlay.strip).Perm
        ((bundleOf E O' (reloadBox E O box)).overlays.map Overlay.strip) := by
      rw [hstrip, hstrip, hdig]
      exact ((reload_bodies_perm E O O' box hw).symm).map _
    have hsep : SaidsSeparate ((bundleOf E O box).overlays.map Overlay.strip) := by
      constructor
      · intro o ho
        obtain ⟨o0, h0, rfl⟩ := List.mem_map.mp ho
        exact overlays_signed E O box o0 h0
      · intro o ho o' ho' e
        obtain ⟨o0, h0, rfl⟩ := List.mem_map.mp ho
        obtain ⟨o1, h1, rfl⟩ := List.mem_map.mp ho'
        by_cases he : o0 = o1
        · rw [he]
        · exact absurd ⟨o0, h0, o1, h1, he, e⟩ hx
    have hsing : SinglesOnce ((bundleOf E O box).overlays.map Overlay.strip) := by
      apply singlesOnce_of_slots
      rw [List.map_map]
      have : ((fun o : Overlay => o.body.slot) ∘ Overlay.strip) = fun o => o.body.slot := by
        funext o; exact slot_strip o.body
      rw [this]; exact hC16
    have hov : overlaysJson (bundleOf E O' (reloadBox E O box)).overlays = overlaysJson (bundleOf E O box).overlays := by
      rw [← overlaysJson_strip (bundleOf E O box).overlays,
        ← overlaysJson_strip (bundleOf E O' (reloadBox E O box)).overlays,
        overlaysJson_perm hperm hsep hsing]
    have key : ∀ d, (bundleOf E O' (reloadBox E O box)).fieldsWith d = (bundleOf E O box).fieldsWith d := by
      intro d
      show [(c!"d", d), (c!"capture_base", ((baseOfBox O' (reloadBox E O box)).sign E).toJson),
          (c!"overlays", overlaysJson (bundleOf E O' (reloadBox E O box)).overlays)] =
        [(c!"d", d), (c!"capture_base", ((baseOfBox O box).sign E).toJson),
          (c!"overlays", overlaysJson (bundleOf E O box).overlays)]
      rw [hov, hcb]
    have hsaid : (bundleOf E O' (reloadBox E O box)).said = (bundleOf E O box).said := by
      show some (E.digest (versioned E ((bundleOf E O' (reloadBox E O box)).fieldsWith (.str placeholder)))) =
        some (E.digest (versioned E ((bundleOf E O box).fieldsWith (.str placeholder))))
      rw [key]
    refine ⟨hsaid, ?_⟩
    unfold Bundle.toJson
    rw [hsaid, key]

/-- It applies to the demo bundle, whose overlays have different SAIDs, so reloading reproduces its SAID. -/
example : ∃ box', (OCABox.ofBundle Env.demo demoBundle : Res Str _) = .ok box' ∧
    (generateBundle Env.demo Order.reversed box' : Res Str _).isOk = true := by
  obtain ⟨box', h1, h2, h3⟩ := C22_reload_lossless (ε' := Str) Env.demo _ demoBox demo_reachable demoBundle demo_generated
  obtain ⟨b', h4, -⟩ := h3 Order.reversed
  exact ⟨box', h1, by rw [h4]; rfl⟩

end OCA
