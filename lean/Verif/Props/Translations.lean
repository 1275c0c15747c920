import Verif.Props.Validation
import Verif.Props.Reload
import Verif.Props.Conditions
/-!
# C27, C28: translation and condition checks of the semantic validator
-/
namespace OCA

/-! ## C27 Specification -/

/-- The overlay has a translation for `key`: a meta overlay for its pairs, the others for attributes. -/
def OvBody.Translates (key : Str) : OvBody → Prop
  | .metaOv _ m => ∃ v, m.get key = some v
  | .entry _ m => ∃ v, m.get key = some v
  | .information _ m => ∃ v, m.get key = some v
  | .label _ _ m _ => ∃ v, m.get key = some v
  | _ => False

/-- The kinds of overlays that are translated. -/
def OvKind.Translated (k : OvKind) : Prop := k = .metaOv ∨ k = .entry ∨ k = .information ∨ k = .label

/-- Some overlay of kind `k` in language `l`. -/
def Bundle.HasLang (b : Bundle) (k : OvKind) (l : Lang) : Prop :=
  ∃ o ∈ b.overlays, o.body.kind = k ∧ o.body.language = some l

/-- Some overlay of kind `k` translates `key`. -/
def Bundle.NeedsKey (b : Bundle) (k : OvKind) (key : Str) : Prop :=
  ∃ o ∈ b.overlays, o.body.kind = k ∧ o.body.Translates key

/-- The bundle is translated into exactly the enforced languages: for every translated kind that occurs,
the languages are the enforced ones, and what one overlay translates all overlays of the kind translate. -/
def Bundle.FullyTranslated (enforced : List Lang) (b : Bundle) : Prop :=
  ∀ k, k.Translated → (∃ o ∈ b.overlays, o.body.kind = k) →
    (∀ l, b.HasLang k l ↔ l ∈ enforced) ∧
    (∀ o ∈ b.overlays, o.body.kind = k → ∀ key, b.NeedsKey k key → o.body.Translates key)

/-! ## C27 Proofs -/

theorem mem_transKeys {o : OvBody} (h : o.kind.Translated) (key : Str) :
    key ∈ o.transKeys ↔ o.Translates key := by
  have : ∀ {V : Type} (m : FMap V), key ∈ m.keys ↔ ∃ v, m.get key = some v := by
    intro V m
    rw [FMap.mem_keys_iff, Option.isSome_iff_exists]
  cases o <;> simp only [OvKind.Translated, OvBody.kind, reduceCtorEq, or_self, or_false, or_true] at h <;>
    simp only [OvBody.transKeys, OvBody.attributes, OvBody.Translates, this]

theorem translated_language {o : OvBody} (h : o.kind.Translated) : ∃ l, o.language = some l := by
  cases o <;> simp only [OvKind.Translated, OvBody.kind, reduceCtorEq, or_self, or_false, or_true] at h <;>
    simp [OvBody.language]

theorem mem_translatedKinds (k : OvKind) : k ∈ translatedKinds ↔ k.Translated := by
  simp [translatedKinds, OvKind.Translated]

theorem mem_allTranslationErrors (enforced : List Lang) (b : Bundle) (he : enforced ≠ []) (e : ValErr) :
    e ∈ allTranslationErrors enforced b ↔
      ∃ k, k.Translated ∧ (∃ o ∈ b.overlays, o.body.kind = k) ∧
        e ∈ translationErrors k enforced ((b.overlays.map Overlay.body).filter fun o => o.kind = k) := by
  unfold allTranslationErrors
  rw [if_neg he, List.mem_flatMap]
  constructor
  · rintro ⟨k, hk, h⟩
    simp only at h
    split at h
    · cases h
    · next hne =>
      obtain ⟨x, hx⟩ := List.exists_mem_of_ne_nil _ hne
      simp only [List.mem_filter, List.mem_map, decide_eq_true_eq] at hx
      obtain ⟨⟨o, ho, rfl⟩, hk'⟩ := hx
      exact ⟨k, (mem_translatedKinds k).mp hk, ⟨o, ho, hk'⟩, h⟩
  · rintro ⟨k, hk, ⟨o, ho, hk'⟩, h⟩
    refine ⟨k, (mem_translatedKinds k).mpr hk, ?_⟩
    simp only
    rw [if_neg]
    · exact h
    · intro e
      have : o.body ∈ (b.overlays.map Overlay.body).filter fun o => o.kind = k := by
        simp only [List.mem_filter, List.mem_map, decide_eq_true_eq]
        exact ⟨⟨o, ho, rfl⟩, hk'⟩
      rw [e] at this
      cases this

theorem mem_kindBodies {b : Bundle} {k : OvKind} {x : OvBody} :
    (x ∈ (b.overlays.map Overlay.body).filter fun o => o.kind = k) ↔
      ∃ o ∈ b.overlays, o.body = x ∧ o.body.kind = k := by
  simp only [List.mem_filter, List.mem_map, decide_eq_true_eq]
  constructor
  · rintro ⟨⟨o, ho, rfl⟩, hk⟩; exact ⟨o, ho, rfl, hk⟩
  · rintro ⟨o, ho, rfl, hk⟩; exact ⟨⟨o, ho, rfl⟩, hk⟩

theorem mem_kindLangs {b : Bundle} {k : OvKind} {l : Lang} :
    l ∈ ((b.overlays.map Overlay.body).filter fun o => o.kind = k).filterMap OvBody.language ↔ b.HasLang k l := by
  rw [List.mem_filterMap]
  constructor
  · rintro ⟨x, hx, hl⟩
    obtain ⟨o, ho, rfl, hk⟩ := mem_kindBodies.mp hx
    exact ⟨o, ho, hk, hl⟩
  · rintro ⟨o, ho, hk, hl⟩
    exact ⟨_, mem_kindBodies.mpr ⟨o, ho, rfl, hk⟩, hl⟩

theorem mem_kindKeys {b : Bundle} {k : OvKind} (hk : k.Translated) {key : Str} :
    key ∈ (((b.overlays.map Overlay.body).filter fun o => o.kind = k).flatMap OvBody.transKeys).eraseDups ↔
      b.NeedsKey k key := by
  rw [List.mem_eraseDups, List.mem_flatMap]
  constructor
  · rintro ⟨x, hx, hl⟩
    obtain ⟨o, ho, rfl, hk'⟩ := mem_kindBodies.mp hx
    exact ⟨o, ho, hk', (mem_transKeys (hk' ▸ hk) key).mp hl⟩
  · rintro ⟨o, ho, hk', hl⟩
    exact ⟨_, mem_kindBodies.mpr ⟨o, ho, rfl, hk'⟩, (mem_transKeys (hk' ▸ hk) key).mpr hl⟩

/-- **C27** The reports, exactly: a language that is not enforced, an enforced language that is missing, and
for each overlay each thing to translate that another overlay of the kind translates and it does not. Other
errors are never among them. -/
theorem C27_reports_exact (enforced : List Lang) (b : Bundle) (he : enforced ≠ []) (e : ValErr) :
    e ∈ allTranslationErrors enforced b ↔ ∃ k, k.Translated ∧ (∃ o ∈ b.overlays, o.body.kind = k) ∧
      ((∃ l, e = .unexpectedLang k l ∧ b.HasLang k l ∧ l ∉ enforced) ∨
       (∃ l, e = .missingLang k l ∧ l ∈ enforced ∧ ¬ b.HasLang k l) ∨
       (∃ o ∈ b.overlays, o.body.kind = k ∧ ∃ l key, o.body.language = some l ∧ e = .missingKey k l key ∧
         b.NeedsKey k key ∧ ¬ o.body.Translates key)) := by
  rw [mem_allTranslationErrors enforced b he]
  refine exists_congr fun k => and_congr_right fun hk => and_congr_right fun _ => ?_
  unfold translationErrors
  simp only [List.mem_append, List.mem_map, List.mem_flatMap, List.mem_filter, List.mem_eraseDups,
    Bool.not_eq_eq_eq_not, Bool.not_true, decide_eq_false_iff_not, or_assoc]
  refine or_congr ?_ (or_congr ?_ ?_)
  · constructor
    · rintro ⟨l, ⟨hl, hn⟩, rfl⟩
      exact ⟨l, rfl, mem_kindLangs.mp (by simpa [List.mem_filter] using hl), hn⟩
    · rintro ⟨l, rfl, hl, hn⟩
      exact ⟨l, ⟨by simpa [List.mem_filter] using mem_kindLangs.mpr hl, hn⟩, rfl⟩
  · constructor
    · rintro ⟨l, ⟨hl, hn⟩, rfl⟩
      refine ⟨l, rfl, hl, fun h => hn ?_⟩
      simpa [List.mem_filter] using mem_kindLangs.mpr h
    · rintro ⟨l, rfl, hl, hn⟩
      refine ⟨l, ⟨hl, fun h => hn (mem_kindLangs.mp ?_)⟩, rfl⟩
      simpa [List.mem_filter] using h
  · constructor
    · rintro ⟨x, ⟨⟨o, ho, rfl⟩, hk'⟩, key, ⟨hkey, hn⟩, rfl⟩
      have hk' := of_decide_eq_true hk'
      have ht : o.body.kind.Translated := hk' ▸ hk
      obtain ⟨l, hl⟩ := translated_language ht
      refine ⟨o, ho, hk', l, key, hl, by rw [hl]; rfl, ?_, fun h => hn ((mem_transKeys ht key).mpr h)⟩
      obtain ⟨y, ⟨⟨o', ho', rfl⟩, hk''⟩, hy⟩ := hkey
      have hk'' := of_decide_eq_true hk''
      exact ⟨o', ho', hk'', (mem_transKeys (hk'' ▸ hk) key).mp hy⟩
    · rintro ⟨o, ho, hk', l, key, hl, rfl, ⟨o', ho', hk'', hy⟩, hn⟩
      refine ⟨o.body, ⟨⟨o, ho, rfl⟩, decide_eq_true hk'⟩, key,
        ⟨⟨o'.body, ⟨⟨o', ho', rfl⟩, decide_eq_true hk''⟩, (mem_transKeys (hk'' ▸ hk) key).mpr hy⟩,
          fun h => hn ((mem_transKeys (hk' ▸ hk) key).mp h)⟩, ?_⟩
      rw [hl]; rfl

/-- **C27** No translation error is reported iff the bundle is translated into exactly the enforced
languages; with no enforced language nothing is checked. -/
theorem C27_no_report_iff (enforced : List Lang) (b : Bundle) :
    allTranslationErrors enforced b = [] ↔ enforced = [] ∨ b.FullyTranslated enforced := by
  by_cases he : enforced = []
  · simp [allTranslationErrors, he]
  · rw [List.eq_nil_iff_forall_not_mem]
    simp only [he, false_or]
    constructor
    · intro h k hk hex
      refine ⟨fun l => ⟨fun hl => ?_, fun hl => ?_⟩, fun o ho hk' key hkey => ?_⟩
      · refine Decidable.byContradiction fun hn => ?_
        exact h _ ((C27_reports_exact enforced b he _).mpr ⟨k, hk, hex, .inl ⟨l, rfl, hl, hn⟩⟩)
      · refine Classical.byContradiction fun hn => ?_
        exact h _ ((C27_reports_exact enforced b he _).mpr ⟨k, hk, hex, .inr (.inl ⟨l, rfl, hl, hn⟩)⟩)
      · refine Classical.byContradiction fun hn => ?_
        obtain ⟨l, hl⟩ := translated_language (hk' ▸ hk)
        exact h _ ((C27_reports_exact enforced b he _).mpr
          ⟨k, hk, hex, .inr (.inr ⟨o, ho, hk', l, key, hl, rfl, hkey, hn⟩)⟩)
    · intro h e hmem
      obtain ⟨k, hk, hex, h'⟩ := (C27_reports_exact enforced b he _).mp hmem
      obtain ⟨h1, h2⟩ := h k hk hex
      rcases h' with ⟨l, -, hl, hn⟩ | ⟨l, -, hl, hn⟩ | ⟨o, ho, hk', l, key, -, -, hkey, hn⟩
      · exact hn ((h1 l).mp hl)
      · exact hn ((h1 l).mpr hl)
      · exact hn (h2 o ho hk' key hkey)

/-- **C27** Validation as a whole: a bundle whose condition check reports nothing is accepted iff its SAIDs
are consistent and it is translated into exactly the enforced languages. -/
theorem C27_validate_iff (E : Env) (enforced : List Lang) (b : Bundle)
    (hc : (conditionErrors E b : Res (List ValErr) _) = .ok []) :
    validateBundle E enforced b = .ok () ↔ b.SaidsValid E ∧ (enforced = [] ∨ b.FullyTranslated enforced) := by
  unfold validateBundle
  rw [hc]
  simp only [Res.bind_ok, if_true]
  rw [← C18_said_checks_exact, ← C27_no_report_iff, ← List.append_eq_nil_iff]
  split
  · next h => simp [h]
  · next h => simp [h]

/-- non-vacuity: a bundle in two languages whose second label overlay is short of an attribute -/
def twoLabels : Bundle where
  said := none
  captureBase := ⟨none, c!"spec/capture_base/1.1", FMap.empty, [], []⟩
  overlays := [⟨none, none, c!"1.1", .label c!"eng" [] ((FMap.empty.insert c!"a" c!"A").insert c!"b" c!"B") FMap.empty⟩,
    ⟨none, none, c!"1.1", .label c!"fra" [] (FMap.empty.insert c!"a" c!"A") FMap.empty⟩]

example : allTranslationErrors [c!"eng", c!"fra"] twoLabels = [.missingKey .label c!"fra" c!"b"] := by decide
example : allTranslationErrors [c!"eng"] twoLabels =
    [.unexpectedLang .label c!"fra", .missingKey .label c!"fra" c!"b"] := by decide

/-! ## C28 Specification -/

/-- The types a condition may read: everything but an array of something other than a base type. -/
def NAttr.Supported : NAttr → Prop
  | .arr (.val _) => True
  | .arr _ => False
  | _ => True

/-- The attribute names in `ds` are all capture base attributes of a supported type. -/
def DepsSupported (types : FMap NAttr) (ds : List Str) : Prop :=
  ∀ d ∈ ds, ∃ t, types.get d = some t ∧ t.Supported

/-- The value used in place of an attribute of a type, as text. -/
def StandIn (x : Str) : NAttr → Prop
  | .null => x = c!"null"
  | .val .text => x = c!"'test'"
  | .val .numeric => x = c!"0"
  | .val .dateTime => x = c!"'2020-01-01'"
  | .val .binary => x = c!"test"
  | .val .boolean => x = c!"true"
  | .arr (.val .text) => x = c!"['test']"
  | .arr (.val .numeric) => x = c!"[0]"
  | .arr (.val .dateTime) => x = c!"['2020-01-01']"
  | .arr (.val .binary) => x = c!"[test]"
  | .arr (.val .boolean) => x = c!"[true]"
  | .arr _ => False
  | .ref r => x = r.toStr

/-- The values used in place of the attributes. -/
def StandIns (types : FMap NAttr) (ds : List Str) (f : Str → Str) : Prop :=
  ∀ d ∈ ds, ∃ t, types.get d = some t ∧ StandIn (f d) t

/-! ## C28 Proofs -/

theorem mockValue_supported {ε : Type} (t : NAttr) :
    (t.Supported ∧ ∃ v, (mockValue t : Res ε _) = .ok v) ∨ (¬ t.Supported ∧ (mockValue t : Res ε _) = .panic) := by
  cases t with
  | null => exact .inl ⟨trivial, _, rfl⟩
  | ref r => exact .inl ⟨trivial, _, rfl⟩
  | val t => cases t <;> exact .inl ⟨trivial, _, rfl⟩
  | arr t => cases t with
    | val t => cases t <;> exact .inl ⟨trivial, _, rfl⟩
    | null => exact .inr ⟨id, rfl⟩
    | ref r => exact .inr ⟨id, rfl⟩
    | arr t => exact .inr ⟨id, rfl⟩

theorem mockAll_ok {ε : Type} (types : FMap NAttr) (ds : List Str) (m : FMap Str) (h : DepsSupported types ds) :
    ∃ m', (mockAll types ds m : Res ε _) = .ok m' ∧
      (∀ d ∈ ds, ∃ t v, types.get d = some t ∧ (mockValue t : Res ε _) = .ok v ∧ m'.get d = some v) ∧
      (∀ d ∉ ds, m'.get d = m.get d) := by
  induction ds generalizing m with
  | nil => exact ⟨m, rfl, fun d hd => (by cases hd), fun _ _ => rfl⟩
  | cons d ds ih =>
    obtain ⟨t, ht, hs⟩ := h d (.head _)
    obtain ⟨v, hv⟩ : ∃ v, (mockValue t : Res ε _) = .ok v := by
      rcases mockValue_supported (ε := ε) t with ⟨-, h⟩ | ⟨h, -⟩
      · exact h
      · exact absurd hs h
    obtain ⟨m', h1, h2, h3⟩ := ih (m.insert d v) (fun x hx => h x (.tail _ hx))
    refine ⟨m', ?_, ?_, ?_⟩
    · simp [mockAll, ht, hv, h1]
    · intro x hx
      by_cases hx' : x ∈ ds
      · exact h2 x hx'
      · rcases List.mem_cons.mp hx with rfl | hx
        · refine ⟨t, v, ht, hv, ?_⟩
          rw [h3 x hx', FMap.get_insert]; simp
        · exact absurd hx hx'
    · intro x hx
      rw [h3 x (fun h => hx (.tail _ h)), FMap.get_insert, if_neg]
      rintro rfl
      exact hx (.head _)

theorem mockAll_panic {ε : Type} (types : FMap NAttr) (ds : List Str) (m : FMap Str)
    (h : ¬ DepsSupported types ds) : (mockAll types ds m : Res ε _) = .panic := by
  induction ds generalizing m with
  | nil => exact absurd (fun d hd => (by cases hd)) h
  | cons d ds ih =>
    simp only [mockAll]
    cases ht : types.get d with
    | none => rfl
    | some t =>
      rcases mockValue_supported (ε := ε) t with ⟨hs, v, hv⟩ | ⟨-, hv⟩
      · simp only [Res.unwrap_some, Res.bind_ok, hv]
        apply ih
        intro h'
        apply h
        intro x hx
        rcases List.mem_cons.mp hx with rfl | hx
        · exact ⟨t, ht, hs⟩
        · exact h' x hx
      · simp [hv]

theorem mockValue_text {ε : Type} {t : NAttr} {v x : Str} (h : (mockValue t : Res ε _) = .ok v) (hx : x = v) :
    StandIn x t := by
  subst hx
  cases t with
  | null => cases h; rfl
  | ref r => cases h; rfl
  | val t => cases t <;> cases h <;> rfl
  | arr t => cases t with
    | val t => cases t <;> cases h <;> rfl
    | null => cases h
    | ref r => cases h
    | arr t => cases h

/-- **C28** The check of one condition set with text `s`, exactly: a self reference is reported; otherwise
the check aborts iff a name in the text is not a capture base attribute of a supported type; otherwise Lua
runs the text with every name replaced by the stand-in value of its type, and a failure is reported. -/
theorem C28_condition_check {ε : Type} (E : Env) (types : FMap NAttr) (deps : FMap (List Str)) (attr s : Str)
    (ps : List Piece) (h : Decomp s ps) (hd : deps.get attr = some (setCondition s).2) :
    (attr ∈ phNames ps ∧
      (condCheck E types deps attr (setCondition s).1 : Res ε _) = .ok (some (.selfDependency attr))) ∨
    (attr ∉ phNames ps ∧ ¬ DepsSupported types (phNames ps) ∧
      (condCheck E types deps attr (setCondition s).1 : Res ε _) = .panic) ∨
    (attr ∉ phNames ps ∧ ∃ f, StandIns types (phNames ps) f ∧
      (condCheck E types deps attr (setCondition s).1 : Res ε _) =
        match E.lua (c!"return " ++ substNames f ps) with
        | some _ => .ok none
        | none => .ok (some (.invalidCondition attr))) := by
  obtain ⟨e1, -, -⟩ := C02_dependencies_exact s ps h
  have hmem : ∀ n, n ∈ (setCondition s).2 ↔ n ∈ phNames ps := by
    intro n; rw [e1, List.mem_eraseDups]
  by_cases ha : attr ∈ phNames ps
  · left
    refine ⟨ha, ?_⟩
    simp [condCheck, hd, (hmem attr).mpr ha]
  · right
    have ha' : attr ∉ (setCondition s).2 := fun h => ha ((hmem attr).mp h)
    by_cases hs : DepsSupported types (phNames ps)
    · right
      refine ⟨ha, ?_⟩
      obtain ⟨m, h1, h2, -⟩ := mockAll_ok (ε := ε) types (setCondition s).2 FMap.empty
        (fun d hd => hs d ((hmem d).mp hd))
      refine ⟨fun d => (m.get d).getD [], ?_, ?_⟩
      · intro d hd
        obtain ⟨t, v, ht, hv, hm⟩ := h2 d ((hmem d).mpr hd)
        refine ⟨t, ht, ?_⟩
        exact mockValue_text (x := (m.get d).getD []) hv (by rw [hm]; rfl)
      · have hr := replace_stored (ε := ε) (fun d => (m.get d).getD [])
          (fun g => do let d ← depAt (setCondition s).2 g; Res.unwrap (m.get d))
          (scan matchAny 0 s) [] (setCondition s).2 List.prefix_rfl
          (by
            intro g d hd h'
            simp only [h', Res.bind_ok]
            rw [h.unique] at hd
            obtain ⟨t, v, ht, hv, hm⟩ := h2 d ((hmem d).mpr hd)
            simp [hm])
        simp only [condCheck, hd, Res.unwrap_some, Res.bind_ok, if_neg ha', h1]
        rw [scan_stored, hr, h.unique]
        simp only [Res.bind_ok]
        cases E.lua (c!"return " ++ substNames (fun d => (m.get d).getD []) ps) <;> rfl
    · left
      refine ⟨ha, hs, ?_⟩
      have hs' : ¬ DepsSupported types (setCondition s).2 := by
        intro h; exact hs fun d hd => h d ((hmem d).mpr hd)
      simp [condCheck, hd, if_neg ha', mockAll_panic types _ _ hs']

theorem condErrorsOf_ok {ε : Type} (E : Env) (types : FMap NAttr) (deps : FMap (List Str)) (l : List (Str × Str)) :
    ((∃ p ∈ l, (condCheck E types deps p.1 p.2 : Res ε _) = .panic) ∧
      (condErrorsOf E types deps l : Res ε _) = .panic) ∨
    ∃ es, (condErrorsOf E types deps l : Res ε _) = .ok es ∧
      (∀ p ∈ l, (condCheck E types deps p.1 p.2 : Res ε _) ≠ .panic) ∧
      ∀ e, e ∈ es ↔ ∃ p ∈ l, (condCheck E types deps p.1 p.2 : Res ε _) = .ok (some e) := by
  have hnoerr : ∀ a c, ∀ e, (condCheck E types deps a c : Res ε _) ≠ .err e := by
    intro a c e he
    have hmock : ∀ ds m e, (mockAll types ds m : Res ε _) ≠ .err e := by
      intro ds
      induction ds with
      | nil => intro m e h; cases h
      | cons d ds ih =>
        intro m e h
        simp only [mockAll] at h
        cases ht : types.get d with
        | none => simp [ht] at h
        | some t =>
          rcases mockValue_supported (ε := ε) t with ⟨hs, v, hv⟩ | ⟨-, hv⟩
          · simp only [ht, Res.unwrap_some, Res.bind_ok, hv] at h
            exact ih _ _ h
          · simp [ht, hv] at h
    have hrep : ∀ (F : Str → Res ε Str) (hF : ∀ g e, F g ≠ .err e) ps e, replacePieces F ps ≠ .err e := by
      intro F hF ps
      induction ps with
      | nil => intro e h; cases h
      | cons p ps ih =>
        intro e h
        cases p with
        | lit c =>
          simp only [replacePieces] at h
          cases hr : replacePieces F ps with
          | ok x => rw [hr] at h; cases h
          | err x => exact ih x hr
          | panic => rw [hr] at h; cases h
        | ph n =>
          simp only [replacePieces] at h
          cases hn : F n with
          | err x => exact hF n x hn
          | panic => rw [hn] at h; cases h
          | ok t =>
            cases hr : replacePieces F ps with
            | ok x => rw [hn, hr] at h; cases h
            | err x => exact ih x hr
            | panic => rw [hn, hr] at h; cases h
    simp only [condCheck] at he
    cases hd : deps.get a with
    | none => simp [hd] at he
    | some ds =>
      simp only [hd, Res.unwrap_some, Res.bind_ok] at he
      split at he
      · cases he
      · cases hm : (mockAll types ds FMap.empty : Res ε _) with
        | err x => exact hmock _ _ _ hm
        | panic => simp [hm] at he
        | ok m =>
          simp only [hm, Res.bind_ok] at he
          cases hr : replacePieces (ε := ε) (fun g => do let d ← depAt ds g; Res.unwrap (m.get d))
            (scan (matchNum E) 0 c) with
          | err x =>
            refine hrep _ ?_ _ _ hr
            intro g e h
            simp only [depAt] at h
            cases hp : parseNat g with
            | none => simp [hp] at h
            | some i =>
              simp only [hp] at h
              cases hi : ds[i]? with
              | none => simp [hi] at h
              | some d =>
                simp only [hi, Res.unwrap_some, Res.bind_ok] at h
                cases hg : m.get d <;> simp [hg] at h
          | panic => simp [hr] at he
          | ok x =>
            simp only [hr, Res.bind_ok] at he
            split at he <;> cases he
  induction l with
  | nil => exact .inr ⟨[], rfl, fun p hp => (by cases hp), fun e => by simp⟩
  | cons p t ih =>
    obtain ⟨a, c⟩ := p
    simp only [condErrorsOf]
    cases hc : (condCheck E types deps a c : Res ε _) with
    | err x => exact absurd hc (hnoerr a c x)
    | panic => exact .inl ⟨⟨(a, c), .head _, hc⟩, by simp⟩
    | ok o =>
      rcases ih with ⟨⟨p, hp, hpp⟩, hpan⟩ | ⟨es, h1, h2, h3⟩
      · exact .inl ⟨⟨p, .tail _ hp, hpp⟩, by simp [hpan]⟩
      · refine .inr ⟨o.toList ++ es, by simp [h1], ?_, ?_⟩
        · intro p hp
          rcases List.mem_cons.mp hp with rfl | hp
          · rw [hc]; simp
          · exact h2 p hp
        · intro e
          rw [List.mem_append, h3]
          simp only [List.mem_cons, exists_eq_or_imp, hc, Res.ok.injEq, Option.mem_toList]
          
/-- The condition check of a bundle, when all conditions were set by `set_condition`. -/
theorem firstConditional_generated {O : Order} {E : Env} {box : OCABox} (hw : BoxWF box) :
    ∀ c d, firstConditional (bundleOf E O box) = some (c, d) →
      CondsOk c d ∧ .conditional c d ∈ genBodies O box := by
  intro c d h
  unfold firstConditional at h
  obtain ⟨o, ho, h⟩ := List.exists_of_findSome?_eq_some h
  cases hb : o.body <;> rw [hb] at h <;> simp only [reduceCtorEq, Option.some.injEq, Prod.mk.injEq] at h
  obtain ⟨rfl, rfl⟩ := h
  have hm := (mem_overlays ho).1
  rw [hb] at hm
  exact ⟨(genBody_loadable hw hm).2, hm⟩

theorem validate_of_conditions (E : Env) (enforced : List Lang) (b : Bundle) :
    (validateBundle E enforced b = .panic ↔ (conditionErrors E b : Res (List ValErr) _) = .panic) ∧
    ∀ e es, (conditionErrors E b : Res (List ValErr) _) = .ok es → e ∈ es → validateBundle E enforced b = .err es := by
  unfold validateBundle
  constructor
  · cases hc : (conditionErrors E b : Res (List ValErr) _) with
    | err x => simp
    | panic => simp
    | ok es =>
      simp only [Res.bind_ok, reduceCtorEq, iff_false]
      split
      · split <;> simp
      · simp
  · intro e es h he
    rw [h]
    simp only [Res.bind_ok]
    rw [if_neg]
    rintro rfl
    cases he

theorem firstConditional_some {b : Bundle} {o : Overlay} (ho : o ∈ b.overlays) {c : FMap Str} {d : FMap (List Str)}
    (hb : o.body = .conditional c d) : ∃ p, firstConditional b = some p := by
  unfold firstConditional
  rw [← Option.isSome_iff_exists, List.findSome?_isSome_iff]
  exact ⟨o, ho, by rw [hb]; rfl⟩

/-- The conditions a generated bundle checks are those its overlays state. -/
theorem checked_iff_stated {O : Order} {E : Env} {box : OCABox} (hw : BoxWF box) {c : FMap Str}
    {d : FMap (List Str)} (h : firstConditional (bundleOf E O box) = some (c, d)) (n x : Str) (ds : List Str) :
    (c.get n = some x ∧ d.get n = some ds) ↔ ∃ o ∈ (bundleOf E O box).overlays, o.body.States n (.condition x ds) := by
  have hm := (firstConditional_generated hw c d h).2
  constructor
  · rintro ⟨h1, h2⟩
    unfold firstConditional at h
    obtain ⟨o, ho, h⟩ := List.exists_of_findSome?_eq_some h
    cases hb : o.body <;> rw [hb] at h <;> simp only [reduceCtorEq, Option.some.injEq, Prod.mk.injEq] at h
    obtain ⟨rfl, rfl⟩ := h
    exact ⟨o, ho, _, _, hb, h1, h2⟩
  · rintro ⟨o, ho, c', d', hb, h1, h2⟩
    have hm' := (mem_overlays ho).1
    rw [hb] at hm'
    have := genBody_unique hw hm hm' (K := .conditional) rfl rfl
    cases this
    exact ⟨h1, h2⟩

/-- **C28** Validating a generated bundle aborts iff some condition that does not name its own attribute
names one that is not in the capture base or has an unsupported type. -/
theorem C28_abort_iff {ε : Type} (E : Env) (O : Order) (box : OCABox) (hr : Reachable E box) (b : Bundle)
    (h : (generateBundle E O box : Res ε _) = .ok b) (enforced : List Lang) :
    validateBundle E enforced b = .panic ↔
      ∃ n c ds, (∃ o ∈ b.overlays, o.body.States n (.condition c ds)) ∧ n ∉ ds ∧
        ¬ DepsSupported b.captureBase.attributes ds := by
  rw [(validate_of_conditions E enforced b).1]
  have hw := hr.wf
  obtain ⟨-, rfl⟩ := generateBundle_eq_ok h
  unfold conditionErrors
  cases hf : firstConditional (bundleOf E O box) with
  | none =>
    simp only [reduceCtorEq, false_iff]
    rintro ⟨n, c, ds, ⟨o, ho, c', d', hb, -⟩, -⟩
    obtain ⟨p, hp⟩ := firstConditional_some ho hb
    rw [hf] at hp; cases hp
  | some p =>
    obtain ⟨c, d⟩ := p
    simp only
    have hok := (firstConditional_generated hw c d hf).1
    have hst := checked_iff_stated hw hf
    constructor
    · intro hp
      rcases condErrorsOf_ok (ε := List ValErr) E (bundleOf E O box).captureBase.attributes d c.l with
        ⟨⟨⟨n, x⟩, hm, hc⟩, -⟩ | ⟨es, h1, -⟩
      · obtain ⟨s, rfl, hd⟩ := hok n x (FMap.get_eq_some_iff.mpr hm)
        rcases C28_condition_check (ε := List ValErr) E _ d n s _ (Decomp.scan s) hd with
          ⟨-, he⟩ | ⟨ha, hs, -⟩ | ⟨-, f, -, he⟩
        · rw [he] at hc; cases hc
        · have hmem : ∀ n, n ∈ (setCondition s).2 ↔ n ∈ phNames (scan matchAny 0 s) := by
            intro n; rw [(C02_dependencies_exact s _ (Decomp.scan s)).1, List.mem_eraseDups]
          refine ⟨n, _, _, (hst _ _ _).mp ⟨FMap.get_eq_some_iff.mpr hm, hd⟩, fun h => ha ((hmem n).mp h), ?_⟩
          intro h; exact hs fun d hd => h d ((hmem d).mpr hd)
        · rw [he] at hc; split at hc <;> cases hc
      · rw [h1] at hp; cases hp
    · rintro ⟨n, x, ds, hs, hn, hds⟩
      obtain ⟨hc, hd⟩ := (hst _ _ _).mpr hs
      obtain ⟨s, rfl, hd'⟩ := hok n x hc
      rw [hd] at hd'; cases hd'
      have hmem : ∀ n, n ∈ (setCondition s).2 ↔ n ∈ phNames (scan matchAny 0 s) := by
        intro n; rw [(C02_dependencies_exact s _ (Decomp.scan s)).1, List.mem_eraseDups]
      rcases condErrorsOf_ok (ε := List ValErr) E (bundleOf E O box).captureBase.attributes d c.l with
        ⟨-, hp⟩ | ⟨es, -, h2, -⟩
      · exact hp
      · exfalso
        apply h2 _ (FMap.get_eq_some_iff.mp hc)
        rcases C28_condition_check (ε := List ValErr) E (bundleOf E O box).captureBase.attributes d n s _ (Decomp.scan s) hd with
          ⟨ha, -⟩ | ⟨-, -, he⟩ | ⟨-, f, hf, -⟩
        · exact absurd ((hmem n).mpr ha) hn
        · exact he
        · exfalso
          apply hds
          intro x hx
          obtain ⟨t, ht, hs⟩ := hf x ((hmem x).mp hx)
          refine ⟨t, ht, ?_⟩
          cases t with
          | arr t => cases t with
            | val t => trivial
            | null => exact hs
            | ref r => exact hs
            | arr t => exact hs
          | _ => trivial

/-- **C28** A generated bundle with a condition that names its own attribute never passes: validation
reports it, unless it aborts. -/
theorem C28_self_dependency_rejected {ε : Type} (E : Env) (O : Order) (box : OCABox) (hr : Reachable E box)
    (b : Bundle) (h : (generateBundle E O box : Res ε _) = .ok b) (enforced : List Lang) (n c : Str)
    (ds : List Str) (o : Overlay) (ho : o ∈ b.overlays) (hs : o.body.States n (.condition c ds)) (hn : n ∈ ds) :
    validateBundle E enforced b = .panic ∨
      ∃ es, validateBundle E enforced b = .err es ∧ .selfDependency n ∈ es := by
  have hw := hr.wf
  obtain ⟨-, rfl⟩ := generateBundle_eq_ok h
  obtain ⟨⟨c', d'⟩, hf⟩ : ∃ p, firstConditional (bundleOf E O box) = some p := by
    obtain ⟨_, _, hb, -⟩ := hs
    exact firstConditional_some ho hb
  obtain ⟨hc, hd⟩ := (checked_iff_stated hw hf n c ds).mpr ⟨o, ho, hs⟩
  rcases condErrorsOf_ok (ε := List ValErr) E (bundleOf E O box).captureBase.attributes d' c'.l with
    ⟨-, hp⟩ | ⟨es, h1, -, h3⟩
  · left
    rw [(validate_of_conditions E enforced _).1]
    unfold conditionErrors
    rw [hf]; exact hp
  · right
    have hmem : ValErr.selfDependency n ∈ es := by
      rw [h3]
      refine ⟨(n, c), FMap.get_eq_some_iff.mp hc, ?_⟩
      simp [condCheck, hd, hn]
    refine ⟨es, (validate_of_conditions E enforced _).2 _ es ?_ hmem, hmem⟩
    unfold conditionErrors
    rw [hf]; exact h1

/-! ### A condition whose dependency was removed -/

/-- ADD ATTRIBUTE a b; ADD CONDITION a "${b}"; REMOVE ATTRIBUTE b -/
def removedDepCommands : List Command :=
  [addAttrs [(c!"a", .val .text), (c!"b", .val .boolean)],
   addOv .conditional [] [(c!"a", .val c!"${b}")],
   removeAttrs [c!"b"]]

/-- **C28** (finding) REMOVE ATTRIBUTE does not look at conditions: the bundle it leaves makes validation
abort, although every command was accepted. -/
theorem C28_removed_dependency_aborts :
    ∃ box b, runAll Env.demo OCABox.new removedDepCommands = .ok box ∧
      (generateBundle Env.demo .sorted box : Res Unit _) = .ok b ∧
      ∀ enforced, validateBundle Env.demo enforced b = .panic :=
  ⟨_, _, rfl, rfl, fun _ => rfl⟩

/-- non-vacuity: the demo bundle has a condition, is checked without abort and passes -/
example : (∃ o ∈ demoBundle.overlays, o.body.kind = .conditional) ∧
    validateBundle Env.demo [] demoBundle = .ok () := by
  refine ⟨by decide, (C27_validate_iff _ _ _ (by decide)).mpr ⟨?_, .inl rfl⟩⟩
  exact (C21_generated_singles _ _ _ demo_reachable _ demo_generated).1

end OCA
