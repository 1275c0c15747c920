import Verif.Model.Fetch
import Verif.Props.StoreTotal
import Verif.Props.Rebuild
import Verif.Props.Pages
/-!
# C62: single objects, search records, names

`get_oca_objects`, `search_oca_bundle` (its records) and `fetch_all_refs`.
-/
namespace OCA

/-! ## Specification -/

/-- The builds made on a facade, in order. -/
inductive Facade.Built (E : Env) (S : Serde) : Facade → List Build → Prop
  | new : Built E S Facade.new []
  | validated {f f' : Facade} {l : List Build} {Os : Nat → Order} {ls : List Line} {b : Build} :
      Built E S f l → f.validate E S Os ls = .ok (f', b) → Built E S f' l
  | built {f f1 f' : Facade} {l : List Build} {Os : Nat → Order} {O : SetOrder} {ls : List Line} {b : Build} :
      Built E S f l → f.validate E S Os ls = .ok (f1, b) → (∀ st ∈ b.steps, st.command.Keepable E) →
      (f1.build E S O b : Res (List VErr) _) = .ok f' → Built E S f' (l ++ [b])

/-- The capture base and the overlays of a bundle, with their identifiers. -/
inductive Bundle.Object (b : Bundle) : Said → OCAObject → Prop
  | base {s : Said} : b.captureBase.said = some s → b.Object s (.captureBase b.captureBase)
  | overlay {o : Overlay} {s : Said} : o ∈ b.overlays → o.said = some s → b.Object s (.overlay o)

/-- what the JSON of an object shows -/
def OCAObject.json : OCAObject → Json
  | .captureBase c => c.toJson
  | .overlay o => o.toJson

/-- the kind of an object: 0 for a capture base, otherwise that of the overlay -/
def OCAObject.code : OCAObject → Nat
  | .captureBase _ => 0
  | .overlay o => o.body.kind.code

/-- the identifier in an object -/
def OCAObject.said : OCAObject → Option Said
  | .captureBase c => c.said
  | .overlay o => o.said

/-- some step of some build produced this object -/
def Produced (l : List Build) (s : Said) (o : OCAObject) : Prop := ∃ b ∈ l, ∃ st ∈ b.steps, st.result.Object s o

/-! ## The facade as a list of builds -/

theorem Facade.Built.from' {E : Env} {S : Serde} {f : Facade} {l : List Build} (h : f.Built E S l) :
    Facade.BuiltFrom E S f (l.map (·.bundle)) := by
  induction h with
  | new => exact .new
  | validated _ hv ih => exact .validated ih hv
  | built _ hv hc hb ih => rw [List.map_append]; exact .built ih hv hc hb

theorem Facade.Built.keepable {E : Env} {S : Serde} {f : Facade} {l : List Build} (h : f.Built E S l) :
    ∀ b ∈ l, ∀ st ∈ b.steps, st.result.Keepable E := by
  induction h with
  | new => intro b hb; cases hb
  | validated _ _ ih => exact ih
  | built hf hv hc _ ih =>
    intro b hb st hst
    rcases List.mem_append.1 hb with hb | hb
    · exact ih b hb st hst
    · cases List.mem_singleton.1 hb
      exact ((validate_keeps hf.from'.runs.kept hv hc).1 st hst).2.1

/-- everything written to the cache -/
def allWrites (E : Env) (S : Serde) (l : List Build) : Writes := l.flatMap fun b => b.steps.flatMap (BuildStep.cacheWrites E S)

theorem Facade.Built.cache {E : Env} {S : Serde} {f : Facade} {l : List Build} (h : f.Built E S l) (ns : Namespace) (k : Str) :
    f.cache.get ns k = .ok (lastWrite ns k (allWrites E S l)) := by
  induction h with
  | new => rfl
  | validated _ hv ih =>
    obtain ⟨_, _, _, _, -, -, -, -, h5, -⟩ := validate_parts hv
    rw [h5]; exact ih
  | built _ hv hc hb ih =>
    obtain ⟨_, _, _, _, -, -, -, -, h5, -⟩ := validate_parts hv
    have := (build_after hb).1 ns k
    rw [this, allWrites, List.flatMap_append, List.flatMap_cons, List.flatMap_nil, List.append_nil, lastWrite_append]
    rw [h5, ih]
    cases lastWrite ns k _ <;> rfl

theorem Facade.Built.said {E : Env} {S : Serde} {f : Facade} {l : List Build} (h : f.Built E S l) :
    ∀ b ∈ l, ∀ st ∈ b.steps, st.result.captureBase.said ≠ none ∧ ∀ o ∈ st.result.overlays, o.said ≠ none := by
  induction h with
  | new => intro b hb; cases hb
  | validated _ _ ih => exact ih
  | built hf hv hc hb ih =>
    intro b hb' st hst
    rcases List.mem_append.1 hb' with hb' | hb'
    · exact ih b hb' st hst
    · cases List.mem_singleton.1 hb'
      obtain ⟨_, _, _, _, -, -, -, h4, -⟩ := validate_parts hv
      obtain ⟨_, _, -, -, -, -, -, rfl⟩ := fromAst_steps h4
      have hsig := stepsFrom_signed st hst
      exact hsig.2

theorem mem_objectWrites {E : Env} {S : Serde} {l : List Build} {s : Said} {v : Bytes}
    (hs : ∀ b ∈ l, ∀ st ∈ b.steps, st.result.captureBase.said ≠ none ∧ ∀ o ∈ st.result.overlays, o.said ≠ none) :
    (.objectsJson, s, v) ∈ allWrites E S l ↔ ∃ o, Produced l s o ∧ v = utf8 (S.print o.json) := by
  constructor
  · intro h
    obtain ⟨b, hb, h⟩ := List.mem_flatMap.1 h
    obtain ⟨st, hst, h⟩ := List.mem_flatMap.1 h
    obtain ⟨h1, h2⟩ := hs b hb st hst
    unfold BuildStep.cacheWrites at h
    rcases List.mem_cons.1 h with h | h
    · cases h
    · rcases List.mem_cons.1 h with h | h
      · cases hc : st.result.captureBase.said with
        | none => exact absurd hc h1
        | some c =>
          rw [hc] at h
          cases h
          exact ⟨_, ⟨b, hb, st, hst, .base hc⟩, rfl⟩
      · obtain ⟨o, ho, e⟩ := List.mem_map.1 h
        cases hc : o.said with
        | none => exact absurd hc (h2 o ho)
        | some c =>
          rw [hc] at e
          cases e
          exact ⟨_, ⟨b, hb, st, hst, .overlay ho hc⟩, rfl⟩
  · rintro ⟨o, ⟨b, hb, st, hst, ho⟩, rfl⟩
    refine List.mem_flatMap.2 ⟨b, hb, List.mem_flatMap.2 ⟨st, hst, ?_⟩⟩
    unfold BuildStep.cacheWrites
    cases ho with
    | base e => rw [e]; exact .tail _ (.head _)
    | overlay ho e =>
      refine .tail _ (.tail _ (List.mem_map.2 ⟨_, ho, ?_⟩))
      rw [e]; rfl

/-- the kinds recorded for the objects of the bundles built so far -/
theorem Facade.Built.kinds {E : Env} (hE : E.ShortSaids) {S : Serde} {f : Facade} {l : List Build} (h : f.Built E S l) :
    ∃ R M, RelRep f.db R M ∧ (∀ x, (∀ b ∈ l, ∀ k, ¬ b.bundle.Has x k) → M x = none) ∧
      ∀ x b k, b ∈ l → b.bundle.Has x k → ∃ k', M x = some k' ∧ ∃ b' ∈ l, b'.bundle.Has x k' := by
  induction h with
  | new =>
    refine ⟨fun _ => none, fun _ => none, ⟨fun _ _ _ => rfl, fun _ _ _ h => (by cases h), fun _ => rfl, fun _ _ h => (by cases h),
      fun _ _ h => (by cases h)⟩, fun _ _ => rfl, fun _ _ _ h => by cases h⟩
  | validated _ hv ih =>
    obtain ⟨_, _, _, _, -, -, -, -, -, -, -, -, hd⟩ := validate_parts hv
    obtain ⟨R, M, r, h1, h2⟩ := ih
    exact ⟨R, M, r.congr fun k => hd _ (by decide) k, h1, h2⟩
  | @built _ _ _ l _ O _ B _ hv hc hb ih =>
    obtain ⟨_, _, _, _, -, -, -, h4, -, -, -, -, hd⟩ := validate_parts hv
    obtain ⟨R, M, r, h1, h2⟩ := ih
    obtain ⟨d, d', e1, e2, e3⟩ := build_relations hb
    have r1 := (r.congr fun k => hd .relations (by decide) k).congr e1
    obtain ⟨_, box, -, -, -, -, -, hbd⟩ := fromAst_steps h4
    have hsd : ∀ x ∈ B.bundle.saids, ∃ j, x = some (E.digest j) := by
      rw [hbd]; exact bundleOf_saids E _ box
    obtain ⟨d2, R', M', e4, r2, k1, k2⟩ := r1.addAny O (b := B.bundle) (fun hn => by obtain ⟨j, e⟩ := hsd _ hn; cases e) (by
      intro s hs
      obtain ⟨j, e⟩ := hsd _ hs
      cases e
      exact hE.plain j)
    rw [e4] at e2
    rcases e2 with e2 | ⟨⟨_, e2⟩, _⟩
    · cases e2
      refine ⟨R', M', r2.congr e3, ?_, ?_⟩
      · intro x hx
        rw [k1 x fun k => hx B (List.mem_append_right _ (.head _)) k]
        exact h1 x fun b hb k => hx b (List.mem_append_left _ hb) k
      · intro x b k hb hk
        by_cases hB : ∃ k, B.bundle.Has x k
        · obtain ⟨k, hk⟩ := hB
          obtain ⟨k', e, hk'⟩ := k2 x k hk
          exact ⟨k', e, B, List.mem_append_right _ (.head _), hk'⟩
        · rcases List.mem_append.1 hb with hb | hb
          · obtain ⟨k', e, b', hb', hk'⟩ := h2 x b k hb hk
            exact ⟨k', by rw [k1 x fun k hk => hB ⟨k, hk⟩]; exact e, b', List.mem_append_left _ hb', hk'⟩
          · cases List.mem_singleton.1 hb
            exact absurd ⟨k, hk⟩ hB
    · cases e2

theorem objectType_none {db : Store} {R : Str → Option (List RelObj)} {M : Str → Option Nat} (h : RelRep db R M) {x : Said}
    (hx : M x = none) : objectType db x = .panic := by
  unfold objectType
  rw [h.kind, hx]
  rfl

/-! ## C62 -/

/-- **C62** Asking for an identifier under which no object was ever produced gives an error. -/
theorem C62_unknown_object (E : Env) (S : Serde) (f : Facade) (l : List Build) (h : f.Built E S l) (s : Said)
    (hs : ∀ o, ¬ Produced l s o) : f.getObject E S s = .err [c!"No OCA Object found for said: " ++ s] := by
  unfold Facade.getObject
  rw [h.cache]
  cases hl : lastWrite .objectsJson s (allWrites E S l) with
  | none => rfl
  | some v =>
    obtain ⟨o, ho, -⟩ := (mem_objectWrites h.said).1 (lastWrite_mem hl)
    exact absurd ho (hs o)

theorem stored_object {E : Env} {S : Serde} {f : Facade} {l : List Build} (h : f.Built E S l) {s : Said} {o : OCAObject}
    (ho : Produced l s o) : ∃ o', Produced l s o' ∧ f.cache.get .objectsJson s = .ok (some (utf8 (S.print o'.json))) := by
  obtain ⟨u, hu⟩ := lastWrite_some ((mem_objectWrites (E := E) (S := S) h.said).2 ⟨o, ho, rfl⟩)
  obtain ⟨o', ho', rfl⟩ := (mem_objectWrites h.said).1 (lastWrite_mem hu)
  exact ⟨o', ho', by rw [h.cache, hu]⟩

/-- **C62** A finding: the objects of intermediate steps are stored, but not their kinds: asking for an object that only occurs in an
intermediate step aborts. -/
theorem C62_intermediate_object_aborts (E : Env) (hE : E.ShortSaids) (S : Serde) (f : Facade) (l : List Build) (h : f.Built E S l) (s : Said)
    (o : OCAObject) (ho : Produced l s o) (hn : ∀ b ∈ l, ∀ k, ¬ b.bundle.Has s k) : f.getObject E S s = .panic := by
  obtain ⟨o', -, hc⟩ := stored_object h ho
  obtain ⟨R, M, r, h1, -⟩ := h.kinds hE
  unfold Facade.getObject
  rw [hc]
  dsimp only
  rw [fromUtf8_utf8]
  show Res.bind ((objectType f.db s).mapErr _) _ = _
  rw [objectType_none r (h1 s hn)]
  rfl

/-- **C62** An object of a bundle that was built is found under its identifier, as it was, whatever was built before and after: unless two
different things that were built have that identifier. -/
theorem C62_object_found (E : Env) (hE : E.ShortSaids) (S : Serde) (f : Facade) (l : List Build) (h : f.Built E S l) (s : Said)
    (o : OCAObject) (ho : Produced l s o) (b : Build) (hb : b ∈ l) (k : Nat) (hk : b.bundle.Has s k)
    (same : ∀ o', Produced l s o' → o'.json = o.json) (kinds : ∀ b' ∈ l, ∀ k', b'.bundle.Has s k' → k' = o.code) :
    ∃ o', f.getObject E S s = .ok (some o') ∧ o'.json = o.json ∧ o'.said = some s ∧ o'.code = o.code := by
  obtain ⟨o', ho', hc⟩ := stored_object h ho
  rw [same o' ho'] at hc
  obtain ⟨R, M, r, -, h2⟩ := h.kinds hE
  obtain ⟨k', hM, b', hb', hk'⟩ := h2 s b k hb hk
  rw [kinds b' hb' k' hk'] at hM
  have ht := r.objectType_eq hM
  obtain ⟨B, hB, st, hst, hobj⟩ := ho
  have hkeep := h.keepable B hB st hst
  unfold Facade.getObject
  rw [hc]
  dsimp only
  rw [fromUtf8_utf8]
  cases hobj with
  | base e =>
    have hw := st.result.captureBase.within 124 hkeep.types
    refine ⟨.captureBase { st.result.captureBase with flagged := sortStr st.result.captureBase.flagged }, ?_, ?_, e, rfl⟩
    · show Res.bind ((objectType f.db s).mapErr _) _ = _
      rw [ht]
      show (match S.parse (S.print st.result.captureBase.toJson) with
        | none => _
        | some j => _) = _
      rw [S.parse_print _ (Nat.lt_of_le_of_lt hw.2 (by decide)) hw.1]
      dsimp only
      rw [captureBase_ofJson E st.result.captureBase hkeep.storable.base hkeep.storable.types]
    · show CaptureBase.toJson _ = CaptureBase.toJson _
      unfold CaptureBase.toJson CaptureBase.fieldsWith
      simp [sortStr_idem]
  | @overlay ov _ hov e =>
    have hst' := hkeep.storable.overlays ov hov
    have hw := ov.within
    refine ⟨.overlay ov.norm, ?_, norm_toJson hst', e, ?_⟩
    · show Res.bind ((objectType f.db s).mapErr _) _ = _
      rw [ht]
      obtain ⟨n, hn⟩ : ∃ n, ov.body.kind.code = n + 2 := ⟨_, (Nat.sub_add_cancel (kind_code_range ov.body.kind).1).symm⟩
      show Res.bind (Res.ok ov.body.kind.code) _ = _
      rw [hn]
      show (match S.parse (S.print ov.toJson) with
        | none => _
        | some j => _) = _
      rw [S.parse_print _ (Nat.lt_of_le_of_lt hw.2 (by decide)) hw.1]
      dsimp only
      rw [overlay_ofJson hst']
    · show ov.norm.body.kind.code = ov.body.kind.code
      cases ov with | mk a b c d => cases d <;> rfl

/-- the answers for a list of identifiers -/
theorem C62_objects_in_order (E : Env) (S : Serde) (f : Facade) (ss : List Said) (os : List OCAObject)
    (h : All2 (fun s o => f.getObject E S s = .ok (some o)) ss os) : f.getObjects E S ss = .ok os := by
  induction h with
  | nil => rfl
  | cons e _ ih =>
    unfold Facade.getObjects
    simp only [e, ih, Res.bind_ok, Res.pure_eq]
    rfl

/-- **C62** One identifier that is not known, and the answer is the error about the first such, whatever else was asked for. -/
theorem C62_first_unknown (E : Env) (S : Serde) (f : Facade) (l : List Build) (h : f.Built E S l) (ss : List Said) (s : Said) (ss' : List Said)
    (os : List OCAObject) (found : All2 (fun s o => f.getObject E S s = .ok (some o)) ss os) (hs : ∀ o, ¬ Produced l s o) :
    f.getObjects E S (ss ++ s :: ss') = .err [c!"No OCA Object found for said: " ++ s] := by
  induction found with
  | nil =>
    rw [List.nil_append]
    unfold Facade.getObjects
    rw [C62_unknown_object E S f l h s hs]
    rfl
  | cons e _ ih =>
    rw [List.cons_append]
    unfold Facade.getObjects
    rw [e]
    show Res.bind (Facade.getObjects E S f _) _ = _
    rw [ih]
    rfl

/-! ## Names -/

/-- the map of all names: what `find` gives for each -/
theorem fetchAllRefs_eq {ε : Type} {db : Store} (r : Str → Option Str)
    (h : ∀ n, db.get .references n = .ok ((r n).map utf8)) : ∃ m, (fetchAllRefs db : Res ε _) = .ok m ∧ ∀ n, m.get n = r n := by
  obtain ⟨m, hm, hg⟩ := C35_get_all db .references
  have hmr : ∀ n, m.get n = (r n).map utf8 := by
    intro n
    have := (hg n).symm.trans (h n)
    exact Res.ok.inj this
  have key : ∀ (l : List (Str × Bytes)) (acc : FMap Str), (∀ p ∈ l, (r p.1).map utf8 = some p.2) →
      ∃ m', (foldRes (fun (acc : FMap Str) (p : Str × Bytes) => (do
        let v ← Res.unwrap (fromUtf8 p.2)
        pure (acc.insert p.1 v) : Res ε _)) acc l) = .ok m' ∧
        ∀ n, m'.get n = if n ∈ l.map (·.1) then r n else acc.get n := by
    intro l
    induction l with
    | nil => intro acc _; exact ⟨acc, rfl, fun n => (by simp)⟩
    | cons p t ih =>
      intro acc hl
      have hp := hl p (.head _)
      cases hr : r p.1 with
      | none => rw [hr] at hp; cases hp
      | some v =>
        rw [hr] at hp
        have hv : p.2 = utf8 v := (Option.some.inj hp).symm
        obtain ⟨m', e, hm'⟩ := ih (acc.insert p.1 v) fun q hq => hl q (.tail _ hq)
        refine ⟨m', ?_, ?_⟩
        · simp only [foldRes, hv, fromUtf8_utf8, Res.unwrap_some, Res.bind_ok, Res.pure_eq]
          exact e
        · intro n
          rw [hm' n, FMap.get_insert]
          by_cases h1 : n ∈ t.map (·.1)
          · rw [if_pos h1, if_pos (.tail _ h1)]
          · rw [if_neg h1]
            by_cases h2 : n = p.1
            · subst h2
              rw [if_pos rfl, if_pos (.head _), hr]
            · rw [if_neg h2, if_neg]
              intro hn
              rcases List.mem_cons.1 hn with hn | hn
              · exact h2 hn
              · exact h1 hn
  obtain ⟨m', e, hm'⟩ := key m.l FMap.empty (by
    intro p hp
    rw [← hmr]
    exact FMap.get_eq_some_iff.2 hp)
  refine ⟨m', ?_, ?_⟩
  · unfold fetchAllRefs
    rw [hm]
    exact e
  · intro n
    rw [hm' n]
    by_cases hn : n ∈ m.l.map (·.1)
    · rw [if_pos hn]
    · rw [if_neg hn, FMap.get_empty]
      cases hr : r n with
      | none => rfl
      | some v =>
        have := hmr n
        rw [hr] at this
        exact absurd (List.mem_map.2 ⟨_, FMap.get_eq_some_iff.1 this, rfl⟩) hn

/-- **C62** The list of all names: each name of an accepted file is there once, with the identifier of the last accepted file of that name;
no other name is. -/
theorem C62_all_names {ε : Type} (E : Env) (S : Serde) (g : Facade) (l : List Named) (h : Served E S Facade.new l g) :
    ∃ m, (fetchAllRefs g.db : Res ε _) = .ok m ∧ ∀ n, m.get n = lastNamed n l := by
  refine fetchAllRefs_eq _ fun n => ?_
  rw [served_refs h n]
  cases lastNamed n l <;> rfl

/-! ## Search -/

theorem mem_insertFts {t : List FtsRow} {r x : FtsRow} (h : x ∈ insertFts t r) : x ∈ t ∨ x = r := by
  unfold insertFts at h
  split at h
  · exact .inl h
  · rcases List.mem_append.1 h with h | h
    · exact .inl h
    · exact .inr (List.mem_singleton.1 h)

theorem mem_foldFts {l t : List FtsRow} {x : FtsRow} (h : x ∈ l.foldl insertFts t) : x ∈ t ∨ x ∈ l := by
  induction l generalizing t with
  | nil => exact .inl h
  | cons r l ih =>
    rcases ih h with h | h
    · rcases mem_insertFts h with h | rfl
      · exact .inl h
      · exact .inr (.head _)
    · exact .inr (.tail _ h)

/-- What the search looks through: the row `r` is about the bundle `b`, and shows its name and description in one language. -/
def Bundle.ShownBy (b : Bundle) (r : FtsRow) : Prop :=
  b.said = some r.said ∧ ∃ o ∈ b.overlays, ∃ ps : FMap Str, o.body = .metaOv r.lang ps ∧
    r.name = (ps.get c!"name").getD [] ∧ r.description = (ps.get c!"description").getD []

/-- **C62** The search looks through the names and descriptions of the bundles built, and nothing else; every bundle built with a meta
overlay can be found in that language. -/
theorem C62_search_index (E : Env) (S : Serde) (f : Facade) (l : List Build) (h : f.Built E S l) :
    (∀ r ∈ f.fts, ∃ b ∈ l, b.bundle.ShownBy r) ∧
    ∀ b ∈ l, ∀ o ∈ b.bundle.overlays, ∀ la ps, o.body = .metaOv la ps → ∃ r ∈ f.fts, b.bundle.said = some r.said ∧ r.lang = la := by
  induction h with
  | new => exact ⟨fun r hr => (by cases hr), fun b hb => (by cases hb)⟩
  | validated _ hv ih =>
    obtain ⟨_, _, _, _, -, -, -, -, -, -, -, h8, -⟩ := validate_parts hv
    rw [h8]; exact ih
  | @built _ f1 f' l _ O _ B _ hv hc hb ih =>
    obtain ⟨_, _, _, _, -, -, -, -, -, -, -, h8, -⟩ := validate_parts hv
    obtain ⟨s, c, hs, -, -, -, ht⟩ := build_tables hb
    rw [ht, h8]
    constructor
    · intro r hr
      rcases mem_foldFts hr with hr | hr
      · obtain ⟨b, hb, h⟩ := ih.1 r hr
        exact ⟨b, List.mem_append_left _ hb, h⟩
      · obtain ⟨o, ho, e⟩ := List.mem_filterMap.1 hr
        refine ⟨B, List.mem_append_right _ (.head _), ?_⟩
        cases hbd : o.body with
        | metaOv la ps =>
          rw [hbd] at e
          cases e
          exact ⟨hs, o, ho, ps, hbd, rfl, rfl⟩
        | _ => rw [hbd] at e; cases e
    · intro b hb o ho la ps hbd
      rcases List.mem_append.1 hb with hb | hb
      · obtain ⟨r, hr, e1, e2⟩ := ih.2 b hb o ho la ps hbd
        obtain ⟨x, hx, x1, x2⟩ := hasRow_fold (B.bundle.overlays.filterMap fun o => metaRow s o.body) _ r (.inl ⟨r, hr, rfl, rfl⟩)
        exact ⟨x, hx, by rw [x1]; exact e1, by rw [x2]; exact e2⟩
      · cases List.mem_singleton.1 hb
        obtain ⟨x, hx, x1, x2⟩ := hasRow_fold (B.bundle.overlays.filterMap fun o => metaRow s o.body) _
          ⟨(ps.get c!"name").getD [], (ps.get c!"description").getD [], la, s⟩
          (.inr (List.mem_filterMap.2 ⟨o, ho, by rw [hbd]; rfl⟩))
        exact ⟨x, hx, by rw [x1]; exact hs, x2⟩

/-- the bundle of the build is one of the bundles stored for its steps -/
def Build.Stepped (b : Build) : Prop := ∃ st ∈ b.steps, st.result.said = b.bundle.said

theorem mem_bundleWrites {E : Env} {S : Serde} {l : List Build} {b : Build} {st : BuildStep} {s : Said} (hb : b ∈ l) (hst : st ∈ b.steps)
    (hs : st.result.said = some s) : (.bundlesJson, s, utf8 (S.print (st.result.toJson E))) ∈ allWrites E S l := by
  refine List.mem_flatMap.2 ⟨b, hb, List.mem_flatMap.2 ⟨st, hst, ?_⟩⟩
  unfold BuildStep.cacheWrites
  rw [hs]
  exact .head _

/-- **C62** The search never aborts: for identifiers from its index it gives the bundles with these identifiers, in the order of the hits. -/
theorem C62_search_records {ε : Type} (E : Env) (S : Serde) (f : Facade) (l : List Build) (h : f.Built E S l) (hb : ∀ b ∈ l, b.Stepped)
    (hits : List FtsRow) (hh : ∀ r ∈ hits, r ∈ f.fts) :
    ∃ bs, (f.searchRecords E S (hits.map (·.said)) : Res ε _) = .ok bs ∧ bs.map (·.said) = hits.map fun r => some r.said := by
  induction hits with
  | nil => exact ⟨[], rfl, rfl⟩
  | cons r t ih =>
    obtain ⟨bs, e, he⟩ := ih fun x hx => hh x (.tail _ hx)
    obtain ⟨b, hbl, hsb, -⟩ := (C62_search_index E S f l h).1 r (hh r (.head _))
    obtain ⟨st, hst, hse⟩ := hb b hbl
    obtain ⟨u, hu⟩ := lastWrite_some (mem_bundleWrites (E := E) (S := S) hbl hst (hse.trans hsb))
    rcases h.from'.runs.kept.fetch r.said with ⟨b', hf, hsd, -⟩ | ⟨hn, -⟩
    · refine ⟨b' :: bs, ?_, ?_⟩
      · rw [List.map_cons]
        unfold Facade.searchRecords
        simp only [hf, e, Res.bind_ok, Res.pure_eq]
      · rw [List.map_cons, List.map_cons, hsd, he]
    · rw [h.cache, hu] at hn
      cases hn

/-- when the bundle of a build is one of its steps: no contradictory metadata, and no collision -/
theorem C62_stepped (E : Env) (Os : Nat → Order) (base : Option Bundle) (ast : OCAAst) (b : Build) (h : fromAst E Os base ast = .ok b)
    (hne : ast.commands ≠ []) (hc : ∀ B box, (baseOf E base : Res (List BuildErr) _) = .ok B → finalState E B ast.commands = some box → FrameConsistent box)
    (hn : ¬ b.bundle.Collides) : b.Stepped := by
  obtain ⟨B, box, h1, -, h3, hr, h5, -, -, h8, h9⟩ := C12_successful_build E Os base ast b h
  cases hl : b.steps.getLast? with
  | none =>
    rw [List.getLast?_eq_none_iff] at hl
    rw [hl] at h5
    exact absurd h5.symm hne
  | some st =>
    refine ⟨st, List.mem_of_getLast? hl, ?_⟩
    have e1 := (reachable_gen (ε := List BuildErr) hr (Os ast.commands.length)).symm.trans h8
    have e2 := (reachable_gen (ε := List BuildErr) hr (Os (ast.commands.length - 1))).symm.trans (h9 st hl)
    rw [← Res.ok.inj e1] at hn ⊢
    rw [← Res.ok.inj e2]
    exact (gen_alike hr (hc B box h1 h3) _ _ hn).said.symm

/-- **C62** Every object of a bundle that was built is found as it was, unless two different things built have its identifier. -/
theorem C62_built_object (E : Env) (hE : E.ShortSaids) (S : Serde) (f : Facade) (l : List Build) (h : f.Built E S l) (b : Build) (hb : b ∈ l)
    (st : BuildStep) (hst : st ∈ b.steps) (last : st.result.Alike E b.bundle) (s : Said) (o : OCAObject) (ho : b.bundle.Object s o)
    (same : ∀ o', Produced l s o' → o'.json = o.json) (kinds : ∀ b' ∈ l, ∀ k', b'.bundle.Has s k' → k' = o.code) :
    ∃ o', f.getObject E S s = .ok (some o') ∧ o'.json = o.json ∧ o'.said = some s ∧ o'.code = o.code := by
  cases ho with
  | base e =>
    have hp : Produced l s (.captureBase st.result.captureBase) := ⟨b, hb, st, hst, .base (last.baseSaid.trans e)⟩
    obtain ⟨o', h1, h2, h3, h4⟩ := C62_object_found E hE S f l h s _ hp b hb 0 (.base e) (fun o' ho' => (same o' ho').trans last.baseJson.symm) kinds
    exact ⟨o', h1, h2.trans last.baseJson, h3, h4⟩
  | @overlay ov _ hov e =>
    exact C62_object_found E hE S f l h s (.overlay ov) ⟨b, hb, st, hst, .overlay (last.overlays.mem_iff.2 hov) e⟩ b hb _ (.overlay hov e) same kinds

end OCA
