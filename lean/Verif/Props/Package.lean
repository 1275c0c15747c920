import Verif.Model.Package
import Verif.Props.Transformation
import Verif.Props.CommandJson
import Verif.Props.History
import Verif.Props.LoadJson
/-!
# C64: a model packed with its transformations
-/
namespace OCA

/-- A transformation that can be written and read: its identifier is one, no attribute is mapped twice. -/
structure Transformation.Sound (E : Env) (t : Transformation) : Prop where
  said : ∀ s, t.said = some s → E.validSaid s = true
  keys : (t.attributes.map (·.1)).Nodup

theorem jOptStr_json (o : Option Str) : jOptStr (some (optStrJson o)) = some o := by cases o <;> rfl

theorem allSome_strs (l : List (Str × Str)) :
    allSome (fun p : Str × Json => (jStr p.2).map fun v => (p.1, v)) (l.map fun p => (p.1, Json.str p.2)) = some l := by
  induction l with
  | nil => rfl
  | cons p l ih =>
    rw [List.map_cons, allSome, ih]
    rfl

theorem jPairs_json {l : List (Str × Str)} (h : (l.map (·.1)).Nodup) : jPairs (.obj (l.map fun p => (p.1, .str p.2))) = some l := by
  simp only [jPairs, allSome_strs, Option.map_some, imExtend_nil l h]

theorem jSaid_json' {E : Env} {s : Option Said} (h : ∀ x, s = some x → E.validSaid x = true) : jSaid E (some (saidJson s)) = some s := by
  cases s with
  | none => rfl
  | some x => simp only [saidJson, jSaid, h x rfl, if_true]

/-- **C64** A transformation is read back from its JSON. -/
theorem C64_transformation_json (E : Env) (t : Transformation) (h : t.Sound E) : Transformation.ofJson E (t.toJson E) = .ok t := by
  obtain ⟨d, s, g, as⟩ := t
  have h1 := jSaid_json' h.said
  have h2 := jPairs_json h.keys
  dsimp only at h1 h2
  have m1 : ∀ l : List (Str × Json), l = (c!"v", .str (E.version (.obj (Transformation.fieldsWith ⟨d, s, g, as⟩ (saidJson d))))) ::
      Transformation.fieldsWith ⟨d, s, g, as⟩ (saidJson d) → memberOpt c!"d" l = .ok (some (saidJson d)) ∧
      memberOpt c!"source" l = .ok (some (optStrJson s)) ∧ memberOpt c!"target" l = .ok (some (optStrJson g)) ∧
      member c!"attributes" l = .ok (.obj (as.map fun p => (p.1, .str p.2))) := by
    rintro l rfl
    exact ⟨rfl, rfl, rfl, rfl⟩
  obtain ⟨e1, e2, e3, e4⟩ := m1 _ rfl
  simp only [Transformation.toJson, versioned, Transformation.ofJson, structMembers, e1, e2, e3, e4, Res.bind_ok, h1, jOptStr_json, h2, orErr, Res.pure_eq]

theorem imExtend_keys_nodup' {V : Type} (l l' : List (Str × V)) (h : (l.map (·.1)).Nodup) : ((imExtend l l').map (·.1)).Nodup :=
  imExtend_keys_nodup l l' h

/-- **C64** What is built, and what is read from any JSON, can be written and read. -/
theorem C64_transformations_sound (E : Env) :
    (∀ ast t, transBuild (ε := Str) E ast = .ok t → t.Sound E) ∧ (∀ j t, Transformation.ofJson E j = .ok t → t.Sound E) := by
  refine ⟨?_, ?_⟩
  · intro ast t h
    refine ⟨?_, (C44_mapping h).2.2⟩
    rw [transBuild_eq] at h
    split at h
    · cases h
    · cases h
      intro s e
      cases e
      exact E.digest_valid _
  · intro j t h
    unfold Transformation.ofJson at h
    split at h
    · obtain ⟨d0, -, h⟩ := Res.bind_eq_ok.1 (show Res.bind _ _ = _ from h)
      obtain ⟨d, hd, h⟩ := Res.bind_eq_ok.1 (show Res.bind _ _ = _ from h)
      obtain ⟨_, -, h⟩ := Res.bind_eq_ok.1 (show Res.bind _ _ = _ from h)
      obtain ⟨_, -, h⟩ := Res.bind_eq_ok.1 (show Res.bind _ _ = _ from h)
      obtain ⟨_, -, h⟩ := Res.bind_eq_ok.1 (show Res.bind _ _ = _ from h)
      obtain ⟨_, -, h⟩ := Res.bind_eq_ok.1 (show Res.bind _ _ = _ from h)
      obtain ⟨a0, -, h⟩ := Res.bind_eq_ok.1 (show Res.bind _ _ = _ from h)
      obtain ⟨a, ha, h⟩ := Res.bind_eq_ok.1 (show Res.bind _ _ = _ from h)
      cases h
      refine ⟨?_, ?_⟩
      · intro s e
        dsimp only at e
        subst e
        exact jSaid_valid (orErr_ok.1 hd) s rfl
      · unfold jPairs orErr at ha
        split at ha
        · next x hx =>
          cases ha
          split at hx
          · obtain ⟨y, -, rfl⟩ := Option.map_eq_some_iff.1 hx
            exact imExtend_keys_nodup [] y List.nodup_nil
          · cases hx
        · cases ha
    · cases h

/-! ## Packages -/

/-- the members written, with the identifier -/
def packageJson (E : Env) (V : Json → Str) (d : Str) (b : Bundle) (ts : List Transformation) : Json :=
  .obj ((c!"v", .str (V (.obj (packageFields E [] b ts)))) :: packageFields E d b ts)

/-- the identifier: the digest of the package with a placeholder for it -/
def packageSaid (E : Env) (V : Json → Str) (b : Bundle) (ts : List Transformation) : Said := E.digest (packageJson E V placeholder b ts)

theorem Transformation.within (E : Env) (t : Transformation) : (t.toJson E).Within 2 := by
  refine Json.within_obj (n := 1) fun p hp => ?_
  simp only [Transformation.fieldsWith, List.mem_cons, List.not_mem_nil, or_false] at hp
  rcases hp with rfl | rfl | rfl | rfl | rfl
  · exact Json.within_str _ _
  · exact within_said _ _
  · cases t.source <;> first | exact Json.within_null _ | exact Json.within_str _ _
  · cases t.target <;> first | exact Json.within_null _ | exact Json.within_str _ _
  · refine Json.within_obj (n := 0) fun q hq => ?_
    obtain ⟨r, -, rfl⟩ := List.mem_map.1 hq
    exact Json.within_str _ _

theorem package_within {E : Env} {b : Bundle} (hb : ∀ n t, b.captureBase.attributes.get n = some t → t.arrays ≤ 123)
    (ts : List Transformation) (d : Str) : ∀ p ∈ packageFields E d b ts, p.2.Within 126 := by
  intro p hp
  simp only [packageFields, List.mem_cons, List.not_mem_nil, or_false] at hp
  rcases hp with rfl | rfl | rfl
  · exact Json.within_str _ _
  · exact (b.within E 123 hb).mono (by decide)
  · refine (Json.within_arr (n := 2) fun j hj => ?_).mono (by decide)
    obtain ⟨t, -, rfl⟩ := List.mem_map.1 hj
    exact t.within E

theorem makeSad_package (E : Env) (V : Json → Str) (b : Bundle) (ts : List Transformation) :
    makeSad E V (packageFields E [] b ts) = packageJson E V (packageSaid E V b ts) b ts := rfl

theorem encode_eq {ε : Type} (E : Env) (V : Json → Str) (S : Serde) (p : Package) (b : Bundle) (hs : p.structural = some b)
    (hb : ∀ n t, b.captureBase.attributes.get n = some t → t.arrays ≤ 123) :
    (p.encode E V S : Res ε Str) = .ok (S.print (packageJson E V (packageSaid E V b p.transformations) b p.transformations)) := by
  have hw := Json.within_obj (package_within (E := E) hb p.transformations [])
  unfold Package.encode
  rw [hs]
  simp only [Res.unwrap_some, Res.bind_ok]
  rw [S.parse_print _ (Nat.lt_of_le_of_lt hw.2 (by decide)) hw.1]
  rfl

theorem transformationsOfJson_json (E : Env) : ∀ ts : List Transformation, (∀ t ∈ ts, t.Sound E) →
    transformationsOfJson E (ts.map (Transformation.toJson E)) = .ok ts := by
  intro ts
  induction ts with
  | nil => intro _; rfl
  | cons t ts ih =>
    intro h
    simp only [List.map_cons, transformationsOfJson, C64_transformation_json E t (h t (.head _)), Res.bind_ok,
      ih fun t ht => h t (.tail _ ht), Res.pure_eq]

theorem package_ofJson {E : Env} {V : Json → Str} {d : Str} (hd : E.validSaid d = true) {b b' : Bundle} {ts : List Transformation}
    (hb : Bundle.ofJson E (b.toJson E) = .ok b') (ht : ∀ t ∈ ts, t.Sound E) :
    Package.ofJson E (packageJson E V d b ts) = .ok ⟨some d, some b', ts⟩ := by
  have m : ∀ l : List (Str × Json), l = (c!"v", .str (V (.obj (packageFields E [] b ts)))) :: packageFields E d b ts →
      memberOpt c!"d" l = .ok (some (.str d)) ∧ memberOpt c!"m" l = .ok (some (b.toJson E)) ∧
      member c!"t" l = .ok (.arr (ts.map (Transformation.toJson E))) := by
    rintro l rfl
    exact ⟨rfl, rfl, rfl⟩
  obtain ⟨e1, e2, e3⟩ := m _ rfl
  have hs : structuralOfJson E (some (b.toJson E)) = .ok (some b') := by
    show (Bundle.ofJson E (b.toJson E) >>= _) = _
    rw [hb]
    rfl
  simp only [packageJson, Package.ofJson, structMembers, e1, e2, e3, Res.bind_ok, jSaid, hd, if_true, orErr, hs, transformationListOfJson,
    transformationsOfJson_json E ts ht, Res.pure_eq]

/-- **C64** A package with a model is written and read back: with the identifier computed for it, the model as it is read from its own
JSON (C29), and the transformations in their order. Writing what was read gives the same text. The types of the model may have one array
less around them than for the model alone. -/
theorem C64_package_round_trip (E : Env) (V : Json → Str) (S : Serde) (p : Package) (b : Bundle) (hs : p.structural = some b)
    (hb : b.Storable E) (ha : ∀ n t, b.captureBase.attributes.get n = some t → t.arrays ≤ 123) (ht : ∀ t ∈ p.transformations, t.Sound E) :
    ∃ s b', (p.encode E V S : Res Str Str) = .ok s ∧ Bundle.ofJson E (b.toJson E) = .ok b' ∧ b'.said = b.said ∧ b'.toJson E = b.toJson E ∧
      Package.load E S s = .ok ⟨some (packageSaid E V b p.transformations), some b', p.transformations⟩ ∧
      (Package.encode E V S ⟨some (packageSaid E V b p.transformations), some b', p.transformations⟩ : Res Str Str) = .ok s := by
  obtain ⟨b', h1, h2, h3, h4, -⟩ := C29_json_round_trip E b hb
  have he := encode_eq (ε := Str) E V S p b hs ha
  refine ⟨_, b', he, h1, h3, h2, ?_, ?_⟩
  · have hw : (packageJson E V (packageSaid E V b p.transformations) b p.transformations).Within 127 := by
      refine Json.within_obj (n := 126) fun q hq => ?_
      rcases List.mem_cons.1 hq with rfl | hq
      · exact Json.within_str _ _
      · exact package_within ha _ _ q hq
    unfold Package.load
    rw [S.parse_print _ (Nat.lt_of_le_of_lt hw.2 (by decide)) hw.1]
    exact package_ofJson (E.digest_valid _) h1 ht
  · have ha' : ∀ n t, b'.captureBase.attributes.get n = some t → t.arrays ≤ 123 := by rw [h4]; exact ha
    rw [encode_eq (ε := Str) E V S _ b' rfl ha']
    have hj : ∀ d, packageFields E d b' p.transformations = packageFields E d b p.transformations := by
      intro d
      unfold packageFields
      rw [h2]
    unfold packageSaid packageJson
    simp only [hj]

/-- **C64** A package without a model cannot be written: it aborts. -/
theorem C64_no_model (E : Env) (V : Json → Str) (S : Serde) (p : Package) (h : p.structural = none) : (p.encode E V S : Res Str Str) = .panic := by
  unfold Package.encode
  rw [h]
  rfl

theorem transformations_json_inj {E : Env} {ts us : List Transformation} (ht : ∀ t ∈ ts, t.Sound E) (hu : ∀ t ∈ us, t.Sound E)
    (h : ts.map (Transformation.toJson E) = us.map (Transformation.toJson E)) : ts = us := by
  have := transformationsOfJson_json E ts ht
  rw [h, transformationsOfJson_json E us hu] at this
  exact (Res.ok.inj this).symm

/-- **C64** The identifier of a package stands for its content: two packages with the same one have the same model JSON and the same
transformations, or the two digested values are a collision. -/
theorem C64_said (E : Env) (V : Json → Str) (b c : Bundle) (ts us : List Transformation) (ht : ∀ t ∈ ts, t.Sound E) (hu : ∀ t ∈ us, t.Sound E)
    (h : packageSaid E V b ts = packageSaid E V c us) :
    (b.toJson E = c.toJson E ∧ ts = us) ∨
    (packageJson E V placeholder b ts ≠ packageJson E V placeholder c us ∧
      E.digest (packageJson E V placeholder b ts) = E.digest (packageJson E V placeholder c us)) := by
  by_cases e : packageJson E V placeholder b ts = packageJson E V placeholder c us
  · left
    simp only [packageJson, packageFields, Json.obj.injEq, List.cons.injEq, Prod.mk.injEq, true_and, and_true, Json.arr.injEq] at e
    exact ⟨e.2.1, transformations_json_inj ht hu e.2.2⟩
  · exact .inr ⟨e, h⟩

/-- **C64** What is put in is what comes out: packing the model of a build and the transformations of builds, in any order, writing and
reading the package. -/
theorem C64_pack_and_load (E : Env) (V : Json → Str) (S : Serde) (Os : Nat → Order) (ast : OCAAst) (r : Build)
    (hr : fromAst E Os none ast = .ok r) (hk : ∀ c ∈ ast.commands, c.Keepable E)
    (ha : ∀ n t, r.bundle.captureBase.attributes.get n = some t → t.arrays ≤ 123)
    (pre suf : List Transformation) (hp : ∀ t ∈ pre ++ suf, ∃ a, transBuild (ε := Str) E a = .ok t) :
    let p := (pre.map BundleElement.transformation ++ .structural r.bundle :: suf.map BundleElement.transformation).foldl Package.add {}
    ∃ s q b', (p.encode E V S : Res Str Str) = .ok s ∧ Package.load E S s = .ok q ∧ q.structural = some b' ∧ b'.said = r.bundle.said ∧
      b'.toJson E = r.bundle.toJson E ∧ q.transformations = pre ++ suf := by
  intro p
  have hp1 : p = ⟨none, some r.bundle, pre ++ suf⟩ := by
    have : ∀ (l : List Transformation) (q : Package), (l.map BundleElement.transformation).foldl Package.add q =
        { q with transformations := q.transformations ++ l } := by
      intro l
      induction l with
      | nil => intro q; simp
      | cons t l ih => intro q; rw [List.map_cons, List.foldl_cons, ih]; simp [Package.add]
    show List.foldl _ _ _ = _
    rw [List.foldl_append, this, List.foldl_cons, this]
    simp [Package.add]
  obtain ⟨base, box, hb, -, hfin, -, hbu⟩ := fromAst_parts hr
  cases hb
  have hkb : KeepBox E box := (stepsFrom_keep (Os := Os) (i := 0) (p := none) (base := none) (fun _ h => by cases h) hk).2 box hfin
  have hst : r.bundle.Storable E := by rw [hbu]; exact (hkb.bundle _).storable
  have hsound : ∀ t ∈ p.transformations, t.Sound E := by
    rw [hp1]
    intro t ht
    obtain ⟨a, h⟩ := hp t ht
    exact (C64_transformations_sound E).1 a t h
  obtain ⟨s, b', h1, -, h3, h4, h5, -⟩ := C64_package_round_trip E V S p r.bundle (by rw [hp1]) hst ha hsound
  exact ⟨s, _, b', h1, h5, rfl, h3, h4, by rw [hp1]⟩

theorem transformationsOfJson_never (E : Env) (l : List Json) : transformationsOfJson E l ≠ .panic := by
  have never : ∀ {α β : Type} {x : Res Str α} {k : α → Res Str β}, x ≠ .panic → (∀ a, k a ≠ .panic) → (x >>= k) ≠ .panic := by
    intro α β x k hx hk h
    cases x with
    | ok a => exact hk a h
    | err e => cases h
    | panic => exact hx rfl
  have hm : ∀ k l, memberOpt k l ≠ .panic := by
    intro k l h
    unfold memberOpt at h
    split at h <;> cases h
  have hm' : ∀ k l, member k l ≠ .panic := by
    intro k l h
    unfold member at h
    split at h <;> cases h
  have ho : ∀ {α : Type} (o : Option α), orErr o ≠ .panic := by
    intro α o h
    cases o <;> cases h
  have one : ∀ j, Transformation.ofJson E j ≠ .panic := by
    intro j
    unfold Transformation.ofJson
    split
    · exact never (hm _ _) fun _ => never (ho _) fun _ => never (hm _ _) fun _ => never (ho _) fun _ => never (hm _ _) fun _ =>
        never (ho _) fun _ => never (hm' _ _) fun _ => never (ho _) fun _ => fun h => by cases h
    · intro h; cases h
  induction l with
  | nil => intro h; cases h
  | cons j l ih => exact never (one j) fun _ => never ih fun _ h => by cases h

/-- **C64** Loading aborts in one case only: the model in the package is one whose loading aborts (C59). Anything that is not JSON is
refused with an error, and so is every other mistake. -/
theorem C64_load_aborts (E : Env) (S : Serde) (s : Str) :
    (S.parse s = none → ∃ e, Package.load E S s = .err e) ∧
    (Package.load E S s = .panic → ∃ j l m, S.parse s = some j ∧ structMembers [c!"d", c!"m", c!"t"] j = some l ∧
      memberOpt c!"m" l = .ok (some m) ∧ Bundle.ofJson E m = .panic) := by
  refine ⟨fun h => ⟨_, by unfold Package.load; rw [h]⟩, fun h => ?_⟩
  unfold Package.load at h
  cases hj : S.parse s with
  | none => rw [hj] at h; cases h
  | some j =>
    rw [hj] at h
    dsimp only at h
    unfold Package.ofJson at h
    cases hl : structMembers [c!"d", c!"m", c!"t"] j with
    | none => rw [hl] at h; cases h
    | some l =>
      rw [hl] at h
      dsimp only at h
      refine ⟨j, l, ?_⟩
      have hm : ∀ k, memberOpt k l ≠ .panic := by
        intro k h
        unfold memberOpt at h
        split at h <;> cases h
      cases h1 : memberOpt c!"d" l with
      | err e => rw [h1] at h; cases h
      | panic => exact absurd h1 (hm _)
      | ok d =>
        rw [h1, Res.bind_ok] at h
        cases h2 : jSaid E d with
        | none => rw [h2] at h; cases h
        | some d' =>
          rw [h2] at h
          simp only [orErr, Res.bind_ok] at h
          cases h3 : memberOpt c!"m" l with
          | err e => rw [h3] at h; cases h
          | panic => exact absurd h3 (hm _)
          | ok m =>
            rw [h3, Res.bind_ok] at h
            have rest : ∀ o, ((do
                let t ← member c!"t" l
                let t ← transformationListOfJson E t
                pure (⟨d', o, t⟩ : Package)) : Res Str Package) ≠ .panic := by
              intro o h
              cases h4 : member c!"t" l with
              | err e => rw [h4] at h; cases h
              | panic =>
                unfold member at h4
                split at h4 <;> cases h4
              | ok t =>
                rw [h4, Res.bind_ok] at h
                unfold transformationListOfJson at h
                split at h
                · next ts =>
                  cases h5 : transformationsOfJson E ts with
                  | err e => rw [h5] at h; cases h
                  | panic => exact transformationsOfJson_never E ts h5
                  | ok x => rw [h5] at h; cases h
                · cases h
            cases m with
            | none => exact absurd h (rest none)
            | some m =>
              refine ⟨m, rfl, by first | rfl | assumption, by first | rfl | assumption, ?_⟩
              cases h4 : Bundle.ofJson E m with
              | panic => rfl
              | err e =>
                cases m with
                | null => exact absurd h (rest none)
                | _ => simp only [structuralOfJson, h4] at h; cases h
              | ok b =>
                cases m with
                | null => exact absurd h (rest none)
                | _ =>
                  simp only [structuralOfJson, h4, Res.bind_ok, Res.pure_eq] at h
                  exact absurd h (rest (some b))

/-- **C64** A package whose model is missing or `null` loads, without a model, with all of its transformations. -/
theorem C64_load_without_model (E : Env) (S : Serde) (s : Str) (ts : List Transformation) (ht : ∀ t ∈ ts, t.Sound E)
    (h : S.parse s = some (.obj [(c!"t", .arr (ts.map (Transformation.toJson E)))]) ∨
      S.parse s = some (.obj [(c!"m", .null), (c!"t", .arr (ts.map (Transformation.toJson E)))])) :
    Package.load E S s = .ok ⟨none, none, ts⟩ := by
  have e := transformationsOfJson_json E ts ht
  rcases h with h | h
  · unfold Package.load
    rw [h]
    show Res.bind (transformationsOfJson E _) _ = _
    rw [e]
    rfl
  · unfold Package.load
    rw [h]
    show Res.bind (transformationsOfJson E _) _ = _
    rw [e]
    rfl

end OCA
