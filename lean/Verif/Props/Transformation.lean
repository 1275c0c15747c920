import Verif.Model.Transformation
import Verif.Props.CoreModel
/-!
# C44: transformations
-/
namespace OCA

/-- The pairs a transformation's commands mention, in file order. -/
def TCommand.pairs (c : TCommand) : List (Str × Str) :=
  match c with
  | ⟨.rename, .rename (some l)⟩ => l
  | ⟨.link, .link (some l)⟩ => l
  | _ => []

/-- `p` occurs somewhere in `s` -/
def Occurs (p s : Str) : Prop := ∃ a b, s = a ++ p ++ b

/-! ## Lemmas -/

theorem eraseAll_skip (p : Str) (a s : Str) : eraseAll p a.length (a ++ s) = eraseAll p 0 s := by
  induction a with
  | nil => rfl
  | cons c a ih => simpa [eraseAll] using ih

/-- a text without the pattern is unchanged -/
theorem eraseAll_none {p s : Str} (h : ¬ Occurs p s) : eraseAll p 0 s = s := by
  induction s with
  | nil => rfl
  | cons c s ih =>
    unfold eraseAll
    split
    · next r e => exact absurd ⟨[], r, by simpa using stripPrefix_eq_some.1 e⟩ h
    · rw [ih]
      rintro ⟨a, b, rfl⟩
      exact h ⟨c :: a, b, rfl⟩

/-- a pattern in front goes -/
theorem eraseAll_prefix {p : Str} (s : Str) (h : p ≠ []) : eraseAll p 0 (p ++ s) = eraseAll p 0 s := by
  cases p with
  | nil => exact absurd rfl h
  | cons c p =>
    rw [List.cons_append, eraseAll, ← List.cons_append, stripPrefix_append]
    exact eraseAll_skip _ p s

theorem imInsert_keys {V : Type} (k : Str) (v : V) (l : List (Str × V)) :
    (imInsert k v l).map (·.1) = if k ∈ l.map (·.1) then l.map (·.1) else l.map (·.1) ++ [k] := by
  induction l with
  | nil => simp [imInsert]
  | cons p t ih =>
    obtain ⟨a, b⟩ := p
    simp only [imInsert]
    split
    · next h => subst h; simp
    · next h =>
      simp only [List.map_cons, ih, List.mem_cons, h, false_or]
      split <;> simp

theorem eraseDups_snoc {l : List Str} {k : Str} :
    (l ++ [k]).eraseDups = if k ∈ l then l.eraseDups else l.eraseDups ++ [k] := by
  rw [List.eraseDups_append]
  by_cases h : k ∈ l <;> simp [h, List.removeAll, List.eraseDups_cons]

theorem imExtend_dups {V : Type} (l : List (Str × V)) :
    (imExtend [] l).map (·.1) = (l.map (·.1)).eraseDups := by
  induction l using snoc_ind with
  | h0 => rfl
  | h1 l p ih =>
    have e : imExtend [] (l ++ [p]) = imInsert p.1 p.2 (imExtend [] l) := by simp [imExtend]
    rw [e]
    simp only [List.foldl_cons, List.foldl_nil, imInsert_keys, ih, List.map_append, List.map_cons, List.map_nil,
      eraseDups_snoc, List.mem_eraseDups]

theorem lastVal_lastWith {V : Type} {l : List (Str × V)} {k : Str} {v : V} :
    FMap.lastVal l k = some v ↔ LastWith (fun p => p.1 = k) l (k, v) := by
  induction l using snoc_ind with
  | h0 => simp [LastWith.none]
  | h1 l p ih =>
    rw [lastWith_snoc, ← ih]
    unfold FMap.lastVal
    rw [List.foldl_append]
    simp only [List.foldl_cons, List.foldl_nil]
    obtain ⟨a, b⟩ := p
    by_cases h : k = a
    · subst h; simp [eq_comm]
    · simp [h, Ne.symm h]

theorem imExtend_assoc {V : Type} (l a b : List (Str × V)) : imExtend (imExtend l a) b = imExtend l (a ++ b) := by
  simp [imExtend, List.foldl_append]

theorem apply_eq (b : Option Transformation) (c : TCommand) :
    Transformation.apply b c = (b.getD {}).addAll c.pairs := by
  obtain ⟨k, o⟩ := c
  cases k <;> rcases o with (_ | l) | (_ | l) <;> simp [Transformation.apply, TCommand.pairs, Transformation.addAll, imExtend]

theorem apply_all (b : Transformation) (cs : List TCommand) :
    cs.foldl (fun b c => some (Transformation.apply b c)) (some b) = some (b.addAll (cs.flatMap TCommand.pairs)) := by
  induction cs generalizing b with
  | nil => simp [Transformation.addAll, imExtend]
  | cons c cs ih =>
    rw [List.foldl_cons, apply_eq, ih]
    simp [Transformation.addAll, imExtend_assoc]

/-- the source and target of the meta block -/
def tStart (m : FMap Str) : Transformation :=
  { source := (m.get c!"source").map (eraseAll c!"refs:" 0), target := (m.get c!"target").map (eraseAll c!"refs:" 0) }

theorem FMap.get_of_nil {V : Type} {m : FMap V} (h : m.l = []) (k : Str) : m.get k = none := by
  simp [FMap.get, h, FMap.lget]

theorem imGet_iff_mem {V : Type} {l : List (Str × V)} (h : (l.map (·.1)).Nodup) {k : Str} {v : V} :
    imGet k l = some v ↔ (k, v) ∈ l := by
  induction l with
  | nil => simp [imGet, FMap.lget]
  | cons p t ih =>
    obtain ⟨a, b⟩ := p
    simp only [List.map_cons, List.nodup_cons, List.mem_map, not_exists, not_and] at h
    simp only [imGet, FMap.lget, List.mem_cons, Prod.mk.injEq]
    have := ih h.2
    unfold imGet at this
    split
    · next e =>
      subst e
      constructor
      · intro e; exact .inl ⟨rfl, (Option.some.inj e).symm⟩
      · rintro (⟨-, rfl⟩ | hm)
        · rfl
        · exact absurd rfl (h.1 _ hm)
    · next e => rw [this]; simp [e]

/-- when `from_ast` of a transformation succeeds, and with what -/
theorem transBuild_eq (E : Env) (ast : TAst) : transBuild (ε := Str) E ast =
    if (ast.metaMap.l = [] ∧ ast.commands = []) ∨
        (ast.metaMap.l ≠ [] ∧ (ast.metaMap.get c!"source" = none ∨ ast.metaMap.get c!"target" = none)) then .panic
    else .ok (((tStart ast.metaMap).addAll (ast.commands.flatMap TCommand.pairs)).fillSaid E) := by
  unfold transBuild transBase
  by_cases hm : ast.metaMap.l = []
  · have e : tStart ast.metaMap = {} := by simp [tStart, FMap.get_of_nil hm]
    rw [if_pos hm, e]
    cases hc : ast.commands with
    | nil => simp [hm, Res.unwrap]
    | cons c cs =>
      simp only [hm, ne_eq, not_true_eq_false, false_and, or_false, reduceCtorEq, and_false, if_false]
      show Res.bind (Res.unwrap (List.foldl _ (some (Transformation.apply none c)) cs)) _ = _
      rw [apply_all, apply_eq]
      simp [Res.unwrap, Res.bind, Transformation.addAll, imExtend_assoc]
  · rw [if_neg hm]
    cases hs : ast.metaMap.get c!"source" with
    | none => simp [hm, Res.unwrap]
    | some s =>
      cases ht : ast.metaMap.get c!"target" with
      | none => simp [hm, Res.unwrap]
      | some t =>
        have e : tStart ast.metaMap = { source := some (eraseAll c!"refs:" 0 s), target := some (eraseAll c!"refs:" 0 t) } := by
          simp [tStart, hs, ht]
        simp only [hm, false_and, reduceCtorEq, or_self, and_false, if_false, e]
        show Res.bind (Res.unwrap (List.foldl _ (some _) ast.commands)) _ = _
        rw [apply_all]
        rfl

/-! ## C44 -/

/-- The mapping of a transformation: each attribute goes where the last command naming it says, attributes come in the
order of their first mention, and nothing else is there. -/
theorem C44_mapping {E : Env} {ast : TAst} {t : Transformation} (h : transBuild (ε := Str) E ast = .ok t) :
    (∀ k v, (k, v) ∈ t.attributes ↔ LastWith (fun p => p.1 = k) (ast.commands.flatMap TCommand.pairs) (k, v)) ∧
    (t.attributes.map (·.1)) = ((ast.commands.flatMap TCommand.pairs).map (·.1)).eraseDups ∧
    (t.attributes.map (·.1)).Nodup := by
  rw [transBuild_eq] at h
  split at h
  · cases h
  cases h
  have hk := imExtend_dups (ast.commands.flatMap TCommand.pairs)
  have hn : ((imExtend [] (ast.commands.flatMap TCommand.pairs)).map (·.1)).Nodup := by
    exact imExtend_keys [] _ List.nodup_nil
  refine ⟨fun k v => ?_, hk, hn⟩
  show (k, v) ∈ imExtend [] _ ↔ _
  rw [← lastVal_lastWith, ← imGet_iff_mem hn, imGet_imExtend]
  simp [imGet, FMap.lget]

/-- Source and target: those of the meta block, without the `refs:` in front. -/
theorem C44_source_target {E : Env} {ast : TAst} {t : Transformation} (h : transBuild (ε := Str) E ast = .ok t) :
    (ast.metaMap.l = [] → t.source = none ∧ t.target = none) ∧
    (∀ s, ¬ Occurs c!"refs:" s → ast.metaMap.get c!"source" = some s ∨ ast.metaMap.get c!"source" = some (c!"refs:" ++ s) →
      t.source = some s) ∧
    (∀ s, ¬ Occurs c!"refs:" s → ast.metaMap.get c!"target" = some s ∨ ast.metaMap.get c!"target" = some (c!"refs:" ++ s) →
      t.target = some s) := by
  rw [transBuild_eq] at h
  split at h
  · cases h
  cases h
  refine ⟨fun hm => ⟨?_, ?_⟩, ?_, ?_⟩
  · show (FMap.get _ _).map _ = none
    rw [FMap.get_of_nil hm]; rfl
  · show (FMap.get _ _).map _ = none
    rw [FMap.get_of_nil hm]; rfl
  all_goals
    intro s ho hs
    show (FMap.get _ _).map _ = some s
    rcases hs with hs | hs <;> rw [hs]
    · simp [eraseAll_none ho]
    · rw [Option.map_some, eraseAll_prefix s (by simp), eraseAll_none ho]

/-- It never returns an error: it succeeds, or aborts when there is neither meta nor command, or a meta block without
source or target. -/
theorem C44_outcome (E : Env) (ast : TAst) :
    (∃ t, transBuild (ε := Str) E ast = .ok t) ↔
      (ast.metaMap.l = [] ∧ ast.commands ≠ []) ∨
      (∃ s t, ast.metaMap.get c!"source" = some s ∧ ast.metaMap.get c!"target" = some t) := by
  rw [transBuild_eq]
  by_cases hm : ast.metaMap.l = []
  · by_cases hc : ast.commands = [] <;> simp [hm, hc, FMap.get_of_nil hm]
  · cases hs : ast.metaMap.get c!"source" <;> cases ht : ast.metaMap.get c!"target" <;> simp [hm]

theorem C44_no_error (E : Env) (ast : TAst) (e : Str) : transBuild E ast ≠ .err e := by
  rw [transBuild_eq]; split <;> simp

theorem C44_aborts (E : Env) (ast : TAst) (h : ¬ ∃ t, transBuild (ε := Str) E ast = .ok t) :
    transBuild (ε := Str) E ast = .panic := by
  cases ht : transBuild (ε := Str) E ast with
  | ok t => exact absurd ⟨t, ht⟩ h
  | err e => exact absurd ht (C44_no_error E ast e)
  | panic => rfl

theorem pairsJson_inj {a b : List (Str × Str)}
    (h : a.map (fun p => (p.1, Json.str p.2)) = b.map (fun p => (p.1, Json.str p.2))) : a = b := by
  induction a generalizing b with
  | nil => cases b <;> simp_all
  | cons x a ih =>
    cases b with
    | nil => simp at h
    | cons y b =>
      simp only [List.map_cons, List.cons.injEq, Prod.mk.injEq, Json.str.injEq] at h
      rw [ih h.2, Prod.ext h.1.1 h.1.2]

theorem optStrJson_inj {a b : Option Str} (h : optStrJson a = optStrJson b) : a = b := by
  cases a <;> cases b <;> simp_all [optStrJson]

/-- The SAID identifies the content: two transformations with the same SAID are equal, or their digested JSON values are a
collision of the hash. -/
theorem C44_said {E : Env} {a b : TAst} {t u : Transformation} (ht : transBuild (ε := Str) E a = .ok t)
    (hu : transBuild (ε := Str) E b = .ok u) (h : t.said = u.said) :
    t = u ∨ (t.digestInput E ≠ u.digestInput E ∧ E.digest (t.digestInput E) = E.digest (u.digestInput E)) := by
  have key : ∀ {a : TAst} {t : Transformation}, transBuild (ε := Str) E a = .ok t →
      t.said = some (E.digest (t.digestInput E)) := by
    intro a t ht
    rw [transBuild_eq] at ht
    split at ht
    · cases ht
    · cases ht; rfl
  by_cases e : t.digestInput E = u.digestInput E
  · left
    simp only [Transformation.digestInput, versioned, Transformation.fieldsWith, Json.obj.injEq, List.cons.injEq,
      Prod.mk.injEq, true_and, and_true] at e
    obtain ⟨-, es, et, ea⟩ := e
    obtain ⟨d, s, g, m⟩ := t
    obtain ⟨d', s', g', m'⟩ := u
    cases optStrJson_inj es
    cases optStrJson_inj et
    cases pairsJson_inj ea
    cases h
    rfl
  · right
    refine ⟨e, ?_⟩
    rw [key ht, key hu] at h
    exact Option.some.inj h

/-- A package: the last model counts, transformations are all kept in order. -/
theorem C44_package (p : Package) (es : List BundleElement) :
    (es.foldl Package.add p).transformations = p.transformations ++ (es.filterMap fun e => match e with
      | .transformation t => some t
      | _ => none) ∧
    (∀ b, LastWith (fun e => ∃ b, e = BundleElement.structural b) es (.structural b) →
      (es.foldl Package.add p).structural = some b) := by
  constructor
  · induction es generalizing p with
    | nil => simp
    | cons e es ih => cases e <;> simp [ih, Package.add]
  · rintro b ⟨x, y, rfl, -, hn⟩
    rw [List.foldl_append, List.foldl_cons]
    generalize List.foldl Package.add p x = q
    have : (q.add (.structural b)).structural = some b := rfl
    revert this
    generalize q.add (.structural b) = r
    intro hr
    induction y generalizing r with
    | nil => exact hr
    | cons e y ih =>
      refine ih (fun z hz => hn z (.tail _ hz)) _ ?_
      cases e with
      | structural c => exact absurd ⟨c, rfl⟩ (hn _ (.head _))
      | transformation t => exact hr

/-- a concrete case: the second RENAME of `a` overrides the first and keeps its place -/
theorem C44_example : ∃ t, transBuild (ε := Str) Env.demo ⟨c!"1.0.0",
      [⟨.rename, .rename (some [(c!"a", c!"x"), (c!"b", c!"y")])⟩, ⟨.link, .link (some [(c!"a", c!"z"), (c!"c", c!"w")])⟩],
      [], FMap.ofList [(c!"source", c!"refs:E1"), (c!"target", c!"E2")]⟩ = .ok t ∧
    t.source = some c!"E1" ∧ t.target = some c!"E2" ∧
    t.attributes = [(c!"a", c!"z"), (c!"b", c!"y"), (c!"c", c!"w")] ∧
    (∀ e, transBuild (ε := Str) Env.demo TAst.new = .ok e → False) := by
  refine ⟨_, rfl, ?_⟩
  refine ⟨by decide +kernel, by decide +kernel, by decide +kernel, ?_⟩
  intro e h
  exact absurd (show (∃ t, transBuild (ε := Str) Env.demo TAst.new = .ok t) from ⟨e, h⟩)
    (by rw [C44_outcome]; simp [TAst.new, FMap.empty, FMap.get, FMap.lget])

end OCA
