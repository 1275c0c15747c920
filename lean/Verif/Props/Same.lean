import Verif.Props.CrashRetry
/-!
# C88: two repositories that are given the same files are the same

The identifiers, rows and answers of a repository depend on the files it was given and on nothing else: not on the orders in which the hash
maps and hash sets of the process happen to be walked.
-/
namespace OCA

/-! ## Specification -/

/-- A file handed to a repository, with the orders of the hash maps while it is validated and of the hash sets while it is stored. -/
structure Handed where
  file : List Line
  orders : Nat → Order
  sets : SetOrder

/-- A file is validated, with local references (`refs`) or without, and built. -/
def Facade.takes (refs : Bool) (E : Env) (S : Serde) (f : Facade) (x : Handed) : Res (List VErr) (Facade × Bundle) :=
  if refs then f.buildFile E S x.orders x.sets x.file
  else do
    let b ← f.validatePlain E S x.orders x.file
    let g ← f.build E S x.sets b
    pure (g, b.bundle)

/-- A repository is given a file. A file that is refused, or whose validation aborts, leaves it as it was. -/
def Facade.handed (refs : Bool) (E : Env) (S : Serde) (f : Facade) (x : Handed) : Facade :=
  match f.takes refs E S x with
  | .ok (g, _) => g
  | .err _ => f
  | .panic => f

/-- files, one after another -/
def Facade.feed (refs : Bool) (E : Env) (S : Serde) (f : Facade) (xs : List Handed) : Facade := xs.foldl (Facade.handed refs E S) f

/-- what became of each -/
def Facade.fates (refs : Bool) (E : Env) (S : Serde) (f : Facade) : List Handed → List (Res (List VErr) Bundle)
  | [] => []
  | x :: t => (match f.takes refs E S x with
      | .ok (_, b) => .ok b
      | .err e => .err e
      | .panic => .panic) :: Facade.fates refs E S (f.handed refs E S x) t

/-- The same became of a file: it is stored, with the same identifier, JSON and overlays; or refused with the same errors; or both abort. -/
inductive SameFate (E : Env) : Res (List VErr) Bundle → Res (List VErr) Bundle → Prop
  | stored {a b : Bundle} : a.Alike E b → SameFate E (.ok a) (.ok b)
  | refused (e : List VErr) : SameFate E (.err e) (.err e)
  | aborted : SameFate E .panic .panic

/-- The conditions of C19 on a file that was accepted: no frame has contradictory metadata at any point, and no two different objects of the
bundle or of its steps have the same identifier. -/
structure Build.Clear (E : Env) (S : Serde) (f : Facade) (ast : OCAAst) (b : Build) : Prop where
  frames : ∀ base ast', (checkBase E S f.cache ast : Res (List VErr) _) = .ok (base, ast') →
    ∀ x, (baseOf E base : Res (List BuildErr) _) = .ok x → FramesConsistent E x (b.steps.map (·.command))
  collides : ¬ b.bundle.Collides
  stepCollides : ∀ st ∈ b.steps, ¬ st.result.Collides
  saids : b.bundle.saids.Nodup

/-- the file is accepted, and built to `b` -/
def Facade.Accepts (refs : Bool) (E : Env) (S : Serde) (f : Facade) (x : Handed) (b : Build) : Prop :=
  if refs then ∃ f1, f.validate E S x.orders x.file = .ok (f1, b) else f.validatePlain E S x.orders x.file = .ok b

/-- Every file that is accepted meets them. -/
def Facade.FeedsClear (refs : Bool) (E : Env) (S : Serde) (f : Facade) : List Handed → Prop
  | [] => True
  | x :: t => (∀ ast b, parseLines x.file = .ok ast → f.Accepts refs E S x b → b.Clear E S f ast) ∧
      Facade.FeedsClear refs E S (f.handed refs E S x) t

/-! ## Validating -/

section
variable {E : Env} {S : Serde}

theorem checkBase_cache {s s' : Store} (h : ∀ ns k, s'.get ns k = s.get ns k) (ast : OCAAst)
    : (checkBase E S s' ast : Res (List VErr) _) = checkBase E S s ast := by
  unfold checkBase
  split
  · next r t hcmd =>
    cases r with
    | name n => rfl
    | said p =>
      have : fetchBundle E S s' p = fetchBundle E S s p := by
        unfold fetchBundle; rw [h]
      dsimp only
      rw [this]
  · rfl

/-- whether a list of commands is refused, and why, does not depend on the orders of the hash maps -/
theorem fromAst_fate (Os Os' : Nat → Order) (x : Option Bundle) (a : OCAAst) :
    (∀ e, fromAst E Os x a = .err e → fromAst E Os' x a = .err e) ∧ (fromAst E Os x a = .panic → fromAst E Os' x a = .panic) := by
  cases hb : (baseOf E x : Res (List BuildErr) _) with
  | err e =>
    have : ∀ Os, fromAst E Os x a = .err e := by intro Os; unfold fromAst; rw [hb]; rfl
    rw [this, this]
    exact ⟨fun _ h => h, fun h => h⟩
  | panic =>
    have : ∀ Os, fromAst E Os x a = .panic := by intro Os; unfold fromAst; rw [hb]; rfl
    rw [this, this]
    exact ⟨fun _ h => h, fun h => h⟩
  | ok base =>
    obtain ⟨h1, h2, h3, h4⟩ := C12_build_outcome E Os x a base hb
    obtain ⟨k1, k2, k3, k4⟩ := C12_build_outcome E Os' x a base hb
    by_cases hp : Res.panic ∈ results E base a.commands
    · rw [h1 hp, k1 hp]; exact ⟨fun _ h => h, fun h => h⟩
    · by_cases he : ∃ es, Res.err es ∈ results E base a.commands
      · rw [h2 hp he, k2 hp he]; exact ⟨fun _ h => h, fun h => h⟩
      · by_cases hn : finalState E base a.commands = none
        · rw [h3 hp he hn, k3 hp he hn]; exact ⟨fun _ h => h, fun h => h⟩
        · obtain ⟨b, e⟩ := h4 hp he hn
          rw [e]
          exact ⟨fun _ h => (by cases h), fun h => (by cases h)⟩

theorem fromAst_said {Os : Nat → Order} {x : Option Bundle} {a : OCAAst} {b : Build} (h : fromAst E Os x a = .ok b) : ∃ s, b.bundle.said = some s := by
  obtain ⟨_, box, -, -, -, -, -, e⟩ := fromAst_steps h
  rw [e]
  exact ⟨_, rfl⟩

/-- a file is refused, or aborts, on both facades -/
theorem validate_fate {f g : Facade} (h : f.SameAnswers g) (Os Os' : Nat → Order) (ls : List Line) :
    (∀ e, f.validate E S Os ls = .err e → g.validate E S Os' ls = .err e) ∧
    (f.validate E S Os ls = .panic → g.validate E S Os' ls = .panic) := by
  unfold Facade.validate
  cases parseLines ls with
  | err e => exact ⟨fun _ h => h, fun h => h⟩
  | panic => exact ⟨fun _ h => h, fun h => h⟩
  | ok ast =>
    simp only [Res.mapErr, Res.bind_ok]
    rw [checkBase_cache h.cache ast]
    cases (checkBase E S f.cache ast : Res (List VErr) _) with
    | err e => exact ⟨fun _ h => h, fun h => h⟩
    | panic => exact ⟨fun _ h => h, fun h => h⟩
    | ok p =>
      obtain ⟨base, ast'⟩ := p
      simp only [Res.bind_ok]
      unfold buildWithRefs
      have hd : derefCommands E g.db.findRefn ast'.commands = derefCommands E f.db.findRefn ast'.commands :=
        derefCommands_congr _ fun c _ n _ => by unfold Store.findRefn; rw [h.names]
      rw [hd]
      cases derefCommands E f.db.findRefn ast'.commands with
      | err e => exact ⟨fun _ h => h, fun h => h⟩
      | panic => exact ⟨fun _ h => h, fun h => h⟩
      | ok cs =>
        simp only [Res.mapErr, Res.bind_ok]
        obtain ⟨k1, k2⟩ := fromAst_fate (E := E) Os Os' base { ast' with commands := cs }
        cases hf : fromAst E Os base { ast' with commands := cs } with
        | err e => rw [k1 e hf]; exact ⟨fun _ h => h, fun h => h⟩
        | panic => rw [k2 hf]; exact ⟨fun _ h => h, fun h => h⟩
        | ok b =>
          obtain ⟨s, hs⟩ := fromAst_said hf
          simp only [Res.bind_ok]
          cases ast'.metaMap.get c!"name" with
          | none => exact ⟨fun _ h => (by cases h), fun h => (by cases h)⟩
          | some n =>
            dsimp only
            rw [hs]
            exact ⟨fun _ h => (by cases h), fun h => (by cases h)⟩

/-- two computations that fail alike -/
def FailAlike {ε α : Type} (x y : Res ε α) : Prop := (∀ e, x = .err e → y = .err e) ∧ (x = .panic → y = .panic)

theorem bind_fate {ε α β : Type} (x : Res ε α) {k k' : α → Res ε β} (h : ∀ a, FailAlike (k a) (k' a)) : FailAlike (x >>= k) (x >>= k') := by
  cases x with
  | ok a => exact h a
  | err e => exact ⟨fun _ h => h, fun h => h⟩
  | panic => exact ⟨fun _ h => h, fun h => h⟩

theorem mapErr_fate {ε ε' α : Type} {x y : Res ε α} (h : FailAlike x y) (f : ε → ε') : FailAlike (x.mapErr f) (y.mapErr f) := by
  cases x with
  | ok a => exact ⟨fun _ h => (by cases h), fun h => (by cases h)⟩
  | err e => rw [h.1 e rfl]; exact ⟨fun _ h => h, fun h => h⟩
  | panic => rw [h.2 rfl]; exact ⟨fun _ h => h, fun h => h⟩

theorem plain_fate {f g : Facade} (h : f.SameAnswers g) (Os Os' : Nat → Order) (ls : List Line) :
    (∀ e, f.validatePlain E S Os ls = .err e → g.validatePlain E S Os' ls = .err e) ∧
    (f.validatePlain E S Os ls = .panic → g.validatePlain E S Os' ls = .panic) := by
  unfold Facade.validatePlain
  simp only [checkBase_cache h.cache]
  exact bind_fate _ fun ast => bind_fate _ fun p => mapErr_fate (fromAst_fate Os Os' p.1 p.2) _

/-- the same file, accepted without local references on one facade, on the other -/
theorem plain_again {f g : Facade} {Os : Nat → Order} {ls : List Line} {ast : OCAAst} {b : Build} (h : f.SameAnswers g)
    (hp : parseLines ls = .ok ast) (h1 : f.validatePlain E S Os ls = .ok b) (hc : b.Clear E S f ast) (Os' : Nat → Order) :
    ∃ b', g.validatePlain E S Os' ls = .ok b' ∧ b.bundle.Alike E b'.bundle ∧ All2 (BuildStep.Alike E) b.steps b'.steps := by
  obtain ⟨ast0, base, ast', e1, e2, e3⟩ := validatePlain_parts h1
  rw [hp] at e1
  cases e1
  have hcs : b.steps.map (·.command) = ast'.commands := by
    obtain ⟨_, _, -, -, -, -, hcs, -⟩ := C12_successful_build E Os base _ b e3
    exact hcs
  obtain ⟨b', hb', hal, hst⟩ := fromAst_alike e3 Os' (fun x hx => by rw [← hcs]; exact hc.frames base ast' e2 x hx) ⟨hc.collides, hc.stepCollides⟩
  refine ⟨b', ?_, hal, hst⟩
  unfold Facade.validatePlain
  rw [hp]
  simp only [Res.mapErr, Res.bind_ok]
  rw [checkBase_cache h.cache ast, e2]
  simp only [Res.bind_ok]
  rw [hb']

/-! ## The search rows -/

/-- the search rows of a bundle that was built have different languages -/
theorem rows_distinct_ast {Os : Nat → Order} {x : Option Bundle} {a : OCAAst} {b : Build} (h : fromAst E Os x a = .ok b) (s : Said) :
    ∀ r ∈ b.bundle.overlays.filterMap (fun o => metaRow s o.body), ∀ r' ∈ b.bundle.overlays.filterMap (fun o => metaRow s o.body),
      r.said = r'.said → r.lang = r'.lang → r = r' := by
  obtain ⟨_, box, -, -, -, -, hr, e⟩ := fromAst_steps h
  have hn : (b.bundle.overlays.map fun o => o.body.slot).Nodup := by
    rw [e]
    exact C16_one_overlay_per_slot (ε := Str) E _ box hr _ (reachable_gen hr _)
  intro r h r' h' _ hl
  obtain ⟨o, ho, e1⟩ := List.mem_filterMap.1 h
  obtain ⟨o', ho', e2⟩ := List.mem_filterMap.1 h'
  have key : ∀ (o : Overlay) (r : FtsRow), metaRow s o.body = some r → o.body.slot = (.metaOv, some r.lang) := by
    intro o r h
    cases hb : o.body with
    | metaOv l ps => rw [hb] at h; cases h; rfl
    | _ => rw [hb] at h; cases h
  have hs : o.body.slot = o'.body.slot := by rw [key o r e1, key o' r' e2, hl]
  have hinj : ∀ l : List Overlay, (l.map fun o => o.body.slot).Nodup → ∀ a ∈ l, ∀ b ∈ l, a.body.slot = b.body.slot → a = b := by
    intro l
    induction l with
    | nil => intro _ a ha; cases ha
    | cons x t ih =>
      intro hn a ha b hb hab
      rw [List.map_cons, List.nodup_cons] at hn
      rcases List.mem_cons.1 ha with ea | ha <;> rcases List.mem_cons.1 hb with eb | hb
      · rw [ea, eb]
      · exact absurd (List.mem_map.2 ⟨b, hb, by rw [← hab, ea]⟩) hn.1
      · exact absurd (List.mem_map.2 ⟨a, ha, by rw [hab, eb]⟩) hn.1
      · exact ih hn.2 a ha b hb hab
  have ho2 : o = o' := hinj _ hn o ho o' ho' hs
  subst ho2
  rw [e1] at e2
  exact Option.some.inj e2

theorem labelled_ast {Os : Nat → Order} {x : Option Bundle} {a : OCAAst} {b : Build} (hE : E.ShortSaids) (h : fromAst E Os x a = .ok b)
    (hn : b.bundle.saids.Nodup) : b.bundle.Labelled := by
  obtain ⟨_, _, -, -, -, -, -, e⟩ := fromAst_steps h
  rw [e] at hn ⊢
  exact built_labelled hE.plain hn


theorem hasRow_perm {t t' : List FtsRow} (h : t'.Perm t) (x : FtsRow) : hasRow t' x ↔ hasRow t x := by
  unfold hasRow
  constructor
  · rintro ⟨y, hy, e⟩; exact ⟨y, h.mem_iff.1 hy, e⟩
  · rintro ⟨y, hy, e⟩; exact ⟨y, h.mem_iff.2 hy, e⟩

theorem fts_alike {t t' L L' : List FtsRow} (ht : t'.Perm t) (hL : ∀ r ∈ L, ∀ r' ∈ L, r.said = r'.said → r.lang = r'.lang → r = r')
    (hm : ∀ r, r ∈ L' ↔ r ∈ L) : (L'.foldl insertFts t').Perm (L.foldl insertFts t) := by
  obtain ⟨u, e, hn, hu⟩ := fts_fold t L hL
  obtain ⟨u', e', hn', hu'⟩ := fts_fold t' L' fun r hr r' hr' => hL r ((hm r).1 hr) r' ((hm r').1 hr')
  rw [e, e']
  refine ht.append (perm_of_nodup hn' hn fun x => ?_)
  rw [hu, hu', hm, hasRow_perm ht]

/-! ## One file -/

/-- the same answers and the same relations -/
structure Facade.SameAll (f g : Facade) : Prop where
  answers : f.SameAnswers g
  rels : ∃ R M R' M', RelRep f.db R M ∧ RelRep g.db R' M' ∧ (∀ x, R x = none ↔ R' x = none) ∧
    ∀ x y, y ∈ (R' x).getD [] ↔ y ∈ (R x).getD []

theorem Facade.SameAll.explored {f g : Facade} (h : f.SameAll g) (x : Said) (hx : ∀ t, x ≠ metaKey t) : f.SameExplored g x := by
  obtain ⟨R, M, R', M', r, r', hn, hm⟩ := h.rels
  refine ⟨R x, R' x, r.explore_eq hx, r'.explore_eq hx, hn x, ?_⟩
  intro ys zs ey ez
  refine perm_of_nodup (r.some' x hx ys ey).1 (r'.some' x hx zs ez).1 fun y => ?_
  have := hm x y
  rw [ey, ez] at this
  exact this.symm

theorem SameAll.new : Facade.new.SameAll Facade.new := by
  obtain ⟨R, M, h⟩ := RelsGood.new
  exact ⟨⟨rfl, rfl, .refl _, fun _ _ => rfl, fun _ => rfl, fun _ => rfl⟩, R, M, R, M, h, h, fun _ => .rfl, fun _ _ => .rfl⟩

theorem alike_saids {a b : Bundle} (h : a.Alike E b) : a.saids.Perm b.saids := by
  unfold Bundle.saids
  rw [h.said, h.baseSaid]
  exact ((h.overlays.map _).cons _).cons _

theorem stored_same (hE : E.ShortSaids) {f g f2 g2 : Facade} (h : f.SameAll g) {O O' : SetOrder} {b b' : Build}
    {Os Os' : Nat → Order} {x x' : Option Bundle} {a a' : OCAAst} (hf : fromAst E Os x a = .ok b) (hf' : fromAst E Os' x' a' = .ok b')
    (hal : b.bundle.Alike E b'.bundle) (hst : All2 (BuildStep.Alike E) b.steps b'.steps)
    (h2 : (f.build E S O b : Res (List VErr) _) = .ok f2) (hb2 : (g.build E S O' b' : Res (List VErr) _) = .ok g2)
    (hcoll : ∀ st ∈ b.steps, ¬ st.result.Collides) (hnd : b.bundle.saids.Nodup) : f2.SameAll g2 := by
  obtain ⟨R, M, R', M', hr, hr', hn, hm⟩ := h.rels
  obtain ⟨s, c, es, ec, t1, t2, t3⟩ := build_tables h2
  obtain ⟨s', c', es', ec', t1', t2', t3'⟩ := build_tables hb2
  have e : s' = s := by
    have := hal.said
    rw [es, es'] at this
    exact (Option.some.inj this).symm
  subst e
  have e : c' = c := by
    have := hal.baseSaid
    rw [ec, ec'] at this
    exact (Option.some.inj this).symm
  subst e
  obtain ⟨a1, a2, -⟩ := build_after h2
  obtain ⟨a1', a2', -⟩ := build_after hb2
  obtain ⟨_, _, gg, db, _, _, hgg, -⟩ := build_parts h2
  have hsigned := build_steps_signed hgg
  refine ⟨⟨?_, ?_, ?_, ?_, ?_, ?_⟩, ?_⟩
  · rw [t1', t1, ← hal.json, h.answers.bundles]
  · rw [t2', t2, ← hal.baseJson, h.answers.bases]
  · rw [t3', t3]
    refine fts_alike h.answers.fts (rows_distinct_ast hf s') fun r => ?_
    exact ((hal.overlays.filterMap _).mem_iff).symm
  · intro ns k
    have hlw : lastWrite ns k (b'.steps.flatMap (BuildStep.cacheWrites E S)) = lastWrite ns k (b.steps.flatMap (BuildStep.cacheWrites E S)) :=
      (lastWrite_flatMap hst fun st hm st' hss => cacheWrites_alike hss (hcoll st hm) (hsigned st hm) ns k).symm
    rw [a1', a1, hlw]
    cases lastWrite ns k (b.steps.flatMap (BuildStep.cacheWrites E S)) with
    | some v => rfl
    | none => dsimp only; rw [h.answers.cache]
  · intro k
    have hlw : lastWrite .oca k (b'.steps.flatMap (BuildStep.dbWrites S)) = lastWrite .oca k (b.steps.flatMap (BuildStep.dbWrites S)) :=
      (lastWrite_flatMap hst fun st _ st' hss => by rw [dbWrites_alike hss]).symm
    rw [a2', a2, hlw]
    cases lastWrite .oca k (b.steps.flatMap (BuildStep.dbWrites S)) with
    | some v => rfl
    | none => dsimp only; rw [h.answers.history]
  · intro k
    rw [build_refs hb2, build_refs h2, h.answers.names]
  · have hlab := labelled_ast hE hf hnd
    have hlab' : b'.bundle.Labelled := labelled_ast hE hf' ((alike_saids hal).nodup_iff.1 hnd)
    have hrelates : ∀ x y, b'.bundle.Relates x y ↔ b.bundle.Relates x y := fun x y => (Bundle.Alike.relates hal x y).symm
    have hsaids : ∀ x, some x ∈ b'.bundle.saids ↔ some x ∈ b.bundle.saids := fun x => (alike_saids hal).mem_iff.symm
    have fin : ∀ {F1 F2 : Facade} {B : Build} {R : Str → Option (List RelObj)} {M : Str → Option Nat} {O : SetOrder}, RelRep F1.db R M →
        B.bundle.Labelled → (F1.build E S O B : Res (List VErr) _) = .ok F2 → ∃ R' M', RelRep F2.db R' M' ∧
        (∀ x, some x ∉ B.bundle.saids → R' x = R x) ∧
        ∀ x, some x ∈ B.bundle.saids → ∃ l, R' x = some l ∧ ∀ y, y ∈ l ↔ y ∈ (R x).getD [] ∨ B.bundle.Relates x y := by
      intro F1 F2 B R M O hr hl hb
      obtain ⟨d, d', q1, q2, q3⟩ := build_relations hb
      obtain ⟨d2, R', M', q4, q5, q6, q7⟩ := (hr.congr q1).add O hl
      rw [q4] at q2
      rcases q2 with q2 | ⟨⟨_, q2⟩, _⟩
      · cases q2
        exact ⟨R', M', q5.congr q3, q6, q7⟩
      · cases q2
    obtain ⟨Ra, Ma, ra, rout, rin⟩ := fin hr hlab h2
    obtain ⟨Rb, Mb, rb, bout, bin⟩ := fin hr' hlab' hb2
    refine ⟨Ra, Ma, Rb, Mb, ra, rb, fun x => ?_, fun x y => ?_⟩
    · by_cases hs : some x ∈ b.bundle.saids
      · obtain ⟨l, e, -⟩ := rin x hs
        obtain ⟨l', e', -⟩ := bin x ((hsaids x).2 hs)
        rw [e, e']
        exact ⟨(fun h => by cases h), fun h => by cases h⟩
      · rw [rout x hs, bout x fun h => hs ((hsaids x).1 h), hn]
    · by_cases hs : some x ∈ b.bundle.saids
      · obtain ⟨l, e, hl⟩ := rin x hs
        obtain ⟨l', e', hl'⟩ := bin x ((hsaids x).2 hs)
        rw [e, e', Option.getD_some, Option.getD_some, hl, hl', hrelates, hm]
      · rw [rout x hs, bout x fun h => hs ((hsaids x).1 h), hm]

/-- one file, given to two facades that answer the same -/
theorem fed_one (hE : E.ShortSaids) (refs : Bool) {f g : Facade} (h : f.SameAll g) {x y : Handed} (hf : x.file = y.file)
    (hc : ∀ ast b, parseLines x.file = .ok ast → f.Accepts refs E S x b → b.Clear E S f ast) :
    (∃ f2 b g2 b', f.takes refs E S x = .ok (f2, b) ∧ g.takes refs E S y = .ok (g2, b') ∧ b.Alike E b' ∧ f2.SameAll g2) ∨
    (∃ e, f.takes refs E S x = .err e ∧ g.takes refs E S y = .err e) ∨
    (f.takes refs E S x = .panic ∧ g.takes refs E S y = .panic) := by
  obtain ⟨R, M, R', M', hr, hr', hn, hm⟩ := h.rels
  cases refs with
  | true =>
    obtain ⟨n1, n2⟩ := validate_fate (E := E) (S := S) h.answers x.orders y.orders x.file
    simp only [Facade.takes, ite_true, ← hf]
    cases hv : f.validate E S x.orders x.file with
    | err e =>
      refine .inr (.inl ⟨e, ?_, ?_⟩) <;> unfold Facade.buildFile
      · rw [hv]; rfl
      · rw [n1 e hv]; rfl
    | panic =>
      refine .inr (.inr ⟨?_, ?_⟩) <;> unfold Facade.buildFile
      · rw [hv]; rfl
      · rw [n2 hv]; rfl
    | ok p =>
      obtain ⟨f1, b⟩ := p
      obtain ⟨ast, base, ast', cs, hp, -, -, hfa, e5, e6, e7, e8, e9⟩ := validate_parts hv
      have hcl := hc ast b hp (by simp only [Facade.Accepts, ite_true]; exact ⟨f1, hv⟩)
      obtain ⟨g1, b', hv', hal, hst⟩ := validate_again (g := g) hp hv (fun c hc n hn => by unfold Store.findRefn; rw [h.answers.names])
        (fun p _ => h.answers.cache _ _) hcl.frames ⟨hcl.collides, hcl.stepCollides⟩ y.orders
      obtain ⟨_, _, _, _, -, -, -, hfa', k5, k6, k7, k8, k9⟩ := validate_parts hv'
      obtain ⟨-, f2, hb, -⟩ := validated_stores (ε := List VErr) hE S x.sets ⟨R, M, hr⟩ hv
      obtain ⟨-, g2, hb', -⟩ := validated_stores (ε := List VErr) hE S y.sets ⟨R', M', hr'⟩ hv'
      obtain ⟨s, hs⟩ := fromAst_said hfa
      have hs' : b'.bundle.said = some s := by rw [← hal.said, hs]
      have h1 : f1.SameAll g1 := by
        refine ⟨⟨?_, ?_, ?_, ?_, ?_, ?_⟩, R, M, R', M', hr.congr (e9 .relations (by decide)), hr'.congr (k9 .relations (by decide)), hn, hm⟩
        · rw [k6, e6, h.answers.bundles]
        · rw [k7, e7, h.answers.bases]
        · rw [k8, e8]; exact h.answers.fts
        · intro ns k; rw [k5, e5, h.answers.cache]
        · intro k; rw [k9 _ (by decide), e9 _ (by decide), h.answers.history]
        · intro k; rw [validate_refs hp hv' hs', validate_refs hp hv hs, h.answers.names]
      refine .inl ⟨f2, b.bundle, g2, b'.bundle, ?_, ?_, hal, stored_same hE h1 hfa hfa' hal hst hb hb' hcl.stepCollides hcl.saids⟩ <;>
        unfold Facade.buildFile
      · simp only [hv, hb, Res.bind_ok, Res.pure_eq]
      · simp only [hv', hb', Res.bind_ok, Res.pure_eq]
  | false =>
    obtain ⟨n1, n2⟩ := plain_fate (E := E) (S := S) h.answers x.orders y.orders x.file
    simp only [Facade.takes, Bool.false_eq_true, ite_false, ← hf]
    cases hv : f.validatePlain E S x.orders x.file with
    | err e =>
      refine .inr (.inl ⟨e, rfl, ?_⟩)
      rw [n1 e hv]; rfl
    | panic =>
      refine .inr (.inr ⟨rfl, ?_⟩)
      rw [n2 hv]; rfl
    | ok b =>
      obtain ⟨ast, base, ast', hp, -, hfa⟩ := validatePlain_parts hv
      have hcl := hc ast b hp (by simp only [Facade.Accepts, Bool.false_eq_true, ite_false]; exact hv)
      obtain ⟨b', hv', hal, hst⟩ := plain_again h.answers hp hv hcl y.orders
      obtain ⟨_, _, _, -, -, hfa'⟩ := validatePlain_parts hv'
      obtain ⟨f2, hb, -⟩ := validatedPlain_stores (ε := List VErr) hE S x.sets ⟨R, M, hr⟩ hv
      obtain ⟨g2, hb', -⟩ := validatedPlain_stores (ε := List VErr) hE S y.sets ⟨R', M', hr'⟩ hv'
      refine .inl ⟨f2, b.bundle, g2, b'.bundle, ?_, ?_, hal, stored_same hE h hfa hfa' hal hst hb hb' hcl.stepCollides hcl.saids⟩
      · simp only [hb, Res.bind_ok, Res.pure_eq]
      · simp only [hv', hb', Res.bind_ok, Res.pure_eq]

theorem feed_same (hE : E.ShortSaids) (refs : Bool) (xs ys : List Handed) (hf : xs.map (·.file) = ys.map (·.file)) {f g : Facade} (h : f.SameAll g)
    (hc : f.FeedsClear refs E S xs) :
    All2 (SameFate E) (f.fates refs E S xs) (g.fates refs E S ys) ∧ (f.feed refs E S xs).SameAll (g.feed refs E S ys) := by
  induction xs generalizing ys f g with
  | nil =>
    cases ys with
    | nil => exact ⟨.nil, h⟩
    | cons _ _ => cases hf
  | cons x t ih =>
    cases ys with
    | nil => cases hf
    | cons y u =>
      simp only [List.map_cons, List.cons.injEq] at hf
      obtain ⟨c1, c2⟩ := hc
      rcases fed_one hE refs h hf.1 c1 with ⟨f2, b, g2, b', e, e', hal, hs⟩ | ⟨er, e, e'⟩ | ⟨e, e'⟩ <;>
        simp only [Facade.feed, Facade.fates, Facade.handed, List.foldl_cons, e, e'] at c2 ⊢
      · obtain ⟨i1, i2⟩ := ih u hf.2 hs c2
        exact ⟨.cons (.stored hal) i1, i2⟩
      · obtain ⟨i1, i2⟩ := ih u hf.2 h c2
        exact ⟨.cons (.refused er) i1, i2⟩
      · obtain ⟨i1, i2⟩ := ih u hf.2 h c2
        exact ⟨.cons .aborted i1, i2⟩

end

/-! ## C88 -/

/-- **C88** Two empty repositories, with local references (`refs`) or without, are given the same files in the same order, each with whatever
orders of its hash maps and hash sets. Then the same becomes of every file: it is stored in both, with the same identifier and JSON, or refused by both with the same errors.
And the two repositories answer the same: the same stored bundles, capture bases and overlays, the same rows (the search rows perhaps in
another order), the same operation records and names, and the same relations. -/
theorem C88_same (E : Env) (hE : E.ShortSaids) (S : Serde) (refs : Bool) (xs ys : List Handed) (hf : xs.map (·.file) = ys.map (·.file))
    (hc : Facade.new.FeedsClear refs E S xs) :
    All2 (SameFate E) (Facade.new.fates refs E S xs) (Facade.new.fates refs E S ys) ∧
    (Facade.new.feed refs E S xs).SameAnswers (Facade.new.feed refs E S ys) ∧
    ∀ x, (∀ t, x ≠ metaKey t) → (Facade.new.feed refs E S xs).SameExplored (Facade.new.feed refs E S ys) x := by
  obtain ⟨h1, h2⟩ := feed_same hE refs xs ys hf SameAll.new hc
  exact ⟨h1, h2.answers, h2.explored⟩

end OCA
