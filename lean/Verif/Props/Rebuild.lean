import Verif.Lemmas.All2
import Verif.Lemmas.Writes
import Verif.Props.Pages
import Verif.Props.FileExamples
/-!
# C40: building the same again
-/
namespace OCA

/-! ## Specification -/

/-- Two facades answer the same: the same cached rows, the same search rows, the same stored bundles, capture bases and
overlays, the same operation records and the same names. (Relations: C34. Core model records hold the overlays in the
order of the hash maps, so they may differ.) -/
structure Facade.SameStored (f g : Facade) : Prop where
  bundles : g.bundles = f.bundles
  bases : g.bases = f.bases
  fts : g.fts = f.fts
  cache : ∀ ns k, g.cache.get ns k = f.cache.get ns k
  history : ∀ k, g.db.get .oca k = f.db.get .oca k
  names : ∀ k, g.db.get .references k = f.db.get .references k

/-- Two different overlays of the bundle have the same identifier: a collision of the digest. -/
def Bundle.Collides (b : Bundle) : Prop := ∃ o ∈ b.overlays, ∃ o' ∈ b.overlays, o ≠ o' ∧ o.said = o'.said

/-- The same bundle, but for the order of its overlays. -/
structure Bundle.Alike (E : Env) (a b : Bundle) : Prop where
  said : a.said = b.said
  json : a.toJson E = b.toJson E
  baseSaid : a.captureBase.said = b.captureBase.said
  baseJson : a.captureBase.toJson = b.captureBase.toJson
  overlays : a.overlays.Perm b.overlays

/-- At no point does a frame have contradictory metadata (see C19). -/
def FramesConsistent (E : Env) (base : Option OCABox) (cs : List Command) : Prop :=
  ∀ n box, finalState E base (cs.take n) = some box → FrameConsistent box

/-! ## Rows -/

theorem insertRow_again (t : Table) (s : Said) (v w : Str) : (t.insertRow s v).insertRow s w = t.insertRow s v := by
  have h : (t.insertRow s v).any (fun r => r.1 = s) = true := by
    unfold Table.insertRow
    split
    · assumption
    · rw [List.any_append]; simp
  generalize t.insertRow s v = u at h
  unfold Table.insertRow
  rw [if_pos h]

/-- a row for this identifier and language -/
def hasRow (t : List FtsRow) (r : FtsRow) : Prop := ∃ x ∈ t, x.said = r.said ∧ x.lang = r.lang

theorem hasRow_iff (t : List FtsRow) (r : FtsRow) :
    t.any (fun x => x.said = r.said && x.lang = r.lang) = true ↔ hasRow t r := by
  rw [List.any_eq_true]
  simp [hasRow]

theorem insertFts_has {t : List FtsRow} {r : FtsRow} (h : hasRow t r) : insertFts t r = t := by
  unfold insertFts
  rw [if_pos ((hasRow_iff t r).2 h)]

theorem hasRow_insert (t : List FtsRow) (r x : FtsRow) (h : hasRow t x ∨ r = x) : hasRow (insertFts t r) x := by
  unfold insertFts
  split
  · next hr =>
    rcases h with h | rfl
    · exact h
    · exact (hasRow_iff _ _).1 hr
  · rcases h with ⟨y, hy, e⟩ | rfl
    · exact ⟨y, List.mem_append_left _ hy, e⟩
    · exact ⟨r, List.mem_append_right _ (.head _), rfl, rfl⟩

theorem hasRow_fold (l t : List FtsRow) (x : FtsRow) (h : hasRow t x ∨ x ∈ l) : hasRow (l.foldl insertFts t) x := by
  induction l generalizing t with
  | nil =>
    rcases h with h | h
    · exact h
    · cases h
  | cons r l ih =>
    refine ih _ ?_
    rcases h with h | h
    · exact .inl (hasRow_insert _ _ _ (.inl h))
    · cases h with
      | head => exact .inl (hasRow_insert _ _ _ (.inr rfl))
      | tail _ h => exact .inr h

theorem fold_has (l t : List FtsRow) (h : ∀ r ∈ l, hasRow t r) : l.foldl insertFts t = t := by
  induction l with
  | nil => rfl
  | cons r l ih =>
    rw [List.foldl_cons, insertFts_has (h r (.head _))]
    exact ih fun x hx => h x (.tail _ hx)

/-! ## Alike -/

theorem gen_alike {E : Env} {box : OCABox} (hr : Reachable E box) (hc : FrameConsistent box) (O O' : Order)
    (hn : ¬ (bundleOf E O box).Collides) : (bundleOf E O box).Alike E (bundleOf E O' box) := by
  rcases C19_said_order_independent (ε := Unit) E O O' box hr hc _ _ (reachable_gen hr O) (reachable_gen hr O')
    with ⟨h1, h2⟩ | h
  · refine ⟨h1, h2, ?_, base_json E O O' box, overlays_perm E O O' box hr.wf hc⟩
    show some (E.digest (baseOfBox O box).digestInput) = some (E.digest (baseOfBox O' box).digestInput)
    rw [base_digest O O' box]
  · exact absurd h hn

/-- the same step, but for the order of the overlays -/
structure BuildStep.Alike (E : Env) (a b : BuildStep) : Prop where
  parent : a.parentSaid = b.parentSaid
  command : a.command = b.command
  result : a.result.Alike E b.result

theorem steps_alike {E : Env} (Os Os' : Nat → Order) (cs : List Command) (i : Nat) (p : Option Said) (b : Option OCABox)
    (hb : OptReach E b) (hf : FramesConsistent E b cs) (hn : ∀ st ∈ stepsFrom E Os i p b cs, ¬ st.result.Collides) :
    All2 (BuildStep.Alike E) (stepsFrom E Os i p b cs) (stepsFrom E Os' i p b cs) := by
  induction cs generalizing i p b with
  | nil => exact .nil
  | cons c cs ih =>
    unfold stepsFrom at hn ⊢
    cases ha : applyCommand E b c with
    | ok x =>
      rw [ha] at hn
      dsimp only at hn ⊢
      have hx := hb.step ha
      have hfx : FrameConsistent x := hf 1 x (by
        show finalState E (afterResult b (applyCommand E b c)) (cs.take 0) = _
        rw [ha]; rfl)
      have hal := gen_alike hx hfx (Os i) (Os' i) (hn _ (.head _))
      refine .cons ⟨rfl, rfl, hal⟩ ?_
      rw [← hal.said]
      refine ih _ _ _ (fun y hy => by cases hy; exact hx) ?_ fun st hst => hn st (.tail _ hst)
      intro n box hbox
      refine hf (n + 1) box ?_
      show finalState E (afterResult b (applyCommand E b c)) (cs.take n) = _
      rw [ha]; exact hbox
    | err e =>
      rw [ha] at hn
      refine ih _ _ _ hb ?_ hn
      intro n box hbox
      refine hf (n + 1) box ?_
      show finalState E (afterResult b (applyCommand E b c)) (cs.take n) = _
      rw [ha]; exact hbox
    | panic =>
      rw [ha] at hn
      refine ih _ _ _ hb ?_ hn
      intro n box hbox
      refine hf (n + 1) box ?_
      show finalState E (afterResult b (applyCommand E b c)) (cs.take n) = _
      rw [ha]; exact hbox

/-- The steps of a successful build. -/
theorem fromAst_steps {E : Env} {Os : Nat → Order} {fromOca : Option Bundle} {ast : OCAAst} {b : Build}
    (h : fromAst E Os fromOca ast = .ok b) :
    ∃ base box, (baseOf E fromOca : Res (List BuildErr) _) = .ok base ∧ OptReach E base ∧
      (∀ r ∈ results E base ast.commands, r.isOk = true) ∧ finalState E base ast.commands = some box ∧ Reachable E box ∧
      b = ⟨bundleOf E (Os ast.commands.length) box, stepsFrom E Os 0 (fromOca.bind Bundle.said) base ast.commands⟩ := by
  obtain ⟨base, box, h1, h2, h3, h4, -, -, -, h5, -⟩ := C12_successful_build E Os fromOca ast b h
  have hreach := baseOf_reach E fromOca base h1
  refine ⟨base, box, h1, hreach, h2, h3, h4, ?_⟩
  have hp : Res.panic ∉ results E base ast.commands := fun hp => by have := h2 _ hp; cases this
  obtain ⟨st, e1, e2, e3, e4⟩ := (buildLoop_spec E Os ast (if fromOca.isSome then 1 else 0) ast.commands 0
    ⟨[], [], fromOca.bind Bundle.said, base⟩ hreach).2 hp
  rw [reachable_gen h4] at h5
  unfold fromAst at h
  rw [h1] at h
  simp only [Res.bind_ok] at h
  rw [e1] at h
  simp only [Res.bind_ok, buildFinish] at h
  split at h
  · obtain ⟨box', _, h⟩ := Res.bind_eq_ok.mp h
    obtain ⟨bu, _, h⟩ := Res.bind_eq_ok.mp h
    cases h
    dsimp only at h5 e4 ⊢
    rw [e4, List.nil_append, Res.ok.inj h5]
  · cases h

/-- A file that is accepted is accepted with any order of the hash maps, with the same steps and result, unless a frame has
contradictory metadata or two overlays of a bundle collide. -/
theorem fromAst_alike {E : Env} {Os : Nat → Order} {fromOca : Option Bundle} {ast : OCAAst} {b : Build}
    (h : fromAst E Os fromOca ast = .ok b) (Os' : Nat → Order)
    (hf : ∀ base, (baseOf E fromOca : Res (List BuildErr) _) = .ok base → FramesConsistent E base ast.commands)
    (hn : ¬ b.bundle.Collides ∧ ∀ st ∈ b.steps, ¬ st.result.Collides) :
    ∃ b', fromAst E Os' fromOca ast = .ok b' ∧ b.bundle.Alike E b'.bundle ∧
      All2 (BuildStep.Alike E) b.steps b'.steps := by
  obtain ⟨base, box, h1, h2, h3, h4, h5, rfl⟩ := fromAst_steps h
  obtain ⟨b', hb'⟩ := (C12_build_outcome E Os' fromOca ast base h1).2.2.2
    (fun hp => by have := h3 _ hp; cases this) (fun ⟨es, he⟩ => by have := h3 _ he; cases this)
    (by rw [h4]; exact fun e => by cases e)
  obtain ⟨base', box', g1, -, -, g4, -, rfl⟩ := fromAst_steps hb'
  rw [h1] at g1
  cases g1
  rw [h4] at g4
  cases g4
  refine ⟨_, hb', ?_, steps_alike Os Os' _ _ _ _ h2 (hf base h1) hn.2⟩
  refine gen_alike h5 (hf base h1 ast.commands.length box ?_) _ _ hn.1
  rw [List.take_length]; exact h4

/-! ## The same writes -/

theorem cacheWrites_alike {E : Env} {S : Serde} {a b : BuildStep} (h : a.Alike E b) (hn : ¬ a.result.Collides)
    (hs : ∀ o ∈ a.result.overlays, o.said ≠ none) (ns : Namespace) (k : Str) :
    lastWrite ns k (a.cacheWrites E S) = lastWrite ns k (b.cacheWrites E S) := by
  have hp : (overlayWrites S a.result.overlays).Perm (overlayWrites S b.result.overlays) := h.result.overlays.map _
  have ho : lastWrite ns k (overlayWrites S a.result.overlays) = lastWrite ns k (overlayWrites S b.result.overlays) := by
    refine lastWrite_perm hp ?_
    intro n x v v' h1 h2
    obtain ⟨o, ho, e⟩ := List.mem_map.1 h1
    obtain ⟨o', ho', e'⟩ := List.mem_map.1 h2
    by_cases hoo : o = o'
    · subst hoo
      rw [e] at e'
      cases e'
      rfl
    · exfalso
      refine hn ⟨o, ho, o', ho', hoo, ?_⟩
      cases hs1 : o.said with
      | none => exact absurd hs1 (hs o ho)
      | some s =>
        cases hs2 : o'.said with
        | none => exact absurd hs2 (hs o' ho')
        | some s' =>
          rw [hs1] at e
          rw [hs2] at e'
          cases e
          cases e'
          rfl
  unfold BuildStep.cacheWrites
  rw [lastWrite, lastWrite, lastWrite, lastWrite, ho, h.result.said, h.result.json, h.result.baseSaid, h.result.baseJson]

theorem dbWrites_alike {E : Env} {S : Serde} {a b : BuildStep} (h : a.Alike E b) : a.dbWrites S = b.dbWrites S := by
  unfold BuildStep.dbWrites
  rw [h.result.said, h.parent, h.command]

theorem lastWrite_flatMap {α : Type} {R : α → α → Prop} {w : α → Writes} {ns : Namespace} {k : Str}
    {l l' : List α} (h : All2 R l l') (hw : ∀ a ∈ l, ∀ b, R a b → lastWrite ns k (w a) = lastWrite ns k (w b)) :
    lastWrite ns k (l.flatMap w) = lastWrite ns k (l'.flatMap w) := by
  induction h with
  | nil => rfl
  | @cons a b t t' hab _ ih =>
    rw [List.flatMap_cons, List.flatMap_cons, lastWrite_append, lastWrite_append, hw a (.head _) b hab,
      ih fun x hx => hw x (.tail _ hx)]

/-! ## C40 -/

theorem build_steps_signed {ε : Type} {E : Env} {S : Serde} {l : List BuildStep} {g g' : Facade}
    (h : foldRes (Facade.buildStep E S) g l = (.ok g' : Res ε Facade)) :
    ∀ st ∈ l, ∀ o ∈ st.result.overlays, o.said ≠ none := by
  have hput : ∀ (os : List Overlay) (d d' : Store), (putOverlays S d os : Res ε Store) = .ok d' → ∀ o ∈ os, o.said ≠ none := by
    intro os
    induction os with
    | nil => intro d d' _ o ho; cases ho
    | cons x t ih =>
      intro d d' h o ho
      unfold putOverlays at h
      obtain ⟨s, hs, h⟩ := Res.bind_eq_ok.1 h
      obtain ⟨d1, hd, h⟩ := Res.bind_eq_ok.1 h
      cases ho with
      | head => rw [Res.unwrap_eq hs]; exact fun e => by cases e
      | tail _ ho => exact ih _ _ h o ho
  induction l generalizing g with
  | nil => intro st hst; cases hst
  | cons x t ih =>
    simp only [foldRes] at h
    cases ha : (g.buildStep E S x : Res ε Facade) with
    | err e => rw [ha] at h; cases h
    | panic => rw [ha] at h; cases h
    | ok c =>
      rw [ha] at h
      intro st hst
      cases hst with
      | tail _ hst => exact ih h st hst
      | head =>
        unfold Facade.buildStep at ha
        obtain ⟨r, hr, ha⟩ := Res.bind_eq_ok.1 ha
        obtain ⟨s, hs, ha⟩ := Res.bind_eq_ok.1 ha
        obtain ⟨db, hdb, ha⟩ := Res.bind_eq_ok.1 ha
        obtain ⟨c1, hc1, ha⟩ := Res.bind_eq_ok.1 ha
        obtain ⟨cs, hcs, ha⟩ := Res.bind_eq_ok.1 ha
        obtain ⟨c2, hc2, ha⟩ := Res.bind_eq_ok.1 ha
        obtain ⟨c3, hc3, ha⟩ := Res.bind_eq_ok.1 ha
        exact hput _ _ _ hc3

/-- Building something like what was just built changes nothing that is stored. -/
theorem build_alike {ε : Type} {E : Env} {S : Serde} {O O' : SetOrder} {f f' g g' : Facade} {b b' : Build}
    (h : (f.build E S O b : Res ε Facade) = .ok f') (h' : (g.build E S O' b' : Res ε Facade) = .ok g')
    (hb : b.bundle.Alike E b'.bundle) (hs : All2 (BuildStep.Alike E) b.steps b'.steps)
    (hn : ∀ st ∈ b.steps, ¬ st.result.Collides) (h1 : g.bundles = f'.bundles) (h2 : g.bases = f'.bases)
    (h3 : g.fts = f'.fts) (h4 : ∀ ns k, g.cache.get ns k = f'.cache.get ns k)
    (h5 : ∀ k, g.db.get .oca k = f'.db.get .oca k) (h6 : ∀ k, g.db.get .references k = f'.db.get .references k) :
    f'.SameStored g' := by
  obtain ⟨s, c, es, ec, t1, t2, t3⟩ := build_tables h
  obtain ⟨s', c', es', ec', t1', t2', t3'⟩ := build_tables h'
  have e : s' = s := by
    have := hb.said
    rw [es, es'] at this
    exact (Option.some.inj this).symm
  subst e
  have e : c' = c := by
    have := hb.baseSaid
    rw [ec, ec'] at this
    exact (Option.some.inj this).symm
  subst e
  obtain ⟨a1, a2, -⟩ := build_after h
  obtain ⟨a1', a2', -⟩ := build_after h'
  obtain ⟨_, _, gg, db, _, _, hg, -⟩ := build_parts h
  have hsigned := build_steps_signed hg
  refine ⟨?_, ?_, ?_, ?_, ?_, ?_⟩
  · rw [t1', h1, t1, insertRow_again]
  · rw [t2', h2, t2, insertRow_again]
  · rw [t3', h3]
    refine fold_has _ _ ?_
    intro r hr
    rw [t3]
    refine hasRow_fold _ _ _ (.inr ?_)
    exact ((hb.overlays.filterMap _).mem_iff).2 hr
  · refine After.again a1 h4 ?_ a1'
    intro ns k
    refine (lastWrite_flatMap hs ?_).symm
    intro st hst st' hss
    exact cacheWrites_alike hss (hn st hst) (hsigned st hst) ns k
  · intro k
    rw [a2', a2, h5, a2]
    have : lastWrite .oca k (b'.steps.flatMap (BuildStep.dbWrites S)) = lastWrite .oca k (b.steps.flatMap (BuildStep.dbWrites S)) :=
      (lastWrite_flatMap hs fun st _ st' hss => by rw [dbWrites_alike hss]).symm
    rw [this]
    cases lastWrite .oca k (b.steps.flatMap (BuildStep.dbWrites S)) <;> rfl
  · intro k
    rw [build_refs h', h6]

/-! ### The same file -/

theorem derefName_congr {E : Env} {g g' : Str → Res VErr (Option Str)} {n : Str} (h : g n = g' n) :
    derefName E g n = derefName E g' n := by
  unfold derefName; rw [h]

theorem derefAttr_congr {E : Env} {g g' : Str → Res VErr (Option Str)} (a : NAttr) (h : ∀ n ∈ a.names, g n = g' n) :
    derefAttr E g a = derefAttr E g' a := by
  unfold derefAttr
  split
  · next n => rw [derefName_congr (h n (by simp [NAttr.names]))]
  · next n => rw [derefName_congr (h n (by simp [NAttr.names]))]
  · rfl

theorem derefAttrs_congr {E : Env} {g g' : Str → Res VErr (Option Str)} (l : List (Str × NAttr))
    (h : ∀ n ∈ l.flatMap (fun p => p.2.names), g n = g' n) : derefAttrs E g l = derefAttrs E g' l := by
  induction l with
  | nil => rfl
  | cons p t ih =>
    obtain ⟨n, a⟩ := p
    rw [List.flatMap_cons] at h
    unfold derefAttrs
    rw [derefAttr_congr a fun n hn => h n (List.mem_append_left _ hn), ih fun n hn => h n (List.mem_append_right _ hn)]

theorem imGet_mem {V : Type} {k : Str} {l : List (Str × V)} {v : V} (h : imGet k l = some v) : (k, v) ∈ l := by
  induction l with
  | nil => cases h
  | cons p t ih =>
    obtain ⟨n, w⟩ := p
    rw [imGet_cons] at h
    split at h
    · next e => cases h; rw [← e]; exact .head _
    · exact .tail _ (ih h)

theorem derefCommand_congr {E : Env} {g g' : Str → Res VErr (Option Str)} (c : Command) (h : ∀ n ∈ c.names, g n = g' n) :
    derefCommand E g c = derefCommand E g' c := by
  obtain ⟨k, o⟩ := c
  unfold derefCommand
  cases k with
  | add =>
    cases o with
    | captureBase cc =>
      obtain ⟨as, ps, fs⟩ := cc
      cases as with
      | none => rfl
      | some l => dsimp only; rw [derefAttrs_congr l h]
    | ocaBundle r => rfl
    | overlay t cc =>
      obtain ⟨tk, tv⟩ := t
      obtain ⟨as, ps⟩ := cc
      cases ps with
      | none => rfl
      | some ps =>
        dsimp only
        by_cases hk : tk = .link
        · subst hk
          have : derefTarget E g ps = derefTarget E g' ps := by
            unfold derefTarget
            split
            · next n hn =>
              refine congrArg (fun x : Res VErr RefVal => x >>= fun r => pure (imInsert c!"target" (.ref r) ps)) (derefName_congr (h n ?_))
              show n ∈ ps.filterMap targetName
              have hmem : (c!"target", NVal.ref (.name n)) ∈ ps := imGet_mem hn
              exact List.mem_filterMap.2 ⟨_, hmem, by simp [targetName]⟩
            · rfl
          rw [this]
        · rw [if_neg hk, if_neg hk]
  | remove => rfl
  | «from» => rfl
  | modify => rfl

theorem derefCommands_congr {E : Env} {g g' : Str → Res VErr (Option Str)} (cs : List Command)
    (h : ∀ c ∈ cs, ∀ n ∈ c.names, g n = g' n) : derefCommands E g cs = derefCommands E g' cs := by
  induction cs with
  | nil => rfl
  | cons c t ih =>
    unfold derefCommands
    rw [derefCommand_congr c (h c (.head _)), ih fun c hc => h c (.tail _ hc)]

/-- **C40** Building a file again changes nothing that is stored. A file is built on a facade; validated again afterwards,
with whatever other order of the hash maps, it is accepted again, with the same identifier and JSON; and building it
again leaves every cached row, search row, stored bundle, capture base and overlay, operation record and name as it is.
The file must not use its own name, nor pass through the bundle it is based on; the alternatives are a frame with
contradictory metadata (C19) and a collision of two overlays of one bundle. -/
theorem C40_same_file (E : Env) (S : Serde) (f f1 f2 : Facade) (Os : Nat → Order) (O : SetOrder) (ls : List Line)
    (ast : OCAAst) (hp : parseLines ls = .ok ast) (b : Build) (h1 : f.validate E S Os ls = .ok (f1, b))
    (h2 : (f1.build E S O b : Res (List VErr) _) = .ok f2)
    (hname : ∀ n, ast.metaMap.get c!"name" = some n → ∀ c ∈ ast.commands, n ∉ c.names)
    (hbase : ∀ p, ast.commands.head? = some ⟨.«from», .ocaBundle (.said p)⟩ → some p ∉ b.steps.map (·.result.said))
    (hframes : ∀ base ast', (checkBase E S f.cache ast : Res (List VErr) _) = .ok (base, ast') →
      ∀ x, (baseOf E base : Res (List BuildErr) _) = .ok x → FramesConsistent E x (b.steps.map (·.command)))
    (hcoll : ¬ b.bundle.Collides ∧ ∀ st ∈ b.steps, ¬ st.result.Collides) (Os' : Nat → Order) :
    ∃ f3 b', f2.validate E S Os' ls = .ok (f3, b') ∧ b'.bundle.said = b.bundle.said ∧
      b'.bundle.toJson E = b.bundle.toJson E ∧ b.bundle.Alike E b'.bundle ∧
      ∀ O' f4, (f3.build E S O' b' : Res (List VErr) _) = .ok f4 → f2.SameStored f4 := by
  obtain ⟨ast0, base, ast', cs, e1, e2, e3, e4, e5, e6, e7, e8, e9⟩ := validate_parts h1
  rw [hp] at e1
  cases e1
  obtain ⟨-, hcs⟩ : True ∧ b.steps.map (·.command) = cs := by
    obtain ⟨_, _, -, -, -, -, hcs, -⟩ := C12_successful_build E Os base _ b e4
    exact ⟨trivial, hcs⟩
  obtain ⟨s, c, hs, -⟩ := build_tables h2
  -- the base is the same
  have hb2 : (checkBase E S f2.cache ast : Res (List VErr) _) = .ok (base, ast') := by
    rw [← e2]
    unfold checkBase
    split
    · next r t hcmd =>
      cases r with
      | name n => rfl
      | said p =>
        have hnot := hbase p (by rw [hcmd]; rfl)
        have hget : f2.cache.get .bundlesJson p = f.cache.get .bundlesJson p := by
          rw [((build_records h2).1 p hnot).2, e5]
        have : fetchBundle E S f2.cache p = fetchBundle E S f.cache p := by
          unfold fetchBundle; rw [hget]
        dsimp only
        rw [this]
    · rfl
  have hmeta : ast'.metaMap = ast.metaMap := checkBase_meta e2
  -- the names are the same
  have hfind : ∀ n, ast.metaMap.get c!"name" ≠ some n → (f2.db.findRefn n : Res VErr _) = f.db.findRefn n := by
    intro n hn
    unfold Store.findRefn
    rw [build_refs h2, validate_refs hp h1 hs, if_neg hn]
  have hsub : ∀ c ∈ ast'.commands, c ∈ ast.commands := by
    intro c hc
    unfold checkBase at e2
    split at e2
    · next r t hcmd =>
      rw [hcmd]
      split at e2
      · split at e2
        · cases e2; exact .tail _ hc
        · cases e2; exact .tail _ hc
        · cases e2
      · cases e2
    · cases e2; exact hc
  have hd : derefCommands E f2.db.findRefn ast'.commands = .ok cs := by
    rw [← e3]
    refine derefCommands_congr _ ?_
    intro c hc n hn
    exact hfind n fun e => hname n e c (hsub c hc) hn
  obtain ⟨b', hb', hal, hst⟩ := fromAst_alike e4 Os' (fun x hx => by rw [← hcs]; exact hframes base ast' e2 x hx) hcoll
  -- validating again
  have hs' : b'.bundle.said = some s := by rw [← hal.said, hs]
  have hv : ∃ f3, f2.validate E S Os' ls = .ok (f3, b') := by
    unfold Facade.validate
    rw [hp]
    show ∃ f3, Res.bind (Res.ok ast) _ = _
    rw [Res.bind]
    rw [hb2]
    show ∃ f3, Res.bind (buildWithRefs E Os' f2.db base ast') _ = _
    unfold buildWithRefs
    rw [hd]
    dsimp only [Res.mapErr]
    rw [Res.bind_ok, hb', Res.bind_ok]
    cases ast'.metaMap.get c!"name" with
    | none => exact ⟨_, rfl⟩
    | some n =>
      dsimp only
      rw [hs']
      exact ⟨_, rfl⟩
  obtain ⟨f3, hv⟩ := hv
  refine ⟨f3, b', hv, hal.said.symm, hal.json.symm, hal, ?_⟩
  intro O' f4 h4
  obtain ⟨_, _, _, _, -, -, -, -, g5, g6, g7, g8, g9⟩ := validate_parts hv
  refine build_alike h2 h4 hal hst hcoll.2 g6 g7 g8 (fun ns k => by rw [g5]) (fun k => g9 _ (by decide) k) ?_
  intro k
  rw [validate_refs hp hv hs', build_refs h2, validate_refs hp h1 hs]
  split <;> rfl

/-! ### A concrete case -/

/-- no attribute is framed -/
def OCABox.unframed (b : OCABox) : Bool := b.attributes.l.all fun p => p.2.framings.isNone

theorem unframed_consistent {b : OCABox} (h : b.unframed = true) : FrameConsistent b := by
  intro frame n a fr sc s n' a' fr' sc' s' k v v' h1 h2
  have := List.all_eq_true.1 h _ ((FMap.lget_iff_mem b.attributes.sorted n a).1 h1)
  dsimp only at this
  obtain ⟨m, hm, -⟩ : ∃ m, a.framings = some m ∧ True := by
    simp only [Attribute.Carries] at h2
    obtain ⟨m, hm, -⟩ := h2
    exact ⟨m, hm, trivial⟩
  rw [hm] at this
  cases this

/-- two overlays of the bundle collide -/
def Bundle.collides (b : Bundle) : Bool := b.overlays.any fun o => b.overlays.any fun o' => decide (o ≠ o') && decide (o.said = o'.said)

theorem not_collides {b : Bundle} (h : b.collides = false) : ¬ b.Collides := by
  rintro ⟨o, ho, o', ho', hne, he⟩
  have : b.collides = true :=
    List.any_eq_true.2 ⟨o, ho, List.any_eq_true.2 ⟨o', ho', by simp [hne, he]⟩⟩
  rw [h] at this
  cases this

/-- ADD ATTRIBUTE a=Text b=Numeric; ADD LABEL en a; ADD LABEL fr a; ADD META en -/
def labelled : List Command :=
  [addAttrs [(c!"a", .val .text), (c!"b", .val .numeric)],
   addOv .label [(c!"lang", .val c!"en")] [(c!"a", .val c!"Name")],
   addOv .label [(c!"lang", .val c!"fr")] [(c!"a", .val c!"Nom")],
   addOv .metaOv [(c!"lang", .val c!"en"), (c!"name", .val c!"Person")] []]

/-- no prefix of these commands frames an attribute -/
def unframedAll (cs : List Command) : Bool := (List.range (cs.length + 1)).all fun n =>
  match finalState Env.short none (cs.take n) with
  | none => true
  | some b => b.unframed

theorem unframedAll_consistent {cs : List Command} (h : unframedAll cs = true) : FramesConsistent Env.short none cs := by
  intro n box hb
  have key : ∀ n, n ≤ cs.length → finalState Env.short none (cs.take n) = some box → FrameConsistent box := by
    intro n hn hb
    have := List.all_eq_true.1 h n (List.mem_range.2 (by omega))
    rw [hb] at this
    exact unframed_consistent this
  by_cases hn : n ≤ cs.length
  · exact key n hn hb
  · refine key cs.length (Nat.le_refl _) ?_
    rw [List.take_of_length_le (by omega)] at hb
    rw [List.take_length]
    exact hb

set_option maxRecDepth 20000 in
/-- The hypotheses of `C40_same_file` are met by a file with labels in two languages and a name. -/
theorem C40_example : ∃ f1 f2 b, tryFile labelled = .ok (f1, f2, b) ∧ ∀ Os', ∃ f3 b',
    f2.validate Env.short Serde.text Os' (fileOf labelled) = .ok (f3, b') ∧ b'.bundle.said = b.bundle.said ∧
      ∀ O' f4, (f3.build Env.short Serde.text O' b' : Res (List VErr) _) = .ok f4 → f2.SameStored f4 := by
  obtain ⟨f1, f2, b, h, hp⟩ := fileTest_parts (cs := labelled)
    (p := fun b => !b.bundle.collides && b.steps.all fun st => !st.result.collides) (by decide +kernel)
  obtain ⟨h1, h2⟩ := tryFile_parts h
  simp only [Bool.and_eq_true, Bool.not_eq_true', List.all_eq_true] at hp
  refine ⟨f1, f2, b, h, fun Os' => ?_⟩
  have hc : b.steps.map (·.command) = labelled := validate_commands h1 (ast := _) rfl rfl (fun _ h => by cases h) rfl
  have hq : ∃ ast, parseLines (fileOf labelled) = .ok ast ∧ ast.commands = labelled ∧ ast.metaMap.get c!"name" = none ∧ ast.NoBase :=
    ⟨_, rfl, rfl, rfl, fun _ h => by cases h⟩
  obtain ⟨ast, q1, q2, q3, q4⟩ := hq
  obtain ⟨f3, b', e1, e2, -, -, e3⟩ := C40_same_file Env.short Serde.text Facade.new f1 f2 _ .kept (fileOf labelled) ast q1 b h1 h2
    (fun n hn => by rw [q3] at hn; cases hn) (fun p hh => by rw [q2] at hh; cases hh)
    (fun base ast' hb x hx => by
      rw [checkBase_noBase q4] at hb
      cases hb
      cases hx
      rw [hc]
      exact unframedAll_consistent (by decide +kernel))
    ⟨not_collides hp.1, fun st hst => not_collides (hp.2 st hst)⟩ Os'
  exact ⟨f3, b', e1, e2, e3⟩

end OCA
