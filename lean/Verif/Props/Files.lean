import Verif.Props.History
import Verif.Lemmas.Stored
/-!
# C30, C31 for whole files

Everything a facade can come to by validating and building files whose commands can be stored.
-/
namespace OCA

/-- What is behind an accepted file. -/
theorem validate_parts {E : Env} {S : Serde} {Os : Nat → Order} {f f' : Facade} {ls : List Line} {b : Build}
    (h : f.validate E S Os ls = .ok (f', b)) :
    ∃ ast base ast' cs, parseLines ls = .ok ast ∧ (checkBase E S f.cache ast : Res (List VErr) _) = .ok (base, ast') ∧
      derefCommands E f.db.findRefn ast'.commands = .ok cs ∧ fromAst E Os base { ast' with commands := cs } = .ok b ∧
      f'.cache = f.cache ∧ f'.bundles = f.bundles ∧ f'.bases = f.bases ∧ f'.fts = f.fts ∧
      ∀ ns, ns ≠ .references → ∀ k, f'.db.get ns k = f.db.get ns k := by
  unfold Facade.validate at h
  obtain ⟨ast, ha, h⟩ := Res.bind_eq_ok.1 h
  obtain ⟨⟨base, ast'⟩, hb, h⟩ := Res.bind_eq_ok.1 h
  obtain ⟨⟨db, b'⟩, hr, h⟩ := Res.bind_eq_ok.1 (show Res.bind _ _ = _ from h)
  cases h
  have mapErr_ok : ∀ {ε ε' α : Type} {g : ε → ε'} {x : Res ε α} {a : α}, x.mapErr g = .ok a → x = .ok a := by
    intro ε ε' α g x a h
    cases x with
    | ok y => cases h; rfl
    | err e => cases h
    | panic => cases h
  have ha := mapErr_ok ha
  unfold buildWithRefs at hr
  obtain ⟨cs, hcs, hr⟩ := Res.bind_eq_ok.1 hr
  obtain ⟨b2, hb2, hr⟩ := Res.bind_eq_ok.1 hr
  have key : b2 = b ∧ ∀ ns, ns ≠ .references → ∀ k, db.get ns k = f.db.get ns k := by
    cases hn : ast'.metaMap.get c!"name" with
    | none =>
      rw [hn] at hr
      cases hr
      exact ⟨rfl, fun _ _ _ => rfl⟩
    | some n =>
      rw [hn] at hr
      obtain ⟨s', hs', hr⟩ := Res.bind_eq_ok.1 (show Res.bind _ _ = _ from hr)
      obtain ⟨d, hd, hr⟩ := Res.bind_eq_ok.1 (show Res.bind _ _ = _ from hr)
      cases hr
      refine ⟨rfl, fun ns hns k => ?_⟩
      unfold Store.saveRefn at hd
      rw [Store.put_get hd, if_neg (fun e => hns e.1.symm)]
  obtain ⟨rfl, key⟩ := key
  exact ⟨ast, base, ast', cs, ha, hb, mapErr_ok hcs, mapErr_ok hb2, rfl, rfl, rfl, rfl, key⟩

/-! ## What is in the cache -/

/-- Every stored bundle is stored under its own identifier and can be read back. -/
def Facade.Kept (E : Env) (S : Serde) (f : Facade) : Prop :=
  ∀ s bs, f.cache.get .bundlesJson s = .ok (some bs) →
    ∃ b : Bundle, b.Keepable E ∧ b.said = some s ∧ bs = utf8 (S.print (b.toJson E))

theorem Facade.Kept.step {ε : Type} {E : Env} {S : Serde} {f f' : Facade} {st : BuildStep} (h : f.Kept E S)
    (hst : st.result.Keepable E) (hb : (f.buildStep E S st : Res ε Facade) = .ok f') : f'.Kept E S := by
  obtain ⟨-, -, -, s, r, hs, -, -, hc, -⟩ := buildStep_effect hb
  intro x bs hx
  rw [hc] at hx
  split at hx
  · next e =>
    cases hx
    exact ⟨st.result, hst, by rw [e]; exact hs, rfl⟩
  · exact h x bs hx

theorem Facade.Kept.build {ε : Type} {E : Env} {S : Serde} {O : SetOrder} {f f' : Facade} {b : Build} (h : f.Kept E S)
    (hst : ∀ st ∈ b.steps, st.result.Keepable E) (hb : (f.build E S O b : Res ε Facade) = .ok f') : f'.Kept E S := by
  obtain ⟨s, c, g, db, _, _, hg, hr, hm⟩ := build_parts hb
  obtain ⟨m1, -⟩ := buildModels_frame hm
  have hg' : g.Kept E S := by
    refine foldRes_inv_mem (Facade.Kept E S) b.steps ?_ _ g ?_ hg
    · intro f st hm f' hf hs
      exact hf.step (hst st hm) hs
    · exact h
  intro x bs hx
  rw [m1] at hx
  exact hg' x bs hx

/-- A bundle of such a cache is there and loads, or is not there. -/
theorem Facade.Kept.fetch {E : Env} {S : Serde} {f : Facade} (h : f.Kept E S) (s : Said) :
    (∃ b', fetchBundle E S f.cache s = .ok b' ∧ b'.said = some s ∧ b'.Keepable E) ∨
    (f.cache.get .bundlesJson s = .ok none ∧
      fetchBundle E S f.cache s = .err [c!"No OCA Bundle found for said: " ++ s]) := by
  obtain ⟨o, ho⟩ := f.cache.get_ok .bundlesJson s
  cases o with
  | none =>
    right
    refine ⟨ho, ?_⟩
    unfold fetchBundle
    rw [ho]
  | some bs =>
    left
    obtain ⟨b, hb, hs, rfl⟩ := h s bs ho
    obtain ⟨b', h1, h2, -, h4⟩ := fetchBundle_eq E S f.cache b s ho hb.storable hb.types
    refine ⟨b', h1, by rw [h2, hs], ?_⟩
    rw [h4]
    exact hb.loaded

/-- The first command of a file is not FROM. -/
def OCAAst.NoBase (ast : OCAAst) : Prop := ∀ o, ast.commands.head? ≠ some ⟨.«from», o⟩

theorem Facade.Kept.checkBase {E : Env} {S : Serde} {f : Facade} (h : f.Kept E S) {ast ast' : OCAAst} {base : Option Bundle}
    (hb : (OCA.checkBase E S f.cache ast : Res (List VErr) _) = .ok (base, ast')) : ∀ x, base = some x → x.Keepable E := by
  intro x hx
  unfold OCA.checkBase at hb
  split at hb
  · split at hb
    · next s _ =>
      split at hb
      · next b' hf =>
        cases hb
        cases hx
        rcases h.fetch s with ⟨b', h1, -, h3⟩ | ⟨-, h1⟩
        · rw [h1] at hf; cases hf; exact h3
        · rw [h1] at hf; cases hf
      · cases hb; cases hx
      · cases hb
    · cases hb
  · cases hb; cases hx

/-- The facades that validating and building files whose commands can be stored leads to. (A refused file changes
nothing.) -/
inductive Facade.Runs (E : Env) (S : Serde) : Facade → Prop
  | new : Runs E S Facade.new
  | validated {f f' : Facade} {Os : Nat → Order} {ls : List Line} {b : Build} :
      Runs E S f → f.validate E S Os ls = .ok (f', b) → Runs E S f'
  | built {f f1 f' : Facade} {Os : Nat → Order} {O : SetOrder} {ls : List Line} {b : Build} :
      Runs E S f → f.validate E S Os ls = .ok (f1, b) → (∀ st ∈ b.steps, st.command.Keepable E) →
      (f1.build E S O b : Res (List VErr) _) = .ok f' → Runs E S f'

theorem validate_keeps {E : Env} {S : Serde} {Os : Nat → Order} {f f' : Facade} {ls : List Line} {b : Build}
    (hf : f.Kept E S) (h : f.validate E S Os ls = .ok (f', b)) (hc : ∀ st ∈ b.steps, st.command.Keepable E) :
    (∀ st ∈ b.steps, st.command.Keepable E ∧ st.result.Keepable E ∧ st.result.said ≠ none) ∧ b.bundle.Keepable E := by
  obtain ⟨ast, base, ast', cs, h1, h2, h3, h4, h5, -⟩ := validate_parts h
  obtain ⟨_, _, -, -, -, -, hcs, -⟩ := C12_successful_build E Os base _ b h4
  refine fromAst_keep h4 (hf.checkBase h2) ?_
  intro c hc'
  rw [← hcs] at hc'
  obtain ⟨st, hst, rfl⟩ := List.mem_map.1 hc'
  exact hc st hst

theorem Facade.Runs.kept {E : Env} {S : Serde} {f : Facade} (h : Facade.Runs E S f) : f.Kept E S := by
  induction h with
  | new =>
    intro s bs hs
    cases hs
  | validated _ hv ih =>
    obtain ⟨_, _, _, _, -, -, -, -, h5, -⟩ := validate_parts hv
    intro s bs hs
    rw [h5] at hs
    exact ih s bs hs
  | @built f f1 f' Os O ls b _ hv hc hb ih =>
    have hk := (validate_keeps ih hv hc).1
    obtain ⟨_, _, _, _, -, -, -, -, h5, -⟩ := validate_parts hv
    have h1 : f1.Kept E S := by
      intro s bs hs
      rw [h5] at hs
      exact ih s bs hs
    exact h1.build (fun st hst => (hk st hst).2.1) hb

/-- A bundle that was built can be fetched: the history of a facade never leaves something under an identifier that does
not load, or loads as another bundle. -/
theorem C30_stored_bundles_load (E : Env) (S : Serde) (f : Facade) (h : Facade.Runs E S f) (s : Said) :
    (∃ b', fetchBundle E S f.cache s = .ok b' ∧ b'.said = some s) ∨
    fetchBundle E S f.cache s = .err [c!"No OCA Bundle found for said: " ++ s] := by
  rcases h.kept.fetch s with ⟨b', h1, h2, -⟩ | ⟨-, h1⟩
  · exact .inl ⟨b', h1, h2⟩
  · exact .inr h1

theorem readable_of {E : Env} {l : List BuildStep}
    (h : ∀ st ∈ l, st.command.Keepable E ∧ st.result.Keepable E ∧ st.result.said ≠ none) : ∀ st ∈ l, st.Readable E :=
  fun st hst => ⟨(h st hst).1.faithful, (h st hst).1.depth, (h st hst).2.1.storable, (h st hst).2.1.types⟩

theorem checkBase_noBase {ε : Type} {E : Env} {S : Serde} {cache : Store} {ast : OCAAst} (h : ast.NoBase) :
    (checkBase E S cache ast : Res ε _) = .ok (none, ast) := by
  unfold checkBase
  split
  · next r t e => exact absurd (by rw [e]; rfl) (h (.ocaBundle r))
  · rfl

/-- **C30** A file without FROM, built on a facade with any past: if no two of its steps have the same identifier, the
history of its result is the list of its commands (names replaced), each with the parent and result it had in the build. -/
theorem C30_history_of_file (E : Env) (S : Serde) (hv : E.validSaid [] = false) (f f1 f2 : Facade) (hf : Facade.Runs E S f)
    (Os : Nat → Order) (O : SetOrder) (ls : List Line) (ast : OCAAst) (hp : parseLines ls = .ok ast) (hn : ast.NoBase)
    (b : Build) (h1 : f.validate E S Os ls = .ok (f1, b)) (hc : ∀ st ∈ b.steps, st.command.Keepable E)
    (h2 : (f1.build E S O b : Res (List VErr) _) = .ok f2) (hd : (b.steps.map (·.result.said)).Nodup)
    (last : BuildStep) (hlast : b.steps.getLast? = some last) (s : Said) (hs : last.result.said = some s) :
    ∃ l, f2.HasHistory E S s l ∧ derefCommands E f.db.findRefn ast.commands = .ok (l.map (·.command)) ∧
      l.map (BuildStep.shown E) = b.steps.map (BuildStep.shown E) := by
  have hk := (validate_keeps hf.kept h1 hc).1
  obtain ⟨ast0, base, ast', cs, e1, e2, e3, e4, -⟩ := validate_parts h1
  rw [hp] at e1
  cases e1
  rw [checkBase_noBase hn] at e2
  cases e2
  obtain ⟨l, a1, a2, a3⟩ := C30_history_of_build E S hv Os O none _ b e4 f1 f2 h2 (readable_of hk) hd [] (.inl ⟨rfl, rfl⟩)
    last hlast s hs
  exact ⟨l, a1, by rw [a2]; exact e3, a3⟩

/-- **C31** A file starting with FROM `p`, built on a facade with any past that knows the history of `p`: if no two of its
steps have the same identifier, nor one of them that of an earlier step of the base, then the history of the result is
the history of the base followed by the rest of the file; and the history of the base stays. -/
theorem C31_history_of_from_file (E : Env) (S : Serde) (hv : E.validSaid [] = false) (f f1 f2 : Facade)
    (hf : Facade.Runs E S f) (Os : Nat → Order) (O : SetOrder) (ls : List Line) (ast : OCAAst)
    (hp : parseLines ls = .ok ast) (p : Said) (rest : List Command)
    (hfrom : ast.commands = ⟨.«from», .ocaBundle (.said p)⟩ :: rest) (pre : List BuildStep) (hpre : f.HasHistory E S p pre)
    (b : Build) (h1 : f.validate E S Os ls = .ok (f1, b)) (hc : ∀ st ∈ b.steps, st.command.Keepable E)
    (h2 : (f1.build E S O b : Res (List VErr) _) = .ok f2) (hd : (b.steps.map (·.result.said)).Nodup)
    (hd1 : some p ∉ b.steps.map (·.result.said))
    (hd2 : ∀ st ∈ pre, ∀ x, st.parentSaid = some x → some x ∉ b.steps.map (·.result.said))
    (last : BuildStep) (hlast : b.steps.getLast? = some last) (s : Said) (hs : last.result.said = some s) :
    f2.HasHistory E S p pre ∧
    ∃ l, f2.HasHistory E S s (pre ++ l) ∧ derefCommands E f.db.findRefn rest = .ok (l.map (·.command)) ∧
      l.map (BuildStep.shown E) = b.steps.map (BuildStep.shown E) := by
  have hk := (validate_keeps hf.kept h1 hc).1
  obtain ⟨ast0, base, ast', cs, e1, e2, e3, e4, e5, -, -, -, e9⟩ := validate_parts h1
  rw [hp] at e1
  cases e1
  -- the base is there
  have hfetch : ∃ b', fetchBundle E S f.cache p = .ok b' ∧ b'.said = some p ∧ b'.Keepable E := by
    rcases hf.kept.fetch p with h | ⟨-, h⟩
    · exact h
    · have := hpre pre.length (Nat.le_refl _)
      exfalso
      unfold Facade.steps at this
      cases hn : pre.length with
      | zero => rw [hn] at this; cases this
      | succ n =>
        rw [hn, stepsLoop] at this
        rw [h] at this
        split at this
        · cases this
        · cases this
        · split at this
          · cases this
          · split at this <;> cases this
  obtain ⟨b', hb1, hb2, hb3⟩ := hfetch
  have hcb : (checkBase E S f.cache ast : Res (List VErr) _) = .ok (some b', { ast with commands := rest }) := by
    unfold checkBase
    rw [hfrom]
    dsimp only
    rw [hb1]
  rw [hcb] at e2
  cases e2
  have hpre1 : f1.HasHistory E S p pre := by
    intro fuel hfu
    refine stepsLoop_same E S f f1 fuel p [] pre (hpre fuel hfu) ?_ ?_
    · exact ⟨e9 _ (by decide) _, by rw [e5]⟩
    · intro st _ x _
      exact ⟨e9 _ (by decide) _, by rw [e5]⟩
  obtain ⟨k, l, a1, a2, a3⟩ := C31_from_history E S hv Os O f1 f2 p b' (hb3.storable.said p hb2) hb2 pre hpre1 _ b e4 h2
    (readable_of hk) hd hd1 hd2 last hlast s hs
  exact ⟨k, l, a1, by rw [a2]; exact e3, a3⟩

/-! ## Where C30 fails: identifiers that come back -/

theorem foldRes_split {ε α β : Type} (f : β → α → Res ε β) (l1 l2 : List α) (x y : β)
    (h : foldRes f x (l1 ++ l2) = .ok y) : ∃ z, foldRes f x l1 = .ok z ∧ foldRes f z l2 = .ok y := by
  induction l1 generalizing x with
  | nil => exact ⟨x, rfl, h⟩
  | cons a t ih =>
    simp only [List.cons_append, foldRes] at h ⊢
    cases ha : f x a with
    | err e => rw [ha] at h; cases h
    | panic => rw [ha] at h; cases h
    | ok z => rw [ha] at h; exact ih z h

/-- The records of the last steps, if these have different identifiers. -/
theorem build_records_suffix {ε : Type} {E : Env} {S : Serde} {O : SetOrder} {f f' : Facade} {b : Build}
    (h : (f.build E S O b : Res ε Facade) = .ok f') (l1 l2 : List BuildStep) (hb : b.steps = l1 ++ l2)
    (hd : (l2.map (·.result.said)).Nodup) : ∀ st ∈ l2, ∃ s, f'.Holds E S st s := by
  obtain ⟨s, c, g, db, _, _, hg, hr, hm⟩ := build_parts h
  have h2 : ∀ k, db.get .oca k = g.db.get .oca k := by
    intro k
    rcases hr with hr | ⟨_, e⟩
    · exact addRelations_frame hr _ (by decide) k
    · rw [e]
  obtain ⟨m1, -, -, -, m5⟩ := buildModels_frame hm
  have e1 : ∀ k, f'.db.get .oca k = g.db.get .oca k := fun k => by rw [m5 _ (by decide)]; exact h2 k
  have e2 : f'.cache = g.cache := m1
  rw [hb] at hg
  obtain ⟨z, -, hg⟩ := foldRes_split _ _ _ _ _ hg
  intro st hst
  obtain ⟨s, h1, ⟨r, hr, hg⟩, h3⟩ := (steps_records hg).2 hd st hst
  exact ⟨s, h1, ⟨r, hr, (e1 _).trans hg⟩, by rw [e2]; exact h3⟩

/-- Where C30 fails: if the last command of a file did not change the bundle (two steps in a row have the same
identifier), the history of the result cannot be looked up. -/
theorem C30_unchanged_step_malformed {ε : Type} (E : Env) (S : Serde) (Os : Nat → Order) (O : SetOrder)
    (base : Option Bundle) (ast : OCAAst) (b : Build) (hb : fromAst E Os base ast = .ok b) (f f' : Facade)
    (h : (f.build E S O b : Res ε Facade) = .ok f') (l1 : List BuildStep) (x y : BuildStep)
    (hl : b.steps = l1 ++ [x, y]) (hr : y.Readable E) (s : Said) (hx : x.result.said = some s) (hy : y.result.said = some s)
    (fuel : Nat) : f'.steps E S (fuel + 1) s = some (.err [c!"Malformed history"]) := by
  obtain ⟨_, _, -, -, -, -, hc, h0, h1, -, -⟩ := C12_successful_build E Os base ast b hb
  have hp : y.parentSaid = some s := by
    rw [← hx]
    refine h1 l1.length x y ?_ ?_
    · rw [hl, List.getElem?_append_right (Nat.le_refl _), Nat.sub_self]; rfl
    · rw [hl, List.getElem?_append_right (by omega)]
      have : l1.length + 1 - l1.length = 1 := by omega
      rw [this]; rfl
  obtain ⟨s', hh⟩ := build_records_suffix h (l1 ++ [x]) [y] (by rw [hl]; simp) (by simp) y (.head _)
  have : s' = s := by
    have := hh.said
    rw [hy] at this
    exact (Option.some.inj this).symm
  subst this
  unfold Facade.steps
  rw [stepsLoop, extractOperation_eq E S f' y s' hh hr, hp]
  dsimp only [Option.getD]
  rw [if_pos rfl]

/-- Where records lead from each of a set of identifiers to another one of the set, the lookup never ends. -/
theorem records_cycle (E : Env) (S : Serde) (hv : E.validSaid [] = false) (f : Facade) (P : Said → Prop)
    (h : ∀ s, P s → ∃ st p, f.Holds E S st s ∧ st.Readable E ∧ st.parentSaid = some p ∧ p ≠ s ∧ E.validSaid p = true ∧ P p)
    (s : Said) (hs : P s) (fuel : Nat) (acc : List BuildStep) : stepsLoop E S f fuel s acc = none := by
  induction fuel generalizing s acc with
  | zero => rfl
  | succ n ih =>
    obtain ⟨st, p, h1, h2, h3, h4, h5, h6⟩ := h s hs
    obtain ⟨st', -, -, hround⟩ := stepsLoop_round E S f st s h1 h2 (by rw [h3]; exact h4)
      (fun q hq => by rw [h3] at hq; cases hq; exact h5) hv
    rw [hround, h3, if_neg (by simp)]
    exact ih p h6 _

/-- Where C30 fails: if the last command of a file leads back to the bundle of an earlier step (an attribute was added and
removed again), with something different in between, looking up the history of the result never ends. -/
theorem C30_returning_step_never_ends {ε : Type} (E : Env) (S : Serde) (hv : E.validSaid [] = false) (Os : Nat → Order)
    (O : SetOrder) (base : Option Bundle) (ast : OCAAst) (b : Build) (hb : fromAst E Os base ast = .ok b) (f f' : Facade)
    (h : (f.build E S O b : Res ε Facade) = .ok f') (l1 mid : List BuildStep) (x y : BuildStep)
    (hl : b.steps = l1 ++ x :: (mid ++ [y])) (hmid : mid ≠ []) (hr : ∀ st ∈ mid ++ [y], st.Readable E)
    (hd : ((mid ++ [y]).map (·.result.said)).Nodup) (s : Said) (hx : x.result.said = some s) (hy : y.result.said = some s)
    (fuel : Nat) : f'.steps E S fuel s = none := by
  obtain ⟨_, _, -, -, -, -, hc, h0, h1, -, -⟩ := C12_successful_build E Os base ast b hb
  have hh := build_records_suffix h (l1 ++ [x]) (mid ++ [y]) (by rw [hl]; simp) hd
  refine records_cycle E S hv f' (fun s => some s ∈ (mid ++ [y]).map (·.result.said)) ?_ s
    (by rw [← hy]; exact List.mem_map_of_mem (by simp)) fuel []
  intro t ht
  obtain ⟨st, hst, hts⟩ := List.mem_map.1 ht
  obtain ⟨t', hold⟩ := hh st hst
  have : t' = t := by
    have := hold.said
    have hts : st.result.said = some t := hts
    rw [hts] at this
    exact (Option.some.inj this).symm
  subst this
  -- where it is in the list
  obtain ⟨i, hi, hget⟩ := List.mem_iff_getElem.1 hst
  have hlen : (mid ++ [y]).length = mid.length + 1 := by simp
  have hmpos : 0 < mid.length := List.length_pos_iff.2 hmid
  have hsteps : ∀ j, b.steps[l1.length + 1 + j]? = (mid ++ [y])[j]? := by
    intro j
    rw [hl, List.getElem?_append_right (by omega)]
    have : l1.length + 1 + j - l1.length = j + 1 := by omega
    rw [this]; rfl
  have hbx : b.steps[l1.length]? = some x := by
    rw [hl, List.getElem?_append_right (Nat.le_refl _), Nat.sub_self]; rfl
  have hsti : b.steps[l1.length + 1 + i]? = some st := by rw [hsteps, List.getElem?_eq_getElem hi, hget]
  -- its parent
  have key : ∃ z ∈ mid ++ [y], st.parentSaid = z.result.said ∧ z.result.said ≠ st.result.said := by
    have hnd := List.pairwise_iff_getElem.1 hd
    have hne : ∀ (k : Nat) (hk : k < (mid ++ [y]).length), k ≠ i → (mid ++ [y])[k].result.said ≠ st.result.said := by
      intro k hk hki e
      rw [← hget] at e
      rcases Nat.lt_or_gt_of_ne hki with hlt | hlt
      · exact hnd k i (by simpa using hk) (by simpa using hi) hlt (by simpa only [List.getElem_map] using e)
      · exact hnd i k (by simpa using hi) (by simpa using hk) hlt (by simpa only [List.getElem_map] using e.symm)
    cases i with
    | zero =>
      refine ⟨y, by simp, ?_, ?_⟩
      · rw [h1 l1.length x st hbx hsti, hx, hy]
      · have := hne mid.length (by omega) (by omega)
        simpa using this
    | succ k =>
      have hk : k < (mid ++ [y]).length := by omega
      refine ⟨(mid ++ [y])[k], List.getElem_mem hk, ?_, hne k hk (by omega)⟩
      exact h1 (l1.length + 1 + k) _ st (by rw [hsteps, List.getElem?_eq_getElem hk]) hsti
  obtain ⟨z, hz, hzp, hzn⟩ := key
  obtain ⟨p, hold'⟩ := hh z hz
  refine ⟨st, p, hold, hr st hst, by rw [hzp, hold'.said], ?_, (hr z hz).result.said p hold'.said, ?_⟩
  · intro e
    apply hzn
    rw [hold'.said, hold.said, e]
  · rw [← hold'.said]
    exact List.mem_map_of_mem hz

end OCA
