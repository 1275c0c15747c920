import Verif.Props.Replay
import Verif.Props.Dependencies
/-!
# C70: looking up a history after any use of a facade
-/
namespace OCA

/-! ## Specification -/

/-- The last step that had this result. -/
def lastStep (ss : List BuildStep) (s : Said) : Option BuildStep := ss.reverse.find? fun st => st.result.said == some s

/-- The steps that lead to `s`: the last one with this result, before it the last one with the result it started from, and so on to one that started from nothing. -/
inductive Lineage (ss : List BuildStep) : Said → List BuildStep → Prop
  | first {s : Said} {st : BuildStep} : lastStep ss s = some st → st.parentSaid = none → Lineage ss s [st]
  | next {s p : Said} {st : BuildStep} {l : List BuildStep} : lastStep ss s = some st → st.parentSaid = some p → p ≠ s → Lineage ss p l →
      Lineage ss s (l ++ [st])

/-- `p` is what the last step with result `s` started from. -/
def ParentOf (ss : List BuildStep) (s p : Said) : Prop := ∃ st, lastStep ss s = some st ∧ st.parentSaid = some p

/-- `a` is `s`, or what it was made from, or what that was made from, ... -/
inductive AncestorOf (ss : List BuildStep) : Said → Said → Prop
  | self (s : Said) : AncestorOf ss s s
  | up {s p a : Said} : ParentOf ss s p → AncestorOf ss p a → AncestorOf ss s a

/-- The way back from `s` comes to a step that changed nothing. -/
def Stuck (ss : List BuildStep) (s : Said) : Prop := ∃ a, AncestorOf ss s a ∧ ParentOf ss a a

/-- The way back from `s` comes to steps that led away from a bundle and back to it. -/
def Circular (ss : List BuildStep) (s : Said) : Prop := ∃ a p, AncestorOf ss s a ∧ ParentOf ss a p ∧ p ≠ a ∧ AncestorOf ss p a

/-! ## What the storage holds -/

/-- The records are those of the last steps. -/
def Facade.KeepsLast (E : Env) (S : Serde) (ss : List BuildStep) (f : Facade) : Prop := ∀ s,
  (lastStep ss s = none → f.db.get .oca (opKey s) = .ok none) ∧ ∀ st, lastStep ss s = some st → f.Holds E S st s

theorem lastStep_snoc (ss : List BuildStep) (st : BuildStep) (s : Said) :
    lastStep (ss ++ [st]) s = if st.result.said = some s then some st else lastStep ss s := by
  unfold lastStep
  rw [List.reverse_append]
  show List.find? _ (st :: ss.reverse) = _
  rw [List.find?_cons]
  by_cases h : st.result.said = some s
  · simp [h]
  · have : (st.result.said == some s) = false := by simpa using h
    rw [this, if_neg h]

theorem lastStep_some {ss : List BuildStep} {s : Said} {st : BuildStep} (h : lastStep ss s = some st) : st ∈ ss ∧ st.result.said = some s := by
  unfold lastStep at h
  have h1 := List.mem_of_find?_eq_some h
  have h2 := List.find?_some h
  exact ⟨List.mem_reverse.1 h1, by simpa using h2⟩

theorem lastStep_of_mem {ss : List BuildStep} {s : Said} {st : BuildStep} (h : st ∈ ss) (hs : st.result.said = some s) : ∃ st', lastStep ss s = some st' := by
  cases hl : lastStep ss s with
  | some x => exact ⟨x, rfl⟩
  | none =>
    unfold lastStep at hl
    have := List.find?_eq_none.1 hl st (List.mem_reverse.2 h)
    simp [hs] at this

theorem keepsLast_fold {ε : Type} {E : Env} {S : Serde} (steps : List BuildStep) : ∀ {f f' : Facade} {ss : List BuildStep},
    f.KeepsLast E S ss → foldRes (Facade.buildStep E S) f steps = (.ok f' : Res ε _) → f'.KeepsLast E S (ss ++ steps) := by
  induction steps with
  | nil => intro f f' ss h hf; cases hf; rw [List.append_nil]; exact h
  | cons st t ih =>
    intro f f' ss h hf
    obtain ⟨f1, h1, h2⟩ := Res.bind_eq_ok.1 (show Res.bind _ _ = _ from hf)
    rw [show ss ++ st :: t = (ss ++ [st]) ++ t by simp]
    refine ih ?_ h2
    obtain ⟨-, -, -, x, r, hx, hop, hdb, hca, -⟩ := buildStep_effect h1
    intro s
    rw [lastStep_snoc]
    by_cases e : x = s
    · subst e
      rw [if_pos hx]
      refine ⟨(fun h => by cases h), ?_⟩
      rintro _ ⟨⟩
      exact ⟨hx, ⟨r, operationBytes_ok hop, by rw [hdb, if_pos ⟨rfl, rfl⟩]⟩, by rw [hca, if_pos rfl]⟩
    · have e' : st.result.said ≠ some s := by rw [hx]; intro h; exact e (Option.some.inj h)
      rw [if_neg e']
      have d : f1.db.get .oca (opKey s) = f.db.get .oca (opKey s) := by
        rw [hdb, if_neg]
        rintro ⟨-, h⟩
        exact e (opKey_inj h).symm
      have c : f1.cache.get .bundlesJson s = f.cache.get .bundlesJson s := by rw [hca, if_neg (Ne.symm e)]
      refine ⟨fun hn => d.trans ((h s).1 hn), fun st' hst' => ?_⟩
      obtain ⟨a1, ⟨r', a2, a3⟩, a4⟩ := (h s).2 st' hst'
      exact ⟨a1, ⟨r', a2, d.trans a3⟩, c.trans a4⟩

theorem KeepsLast_congr {E : Env} {S : Serde} {ss : List BuildStep} {f f' : Facade} (h : f.KeepsLast E S ss) (h1 : ∀ k, f'.db.get .oca k = f.db.get .oca k)
    (h2 : ∀ k, f'.cache.get .bundlesJson k = f.cache.get .bundlesJson k) : f'.KeepsLast E S ss := by
  intro s
  refine ⟨fun hn => (h1 _).trans ((h s).1 hn), fun st hst => ?_⟩
  obtain ⟨a1, ⟨r, a2, a3⟩, a4⟩ := (h s).2 st hst
  exact ⟨a1, ⟨r, a2, (h1 _).trans a3⟩, (h2 _).trans a4⟩

theorem Facade.Built.keepsLast {E : Env} {S : Serde} {f : Facade} {bs : List Build} (h : f.Built E S bs) : f.KeepsLast E S (stepsOf bs) := by
  induction h with
  | new => intro s; exact ⟨fun _ => rfl, fun st h => by cases h⟩
  | validated _ hv ih =>
    obtain ⟨_, _, _, _, -, -, -, -, h5, -, -, -, hd⟩ := validate_parts hv
    exact KeepsLast_congr ih (fun k => hd _ (by decide) k) (fun k => by rw [h5])
  | @built f0 f1 f' l Os O ls B hf hv hc hb ih =>
    obtain ⟨_, _, _, _, -, -, -, -, h5, -, -, -, hd⟩ := validate_parts hv
    have hsplit : stepsOf (l ++ [B]) = stepsOf l ++ B.steps := by simp [stepsOf]
    rw [hsplit]
    obtain ⟨s, c, g, db, _, _, hg, hr, hm⟩ := build_parts hb
    obtain ⟨m1, -, -, -, m5⟩ := buildModels_frame hm
    have h1 : g.KeepsLast E S (stepsOf l ++ B.steps) := by
      refine keepsLast_fold _ ?_ hg
      exact KeepsLast_congr ih (fun k => hd _ (by decide) k) (fun k => by show f1.cache.get _ _ = _; rw [h5])
    refine KeepsLast_congr h1 (fun k => ?_) (fun k => by rw [m1])
    rw [m5 _ (by decide)]
    rcases hr with hr | ⟨_, e⟩
    · exact addRelations_frame hr _ (by decide) _
    · rw [e]

/-- Every step can be read back, and started from nothing or from the result of an earlier step. -/
theorem Facade.Built.ordered {E : Env} {S : Serde} {f : Facade} {bs : List Build} (h : f.Built E S bs) :
    (∀ st ∈ stepsOf bs, st.Readable E ∧ st.result.said ≠ none) ∧
    ∀ pre st post, stepsOf bs = pre ++ st :: post → st.parentSaid = none ∨ ∃ st' ∈ pre, st.parentSaid = st'.result.said ∧ st'.result.said ≠ none := by
  induction h with
  | new =>
    refine ⟨fun st h => (by cases h), ?_⟩
    intro pre st post e
    cases pre <;> cases e
  | validated _ _ ih => exact ih
  | @built f0 f1 f' l Os O ls B hf hv hc hb ih =>
    have hsplit : stepsOf (l ++ [B]) = stepsOf l ++ B.steps := by simp [stepsOf]
    rw [hsplit]
    have hk := (validate_keeps hf.from'.runs.kept hv hc).1
    refine ⟨?_, ?_⟩
    · intro st hst
      rcases List.mem_append.1 hst with hst | hst
      · exact ih.1 st hst
      · obtain ⟨k1, k2, k3⟩ := hk st hst
        exact ⟨⟨k1.faithful, k1.depth, k2.storable, k2.types⟩, k3⟩
    · obtain ⟨ast, base, ast', cs, -, h2, -, h4, -⟩ := validate_parts hv
      obtain ⟨_, _, -, -, -, -, -, h0, hj, -, -⟩ := C12_successful_build E Os base _ B h4
      intro pre st post e
      by_cases hlt : pre.length < (stepsOf l).length
      · have hp : ∃ post', stepsOf l = pre ++ st :: post' := by
          have hpre : pre ++ [st] <+: stepsOf l ++ B.steps := by rw [e]; exact ⟨post, by simp⟩
          have : pre ++ [st] <+: stepsOf l := List.prefix_of_prefix_length_le hpre (List.prefix_append _ _) (by simp; omega)
          obtain ⟨post', he⟩ := this
          exact ⟨post', by rw [← he]; simp⟩
        obtain ⟨post', hp⟩ := hp
        exact ih.2 pre st post' hp
      · have hpre : ∃ p2, pre = stepsOf l ++ p2 := by
          have : stepsOf l <+: pre := List.prefix_of_prefix_length_le (l₃ := stepsOf l ++ B.steps) (List.prefix_append _ _) (by rw [e]; exact List.prefix_append _ _) (by omega)
          obtain ⟨t, ht⟩ := this
          exact ⟨t, ht.symm⟩
        obtain ⟨p2, rfl⟩ := hpre
        have hB : B.steps = p2 ++ st :: post := by
          rw [List.append_assoc] at e
          exact List.append_cancel_left e
        rcases List.eq_nil_or_concat p2 with rfl | ⟨p3, y, rfl⟩
        · have hpar := h0 st (by rw [hB]; rfl)
          cases base with
          | none => left; exact hpar
          | some b =>
            right
            obtain ⟨s, hs⟩ := checkBase_parts h2
            obtain ⟨o, ho⟩ := f0.cache.get_ok .bundlesJson s
            cases o with
            | none => unfold fetchBundle at hs; rw [ho] at hs; cases hs
            | some v =>
              obtain ⟨st', m1, m2, m3⟩ := hf.bundle_record ho
              have hr := (ih.1 st' m1).1
              rw [m3] at ho
              obtain ⟨B', g1, g2, -⟩ := fetchBundle_eq E S f0.cache _ s ho hr.result hr.types
              rw [g1] at hs
              cases hs
              have hne := (ih.1 st' m1).2
              exact ⟨st', List.mem_append_left _ m1, hpar.trans g2, hne⟩
        · right
          have e1 : B.steps[p3.length]? = some y := by rw [hB]; simp
          have e2 : B.steps[p3.length + 1]? = some st := by rw [hB]; simp
          exact ⟨y, by simp, hj _ _ _ e1 e2, (hk y (by rw [hB]; simp)).2.2⟩

/-! ## The way back -/

theorem ParentOf.unique {ss : List BuildStep} {s p q : Said} (h : ParentOf ss s p) (h' : ParentOf ss s q) : p = q := by
  obtain ⟨st, h1, h2⟩ := h
  obtain ⟨st', h3, h4⟩ := h'
  rw [h1] at h3
  cases h3
  rw [h2] at h4
  exact Option.some.inj h4

theorem AncestorOf.fixed {ss : List BuildStep} {s a : Said} (h : AncestorOf ss s a) (hs : ParentOf ss s s) : a = s := by
  induction h with
  | self => rfl
  | up hp _ ih =>
    have e := hp.unique hs
    subst e
    exact ih hs

theorem Circular.up {ss : List BuildStep} {s : Said} (h : Circular ss s) : ∃ p, ParentOf ss s p ∧ p ≠ s ∧ Circular ss p := by
  obtain ⟨a, p0, h1, h2, h3, h4⟩ := h
  cases h1 with
  | self => exact ⟨p0, h2, h3, s, p0, h4, h2, h3, h4⟩
  | @up _ p _ hp ha =>
    refine ⟨p, hp, ?_, a, p0, ha, h2, h3, h4⟩
    rintro rfl
    have e := ha.fixed hp
    subst e
    exact h3 (h2.unique hp)

theorem Stuck.up {ss : List BuildStep} {s : Said} (h : Stuck ss s) : ParentOf ss s s ∨ ∃ p, ParentOf ss s p ∧ p ≠ s ∧ ∃ a, AncestorOf ss p a ∧ ParentOf ss a a := by
  obtain ⟨a, h1, h2⟩ := h
  cases h1 with
  | self => exact .inl h2
  | @up _ p _ hp ha =>
    by_cases e : p = s
    · subst e; exact .inl hp
    · exact .inr ⟨p, hp, e, a, ha, h2⟩

theorem exists_repeat {α : Type} [DecidableEq α] (w : Nat → α) (L : List α) (h : ∀ n, w n ∈ L) : ∃ i j, i < j ∧ w i = w j := by
  apply Classical.byContradiction
  intro hc
  have hn : ((List.range (L.length + 1)).map w).Nodup := by
    rw [List.nodup_iff_pairwise_ne, List.pairwise_map]
    refine List.Pairwise.imp ?_ (List.pairwise_lt_range)
    intro i j hij e
    exact hc ⟨i, j, hij, e⟩
  have := length_le_of_nodup_subset _ L hn (by
    intro x hx
    obtain ⟨n, -, rfl⟩ := List.mem_map.1 hx
    exact h n)
  simp at this
  omega

/-- parents are results of steps -/
def ParentsKnown (ss : List BuildStep) : Prop := ∀ st ∈ ss, ∀ p, st.parentSaid = some p → ∃ st' ∈ ss, st'.result.said = some p

theorem lineage_of_ancestor {ss : List BuildStep} {s a : Said} (h : AncestorOf ss s a) (hns : ¬ Stuck ss s) : (∃ l, Lineage ss a l) → ∃ l, Lineage ss s l := by
  induction h with
  | self => exact id
  | @up s p a hp _ ih =>
    intro hl
    have hne : p ≠ s := by rintro rfl; exact hns ⟨p, .self p, hp⟩
    have hns' : ¬ Stuck ss p := fun ⟨x, h1, h2⟩ => hns ⟨x, .up hp h1, h2⟩
    obtain ⟨l, hl⟩ := ih hns' hl
    obtain ⟨st, h1, h2⟩ := hp
    exact ⟨_, .next h1 h2 hne hl⟩

theorem AncestorOf.snoc {ss : List BuildStep} {s a p : Said} (h : AncestorOf ss s a) (hp : ParentOf ss a p) : AncestorOf ss s p := by
  induction h with
  | self => exact .up hp (.self _)
  | up h1 _ ih => exact .up h1 (ih hp)

/-- Every result of a step has one of three ways back. -/
theorem way_back {ss : List BuildStep} (hk : ParentsKnown ss) {s : Said} {st : BuildStep} (hs : lastStep ss s = some st) :
    (∃ l, Lineage ss s l) ∨ Stuck ss s ∨ Circular ss s := by
  apply Classical.byContradiction
  intro hc
  have h1 : ¬ ∃ l, Lineage ss s l := fun h => hc (.inl h)
  have h2 : ¬ Stuck ss s := fun h => hc (.inr (.inl h))
  have h3 : ¬ Circular ss s := fun h => hc (.inr (.inr h))
  have hknown : ∀ a, AncestorOf ss s a → ∃ x, lastStep ss a = some x := by
    intro a ha
    have : ∀ b a, AncestorOf ss b a → (∃ x, lastStep ss b = some x) → ∃ x, lastStep ss a = some x := by
      intro b a ha
      induction ha with
      | self => exact id
      | up hp _ ih =>
        intro _
        obtain ⟨x, e1, e2⟩ := hp
        obtain ⟨y, hy, hy'⟩ := hk x (lastStep_some e1).1 _ e2
        exact ih (lastStep_of_mem hy hy')
    exact this s a ha ⟨st, hs⟩
  have hnext : ∀ a : { a // AncestorOf ss s a }, ∃ p : { a // AncestorOf ss s a }, ParentOf ss a.1 p.1 ∧ p.1 ≠ a.1 := by
    intro a
    obtain ⟨x, hx⟩ := hknown a.1 a.2
    cases hp : x.parentSaid with
    | none => exact absurd (lineage_of_ancestor a.2 h2 ⟨_, .first hx hp⟩) h1
    | some p =>
      have hpo : ParentOf ss a.1 p := ⟨x, hx, hp⟩
      refine ⟨⟨p, a.2.snoc hpo⟩, hpo, ?_⟩
      intro e
      have e : p = a.1 := e
      subst e
      exact h2 ⟨_, a.2, hpo⟩
  have hex : ∃ next : { a // AncestorOf ss s a } → { a // AncestorOf ss s a }, ∀ a, ParentOf ss a.1 (next a).1 ∧ (next a).1 ≠ a.1 :=
    ⟨fun a => Classical.choose (hnext a), fun a => Classical.choose_spec (hnext a)⟩
  obtain ⟨next, hnext⟩ := hex
  let w : Nat → { a // AncestorOf ss s a } := fun n => Nat.rec ⟨s, .self s⟩ (fun _ x => next x) n
  have hw : ∀ n, w (n + 1) = next (w n) := fun _ => rfl
  have hmem : ∀ n, some (w n).1 ∈ ss.map (·.result.said) := by
    intro n
    obtain ⟨x, hx⟩ := hknown _ (w n).2
    obtain ⟨m1, m2⟩ := lastStep_some hx
    exact List.mem_map.2 ⟨x, m1, m2⟩
  obtain ⟨i, j, hij, e⟩ := exists_repeat (fun n => some (w n).1) _ hmem
  have e : (w i).1 = (w j).1 := Option.some.inj e
  have hanc : ∀ n k, AncestorOf ss (w n).1 (w (n + k)).1 := by
    intro n k
    induction k with
    | zero => exact .self _
    | succ k ih => exact ih.snoc (hnext (w (n + k))).1
  refine h3 ⟨(w i).1, (w (i + 1)).1, (w i).2, (hnext (w i)).1, (hnext (w i)).2, ?_⟩
  have := hanc (i + 1) (j - (i + 1))
  rw [show i + 1 + (j - (i + 1)) = j by omega, ← e] at this
  exact this

/-! ## C70 -/

/-- **C70** After any use of a facade, looking up the history of any identifier goes one of four ways, and which one can be told from the steps that were built:
it is refused if no step had that result; it gives the steps of the lineage of `s`, if there is one; it is refused as malformed if the way back comes to a step that changed nothing;
it never ends if the way back leads round in a circle. There is no fifth. -/
theorem C70_lookup (E : Env) (S : Serde) (hv : E.validSaid [] = false) (f : Facade) (bs : List Build) (h : f.Built E S bs) (s : Said) :
    (lastStep (stepsOf bs) s = none → ∀ fuel, f.steps E S (fuel + 1) s = some (.err [c!"No history found for said: " ++ s])) ∧
    (∀ l, Lineage (stepsOf bs) s l → ∃ l', f.HasHistory E S s l' ∧ l'.map (BuildStep.shown E) = l.map (BuildStep.shown E) ∧ l'.map (·.command) = l.map (·.command)) ∧
    (Stuck (stepsOf bs) s → ∃ n, ∀ fuel, n ≤ fuel → f.steps E S fuel s = some (.err [c!"Malformed history"])) ∧
    (Circular (stepsOf bs) s → ∀ fuel, f.steps E S fuel s = none) ∧
    (lastStep (stepsOf bs) s = none ∨ (∃ l, Lineage (stepsOf bs) s l) ∨ Stuck (stepsOf bs) s ∨ Circular (stepsOf bs) s) := by
  obtain ⟨hread, hord⟩ := h.ordered
  have hk := h.keepsLast
  have hknown : ParentsKnown (stepsOf bs) := by
    intro st hst p hp
    obtain ⟨pre, post, e⟩ := List.append_of_mem hst
    rcases hord pre st post e with h0 | ⟨st', h1, h2, -⟩
    · rw [hp] at h0; cases h0
    · exact ⟨st', by rw [e]; exact List.mem_append_left _ h1, h2.symm.trans hp⟩
  have hvalid : ∀ st ∈ stepsOf bs, ∀ p, st.parentSaid = some p → E.validSaid p = true := by
    intro st hst p hp
    obtain ⟨st', h1, h2⟩ := hknown st hst p hp
    exact (hread st' h1).1.result.said p h2
  have hsv : ∀ st s, lastStep (stepsOf bs) s = some st → s ≠ [] := by
    rintro st s hst rfl
    obtain ⟨m1, m2⟩ := lastStep_some hst
    have := (hread st m1).1.result.said [] m2
    rw [hv] at this; cases this
  -- a round that goes on
  have round : ∀ (s : Said) (st : BuildStep), lastStep (stepsOf bs) s = some st → st.parentSaid ≠ some s →
      ∃ st', st'.shown E = st.shown E ∧ st'.command = st.command ∧ ∀ fuel acc, stepsLoop E S f (fuel + 1) s acc =
        if st.parentSaid = none then some (.ok (st' :: acc)) else stepsLoop E S f fuel (st.parentSaid.getD []) (st' :: acc) := by
    intro s st hst hne
    obtain ⟨m1, m2⟩ := lastStep_some hst
    refine stepsLoop_round E S f st s ((hk s).2 st hst) (hread st m1).1 ?_ (hvalid st m1) hv
    cases hp : st.parentSaid with
    | none => exact (hsv st s hst).symm
    | some p => rw [hp] at hne; exact fun e => hne (congrArg some e)
  have self : ∀ s fuel acc, ParentOf (stepsOf bs) s s → stepsLoop E S f (fuel + 1) s acc = some (.err [c!"Malformed history"]) := by
    rintro s fuel acc ⟨st, h1, h2⟩
    obtain ⟨m1, m2⟩ := lastStep_some h1
    rw [stepsLoop, extractOperation_eq E S f st s ((hk s).2 st h1) (hread st m1).1, h2]
    simp
  refine ⟨?_, ?_, ?_, ?_, ?_⟩
  · intro hn fuel
    unfold Facade.steps
    rw [stepsLoop]
    unfold extractOperation
    rw [(hk s).1 hn]
  · intro l hl
    induction hl with
    | @first s st h1 h2 =>
      obtain ⟨st', e1, e2, e3⟩ := round s st h1 (by rw [h2]; intro h; cases h)
      refine ⟨[st'], ?_, by simp [e1], by simp [e2]⟩
      intro fuel hf
      obtain ⟨n, rfl⟩ : ∃ n, fuel = n + 1 := ⟨fuel - 1, by simp at hf; omega⟩
      show stepsLoop E S f (n + 1) s [] = _
      rw [e3, if_pos h2]
    | @next s p st l h1 h2 hne _ ih =>
      obtain ⟨l', i1, i2, i3⟩ := ih
      obtain ⟨st', e1, e2, e3⟩ := round s st h1 (by rw [h2]; intro h; exact hne (Option.some.inj h))
      refine ⟨l' ++ [st'], ?_, by simp [i2, e1], by simp [i3, e2]⟩
      intro fuel hf
      obtain ⟨n, rfl⟩ : ∃ n, fuel = n + 1 := ⟨fuel - 1, by simp at hf; omega⟩
      show stepsLoop E S f (n + 1) s [] = _
      rw [e3, if_neg (by rw [h2]; intro h; cases h), h2]
      exact stepsLoop_acc (i1 n (by simp at hf; omega))
  · rintro ⟨a, ha, haa⟩
    suffices hh : ∃ n, ∀ fuel acc, n ≤ fuel → stepsLoop E S f fuel s acc = some (.err [c!"Malformed history"]) by
      obtain ⟨n, hn⟩ := hh
      exact ⟨n, fun fuel hf => hn fuel [] hf⟩
    induction ha with
    | self s =>
      refine ⟨1, fun fuel acc hf => ?_⟩
      obtain ⟨n, rfl⟩ : ∃ n, fuel = n + 1 := ⟨fuel - 1, by omega⟩
      exact self _ _ _ haa
    | @up s p a hp _ ih =>
      by_cases e : p = s
      · subst e
        refine ⟨1, fun fuel acc hf => ?_⟩
        obtain ⟨n, rfl⟩ : ∃ n, fuel = n + 1 := ⟨fuel - 1, by omega⟩
        exact self _ _ _ hp
      · obtain ⟨n, hn⟩ := ih haa
        obtain ⟨st, h1, h2⟩ := hp
        obtain ⟨st', -, -, e3⟩ := round s st h1 (by rw [h2]; intro h; exact e (Option.some.inj h))
        refine ⟨n + 1, fun fuel acc hf => ?_⟩
        obtain ⟨m, rfl⟩ : ∃ m, fuel = m + 1 := ⟨fuel - 1, by omega⟩
        rw [e3, if_neg (by rw [h2]; intro h; cases h), h2]
        exact hn m _ (by omega)
  · intro hc fuel
    suffices hh : ∀ fuel s acc, Circular (stepsOf bs) s → stepsLoop E S f fuel s acc = none from hh fuel s [] hc
    intro fuel
    induction fuel with
    | zero => intros; rfl
    | succ n ih =>
      intro s acc hc
      obtain ⟨p, ⟨st, h1, h2⟩, hne, hc'⟩ := hc.up
      obtain ⟨st', -, -, e3⟩ := round s st h1 (by rw [h2]; intro h; exact hne (Option.some.inj h))
      rw [e3, if_neg (by rw [h2]; intro h; cases h), h2]
      exact ih p _ hc'
  · cases hl : lastStep (stepsOf bs) s with
    | none => exact .inl rfl
    | some st => exact .inr (way_back hknown hl)

/-- **C70** So a history is reported exactly for the identifiers with a lineage, and it is that lineage. -/
theorem C70_reported (E : Env) (S : Serde) (hv : E.validSaid [] = false) (f : Facade) (bs : List Build) (h : f.Built E S bs) (s : Said) :
    (∀ fuel l', f.steps E S fuel s = some (.ok l') → ∃ l, Lineage (stepsOf bs) s l ∧ l'.map (BuildStep.shown E) = l.map (BuildStep.shown E)) ∧
    ((∃ fuel l', f.steps E S fuel s = some (.ok l')) ↔ ∃ l, Lineage (stepsOf bs) s l) ∧
    ((∃ fuel, f.steps E S fuel s = some (.err [c!"Malformed history"])) ↔ Stuck (stepsOf bs) s) ∧
    ((∀ fuel, f.steps E S fuel s = none) ↔ Circular (stepsOf bs) s) ∧
    ∀ fuel, f.steps E S fuel s ≠ some .panic := by
  obtain ⟨c1, c2, c3, c4, c5⟩ := C70_lookup E S hv f bs h s
  have more : ∀ fuel n acc s r, stepsLoop E S f fuel s acc = some r → stepsLoop E S f (fuel + n) s acc = some r := by
    intro fuel
    induction fuel with
    | zero => intro n acc s r h; cases h
    | succ m ih =>
      intro n acc s r h
      rw [show m + 1 + n = (m + n) + 1 by omega]
      rw [stepsLoop] at h ⊢
      cases he : extractOperation E S f.db s with
      | err e => rw [he] at h; exact h
      | panic => rw [he] at h; exact h
      | ok pc =>
        obtain ⟨p, c⟩ := pc
        rw [he] at h
        dsimp only at h ⊢
        split
        · next e => rw [if_pos e] at h; exact h
        · next e =>
          rw [if_neg e] at h
          split
          · next e' => rw [if_pos e'] at h; exact h
          · next e' =>
            rw [if_neg e'] at h
            cases hb : fetchBundle E S f.cache s with
            | ok b =>
              rw [hb] at h
              dsimp only at h ⊢
              split
              · next e'' => rw [if_pos e''] at h; exact h
              · next e'' => rw [if_neg e''] at h; exact ih n _ _ _ h
            | err e => rw [hb] at h; exact h
            | panic => rw [hb] at h; exact h
  have one : ∀ fuel fuel' r r', f.steps E S fuel s = some r → f.steps E S fuel' s = some r' → r = r' := by
    intro fuel fuel' r r' h1 h2
    have a := more fuel fuel' [] s r h1
    have b := more fuel' fuel [] s r' h2
    rw [show fuel' + fuel = fuel + fuel' by omega, a] at b
    exact Option.some.inj b
  have stuckErr : [c!"No history found for said: " ++ s] ≠ [c!"Malformed history"] := by
    intro e
    have e := (List.cons.inj e).1
    have := congrArg (fun x => x.head?) e
    simp at this
  have ok_lin : ∀ fuel l', f.steps E S fuel s = some (.ok l') → ∃ l, Lineage (stepsOf bs) s l ∧ l'.map (BuildStep.shown E) = l.map (BuildStep.shown E) := by
    intro fuel l' hs
    rcases c5 with hn | ⟨l, hl⟩ | hst | hci
    · cases one _ _ _ _ hs (c1 hn 0)
    · obtain ⟨l2, g1, g2, -⟩ := c2 l hl
      cases one _ _ _ _ hs (g1 _ (Nat.le_refl _))
      exact ⟨l, hl, g2⟩
    · obtain ⟨n, hn⟩ := c3 hst
      cases one _ _ _ _ hs (hn n (Nat.le_refl _))
    · rw [c4 hci] at hs; cases hs
  refine ⟨ok_lin, ⟨fun ⟨fuel, l', hs⟩ => ?_, fun ⟨l, hl⟩ => ?_⟩, ⟨fun ⟨fuel, hs⟩ => ?_, fun hs => ?_⟩, ⟨fun hs => ?_, c4⟩, fun fuel hs => ?_⟩
  · obtain ⟨l, hl, -⟩ := ok_lin fuel l' hs
    exact ⟨l, hl⟩
  · obtain ⟨l2, g1, -⟩ := c2 l hl
    exact ⟨_, _, g1 _ (Nat.le_refl _)⟩
  · rcases c5 with hn | ⟨l, hl⟩ | hst | hci
    · exact absurd (Res.err.inj (one _ _ _ _ (c1 hn 0) hs)) stuckErr
    · obtain ⟨l2, g1, g2, -⟩ := c2 l hl
      cases one _ _ _ _ hs (g1 _ (Nat.le_refl _))
    · exact hst
    · rw [c4 hci] at hs; cases hs
  · obtain ⟨n, hn⟩ := c3 hs
    exact ⟨n, hn n (Nat.le_refl _)⟩
  · rcases c5 with hn | ⟨l, hl⟩ | hst | hci
    · have := c1 hn 0
      rw [hs] at this; cases this
    · obtain ⟨l2, g1, g2, -⟩ := c2 l hl
      have := g1 _ (Nat.le_refl _)
      rw [hs] at this; cases this
    · obtain ⟨n, hn⟩ := c3 hst
      have := hn n (Nat.le_refl _)
      rw [hs] at this; cases this
    · exact hci
  · rcases c5 with hn | ⟨l, hl⟩ | hst | hci
    · cases one _ _ _ _ hs (c1 hn 0)
    · obtain ⟨l2, g1, g2, -⟩ := c2 l hl
      cases one _ _ _ _ hs (g1 _ (Nat.le_refl _))
    · obtain ⟨n, hn⟩ := c3 hst
      cases one _ _ _ _ hs (hn n (Nat.le_refl _))
    · rw [c4 hci] at hs; cases hs

/-- **C70** If steps with the same result always started from the same (which is so when no result comes up twice, or only because files are built again), every result of a step has a
history. -/
theorem C70_always (E : Env) (S : Serde) (hv : E.validSaid [] = false) (f : Facade) (bs : List Build) (h : f.Built E S bs)
    (hsame : ∀ st ∈ stepsOf bs, ∀ st' ∈ stepsOf bs, st.result.said = st'.result.said → st.parentSaid = st'.parentSaid)
    (st : BuildStep) (hst : st ∈ stepsOf bs) (s : Said) (hs : st.result.said = some s) : ∃ l, Lineage (stepsOf bs) s l ∧ ∃ l', f.HasHistory E S s l' := by
  obtain ⟨hread, hord⟩ := h.ordered
  suffices hl : ∃ l, Lineage (stepsOf bs) s l by
    obtain ⟨l, hl⟩ := hl
    obtain ⟨l', h1, -⟩ := (C70_lookup E S hv f bs h s).2.1 l hl
    exact ⟨l, hl, l', h1⟩
  obtain ⟨pre, post, e⟩ := List.append_of_mem hst
  suffices hh : ∀ n pre st post, stepsOf bs = pre ++ st :: post → pre.length < n → ∀ s, st.result.said = some s → (∀ st' ∈ pre, st'.result.said ≠ some s) → ∃ l, Lineage (stepsOf bs) s l by
    -- the first step with this result
    have hfirst : ∀ (l : List BuildStep), (∃ x ∈ l, x.result.said = some s) → ∃ pre st post, l = pre ++ st :: post ∧ st.result.said = some s ∧ ∀ y ∈ pre, y.result.said ≠ some s := by
      intro l
      induction l with
      | nil => rintro ⟨x, hx, -⟩; cases hx
      | cons a t ih =>
        intro hx
        by_cases ha : a.result.said = some s
        · exact ⟨[], a, t, rfl, ha, fun y hy => by cases hy⟩
        · obtain ⟨x, hx, hxs⟩ := hx
          rcases List.mem_cons.1 hx with rfl | hx
          · exact absurd hxs ha
          · obtain ⟨pre, st, post, e1, e2, e3⟩ := ih ⟨x, hx, hxs⟩
            refine ⟨a :: pre, st, post, by rw [e1]; rfl, e2, ?_⟩
            intro y hy
            rcases List.mem_cons.1 hy with rfl | hy
            · exact ha
            · exact e3 y hy
    obtain ⟨pre', st', post', e1, e2, e3⟩ := hfirst _ ⟨st, hst, hs⟩
    exact hh _ pre' st' post' e1 (Nat.lt_succ_self _) s e2 e3
  intro n
  induction n with
  | zero => intro _ _ _ _ h; omega
  | succ n ih =>
    intro pre st post e hlen s hs hfree
    have hmem : st ∈ stepsOf bs := by rw [e]; simp
    obtain ⟨last, hlast⟩ := lastStep_of_mem hmem hs
    obtain ⟨m1, m2⟩ := lastStep_some hlast
    have hpar : last.parentSaid = st.parentSaid := hsame last m1 st hmem (m2.trans hs.symm)
    rcases hord pre st post e with h0 | ⟨st', h1, h2, h3⟩
    · exact ⟨_, .first hlast (hpar.trans h0)⟩
    · obtain ⟨p, hp⟩ := Option.ne_none_iff_exists'.1 h3
      have hne : p ≠ s := by rintro rfl; exact hfree st' h1 hp
      have hfirst : ∀ (l : List BuildStep), (∃ x ∈ l, x.result.said = some p) → ∃ pre st post, l = pre ++ st :: post ∧ st.result.said = some p ∧ ∀ y ∈ pre, y.result.said ≠ some p := by
        intro l
        induction l with
        | nil => rintro ⟨x, hx, -⟩; cases hx
        | cons a t ih =>
          intro hx
          by_cases ha : a.result.said = some p
          · exact ⟨[], a, t, rfl, ha, fun y hy => by cases hy⟩
          · obtain ⟨x, hx, hxs⟩ := hx
            rcases List.mem_cons.1 hx with rfl | hx
            · exact absurd hxs ha
            · obtain ⟨pre, st, post, e1, e2, e3⟩ := ih ⟨x, hx, hxs⟩
              refine ⟨a :: pre, st, post, by rw [e1]; rfl, e2, ?_⟩
              intro y hy
              rcases List.mem_cons.1 hy with rfl | hy
              · exact ha
              · exact e3 y hy
      obtain ⟨pre', st2, post', e1, e2, e3⟩ := hfirst pre ⟨st', h1, hp⟩
      have hlen' : pre'.length < n := by
        have := congrArg List.length e1
        simp at this
        omega
      obtain ⟨l, hl⟩ := ih pre' st2 (post' ++ st :: post) (by rw [e, e1]; simp) hlen' p e2 e3
      exact ⟨_, .next hlast (hpar.trans (h2.trans hp)) hne hl⟩

end OCA
