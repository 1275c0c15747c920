import Verif.Props.Threads
import Verif.Props.CrashExample
import Verif.Props.DagBuildExample
/-! C84: two threads that store files with the same capture base. -/
namespace OCA

/-! ## Computing a schedule -/

/-- The threads take turns as the list of their numbers says; a thread that is done is passed over. -/
def Thr.go : List Nat → Facade → List (Thr Unit) → Facade × List (Thr Unit)
  | [], f, ts => (f, ts)
  | i :: is, f, ts => match ts[i]? with
    | none => go is f ts
    | some t => match t.step f with
      | none => go is f ts
      | some (f', t') => go is f' (ts.set i t')

theorem Thr.go_interleaved {f0 : Facade} {ts0 : List (Thr Unit)} (is : List Nat) : ∀ {f : Facade} {ts : List (Thr Unit)}, Interleaved f0 ts0 f ts →
    Interleaved f0 ts0 (Thr.go is f ts).1 (Thr.go is f ts).2 := by
  induction is with
  | nil => exact fun h => h
  | cons i is ih =>
    intro f ts h
    unfold Thr.go
    split
    · exact ih h
    · next t e =>
      split
      · exact ih h
      · next f' t' e' =>
        obtain ⟨hlt, e⟩ := List.getElem?_eq_some_iff.1 e
        refine ih ?_
        have h1 : ts = ts.take i ++ t :: ts.drop (i + 1) := by
          rw [← e, ← List.drop_eq_getElem_cons hlt, List.take_append_drop]
        have h2 : ts.set i t' = ts.take i ++ t' :: ts.drop (i + 1) := by
          rw [List.set_eq_take_append_cons_drop, if_pos hlt]
        rw [h2]
        rw [h1] at h
        exact .step h e'

/-! ## Equal JSON, by computation -/

mutual
def Json.eqB : Json → Json → Bool
  | .null, .null => true
  | .bool a, .bool b => a == b
  | .num a, .num b => a == b
  | .str a, .str b => a == b
  | .arr a, .arr b => Json.eqArr a b
  | .obj a, .obj b => Json.eqObj a b
  | _, _ => false
def Json.eqArr : List Json → List Json → Bool
  | [], [] => true
  | a :: l, b :: m => Json.eqB a b && Json.eqArr l m
  | _, _ => false
def Json.eqObj : List (Str × Json) → List (Str × Json) → Bool
  | [], [] => true
  | (k, a) :: l, (k', b) :: m => k == k' && Json.eqB a b && Json.eqObj l m
  | _, _ => false
end

mutual
theorem Json.eqB_sound : ∀ a b : Json, Json.eqB a b = true → a = b
  | .null, b, h => by cases b <;> first | rfl | cases h
  | .bool x, b, h => by
    cases b with
    | bool y => rw [eq_of_beq (show (x == y) = true from h)]
    | _ => cases h
  | .num x, b, h => by
    cases b with
    | num y => rw [eq_of_beq (show (x == y) = true from h)]
    | _ => cases h
  | .str x, b, h => by
    cases b with
    | str y => rw [eq_of_beq (show (x == y) = true from h)]
    | _ => cases h
  | .arr l, b, h => by
    cases b with
    | arr m => rw [Json.eqArr_sound l m h]
    | _ => cases h
  | .obj l, b, h => by
    cases b with
    | obj m => rw [Json.eqObj_sound l m h]
    | _ => cases h
theorem Json.eqArr_sound : ∀ a b : List Json, Json.eqArr a b = true → a = b
  | [], b, h => by cases b <;> first | rfl | cases h
  | x :: l, b, h => by
    cases b with
    | nil => cases h
    | cons y m =>
      replace h : (Json.eqB x y && Json.eqArr l m) = true := h
      rw [Bool.and_eq_true] at h
      rw [Json.eqB_sound x y h.1, Json.eqArr_sound l m h.2]
theorem Json.eqObj_sound : ∀ a b : List (Str × Json), Json.eqObj a b = true → a = b
  | [], b, h => by cases b <;> first | rfl | cases h
  | (k, x) :: l, b, h => by
    cases b with
    | nil => cases h
    | cons y m =>
      obtain ⟨k', y⟩ := y
      replace h : (k == k' && Json.eqB x y && Json.eqObj l m) = true := h
      simp only [Bool.and_eq_true] at h
      rw [eq_of_beq h.1.1, Json.eqB_sound x y h.1.2, Json.eqObj_sound l m h.2]
end

/-! ## The two files -/

/-- the two attributes both files have -/
def sharedAttrs : Command := addAttrs [(c!"a", .val .text), (c!"b", .val .numeric)]

def fileOne : List Command := [sharedAttrs, addOv .label [(c!"lang", .val c!"en")] [(c!"a", .val c!"Name")],
  addOv .metaOv [(c!"lang", .val c!"en"), (c!"name", .val c!"Person")] []]
def fileTwo : List Command := [sharedAttrs, addOv .label [(c!"lang", .val c!"fr")] [(c!"a", .val c!"Nom")]]

/-- the two threads' jobs -/
def twoJobs : Option (Job × Job) :=
  match fromAst Env.tight sortedOrders none (astOf fileOne), fromAst Env.tight sortedOrders none (astOf fileTwo) with
  | .ok b, .ok c => some (⟨some c!"person", b, .kept⟩, ⟨none, c, .kept⟩)
  | _, _ => none

/-- the objects of a step, as they are recorded -/
def BuildStep.objectList (st : BuildStep) : List (Said × Json) :=
  (match st.result.captureBase.said with
    | some s => [(s, st.result.captureBase.toJson)]
    | none => []) ++ st.result.overlays.filterMap fun o => o.said.map fun s => (s, o.toJson)

theorem BuildStep.Object.listed {st : BuildStep} {s : Said} {v : Json} (h : st.Object s v) : (s, v) ∈ st.objectList := by
  unfold BuildStep.objectList
  cases h with
  | base h => rw [h]; exact List.mem_append_left _ (.head _)
  | overlay ho h => exact List.mem_append_right _ (List.mem_filterMap.2 ⟨_, ho, by rw [h]; rfl⟩)

/-- the identifiers and kinds of a bundle -/
def Bundle.kindList (b : Bundle) : List (Said × Nat) :=
  (b.said.toList.map fun s => (s, 1)) ++ (b.captureBase.said.toList.map fun s => (s, 0)) ++
    b.overlays.filterMap fun o => o.said.map fun s => (s, o.body.kind.code)

theorem has_listed {b : Bundle} {x : Said} {k : Nat} (h : b.Has x k) : (x, k) ∈ b.kindList := by
  unfold Bundle.kindList
  cases h with
  | bundle h => rw [h]; exact List.mem_append_left _ (List.mem_append_left _ (.head _))
  | base h => rw [h]; exact List.mem_append_left _ (List.mem_append_right _ (.head _))
  | overlay ho h => exact List.mem_append_right _ (List.mem_filterMap.2 ⟨_, ho, by rw [h]; rfl⟩)

/-- two jobs do not contradict each other -/
def agreeB (E : Env) (i j : Job) : Bool :=
  (i.build.steps.all fun a => j.build.steps.all fun b => (!decide (a.result.said = b.result.said) ||
    (decide (a.parentSaid = b.parentSaid) && Json.eqB a.command.toJson b.command.toJson && decide (a.result = b.result))) &&
    a.objectList.all fun p => b.objectList.all fun q => !decide (p.1 = q.1) || Json.eqB p.2 q.2) &&
  (!decide (i.build.bundle.said = j.build.bundle.said) || decide (i.build.bundle = j.build.bundle)) &&
  (!decide (i.build.bundle.captureBase.said = j.build.bundle.captureBase.said) || decide (i.build.bundle.captureBase = j.build.bundle.captureBase)) &&
  (!decide (i.build.bundle.said = j.build.bundle.said) || i.build.bundle.overlays.all fun o => j.build.bundle.overlays.all fun o' =>
    !decide (o.body.language = o'.body.language) || !decide (o.body.kind = .metaOv) || !decide (o'.body.kind = .metaOv) || decide (o.body = o'.body)) &&
  (i.name.isNone || !decide (i.name = j.name) || decide (i.build.bundle.said = j.build.bundle.said)) &&
  i.build.bundle.kindList.all fun p => j.build.bundle.kindList.all fun q => !decide (p.1 = q.1) || decide (p.2 = q.2)

theorem or_of_not {P : Prop} [Decidable P] {b : Bool} (h : (!decide P || b) = true) (hp : P) : b = true := by
  rw [decide_eq_true hp] at h
  exact h

/-- `agreeB` of every two jobs is all that `Agree` and `Jobs` ask of several jobs together. -/
theorem agreeB_sound {E : Env} {J : List Job} (h : ∀ i ∈ J, ∀ j ∈ J, agreeB E i j = true) : Agree E J ∧
    ∀ i ∈ J, ∀ j ∈ J, ∀ x k k', i.build.bundle.Has x k → j.build.bundle.Has x k' → k = k' := by
  have key : ∀ i ∈ J, ∀ j ∈ J, _ := fun i hi j hj => by
    have := h i hi j hj
    unfold agreeB at this
    simp only [Bool.and_eq_true] at this
    exact this
  have st : ∀ i ∈ J, ∀ j ∈ J, ∀ a ∈ i.build.steps, ∀ b ∈ j.build.steps, _ := fun i hi j hj a ha b hb => by
    have := List.all_eq_true.1 (List.all_eq_true.1 (key i hi j hj).1.1.1.1.1 a ha) b hb
    rw [Bool.and_eq_true] at this
    exact this
  refine ⟨⟨?_, ?_, ?_, ?_, ?_, ?_⟩, ?_⟩
  · intro i hi j hj a ha b hb e
    have := or_of_not (st i hi j hj a ha b hb).1 e
    simp only [Bool.and_eq_true, decide_eq_true_eq] at this
    exact ⟨this.1.1, Json.eqB_sound _ _ this.1.2, by rw [this.2]⟩
  · intro i hi j hj a ha b hb s v w hv hw
    exact Json.eqB_sound _ _ (or_of_not (List.all_eq_true.1 (List.all_eq_true.1 (st i hi j hj a ha b hb).2 _ hv.listed) _ hw.listed) rfl)
  · intro i hi j hj e
    rw [of_decide_eq_true (or_of_not (key i hi j hj).1.1.1.1.2 e)]
  · intro i hi j hj e
    rw [of_decide_eq_true (or_of_not (key i hi j hj).1.1.1.2 e)]
  · intro i hi j hj s e e' o ho o' ho' r r' hr hr' hl
    have := List.all_eq_true.1 (List.all_eq_true.1 (or_of_not (key i hi j hj).1.1.2 (e.trans e'.symm)) o ho) o' ho'
    rw [metaRow_kind hr, metaRow_kind hr'] at this
    have hle : o.body.language = o'.body.language := by
      cases hb : o.body <;> rw [hb] at hr <;> first | (cases hr; done) | skip
      cases hb' : o'.body <;> rw [hb'] at hr' <;> first | (cases hr'; done) | skip
      cases hr
      cases hr'
      exact congrArg some hl
    rw [hle] at this
    simp only [decide_true, Bool.not_true, Bool.false_or, decide_eq_true_eq] at this
    rw [this, hr'] at hr
    exact (Option.some.inj hr).symm
  · intro i hi j hj n e e'
    have := (key i hi j hj).1.2
    rw [e, e'] at this
    simpa using this
  · intro i hi j hj x k k' hk hk'
    exact of_decide_eq_true (or_of_not (List.all_eq_true.1 (List.all_eq_true.1 (key i hi j hj).2 _ (has_listed hk)) _ (has_listed hk')) rfl)

/-- what is to be checked of the two jobs -/
def twoCheck : Bool := match twoJobs with
  | some (i, j) => agreeB Env.tight i i && agreeB Env.tight i j && agreeB Env.tight j i && agreeB Env.tight j j &&
      decide i.build.bundle.saids.Nodup && decide j.build.bundle.saids.Nodup && decide (i.build.bundle.captureBase.said = j.build.bundle.captureBase.said) &&
      decide (i.build.bundle.said ∉ j.build.bundle.saids)
  | none => false

/-- the two threads after the turns that the list says -/
def twoRun (is : List Nat) (i j : Job) : Facade × List (Thr Unit) :=
  Thr.go is Facade.new ([[i], [j]].map (threadT Env.tight Serde.text))

def Thr.isDone : Thr Unit → Bool
  | .done _ => true
  | _ => false

theorem Thr.isDone_sound {t : Thr Unit} (h : t.isDone = true) : ∃ r, t = .done r := by
  cases t with
  | done r => exact ⟨r, rfl⟩
  | _ => cases h

/-- both threads are done, and whether the second's bundle is among the relations of the capture base -/
def twoEnd (is : List Nat) (seen : Bool) : Bool := match twoJobs with
  | none => false
  | some (i, j) => (twoRun is i j).2.all Thr.isDone &&
    match i.build.bundle.captureBase.said, j.build.bundle.said with
    | some c, some b => c != b && match explore (twoRun is i j).1.db c with
      | .ok (some l) => l.contains (b, 1) == seen
      | _ => false
    | _, _ => false

/-- the threads take turns -/
def turnAbout : Nat → List Nat
  | 0 => []
  | n + 1 => 0 :: 1 :: turnAbout n

/-- whether the second's bundle is among the relations of the capture base when the jobs are stored one after the other -/
def twoSeq : Bool := match twoJobs with
  | none => false
  | some (i, j) => match foldRes (Facade.store Env.tight Serde.text) Facade.new [i, j] with
    | .ok f => match i.build.bundle.captureBase.said, j.build.bundle.said with
      | some c, some b => match explore f.db c with
        | .ok (some l) => l.contains (b, 1)
        | _ => false
      | _, _ => false
    | _ => false

set_option maxRecDepth 20000 in
theorem two_check : twoCheck = true := by decide +kernel

set_option maxRecDepth 20000 in
theorem two_end : twoEnd (turnAbout 50) false = true := by decide +kernel

set_option maxRecDepth 20000 in
theorem two_seq : twoSeq = true := by decide +kernel

theorem twoJobs_fine {i j : Job} (h : twoJobs = some (i, j)) : Jobs Env.tight [[i], [j]] ∧ Agree Env.tight [i, j] ∧
    i.build.bundle.captureBase.said = j.build.bundle.captureBase.said ∧ i.build.bundle.said ∉ j.build.bundle.saids := by
  have hc := two_check
  unfold twoCheck at hc
  rw [h] at hc
  simp only [Bool.and_eq_true, decide_eq_true_eq] at hc
  obtain ⟨⟨⟨⟨⟨⟨⟨h1, h2⟩, h3⟩, h4⟩, h5⟩, h6⟩, h7⟩, h8⟩ := hc
  have hb : ∀ x ∈ [i, j], ∀ y ∈ [i, j], agreeB Env.tight x y = true := by
    intro x hx y hy
    simp only [List.mem_cons, List.not_mem_nil, or_false] at hx hy
    rcases hx with rfl | rfl <;> rcases hy with rfl | rfl <;> assumption
  have hm : i.build.Made Env.tight ∧ j.build.Made Env.tight := by
    unfold twoJobs at h
    split at h
    · next b c e e' =>
      cases h
      exact ⟨⟨_, _, _, e, (fun s e => by cases e)⟩, ⟨_, _, _, e', (fun s e => by cases e)⟩⟩
    · cases h
  obtain ⟨ha, hk⟩ := agreeB_sound hb
  refine ⟨⟨?_, ?_, hk⟩, ha, h7, h8⟩
  · intro x hx
    simp only [List.flatten, List.append, List.cons_append, List.nil_append, List.mem_cons, List.not_mem_nil, or_false] at hx
    rcases hx with rfl | rfl
    · exact hm.1
    · exact hm.2
  · intro x hx
    simp only [List.flatten, List.append, List.cons_append, List.nil_append, List.mem_cons, List.not_mem_nil, or_false] at hx
    rcases hx with rfl | rfl
    · exact h5
    · exact h6

/-- **C84** The relations that two threads' bundles share can be lost, and that is why the exact relations are claimed only for the objects of one
thread. Two threads, each storing one file, the two files with the same capture base: they take turns, read for read and write for write, and when both
are done, without any error, the capture base is not related to the second file's bundle, though that bundle has it; after the same two jobs one after
the other it is. (The jobs meet all that the theorems of C84 ask of jobs.) -/
theorem C84_lost_relation : ∃ (i j : Job) (g f' : Facade) (us : List (Thr Unit)) (c b : Said) (l l' : List RelObj),
    Jobs Env.tight [[i], [j]] ∧ Agree Env.tight [[i], [j]].flatten ∧
    Interleaved Facade.new ([[i], [j]].map (threadT Env.tight Serde.text)) g us ∧ (∀ u ∈ us, u = .done (.ok ())) ∧
    j.build.bundle.Relates c (b, 1) ∧ explore g.db c = .ok (some l) ∧ (b, 1) ∉ l ∧
    foldRes (Facade.store Env.tight Serde.text) Facade.new [i, j] = .ok f' ∧ explore f'.db c = .ok (some l') ∧ (b, 1) ∈ l' := by
  have he := two_end
  have hs := two_seq
  unfold twoEnd at he
  unfold twoSeq at hs
  cases h : twoJobs with
  | none => rw [h] at he; cases he
  | some p =>
    obtain ⟨i, j⟩ := p
    rw [h] at he hs
    dsimp only at he hs
    rw [Bool.and_eq_true] at he
    obtain ⟨hd, he⟩ := he
    obtain ⟨hj, ha, hcc, hbb⟩ := twoJobs_fine h
    have hi : Interleaved Facade.new ([[i], [j]].map (threadT Env.tight Serde.text)) (twoRun (turnAbout 50) i j).1 (twoRun (turnAbout 50) i j).2 :=
      Thr.go_interleaved _ .start
    split at hs
    · next f' hf' =>
      split at hs
      · next c b hc hb =>
        rw [hc, hb] at he
        dsimp only at he
        rw [Bool.and_eq_true] at he
        obtain ⟨hne, he⟩ := he
        split at he
        · next l hl =>
          split at hs
          · next l' hl' =>
            refine ⟨i, j, _, f', _, c, b, l, l', hj, ha, hi, ?_, ?_, hl, ?_, hf', hl', ?_⟩
            · intro u hu
              obtain ⟨r, rfl⟩ := Thr.isDone_sound (List.all_eq_true.1 hd u hu)
              rw [C84_no_thread_fails _ tight_short _ _ _ [] .new _ hj _ hi r hu]
            · refine ⟨?_, .bundle hb, ⟨0, .base (hcc ▸ hc)⟩, .inr (.inl (hcc ▸ hc))⟩
              rintro rfl
              simp at hne
            · intro hm
              have : l.contains (b, 1) = true := by simpa using hm
              rw [this] at he
              cases he
            · simpa using hs
          · cases hs
        · cases he
      · cases hs
    · cases hs

/-- Such a case as C84 speaks of: the two jobs above, both threads done after they took turns, and an object of the first thread's bundle only. -/
theorem C84_example : ∃ (i j : Job) (g : Facade) (us : List (Thr Unit)) (x : Said), Jobs Env.tight [[i], [j]] ∧ Agree Env.tight [[i], [j]].flatten ∧
    Interleaved Facade.new ([[i], [j]].map (threadT Env.tight Serde.text)) g us ∧ (∀ u ∈ us, ∃ r, u = .done r) ∧
    i.build.bundle.said = some x ∧ OnlyOf [[i], [j]] 0 x := by
  have he := two_end
  unfold twoEnd at he
  cases h : twoJobs with
  | none => rw [h] at he; cases he
  | some p =>
    obtain ⟨i, j⟩ := p
    rw [h] at he
    dsimp only at he
    rw [Bool.and_eq_true] at he
    obtain ⟨hj, ha, -, hbb⟩ := twoJobs_fine h
    obtain ⟨x, hx⟩ : ∃ x, i.build.bundle.said = some x := by
      cases e : i.build.bundle.said with
      | some x => exact ⟨x, rfl⟩
      | none =>
        refine absurd ?_ ((hj.made i (.head _)).labelled tight_short (hj.distinct i (.head _))).filled
        rw [← e]
        exact .head _
    refine ⟨i, j, _, _, x, hj, ha, Thr.go_interleaved (turnAbout 50) .start, fun u hu => Thr.isDone_sound (List.all_eq_true.1 he.1 u hu), hx, ?_⟩
    intro k js hk e z hz
    match k, hk, e with
    | 1, _, e =>
      cases e
      rw [List.mem_singleton.1 hz, ← hx]
      exact hbb

end OCA
