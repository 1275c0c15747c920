import Verif.Lemmas.Frame
/-! The effect of a facade build on its storages as a list of writes, the last of which wins. -/
namespace OCA

/-- writes, in order -/
abbrev Writes := List (Namespace × Str × Bytes)

/-- what the last write to a key wrote -/
def lastWrite (ns : Namespace) (k : Str) : Writes → Option Bytes
  | [] => none
  | (n, x, v) :: t => match lastWrite ns k t with
    | some w => some w
    | none => if n = ns ∧ x = k then some v else none

theorem lastWrite_append (ns : Namespace) (k : Str) (a b : Writes) :
    lastWrite ns k (a ++ b) = (lastWrite ns k b).or (lastWrite ns k a) := by
  induction a with
  | nil => simp [lastWrite]
  | cons w t ih =>
    obtain ⟨n, x, v⟩ := w
    rw [List.cons_append, lastWrite, ih, lastWrite]
    cases lastWrite ns k b with
    | some y => rfl
    | none => rfl

theorem lastWrite_mem {ns : Namespace} {k : Str} {W : Writes} {v : Bytes} (h : lastWrite ns k W = some v) :
    (ns, k, v) ∈ W := by
  induction W with
  | nil => cases h
  | cons w t ih =>
    obtain ⟨n, x, u⟩ := w
    rw [lastWrite] at h
    cases hl : lastWrite ns k t with
    | some y => rw [hl] at h; cases h; exact .tail _ (ih hl)
    | none =>
      rw [hl] at h
      dsimp only at h
      split at h
      · next e => cases h; rw [e.1, e.2]; exact .head _
      · cases h

theorem lastWrite_some {ns : Namespace} {k : Str} {W : Writes} {v : Bytes} (h : (ns, k, v) ∈ W) :
    ∃ u, lastWrite ns k W = some u := by
  induction W with
  | nil => cases h
  | cons w t ih =>
    obtain ⟨n, x, u⟩ := w
    rw [lastWrite]
    cases hl : lastWrite ns k t with
    | some y => exact ⟨y, rfl⟩
    | none =>
      cases h with
      | head => exact ⟨_, by dsimp only; rw [if_pos ⟨rfl, rfl⟩]⟩
      | tail _ h =>
        obtain ⟨u, hu⟩ := ih h
        rw [hl] at hu
        cases hu

/-- the order of writes to different keys does not matter -/
theorem lastWrite_perm {ns : Namespace} {k : Str} {W W' : Writes} (hp : W.Perm W')
    (hu : ∀ n x v v', (n, x, v) ∈ W → (n, x, v') ∈ W → v = v') : lastWrite ns k W = lastWrite ns k W' := by
  cases h : lastWrite ns k W with
  | some v =>
    obtain ⟨v', h'⟩ := lastWrite_some (hp.mem_iff.1 (lastWrite_mem h))
    rw [h', hu _ _ _ _ (lastWrite_mem h) (hp.mem_iff.2 (lastWrite_mem h'))]
  | none =>
    cases h' : lastWrite ns k W' with
    | none => rfl
    | some v =>
      obtain ⟨u, hu⟩ := lastWrite_some (hp.mem_iff.2 (lastWrite_mem h'))
      rw [h] at hu
      cases hu

/-- the storage after these writes -/
def After (W : Writes) (s s' : Store) : Prop :=
  ∀ ns k, s'.get ns k = match lastWrite ns k W with
    | some v => .ok (some v)
    | none => s.get ns k

theorem After.nil (s : Store) : After [] s s := fun _ _ => rfl

theorem After.trans {a b : Writes} {s1 s2 s3 : Store} (h1 : After a s1 s2) (h2 : After b s2 s3) :
    After (a ++ b) s1 s3 := by
  intro ns k
  rw [h2, lastWrite_append]
  cases lastWrite ns k b with
  | some v => rfl
  | none => exact h1 ns k

theorem After.put {ε : Type} {s s' : Store} {ns : Namespace} {k : Str} {v : Bytes}
    (h : (s.put ns k v : Res ε Store) = .ok s') : After [(ns, k, v)] s s' := by
  intro ns' k'
  rw [Store.put_get h]
  unfold lastWrite
  dsimp only [lastWrite]
  split
  · rfl
  · rfl

/-- the same writes once more change nothing -/
theorem After.again {W W' : Writes} {s s' t t' : Store} (h : After W s s') (ht : ∀ ns k, t.get ns k = s'.get ns k)
    (hW : ∀ ns k, lastWrite ns k W' = lastWrite ns k W) (h' : After W' t t') : ∀ ns k, t'.get ns k = s'.get ns k := by
  intro ns k
  rw [h', hW]
  cases hl : lastWrite ns k W with
  | none => exact ht ns k
  | some v => rw [h, hl]

/-! ## The writes of a build -/

/-- the objects of a step -/
def overlayWrites (S : Serde) (os : List Overlay) : Writes :=
  os.map fun o => (.objectsJson, o.said.getD [], utf8 (S.print o.toJson))

/-- what a step writes to the cache -/
def BuildStep.cacheWrites (E : Env) (S : Serde) (st : BuildStep) : Writes :=
  (.bundlesJson, st.result.said.getD [], utf8 (S.print (st.result.toJson E))) ::
  (.objectsJson, st.result.captureBase.said.getD [], utf8 (S.print st.result.captureBase.toJson)) ::
  overlayWrites S st.result.overlays

/-- what a step writes to the database -/
def BuildStep.dbWrites (S : Serde) (st : BuildStep) : Writes :=
  [(.oca, opKey (st.result.said.getD []), match (operationBytes S st.parentSaid st.command.toJson : Res Unit Bytes) with
    | .ok r => r
    | _ => [])]

theorem Res.unwrap_eq {ε α : Type} {o : Option α} {a : α} (h : (Res.unwrap o : Res ε α) = .ok a) : o = some a := by
  cases o with
  | none => cases h
  | some x => cases h; rfl

theorem putOverlays_after {ε : Type} {S : Serde} {os : List Overlay} {db db' : Store}
    (h : (putOverlays S db os : Res ε Store) = .ok db') : After (overlayWrites S os) db db' := by
  induction os generalizing db with
  | nil => cases h; exact .nil _
  | cons o t ih =>
    unfold putOverlays at h
    obtain ⟨s, hs, h⟩ := Res.bind_eq_ok.1 h
    obtain ⟨d, hd, h⟩ := Res.bind_eq_ok.1 h
    have := (After.put hd).trans (ih h)
    have hs' := Res.unwrap_eq hs
    show After ((_, o.said.getD [], _) :: overlayWrites S t) db db'
    rw [hs']
    exact this

theorem lenByte_any {ε ε' : Type} {s : Bytes} {r : UInt8} (h : (lenByte s : Res ε _) = .ok r) :
    (lenByte s : Res ε' _) = .ok r := by
  unfold lenByte at h ⊢
  split at h
  · next hl => cases h; rw [if_pos hl]
  · cases h

theorem lenPrefixed_any {ε ε' : Type} {s : Str} {r : Bytes} (h : (lenPrefixed s : Res ε Bytes) = .ok r) :
    (lenPrefixed s : Res ε' Bytes) = .ok r := by
  unfold lenPrefixed at h ⊢
  obtain ⟨n, hn, h⟩ := Res.bind_eq_ok.1 h
  cases h
  rw [lenByte_any hn]
  rfl

theorem parentBytes_any {ε ε' : Type} {s : Option Said} {r : Bytes} (h : (parentBytes s : Res ε Bytes) = .ok r) :
    (parentBytes s : Res ε' Bytes) = .ok r := by
  cases s with
  | none => cases h; rfl
  | some s => unfold parentBytes at h ⊢; exact lenPrefixed_any h

theorem operationBytes_any {ε ε' : Type} {S : Serde} {p : Option Said} {j : Json} {r : Bytes}
    (h : (operationBytes S p j : Res ε Bytes) = .ok r) : (operationBytes S p j : Res ε' Bytes) = .ok r := by
  unfold operationBytes at h ⊢
  obtain ⟨x, hx, h⟩ := Res.bind_eq_ok.1 h
  cases h
  rw [parentBytes_any hx]
  rfl

theorem buildStep_after {ε : Type} {E : Env} {S : Serde} {f f' : Facade} {st : BuildStep}
    (h : (f.buildStep E S st : Res ε Facade) = .ok f') :
    After (st.cacheWrites E S) f.cache f'.cache ∧ After (st.dbWrites S) f.db f'.db ∧
    (∃ s c, st.result.said = some s ∧ st.result.captureBase.said = some c) := by
  unfold Facade.buildStep at h
  obtain ⟨r, hr, h⟩ := Res.bind_eq_ok.1 h
  obtain ⟨s, hs, h⟩ := Res.bind_eq_ok.1 h
  obtain ⟨db, hdb, h⟩ := Res.bind_eq_ok.1 h
  obtain ⟨c1, hc1, h⟩ := Res.bind_eq_ok.1 h
  obtain ⟨cs, hcs, h⟩ := Res.bind_eq_ok.1 h
  obtain ⟨c2, hc2, h⟩ := Res.bind_eq_ok.1 h
  obtain ⟨c3, hc3, h⟩ := Res.bind_eq_ok.1 h
  cases h
  have hs' := Res.unwrap_eq hs
  have hcs' := Res.unwrap_eq hcs
  refine ⟨?_, ?_, s, cs, hs', hcs'⟩
  · have := ((After.put hc1).trans (After.put hc2)).trans (putOverlays_after hc3)
    unfold BuildStep.cacheWrites
    rw [hs', hcs']
    exact this
  · unfold BuildStep.dbWrites
    rw [hs', operationBytes_any hr]
    exact After.put hdb

/-- a loop of parts with known writes -/
theorem foldRes_after {ε α β : Type} {g : β → α → Res ε β} {p : β → Store} {w : α → Writes}
    (hg : ∀ b a b', g b a = .ok b' → After (w a) (p b) (p b')) {l : List α} {b b' : β} (h : foldRes g b l = .ok b') :
    After (l.flatMap w) (p b) (p b') := by
  induction l generalizing b with
  | nil => cases h; exact .nil _
  | cons a t ih =>
    simp only [foldRes] at h
    cases ha : g b a with
    | ok c =>
      rw [ha] at h
      rw [List.flatMap_cons]
      exact (hg b a c ha).trans (ih h)
    | err e => rw [ha] at h; cases h
    | panic => rw [ha] at h; cases h

/-! ## Core models -/

/-- the record of an object -/
def ObjectModel.write (m : ObjectModel) : Namespace × Str × Bytes :=
  (.coreModel, coreKey m.said, match (objectModelBytes m : Res Unit Bytes) with | .ok b => b | _ => [])

/-- the records of a step -/
def ResultModel.writes (S : Serde) (m : ResultModel) : Writes :=
  [(.coreModel, coreKey m.command.digest, utf8 (S.print m.command.json))] ++ m.captureBase.toList.map ObjectModel.write ++
  m.overlay.toList.map ObjectModel.write ++
  [(.coreModel, coreKey m.bundle.said, match (bundleModelBytes m.bundle : Res Unit Bytes) with | .ok b => b | _ => [])]

theorem objectModelBytes_any {ε ε' : Type} {m : ObjectModel} {r : Bytes} (h : (objectModelBytes m : Res ε Bytes) = .ok r) :
    (objectModelBytes m : Res ε' Bytes) = .ok r := by
  unfold objectModelBytes at h ⊢
  obtain ⟨p, hp, h⟩ := Res.bind_eq_ok.1 h
  obtain ⟨c, hc, h⟩ := Res.bind_eq_ok.1 h
  cases h
  rw [parentBytes_any hp, Res.bind_ok, lenPrefixed_any hc]
  rfl

theorem lenPrefixedAll_any {ε ε' : Type} {l : List Said} {r : Bytes} (h : (lenPrefixedAll l : Res ε Bytes) = .ok r) :
    (lenPrefixedAll l : Res ε' Bytes) = .ok r := by
  induction l generalizing r with
  | nil => cases h; rfl
  | cons s t ih =>
    unfold lenPrefixedAll at h ⊢
    obtain ⟨a, ha, h⟩ := Res.bind_eq_ok.1 h
    obtain ⟨b, hb, h⟩ := Res.bind_eq_ok.1 h
    cases h
    rw [lenPrefixed_any ha, Res.bind_ok, ih hb]
    rfl

theorem bundleModelBytes_any {ε ε' : Type} {m : BundleModel} {r : Bytes} (h : (bundleModelBytes m : Res ε Bytes) = .ok r) :
    (bundleModelBytes m : Res ε' Bytes) = .ok r := by
  unfold bundleModelBytes at h ⊢
  obtain ⟨p, hp, h⟩ := Res.bind_eq_ok.1 h
  obtain ⟨c, hc, h⟩ := Res.bind_eq_ok.1 h
  obtain ⟨o, ho, h⟩ := Res.bind_eq_ok.1 h
  cases h
  rw [parentBytes_any hp, Res.bind_ok, lenPrefixed_any hc, Res.bind_ok, lenPrefixedAll_any ho]
  rfl

theorem putObjectModel_after {ε : Type} {m : Option ObjectModel} {db db' : Store}
    (h : (putObjectModel db m : Res ε Store) = .ok db') : After (m.toList.map ObjectModel.write) db db' := by
  cases m with
  | none => cases h; exact .nil _
  | some m =>
    obtain ⟨b, hb, h⟩ := Res.bind_eq_ok.1 h
    have := After.put h
    show After [m.write] db db'
    unfold ObjectModel.write
    rw [objectModelBytes_any hb]
    exact this

theorem putModel_after {ε : Type} {S : Serde} {m : ResultModel} {db db' : Store}
    (h : (putModel S db m : Res ε Store) = .ok db') : After (m.writes S) db db' := by
  unfold putModel at h
  obtain ⟨d1, h1, h⟩ := Res.bind_eq_ok.1 h
  obtain ⟨d2, h2, h⟩ := Res.bind_eq_ok.1 h
  obtain ⟨d3, h3, h⟩ := Res.bind_eq_ok.1 h
  obtain ⟨b, hb, h⟩ := Res.bind_eq_ok.1 h
  have := (((After.put h1).trans (putObjectModel_after h2)).trans (putObjectModel_after h3)).trans (After.put h)
  unfold ResultModel.writes
  rw [bundleModelBytes_any hb]
  exact this

/-! ## The whole build -/

theorem lastWrite_flatMap_none {α : Type} {w : α → Writes} {l : List α} {ns : Namespace} {k : Str}
    (h : ∀ a ∈ l, ∀ x ∈ w a, x.1 ≠ ns) : lastWrite ns k (l.flatMap w) = none := by
  cases hl : lastWrite ns k (l.flatMap w) with
  | none => rfl
  | some v =>
    obtain ⟨a, ha, hx⟩ := List.mem_flatMap.1 (lastWrite_mem hl)
    exact absurd rfl (h a ha _ hx)

/-- What a build does to the storages, but for the relations: the cache and the operation records are those after the
writes of the steps, and the core model records those after the writes of the models. -/
theorem build_after {ε : Type} {E : Env} {S : Serde} {O : SetOrder} {f f' : Facade} {b : Build}
    (h : (f.build E S O b : Res ε Facade) = .ok f') :
    After (b.steps.flatMap (BuildStep.cacheWrites E S)) f.cache f'.cache ∧
    (∀ k, f'.db.get .oca k = match lastWrite .oca k (b.steps.flatMap (BuildStep.dbWrites S)) with
      | some v => .ok (some v)
      | none => f.db.get .oca k) ∧
    ∃ ms, (buildCoreModel E b.steps : Res ε _) = .ok ms ∧
      (∀ k, f'.db.get .coreModel k = match lastWrite .coreModel k (ms.flatMap (ResultModel.writes S)) with
        | some v => .ok (some v)
        | none => f.db.get .coreModel k) := by
  obtain ⟨s, c, g, db, _, _, hg, hr, hm⟩ := build_parts h
  have hrel : ∀ ns, ns ≠ .relations → ∀ k, db.get ns k = g.db.get ns k := by
    intro ns hns k
    rcases hr with hr | ⟨_, e⟩
    · exact addRelations_frame hr _ hns k
    · rw [e]
  have hc := foldRes_after (p := Facade.cache) (w := BuildStep.cacheWrites E S) (fun _ _ _ h => (buildStep_after h).1) hg
  have hd := foldRes_after (p := Facade.db) (w := BuildStep.dbWrites S) (fun _ _ _ h => (buildStep_after h).2.1) hg
  obtain ⟨m1, -, -, -, m5⟩ := buildModels_frame hm
  refine ⟨?_, ?_, ?_⟩
  · rw [m1]; exact hc
  · intro k
    rw [m5 _ (by decide), ← hd .oca k]
    exact hrel _ (by decide) k
  · unfold Facade.buildModels at hm
    obtain ⟨ms, hms, hm⟩ := Res.bind_eq_ok.1 hm
    obtain ⟨db', hdb, hm⟩ := Res.bind_eq_ok.1 hm
    cases hm
    refine ⟨ms, hms, ?_⟩
    intro k
    have ha := foldRes_after (p := fun s : Store => s) (w := ResultModel.writes S) (fun _ _ _ h => putModel_after h) hdb
    have := ha .coreModel k
    show db'.get .coreModel k = _
    rw [this]
    have h0 : db.get .coreModel k = f.db.get .coreModel k := by
      rw [hrel _ (by decide) k, hd .coreModel k, lastWrite_flatMap_none]
      intro st _ x hx
      simp only [BuildStep.dbWrites, List.mem_singleton] at hx
      rw [hx]
      exact fun e => by cases e
    show (match lastWrite _ _ _ with | some v => _ | none => db.get .coreModel k) = _
    rw [h0]

end OCA
