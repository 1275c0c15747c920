import Verif.Model.Facade
import Verif.Props.Storage
/-! What each part of a facade build leaves alone. -/
namespace OCA

theorem Store.put_get {ε : Type} {s s' : Store} {ns : Namespace} {k : Str} {v : Bytes}
    (h : (s.put ns k v : Res ε Store) = .ok s') (ns' : Namespace) (k' : Str) :
    s'.get ns' k' = if ns = ns' ∧ k = k' then .ok (some v) else s.get ns' k' := by
  unfold Store.put at h
  cases hi : s.insert ns k v with
  | ok t =>
    rw [hi] at h
    cases h
    exact Store.get_insert s _ ns ns' k k' v hi
  | err e => rw [hi] at h; cases h
  | panic => rw [hi] at h; cases h

theorem Store.put_ok {ε : Type} (s : Store) (ns : Namespace) (k : Str) (v : Bytes) :
    ∃ s', (s.put ns k v : Res ε Store) = .ok s' := ⟨_, rfl⟩

/-- reading never fails -/
theorem Store.get_ok (s : Store) (ns : Namespace) (k : Str) : ∃ o, s.get ns k = .ok o := by
  unfold Store.get
  cases FMap.get s ns.str with
  | none => exact ⟨_, rfl⟩
  | some m =>
    cases h : m.get k with
    | none => exact ⟨none, by simp [h]⟩
    | some v => exact ⟨some v, by simp [h]⟩

/-! ## Relations -/

theorem insert_frame {s s' : Store} {k : Str} {v : Bytes} (h : s.insert .relations k v = .ok s') (ns : Namespace)
    (hns : ns ≠ .relations) (k' : Str) : s'.get ns k' = s.get ns k' := by
  rw [Store.get_insert s s' _ _ _ _ _ h, if_neg (fun e => hns e.1.symm)]

theorem insertOverlayMetas_frame {os : List Overlay} {db db' : Store} (h : insertOverlayMetas db os = .ok db')
    (ns : Namespace) (hns : ns ≠ .relations) (k : Str) : db'.get ns k = db.get ns k := by
  induction os generalizing db with
  | nil => cases h; rfl
  | cons o t ih =>
    unfold insertOverlayMetas at h
    obtain ⟨s, hs, h⟩ := Res.bind_eq_ok.1 h
    obtain ⟨d, hd, h⟩ := Res.bind_eq_ok.1 h
    rw [ih h, insert_frame hd ns hns]

theorem insertMetas_frame {b : Bundle} {db db' : Store} (h : insertMetas db b = .ok db')
    (ns : Namespace) (hns : ns ≠ .relations) (k : Str) : db'.get ns k = db.get ns k := by
  unfold insertMetas at h
  obtain ⟨s, hs, h⟩ := Res.bind_eq_ok.1 h
  obtain ⟨d, hd, h⟩ := Res.bind_eq_ok.1 h
  obtain ⟨c, hc, h⟩ := Res.bind_eq_ok.1 h
  obtain ⟨d2, hd2, h⟩ := Res.bind_eq_ok.1 h
  rw [insertOverlayMetas_frame h ns hns, insert_frame hd2 ns hns, insert_frame hd ns hns]

theorem writeRels_frame {O : SetOrder} {db db' : Store} {s : Said} {l : List RelObj} (h : writeRels O db s l = .ok db')
    (ns : Namespace) (hns : ns ≠ .relations) (k : Str) : db'.get ns k = db.get ns k := by
  unfold writeRels at h
  obtain ⟨b, hb, h⟩ := Res.bind_eq_ok.1 h
  exact insert_frame h ns hns k

theorem relLoop_frame {O : SetOrder} {bs cs : Said} {os : List Overlay} {db : Store} {br cr : List RelObj}
    {r : Store × List RelObj × List RelObj} (h : relLoop O bs cs db br cr os = .ok r)
    (ns : Namespace) (hns : ns ≠ .relations) (k : Str) : r.1.get ns k = db.get ns k := by
  induction os generalizing db br cr with
  | nil => cases h; rfl
  | cons o t ih =>
    unfold relLoop at h
    obtain ⟨s, hs, h⟩ := Res.bind_eq_ok.1 h
    obtain ⟨x, hx, h⟩ := Res.bind_eq_ok.1 h
    obtain ⟨y, hy, h⟩ := Res.bind_eq_ok.1 h
    obtain ⟨z, hz, h⟩ := Res.bind_eq_ok.1 h
    obtain ⟨w, hw, h⟩ := Res.bind_eq_ok.1 h
    obtain ⟨d, hd, h⟩ := Res.bind_eq_ok.1 h
    rw [ih h, writeRels_frame hd ns hns]

theorem addRelations_frame {O : SetOrder} {db db' : Store} {b : Bundle} (h : addRelations O db b = .ok db')
    (ns : Namespace) (hns : ns ≠ .relations) (k : Str) : db'.get ns k = db.get ns k := by
  unfold addRelations at h
  obtain ⟨d1, h1, h⟩ := Res.bind_eq_ok.1 h
  obtain ⟨_, _, h⟩ := Res.bind_eq_ok.1 h
  obtain ⟨_, _, h⟩ := Res.bind_eq_ok.1 h
  obtain ⟨_, _, h⟩ := Res.bind_eq_ok.1 h
  obtain ⟨_, _, h⟩ := Res.bind_eq_ok.1 h
  obtain ⟨_, _, h⟩ := Res.bind_eq_ok.1 h
  obtain ⟨_, _, h⟩ := Res.bind_eq_ok.1 h
  obtain ⟨r, hr, h⟩ := Res.bind_eq_ok.1 h
  obtain ⟨d, br, cr⟩ := r
  obtain ⟨d2, h2, h⟩ := Res.bind_eq_ok.1 h
  rw [writeRels_frame h ns hns, writeRels_frame h2 ns hns]
  have := relLoop_frame hr ns hns k
  exact this.trans (insertMetas_frame h1 ns hns k)

/-! ## Core models -/

theorem putObjectModel_frame {ε : Type} {m : Option ObjectModel} {db db' : Store}
    (h : (putObjectModel db m : Res ε Store) = .ok db') (ns : Namespace) (hns : ns ≠ .coreModel) (k : Str) :
    db'.get ns k = db.get ns k := by
  cases m with
  | none => cases h; rfl
  | some m =>
    obtain ⟨b, hb, h⟩ := Res.bind_eq_ok.1 h
    rw [Store.put_get h, if_neg (fun e => hns e.1.symm)]

theorem putModel_frame {ε : Type} {S : Serde} {m : ResultModel} {db db' : Store}
    (h : (putModel S db m : Res ε Store) = .ok db') (ns : Namespace) (hns : ns ≠ .coreModel) (k : Str) :
    db'.get ns k = db.get ns k := by
  unfold putModel at h
  obtain ⟨d1, h1, h⟩ := Res.bind_eq_ok.1 h
  obtain ⟨d2, h2, h⟩ := Res.bind_eq_ok.1 h
  obtain ⟨d3, h3, h⟩ := Res.bind_eq_ok.1 h
  obtain ⟨b, hb, h⟩ := Res.bind_eq_ok.1 h
  rw [Store.put_get h, if_neg (fun e => hns e.1.symm), putObjectModel_frame h3 ns hns, putObjectModel_frame h2 ns hns,
    Store.put_get h1, if_neg (fun e => hns e.1.symm)]

/-- what every step keeps, the loop keeps -/
theorem foldRes_keeps {ε α β γ : Type} {f : β → α → Res ε β} (g : β → γ) (hf : ∀ b a b', f b a = .ok b' → g b' = g b)
    {l : List α} {b b' : β} (h : foldRes f b l = .ok b') : g b' = g b := by
  induction l generalizing b with
  | nil => cases h; rfl
  | cons a t ih =>
    simp only [foldRes] at h
    cases ha : f b a with
    | ok c => rw [ha] at h; rw [ih h, hf b a c ha]
    | err e => rw [ha] at h; cases h
    | panic => rw [ha] at h; cases h

theorem buildModels_frame {ε : Type} {E : Env} {S : Serde} {f f' : Facade} {steps : List BuildStep}
    (h : (f.buildModels E S steps : Res ε Facade) = .ok f') :
    f'.cache = f.cache ∧ f'.bundles = f.bundles ∧ f'.bases = f.bases ∧ f'.fts = f.fts ∧
    ∀ ns, ns ≠ .coreModel → ∀ k, f'.db.get ns k = f.db.get ns k := by
  unfold Facade.buildModels at h
  obtain ⟨ms, hms, h⟩ := Res.bind_eq_ok.1 h
  obtain ⟨db, hdb, h⟩ := Res.bind_eq_ok.1 h
  cases h
  exact ⟨rfl, rfl, rfl, rfl, fun ns hns k => foldRes_keeps (fun s => s.get ns k)
    (fun b a b' hb => putModel_frame hb ns hns k) hdb⟩

/-! ## Steps -/

theorem putOverlays_frame {ε : Type} {S : Serde} {os : List Overlay} {db db' : Store}
    (h : (putOverlays S db os : Res ε Store) = .ok db') (ns : Namespace) (hns : ns ≠ .objectsJson) (k : Str) :
    db'.get ns k = db.get ns k := by
  induction os generalizing db with
  | nil => cases h; rfl
  | cons o t ih =>
    unfold putOverlays at h
    obtain ⟨s, hs, h⟩ := Res.bind_eq_ok.1 h
    obtain ⟨d, hd, h⟩ := Res.bind_eq_ok.1 h
    rw [ih h, Store.put_get hd, if_neg (fun e => hns e.1.symm)]

/-- One step: its operation record, its bundle and its objects are written; nothing else. -/
theorem buildStep_effect {ε : Type} {E : Env} {S : Serde} {f f' : Facade} {st : BuildStep}
    (h : (f.buildStep E S st : Res ε Facade) = .ok f') :
    f'.bundles = f.bundles ∧ f'.bases = f.bases ∧ f'.fts = f.fts ∧
    ∃ s r, st.result.said = some s ∧ (operationBytes S st.parentSaid st.command.toJson : Res ε Bytes) = .ok r ∧
      (∀ ns k, f'.db.get ns k = if ns = .oca ∧ k = opKey s then .ok (some r) else f.db.get ns k) ∧
      (∀ k, f'.cache.get .bundlesJson k =
        if k = s then .ok (some (utf8 (S.print (st.result.toJson E)))) else f.cache.get .bundlesJson k) ∧
      (∀ ns, ns ≠ .bundlesJson → ns ≠ .objectsJson → ∀ k, f'.cache.get ns k = f.cache.get ns k) := by
  unfold Facade.buildStep at h
  obtain ⟨r, hr, h⟩ := Res.bind_eq_ok.1 h
  obtain ⟨s, hs, h⟩ := Res.bind_eq_ok.1 h
  obtain ⟨db, hdb, h⟩ := Res.bind_eq_ok.1 h
  obtain ⟨c1, hc1, h⟩ := Res.bind_eq_ok.1 h
  obtain ⟨cs, hcs, h⟩ := Res.bind_eq_ok.1 h
  obtain ⟨c2, hc2, h⟩ := Res.bind_eq_ok.1 h
  obtain ⟨c3, hc3, h⟩ := Res.bind_eq_ok.1 h
  cases h
  refine ⟨rfl, rfl, rfl, s, r, ?_, hr, ?_, ?_, ?_⟩
  · cases hsd : st.result.said with
    | none => rw [hsd] at hs; cases hs
    | some x => rw [hsd] at hs; cases hs; rfl
  · intro ns k
    show db.get ns k = _
    rw [Store.put_get hdb]
    by_cases e : ns = .oca ∧ k = opKey s
    · rw [if_pos e, if_pos ⟨e.1.symm, e.2.symm⟩]
    · rw [if_neg e, if_neg (fun x => e ⟨x.1.symm, x.2.symm⟩)]
  · intro k
    show c3.get _ k = _
    rw [putOverlays_frame hc3 _ (by decide), Store.put_get hc2, if_neg (fun e => by cases e.1), Store.put_get hc1]
    by_cases e : k = s
    · rw [if_pos e, if_pos ⟨rfl, e.symm⟩]
    · rw [if_neg e, if_neg (fun x => e x.2.symm)]
  · intro ns h1 h2 k
    show c3.get _ k = _
    rw [putOverlays_frame hc3 _ h2, Store.put_get hc2, if_neg (fun e => h2 e.1.symm), Store.put_get hc1,
      if_neg (fun e => h1 e.1.symm)]

/-! ## The whole build -/

theorem buildCache_effect {ε : Type} {E : Env} {S : Serde} {f f' : Facade} {b : Bundle}
    (h : (f.buildCache E S b : Res ε Facade) = .ok f') :
    ∃ s c, b.said = some s ∧ b.captureBase.said = some c ∧ f' = { f with
      bundles := f.bundles.insertRow s (S.print (b.toJson E)),
      bases := f.bases.insertRow c (S.print b.captureBase.toJson) } := by
  unfold Facade.buildCache at h
  obtain ⟨s, hs, h⟩ := Res.bind_eq_ok.1 h
  obtain ⟨c, hc, h⟩ := Res.bind_eq_ok.1 h
  cases h
  refine ⟨s, c, ?_, ?_, rfl⟩
  · cases hsd : b.said with
    | none => rw [hsd] at hs; cases hs
    | some x => rw [hsd] at hs; cases hs; rfl
  · cases hsd : b.captureBase.said with
    | none => rw [hsd] at hc; cases hc
    | some x => rw [hsd] at hc; cases hc; rfl

theorem buildMeta_effect {ε : Type} {f f' : Facade} {b : Bundle} {s : Said} (hs : b.said = some s)
    (h : (f.buildMeta b : Res ε Facade) = .ok f') :
    f' = { f with fts := (b.overlays.filterMap fun o => metaRow s o.body).foldl insertFts f.fts } := by
  unfold Facade.buildMeta at h
  split at h
  · rw [hs] at h
    cases h
    rfl
  · next hn =>
    cases h
    have : b.overlays.filterMap (fun o => metaRow s o.body) = [] := by
      rw [List.filterMap_eq_nil_iff]
      intro o ho
      cases ho' : o.body with
      | metaOv l ps => exact absurd (List.any_eq_true.2 ⟨o, ho, by rw [ho']; rfl⟩) hn
      | _ => rfl
    rw [this]
    rfl

/-- The parts of a build, one after the other. -/
theorem build_parts {ε : Type} {E : Env} {S : Serde} {O : SetOrder} {f f' : Facade} {b : Build}
    (h : (f.build E S O b : Res ε Facade) = .ok f') :
    ∃ s c g db, b.bundle.said = some s ∧ b.bundle.captureBase.said = some c ∧
      foldRes (Facade.buildStep E S) { f with
        bundles := f.bundles.insertRow s (S.print (b.bundle.toJson E)),
        bases := f.bases.insertRow c (S.print b.bundle.captureBase.toJson),
        fts := (b.bundle.overlays.filterMap fun o => metaRow s o.body).foldl insertFts f.fts } b.steps
        = (.ok g : Res ε Facade) ∧
      (addRelations O g.db b.bundle = .ok db ∨ (∃ e, addRelations O g.db b.bundle = .err e) ∧ db = g.db) ∧
      (({ g with db := db } : Facade).buildModels E S b.steps : Res ε Facade) = .ok f' := by
  unfold Facade.build at h
  obtain ⟨f1, h1, h⟩ := Res.bind_eq_ok.1 h
  obtain ⟨f2, h2, h⟩ := Res.bind_eq_ok.1 h
  obtain ⟨f3, h3, hfin⟩ := Res.bind_eq_ok.1 h
  clear h
  obtain ⟨s, c, hs, hc, e1⟩ := buildCache_effect h1
  have e2 := buildMeta_effect hs h2
  subst e1
  subst e2
  cases hr : addRelations O f3.db b.bundle with
  | ok db =>
    rw [hr] at hfin
    exact ⟨s, c, f3, db, hs, hc, h3, .inl hr, hfin⟩
  | err e =>
    rw [hr] at hfin
    exact ⟨s, c, f3, f3.db, hs, hc, h3, .inr ⟨⟨e, hr⟩, rfl⟩, hfin⟩
  | panic => rw [hr] at hfin; cases hfin

/-- A build leaves the names alone. -/
theorem build_refs {ε : Type} {E : Env} {S : Serde} {O : SetOrder} {f f' : Facade} {b : Build}
    (h : (f.build E S O b : Res ε Facade) = .ok f') (k : Str) :
    f'.db.get .references k = f.db.get .references k := by
  obtain ⟨s, c, g, db, _, _, hg, hr, hm⟩ := build_parts h
  have h1 : g.db.get .references k = f.db.get .references k := by
    have hstep : ∀ (x : Facade) (st : BuildStep) (x' : Facade), (x.buildStep E S st : Res ε Facade) = .ok x' →
        x'.db.get .references k = x.db.get .references k := by
      intro x st x' hx
      obtain ⟨_, _, _, s, r, _, _, hd, _⟩ := buildStep_effect hx
      rw [hd, if_neg (fun e => by cases e.1)]
    have := foldRes_keeps (fun x : Facade => x.db.get .references k) hstep hg
    exact this
  have h2 : db.get .references k = g.db.get .references k := by
    rcases hr with hr | ⟨_, e⟩
    · exact addRelations_frame hr _ (by decide) k
    · rw [e]
  rw [(buildModels_frame hm).2.2.2.2 _ (by decide), ← h1, ← h2]

end OCA
