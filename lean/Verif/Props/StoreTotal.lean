import Verif.Props.FacadeRelations
import Verif.Props.CoreModel
import Verif.Props.LoadJson
import Verif.Props.FileExamples
/-!
# C60: storing what was validated

Once a file is validated, storing its build cannot fail, whatever was stored before.
-/
namespace OCA

/-- Identifiers have at most 255 bytes and do not end in `.metadata` (they are 44 or 88 letters, digits, `-` and `_`). -/
def Env.ShortSaids (E : Env) : Prop := ∀ s, E.validSaid s = true → (utf8 s).length ≤ 255 ∧ ∀ t, s ≠ metaKey t

theorem Env.ShortSaids.plain {E : Env} (h : E.ShortSaids) : E.PlainDigests := fun j => h _ (E.digest_valid j)

/-! ## Relations -/

/-- the relations are readable -/
def RelsGood (db : Store) : Prop := ∃ R M, RelRep db R M

/-- the kinds after the overlays of a bundle were entered -/
theorem RelRep.metasKinds (os : List Overlay) (hf : none ∉ os.map (·.said)) : ∀ {db : Store} {R : Str → Option (List RelObj)}
    {M : Str → Option Nat}, RelRep db R M → ∃ db' M', insertOverlayMetas db os = .ok db' ∧ RelRep db' R M' ∧
      (∀ x, (∀ o ∈ os, o.said ≠ some x) → M' x = M x) ∧
      ∀ o ∈ os, ∀ s, o.said = some s → ∃ o' ∈ os, o'.said = some s ∧ M' s = some o'.body.kind.code := by
  induction os with
  | nil => intro db R M h; exact ⟨db, M, rfl, h, fun _ _ => rfl, fun _ h => by cases h⟩
  | cons o t ih =>
    intro db R M h
    cases hs : o.said with
    | none => exact absurd (by simp [hs]) hf
    | some s =>
      obtain ⟨db1, e1, r1⟩ := h.meta s (kind_code_range o.body.kind).2
      obtain ⟨db2, M2, e2, r2, hk, hall⟩ := ih (fun h' => hf (List.mem_cons_of_mem _ h')) r1
      refine ⟨db2, M2, ?_, r2, ?_, ?_⟩
      · show Res.bind (Res.unwrap o.said) _ = _
        rw [hs, Res.unwrap_some]
        dsimp only [Res.bind]
        show Res.bind (db.insert .relations (metaKey s) _) _ = _
        rw [e1]
        exact e2
      · intro x hx
        rw [hk x fun o' ho' => hx o' (.tail _ ho')]
        unfold updRel
        rw [if_neg (fun e => hx o (.head _) (by rw [hs, e]))]
      · intro o' ho' s' hs'
        by_cases hm : ∃ o'' ∈ t, o''.said = some s'
        · obtain ⟨o'', h1, h2⟩ := hm
          obtain ⟨x, h3, h4⟩ := hall o'' h1 s' h2
          exact ⟨x, .tail _ h3, h4⟩
        · have hn : ∀ x ∈ t, x.said ≠ some s' := fun x hx e => hm ⟨x, hx, e⟩
          rcases List.mem_cons.1 ho' with rfl | ho'
          · refine ⟨o', .head _, hs', ?_⟩
            rw [hk s' hn]
            rw [hs] at hs'
            cases hs'
            simp [updRel]
          · exact absurd hs' (hn o' ho')

theorem RelRep.metas (os : List Overlay) (hf : none ∉ os.map (·.said)) {db : Store} {R : Str → Option (List RelObj)}
    {M : Str → Option Nat} (h : RelRep db R M) : ∃ db' M', insertOverlayMetas db os = .ok db' ∧ RelRep db' R M' ∧
      (∀ x, (∀ o ∈ os, o.said ≠ some x) → M' x = M x) ∧
      (∀ o ∈ os, ∀ s, o.said = some s → ∃ o' ∈ os, o'.said = some s ∧ M' s = some o'.body.kind.code) ∧
      (∀ x, (M x).isSome → (M' x).isSome) ∧ ∀ o ∈ os, ∀ s, o.said = some s → (M' s).isSome := by
  obtain ⟨db', M', e, r, h1, h2⟩ := RelRep.metasKinds os hf h
  refine ⟨db', M', e, r, h1, h2, fun x hx => ?_, fun o ho s hs => ?_⟩
  · by_cases hm : ∃ o ∈ os, o.said = some x
    · obtain ⟨o, ho, hs⟩ := hm
      obtain ⟨_, _, _, e⟩ := h2 o ho x hs
      rw [e]; rfl
    · rw [h1 x fun o ho hs => hm ⟨o, ho, hs⟩]; exact hx
  · obtain ⟨_, _, _, e⟩ := h2 o ho s hs
    rw [e]; rfl

theorem RelRep.obj {db : Store} {R : Str → Option (List RelObj)} {M : Str → Option Nat} (h : RelRep db R M) {x : Said}
    (hm : (M x).isSome) (hx : (utf8 x).length ≤ 255) : ∃ y : RelObj, relObj db x = .ok y ∧ y.Fits := by
  obtain ⟨c, hc⟩ := Option.isSome_iff_exists.1 hm
  exact ⟨(x, c), h.relObj_eq hc, hx, h.code x c hc⟩

theorem fits_setInsert {l : List RelObj} {a : RelObj} (h : ∀ o ∈ l, o.Fits) (ha : a.Fits) : ∀ o ∈ setInsert l a, o.Fits := by
  intro o ho
  rcases mem_setInsert.1 ho with h' | rfl
  · exact h o h'
  · exact ha

theorem RelRep.explored {db : Store} {R : Str → Option (List RelObj)} {M : Str → Option Nat} (h : RelRep db R M) {x : Said}
    (hx : ∀ t, x ≠ metaKey t) (hm : (M x).isSome) :
    ∃ l, exploreOrNew db x = .ok l ∧ l.Nodup ∧ ∀ o ∈ l, o.Fits := by
  obtain ⟨c, hc⟩ := Option.isSome_iff_exists.1 hm
  exact ⟨_, h.exploreOrNew_eq hx hc, h.data hx⟩

theorem RelRep.wloop (O : SetOrder) {bs cs : Said} {M : Str → Option Nat} (hb : (M bs).isSome) (hc : (M cs).isSome)
    (hsb : (utf8 bs).length ≤ 255) (hsc : (utf8 cs).length ≤ 255) (os : List Overlay) :
    ∀ {db : Store} {R : Str → Option (List RelObj)} (br cr : List RelObj), RelRep db R M → none ∉ os.map (·.said) →
    (∀ o ∈ os, ∀ s, o.said = some s → (M s).isSome ∧ (utf8 s).length ≤ 255 ∧ ∀ t, s ≠ metaKey t) →
    (br.Nodup ∧ ∀ o ∈ br, o.Fits) → (cr.Nodup ∧ ∀ o ∈ cr, o.Fits) →
    ∃ db' R' br' cr', relLoop O bs cs db br cr os = .ok (db', br', cr') ∧ RelRep db' R' M ∧
      (br'.Nodup ∧ ∀ o ∈ br', o.Fits) ∧ (cr'.Nodup ∧ ∀ o ∈ cr', o.Fits) := by
  induction os with
  | nil => intro db R br cr h _ _ h1 h2; exact ⟨db, R, br, cr, rfl, h, h1, h2⟩
  | cons o t ih =>
    intro db R br cr h hf hall h1 h2
    cases hs : o.said with
    | none => exact absurd (by simp [hs]) hf
    | some s =>
      obtain ⟨m, hl, hp⟩ := hall o (List.mem_cons_self ..) s hs
      obtain ⟨x, ex, fx⟩ := h.obj m hl
      obtain ⟨r, er, nr, fr⟩ := h.explored hp m
      obtain ⟨xb, exb, fxb⟩ := h.obj hb hsb
      obtain ⟨xc, exc, fxc⟩ := h.obj hc hsc
      obtain ⟨c, hcm⟩ := Option.isSome_iff_exists.1 m
      obtain ⟨db1, l1, ew, -, rw1⟩ := h.write O hp hcm (l := setInsert (setInsert r xb) xc)
        (nodup_setInsert (nodup_setInsert nr)) (fits_setInsert (fits_setInsert fr fxb) fxc)
      obtain ⟨db', R', br', cr', e, rep, q1, q2⟩ := ih (setInsert br x) (setInsert cr x) rw1
        (fun h' => hf (List.mem_cons_of_mem _ h')) (fun o ho => hall o (List.mem_cons_of_mem _ ho))
        ⟨nodup_setInsert h1.1, fits_setInsert h1.2 fx⟩ ⟨nodup_setInsert h2.1, fits_setInsert h2.2 fx⟩
      refine ⟨db', R', br', cr', ?_, rep, q1, q2⟩
      show Res.bind (Res.unwrap o.said) _ = _
      rw [hs, Res.unwrap_some]
      dsimp only [Res.bind]
      show Res.bind (relObj db s) _ = _
      rw [ex]
      show Res.bind (exploreOrNew db s) _ = _
      rw [er]
      show Res.bind (relObj db bs) _ = _
      rw [exb]
      show Res.bind (relObj db cs) _ = _
      rw [exc]
      show Res.bind (writeRels O db s _) _ = _
      rw [ew]
      exact e

/-- Adding the relations of any bundle whose identifiers are there and short succeeds. -/
theorem RelRep.addAny (O : SetOrder) {db : Store} {R : Str → Option (List RelObj)} {M : Str → Option Nat} (h : RelRep db R M) {b : Bundle}
    (hf : none ∉ b.saids) (hs : ∀ s, some s ∈ b.saids → (utf8 s).length ≤ 255 ∧ ∀ t, s ≠ metaKey t) :
    ∃ db' R' M', addRelations O db b = .ok db' ∧ RelRep db' R' M' ∧ (∀ x, (∀ k, ¬ b.Has x k) → M' x = M x) ∧
      ∀ x k, b.Has x k → ∃ k', M' x = some k' ∧ b.Has x k' := by
  cases hbs : b.said with
  | none => exact absurd (by simp [Bundle.saids, hbs]) hf
  | some bs =>
  cases hcs : b.captureBase.said with
  | none => exact absurd (by simp [Bundle.saids, hcs]) hf
  | some cs =>
    obtain ⟨lb, pb⟩ := hs bs (by simp [Bundle.saids, hbs])
    obtain ⟨lc, pc⟩ := hs cs (by simp [Bundle.saids, hcs])
    have hfo : none ∉ b.overlays.map (·.said) := fun h' => hf (by simp only [Bundle.saids]; exact .tail _ (.tail _ h'))
    obtain ⟨db1, e1, r1⟩ := h.meta bs (c := 1) (by decide)
    obtain ⟨db2, e2, r2⟩ := r1.meta cs (c := 0) (by decide)
    obtain ⟨db3, M3, e3, r3, kn, kh, hk, hall⟩ := RelRep.metas b.overlays hfo r2
    have mb : (M3 bs).isSome := hk _ (by unfold updRel; split <;> simp)
    have mc : (M3 cs).isSome := hk _ (by simp [updRel])
    have em : insertMetas db b = .ok db3 := by
      show Res.bind (Res.unwrap b.said) _ = _
      rw [hbs, Res.unwrap_some]
      dsimp only [Res.bind]
      show Res.bind (db.insert .relations (metaKey bs) [1]) _ = _
      rw [show db.insert .relations (metaKey bs) [1] = .ok db1 from e1]
      show Res.bind (Res.unwrap b.captureBase.said) _ = _
      rw [hcs, Res.unwrap_some]
      dsimp only [Res.bind]
      show Res.bind (db1.insert .relations (metaKey cs) [0]) _ = _
      rw [show db1.insert .relations (metaKey cs) [0] = .ok db2 from e2]
      exact e3
    obtain ⟨br, ebr, nbr, fbr⟩ := r3.explored pb mb
    obtain ⟨xc, exc, fxc⟩ := r3.obj mc lc
    obtain ⟨cr, ecr, ncr, fcr⟩ := r3.explored pc mc
    obtain ⟨xb, exb, fxb⟩ := r3.obj mb lb
    obtain ⟨db4, R4, br', cr', el, r4, ⟨nb', fb'⟩, ⟨nc', fc'⟩⟩ := RelRep.wloop O mb mc lb lc b.overlays (setInsert br xc) (setInsert cr xb) r3 hfo
      (fun o ho s hos => ⟨hall o ho s hos, hs s (by
        simp only [Bundle.saids]
        exact .tail _ (.tail _ (List.mem_map.2 ⟨o, ho, hos⟩)))⟩)
      ⟨nodup_setInsert nbr, fits_setInsert fbr fxc⟩ ⟨nodup_setInsert ncr, fits_setInsert fcr fxb⟩
    obtain ⟨cb, hcb⟩ := Option.isSome_iff_exists.1 mb
    obtain ⟨cc, hcc⟩ := Option.isSome_iff_exists.1 mc
    obtain ⟨db5, l5, e5, -, r5⟩ := r4.write O pb hcb nb' fb'
    obtain ⟨db6, l6, e6, -, r6⟩ := r5.write O pc hcc nc' fc'
    refine ⟨db6, _, M3, ?_, r6, ?_, ?_⟩
    rotate_left
    · intro x hx
      rw [kn x fun o ho e => hx _ (.overlay ho e)]
      unfold updRel
      rw [if_neg (fun e => hx 0 (.base (by rw [hcs, e]))), if_neg (fun e => hx 1 (.bundle (by rw [hbs, e])))]
    · intro x k hx
      by_cases hm : ∃ o ∈ b.overlays, o.said = some x
      · obtain ⟨o, ho, hos⟩ := hm
        obtain ⟨o', ho', hs', e⟩ := kh o ho x hos
        exact ⟨_, e, .overlay ho' hs'⟩
      · rw [kn x fun o ho e => hm ⟨o, ho, e⟩]
        unfold updRel
        split
        · next e => exact ⟨0, rfl, .base (by rw [hcs, e])⟩
        · next e0 =>
          split
          · next e => exact ⟨1, rfl, .bundle (by rw [hbs, e])⟩
          · next e1 =>
            cases hx with
            | bundle e => rw [hbs] at e; exact absurd (Option.some.inj e).symm e1
            | base e => rw [hcs] at e; exact absurd (Option.some.inj e).symm e0
            | overlay ho hs => exact absurd ⟨_, ho, hs⟩ hm
    show Res.bind (insertMetas db b) _ = _
    rw [em]
    show Res.bind (Res.unwrap b.said) _ = _
    rw [hbs, Res.unwrap_some]
    dsimp only [Res.bind]
    show Res.bind (Res.unwrap b.captureBase.said) _ = _
    rw [hcs, Res.unwrap_some]
    dsimp only [Res.bind]
    show Res.bind (exploreOrNew db3 bs) _ = _
    rw [ebr]
    show Res.bind (relObj db3 cs) _ = _
    rw [exc]
    show Res.bind (exploreOrNew db3 cs) _ = _
    rw [ecr]
    show Res.bind (relObj db3 bs) _ = _
    rw [exb]
    show Res.bind (relLoop O bs cs db3 (setInsert br xc) (setInsert cr xb) b.overlays) _ = _
    rw [el]
    show Res.bind (writeRels O db4 bs br') _ = _
    rw [e5]
    exact e6

theorem RelsGood.add (O : SetOrder) {db : Store} (h : RelsGood db) {b : Bundle} (hf : none ∉ b.saids)
    (hs : ∀ s, some s ∈ b.saids → (utf8 s).length ≤ 255 ∧ ∀ t, s ≠ metaKey t) :
    ∃ db', addRelations O db b = .ok db' ∧ RelsGood db' := by
  obtain ⟨R, M, h⟩ := h
  obtain ⟨db', R', M', e, r, -⟩ := h.addAny O hf hs
  exact ⟨db', e, R', M', r⟩

/-! ## The other records -/

theorem Store.put_insert_ok {ε : Type} (d : Store) (ns : Namespace) (k : Str) (v : Bytes) :
    ∃ d', (d.put ns k v : Res ε Store) = .ok d' ∧ d.insert ns k v = .ok d' := by
  obtain ⟨d', h⟩ := d.insert_ok ns k v
  exact ⟨d', by unfold Store.put; rw [h], h⟩

theorem lenPrefixed_ok_st {ε : Type} {s : Str} (h : (utf8 s).length ≤ 255) : ∃ b, (lenPrefixed s : Res ε Bytes) = .ok b := by
  unfold lenPrefixed lenByte
  rw [if_pos (by omega)]
  exact ⟨_, rfl⟩

theorem parentBytes_ok {ε : Type} {p : Option Said} (h : ∀ s, p = some s → (utf8 s).length ≤ 255) :
    ∃ b, (parentBytes p : Res ε Bytes) = .ok b := by
  cases p with
  | none => exact ⟨_, rfl⟩
  | some s => exact lenPrefixed_ok_st (h s rfl)

/-- What a step needs to be stored. -/
structure BuildStep.Short (st : BuildStep) : Prop where
  signed : st.Signed
  parent : ∀ s, st.parentSaid = some s → (utf8 s).length ≤ 255
  saids : ∀ s, some s ∈ st.result.saids → (utf8 s).length ≤ 255

theorem putOverlays_ok {ε : Type} (S : Serde) (os : List Overlay) (h : ∀ o ∈ os, o.said ≠ none) : ∀ (d : Store),
    ∃ d', (putOverlays S d os : Res ε Store) = .ok d' := by
  induction os with
  | nil => exact fun d => ⟨d, rfl⟩
  | cons o t ih =>
    intro d
    obtain ⟨s, hs⟩ := Option.ne_none_iff_exists'.1 (h o (List.mem_cons_self ..))
    obtain ⟨d1, e1, -⟩ := Store.put_insert_ok (ε := ε) d .objectsJson s (utf8 (S.print o.toJson))
    obtain ⟨d2, e2⟩ := ih (fun o ho => h o (List.mem_cons_of_mem _ ho)) d1
    refine ⟨d2, ?_⟩
    show Res.bind (Res.unwrap o.said) _ = _
    rw [hs, Res.unwrap_some]
    dsimp only [Res.bind]
    show Res.bind (d.put .objectsJson s _) _ = _
    rw [e1]
    exact e2

theorem buildStep_ok {ε : Type} {E : Env} {S : Serde} (f : Facade) {st : BuildStep} (h : st.Short) :
    ∃ f', (f.buildStep E S st : Res ε Facade) = .ok f' ∧ ∀ k, f'.db.get .relations k = f.db.get .relations k := by
  obtain ⟨pb, hp⟩ := parentBytes_ok (ε := ε) h.parent
  obtain ⟨s, hs⟩ := Option.ne_none_iff_exists'.1 h.signed.1
  obtain ⟨c, hc⟩ := Option.ne_none_iff_exists'.1 h.signed.2.1
  obtain ⟨d1, e1, i1⟩ := Store.put_insert_ok (ε := ε) f.db .oca (opKey s) (pb ++ utf8 (S.print st.command.toJson))
  obtain ⟨d2, e2, -⟩ := Store.put_insert_ok (ε := ε) f.cache .bundlesJson s (utf8 (S.print (st.result.toJson E)))
  obtain ⟨d3, e3, -⟩ := Store.put_insert_ok (ε := ε) d2 .objectsJson c (utf8 (S.print st.result.captureBase.toJson))
  obtain ⟨d4, e4⟩ := putOverlays_ok (ε := ε) S st.result.overlays h.signed.2.2 d3
  refine ⟨{ f with db := d1, cache := d4 }, ?_, ?_⟩
  · show Res.bind (operationBytes S st.parentSaid st.command.toJson) _ = _
    unfold operationBytes
    rw [hp]
    show Res.bind (Res.unwrap st.result.said) _ = _
    rw [hs, Res.unwrap_some]
    dsimp only [Res.bind]
    show Res.bind (f.db.put .oca (opKey s) _) _ = _
    rw [e1]
    dsimp only [Res.bind]
    show Res.bind (f.cache.put .bundlesJson s _) _ = _
    rw [e2]
    dsimp only [Res.bind]
    show Res.bind (Res.unwrap st.result.captureBase.said) _ = _
    rw [hc, Res.unwrap_some]
    dsimp only [Res.bind]
    show Res.bind (d2.put .objectsJson c _) _ = _
    rw [e3]
    dsimp only [Res.bind]
    show Res.bind (putOverlays S d3 st.result.overlays) _ = _
    rw [e4]
    rfl
  · intro k
    show d1.get .relations k = _
    rw [Store.get_insert _ _ _ _ _ _ _ i1, if_neg (fun e => by cases e.1)]

theorem steps_ok {ε : Type} {E : Env} {S : Serde} (l : List BuildStep) (h : ∀ st ∈ l, st.Short) : ∀ (f : Facade),
    ∃ f', (foldRes (Facade.buildStep E S) f l : Res ε Facade) = .ok f' ∧ ∀ k, f'.db.get .relations k = f.db.get .relations k := by
  induction l with
  | nil => exact fun f => ⟨f, rfl, fun _ => rfl⟩
  | cons st t ih =>
    intro f
    obtain ⟨f1, e1, r1⟩ := buildStep_ok (ε := ε) (E := E) (S := S) f (h st (List.mem_cons_self ..))
    obtain ⟨f2, e2, r2⟩ := ih (fun st ht => h st (List.mem_cons_of_mem _ ht)) f1
    exact ⟨f2, by simp only [foldRes]; rw [e1]; exact e2, fun k => (r2 k).trans (r1 k)⟩

/-! ## The core model -/

/-- all identifiers of the state are short -/
structure DagState.Short (s : DagState) : Prop where
  bundle : ∀ x, s.bundle = some x → (utf8 x).length ≤ 255
  base : ∀ x, s.captureBase = some x → (utf8 x).length ≤ 255
  overlays : ∀ k x, s.overlays.get k = some x → (utf8 x).length ≤ 255

/-- all identifiers of an object's record are short -/
structure ObjectModel.Short (m : ObjectModel) : Prop where
  parent : ∀ x, m.parent = some x → (utf8 x).length ≤ 255
  command : (utf8 m.commandDigest).length ≤ 255

/-- all identifiers of a record are short -/
structure ResultModel.Short (m : ResultModel) : Prop where
  parent : ∀ x, m.bundle.parent = some x → (utf8 x).length ≤ 255
  base : (utf8 m.bundle.captureBase).length ≤ 255
  overlays : ∀ x ∈ m.bundle.overlays, (utf8 x).length ≤ 255
  baseModel : ∀ o, m.captureBase = some o → o.Short
  overlayModel : ∀ o, m.overlay = some o → o.Short

theorem mem_unwrapSaids {ε : Type} (os : List Overlay) : ∀ {l : List Said}, (unwrapSaids os : Res ε _) = .ok l →
    ∀ x ∈ l, ∃ o ∈ os, o.said = some x := by
  induction os with
  | nil => intro l h x hx; cases h; cases hx
  | cons o t ih =>
    intro l h x hx
    obtain ⟨s, h1, h⟩ := Res.bind_eq_ok.1 (show Res.bind _ _ = _ from h)
    obtain ⟨l', h2, h⟩ := Res.bind_eq_ok.1 (show Res.bind _ _ = _ from h)
    cases h
    rcases List.mem_cons.1 hx with rfl | hx
    · exact ⟨o, List.mem_cons_self .., Res.unwrap_eq h1⟩
    · obtain ⟨o', ho', e⟩ := ih h2 x hx
      exact ⟨o', List.mem_cons_of_mem _ ho', e⟩

theorem dagStep_short {ε : Type} {E : Env} (hE : E.PlainDigests) {s : DagState} (hs : s.Short) {st : BuildStep} (h : st.Short)
    {r : DagState × ResultModel} (hr : (dagStep E s st : Res ε _) = .ok r) : r.1.Short ∧ r.2.Short := by
  obtain ⟨d, h1, hr⟩ := Res.bind_eq_ok.1 (show Res.bind _ _ = _ from hr)
  obtain ⟨bs, h2, hr⟩ := Res.bind_eq_ok.1 (show Res.bind _ _ = _ from hr)
  obtain ⟨cs, h3, hr⟩ := Res.bind_eq_ok.1 (show Res.bind _ _ = _ from hr)
  obtain ⟨os, h4, hr⟩ := Res.bind_eq_ok.1 (show Res.bind _ _ = _ from hr)
  cases hr
  have hb := Res.unwrap_eq h2
  have hc := Res.unwrap_eq h3
  have lb : (utf8 bs).length ≤ 255 := h.saids bs (by simp [Bundle.saids, hb])
  have lc : (utf8 cs).length ≤ 255 := h.saids cs (by simp [Bundle.saids, hc])
  have ho : ∀ o ∈ st.result.overlays, ∀ x, o.said = some x → (utf8 x).length ≤ 255 := fun o ho x hx =>
    h.saids x (by simp only [Bundle.saids]; exact .tail _ (.tail _ (List.mem_map.2 ⟨o, ho, hx⟩)))
  have los : ∀ x ∈ os, (utf8 x).length ≤ 255 := by
    intro x hx
    obtain ⟨o, hoo, e⟩ := mem_unwrapSaids _ h4 x hx
    exact ho o hoo x e
  have hd : d.1.Short ∧ (∀ o, d.2.1 = some o → o.Short) ∧ ∀ o, d.2.2 = some o → o.Short := by
    unfold dagObject at h1
    split at h1
    · obtain ⟨x, e1, h1⟩ := Res.bind_eq_ok.1 (show Res.bind _ _ = _ from h1)
      cases h1
      rw [hc] at e1
      cases e1
      refine ⟨⟨hs.bundle, (fun x e => by cases e; exact lc), hs.overlays⟩, ?_, (fun o e => by cases e)⟩
      intro o e
      cases e
      exact ⟨hs.base, (hE _).1⟩
    · dsimp only at h1
      split at h1
      · next o hfind =>
        have hmem := List.mem_of_find?_eq_some hfind
        obtain ⟨k, e1, h1⟩ := Res.bind_eq_ok.1 (show Res.bind _ _ = _ from h1)
        obtain ⟨x, e2, h1⟩ := Res.bind_eq_ok.1 (show Res.bind _ _ = _ from h1)
        cases h1
        refine ⟨⟨hs.bundle, hs.base, ?_⟩, (fun o e => by cases e), ?_⟩
        · intro k' x' hx'
          simp only [FMap.get_insert] at hx'
          split at hx'
          · cases hx'; exact ho o hmem x (Res.unwrap_eq e2)
          · exact hs.overlays k' x' hx'
        · intro o' e
          cases e
          exact ⟨hs.overlays k, (hE _).1⟩
      · cases h1
        exact ⟨hs, (fun o e => by cases e), (fun o e => by cases e)⟩
    · cases h1
      exact ⟨hs, (fun o e => by cases e), (fun o e => by cases e)⟩
  exact ⟨⟨(fun x e => by cases e; exact lb), hd.1.base, hd.1.overlays⟩, ⟨hs.bundle, lc, los, hd.2.1, hd.2.2⟩⟩

theorem coreModels_short {ε : Type} {E : Env} (hE : E.PlainDigests) (l : List BuildStep) (h : ∀ st ∈ l, st.Short) :
    ∀ {s : DagState}, s.Short → ∃ ms, (coreModels E s l : Res ε _) = .ok ms ∧ ∀ m ∈ ms, m.Short := by
  induction l with
  | nil => intro s hs; exact ⟨[], rfl, fun m h => by cases h⟩
  | cons st t ih =>
    intro s hs
    have hst := h st (List.mem_cons_self ..)
    obtain ⟨r, hr⟩ := dagStep_ok (ε := ε) E s st hst.signed
    obtain ⟨h1, h2⟩ := dagStep_short hE hs hst hr
    obtain ⟨ms, e, hms⟩ := ih (fun st ht => h st (List.mem_cons_of_mem _ ht)) h1
    refine ⟨r.2 :: ms, ?_, ?_⟩
    · show Res.bind (dagStep E s st) _ = _
      rw [hr]
      show Res.bind (coreModels E r.1 t) _ = _
      rw [e]
      rfl
    · intro m hm
      rcases List.mem_cons.1 hm with rfl | hm
      · exact h2
      · exact hms m hm

theorem lenPrefixedAll_ok {ε : Type} (l : List Said) (h : ∀ x ∈ l, (utf8 x).length ≤ 255) : ∃ b, (lenPrefixedAll l : Res ε Bytes) = .ok b := by
  induction l with
  | nil => exact ⟨_, rfl⟩
  | cons s t ih =>
    obtain ⟨a, ha⟩ := lenPrefixed_ok_st (ε := ε) (h s (List.mem_cons_self ..))
    obtain ⟨b, hb⟩ := ih fun x hx => h x (List.mem_cons_of_mem _ hx)
    refine ⟨a ++ b, ?_⟩
    show Res.bind (lenPrefixed s) _ = _
    rw [ha]
    show Res.bind (lenPrefixedAll t) _ = _
    rw [hb]
    rfl

theorem putObjectModel_ok {ε : Type} (d : Store) {o : Option ObjectModel} (h : ∀ m, o = some m → m.Short) :
    ∃ d', (putObjectModel d o : Res ε Store) = .ok d' ∧ ∀ k, d'.get .relations k = d.get .relations k := by
  cases o with
  | none => exact ⟨d, rfl, fun _ => rfl⟩
  | some m =>
    have hm := h m rfl
    obtain ⟨p, hp⟩ := parentBytes_ok (ε := ε) hm.parent
    obtain ⟨c, hc⟩ := lenPrefixed_ok_st (ε := ε) hm.command
    obtain ⟨d', e, i⟩ := Store.put_insert_ok (ε := ε) d .coreModel (coreKey m.said) (p ++ c)
    refine ⟨d', ?_, fun k => ?_⟩
    · show Res.bind (objectModelBytes m) _ = _
      unfold objectModelBytes
      rw [hp]
      show Res.bind (Res.bind (lenPrefixed m.commandDigest) _) _ = _
      rw [hc]
      exact e
    · rw [Store.get_insert _ _ _ _ _ _ _ i, if_neg (fun e => by cases e.1)]

theorem putModel_ok {ε : Type} (S : Serde) (d : Store) {m : ResultModel} (h : m.Short) :
    ∃ d', (putModel S d m : Res ε Store) = .ok d' ∧ ∀ k, d'.get .relations k = d.get .relations k := by
  obtain ⟨d1, e1, i1⟩ := Store.put_insert_ok (ε := ε) d .coreModel (coreKey m.command.digest) (utf8 (S.print m.command.json))
  obtain ⟨d2, e2, r2⟩ := putObjectModel_ok (ε := ε) d1 h.baseModel
  obtain ⟨d3, e3, r3⟩ := putObjectModel_ok (ε := ε) d2 h.overlayModel
  obtain ⟨p, hp⟩ := parentBytes_ok (ε := ε) h.parent
  obtain ⟨c, hc⟩ := lenPrefixed_ok_st (ε := ε) h.base
  obtain ⟨os, hos⟩ := lenPrefixedAll_ok (ε := ε) _ h.overlays
  obtain ⟨d4, e4, i4⟩ := Store.put_insert_ok (ε := ε) d3 .coreModel (coreKey m.bundle.said) (p ++ c ++ os)
  refine ⟨d4, ?_, fun k => ?_⟩
  · have hb : (bundleModelBytes m.bundle : Res ε Bytes) = .ok (p ++ c ++ os) := by
      simp only [bundleModelBytes, hp, hc, hos, Res.bind_ok, Res.pure_eq]
    simp only [putModel, e1, e2, e3, hb, e4, Res.bind_ok]
  · rw [Store.get_insert _ _ _ _ _ _ _ i4, if_neg (fun e => by cases e.1), r3, r2, Store.get_insert _ _ _ _ _ _ _ i1,
      if_neg (fun e => by cases e.1)]

theorem putModels_ok {ε : Type} (S : Serde) (ms : List ResultModel) (h : ∀ m ∈ ms, m.Short) : ∀ (d : Store),
    ∃ d', (foldRes (putModel S) d ms : Res ε Store) = .ok d' ∧ ∀ k, d'.get .relations k = d.get .relations k := by
  induction ms with
  | nil => exact fun d => ⟨d, rfl, fun _ => rfl⟩
  | cons m t ih =>
    intro d
    obtain ⟨d1, e1, r1⟩ := putModel_ok (ε := ε) S d (h m (List.mem_cons_self ..))
    obtain ⟨d2, e2, r2⟩ := ih (fun m hm => h m (List.mem_cons_of_mem _ hm)) d1
    exact ⟨d2, by simp only [foldRes]; rw [e1]; exact e2, fun k => (r2 k).trans (r1 k)⟩

/-! ## The whole build -/

theorem RelsGood.congr {d d' : Store} (h : RelsGood d) (he : ∀ k, d'.get .relations k = d.get .relations k) : RelsGood d' := by
  obtain ⟨R, M, h⟩ := h
  exact ⟨R, M, h.congr he⟩

theorem build_total {ε : Type} {E : Env} (hE : E.PlainDigests) (S : Serde) (O : SetOrder) {f : Facade} (hf : RelsGood f.db)
    {b : Build} (hst : ∀ st ∈ b.steps, st.Short) (hn : none ∉ b.bundle.saids)
    (hs : ∀ s, some s ∈ b.bundle.saids → (utf8 s).length ≤ 255 ∧ ∀ t, s ≠ metaKey t) :
    ∃ f', (f.build E S O b : Res ε Facade) = .ok f' ∧ RelsGood f'.db := by
  cases hbs : b.bundle.said with
  | none => exact absurd (by simp [Bundle.saids, hbs]) hn
  | some s =>
  cases hcs : b.bundle.captureBase.said with
  | none => exact absurd (by simp [Bundle.saids, hcs]) hn
  | some c =>
    have h1 : ∃ f1, (f.buildCache E S b.bundle : Res ε Facade) = .ok f1 ∧ f1.db = f.db := by
      refine ⟨{ f with bundles := f.bundles.insertRow s (S.print (b.bundle.toJson E)),
                       bases := f.bases.insertRow c (S.print b.bundle.captureBase.toJson) }, ?_, rfl⟩
      simp only [Facade.buildCache, hbs, hcs, Res.unwrap_some, Res.bind_ok, Res.pure_eq]
    obtain ⟨f1, e1, d1⟩ := h1
    have h2 : ∃ f2, (f1.buildMeta b.bundle : Res ε Facade) = .ok f2 ∧ f2.db = f1.db := by
      unfold Facade.buildMeta
      split
      · rw [hbs]
        exact ⟨_, rfl, rfl⟩
      · exact ⟨_, rfl, rfl⟩
    obtain ⟨f2, e2, d2⟩ := h2
    obtain ⟨f3, e3, r3⟩ := steps_ok (ε := ε) (E := E) (S := S) b.steps hst f2
    have g3 : RelsGood f3.db := hf.congr fun k => by rw [r3, d2, d1]
    obtain ⟨db4, e4, g4⟩ := g3.add O hn hs
    obtain ⟨ms, em, hms⟩ := coreModels_short (ε := ε) hE b.steps hst (s := {}) ⟨fun _ h => (by cases h), fun _ h => (by cases h),
      fun _ _ h => (by cases h)⟩
    obtain ⟨db5, e5, r5⟩ := putModels_ok (ε := ε) S ms hms db4
    refine ⟨{ f3 with db := db5 }, ?_, g4.congr r5⟩
    show Res.bind (f.buildCache E S b.bundle) _ = _
    rw [e1]
    show Res.bind (f1.buildMeta b.bundle) _ = _
    rw [e2]
    show Res.bind (foldRes (Facade.buildStep E S) f2 b.steps) _ = _
    rw [e3]
    dsimp only [Res.bind]
    rw [e4]
    show Res.bind (buildCoreModel E b.steps) _ = _
    unfold buildCoreModel
    rw [em]
    show Res.bind (foldRes (putModel S) db4 ms) _ = _
    rw [e5]
    rfl

theorem stepsFrom_short {E : Env} (hE : E.PlainDigests) {Os : Nat → Order} {cs : List Command} {i : Nat} {p : Option Said} {b : Option OCABox}
    (hp : ∀ s, p = some s → (utf8 s).length ≤ 255) : ∀ st ∈ stepsFrom E Os i p b cs, st.Short := by
  have digest : ∀ (O : Order) (box : OCABox) s, some s ∈ (bundleOf E O box).saids → (utf8 s).length ≤ 255 := by
    intro O box s hs
    obtain ⟨j, e⟩ := bundleOf_saids E O box _ hs
    cases e
    exact (hE j).1
  intro st hst
  refine ⟨stepsFrom_signed st hst, ?_, ?_⟩
  · induction cs generalizing i p b with
    | nil => cases hst
    | cons c t ih =>
      unfold stepsFrom at hst
      split at hst
      · rcases List.mem_cons.1 hst with rfl | hst
        · exact hp
        · exact ih (fun s e => digest _ _ s (by rw [← e]; exact List.mem_cons_self ..)) hst
      · exact ih hp hst
  · induction cs generalizing i p b with
    | nil => cases hst
    | cons c t ih =>
      unfold stepsFrom at hst
      split at hst
      · rcases List.mem_cons.1 hst with rfl | hst
        · exact digest _ _
        · exact ih (fun s e => digest _ _ s (by rw [← e]; exact List.mem_cons_self ..)) hst
      · exact ih hp hst

/-- a base found in the storage has a well-formed identifier -/
theorem checkBase_valid {ε : Type} {E : Env} {S : Serde} {cache : Store} {a a' : OCAAst} {base : Option Bundle}
    (h : (checkBase E S cache a : Res ε _) = .ok (base, a')) : ∀ s, base.bind Bundle.said = some s → E.validSaid s = true := by
  intro s hs
  unfold checkBase at h
  split at h
  · split at h
    · split at h
      · next b hf =>
        cases h
        unfold fetchBundle at hf
        split at hf
        · cases hf
        · cases hf
        · cases hf
        · obtain ⟨t, -, hf⟩ := Res.bind_eq_ok.1 (show Res.bind _ _ = _ from hf)
          split at hf
          · cases hf
          · next j _ =>
            cases hj : Bundle.ofJson E j with
            | ok b' =>
              rw [hj] at hf
              cases hf
              exact (C59_loaded_bundle E j b hj).1 s hs
            | err _ => rw [hj] at hf; cases hf
            | panic => rw [hj] at hf; cases hf
      · cases h; cases hs
      · cases h
    · cases h
  · cases h; cases hs

/-- A build of `from_ast` on a base found in the storage can be stored. -/
theorem build_of_ast {ε ε' : Type} {E : Env} (hE : E.ShortSaids) (S : Serde) (O : SetOrder) {f : Facade} (hf : RelsGood f.db)
    {cache : Store} {a a' a'' : OCAAst} {base : Option Bundle} (hb : (checkBase E S cache a : Res ε' _) = .ok (base, a'))
    {Os : Nat → Order} {b : Build} (h : fromAst E Os base a'' = .ok b) :
    ∃ f', (f.build E S O b : Res ε Facade) = .ok f' ∧ RelsGood f'.db := by
  obtain ⟨bx, box, -, -, -, -, -, rfl⟩ := fromAst_steps h
  refine build_total hE.plain S O hf ?_ ?_ ?_
  · exact stepsFrom_short hE.plain fun s e => (hE s (checkBase_valid hb s e)).1
  · intro hn
    obtain ⟨j, e⟩ := bundleOf_saids E _ box _ hn
    cases e
  · intro s hs
    obtain ⟨j, e⟩ := bundleOf_saids E _ box _ hs
    cases e
    exact hE.plain j

/-- The facades that any validations and builds lead to, with or without local references. -/
inductive Facade.AnyRuns (E : Env) (S : Serde) : Facade → Prop
  | new : AnyRuns E S Facade.new
  | validated {f f' : Facade} {Os : Nat → Order} {ls : List Line} {b : Build} :
      AnyRuns E S f → f.validate E S Os ls = .ok (f', b) → AnyRuns E S f'
  | built {f f1 f' : Facade} {Os : Nat → Order} {O : SetOrder} {ls : List Line} {b : Build} :
      AnyRuns E S f → f.validate E S Os ls = .ok (f1, b) → (f1.build E S O b : Res (List VErr) _) = .ok f' → AnyRuns E S f'
  | builtPlain {f f' : Facade} {Os : Nat → Order} {O : SetOrder} {ls : List Line} {b : Build} :
      AnyRuns E S f → f.validatePlain E S Os ls = .ok b → (f.build E S O b : Res (List VErr) _) = .ok f' → AnyRuns E S f'

theorem RelsGood.new : RelsGood Facade.new.db := ⟨fun _ => none, fun _ => none,
  ⟨fun _ _ _ => rfl, (fun _ _ _ h => by cases h), fun _ => rfl, (fun _ _ h => by cases h), (fun _ _ h => by cases h)⟩⟩

theorem mapErr_eq_ok {ε ε' α : Type} {g : ε → ε'} {x : Res ε α} {a : α} (h : x.mapErr g = .ok a) : x = .ok a := by
  cases x with
  | ok y => cases h; rfl
  | err _ => cases h
  | panic => cases h

theorem validatePlain_parts {E : Env} {S : Serde} {Os : Nat → Order} {f : Facade} {ls : List Line} {b : Build}
    (h : f.validatePlain E S Os ls = .ok b) :
    ∃ ast base ast', parseLines ls = .ok ast ∧ (checkBase E S f.cache ast : Res (List VErr) _) = .ok (base, ast') ∧
      fromAst E Os base ast' = .ok b := by
  unfold Facade.validatePlain at h
  obtain ⟨ast, ha, h⟩ := Res.bind_eq_ok.1 h
  obtain ⟨⟨base, ast'⟩, hb, h⟩ := Res.bind_eq_ok.1 h
  exact ⟨ast, base, ast', mapErr_eq_ok ha, hb, mapErr_eq_ok h⟩

/-- What was validated can be stored, in a storage whose relations are readable. -/
theorem validated_stores {ε : Type} {E : Env} (hE : E.ShortSaids) (S : Serde) (O : SetOrder) {f f1 : Facade} (hf : RelsGood f.db)
    {Os : Nat → Order} {ls : List Line} {b : Build} (h : f.validate E S Os ls = .ok (f1, b)) :
    RelsGood f1.db ∧ ∃ f', (f1.build E S O b : Res ε Facade) = .ok f' ∧ RelsGood f'.db := by
  obtain ⟨ast, base, ast', cs, -, h2, -, h4, -, -, -, -, h9⟩ := validate_parts h
  have hg := hf.congr (h9 .relations (by decide))
  exact ⟨hg, build_of_ast hE S O hg h2 h4⟩

theorem validatedPlain_stores {ε : Type} {E : Env} (hE : E.ShortSaids) (S : Serde) (O : SetOrder) {f : Facade} (hf : RelsGood f.db)
    {Os : Nat → Order} {ls : List Line} {b : Build} (h : f.validatePlain E S Os ls = .ok b) :
    ∃ f', (f.build E S O b : Res ε Facade) = .ok f' ∧ RelsGood f'.db := by
  obtain ⟨ast, base, ast', -, h2, h3⟩ := validatePlain_parts h
  exact build_of_ast hE S O hf h2 h3

theorem Facade.AnyRuns.good {E : Env} (hE : E.ShortSaids) {S : Serde} {f : Facade} (h : Facade.AnyRuns E S f) : RelsGood f.db := by
  induction h with
  | new => exact .new
  | validated _ hv ih => exact (validated_stores (ε := Unit) hE S .kept ih hv).1
  | @built f f1 f' Os O ls b _ hv hb ih =>
    obtain ⟨-, f'', e, g⟩ := validated_stores (ε := List VErr) hE S O ih hv
    rw [hb] at e
    cases e
    exact g
  | @builtPlain f f' Os O ls b _ hv hb ih =>
    obtain ⟨f'', e, g⟩ := validatedPlain_stores (ε := List VErr) hE S O ih hv
    rw [hb] at e
    cases e
    exact g

/-- **C60** Whatever files were validated and built before, in any order: a file that is validated can be stored; storing neither
fails nor aborts. -/
theorem C60_validated_is_stored (E : Env) (hE : E.ShortSaids) (S : Serde) (O : SetOrder) (f f1 : Facade) (hf : f.AnyRuns E S)
    (Os : Nat → Order) (ls : List Line) (b : Build) (h : f.validate E S Os ls = .ok (f1, b)) :
    ∃ f', (f1.build E S O b : Res (List VErr) Facade) = .ok f' ∧ f'.AnyRuns E S := by
  obtain ⟨-, f', e, -⟩ := validated_stores (ε := List VErr) hE S O (hf.good hE) h
  exact ⟨f', e, .built hf h e⟩

/-- **C60** The same without local references. -/
theorem C60_validated_is_stored_plain (E : Env) (hE : E.ShortSaids) (S : Serde) (O : SetOrder) (f : Facade) (hf : f.AnyRuns E S)
    (Os : Nat → Order) (ls : List Line) (b : Build) (h : f.validatePlain E S Os ls = .ok b) :
    ∃ f', (f.build E S O b : Res (List VErr) Facade) = .ok f' ∧ f'.AnyRuns E S := by
  obtain ⟨f', e, -⟩ := validatedPlain_stores (ε := List VErr) hE S O (hf.good hE) h
  exact ⟨f', e, .builtPlain hf h e⟩

/-- **C60** So building a file ends as validating it does: it succeeds with the same bundle, fails with the same errors, and aborts
only if validating aborts. -/
theorem C60_build_as_validate (E : Env) (hE : E.ShortSaids) (S : Serde) (O : SetOrder) (f : Facade) (hf : f.AnyRuns E S)
    (Os : Nat → Order) (ls : List Line) :
    (∀ f1 b, f.validate E S Os ls = .ok (f1, b) → ∃ f', f.buildFile E S Os O ls = .ok (f', b.bundle)) ∧
    (∀ e, f.validate E S Os ls = .err e → f.buildFile E S Os O ls = .err e) ∧
    (f.buildFile E S Os O ls = .panic ↔ f.validate E S Os ls = .panic) := by
  have hok : ∀ f1 b, f.validate E S Os ls = .ok (f1, b) → ∃ f', f.buildFile E S Os O ls = .ok (f', b.bundle) := by
    intro f1 b h
    obtain ⟨f', e, -⟩ := C60_validated_is_stored E hE S O f f1 hf Os ls b h
    refine ⟨f', ?_⟩
    unfold Facade.buildFile
    simp only [h, e, Res.bind_ok, Res.pure_eq]
  have herr : ∀ e, f.validate E S Os ls = .err e → f.buildFile E S Os O ls = .err e := by
    intro e h
    unfold Facade.buildFile
    rw [h]
    rfl
  refine ⟨hok, herr, ⟨fun h => ?_, fun h => ?_⟩⟩
  · cases hv : f.validate E S Os ls with
    | ok x =>
      obtain ⟨f', e⟩ := hok x.1 x.2 hv
      rw [h] at e
      cases e
    | err e => rw [herr e hv] at h; cases h
    | panic => rfl
  · unfold Facade.buildFile
    rw [h]
    rfl

/-! ## A concrete case -/

/-- The example environment, in which only texts like its identifiers are identifiers. -/
def Env.tight : Env := { Env.short with
  validSaid := fun s => decide (s.head? = some 'E' ∧ s.length = 13 ∧ ∀ c ∈ s, c.val < 128 ∧ c ≠ '.')
  digest_valid := fun j => by
    refine decide_eq_true ⟨rfl, ?_, ?_⟩
    · show ('E' :: letters 12 _).length = 13
      rw [List.length_cons, letters_length]
    · intro c hc
      rcases List.mem_cons.1 (show c ∈ 'E' :: letters _ _ from hc) with rfl | hc
      · decide
      · exact letters_mem hc }

theorem tight_short : Env.tight.ShortSaids := by
  intro s hs
  obtain ⟨-, h2, h3⟩ := of_decide_eq_true hs
  refine ⟨?_, ?_⟩
  · rw [utf8_ascii _ fun c hc => (h3 c hc).1, h2]
    decide
  · rintro t rfl
    exact (h3 '.' (by simp [metaKey])).2 rfl

/-- build one file, then validate another on the same facade: the number of steps of the second -/
def oneThenOther (cs ds : List Command) : Option Nat :=
  match Facade.new.validate Env.tight Serde.text (fun _ => Order.sorted) (fileOf cs) with
  | .ok (f1, b) => match (f1.build Env.tight Serde.text .kept b : Res (List VErr) _) with
    | .ok f2 => match f2.validate Env.tight Serde.text (fun _ => Order.sorted) (fileOf ds) with
      | .ok (_, b) => some b.steps.length
      | _ => none
    | _ => none
  | _ => none

/-- **C60**, a concrete case: a facade with something in it, and a file it validates. -/
theorem C60_example : ∃ (f f1 : Facade) (b : Build), f.AnyRuns Env.tight Serde.text ∧
    f.validate Env.tight Serde.text (fun _ => Order.sorted) (fileOf (addTwo ++ [removeAttrs [c!"b"]])) = .ok (f1, b) ∧ b.steps.length = 3 := by
  have key : oneThenOther addTwo (addTwo ++ [removeAttrs [c!"b"]]) = some 3 := by decide +kernel
  unfold oneThenOther at key
  split at key
  · next f1 b h1 =>
    split at key
    · next f2 h2 =>
      split at key
      · next x y h3 =>
        refine ⟨f2, _, _, .built .new h1 h2, h3, ?_⟩
        exact Option.some.inj key
      · cases key
    · cases key
  · cases key

end OCA
