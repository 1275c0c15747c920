import Verif.Props.Storage
import Verif.Model.Explore
/-!
# Relations between stored objects (C34)
-/
namespace OCA

/-! ## The specification -/

/-- The objects of a bundle with their kinds: 1 for the bundle, 0 for the capture base, and the code of each overlay. -/
inductive Bundle.Has (b : Bundle) : Said → Nat → Prop where
  | bundle {s : Said} : b.said = some s → b.Has s 1
  | base {s : Said} : b.captureBase.said = some s → b.Has s 0
  | overlay {o : Overlay} {s : Said} : o ∈ b.overlays → o.said = some s → b.Has s o.body.kind.code

/-- The relations a bundle stands for: bundle with capture base and overlays, capture base with overlays, both ways.
Two overlays are not related. -/
def Bundle.Relates (b : Bundle) (x : Said) (y : RelObj) : Prop :=
  x ≠ y.1 ∧ b.Has y.1 y.2 ∧ (∃ k, b.Has x k) ∧
    (b.said = some x ∨ b.captureBase.said = some x ∨ b.said = some y.1 ∨ b.captureBase.said = some y.1)

/-- The SAIDs of a bundle, all of which are filled in. -/
def Bundle.saids (b : Bundle) : List (Option Said) :=
  b.said :: b.captureBase.said :: b.overlays.map (·.said)

/-- A bundle as `generate_bundle` leaves it: all SAIDs filled in, pairwise different, of at most 255 bytes, and none
the metadata key of another object. -/
structure Bundle.Labelled (b : Bundle) : Prop where
  filled : none ∉ b.saids
  distinct : b.saids.Nodup
  short : ∀ s, some s ∈ b.saids → (utf8 s).length ≤ 255
  plain : ∀ s, some s ∈ b.saids → ∀ t, s ≠ metaKey t

/-! ## What the storage holds -/

theorem metaKey_inj {s t : Str} (h : metaKey s = metaKey t) : s = t := List.append_cancel_right h

/-- The relations namespace holds the relation lists `R` and the kinds `M`. -/
structure RelRep (db : Store) (R : Str → Option (List RelObj)) (M : Str → Option Nat) : Prop where
  none' : ∀ x, (∀ t, x ≠ metaKey t) → R x = none → db.get .relations x = .ok none
  some' : ∀ x, (∀ t, x ≠ metaKey t) → ∀ l, R x = some l → l.Nodup ∧ (∀ o ∈ l, o.Fits) ∧
    ∃ b, db.get .relations x = .ok (some b) ∧ (relationsOf b : Res Str _) = .ok l
  kind : ∀ x, db.get .relations (metaKey x) = .ok ((M x).map fun c => [UInt8.ofNat c])
  code : ∀ x c, M x = some c → c ≤ 22
  known : ∀ x l, R x = some l → ∃ c, M x = some c

variable {db : Store} {R : Str → Option (List RelObj)} {M : Str → Option Nat}

theorem RelRep.objectType_eq (h : RelRep db R M) {x : Said} {c : Nat} (hc : M x = some c) :
    objectType db x = .ok c := by
  have h2 := h.code x c hc
  obtain ⟨o, ho, hoc⟩ := code_ofCode c h2
  have hn : (UInt8.ofNat c).toNat = c := by
    rw [UInt8.toNat_ofNat']
    exact Nat.mod_eq_of_lt (by omega)
  unfold objectType
  rw [h.kind, hc]
  simp only [Option.map_some, Res.bind_ok, Res.unwrap, List.head?_cons, hn, ho]
  rw [← hoc]
  rfl

theorem RelRep.relObj_eq (h : RelRep db R M) {x : Said} {c : Nat} (hc : M x = some c) :
    relObj db x = .ok (x, c) := by
  unfold relObj
  rw [h.objectType_eq hc]
  rfl

theorem RelRep.explore_eq (h : RelRep db R M) {x : Said} (hx : ∀ t, x ≠ metaKey t) :
    explore db x = .ok (R x) := by
  unfold explore
  cases hr : R x with
  | none => rw [h.none' x hx hr]
  | some l =>
    obtain ⟨_, _, b, hb, hl⟩ := h.some' x hx l hr
    obtain ⟨c, hc⟩ := h.known x l hr
    rw [hb]
    dsimp only
    rw [hl, Res.bind_ok, h.objectType_eq hc]
    rfl

theorem RelRep.exploreOrNew_eq (h : RelRep db R M) {x : Said} (hx : ∀ t, x ≠ metaKey t) {c : Nat}
    (hc : M x = some c) : exploreOrNew db x = .ok ((R x).getD []) := by
  unfold exploreOrNew
  rw [h.explore_eq hx, Res.bind_ok, h.relObj_eq hc]
  rfl

theorem mem_setInsert {α : Type} [DecidableEq α] {l : List α} {a x : α} :
    x ∈ setInsert l a ↔ x ∈ l ∨ x = a := by
  unfold setInsert
  split
  · constructor
    · exact .inl
    · rintro (h | rfl)
      · exact h
      · assumption
  · simp

theorem nodup_setInsert {α : Type} [DecidableEq α] {l : List α} {a : α} (h : l.Nodup) : (setInsert l a).Nodup := by
  unfold setInsert
  split
  · exact h
  · rename_i hn
    rw [List.nodup_append]
    refine ⟨h, by simp, ?_⟩
    intro x hx y hy
    rw [List.mem_singleton] at hy
    subst hy
    exact fun e => hn (e ▸ hx)

theorem mem_foldl_setInsert {α : Type} [DecidableEq α] {l acc : List α} {x : α} :
    x ∈ l.foldl setInsert acc ↔ x ∈ acc ∨ x ∈ l := by
  induction l generalizing acc with
  | nil => simp
  | cons a t ih => rw [List.foldl_cons, ih, mem_setInsert, List.mem_cons, or_assoc]

theorem nodup_foldl_setInsert {α : Type} [DecidableEq α] {l acc : List α} (h : acc.Nodup) :
    (l.foldl setInsert acc).Nodup := by
  induction l generalizing acc with
  | nil => exact h
  | cons a t ih => exact ih (nodup_setInsert h)

/-- changing one entry -/
def updRel {β : Type} (R : Str → Option β) (s : Str) (v : β) : Str → Option β :=
  fun x => if x = s then some v else R x

theorem RelRep.write (O : SetOrder) (h : RelRep db R M) {s : Said} (hs : ∀ t, s ≠ metaKey t) {c : Nat}
    (hc : M s = some c) {l : List RelObj} (hn : l.Nodup) (hf : ∀ o ∈ l, o.Fits) :
    ∃ db' l', writeRels O db s l = .ok db' ∧ l'.Perm l ∧ RelRep db' (updRel R s l') M := by
  have hp := O.perm s l
  have hn' : (O.iter s l).Nodup := hp.nodup_iff.mpr hn
  have hf' : ∀ o ∈ O.iter s l, o.Fits := fun o ho => hf o (hp.mem_iff.mp ho)
  obtain ⟨b, hb, hd⟩ := C33_relations_round_trip (ε := Str) (O.iter s l) hn' hf'
  obtain ⟨db', hdb⟩ := db.insert_ok .relations s b
  refine ⟨db', O.iter s l, ?_, hp, ?_⟩
  · unfold writeRels
    rw [hb]
    exact hdb
  · have hg := fun k => Store.get_insert db db' .relations .relations s k b hdb
    constructor
    · intro x hx hr
      unfold updRel at hr
      split at hr
      · cases hr
      · rename_i hne
        rw [hg, if_neg (fun e => hne e.2.symm)]
        exact h.none' x hx hr
    · intro x hx l hr
      unfold updRel at hr
      split at hr
      · rename_i he
        subst he
        cases hr
        refine ⟨hn', hf', b, ?_, hd⟩
        rw [hg, if_pos ⟨rfl, rfl⟩]
      · rename_i hne
        rw [hg, if_neg (fun e => hne e.2.symm)]
        exact h.some' x hx l hr
    · intro x
      rw [hg, if_neg (fun e => hs x e.2)]
      exact h.kind x
    · exact h.code
    · intro x l hr
      unfold updRel at hr
      split at hr
      · rename_i he
        subst he
        exact ⟨c, hc⟩
      · exact h.known x l hr

theorem RelRep.meta (h : RelRep db R M) (s : Said) {c : Nat} (hc : c ≤ 22) :
    ∃ db', db.insert .relations (metaKey s) [UInt8.ofNat c] = .ok db' ∧ RelRep db' R (updRel M s c) := by
  obtain ⟨db', hdb⟩ := db.insert_ok .relations (metaKey s) [UInt8.ofNat c]
  have hg := fun k => Store.get_insert db db' .relations .relations (metaKey s) k _ hdb
  refine ⟨db', hdb, ?_⟩
  constructor
  · intro x hx hr
    rw [hg, if_neg (fun e => hx s e.2.symm)]
    exact h.none' x hx hr
  · intro x hx l hr
    rw [hg, if_neg (fun e => hx s e.2.symm)]
    exact h.some' x hx l hr
  · intro x
    rw [hg]
    unfold updRel
    by_cases e : x = s
    · subst e
      rw [if_pos ⟨rfl, rfl⟩, if_pos rfl]
      rfl
    · rw [if_neg (fun e' => e (metaKey_inj e'.2.symm)), if_neg e]
      exact h.kind x
  · intro x c' hm
    unfold updRel at hm
    split at hm
    · cases hm
      exact hc
    · exact h.code x c' hm
  · intro x l hr
    obtain ⟨c', hc'⟩ := h.known x l hr
    unfold updRel
    split
    · exact ⟨_, rfl⟩
    · exact ⟨_, hc'⟩

theorem kind_code_range (k : OvKind) : 2 ≤ k.code ∧ k.code ≤ 22 := by
  cases k <;> decide

/-- the overlays as related objects -/
def overlayObjs (os : List Overlay) : List RelObj := os.filterMap fun o => o.said.map fun s => (s, o.body.kind.code)

theorem mem_overlayObjs {os : List Overlay} {s : Said} {k : Nat} :
    (s, k) ∈ overlayObjs os ↔ ∃ o ∈ os, o.said = some s ∧ o.body.kind.code = k := by
  unfold overlayObjs
  rw [List.mem_filterMap]
  constructor
  · rintro ⟨o, ho, h⟩
    cases hs : o.said with
    | none => rw [hs] at h; cases h
    | some s' =>
      rw [hs] at h
      cases h
      exact ⟨o, ho, hs, rfl⟩
  · rintro ⟨o, ho, hs, hk⟩
    exact ⟨o, ho, by rw [hs]; subst hk; rfl⟩

theorem RelRep.overlayMetas (h : RelRep db R M) (os : List Overlay) (hf : none ∉ os.map (·.said))
    (hn : (os.map (·.said)).Nodup) :
    ∃ db' M', insertOverlayMetas db os = .ok db' ∧ RelRep db' R M' ∧
      (∀ x, some x ∉ os.map (·.said) → M' x = M x) ∧ ∀ s k, (s, k) ∈ overlayObjs os → M' s = some k := by
  induction os generalizing db M with
  | nil => exact ⟨db, M, rfl, h, fun _ _ => rfl, fun s k hm => (by cases hm)⟩
  | cons o t ih =>
    cases hs : o.said with
    | none => exact absurd (by rw [List.map_cons, hs]; exact .head _) hf
    | some s =>
      rw [List.map_cons, hs] at hf hn
      obtain ⟨db1, h1, hr1⟩ := h.meta s (kind_code_range o.body.kind).2
      obtain ⟨db2, M2, h2, hr2, hM, hO⟩ := ih hr1 (fun hm => hf (.tail _ hm)) (List.nodup_cons.mp hn).2
      refine ⟨db2, M2, ?_, hr2, ?_, ?_⟩
      · simp only [insertOverlayMetas, hs, Res.unwrap, Res.bind_ok, h1, h2]
      · intro x hx
        rw [List.map_cons, hs, List.mem_cons, not_or] at hx
        rw [hM x hx.2]
        unfold updRel
        rw [if_neg (fun e => hx.1 (by rw [e]))]
      · intro s' k hm
        rw [mem_overlayObjs] at hm
        obtain ⟨o', ho', hs', hk⟩ := hm
        cases ho' with
        | head =>
          rw [hs] at hs'
          cases hs'
          rw [hM s (List.nodup_cons.mp hn).1]
          unfold updRel
          rw [if_pos rfl, hk]
        | tail _ ho' => exact hO s' k (mem_overlayObjs.mpr ⟨o', ho', hs', hk⟩)

theorem RelRep.loop (O : SetOrder) {bs cs : Said} (hb : M bs = some 1) (hc : M cs = some 0)
    (hsb : (utf8 bs).length ≤ 255) (hsc : (utf8 cs).length ≤ 255) (os : List Overlay) :
    ∀ {db R} (br cr : List RelObj), RelRep db R M → none ∉ os.map (·.said) → (os.map (·.said)).Nodup →
    (∀ s, some s ∈ os.map (·.said) → (∀ t, s ≠ metaKey t)) →
    (∀ s k, (s, k) ∈ overlayObjs os → M s = some k) →
    ∃ db' R', relLoop O bs cs db br cr os =
        .ok (db', (overlayObjs os).foldl setInsert br, (overlayObjs os).foldl setInsert cr) ∧
      RelRep db' R' M ∧ (∀ x, some x ∉ os.map (·.said) → R' x = R x) ∧
      ∀ s, some s ∈ os.map (·.said) → ∃ l, R' s = some l ∧ l.Nodup ∧
        ∀ o, o ∈ l ↔ o ∈ (R s).getD [] ∨ o = (bs, 1) ∨ o = (cs, 0) := by
  induction os with
  | nil => exact fun br cr h _ _ _ _ => ⟨_, _, rfl, h, fun _ _ => rfl, fun s hs => (by cases hs)⟩
  | cons o t ih =>
    intro db R br cr h hf hn hpl hM
    cases hs : o.said with
    | none => exact absurd (by rw [List.map_cons, hs]; exact .head _) hf
    | some s =>
      rw [List.map_cons, hs] at hf hn hpl ⊢
      have hms : M s = some o.body.kind.code := hM s _ (mem_overlayObjs.mpr ⟨o, .head _, hs, rfl⟩)
      have hps := hpl s (.head _)
      have hnd : ((R s).getD []).Nodup := by
        cases hr : R s with
        | none => exact List.nodup_nil
        | some l => exact (h.some' s hps l hr).1
      have hfd : ∀ o ∈ (R s).getD [], o.Fits := by
        cases hr : R s with
        | none => intro o ho; cases ho
        | some l => exact (h.some' s hps l hr).2.1
      have hmem : ∀ o, o ∈ setInsert (setInsert ((R s).getD []) (bs, 1)) (cs, 0) ↔
          o ∈ (R s).getD [] ∨ o = (bs, 1) ∨ o = (cs, 0) := by
        intro o
        rw [mem_setInsert, mem_setInsert, or_assoc]
      obtain ⟨db1, l1, h1, hp1, hr1⟩ := h.write O hps hms
        (nodup_setInsert (a := (cs, 0)) (nodup_setInsert (a := (bs, 1)) hnd)) (by
          intro o ho
          rw [hmem] at ho
          rcases ho with ho | rfl | rfl
          · exact hfd o ho
          · exact ⟨hsb, by show 1 ≤ 22; decide⟩
          · exact ⟨hsc, by show 0 ≤ 22; decide⟩)
      have hnt := (List.nodup_cons.mp hn)
      obtain ⟨db2, R2, h2, hr2, hR2, hO2⟩ := ih (setInsert br (s, o.body.kind.code)) (setInsert cr (s, o.body.kind.code))
        hr1 (fun hm => hf (.tail _ hm)) hnt.2
        (fun s hs => hpl s (.tail _ hs)) (fun s' k hm => by
          rw [mem_overlayObjs] at hm
          obtain ⟨o', ho', hs', hk⟩ := hm
          exact hM s' k (mem_overlayObjs.mpr ⟨o', .tail _ ho', hs', hk⟩))
      refine ⟨db2, R2, ?_, hr2, ?_, ?_⟩
      · have ho : overlayObjs (o :: t) = (s, o.body.kind.code) :: overlayObjs t := by
          simp only [overlayObjs, List.filterMap_cons, hs, Option.map_some]
        rw [ho]
        simp only [relLoop, hs, Res.unwrap, Res.bind_ok, h.relObj_eq hms, h.relObj_eq hb, h.relObj_eq hc,
          h.exploreOrNew_eq hps hms, h1, h2, List.foldl_cons]
      · intro x hx
        rw [List.mem_cons, not_or] at hx
        rw [hR2 x hx.2]
        unfold updRel
        rw [if_neg (fun e => hx.1 (by rw [e]))]
      · intro x hx
        rw [List.mem_cons] at hx
        by_cases hxs : x = s
        · subst hxs
          refine ⟨l1, ?_, ?_, ?_⟩
          · rw [hR2 x hnt.1]
            unfold updRel
            rw [if_pos rfl]
          · exact hp1.nodup_iff.mpr (nodup_setInsert (nodup_setInsert hnd))
          · intro o
            rw [hp1.mem_iff]
            exact hmem o
        · have hxt : some x ∈ t.map (·.said) := by
            rcases hx with e | hx
            · exact absurd (Option.some.inj e) hxs
            · exact hx
          obtain ⟨l, hl, hln, hlm⟩ := hO2 x hxt
          refine ⟨l, hl, hln, ?_⟩
          intro o
          rw [hlm]
          unfold updRel
          rw [if_neg hxs]

theorem RelRep.data (h : RelRep db R M) {s : Said} (hs : ∀ t, s ≠ metaKey t) :
    ((R s).getD []).Nodup ∧ ∀ o ∈ (R s).getD [], o.Fits := by
  cases hr : R s with
  | none => exact ⟨List.nodup_nil, fun o ho => (by cases ho)⟩
  | some l => exact ⟨(h.some' s hs l hr).1, (h.some' s hs l hr).2.1⟩

theorem Bundle.has_said {b : Bundle} {x : Said} {k : Nat} (h : b.Has x k) : some x ∈ b.saids := by
  cases h with
  | bundle h => rw [← h]; exact .head _
  | base h => rw [← h]; exact .tail _ (.head _)
  | overlay ho hs => exact .tail _ (.tail _ (List.mem_map.mpr ⟨_, ho, hs⟩))

theorem Bundle.said_has {b : Bundle} {x : Said} (h : some x ∈ b.saids) : ∃ k, b.Has x k := by
  unfold Bundle.saids at h
  rw [List.mem_cons, List.mem_cons, List.mem_map] at h
  rcases h with h | h | ⟨o, ho, hs⟩
  · exact ⟨1, .bundle h.symm⟩
  · exact ⟨0, .base h.symm⟩
  · exact ⟨_, .overlay ho hs⟩

/-- One call of `add_relations`. -/
theorem RelRep.add (O : SetOrder) (h : RelRep db R M) {b : Bundle} (hb : b.Labelled) :
    ∃ db' R' M', addRelations O db b = .ok db' ∧ RelRep db' R' M' ∧
      (∀ x, some x ∉ b.saids → R' x = R x) ∧
      ∀ x, some x ∈ b.saids → ∃ l, R' x = some l ∧ ∀ y, y ∈ l ↔ y ∈ (R x).getD [] ∨ b.Relates x y := by
  obtain ⟨hfill, hdist, hshort, hplain⟩ := hb
  cases hbs : b.said with
  | none => exact absurd (by unfold Bundle.saids; rw [hbs]; exact .head _) hfill
  | some bs =>
  cases hcs : b.captureBase.said with
  | none => exact absurd (by unfold Bundle.saids; rw [hcs]; exact .tail _ (.head _)) hfill
  | some cs =>
    have hS : b.saids = some bs :: some cs :: b.overlays.map (·.said) := by
      unfold Bundle.saids; rw [hbs, hcs]
    rw [hS] at hfill hdist hshort hplain ⊢
    have hd1 := List.nodup_cons.mp hdist
    have hd2 := List.nodup_cons.mp hd1.2
    have hbc : bs ≠ cs := fun e => hd1.1 (by rw [e]; exact .head _)
    have hbo : some bs ∉ b.overlays.map (·.said) := fun hm => hd1.1 (.tail _ hm)
    have hfo : none ∉ b.overlays.map (·.said) := fun hm => hfill (.tail _ (.tail _ hm))
    have hpb := hplain bs (.head _)
    have hpc := hplain cs (.tail _ (.head _))
    have hsb := hshort bs (.head _)
    have hsc := hshort cs (.tail _ (.head _))
    have hso := fun s hs => hshort s (.tail _ (.tail _ hs))
    have hpo := fun s hs => hplain s (.tail _ (.tail _ hs))
    obtain ⟨db1, e1, r1⟩ := h.meta bs (c := 1) (by decide)
    obtain ⟨db2, e2, r2⟩ := r1.meta cs (c := 0) (by decide)
    obtain ⟨db3, M3, e3, r3, hM3, hO3⟩ := r2.overlayMetas b.overlays hfo hd2.2
    have em : insertMetas db b = .ok db3 := by
      unfold insertMetas
      have e1' : db.insert .relations (metaKey bs) [1] = .ok db1 := e1
      have e2' : db1.insert .relations (metaKey cs) [0] = .ok db2 := e2
      rw [hbs, hcs]
      simp only [Res.unwrap, Res.bind_ok, e1', e2', e3]
    have hmb : M3 bs = some 1 := by
      rw [hM3 bs hbo]
      unfold updRel
      rw [if_neg hbc, if_pos rfl]
    have hmc : M3 cs = some 0 := by
      rw [hM3 cs hd2.1]
      unfold updRel
      rw [if_pos rfl]
    obtain ⟨db4, R4, e4, r4, hR4, hO4⟩ := RelRep.loop O hmb hmc hsb hsc b.overlays
      (setInsert ((R bs).getD []) (cs, 0)) (setInsert ((R cs).getD []) (bs, 1)) r3 hfo hd2.2 hpo hO3
    have hdb := r3.data hpb
    have hdc := r3.data hpc
    have hof : ∀ o ∈ overlayObjs b.overlays, o.Fits := by
      rintro ⟨s, k⟩ ho
      obtain ⟨o, ho, hs, hk⟩ := mem_overlayObjs.mp ho
      refine ⟨hso s (List.mem_map.mpr ⟨o, ho, hs⟩), ?_⟩
      rw [← hk]
      exact (kind_code_range _).2
    obtain ⟨db5, l5, e5, p5, r5⟩ := r4.write O hpb hmb
      (nodup_foldl_setInsert (l := overlayObjs b.overlays) (nodup_setInsert (a := (cs, 0)) hdb.1)) (by
        intro o ho
        rw [mem_foldl_setInsert, mem_setInsert] at ho
        rcases ho with (ho | rfl) | ho
        · exact hdb.2 o ho
        · exact ⟨hsc, by show 0 ≤ 22; decide⟩
        · exact hof o ho)
    obtain ⟨db6, l6, e6, p6, r6⟩ := r5.write O hpc hmc
      (nodup_foldl_setInsert (l := overlayObjs b.overlays) (nodup_setInsert (a := (bs, 1)) hdc.1)) (by
        intro o ho
        rw [mem_foldl_setInsert, mem_setInsert] at ho
        rcases ho with (ho | rfl) | ho
        · exact hdc.2 o ho
        · exact ⟨hsb, by show 1 ≤ 22; decide⟩
        · exact hof o ho)
    refine ⟨db6, _, M3, ?_, r6, ?_, ?_⟩
    · unfold addRelations
      rw [hbs, hcs, em]
      simp only [Res.unwrap, Res.bind_ok, r3.exploreOrNew_eq hpb hmb, r3.exploreOrNew_eq hpc hmc,
        r3.relObj_eq hmb, r3.relObj_eq hmc, e4, e5, e6]
    · intro x hx
      rw [List.mem_cons, List.mem_cons, not_or, not_or] at hx
      unfold updRel
      rw [if_neg (fun e => hx.2.1 (by rw [e])), if_neg (fun e => hx.1 (by rw [e])), hR4 x hx.2.2]
    · intro x hx
      unfold updRel
      by_cases exc : x = cs
      · subst exc
        rw [if_pos rfl]
        refine ⟨l6, rfl, ?_⟩
        intro y
        rw [p6.mem_iff, mem_foldl_setInsert, mem_setInsert, or_assoc]
        refine or_congr Iff.rfl ?_
        constructor
        · rintro (rfl | ho)
          · exact ⟨fun e => hbc e.symm, .bundle hbs, ⟨0, .base hcs⟩, .inr (.inl hcs)⟩
          · obtain ⟨s, k⟩ := y
            obtain ⟨o, ho', hs, hk⟩ := mem_overlayObjs.mp ho
            clear ho
            have ho := ho'
            subst hk
            refine ⟨?_, .overlay ho hs, ⟨0, .base hcs⟩, .inr (.inl hcs)⟩
            rintro rfl
            exact hd2.1 (List.mem_map.mpr ⟨o, ho, hs⟩)
        · rintro ⟨hne, hy, _, _⟩
          obtain ⟨s, k⟩ := y
          cases hy with
          | bundle hy =>
            rw [hbs] at hy
            cases hy
            exact .inl rfl
          | base hy =>
            rw [hcs] at hy
            cases hy
            exact absurd rfl hne
          | overlay ho hs => exact .inr (mem_overlayObjs.mpr ⟨_, ho, hs, rfl⟩)
      · rw [if_neg exc]
        by_cases exb : x = bs
        · subst exb
          rw [if_pos rfl]
          refine ⟨l5, rfl, ?_⟩
          intro y
          rw [p5.mem_iff, mem_foldl_setInsert, mem_setInsert, or_assoc]
          refine or_congr Iff.rfl ?_
          constructor
          · rintro (rfl | ho)
            · exact ⟨hbc, .base hcs, ⟨1, .bundle hbs⟩, .inl hbs⟩
            · obtain ⟨s, k⟩ := y
              obtain ⟨o, ho', hs, hk⟩ := mem_overlayObjs.mp ho
              clear ho
              have ho := ho'
              subst hk
              refine ⟨?_, .overlay ho hs, ⟨1, .bundle hbs⟩, .inl hbs⟩
              rintro rfl
              exact hbo (List.mem_map.mpr ⟨o, ho, hs⟩)
          · rintro ⟨hne, hy, _, _⟩
            obtain ⟨s, k⟩ := y
            cases hy with
            | bundle hy =>
              rw [hbs] at hy
              cases hy
              exact absurd rfl hne
            | base hy =>
              rw [hcs] at hy
              cases hy
              exact .inl rfl
            | overlay ho hs => exact .inr (mem_overlayObjs.mpr ⟨_, ho, hs, rfl⟩)
        · rw [if_neg exb]
          have hxo : some x ∈ b.overlays.map (·.said) := by
            rw [List.mem_cons, List.mem_cons] at hx
            rcases hx with e | e | hx
            · exact absurd (Option.some.inj e) exb
            · exact absurd (Option.some.inj e) exc
            · exact hx
          obtain ⟨l, hl, _, hm⟩ := hO4 x hxo
          refine ⟨l, hl, ?_⟩
          intro y
          rw [hm]
          refine or_congr Iff.rfl ?_
          obtain ⟨o, ho, hs⟩ := List.mem_map.mp hxo
          constructor
          · rintro (rfl | rfl)
            · exact ⟨exb, .bundle hbs, ⟨_, .overlay ho hs⟩, .inr (.inr (.inl hbs))⟩
            · exact ⟨exc, .base hcs, ⟨_, .overlay ho hs⟩, .inr (.inr (.inr hcs))⟩
          · rintro ⟨hne, hy, _, hor⟩
            obtain ⟨s, k⟩ := y
            have hsS := Bundle.has_said hy
            cases hy with
            | bundle hy =>
              rw [hbs] at hy
              cases hy
              exact .inl rfl
            | base hy =>
              rw [hcs] at hy
              cases hy
              exact .inr rfl
            | @overlay o2 _ ho2 hs2 =>
              rw [hbs, hcs] at hor
              rcases hor with e | e | e | e
              · exact absurd (Option.some.inj e).symm exb
              · exact absurd (Option.some.inj e).symm exc
              · exact absurd (List.mem_map.mpr ⟨o2, ho2, hs2.trans e.symm⟩) hbo
              · exact absurd (List.mem_map.mpr ⟨o2, ho2, hs2.trans e.symm⟩) hd2.1

/-! ## C34 -/

/-- A sequence of calls, each with its own hash order. -/
def addAllRelations (db : Store) (bs : List (SetOrder × Bundle)) : Res Str Store :=
  foldRes (fun db p => addRelations p.1 db p.2) db bs

/-- **C34** After any sequence of builds on a storage without relations, `explore` knows exactly the objects of the
bundles built, and reports for each of them exactly the relations these bundles stand for, without repetition. -/
theorem C34_relations_exact (db : Store) (hdb : ∀ k, db.get .relations k = .ok none)
    (bs : List (SetOrder × Bundle)) (hbs : ∀ p ∈ bs, p.2.Labelled) :
    ∃ db', addAllRelations db bs = .ok db' ∧ ∀ x, (∀ t, x ≠ metaKey t) →
      ∃ r, explore db' x = .ok r ∧ (r = none ↔ ∀ p ∈ bs, ¬ ∃ k, p.2.Has x k) ∧
        ∀ l, r = some l → l.Nodup ∧ ∀ y, y ∈ l ↔ ∃ p ∈ bs, p.2.Relates x y := by
  have key : ∃ db' R' M', addAllRelations db bs = .ok db' ∧ RelRep db' R' M' ∧
      ∀ x, (R' x = none ↔ ∀ p ∈ bs, ¬ ∃ k, p.2.Has x k) ∧
        ∀ y, y ∈ (R' x).getD [] ↔ ∃ p ∈ bs, p.2.Relates x y := by
    induction bs using snoc_ind with
    | h0 =>
      refine ⟨db, fun _ => none, fun _ => none, rfl, ?_, ?_⟩
      · exact ⟨fun x _ _ => hdb x, fun x _ l h => (by cases h), fun x => hdb _, fun _ _ h => (by cases h),
          fun _ _ h => (by cases h)⟩
      · intro x
        refine ⟨⟨fun _ p hp => (by cases hp), fun _ => rfl⟩, fun y => ⟨fun h => (by cases h), ?_⟩⟩
        rintro ⟨p, hp, _⟩
        cases hp
    | h1 l a ih =>
      obtain ⟨db1, R1, M1, e1, r1, h1⟩ := ih fun p hp => hbs p (List.mem_append_left _ hp)
      obtain ⟨db2, R2, M2, e2, r2, hout, hin⟩ := r1.add a.1 (hbs a (List.mem_append_right _ (.head _)))
      refine ⟨db2, R2, M2, ?_, r2, ?_⟩
      · unfold addAllRelations at e1 ⊢
        rw [foldRes_snoc, e1]
        exact e2
      · intro x
        by_cases hx : some x ∈ a.2.saids
        · obtain ⟨l', hl', hm⟩ := hin x hx
          rw [hl']
          refine ⟨⟨fun h => (by cases h), fun h => ?_⟩, ?_⟩
          · exact absurd (Bundle.said_has hx) (h a (List.mem_append_right _ (.head _)))
          · intro y
            rw [Option.getD_some, hm, (h1 x).2 y]
            constructor
            · rintro (⟨p, hp, hr⟩ | hr)
              · exact ⟨p, List.mem_append_left _ hp, hr⟩
              · exact ⟨a, List.mem_append_right _ (.head _), hr⟩
            · rintro ⟨p, hp, hr⟩
              rw [List.mem_append, List.mem_singleton] at hp
              rcases hp with hp | rfl
              · exact .inl ⟨p, hp, hr⟩
              · exact .inr hr
        · rw [hout x hx]
          have hna : ∀ k, ¬ a.2.Has x k := fun k hk => hx (Bundle.has_said hk)
          refine ⟨?_, ?_⟩
          · rw [(h1 x).1]
            constructor
            · intro h p hp
              rw [List.mem_append, List.mem_singleton] at hp
              rcases hp with hp | rfl
              · exact h p hp
              · exact fun ⟨k, hk⟩ => hna k hk
            · exact fun h p hp => h p (List.mem_append_left _ hp)
          · intro y
            rw [(h1 x).2 y]
            constructor
            · rintro ⟨p, hp, hr⟩
              exact ⟨p, List.mem_append_left _ hp, hr⟩
            · rintro ⟨p, hp, hr⟩
              rw [List.mem_append, List.mem_singleton] at hp
              rcases hp with hp | rfl
              · exact ⟨p, hp, hr⟩
              · obtain ⟨k, hk⟩ := hr.2.2.1
                exact absurd hk (hna k)
  obtain ⟨db', R', M', e, r, h⟩ := key
  refine ⟨db', e, fun x hx => ⟨R' x, r.explore_eq hx, (h x).1, ?_⟩⟩
  intro l hl
  refine ⟨(r.some' x hx l hl).1, ?_⟩
  intro y
  have := (h x).2 y
  rwa [hl] at this

theorem Bundle.relates_symm {b : Bundle} {x y : Said} {k : Nat} (h : b.Relates x (y, k)) :
    ∃ k', b.Relates y (x, k') := by
  obtain ⟨hne, hy, ⟨k', hx⟩, hor⟩ := h
  refine ⟨k', fun e => hne e.symm, hx, ⟨k, hy⟩, ?_⟩
  rcases hor with h | h | h | h
  · exact .inr (.inr (.inl h))
  · exact .inr (.inr (.inr h))
  · exact .inl h
  · exact .inr (.inl h)

/-- **C34** (symmetry) If `y` is reported for `x`, then `x` is reported for `y`. -/
theorem C34_symmetric (db : Store) (hdb : ∀ k, db.get .relations k = .ok none)
    (bs : List (SetOrder × Bundle)) (hbs : ∀ p ∈ bs, p.2.Labelled) (db' : Store)
    (h : addAllRelations db bs = .ok db') (x y : Said) (k : Nat) (hx : ∀ t, x ≠ metaKey t) (l : List RelObj)
    (he : explore db' x = .ok (some l)) (hy : (y, k) ∈ l) :
    ∃ l' k', explore db' y = .ok (some l') ∧ (x, k') ∈ l' := by
  obtain ⟨db2, e2, hall⟩ := C34_relations_exact db hdb bs hbs
  rw [h] at e2
  cases e2
  obtain ⟨r, hr, _, hm⟩ := hall x hx
  rw [he] at hr
  cases hr
  obtain ⟨p, hp, hrel⟩ := ((hm l rfl).2 (y, k)).mp hy
  obtain ⟨k', hrel'⟩ := Bundle.relates_symm hrel
  have hyp : ∀ t, y ≠ metaKey t := (hbs p hp).plain y (Bundle.has_said hrel.2.1)
  obtain ⟨r', hr', hnone, hm'⟩ := hall y hyp
  cases r' with
  | none => exact absurd ⟨k, hrel.2.1⟩ (hnone.mp rfl p hp)
  | some l' => exact ⟨l', k', hr', ((hm' l' rfl).2 _).mpr ⟨p, hp, hrel'⟩⟩

/-- **C34** (permanence) Whatever is built later, a reported relation is still reported. -/
theorem C34_permanent (db : Store) (hdb : ∀ k, db.get .relations k = .ok none)
    (bs later : List (SetOrder × Bundle)) (hbs : ∀ p ∈ bs, p.2.Labelled) (hl : ∀ p ∈ later, p.2.Labelled)
    (db1 db2 : Store) (h1 : addAllRelations db bs = .ok db1) (h2 : addAllRelations db1 later = .ok db2)
    (x : Said) (hx : ∀ t, x ≠ metaKey t) (l : List RelObj) (he : explore db1 x = .ok (some l)) :
    ∃ l', explore db2 x = .ok (some l') ∧ ∀ y ∈ l, y ∈ l' := by
  have hc : addAllRelations db (bs ++ later) = .ok db2 := by
    have : ∀ (a b : List (SetOrder × Bundle)) (d : Store), addAllRelations d (a ++ b) =
        (addAllRelations d a).bind fun d => addAllRelations d b := by
      intro a
      induction a with
      | nil => intro b d; rfl
      | cons p t ih =>
        intro b d
        unfold addAllRelations at ih ⊢
        simp only [List.cons_append, foldRes]
        cases hp : addRelations p.1 d p.2 with
        | ok d' => exact ih b d'
        | err e => rfl
        | panic => rfl
    rw [this, h1]
    exact h2
  obtain ⟨d1, e1, hall1⟩ := C34_relations_exact db hdb bs hbs
  rw [h1] at e1
  cases e1
  obtain ⟨d2, e2, hall2⟩ := C34_relations_exact db hdb (bs ++ later) (by
    intro p hp
    rcases List.mem_append.mp hp with hp | hp
    · exact hbs p hp
    · exact hl p hp)
  rw [hc] at e2
  cases e2
  obtain ⟨r1, hr1, hn1, hm1⟩ := hall1 x hx
  rw [he] at hr1
  cases hr1
  obtain ⟨r2, hr2, hn2, hm2⟩ := hall2 x hx
  cases r2 with
  | none =>
    have h := hn2.mp rfl
    have : (some l : Option (List RelObj)) = none := hn1.mpr fun p hp => h p (List.mem_append_left _ hp)
    cases this
  | some l' =>
    refine ⟨l', hr2, ?_⟩
    intro y hy
    obtain ⟨p, hp, hr⟩ := ((hm1 l rfl).2 y).mp hy
    exact ((hm2 l' rfl).2 y).mpr ⟨p, List.mem_append_left _ hp, hr⟩

/-! Two bundles that share a capture base and an overlay. -/

/-- an order -/
def SetOrder.same : SetOrder := ⟨fun _ l => l, fun _ _ => List.Perm.refl _⟩

/-- the first -/
def relDemo1 : Bundle :=
  ⟨some c!"B1", ⟨some c!"C", c!"spec/capture_base/1.0", FMap.empty, [], []⟩,
    [⟨some c!"O1", some c!"C", c!"1.0", .unit FMap.empty⟩, ⟨some c!"O2", some c!"C", c!"1.0", .format FMap.empty⟩]⟩

/-- the second -/
def relDemo2 : Bundle :=
  ⟨some c!"B2", ⟨some c!"C", c!"spec/capture_base/1.0", FMap.empty, [], []⟩,
    [⟨some c!"O2", some c!"C", c!"1.0", .format FMap.empty⟩, ⟨some c!"O3", some c!"C", c!"1.0", .standard FMap.empty⟩]⟩

theorem short_not_metaKey {s : Str} (h : s.length < 9) (t : Str) : s ≠ metaKey t := by
  intro e
  have h2 : (metaKey t).length = t.length + 9 := by
    unfold metaKey
    rw [List.length_append]
    rfl
  rw [← e] at h2
  omega

theorem relDemo_labelled : relDemo1.Labelled ∧ relDemo2.Labelled := by
  constructor
  · refine ⟨by decide, by decide, ?_, ?_⟩
    · intro s hs
      simp only [Bundle.saids, relDemo1, List.map_cons, List.map_nil, List.mem_cons, Option.some.injEq, List.not_mem_nil, or_false] at hs
      rcases hs with rfl | rfl | rfl | rfl <;> decide
    · intro s hs
      simp only [Bundle.saids, relDemo1, List.map_cons, List.map_nil, List.mem_cons, Option.some.injEq, List.not_mem_nil, or_false] at hs
      rcases hs with rfl | rfl | rfl | rfl <;> exact short_not_metaKey (by decide)
  · refine ⟨by decide, by decide, ?_, ?_⟩
    · intro s hs
      simp only [Bundle.saids, relDemo2, List.map_cons, List.map_nil, List.mem_cons, Option.some.injEq, List.not_mem_nil, or_false] at hs
      rcases hs with rfl | rfl | rfl | rfl <;> decide
    · intro s hs
      simp only [Bundle.saids, relDemo2, List.map_cons, List.map_nil, List.mem_cons, Option.some.injEq, List.not_mem_nil, or_false] at hs
      rcases hs with rfl | rfl | rfl | rfl <;> exact short_not_metaKey (by decide)

/-- Run on an empty storage, `explore` gives the shared overlay both bundles and the capture base. -/
example : (addAllRelations Store.new [(.same, relDemo1), (.same, relDemo2)]).bind (fun db => explore db c!"O2") =
    .ok (some [(c!"B1", 1), (c!"C", 0), (c!"B2", 1)]) := by rfl

/-- The theorem applies to them. -/
example : ∃ db', addAllRelations Store.new [(.same, relDemo1), (.same, relDemo2)] = .ok db' ∧
    ∃ r, explore db' c!"O3" = .ok r ∧ r ≠ none := by
  obtain ⟨db', h, hall⟩ := C34_relations_exact Store.new (fun _ => rfl) [(.same, relDemo1), (.same, relDemo2)] (by
    intro p hp
    rw [List.mem_cons, List.mem_singleton] at hp
    rcases hp with rfl | rfl
    · exact relDemo_labelled.1
    · exact relDemo_labelled.2)
  obtain ⟨r, hr, hn, _⟩ := hall c!"O3" (short_not_metaKey (by decide))
  refine ⟨db', h, r, hr, fun e => ?_⟩
  refine hn.mp e _ (.tail _ (.head _)) ⟨_, .overlay (o := ⟨some c!"O3", some c!"C", c!"1.0", .standard FMap.empty⟩) ?_ rfl⟩
  exact .tail _ (.head _)

end OCA
