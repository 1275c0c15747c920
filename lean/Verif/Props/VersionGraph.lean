import Verif.Props.CoreModel
import Verif.Props.Storage
/-!
# C43: the version graph; C42: the stored records
-/
namespace OCA

/-! ## Lists of texts in bytes -/

/-- The bytes are the texts one after the other, each behind its length in one byte. -/
inductive Packed : List Str → Bytes → Prop
  | nil : Packed [] []
  | cons {s : Str} {l : List Str} {n : UInt8} {b : Bytes} : n.toNat = (utf8 s).length → Packed l b →
      Packed (s :: l) (n :: utf8 s ++ b)

/-- The bytes determine the texts. -/
theorem Packed.unique {l l' : List Str} {b : Bytes} (h : Packed l b) (h' : Packed l' b) : l = l' := by
  induction h generalizing l' with
  | nil =>
    generalize he : ([] : Bytes) = x at h'
    cases h' with
    | nil => rfl
    | cons => cases he
  | @cons s t n c hn ht ih =>
    generalize he : (n :: utf8 s ++ c) = x at h'
    cases h' with
    | nil => cases he
    | @cons s' t' n' c' hn' ht' =>
      simp only [List.cons_append, List.cons.injEq] at he
      obtain ⟨rfl, he⟩ := he
      obtain ⟨e1, rfl⟩ := List.append_inj he (by rw [← hn, ← hn'])
      rw [utf8_inj e1, ih ht']

theorem lenPrefixed_iff {ε : Type} {s : Str} {b : Bytes} :
    (lenPrefixed s : Res ε Bytes) = .ok b ↔ (utf8 s).length ≤ 255 ∧ b = UInt8.ofNat (utf8 s).length :: utf8 s := by
  unfold lenPrefixed lenByte
  by_cases h : (utf8 s).length < 256
  · rw [if_pos h]
    constructor
    · intro hh; cases hh; exact ⟨by omega, rfl⟩
    · rintro ⟨-, rfl⟩; rfl
  · rw [if_neg h]
    constructor
    · intro hh; cases hh
    · rintro ⟨h2, -⟩; omega

theorem lenPrefixed_ok {ε : Type} {s : Str} (h : (utf8 s).length ≤ 255) :
    (lenPrefixed s : Res ε Bytes) = .ok (UInt8.ofNat (utf8 s).length :: utf8 s) := lenPrefixed_iff.2 ⟨h, rfl⟩

theorem ofNat_len {n : Nat} (h : n ≤ 255) : (UInt8.ofNat n).toNat = n := by
  rw [UInt8.toNat_ofNat']
  exact Nat.mod_eq_of_lt (by omega)

theorem lenPrefixed_packed {ε : Type} {s : Str} {b : Bytes} (h : (lenPrefixed s : Res ε Bytes) = .ok b) : Packed [s] b := by
  obtain ⟨h1, rfl⟩ := lenPrefixed_iff.1 h
  have := Packed.cons (s := s) (ofNat_len h1) .nil
  rwa [List.append_nil] at this

theorem Packed.append {l l' : List Str} {b b' : Bytes} (h : Packed l b) (h' : Packed l' b') : Packed (l ++ l') (b ++ b') := by
  induction h with
  | nil => exact h'
  | cons hn _ ih =>
    rw [List.append_assoc]
    exact .cons hn ih

/-- every list of short texts can be written -/
theorem Packed.exists {l : List Str} (h : ∀ s ∈ l, (utf8 s).length ≤ 255) : ∃ b, Packed l b := by
  induction l with
  | nil => exact ⟨_, .nil⟩
  | cons s t ih =>
    obtain ⟨b, hb⟩ := ih fun s hs => h s (.tail _ hs)
    exact ⟨_, .cons (ofNat_len (h s (.head _))) hb⟩

/-! ## The graph -/

/-- a sequence of `Graph::add` -/
def graphAll {ε : Type} (db : FMap Bytes) (adds : List (Str × Option Str)) : Res ε (FMap Bytes) :=
  foldRes (fun db a => graphAdd db a.1 a.2) db adds

/-- what was added under `p`, in order -/
def childrenOf (p : Str) (adds : List (Str × Option Str)) : List Str :=
  adds.filterMap fun a => if a.2 = some p then some a.1 else none

/-- the adds of `x`: the parent given, if any -/
def addsOf (x : Str) (adds : List (Str × Option Str)) : List (Option Str) :=
  adds.filterMap fun a => if a.1 = x then some a.2 else none

theorem upKey_inj {x y : Str} (h : upKey x = upKey y) : x = y := List.append_cancel_right h
theorem downKey_inj {x y : Str} (h : downKey x = downKey y) : x = y := List.append_cancel_right h

theorem up_ne_down (x y : Str) : upKey x ≠ downKey y := by
  intro h
  have := congrArg (fun l => (l.reverse).drop 8 |>.head?) h
  unfold upKey downKey at this
  simp only [List.reverse_append] at this
  have e1 : (c!".upscending" : Str).reverse = c!"gnidnecspu." := by decide
  have e2 : (c!".downscending" : Str).reverse = c!"gnidnecsnwod." := by decide
  rw [e1, e2] at this
  simp at this

/-- **C43** After any sequence of adds on an empty graph: the children stored for `p` are exactly what was added under `p`,
in order; the parent stored for `x` is that of the last add of `x`; and nothing else is stored. -/
theorem C43_graph {ε : Type} (adds : List (Str × Option Str)) (db : FMap Bytes)
    (h : (graphAll FMap.empty adds : Res ε _) = .ok db) :
    (∀ p, match childrenOf p adds with
      | [] => db.get (downKey p) = none
      | l => ∃ v, db.get (downKey p) = some v ∧ Packed l v) ∧
    (∀ x, match (addsOf x adds).getLast? with
      | none => db.get (upKey x) = none
      | some p => ∃ v, db.get (upKey x) = some v ∧ Packed p.toList v) ∧
    (∀ k, (∀ x, k ≠ upKey x) → (∀ x, k ≠ downKey x) → db.get k = none) := by
  have key : (∀ p, (childrenOf p adds = [] → db.get (downKey p) = none) ∧
      (childrenOf p adds ≠ [] → ∃ v, db.get (downKey p) = some v ∧ Packed (childrenOf p adds) v)) ∧
      (∀ x, match (addsOf x adds).getLast? with
      | none => db.get (upKey x) = none
      | some p => ∃ v, db.get (upKey x) = some v ∧ Packed p.toList v) ∧
      (∀ k, (∀ x, k ≠ upKey x) → (∀ x, k ≠ downKey x) → db.get k = none) := by
    induction adds using snoc_ind generalizing db with
    | h0 =>
      cases h
      exact ⟨fun p => ⟨fun _ => rfl, fun h => absurd rfl h⟩, fun x => rfl, fun _ _ _ => rfl⟩
    | h1 l a ih =>
      obtain ⟨n, to⟩ := a
      unfold graphAll at h ih
      rw [foldRes_snoc] at h
      obtain ⟨d, hd, h⟩ := Res.bind_eq_ok.1 h
      obtain ⟨c1, c2, c3⟩ := ih d hd
      unfold graphAdd at h
      obtain ⟨pb, hp, h⟩ := Res.bind_eq_ok.1 h
      have hpp : Packed to.toList pb := by
        cases to with
        | none => cases hp; exact .nil
        | some t => exact lenPrefixed_packed hp
      have hch : ∀ p, childrenOf p (l ++ [(n, to)]) = childrenOf p l ++ (if to = some p then [n] else []) := by
        intro p
        unfold childrenOf
        rw [List.filterMap_append]
        congr 1
        by_cases e : to = some p <;> simp [e]
      have hap : ∀ x, addsOf x (l ++ [(n, to)]) = addsOf x l ++ (if n = x then [to] else []) := by
        intro x
        unfold addsOf
        rw [List.filterMap_append]
        congr 1
        by_cases e : n = x <;> simp [e]
      have hup : ∀ x (d' : FMap Bytes), d'.get (upKey x) = (d.insert (upKey n) pb).get (upKey x) →
          match (addsOf x (l ++ [(n, to)])).getLast? with
          | none => d'.get (upKey x) = none
          | some p => ∃ v, d'.get (upKey x) = some v ∧ Packed p.toList v := by
        intro x d' e
        rw [hap, e, FMap.get_insert]
        by_cases hx : n = x
        · subst hx
          rw [if_pos rfl, if_pos rfl, List.getLast?_concat]
          exact ⟨pb, rfl, hpp⟩
        · rw [if_neg hx, if_neg (fun e => hx (upKey_inj e).symm), List.append_nil]
          exact c2 x
      cases to with
      | none =>
        cases h
        refine ⟨?_, ?_, ?_⟩
        · intro p
          rw [hch, if_neg (fun e => by cases e), List.append_nil, FMap.get_insert,
            if_neg (fun e => up_ne_down n p e.symm)]
          exact c1 p
        · intro x
          exact hup x _ rfl
        · intro k h1 h2
          rw [FMap.get_insert, if_neg (h1 n)]
          exact c3 k h1 h2
      | some t =>
        obtain ⟨cb, hc, h⟩ := Res.bind_eq_ok.1 h
        cases h
        refine ⟨?_, ?_, ?_⟩
        · intro p
          rw [hch, FMap.get_insert]
          by_cases hp : t = p
          · subst hp
            rw [if_pos rfl, if_pos rfl]
            refine ⟨fun e => ?_, fun _ => ⟨cb, rfl, ?_⟩⟩
            · exact absurd e (by simp)
            · unfold graphChildren at hc
              obtain ⟨nb, hn, hc⟩ := Res.bind_eq_ok.1 hc
              cases hc
              refine Packed.append ?_ (lenPrefixed_packed hn)
              rw [FMap.get_insert, if_neg (fun e => up_ne_down n t e.symm)]
              by_cases he : childrenOf t l = []
              · rw [(c1 t).1 he, he]
                exact .nil
              · obtain ⟨v, hv, hpk⟩ := (c1 t).2 he
                rw [hv]
                exact hpk
          · rw [if_neg (fun e => hp (Option.some.inj e)), if_neg (fun e => hp (downKey_inj e).symm), List.append_nil,
              FMap.get_insert, if_neg (fun e => up_ne_down n p e.symm)]
            exact c1 p
        · intro x
          refine hup x _ ?_
          rw [FMap.get_insert, if_neg (up_ne_down x t)]
        · intro k h1 h2
          rw [FMap.get_insert, if_neg (h2 t), FMap.get_insert, if_neg (h1 n)]
          exact c3 k h1 h2
  obtain ⟨k1, k2, k3⟩ := key
  refine ⟨?_, k2, k3⟩
  intro p
  split
  · next e => exact (k1 p).1 e
  · next e => exact (k1 p).2 fun h => e h

/-- **C43** A sequence of adds succeeds exactly if every object added under another, and its parent, have at most 255
bytes; otherwise it aborts. -/
theorem C43_total {ε : Type} (adds : List (Str × Option Str)) (db : FMap Bytes) :
    ((∀ x p, (x, some p) ∈ adds → (utf8 x).length ≤ 255 ∧ (utf8 p).length ≤ 255) →
      ∃ db', (graphAll db adds : Res ε _) = .ok db') ∧
    ((∃ x p, (x, some p) ∈ adds ∧ ¬ ((utf8 x).length ≤ 255 ∧ (utf8 p).length ≤ 255)) →
      (graphAll db adds : Res ε _) = .panic) := by
  have one : ∀ (db : FMap Bytes) (x : Str) (to : Option Str),
      ((∀ p, to = some p → (utf8 x).length ≤ 255 ∧ (utf8 p).length ≤ 255) → ∃ d, (graphAdd db x to : Res ε _) = .ok d) ∧
      ((∃ p, to = some p ∧ ¬ ((utf8 x).length ≤ 255 ∧ (utf8 p).length ≤ 255)) → (graphAdd db x to : Res ε _) = .panic) := by
    intro db x to
    cases to with
    | none => exact ⟨fun _ => ⟨_, rfl⟩, fun ⟨p, h, _⟩ => by cases h⟩
    | some p =>
      have hpanic : ∀ s : Str, ¬ (utf8 s).length ≤ 255 → (lenPrefixed s : Res ε Bytes) = .panic := by
        intro s hs
        unfold lenPrefixed lenByte
        rw [if_neg (by omega)]
        rfl
      constructor
      · intro h
        obtain ⟨h1, h2⟩ := h p rfl
        unfold graphAdd graphParents graphChildren
        dsimp only
        rw [lenPrefixed_ok h2, Res.bind_ok]
        rw [lenPrefixed_ok h1]
        exact ⟨_, rfl⟩
      · rintro ⟨q, e, h⟩
        cases e
        unfold graphAdd graphParents graphChildren
        by_cases h2 : (utf8 p).length ≤ 255
        · dsimp only
          rw [lenPrefixed_ok h2, Res.bind_ok]
          rw [hpanic x fun h1 => h ⟨h1, h2⟩]
          rfl
        · dsimp only
          rw [hpanic p h2]
          rfl
  induction adds generalizing db with
  | nil => exact ⟨fun _ => ⟨_, rfl⟩, fun ⟨_, _, h, _⟩ => by cases h⟩
  | cons a t ih =>
    obtain ⟨x, to⟩ := a
    unfold graphAll at ih ⊢
    simp only [foldRes]
    constructor
    · intro h
      obtain ⟨d, hd⟩ := (one db x to).1 fun p e => h x p (by rw [e]; exact .head _)
      rw [hd]
      exact (ih d).1 fun y p hy => h y p (.tail _ hy)
    · rintro ⟨y, p, hy, hn⟩
      by_cases hbad : ∃ p, to = some p ∧ ¬ ((utf8 x).length ≤ 255 ∧ (utf8 p).length ≤ 255)
      · rw [(one db x to).2 hbad]
        rfl
      · obtain ⟨d, hd⟩ := (one db x to).1 fun p e => Classical.byContradiction fun hh => hbad ⟨p, e, hh⟩
        rw [hd]
        refine (ih d).2 ⟨y, p, ?_, hn⟩
        cases hy with
        | head => exact absurd ⟨p, rfl, hn⟩ hbad
        | tail _ hy => exact hy

/-- The digests of a bundle as bytes: the capture base, then the overlays, in order. -/
theorem C43_bundle_digests {ε : Type} (b : Bundle) (v : Bytes) (h : (bundleDigests b : Res ε Bytes) = .ok v) :
    Packed (b.captureBase.said.toList ++ b.overlays.filterMap (·.said)) v := by
  unfold bundleDigests at h
  have hopt : ∀ (o : Option Said) (w : Bytes), (match o with | some s => lenPrefixed s | none => .ok [] : Res ε Bytes) = .ok w →
      Packed o.toList w := by
    intro o w h
    cases o with
    | none => cases h; exact .nil
    | some s => exact lenPrefixed_packed h
  have hgo : ∀ (os : List Overlay) (w : Bytes), (bundleDigests.go os : Res ε Bytes) = .ok w →
      Packed (os.filterMap (·.said)) w := by
    intro os
    induction os with
    | nil => intro w h; cases h; exact .nil
    | cons o t ih =>
      intro w h
      unfold bundleDigests.go at h
      cases ho : o.said with
      | none =>
        rw [ho] at h
        dsimp only at h
        obtain ⟨a, ha, h⟩ := Res.bind_eq_ok.1 h
        cases ha
        obtain ⟨r, hr, h⟩ := Res.bind_eq_ok.1 h
        cases h
        rw [List.filterMap_cons_none ho]
        exact ih _ hr
      | some s =>
        rw [ho] at h
        dsimp only at h
        obtain ⟨a, ha, h⟩ := Res.bind_eq_ok.1 h
        obtain ⟨r, hr, h⟩ := Res.bind_eq_ok.1 h
        cases h
        rw [List.filterMap_cons_some ho]
        exact (lenPrefixed_packed ha).append (ih _ hr)
  cases hc : b.captureBase.said with
  | none =>
    rw [hc] at h
    dsimp only at h
    obtain ⟨a, ha, h⟩ := Res.bind_eq_ok.1 h
    cases ha
    obtain ⟨r, hr, h⟩ := Res.bind_eq_ok.1 h
    cases h
    exact hgo _ _ hr
  | some s =>
    rw [hc] at h
    dsimp only at h
    obtain ⟨a, ha, h⟩ := Res.bind_eq_ok.1 h
    obtain ⟨r, hr, h⟩ := Res.bind_eq_ok.1 h
    cases h
    exact (lenPrefixed_packed ha).append (hgo _ _ hr)

/-- The example of the tests of `versioning/mod.rs`: dag2 and dag5 have one parent each, dag2 has two children. -/
theorem C43_example : ∃ db, (graphAll FMap.empty [(c!"dag1", none), (c!"dag2", some c!"dag1"), (c!"dag3", some c!"dag2"),
    (c!"dag4", some c!"dag2"), (c!"dag5", some c!"dag4")] : Res Unit _) = .ok db ∧
    ∃ v, db.get (downKey c!"dag2") = some v ∧ Packed [c!"dag3", c!"dag4"] v := by
  obtain ⟨db, h⟩ := (C43_total (ε := Unit) [(c!"dag1", none), (c!"dag2", some c!"dag1"), (c!"dag3", some c!"dag2"),
    (c!"dag4", some c!"dag2"), (c!"dag5", some c!"dag4")] FMap.empty).1 (by
      intro x p hm
      simp only [List.mem_cons, List.not_mem_nil, or_false, Prod.mk.injEq, Option.some.injEq, reduceCtorEq, and_false,
        false_or] at hm
      rcases hm with ⟨rfl, rfl⟩ | ⟨rfl, rfl⟩ | ⟨rfl, rfl⟩ | ⟨rfl, rfl⟩ <;> decide)
  refine ⟨db, h, ?_⟩
  exact (C43_graph _ db h).1 c!"dag2"

/-! ## The stored records of the core model -/

/-- the identifiers a record is stored under -/
def ResultModel.keys (m : ResultModel) : List Said :=
  m.command.digest :: (m.captureBase.toList ++ m.overlay.toList).map (·.said) ++ [m.bundle.said]

/-- What is stored for a record: the JSON of the command; for a capture base or an overlay, its parent (empty if none) and
the digest of the command; for a bundle, its parent (empty if none), its capture base and its overlays. -/
inductive CoreRecord (S : Serde) (m : ResultModel) : Said → Bytes → Prop
  | command : CoreRecord S m m.command.digest (utf8 (S.print m.command.json))
  | object {o : ObjectModel} {v : Bytes} : m.captureBase = some o ∨ m.overlay = some o →
      Packed [o.parent.getD [], o.commandDigest] v → CoreRecord S m o.said v
  | bundle {v : Bytes} : Packed (m.bundle.parent.getD [] :: m.bundle.captureBase :: m.bundle.overlays) v →
      CoreRecord S m m.bundle.said v

theorem parentBytes_packed {ε : Type} {p : Option Said} {b : Bytes} (h : (parentBytes p : Res ε Bytes) = .ok b) :
    Packed [p.getD []] b := by
  cases p with
  | some s => exact lenPrefixed_packed h
  | none =>
    cases h
    exact Packed.cons (s := []) (n := 0) rfl .nil

theorem objectModelBytes_packed {ε : Type} {m : ObjectModel} {r : Bytes} (h : (objectModelBytes m : Res ε Bytes) = .ok r) :
    Packed [m.parent.getD [], m.commandDigest] r := by
  unfold objectModelBytes at h
  obtain ⟨p, hp, h⟩ := Res.bind_eq_ok.1 h
  obtain ⟨c, hc, h⟩ := Res.bind_eq_ok.1 h
  cases h
  exact (parentBytes_packed hp).append (lenPrefixed_packed hc)

theorem lenPrefixedAll_packed {ε : Type} {l : List Said} {r : Bytes} (h : (lenPrefixedAll l : Res ε Bytes) = .ok r) :
    Packed l r := by
  induction l generalizing r with
  | nil => cases h; exact .nil
  | cons s t ih =>
    unfold lenPrefixedAll at h
    obtain ⟨a, ha, h⟩ := Res.bind_eq_ok.1 h
    obtain ⟨b, hb, h⟩ := Res.bind_eq_ok.1 h
    cases h
    exact (lenPrefixed_packed ha).append (ih hb)

theorem bundleModelBytes_packed {ε : Type} {m : BundleModel} {r : Bytes} (h : (bundleModelBytes m : Res ε Bytes) = .ok r) :
    Packed (m.parent.getD [] :: m.captureBase :: m.overlays) r := by
  unfold bundleModelBytes at h
  obtain ⟨p, hp, h⟩ := Res.bind_eq_ok.1 h
  obtain ⟨c, hc, h⟩ := Res.bind_eq_ok.1 h
  obtain ⟨o, ho, h⟩ := Res.bind_eq_ok.1 h
  cases h
  exact ((parentBytes_packed hp).append (lenPrefixed_packed hc)).append (lenPrefixedAll_packed ho)

theorem coreKey_inj {a b : Said} (h : coreKey a = coreKey b) : a = b := List.append_cancel_left h

/-- one record is written: its keys hold what they should, the others are untouched -/
theorem putModel_record {ε : Type} {S : Serde} {m : ResultModel} {db db' : Store}
    (h : (putModel S db m : Res ε Store) = .ok db') :
    (∀ s ∈ m.keys, ∃ v, db'.get .coreModel (coreKey s) = .ok (some v) ∧ CoreRecord S m s v) ∧
    (∀ k, (∀ s ∈ m.keys, k ≠ coreKey s) → db'.get .coreModel k = db.get .coreModel k) := by
  have hput : ∀ {d d' : Store} {k : Str} {v : Bytes}, (d.put .coreModel k v : Res ε Store) = .ok d' → ∀ k',
      d'.get .coreModel k' = if k' = k then .ok (some v) else d.get .coreModel k' := by
    intro d d' k v hd k'
    have := After.put hd .coreModel k'
    simp only [lastWrite, true_and] at this
    rw [this]
    by_cases e : k = k'
    · subst e; simp
    · rw [if_neg e, if_neg fun x => e x.symm]
  have hobj : ∀ {d d' : Store} {o : Option ObjectModel}, (putObjectModel d o : Res ε Store) = .ok d' → ∀ k',
      (d'.get .coreModel k' = d.get .coreModel k' ∧ ∀ x, o = some x → k' ≠ coreKey x.said) ∨
      ∃ x v, o = some x ∧ k' = coreKey x.said ∧ d'.get .coreModel k' = .ok (some v) ∧
        Packed [x.parent.getD [], x.commandDigest] v := by
    intro d d' o hd k'
    cases o with
    | none => cases hd; exact .inl ⟨rfl, fun x h => by cases h⟩
    | some x =>
      obtain ⟨v, hv, hd⟩ := Res.bind_eq_ok.1 hd
      have := hput hd k'
      by_cases e : k' = coreKey x.said
      · rw [if_pos e] at this
        exact .inr ⟨x, v, rfl, e, this, objectModelBytes_packed hv⟩
      · rw [if_neg e] at this
        exact .inl ⟨this, fun y hy => by cases hy; exact e⟩
  unfold putModel at h
  obtain ⟨d1, h1, h⟩ := Res.bind_eq_ok.1 h
  obtain ⟨d2, h2, h⟩ := Res.bind_eq_ok.1 h
  obtain ⟨d3, h3, h⟩ := Res.bind_eq_ok.1 h
  obtain ⟨b, hb, h⟩ := Res.bind_eq_ok.1 h
  have w1 := hput h1
  have w4 := hput h
  constructor
  · intro s hs
    by_cases e4 : s = m.bundle.said
    · subst e4
      exact ⟨b, by rw [w4, if_pos rfl], .bundle (bundleModelBytes_packed hb)⟩
    have r4 : db'.get .coreModel (coreKey s) = d3.get .coreModel (coreKey s) := by
      rw [w4, if_neg fun e => e4 (coreKey_inj e)]
    rw [r4]
    rcases hobj h3 (coreKey s) with ⟨r3, n3⟩ | ⟨x, v, hx, e, hv, hp⟩
    rotate_left
    · rw [coreKey_inj e] at hv ⊢
      exact ⟨v, hv, .object (.inr hx) hp⟩
    rw [r3]
    rcases hobj h2 (coreKey s) with ⟨r2, n2⟩ | ⟨x, v, hx, e, hv, hp⟩
    rotate_left
    · rw [coreKey_inj e] at hv ⊢
      exact ⟨v, hv, .object (.inl hx) hp⟩
    rw [r2, w1]
    have : s = m.command.digest := by
      unfold ResultModel.keys at hs
      rcases List.mem_append.1 hs with hs | hs
      · rcases List.mem_cons.1 hs with hs | hs
        · exact hs
        · exfalso
          obtain ⟨x, hx, rfl⟩ := List.mem_map.1 hs
          rcases List.mem_append.1 hx with hx | hx
          · exact n2 x (by simpa using hx) rfl
          · exact n3 x (by simpa using hx) rfl
      · exact absurd (List.mem_singleton.1 hs) e4
    rw [this, if_pos rfl]
    exact ⟨_, rfl, .command⟩
  · intro k hk
    rw [w4, if_neg (hk _ (List.mem_append_right _ (.head _)))]
    have n3 : ∀ x, m.overlay = some x → k ≠ coreKey x.said := fun x hx => hk _ (List.mem_append_left _ (.tail _
      (List.mem_map.2 ⟨x, List.mem_append_right _ (by simp [hx]), rfl⟩)))
    have n2 : ∀ x, m.captureBase = some x → k ≠ coreKey x.said := fun x hx => hk _ (List.mem_append_left _ (.tail _
      (List.mem_map.2 ⟨x, List.mem_append_left _ (by simp [hx]), rfl⟩)))
    rcases hobj h3 k with ⟨r3, -⟩ | ⟨x, v, hx, e, -⟩
    rotate_left
    · exact absurd e (n3 x hx)
    rcases hobj h2 k with ⟨r2, -⟩ | ⟨x, v, hx, e, -⟩
    rotate_left
    · exact absurd e (n2 x hx)
    rw [r3, r2, w1, if_neg (hk _ (List.mem_append_left _ (.head _)))]

theorem putModels_record {ε : Type} {S : Serde} {ms : List ResultModel} {db db' : Store}
    (h : foldRes (putModel S) db ms = (.ok db' : Res ε Store)) :
    (∀ before m after, ms = before ++ m :: after → ∀ s ∈ m.keys, (∀ m' ∈ after, s ∉ m'.keys) →
      ∃ v, db'.get .coreModel (coreKey s) = .ok (some v) ∧ CoreRecord S m s v) ∧
    (∀ k, (∀ m ∈ ms, ∀ s ∈ m.keys, k ≠ coreKey s) → db'.get .coreModel k = db.get .coreModel k) := by
  induction ms generalizing db with
  | nil =>
    cases h
    refine ⟨?_, fun _ _ => rfl⟩
    intro before m after e
    cases before <;> cases e
  | cons a t ih =>
    simp only [foldRes] at h
    cases ha : (putModel S db a : Res ε Store) with
    | err e => rw [ha] at h; cases h
    | panic => rw [ha] at h; cases h
    | ok d =>
      rw [ha] at h
      obtain ⟨i1, i2⟩ := ih h
      obtain ⟨p1, p2⟩ := putModel_record ha
      constructor
      · intro before m after e s hs hn
        cases before with
        | nil =>
          cases e
          obtain ⟨v, hv, hr⟩ := p1 s hs
          refine ⟨v, ?_, hr⟩
          rw [i2 _ fun m' hm' s' hs' e' => hn m' hm' (by rw [coreKey_inj e']; exact hs')]
          exact hv
        | cons x u =>
          injection e with _ e
          exact i1 u m after e s hs hn
      · intro k hk
        rw [i2 k fun m hm => hk m (.tail _ hm)]
        exact p2 k (hk a (.head _))

/-- **C42** Building a file stores the core model: every record of the build that no later record of the build replaces is
stored under its identifiers, and the bytes stored determine parent, command digest, capture base and overlays; the
records of other objects are not touched. -/
theorem C42_stored {ε : Type} (E : Env) (S : Serde) (O : SetOrder) (f f' : Facade) (b : Build)
    (h : (f.build E S O b : Res ε Facade) = .ok f') :
    ∃ ms, (buildCoreModel E b.steps : Res ε _) = .ok ms ∧
      (∀ before m after, ms = before ++ m :: after → ∀ s ∈ m.keys, (∀ m' ∈ after, s ∉ m'.keys) →
        ∃ v, f'.db.get .coreModel (coreKey s) = .ok (some v) ∧ CoreRecord S m s v) ∧
      (∀ k, (∀ m ∈ ms, ∀ s ∈ m.keys, k ≠ coreKey s) → f'.db.get .coreModel k = f.db.get .coreModel k) := by
  obtain ⟨s, c, g, db, _, _, hg, hr, hm⟩ := build_parts h
  have h0 : ∀ k, db.get .coreModel k = f.db.get .coreModel k := by
    intro k
    have hstep : ∀ (x : Facade) (st : BuildStep) (x' : Facade), (x.buildStep E S st : Res ε Facade) = .ok x' →
        x'.db.get .coreModel k = x.db.get .coreModel k := by
      intro x st x' hx
      obtain ⟨_, _, _, s, r, _, _, hd, _⟩ := buildStep_effect hx
      rw [hd, if_neg (fun e => by cases e.1)]
    have hk := foldRes_keeps (fun x : Facade => x.db.get .coreModel k) hstep hg
    rw [← show g.db.get .coreModel k = f.db.get .coreModel k from hk]
    rcases hr with hr | ⟨_, e⟩
    · exact addRelations_frame hr _ (by decide) k
    · rw [e]
  unfold Facade.buildModels at hm
  obtain ⟨ms, hms, hm⟩ := Res.bind_eq_ok.1 hm
  obtain ⟨db', hdb, hm⟩ := Res.bind_eq_ok.1 hm
  cases hm
  obtain ⟨p1, p2⟩ := putModels_record hdb
  refine ⟨ms, hms, p1, ?_⟩
  intro k hk
  rw [← h0]
  exact p2 k hk

end OCA
