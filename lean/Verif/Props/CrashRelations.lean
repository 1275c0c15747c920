import Verif.Props.Crash
/-!
# C66: the relations after a crash
-/
namespace OCA

/-- `b` puts `x` in relation to `y`; or, if two objects of `b` have the same identifier, `x` is `y`. -/
def Bundle.Touches (b : Bundle) (x : Said) (y : RelObj) : Prop := b.Relates x y ∨ x = y.1 ∧ ¬ b.saids.Nodup

/-- The relations `R'` and kinds `M'` are those of `R` and `M` and perhaps some of those the bundle stands for. -/
structure RelMid (b : Bundle) (R : Str → Option (List RelObj)) (M : Str → Option Nat) (R' : Str → Option (List RelObj))
    (M' : Str → Option Nat) : Prop where
  keeps : ∀ x y, y ∈ (R x).getD [] → y ∈ (R' x).getD []
  only : ∀ x y, y ∈ (R' x).getD [] → y ∈ (R x).getD [] ∨ b.Touches x y
  there : ∀ x, R' x = none → R x = none
  new : ∀ x, R x = none → R' x ≠ none → ∃ k, b.Has x k
  kinds : ∀ x, M' x = M x ∨ ∃ k, M' x = some k ∧ b.Has x k

variable {b : Bundle} {R R' : Str → Option (List RelObj)} {M M' : Str → Option Nat} {d : Store}

theorem RelMid.refl : RelMid b R M R M :=
  ⟨fun _ _ h => h, fun _ _ h => .inl h, fun _ h => h, fun _ h h' => absurd h h', fun _ => .inl rfl⟩

theorem RelMid.meta (h : RelMid b R M R' M') {s : Said} {c : Nat} (hs : b.Has s c) : RelMid b R M R' (updRel M' s c) where
  keeps := h.keeps
  only := h.only
  there := h.there
  new := h.new
  kinds x := by
    unfold updRel
    split
    · next e => rw [e]; exact .inr ⟨c, rfl, hs⟩
    · exact h.kinds x

/-- what may be written for `s` -/
structure RelFull (b : Bundle) (R : Str → Option (List RelObj)) (s : Said) (l : List RelObj) : Prop where
  nodup : l.Nodup
  fits : ∀ o ∈ l, o.Fits
  keeps : ∀ y, y ∈ (R s).getD [] → y ∈ l
  only : ∀ y ∈ l, y ∈ (R s).getD [] ∨ b.Touches s y

theorem RelFull.insert {s : Said} {l : List RelObj} (h : RelFull b R s l) {y : RelObj} (hf : y.Fits) (hy : b.Touches s y) :
    RelFull b R s (setInsert l y) where
  nodup := nodup_setInsert h.nodup
  fits := fits_setInsert h.fits hf
  keeps z hz := mem_setInsert.2 (.inl (h.keeps z hz))
  only z hz := by
    rcases mem_setInsert.1 hz with hz | rfl
    · exact h.only z hz
    · exact .inr hy

theorem RelMid.write (h : RelMid b R M R' M') {s : Said} {k : Nat} (hs : b.Has s k) {l : List RelObj} (hl : RelFull b R s l)
    {l' : List RelObj} (hp : l'.Perm l) : RelMid b R M (updRel R' s l') M' where
  keeps x y hy := by
    unfold updRel
    split
    · next e => subst e; exact hp.mem_iff.2 (hl.keeps y hy)
    · exact h.keeps x y hy
  only x y hy := by
    unfold updRel at hy
    split at hy
    · next e => subst e; exact hl.only y (hp.mem_iff.1 hy)
    · exact h.only x y hy
  there x hx := by
    unfold updRel at hx
    split at hx
    · cases hx
    · exact h.there x hx
  new x hx hn := by
    unfold updRel at hn
    split at hn
    · next e => subst e; exact ⟨k, hs⟩
    · exact h.new x hx hn
  kinds := h.kinds

theorem RelRep.set_meta (h : RelRep d R M) (s : Said) {c : Nat} (hc : c ≤ 22) :
    RelRep (d.set .relations (metaKey s) [UInt8.ofNat c]) R (updRel M s c) := by
  obtain ⟨d', e, r⟩ := h.meta s hc
  rw [Store.insert_set] at e
  cases e
  exact r

theorem RelRep.set_rels (O : SetOrder) (h : RelRep d R M) {s : Said} (hs : ∀ t, s ≠ metaKey t) {c : Nat} (hc : M s = some c)
    {l : List RelObj} (hn : l.Nodup) (hf : ∀ o ∈ l, o.Fits) {v : Bytes} (hv : (relsBytes (O.iter s l) : Res Str Bytes) = .ok v) :
    ∃ l', l'.Perm l ∧ RelRep (d.set .relations s v) (updRel R s l') M := by
  obtain ⟨d', l', e, hp, r⟩ := h.write O hs hc hn hf
  unfold writeRels at e
  rw [hv, Res.bind_ok, Store.insert_set] at e
  cases e
  exact ⟨l', hp, r⟩

/-- the kinds after those of a bundle were entered -/
theorem RelRep.insertMetas (h : RelRep d R M) (hf : none ∉ b.saids) :
    ∃ d' M', OCA.insertMetas d b = .ok d' ∧ RelRep d' R M' ∧ RelMid b R M R M' ∧
      ∀ x k, b.Has x k → ∃ k', M' x = some k' ∧ b.Has x k' := by
  cases hbs : b.said with
  | none => exact absurd (by simp [Bundle.saids, hbs]) hf
  | some bs =>
  cases hcs : b.captureBase.said with
  | none => exact absurd (by simp [Bundle.saids, hcs]) hf
  | some cs =>
    have hfo : none ∉ b.overlays.map (·.said) := fun h' => hf (by simp only [Bundle.saids]; exact .tail _ (.tail _ h'))
    obtain ⟨db1, e1, r1⟩ := h.meta bs (c := 1) (by decide)
    obtain ⟨db2, e2, r2⟩ := r1.meta cs (c := 0) (by decide)
    obtain ⟨db3, M3, e3, r3, kn, kh, -, -⟩ := RelRep.metas b.overlays hfo r2
    have em : OCA.insertMetas d b = .ok db3 := by
      show Res.bind (Res.unwrap b.said) _ = _
      rw [hbs, Res.unwrap_some]
      dsimp only [Res.bind]
      show Res.bind (d.insert .relations (metaKey bs) [1]) _ = _
      rw [show d.insert .relations (metaKey bs) [1] = .ok db1 from e1]
      show Res.bind (Res.unwrap b.captureBase.said) _ = _
      rw [hcs, Res.unwrap_some]
      dsimp only [Res.bind]
      show Res.bind (db1.insert .relations (metaKey cs) [0]) _ = _
      rw [show db1.insert .relations (metaKey cs) [0] = .ok db2 from e2]
      exact e3
    have key : ∀ x k, b.Has x k → ∃ k', M3 x = some k' ∧ b.Has x k' := by
      intro x k hx
      by_cases hm : ∃ o ∈ b.overlays, o.said = some x
      · obtain ⟨o, ho, hos⟩ := hm
        obtain ⟨o', ho', hs', e⟩ := kh o ho x hos
        exact ⟨_, e, .overlay ho' hs'⟩
      · rw [kn x fun o ho e => hm ⟨o, ho, e⟩]
        unfold updRel
        split
        · next e => exact ⟨0, rfl, .base (by rw [hcs, e])⟩
        · next e0 =>
          split
          · next e => exact ⟨1, rfl, .bundle (by rw [hbs, e])⟩
          · next e1 =>
            cases hx with
            | bundle e => rw [hbs] at e; exact absurd (Option.some.inj e).symm e1
            | base e => rw [hcs] at e; exact absurd (Option.some.inj e).symm e0
            | overlay ho hs => exact absurd ⟨_, ho, hs⟩ hm
    refine ⟨db3, M3, em, r3, ⟨fun _ _ h => h, fun _ _ h => .inl h, fun _ h => h, fun _ h h' => absurd h h', ?_⟩, key⟩
    intro x
    by_cases hx : ∃ k, b.Has x k
    · obtain ⟨k, hk⟩ := hx
      obtain ⟨k', e, h'⟩ := key x k hk
      exact .inr ⟨k', e, h'⟩
    · left
      rw [kn x fun o ho e => hx ⟨_, .overlay ho e⟩]
      unfold updRel
      rw [if_neg (fun e => hx ⟨0, .base (by rw [hcs, e])⟩), if_neg (fun e => hx ⟨1, .bundle (by rw [hbs, e])⟩)]

namespace Prog
variable {α β : Type} {P : Facade → Prop} {f : Facade}
theorem always_of_bind {r : Res Str α} {k : α → Prog β} (hf : P f) (h : ∀ a, r = .ok a → Always (k a) P f) :
    Always (of r >>= k) P f :=
  always_bind (always_of r hf) fun f' a hr => by
    rw [run_of] at hr
    obtain ⟨a', e, hr⟩ := Res.bind_eq_ok.1 hr
    cases hr
    exact h a e
theorem always_need_bind {o : Option α} {k : α → Prog β} (hf : P f) (h : ∀ a, o = some a → Always (k a) P f) :
    Always (of (Res.unwrap o) >>= k) P f := always_of_bind hf fun a e => h a (Res.unwrap_eq e)
theorem always_look_bind {g : Store → Res Str α} {k : α → Prog β} (hf : P f) (h : ∀ a, g f.db = .ok a → Always (k a) P f) :
    Always (look g >>= k) P f :=
  always_bind (always_look g hf) fun f' a hr => by
    rw [run_look] at hr
    obtain ⟨a', e, hr⟩ := Res.bind_eq_ok.1 hr
    cases hr
    exact h a e
theorem always_emit_bind {w : Write} {k : Prog β} (hf : P f) (h : Always k P (f.write w)) :
    Always (emit w >>= fun _ => k) P f :=
  always_bind (always_emit hf h.start) fun f' a hr => by
    cases hr
    exact h
theorem run_of_bind {r : Res Str α} {k : α → Prog β} {f f' : Facade} {x : β} (h : (of r >>= k).run f = .ok (f', x)) :
    ∃ a, r = .ok a ∧ (k a).run f = .ok (f', x) := by
  rw [run_bind, run_of] at h
  obtain ⟨p, hp, h⟩ := Res.bind_eq_ok.1 h
  obtain ⟨a, e, hp⟩ := Res.bind_eq_ok.1 hp
  cases hp
  exact ⟨a, e, h⟩
theorem run_need_bind {o : Option α} {k : α → Prog β} {f f' : Facade} {x : β}
    (h : (of (Res.unwrap o) >>= k).run f = .ok (f', x)) : ∃ a, o = some a ∧ (k a).run f = .ok (f', x) := by
  obtain ⟨a, e, h⟩ := run_of_bind h
  exact ⟨a, Res.unwrap_eq e, h⟩
theorem run_look_bind {g : Store → Res Str α} {k : α → Prog β} {f f' : Facade} {x : β} (h : (look g >>= k).run f = .ok (f', x)) :
    ∃ a, g f.db = .ok a ∧ (k a).run f = .ok (f', x) := by
  rw [run_bind, run_look] at h
  obtain ⟨p, hp, h⟩ := Res.bind_eq_ok.1 h
  obtain ⟨a, e, hp⟩ := Res.bind_eq_ok.1 hp
  cases hp
  exact ⟨a, e, h⟩
end Prog

/-- what holds while the relations are written -/
def RelAt (b : Bundle) (R : Str → Option (List RelObj)) (M M' : Str → Option Nat) (f : Facade) : Prop :=
  ∃ R', RelRep f.db R' M' ∧ RelMid b R M R' M'

/-- what holds at any point of `add_relations` -/
def RelIn (b : Bundle) (R : Str → Option (List RelObj)) (M : Str → Option Nat) (f : Facade) : Prop :=
  ∃ R' M', RelRep f.db R' M' ∧ RelMid b R M R' M'

section
variable {f : Facade} (O : SetOrder)

open Prog in
theorem writeRels_always {s : Said} {k : Nat} (hs : b.Has s k) (hp : ∀ t, s ≠ metaKey t) {c : Nat} (hc : M' s = some c)
    {l : List RelObj} (hl : RelFull b R s l) (hf : RelAt b R M M' f) : Always (writeRelsOp O s l) (RelAt b R M M') f := by
  refine always_of_bind hf fun v hv => always_emit hf ?_
  obtain ⟨R', r, m⟩ := hf
  obtain ⟨l', hp', r'⟩ := r.set_rels O hp hc hl.nodup hl.fits hv
  exact ⟨_, r', m.write hs hl hp'⟩

open Prog in
theorem relLoop_always {bs cs : Said} (hbs : b.said = some bs) (hcs : b.captureBase.said = some cs)
    (hk : ∀ x k, b.Has x k → ∃ k', M' x = some k' ∧ b.Has x k')
    (hshort : ∀ s, some s ∈ b.saids → (utf8 s).length ≤ 255 ∧ ∀ t, s ≠ metaKey t) (os : List Overlay) :
    ∀ (br cr : List RelObj) (f : Facade), (∀ o ∈ os, o ∈ b.overlays) → RelFull b R bs br → RelFull b R cs cr →
    RelAt b R M M' f → Always (relLoopOp O bs cs br cr os) (RelAt b R M M') f ∧
      ∀ f' r, (relLoopOp O bs cs br cr os).run f = .ok (f', r) → RelFull b R bs r.1 ∧ RelFull b R cs r.2 := by
  have hbm : some bs ∈ b.saids := by simp [Bundle.saids, hbs]
  have hcm : some cs ∈ b.saids := by simp [Bundle.saids, hcs]
  induction os with
  | nil =>
    intro br cr f _ h1 h2 hf
    refine ⟨always_pure _ hf, ?_⟩
    intro f' r hr
    cases hr
    exact ⟨h1, h2⟩
  | cons o t ih =>
    intro br cr f hos h1 h2 hf
    have hob := hos o (.head _)
    obtain ⟨R1, rr, mm⟩ := hf
    -- everything that is read
    have key : ∀ s, o.said = some s → ∃ ks kb kc, relObj f.db s = .ok (s, ks) ∧ relObj f.db bs = .ok (bs, kb) ∧
        relObj f.db cs = .ok (cs, kc) ∧ exploreOrNew f.db s = .ok ((R1 s).getD []) ∧ M' s = some ks ∧ b.Has s ks ∧
        (∀ t, s ≠ metaKey t) ∧ RelFull b R s (setInsert (setInsert ((R1 s).getD []) (bs, kb)) (cs, kc)) ∧
        RelFull b R bs (setInsert br (s, ks)) ∧ RelFull b R cs (setInsert cr (s, ks)) := by
      intro s hs
      have hsm : some s ∈ b.saids := by
        unfold Bundle.saids; exact .tail _ (.tail _ (List.mem_map.2 ⟨o, hob, hs⟩))
      obtain ⟨ks, es, hks⟩ := hk s _ (.overlay hob hs)
      obtain ⟨kb, eb, hkb⟩ := hk bs _ (.bundle hbs)
      obtain ⟨kc, ec, hkc⟩ := hk cs _ (.base hcs)
      have fs : RelObj.Fits (s, ks) := ⟨(hshort s hsm).1, rr.code _ _ es⟩
      have fb : RelObj.Fits (bs, kb) := ⟨(hshort bs hbm).1, rr.code _ _ eb⟩
      have fc : RelObj.Fits (cs, kc) := ⟨(hshort cs hcm).1, rr.code _ _ ec⟩
      have hb' : bs = s → ¬ b.saids.Nodup := by
        rintro rfl hn
        unfold Bundle.saids at hn
        rw [hbs] at hn
        exact (List.nodup_cons.1 hn).1 (.tail _ (List.mem_map.2 ⟨o, hob, hs⟩))
      have hc' : cs = s → ¬ b.saids.Nodup := by
        rintro rfl hn
        unfold Bundle.saids at hn
        rw [hcs] at hn
        exact (List.nodup_cons.1 (List.nodup_cons.1 hn).2).1 (List.mem_map.2 ⟨o, hob, hs⟩)
      have t1 : b.Touches s (bs, kb) := by
        by_cases e : s = bs
        · exact .inr ⟨e, hb' e.symm⟩
        · exact .inl ⟨e, hkb, ⟨_, hks⟩, .inr (.inr (.inl hbs))⟩
      have t2 : b.Touches s (cs, kc) := by
        by_cases e : s = cs
        · exact .inr ⟨e, hc' e.symm⟩
        · exact .inl ⟨e, hkc, ⟨_, hks⟩, .inr (.inr (.inr hcs))⟩
      have t3 : b.Touches bs (s, ks) := by
        by_cases e : bs = s
        · exact .inr ⟨e, hb' e⟩
        · exact .inl ⟨e, hks, ⟨_, hkb⟩, .inl hbs⟩
      have t4 : b.Touches cs (s, ks) := by
        by_cases e : cs = s
        · exact .inr ⟨e, hc' e⟩
        · exact .inl ⟨e, hks, ⟨_, hkc⟩, .inr (.inl hcs)⟩
      have hd := rr.data (hshort s hsm).2
      have full : RelFull b R s ((R1 s).getD []) := ⟨hd.1, hd.2, mm.keeps s, mm.only s⟩
      exact ⟨ks, kb, kc, rr.relObj_eq es, rr.relObj_eq eb, rr.relObj_eq ec, rr.exploreOrNew_eq (hshort s hsm).2 es, es, hks,
        (hshort s hsm).2, (full.insert fb t1).insert fc t2, h1.insert fs t3, h2.insert fs t4⟩
    have hf : RelAt b R M M' f := ⟨R1, rr, mm⟩
    refine ⟨?_, ?_⟩
    · unfold relLoopOp
      refine always_need_bind hf fun s hs => ?_
      obtain ⟨ks, kb, kc, e1, e2, e3, e4, e5, hks, hpl, g1, g2, g3⟩ := key s hs
      refine always_look_bind hf fun x hx => always_look_bind hf fun r hr => always_look_bind hf fun xb hxb =>
        always_look_bind hf fun xc hxc => ?_
      rw [e1] at hx; rw [e2] at hxb; rw [e3] at hxc; rw [e4] at hr
      cases hx; cases hxb; cases hxc; cases hr
      have hw := writeRels_always O hks hpl e5 g1 hf
      refine always_bind hw fun f' _ hr => ?_
      exact (ih _ _ f' (fun o h => hos o (.tail _ h)) g2 g3 (hw.finish hr)).1
    · intro f' r hr
      unfold relLoopOp at hr
      obtain ⟨s, hs, hr⟩ := run_need_bind hr
      obtain ⟨ks, kb, kc, e1, e2, e3, e4, e5, hks, hpl, g1, g2, g3⟩ := key s hs
      obtain ⟨x, hx, hr⟩ := run_look_bind hr
      obtain ⟨rl, hrl, hr⟩ := run_look_bind hr
      obtain ⟨xb, hxb, hr⟩ := run_look_bind hr
      obtain ⟨xc, hxc, hr⟩ := run_look_bind hr
      rw [e1] at hx; rw [e2] at hxb; rw [e3] at hxc; rw [e4] at hrl
      cases hx; cases hxb; cases hxc; cases hrl
      rw [run_bind] at hr
      obtain ⟨p, hp, hr⟩ := Res.bind_eq_ok.1 hr
      have hw := writeRels_always O hks hpl e5 g1 hf
      exact (ih _ _ p.1 (fun o h => hos o (.tail _ h)) g2 g3 (hw.finish hp)).2 f' r hr

open Prog in
/-- At any point of `add_relations` the relations are readable; they are those of before and perhaps some of those of the
bundle. -/
theorem relations_always (hf : none ∉ b.saids)
    (hshort : ∀ s, some s ∈ b.saids → (utf8 s).length ≤ 255 ∧ ∀ t, s ≠ metaKey t) (hr : RelRep f.db R M) :
    Always (relationsOp O b) (RelIn b R M) f := by
  have h0 : RelIn b R M f := ⟨R, M, hr, .refl⟩
  -- the kinds
  have hmeta : Always (metasOp b) (fun g => ∃ M', RelRep g.db R M' ∧ RelMid b R M R M') f := by
    have start : ∃ M', RelRep f.db R M' ∧ RelMid b R M R M' := ⟨M, hr, .refl⟩
    have step : ∀ (g : Facade) (s : Said) (c : Nat), c ≤ 22 → b.Has s c → (∃ M', RelRep g.db R M' ∧ RelMid b R M R M') →
        ∃ M', RelRep (g.write (.db .relations (metaKey s) [UInt8.ofNat c])).db R M' ∧ RelMid b R M R M' := by
      rintro g s c hc hs ⟨M', r, m⟩
      exact ⟨_, r.set_meta s hc, m.meta hs⟩
    unfold metasOp
    refine always_need_bind start fun s hs => always_emit_bind start (always_need_bind (step _ s 1 (by decide) (.bundle hs) start)
      fun c hc => always_emit_bind (step _ s 1 (by decide) (.bundle hs) start) ?_)
    refine always_each _ ?_ (step _ c 0 (by decide) (.base hc) (step _ s 1 (by decide) (.bundle hs) start))
    intro o ho g hg
    exact always_need_bind hg fun s hs => always_emit hg (step g s _ (kind_code_range _).2 (.overlay ho hs) hg)
  unfold relationsOp
  refine always_bind (fun n => ?_) fun f1 _ hrun => ?_
  · obtain ⟨M', r, m⟩ := hmeta n
    exact ⟨R, M', r, m⟩
  obtain ⟨d, M', e1, r1, m1, hk⟩ := hr.insertMetas hf
  rw [run_metasOp, e1] at hrun
  cases hrun
  have h1 : RelAt b R M M' { f with db := d } := ⟨R, r1, m1⟩
  have r1 : RelRep ({ f with db := d } : Facade).db R M' := r1
  generalize ({ f with db := d } : Facade) = f1 at h1 r1
  suffices h : Always _ (RelAt b R M M') f1 from fun n => by obtain ⟨R', r, m⟩ := h n; exact ⟨R', M', r, m⟩
  refine always_need_bind h1 fun bs hbs => always_need_bind h1 fun cs hcs => ?_
  have hbm : some bs ∈ b.saids := by simp [Bundle.saids, hbs]
  have hcm : some cs ∈ b.saids := by simp [Bundle.saids, hcs]
  obtain ⟨kb, eb, hkb⟩ := hk bs _ (.bundle hbs)
  obtain ⟨kc, ec, hkc⟩ := hk cs _ (.base hcs)
  obtain ⟨sb, pb⟩ := hshort bs hbm
  obtain ⟨sc, pc⟩ := hshort cs hcm
  have fb : RelObj.Fits (bs, kb) := ⟨sb, r1.code _ _ eb⟩
  have fc : RelObj.Fits (cs, kc) := ⟨sc, r1.code _ _ ec⟩
  have hbc : bs = cs → ¬ b.saids.Nodup := by
    rintro rfl hn
    unfold Bundle.saids at hn
    rw [hbs, hcs] at hn
    exact (List.nodup_cons.1 hn).1 (.head _)
  have t1 : b.Touches bs (cs, kc) := by
    by_cases e : bs = cs
    · exact .inr ⟨e, hbc e⟩
    · exact .inl ⟨e, hkc, ⟨_, hkb⟩, .inl hbs⟩
  have t2 : b.Touches cs (bs, kb) := by
    by_cases e : bs = cs
    · exact .inr ⟨e.symm, hbc e⟩
    · exact .inl ⟨fun h => e h.symm, hkb, ⟨_, hkc⟩, .inr (.inl hcs)⟩
  have fullb : RelFull b R bs ((R bs).getD []) := ⟨(r1.data pb).1, (r1.data pb).2, fun _ h => h, fun _ h => .inl h⟩
  have fullc : RelFull b R cs ((R cs).getD []) := ⟨(r1.data pc).1, (r1.data pc).2, fun _ h => h, fun _ h => .inl h⟩
  refine always_look_bind h1 fun br hbr => always_look_bind h1 fun xc hxc => always_look_bind h1 fun cr hcr =>
    always_look_bind h1 fun xb hxb => ?_
  rw [r1.exploreOrNew_eq pb eb] at hbr
  rw [r1.exploreOrNew_eq pc ec] at hcr
  rw [r1.relObj_eq ec] at hxc
  rw [r1.relObj_eq eb] at hxb
  cases hbr; cases hcr; cases hxc; cases hxb
  obtain ⟨l1, l2⟩ := relLoop_always O hbs hcs hk hshort b.overlays _ _ f1 (fun _ h => h) (fullb.insert fc t1) (fullc.insert fb t2) h1
  refine always_bind l1 fun f2 r hr => ?_
  obtain ⟨g1, g2⟩ := l2 f2 r hr
  have w1 := writeRels_always O hkb pb eb g1 (l1.finish hr)
  exact always_bind w1 fun f3 _ hr3 => writeRels_always O hkc pc ec g2 (w1.finish hr3)
end

end OCA
