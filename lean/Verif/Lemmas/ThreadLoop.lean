import Verif.Lemmas.ThreadRels
/-! `add_relations` in a thread among others. -/
namespace OCA
variable {E : Env} {S : Serde} {J Ji : List Job} {L : Limit} {Own : Said → Prop} {j : Job}

theorem Ctx.fits (c : Ctx E S J L Ji j) {s : Said} {k : Nat} (h : j.build.bundle.Has s k) : RelObj.Fits (s, k) :=
  ⟨c.labelled.short s (has_saids h), has_code h⟩

/-- what the loop keeps -/
structure LoopKept (L : Limit) (Own : Said → Prop) (b : Bundle) (bs cs : Said) (br cr : List RelObj) (f : Facade) : Prop where
  right : RelsRight f.db L
  kinds : KindsIn b f
  bundle : Tracks L Own bs br f
  base : Tracks L Own cs cr f

theorem LoopKept.rely {b : Bundle} (hj : j ∈ J) (hb : b = j.build.bundle) {bs cs : Said} (pb : ∀ t, bs ≠ metaKey t) (pc : ∀ t, cs ≠ metaKey t)
    {br cr : List RelObj} (f f' : Facade) (h : RelyOn E S J L Own f f') (hf : LoopKept L Own b bs cs br cr f) : LoopKept L Own b bs cs br cr f' where
  right := Lasting.right.rely f f' h hf.right
  kinds := by subst hb; exact (Lasting.kindsIn hj).rely f f' h hf.kinds
  bundle := hf.bundle.rely pb f f' h
  base := hf.base.rely pc f f' h

/-- what is done for an overlay -/
def OverlayDone (E : Env) (S : Serde) (J : List Job) (Own : Said → Prop) (bs cs : Said) (o : Overlay) (f : Facade) : Prop :=
  ∀ s, o.said = some s → (∀ t, s ≠ metaKey t) → Written E S J .relations s f ∧ (Own s → HasRel f.db s (bs, 1) ∧ HasRel f.db s (cs, 0))

theorem Lasting.overlayDone (bs cs : Said) (o : Overlay) : Lasting E S J L Own (OverlayDone E S J Own bs cs o) :=
  .all fun s => .imp fun _ => .imp fun hp => .and (.written _ _) (.imp fun ho => .and (.rel hp ho _) (.rel hp ho _))

theorem Ctx.relLoop (c : Ctx E S J L Ji j) (O : SetOrder) {bs cs : Said} (hbs : j.build.bundle.said = some bs) (hcs : j.build.bundle.captureBase.said = some cs)
    (os : List Overlay) (hos : ∀ o ∈ os, o ∈ j.build.bundle.overlays) : ∀ br cr,
    Tr E S J L Ji Own (LoopKept L Own j.build.bundle bs cs br cr) (relLoopT O bs cs br cr os)
      (fun r f => LoopKept L Own j.build.bundle bs cs r.1 r.2 f ∧ (∀ o ∈ os, OverlayDone E S J Own bs cs o f) ∧
        ((∀ y ∈ br, y ∈ r.1) ∧ ∀ y ∈ cr, y ∈ r.2) ∧ ∀ o ∈ os, ∀ s, o.said = some s → (s, o.body.kind.code) ∈ r.1 ∧ (s, o.body.kind.code) ∈ r.2) := by
  have pb := c.labelled.plain bs (has_saids (.bundle hbs))
  have pc := c.labelled.plain cs (has_saids (.base hcs))
  have rely : ∀ br cr f f', RelyOn E S J L Own f f' → LoopKept L Own j.build.bundle bs cs br cr f → LoopKept L Own j.build.bundle bs cs br cr f' :=
    fun br cr f f' => LoopKept.rely c.mem rfl pb pc f f'
  induction os with
  | nil =>
    intro br cr
    unfold relLoopT
    refine (Thr.Tri.pure (a := (br, cr)) (Q := fun r f => LoopKept L Own j.build.bundle bs cs r.1 r.2 f ∧ (∀ o ∈ [], OverlayDone E S J Own bs cs o f) ∧
        ((∀ y ∈ br, y ∈ r.1) ∧ ∀ y ∈ cr, y ∈ r.2) ∧ ∀ o ∈ ([] : List Overlay), ∀ s, o.said = some s → (s, o.body.kind.code) ∈ r.1 ∧ (s, o.body.kind.code) ∈ r.2) ?_).pre ?_
    · rintro f f' hr ⟨h1, -, h3, -⟩
      exact ⟨rely _ _ f f' hr h1, (fun _ h => by cases h), h3, (fun _ h => by cases h)⟩
    · intro f hf
      exact ⟨hf, (fun _ h => by cases h), ⟨fun _ h => h, fun _ h => h⟩, (fun _ h => by cases h)⟩
  | cons o t ih =>
    intro br cr
    have ho := hos o (.head _)
    have hin : o.said ∈ j.build.bundle.overlays.map (·.said) := List.mem_map.2 ⟨o, ho, rfl⟩
    cases hs : o.said with
    | none =>
      rw [hs] at hin
      exact absurd (List.mem_cons_of_mem _ (List.mem_cons_of_mem _ hin)) c.labelled.filled
    | some s =>
    rw [hs] at hin
    have hk : j.build.bundle.Has s o.body.kind.code := .overlay ho hs
    have hd := c.labelled.distinct
    unfold Bundle.saids at hd
    rw [hbs, hcs, List.nodup_cons, List.nodup_cons] at hd
    have nb : s ≠ bs := fun e => hd.1 (.tail _ (e ▸ hin))
    have nc : s ≠ cs := fun e => hd.2.1 (e ▸ hin)
    have nbc : bs ≠ cs := fun e => hd.1 (by rw [e]; exact .head _)
    have ps := c.labelled.plain s (has_saids hk)
    have fx := c.fits hk
    have fb := c.fits (.bundle hbs)
    have fc := c.fits (.base hcs)
    have r1 : j.build.bundle.Relates s (bs, 1) := ⟨nb, .bundle hbs, ⟨_, hk⟩, .inr (.inr (.inl hbs))⟩
    have r2 : j.build.bundle.Relates s (cs, 0) := ⟨nc, .base hcs, ⟨_, hk⟩, .inr (.inr (.inr hcs))⟩
    have r3 : j.build.bundle.Relates bs (s, o.body.kind.code) := ⟨nb.symm, hk, ⟨_, .bundle hbs⟩, .inl hbs⟩
    have r4 : j.build.bundle.Relates cs (s, o.body.kind.code) := ⟨nc.symm, hk, ⟨_, .base hcs⟩, .inr (.inl hcs)⟩
    unfold relLoopT
    refine Thr.Tri.ofBind RelyOn.refl (a := s) (by rw [hs]; rfl) ?_
    refine Thr.Tri.bind RelyOn.refl (Ctx.relObj (rely br cr) (fun f hf => hf.kinds) hk) fun x => ?_
    refine fun f hf => ?_
    obtain ⟨rfl, hf⟩ := hf
    revert f
    refine Thr.Tri.bind RelyOn.refl (c.exploreOrNew (rely br cr) (fun f hf => hf.right) (fun f hf => hf.kinds) hk) fun l => ?_
    have rely' : ∀ f f', RelyOn E S J L Own f f' → LoopKept L Own j.build.bundle bs cs br cr f ∧ Tracks L Own s l f →
        LoopKept L Own j.build.bundle bs cs br cr f' ∧ Tracks L Own s l f' := fun f f' h hf => ⟨rely _ _ f f' h hf.1, hf.2.rely ps f f' h⟩
    refine Thr.Tri.bind RelyOn.refl (Ctx.relObj rely' (fun f hf => hf.1.kinds) (.bundle hbs)) fun xb => ?_
    refine fun f hf => ?_
    obtain ⟨rfl, hf⟩ := hf
    revert f
    refine Thr.Tri.bind RelyOn.refl (Ctx.relObj rely' (fun f hf => hf.1.kinds) (.base hcs)) fun xc => ?_
    refine fun f hf => ?_
    obtain ⟨rfl, hf⟩ := hf
    revert f
    have hwr := c.writeRels O (Own := Own) (P := LoopKept L Own j.build.bundle bs cs br cr) (l := setInsert (setInsert l (bs, 1)) (cs, 0)) (rely br cr)
      (fun f hf => hf.right) (fun f hf => hf.kinds) hk
      (fun f v hf h1 h2 => ⟨h1, h2, hf.bundle.other nb, hf.base.other nc⟩)
    refine Thr.Tri.bind RelyOn.refl (hwr.pre fun f hf => ⟨hf.1, (hf.2.insert fb (c.rel r1)).insert fc (c.rel r2)⟩) fun _ => ?_
    have hrest := Thr.Tri.keep (ih (fun o h => hos o (.tail _ h)) (setInsert br (s, o.body.kind.code)) (setInsert cr (s, o.body.kind.code)))
      (F := OverlayDone E S J Own bs cs o) (Lasting.overlayDone bs cs o).rely (Lasting.overlayDone bs cs o).gives
    refine (hrest.pre ?_).post ?_
    · rintro f ⟨h1, h2, h3⟩
      refine ⟨⟨h1.right, h1.kinds, h1.bundle.insert fx (c.rel r3), h1.base.insert fx (c.rel r4)⟩, ?_⟩
      intro s' hs' _
      rw [hs] at hs'
      cases hs'
      exact ⟨h2, fun ow => ⟨h3 ow _ (mem_setInsert.2 (.inl (mem_setInsert.2 (.inr rfl)))), h3 ow _ (mem_setInsert.2 (.inr rfl))⟩⟩
    · rintro r f ⟨⟨h1, h2, ⟨h3, h3'⟩, h4⟩, h5⟩
      refine ⟨h1, ?_, ⟨fun y hy => h3 y (mem_setInsert.2 (.inl hy)), fun y hy => h3' y (mem_setInsert.2 (.inl hy))⟩, ?_⟩
      · intro o' ho'
        rcases List.mem_cons.1 ho' with rfl | ho'
        · exact h5
        · exact h2 o' ho'
      · intro o' ho' s' hs'
        rcases List.mem_cons.1 ho' with rfl | ho'
        · rw [hs] at hs'
          cases hs'
          exact ⟨h3 _ (mem_setInsert.2 (.inr rfl)), h3' _ (mem_setInsert.2 (.inr rfl))⟩
        · exact h4 o' ho' s' hs'

/-- the relations of the bundle are recorded: of the objects that are the thread's own, all of them -/
def RelsDone (E : Env) (S : Serde) (J : List Job) (Own : Said → Prop) (b : Bundle) (f : Facade) : Prop :=
  ∀ x, (∀ t, x ≠ metaKey t) → (some x ∈ b.saids → Written E S J .relations x f) ∧ (Own x → ∀ y, b.Relates x y → HasRel f.db x y)

theorem Lasting.relsDone (b : Bundle) : Lasting E S J L Own (RelsDone E S J Own b) :=
  .all fun x => .imp fun hp => .and (.imp fun _ => .written _ _) (.imp fun ho => .all fun y => .imp fun _ => .rel hp ho y)

theorem Ctx.relations (c : Ctx E S J L Ji j) (O : SetOrder) : Tr E S J L Ji Own (fun f => RelsRight f.db L) (relationsT O j.build.bundle)
    (fun _ f => RelsRight f.db L ∧ KindsIn j.build.bundle f ∧ RelsDone E S J Own j.build.bundle f) := by
  have said : ∀ o, o ∈ j.build.bundle.saids → ∃ s, o = some s := by
    intro o ho
    cases o with
    | none => exact absurd ho c.labelled.filled
    | some s => exact ⟨s, rfl⟩
  obtain ⟨bs, hbs⟩ := said j.build.bundle.said (.head _)
  obtain ⟨cs, hcs⟩ := said j.build.bundle.captureBase.said (.tail _ (.head _))
  have pb := c.labelled.plain bs (has_saids (.bundle hbs))
  have pc := c.labelled.plain cs (has_saids (.base hcs))
  have hd := c.labelled.distinct
  unfold Bundle.saids at hd
  rw [hbs, hcs, List.nodup_cons, List.nodup_cons] at hd
  have nbc : bs ≠ cs := fun e => hd.1 (by rw [e]; exact .head _)
  have fb := c.fits (.bundle hbs)
  have fc := c.fits (.base hcs)
  have r1 : j.build.bundle.Relates bs (cs, 0) := ⟨nbc, .base hcs, ⟨_, .bundle hbs⟩, .inl hbs⟩
  have r2 : j.build.bundle.Relates cs (bs, 1) := ⟨nbc.symm, .bundle hbs, ⟨_, .base hcs⟩, .inr (.inl hcs)⟩
  have hI : ∀ f f', RelyOn E S J L Own f f' → (RelsRight f.db L ∧ KindsIn j.build.bundle f) → RelsRight f'.db L ∧ KindsIn j.build.bundle f' :=
    (Lasting.right.and (Lasting.kindsIn c.mem)).rely
  unfold relationsT
  refine Thr.Tri.bind RelyOn.refl c.metas fun _ => ?_
  refine Thr.Tri.ofBind RelyOn.refl (a := bs) (by rw [hbs]; rfl) ?_
  refine Thr.Tri.ofBind RelyOn.refl (a := cs) (by rw [hcs]; rfl) ?_
  refine Thr.Tri.bind RelyOn.refl (c.exploreOrNew hI (fun f hf => hf.1) (fun f hf => hf.2) (.bundle hbs)) fun br => ?_
  have hI' : ∀ f f', RelyOn E S J L Own f f' → ((RelsRight f.db L ∧ KindsIn j.build.bundle f) ∧ Tracks L Own bs br f) →
      (RelsRight f'.db L ∧ KindsIn j.build.bundle f') ∧ Tracks L Own bs br f' := fun f f' h hf => ⟨hI f f' h hf.1, hf.2.rely pb f f' h⟩
  refine Thr.Tri.bind RelyOn.refl (Ctx.relObj hI' (fun f hf => hf.1.2) (.base hcs)) fun xc => ?_
  refine fun f hf => ?_
  obtain ⟨rfl, hf⟩ := hf
  revert f
  refine Thr.Tri.bind RelyOn.refl (c.exploreOrNew hI' (fun f hf => hf.1.1) (fun f hf => hf.1.2) (.base hcs)) fun cr => ?_
  have hI2 : ∀ f f', RelyOn E S J L Own f f' → (((RelsRight f.db L ∧ KindsIn j.build.bundle f) ∧ Tracks L Own bs br f) ∧ Tracks L Own cs cr f) →
      ((RelsRight f'.db L ∧ KindsIn j.build.bundle f') ∧ Tracks L Own bs br f') ∧ Tracks L Own cs cr f' := fun f f' h hf => ⟨hI' f f' h hf.1, hf.2.rely pc f f' h⟩
  refine Thr.Tri.bind RelyOn.refl (Ctx.relObj hI2 (fun f hf => hf.1.1.2) (.bundle hbs)) fun xb => ?_
  refine fun f hf => ?_
  obtain ⟨rfl, hf⟩ := hf
  revert f
  refine Thr.Tri.bind RelyOn.refl ((c.relLoop O hbs hcs j.build.bundle.overlays (fun _ h => h) (setInsert br (cs, 0)) (setInsert cr (bs, 1))).pre ?_) fun r => ?_
  · rintro f ⟨⟨⟨h1, h2⟩, h3⟩, h4⟩
    exact ⟨h1, h2, h3.insert fc (c.rel r1), h4.insert fb (c.rel r2)⟩
  refine fun f hf => ?_
  obtain ⟨hf, hf2, ⟨h3, h3'⟩, h4⟩ := hf
  have hod : Lasting E S J L Own fun f => ∀ o ∈ j.build.bundle.overlays, OverlayDone E S J Own bs cs o f :=
    .all fun o => .imp fun _ => .overlayDone bs cs o
  have hf3 := And.intro hf hf2
  clear hf hf2
  revert f
  -- the bundle
  have w1 := Thr.Tri.keep (c.writeRels O (Own := Own) (l := r.1)
    (P := fun f => (RelsRight f.db L ∧ KindsIn j.build.bundle f) ∧ Tracks L Own cs r.2 f) (s := bs) (k := 1)
    (fun f f' h hf => ⟨hI f f' h hf.1, hf.2.rely pc f f' h⟩) (fun f hf => hf.1.1) (fun f hf => hf.1.2) (.bundle hbs)
    (fun f v hf h1 h2 => ⟨⟨h1, h2⟩, hf.2.other nbc⟩)) hod.rely hod.gives
  refine Thr.Tri.bind RelyOn.refl (w1.pre (P' := fun f => LoopKept L Own j.build.bundle bs cs r.1 r.2 f ∧ ∀ o ∈ j.build.bundle.overlays, OverlayDone E S J Own bs cs o f)
    fun f hf => ⟨⟨⟨⟨hf.1.right, hf.1.kinds⟩, hf.1.base⟩, hf.1.bundle⟩, hf.2⟩) fun _ => ?_
  have hbd : Lasting E S J L Own fun f => Written E S J .relations bs f ∧ (Own bs → ∀ y ∈ r.1, HasRel f.db bs y) :=
    .and (.written _ _) (.imp fun ho => .all fun y => .imp fun _ => .rel pb ho y)
  have w2 := Thr.Tri.keep (Thr.Tri.keep (c.writeRels O (Own := Own) (l := r.2) (P := fun f => RelsRight f.db L ∧ KindsIn j.build.bundle f) (s := cs) (k := 0)
    hI (fun f hf => hf.1) (fun f hf => hf.2) (.base hcs) (fun f v hf h1 h2 => ⟨h1, h2⟩)) hod.rely hod.gives) hbd.rely hbd.gives
  refine (w2.pre ?_).post ?_
  · rintro f ⟨⟨⟨h1, h2⟩, h5⟩, h6⟩
    exact ⟨⟨⟨h1, h2⟩, h6⟩, h5⟩
  · rintro _ f ⟨⟨⟨⟨q1, q2⟩, q3, q4⟩, q5⟩, q6, q7⟩
    refine ⟨q1, q2, fun x px => ⟨fun hx => ?_, fun ow y hy => ?_⟩⟩
    · unfold Bundle.saids at hx
      rw [hbs, hcs] at hx
      rcases List.mem_cons.1 hx with e | hx
      · cases e; exact q6
      rcases List.mem_cons.1 hx with e | hx
      · cases e; exact q3
      obtain ⟨o, ho, e⟩ := List.mem_map.1 hx
      exact (q5 o ho x e px).1
    · obtain ⟨y1, y2⟩ := y
      obtain ⟨n, hy1, ⟨k, hx⟩, hor⟩ := hy
      dsimp only at n hy1 hor
      cases hx with
      | bundle e =>
        rw [hbs] at e; cases e
        refine q7 ow _ ?_
        cases hy1 with
        | bundle e => rw [hbs] at e; cases e; exact absurd rfl n
        | base e => rw [hcs] at e; cases e; exact h3 _ (mem_setInsert.2 (.inr rfl))
        | overlay ho e => exact (h4 _ ho _ e).1
      | base e =>
        rw [hcs] at e; cases e
        refine q4 ow _ ?_
        cases hy1 with
        | base e => rw [hcs] at e; cases e; exact absurd rfl n
        | bundle e => rw [hbs] at e; cases e; exact h3' _ (mem_setInsert.2 (.inr rfl))
        | overlay ho e => exact (h4 _ ho _ e).2
      | @overlay o _ ho e =>
        have hin : some x ∈ j.build.bundle.overlays.map (·.said) := List.mem_map.2 ⟨o, ho, e⟩
        have nb : x ≠ bs := fun e => hd.1 (.tail _ (e ▸ hin))
        have nc : x ≠ cs := fun e => hd.2.1 (e ▸ hin)
        obtain ⟨-, hrel⟩ := q5 o ho x e px
        have hsame : ∀ o' ∈ j.build.bundle.overlays, o'.said ≠ some bs ∧ o'.said ≠ some cs := fun o' ho' =>
          ⟨fun e => hd.1 (.tail _ (List.mem_map.2 ⟨o', ho', e⟩)), fun e => hd.2.1 (List.mem_map.2 ⟨o', ho', e⟩)⟩
        rcases hor with e' | e' | e' | e'
        · rw [hbs] at e'; cases e'; exact absurd rfl nb
        · rw [hcs] at e'; cases e'; exact absurd rfl nc
        · rw [hbs] at e'; cases e'
          cases hy1 with
          | bundle e => exact (hrel ow).1
          | base e => rw [hcs] at e; cases e; exact absurd rfl nbc
          | overlay ho' e => exact absurd e (hsame _ ho').1
        · rw [hcs] at e'; cases e'
          cases hy1 with
          | base e => exact (hrel ow).2
          | bundle e => rw [hbs] at e; cases e; exact absurd rfl nbc
          | overlay ho' e => exact absurd e (hsame _ ho').2

end OCA
