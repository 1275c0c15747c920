import Verif.Lemmas.ThreadLoop
/-! A whole job in a thread among others. -/
namespace OCA
variable {E : Env} {S : Serde} {J Ji : List Job} {L : Limit} {Own : Said → Prop} {j : Job}

/-- what is recorded of a step -/
structure StepDone (E : Env) (S : Serde) (J : List Job) (st : BuildStep) (f : Facade) : Prop where
  bundle : ∀ s, st.result.said = some s → Written E S J .oca (opKey s) f ∧ WrittenC E S J .bundlesJson s f
  base : ∀ s, st.result.captureBase.said = some s → WrittenC E S J .objectsJson s f
  overlay : ∀ o ∈ st.result.overlays, ∀ s, o.said = some s → WrittenC E S J .objectsJson s f

/-- what is recorded of a job -/
structure JobDone (E : Env) (S : Serde) (J : List Job) (Own : Said → Prop) (j : Job) (f : Facade) : Prop where
  bundleRow : ∀ s, j.build.bundle.said = some s → s ∈ f.bundles.map (·.1)
  baseRow : ∀ s, j.build.bundle.captureBase.said = some s → s ∈ f.bases.map (·.1)
  rows : ∀ o ∈ j.build.bundle.overlays, ∀ s r, j.build.bundle.said = some s → metaRow s o.body = some r → ∃ q ∈ f.fts, q.said = r.said ∧ q.lang = r.lang
  steps : ∀ st ∈ j.build.steps, StepDone E S J st f
  rels : RelsDone E S J Own j.build.bundle f
  kinds : KindsIn j.build.bundle f
  name : ∀ n, j.name = some n → Written E S J .references n f

theorem Lasting.stepDone (st : BuildStep) : Lasting E S J L Own (StepDone E S J st) := fun f f' c g h =>
  ⟨fun s hs => ⟨Lasting.written _ _ f f' c g (h.bundle s hs).1, Lasting.writtenC _ _ f f' c g (h.bundle s hs).2⟩,
    fun s hs => Lasting.writtenC _ _ f f' c g (h.base s hs), fun o ho s hs => Lasting.writtenC _ _ f f' c g (h.overlay o ho s hs)⟩

theorem Lasting.jobDone (hj : j ∈ J) : Lasting E S J L Own (JobDone E S J Own j) := fun f f' c g h =>
  ⟨fun s hs => Lasting.bundleRow s f f' c g (h.bundleRow s hs), fun s hs => Lasting.baseRow s f f' c g (h.baseRow s hs),
    fun o ho s r hs hr => Lasting.ftsRow _ _ f f' c g (h.rows o ho s r hs hr), fun st hst => Lasting.stepDone st f f' c g (h.steps st hst),
    Lasting.relsDone _ f f' c g h.rels, Lasting.kindsIn hj f f' c g h.kinds, fun n hn => Lasting.written _ _ f f' c g (h.name n hn)⟩

/-- the relations are right, and something more is the case -/
abbrev With (L : Limit) (D : Facade → Prop) : Facade → Prop := fun f => RelsRight f.db L ∧ D f

theorem insertRow_has (t : Table) (s : Said) (v : Str) : s ∈ (t.insertRow s v).map (·.1) := by
  unfold Table.insertRow
  split
  · next h =>
    obtain ⟨r, hr, e⟩ := List.any_eq_true.1 h
    exact List.mem_map.2 ⟨r, hr, of_decide_eq_true e⟩
  · simp

theorem insertFts_there (t : List FtsRow) (r : FtsRow) : ∃ q ∈ insertFts t r, q.said = r.said ∧ q.lang = r.lang := by
  unfold insertFts
  split
  · next h =>
    obtain ⟨q, hq, e⟩ := List.any_eq_true.1 h
    simp only [Bool.and_eq_true, decide_eq_true_eq] at e
    exact ⟨q, hq, e⟩
  · exact ⟨r, by simp, rfl, rfl⟩

/-- a record -/
theorem Tr.record {ns : Namespace} {k : Str} {v : Bytes} (hw : JobWrite E S J (.db ns k v)) (hn : ns ≠ .relations) :
    Tr E S J L Ji Own (fun f => RelsRight f.db L) (Thr.emit (.db ns k v)) (fun _ => With L (Written E S J ns k)) :=
  Tr.plain hw (fun k' v' e => by cases e; exact hn rfl) (.written ns k) fun f => ⟨v, hw, by
    show (f.db.set ns k v).get ns k = _
    rw [Store.get_set, if_pos ⟨rfl, rfl⟩]⟩

theorem Tr.recordC {ns : Namespace} {k : Str} {v : Bytes} (hw : JobWrite E S J (.cache ns k v)) :
    Tr E S J L Ji Own (fun f => RelsRight f.db L) (Thr.emit (.cache ns k v)) (fun _ => With L (WrittenC E S J ns k)) :=
  Tr.plain hw (fun k' v' e => by cases e) (.writtenC ns k) fun f => ⟨v, hw, by
    show (f.cache.set ns k v).get ns k = _
    rw [Store.get_set, if_pos ⟨rfl, rfl⟩]⟩

theorem Tr.each {γ : Type} {g : γ → Thr Unit} {l : List γ} {D : γ → Facade → Prop} (hD : ∀ a, a ∈ l → Lasting E S J L Own (D a))
    (h : ∀ a ∈ l, Tr E S J L Ji Own (fun f => RelsRight f.db L) (g a) (fun _ => With L (D a))) :
    Tr E S J L Ji Own (fun f => RelsRight f.db L) (Thr.each g l) (fun _ => With L fun f => ∀ a ∈ l, D a f) := by
  have hl : ∀ a, Lasting E S J L Own fun f => a ∈ l → D a f := fun a => .imp (hD a)
  have := Thr.Tri.each (D := fun a f => a ∈ l → D a f) RelyOn.refl (fun f f' h => (Lasting.right (E := E) (S := S) (J := J) (L := L) (Own := Own)).rely f f' h)
    (fun a f f' h => (hl a).rely f f' h) (fun a f f' h => (hl a).gives f f' h)
    (fun a ha => (h a ha).post fun _ f hf => ⟨hf.1, fun _ => hf.2⟩)
  exact this.post fun _ f hf => ⟨hf.1, fun a ha => hf.2 a ha ha⟩

theorem Tr.nothing : Tr E S J L Ji Own (fun f => RelsRight f.db L) (pure () : Thr Unit) (fun _ f => RelsRight f.db L) :=
  Thr.Tri.pure (Q := fun _ f => RelsRight f.db L) Lasting.right.rely

theorem Ctx.cache (c : Ctx E S J L Ji j) : Tr E S J L Ji Own (fun f => RelsRight f.db L) (cacheT E S j.build.bundle)
    (fun _ => With L fun f => (∀ s, j.build.bundle.said = some s → s ∈ f.bundles.map (·.1)) ∧
      ∀ s, j.build.bundle.captureBase.said = some s → s ∈ f.bases.map (·.1)) := by
  have said : ∀ o, o ∈ j.build.bundle.saids → ∃ s, o = some s := by
    intro o ho
    cases o with
    | none => exact absurd ho c.labelled.filled
    | some s => exact ⟨s, rfl⟩
  obtain ⟨bs, hbs⟩ := said j.build.bundle.said (.head _)
  obtain ⟨cs, hcs⟩ := said j.build.bundle.captureBase.said (.tail _ (.head _))
  unfold cacheT
  refine Thr.Tri.ofBind RelyOn.refl (a := bs) (by rw [hbs]; rfl) ?_
  refine (Tr.andThen (Lasting.bundleRow bs) (Tr.plain (.build c.mem (.bundleRow hbs)) (fun _ _ e => by cases e) (Lasting.bundleRow bs)
    fun f => insertRow_has _ _ _) (Thr.Tri.ofBind RelyOn.refl (a := cs) (by rw [hcs]; rfl)
      (Tr.plain (.build c.mem (.baseRow hcs)) (fun _ _ e => by cases e) (Lasting.baseRow cs) fun f => insertRow_has _ _ _))).post ?_
  rintro _ f ⟨h, h1, h2⟩
  refine ⟨h, ?_, ?_⟩
  · intro s hs; rw [hbs] at hs; cases hs; exact h1
  · intro s hs; rw [hcs] at hs; cases hs; exact h2

theorem metaRow_kind {s : Said} {b : OvBody} {r : FtsRow} (h : metaRow s b = some r) : b.kind = .metaOv := by
  cases b with
  | metaOv l m => rfl
  | _ => cases h

theorem Ctx.meta (c : Ctx E S J L Ji j) : Tr E S J L Ji Own (fun f => RelsRight f.db L) (metaT j.build.bundle)
    (fun _ => With L fun f => ∀ o ∈ j.build.bundle.overlays, ∀ s r, j.build.bundle.said = some s → metaRow s o.body = some r →
      ∃ q ∈ f.fts, q.said = r.said ∧ q.lang = r.lang) := by
  unfold metaT
  split
  · cases hbs : j.build.bundle.said with
    | none => exact absurd (by rw [← hbs]; exact .head _) c.labelled.filled
    | some bs =>
      refine Thr.Tri.ofBind RelyOn.refl (a := bs) rfl ?_
      refine (Tr.each (D := fun (r : FtsRow) (f : Facade) => ∃ q ∈ f.fts, q.said = r.said ∧ q.lang = r.lang) (fun r _ => Lasting.ftsRow r.said r.lang) ?_).post ?_
      · intro r hr
        obtain ⟨o, ho, e⟩ := List.mem_filterMap.1 hr
        exact Tr.plain (.build c.mem (.search hbs ho e)) (fun _ _ e => by cases e) (Lasting.ftsRow r.said r.lang) fun f => insertFts_there _ _
      · rintro _ f ⟨h, h1⟩
        refine ⟨h, fun o ho s r hs hr => ?_⟩
        cases hs
        exact h1 r (List.mem_filterMap.2 ⟨o, ho, hr⟩)
  · next hno =>
    refine Tr.nothing.post fun _ f hf => ⟨hf, fun o ho s r _ hr => ?_⟩
    exact absurd (List.any_eq_true.2 ⟨o, ho, decide_eq_true (metaRow_kind hr)⟩) hno

theorem Ctx.step (c : Ctx E S J L Ji j) {st : BuildStep} (hst : st ∈ j.build.steps) (hs : st.Short) :
    Tr E S J L Ji Own (fun f => RelsRight f.db L) (stepT E S st) (fun _ => With L (StepDone E S J st)) := by
  obtain ⟨pb, hp⟩ := parentBytes_ok (ε := Str) hs.parent
  obtain ⟨s, hss⟩ := Option.ne_none_iff_exists'.1 hs.signed.1
  obtain ⟨b, hb⟩ := Option.ne_none_iff_exists'.1 hs.signed.2.1
  have hop : (operationBytes S st.parentSaid st.command.toJson : Res Str Bytes) = .ok (pb ++ utf8 (S.print st.command.toJson)) := by
    unfold operationBytes
    rw [hp]
    rfl
  unfold stepT
  refine Thr.Tri.ofBind RelyOn.refl hop (Thr.Tri.ofBind RelyOn.refl (a := s) (by rw [hss]; rfl) ?_)
  have h1 := Tr.record (E := E) (S := S) (L := L) (Ji := Ji) (Own := Own) (.build c.mem (.operation hst hss hop)) (by decide)
  have h2 := Tr.recordC (E := E) (S := S) (L := L) (Ji := Ji) (Own := Own) (.build c.mem (.bundle hst hss))
  have h3 := Tr.recordC (E := E) (S := S) (L := L) (Ji := Ji) (Own := Own) (.build c.mem (.base hst hb))
  have h4 : Tr E S J L Ji Own (fun f => RelsRight f.db L) (Thr.each (overlayT S) st.result.overlays)
      (fun _ => With L fun f => ∀ o ∈ st.result.overlays, ∀ x, o.said = some x → WrittenC E S J .objectsJson x f) := by
    refine Tr.each (fun o _ => .all fun x => .imp fun _ => .writtenC _ _) fun o ho => ?_
    obtain ⟨x, hx⟩ := Option.ne_none_iff_exists'.1 (hs.signed.2.2 o ho)
    unfold overlayT
    refine Thr.Tri.ofBind RelyOn.refl (a := x) (by rw [hx]; rfl) ((Tr.recordC (.build c.mem (.overlay hst ho hx))).post ?_)
    rintro _ f ⟨h, h'⟩
    refine ⟨h, fun y hy => ?_⟩
    rw [hx] at hy
    cases hy
    exact h'
  refine (Tr.andThen (.written _ _) h1 (Tr.andThen (.writtenC _ _) h2 (Thr.Tri.ofBind RelyOn.refl (a := b) (by rw [hb]; rfl)
    (Tr.andThen (.writtenC _ _) h3 h4)))).post ?_
  rintro _ f ⟨h, q1, q2, q3, q4⟩
  refine ⟨h, ?_, ?_, q4⟩
  · intro x hx; rw [hss] at hx; cases hx; exact ⟨q1, q2⟩
  · intro x hx; rw [hb] at hx; cases hx; exact q3

theorem Ctx.core (c : Ctx E S J L Ji j) {k : Said} {r : Res Str Bytes} {v : Bytes} (hr : r = .ok v) :
    Tr E S J L Ji Own (fun f => RelsRight f.db L) (coreT k r) (fun _ f => RelsRight f.db L) := by
  unfold coreT
  exact Thr.Tri.ofBind RelyOn.refl hr ((Tr.record (.build c.mem .model) (by decide)).post fun _ _ h => h.1)

theorem objectModelBytes_ok {m : ObjectModel} (h : m.Short) : ∃ v, (objectModelBytes m : Res Str Bytes) = .ok v := by
  obtain ⟨p, hp⟩ := parentBytes_ok (ε := Str) h.parent
  obtain ⟨c, hc⟩ := lenPrefixed_ok_st (ε := Str) h.command
  exact ⟨_, by simp only [objectModelBytes, hp, hc, Res.bind_ok, Res.pure_eq]; rfl⟩

theorem Ctx.models (c : Ctx E S J L Ji j) (hE : E.PlainDigests) (hst : ∀ st ∈ j.build.steps, st.Short) :
    Tr E S J L Ji Own (fun f => RelsRight f.db L) (modelsT E S j.build.steps) (fun _ f => RelsRight f.db L) := by
  obtain ⟨ms, em, hms⟩ := coreModels_short (ε := Str) hE j.build.steps hst (s := {}) ⟨fun _ h => (by cases h), fun _ h => (by cases h),
    fun _ _ h => (by cases h)⟩
  unfold modelsT
  refine Thr.Tri.ofBind RelyOn.refl (a := ms) em ?_
  refine (Tr.each (D := fun _ _ => True) (fun _ _ => .const True) fun m hm => ?_).post fun _ _ h => h.1
  have hs := hms m hm
  have objs : ∀ o : Option ObjectModel, (∀ x, o = some x → x.Short) → Tr E S J L Ji Own (fun f => RelsRight f.db L)
      (Thr.each (fun o : ObjectModel => coreT o.said (objectModelBytes o)) o.toList) (fun _ f => RelsRight f.db L) := by
    intro o ho
    refine (Tr.each (D := fun _ _ => True) (fun _ _ => .const True) fun x hx => ?_).post fun _ _ h => h.1
    obtain ⟨v, hv⟩ := objectModelBytes_ok (ho x (Option.mem_toList.1 hx))
    exact (c.core hv).post fun _ _ h => ⟨h, trivial⟩
  have hb : ∃ v, (bundleModelBytes m.bundle : Res Str Bytes) = .ok v := by
    obtain ⟨p, hp⟩ := parentBytes_ok (ε := Str) hs.parent
    obtain ⟨b, hb⟩ := lenPrefixed_ok_st (ε := Str) hs.base
    obtain ⟨os, hos⟩ := lenPrefixedAll_ok (ε := Str) _ hs.overlays
    exact ⟨_, by simp only [bundleModelBytes, hp, hb, hos, Res.bind_ok, Res.pure_eq]; rfl⟩
  obtain ⟨v, hv⟩ := hb
  unfold modelT
  refine Thr.Tri.bind RelyOn.refl (c.core rfl) fun _ => Thr.Tri.bind RelyOn.refl (objs _ hs.baseModel) fun _ =>
    Thr.Tri.bind RelyOn.refl (objs _ hs.overlayModel) fun _ => (c.core hv).post fun _ _ h => ⟨h, trivial⟩

/-- The whole job: it succeeds and all of it is recorded. -/
theorem Ctx.job (c : Ctx E S J L Ji j) (hE : E.PlainDigests) (hst : ∀ st ∈ j.build.steps, st.Short) :
    Tr E S J L Ji Own (fun f => RelsRight f.db L) (jobT E S j) (fun _ => With L (JobDone E S J Own j)) := by
  have h0 : Tr E S J L Ji Own (fun f => RelsRight f.db L) (Thr.each (fun n : Str => do
      let s ← Thr.of (Res.unwrap j.build.bundle.said)
      Thr.emit (.db .references n (utf8 s))) j.name.toList) (fun _ => With L fun f => ∀ n ∈ j.name.toList, Written E S J .references n f) := by
    refine Tr.each (fun n _ => .written _ _) fun n hn => ?_
    cases hbs : j.build.bundle.said with
    | none => exact absurd (by rw [← hbs]; exact .head _) c.labelled.filled
    | some bs => exact Thr.Tri.ofBind RelyOn.refl (a := bs) rfl (Tr.record (.name c.mem (Option.mem_toList.1 hn) hbs) (by decide))
  have l0 : Lasting E S J L Own fun f => ∀ n ∈ j.name.toList, Written E S J .references n f := .all fun n => .imp fun _ => .written _ _
  have h1 := c.cache (Own := Own)
  have l1 : Lasting E S J L Own fun f => (∀ s, j.build.bundle.said = some s → s ∈ f.bundles.map (·.1)) ∧
      ∀ s, j.build.bundle.captureBase.said = some s → s ∈ f.bases.map (·.1) := .and (.all fun s => .imp fun _ => .bundleRow s) (.all fun s => .imp fun _ => .baseRow s)
  have h2 := c.meta (Own := Own)
  have l2 : Lasting E S J L Own fun f => ∀ o ∈ j.build.bundle.overlays, ∀ s r, j.build.bundle.said = some s → metaRow s o.body = some r →
      ∃ q ∈ f.fts, q.said = r.said ∧ q.lang = r.lang :=
    .all fun o => .imp fun _ => .all fun s => .all fun r => .imp fun _ => .imp fun _ => .ftsRow _ _
  have h3 : Tr E S J L Ji Own (fun f => RelsRight f.db L) (Thr.each (stepT E S) j.build.steps) (fun _ => With L fun f => ∀ st ∈ j.build.steps, StepDone E S J st f) :=
    Tr.each (fun st _ => .stepDone st) fun st h => c.step h (hst st h)
  have l3 : Lasting E S J L Own fun f => ∀ st ∈ j.build.steps, StepDone E S J st f := .all fun st => .imp fun _ => .stepDone st
  have h4 := (c.relations (Own := Own) j.order).ignore
  have l4 : Lasting E S J L Own fun f => KindsIn j.build.bundle f ∧ RelsDone E S J Own j.build.bundle f := .and (.kindsIn c.mem) (.relsDone _)
  have h5 := (c.models (Own := Own) hE hst).post (Q' := fun _ => With L fun _ => True) fun _ _ h => ⟨h, trivial⟩
  unfold jobT buildT
  refine (Tr.andThen l0 h0 (Tr.andThen l1 h1 (Tr.andThen l2 h2 (Tr.andThen l3 h3 (Tr.andThen l4 h4 h5))))).post ?_
  rintro _ f ⟨h, q0, ⟨q1, q1'⟩, q2, q3, ⟨q4, q4'⟩, -⟩
  exact ⟨h, q1, q1', q2, q3, q4', q4, fun n hn => q0 n (Option.mem_toList.2 hn)⟩

/-- a thread: all its jobs -/
theorem thread_done (hE : E.PlainDigests) (hst : ∀ j ∈ Ji, ∀ st ∈ j.build.steps, st.Short) (hc : ∀ j ∈ Ji, Ctx E S J L Ji j) :
    Tr E S J L Ji Own (fun f => RelsRight f.db L) (threadT E S Ji) (fun _ => With L fun f => ∀ j ∈ Ji, JobDone E S J Own j f) :=
  Tr.each (fun j hj => .jobDone (hc j hj).mem) fun j hj => (hc j hj).job hE (hst j hj)

/-! ## All threads together -/

/-- the object is in no bundle of the other threads -/
def OnlyOf (jss : List (List Job)) (i : Nat) (x : Said) : Prop := ∀ k js, k ≠ i → jss[k]? = some js → ∀ j ∈ js, some x ∉ j.build.bundle.saids

theorem threads_run (hE : E.PlainDigests) {jss : List (List Job)} (hst : ∀ js ∈ jss, ∀ j ∈ js, ∀ st ∈ j.build.steps, st.Short)
    (hc : ∀ js ∈ jss, ∀ j ∈ js, Ctx E S jss.flatten L js j) {f g : Facade} (hf : RelsRight f.db L) {us : List (Thr Unit)}
    (h : Interleaved f (jss.map (threadT E S)) g us) :
    us.length = jss.length ∧ (Calm E S jss.flatten L f g ∧ ∀ i, i < jss.length → Grows (OnlyOf jss i) f g) ∧
    ∀ i (js : List Job), jss[i]? = some js → ∀ r, us[i]? = some (.done r) → r = .ok () ∧ ∀ j ∈ js, JobDone E S jss.flatten (OnlyOf jss i) j g := by
  have key := together (n := jss.length) (Rely := fun i => RelyOn E S jss.flatten L (OnlyOf jss i))
    (Guar := fun i => Gives E S jss.flatten L (jss[i]?.getD []) (OnlyOf jss i))
    (Post := fun i r g => ∃ a, r = .ok a ∧ With L (fun f => ∀ j ∈ jss[i]?.getD [], JobDone E S jss.flatten (OnlyOf jss i) j f) g)
    (fun i a => .refl a) (fun i a b c h h' => h.trans h')
    (by
      intro i k f f' hi hk hne hg
      refine ⟨hg.1, fun x hx ho => hg.2.1 x hx fun j hj => ?_⟩
      cases e : jss[i]? with
      | none => rw [e] at hj; cases hj
      | some js => rw [e] at hj; exact ho i js hne e j hj)
    (C := fun f g => Calm E S jss.flatten L f g ∧ ∀ i, i < jss.length → Grows (OnlyOf jss i) f g)
    (fun f => ⟨.refl f, fun i _ => (Still.refl _ f).grows⟩)
    (fun a b c h h' => ⟨h.1.trans h'.1, fun i hi x y hx ho hy => h'.2 i hi x y hx ho (h.2 i hi x y hx ho hy)⟩)
    (by
      intro i f f' hi hg
      refine ⟨hg.1, fun k hk x y hx ho hy => ?_⟩
      by_cases e : i = k
      · subst e; exact hg.2.2 x y hx ho hy
      · refine Still.grows (K := OnlyOf jss k) ?_ x y hx ho hy
        intro z hz ho
        refine hg.2.1 z hz fun j hj => ?_
        cases e' : jss[i]? with
        | none => rw [e'] at hj; cases hj
        | some js => rw [e'] at hj; exact ho i js e e' j hj)
    (by simp) h
    (by
      intro i t ht
      rw [List.getElem?_map] at ht
      cases e : jss[i]? with
      | none => rw [e] at ht; cases ht
      | some js =>
        rw [e] at ht
        cases ht
        have hm := List.mem_of_getElem? e
        exact thread_done hE (hst js hm) (hc js hm) f hf)
  refine ⟨key.1, key.2.1, fun i js e r hr => ?_⟩
  obtain ⟨a, h1, h2⟩ := key.2.2 i _ hr g (.refl g)
  refine ⟨h1, ?_⟩
  have := h2.2
  rw [e] at this
  exact this

end OCA
