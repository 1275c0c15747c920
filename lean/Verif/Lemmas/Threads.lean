import Verif.Model.Threads
import Verif.Lemmas.Prog
/-! Threads: left alone they are the programs of `Verif.Model.Crash`; what each does when the others only do what it relies on, all do together. -/
namespace OCA
namespace Thr
variable {α β : Type}

/-! ## Alone -/

theorem alone_done (r : Res Str α) : (Thr.done r).alone = Prog.of r := rfl
theorem alone_of (r : Res Str α) : (Thr.of r).alone = Prog.of r := rfl
theorem alone_pure (a : α) : (pure a : Thr α).alone = (pure a : Prog α) := rfl
theorem alone_emit (w : Write) : (Thr.emit w).alone = Prog.emit w := rfl

theorem alone_bind (m : Thr α) (k : α → Thr β) : (m >>= k).alone = m.alone >>= fun a => (k a).alone := by
  show (m.andThen k).alone = Prog.next m.alone fun a => (k a).alone
  funext f
  induction m generalizing f with
  | done r =>
    cases r with
    | ok a =>
      show (k a).alone f = _
      unfold Prog.next
      rw [alone_done]
      rfl
    | err e => rfl
    | panic => rfl
  | get ns x c ih => exact ih _ f
  | put w c ih =>
    show (w :: ((c.andThen k).alone (f.write w)).1, ((c.andThen k).alone (f.write w)).2) = _
    rw [ih (f.write w)]
    unfold Prog.next
    show _ = (match ((w :: (c.alone (f.write w)).1, (c.alone (f.write w)).2) : List Write × Res Str α) with
      | (ws, .ok a) => _
      | (ws, .err e) => _
      | (ws, .panic) => _)
    rcases c.alone (f.write w) with ⟨ws, r⟩
    cases r <;> rfl

theorem alone_ignore (m : Thr Unit) : m.ignore.alone = Prog.ignore m.alone := by
  funext f
  induction m generalizing f with
  | done r => cases r <;> rfl
  | get ns x c ih => exact ih _ f
  | put w c ih =>
    show (w :: (c.ignore.alone (f.write w)).1, (c.ignore.alone (f.write w)).2) = _
    rw [ih (f.write w)]
    unfold Prog.ignore
    show _ = (match ((w :: (c.alone (f.write w)).1, (c.alone (f.write w)).2) : List Write × Res Str Unit) with
      | (ws, .err _) => _
      | r => r)
    rcases c.alone (f.write w) with ⟨ws, r⟩
    cases r <;> rfl

theorem alone_each {g : α → Thr Unit} {h : α → Prog Unit} (hg : ∀ a, (g a).alone = h a) (l : List α) :
    (Thr.each g l).alone = Prog.each h l := by
  induction l with
  | nil => rfl
  | cons a t ih =>
    show (g a >>= fun _ => Thr.each g t).alone = (h a >>= fun _ => Prog.each h t)
    rw [alone_bind, hg, ih]

end Thr

open Thr in
theorem objectTypeT_alone (s : Said) : (objectTypeT s).alone = Prog.look (objectType · s) := by
  funext f
  show (([], (f.db.get .relations (metaKey s) >>= kindRead)) : List Write × _) = ([], objectType f.db s)
  rfl

open Thr in
theorem relObjT_alone (s : Said) : (relObjT s).alone = Prog.look (relObj · s) := by
  unfold relObjT
  rw [alone_bind, objectTypeT_alone]
  funext f
  rw [Prog.bind_apply]
  simp only [Prog.look]
  unfold relObj
  cases objectType f.db s <;> rfl

open Thr in
theorem exploreT_alone (s : Said) : (exploreT s).alone = Prog.look (explore · s) := by
  funext f
  show (match f.db.get .relations s with
    | .ok (some b) => (do
      let l ← Thr.of (relationsOf b)
      let _ ← objectTypeT s
      pure (some l) : Thr _)
    | .panic => .done .panic
    | _ => .done (.ok none)).alone f = ([], explore f.db s)
  unfold explore
  cases f.db.get .relations s with
  | err e => rfl
  | panic => rfl
  | ok o =>
    cases o with
    | none => rfl
    | some b =>
      dsimp only
      rw [alone_bind, alone_of]
      simp only [alone_bind, objectTypeT_alone, alone_pure]
      rw [Prog.bind_apply]
      simp only [Prog.of]
      cases (relationsOf b : Res Str _) with
      | err e => rfl
      | panic => rfl
      | ok l =>
        dsimp only
        rw [Prog.bind_apply]
        show (_, _) = _
        simp only [Prog.look, Res.bind_ok, Facade.writes_nil]
        cases objectType f.db s <;> rfl

open Thr in
theorem exploreOrNewT_alone (s : Said) : (exploreOrNewT s).alone = Prog.look (exploreOrNew · s) := by
  unfold exploreOrNewT
  simp only [alone_bind, exploreT_alone, relObjT_alone, alone_pure]
  funext f
  unfold exploreOrNew
  rw [Prog.bind_apply]
  simp only [Prog.look]
  cases explore f.db s with
  | err e => rfl
  | panic => rfl
  | ok r =>
    dsimp only
    rw [Prog.bind_apply]
    simp only [Prog.look, Facade.writes_nil, Res.bind_ok]
    cases relObj f.db s <;> rfl

open Thr in
theorem writeRelsT_alone (O : SetOrder) (s : Said) (l : List RelObj) : (writeRelsT O s l).alone = writeRelsOp O s l := by
  unfold writeRelsT writeRelsOp
  simp only [alone_bind, alone_of, alone_emit]

open Thr in
theorem relLoopT_alone (O : SetOrder) (bs cs : Said) (os : List Overlay) : ∀ br cr, (relLoopT O bs cs br cr os).alone = relLoopOp O bs cs br cr os := by
  induction os with
  | nil => exact fun _ _ => rfl
  | cons o t ih =>
    intro br cr
    unfold relLoopT relLoopOp
    simp only [alone_bind, alone_of, relObjT_alone, exploreOrNewT_alone, writeRelsT_alone, ih]

open Thr in
theorem relationsT_alone (O : SetOrder) (b : Bundle) : (relationsT O b).alone = relationsOp O b := by
  unfold relationsT relationsOp metasT metasOp
  simp only [alone_bind, alone_of, alone_emit, relObjT_alone, exploreOrNewT_alone, writeRelsT_alone, relLoopT_alone]
  rw [alone_each (h := overlayMetaOp)]
  intro o
  unfold overlayMetaT overlayMetaOp
  simp only [alone_bind, alone_of, alone_emit]

open Thr in
theorem coreT_alone (k : Said) (r : Res Str Bytes) : (coreT k r).alone = coreOp k r := by
  unfold coreT coreOp
  simp only [alone_bind, alone_of, alone_emit]

open Thr in
/-- Left alone, the thread is the program of `Verif.Model.Crash`. -/
theorem buildT_alone (E : Env) (S : Serde) (O : SetOrder) (b : Build) : (buildT E S O b).alone = buildOp E S O b := by
  have h1 : ∀ b, (cacheT E S b).alone = cacheOp E S b := fun b => by
    unfold cacheT cacheOp
    simp only [alone_bind, alone_of, alone_emit]
  have h2 : ∀ b, (metaT b).alone = metaOp b := fun b => by
    unfold metaT metaOp
    split
    · simp only [alone_bind, alone_of]
      congr 1
      funext s
      exact alone_each (fun r => alone_emit _) _
    · rfl
  have h3 : ∀ st, (stepT E S st).alone = stepOp E S st := fun st => by
    unfold stepT stepOp
    simp only [alone_bind, alone_of, alone_emit]
    rw [alone_each (h := overlayOp S)]
    intro o
    unfold overlayT overlayOp
    simp only [alone_bind, alone_of, alone_emit]
  have h4 : ∀ m, (modelT S m).alone = modelOp S m := fun m => by
    unfold modelT modelOp
    simp only [alone_bind, coreT_alone]
    rw [alone_each (h := fun o : ObjectModel => coreOp o.said (objectModelBytes o)) (fun o => coreT_alone _ _),
      alone_each (h := fun o : ObjectModel => coreOp o.said (objectModelBytes o)) (fun o => coreT_alone _ _)]
  unfold buildT buildOp modelsT modelsOp
  simp only [alone_bind, alone_of, alone_ignore, h1, h2, relationsT_alone]
  rw [alone_each (h := stepOp E S) h3]
  congr 1; funext _; congr 1; funext _; congr 1; funext _; congr 1; funext _; congr 1; funext ms
  exact alone_each h4 _

/-! ## With others -/

namespace Thr
variable {α β : Type} {Rely Guar : Facade → Facade → Prop}

/-- The thread, from here, whatever the others do that it relies on: all it does is guaranteed, and it ends as `Post` says. -/
def Rg (Rely Guar : Facade → Facade → Prop) (Post : Res Str α → Facade → Prop) : Thr α → Facade → Prop
  | .done r, f => ∀ f', Rely f f' → Post r f'
  | .get ns k c, f => ∀ f', Rely f f' → (c (f'.db.get ns k)).Rg Rely Guar Post f'
  | .put w c, f => ∀ f', Rely f f' → Guar f' (f'.write w) ∧ c.Rg Rely Guar Post (f'.write w)

theorem Rg.rely (tr : ∀ a b c, Rely a b → Rely b c → Rely a c) {Post : Res Str α → Facade → Prop} {m : Thr α} {f f' : Facade}
    (h : m.Rg Rely Guar Post f) (hr : Rely f f') : m.Rg Rely Guar Post f' := by
  cases m with
  | done r => exact fun g hg => h g (tr _ _ _ hr hg)
  | get ns k c => exact fun g hg => h g (tr _ _ _ hr hg)
  | put w c => exact fun g hg => h g (tr _ _ _ hr hg)

theorem Rg.mono {Post Post' : Res Str α → Facade → Prop} {m : Thr α} {f : Facade} (h : m.Rg Rely Guar Post f)
    (hp : ∀ r f, Post r f → Post' r f) : m.Rg Rely Guar Post' f := by
  induction m generalizing f with
  | done r => exact fun g hg => hp r g (h g hg)
  | get ns k c ih => exact fun g hg => ih _ (h g hg)
  | put w c ih => exact fun g hg => ⟨(h g hg).1, ih (h g hg).2⟩

/-- what both the others and the thread itself keep, is kept -/
theorem Rg.frame {F : Facade → Prop} (h1 : ∀ f f', Rely f f' → F f → F f') (h2 : ∀ f f', Guar f f' → F f → F f')
    {Post : Res Str α → Facade → Prop} {m : Thr α} {f : Facade} (h : m.Rg Rely Guar Post f) (hf : F f) :
    m.Rg Rely Guar (fun r g => Post r g ∧ F g) f := by
  induction m generalizing f with
  | done r => exact fun g hg => ⟨h g hg, h1 f g hg hf⟩
  | get ns k c ih => exact fun g hg => ih _ (h g hg) (h1 f g hg hf)
  | put w c ih => exact fun g hg => ⟨(h g hg).1, ih (h g hg).2 (h2 _ _ (h g hg).1 (h1 f g hg hf))⟩

/-- From what `P` says, the thread succeeds, and what it then has is as `Q` says. -/
def Tri (Rely Guar : Facade → Facade → Prop) (P : Facade → Prop) (m : Thr α) (Q : α → Facade → Prop) : Prop :=
  ∀ f, P f → m.Rg Rely Guar (fun r g => ∃ a, r = .ok a ∧ Q a g) f

variable {P P' F : Facade → Prop} {Q Q' : α → Facade → Prop}

theorem Tri.pre {m : Thr α} (h : Tri Rely Guar P m Q) (hp : ∀ f, P' f → P f) : Tri Rely Guar P' m Q := fun f hf => h f (hp f hf)
theorem Tri.post {m : Thr α} (h : Tri Rely Guar P m Q) (hq : ∀ a f, Q a f → Q' a f) : Tri Rely Guar P m Q' := fun f hf =>
  (h f hf).mono fun _ _ ⟨a, e, hq'⟩ => ⟨a, e, hq a _ hq'⟩
theorem Tri.keep {m : Thr α} (h : Tri Rely Guar P m Q) (h1 : ∀ f f', Rely f f' → F f → F f') (h2 : ∀ f f', Guar f f' → F f → F f') :
    Tri Rely Guar (fun f => P f ∧ F f) m (fun a f => Q a f ∧ F f) := fun f hf =>
  ((h f hf.1).frame h1 h2 hf.2).mono fun _ _ ⟨⟨a, e, hq⟩, hf⟩ => ⟨a, e, hq, hf⟩

theorem Tri.bind (rf : ∀ a, Rely a a) {m : Thr α} {k : α → Thr β} {Q2 : β → Facade → Prop} (hm : Tri Rely Guar P m Q)
    (hk : ∀ a, Tri Rely Guar (Q a) (k a) Q2) : Tri Rely Guar P (m >>= k) Q2 := by
  intro f hf
  show (m.andThen k).Rg Rely Guar _ f
  have h := hm f hf
  clear hm hf
  induction m generalizing f with
  | done r =>
    obtain ⟨a, e, hq⟩ := h f (rf f)
    subst e
    exact hk a f hq
  | get ns x c ih => exact fun g hg => ih _ _ (h g hg)
  | put w c ih => exact fun g hg => ⟨(h g hg).1, ih _ (h g hg).2⟩

theorem Tri.ignore {m : Thr Unit} {Q : Unit → Facade → Prop} (hm : Tri Rely Guar P m Q) : Tri Rely Guar P m.ignore Q := by
  intro f hf
  have h := hm f hf
  clear hm hf
  induction m generalizing f with
  | done r =>
    cases r with
    | ok a => exact h
    | err e =>
      intro g hg
      obtain ⟨a, e, -⟩ := h g hg
      cases e
    | panic => exact h
  | get ns x c ih => exact fun g hg => ih _ _ (h g hg)
  | put w c ih => exact fun g hg => ⟨(h g hg).1, ih _ (h g hg).2⟩

theorem Tri.of {r : Res Str α} {a : α} (hr : r = .ok a) (h1 : ∀ f f', Rely f f' → P f → P f') : Tri Rely Guar P (Thr.of r) (fun x f => x = a ∧ P f) := by
  subst hr
  exact fun f hf g hg => ⟨a, rfl, rfl, h1 f g hg hf⟩

/-- a value that is there: go on with it -/
theorem Tri.ofBind (rf : ∀ a, Rely a a) {r : Res Str α} {a : α} (hr : r = .ok a) {k : α → Thr β} {Q2 : β → Facade → Prop}
    (hk : Tri Rely Guar P (k a) Q2) : Tri Rely Guar P (Thr.of r >>= k) Q2 := by
  subst hr
  exact hk

theorem Tri.pure {a : α} (h1 : ∀ f f', Rely f f' → Q a f → Q a f') : Tri Rely Guar (Q a) (Pure.pure a) Q :=
  fun f hf g hg => ⟨a, rfl, h1 f g hg hf⟩

theorem Tri.emit {w : Write} {Q : Unit → Facade → Prop} (hp : ∀ f f', Rely f f' → P f → P f') (hw : ∀ f, P f → Guar f (f.write w) ∧ Q () (f.write w))
    (hq : ∀ f f', Rely f f' → Q () f → Q () f') : Tri Rely Guar P (Thr.emit w) Q :=
  fun f hf g hg => ⟨(hw g (hp f g hg hf)).1, fun g' hg' => ⟨(), rfl, hq _ _ hg' (hw g (hp f g hg hf)).2⟩⟩

theorem Tri.get {ns : Namespace} {k : Str} {c : Res Str (Option Bytes) → Thr α} (hp : ∀ f f', Rely f f' → P f → P f')
    (h : ∀ r, Tri Rely Guar (fun f => P f ∧ f.db.get ns k = r) (c r) Q) : Tri Rely Guar P (.get ns k c) Q :=
  fun f hf g hg => h _ g ⟨hp f g hg hf, rfl⟩

/-- for each of a list: what each one gives is kept by all -/
theorem Tri.each (rf : ∀ a, Rely a a) {γ : Type} {g : γ → Thr Unit} {l : List γ} {I : Facade → Prop} {D : γ → Facade → Prop}
    (hI : ∀ f f', Rely f f' → I f → I f')
    (hD : ∀ a f f', Rely f f' → D a f → D a f') (hD' : ∀ a f f', Guar f f' → D a f → D a f')
    (h : ∀ a ∈ l, Tri Rely Guar I (g a) (fun _ f => I f ∧ D a f)) :
    Tri Rely Guar I (Thr.each g l) (fun _ f => I f ∧ ∀ a ∈ l, D a f) := by
  induction l with
  | nil => exact Tri.pre (Tri.pure (Q := fun _ f => I f ∧ ∀ a ∈ [], D a f) (fun f f' hr hf => ⟨hI f f' hr hf.1, by simp⟩)) fun f hf => ⟨hf, by simp⟩
  | cons a t ih =>
    have ih := (ih fun x hx => h x (.tail _ hx)).keep (F := D a) (hD a) (hD' a)
    show Tri _ _ _ (g a >>= fun _ => Thr.each g t) _
    refine Tri.bind rf (h a (.head _)) fun _ => ih.post ?_
    rintro _ f ⟨⟨h1, h2⟩, h3⟩
    refine ⟨h1, fun x hx => ?_⟩
    rcases List.mem_cons.1 hx with rfl | hx
    · exact h3
    · exact h2 x hx

end Thr

/-- Threads that each do what they guarantee as long as the others do what they rely on, do so together, in every order of their reads and writes: at any
point each thread still does what it said; and what is guaranteed by all holds of every single change. -/
theorem together {n : Nat} {Rely Guar : Nat → Facade → Facade → Prop} {Post : Nat → Res Str Unit → Facade → Prop}
    (rf : ∀ i a, Rely i a a) (tr : ∀ i a b c, Rely i a b → Rely i b c → Rely i a c) (hg : ∀ i j f f', i < n → j < n → i ≠ j → Guar i f f' → Rely j f f')
    {C : Facade → Facade → Prop} (cr : ∀ f, C f f) (ct : ∀ a b c, C a b → C b c → C a c) (hc : ∀ i f f', i < n → Guar i f f' → C f f')
    {f g : Facade} {ts us : List (Thr Unit)} (hn : ts.length = n) (h : Interleaved f ts g us)
    (h0 : ∀ i (t : Thr Unit), ts[i]? = some t → t.Rg (Rely i) (Guar i) (Post i) f) :
    us.length = n ∧ C f g ∧ ∀ i (t : Thr Unit), us[i]? = some t → t.Rg (Rely i) (Guar i) (Post i) g := by
  induction h with
  | start => exact ⟨hn, cr f, h0⟩
  | @step g g' a b t t' _ hs ih =>
    obtain ⟨hl, hC, ih⟩ := ih
    have hi : a.length < n := by rw [← hl]; simp
    have ht := ih a.length t (by simp)
    have key : (g' = g ∨ Guar a.length g g') ∧ t'.Rg (Rely a.length) (Guar a.length) (Post a.length) g' := by
      cases t with
      | done r => cases hs
      | get ns k c =>
        cases hs
        exact ⟨.inl rfl, ht g (rf _ g)⟩
      | put w c =>
        cases hs
        exact ⟨.inr (ht g (rf _ g)).1, (ht g (rf _ g)).2⟩
    refine ⟨by simpa using hl, ?_, ?_⟩
    · rcases key.1 with e | e
      · rw [e]; exact hC
      · exact ct _ _ _ hC (hc _ _ _ hi e)
    · intro i u hu
      by_cases hia : i = a.length
      · subst hia
        rw [List.getElem?_append_right (Nat.le_refl _), Nat.sub_self] at hu
        cases hu
        exact key.2
      · have hu' : (a ++ t :: b)[i]? = some u := by
          by_cases hlt : i < a.length
          · rw [List.getElem?_append_left hlt] at hu ⊢; exact hu
          · rw [List.getElem?_append_right (by omega)] at hu ⊢
            cases hk : i - a.length with
            | zero => omega
            | succ k => rw [hk] at hu; exact hu
        have hlen : i < n := by
          rw [← hl]
          exact (List.getElem?_eq_some_iff.1 hu').1
        have h2 := ih i u hu'
        rcases key.1 with e | e
        · rw [e]; exact h2
        · exact h2.rely (tr i) (hg a.length i g g' hi hlen (Ne.symm hia) e)

end OCA
