import Verif.Model.Crash
import Verif.Lemmas.Writes
/-! Programs that write: how they run, what they write, and what holds at every point in between. -/
namespace OCA

/-! ## Writes -/

theorem Store.put_set {ε : Type} (s : Store) (ns : Namespace) (k : Str) (v : Bytes) :
    (s.put ns k v : Res ε Store) = .ok (s.set ns k v) := rfl

theorem Store.insert_set (s : Store) (ns : Namespace) (k : Str) (v : Bytes) : s.insert ns k v = .ok (s.set ns k v) := rfl

theorem Store.get_set (s : Store) (ns ns' : Namespace) (k k' : Str) (v : Bytes) :
    (s.set ns k v).get ns' k' = if ns = ns' ∧ k = k' then .ok (some v) else s.get ns' k' :=
  Store.put_get (ε := Unit) (s.put_set ns k v) ns' k'

theorem Facade.writes_nil (f : Facade) : f.writes [] = f := rfl
theorem Facade.writes_cons (f : Facade) (w : Write) (ws : List Write) : f.writes (w :: ws) = (f.write w).writes ws := rfl
theorem Facade.writes_append (f : Facade) (a b : List Write) : f.writes (a ++ b) = (f.writes a).writes b := by
  unfold Facade.writes; rw [List.foldl_append]

/-! ## Running -/

namespace Prog
variable {α β : Type}

theorem bind_apply (m : Prog α) (k : α → Prog β) (f : Facade) : (m >>= k) f = match m f with
    | (ws, .ok a) => (ws ++ (k a (f.writes ws)).1, (k a (f.writes ws)).2)
    | (ws, .err e) => (ws, .err e)
    | (ws, .panic) => (ws, .panic) := by
  show next m k f = _
  unfold next
  rcases m f with ⟨ws, r⟩
  cases r <;> rfl

theorem run_pure (a : α) (f : Facade) : (pure a : Prog α).run f = .ok (f, a) := rfl

theorem run_bind (m : Prog α) (k : α → Prog β) (f : Facade) : (m >>= k).run f = m.run f >>= fun p => (k p.2).run p.1 := by
  unfold run
  rw [bind_apply]
  rcases hm : m f with ⟨ws, r⟩
  cases r with
  | err e => rfl
  | panic => rfl
  | ok a =>
    dsimp only [Res.bind_ok]
    rcases hk : k a (f.writes ws) with ⟨ws', r'⟩
    cases r' with
    | err e => rfl
    | panic => rfl
    | ok b => dsimp only; rw [Facade.writes_append]

theorem run_emit (w : Write) (f : Facade) : (emit w).run f = .ok (f.write w, ()) := rfl

theorem run_of (r : Res Str α) (f : Facade) : (of r).run f = r >>= fun a => .ok (f, a) := by
  cases r <;> rfl

theorem run_look (g : Store → Res Str α) (f : Facade) : (look g).run f = g f.db >>= fun a => .ok (f, a) := by
  show (match g f.db with | .ok a => _ | .err e => _ | .panic => _) = _
  cases g f.db <;> rfl

theorem run_ignore (m : Prog Unit) (f : Facade) (h : ∀ e, m.run f ≠ .err e) : (ignore m).run f = m.run f := by
  unfold run ignore
  unfold run at h
  rcases hm : m f with ⟨ws, r⟩
  cases r with
  | ok a => rfl
  | panic => rfl
  | err e => rw [hm] at h; exact absurd rfl (h e)

/-- if each part does what `h` says, so does the loop -/
theorem run_each {g : α → Prog Unit} {h : Facade → α → Res Str Facade}
    (hg : ∀ a f, (g a).run f = h f a >>= fun f => .ok (f, ())) (l : List α) (f : Facade) :
    (each g l).run f = foldRes h f l >>= fun f => .ok (f, ()) := by
  induction l generalizing f with
  | nil => rfl
  | cons a t ih =>
    unfold each
    rw [run_bind, hg]
    simp only [foldRes]
    cases h f a with
    | ok f' => exact ih f'
    | err e => rfl
    | panic => rfl

/-! ## What is written -/

/-- the writes of a program that goes on -/
theorem writes_bind {m : Prog α} {k : α → Prog β} {f f' : Facade} {a : α} (h : m.run f = .ok (f', a)) :
    ((m >>= k) f).1 = (m f).1 ++ (k a f').1 := by
  rw [bind_apply]
  unfold run at h
  rcases hm : m f with ⟨ws, r⟩
  rw [hm] at h
  cases r with
  | err e => cases h
  | panic => cases h
  | ok x => cases h; rfl

/-- where a program ends that is not stopped -/
theorem run_writes {m : Prog α} {f f' : Facade} {a : α} (h : m.run f = .ok (f', a)) : f' = f.writes (m f).1 := by
  unfold run at h
  rcases hm : m f with ⟨ws, r⟩
  rw [hm] at h
  cases r with
  | err e => cases h
  | panic => cases h
  | ok x => cases h; rfl

/-- Every write of the program, wherever it starts, is like this. -/
def Only (Q : Write → Prop) (m : Prog α) : Prop := ∀ f, ∀ w ∈ (m f).1, Q w

variable {Q : Write → Prop}

theorem only_pure (a : α) : Only Q (pure a : Prog α) := fun _ w h => by cases h
theorem only_of (r : Res Str α) : Only Q (of r) := fun _ w h => by cases h
theorem only_look (g : Store → Res Str α) : Only Q (look g) := fun _ w h => by cases h
theorem only_emit {w : Write} (h : Q w) : Only Q (emit w) := fun _ w' h' => by
  cases List.mem_singleton.1 (show w' ∈ [w] from h'); exact h
theorem only_bind {m : Prog α} {k : α → Prog β} (hm : Only Q m) (hk : ∀ a f f', m.run f = .ok (f', a) → Only Q (k a)) :
    Only Q (m >>= k) := by
  intro f w hw
  have h1 := hm f
  rw [bind_apply] at hw
  rcases e : m f with ⟨ws, r⟩
  rw [e] at hw h1
  cases r with
  | err e => exact h1 w hw
  | panic => exact h1 w hw
  | ok a =>
    rcases List.mem_append.1 hw with hw | hw
    · exact h1 w hw
    · refine hk a f (f.writes ws) ?_ _ w hw
      unfold run; rw [e]
theorem only_ignore {m : Prog Unit} (hm : Only Q m) : Only Q (ignore m) := by
  intro f w hw
  have h1 := hm f
  unfold ignore at hw
  rcases e : m f with ⟨ws, r⟩
  rw [e] at hw h1
  cases r <;> exact h1 w hw
theorem only_each {g : α → Prog Unit} (l : List α) (h : ∀ a ∈ l, Only Q (g a)) : Only Q (each g l) := by
  induction l with
  | nil => exact only_pure ()
  | cons a t ih => exact only_bind (h a (.head _)) fun _ _ _ _ => ih fun x hx => h x (.tail _ hx)

/-! ## What holds at every point -/

/-- However soon the program is stopped, this holds. -/
def Always (m : Prog α) (P : Facade → Prop) (f : Facade) : Prop := ∀ n, P (f.killed (m f).1 n)

variable {P : Facade → Prop} {f : Facade}

theorem Always.start {m : Prog α} (h : Always m P f) : P f := h 0

theorem Always.finish {m : Prog α} (h : Always m P f) {f' : Facade} {a : α} (hr : m.run f = .ok (f', a)) : P f' := by
  have := h (m f).1.length
  unfold Facade.killed at this
  rw [List.take_length, ← run_writes hr] at this
  exact this

theorem always_nil {m : Prog α} (h : P f) (e : (m f).1 = []) : Always m P f := by
  intro n
  unfold Facade.killed
  rw [e, List.take_nil]
  exact h
theorem always_pure (a : α) (h : P f) : Always (pure a : Prog α) P f := always_nil h rfl
theorem always_of (r : Res Str α) (h : P f) : Always (of r) P f := always_nil h rfl
theorem always_look (g : Store → Res Str α) (h : P f) : Always (look g) P f := always_nil h rfl
theorem always_emit {w : Write} (h : P f) (h' : P (f.write w)) : Always (emit w) P f := by
  intro n
  cases n with
  | zero => exact h
  | succ n =>
    show P (f.writes ([w].take (n + 1)))
    rw [List.take_succ_cons, List.take_nil]
    exact h'
theorem always_bind {m : Prog α} {k : α → Prog β} (hm : Always m P f)
    (hk : ∀ f' a, m.run f = .ok (f', a) → Always (k a) P f') : Always (m >>= k) P f := by
  intro n
  rw [bind_apply]
  rcases e : m f with ⟨ws, r⟩
  have h1 := hm
  unfold Always at h1
  rw [e] at h1
  cases r with
  | err e => exact h1 n
  | panic => exact h1 n
  | ok a =>
    dsimp only at h1 ⊢
    unfold Facade.killed
    rw [List.take_append, Facade.writes_append]
    by_cases hn : n ≤ ws.length
    · rw [Nat.sub_eq_zero_of_le hn, List.take_zero]
      exact h1 n
    · rw [List.take_of_length_le (by omega)]
      exact hk (f.writes ws) a (by unfold run; rw [e]) _
theorem always_ignore {m : Prog Unit} (hm : Always m P f) : Always (ignore m) P f := by
  intro n
  have h1 := hm n
  unfold ignore
  rcases e : m f with ⟨ws, r⟩
  rw [e] at h1
  cases r <;> exact h1
theorem always_each {g : α → Prog Unit} (l : List α) (h : ∀ a ∈ l, ∀ f, P f → Always (g a) P f) (hf : P f) :
    Always (each g l) P f := by
  induction l generalizing f with
  | nil => exact always_pure () hf
  | cons a t ih =>
    have ha := h a (.head _) f hf
    exact always_bind ha fun f' _ hr => ih (fun x hx => h x (.tail _ hx)) (ha.finish hr)

/-- what every write keeps holds at every point -/
theorem always_only {m : Prog α} (hm : Only Q m) (hf : P f) (hw : ∀ g w, P g → Q w → P (g.write w)) : Always m P f := by
  intro n
  unfold Facade.killed
  have hq : ∀ w ∈ (m f).1.take n, Q w := fun w h => hm f w (List.mem_of_mem_take h)
  generalize (m f).1.take n = l at hq
  induction l generalizing f with
  | nil => exact hf
  | cons w t ih => exact ih (hw f w hf (hq w (.head _))) fun x hx => hq x (.tail _ hx)

end Prog

/-! ## The programs do what the functions say -/

theorem Res.bind_assoc' {ε α β γ : Type} (x : Res ε α) (g : α → Res ε β) (h : β → Res ε γ) :
    ((x >>= g) >>= h) = x >>= fun a => g a >>= h := by
  cases x <;> rfl

theorem run_cacheOp (E : Env) (S : Serde) (b : Bundle) (f : Facade) :
    (cacheOp E S b).run f = f.buildCache E S b >>= fun f => .ok (f, ()) := by
  unfold cacheOp Facade.buildCache
  simp only [Prog.run_bind, Prog.run_of, Prog.run_emit]
  cases b.said <;> cases b.captureBase.said <;> rfl

theorem run_rows (l : List FtsRow) (f : Facade) :
    (Prog.each (fun r => Prog.emit (.ftsRow r)) l).run f = .ok ({ f with fts := l.foldl insertFts f.fts }, ()) := by
  induction l generalizing f with
  | nil => rfl
  | cons r t ih =>
    unfold Prog.each
    rw [Prog.run_bind, Prog.run_emit]
    exact ih _

theorem run_metaOp (b : Bundle) (f : Facade) : (metaOp b).run f = f.buildMeta b >>= fun f => .ok (f, ()) := by
  unfold metaOp Facade.buildMeta
  split
  · rw [Prog.run_bind, Prog.run_of]
    cases b.said with
    | none => rfl
    | some s => exact run_rows _ f
  · rfl

/-- a loop on a part of the facade -/
theorem foldRes_part {α σ : Type} {h : Facade → α → Res Str Facade} {k : σ → α → Res Str σ} {get : Facade → σ}
    {set : Facade → σ → Facade} (hh : ∀ f a, h f a = k (get f) a >>= fun s => .ok (set f s))
    (hg : ∀ f s, get (set f s) = s) (hs : ∀ f s s', set (set f s) s' = set f s') (h0 : ∀ f, set f (get f) = f)
    (l : List α) (f : Facade) : foldRes h f l = foldRes k (get f) l >>= fun s => .ok (set f s) := by
  induction l generalizing f with
  | nil => show Res.ok f = Res.ok (set f (get f)); rw [h0]
  | cons a t ih =>
    simp only [foldRes]
    rw [hh]
    cases k (get f) a with
    | err e => rfl
    | panic => rfl
    | ok s =>
      simp only [Res.bind_ok]
      rw [ih, hg]
      cases foldRes k s t with
      | err e => rfl
      | panic => rfl
      | ok s' => simp only [Res.bind_ok]; rw [hs]

theorem putOverlays_fold (S : Serde) (os : List Overlay) (c : Store) :
    (putOverlays S c os : Res Str Store) = foldRes (fun c o => Res.unwrap o.said >>= fun s =>
      .ok (c.set .objectsJson s (utf8 (S.print o.toJson)))) c os := by
  induction os generalizing c with
  | nil => rfl
  | cons o t ih =>
    unfold putOverlays
    simp only [foldRes]
    cases o.said with
    | none => rfl
    | some s => exact ih _

theorem run_stepOp (E : Env) (S : Serde) (st : BuildStep) (f : Facade) :
    (stepOp E S st).run f = f.buildStep E S st >>= fun f => .ok (f, ()) := by
  have hov : ∀ g : Facade, (Prog.each (overlayOp S) st.result.overlays).run g =
      (putOverlays S g.cache st.result.overlays : Res Str Store) >>= fun c => .ok ({ g with cache := c }, ()) := by
    intro g
    rw [Prog.run_each (h := fun f o => Res.unwrap o.said >>= fun s =>
      .ok { f with cache := f.cache.set .objectsJson s (utf8 (S.print o.toJson)) })]
    · rw [foldRes_part (get := Facade.cache) (set := fun f c => { f with cache := c })
        (k := fun c o => Res.unwrap o.said >>= fun s => .ok (c.set .objectsJson s (utf8 (S.print o.toJson)))),
        putOverlays_fold]
      · rw [Res.bind_assoc']; rfl
      · intro f a; cases a.said <;> rfl
      · intro _ _; rfl
      · intro _ _ _; rfl
      · intro _; rfl
    · intro o f
      unfold overlayOp
      rw [Prog.run_bind, Prog.run_of]
      cases o.said <;> rfl
  unfold stepOp Facade.buildStep
  simp only [Prog.run_bind, Prog.run_of, Prog.run_emit, hov]
  cases (operationBytes S st.parentSaid st.command.toJson : Res Str Bytes) with
  | err e => rfl
  | panic => rfl
  | ok r =>
    cases st.result.said with
    | none => rfl
    | some s =>
      cases st.result.captureBase.said with
      | none => rfl
      | some c =>
        simp only [Res.unwrap_some, Res.bind_ok, Store.put_set, Facade.write]
        cases (putOverlays S _ st.result.overlays : Res Str Store) <;> rfl

theorem run_metasOp (b : Bundle) (f : Facade) :
    (metasOp b).run f = insertMetas f.db b >>= fun d => .ok ({ f with db := d }, ()) := by
  have hov : ∀ (os : List Overlay) (g : Facade), (Prog.each overlayMetaOp os).run g =
      insertOverlayMetas g.db os >>= fun c => .ok ({ g with db := c }, ()) := by
    intro os
    induction os with
    | nil => intro g; rfl
    | cons o t ih =>
      intro g
      unfold Prog.each insertOverlayMetas overlayMetaOp
      simp only [Prog.run_bind, Prog.run_of, Prog.run_emit, Store.insert_set]
      cases o.said with
      | none => rfl
      | some s => exact ih _
  unfold metasOp insertMetas
  simp only [Prog.run_bind, Prog.run_of, Prog.run_emit, Store.insert_set, hov]
  cases b.said with
  | none => rfl
  | some s =>
    cases b.captureBase.said with
    | none => rfl
    | some c => rfl

theorem run_writeRelsOp (O : SetOrder) (s : Said) (l : List RelObj) (f : Facade) :
    (writeRelsOp O s l).run f = writeRels O f.db s l >>= fun d => .ok ({ f with db := d }, ()) := by
  unfold writeRelsOp writeRels
  simp only [Prog.run_bind, Prog.run_of, Prog.run_emit, Store.insert_set]
  cases (relsBytes (O.iter s l) : Res Str Bytes) <;> rfl

theorem run_relLoopOp (O : SetOrder) (bs cs : Said) (os : List Overlay) : ∀ (br cr : List RelObj) (f : Facade),
    (relLoopOp O bs cs br cr os).run f = relLoop O bs cs f.db br cr os >>= fun r => .ok ({ f with db := r.1 }, r.2) := by
  induction os with
  | nil => intro br cr f; rfl
  | cons o t ih =>
    intro br cr f
    unfold relLoopOp relLoop
    simp only [Prog.run_bind, Prog.run_of, Prog.run_look, run_writeRelsOp, Res.bind_assoc', Res.bind_ok, ih]

theorem run_relationsOp (O : SetOrder) (b : Bundle) (f : Facade) :
    (relationsOp O b).run f = addRelations O f.db b >>= fun d => .ok ({ f with db := d }, ()) := by
  unfold relationsOp addRelations
  simp only [Prog.run_bind, Prog.run_of, Prog.run_look, run_writeRelsOp, run_metasOp, run_relLoopOp, Res.bind_assoc', Res.bind_ok]

theorem run_coreOp (k : Said) (r : Res Str Bytes) (f : Facade) :
    (coreOp k r).run f = r >>= fun v => .ok ({ f with db := f.db.set .coreModel (coreKey k) v }, ()) := by
  unfold coreOp
  rw [Prog.run_bind, Prog.run_of]
  cases r <;> rfl

theorem run_objectModels (m : Option ObjectModel) (f : Facade) :
    (Prog.each (fun o : ObjectModel => coreOp o.said (objectModelBytes o)) m.toList).run f =
      (putObjectModel f.db m : Res Str Store) >>= fun d => .ok ({ f with db := d }, ()) := by
  cases m with
  | none => rfl
  | some m =>
    show (Prog.each _ [m]).run f = _
    unfold Prog.each Prog.each
    rw [Prog.run_bind, run_coreOp]
    show _ = ((objectModelBytes m : Res Str Bytes) >>= fun b => f.db.put .coreModel (coreKey m.said) b) >>= _
    cases (objectModelBytes m : Res Str Bytes) <;> rfl

theorem run_modelOp (S : Serde) (m : ResultModel) (f : Facade) :
    (modelOp S m).run f = (putModel S f.db m : Res Str Store) >>= fun d => .ok ({ f with db := d }, ()) := by
  unfold modelOp putModel
  simp only [Prog.run_bind, run_coreOp, run_objectModels, Res.bind_assoc', Res.bind_ok, Store.put_set]

theorem run_modelsOp (E : Env) (S : Serde) (steps : List BuildStep) (f : Facade) :
    (modelsOp E S steps).run f = (f.buildModels E S steps : Res Str Facade) >>= fun f => .ok (f, ()) := by
  unfold modelsOp Facade.buildModels
  rw [Prog.run_bind, Prog.run_of]
  cases (buildCoreModel E steps : Res Str _) with
  | err e => rfl
  | panic => rfl
  | ok ms =>
    show (Prog.each (modelOp S) ms).run f = _
    rw [Prog.run_each (h := fun f m => (putModel S f.db m : Res Str Store) >>= fun d => .ok { f with db := d })]
    · rw [foldRes_part (get := Facade.db) (set := fun f c => { f with db := c }) (k := putModel S)]
      · simp only [Res.bind_ok, Res.bind_assoc', Res.pure_eq]
      · intro _ _; rfl
      · intro _ _; rfl
      · intro _ _ _; rfl
      · intro _; rfl
    · intro m f
      rw [run_modelOp, Res.bind_assoc']; rfl

/-! ### `add_relations` gives no error -/

/-- not an error -/
def Res.NoErr {ε α : Type} (r : Res ε α) : Prop := ∀ e, r ≠ .err e

theorem Res.NoErr.bind {ε α β : Type} {x : Res ε α} {g : α → Res ε β} (h : x.NoErr) (hg : ∀ a, x = .ok a → (g a).NoErr) :
    (x >>= g).NoErr := by
  cases x with
  | ok a => exact hg a rfl
  | err e => exact absurd rfl (h e)
  | panic => exact fun e h => by cases h

theorem Res.NoErr.ok {ε α : Type} (a : α) : (Res.ok a : Res ε α).NoErr := fun _ h => by cases h
theorem Res.NoErr.panic {ε α : Type} : (Res.panic : Res ε α).NoErr := fun _ h => by cases h
theorem Res.NoErr.unwrap {ε α : Type} (o : Option α) : (Res.unwrap o : Res ε α).NoErr := by
  cases o
  · exact .panic
  · exact .ok _

theorem lenByte_noErr {ε : Type} (s : Bytes) : (lenByte s : Res ε _).NoErr := by
  unfold lenByte; split
  · exact .ok _
  · exact .panic

theorem relsBytes_noErr {ε : Type} (l : List RelObj) : (relsBytes l : Res ε _).NoErr := by
  induction l with
  | nil => exact .ok _
  | cons o t ih =>
    unfold relsBytes
    exact .bind (.bind (lenByte_noErr _) fun _ _ => .ok _) fun _ _ => .bind ih fun _ _ => .ok _

theorem relObjParse_noErr {ε : Type} (b : Bytes) : (relObjParse b : Res ε _).NoErr := by
  unfold relObjParse
  split
  · split
    · split
      · exact .panic
      · split
        · exact .ok _
        · exact .panic
    · exact .panic
  · exact .panic

theorem relsParse_noErr {ε : Type} (n : Nat) (acc : List RelObj) (b : Bytes) : (relsParse n acc b : Res ε _).NoErr := by
  fun_induction relsParse n acc b with
  | case1 => exact .ok _
  | case2 => exact .panic
  | case3 => exact .panic
  | case4 fuel acc ty n t h ih => exact .bind (relObjParse_noErr _) fun o _ => ih o
  | case5 => exact .panic

theorem get_noErr (d : Store) (ns : Namespace) (k : Str) : (d.get ns k).NoErr := by
  obtain ⟨o, h⟩ := d.get_ok ns k
  rw [h]; exact .ok _

theorem objectType_noErr (d : Store) (s : Said) : (objectType d s).NoErr := by
  unfold objectType
  refine .bind (get_noErr _ _ _) fun _ _ => .bind (.unwrap _) fun _ _ => .bind (.unwrap _) fun _ _ => ?_
  split
  · exact .ok _
  · exact .panic

theorem relObj_noErr (d : Store) (s : Said) : (relObj d s).NoErr := .bind (objectType_noErr d s) fun _ _ => .ok _

theorem exploreOrNew_noErr (d : Store) (s : Said) : (exploreOrNew d s).NoErr := by
  refine .bind ?_ fun _ _ => .bind (relObj_noErr d s) fun _ _ => .ok _
  unfold explore
  split
  · exact .bind (relsParse_noErr _ _ _) fun _ _ => .bind (objectType_noErr d s) fun _ _ => .ok _
  · exact .panic
  · exact .ok _

theorem writeRels_noErr (O : SetOrder) (d : Store) (s : Said) (l : List RelObj) : (writeRels O d s l).NoErr :=
  .bind (relsBytes_noErr _) fun _ _ => .ok _

theorem insertMetas_noErr (d : Store) (b : Bundle) : (insertMetas d b).NoErr := by
  have hov : ∀ (os : List Overlay) (d : Store), (insertOverlayMetas d os).NoErr := by
    intro os
    induction os with
    | nil => exact fun d => .ok _
    | cons o t ih =>
      intro d
      unfold insertOverlayMetas
      exact .bind (.unwrap _) fun _ _ => .bind (by rw [Store.insert_set]; exact .ok _) fun _ _ => ih _
  unfold insertMetas
  exact .bind (.unwrap _) fun _ _ => .bind (by rw [Store.insert_set]; exact .ok _) fun _ _ => .bind (.unwrap _) fun _ _ =>
    .bind (by rw [Store.insert_set]; exact .ok _) fun _ _ => hov _ _

theorem relLoop_noErr (O : SetOrder) (bs cs : Said) (os : List Overlay) : ∀ (d : Store) (br cr : List RelObj),
    (relLoop O bs cs d br cr os).NoErr := by
  induction os with
  | nil => exact fun _ _ _ => .ok _
  | cons o t ih =>
    intro d br cr
    unfold relLoop
    exact .bind (.unwrap _) fun _ _ => .bind (relObj_noErr _ _) fun _ _ => .bind (exploreOrNew_noErr _ _) fun _ _ =>
      .bind (relObj_noErr _ _) fun _ _ => .bind (relObj_noErr _ _) fun _ _ => .bind (writeRels_noErr _ _ _ _) fun _ _ => ih _ _ _

/-- `add_relations` succeeds or aborts. -/
theorem addRelations_noErr (O : SetOrder) (d : Store) (b : Bundle) : (addRelations O d b).NoErr := by
  unfold addRelations
  exact .bind (insertMetas_noErr _ _) fun _ _ => .bind (.unwrap _) fun _ _ => .bind (.unwrap _) fun _ _ =>
    .bind (exploreOrNew_noErr _ _) fun _ _ => .bind (relObj_noErr _ _) fun _ _ => .bind (exploreOrNew_noErr _ _) fun _ _ =>
    .bind (relObj_noErr _ _) fun _ _ => .bind (relLoop_noErr _ _ _ _ _ _ _) fun _ _ => .bind (writeRels_noErr _ _ _ _) fun _ _ =>
    writeRels_noErr _ _ _ _

/-- Run to its end, the program is `Facade.build`. -/
theorem run_buildOp (E : Env) (S : Serde) (O : SetOrder) (b : Build) (f : Facade) :
    (buildOp E S O b).run f = (f.build E S O b : Res Str Facade) >>= fun f => .ok (f, ()) := by
  unfold buildOp Facade.build
  simp only [Prog.run_bind, run_cacheOp, run_metaOp, Prog.run_each (run_stepOp E S), Res.bind_assoc', Res.bind_ok]
  cases (f.buildCache E S b.bundle : Res Str Facade) with
  | err e => rfl
  | panic => rfl
  | ok f1 =>
    simp only [Res.bind_ok]
    cases (f1.buildMeta b.bundle : Res Str Facade) with
    | err e => rfl
    | panic => rfl
    | ok f2 =>
      simp only [Res.bind_ok]
      cases (foldRes (Facade.buildStep E S) f2 b.steps : Res Str Facade) with
      | err e => rfl
      | panic => rfl
      | ok f3 =>
        simp only [Res.bind_ok]
        rw [Prog.run_ignore, run_relationsOp]
        · cases h : addRelations O f3.db b.bundle with
          | err e => exact absurd h (addRelations_noErr _ _ _ e)
          | panic => rfl
          | ok d => simp only [Res.bind_ok]; rw [run_modelsOp]
        · intro e
          rw [run_relationsOp]
          cases h : addRelations O f3.db b.bundle with
          | err e => exact absurd h (addRelations_noErr _ _ _ e)
          | panic => exact fun h => by cases h
          | ok d => exact fun h => by cases h

end OCA
