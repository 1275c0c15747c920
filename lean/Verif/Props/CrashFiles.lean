import Verif.Props.CrashRelations
import Verif.Lemmas.AnyErr
/-!
# C66: histories with crashes

Files are validated, built, and built with a crash in between; in any order, any number of times.
-/
namespace OCA

variable {E : Env} {S : Serde} {Os : Nat → Order} {O : SetOrder} {f f1 g : Facade} {ls : List Line} {b : Build}

/-- validating makes one write, the name's, or none -/
theorem validate_writes {ast : OCAAst} (hp : parseLines ls = .ok ast) (h : f.validate E S Os ls = .ok (f1, b)) :
    f1 = f.writes (nameWrites ast b) := by
  unfold Facade.validate at h
  rw [hp] at h
  obtain ⟨ast0, ha, h⟩ := Res.bind_eq_ok.1 h
  cases ha
  obtain ⟨⟨base, ast'⟩, hb, h⟩ := Res.bind_eq_ok.1 h
  obtain ⟨⟨db, b'⟩, hr, h⟩ := Res.bind_eq_ok.1 (show Res.bind _ _ = _ from h)
  cases h
  have hm := checkBase_meta hb
  unfold buildWithRefs at hr
  obtain ⟨cs, -, hr⟩ := Res.bind_eq_ok.1 hr
  obtain ⟨b', -, hr⟩ := Res.bind_eq_ok.1 (show Res.bind _ _ = _ from hr)
  rw [hm] at hr
  unfold nameWrites
  cases hn : ast.metaMap.get c!"name" with
  | none =>
    rw [hn] at hr
    cases hr
    rfl
  | some n =>
    rw [hn] at hr
    dsimp only at hr
    obtain ⟨s, hs, hr⟩ := Res.bind_eq_ok.1 hr
    obtain ⟨d, hd, hr⟩ := Res.bind_eq_ok.1 (show Res.bind _ _ = _ from hr)
    cases hr
    rw [Res.unwrap_eq hs]
    have : db = f.db.set .references n (utf8 s) := by
      unfold Store.saveRefn at hd
      rw [Store.put_set] at hd
      cases hd
      rfl
    rw [this]
    rfl

/-- the writes of a file -/
theorem fileWrites_eq {ast : OCAAst} (hp : parseLines ls = .ok ast) (h : f.validate E S Os ls = .ok (f1, b)) :
    f.fileWrites E S Os O ls = nameWrites ast b ++ f1.buildWrites E S O b := by
  unfold Facade.fileWrites
  rw [hp, h]

/-- **C66** Run to its end, `build_from_ocafile` makes exactly these writes. -/
theorem C66_file_last_point (E : Env) (S : Serde) (Os : Nat → Order) (O : SetOrder) (f f' : Facade) (ls : List Line) (r : Bundle)
    (h : f.buildFile E S Os O ls = .ok (f', r)) :
    f.killed (f.fileWrites E S Os O ls) 0 = f ∧
    f.killed (f.fileWrites E S Os O ls) (f.fileWrites E S Os O ls).length = f' := by
  refine ⟨rfl, ?_⟩
  unfold Facade.buildFile at h
  obtain ⟨⟨f1, b⟩, hv, h⟩ := Res.bind_eq_ok.1 h
  obtain ⟨f2, hb, h⟩ := Res.bind_eq_ok.1 (show Res.bind _ _ = _ from h)
  cases h
  obtain ⟨ast, -, -, -, hp, -⟩ := validate_parts hv
  unfold Facade.killed
  rw [List.take_length, fileWrites_eq hp hv, Facade.writes_append, ← validate_writes hp hv]
  have hr := run_buildOp E S O b f1
  have hb' : (f1.build E S O b : Res Str Facade) = .ok f' := Res.Sim.build E S O f1 b f' hb
  rw [hb'] at hr
  exact (Prog.run_writes hr).symm

/-! ## The states a crash leaves -/

theorem Facade.killed_append (f : Facade) (a b : List Write) (n : Nat) :
    f.killed (a ++ b) n = if n < a.length then f.killed a n else (f.writes a).killed b (n - a.length) := by
  unfold Facade.killed
  rw [List.take_append, Facade.writes_append]
  split
  · next h => rw [Nat.sub_eq_zero_of_le (Nat.le_of_lt h)]; rfl
  · next h => rw [List.take_of_length_le (Nat.le_of_not_lt h)]

/-- every write of a file is that of its name or one of its build's -/
theorem fileWrites_mem {w : Write} (hw : w ∈ f.fileWrites E S Os O ls) :
    ∃ f1 b, f.validate E S Os ls = .ok (f1, b) ∧
      ((∃ n s, b.bundle.said = some s ∧ w = .db .references n (utf8 s)) ∨ BuildWrite E S b w) := by
  unfold Facade.fileWrites at hw
  split at hw
  · next ast f1 b hp hv =>
    refine ⟨f1, b, hv, ?_⟩
    rcases List.mem_append.1 hw with hw | hw
    · left
      unfold nameWrites at hw
      split at hw
      · next n s hn hs =>
        cases List.mem_singleton.1 hw
        exact ⟨n, s, hs, rfl⟩
      · cases hw
    · exact .inr (only_buildOp E S O b f1 w hw)
  · cases hw

/-- the relations at any point of a build -/
theorem build_always (hn : none ∉ b.bundle.saids) (hs : ∀ s, some s ∈ b.bundle.saids → (utf8 s).length ≤ 255 ∧ ∀ t, s ≠ metaKey t)
    {R : Str → Option (List RelObj)} {M : Str → Option Nat} (hr : RelRep f.db R M) :
    Prog.Always (buildOp E S O b) (RelIn b.bundle R M) f := by
  -- what does not touch the relations
  have frame : ∀ (g : Facade) (w : Write), (∀ k v, w ≠ .db .relations k v) → ∀ k, (g.write w).db.get .relations k = g.db.get .relations k := by
    intro g w hw k
    cases w with
    | db ns x v =>
      show (g.db.set ns x v).get .relations k = _
      rw [Store.get_set, if_neg]
      rintro ⟨rfl, -⟩
      exact hw _ _ rfl
    | _ => rfl
  have keep : ∀ (m : Prog Unit), Prog.Only (fun w => ∀ k v, w ≠ .db .relations k v) m → ∀ (P : Facade → Prop),
      (∀ g g', (∀ k, g'.db.get .relations k = g.db.get .relations k) → P g → P g') → ∀ g, P g → Prog.Always m P g :=
    fun m hm P hP g hg => Prog.always_only hm hg fun g w h hw => hP g _ (frame g w hw) h
  have h1 : Prog.Only (fun w => ∀ k v, w ≠ .db .relations k v) (cacheOp E S b.bundle) :=
    Prog.only_need_bind fun s hs => Prog.only_then (Prog.only_emit fun _ _ => by simp) (Prog.only_need_bind fun c hc => Prog.only_emit fun _ _ => by simp)
  have h2 : Prog.Only (fun w => ∀ k v, w ≠ .db .relations k v) (metaOp b.bundle) := by
    unfold metaOp
    split
    · exact Prog.only_need_bind fun s hs => Prog.only_each _ fun r hr => Prog.only_emit fun _ _ => by simp
    · exact Prog.only_pure _
  have h3 : Prog.Only (fun w => ∀ k v, w ≠ .db .relations k v) (Prog.each (stepOp E S) b.steps) := by
    refine Prog.only_each _ fun st _ => ?_
    unfold stepOp
    exact Prog.only_of_bind fun r hr => Prog.only_need_bind fun s hs => Prog.only_then (Prog.only_emit fun _ _ => by simp)
      (Prog.only_then (Prog.only_emit fun _ _ => by simp) (Prog.only_need_bind fun c hc => Prog.only_then (Prog.only_emit fun _ _ => by simp)
        (Prog.only_each _ fun o h => Prog.only_need_bind fun s hs => Prog.only_emit fun _ _ => by simp)))
  have h4 : Prog.Only (fun w => ∀ k v, w ≠ .db .relations k v) (modelsOp E S b.steps) := by
    unfold modelsOp
    refine Prog.only_of_bind fun ms _ => Prog.only_each _ fun m _ => ?_
    have hcore : ∀ k r, Prog.Only (fun w => ∀ k v, w ≠ .db .relations k v) (coreOp k r) :=
      fun k r => Prog.only_of_bind fun _ _ => Prog.only_emit fun _ _ => by simp
    unfold modelOp
    exact Prog.only_then (hcore _ _) (Prog.only_then (Prog.only_each _ fun _ _ => hcore _ _) (Prog.only_then (Prog.only_each _ fun _ _ => hcore _ _) (hcore _ _)))
  have repInv : ∀ g g' : Facade, (∀ k, g'.db.get .relations k = g.db.get .relations k) → RelRep g.db R M → RelRep g'.db R M :=
    fun g g' h hr => hr.congr h
  have inInv : ∀ g g' : Facade, (∀ k, g'.db.get .relations k = g.db.get .relations k) → RelIn b.bundle R M g → RelIn b.bundle R M g' := by
    rintro g g' h ⟨R', M', hr, hm⟩
    exact ⟨R', M', hr.congr h, hm⟩
  have up : ∀ (m : Prog Unit) g, Prog.Always m (fun g => RelRep g.db R M) g → Prog.Always m (RelIn b.bundle R M) g :=
    fun m g h n => ⟨R, M, h n, .refl⟩
  unfold buildOp
  have a1 := keep _ h1 (fun g => RelRep g.db R M) repInv f hr
  refine Prog.always_bind (up _ _ a1) fun f1 _ r1 => ?_
  have a2 := keep _ h2 (fun g => RelRep g.db R M) repInv f1 (a1.finish r1)
  refine Prog.always_bind (up _ _ a2) fun f2 _ r2 => ?_
  have a3 := keep _ h3 (fun g => RelRep g.db R M) repInv f2 (a2.finish r2)
  refine Prog.always_bind (up _ _ a3) fun f3 _ r3 => ?_
  have a4 := Prog.always_ignore (relations_always O hn hs (a3.finish r3))
  exact Prog.always_bind a4 fun f4 _ r4 => keep _ h4 (RelIn b.bundle R M) inInv f4 (a4.finish r4)

/-- the relations after a crash -/
theorem crashed_relations (hE : E.ShortSaids) (h : f.Crashed (f.fileWrites E S Os O ls) g) {R : Str → Option (List RelObj)}
    {M : Str → Option Nat} (hr : RelRep f.db R M) :
    RelRep g.db R M ∨ ∃ f1 b, f.validate E S Os ls = .ok (f1, b) ∧ RelIn b.bundle R M g := by
  obtain ⟨n, hdb⟩ := h.db
  cases hv : f.validate E S Os ls with
  | err e =>
    left
    have : f.fileWrites E S Os O ls = [] := by
      unfold Facade.fileWrites
      rw [hv]
      split
      · next h => cases h
      · rfl
    rw [hdb, this]
    unfold Facade.killed
    rw [List.take_nil]
    exact hr
  | panic =>
    left
    have : f.fileWrites E S Os O ls = [] := by
      unfold Facade.fileWrites
      rw [hv]
      split
      · next h => cases h
      · rfl
    rw [hdb, this]
    unfold Facade.killed
    rw [List.take_nil]
    exact hr
  | ok p =>
    obtain ⟨f1, b⟩ := p
    right
    refine ⟨f1, b, rfl, ?_⟩
    obtain ⟨ast, base, ast', cs, hp, h2, -, h4, -, -, -, -, h9⟩ := validate_parts hv
    have hn : none ∉ b.bundle.saids ∧ ∀ s, some s ∈ b.bundle.saids → (utf8 s).length ≤ 255 ∧ ∀ t, s ≠ metaKey t := by
      obtain ⟨bx, box, -, -, -, -, -, rfl⟩ := fromAst_steps h4
      refine ⟨?_, ?_⟩
      · intro hn
        obtain ⟨j, e⟩ := bundleOf_saids E _ box _ hn
        cases e
      · intro s hs
        obtain ⟨j, e⟩ := bundleOf_saids E _ box _ hs
        cases e
        exact hE.plain j
    have hr1 : RelRep f1.db R M := hr.congr (h9 .relations (by decide))
    have ha := build_always (S := S) (O := O) (E := E) hn.1 hn.2 hr1
    unfold RelIn
    rw [hdb, fileWrites_eq hp hv, Facade.killed_append]
    split
    · refine ⟨R, M, hr.congr fun k => ?_, .refl⟩
      rcases f.writes_db ((nameWrites ast b).take n) .relations k with e | ⟨v, hw, -⟩
      · exact e
      · have hw := List.mem_of_mem_take hw
        unfold nameWrites at hw
        split at hw
        · cases List.mem_singleton.1 hw
        · cases hw
    · rw [← validate_writes hp hv]
      exact ha _

/-! ## Histories -/

/-- What storing files leads to when it may crash: `l` are the bundles of the files that were stored to the end, `m` those of the
files whose storing was cut short, at whatever point. (To validate a file and not to build it is to be cut short, too.) -/
inductive Facade.Crashy (E : Env) (S : Serde) : Facade → List Bundle → List Bundle → Prop
  | new : Crashy E S Facade.new [] []
  | stored {f f1 f' : Facade} {l m : List Bundle} {Os : Nat → Order} {O : SetOrder} {ls : List Line} {b : Build} :
      Crashy E S f l m → f.validate E S Os ls = .ok (f1, b) → (∀ st ∈ b.steps, st.command.Keepable E) →
      (f1.build E S O b : Res (List VErr) _) = .ok f' → Crashy E S f' (l ++ [b.bundle]) m
  | crashed {f f1 g : Facade} {l m : List Bundle} {Os : Nat → Order} {O : SetOrder} {ls : List Line} {b : Build} :
      Crashy E S f l m → f.validate E S Os ls = .ok (f1, b) → (∀ st ∈ b.steps, st.command.Keepable E) →
      f.Crashed (f.fileWrites E S Os O ls) g → Crashy E S g l (m ++ [b.bundle])

theorem Facade.Kept.crashed (hf : f.Kept E S) (hv : f.validate E S Os ls = .ok (f1, b)) (hk : ∀ st ∈ b.steps, st.command.Keepable E)
    (h : f.Crashed (f.fileWrites E S Os O ls) g) : g.Kept E S := by
  intro s bs hs
  rcases h.get_cache .bundlesJson s with e | ⟨v, hw, e⟩
  · rw [e] at hs
    exact hf s bs hs
  · rw [e] at hs
    cases hs
    obtain ⟨f2, b2, hv2, hw⟩ := fileWrites_mem hw
    rw [hv] at hv2
    cases hv2
    rcases hw with ⟨n, x, -, e⟩ | hw
    · cases e
    · generalize hw' : Write.cache .bundlesJson s bs = w at hw
      cases hw with
      | bundle h1 h2 =>
        cases hw'
        exact ⟨_, ((validate_keeps hf hv hk).1 _ h1).2.1, h2, rfl⟩
      | _ => cases hw'

theorem Facade.Crashy.kept {l m : List Bundle} (h : f.Crashy E S l m) : f.Kept E S := by
  induction h with
  | new => intro s bs h; cases h
  | stored _ hv hc hb ih =>
    obtain ⟨_, _, _, _, -, -, -, -, hcache, -⟩ := validate_parts hv
    have h1 : Facade.Kept E S _ := fun s bs h => ih s bs (by rw [← hcache]; exact h)
    exact h1.build (fun st hst => ((validate_keeps ih hv hc).1 st hst).2.1) hb
  | crashed _ hv hc hg ih => exact ih.crashed hv hc hg

/-- the names -/
def Facade.Named (E : Env) (f : Facade) : Prop :=
  ∀ n v, f.db.get .references n = .ok (some v) → ∃ s, v = utf8 s ∧ E.validSaid s = true

theorem build_said_valid (hv : f.validate E S Os ls = .ok (f1, b)) {s : Said} (hs : b.bundle.said = some s) : E.validSaid s = true := by
  obtain ⟨_, _, _, _, -, -, -, h4, -⟩ := validate_parts hv
  obtain ⟨_, box, -, -, -, -, -, rfl⟩ := fromAst_steps h4
  obtain ⟨j, e⟩ := bundleOf_saids E _ box (some s) (by unfold Bundle.saids; rw [hs]; exact .head _)
  cases e
  exact E.digest_valid j

theorem Facade.Named.crashed (hf : f.Named E) (h : f.Crashed (f.fileWrites E S Os O ls) g) : g.Named E := by
  intro n v hn
  rcases h.get_db .references n with e | ⟨v', hw, e⟩
  · rw [e] at hn
    exact hf n v hn
  · rw [e] at hn
    cases hn
    obtain ⟨f2, b2, hv2, hw⟩ := fileWrites_mem hw
    rcases hw with ⟨n', x, hx, e'⟩ | hw
    · cases e'
      exact ⟨x, rfl, build_said_valid hv2 hx⟩
    · generalize hw' : Write.db .references n v = w at hw
      cases hw with
      | _ => cases hw'

/-- storing to the end is a crash after the last write -/
theorem stored_crashed (hv : f.validate E S Os ls = .ok (f1, b)) {f' : Facade}
    (hb : (f1.build E S O b : Res (List VErr) _) = .ok f') : f.Crashed (f.fileWrites E S Os O ls) f' := by
  have hf : f.buildFile E S Os O ls = .ok (f', b.bundle) := by
    unfold Facade.buildFile
    rw [hv, Res.bind_ok]
    dsimp only
    rw [hb]
    rfl
  have h := (C66_file_last_point E S Os O f f' ls b.bundle hf).2
  rw [← h]
  exact f.killed_crashed _ _

theorem Facade.Crashy.named {l m : List Bundle} (h : f.Crashy E S l m) : f.Named E := by
  induction h with
  | new => intro n v h; cases h
  | stored _ hv _ hb ih => exact ih.crashed (stored_crashed hv hb)
  | crashed _ _ _ hg ih => exact ih.crashed hg

/-- what the relations may be -/
def RelsBetween (db : Store) (l m : List Bundle) : Prop := ∃ R M, RelRep db R M ∧
  ∀ x, (∀ b ∈ l, (∃ k, b.Has x k) → R x ≠ none) ∧ (R x ≠ none → ∃ b ∈ l ++ m, ∃ k, b.Has x k) ∧
    (∀ y, ∀ b ∈ l, b.Relates x y → y ∈ (R x).getD []) ∧ ∀ y, y ∈ (R x).getD [] → ∃ b ∈ l ++ m, b.Relates x y

theorem mid_append {l m : List Bundle} {b x : Bundle} (h : x ∈ l ++ m) : x ∈ (l ++ [b]) ++ m := by
  rcases List.mem_append.1 h with h | h
  · exact List.mem_append_left _ (List.mem_append_left _ h)
  · exact List.mem_append_right _ h

theorem RelsBetween.congr {d d' : Store} {l m : List Bundle} (h : RelsBetween d l m) (he : ∀ k, d'.get .relations k = d.get .relations k) :
    RelsBetween d' l m := by
  obtain ⟨R, M, hr, hx⟩ := h
  exact ⟨R, M, hr.congr he, hx⟩

theorem RelsBetween.add (O : SetOrder) {db : Store} {l m : List Bundle} (h : RelsBetween db l m) {a : Bundle} (ha : a.Labelled) :
    ∃ db', addRelations O db a = .ok db' ∧ RelsBetween db' (l ++ [a]) m := by
  obtain ⟨R1, M1, r1, h1⟩ := h
  obtain ⟨db2, R2, M2, e2, r2, hout, hin⟩ := r1.add O ha
  refine ⟨db2, e2, R2, M2, r2, ?_⟩
  intro x
  have hmem : a ∈ (l ++ [a]) ++ m := List.mem_append_left _ (List.mem_append_right _ (.head _))
  obtain ⟨g1, g2, g3, g4⟩ := h1 x
  by_cases hx : some x ∈ a.saids
  · obtain ⟨l', hl', hm⟩ := hin x hx
    rw [hl']
    refine ⟨fun _ _ _ => by simp, fun _ => ⟨a, hmem, Bundle.said_has hx⟩, ?_, ?_⟩
    · intro y p hp hr
      rw [Option.getD_some, hm]
      rcases List.mem_append.1 hp with hp | hp
      · exact .inl (g3 y p hp hr)
      · rw [List.mem_singleton.1 hp] at hr
        exact .inr hr
    · intro y hy
      rw [Option.getD_some, hm] at hy
      rcases hy with hy | hy
      · obtain ⟨p, hp, hr⟩ := g4 y hy
        exact ⟨p, mid_append hp, hr⟩
      · exact ⟨a, hmem, hy⟩
  · rw [hout x hx]
    have hna : ∀ k, ¬ a.Has x k := fun k hk => hx (Bundle.has_said hk)
    refine ⟨?_, ?_, ?_, ?_⟩
    · rintro p hp ⟨k, hk⟩
      rcases List.mem_append.1 hp with hp | hp
      · exact g1 p hp ⟨k, hk⟩
      · rw [List.mem_singleton.1 hp] at hk
        exact absurd hk (hna k)
    · intro hn
      obtain ⟨p, hp, hk⟩ := g2 hn
      exact ⟨p, mid_append hp, hk⟩
    · intro y p hp hr
      rcases List.mem_append.1 hp with hp | hp
      · exact g3 y p hp hr
      · rw [List.mem_singleton.1 hp] at hr
        obtain ⟨k, hk⟩ := hr.2.2.1
        exact absurd hk (hna k)
    · intro y hy
      obtain ⟨p, hp, hr⟩ := g4 y hy
      exact ⟨p, mid_append hp, hr⟩

theorem validate_labelled (hE : E.ShortSaids) (hv : f.validate E S Os ls = .ok (f1, b)) (hn : b.bundle.saids.Nodup) :
    b.bundle.Labelled := by
  obtain ⟨_, _, _, _, -, -, -, hf, -⟩ := validate_parts hv
  obtain ⟨_, _, -, -, -, -, -, e⟩ := fromAst_steps hf
  rw [e] at hn ⊢
  exact built_labelled hE.plain hn

theorem Facade.Crashy.rels (hE : E.ShortSaids) {l m : List Bundle} (h : f.Crashy E S l m) (hn : ∀ b ∈ l ++ m, b.saids.Nodup) :
    RelsBetween f.db l m := by
  induction h with
  | new => exact ⟨fun _ => none, fun _ => none, ⟨fun _ _ _ => rfl, (fun _ _ _ h => by cases h), fun _ => rfl, (fun _ _ h => by cases h),
      (fun _ _ h => by cases h)⟩, fun x => ⟨(fun _ h => by cases h), fun h => absurd rfl h, (fun _ _ h => by cases h), (fun _ h => by cases h)⟩⟩
  | stored _ hv hc hb ih =>
    obtain ⟨_, _, _, _, -, -, -, -, -, -, -, -, hd⟩ := validate_parts hv
    have h1 := (ih fun b hb => hn b (mid_append hb)).congr fun k => hd .relations (by decide) k
    obtain ⟨d, d', e1, e2, e3⟩ := build_relations hb
    obtain ⟨d2, e4, h2⟩ := (h1.congr e1).add _ (validate_labelled hE hv (hn _ (List.mem_append_left _ (List.mem_append_right _ (.head _)))))
    rw [e4] at e2
    rcases e2 with e2 | ⟨⟨_, e2⟩, _⟩
    · cases e2
      exact h2.congr e3
    · cases e2
  | @crashed f f1 g l m Os O ls b _ hv hc hg ih =>
    have hle : ∀ p ∈ l ++ m, p ∈ l ++ (m ++ [b.bundle]) := fun p hp => by
      rw [← List.append_assoc]; exact List.mem_append_left _ hp
    have hb : b.bundle ∈ l ++ (m ++ [b.bundle]) := List.mem_append_right _ (List.mem_append_right _ (.head _))
    obtain ⟨R, M, hr, hx⟩ := ih fun b hb => hn b (hle b hb)
    rcases crashed_relations hE hg hr with hr' | ⟨f2, b2, hv2, R', M', hr', hm⟩
    · refine ⟨R, M, hr', fun x => ?_⟩
      obtain ⟨g1, g2, g3, g4⟩ := hx x
      refine ⟨g1, fun h => ?_, g3, fun y hy => ?_⟩
      · obtain ⟨p, hp, hk⟩ := g2 h
        exact ⟨p, hle p hp, hk⟩
      · obtain ⟨p, hp, hk⟩ := g4 y hy
        exact ⟨p, hle p hp, hk⟩
    · rw [hv] at hv2
      cases hv2
      refine ⟨R', M', hr', fun x => ?_⟩
      obtain ⟨g1, g2, g3, g4⟩ := hx x
      refine ⟨fun p hp hk h => g1 p hp hk (hm.there x h), fun h => ?_, fun y p hp hk => hm.keeps x y (g3 y p hp hk), fun y hy => ?_⟩
      · by_cases h0 : R x = none
        · obtain ⟨k, hk⟩ := hm.new x h0 h
          exact ⟨_, hb, k, hk⟩
        · obtain ⟨p, hp, hk⟩ := g2 h0
          exact ⟨p, hle p hp, hk⟩
      · rcases hm.only x y hy with hy | hy | ⟨-, hy⟩
        · obtain ⟨p, hp, hk⟩ := g4 y hy
          exact ⟨p, hle p hp, hk⟩
        · exact ⟨_, hb, hy⟩
        · exact absurd (hn _ hb) hy

theorem Facade.Crashy.good (hE : E.ShortSaids) {l m : List Bundle} (h : f.Crashy E S l m) : RelsGood f.db := by
  induction h with
  | new => exact RelsGood.new
  | stored _ hv hc hb ih =>
    obtain ⟨-, f', e, hg⟩ := validated_stores (ε := List VErr) hE S _ ih hv
    rw [hb] at e
    cases e
    exact hg
  | crashed _ hv hc hg ih =>
    obtain ⟨R, M, hr⟩ := ih
    rcases crashed_relations hE hg hr with hr' | ⟨f2, b2, hv2, R', M', hr', hm⟩
    · exact ⟨R, M, hr'⟩
    · exact ⟨R', M', hr'⟩

/-- **C66** However often storing was cut short, at whatever points: what is asked for is either not there or whole. The bundle fetched
for an identifier has that identifier, or the answer is that there is none; a name stands for a valid identifier; and every file that is
accepted can still be stored to its end. -/
theorem C66_always_usable (E : Env) (hE : E.ShortSaids) (S : Serde) (f : Facade) (l m : List Bundle) (h : f.Crashy E S l m) :
    (∀ s, (∃ b, fetchBundle E S f.cache s = .ok b ∧ b.said = some s) ∨
      fetchBundle E S f.cache s = .err [c!"No OCA Bundle found for said: " ++ s]) ∧
    (∀ n, (f.db.findRefn n : Res VErr _) = .ok none ∨ ∃ s, (f.db.findRefn n : Res VErr _) = .ok (some s) ∧ E.validSaid s = true) ∧
    ∀ Os O ls f1 b, f.validate E S Os ls = .ok (f1, b) → ∃ f', (f1.build E S O b : Res (List VErr) _) = .ok f' := by
  refine ⟨?_, ?_, ?_⟩
  · intro s
    rcases h.kept.fetch s with ⟨b, h1, h2, -⟩ | ⟨-, h1⟩
    · exact .inl ⟨b, h1, h2⟩
    · exact .inr h1
  · intro n
    obtain ⟨o, ho⟩ := f.db.get_ok .references n
    unfold Store.findRefn
    rw [ho]
    cases o with
    | none => exact .inl rfl
    | some v =>
      obtain ⟨s, rfl, hs⟩ := h.named n v ho
      refine .inr ⟨s, ?_, hs⟩
      dsimp only
      rw [fromUtf8_utf8]
      rfl
  · intro Os O ls f1 b hv
    obtain ⟨-, f', e, -⟩ := validated_stores (ε := List VErr) hE S O (h.good hE) hv
    exact ⟨f', e⟩

/-- **C66** However often storing was cut short: `explore` always answers. It knows all the relations of the bundles stored to the end, and
it never reports a relation that no file stands for. (The bundles have no two objects with the same identifier.) -/
theorem C66_explore (E : Env) (hE : E.ShortSaids) (S : Serde) (f : Facade) (l m : List Bundle) (h : f.Crashy E S l m)
    (hn : ∀ b ∈ l ++ m, b.saids.Nodup) (x : Said) (hx : ∀ t, x ≠ metaKey t) :
    ∃ r, explore f.db x = .ok r ∧ (∀ b ∈ l, (∃ k, b.Has x k) → r ≠ none) ∧ (r ≠ none → ∃ b ∈ l ++ m, ∃ k, b.Has x k) ∧
      ∀ ys, r = some ys → ys.Nodup ∧ (∀ y, ∀ b ∈ l, b.Relates x y → y ∈ ys) ∧ ∀ y ∈ ys, ∃ b ∈ l ++ m, b.Relates x y := by
  obtain ⟨R, M, hr, hR⟩ := h.rels hE hn
  obtain ⟨g1, g2, g3, g4⟩ := hR x
  refine ⟨R x, hr.explore_eq hx, g1, g2, ?_⟩
  intro ys e
  rw [e] at g3 g4
  exact ⟨(hr.some' x hx ys e).1, g3, g4⟩

end OCA
