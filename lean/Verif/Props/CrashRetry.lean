import Verif.Props.CrashFiles
import Verif.Props.FacadeRelations
/-!
# C66: storing a file again after a crash

After a crash at any point of the storing of a file, storing the same file again gives what storing it once would have given.
-/
namespace OCA

/-! ## Specification -/

/-- Two facades answer the same: as `Facade.SameStored` (C40), but the search rows may be in another order. -/
structure Facade.SameAnswers (f g : Facade) : Prop where
  bundles : g.bundles = f.bundles
  bases : g.bases = f.bases
  fts : g.fts.Perm f.fts
  cache : ∀ ns k, g.cache.get ns k = f.cache.get ns k
  history : ∀ k, g.db.get .oca k = f.db.get .oca k
  names : ∀ k, g.db.get .references k = f.db.get .references k

/-- `explore` gives the same for `x` -/
def Facade.SameExplored (f g : Facade) (x : Said) : Prop :=
  ∃ r r', explore f.db x = .ok r ∧ explore g.db x = .ok r' ∧ (r = none ↔ r' = none) ∧ ∀ ys zs, r = some ys → r' = some zs → ys.Perm zs

/-! ## The tables -/

/-- the row a write adds to the search table -/
def Write.row? : Write → Option FtsRow
  | .ftsRow r => some r
  | _ => none

theorem writes_fts (f : Facade) (ws : List Write) : (f.writes ws).fts = (ws.filterMap Write.row?).foldl insertFts f.fts := by
  induction ws generalizing f with
  | nil => rfl
  | cons w t ih =>
    rw [Facade.writes_cons, ih]
    cases w <;> rfl

/-- adding rows with different keys -/
theorem fts_fold (t L : List FtsRow) (hL : ∀ r ∈ L, ∀ r' ∈ L, r.said = r'.said → r.lang = r'.lang → r = r') :
    ∃ u, L.foldl insertFts t = t ++ u ∧ u.Nodup ∧ ∀ x, x ∈ u ↔ x ∈ L ∧ ¬ hasRow t x := by
  induction L using snoc_ind with
  | h0 => exact ⟨[], (List.append_nil t).symm, List.nodup_nil, fun x => by simp⟩
  | h1 L r ih =>
    obtain ⟨u, e, hn, hm⟩ := ih fun r hr r' hr' => hL r (List.mem_append_left _ hr) r' (List.mem_append_left _ hr')
    rw [List.foldl_append, e]
    show ∃ u', insertFts (t ++ u) r = t ++ u' ∧ _
    have hrL : r ∈ L ++ [r] := List.mem_append_right _ (.head _)
    by_cases h : hasRow (t ++ u) r
    · refine ⟨u, insertFts_has h, hn, fun x => ?_⟩
      rw [hm]
      constructor
      · rintro ⟨h1, h2⟩
        exact ⟨List.mem_append_left _ h1, h2⟩
      · rintro ⟨h1, h2⟩
        rcases List.mem_append.1 h1 with h1 | h1
        · exact ⟨h1, h2⟩
        · have e := List.mem_singleton.1 h1
          obtain ⟨y, hy, k1, k2⟩ := h
          rcases List.mem_append.1 hy with hy | hy
          · exact absurd ⟨y, hy, by rw [e]; exact k1, by rw [e]; exact k2⟩ h2
          · have hyL := ((hm y).1 hy).1
            rw [hL y (List.mem_append_left _ hyL) r hrL k1 k2] at hy
            rw [e]
            exact (hm r).1 hy
    · refine ⟨u ++ [r], ?_, ?_, fun x => ?_⟩
      · unfold insertFts
        rw [if_neg (fun h' => h ((hasRow_iff _ _).1 h')), List.append_assoc]
      · rw [List.nodup_append]
        refine ⟨hn, List.nodup_cons.2 ⟨(fun h => by cases h), List.nodup_nil⟩, ?_⟩
        intro a ha b hb e
        have e' := List.mem_singleton.1 hb
        exact h ⟨a, List.mem_append_right _ ha, by rw [e, e'], by rw [e, e']⟩
      · rw [List.mem_append, List.mem_append, hm, List.mem_singleton]
        constructor
        · rintro (⟨h1, h2⟩ | rfl)
          · exact ⟨.inl h1, h2⟩
          · exact ⟨.inr rfl, fun ⟨y, hy, k⟩ => h ⟨y, List.mem_append_left _ hy, k⟩⟩
        · rintro ⟨h1 | h1, h2⟩
          · exact .inl ⟨h1, h2⟩
          · exact .inr h1

/-- rows added in two ways -/
theorem fts_same (t L L' : List FtsRow) (hL : ∀ r ∈ L, ∀ r' ∈ L, r.said = r'.said → r.lang = r'.lang → r = r')
    (hm : ∀ r, r ∈ L' ↔ r ∈ L) : (L'.foldl insertFts t).Perm (L.foldl insertFts t) := by
  obtain ⟨u, e, hn, hu⟩ := fts_fold t L hL
  obtain ⟨u', e', hn', hu'⟩ := fts_fold t L' fun r hr r' hr' => hL r ((hm r).1 hr) r' ((hm r').1 hr')
  rw [e, e']
  refine List.Perm.append_left t (perm_of_nodup hn' hn fun x => ?_)
  rw [hu, hu', hm]

/-- all the rows of a bundle table that are written are the same -/
theorem writes_bundles {s : Said} {v : Str} (ws : List Write) (hw : ∀ x y, Write.bundleRow x y ∈ ws → x = s ∧ y = v) (f : Facade) :
    (f.writes ws).bundles = f.bundles ∨ (f.writes ws).bundles = f.bundles.insertRow s v := by
  induction ws using snoc_ind with
  | h0 => exact .inl rfl
  | h1 ws w ih =>
    rw [Facade.writes_append]
    show ((f.writes ws).write w).bundles = _ ∨ ((f.writes ws).write w).bundles = _
    have ih := ih fun x y h => hw x y (List.mem_append_left _ h)
    cases w with
    | bundleRow x y =>
      obtain ⟨rfl, rfl⟩ := hw x y (List.mem_append_right _ (.head _))
      show (f.writes ws).bundles.insertRow x y = _ ∨ (f.writes ws).bundles.insertRow x y = _
      rcases ih with e | e
      · rw [e]; exact .inr rfl
      · rw [e, insertRow_again]; exact .inr rfl
    | _ => exact ih

theorem writes_bases {s : Said} {v : Str} (ws : List Write) (hw : ∀ x y, Write.baseRow x y ∈ ws → x = s ∧ y = v) (f : Facade) :
    (f.writes ws).bases = f.bases ∨ (f.writes ws).bases = f.bases.insertRow s v := by
  induction ws using snoc_ind with
  | h0 => exact .inl rfl
  | h1 ws w ih =>
    rw [Facade.writes_append]
    show ((f.writes ws).write w).bases = _ ∨ ((f.writes ws).write w).bases = _
    have ih := ih fun x y h => hw x y (List.mem_append_left _ h)
    cases w with
    | baseRow x y =>
      obtain ⟨rfl, rfl⟩ := hw x y (List.mem_append_right _ (.head _))
      show (f.writes ws).bases.insertRow x y = _ ∨ (f.writes ws).bases.insertRow x y = _
      rcases ih with e | e
      · rw [e]; exact .inr rfl
      · rw [e, insertRow_again]; exact .inr rfl
    | _ => exact ih

variable {E : Env} {S : Serde} {Os : Nat → Order} {O : SetOrder} {f f1 f2 g : Facade} {ls : List Line} {ast : OCAAst} {b : Build}

/-- the search rows of a bundle that was built have different languages -/
theorem rows_distinct (hv : f.validate E S Os ls = .ok (f1, b)) (s : Said) :
    ∀ r ∈ b.bundle.overlays.filterMap (fun o => metaRow s o.body), ∀ r' ∈ b.bundle.overlays.filterMap (fun o => metaRow s o.body),
      r.said = r'.said → r.lang = r'.lang → r = r' := by
  obtain ⟨_, _, _, _, -, -, -, h4, -⟩ := validate_parts hv
  obtain ⟨_, box, -, -, -, -, hr, e⟩ := fromAst_steps h4
  have hn : (b.bundle.overlays.map fun o => o.body.slot).Nodup := by
    rw [e]
    exact C16_one_overlay_per_slot (ε := Str) E _ box hr _ (reachable_gen hr _)
  intro r h r' h' _ hl
  obtain ⟨o, ho, e1⟩ := List.mem_filterMap.1 h
  obtain ⟨o', ho', e2⟩ := List.mem_filterMap.1 h'
  have key : ∀ (o : Overlay) (r : FtsRow), metaRow s o.body = some r → o.body.slot = (.metaOv, some r.lang) ∧
      ∀ o' : Overlay, o'.body = o.body → metaRow s o'.body = some r := by
    intro o r h
    refine ⟨?_, fun o' e => by rw [e]; exact h⟩
    cases hb : o.body with
    | metaOv l ps => rw [hb] at h; cases h; rfl
    | _ => rw [hb] at h; cases h
  have hs : o.body.slot = o'.body.slot := by rw [(key o r e1).1, (key o' r' e2).1, hl]
  have ho2 : o = o' := by
    have hinj : ∀ l : List Overlay, (l.map fun o => o.body.slot).Nodup → ∀ a ∈ l, ∀ b ∈ l, a.body.slot = b.body.slot → a = b := by
      intro l
      induction l with
      | nil => intro _ a ha; cases ha
      | cons x t ih =>
        intro hn a ha b hb hab
        rw [List.map_cons, List.nodup_cons] at hn
        rcases List.mem_cons.1 ha with ea | ha <;> rcases List.mem_cons.1 hb with eb | hb
        · rw [ea, eb]
        · exact absurd (List.mem_map.2 ⟨b, hb, by rw [← hab, ea]⟩) hn.1
        · exact absurd (List.mem_map.2 ⟨a, ha, by rw [hab, eb]⟩) hn.1
        · exact ih hn.2 a ha b hb hab
    exact hinj _ hn o ho o' ho' hs
  subst ho2
  rw [e1] at e2
  exact Option.some.inj e2

/-- The same file validated on another facade, on which its base and the names it uses are the same. -/
theorem validate_again (hp : parseLines ls = .ok ast) (h1 : f.validate E S Os ls = .ok (f1, b))
    (hname : ∀ c ∈ ast.commands, ∀ n ∈ c.names, (g.db.findRefn n : Res VErr _) = f.db.findRefn n)
    (hbase : ∀ p, ast.commands.head? = some ⟨.«from», .ocaBundle (.said p)⟩ → g.cache.get .bundlesJson p = f.cache.get .bundlesJson p)
    (hframes : ∀ base ast', (checkBase E S f.cache ast : Res (List VErr) _) = .ok (base, ast') →
      ∀ x, (baseOf E base : Res (List BuildErr) _) = .ok x → FramesConsistent E x (b.steps.map (·.command)))
    (hcoll : ¬ b.bundle.Collides ∧ ∀ st ∈ b.steps, ¬ st.result.Collides) (Os' : Nat → Order) :
    ∃ g1 b', g.validate E S Os' ls = .ok (g1, b') ∧ b.bundle.Alike E b'.bundle ∧ All2 (BuildStep.Alike E) b.steps b'.steps := by
  obtain ⟨ast0, base, ast', cs, e1, e2, e3, e4, e5, e6, e7, e8, e9⟩ := validate_parts h1
  rw [hp] at e1
  cases e1
  have hcs : b.steps.map (·.command) = cs := by
    obtain ⟨_, _, -, -, -, -, hcs, -⟩ := C12_successful_build E Os base _ b e4
    exact hcs
  have hb2 : (checkBase E S g.cache ast : Res (List VErr) _) = .ok (base, ast') := by
    rw [← e2]
    unfold checkBase
    split
    · next r t hcmd =>
      cases r with
      | name n => rfl
      | said p =>
        have : fetchBundle E S g.cache p = fetchBundle E S f.cache p := by
          unfold fetchBundle; rw [hbase p (by rw [hcmd]; rfl)]
        dsimp only
        rw [this]
    · rfl
  have hsub : ∀ c ∈ ast'.commands, c ∈ ast.commands := by
    intro c hc
    unfold checkBase at e2
    split at e2
    · next r t hcmd =>
      rw [hcmd]
      split at e2
      · split at e2
        · cases e2; exact .tail _ hc
        · cases e2; exact .tail _ hc
        · cases e2
      · cases e2
    · cases e2; exact hc
  have hd : derefCommands E g.db.findRefn ast'.commands = .ok cs := by
    rw [← e3]
    refine derefCommands_congr _ ?_
    intro c hc n hn
    exact hname c (hsub c hc) n hn
  obtain ⟨b', hb', hal, hst⟩ := fromAst_alike e4 Os' (fun x hx => by rw [← hcs]; exact hframes base ast' e2 x hx) hcoll
  have hbs : b'.bundle.said ≠ none := by
    obtain ⟨_, box, -, -, -, -, -, e⟩ := fromAst_steps hb'
    rw [e]
    exact fun h => by cases h
  have hv : ∃ g1, g.validate E S Os' ls = .ok (g1, b') := by
    unfold Facade.validate
    rw [hp]
    show ∃ g1, Res.bind (Res.ok ast) _ = _
    rw [Res.bind]
    rw [hb2]
    show ∃ g1, Res.bind (buildWithRefs E Os' g.db base ast') _ = _
    unfold buildWithRefs
    rw [hd]
    dsimp only [Res.mapErr]
    rw [Res.bind_ok, hb', Res.bind_ok]
    cases ast'.metaMap.get c!"name" with
    | none => exact ⟨_, rfl⟩
    | some n =>
      dsimp only
      cases hs : b'.bundle.said with
      | none => exact absurd hs hbs
      | some s => exact ⟨_, rfl⟩
  obtain ⟨g1, hv⟩ := hv
  exact ⟨g1, b', hv, hal, hst⟩

/-- what a build writes into the cache -/
theorem buildWrite_cache {ns : Namespace} {k : Str} {v : Bytes} (h : BuildWrite E S b (.cache ns k v)) :
    ∃ u, lastWrite ns k (b.steps.flatMap (BuildStep.cacheWrites E S)) = some u := by
  generalize hw : Write.cache ns k v = w at h
  have go : ∀ st ∈ b.steps, (ns, k, v) ∈ st.cacheWrites E S → ∃ u, lastWrite ns k (b.steps.flatMap (BuildStep.cacheWrites E S)) = some u :=
    fun st hst h => lastWrite_some (List.mem_flatMap.2 ⟨st, hst, h⟩)
  cases h with
  | bundle h1 h2 =>
    cases hw
    exact go _ h1 (by unfold BuildStep.cacheWrites; rw [h2]; exact .head _)
  | base h1 h2 =>
    cases hw
    exact go _ h1 (by unfold BuildStep.cacheWrites; rw [h2]; exact .tail _ (.head _))
  | overlay h1 h2 h3 =>
    cases hw
    refine go _ h1 ?_
    unfold BuildStep.cacheWrites
    refine .tail _ (.tail _ (List.mem_map.2 ⟨_, h2, ?_⟩))
    rw [h3]
    rfl
  | _ => cases hw

theorem buildWrite_oca {k : Str} {v : Bytes} (h : BuildWrite E S b (.db .oca k v)) :
    ∃ u, lastWrite .oca k (b.steps.flatMap (BuildStep.dbWrites S)) = some u := by
  generalize hw : Write.db .oca k v = w at h
  cases h with
  | @operation st s r h1 h2 h3 =>
    cases hw
    have hx : ∃ v', (Namespace.oca, opKey s, v') ∈ st.dbWrites S :=
      ⟨_, by unfold BuildStep.dbWrites; rw [h2]; exact .head _⟩
    obtain ⟨v', hv'⟩ := hx
    exact lastWrite_some (List.mem_flatMap.2 ⟨_, h1, hv'⟩)
  | _ => cases hw

/-- **C66** After a crash at any point of the storing of a file, storing the file again, with whatever other orders of the hash maps,
gives what storing it without a crash gives: the same identifier and JSON, the same rows (the search rows perhaps in another order), the
same stored bundles, capture bases, overlays, operation records and names, and the same relations. The conditions are those of C40: the file
must not use its own name, nor pass through the bundle it is based on; no frame has contradictory metadata; no collisions. -/
theorem C66_retry (E : Env) (hE : E.ShortSaids) (S : Serde) (f f1 f2 g : Facade) (hgood : RelsGood f.db) (Os : Nat → Order) (O : SetOrder)
    (ls : List Line) (ast : OCAAst) (hp : parseLines ls = .ok ast) (b : Build) (h1 : f.validate E S Os ls = .ok (f1, b))
    (h2 : (f1.build E S O b : Res (List VErr) _) = .ok f2) (hg : f.Crashed (f.fileWrites E S Os O ls) g)
    (hname : ∀ n, ast.metaMap.get c!"name" = some n → ∀ c ∈ ast.commands, n ∉ c.names)
    (hbase : ∀ p, ast.commands.head? = some ⟨.«from», .ocaBundle (.said p)⟩ → some p ∉ b.steps.map (·.result.said))
    (hframes : ∀ base ast', (checkBase E S f.cache ast : Res (List VErr) _) = .ok (base, ast') →
      ∀ x, (baseOf E base : Res (List BuildErr) _) = .ok x → FramesConsistent E x (b.steps.map (·.command)))
    (hcoll : ¬ b.bundle.Collides ∧ ∀ st ∈ b.steps, ¬ st.result.Collides) (hnd : b.bundle.saids.Nodup)
    (Os' : Nat → Order) (O' : SetOrder) :
    ∃ g1 b' g2, g.validate E S Os' ls = .ok (g1, b') ∧ (g1.build E S O' b' : Res (List VErr) _) = .ok g2 ∧
      b'.bundle.said = b.bundle.said ∧ b'.bundle.toJson E = b.bundle.toJson E ∧ b.bundle.Alike E b'.bundle ∧
      f2.SameAnswers g2 ∧ ∀ x, (∀ t, x ≠ metaKey t) → f2.SameExplored g2 x := by
  -- what the crash left
  have hmem : ∀ w ∈ f.fileWrites E S Os O ls, (∃ n s, ast.metaMap.get c!"name" = some n ∧ b.bundle.said = some s ∧
      w = .db .references n (utf8 s)) ∨ BuildWrite E S b w := by
    intro w hw
    rw [fileWrites_eq hp h1] at hw
    rcases List.mem_append.1 hw with hw | hw
    · left
      unfold nameWrites at hw
      split at hw
      · next n s hn hs =>
        cases List.mem_singleton.1 hw
        exact ⟨n, s, hn, hs, rfl⟩
      · cases hw
    · exact .inr (only_buildOp E S O b f1 w hw)
  obtain ⟨_, _, _, _, -, -, -, -, e5, e6, e7, e8, e9⟩ := validate_parts h1
  have hbook : ∀ p, some p ∉ b.steps.map (·.result.said) → g.cache.get .bundlesJson p = f.cache.get .bundlesJson p := by
    intro p hp'
    rcases hg.get_cache .bundlesJson p with e | ⟨v, hw, -⟩
    · exact e
    · exfalso
      rcases hmem _ hw with ⟨n, s, -, -, e⟩ | hw
      · cases e
      · generalize hw' : Write.cache .bundlesJson p v = w at hw
        cases hw with
        | bundle h1 h2 =>
          cases hw'
          exact hp' (List.mem_map.2 ⟨_, h1, h2⟩)
        | _ => cases hw'
  have hrefs : ∀ n, ast.metaMap.get c!"name" ≠ some n → g.db.get .references n = f.db.get .references n := by
    intro n hn
    rcases hg.get_db .references n with e | ⟨v, hw, -⟩
    · exact e
    · exfalso
      rcases hmem _ hw with ⟨n', s, h, -, e⟩ | hw
      · cases e
        exact hn h
      · generalize hw' : Write.db .references n v = w at hw
        cases hw with
        | _ => cases hw'
  -- validating again
  obtain ⟨g1, b', hv, hal, hst⟩ := validate_again (g := g) hp h1 (fun c hc n hn => by
      unfold Store.findRefn
      rw [hrefs n fun e => hname n e c hc hn]) (fun p hpp => hbook p (hbase p hpp)) hframes hcoll Os'
  obtain ⟨_, _, _, _, -, -, -, -, k5, k6, k7, k8, k9⟩ := validate_parts hv
  have hrg : RelsGood g.db := by
    obtain ⟨R, M, hr⟩ := hgood
    rcases crashed_relations hE hg hr with hr' | ⟨_, _, _, R', M', hr', _⟩
    · exact ⟨R, M, hr'⟩
    · exact ⟨R', M', hr'⟩
  obtain ⟨-, g2, hb2, -⟩ := validated_stores (ε := List VErr) hE S O' hrg hv
  obtain ⟨s, c, es, ec, t1, t2, t3⟩ := build_tables h2
  obtain ⟨s', c', es', ec', t1', t2', t3'⟩ := build_tables hb2
  have e : s' = s := by
    have := hal.said
    rw [es, es'] at this
    exact (Option.some.inj this).symm
  subst e
  have e : c' = c := by
    have := hal.baseSaid
    rw [ec, ec'] at this
    exact (Option.some.inj this).symm
  subst e
  obtain ⟨a1, a2, -⟩ := build_after h2
  obtain ⟨a1', a2', -⟩ := build_after hb2
  obtain ⟨_, _, gg, db, _, _, hgg, -⟩ := build_parts h2
  have hsigned := build_steps_signed hgg
  obtain ⟨n, hn1, hn2, hn3⟩ := hg.tables
  refine ⟨g1, b', g2, hv, hb2, hal.said.symm, hal.json.symm, hal, ⟨?_, ?_, ?_, ?_, ?_, ?_⟩, ?_⟩
  · rw [t1', t1, k6, e6, ← hal.json, hn1]
    have hw : ∀ x y, Write.bundleRow x y ∈ (f.fileWrites E S Os O ls).take n → x = s' ∧ y = S.print (b.bundle.toJson E) := by
      intro x y hw
      rcases hmem _ (List.mem_of_mem_take hw) with ⟨_, _, -, -, e⟩ | hw
      · cases e
      · cases hw with
        | bundleRow h => rw [es] at h; cases h; exact ⟨rfl, rfl⟩
    unfold Facade.killed
    rcases writes_bundles _ hw f with e | e
    · rw [e]
    · rw [e, insertRow_again]
  · rw [t2', t2, k7, e7, ← hal.baseJson, hn2]
    have hw : ∀ x y, Write.baseRow x y ∈ (f.fileWrites E S Os O ls).take n → x = c' ∧ y = S.print b.bundle.captureBase.toJson := by
      intro x y hw
      rcases hmem _ (List.mem_of_mem_take hw) with ⟨_, _, -, -, e⟩ | hw
      · cases e
      · cases hw with
        | baseRow h => rw [ec] at h; cases h; exact ⟨rfl, rfl⟩
    unfold Facade.killed
    rcases writes_bases _ hw f with e | e
    · rw [e]
    · rw [e, insertRow_again]
  · rw [t3', t3, k8, e8, hn3]
    unfold Facade.killed
    rw [writes_fts, ← List.foldl_append]
    refine fts_same _ _ _ (rows_distinct h1 s') ?_
    intro r
    have hper : ∀ r, r ∈ b'.bundle.overlays.filterMap (fun o => metaRow s' o.body) ↔
        r ∈ b.bundle.overlays.filterMap (fun o => metaRow s' o.body) := fun r => ((hal.overlays.filterMap _).mem_iff).symm
    rw [List.mem_append, hper]
    constructor
    · rintro (h | h)
      · obtain ⟨w, hw, e⟩ := List.mem_filterMap.1 h
        rcases hmem w (List.mem_of_mem_take hw) with ⟨_, _, -, -, rfl⟩ | hw
        · cases e
        · cases hw with
          | search q1 q2 q3 =>
            cases e
            rw [es] at q1
            cases q1
            exact List.mem_filterMap.2 ⟨_, q2, q3⟩
          | _ => cases e
      · exact h
    · exact .inr
  · intro ns k
    have hlw : lastWrite ns k (b'.steps.flatMap (BuildStep.cacheWrites E S)) = lastWrite ns k (b.steps.flatMap (BuildStep.cacheWrites E S)) :=
      (lastWrite_flatMap hst fun st hm st' hss => cacheWrites_alike hss (hcoll.2 st hm) (hsigned st hm) ns k).symm
    rw [a1', a1, hlw]
    cases hl : lastWrite ns k (b.steps.flatMap (BuildStep.cacheWrites E S)) with
    | some v => rfl
    | none =>
      dsimp only
      rw [k5, e5]
      rcases hg.get_cache ns k with e | ⟨v, hw, -⟩
      · exact e
      · exfalso
        rcases hmem _ hw with ⟨_, _, -, -, e⟩ | hw
        · cases e
        · obtain ⟨u, hu⟩ := buildWrite_cache hw
          rw [hl] at hu
          cases hu
  · intro k
    have hlw : lastWrite .oca k (b'.steps.flatMap (BuildStep.dbWrites S)) = lastWrite .oca k (b.steps.flatMap (BuildStep.dbWrites S)) :=
      (lastWrite_flatMap hst fun st _ st' hss => by rw [dbWrites_alike hss]).symm
    rw [a2', a2, hlw]
    cases hl : lastWrite .oca k (b.steps.flatMap (BuildStep.dbWrites S)) with
    | some v => rfl
    | none =>
      dsimp only
      rw [k9 _ (by decide), e9 _ (by decide)]
      rcases hg.get_db .oca k with e | ⟨v, hw, -⟩
      · exact e
      · exfalso
        rcases hmem _ hw with ⟨_, _, -, -, e⟩ | hw
        · cases e
        · obtain ⟨u, hu⟩ := buildWrite_oca hw
          rw [hl] at hu
          cases hu
  · intro k
    rw [build_refs hb2, build_refs h2, validate_refs hp hv es', validate_refs hp h1 es]
    split
    · rfl
    · next h => exact hrefs k h
  · -- relations
    intro x hx
    obtain ⟨R, M, hr⟩ := hgood
    have hlab := validate_labelled hE h1 hnd
    have hlab' : b'.bundle.Labelled := by
      refine validate_labelled hE hv ?_
      have hper : b.bundle.saids.Perm b'.bundle.saids := by
        unfold Bundle.saids
        rw [hal.said, hal.baseSaid]
        exact ((hal.overlays.map _).cons _).cons _
      exact hper.nodup_iff.1 hnd
    have hrelates : ∀ x y, b'.bundle.Relates x y ↔ b.bundle.Relates x y := fun x y => (Bundle.Alike.relates hal x y).symm
    have hsaids : ∀ x, some x ∈ b'.bundle.saids ↔ some x ∈ b.bundle.saids := by
      intro x
      have hper : b.bundle.saids.Perm b'.bundle.saids := by
        unfold Bundle.saids
        rw [hal.said, hal.baseSaid]
        exact ((hal.overlays.map _).cons _).cons _
      exact hper.mem_iff.symm
    -- the crashed relations
    obtain ⟨Rg, Mg, hrg, hmid⟩ : ∃ Rg Mg, RelRep g.db Rg Mg ∧ RelMid b.bundle R M Rg Mg := by
      rcases crashed_relations hE hg hr with hr' | ⟨_, _, hv', R', M', hr', hm⟩
      · exact ⟨R, M, hr', .refl⟩
      · rw [h1] at hv'
        cases hv'
        exact ⟨R', M', hr', hm⟩
    -- both ends
    have fin : ∀ {F F1 F2 : Facade} {B : Build} {R : Str → Option (List RelObj)} {M : Str → Option Nat} {O : SetOrder}, RelRep F1.db R M →
        B.bundle.Labelled → (F1.build E S O B : Res (List VErr) _) = .ok F2 → ∃ R' M', RelRep F2.db R' M' ∧
        (∀ x, some x ∉ B.bundle.saids → R' x = R x) ∧
        ∀ x, some x ∈ B.bundle.saids → ∃ l, R' x = some l ∧ ∀ y, y ∈ l ↔ y ∈ (R x).getD [] ∨ B.bundle.Relates x y := by
      intro F F1 F2 B R M O hr hl hb
      obtain ⟨d, d', q1, q2, q3⟩ := build_relations hb
      obtain ⟨d2, R', M', q4, q5, q6, q7⟩ := (hr.congr q1).add O hl
      rw [q4] at q2
      rcases q2 with q2 | ⟨⟨_, q2⟩, _⟩
      · cases q2
        exact ⟨R', M', q5.congr q3, q6, q7⟩
      · cases q2
    obtain ⟨Ra, Ma, ra, rout, rin⟩ := fin (F := f) (hr.congr (e9 .relations (by decide))) hlab h2
    obtain ⟨Rb, Mb, rb, bout, bin⟩ := fin (F := g) (hrg.congr (k9 .relations (by decide))) hlab' hb2
    refine ⟨Ra x, Rb x, ra.explore_eq hx, rb.explore_eq hx, ?_, ?_⟩
    · by_cases hs : some x ∈ b.bundle.saids
      · obtain ⟨l, e, -⟩ := rin x hs
        obtain ⟨l', e', -⟩ := bin x ((hsaids x).2 hs)
        rw [e, e']
        exact ⟨(fun h => by cases h), fun h => by cases h⟩
      · rw [rout x hs, bout x fun h => hs ((hsaids x).1 h)]
        constructor
        · intro h
          cases hRg : Rg x with
          | none => rfl
          | some l =>
            obtain ⟨k, hk⟩ := hmid.new x h (by rw [hRg]; simp)
            exact absurd (Bundle.has_said hk) hs
        · exact hmid.there x
    · intro ys zs ey ez
      refine perm_of_nodup (ra.some' x hx ys ey).1 (rb.some' x hx zs ez).1 fun y => ?_
      by_cases hs : some x ∈ b.bundle.saids
      · obtain ⟨l, e, hm⟩ := rin x hs
        obtain ⟨l', e', hm'⟩ := bin x ((hsaids x).2 hs)
        rw [ey] at e
        rw [ez] at e'
        cases e
        cases e'
        rw [hm, hm', hrelates]
        constructor
        · rintro (h | h)
          · exact .inl (hmid.keeps x y h)
          · exact .inr h
        · rintro (h | h)
          · rcases hmid.only x y h with h | h | ⟨-, h⟩
            · exact .inl h
            · exact .inr h
            · exact absurd hnd h
          · exact .inr h
      · rw [rout x hs] at ey
        rw [bout x fun h => hs ((hsaids x).1 h)] at ez
        have k1 := hmid.keeps x y
        have k2 := hmid.only x y
        rw [ey, ez] at k1 k2
        refine ⟨k1, fun h => ?_⟩
        rcases k2 h with h | h | ⟨-, h⟩
        · exact h
        · obtain ⟨k, hk⟩ := h.2.2.1
          exact absurd (Bundle.has_said hk) hs
        · exact absurd hnd h

end OCA
