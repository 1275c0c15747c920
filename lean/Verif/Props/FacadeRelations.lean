import Verif.Props.Rebuild
import Verif.Props.Relations
/-!
# C34, C40: the relations after any use of the facade
-/
namespace OCA

/-- `build` writes the relations of the bundle, and nothing else among the relations. -/
theorem build_relations {ε : Type} {E : Env} {S : Serde} {O : SetOrder} {f f' : Facade} {b : Build}
    (h : (f.build E S O b : Res ε Facade) = .ok f') :
    ∃ d d', (∀ k, d.get .relations k = f.db.get .relations k) ∧
      (addRelations O d b.bundle = .ok d' ∨ (∃ e, addRelations O d b.bundle = .err e) ∧ d' = d) ∧
      ∀ k, f'.db.get .relations k = d'.get .relations k := by
  obtain ⟨s, c, g, db, _, _, hg, hr, hm⟩ := build_parts h
  refine ⟨g.db, db, ?_, hr, ?_⟩
  · intro k
    have hstep : ∀ (x : Facade) (st : BuildStep) (x' : Facade), (x.buildStep E S st : Res ε Facade) = .ok x' →
        x'.db.get .relations k = x.db.get .relations k := by
      intro x st x' hx
      obtain ⟨_, _, _, s, r, _, _, hd, _⟩ := buildStep_effect hx
      rw [hd, if_neg (fun e => by cases e.1)]
    have := foldRes_keeps (fun x : Facade => x.db.get .relations k) hstep hg
    exact this
  · intro k
    exact (buildModels_frame hm).2.2.2.2 _ (by decide) k

theorem RelRep.congr {db db' : Store} {R : Str → Option (List RelObj)} {M : Str → Option Nat} (h : RelRep db R M)
    (he : ∀ k, db'.get .relations k = db.get .relations k) : RelRep db' R M where
  none' x hx hr := by rw [he]; exact h.none' x hx hr
  some' x hx l hl := by rw [he]; exact h.some' x hx l hl
  kind x := by rw [he]; exact h.kind x
  code := h.code
  known := h.known

/-- what the relations of a facade mean -/
def RelsOf (db : Store) (l : List Bundle) : Prop := ∃ R M, RelRep db R M ∧
  ∀ x, (R x = none ↔ ∀ b ∈ l, ¬ ∃ k, b.Has x k) ∧ ∀ y, y ∈ (R x).getD [] ↔ ∃ b ∈ l, b.Relates x y

theorem RelsOf.congr {db db' : Store} {l : List Bundle} (h : RelsOf db l)
    (he : ∀ k, db'.get .relations k = db.get .relations k) : RelsOf db' l := by
  obtain ⟨R, M, hr, hx⟩ := h
  exact ⟨R, M, hr.congr he, hx⟩

theorem RelsOf.add (O : SetOrder) {db : Store} {l : List Bundle} (h : RelsOf db l) {a : Bundle} (ha : a.Labelled) :
    ∃ db', addRelations O db a = .ok db' ∧ RelsOf db' (l ++ [a]) := by
  obtain ⟨R1, M1, r1, h1⟩ := h
  obtain ⟨db2, R2, M2, e2, r2, hout, hin⟩ := r1.add O ha
  refine ⟨db2, e2, R2, M2, r2, ?_⟩
  intro x
  by_cases hx : some x ∈ a.saids
  · obtain ⟨l', hl', hm⟩ := hin x hx
    rw [hl']
    refine ⟨⟨fun h => (by cases h), fun h => ?_⟩, ?_⟩
    · exact absurd (Bundle.said_has hx) (h a (List.mem_append_right _ (.head _)))
    · intro y
      rw [Option.getD_some, hm, (h1 x).2 y]
      constructor
      · rintro (⟨p, hp, hr⟩ | hr)
        · exact ⟨p, List.mem_append_left _ hp, hr⟩
        · exact ⟨a, List.mem_append_right _ (.head _), hr⟩
      · rintro ⟨p, hp, hr⟩
        rw [List.mem_append, List.mem_singleton] at hp
        rcases hp with hp | rfl
        · exact .inl ⟨p, hp, hr⟩
        · exact .inr hr
  · rw [hout x hx]
    have hna : ∀ k, ¬ a.Has x k := fun k hk => hx (Bundle.has_said hk)
    refine ⟨?_, ?_⟩
    · rw [(h1 x).1]
      constructor
      · intro h p hp
        rw [List.mem_append, List.mem_singleton] at hp
        rcases hp with hp | rfl
        · exact h p hp
        · exact fun ⟨k, hk⟩ => hna k hk
      · exact fun h p hp => h p (List.mem_append_left _ hp)
    · intro y
      rw [(h1 x).2 y]
      constructor
      · rintro ⟨p, hp, hr⟩
        exact ⟨p, List.mem_append_left _ hp, hr⟩
      · rintro ⟨p, hp, hr⟩
        rw [List.mem_append, List.mem_singleton] at hp
        rcases hp with hp | rfl
        · exact ⟨p, hp, hr⟩
        · obtain ⟨k, hk⟩ := hr.2.2.1
          exact absurd hk (hna k)

theorem BuiltFrom.relsOf {E : Env} {S : Serde} {f : Facade} {l : List Bundle} (h : Facade.BuiltFrom E S f l)
    (hl : ∀ b ∈ l, b.Labelled) : RelsOf f.db l := by
  induction h with
  | new =>
    have hdb : ∀ k, Facade.new.db.get .relations k = .ok none := fun k => rfl
    refine ⟨fun _ => none, fun _ => none, ?_, ?_⟩
    · exact ⟨fun x _ _ => hdb x, fun x _ l h => (by cases h), fun x => hdb _, fun _ _ h => (by cases h),
        fun _ _ h => (by cases h)⟩
    · intro x
      refine ⟨⟨fun _ p hp => (by cases hp), fun _ => rfl⟩, fun y => ⟨fun h => (by cases h), ?_⟩⟩
      rintro ⟨p, hp, _⟩
      cases hp
  | validated _ hv ih =>
    obtain ⟨_, _, _, _, -, -, -, -, -, -, -, -, hd⟩ := validate_parts hv
    exact (ih hl).congr fun k => hd _ (by decide) k
  | built _ hv hc hb ih =>
    obtain ⟨_, _, _, _, -, -, -, -, -, -, -, -, hd⟩ := validate_parts hv
    have h1 := (ih fun b hb => hl b (List.mem_append_left _ hb)).congr fun k => hd .relations (by decide) k
    obtain ⟨d, d', e1, e2, e3⟩ := build_relations hb
    obtain ⟨d2, e4, h2⟩ := (h1.congr e1).add _ (hl _ (List.mem_append_right _ (.head _)))
    rw [e4] at e2
    rcases e2 with e2 | ⟨⟨_, e2⟩, _⟩
    · cases e2
      exact h2.congr e3
    · cases e2

/-- The digests are short and never end in `.metadata`: the real ones are 44 letters, digits, `-` and `_`. -/
def Env.PlainDigests (E : Env) : Prop := ∀ j, (utf8 (E.digest j)).length ≤ 255 ∧ ∀ t, E.digest j ≠ metaKey t

/-- the bundle generated for a state has its identifiers -/
theorem bundleOf_saids (E : Env) (O : Order) (box : OCABox) :
    ∀ s ∈ (bundleOf E O box).saids, ∃ j, s = some (E.digest j) := by
  intro s hs
  unfold Bundle.saids at hs
  rcases List.mem_cons.1 hs with rfl | hs
  · exact ⟨_, rfl⟩
  rcases List.mem_cons.1 hs with rfl | hs
  · exact ⟨_, rfl⟩
  obtain ⟨o, ho, rfl⟩ := List.mem_map.1 hs
  obtain ⟨body, -, rfl⟩ := List.mem_map.1 (show o ∈ List.map _ _ from ho)
  exact ⟨_, rfl⟩

/-- A bundle that was built is labelled, if its identifiers are different. -/
theorem built_labelled {E : Env} (hE : E.PlainDigests) {O : Order} {box : OCABox}
    (hn : (bundleOf E O box).saids.Nodup) : (bundleOf E O box).Labelled := by
  refine ⟨?_, hn, ?_, ?_⟩
  · intro h
    obtain ⟨j, e⟩ := bundleOf_saids E O box _ h
    cases e
  · intro s h
    obtain ⟨j, e⟩ := bundleOf_saids E O box _ h
    cases e
    exact (hE j).1
  · intro s h
    obtain ⟨j, e⟩ := bundleOf_saids E O box _ h
    cases e
    exact (hE j).2

theorem BuiltFrom.labelled {E : Env} {S : Serde} {f : Facade} {l : List Bundle} (h : Facade.BuiltFrom E S f l)
    (hE : E.PlainDigests) (hn : ∀ b ∈ l, b.saids.Nodup) : ∀ b ∈ l, b.Labelled := by
  induction h with
  | new => intro b hb; cases hb
  | validated _ _ ih => exact ih hn
  | built _ hv _ _ ih =>
    intro b hb
    rcases List.mem_append.1 hb with hb | hb
    · exact ih (fun b hb => hn b (List.mem_append_left _ hb)) b hb
    · have hb' := List.mem_singleton.1 hb
      obtain ⟨_, _, _, _, -, -, -, hf, -⟩ := validate_parts hv
      obtain ⟨_, _, -, -, -, -, -, e⟩ := fromAst_steps hf
      have hnb := hn b (List.mem_append_right _ hb)
      rw [hb', e] at hnb ⊢
      exact built_labelled hE hnb

/-- **C34** At every point of any use of a facade, `explore` knows exactly the objects of the bundles built so far, and
reports for each of them exactly the relations these bundles stand for, without repetition. The bundles must have no
two objects with the same identifier. -/
theorem C34_explore_exact (E : Env) (S : Serde) (hE : E.PlainDigests) (f : Facade) (l : List Bundle)
    (h : Facade.BuiltFrom E S f l) (hn : ∀ b ∈ l, b.saids.Nodup) (x : Said) (hx : ∀ t, x ≠ metaKey t) :
    ∃ r, explore f.db x = .ok r ∧ (r = none ↔ ∀ b ∈ l, ¬ ∃ k, b.Has x k) ∧
      ∀ ys, r = some ys → ys.Nodup ∧ ∀ y, y ∈ ys ↔ ∃ b ∈ l, b.Relates x y := by
  obtain ⟨R, M, r, h⟩ := BuiltFrom.relsOf h (BuiltFrom.labelled h hE hn)
  refine ⟨R x, r.explore_eq hx, (h x).1, ?_⟩
  intro ys hl
  refine ⟨(r.some' x hx ys hl).1, ?_⟩
  intro y
  have := (h x).2 y
  rwa [hl] at this

theorem Bundle.Alike.has {E : Env} {a b : Bundle} (h : a.Alike E b) (x : Said) (k : Nat) : a.Has x k ↔ b.Has x k := by
  constructor
  · rintro (e | e | ⟨ho, e⟩)
    · exact .bundle (h.said ▸ e)
    · exact .base (h.baseSaid ▸ e)
    · exact .overlay (h.overlays.mem_iff.1 ho) e
  · rintro (e | e | ⟨ho, e⟩)
    · exact .bundle (h.said ▸ e)
    · exact .base (h.baseSaid ▸ e)
    · exact .overlay (h.overlays.mem_iff.2 ho) e

theorem Bundle.Alike.relates {E : Env} {a b : Bundle} (h : a.Alike E b) (x : Said) (y : RelObj) :
    a.Relates x y ↔ b.Relates x y := by
  unfold Bundle.Relates
  rw [h.has, h.said, h.baseSaid]
  simp only [h.has]

/-- **C40** Building the same again changes no answer of `explore`. -/
theorem C40_same_relations (E : Env) (S : Serde) (hE : E.PlainDigests) (f f' : Facade) (l : List Bundle) (b b' : Bundle)
    (h : Facade.BuiltFrom E S f l) (h' : Facade.BuiltFrom E S f' (l ++ [b'])) (hb : b ∈ l) (hal : b.Alike E b')
    (hn : ∀ b ∈ l, b.saids.Nodup) (x : Said) (hx : ∀ t, x ≠ metaKey t) :
    ∃ r r', explore f.db x = .ok r ∧ explore f'.db x = .ok r' ∧ (r = none ↔ r' = none) ∧
      ∀ ys zs, r = some ys → r' = some zs → ys.Perm zs := by
  have hn' : ∀ c ∈ l ++ [b'], c.saids.Nodup := by
    intro c hc
    rcases List.mem_append.1 hc with hc | hc
    · exact hn c hc
    · rw [List.mem_singleton.1 hc]
      have hp : b.saids.Perm b'.saids := by
        unfold Bundle.saids
        rw [hal.said, hal.baseSaid]
        exact ((hal.overlays.map _).cons _).cons _
      exact hp.nodup_iff.1 (hn b hb)
  obtain ⟨r, e1, e2, e3⟩ := C34_explore_exact E S hE f l h hn x hx
  obtain ⟨r', e1', e2', e3'⟩ := C34_explore_exact E S hE f' _ h' hn' x hx
  refine ⟨r, r', e1, e1', ?_, ?_⟩
  · rw [e2, e2']
    constructor
    · intro hh c hc
      rcases List.mem_append.1 hc with hc | hc
      · exact hh c hc
      · rw [List.mem_singleton.1 hc]
        exact fun ⟨k, hk⟩ => hh b hb ⟨k, (hal.has x k).2 hk⟩
    · exact fun hh c hc => hh c (List.mem_append_left _ hc)
  · intro ys zs h1 h2
    obtain ⟨n1, m1⟩ := e3 ys h1
    obtain ⟨n2, m2⟩ := e3' zs h2
    refine perm_of_nodup n1 n2 ?_
    intro y
    rw [m1, m2]
    constructor
    · rintro ⟨c, hc, hr⟩
      exact ⟨c, List.mem_append_left _ hc, hr⟩
    · rintro ⟨c, hc, hr⟩
      rcases List.mem_append.1 hc with hc | hc
      · exact ⟨c, hc, hr⟩
      · rw [List.mem_singleton.1 hc] at hr
        exact ⟨b, hb, (hal.relates x y).2 hr⟩

/-! ### A concrete case -/

theorem letters_mem {n k : Nat} {c : Char} (h : c ∈ letters n k) : c.val < 128 ∧ c ≠ '.' := by
  induction n generalizing k with
  | zero => cases h
  | succ n ih =>
    unfold letters at h
    rcases List.mem_cons.1 h with rfl | h
    · have : ∀ i, i < 26 → (Char.ofNat (97 + i)).val < 128 ∧ Char.ofNat (97 + i) ≠ '.' := by decide
      exact this _ (Nat.mod_lt _ (by decide))
    · exact ih h

theorem letters_length (n k : Nat) : (letters n k).length = n := by
  induction n generalizing k with
  | zero => rfl
  | succ n ih => unfold letters; rw [List.length_cons, ih]

theorem short_plain : Env.short.PlainDigests := by
  intro j
  have hm : ∀ c ∈ Env.short.digest j, c.val < 128 ∧ c ≠ '.' := by
    intro c hc
    rcases List.mem_cons.1 (show c ∈ 'E' :: letters _ _ from hc) with rfl | hc
    · decide
    · exact letters_mem hc
  constructor
  · rw [utf8_ascii _ fun c hc => (hm c hc).1]
    show ('E' :: letters 12 _).length ≤ 255
    rw [List.length_cons, letters_length]
    decide
  · intro t e
    refine (hm '.' ?_).2 rfl
    rw [e]
    exact List.mem_append_right _ (by decide)

/-- The hypotheses of `C34_explore_exact` are met by a facade on which two files were built; the second bundle is
related to its capture base. -/
theorem C34_facade_example : ∃ f b1 b2, Facade.BuiltFrom Env.short Serde.text f [b1, b2] ∧
    (∀ b ∈ [b1, b2], b.saids.Nodup) ∧ ∃ x y, b2.said = some x ∧ explore f.db x = .ok (some y) ∧ y ≠ [] := by
  obtain ⟨f, b1, b2, h, -, h1, h2⟩ := C39_example
  have hn : ∀ b ∈ [b1, b2], b.saids.Nodup := by
    intro b hb
    simp only [List.mem_cons, List.not_mem_nil, or_false] at hb
    rcases hb with rfl | rfl
    · exact h1
    · exact h2
  have hl := BuiltFrom.labelled h short_plain hn b2 (.tail _ (.head _))
  refine ⟨f, b1, b2, h, hn, ?_⟩
  cases hs : b2.said with
  | none => exact absurd (show none ∈ b2.saids by unfold Bundle.saids; rw [hs]; exact .head _) hl.filled
  | some x =>
    cases hc : b2.captureBase.said with
    | none => exact absurd (show none ∈ b2.saids by unfold Bundle.saids; rw [hc]; exact .tail _ (.head _)) hl.filled
    | some c =>
      have hx : ∀ t, x ≠ metaKey t := hl.plain x (by unfold Bundle.saids; rw [hs]; exact .head _)
      obtain ⟨r, e1, e2, e3⟩ := C34_explore_exact _ _ short_plain f _ h hn x hx
      cases r with
      | none => exact absurd ⟨1, .bundle hs⟩ (e2.1 rfl b2 (.tail _ (.head _)))
      | some y =>
        refine ⟨x, y, rfl, e1, ?_⟩
        have hne : x ≠ c := by
          intro e
          have := hl.distinct
          unfold Bundle.saids at this
          rw [hs, hc, e] at this
          exact (List.nodup_cons.1 this).1 (.head _)
        have : (c, 0) ∈ y := ((e3 y rfl).2 (c, 0)).2 ⟨b2, .tail _ (.head _), hne, .base hc, ⟨1, .bundle hs⟩, .inl hs⟩
        intro e
        rw [e] at this
        cases this

end OCA
