import Verif.Props.Dependencies
import Verif.Props.Relations
/-!
# C39: pages
-/
namespace OCA

/-! ## Tables -/

theorem insRow_perm (r : Said × Str) (t : Table) : (insRow r t).Perm (r :: t) := by
  induction t with
  | nil => exact .refl _
  | cons x t ih =>
    rw [insRow]
    split
    · exact (ih.cons x).trans (.swap r x t)
    · exact .refl _

theorem sortRows_perm (t : Table) : (sortRows t).Perm t := by
  induction t with
  | nil => exact .refl _
  | cons x t ih => exact (insRow_perm x _).trans (ih.cons x)

/-- the rows of page `i + 1` -/
def pageOf (t : Table) (limit i : Nat) : Table := sortRows ((t.drop (i * limit)).take limit)

theorem pages_prefix (t : Table) (limit n : Nat) :
    ((List.range n).flatMap fun i => (t.drop (i * limit)).take limit) = t.take (n * limit) := by
  induction n with
  | zero => simp
  | succ n ih =>
    rw [List.range_succ, List.flatMap_append, ih]
    simp only [List.flatMap_cons, List.flatMap_nil, List.append_nil]
    rw [Nat.succ_mul, List.take_add]

theorem flatMap_perm {α β : Type} (l : List α) (g h : α → List β) (hp : ∀ a ∈ l, (g a).Perm (h a)) :
    (l.flatMap g).Perm (l.flatMap h) := by
  induction l with
  | nil => exact .refl _
  | cons a t ih =>
    simp only [List.flatMap_cons]
    exact (hp a (.head _)).append (ih fun b hb => hp b (.tail _ hb))

/-- The pages together are the table. -/
theorem pages_perm (t : Table) (limit n : Nat) (h : t.length ≤ n * limit) :
    ((List.range n).flatMap (pageOf t limit)).Perm t := by
  refine (flatMap_perm _ _ (fun i => (t.drop (i * limit)).take limit) fun i _ => sortRows_perm _).trans ?_
  rw [pages_prefix, List.take_of_length_le h]

theorem pageOf_length (t : Table) (limit i : Nat) : (pageOf t limit i).length ≤ limit := by
  unfold pageOf
  rw [(sortRows_perm _).length_eq, List.length_take]
  exact Nat.min_le_left _ _

theorem pageOf_past (t : Table) (limit i : Nat) (h : t.length ≤ i * limit) : pageOf t limit i = [] := by
  unfold pageOf
  rw [List.drop_eq_nil_of_le h, List.take_nil]
  rfl

theorem fetchAll_go {α : Type} {parse : Str → Res Str α} {g : Said × Str → α} (k : Nat) (rows : Table)
    (h : ∀ r ∈ rows, parse r.2 = .ok (g r)) (acc : List α) :
    fetchAll.go parse (rows.map fun r => (some r, k)) acc [] = .ok (acc ++ rows.map g, []) := by
  induction rows generalizing acc with
  | nil => simp [fetchAll.go]
  | cons r t ih =>
    obtain ⟨s, v⟩ := r
    simp only [List.map_cons, fetchAll.go]
    rw [h (s, v) (.head _)]
    dsimp only
    rw [ih fun r hr => h r (.tail _ hr)]
    simp

/-- A page of a table all whose rows can be parsed. -/
theorem fetchAll_eq {α : Type} {parse : Str → Res Str α} {g : Said × Str → α} (t : Table) (h : ∀ r ∈ t, parse r.2 = .ok (g r))
    (limit i : Nat) (hl : limit < 9223372036854775808) (hi : i * limit < 9223372036854775808) :
    fetchAll parse t limit (i + 1) = .ok ((pageOf t limit i).map g, t.length) := by
  have hp : ∀ r ∈ pageOf t limit i, parse r.2 = .ok (g r) := fun r hr =>
    h r (List.mem_of_mem_drop (List.mem_of_mem_take ((sortRows_perm _).mem_iff.1 hr)))
  unfold fetchAll fetchPage
  rw [if_neg (by rw [Nat.add_sub_cancel]; omega)]
  rw [Nat.add_sub_cancel]
  cases ht : t with
  | nil =>
    have : pageOf ([] : Table) limit i = [] := pageOf_past _ _ _ (Nat.zero_le _)
    rw [this]
    simp [fetchAll.go]
  | cons r0 t0 =>
    rw [← ht]
    dsimp only
    have ht0 : t ≠ [] := by rw [ht]; exact fun e => by cases e
    rw [if_neg ht0]
    by_cases hr : (t.drop (i * limit)).take limit = []
    · have : pageOf t limit i = [] := by unfold pageOf; rw [hr]; rfl
      rw [if_pos hr, this]
      simp [fetchAll.go]
    · rw [if_neg hr]
      have hrows : sortRows ((t.drop (i * limit)).take limit) = pageOf t limit i := rfl
      rw [hrows]
      have hne : pageOf t limit i ≠ [] := by
        intro e
        have := (sortRows_perm ((t.drop (i * limit)).take limit)).length_eq
        rw [hrows, e] at this
        exact hr (List.length_eq_zero_iff.1 this.symm)
      show (fetchAll.go parse _ [] [] >>= _ : Res (List Str) _) = _
      rw [fetchAll_go t.length _ hp]
      cases hpg : pageOf t limit i with
      | nil => exact absurd hpg hne
      | cons r1 t1 => simp

theorem find_decide {α : Type} {p : α → Prop} [DecidablePred p] {l : List α} {a : α}
    (h : l.find? (fun a => decide (p a)) = some a) : p a := by
  have := List.find?_some h
  exact of_decide_eq_true this

/-! ## Specification -/

/-- A facade with a past of validated and built files, and the bundles these builds returned, in order. -/
inductive Facade.BuiltFrom (E : Env) (S : Serde) : Facade → List Bundle → Prop
  | new : BuiltFrom E S Facade.new []
  | validated {f f' : Facade} {l : List Bundle} {Os : Nat → Order} {ls : List Line} {b : Build} :
      BuiltFrom E S f l → f.validate E S Os ls = .ok (f', b) → BuiltFrom E S f' l
  | built {f f1 f' : Facade} {l : List Bundle} {Os : Nat → Order} {O : SetOrder} {ls : List Line} {b : Build} :
      BuiltFrom E S f l → f.validate E S Os ls = .ok (f1, b) → (∀ st ∈ b.steps, st.command.Keepable E) →
      (f1.build E S O b : Res (List VErr) _) = .ok f' → BuiltFrom E S f' (l ++ [b.bundle])

theorem Facade.BuiltFrom.runs {E : Env} {S : Serde} {f : Facade} {l : List Bundle} (h : Facade.BuiltFrom E S f l) :
    Facade.Runs E S f := by
  induction h with
  | new => exact .new
  | validated _ hv ih => exact .validated ih hv
  | built _ hv hc hb ih => exact .built ih hv hc hb

/-- the first of the bundles with this identifier -/
def firstWith (l : List Bundle) (s : Said) : Option Bundle := l.find? fun b => decide (b.said = some s)

/-! ## The tables -/

/-- the rows of the bundles that were built -/
theorem steps_tables {ε : Type} {E : Env} {S : Serde} {l : List BuildStep} {f f' : Facade}
    (h : foldRes (Facade.buildStep E S) f l = (.ok f' : Res ε Facade)) :
    f'.bundles = f.bundles ∧ f'.bases = f.bases ∧ f'.fts = f.fts := by
  induction l generalizing f with
  | nil => cases h; exact ⟨rfl, rfl, rfl⟩
  | cons st t ih =>
    simp only [foldRes] at h
    cases ha : (f.buildStep E S st : Res ε Facade) with
    | err e => rw [ha] at h; cases h
    | panic => rw [ha] at h; cases h
    | ok g =>
      rw [ha] at h
      obtain ⟨h1, h2, h3, -⟩ := buildStep_effect ha
      obtain ⟨i1, i2, i3⟩ := ih h
      exact ⟨i1.trans h1, i2.trans h2, i3.trans h3⟩

theorem build_tables {ε : Type} {E : Env} {S : Serde} {O : SetOrder} {f f' : Facade} {b : Build}
    (h : (f.build E S O b : Res ε Facade) = .ok f') :
    ∃ s c, b.bundle.said = some s ∧ b.bundle.captureBase.said = some c ∧
      f'.bundles = f.bundles.insertRow s (S.print (b.bundle.toJson E)) ∧
      f'.bases = f.bases.insertRow c (S.print b.bundle.captureBase.toJson) ∧
      f'.fts = (b.bundle.overlays.filterMap fun o => metaRow s o.body).foldl insertFts f.fts := by
  obtain ⟨s, c, g, db, hs, hc, hg, _, hm⟩ := build_parts h
  obtain ⟨-, m2, m3, m4, -⟩ := buildModels_frame hm
  obtain ⟨t1, t2, t3⟩ := steps_tables hg
  exact ⟨s, c, hs, hc, m2.trans t1, m3.trans t2, m4.trans t3⟩

/-- rows with different identifiers, one for each of the built bundles, holding the JSON of the first of them -/
structure Holding {α : Type} (E : Env) (said : α → Option Said) (json : α → Str) (P : α → Prop) (l : List α) (t : Table) : Prop where
  nodup : (t.map (·.1)).Nodup
  all : ∀ a ∈ l, ∃ s, said a = some s ∧ s ∈ t.map (·.1)
  row : ∀ r ∈ t, ∃ a, l.find? (fun a => decide (said a = some r.1)) = some a ∧ r.2 = json a ∧ P a

theorem Holding.insert {α : Type} {E : Env} {said : α → Option Said} {json : α → Str} {P : α → Prop} {l : List α} {t : Table}
    (h : Holding E said json P l t) (a : α) (s : Said) (hs : said a = some s) (hp : P a) :
    Holding E said json P (l ++ [a]) (t.insertRow s (json a)) := by
  unfold Table.insertRow
  have hfind : ∀ r : Said × Str, ∀ x, l.find? (fun a => decide (said a = some r.1)) = some x →
      (l ++ [a]).find? (fun a => decide (said a = some r.1)) = some x := by
    intro r x hx
    rw [List.find?_append, hx]; rfl
  by_cases hm : t.any (fun r => r.1 = s) = true
  · rw [if_pos hm]
    obtain ⟨r, hr, e⟩ := List.any_eq_true.1 hm
    refine ⟨h.nodup, ?_, ?_⟩
    · intro x hx
      rcases List.mem_append.1 hx with hx | hx
      · exact h.all x hx
      · rw [List.mem_singleton.1 hx]
        exact ⟨s, hs, List.mem_map.2 ⟨r, hr, of_decide_eq_true e⟩⟩
    · intro r hr
      obtain ⟨x, h1, h2⟩ := h.row r hr
      exact ⟨x, hfind r x h1, h2⟩
  · rw [if_neg hm]
    have hn : s ∉ t.map (·.1) := by
      intro hmem
      obtain ⟨r, hr, e⟩ := List.mem_map.1 hmem
      exact hm (List.any_eq_true.2 ⟨r, hr, decide_eq_true e⟩)
    refine ⟨?_, ?_, ?_⟩
    · rw [List.map_append, List.nodup_append]
      refine ⟨h.nodup, by simp, ?_⟩
      intro x hx y hy
      simp only [List.map_cons, List.map_nil, List.mem_singleton] at hy
      subst hy
      exact fun e => hn (e ▸ hx)
    · intro x hx
      rw [List.map_append]
      rcases List.mem_append.1 hx with hx | hx
      · obtain ⟨s', h1, h2⟩ := h.all x hx
        exact ⟨s', h1, List.mem_append_left _ h2⟩
      · rw [List.mem_singleton.1 hx]
        exact ⟨s, hs, List.mem_append_right _ (.head _)⟩
    · intro r hr
      rcases List.mem_append.1 hr with hr | hr
      · obtain ⟨x, h1, h2⟩ := h.row r hr
        exact ⟨x, hfind r x h1, h2⟩
      · cases List.mem_singleton.1 hr
        refine ⟨a, ?_, rfl, hp⟩
        rw [List.find?_append]
        have : l.find? (fun a => decide (said a = some s)) = none := by
          rw [List.find?_eq_none]
          intro x hx e
          obtain ⟨s', h1, h2⟩ := h.all x hx
          rw [of_decide_eq_true e] at h1
          cases h1
          exact hn h2
        rw [this]
        rw [Option.none_or, List.find?_cons, decide_eq_true hs]

/-- what the tables of a facade hold -/
theorem Facade.BuiltFrom.holds {E : Env} {S : Serde} {f : Facade} {l : List Bundle} (h : Facade.BuiltFrom E S f l) :
    Holding E Bundle.said (fun b => S.print (b.toJson E)) (Bundle.Keepable E) l f.bundles ∧
    Holding E (fun b => b.captureBase.said) (fun b => S.print b.captureBase.toJson) (Bundle.Keepable E) l f.bases := by
  induction h with
  | new =>
    exact ⟨⟨.nil, fun a ha => (by cases ha), fun r hr => (by cases hr)⟩,
      ⟨.nil, fun a ha => (by cases ha), fun r hr => (by cases hr)⟩⟩
  | validated _ hv ih =>
    obtain ⟨_, _, _, _, -, -, -, -, -, h6, h7, -⟩ := validate_parts hv
    rw [h6, h7]
    exact ih
  | built hf hv hc hb ih =>
    obtain ⟨_, _, _, _, -, -, -, -, -, h6, h7, -⟩ := validate_parts hv
    obtain ⟨s, c, hs, hcs, e1, e2, -⟩ := build_tables hb
    have hk := (validate_keeps hf.runs.kept hv hc).2
    rw [e1, e2, h6, h7]
    exact ⟨ih.1.insert _ s hs hk, ih.2.insert _ c hcs hk⟩

/-- a stored bundle is read back -/
theorem parseBundle_eq {E : Env} {S : Serde} {b : Bundle} (h : b.Keepable E) :
    parseBundle E S (S.print (b.toJson E)) = .ok ⟨b.said, { b.captureBase with flagged := sortStr b.captureBase.flagged },
      (written b.overlays).map Overlay.norm⟩ := by
  obtain ⟨b', h1, h2, h3, h4, -, h6⟩ := C29_json_round_trip E b h.storable
  have hw := b.within E 124 h.types
  unfold parseBundle
  rw [S.parse_print _ (Nat.lt_of_le_of_lt hw.2 (by decide)) hw.1]
  dsimp only
  rw [h1]
  obtain ⟨s', c', o'⟩ := b'
  cases h3
  cases h4
  cases h6
  rfl

theorem parseBase_eq {E : Env} {S : Serde} {b : Bundle} (h : b.Keepable E) :
    parseBase E S (S.print b.captureBase.toJson) = .ok { b.captureBase with flagged := sortStr b.captureBase.flagged } := by
  have hw := b.captureBase.within 124 h.types
  unfold parseBase
  rw [S.parse_print _ (Nat.lt_of_le_of_lt hw.2 (by decide)) hw.1]
  dsimp only
  rw [captureBase_ofJson E b.captureBase h.storable.base h.storable.types]

/-! ## C39 -/

/-- What paging through `records` means: page `i + 1` of `n` is `pages i`, of at most `limit` records; every page reports
the total; pages past the end are empty; and if the pages are enough for the total, they hold each record exactly once. -/
structure PagesOf {α : Type} (fetch : Nat → Nat → Res (List Str) (List α × Nat)) (limit n total : Nat)
    (pages : Nat → List α) : Prop where
  page : ∀ i < n, fetch limit (i + 1) = .ok (pages i, total)
  short : ∀ i < n, (pages i).length ≤ limit
  past : ∀ i < n, total ≤ i * limit → pages i = []
  number : total ≤ n * limit → ((List.range n).flatMap pages).length = total

/-- paging through a table all whose rows can be parsed -/
theorem pages_of_table {α : Type} {parse : Str → Res Str α} {g : Said × Str → α} (t : Table)
    (h : ∀ r ∈ t, parse r.2 = .ok (g r)) (limit n : Nat) (hl : limit < 9223372036854775808)
    (hn : n * limit < 9223372036854775808) :
    PagesOf (fetchAll parse t) limit n t.length (fun i => (pageOf t limit i).map g) ∧
    (t.length ≤ n * limit → ((List.range n).flatMap fun i => (pageOf t limit i).map g).Perm (t.map g)) := by
  have hperm : t.length ≤ n * limit → ((List.range n).flatMap fun i => (pageOf t limit i).map g).Perm (t.map g) := by
    intro hle
    have := (pages_perm t limit n hle).map g
    rw [List.map_flatMap] at this
    exact this
  refine ⟨⟨?_, ?_, ?_, ?_⟩, hperm⟩
  · intro i hi
    refine fetchAll_eq t h limit i hl (Nat.lt_of_le_of_lt (Nat.mul_le_mul_right _ (Nat.le_of_lt hi)) hn)
  · intro i _
    rw [List.length_map]
    exact pageOf_length t limit i
  · intro i _ hp
    rw [pageOf_past t limit i hp]; rfl
  · intro hle
    rw [(hperm hle).length_eq, List.length_map]

/-- **C39** On a facade with any past: paging through the bundles with any page size below 2^63, `n` pages with enough room
for the total show each identifier that was built exactly once, with the JSON of the first bundle built under it. -/
theorem C39_bundle_pages (E : Env) (S : Serde) (f : Facade) (l : List Bundle) (h : Facade.BuiltFrom E S f l) (limit n : Nat)
    (hl : limit < 9223372036854775808) (hn : n * limit < 9223372036854775808) :
    ∃ pages total, PagesOf (f.fetchAllBundles E S) limit n total pages ∧
      (total ≤ n * limit →
        (((List.range n).flatMap pages).map Bundle.said).Nodup ∧
        (∀ s, some s ∈ ((List.range n).flatMap pages).map Bundle.said ↔ ∃ b ∈ l, b.said = some s) ∧
        ∀ x ∈ (List.range n).flatMap pages, ∃ s b, x.said = some s ∧ firstWith l s = some b ∧ x.toJson E = b.toJson E) := by
  obtain ⟨hh, -⟩ := h.holds
  -- what a row holds
  let blank : Bundle := ⟨none, ⟨none, [], .empty, [], []⟩, []⟩
  let g : Said × Str → Bundle := fun r => match parseBundle E S r.2 with
    | .ok b => b
    | _ => blank
  have hrow : ∀ r ∈ f.bundles, ∃ b, firstWith l r.1 = some b ∧ parseBundle E S r.2 = .ok (g r) ∧ (g r).said = some r.1 ∧
      (g r).toJson E = b.toJson E := by
    intro r hr
    obtain ⟨b, h1, h2, h3⟩ := hh.row r hr
    have hp := parseBundle_eq (S := S) h3
    have hb : b.said = some r.1 := find_decide (p := fun b : Bundle => b.said = some r.1) h1
    have hg : g r = ⟨b.said, { b.captureBase with flagged := sortStr b.captureBase.flagged },
        (written b.overlays).map Overlay.norm⟩ := by
      show (match parseBundle E S r.2 with | .ok b => b | _ => blank) = _
      rw [h2, hp]
    refine ⟨b, h1, by rw [hg, h2, hp], by rw [hg]; exact hb, ?_⟩
    obtain ⟨b', j1, j2, j3, j4, -, j6⟩ := C29_json_round_trip E b h3.storable
    rw [hg, ← j2]
    congr 1
    obtain ⟨s', c', o'⟩ := b'
    cases j3
    cases j4
    cases j6
    rfl
  obtain ⟨p1, p2⟩ := pages_of_table f.bundles (fun r hr => (hrow r hr).choose_spec.2.1) limit n hl hn
  refine ⟨_, _, p1, ?_⟩
  intro hle
  have hp := p2 hle
  have hsaid : (f.bundles.map g).map Bundle.said = (f.bundles.map (·.1)).map some := by
    rw [List.map_map, List.map_map]
    refine List.map_congr_left fun r hr => ?_
    exact (hrow r hr).choose_spec.2.2.1
  refine ⟨?_, ?_, ?_⟩
  · rw [(hp.map Bundle.said).nodup_iff, hsaid]
    refine List.Pairwise.map _ (fun a b hab e => hab (Option.some.inj e)) hh.nodup
  · intro s
    rw [(hp.map Bundle.said).mem_iff, hsaid]
    constructor
    · intro hm
      obtain ⟨s', hs', e⟩ := List.mem_map.1 hm
      cases e
      obtain ⟨r, hr, e⟩ := List.mem_map.1 hs'
      subst e
      obtain ⟨b, h1, -⟩ := hrow r hr
      exact ⟨b, List.mem_of_find?_eq_some h1, find_decide (p := fun b : Bundle => b.said = some r.1) h1⟩
    · rintro ⟨b, hb, hs⟩
      obtain ⟨s', h1, h2⟩ := hh.all b hb
      rw [hs] at h1
      cases h1
      exact List.mem_map.2 ⟨s, h2, rfl⟩
  · intro x hx
    rw [hp.mem_iff] at hx
    obtain ⟨r, hr, e⟩ := List.mem_map.1 hx
    subst e
    obtain ⟨b, h1, h2, h3, h4⟩ := hrow r hr
    exact ⟨r.1, b, h3, h1, h4⟩

/-- **C39** The same for the capture bases. -/
theorem C39_base_pages (E : Env) (S : Serde) (f : Facade) (l : List Bundle) (h : Facade.BuiltFrom E S f l) (limit n : Nat)
    (hl : limit < 9223372036854775808) (hn : n * limit < 9223372036854775808) :
    ∃ pages total, PagesOf (f.fetchAllBases E S) limit n total pages ∧
      (total ≤ n * limit →
        (((List.range n).flatMap pages).map CaptureBase.said).Nodup ∧
        (∀ s, some s ∈ ((List.range n).flatMap pages).map CaptureBase.said ↔ ∃ b ∈ l, b.captureBase.said = some s) ∧
        ∀ x ∈ (List.range n).flatMap pages, ∃ s b, x.said = some s ∧
          l.find? (fun b => decide (b.captureBase.said = some s)) = some b ∧
          x = { b.captureBase with flagged := sortStr b.captureBase.flagged }) := by
  obtain ⟨-, hh⟩ := h.holds
  let g : Said × Str → CaptureBase := fun r => match parseBase E S r.2 with
    | .ok b => b
    | _ => ⟨none, [], .empty, [], []⟩
  have hrow : ∀ r ∈ f.bases, ∃ b, l.find? (fun b => decide (b.captureBase.said = some r.1)) = some b ∧
      parseBase E S r.2 = .ok (g r) ∧ (g r).said = some r.1 ∧
      g r = { b.captureBase with flagged := sortStr b.captureBase.flagged } := by
    intro r hr
    obtain ⟨b, h1, h2, h3⟩ := hh.row r hr
    have hp := parseBase_eq (S := S) h3
    have hb : b.captureBase.said = some r.1 := find_decide (p := fun b : Bundle => b.captureBase.said = some r.1) h1
    have hg : g r = { b.captureBase with flagged := sortStr b.captureBase.flagged } := by
      show (match parseBase E S r.2 with | .ok b => b | _ => _) = _
      rw [h2, hp]
    exact ⟨b, h1, by rw [hg, h2, hp], by rw [hg]; exact hb, hg⟩
  obtain ⟨p1, p2⟩ := pages_of_table f.bases (fun r hr => (hrow r hr).choose_spec.2.1) limit n hl hn
  refine ⟨_, _, p1, ?_⟩
  intro hle
  have hp := p2 hle
  have hsaid : (f.bases.map g).map CaptureBase.said = (f.bases.map (·.1)).map some := by
    rw [List.map_map, List.map_map]
    refine List.map_congr_left fun r hr => ?_
    exact (hrow r hr).choose_spec.2.2.1
  refine ⟨?_, ?_, ?_⟩
  · rw [(hp.map CaptureBase.said).nodup_iff, hsaid]
    refine List.Pairwise.map _ (fun a b hab e => hab (Option.some.inj e)) hh.nodup
  · intro s
    rw [(hp.map CaptureBase.said).mem_iff, hsaid]
    constructor
    · intro hm
      obtain ⟨s', hs', e⟩ := List.mem_map.1 hm
      cases e
      obtain ⟨r, hr, e⟩ := List.mem_map.1 hs'
      subst e
      obtain ⟨b, h1, -⟩ := hrow r hr
      exact ⟨b, List.mem_of_find?_eq_some h1, find_decide (p := fun b : Bundle => b.captureBase.said = some r.1) h1⟩
    · rintro ⟨b, hb, hs⟩
      obtain ⟨s', h1, h2⟩ := hh.all b hb
      rw [hs] at h1
      cases h1
      exact List.mem_map.2 ⟨s, h2, rfl⟩
  · intro x hx
    rw [hp.mem_iff] at hx
    obtain ⟨r, hr, e⟩ := List.mem_map.1 hx
    subst e
    obtain ⟨b, h1, h2, h3, h4⟩ := hrow r hr
    exact ⟨r.1, b, h3, h1, h4⟩

/-- Page 0 aborts, whatever the table. -/
theorem C39_page_zero_aborts (E : Env) (S : Serde) (f : Facade) (limit : Nat) :
    f.fetchAllBundles E S limit 0 = .panic := rfl

/-- what a computation shows of two files -/
def refFilesDiffer : Bool := match refFiles with
  | .ok (_, _, b1, _, _, b2) => decide (b1.bundle.said ≠ b2.bundle.said) && decide b1.bundle.saids.Nodup && decide b2.bundle.saids.Nodup
  | _ => false

/-- The hypotheses of C39 are met by a facade on which two files were built, with different results. -/
theorem C39_example : ∃ f b1 b2, Facade.BuiltFrom Env.short Serde.text f [b1, b2] ∧ b1.said ≠ b2.said ∧
    b1.saids.Nodup ∧ b2.saids.Nodup := by
  have htest : refFilesTest = true := by decide +kernel
  unfold refFilesTest at htest
  split at htest
  rotate_left
  · cases htest
  next f1 f2 b1 f3 f4 b2 hr =>
  split at htest
  rotate_left
  · cases htest
  next x y hx hy =>
  simp only [Bool.and_eq_true, decide_eq_true_eq, Option.isSome_iff_exists] at htest
  obtain ⟨⟨⟨⟨⟨⟨t0, t1⟩, t2⟩, s2, t3⟩, t4⟩, t5⟩, t6⟩ := htest
  have hd := hr
  unfold refFiles at hr
  obtain ⟨⟨g1, c1⟩, e1, hr⟩ := Res.bind_eq_ok.1 (show Res.bind _ _ = _ from hr)
  obtain ⟨g2, e2, hr⟩ := Res.bind_eq_ok.1 (show Res.bind _ _ = _ from hr)
  obtain ⟨s, e3, hr⟩ := Res.bind_eq_ok.1 (show Res.bind _ _ = _ from hr)
  obtain ⟨⟨g3, c2⟩, e4, hr⟩ := Res.bind_eq_ok.1 (show Res.bind _ _ = _ from hr)
  obtain ⟨g4, e5, hr⟩ := Res.bind_eq_ok.1 (show Res.bind _ _ = _ from hr)
  cases hr
  rw [t0] at e3
  cases e3
  have hc1 : b1.steps.map (·.command) = [addAttrs [(c!"a", .val .text)]] :=
    validate_commands e1 (ast := _) rfl rfl (fun _ h => by cases h) rfl
  have hc2 : b2.steps.map (·.command) = [addAttrs [(c!"x", .ref (.said c!"Eriodozdwnspb")), (c!"y", .val .text)]] :=
    validate_commands e4 (ast := _) rfl rfl (fun _ h => by cases h) rfl
  have hk1 : ∀ st ∈ b1.steps, st.command.Keepable Env.short := by
    intro st hst
    have : st.command ∈ b1.steps.map (·.command) := List.mem_map_of_mem hst
    rw [hc1, List.mem_singleton] at this
    rw [this]; exact addA_keepable
  have hk2 : ∀ st ∈ b2.steps, st.command.Keepable Env.short := by
    intro st hst
    have : st.command ∈ b2.steps.map (·.command) := List.mem_map_of_mem hst
    rw [hc2, List.mem_singleton] at this
    rw [this]
    refine attrs_keepable _ (by decide) _ ?_ (by decide)
    intro p hp
    simp only [List.mem_cons, List.not_mem_nil, or_false] at hp
    rcases hp with rfl | rfl
    · exact ⟨rfl, by decide⟩
    · exact ⟨trivial, by decide⟩
  refine ⟨f4, b1.bundle, b2.bundle, .built (.built .new e1 hk1 e2) e4 hk2 e5, ?_⟩
  have hlast : refFilesDiffer = true := by decide +kernel
  unfold refFilesDiffer at hlast
  rw [hd] at hlast
  simp only [Bool.and_eq_true, decide_eq_true_eq] at hlast
  exact ⟨hlast.1.1, hlast.1.2, hlast.2⟩

end OCA
