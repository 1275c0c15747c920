import Verif.Props.Objects
import Verif.Props.Conditions
import Verif.Props.CrashFiles
import Verif.Props.Pages
import Verif.Lemmas.All2
import Verif.Model.Search
/-!
# C67: searching

Whatever the full-text index matches, page by page a search gives each bundle with a matching row once, with the total of such bundles on
every page.
-/
namespace OCA

/-! ## Specification -/

/-- the query matches a row of this bundle -/
def Facade.Finds (f : Facade) (hit : FtsRow → Option FtsHit) (s : Said) : Prop := ∃ r ∈ f.fts, r.said = s ∧ hit r ≠ none

/-- the number of bundles with a matching row -/
def Facade.FindsCount (f : Facade) (hit : FtsRow → Option FtsHit) (n : Nat) : Prop :=
  ∃ l : List Said, l.Nodup ∧ (∀ s, s ∈ l ↔ f.Finds hit s) ∧ l.length = n

/-- the text of every snippet of a match can be read as a regular expression (the code puts it into one without escaping it) -/
def Facade.ScopesCompile (f : Facade) (R : Rx) (hit : FtsRow → Option FtsHit) : Prop :=
  ∀ r ∈ f.fts, ∀ h, hit r = some h → ∃ t, scopeText h.snippet = some t ∧ R.compiles (scopePattern t) = true

/-- The scope of a record is what the pattern made of the snippet captures in the lines with the name and the description of the row; nothing if it does not match. -/
def SearchHit.ScopedIn (R : Rx) (h : SearchHit) (r : FtsRow) (snippet : Str) : Prop :=
  ∃ t, scopeText snippet = some t ∧
    h.scope = (R.first (c!"(?m)^([^:]+):" ++ t ++ c!"$") (c!"meta_overlay:" ++ r.name ++ c!"\nmeta_overlay:" ++ r.description ++ c!"\n")).getD []

/-- A record of a result: the bundle that is kept under the identifier, with the snippet, the scope and the score of a row that matches, which shows a
name and a description of a bundle that was built. -/
structure SearchHit.About (E : Env) (S : Serde) (R : Rx) (f : Facade) (l : List Build) (hit : FtsRow → Option FtsHit) (x : Bundle × SearchHit) : Prop where
  bundle : fetchBundle E S f.cache x.2.said = .ok x.1
  said : x.1.said = some x.2.said
  row : ∃ r : FtsRow, r ∈ f.fts ∧ r.said = x.2.said ∧ (∃ b ∈ l, b.bundle.ShownBy r) ∧
    ∃ h, hit r = some h ∧ x.2.phrase = h.snippet ∧ x.2.score = h.rank.natAbs ∧ x.2.ScopedIn R r h.snippet

/-! ## The groups -/

theorem mem_ftsRows {hit : FtsRow → Option FtsHit} {t : List FtsRow} {x : FtsRow × FtsHit} :
    x ∈ ftsRows hit t ↔ x.1 ∈ t ∧ hit x.1 = some x.2 := by
  unfold ftsRows
  rw [List.mem_filterMap]
  constructor
  · rintro ⟨r, hr, e⟩
    obtain ⟨h, hh, rfl⟩ := Option.map_eq_some_iff.1 e
    exact ⟨hr, hh⟩
  · rintro ⟨h1, h2⟩
    exact ⟨x.1, h1, by rw [h2]; rfl⟩

theorem mem_ftsGroups {F : Fts} {rows : List (FtsRow × FtsHit)} {x : FtsRow × FtsHit} (h : x ∈ ftsGroups F rows) : x ∈ rows := by
  unfold ftsGroups at h
  obtain ⟨s, -, e⟩ := List.mem_filterMap.1 h
  split at e
  · cases e
  · next y l hl =>
    cases e
    have := F.pick_mem y l
    rw [← hl] at this
    exact (List.mem_filter.1 this).1

/-- a group for each identifier, in the same order -/
theorem ftsGroups_saids (F : Fts) (rows : List (FtsRow × FtsHit)) : (ftsGroups F rows).map (·.1.said) = ftsSaids rows := by
  have key : ∀ l : List Said, (∀ s ∈ l, ∃ r ∈ rows, r.1.said = s) →
      (l.filterMap fun s => match rows.filter (fun r => decide (r.1.said = s)) with
        | [] => none
        | x :: l => some (F.pick x l)).map (·.1.said) = l := by
    intro l
    induction l with
    | nil => intro _; rfl
    | cons s t ih =>
      intro hl
      rw [List.filterMap_cons]
      cases hf : rows.filter (fun r => decide (r.1.said = s)) with
      | nil =>
        obtain ⟨r, hr, e⟩ := hl s (.head _)
        have : r ∈ rows.filter (fun r => decide (r.1.said = s)) := List.mem_filter.2 ⟨hr, by simp [e]⟩
        rw [hf] at this
        cases this
      | cons x l =>
        dsimp only
        rw [List.map_cons, ih fun s hs => hl s (.tail _ hs)]
        have := F.pick_mem x l
        rw [← hf] at this
        rw [of_decide_eq_true (List.mem_filter.1 this).2]
  refine key _ ?_
  intro s hs
  unfold ftsSaids at hs
  rw [List.mem_eraseDups] at hs
  obtain ⟨r, hr, e⟩ := List.mem_map.1 hs
  exact ⟨r, hr, e⟩

theorem mem_ftsSaids {hit : FtsRow → Option FtsHit} {f : Facade} {s : Said} : s ∈ ftsSaids (ftsRows hit f.fts) ↔ f.Finds hit s := by
  unfold ftsSaids
  rw [List.mem_eraseDups, List.mem_map]
  constructor
  · rintro ⟨x, hx, rfl⟩
    obtain ⟨h1, h2⟩ := mem_ftsRows.1 hx
    exact ⟨x.1, h1, rfl, by rw [h2]; simp⟩
  · rintro ⟨r, hr, rfl, hh⟩
    cases e : hit r with
    | none => exact absurd e hh
    | some h => exact ⟨(r, h), mem_ftsRows.2 ⟨hr, e⟩, rfl⟩

/-- the groups, best first -/
def ftsRanked (F : Fts) (hit : FtsRow → Option FtsHit) (t : List FtsRow) : List (FtsRow × FtsHit) := F.order (ftsGroups F (ftsRows hit t))

theorem ftsRanked_saids (F : Fts) (hit : FtsRow → Option FtsHit) (t : List FtsRow) :
    ((ftsRanked F hit t).map (·.1.said)).Perm (ftsSaids (ftsRows hit t)) := by
  rw [← ftsGroups_saids F]
  exact (F.order_perm _).map _

theorem mem_ftsRanked {F : Fts} {hit : FtsRow → Option FtsHit} {t : List FtsRow} {x : FtsRow × FtsHit} (h : x ∈ ftsRanked F hit t) :
    x.1 ∈ t ∧ hit x.1 = some x.2 :=
  mem_ftsRows.1 (mem_ftsGroups ((F.order_perm _).mem_iff.1 h))

/-- the rows of a page -/
def ftsSlice (F : Fts) (hit : FtsRow → Option FtsHit) (t : List FtsRow) (limit page : Nat) : List (FtsRow × FtsHit) :=
  ((ftsRanked F hit t).drop ((page - 1) * limit)).take limit

theorem ftsPage_eq (F : Fts) (hit : FtsRow → Option FtsHit) (t : List FtsRow) (limit page : Nat) :
    (∀ {ε : Type} (E : Env) (R : Rx), (searchHits E R (ftsPage F hit t limit page) : Res ε _) =
      searchHits E R ((F.order (ftsSlice F hit t limit page)).map fun r => (some r, 0))) ∧
    ((ftsPage F hit t limit page).head?.map (·.2)).getD 0 = (ftsRanked F hit t).length := by
  have hlen : (ftsRanked F hit t).length = (ftsGroups F (ftsRows hit t)).length := (F.order_perm _).length_eq
  have hsome : ∀ {ε : Type} (E : Env) (R : Rx) (l : List (FtsRow × FtsHit)) (n : Nat), (searchHits E R (l.map fun r => (some r, n)) : Res ε _) =
      searchHits E R (l.map fun r => (some r, 0)) := by
    intro ε E R l n
    induction l with
    | nil => rfl
    | cons a t ih =>
      rw [List.map_cons, List.map_cons]
      unfold searchHits
      rw [ih]
  have hnil : F.order [] = [] := List.Perm.nil_eq (F.order_perm []).symm |>.symm
  unfold ftsPage
  dsimp only
  split
  · next hg =>
    have e : ftsSlice F hit t limit page = [] := by
      unfold ftsSlice ftsRanked
      rw [hg, hnil]
      simp
    rw [e, hnil]
    refine ⟨fun E R => rfl, ?_⟩
    rw [hlen, hg]
    rfl
  · split
    · next hg hs =>
      have e : ftsSlice F hit t limit page = [] := hs
      rw [e, hnil]
      refine ⟨fun E R => rfl, ?_⟩
      rw [hlen]
      rfl
    · next hg hs =>
      refine ⟨fun E R => hsome E R _ _, ?_⟩
      rw [hlen]
      show (((F.order (ftsSlice F hit t limit page)).map fun r => (some r, (ftsGroups F (ftsRows hit t)).length)).head?.map (·.2)).getD 0 = _
      cases ho : F.order (ftsSlice F hit t limit page) with
      | nil =>
        have := (F.order_perm (ftsSlice F hit t limit page)).length_eq
        rw [ho] at this
        exact absurd (List.length_eq_zero_iff.1 this.symm) hs
      | cons a l => rfl

/-- the record made of a row -/
def SearchHit.Of (R : Rx) (h : SearchHit) (x : FtsRow × FtsHit) : Prop := h.said = x.1.said ∧ h.phrase = x.2.snippet ∧ h.score = x.2.rank.natAbs ∧
  h.ScopedIn R x.1 x.2.snippet

theorem searchHits_ok {ε : Type} {E : Env} {R : Rx} (rows : List (FtsRow × FtsHit)) (hv : ∀ x ∈ rows, E.validSaid x.1.said = true)
    (hc : ∀ x ∈ rows, ∃ t, scopeText x.2.snippet = some t ∧ R.compiles (scopePattern t) = true) :
    ∃ hs, (searchHits E R (rows.map fun r => (some r, 0)) : Res ε _) = .ok hs ∧ All2 (SearchHit.Of R) hs rows := by
  induction rows with
  | nil => exact ⟨[], rfl, .nil⟩
  | cons x t ih =>
    obtain ⟨hs, e, hf⟩ := ih (fun y hy => hv y (.tail _ hy)) fun y hy => hc y (.tail _ hy)
    obtain ⟨u, h1, h2⟩ := hc x (.head _)
    rw [List.map_cons]
    unfold searchHits
    have : ∃ sc, (searchHit E R x : Res ε _) = .ok ⟨x.1.said, x.2.snippet, sc, x.2.rank.natAbs⟩ ∧
        SearchHit.ScopedIn R ⟨x.1.said, x.2.snippet, sc, x.2.rank.natAbs⟩ x.1 x.2.snippet := by
      unfold searchHit searchScope
      rw [h1]
      simp only [Res.unwrap_some, Res.bind_ok, if_pos h2, if_pos (hv x (.head _))]
      exact ⟨_, rfl, u, h1, rfl⟩
    obtain ⟨sc, hx, hsc⟩ := this
    rw [hx, Res.bind_ok, e, Res.bind_ok]
    exact ⟨_, rfl, .cons ⟨rfl, rfl, rfl, hsc⟩ hf⟩

theorem records_ok {ε : Type} {E : Env} {S : Serde} {f : Facade} : ∀ {hs : List SearchHit} {rows : List (FtsRow × FtsHit)}
    {bs : List Bundle}, All2 (SearchHit.Of R) hs rows → (f.searchRecords E S (rows.map (·.1.said)) : Res ε _) = .ok bs →
    bs.map (·.said) = rows.map (fun r => some r.1.said) →
    All2 (fun (x : Bundle × SearchHit) y => SearchHit.Of R x.2 y ∧ fetchBundle E S f.cache x.2.said = .ok x.1 ∧ x.1.said = some x.2.said) (bs.zip hs) rows := by
  intro hs rows bs h
  induction h generalizing bs with
  | nil =>
    intro e _
    cases e
    exact .nil
  | @cons a y l l' ha _ ih =>
    intro e hm
    rw [List.map_cons] at e
    unfold Facade.searchRecords at e
    split at e
    · next b hb =>
      obtain ⟨r, hr, e⟩ := Res.bind_eq_ok.1 e
      cases e
      rw [List.map_cons, List.map_cons] at hm
      injection hm with m1 m2
      refine .cons ⟨ha, ?_, ?_⟩ (ih hr m2)
      · rw [ha.1]; exact hb
      · rw [ha.1]; exact m1
    · cases e

theorem Facade.Built.bundle_said_valid {E : Env} {S : Serde} {f : Facade} {l : List Build} (h : f.Built E S l) :
    ∀ b ∈ l, ∀ s, b.bundle.said = some s → E.validSaid s = true := by
  induction h with
  | new => intro b hb; cases hb
  | validated _ _ ih => exact ih
  | built _ hv _ _ ih =>
    intro b hb s hs
    rcases List.mem_append.1 hb with hb | hb
    · exact ih b hb s hs
    · rw [List.mem_singleton.1 hb] at hs
      exact build_said_valid hv hs

/-- what a search gives, row by row -/
theorem search_core {ε : Type} {E : Env} {S : Serde} {F : Fts} {R : Rx} {f : Facade} {l : List Build} (h : f.Built E S l)
    (hb : ∀ b ∈ l, b.Stepped) {lang : Option Str} {q : Str} {limit page : Nat} (hp : page ≠ 0) (hl : limit < 9223372036854775808)
    (hn : (page - 1) * limit < 9223372036854775808) {hit : FtsRow → Option FtsHit} (hq : F.hits (ftsQuery lang q) f.fts = some hit)
    (hc : f.ScopesCompile R hit) :
    ∃ rs, (f.search E S F R lang q limit page : Res ε _) = .ok ⟨rs, (ftsRanked F hit f.fts).length, page⟩ ∧
      All2 (fun (x : Bundle × SearchHit) y => SearchHit.Of R x.2 y ∧ fetchBundle E S f.cache x.2.said = .ok x.1 ∧ x.1.said = some x.2.said) rs
        (F.order (ftsSlice F hit f.fts limit page)) := by
  have hmem : ∀ x ∈ F.order (ftsSlice F hit f.fts limit page), x.1 ∈ f.fts ∧ hit x.1 = some x.2 := by
    intro x hx
    have hx := (F.order_perm _).mem_iff.1 hx
    exact mem_ftsRanked (List.mem_of_mem_drop (List.mem_of_mem_take hx))
  have hval : ∀ r ∈ f.fts, E.validSaid r.said = true := by
    intro r hr
    obtain ⟨b, hbl, hs, -⟩ := (C62_search_index E S f l h).1 r hr
    exact h.bundle_said_valid b hbl r.said hs
  obtain ⟨hs, e1, a1⟩ := searchHits_ok (ε := ε) (E := E) (R := R) (F.order (ftsSlice F hit f.fts limit page))
    (fun x hx => hval x.1 (hmem x hx).1) (fun x hx => hc x.1 (hmem x hx).1 x.2 (hmem x hx).2)
  obtain ⟨bs, e2, a2⟩ := C62_search_records (ε := ε) E S f l h hb ((F.order (ftsSlice F hit f.fts limit page)).map (·.1))
    (fun r hr => by
      obtain ⟨x, hx, rfl⟩ := List.mem_map.1 hr
      exact (hmem x hx).1)
  rw [List.map_map] at e2 a2
  refine ⟨bs.zip hs, ?_, records_ok (ε := ε) a1 e2 a2⟩
  obtain ⟨g1, g2⟩ := ftsPage_eq F hit f.fts limit page
  have hsaid : hs.map (·.said) = (F.order (ftsSlice F hit f.fts limit page)).map (FtsRow.said ∘ fun x => x.1) := by
    clear e1 e2
    generalize F.order (ftsSlice F hit f.fts limit page) = rows at a1
    induction a1 with
    | nil => rfl
    | cons h _ ih => rw [List.map_cons, List.map_cons, ih, h.1]; rfl
  unfold Facade.search ftsSearch
  rw [if_neg (by omega), hq]
  dsimp only
  rw [g1, e1, Res.bind_ok, g2]
  dsimp only [Res.pure_eq]
  rw [Res.bind_ok]
  dsimp only
  rw [hsaid, e2, Res.bind_ok]


/-! ## Pages -/

theorem All2.length {α β : Type} {R : α → β → Prop} {l : List α} {l' : List β} (h : All2 R l l') : l.length = l'.length := by
  induction h with
  | nil => rfl
  | cons _ _ ih => simp [ih]

theorem All2.left {α β : Type} {R : α → β → Prop} {l : List α} {l' : List β} (h : All2 R l l') : ∀ a ∈ l, ∃ b ∈ l', R a b := by
  induction h with
  | nil => intro a ha; cases ha
  | cons hab _ ih =>
    intro a ha
    cases ha with
    | head => exact ⟨_, .head _, hab⟩
    | tail _ ha => obtain ⟨b, hb, e⟩ := ih a ha; exact ⟨b, .tail _ hb, e⟩

theorem All2.append {α β : Type} {R : α → β → Prop} {l m : List α} {l' m' : List β} (h : All2 R l l') (h' : All2 R m m') :
    All2 R (l ++ m) (l' ++ m') := by
  induction h with
  | nil => exact h'
  | cons hab _ ih => exact .cons hab ih

theorem All2.flatMap {α β γ : Type} {R : α → β → Prop} (is : List γ) {g : γ → List α} {g' : γ → List β} (h : ∀ i ∈ is, All2 R (g i) (g' i)) :
    All2 R (is.flatMap g) (is.flatMap g') := by
  induction is with
  | nil => exact .nil
  | cons i t ih =>
    rw [List.flatMap_cons, List.flatMap_cons]
    exact (h i (.head _)).append (ih fun j hj => h j (.tail _ hj))

theorem All2.map_eq {α β γ : Type} {R : α → β → Prop} {l : List α} {l' : List β} (h : All2 R l l') {u : α → γ} {v : β → γ}
    (e : ∀ a b, R a b → u a = v b) : l.map u = l'.map v := by
  induction h with
  | nil => rfl
  | cons hab _ ih => rw [List.map_cons, List.map_cons, e _ _ hab, ih]

theorem All2.pairwise {α β : Type} {R : α → β → Prop} {P : α → α → Prop} {Q : β → β → Prop} {l : List α} {l' : List β} (h : All2 R l l')
    (hq : l'.Pairwise Q) (e : ∀ a b a' b', b ∈ l' → b' ∈ l' → R a b → R a' b' → Q b b' → P a a') : l.Pairwise P := by
  induction h with
  | nil => exact .nil
  | @cons a b m m' hab hm ih =>
    rw [List.pairwise_cons] at hq ⊢
    refine ⟨?_, ih hq.2 fun a b a' b' h1 h2 => e a b a' b' (.tail _ h1) (.tail _ h2)⟩
    intro x hx
    obtain ⟨y, hy, hxy⟩ := hm.left x hx
    exact e a b x y (.head _) (.tail _ hy) hab hxy (hq.1 y hy)

theorem slices_prefix {α : Type} (t : List α) (limit n : Nat) :
    ((List.range n).flatMap fun i => (t.drop (i * limit)).take limit) = t.take (n * limit) := by
  induction n with
  | zero => simp
  | succ n ih =>
    rw [List.range_succ, List.flatMap_append, ih]
    simp only [List.flatMap_cons, List.flatMap_nil, List.append_nil]
    rw [Nat.succ_mul, List.take_add]

/-- slices of a sorted list, each sorted again, are sorted together -/
theorem slices_sorted {F : Fts} (t : List (FtsRow × FtsHit)) (ht : t.Pairwise fun x y => x.2.rank ≤ y.2.rank) (limit n : Nat) :
    ((List.range n).flatMap fun i => F.order ((t.drop (i * limit)).take limit)).Pairwise fun x y => x.2.rank ≤ y.2.rank := by
  induction n with
  | zero => simp
  | succ n ih =>
    rw [List.range_succ, List.flatMap_append]
    simp only [List.flatMap_cons, List.flatMap_nil, List.append_nil]
    refine List.pairwise_append.2 ⟨ih, F.order_sorted _, ?_⟩
    intro x hx y hy
    have hy := List.mem_of_mem_take ((F.order_perm _).mem_iff.1 hy)
    have hx : x ∈ t.take (n * limit) := by
      rw [← slices_prefix]
      obtain ⟨i, hi, hx⟩ := List.mem_flatMap.1 hx
      exact List.mem_flatMap.2 ⟨i, hi, (F.order_perm _).mem_iff.1 hx⟩
    have := ht
    rw [← List.take_append_drop (n * limit) t] at this
    exact (List.pairwise_append.1 this).2.2 x hx y hy

/-- **C67** Whatever the index matches, and whatever SQLite chooses between rows it does not order: page `i + 1` of a search gives
`limit` of the records, the last ones fewer; every page gives the number of bundles that match; the pages together, when they have room for
that many, hold each bundle that matches once and no other; every record is the bundle kept under its identifier; and the scores do not grow
along the pages. -/
theorem C67_pages {ε : Type} (E : Env) (S : Serde) (F : Fts) (R : Rx) (f : Facade) (l : List Build) (h : f.Built E S l)
    (hb : ∀ b ∈ l, b.Stepped) (lang : Option Str) (q : Str) (limit n : Nat) (hl : limit < 9223372036854775808)
    (hn : n * limit < 9223372036854775808) (hit : FtsRow → Option FtsHit) (hq : F.hits (ftsQuery lang q) f.fts = some hit)
    (hc : f.ScopesCompile R hit) :
    ∃ pages total, f.FindsCount hit total ∧
      (∀ i < n, (f.search E S F R lang q limit (i + 1) : Res ε _) = .ok ⟨pages i, total, i + 1⟩ ∧
        (pages i).length = min limit (total - i * limit)) ∧
      (∀ i < n, ∀ x ∈ pages i, SearchHit.About E S R f l hit x) ∧
      (((List.range n).flatMap pages).map (·.2.said)).Nodup ∧
      (total ≤ n * limit → ∀ s, s ∈ ((List.range n).flatMap pages).map (·.2.said) ↔ f.Finds hit s) ∧
      ((∀ r ∈ f.fts, ∀ x, hit r = some x → x.rank ≤ 0) →
        (((List.range n).flatMap pages).map (·.2.score)).Pairwise fun a b => b ≤ a) := by
  have core : ∀ i, i < n → ∃ rs, (f.search E S F R lang q limit (i + 1) : Res ε _) = .ok ⟨rs, (ftsRanked F hit f.fts).length, i + 1⟩ ∧
      All2 (fun (x : Bundle × SearchHit) y => SearchHit.Of R x.2 y ∧ fetchBundle E S f.cache x.2.said = .ok x.1 ∧ x.1.said = some x.2.said) rs
        (F.order (ftsSlice F hit f.fts limit (i + 1))) := fun i hi =>
    search_core h hb (by omega) hl (Nat.lt_of_le_of_lt (Nat.mul_le_mul_right limit (by omega)) hn) hq hc
  let pages : Nat → List (Bundle × SearchHit) := fun i => if hi : i < n then (core i hi).choose else []
  have hpages : ∀ i, i < n → (f.search E S F R lang q limit (i + 1) : Res ε _) = .ok ⟨pages i, (ftsRanked F hit f.fts).length, i + 1⟩ ∧
      All2 (fun (x : Bundle × SearchHit) y => SearchHit.Of R x.2 y ∧ fetchBundle E S f.cache x.2.said = .ok x.1 ∧ x.1.said = some x.2.said) (pages i)
        (F.order (ftsSlice F hit f.fts limit (i + 1))) := by
    intro i hi
    show (f.search E S F R lang q limit (i + 1) : Res ε _) = .ok ⟨dite _ _ _, _, _⟩ ∧ All2 _ (dite _ _ _) _
    rw [dif_pos hi]
    exact (core i hi).choose_spec
  have hall := All2.flatMap (List.range n) fun i hi => (hpages i (List.mem_range.1 hi)).2
  have hperm : ((List.range n).flatMap fun i => F.order (ftsSlice F hit f.fts limit (i + 1))).Perm ((ftsRanked F hit f.fts).take (n * limit)) := by
    rw [← slices_prefix]
    exact flatMap_perm _ _ _ fun i _ => F.order_perm _
  have hsaids := hall.map_eq (u := fun x => x.2.said) (v := fun y => y.1.said) fun a b hab => hab.1.1
  have hrank := ftsRanked_saids F hit f.fts
  have hrn : ((ftsRanked F hit f.fts).map (·.1.said)).Nodup := hrank.nodup_iff.2 (nodup_eraseDups _)
  refine ⟨pages, (ftsRanked F hit f.fts).length, ⟨ftsSaids (ftsRows hit f.fts), nodup_eraseDups _, fun s => mem_ftsSaids, ?_⟩, ?_, ?_, ?_, ?_, ?_⟩
  · rw [← hrank.length_eq, List.length_map]
  · intro i hi
    refine ⟨(hpages i hi).1, ?_⟩
    rw [(hpages i hi).2.length, (F.order_perm _).length_eq]
    unfold ftsSlice
    rw [List.length_take, List.length_drop]
    rfl
  · intro i hi x hx
    obtain ⟨y, hy, h1, h2, h3⟩ := (hpages i hi).2.left x hx
    have hy := mem_ftsRanked (List.mem_of_mem_drop (List.mem_of_mem_take ((F.order_perm _).mem_iff.1 hy)))
    exact ⟨h2, h3, y.1, hy.1, h1.1.symm, (C62_search_index E S f l h).1 y.1 hy.1, y.2, hy.2, h1.2.1, h1.2.2.1, h1.2.2.2⟩
  · rw [hsaids, (hperm.map _).nodup_iff, List.map_take]
    exact hrn.sublist (List.take_sublist _ _)
  · intro hle s
    rw [hsaids, (hperm.map _).mem_iff, List.take_of_length_le hle, hrank.mem_iff]
    exact mem_ftsSaids
  · intro hneg
    rw [List.pairwise_map]
    refine hall.pairwise (slices_sorted _ (F.order_sorted _) limit n) ?_
    intro a b a' b' mb mb' hab hab' hr
    have hs : ∀ y ∈ (List.range n).flatMap (fun i => F.order (ftsSlice F hit f.fts limit (i + 1))), y.2.rank ≤ 0 := by
      intro y hy
      have hy := mem_ftsRanked (List.mem_of_mem_take (hperm.mem_iff.1 hy))
      exact hneg _ hy.1 _ hy.2
    rw [hab.1.2.2.1, hab'.1.2.2.1]
    have := hs b mb
    have := hs b' mb'
    omega

/-! ## What is not a result -/

/-- **C67** Page 0, a query FTS5 does not take: an abort, whatever is stored. -/
theorem C67_aborts {ε : Type} (E : Env) (S : Serde) (F : Fts) (R : Rx) (f : Facade) (lang : Option Str) (q : Str) (limit page : Nat)
    (h : page = 0 ∨ F.hits (ftsQuery lang q) f.fts = none) : (f.search E S F R lang q limit page : Res ε _) = .panic := by
  unfold Facade.search ftsSearch
  rcases h with h | h
  · rw [if_pos (.inl h)]; rfl
  · split
    · rfl
    · rw [h]; rfl

/-- a snippet that does not make a regular expression aborts the whole search -/
theorem searchHits_panics {ε : Type} {E : Env} {R : Rx} {rows : List (Option (FtsRow × FtsHit) × Nat)} {r : FtsRow × FtsHit} {k : Nat}
    (hr : (some r, k) ∈ rows) (h : (searchScope R r.1 r.2.snippet : Res ε _) = .panic) : (searchHits E R rows : Res ε _) = .panic := by
  induction rows with
  | nil => cases hr
  | cons a t ih =>
    cases a with
    | mk o n =>
    cases o with
    | none =>
      unfold searchHits
      cases hr with
      | tail _ hr => exact ih hr
    | some x =>
      unfold searchHits
      cases hr with
      | head =>
        unfold searchHit
        rw [h]; rfl
      | tail _ hr =>
        rw [ih hr]
        cases hx : (searchHit E R x : Res ε _) with
        | ok v => rfl
        | panic => rfl
        | err e =>
          exfalso
          unfold searchHit searchScope at hx
          cases ht : scopeText x.2.snippet with
          | none => rw [ht] at hx; cases hx
          | some t =>
            rw [ht] at hx
            simp only [Res.unwrap_some, Res.bind_ok] at hx
            by_cases h1 : R.compiles (scopePattern t) = true
            · rw [if_pos h1, Res.bind_ok] at hx
              split at hx <;> cases hx
            · rw [if_neg h1] at hx; cases hx


theorem searchHits_noErr {ε : Type} (E : Env) (R : Rx) (rows : List (Option (FtsRow × FtsHit) × Nat)) :
    (searchHits E R rows : Res ε _) = .panic ∨ ∃ hs, (searchHits E R rows : Res ε _) = .ok hs ∧
      ∀ r k, (some r, k) ∈ rows → ∃ h ∈ hs, h.said = r.1.said := by
  induction rows with
  | nil => exact .inr ⟨[], rfl, fun r k h => by cases h⟩
  | cons a t ih =>
    cases a with
    | mk o n =>
    cases o with
    | none =>
      unfold searchHits
      rcases ih with ih | ⟨hs, e, ih⟩
      · exact .inl ih
      · refine .inr ⟨hs, e, fun r k h => ?_⟩
        cases h with
        | tail _ h => exact ih r k h
    | some x =>
      have hx : (searchHit E R x : Res ε _) = .panic ∨ ∃ h : SearchHit, (searchHit E R x : Res ε _) = .ok h ∧ h.said = x.1.said := by
        unfold searchHit searchScope
        cases scopeText x.2.snippet with
        | none => exact .inl rfl
        | some u =>
          simp only [Res.unwrap_some, Res.bind_ok]
          by_cases h1 : R.compiles (scopePattern u) = true
          · rw [if_pos h1, Res.bind_ok]
            split
            · exact .inr ⟨_, rfl, rfl⟩
            · exact .inl rfl
          · rw [if_neg h1]; exact .inl rfl
      unfold searchHits
      rcases hx with hx | ⟨h, hx, hs⟩
      · left; rw [hx]; rfl
      · rw [hx, Res.bind_ok]
        rcases ih with ih | ⟨l, e, ih⟩
        · left; rw [ih]; rfl
        · right
          rw [e, Res.bind_ok]
          refine ⟨h :: l, rfl, fun r k hr => ?_⟩
          cases hr with
          | head => exact ⟨h, .head _, hs⟩
          | tail _ hr => obtain ⟨h', m, e'⟩ := ih r k hr; exact ⟨h', .tail _ m, e'⟩

theorem searchRecords_lost {ε : Type} {E : Env} {S : Serde} {f : Facade} {s : Said} (hf : ∀ b, fetchBundle E S f.cache s ≠ .ok b) :
    ∀ {l : List Said}, s ∈ l → (f.searchRecords E S l : Res ε _) = .panic := by
  have noErr : ∀ l : List Said, (f.searchRecords E S l : Res ε _) = .panic ∨ ∃ bs, (f.searchRecords E S l : Res ε _) = .ok bs := by
    intro l
    induction l with
    | nil => exact .inr ⟨[], rfl⟩
    | cons a t ih =>
      unfold Facade.searchRecords
      split
      · rcases ih with ih | ⟨bs, ih⟩
        · rw [ih]; exact .inl rfl
        · rw [ih]; exact .inr ⟨_, rfl⟩
      · exact .inl rfl
  intro l
  induction l with
  | nil => intro h; cases h
  | cons a t ih =>
    intro h
    unfold Facade.searchRecords
    split
    · next b hb =>
      cases h with
      | head => exact absurd hb (hf b)
      | tail _ h => rw [ih h]; rfl
    · rfl

/-- **C67** One bundle that matches is enough to abort a search: when its snippets do not make regular expressions (they are put into one as
they are: a name with a lone bracket), or when the bundle is not kept under its identifier - as after a process was killed while it was stored. However the
search is paged, the page where it would be aborts. -/
theorem C67_one_aborts {ε : Type} (E : Env) (S : Serde) (F : Fts) (R : Rx) (f : Facade) (lang : Option Str) (q : Str) (limit n total : Nat)
    (hit : FtsRow → Option FtsHit) (hq : F.hits (ftsQuery lang q) f.fts = some hit) (ht : f.FindsCount hit total) (hroom : total ≤ n * limit)
    (s : Said) (hs : f.Finds hit s)
    (bad : (∀ r ∈ f.fts, r.said = s → ∀ h, hit r = some h → ∀ t, scopeText h.snippet = some t → R.compiles (scopePattern t) = false) ∨
      ∀ b, fetchBundle E S f.cache s ≠ .ok b) :
    ∃ i < n, (f.search E S F R lang q limit (i + 1) : Res ε _) = .panic := by
  have hrank := ftsRanked_saids F hit f.fts
  have hlen : (ftsRanked F hit f.fts).length = total := by
    obtain ⟨l, h1, h2, h3⟩ := ht
    rw [← h3, ← List.length_map (·.1.said), hrank.length_eq]
    refine List.Perm.length_eq (perm_of_nodup (nodup_eraseDups _) h1 fun s => ?_)
    rw [h2]
    exact mem_ftsSaids
  have hm : s ∈ (ftsRanked F hit f.fts).map (·.1.said) := hrank.mem_iff.2 (mem_ftsSaids.2 hs)
  obtain ⟨x, hx, hxs⟩ := List.mem_map.1 hm
  have hx' := hx
  rw [← List.take_of_length_le (hlen ▸ hroom : (ftsRanked F hit f.fts).length ≤ n * limit), ← slices_prefix] at hx'
  obtain ⟨i, hi, hxi⟩ := List.mem_flatMap.1 hx'
  refine ⟨i, List.mem_range.1 hi, ?_⟩
  have hxi : x ∈ ftsSlice F hit f.fts limit (i + 1) := hxi
  obtain ⟨g1, g2⟩ := ftsPage_eq F hit f.fts limit (i + 1)
  have hmem : (some x, 0) ∈ (F.order (ftsSlice F hit f.fts limit (i + 1))).map fun r => (some r, 0) :=
    List.mem_map.2 ⟨x, (F.order_perm _).mem_iff.2 hxi, rfl⟩
  unfold Facade.search ftsSearch
  split
  · rfl
  · rw [hq]
    dsimp only
    rw [g1]
    rcases bad with bad | bad
    · have : (searchScope R x.1 x.2.snippet : Res ε _) = .panic := by
        unfold searchScope
        cases hsc : scopeText x.2.snippet with
        | none => rfl
        | some t =>
          simp only [Res.unwrap_some, Res.bind_ok]
          rw [if_neg]
          obtain ⟨m1, m2⟩ := mem_ftsRanked hx
          rw [bad x.1 m1 hxs x.2 m2 t hsc]
          simp
      rw [searchHits_panics hmem this]
      rfl
    · rcases searchHits_noErr (ε := ε) E R ((F.order (ftsSlice F hit f.fts limit (i + 1))).map fun r => (some r, 0)) with e | ⟨hs', e, he⟩
      · rw [e]; rfl
      · rw [e, Res.bind_ok]
        dsimp only [Res.pure_eq]
        rw [Res.bind_ok]
        dsimp only
        obtain ⟨h, m, e'⟩ := he x 0 hmem
        rw [searchRecords_lost bad (List.mem_map.2 ⟨h, m, e'.trans hxs⟩)]
        rfl

end OCA
