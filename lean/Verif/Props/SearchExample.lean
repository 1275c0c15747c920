import Verif.Props.Search
import Verif.Props.CrashPoints
import Verif.Props.CrashExample
import Verif.Props.ObjectsExample
/-!
# C67 on a concrete facade
-/
namespace OCA

/-- a text in another -/
def hasPart (p : Str) : Str → Bool
  | [] => p.isEmpty
  | c :: t => (stripPrefix p (c :: t)).isSome || hasPart p t

/-- putting a row in its place -/
def insRank (x : FtsRow × FtsHit) : List (FtsRow × FtsHit) → List (FtsRow × FtsHit)
  | [] => [x]
  | y :: t => if x.2.rank ≤ y.2.rank then x :: y :: t else y :: insRank x t

theorem insRank_perm (x : FtsRow × FtsHit) (l : List (FtsRow × FtsHit)) : (insRank x l).Perm (x :: l) := by
  induction l with
  | nil => exact .refl _
  | cons y t ih =>
    unfold insRank
    split
    · exact .refl _
    · exact (ih.cons y).trans (.swap _ _ _)

theorem insRank_sorted (x : FtsRow × FtsHit) (l : List (FtsRow × FtsHit)) (h : l.Pairwise fun x y => x.2.rank ≤ y.2.rank) :
    (insRank x l).Pairwise fun x y => x.2.rank ≤ y.2.rank := by
  induction l with
  | nil => exact List.pairwise_singleton _ _
  | cons y t ih =>
    obtain ⟨h1, h2⟩ := List.pairwise_cons.1 h
    unfold insRank
    split
    · next hle =>
      refine List.pairwise_cons.2 ⟨?_, h⟩
      intro z hz
      rcases List.mem_cons.1 hz with e | hz
      · rw [e]; exact hle
      · have := h1 z hz; omega
    · next hle =>
      refine List.pairwise_cons.2 ⟨?_, ih h2⟩
      intro z hz
      rcases List.mem_cons.1 ((insRank_perm x t).mem_iff.1 hz) with e | hz
      · rw [e]; omega
      · exact h1 z hz

/-- An index: a row matches when its name has the text of the query as a part; shorter names come first. A quote left open is not a query. -/
def Fts.plain : Fts where
  hits q _ := if q.count '"' % 2 = 1 then none else
    some fun r => if hasPart (removeStr c!"{name description}:" q) r.name then some ⟨(r.name.length : Int) - 1000, r.name⟩ else none
  pick x _ := x
  pick_mem x l := .head _
  order l := l.foldr insRank []
  order_perm l := by
    induction l with
    | nil => exact .refl _
    | cons x t ih => exact (insRank_perm x _).trans (ih.cons x)
  order_sorted l := by
    induction l with
    | nil => exact .nil
    | cons x t ih => exact insRank_sorted x _ ih

/-- patterns: brackets have to match -/
def Rx.plain : Rx where
  compiles p := p.count '(' == p.count ')'
  first _ _ := some c!"meta_overlay"

/-- two files, the first with a name in two languages -/
def searchFiles : List (List Command) :=
  [[addAttrs [(c!"a", .val .text)], addOv .metaOv [(c!"lang", .val c!"en"), (c!"name", .val c!"Person")] [],
    addOv .metaOv [(c!"lang", .val c!"fr"), (c!"name", .val c!"Personne")] []],
   [addAttrs [(c!"b", .val .text)], addOv .metaOv [(c!"lang", .val c!"en"), (c!"name", .val c!"A Person")] []]]

def searchRun : Option (Facade × Build × Build) :=
  match Facade.new.validate Env.tight Serde.text (fun _ => Order.sorted) (fileOf (searchFiles.head?.getD [])) with
  | .ok (f1, b1) => match (f1.build Env.tight Serde.text .kept b1 : Res (List VErr) _) with
    | .ok f2 => match f2.validate Env.tight Serde.text (fun _ => Order.sorted) (fileOf (searchFiles.getLast?.getD [])) with
      | .ok (f3, b2) => match (f3.build Env.tight Serde.text .kept b2 : Res (List VErr) _) with
        | .ok f4 => some (f4, b1, b2)
        | _ => none
      | _ => none
    | _ => none
  | _ => none

/-- what the example needs of one of the builds -/
def searchCheck (b : Build) : Bool :=
  b.steps.all (fun st => keepB Env.tight st.command) && decide (b.steps.getLast?.map (·.result) = some b.bundle)

/-- a page as identifiers, total and page -/
def searchShown (f : Facade) (q : Str) (limit page : Nat) : Option (List (Said × Str × Nat) × Nat × Nat) :=
  match (f.search Env.tight Serde.text Fts.plain Rx.plain none q limit page : Res Unit _) with
  | .ok r => some (r.records.map (fun x => (x.2.said, x.2.phrase, x.2.score)), r.total, r.page)
  | _ => none

/-- **C67** When a process is killed between the writing of the search index and that of the bundles, a search that matches the bundle aborts on the
page where it would be, until the file is stored again: whatever index, query and page size. -/
theorem C67_killed {ε : Type} (E : Env) (S : Serde) (O : SetOrder) (f f' : Facade) (b : Build) (h : (f.build E S O b : Res Str Facade) = .ok f')
    (s : Said) (hs : b.bundle.said = some s) (hnew : fetchBundle E S f.cache s = .err [c!"No OCA Bundle found for said: " ++ s])
    (hm : ∃ o ∈ b.bundle.overlays, o.body.kind = .metaOv) :
    ∃ k, (∃ r : FtsRow, r ∈ (f.killed (f.buildWrites E S O b) k).fts ∧ r.said = s) ∧
      ∀ (F : Fts) (R : Rx) lang q limit n total hit, F.hits (ftsQuery lang q) (f.killed (f.buildWrites E S O b) k).fts = some hit →
        (f.killed (f.buildWrites E S O b) k).FindsCount hit total → total ≤ n * limit → (f.killed (f.buildWrites E S O b) k).Finds hit s →
        ∃ i < n, ((f.killed (f.buildWrites E S O b) k).search E S F R lang q limit (i + 1) : Res ε _) = .panic := by
  obtain ⟨k, h1, h2⟩ := C66_search_aborts (ε := ε) h s hs hnew hm
  refine ⟨k, h1, ?_⟩
  intro F R lang q limit n total hit hq ht hroom hf
  refine C67_one_aborts E S F R _ lang q limit n total hit hq ht hroom s hf (.inr fun x hx => ?_)
  unfold Facade.searchRecords at h2
  rw [hx] at h2
  cases h2

/-! ## Examples -/

theorem Fts.plain_scopes (f : Facade) (q : Str) (hit : FtsRow → Option FtsHit) (hq : Fts.plain.hits q f.fts = some hit)
    (hc : (f.fts.all fun r => match scopeText r.name with | some t => Rx.plain.compiles (scopePattern t) | none => false) = true) :
    f.ScopesCompile Rx.plain hit ∧ ∀ r ∈ f.fts, ∀ h, hit r = some h → h.rank = (r.name.length : Int) - 1000 := by
  have key : ∀ r h, hit r = some h → h = ⟨(r.name.length : Int) - 1000, r.name⟩ := by
    intro r h e
    unfold Fts.plain at hq
    dsimp only at hq
    split at hq
    · cases hq
    · cases hq
      dsimp only at e
      split at e
      · cases e; rfl
      · cases e
  constructor
  · intro r hr h e
    rw [key r h e]
    have := List.all_eq_true.1 hc r hr
    dsimp only at this ⊢
    split at this
    · next t ht => exact ⟨t, ht, this⟩
    · cases this
  · intro r hr h e
    rw [key r h e]

/-- what the pages of the example look like -/
def searchPages (f : Facade) (b1 b2 : Build) : Bool :=
  searchCheck b1 && searchCheck b2 && decide (f.fts.length = 3) &&
  (f.fts.all fun r => match scopeText r.name with | some t => Rx.plain.compiles (scopePattern t) | none => false) &&
  f.fts.all (fun r => decide (r.name.length ≤ 1000)) &&
  decide ((searchShown f c!"Person" 1 1).map (fun p => (p.1.map (·.2), p.2)) = some ([(c!"Person", 994)], 2, 1)) &&
  decide ((searchShown f c!"Person" 1 2).map (fun p => (p.1.map (·.2), p.2)) = some ([(c!"A Person", 992)], 2, 2)) &&
  decide ((searchShown f c!"Person" 1 3).map (fun p => (p.1.map (·.2), p.2)) = some ([], 2, 3)) &&
  decide (searchShown f c!"Person" 1 0 = none) && decide (searchShown f c!"\"Person" 1 1 = none)

set_option maxRecDepth 20000 in
theorem searchRun_ok : (match searchRun with | some (f, b1, b2) => searchPages f b1 b2 | none => false) = true := by decide +kernel

/-- **C67**, a concrete case: two bundles, one with a name in two languages, three rows in the index. What `C67_pages` asks for holds, and the
pages are what it says. -/
theorem C67_example : ∃ (f : Facade) (b1 b2 : Build) (hit : FtsRow → Option FtsHit), f.Built Env.tight Serde.text [b1, b2] ∧
    (∀ b ∈ [b1, b2], b.Stepped) ∧ Fts.plain.hits (ftsQuery none c!"Person") f.fts = some hit ∧ f.ScopesCompile Rx.plain hit ∧
    (∀ r ∈ f.fts, ∀ x, hit r = some x → x.rank ≤ 0) ∧ f.fts.length = 3 ∧
    (searchShown f c!"Person" 1 1).map (fun p => (p.1.map (·.2), p.2)) = some ([(c!"Person", 994)], 2, 1) ∧
    (searchShown f c!"Person" 1 2).map (fun p => (p.1.map (·.2), p.2)) = some ([(c!"A Person", 992)], 2, 2) ∧
    (searchShown f c!"Person" 1 3).map (fun p => (p.1.map (·.2), p.2)) = some ([], 2, 3) := by
  have h := searchRun_ok
  split at h
  · next f b1 b2 e =>
    unfold searchRun at e
    split at e
    · next f1 c1 h1 =>
      split at e
      · next f2 h2 =>
        split at e
        · next f3 c2 h3 =>
          split at e
          · next f4 h4 =>
            cases e
            simp only [searchPages, searchCheck, Bool.and_eq_true, List.all_eq_true, decide_eq_true_eq] at h
            obtain ⟨⟨⟨⟨⟨⟨⟨⟨⟨⟨s1, s2⟩, s3, s4⟩, k3⟩, k4⟩, k5⟩, k6⟩, k7⟩, k8⟩, -⟩, -⟩ := h
            have hB1 := Facade.Built.built (.new (E := Env.tight) (S := Serde.text)) h1 (fun st hst => keepB_sound (s1 st hst)) h2
            have hB2 := Facade.Built.built hB1 h3 (fun st hst => keepB_sound (s3 st hst)) h4
            have step : ∀ b : Build, b.steps.getLast?.map (·.result) = some b.bundle → b.Stepped := by
              intro b hb
              obtain ⟨st, hl, hle⟩ := Option.map_eq_some_iff.1 hb
              exact ⟨st, List.mem_of_getLast? hl, by rw [hle]⟩
            cases hq : Fts.plain.hits (ftsQuery none c!"Person") f.fts with
            | none => cases hq
            | some hit =>
              obtain ⟨p1, p2⟩ := Fts.plain_scopes f _ hit hq (List.all_eq_true.2 k4)
              refine ⟨f, b1, b2, hit, hB2, ?_, hq, p1, ?_, k3, k6, k7, k8⟩
              · intro b hb
                rcases List.mem_cons.1 hb with e | hb
                · rw [e]; exact step _ s2
                · rw [List.mem_singleton.1 hb]; exact step _ s4
              · intro r hr x hx
                rw [p2 r hr x hx]
                have := k5 r hr
                omega
          · cases e
        · cases e
      · cases e
    · cases e
  · cases h

/-- **C67** A name with a bracket that is not closed: the snippet is the name, the pattern made of it is not one, and the search aborts. -/
theorem C67_bracket_example : scopeText c!"<mark>Form</mark> (draft" = some c!"Form (draft" ∧
    scopePattern c!"Form (draft" = c!"(?m)^([^:]+):Form (draft$" ∧ Rx.plain.compiles (scopePattern c!"Form (draft") = false ∧
    scopeText c!"...of a <mark>form</mark>..." = some c!".*of a form.*" ∧ scopeText [] = none := by decide +kernel

end OCA
