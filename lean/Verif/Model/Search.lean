import Verif.Model.Fetch
/-!
# Searching (`oca/src/repositories/oca_bundle_fts_repo.rs:73-242`, `oca/src/facade/fetch.rs:91-124`)

What matches a query, its rank and its snippet are SQLite's (FTS5); they are a parameter (`Fts`), as is the regex crate (`Rx`). What the code
makes of them - the text of the query, the pages, the total, the scope, the bundles - is modelled.
-/
namespace OCA

/-- what FTS5 tells of a row that matches: `bm25` (the lower, the better) and `snippet`. (Ranks are floats; only their order and their
absolute value are used.) -/
structure FtsHit where
  rank : Int
  snippet : Str
deriving DecidableEq, Repr

/-- FTS5, and what the query leaves to SQLite. -/
structure Fts where
  /-- the rows of the table a query matches; `none`: the query is not one of FTS5 -/
  hits : Str → List FtsRow → Option (FtsRow → Option FtsHit)
  /-- the row of a group whose columns are given (they are bare columns of a GROUP BY) -/
  pick : FtsRow × FtsHit → List (FtsRow × FtsHit) → FtsRow × FtsHit
  pick_mem : ∀ x l, pick x l ∈ x :: l
  /-- ORDER BY rank; the order of rows with the same rank is open -/
  order : List (FtsRow × FtsHit) → List (FtsRow × FtsHit)
  order_perm : ∀ l, (order l).Perm l
  order_sorted : ∀ l, (order l).Pairwise fun x y => x.2.rank ≤ y.2.rank

/-- the regex crate: whether a pattern compiles, and the first group of its first match in a text -/
structure Rx where
  compiles : Str → Bool
  first : Str → Str → Option Str

/-- the text of the query (`oca_bundle_fts_repo.rs:81-87`); the language is given as its three letter code -/
def ftsQuery (lang : Option Str) (q : Str) : Str := match lang with
  | some l => c!"({name description}:" ++ q ++ c!" AND language_code:" ++ l ++ c!") OR ({name description}:" ++ q ++
      c!" NOT language_code:" ++ l ++ c!")"
  | none => c!"{name description}:" ++ q

/-- `str::split`: the parts between the occurrences of a pattern that is not empty -/
def splitStr (pat : Str) (s : Str) : List Str := go s.length s []
where
  go : Nat → Str → Str → List Str
    | 0, _, acc => [acc.reverse]
    | _ + 1, [], acc => [acc.reverse]
    | n + 1, c :: t, acc => match stripPrefix pat (c :: t) with
      | some r => acc.reverse :: go n r []
      | none => go n t (c :: acc)

/-- `str::replace` with the empty text -/
def removeStr (pat : Str) (s : Str) : Str := (splitStr pat s).flatten

/-- `join("...")` -/
def joinDots : List Str → Str
  | [] => []
  | [x] => x
  | x :: t => x ++ c!"..." ++ joinDots t

/-- The text made of a snippet by `get_scope` (`oca_bundle_fts_repo.rs:132-149`). `none`: `v.last().unwrap()` of an empty vector. -/
def scopeText (snippet : Str) : Option Str :=
  let v := splitStr c!"..." (removeStr c!"</mark>" (removeStr c!"<mark>" snippet))
  let v := match v with
    | [] :: x :: t => (c!".*" ++ x) :: t
    | [[]] => []
    | v => v
  match v.getLast? with
  | none => none
  | some [] => match v.dropLast.getLast? with
    | some y => some (joinDots (v.dropLast.dropLast ++ [y ++ c!".*"]))
    | none => some []
  | some _ => some (joinDots v)

/-- the pattern of `get_scope` (`oca_bundle_fts_repo.rs:150`); the snippet's text is not escaped -/
def scopePattern (t : Str) : Str := c!"(?m)^([^:]+):" ++ t ++ c!"$"

/-- `Record::get_scope` (`oca_bundle_fts_repo.rs:131-164`): aborts when the pattern does not compile. (`(?m)` and the newlines are as in the code.) -/
def searchScope {ε : Type} (R : Rx) (r : FtsRow) (snippet : Str) : Res ε Str := do
  let t ← Res.unwrap (scopeText snippet)
  if R.compiles (scopePattern t) then
    .ok ((R.first (scopePattern t) (c!"meta_overlay:" ++ r.name ++ c!"\nmeta_overlay:" ++ r.description ++ c!"\n")).getD [])
  else .panic

/-- the rows that match -/
def ftsRows (hit : FtsRow → Option FtsHit) (t : List FtsRow) : List (FtsRow × FtsHit) :=
  t.filterMap fun r => (hit r).map fun h => (r, h)

/-- the identifiers of some rows, each once -/
def ftsSaids (rows : List (FtsRow × FtsHit)) : List Said := (rows.map (·.1.said)).eraseDups

/-- `GROUP BY oca_bundle_said` -/
def ftsGroups (F : Fts) (rows : List (FtsRow × FtsHit)) : List (FtsRow × FtsHit) :=
  (ftsSaids rows).filterMap fun s => match rows.filter (fun r => decide (r.1.said = s)) with
    | [] => none
    | x :: l => some (F.pick x l)

/-- The SQL of `search` (`oca_bundle_fts_repo.rs:89-119`): the rows of a page with the total; `none` is the row of NULLs that a LEFT JOIN
gives for a page without rows when there are matches. -/
def ftsPage (F : Fts) (hit : FtsRow → Option FtsHit) (t : List FtsRow) (limit page : Nat) : List (Option (FtsRow × FtsHit) × Nat) :=
  let gs := ftsGroups F (ftsRows hit t)
  let rows := ((F.order gs).drop ((page - 1) * limit)).take limit
  if gs = [] then [] else if rows = [] then [(none, gs.length)] else (F.order rows).map fun r => (some r, gs.length)

/-- a record of the result (`oca_bundle_fts_repo.rs:225-236`, `fetch.rs:103-115`) -/
structure SearchHit where
  said : Said
  phrase : Str
  scope : Str
  score : Nat
deriving DecidableEq, Repr

/-- a row of the result (`oca_bundle_fts_repo.rs:189-210`) -/
def searchHit {ε : Type} (E : Env) (R : Rx) (r : FtsRow × FtsHit) : Res ε SearchHit := do
  let sc ← searchScope R r.1 r.2.snippet
  if E.validSaid r.1.said then .ok ⟨r.1.said, r.2.snippet, sc, r.2.rank.natAbs⟩ else .panic

/-- the rows of the result, one after the other -/
def searchHits {ε : Type} (E : Env) (R : Rx) : List (Option (FtsRow × FtsHit) × Nat) → Res ε (List SearchHit)
  | [] => .ok []
  | (none, _) :: t => searchHits E R t
  | (some r, _) :: t => do
    let h ← searchHit E R r
    let l ← searchHits E R t
    pure (h :: l)

/-- `OCABundleFTSRepo::search` (`oca_bundle_fts_repo.rs:73-216`): the records and the total. Aborts for page 0 (an underflow), for numbers that
do not fit SQLite's integers (as `fetchPage`), and for a query FTS5 does not take. -/
def ftsSearch {ε : Type} (E : Env) (F : Fts) (R : Rx) (t : List FtsRow) (lang : Option Str) (q : Str) (limit page : Nat) :
    Res ε (List SearchHit × Nat) :=
  if page = 0 ∨ 9223372036854775808 ≤ limit ∨ 9223372036854775808 ≤ (page - 1) * limit then .panic else
  match F.hits (ftsQuery lang q) t with
  | none => .panic
  | some hit => do
    let rows := ftsPage F hit t limit page
    let l ← searchHits E R rows
    pure (l, (rows.head?.map (·.2)).getD 0)

/-- what a search gives: bundles, each with what was found, the total and the page -/
structure SearchResult where
  records : List (Bundle × SearchHit)
  total : Nat
  page : Nat

/-- `Facade::search_oca_bundle` (`facade/fetch.rs:91-124`) -/
def Facade.search {ε : Type} (E : Env) (S : Serde) (F : Fts) (R : Rx) (f : Facade) (lang : Option Str) (q : Str) (limit page : Nat) :
    Res ε SearchResult := do
  let r ← ftsSearch E F R f.fts lang q limit page
  let bs ← f.searchRecords E S (r.1.map (·.said))
  pure ⟨bs.zip r.1, r.2, page⟩

end OCA
