import Verif.Model.Dag
import Verif.Model.Explore
import Verif.Model.AstValidator
/-!
# The facade (`oca/src/facade`, `oca/src/local_references.rs`, `oca/src/repositories`)

With the feature `local-references`. The storages are the ones of `Verif.Model.Storage` (in memory; sled behaves the same,
see C35). SQLite tables are lists of rows in the order of insertion (row id).
-/
namespace OCA

/-! ## Tables -/

/-- `oca_bundle_cache`, `capture_base_cache`: SAID (primary key) and JSON text -/
abbrev Table := List (Said × Str)

/-- `OCABundleCacheRepo::insert` (`oca_bundle_cache_repo.rs:45-52`), `CaptureBaseCacheRepo::insert`: a row whose SAID is
already there violates the primary key, and the error is ignored. -/
def Table.insertRow (t : Table) (s : Said) (v : Str) : Table :=
  if t.any (fun r => r.1 = s) then t else t ++ [(s, v)]

/-- A row of `oca_bundle_fts` (`oca_bundle_fts_repo.rs:7-13`). -/
structure FtsRow where
  name : Str
  description : Str
  lang : Lang
  said : Said
deriving DecidableEq, Repr

/-- `OCABundleFTSRepo::insert` (`oca_bundle_fts_repo.rs:51-71`): the row id of a row with the same SAID and language is
reused, which violates its uniqueness; the error is ignored. -/
def insertFts (t : List FtsRow) (r : FtsRow) : List FtsRow :=
  if t.any (fun x => x.said = r.said && x.lang = r.lang) then t else t ++ [r]

/-! ## State -/

/-- `Facade` (`facade/mod.rs:36-40`) with the tables behind `connection` -/
structure Facade where
  db : Store
  cache : Store
  bundles : Table
  bases : Table
  fts : List FtsRow

/-- `Facade::new` (`facade/mod.rs:43-67`) on empty storages -/
def Facade.new : Facade := ⟨Store.new, Store.new, [], [], []⟩

/-- `.insert(..).unwrap()` -/
def Store.put {ε : Type} (s : Store) (ns : Namespace) (k : Str) (v : Bytes) : Res ε Store :=
  match s.insert ns k v with
  | .ok s => .ok s
  | _ => .panic

/-! ## `build` -/

/-- `Facade::build_cache` (`facade/build.rs:245-253`) -/
def Facade.buildCache {ε : Type} (E : Env) (S : Serde) (f : Facade) (b : Bundle) : Res ε Facade := do
  let s ← Res.unwrap b.said
  let c ← Res.unwrap b.captureBase.said
  pure { f with bundles := f.bundles.insertRow s (S.print (b.toJson E)),
                bases := f.bases.insertRow c (S.print b.captureBase.toJson) }

/-- one meta overlay of `build_meta` -/
def metaRow (s : Said) : OvBody → Option FtsRow
  | .metaOv l ps => some ⟨(ps.get c!"name").getD [], (ps.get c!"description").getD [], l, s⟩
  | _ => none

/-- `Facade::build_meta` (`facade/build.rs:255-285`) -/
def Facade.buildMeta {ε : Type} (f : Facade) (b : Bundle) : Res ε Facade := do
  if b.overlays.any (fun o => o.body.kind = .metaOv) then do
    let s ← Res.unwrap b.said
    pure { f with fts := (b.overlays.filterMap fun o => metaRow s o.body).foldl insertFts f.fts }
  else pure f

/-- `format!("oca.{}.operation", said)` -/
def opKey (s : Said) : Str := c!"oca." ++ s ++ c!".operation"

/-- the overlays of a step (`facade/build.rs:328-336`) -/
def putOverlays {ε : Type} (S : Serde) : Store → List Overlay → Res ε Store
  | db, [] => .ok db
  | db, o :: t => do
    let s ← Res.unwrap o.said
    let db ← db.put .objectsJson s (utf8 (S.print o.toJson))
    putOverlays S db t

/-- `Facade::build_step` (`facade/build.rs:287-337`) -/
def Facade.buildStep {ε : Type} (E : Env) (S : Serde) (f : Facade) (st : BuildStep) : Res ε Facade := do
  let r ← operationBytes S st.parentSaid st.command.toJson
  let s ← Res.unwrap st.result.said
  let db ← f.db.put .oca (opKey s) r
  let cache ← f.cache.put .bundlesJson s (utf8 (S.print (st.result.toJson E)))
  let cs ← Res.unwrap st.result.captureBase.said
  let cache ← cache.put .objectsJson cs (utf8 (S.print st.result.captureBase.toJson))
  let cache ← putOverlays S cache st.result.overlays
  pure { f with db := db, cache := cache }

/-- `format!("core_model.{}", digest)` -/
def coreKey (s : Said) : Str := c!"core_model." ++ s

/-- The record of a capture base or an overlay (`facade/build.rs:352-381, 383-412`). -/
def objectModelBytes {ε : Type} (m : ObjectModel) : Res ε Bytes := do
  let p ← parentBytes m.parent
  let c ← lenPrefixed m.commandDigest
  pure (p ++ c)

/-- texts behind their lengths -/
def lenPrefixedAll {ε : Type} : List Said → Res ε Bytes
  | [] => .ok []
  | s :: t => do
    let a ← lenPrefixed s
    let b ← lenPrefixedAll t
    pure (a ++ b)

/-- The record of a bundle (`facade/build.rs:414-448`). -/
def bundleModelBytes {ε : Type} (m : BundleModel) : Res ε Bytes := do
  let p ← parentBytes m.parent
  let c ← lenPrefixed m.captureBase
  let os ← lenPrefixedAll m.overlays
  pure (p ++ c ++ os)

/-- an optional model -/
def putObjectModel {ε : Type} (db : Store) : Option ObjectModel → Res ε Store
  | none => .ok db
  | some m => do
    let b ← objectModelBytes m
    db.put .coreModel (coreKey m.said) b

/-- one result model of `build_models` -/
def putModel {ε : Type} (S : Serde) (db : Store) (m : ResultModel) : Res ε Store := do
  let db ← db.put .coreModel (coreKey m.command.digest) (utf8 (S.print m.command.json))
  let db ← putObjectModel db m.captureBase
  let db ← putObjectModel db m.overlay
  let b ← bundleModelBytes m.bundle
  db.put .coreModel (coreKey m.bundle.said) b

/-- `Facade::build_models` (`facade/build.rs:339-450`) -/
def Facade.buildModels {ε : Type} (E : Env) (S : Serde) (f : Facade) (steps : List BuildStep) : Res ε Facade := do
  let ms ← buildCoreModel E steps
  let db ← foldRes (putModel S) f.db ms
  pure { f with db := db }

/-- `Facade::build` (`facade/build.rs:124-139`). An error of `add_relations` is ignored; the storages of the model never
return one. -/
def Facade.build {ε : Type} (E : Env) (S : Serde) (O : SetOrder) (f : Facade) (b : Build) : Res ε Facade := do
  let f ← f.buildCache E S b.bundle
  let f ← f.buildMeta b.bundle
  let f ← foldRes (Facade.buildStep E S) f b.steps
  let f ← match addRelations O f.db b.bundle with
    | .ok db => Res.ok { f with db := db }
    | .err _ => .ok f
    | .panic => .panic
  f.buildModels E S b.steps

/-! ## Names -/

/-- `References::find` for the storage (`facade/build.rs:56-60`) -/
def Store.findRefn {ε : Type} (db : Store) (n : Str) : Res ε (Option Str) :=
  match db.get .references n with
  | .ok (some b) => do
    let s ← Res.unwrap (fromUtf8 b)
    pure (some s)
  | .ok none => .ok none
  | _ => .panic

/-- `References::save` for the storage (`facade/build.rs:62-65`) -/
def Store.saveRefn {ε : Type} (db : Store) (n : Str) (v : Str) : Res ε Store := db.put .references n (utf8 v)

/-- `ValidationError` (`facade/build.rs:31-52`), the cases that occur here -/
inductive VErr where
  | parse (e : ParseErr)
  | build (e : BuildErr)
  | unknownRefn (n : Str)
deriving DecidableEq, Repr

/-- A name looked up and turned into an identifier (`local_references.rs:28-33` and twice more). -/
def derefName (E : Env) (find : Str → Res VErr (Option Str)) (n : Str) : Res VErr RefVal := do
  match ← find n with
  | some s => if E.validSaid s then pure (.said s) else .panic
  | none => .err (.unknownRefn n)

/-- `replace_refn_with_refs` on one attribute type (`local_references.rs:26-49`) -/
def derefAttr (E : Env) (find : Str → Res VErr (Option Str)) : NAttr → Res VErr NAttr
  | .ref (.name n) => do
    let r ← derefName E find n
    pure (.ref r)
  | .arr (.ref (.name n)) => do
    let r ← derefName E find n
    pure (.arr (.ref r))
  | t => .ok t

/-- over the attributes -/
def derefAttrs (E : Env) (find : Str → Res VErr (Option Str)) : List (Str × NAttr) → Res VErr (List (Str × NAttr))
  | [] => .ok []
  | (n, a) :: t => do
    let a ← derefAttr E find a
    let t ← derefAttrs E find t
    pure ((n, a) :: t)

/-- the target of a LINK command (`local_references.rs:54-72`) -/
def derefTarget (E : Env) (find : Str → Res VErr (Option Str)) (ps : List (Str × NVal)) : Res VErr (List (Str × NVal)) :=
  match imGet c!"target" ps with
  | some (.ref (.name n)) => do
    let r ← derefName E find n
    pure (imInsert c!"target" (.ref r) ps)
  | _ => .ok ps

/-- one command -/
def derefCommand (E : Env) (find : Str → Res VErr (Option Str)) (c : Command) : Res VErr Command :=
  match c.kind, c.obj with
  | .add, .captureBase cc => match cc.attributes with
    | some l => do
      let l ← derefAttrs E find l
      pure ⟨.add, .captureBase { cc with attributes := some l }⟩
    | none => .ok c
  | .add, .overlay t cc => if t.kind = .link then match cc.properties with
      | some ps => do
        let ps ← derefTarget E find ps
        pure ⟨.add, .overlay t { cc with properties := some ps }⟩
      | none => .ok c
    else .ok c
  | _, _ => .ok c

/-- `replace_refn_with_refs` (`local_references.rs:16-75`). (On an error the commands before it stay replaced in the
caller's AST; every caller gives it up.) -/
def derefCommands (E : Env) (find : Str → Res VErr (Option Str)) : List Command → Res VErr (List Command)
  | [] => .ok []
  | c :: t => do
    let c ← derefCommand E find c
    let t ← derefCommands E find t
    pure (c :: t)

/-! ## Fetching -/

/-- `get_oca_bundle` without dependencies (`facade/fetch.rs:366-399`) -/
def fetchBundle (E : Env) (S : Serde) (cache : Store) (s : Said) : Res (List Str) Bundle :=
  match cache.get .bundlesJson s with
  | .err e => .err [e]
  | .panic => .panic
  | .ok none => .err [c!"No OCA Bundle found for said: " ++ s]
  | .ok (some b) => do
    let t ← Res.unwrap (fromUtf8 b)
    match S.parse t with
    | none => .err [c!"Failed to parse oca bundle"]
    | some j => match Bundle.ofJson E j with
      | .ok b => .ok b
      | .err _ => .err [c!"Failed to parse oca bundle"]
      | .panic => .panic

/-- `retrive_all_references` (`facade/fetch.rs:408-426`); the attributes in the order of the hash map -/
def bundleRefs (attrs : List (Str × NAttr)) : List Said :=
  attrs.filterMap fun p => match p.2 with
    | .ref (.said s) => some s
    | .arr (.ref (.said s)) => some s
    | _ => none

/-- the loop over the references (`facade/fetch.rs:384-390`), given what to do with one -/
def collectDeps {α : Type} (get : Said → Option (Res (List Str) (α × List α))) : List Said →
    Option (Res (List Str) (List α))
  | [] => some (.ok [])
  | s :: t => match get s with
    | none => none
    | some (.err e) => some (.err e)
    | some .panic => some .panic
    | some (.ok (b, ds)) => match collectDeps get t with
      | some (.ok r) => some (.ok (b :: (ds ++ r)))
      | r => r

/-- `get_oca_bundle` with dependencies (`facade/fetch.rs:366-399`). `fuel` bounds the depth of the recursion; `none`
means it was not enough. -/
def fetchWithDeps (E : Env) (S : Serde) (O : Order) (cache : Store) : Nat → Said →
    Option (Res (List Str) (Bundle × List Bundle))
  | 0, _ => none
  | fuel + 1, s => match fetchBundle E S cache s with
    | .err e => some (.err e)
    | .panic => some .panic
    | .ok b => match collectDeps (fetchWithDeps E S O cache fuel) (bundleRefs (O.iter 0 [s] b.captureBase.attributes)) with
      | none => none
      | some (.ok ds) => some (.ok (b, ds))
      | some (.err e) => some (.err e)
      | some .panic => some .panic

/-- `extract_operation` (`facade/fetch.rs:277-298`) -/
def extractOperation (E : Env) (S : Serde) (db : Store) (s : Said) : Res (List Str) (Str × Command) :=
  match db.get .oca (opKey s) with
  | .err e => .err [e]
  | .panic => .panic
  | .ok none => .err [c!"No history found for said: " ++ s]
  | .ok (some r) => do
    let p ← operationParse r
    match S.parse p.2 with
    | none => .err [c!"Failed to parse command"]
    | some j => match Command.ofJson E j with
      | .ok c => .ok (p.1, c)
      | .err _ => .err [c!"Failed to parse command"]
      | .panic => .panic

/-- The loop of `get_oca_bundle_steps` (`facade/fetch.rs:300-321`); `acc` is the history read so far, already reversed.
`none`: `fuel` was not enough. -/
def stepsLoop (E : Env) (S : Serde) (f : Facade) : Nat → Str → List BuildStep → Option (Res (List Str) (List BuildStep))
  | 0, _, _ => none
  | fuel + 1, s, acc => match extractOperation E S f.db s with
    | .err e => some (.err e)
    | .panic => some .panic
    | .ok (parent, c) =>
      if parent = s then some (.err [c!"Malformed history"]) else
      if ¬ E.validSaid s then some .panic else
      match fetchBundle E S f.cache s with
      | .ok b =>
        let acc := ⟨if E.validSaid parent then some parent else none, c, b⟩ :: acc
        if parent = [] then some (.ok acc) else stepsLoop E S f fuel parent acc
      | _ => some .panic

/-- `Facade::get_oca_bundle_steps` (`facade/fetch.rs:271-322`) -/
def Facade.steps (E : Env) (S : Serde) (f : Facade) (fuel : Nat) (s : Said) : Option (Res (List Str) (List BuildStep)) :=
  stepsLoop E S f fuel s []

/-! ## Building files -/

/-- `parse_and_check_base` (`facade/build.rs:156-216`), after the parser. The errors of a base that cannot be fetched
are collected and dropped; the FROM command is removed either way. -/
def checkBase {ε : Type} (E : Env) (S : Serde) (cache : Store) (ast : OCAAst) : Res ε (Option Bundle × OCAAst) :=
  match ast.commands with
  | ⟨.«from», .ocaBundle r⟩ :: t =>
    match r with
    | .said s => match fetchBundle E S cache s with
      | .ok b => .ok (some b, { ast with commands := t })
      | .err _ => .ok (none, { ast with commands := t })
      | .panic => .panic
    | .name _ => .panic
  | _ => .ok (none, ast)

/-- errors in another type -/
def Res.mapErr {ε ε' α : Type} (f : ε → ε') : Res ε α → Res ε' α
  | .ok a => .ok a
  | .err e => .err (f e)
  | .panic => .panic

/-- `oca_ast_to_oca_build_with_references` (`facade/build.rs:218-243`) with the references kept in the storage -/
def buildWithRefs (E : Env) (Os : Nat → Order) (db : Store) (base : Option Bundle) (ast : OCAAst) :
    Res (List VErr) (Store × Build) := do
  let cs ← (derefCommands E db.findRefn ast.commands).mapErr fun e => [e]
  let b ← (fromAst E Os base { ast with commands := cs }).mapErr fun es => es.map VErr.build
  match ast.metaMap.get c!"name" with
  | some n => do
    let s ← Res.unwrap b.bundle.said
    let db ← db.saveRefn n s
    pure (db, b)
  | none => pure (db, b)

/-- `Facade::validate_ocafile` (`facade/build.rs:115-122`) -/
def Facade.validate (E : Env) (S : Serde) (Os : Nat → Order) (f : Facade) (ls : List Line) :
    Res (List VErr) (Facade × Build) := do
  let ast ← (parseLines ls).mapErr fun e => [VErr.parse e]
  let (base, ast) ← checkBase E S f.cache ast
  let (db, b) ← buildWithRefs E Os f.db base ast
  pure ({ f with db := db }, b)

/-- `Facade::validate_ocafile` without the feature `local-references` (`facade/build.rs:92-100`): names are neither replaced
nor saved. -/
def Facade.validatePlain (E : Env) (S : Serde) (Os : Nat → Order) (f : Facade) (ls : List Line) :
    Res (List VErr) Build := do
  let ast ← (parseLines ls).mapErr fun e => [VErr.parse e]
  let (base, ast) ← checkBase E S f.cache ast
  (fromAst E Os base ast).mapErr fun es => es.map VErr.build

/-- `Facade::build_from_ocafile` (`facade/build.rs:141-154`) for a file that is not a transformation -/
def Facade.buildFile (E : Env) (S : Serde) (Os : Nat → Order) (O : SetOrder) (f : Facade) (ls : List Line) :
    Res (List VErr) (Facade × Bundle) := do
  let (f, b) ← f.validate E S Os ls
  let f ← f.build E S O b
  pure (f, b.bundle)

/-! ## Pages -/

/-- the order of SQLite's BINARY collation -/
def insRow (r : Said × Str) : Table → Table
  | [] => [r]
  | x :: t => if Str.lt x.1 r.1 then x :: insRow r t else r :: x :: t

/-- `GROUP BY said` of rows with different SAIDs: they come sorted -/
def sortRows (t : Table) : Table := t.foldr insRow []

/-- `fetch_all` (`oca_bundle_cache_repo.rs:54-92`, `capture_base_cache_repo.rs:51-86`): the rows of a page with the total;
`none` is the row of NULLs a LEFT JOIN gives when the page is empty but the table is not. Aborts where `(page - 1) *
limit` underflows or does not fit SQLite's integers. -/
def fetchPage {ε : Type} (t : Table) (limit page : Nat) : Res ε (List (Option (Said × Str) × Nat)) :=
  if page = 0 ∨ 9223372036854775808 ≤ limit ∨ 9223372036854775808 ≤ (page - 1) * limit then .panic else
  let rows := (t.drop ((page - 1) * limit)).take limit
  .ok (if t = [] then [] else if rows = [] then [(none, t.length)] else (sortRows rows).map fun r => (some r, t.length))

/-- `fetch_all_oca_bundle` (`facade/fetch.rs:138-172`), `fetch_all_capture_base` (`174-209`): the parsed records and the
total -/
def fetchAll {α : Type} (parse : Str → Res Str α) (t : Table) (limit page : Nat) : Res (List Str) (List α × Nat) := do
  let rows ← fetchPage t limit page
  let total := (rows.head?.map (·.2)).getD 0
  let rec go : List (Option (Said × Str) × Nat) → List α → List Str → Res (List Str) (List α × List Str)
    | [], acc, errs => .ok (acc, errs)
    | (none, _) :: r, acc, errs => go r acc errs
    | (some (_, v), _) :: r, acc, errs => match parse v with
      | .ok a => go r (acc ++ [a]) errs
      | .err e => go r acc (errs ++ [e])
      | .panic => .panic
  let (acc, errs) ← go rows [] []
  if errs = [] then pure (acc, total) else .err errs

/-- `serde_json::from_str::<OCABundle>` (`facade/fetch.rs:154-161`) -/
def parseBundle (E : Env) (S : Serde) (v : Str) : Res Str Bundle := match S.parse v with
  | none => .err c!"Failed to parse oca bundle"
  | some j => match Bundle.ofJson E j with
    | .ok b => .ok b
    | .err _ => .err c!"Failed to parse oca bundle"
    | .panic => .panic

/-- `serde_json::from_str::<CaptureBase>` (`facade/fetch.rs:191-198`) -/
def parseBase (E : Env) (S : Serde) (v : Str) : Res Str CaptureBase := match S.parse v with
  | none => .err c!"Failed to parse capture base"
  | some j => match CaptureBase.ofJson E j with
    | .ok b => .ok b
    | .err _ => .err c!"Failed to parse capture base"
    | .panic => .panic

/-- `Facade::fetch_all_oca_bundle` (`facade/fetch.rs:138-172`) -/
def Facade.fetchAllBundles (E : Env) (S : Serde) (f : Facade) (limit page : Nat) : Res (List Str) (List Bundle × Nat) :=
  fetchAll (parseBundle E S) f.bundles limit page

/-- `Facade::fetch_all_capture_base` (`facade/fetch.rs:174-209`) -/
def Facade.fetchAllBases (E : Env) (S : Serde) (f : Facade) (limit page : Nat) : Res (List Str) (List CaptureBase × Nat) :=
  fetchAll (parseBase E S) f.bases limit page

end OCA
