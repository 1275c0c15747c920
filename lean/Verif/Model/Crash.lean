import Verif.Model.Facade
/-!
# The writes of a build, one by one (`oca/src/facade/build.rs:124-139, 245-450`, `oca/src/facade/explore.rs:25-124`)

`Verif.Model.Facade` gives what a build leads to. Here the same functions are programs that also give the writes in the
order in which the code makes them, so that the states in between — those a crash leaves behind, and those another
process sees — can be spoken of. `Verif.Props.Crash` proves that run to their end these programs do what
`Facade.build` says.

A single write is atomic: one `insert` into a sled tree (`data_storage.rs:134-144`), one SQLite statement outside of any
transaction (`oca_bundle_cache_repo.rs:45-52`, `capture_base_cache_repo.rs`, `oca_bundle_fts_repo.rs:51-71`). No write of a
build is grouped with another: the code has neither transactions nor batches.
-/
namespace OCA

/-- a single write: into the database, into the cache, or of a row into one of the tables -/
inductive Write where
  | db (ns : Namespace) (k : Str) (v : Bytes)
  | cache (ns : Namespace) (k : Str) (v : Bytes)
  | bundleRow (s : Said) (v : Str)
  | baseRow (s : Said) (v : Str)
  | ftsRow (r : FtsRow)
deriving DecidableEq, Repr

/-- `insert` of a storage that is open (`data_storage.rs:134-144, 179-189`) -/
def Store.set (s : Store) (ns : Namespace) (k : Str) (v : Bytes) : Store :=
  match s.insert ns k v with
  | .ok s' => s'
  | _ => s

/-- the facade after a write -/
def Facade.write (f : Facade) : Write → Facade
  | .db ns k v => { f with db := f.db.set ns k v }
  | .cache ns k v => { f with cache := f.cache.set ns k v }
  | .bundleRow s v => { f with bundles := f.bundles.insertRow s v }
  | .baseRow s v => { f with bases := f.bases.insertRow s v }
  | .ftsRow r => { f with fts := insertFts f.fts r }

/-- the facade after some writes -/
def Facade.writes (f : Facade) (ws : List Write) : Facade := ws.foldl Facade.write f

/-- A program: from the facade it starts in, the writes it makes, and how it ends. -/
def Prog (α : Type) : Type := Facade → List Write × Res Str α

namespace Prog
/-- nothing -/
def ret {α : Type} (a : α) : Prog α := fun _ => ([], .ok a)

/-- one program, then another, which sees what the first wrote -/
def next {α β : Type} (m : Prog α) (k : α → Prog β) : Prog β := fun f => match m f with
  | (ws, .ok a) => match k a (f.writes ws) with
    | (ws', r) => (ws ++ ws', r)
  | (ws, .err e) => (ws, .err e)
  | (ws, .panic) => (ws, .panic)

instance : Monad Prog where
  pure := ret
  bind := next

/-- a write -/
def emit (w : Write) : Prog Unit := fun _ => ([w], .ok ())

/-- something computed without the storages -/
def of {α : Type} (r : Res Str α) : Prog α := fun _ => ([], r)

/-- something read from the database -/
def look {α : Type} (g : Store → Res Str α) : Prog α := fun f => ([], g f.db)

/-- `let _ = ...`: an error is ignored -/
def ignore (m : Prog Unit) : Prog Unit := fun f => match m f with
  | (ws, .err _) => (ws, .ok ())
  | r => r

/-- one after the other -/
def each {α : Type} (g : α → Prog Unit) : List α → Prog Unit
  | [] => pure ()
  | a :: t => do
    g a
    each g t

/-- how a program ends when nothing stops it -/
def run {α : Type} (m : Prog α) (f : Facade) : Res Str (Facade × α) := match (m f).2 with
  | .ok a => .ok (f.writes (m f).1, a)
  | .err e => .err e
  | .panic => .panic
end Prog

/-! ## `build` -/

/-- `Facade::build_cache` (`facade/build.rs:245-253`) -/
def cacheOp (E : Env) (S : Serde) (b : Bundle) : Prog Unit := do
  let s ← Prog.of (Res.unwrap b.said)
  Prog.emit (.bundleRow s (S.print (b.toJson E)))
  let c ← Prog.of (Res.unwrap b.captureBase.said)
  Prog.emit (.baseRow c (S.print b.captureBase.toJson))

/-- `Facade::build_meta` (`facade/build.rs:255-285`) -/
def metaOp (b : Bundle) : Prog Unit :=
  if b.overlays.any (fun o => o.body.kind = .metaOv) then do
    let s ← Prog.of (Res.unwrap b.said)
    Prog.each (fun r => Prog.emit (.ftsRow r)) (b.overlays.filterMap fun o => metaRow s o.body)
  else pure ()

/-- an overlay of a step (`facade/build.rs:328-336`) -/
def overlayOp (S : Serde) (o : Overlay) : Prog Unit := do
  let s ← Prog.of (Res.unwrap o.said)
  Prog.emit (.cache .objectsJson s (utf8 (S.print o.toJson)))

/-- `Facade::build_step` (`facade/build.rs:287-337`) -/
def stepOp (E : Env) (S : Serde) (st : BuildStep) : Prog Unit := do
  let r ← Prog.of (operationBytes S st.parentSaid st.command.toJson)
  let s ← Prog.of (Res.unwrap st.result.said)
  Prog.emit (.db .oca (opKey s) r)
  Prog.emit (.cache .bundlesJson s (utf8 (S.print (st.result.toJson E))))
  let c ← Prog.of (Res.unwrap st.result.captureBase.said)
  Prog.emit (.cache .objectsJson c (utf8 (S.print st.result.captureBase.toJson)))
  Prog.each (overlayOp S) st.result.overlays

/-- the metadata of an overlay (`explore.rs:46-59`) -/
def overlayMetaOp (o : Overlay) : Prog Unit := do
  let s ← Prog.of (Res.unwrap o.said)
  Prog.emit (.db .relations (metaKey s) [UInt8.ofNat o.body.kind.code])

/-- `insert_oca_objects_metadata` (`explore.rs:25-62`) -/
def metasOp (b : Bundle) : Prog Unit := do
  let s ← Prog.of (Res.unwrap b.said)
  Prog.emit (.db .relations (metaKey s) [1])
  let c ← Prog.of (Res.unwrap b.captureBase.said)
  Prog.emit (.db .relations (metaKey c) [0])
  Prog.each overlayMetaOp b.overlays

/-- the relations written for `s` -/
def writeRelsOp (O : SetOrder) (s : Said) (l : List RelObj) : Prog Unit := do
  let b ← Prog.of (relsBytes (O.iter s l))
  Prog.emit (.db .relations s b)

/-- The loop over the overlays (`explore.rs:86-107`). -/
def relLoopOp (O : SetOrder) (bs cs : Said) : List RelObj → List RelObj → List Overlay → Prog (List RelObj × List RelObj)
  | br, cr, [] => pure (br, cr)
  | br, cr, o :: t => do
    let s ← Prog.of (Res.unwrap o.said)
    let x ← Prog.look (relObj · s)
    let r ← Prog.look (exploreOrNew · s)
    let xb ← Prog.look (relObj · bs)
    let xc ← Prog.look (relObj · cs)
    writeRelsOp O s (setInsert (setInsert r xb) xc)
    relLoopOp O bs cs (setInsert br x) (setInsert cr x) t

/-- `Facade::add_relations` (`explore.rs:64-124`) -/
def relationsOp (O : SetOrder) (b : Bundle) : Prog Unit := do
  metasOp b
  let bs ← Prog.of (Res.unwrap b.said)
  let cs ← Prog.of (Res.unwrap b.captureBase.said)
  let br ← Prog.look (exploreOrNew · bs)
  let xc ← Prog.look (relObj · cs)
  let cr ← Prog.look (exploreOrNew · cs)
  let xb ← Prog.look (relObj · bs)
  let r ← relLoopOp O bs cs (setInsert br xc) (setInsert cr xb) b.overlays
  writeRelsOp O bs r.1
  writeRelsOp O cs r.2

/-- a record of the core model -/
def coreOp (k : Said) (r : Res Str Bytes) : Prog Unit := do
  let b ← Prog.of r
  Prog.emit (.db .coreModel (coreKey k) b)

/-- one result model of `build_models` (`facade/build.rs:341-449`) -/
def modelOp (S : Serde) (m : ResultModel) : Prog Unit := do
  coreOp m.command.digest (.ok (utf8 (S.print m.command.json)))
  Prog.each (fun o : ObjectModel => coreOp o.said (objectModelBytes o)) m.captureBase.toList
  Prog.each (fun o : ObjectModel => coreOp o.said (objectModelBytes o)) m.overlay.toList
  coreOp m.bundle.said (bundleModelBytes m.bundle)

/-- `Facade::build_models` (`facade/build.rs:339-450`) -/
def modelsOp (E : Env) (S : Serde) (steps : List BuildStep) : Prog Unit := do
  let ms ← Prog.of (buildCoreModel E steps)
  Prog.each (modelOp S) ms

/-- `Facade::build` (`facade/build.rs:124-139`) -/
def buildOp (E : Env) (S : Serde) (O : SetOrder) (b : Build) : Prog Unit := do
  cacheOp E S b.bundle
  metaOp b.bundle
  Prog.each (stepOp E S) b.steps
  Prog.ignore (relationsOp O b.bundle)
  modelsOp E S b.steps

/-- the writes of a build, in order -/
def Facade.buildWrites (E : Env) (S : Serde) (O : SetOrder) (f : Facade) (b : Build) : List Write := (buildOp E S O b f).1

/-- the name of a file, saved before the build (`facade/build.rs:234-241`) -/
def nameWrites (ast : OCAAst) (b : Build) : List Write := match ast.metaMap.get c!"name", b.bundle.said with
  | some n, some s => [.db .references n (utf8 s)]
  | _, _ => []

/-- the writes of `build_from_ocafile` (`facade/build.rs:141-154`), in order; a file that is refused writes nothing -/
def Facade.fileWrites (E : Env) (S : Serde) (Os : Nat → Order) (O : SetOrder) (f : Facade) (ls : List Line) : List Write :=
  match parseLines ls, f.validate E S Os ls with
  | .ok ast, .ok (f1, b) => nameWrites ast b ++ f1.buildWrites E S O b
  | _, _ => []

/-! ## Crashes -/

/-- What a process killed in the middle of these writes leaves: the first `n` of them. -/
def Facade.killed (f : Facade) (ws : List Write) (n : Nat) : Facade := f.writes (ws.take n)

/-- What a crash of the machine leaves: each of the database, the cache and the SQLite file as it was at some point of the
run. (sled writes to disk in the background, `data_storage.rs` never flushes, so that its last writes may be lost, and
those of one storage may be lost while later ones of another are not; each recovers to a prefix of its own log.) -/
structure Facade.Crashed (f : Facade) (ws : List Write) (g : Facade) : Prop where
  db : ∃ n, g.db = (f.killed ws n).db
  cache : ∃ n, g.cache = (f.killed ws n).cache
  tables : ∃ n, g.bundles = (f.killed ws n).bundles ∧ g.bases = (f.killed ws n).bases ∧ g.fts = (f.killed ws n).fts

end OCA
