import Verif.Model.Threads
/-!
# Writes that fail (`oca/src/facade/build.rs:56-66, 124-139, 234-450`, `oca/src/facade/explore.rs:25-124`)

A disk may be full, a file locked by another process: then an `insert` into sled gives an error, and so does a statement of SQLite. What the code makes of it
differs from place to place: the rows of the tables are written with `let _ = ...` (the error is dropped), the records of the steps and of the core model and
the names with `.unwrap()` (it aborts), and in `add_relations` the error is returned with `?`, but for the metadata of overlays (`let _ = ...`); and `build`
drops the error of `add_relations` as a whole. Here `build` is once more a program, this time one that is told of every write whether it succeeded.

A write that fails leaves nothing. Errors of reading (`.unwrap()`, so they abort) and of creating the tables are not modelled.
-/
namespace OCA

/-- What remains to be done: nothing (with what it ended in), something that depends on what is in the database, or a write, going on as the write succeeds or not. -/
inductive Attempt (α : Type) : Type where
  | done (r : Res Str α)
  | read (c : Store → Attempt α)
  | put (w : Write) (c : Bool → Attempt α)

namespace Attempt
variable {α β : Type}

/-- one after the other -/
def andThen : Attempt α → (α → Attempt β) → Attempt β
  | .done (.ok a), k => k a
  | .done (.err e), _ => .done (.err e)
  | .done .panic, _ => .done .panic
  | .read c, k => .read fun d => (c d).andThen k
  | .put w c, k => .put w fun b => (c b).andThen k

instance : Monad Attempt where
  pure a := .done (.ok a)
  bind := andThen

/-- something computed without the storages -/
def of (r : Res Str α) : Attempt α := .done r

/-- something read from the database -/
def look (g : Store → Res Str α) : Attempt α := .read fun d => .done (g d)

/-- a write with `.unwrap()` behind it -/
def must (w : Write) : Attempt Unit := .put w fun b => match b with
  | true => .done (.ok ())
  | false => .done .panic

/-- a write with `?` behind it -/
def ask (w : Write) : Attempt Unit := .put w fun b => match b with
  | true => .done (.ok ())
  | false => .done (.err c!"write failed")

/-- a write with `let _ =` before it -/
def may (w : Write) : Attempt Unit := .put w fun _ => .done (.ok ())

/-- `let _ = ...`: an error is ignored -/
def ignore : Attempt Unit → Attempt Unit
  | .done (.err _) => .done (.ok ())
  | .done (.ok u) => .done (.ok u)
  | .done .panic => .done .panic
  | .read c => .read fun d => (c d).ignore
  | .put w c => .put w fun b => (c b).ignore

/-- for each of the list -/
def each (g : α → Attempt Unit) : List α → Attempt Unit
  | [] => pure ()
  | a :: t => do
    g a
    each g t

/-- when every write succeeds: the writes and the end -/
def undisturbed : Attempt α → Prog α
  | .done r => fun _ => ([], r)
  | .read c => fun f => (c f.db).undisturbed f
  | .put w c => fun f => (w :: ((c true).undisturbed (f.write w)).1, ((c true).undisturbed (f.write w)).2)

end Attempt

/-- the writes that succeeded -/
def landed (l : List (Write × Bool)) : List Write := l.filterMap fun p => match p.2 with
  | true => some p.1
  | false => none

/-- the storages after these writes were tried -/
def Facade.after (f : Facade) (l : List (Write × Bool)) : Facade := f.writes (landed l)

/-- `m.Tries f l r`: starting in `f`, the program may try the writes of `l`, in this order, each succeeding or not as `l` says, and end in `r`. -/
inductive Attempt.Tries {α : Type} : Attempt α → Facade → List (Write × Bool) → Res Str α → Prop where
  | done (f : Facade) (r : Res Str α) : Tries (.done r) f [] r
  | read {f : Facade} {c : Store → Attempt α} {l : List (Write × Bool)} {r : Res Str α} (h : Tries (c f.db) f l r) : Tries (.read c) f l r
  | lands {f : Facade} {w : Write} {c : Bool → Attempt α} {l : List (Write × Bool)} {r : Res Str α} (h : Tries (c true) (f.write w) l r) :
      Tries (.put w c) f ((w, true) :: l) r
  | fails {f : Facade} {w : Write} {c : Bool → Attempt α} {l : List (Write × Bool)} {r : Res Str α} (h : Tries (c false) f l r) :
      Tries (.put w c) f ((w, false) :: l) r

/-! ## `build` -/

/-- `Facade::build_cache` (`facade/build.rs:245-253`): the errors of both inserts are dropped (`oca_bundle_cache_repo.rs:45-54`,
`capture_base_cache_repo.rs:42-50`) -/
def cacheF (E : Env) (S : Serde) (b : Bundle) : Attempt Unit := do
  let s ← Attempt.of (Res.unwrap b.said)
  Attempt.may (.bundleRow s (S.print (b.toJson E)))
  let c ← Attempt.of (Res.unwrap b.captureBase.said)
  Attempt.may (.baseRow c (S.print b.captureBase.toJson))

/-- `Facade::build_meta` (`facade/build.rs:255-285`); the errors are dropped (`oca_bundle_fts_repo.rs:51-72`) -/
def metaF (b : Bundle) : Attempt Unit :=
  if b.overlays.any (fun o => o.body.kind = .metaOv) then do
    let s ← Attempt.of (Res.unwrap b.said)
    Attempt.each (fun r => Attempt.may (.ftsRow r)) (b.overlays.filterMap fun o => metaRow s o.body)
  else pure ()

/-- an overlay of a step (`facade/build.rs:328-336`) -/
def overlayF (S : Serde) (o : Overlay) : Attempt Unit := do
  let s ← Attempt.of (Res.unwrap o.said)
  Attempt.must (.cache .objectsJson s (utf8 (S.print o.toJson)))

/-- `Facade::build_step` (`facade/build.rs:287-337`): every insert is unwrapped -/
def stepF (E : Env) (S : Serde) (st : BuildStep) : Attempt Unit := do
  let r ← Attempt.of (operationBytes S st.parentSaid st.command.toJson)
  let s ← Attempt.of (Res.unwrap st.result.said)
  Attempt.must (.db .oca (opKey s) r)
  Attempt.must (.cache .bundlesJson s (utf8 (S.print (st.result.toJson E))))
  let c ← Attempt.of (Res.unwrap st.result.captureBase.said)
  Attempt.must (.cache .objectsJson c (utf8 (S.print st.result.captureBase.toJson)))
  Attempt.each (overlayF S) st.result.overlays

/-- the metadata of an overlay (`explore.rs:46-58`): the error is dropped -/
def overlayMetaF (o : Overlay) : Attempt Unit := do
  let s ← Attempt.of (Res.unwrap o.said)
  Attempt.may (.db .relations (metaKey s) [UInt8.ofNat o.body.kind.code])

/-- `insert_oca_objects_metadata` (`explore.rs:25-61`) -/
def metasF (b : Bundle) : Attempt Unit := do
  let s ← Attempt.of (Res.unwrap b.said)
  Attempt.ask (.db .relations (metaKey s) [1])
  let c ← Attempt.of (Res.unwrap b.captureBase.said)
  Attempt.ask (.db .relations (metaKey c) [0])
  Attempt.each overlayMetaF b.overlays

/-- the relations written for `s`: the error is returned (`explore.rs:102-122`) -/
def writeRelsF (O : SetOrder) (s : Said) (l : List RelObj) : Attempt Unit := do
  let b ← Attempt.of (relsBytes (O.iter s l))
  Attempt.ask (.db .relations s b)

/-- The loop over the overlays (`explore.rs:86-107`). -/
def relLoopF (O : SetOrder) (bs cs : Said) : List RelObj → List RelObj → List Overlay → Attempt (List RelObj × List RelObj)
  | br, cr, [] => pure (br, cr)
  | br, cr, o :: t => do
    let s ← Attempt.of (Res.unwrap o.said)
    let x ← Attempt.look (relObj · s)
    let r ← Attempt.look (exploreOrNew · s)
    let xb ← Attempt.look (relObj · bs)
    let xc ← Attempt.look (relObj · cs)
    writeRelsF O s (setInsert (setInsert r xb) xc)
    relLoopF O bs cs (setInsert br x) (setInsert cr x) t

/-- `Facade::add_relations` (`explore.rs:64-124`) -/
def relationsF (O : SetOrder) (b : Bundle) : Attempt Unit := do
  metasF b
  let bs ← Attempt.of (Res.unwrap b.said)
  let cs ← Attempt.of (Res.unwrap b.captureBase.said)
  let br ← Attempt.look (exploreOrNew · bs)
  let xc ← Attempt.look (relObj · cs)
  let cr ← Attempt.look (exploreOrNew · cs)
  let xb ← Attempt.look (relObj · bs)
  let r ← relLoopF O bs cs (setInsert br xc) (setInsert cr xb) b.overlays
  writeRelsF O bs r.1
  writeRelsF O cs r.2

/-- a record of the core model: unwrapped (`facade/build.rs:343-349, 374-380, 405-411, 441-447`) -/
def coreF (k : Said) (r : Res Str Bytes) : Attempt Unit := do
  let b ← Attempt.of r
  Attempt.must (.db .coreModel (coreKey k) b)

/-- one result model of `build_models` (`facade/build.rs:341-448`) -/
def modelF (S : Serde) (m : ResultModel) : Attempt Unit := do
  coreF m.command.digest (.ok (utf8 (S.print m.command.json)))
  Attempt.each (fun o : ObjectModel => coreF o.said (objectModelBytes o)) m.captureBase.toList
  Attempt.each (fun o : ObjectModel => coreF o.said (objectModelBytes o)) m.overlay.toList
  coreF m.bundle.said (bundleModelBytes m.bundle)

/-- `Facade::build_models` (`facade/build.rs:339-449`) -/
def modelsF (E : Env) (S : Serde) (steps : List BuildStep) : Attempt Unit := do
  let ms ← Attempt.of (buildCoreModel E steps)
  Attempt.each (modelF S) ms

/-- `Facade::build` (`facade/build.rs:124-139`) -/
def buildF (E : Env) (S : Serde) (O : SetOrder) (b : Build) : Attempt Unit := do
  cacheF E S b.bundle
  metaF b.bundle
  Attempt.each (stepF E S) b.steps
  Attempt.ignore (relationsF O b.bundle)
  modelsF E S b.steps

/-- the name of the file (`facade/build.rs:62-65, 234-241`), then the build -/
def jobF (E : Env) (S : Serde) (j : Job) : Attempt Unit := do
  Attempt.each (fun n : Str => do
    let s ← Attempt.of (Res.unwrap j.build.bundle.said)
    Attempt.must (.db .references n (utf8 s))) j.name.toList
  buildF E S j.order j.build

end OCA
