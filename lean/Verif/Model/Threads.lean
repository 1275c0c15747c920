import Verif.Model.Crash
/-!
# Several threads on the same storages (`oca/src/facade/build.rs:124-139, 234-450`, `oca/src/facade/explore.rs:10-133`)

`DataStorage` is `Clone + Send` (`data_storage.rs:27`) and clones of a sled storage are handles on one database, so that several facades, each in
a thread of its own, can work on the same database, cache and SQLite file. Here `build` is once more written as a program, this time as one that
can be stopped and continued at every single read and write, other threads doing theirs in between. `Verif.Props.Threads` proves that such a
program, left alone, is the `buildOp` of `Verif.Model.Crash`.

One read of a key, one insert, and one SQLite statement are atomic. A statement that fails because the file stays locked by another
connection (its error is dropped, `let _ = ...`) is not modelled.
-/
namespace OCA

/-- What a thread still has to do: nothing (`done`, with what it ended in), read a key of the database, or write. -/
inductive Thr (α : Type) : Type where
  | done (r : Res Str α)
  | get (ns : Namespace) (k : Str) (c : Res Str (Option Bytes) → Thr α)
  | put (w : Write) (c : Thr α)

namespace Thr
variable {α β : Type}

/-- one after the other -/
def andThen : Thr α → (α → Thr β) → Thr β
  | .done (.ok a), k => k a
  | .done (.err e), _ => .done (.err e)
  | .done .panic, _ => .done .panic
  | .get ns x c, k => .get ns x fun r => (c r).andThen k
  | .put w c, k => .put w (c.andThen k)

instance : Monad Thr where
  pure a := .done (.ok a)
  bind := andThen

/-- something computed without the storages -/
def of (r : Res Str α) : Thr α := .done r

/-- a write -/
def emit (w : Write) : Thr Unit := .put w (.done (.ok ()))

/-- `let _ = ...`: an error is ignored -/
def ignore : Thr Unit → Thr Unit
  | .done (.err _) => .done (.ok ())
  | .done (.ok u) => .done (.ok u)
  | .done .panic => .done .panic
  | .get ns x c => .get ns x fun r => (c r).ignore
  | .put w c => .put w c.ignore

/-- for each of the list -/
def each (g : α → Thr Unit) : List α → Thr Unit
  | [] => pure ()
  | a :: t => do
    g a
    each g t

/-- a single read or write -/
def step : Thr α → Facade → Option (Facade × Thr α)
  | .done _, _ => none
  | .get ns k c, f => some (f, c (f.db.get ns k))
  | .put w c, f => some (f.write w, c)

/-- left alone: the writes and the end -/
def alone : Thr α → Prog α
  | .done r => fun _ => ([], r)
  | .get ns k c => fun f => (c (f.db.get ns k)).alone f
  | .put w c => fun f => (w :: (c.alone (f.write w)).1, (c.alone (f.write w)).2)
end Thr

/-! ## `build` as a thread -/

/-- `Facade::build_cache` (`facade/build.rs:245-253`) -/
def cacheT (E : Env) (S : Serde) (b : Bundle) : Thr Unit := do
  let s ← Thr.of (Res.unwrap b.said)
  Thr.emit (.bundleRow s (S.print (b.toJson E)))
  let c ← Thr.of (Res.unwrap b.captureBase.said)
  Thr.emit (.baseRow c (S.print b.captureBase.toJson))

/-- `Facade::build_meta` (`facade/build.rs:255-285`) -/
def metaT (b : Bundle) : Thr Unit :=
  if b.overlays.any (fun o => o.body.kind = .metaOv) then do
    let s ← Thr.of (Res.unwrap b.said)
    Thr.each (fun r => Thr.emit (.ftsRow r)) (b.overlays.filterMap fun o => metaRow s o.body)
  else pure ()

/-- an overlay of a step (`facade/build.rs:328-336`) -/
def overlayT (S : Serde) (o : Overlay) : Thr Unit := do
  let s ← Thr.of (Res.unwrap o.said)
  Thr.emit (.cache .objectsJson s (utf8 (S.print o.toJson)))

/-- `Facade::build_step` (`facade/build.rs:287-337`) -/
def stepT (E : Env) (S : Serde) (st : BuildStep) : Thr Unit := do
  let r ← Thr.of (operationBytes S st.parentSaid st.command.toJson)
  let s ← Thr.of (Res.unwrap st.result.said)
  Thr.emit (.db .oca (opKey s) r)
  Thr.emit (.cache .bundlesJson s (utf8 (S.print (st.result.toJson E))))
  let c ← Thr.of (Res.unwrap st.result.captureBase.said)
  Thr.emit (.cache .objectsJson c (utf8 (S.print st.result.captureBase.toJson)))
  Thr.each (overlayT S) st.result.overlays

/-- the metadata of an overlay (`explore.rs:46-59`) -/
def overlayMetaT (o : Overlay) : Thr Unit := do
  let s ← Thr.of (Res.unwrap o.said)
  Thr.emit (.db .relations (metaKey s) [UInt8.ofNat o.body.kind.code])

/-- `insert_oca_objects_metadata` (`explore.rs:25-62`) -/
def metasT (b : Bundle) : Thr Unit := do
  let s ← Thr.of (Res.unwrap b.said)
  Thr.emit (.db .relations (metaKey s) [1])
  let c ← Thr.of (Res.unwrap b.captureBase.said)
  Thr.emit (.db .relations (metaKey c) [0])
  Thr.each overlayMetaT b.overlays

/-- what `object_type` makes of the record it read (`explore.rs:126-133`) -/
def kindRead (r : Option Bytes) : Res Str Nat := do
  let r ← Res.unwrap r
  let b ← Res.unwrap r.head?
  match ObjKind.ofCode b.toNat with
  | .ok o => pure o.code
  | _ => .panic

/-- `Facade::object_type` (`explore.rs:126-133`): one read -/
def objectTypeT (s : Said) : Thr Nat := .get .relations (metaKey s) fun r => Thr.of (r >>= kindRead)

/-- `OCAObject::new` (`explore.rs:238-245`) -/
def relObjT (s : Said) : Thr RelObj := do
  let k ← objectTypeT s
  pure (s, k)

/-- `Facade::explore` (`explore.rs:10-23`): two reads, one after the other -/
def exploreT (s : Said) : Thr (Option (List RelObj)) := .get .relations s fun r => match r with
  | .ok (some b) => do
    let l ← Thr.of (relationsOf b)
    let _ ← objectTypeT s
    pure (some l)
  | .panic => .done .panic
  | _ => .done (.ok none)

/-- `self.explore(said).unwrap_or(Relationship::new(OCAObject::new(self, said)))` (`explore.rs:70-83, 92-97`) -/
def exploreOrNewT (s : Said) : Thr (List RelObj) := do
  let r ← exploreT s
  let _ ← relObjT s
  pure (r.getD [])

/-- the relations written for `s` -/
def writeRelsT (O : SetOrder) (s : Said) (l : List RelObj) : Thr Unit := do
  let b ← Thr.of (relsBytes (O.iter s l))
  Thr.emit (.db .relations s b)

/-- The loop over the overlays (`explore.rs:86-107`). -/
def relLoopT (O : SetOrder) (bs cs : Said) : List RelObj → List RelObj → List Overlay → Thr (List RelObj × List RelObj)
  | br, cr, [] => pure (br, cr)
  | br, cr, o :: t => do
    let s ← Thr.of (Res.unwrap o.said)
    let x ← relObjT s
    let r ← exploreOrNewT s
    let xb ← relObjT bs
    let xc ← relObjT cs
    writeRelsT O s (setInsert (setInsert r xb) xc)
    relLoopT O bs cs (setInsert br x) (setInsert cr x) t

/-- `Facade::add_relations` (`explore.rs:64-124`) -/
def relationsT (O : SetOrder) (b : Bundle) : Thr Unit := do
  metasT b
  let bs ← Thr.of (Res.unwrap b.said)
  let cs ← Thr.of (Res.unwrap b.captureBase.said)
  let br ← exploreOrNewT bs
  let xc ← relObjT cs
  let cr ← exploreOrNewT cs
  let xb ← relObjT bs
  let r ← relLoopT O bs cs (setInsert br xc) (setInsert cr xb) b.overlays
  writeRelsT O bs r.1
  writeRelsT O cs r.2

/-- a record of the core model -/
def coreT (k : Said) (r : Res Str Bytes) : Thr Unit := do
  let b ← Thr.of r
  Thr.emit (.db .coreModel (coreKey k) b)

/-- one result model of `build_models` (`facade/build.rs:341-449`) -/
def modelT (S : Serde) (m : ResultModel) : Thr Unit := do
  coreT m.command.digest (.ok (utf8 (S.print m.command.json)))
  Thr.each (fun o : ObjectModel => coreT o.said (objectModelBytes o)) m.captureBase.toList
  Thr.each (fun o : ObjectModel => coreT o.said (objectModelBytes o)) m.overlay.toList
  coreT m.bundle.said (bundleModelBytes m.bundle)

/-- `Facade::build_models` (`facade/build.rs:339-450`) -/
def modelsT (E : Env) (S : Serde) (steps : List BuildStep) : Thr Unit := do
  let ms ← Thr.of (buildCoreModel E steps)
  Thr.each (modelT S) ms

/-- `Facade::build` (`facade/build.rs:124-139`) -/
def buildT (E : Env) (S : Serde) (O : SetOrder) (b : Build) : Thr Unit := do
  cacheT E S b.bundle
  metaT b.bundle
  Thr.each (stepT E S) b.steps
  Thr.ignore (relationsT O b.bundle)
  modelsT E S b.steps

/-- What a thread stores: a build, and the name it is saved under, if any (`facade/build.rs:141-154, 234-241`), with the order in which the
thread's hash sets are written. The build is whatever the validation gave, from whatever it read and whenever it did. -/
structure Job where
  name : Option Str
  build : Build
  order : SetOrder

/-- the name of the file, then the build -/
def jobT (E : Env) (S : Serde) (j : Job) : Thr Unit := do
  Thr.each (fun n : Str => do
    let s ← Thr.of (Res.unwrap j.build.bundle.said)
    Thr.emit (.db .references n (utf8 s))) j.name.toList
  buildT E S j.order j.build

/-- a thread: one job after the other -/
def threadT (E : Env) (S : Serde) (js : List Job) : Thr Unit := Thr.each (jobT E S) js

/-! ## Together -/

/-- Where threads can get from `f`: some thread that is not done makes a read or a write, then again some thread, and so on. -/
inductive Interleaved (f : Facade) (ts : List (Thr Unit)) : Facade → List (Thr Unit) → Prop where
  | start : Interleaved f ts f ts
  | step {g g' : Facade} {a b : List (Thr Unit)} {t t' : Thr Unit} :
      Interleaved f ts g (a ++ t :: b) → t.step g = some (g', t') → Interleaved f ts g' (a ++ t' :: b)

end OCA
