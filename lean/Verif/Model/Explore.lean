import Verif.Model.Storage
import Verif.Model.Build
/-!
# Relations between stored objects (`oca/src/facade/explore.rs`)
-/
namespace OCA

/-- The order in which a hash set of related objects is written; it may depend on the object it is written for. -/
structure SetOrder where
  iter : Str → List RelObj → List RelObj
  perm : ∀ k l, (iter k l).Perm l

/-- `format!("{}.metadata", said)` -/
def metaKey (s : Said) : Str := s ++ c!".metadata"

/-- `Facade::object_type` (`explore.rs:126-133`) -/
def objectType (db : Store) (s : Said) : Res Str Nat := do
  let r ← db.get .relations (metaKey s)
  let r ← Res.unwrap r
  let b ← Res.unwrap r.head?
  match ObjKind.ofCode b.toNat with
  | .ok o => pure o.code
  | _ => .panic

/-- `Facade::explore` (`explore.rs:10-23`), giving the related objects. The kind of the object itself is looked up
only to be reported. -/
def explore (db : Store) (s : Said) : Res Str (Option (List RelObj)) :=
  match db.get .relations s with
  | .ok (some b) => do
    let l ← relationsOf b
    let _ ← objectType db s
    pure (some l)
  | .panic => .panic
  | _ => .ok none

/-- `OCAObject::new` (`explore.rs:238-245`) -/
def relObj (db : Store) (s : Said) : Res Str RelObj := do
  let k ← objectType db s
  pure (s, k)

/-- the metadata of the overlays (`explore.rs:46-59`) -/
def insertOverlayMetas : Store → List Overlay → Res Str Store
  | db, [] => .ok db
  | db, o :: t => do
    let s ← Res.unwrap o.said
    let db ← db.insert .relations (metaKey s) [UInt8.ofNat o.body.kind.code]
    insertOverlayMetas db t

/-- `insert_oca_objects_metadata` (`explore.rs:25-62`): bundles have code 1, capture bases 0 -/
def insertMetas (db : Store) (b : Bundle) : Res Str Store := do
  let bs ← Res.unwrap b.said
  let db ← db.insert .relations (metaKey bs) [1]
  let cs ← Res.unwrap b.captureBase.said
  let db ← db.insert .relations (metaKey cs) [0]
  insertOverlayMetas db b.overlays

/-- `self.explore(said).unwrap_or(Relationship::new(OCAObject::new(self, said)))`; the second object is built
whether it is used or not (`explore.rs:70-83, 92-97`). -/
def exploreOrNew (db : Store) (s : Said) : Res Str (List RelObj) := do
  let r ← explore db s
  let _ ← relObj db s
  pure (r.getD [])

/-- the relations written for `s` -/
def writeRels (O : SetOrder) (db : Store) (s : Said) (l : List RelObj) : Res Str Store := do
  let b ← relsBytes (O.iter s l)
  db.insert .relations s b

/-- The loop over the overlays (`explore.rs:86-107`): the store and the relations of the bundle and of the
capture base. -/
def relLoop (O : SetOrder) (bs cs : Said) : Store → List RelObj → List RelObj → List Overlay →
    Res Str (Store × List RelObj × List RelObj)
  | db, br, cr, [] => .ok (db, br, cr)
  | db, br, cr, o :: t => do
    let s ← Res.unwrap o.said
    let x ← relObj db s
    let br := setInsert br x
    let cr := setInsert cr x
    let r ← exploreOrNew db s
    let xb ← relObj db bs
    let r := setInsert r xb
    let xc ← relObj db cs
    let r := setInsert r xc
    let db ← writeRels O db s r
    relLoop O bs cs db br cr t

/-- `Facade::add_relations` (`explore.rs:64-124`) -/
def addRelations (O : SetOrder) (db : Store) (b : Bundle) : Res Str Store := do
  let db ← insertMetas db b
  let bs ← Res.unwrap b.said
  let cs ← Res.unwrap b.captureBase.said
  let br ← exploreOrNew db bs
  let xc ← relObj db cs
  let br := setInsert br xc
  let cr ← exploreOrNew db cs
  let xb ← relObj db bs
  let cr := setInsert cr xb
  let (db, br, cr) ← relLoop O bs cs db br cr b.overlays
  let db ← writeRels O db bs br
  writeRels O db cs cr

end OCA
