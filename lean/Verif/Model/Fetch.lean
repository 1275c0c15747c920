import Verif.Model.FileText
import Verif.Model.Printer
import Verif.Model.ToAst
/-!
# Reading from the facade (`oca/src/facade/fetch.rs`)

What `Model/Facade.lean` does not have: single objects, the history as an AST and as a file, the names, and the search.
-/
namespace OCA

/-- `OCAObject` (`facade/fetch.rs:27-30`) -/
inductive OCAObject where
  | captureBase (c : CaptureBase)
  | overlay (o : Overlay)

/-- One round of `get_oca_objects` (`facade/fetch.rs:215-254`). The code of a bundle is skipped (`_ => {}`). -/
def Facade.getObject (E : Env) (S : Serde) (f : Facade) (s : Said) : Res (List Str) (Option OCAObject) :=
  match f.cache.get .objectsJson s with
  | .err e => .err [e]
  | .panic => .panic
  | .ok none => .err [c!"No OCA Object found for said: " ++ s]
  | .ok (some b) => do
    let t ← Res.unwrap (fromUtf8 b)
    let k ← (objectType f.db s).mapErr fun e => [e]
    match k with
    | 0 => match S.parse t with
      | none => .err [c!"Failed to parse OCA object"]
      | some j => match CaptureBase.ofJson E j with
        | .ok c => .ok (some (.captureBase c))
        | .err _ => .err [c!"Failed to parse OCA object"]
        | .panic => .panic
    | 1 => .ok none
    | _ => match S.parse t with
      | none => .err [c!"Failed to parse OCA object"]
      | some j => match Overlay.ofJson E j with
        | some o => .ok (some (.overlay o))
        | none => .err [c!"Failed to parse OCA object"]

/-- `Facade::get_oca_objects` (`facade/fetch.rs:211-261`): the first error ends it -/
def Facade.getObjects (E : Env) (S : Serde) (f : Facade) : List Said → Res (List Str) (List OCAObject)
  | [] => .ok []
  | s :: t => do
    let o ← f.getObject E S s
    let r ← Facade.getObjects E S f t
    pure (o.toList ++ r)

/-- the commands of a history as an AST (`facade/fetch.rs:332-335`, `353-356`) -/
def stepsAst (l : List BuildStep) : OCAAst := { OCAAst.new with commands := l.map (·.command) }

/-- `Facade::get_oca_bundle_ast` (`facade/fetch.rs:348-358`). `none`: the fuel was not enough (`Facade.steps`). -/
def Facade.bundleAst (E : Env) (S : Serde) (f : Facade) (fuel : Nat) (s : Said) : Option (Res (List Str) OCAAst) :=
  match f.steps E S fuel s with
  | none => none
  | some (.ok l) => some (.ok (stepsAst l))
  | some (.err e) => some (.err e)
  | some .panic => some .panic

/-- the text of an error that dereferencing can report (`facade/build.rs:31-52`) -/
def VErr.text : VErr → Str
  | .unknownRefn n => c!"Reference " ++ n ++ c!" not found"
  | _ => []

/-- `Facade::get_oca_bundle_ocafile` (`facade/fetch.rs:326-344`), with the feature `local-references`; without it, it is as
with `deref = false`. -/
def Facade.bundleFile (E : Env) (S : Serde) (f : Facade) (fuel : Nat) (s : Said) (deref : Bool) : Option (Res (List Str) Str) :=
  match f.steps E S fuel s with
  | none => none
  | some (.err e) => some (.err e)
  | some .panic => some .panic
  | some (.ok l) =>
    if deref then
      match derefCommands E f.db.findRefn (stepsAst l).commands with
      | .ok cs => some (printAst { stepsAst l with commands := cs })
      | .err e => some (.err [e.text])
      | .panic => some .panic
    else some (printAst (stepsAst l))

/-- `Facade::parse_oca_bundle_to_ocafile` (`facade/fetch.rs:360-363`) -/
def Bundle.toFile (E : Env) (O : Order) (b : Bundle) : Res (List Str) Str := do
  let a ← b.toAst E O
  printAst a

/-- `Facade::fetch_all_refs` (`facade/fetch.rs:125-136`): the names with what they stand for -/
def fetchAllRefs {ε : Type} (db : Store) : Res ε (FMap Str) :=
  match db.getAll .references with
  | .ok m => foldRes (fun acc p => do
      let v ← Res.unwrap (fromUtf8 p.2)
      pure (acc.insert p.1 v)) FMap.empty m.l
  | _ => .panic

/-- The records of `Facade::search_oca_bundle` (`facade/fetch.rs:92-124`), given the identifiers the full-text index found; the whole search is
`Facade.search` in `Model/Search.lean`. -/
def Facade.searchRecords {ε : Type} (E : Env) (S : Serde) (f : Facade) : List Said → Res ε (List Bundle)
  | [] => .ok []
  | s :: t => match fetchBundle E S f.cache s with
    | .ok b => do
      let r ← Facade.searchRecords E S f t
      pure (b :: r)
    | _ => .panic

end OCA
