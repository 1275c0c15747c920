import Verif.Model.Bundle
import Verif.Model.Build
/-!
# Transformations (`transformation/`)
-/
namespace OCA

/-- `ObjectKind` (`transformation/ast/src/ast/mod.rs:41-45`) with `RenameContent`, `LinkContent` (`:54-63`) -/
inductive TObj where
  | rename (attributes : Option (List (Str × Str)))
  | link (attributes : Option (List (Str × Str)))
deriving DecidableEq, Repr

/-- `CommandType` (`ast/mod.rs:35-38`) -/
inductive TKind where
  | rename | link
deriving DecidableEq, Repr

/-- `Command` (`ast/mod.rs:21-26`) -/
structure TCommand where
  kind : TKind
  obj : TObj
deriving DecidableEq, Repr

/-- `TransformationAST` (`ast/mod.rs:13-18`) -/
structure TAst where
  version : Str
  commands : List TCommand
  commandsMeta : List (Nat × CommandMeta)
  metaMap : FMap Str

/-- `TransformationAST::new` (`ast/mod.rs:275-283`) -/
def TAst.new : TAst := ⟨c!"1.0.0", [], [], FMap.empty⟩

/-- `Transformation` (`transformation-file/src/state/mod.rs:10-17`); the `IndexMap` is an ordered association list -/
structure Transformation where
  said : Option Said := none
  source : Option Str := none
  target : Option Str := none
  attributes : List (Str × Str) := []
deriving DecidableEq, Repr

/-- `str::replace(p, "")`: the leftmost non-overlapping occurrences of `p` go; `skip` characters belong to the
occurrence just found. (`p` is not empty where it is used.) -/
def eraseAll (p : Str) : Nat → Str → Str
  | _, [] => []
  | 0, c :: s => match stripPrefix p (c :: s) with
    | some _ => eraseAll p (p.length - 1) s
    | none => c :: eraseAll p 0 s
  | k + 1, _ :: s => eraseAll p k s

/-- `Transformation::rename`, `Transformation::link` (`state/mod.rs:42-52`) -/
def Transformation.addAll (t : Transformation) (l : List (Str × Str)) : Transformation :=
  { t with attributes := imExtend t.attributes l }

/-- `apply_command` (`build.rs:73-102`): no error is ever collected; a command whose kind and object differ is ignored. -/
def Transformation.apply (base : Option Transformation) (c : TCommand) : Transformation :=
  let t := base.getD {}
  match c.kind, c.obj with
  | .rename, .rename (some l) => t.addAll l
  | .link, .link (some l) => t.addAll l
  | _, _ => t

/-- an optional text -/
def optStrJson : Option Str → Json
  | some s => .str s
  | none => .null

/-- JSON fields (`state/mod.rs:10-17`) -/
def Transformation.fieldsWith (t : Transformation) (d : Json) : List (Str × Json) :=
  [(c!"d", d), (c!"source", optStrJson t.source), (c!"target", optStrJson t.target),
   (c!"attributes", .obj (t.attributes.map fun p => (p.1, .str p.2)))]

/-- What is digested for the SAID (`fill_said`, `state/mod.rs:54-58`); the version string is a function of the other
fields, as for bundles. -/
def Transformation.digestInput (E : Env) (t : Transformation) : Json := versioned E (t.fieldsWith (.str placeholder))

/-- `fill_said` (`state/mod.rs:54-58`) -/
def Transformation.fillSaid (E : Env) (t : Transformation) : Transformation :=
  { t with said := some (E.digest (t.digestInput E)) }

/-- The start of `from_ast` (`build.rs:28-38`): with any meta, `source` and `target` must both be there. -/
def transBase {ε : Type} (m : FMap Str) : Res ε (Option Transformation) :=
  if m.l = [] then .ok none else do
    let s ← Res.unwrap (m.get c!"source")
    let t ← Res.unwrap (m.get c!"target")
    pure (some { source := some (eraseAll c!"refs:" 0 s), target := some (eraseAll c!"refs:" 0 t) })

/-- `from_ast` (`build.rs:25-71`): `base.unwrap()` aborts when there is neither meta nor command. -/
def transBuild {ε : Type} (E : Env) (ast : TAst) : Res ε Transformation := do
  let base ← transBase ast.metaMap
  let base := ast.commands.foldl (fun b c => some (Transformation.apply b c)) base
  let t ← Res.unwrap base
  pure (t.fillSaid E)

/-! ## The bundle of a model and its transformations (`oca/src/facade/bundle.rs`) -/

/-- `BundleElement` (`bundle.rs:16-20`) -/
inductive BundleElement where
  | structural (b : Bundle)
  | transformation (t : Transformation)

/-- `Bundle` (`bundle.rs:22-32`) -/
structure Package where
  said : Option Said := none
  structural : Option Bundle := none
  transformations : List Transformation := []

/-- `Bundle::add` (`bundle.rs:43-58`) -/
def Package.add (p : Package) : BundleElement → Package
  | .structural b => { p with structural := some b }
  | .transformation t => { p with transformations := p.transformations ++ [t] }

end OCA
