import Verif.Model.AstJson
import Verif.Model.JsonText
import Verif.Model.BundleJson
import Verif.Model.Transformation
/-!
# Whole syntax trees as JSON (`semantics/oca-ast/src/ast/mod.rs:20-40`, `transformation/ast/src/ast/mod.rs:14-34`)

Both trees have the same four members. As for bundles, when a document has both an error and something that aborts, the
model does not follow which of the two the reader meets first. A key of `commands_meta` written with escapes is refused
by `serde_json` but not here.
-/
namespace OCA

/-- a key of an `IndexMap<usize, _>`: `serde_json` writes a number as its decimal digits and reads such a key as a JSON number -/
def natOfKey (s : Str) : Option Nat :=
  match readNat s with
  | some (n, []) => some n
  | _ => none

/-- a `usize` (of 64 bits) -/
def jUsize : Json → Option Nat
  | .num n => if n < 18446744073709551616 then some n else none
  | _ => none

/-- `IndexMap::insert` with number keys -/
def natInsert {V : Type} (k : Nat) (v : V) : List (Nat × V) → List (Nat × V)
  | [] => [(k, v)]
  | p :: l => if p.1 = k then (k, v) :: l else p :: natInsert k v l

/-- derived `Serialize for CommandMeta` (`ast/mod.rs:36-40`) -/
def CommandMeta.toJson (m : CommandMeta) : Json := .obj [(c!"line_number", .num m.lineNumber), (c!"raw_line", .str m.rawLine)]

/-- derived `Deserialize for CommandMeta` (`ast/mod.rs:36-40`) -/
def CommandMeta.ofJson (j : Json) : Option CommandMeta :=
  match structMembers [c!"line_number", c!"raw_line"] j with
  | none => none
  | some l => match jfield c!"line_number" l, jfield c!"raw_line" l with
    | some (some a), some (some b) => match jUsize a, jStr b with
      | some n, some s => some ⟨n, s⟩
      | _, _ => none
    | _, _ => none

/-- one entry of `commands_meta` -/
def metaEntryOfJson (p : Str × Json) : Option (Nat × CommandMeta) :=
  match natOfKey p.1, CommandMeta.ofJson p.2 with
  | some n, some m => some (n, m)
  | _, _ => none

/-- `IndexMap<usize, CommandMeta>`: a later equal key replaces the value in its place -/
def metasOfJson : Json → Option (List (Nat × CommandMeta))
  | .obj l => (allSome metaEntryOfJson l).map fun r => r.foldl (fun m p => natInsert p.1 p.2 m) []
  | _ => none

/-- `HashMap<String, String>`: the last of equal keys counts -/
def strMapOfJson : Json → Option (FMap Str)
  | .obj l => (allSome (fun p : Str × Json => (jStr p.2).map fun v => (p.1, v)) l).map FMap.ofList
  | _ => none

/-- the members of both trees -/
def astMembers : List Str := [c!"version", c!"commands", c!"commands_meta", c!"meta"]

/-- derived `Serialize` of a tree (`ast/mod.rs:20-26`); `meta` comes in the order `iter` of the hash map -/
def treeJson (version : Str) (commands : List Json) (metas : List (Nat × CommandMeta)) (iter : List (Str × Str)) : Json :=
  .obj [(c!"version", .str version), (c!"commands", .arr commands),
    (c!"commands_meta", .obj (metas.map fun p => (printNat p.1, p.2.toJson))),
    (c!"meta", .obj (iter.map fun p => (p.1, .str p.2)))]

/-- a required field -/
def needField (k : Str) (l : List (Str × Json)) : DRes Json :=
  match jfield k l with
  | some (some j) => .ok j
  | _ => .err ()

/-- a `Vec<Command>` -/
def vecOfJson {α : Type} (f : Json → DRes α) : Json → DRes (List α)
  | .arr l => collectRes f l
  | _ => .err ()

/-- derived `Deserialize` of a tree (`ast/mod.rs:20-26`), `f` reading a command -/
def treeOfJson {α β : Type} (f : Json → DRes α) (mk : Str → List α → List (Nat × CommandMeta) → FMap Str → β) (j : Json) : DRes β :=
  match structMembers astMembers j with
  | none => .err ()
  | some l => do
    let v ← needField c!"version" l
    let v ← DRes.ofOption (jStr v)
    let cs ← needField c!"commands" l
    let cs ← vecOfJson f cs
    let ms ← needField c!"commands_meta" l
    let ms ← DRes.ofOption (metasOfJson ms)
    let m ← needField c!"meta" l
    let m ← DRes.ofOption (strMapOfJson m)
    pure (mk v cs ms m)

/-- `Serialize for OCAAst` (`semantics/oca-ast/src/ast/mod.rs:20-26`) -/
def OCAAst.toJson (O : Order) (a : OCAAst) : Json :=
  treeJson a.version (a.commands.map Command.toJson) a.commandsMeta (O.iter 100 [] a.metaMap)

/-- `Deserialize for OCAAst` -/
def OCAAst.ofJson (E : Env) (j : Json) : DRes OCAAst := treeOfJson (Command.ofJson E) OCAAst.mk j

/-! ## Transformation trees -/

/-- `CommandType` by name (`transformation/ast/src/ast/mod.rs:35-38`) -/
def TKind.toStr : TKind → Str
  | .rename => c!"Rename"
  | .link => c!"Link"

/-- derived `Deserialize for CommandType` -/
def TKind.ofStr (s : Str) : Option TKind :=
  if s = c!"Rename" then some .rename else if s = c!"Link" then some .link else none

/-- derived `Serialize for RenameContent`, `LinkContent` (`:54-64`) -/
def tContentJson (o : Option (List (Str × Str))) : Json :=
  .obj (optField c!"attributes" (o.map fun l => .obj (l.map fun p => (p.1, .str p.2))))

/-- `Serialize for ObjectKind` (`:122-140`) -/
def TObj.toFields : TObj → List (Str × Json)
  | .rename o => [(c!"object_kind", .str c!"Rename"), (c!"content", tContentJson o)]
  | .link o => [(c!"object_kind", .str c!"Link"), (c!"content", tContentJson o)]

/-- derived `Serialize for Command` (`:22-28`) -/
def TCommand.toJson (c : TCommand) : Json := .obj ((c!"type", .str c.kind.toStr) :: c.obj.toFields)

/-- an `Option<IndexMap<String, String>>` -/
def tPairsOfJson : Option Json → Option (Option (List (Str × Str)))
  | none => some none
  | some .null => some none
  | some (.obj l) => (allSome (fun p : Str × Json => (jStr p.2).map fun v => (p.1, v)) l).map fun r => some (imExtend [] r)
  | _ => none

/-- derived `Deserialize for RenameContent`, `LinkContent` (`:54-64`) -/
def tContentOfJson (j : Json) : Option (Option (List (Str × Str))) :=
  match structMembers [c!"attributes"] j with
  | none => none
  | some l => (jfield c!"attributes" l).bind tPairsOfJson

/-- What the value of `object_kind` says (`:238-255`): the two known kinds take the next entry as content, another text
takes nothing and leaves the kind unset. -/
inductive TNext where
  | content (f : Option (List (Str × Str)) → TObj)
  | nothing

/-- the match of `:239-255` -/
def tNext (s : Str) : TNext :=
  if s = c!"Rename" then .content .rename else if s = c!"Link" then .content .link else .nothing

/-- the `type` entry (`:228-233`) -/
def tVisitType (kind : Option TKind) (v : Json) : Option TKind :=
  match kind with
  | none => (variantName v).bind TKind.ofStr
  | some _ => none

/-- the value of the `object_kind` entry (`:234-238`) -/
def tVisitObj (o : Option TObj) (v : Json) : Option TNext :=
  match o with
  | none => (jStr v).map tNext
  | some _ => none

/-- `CommandVisitor::visit_map` (`transformation/ast/src/ast/mod.rs:219-266`) -/
def TCommand.visit (kind : Option TKind) (o : Option TObj) : List (Str × Json) → Option TCommand
  | [] => match kind, o with
    | some k, some x => some ⟨k, x⟩
    | _, _ => none
  | [(key, v)] =>
    if key = c!"type" then
      match tVisitType kind v with
      | some k => TCommand.visit (some k) o []
      | none => none
    else if key = c!"object_kind" then
      match tVisitObj o v with
      | some .nothing => TCommand.visit kind o []
      | _ => none
    else none
  | (key, v) :: (key', c) :: t =>
    if key = c!"type" then
      match tVisitType kind v with
      | some k => TCommand.visit (some k) o ((key', c) :: t)
      | none => none
    else if key = c!"object_kind" then
      match tVisitObj o v with
      | some (.content f) => match tContentOfJson c with
        | some a => TCommand.visit kind (some (f a)) t
        | none => none
      | some .nothing => TCommand.visit kind o ((key', c) :: t)
      | none => none
    else none

/-- `Deserialize for Command` (`:170-272`): only an object -/
def TCommand.ofJson : Json → Option TCommand
  | .obj l => TCommand.visit none none l
  | _ => none

/-- `Serialize for TransformationAST` (`:14-20`) -/
def TAst.toJson (O : Order) (a : TAst) : Json :=
  treeJson a.version (a.commands.map TCommand.toJson) a.commandsMeta (O.iter 101 [] a.metaMap)

/-- `Deserialize for TransformationAST` -/
def TAst.ofJson (j : Json) : DRes TAst := treeOfJson (fun j => DRes.ofOption (TCommand.ofJson j)) TAst.mk j

end OCA
