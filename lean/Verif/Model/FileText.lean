import Verif.Model.Instructions
import Verif.Model.Transformation
import Verif.Model.Facade
/-!
# OCA files of both kinds: the grammar of `oca-file`, the transformation grammar, and the facade's entry points for texts
-/
namespace OCA
open Peg

/-! ## Transformation files (`transformation/oca-file`) -/
namespace Gr

/-- `attr_key` of the transformation grammar (`transformation/oca-file/src/ocafile.pest:123`): no dot -/
def tAttrKey : P := compound .attrKey (cls isPropKeyChar)+ₚ

/-- `rename_attr_pair` (`:116`) -/
def renameAttrPair : P := atomic .renameAttrPair (tAttrKey ~ₚ argWs ?ₚ ~ₚ lit c!"=" ~ₚ argWs ?ₚ ~ₚ tAttrKey)

/-- `rename_attr_pairs` (`:117`) -/
def renameAttrPairs : P := compound .renameAttrPairs (argWs ~ₚ renameAttrPair)+ₚ

/-- `rename_attributes` (`:115`) -/
def renameAttributes : P := normal .renameAttributes (ilit c!"attribute" ~ₚ renameAttrPairs+ₚ)

/-- `rename` (`:83`) -/
def rename : P := normal .rename (ilit c!"rename" ~ₚ argWs*ₚ ~ₚ renameAttributes)

/-- `link_attr_pair` (`:120`) -/
def linkAttrPair : P := atomic .linkAttrPair (tAttrKey ~ₚ argWs ?ₚ ~ₚ lit c!"->" ~ₚ argWs ?ₚ ~ₚ tAttrKey)

/-- `link_attr_pairs` (`:121`) -/
def linkAttrPairs : P := compound .linkAttrPairs (argWs ~ₚ linkAttrPair)+ₚ

/-- `link_attributes` (`:119`) -/
def linkAttributes : P := normal .linkAttributes (ilit c!"attribute" ~ₚ linkAttrPairs+ₚ)

/-- `link` (`:84`) -/
def tLink : P := normal .tlink (ilit c!"link" ~ₚ argWs*ₚ ~ₚ linkAttributes)

/-- `commands` (`:73-79`) -/
def tCommands (U : Uni) : P := (from_ U |ₚ rename |ₚ tLink) ~ₚ newline ?ₚ

/-- `file` of the transformation grammar (`:139-143`) -/
def tFile (U : Uni) : P := normal .file
  ((emptyLine |ₚ metaCommentLine U topMetaKey |ₚ commentLine |ₚ tCommands U)*ₚ ~ₚ eoiTok)

/-- `file` of the grammar that only looks for meta lines (`oca-file/src/ocafile.pest:57-61`) -/
def topFile (U : Uni) : P := normal .file
  ((emptyLine |ₚ metaCommentLine U topMetaKey |ₚ commentLine |ₚ any)*ₚ ~ₚ eoiTok)

end Gr

namespace Ins

/-- the loop of `extract_rename_attribute` (`instructions/helpers.rs:14-31`): the first name, and the last other name -/
def renameLoop : List Tok → Option Str × Option Str → R (Option Str × Option Str)
  | [], acc => .ok acc
  | t :: r, acc => match t.rule with
    | .attrKey => match acc.1 with
      | none => renameLoop r (some t.text, acc.2)
      | some k => renameLoop r (some k, some t.text)
    | _ => .err c!"Unexpected pest rule"

/-- `extract_rename_attribute`, `extract_link_attribute` (`instructions/helpers.rs:4-49`) -/
def renamePair (t : Tok) : R (Str × Str) :=
  match renameLoop t.kids (none, none) with
  | .ok (some a, some b) => .ok (a, b)
  | .ok (none, _) => .err c!"Missing attribute name"
  | .ok (_, none) => .err c!"Missing new attribute name"
  | .err e => .err e
  | .panic => .panic

/-- the pairs of one token of pairs (`rename.rs:23-32`, `link.rs:23-32`) -/
def renamePairsLoop : List Tok → List (Str × Str) → R (List (Str × Str))
  | [], acc => .ok acc
  | t :: r, acc => match renamePair t with
    | .ok p => renamePairsLoop r (imInsert p.1 p.2 acc)
    | .err e => .err e
    | .panic => .panic

/-- the loop over the tokens of pairs (`rename.rs:20-40`, `link.rs:20-40`) -/
def renameAttrsLoop (pairs : Rule) : List Tok → List (Str × Str) → R (List (Str × Str))
  | [], acc => .ok acc
  | t :: r, acc => if t.rule = pairs then
      match renamePairsLoop t.kids acc with
      | .ok acc => renameAttrsLoop pairs r acc
      | .err e => .err e
      | .panic => .panic
    else .err c!"Invalid attributes in ATTRIBUTE instruction"

/-- the loop of `from_record` (`rename.rs:14-57`, `link.rs:14-57`): the last object wins -/
def tObjLoop (attrs pairs : Rule) (mk : Option (List (Str × Str)) → TObj) : List Tok → Option TObj → R (Option TObj)
  | [], old => .ok old
  | t :: r, _ => if t.rule = attrs then
      match renameAttrsLoop pairs t.kids [] with
      | .ok l => tObjLoop attrs pairs mk r (some (mk (some l)))
      | .err e => .err e
      | .panic => .panic
    else .err c!"unexpected token"

/-- `RenameInstruction::from_record` (`rename.rs:9-63`) -/
def renameOf (t : Tok) : R TCommand :=
  match tObjLoop .renameAttributes .renameAttrPairs .rename t.kids none with
  | .ok (some o) => .ok ⟨.rename, o⟩
  | .ok none => .panic
  | .err e => .err e
  | .panic => .panic

/-- `LinkInstruction::from_record` (`link.rs:9-63`) -/
def tLinkOf (t : Tok) : R TCommand :=
  match tObjLoop .linkAttributes .linkAttrPairs .link t.kids none with
  | .ok (some o) => .ok ⟨.link, o⟩
  | .ok none => .panic
  | .err e => .err e
  | .panic => .panic

/-- `Command::try_from_pair` (`transformation/oca-file/src/ocafile/mod.rs:29-36`): a FROM line is refused -/
def tCommandOf (t : Tok) : R TCommand :=
  match t.rule with
  | .rename => renameOf t
  | .tlink => tLinkOf t
  | _ => .err c!"unexpected token"

/-- One iteration of the loop of `parse_from_string` (`transformation/oca-file/src/ocafile/mod.rs:61-118`). The validator
accepts every command of an AST whose version is 1.0.0 (`transformation/ast/src/validator.rs:25-82`), as here. -/
def tLineStep (ast : TAst) (n : Nat) (t : Tok) : Res ParseErr TAst :=
  match t.rule with
  | .eoi => .ok ast
  | .comment => .ok ast
  | .metaComment => match metaLoop t.kids ([], []) with
    | .ok kv =>
      if kv.1.isEmpty then .err (.metaError c!"key is empty")
      else if kv.2.isEmpty then .err (.metaError c!"value is empty")
      else .ok { ast with metaMap := ast.metaMap.insert kv.1 kv.2 }
    | .err e => .err e
    | .panic => .panic
  | .emptyLine => .ok ast
  | _ => match tCommandOf t with
    | .ok c => .ok { ast with
        commands := ast.commands ++ [c],
        commandsMeta := ast.commandsMeta ++ [(ast.commands.length, ⟨n + 1, t.text⟩)] }
    | .err e => .err (.instruction e)
    | .panic => .panic

/-- the loop of `parse_from_string` (`transformation/oca-file/src/ocafile/mod.rs:61-118`) -/
def tLoop (ast : TAst) (n : Nat) : List Tok → Res ParseErr TAst
  | [] => .ok ast
  | t :: r => match tLineStep ast n t with
    | .ok ast => tLoop ast (n + 1) r
    | .err e => .err e
    | .panic => .panic

/-- one iteration of the loop over the lines (`oca-file/src/ocafile/mod.rs:46-84`): only meta lines matter -/
def topStep (m : FMap Str) (t : Tok) : Res ParseErr (FMap Str) :=
  match t.rule with
  | .metaComment => match metaLoop t.kids ([], []) with
    | .ok kv =>
      if kv.1.isEmpty then .err (.metaError c!"key is empty")
      else if kv.2.isEmpty then .err (.metaError c!"value is empty")
      else .ok (m.insert kv.1 kv.2)
    | .err e => .err e
    | .panic => .panic
  | _ => .ok m

/-- the loop over the lines (`oca-file/src/ocafile/mod.rs:46-84`) -/
def topLoop (m : FMap Str) : List Tok → Res ParseErr (FMap Str)
  | [] => .ok m
  | t :: r => match topStep m t with
    | .ok m => topLoop m r
    | .err e => .err e
    | .panic => .panic

end Ins

/-- `parse_from_string` of the transformation parser (`transformation/oca-file/src/ocafile/mod.rs:39-121`) -/
def parseTransformation (U : Uni) (s : Str) : Res ParseErr TAst :=
  match Gr.tFile U false s with
  | none => .err .grammar
  | some o => match o.ts with
    | [] => .panic
    | t :: _ => Ins.tLoop TAst.new 0 t.kids

/-! ## Files of either kind (`oca-file`) -/

/-- `OCAAst` (`oca-file/src/ocafile/mod.rs:18-22`) -/
inductive FileAst where
  | transformation (a : TAst)
  | semantics (a : OCAAst)

/-- `ParseError` (`oca-file/src/ocafile/error.rs:6-29`) -/
inductive FileErr where
  | grammar
  | metaError (s : Str)
  | semantics (e : ParseErr)
  | transformation (e : ParseErr)
deriving DecidableEq, Repr

/-- the same error, of the file -/
def FileErr.ofTop : ParseErr → FileErr
  | .metaError s => .metaError s
  | _ => .grammar

/-- the meta of a file (`oca-file/src/ocafile/mod.rs:27-84`) -/
def fileMeta (U : Uni) (s : Str) : Res FileErr (FMap Str) :=
  match Gr.topFile U false s with
  | none => .err .grammar
  | some o => match o.ts with
    | [] => .panic
    | t :: _ => (Ins.topLoop FMap.empty t.kids).mapErr FileErr.ofTop

/-- the result of a parser, as a file -/
def Res.mapOk {ε α β : Type} (f : α → β) : Res ε α → Res ε β
  | .ok a => .ok (f a)
  | .err e => .err e
  | .panic => .panic

/-- `parse_from_string` (`oca-file/src/ocafile/mod.rs:26-103`) -/
def parseFile (E : Env) (U : Uni) (s : Str) : Res FileErr FileAst :=
  match fileMeta U s with
  | .ok m => match m.get c!"precompiler" with
    | some v =>
      if v = c!"transformation" then ((parseTransformation U s).mapErr FileErr.transformation).mapOk FileAst.transformation
      else if v = c!"semantics" then ((parseText E U s).mapErr FileErr.semantics).mapOk FileAst.semantics
      else .err (.metaError c!"unknown precompiler")
    | none => ((parseText E U s).mapErr FileErr.semantics).mapOk FileAst.semantics
  | .err e => .err e
  | .panic => .panic

/-! ## The facade's entry points -/

/-- `Error`, `ValidationError` (`oca/src/facade/build.rs:22-52`) -/
inductive FacadeErr where
  | file (e : FileErr)
  | validation (es : List VErr)
  | deprecated
deriving DecidableEq, Repr

/-- the free function `build_from_ocafile` (`oca/src/facade/build.rs:68-85`) -/
def buildText (E : Env) (U : Uni) (Os : Nat → Order) (s : Str) : Res FacadeErr Bundle :=
  match (parseFile E U s).mapErr FacadeErr.file with
  | .ok (.transformation _) => .err .deprecated
  | .ok (.semantics a) => ((fromAst E Os none a).mapErr fun es => FacadeErr.validation (es.map VErr.build)).mapOk (·.bundle)
  | .err e => .err e
  | .panic => .panic

/-- `Facade::validate_ocafile` (`oca/src/facade/build.rs:115-122`) -/
def Facade.validateText (E : Env) (U : Uni) (S : Serde) (Os : Nat → Order) (f : Facade) (s : Str) : Res (List VErr) (Facade × Build) := do
  let ast ← (parseText E U s).mapErr fun e => [VErr.parse e]
  let (base, ast) ← checkBase E S f.cache ast
  let (db, b) ← buildWithRefs E Os f.db base ast
  pure ({ f with db := db }, b)

/-- `Facade::build_from_ocafile` (`oca/src/facade/build.rs:141-154`). On an error the facade is as before. -/
def Facade.buildFromText (E : Env) (U : Uni) (S : Serde) (Os : Nat → Order) (O : SetOrder) (f : Facade) (s : Str) :
    Res FacadeErr (Facade × Bundle) :=
  match (parseFile E U s).mapErr FacadeErr.file with
  | .ok (.transformation _) => .err .deprecated
  | .ok (.semantics _) => match (f.validateText E U S Os s).mapErr FacadeErr.validation with
    | .ok (f, b) => match f.build E S O b with
      | .ok f => .ok (f, b.bundle)
      | .err e => .err e
      | .panic => .panic
    | .err e => .err e
    | .panic => .panic
  | .err e => .err e
  | .panic => .panic

/-- `Facade::validate_ocafile` without the feature `local-references` (`oca/src/facade/build.rs:92-100`) -/
def Facade.validateTextPlain (E : Env) (U : Uni) (S : Serde) (Os : Nat → Order) (f : Facade) (s : Str) : Res (List VErr) Build := do
  let ast ← (parseText E U s).mapErr fun e => [VErr.parse e]
  let (base, ast) ← checkBase E S f.cache ast
  (fromAst E Os base ast).mapErr fun es => es.map VErr.build

/-- `Facade::validate_ocafile_with_external_references` (`oca/src/facade/build.rs:102-113`): the names are looked up in, and the
file's name is saved to, `refs`; the facade stays as it is. -/
def Facade.validateTextExternal (E : Env) (U : Uni) (S : Serde) (Os : Nat → Order) (f : Facade) (refs : Store) (s : Str) :
    Res (List VErr) (Store × Build) := do
  let ast ← (parseText E U s).mapErr fun e => [VErr.parse e]
  let (base, ast) ← checkBase E S f.cache ast
  buildWithRefs E Os refs base ast

/-- `Facade::build_from_ocafile` (`oca/src/facade/build.rs:141-154`) without the feature `local-references` -/
def Facade.buildFromTextPlain (E : Env) (U : Uni) (S : Serde) (Os : Nat → Order) (O : SetOrder) (f : Facade) (s : Str) :
    Res FacadeErr (Facade × Bundle) :=
  match (parseFile E U s).mapErr FacadeErr.file with
  | .ok (.transformation _) => .err .deprecated
  | .ok (.semantics _) => match (f.validateTextPlain E U S Os s).mapErr FacadeErr.validation with
    | .ok b => match f.build E S O b with
      | .ok f => .ok (f, b.bundle)
      | .err e => .err e
      | .panic => .panic
    | .err e => .err e
    | .panic => .panic
  | .err e => .err e
  | .panic => .panic

end OCA
