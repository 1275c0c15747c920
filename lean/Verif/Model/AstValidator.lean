import Verif.Model.Ast
/-!
# AST validation (`semantics/oca-ast/src/validator.rs`) and the parse loop
(`semantics/oca-file/src/ocafile/mod.rs:44-125`)
-/
namespace OCA

/-- Errors of the AST validator. The nesting in `Error::Validation(vec![..])` is flattened. -/
inductive AstErr where
  | missingVersion
  | invalidVersion (v : Str)
  | addExisting (keys : List Str)
  | removeMissingAttr
  | removeMissingProp
deriving DecidableEq, Repr

/-- One command's effect in `extract_attributes` (`validator.rs:230-249`). -/
def extractAttrStep (acc : List (Str × NAttr)) (c : Command) : List (Str × NAttr) :=
  match c.kind, c.obj with
  | .remove, .captureBase cc =>
    imDrop (fun k => imHas k (cc.attributes.getD [])) acc
  | .add, .captureBase cc => imExtend acc (cc.attributes.getD [])
  | _, _ => acc

/-- `extract_attributes` (`validator.rs:227-250`) -/
def extractAttributes (cs : List Command) : List (Str × NAttr) := cs.foldl extractAttrStep []

/-- One command's effect in `extract_properties` (`validator.rs:255-274`). -/
def extractPropStep (acc : List (Str × NVal)) (c : Command) : List (Str × NVal) :=
  match c.kind, c.obj with
  | .remove, .captureBase cc =>
    imDrop (fun k => imHas k (cc.properties.getD [])) acc
  | .add, .captureBase cc => imExtend acc (cc.properties.getD [])
  | _, _ => acc

/-- `extract_properties` (`validator.rs:252-275`) -/
def extractProperties (cs : List Command) : List (Str × NVal) := cs.foldl extractPropStep []

/-- `rule_remove_attr_if_exist` (`validator.rs:123-178`) for a capture base command. -/
def ruleRemove (cs : List Command) (cc : CaptureContent) : Res (List AstErr) Unit :=
  let e1 := match cc.attributes with
    | some l => if l.all (fun p => imHas p.1 (extractAttributes cs)) then [] else [AstErr.removeMissingAttr]
    | none => []
  let e2 := match cc.properties with
    | some l => if l.all (fun p => imHas p.1 (extractProperties cs)) then [] else [AstErr.removeMissingProp]
    | none => []
  if (e1 ++ e2).isEmpty then .ok () else .err (e1 ++ e2)

/-- `rule_add_attr_if_not_exist` (`validator.rs:189-225`) for a capture base command. -/
def ruleAdd (cs : List Command) (cc : CaptureContent) : Res (List AstErr) Unit :=
  let existing := ((cc.attributes.getD []).map (·.1)).filter (fun k => imHas k (extractAttributes cs))
  if existing.isEmpty then .ok () else .err [AstErr.addExisting existing]

/-- `validate_1_0_0` (`validator.rs:53-112`) -/
def validate100 (cs : List Command) (c : Command) : Res (List AstErr) Unit :=
  match c.kind, c.obj with
  | .add, .captureBase cc => ruleAdd cs cc
  | .remove, .captureBase cc => ruleRemove cs cc
  | _, _ => .ok ()

/-- `OCAValidator::validate` (`validator.rs:25-50`) -/
def astValidate (ast : OCAAst) (c : Command) : Res (List AstErr) Unit :=
  if ast.version = c!"1.0.0" then validate100 ast.commands c
  else if ast.version = [] then .err [AstErr.missingVersion]
  else .err [AstErr.invalidVersion ast.version]

/-! ## The parse loop -/

/-- What the grammar (`ocafile.pest`) and `Command::try_from_pair` make of one top-level pair of the
file. The grammar itself and the instruction builders are not modelled here: an instruction line is
given with its text and the command (or error) it denotes. -/
inductive Line where
  | eoi
  | comment
  | emptyLine
  | metaLine (key value : Str)
  | instr (raw : Str) (cmd : Res Str Command)

/-- `ParseError` (`ocafile/error.rs`) -/
inductive ParseErr where
  | metaError (s : Str)
  | grammar
  | instruction (s : Str)
  | validation (e : List AstErr)
deriving DecidableEq, Repr

/-- One iteration of the loop of `parse_from_string` (`ocafile/mod.rs:66-123`) at pair index `n`.
Instruction parsing that aborts (a panic inside an instruction builder) aborts the parse. -/
def parseLine (ast : OCAAst) (n : Nat) : Line → Res ParseErr OCAAst
  | .eoi => .ok ast
  | .comment => .ok ast
  | .emptyLine => .ok ast
  | .metaLine k v =>
    if k.isEmpty then .err (.metaError c!"key is empty")
    else if v.isEmpty then .err (.metaError c!"value is empty")
    else .ok { ast with metaMap := ast.metaMap.insert k v }
  | .instr raw cmd =>
    match cmd with
    | .panic => .panic
    | .err e => .err (.instruction e)
    | .ok c =>
      match astValidate ast c with
      | .ok _ => .ok { ast with
          commands := ast.commands ++ [c],
          commandsMeta := ast.commandsMeta ++ [(ast.commands.length, ⟨n + 1, raw⟩)] }
      | .err e => .err (.validation e)
      | .panic => .panic

/-- The loop of `parse_from_string` from pair index `n` on. -/
def parseLoop (ast : OCAAst) (n : Nat) : List Line → Res ParseErr OCAAst
  | [] => .ok ast
  | l :: ls =>
    match parseLine ast n l with
    | .ok ast => parseLoop ast (n + 1) ls
    | .err e => .err e
    | .panic => .panic

/-- `parse_from_string` (`ocafile/mod.rs:44-125`) after the grammar. (`commands_meta.insert` never
overwrites: the key is the index of the command just pushed.) -/
def parseLines (ls : List Line) : Res ParseErr OCAAst := parseLoop OCAAst.new 0 ls

end OCA
