import Verif.Model.Ast
/-!
# Printing an AST as an OCA file (`semantics/oca-file/src/ocafile/mod.rs:127-523`)

`IndexMap`s are printed in their order. Values are printed between quotes as they are: nothing is escaped.
-/
namespace OCA
namespace Pr

/-- `format_reference` (`mod.rs:130-135`): only SAIDs can be printed. -/
def reference {ε : Type} : RefVal → Res ε Str
  | .said s => .ok (c!"refs:" ++ s)
  | .name _ => .panic

/-- `oca_file_format` (`mod.rs:136-149`) -/
def attrType {ε : Type} : NAttr → Res ε Str
  | .ref r => reference r
  | .val t => .ok t.toStr
  | .arr a => match attrType a with
    | .ok s => .ok (c!"Array[" ++ s ++ c!"]")
    | .err e => .err e
    | .panic => .panic
  | .null => .ok []

/-- the loop over the attributes (`mod.rs:172-177`) -/
def attrTypes {ε : Type} : List (Str × NAttr) → Res ε Str
  | [] => .ok []
  | (k, a) :: t => match attrType a with
    | .ok s => match attrTypes t with
      | .ok r => .ok (c!" " ++ k ++ c!"=" ++ s ++ r)
      | .err e => .err e
      | .panic => .panic
    | .err e => .err e
    | .panic => .panic

/-- `v` between quotes -/
def quoted (v : Str) : Str := c!"\"" ++ v ++ c!"\""

/-- `IndexMap::remove` (`indexmap` 1.9): the last entry takes the place of the removed one. -/
def swapRemove {V : Type} (k : Str) : List (Str × V) → List (Str × V)
  | [] => []
  | p :: t => if p.1 = k then (match t.getLast? with
      | none => []
      | some q => q :: t.dropLast)
    else p :: swapRemove k t

/-- ` key="value"` for every plain value (`mod.rs:202-208, 218-224` and the like) -/
def quotedPairs (l : List (Str × NVal)) : Str :=
  l.flatMap fun p => match p.2 with
    | .val v => c!" " ++ p.1 ++ c!"=" ++ quoted v
    | _ => []

/-- ` key=value` for every plain value (`mod.rs:234-240` and the like) -/
def barePairs (l : List (Str × NVal)) : Str :=
  l.flatMap fun p => match p.2 with
    | .val v => c!" " ++ p.1 ++ c!"=" ++ v
    | _ => []

/-- the language, if there is one (`mod.rs:195-199` and the like) -/
def langText (ps : List (Str × NVal)) : Str :=
  match imGet c!"lang" ps with
  | some (.val l) => l ++ c!" "
  | _ => []

/-- the properties other than the language, if there are any (`mod.rs:200-209` and the like) -/
def propsText (f : List (Str × NVal) → Str) (ps : List (Str × NVal)) : Str :=
  let ps := swapRemove c!"lang" ps
  if ps.isEmpty then [] else c!"PROPS " ++ f ps

/-- the properties where the language is not special (`mod.rs:231-242, 351-362`) -/
def plainPropsText (ps : List (Str × NVal)) : Str := if ps.isEmpty then [] else c!"PROPS " ++ barePairs ps

/-- `join(", ")` -/
def joinComma : List Str → Str
  | [] => []
  | [a] => a
  | a :: t => a ++ c!", " ++ joinComma t

/-- the codes of a list (`mod.rs:247-257`) -/
def codes (l : List NVal) : Str :=
  joinComma (l.filterMap fun v => match v with
    | .val s => some (quoted s)
    | _ => none)

/-- one attribute of ENTRY_CODE (`mod.rs:245-289`) -/
def entryCodeAttr (p : Str × NVal) : Str :=
  match p.2 with
  | .arr vs => c!" " ++ p.1 ++ c!"=[" ++ codes vs ++ c!"]"
  | .obj gs => c!" " ++ p.1 ++ c!"={" ++ joinComma (gs.filterMap fun g => match g.2 with
      | .arr vs => some (quoted g.1 ++ c!": [" ++ codes vs ++ c!"]")
      | _ => none) ++ c!"}"
  | .val s => c!" " ++ p.1 ++ c!"=" ++ quoted s
  | .ref _ => []

/-- one attribute of ENTRY (`mod.rs:315-343`); an object is printed without a space before it -/
def entryAttr (p : Str × NVal) : Str :=
  match p.2 with
  | .obj es => p.1 ++ c!"={" ++ joinComma (es.filterMap fun e => match e.2 with
      | .val l => some (quoted e.1 ++ c!": " ++ quoted l)
      | _ => none) ++ c!"}"
  | .val s => c!" " ++ p.1 ++ c!"=" ++ quoted s
  | _ => []

/-- `prop_name.replace("frame_", "")` (`mod.rs:403`); the number counts the characters still to be dropped. -/
def replaceFrameGo : Nat → Str → Str
  | _, [] => []
  | n + 1, _ :: s => replaceFrameGo n s
  | 0, c :: s => match stripPrefix c!"frame_" (c :: s) with
    | some _ => replaceFrameGo 5 s
    | none => c :: replaceFrameGo 0 s

/-- `prop_name.replace("frame_", "")` (`mod.rs:403`) -/
def replaceFrame (s : Str) : Str := replaceFrameGo 0 s

/-- the properties of ATTR_FRAMING (`mod.rs:401-408`) -/
def framingProps (ps : List (Str × NVal)) : Str :=
  ps.flatMap fun p => match p.2 with
    | .val v => c!"        " ++ replaceFrame p.1 ++ c!"=" ++ quoted v ++ c!" \\\n"
    | _ => []

/-- the pairs of one frame (`mod.rs:423-436`) -/
def framePairs : NVal → Str
  | .obj fs => fs.flatMap fun f => match f.2 with
    | .val v => c!"\n                " ++ quoted f.1 ++ c!": " ++ quoted v ++ c!","
    | _ => []
  | _ => []

/-- one frame (`mod.rs:415-438`) -/
def frame (f : Str × NVal) : Str :=
  c!"\n            " ++ quoted f.1 ++ c!": {" ++ framePairs f.2 ++ c!"\n            },"

/-- one attribute of ATTR_FRAMING (`mod.rs:411-446`) -/
def framingAttr (p : Str × NVal) : Str :=
  match p.2 with
  | .obj fs => c!"\n        " ++ p.1 ++ c!"={" ++ fs.flatMap frame ++ c!"\n        }"
  | _ => []

/-- `o_type.to_string().to_case(Case::UpperSnake)` (`mod.rs:452`) -/
def upperSnake : OvKind → Str
  | .label => c!"LABEL"
  | .information => c!"INFORMATION"
  | .encoding => c!"ENCODING"
  | .characterEncoding => c!"CHARACTER_ENCODING"
  | .format => c!"FORMAT"
  | .metaOv => c!"META"
  | .standard => c!"STANDARD"
  | .cardinality => c!"CARDINALITY"
  | .conditional => c!"CONDITIONAL"
  | .conformance => c!"CONFORMANCE"
  | .entryCode => c!"ENTRY_CODE"
  | .entry => c!"ENTRY"
  | .unit => c!"UNIT"
  | .attributeMapping => c!"ATTRIBUTE_MAPPING"
  | .entryCodeMapping => c!"ENTRY_CODE_MAPPING"
  | .subset => c!"SUBSET"
  | .unitMapping => c!"UNIT_MAPPING"
  | .layout => c!"LAYOUT"
  | .sensitivity => c!"SENSITIVITY"
  | .link => c!"LINK"
  | .attributeFraming => c!"ATTRIBUTE_FRAMING"

/-- apply to the content of an `Option` -/
def onSome {α : Type} (f : α → Str) : Option α → Str
  | none => []
  | some a => f a

/-- ADD of an overlay (`mod.rs:189-487`), after `ADD ` -/
def overlayText (k : OvKind) (c : Content) : Str :=
  match k with
  | .metaOv => c!"META " ++ onSome (fun ps => langText ps ++ propsText quotedPairs ps) c.properties
  | .unit => c!"UNIT " ++ onSome (fun as => c!"ATTRS" ++ quotedPairs as) c.attributes
  | .entryCode => c!"ENTRY_CODE " ++ onSome plainPropsText c.properties ++
      onSome (fun as => c!"ATTRS" ++ as.flatMap entryCodeAttr) c.attributes
  | .entry => c!"ENTRY " ++ onSome (fun ps => langText ps ++ propsText barePairs ps ++
      onSome (fun as => c!"ATTRS " ++ as.flatMap entryAttr) c.attributes) c.properties
  | .conditional => c!"CONDITION " ++ onSome plainPropsText c.properties ++
      onSome (fun as => c!"ATTRS" ++ quotedPairs as) c.attributes
  | .link => c!"LINK " ++ onSome (fun (ps : List (Str × NVal)) => match imGet c!"target" ps with
      | some (.ref (.said s)) => c!"refs:" ++ s ++ c!" "
      | _ => []) c.properties ++ onSome (fun as => c!"ATTRS" ++ quotedPairs as) c.attributes
  | .attributeFraming => c!"ATTR_FRAMING \\\n" ++ onSome framingProps c.properties ++
      onSome (fun as => c!"    ATTRS \\" ++ as.flatMap framingAttr) c.attributes
  | k => upperSnake k ++ c!" " ++ onSome (fun ps => langText ps ++ propsText quotedPairs ps) c.properties ++
      onSome (fun as => c!"ATTRS" ++ quotedPairs as) c.attributes

/-- the classification of ADD (`mod.rs:179-187`): printed directly after the attributes -/
def addProps (ps : List (Str × NVal)) : Str :=
  ps.flatMap fun p => if p.1 = c!"classification" then (match p.2 with
    | .val v => c!"CLASSIFICATION " ++ v
    | _ => []) else []

/-- ADD of a capture base (`mod.rs:169-188`), after `ADD `; flagged attributes are not printed. -/
def addBase {ε : Type} (c : CaptureContent) : Res ε Str :=
  match c.attributes with
  | none => .ok (onSome addProps c.properties)
  | some as => match attrTypes as with
    | .ok s => .ok (c!"ATTRIBUTE" ++ s ++ onSome addProps c.properties)
    | .err e => .err e
    | .panic => .panic

/-- REMOVE of a capture base (`mod.rs:492-507`), after `REMOVE ` -/
def removeBase (c : CaptureContent) : Str :=
  onSome (fun as => c!"ATTRIBUTE" ++ as.flatMap fun p => c!" " ++ p.1) c.attributes ++
  onSome (fun ps => ps.flatMap fun p => if p.1 = c!"classification" then c!"CLASSIFICATION" else []) c.properties

/-- one command (`mod.rs:162-517`), without the final newline; the two `todo!()` abort. -/
def command {ε : Type} (c : Command) : Res ε Str :=
  match c.kind, c.obj with
  | .add, .captureBase cc => match addBase cc with
    | .ok s => .ok (c!"ADD " ++ s)
    | .err e => .err e
    | .panic => .panic
  | .add, .overlay t cc => .ok (c!"ADD " ++ overlayText t.kind cc)
  | .add, .ocaBundle _ => .ok c!"ADD "
  | .remove, .captureBase cc => .ok (c!"REMOVE " ++ removeBase cc)
  | .remove, .overlay _ _ => .panic
  | .remove, .ocaBundle _ => .ok []
  | .«from», _ => .ok c!"FROM "
  | .modify, _ => .panic

/-- all commands -/
def commands {ε : Type} : List Command → Res ε Str
  | [] => .ok []
  | c :: t => match command c with
    | .ok s => match commands t with
      | .ok r => .ok (s ++ c!"\n" ++ r)
      | .err e => .err e
      | .panic => .panic
    | .err e => .err e
    | .panic => .panic

end Pr

/-- `generate_from_ast` (`mod.rs:159-523`) -/
def printAst {ε : Type} (ast : OCAAst) : Res ε Str := Pr.commands ast.commands

end OCA
