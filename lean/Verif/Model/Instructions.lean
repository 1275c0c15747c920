import Verif.Model.Grammar
import Verif.Model.AstValidator
/-!
# From tokens to commands (`semantics/oca-file/src/ocafile/instructions/*.rs`) and the parse of a whole OCA file
(`semantics/oca-file/src/ocafile/mod.rs:27-125`)

The texts of instruction errors are shortened. Texts are copied as they stand in the file: nothing is unescaped.
-/
namespace OCA
namespace Ins

/-- results of the instruction builders -/
abbrev R := Res Str

/-- `pair.into_inner().next_back().unwrap().as_str()`: the text of the last token inside -/
def lastText (t : Tok) : R Str :=
  match t.kids.getLast? with
  | none => .panic
  | some k => .ok k.text

/-! ## Attribute types (`helpers.rs:13-82`) -/

/-- `extract_attr_type` (`helpers.rs:13-45`) -/
def attrTypeOf (E : Env) : Tok → R NAttr
  | .node .arrayAttrType _ (k :: _) => match attrTypeOf E k with
    | .ok a => .ok (.arr a)
    | .err e => .err e
    | .panic => .panic
  | .node .arrayAttrType _ [] => .err c!"Missing attribute type"
  | .node .alias t _ => .ok (.ref (.name t))
  | .node .said t _ => if E.validSaid t then .ok (.ref (.said t)) else .err c!"Said error"
  | .node .baseAttrType t _ => match AttrType.ofStr t with
    | some a => .ok (.val a)
    | none => .err c!"Unknown attribute type"
  | .node _ _ _ => .err c!"Unexpected pest rule"

/-- the loop of `extract_attribute` (`helpers.rs:54-80`) -/
def attributeLoop (E : Env) : List Tok → Str × NAttr → R (Str × NAttr)
  | [], acc => .ok acc
  | .node .attrKey t _ :: r, acc => attributeLoop E r (t, acc.2)
  | .node .attrType _ ks :: r, acc => match ks with
    | [] => .err c!"Missing attribute type"
    | k :: _ => match attrTypeOf E k with
      | .ok a => attributeLoop E r (acc.1, a)
      | .err e => .err e
      | .panic => .panic
  | .node _ _ _ :: _, _ => .err c!"Unexpected pest rule"

/-- `extract_attribute` (`helpers.rs:47-82`) -/
def attributeOf (E : Env) (t : Tok) : R (Str × NAttr) := attributeLoop E t.kids ([], .val .text)

/-! ## Values (`helpers.rs:84-356`) -/

/-- the value of a `key_value` inside `item` (`helpers.rs:97-115` and the like): the inside of a quoted string, or
the text of `item`; `old` if there is nothing inside -/
def valueOf (item : Tok) (ks : List Tok) (old : NVal) : R NVal :=
  match ks with
  | [] => .ok old
  | n :: _ => match n.rule with
    | .string => match lastText n with
      | .ok s => .ok (.val s)
      | .err e => .err e
      | .panic => .panic
    | _ => .ok (.val item.text)

/-- the strings of an `entry_code_list` (`helpers.rs:142-161`) -/
def codesOf : List Tok → R (List NVal)
  | [] => .ok []
  | k :: t => match k.rule with
    | .string => match lastText k with
      | .ok s => match codesOf t with
        | .ok l => .ok (.val s :: l)
        | .err e => .err e
        | .panic => .panic
      | .err e => .err e
      | .panic => .panic
    | _ => .panic

/-- the inside of the string in `entry_code_group_key`, `entry_key`, `entry_value` (`helpers.rs:182-193`) -/
def innerString (ks : List Tok) (old : Str) : R Str :=
  match ks with
  | [] => .ok old
  | n :: _ => match n.rule with
    | .string => lastText n
    | _ => .ok old

mutual
/-- `extract_json_object` (`helpers.rs:297-356`), over the tokens inside the object -/
def jsonObject (U : Uni) : List Tok → List (Str × NVal) → R (List (Str × NVal))
  | [], acc => .ok acc
  | .node .jsonPair _ ks :: r, acc => match jsonPair U ks ([], .val []) with
    | .ok kv => jsonObject U r (imInsert kv.1 kv.2 acc)
    | .err e => .err e
    | .panic => .panic
  | .node _ _ _ :: _, _ => .panic
/-- the loop over one pair (`helpers.rs:304-347`) -/
def jsonPair (U : Uni) : List Tok → Str × NVal → R (Str × NVal)
  | [], acc => .ok acc
  | .node .jsonKey _ ks :: r, acc => match ks.getLast? with
    | none => .panic
    | some k => match lastText k with
      | .ok s => jsonPair U r (U.lower s, acc.2)
      | .err e => .err e
      | .panic => .panic
  | .node .jsonValue _ [] :: r, acc => jsonPair U r acc
  | .node .jsonValue _ (.node .string t ks :: _) :: r, acc => match lastText (.node .string t ks) with
    | .ok s => jsonPair U r (acc.1, .val s)
    | .err e => .err e
    | .panic => .panic
  | .node .jsonValue _ (.node .jsonObject _ ks :: _) :: r, acc => match jsonObject U ks [] with
    | .ok o => jsonPair U r (acc.1, .obj o)
    | .err e => .err e
    | .panic => .panic
  | .node .jsonValue _ (.node _ _ _ :: _) :: _, _ => .panic
  | .node _ _ _ :: _, _ => .panic
end

mutual
/-- `extract_attribute_key_pairs` (`helpers.rs:85-295`) -/
def keyPairOf (U : Uni) : Tok → R (Str × NVal)
  | .node _ _ ks => keyPairLoop U ks ([], .val [])
/-- its loop (`helpers.rs:90-293`) -/
def keyPairLoop (U : Uni) : List Tok → Str × NVal → R (Str × NVal)
  | [], acc => .ok acc
  | .node .attrKey t _ :: r, acc => keyPairLoop U r (t, acc.2)
  | .node .framingMetadataKey t _ :: r, acc => keyPairLoop U r (t, acc.2)
  | .node .keyValue t ks :: r, acc => match valueOf (.node .keyValue t ks) ks acc.2 with
    | .ok v => keyPairLoop U r (acc.1, v)
    | .err e => .err e
    | .panic => .panic
  | .node .unitValue t ks :: r, acc => match valueOf (.node .unitValue t ks) ks acc.2 with
    | .ok v => keyPairLoop U r (acc.1, v)
    | .err e => .err e
    | .panic => .panic
  | .node .framingMetadataValue t ks :: r, acc => match valueOf (.node .framingMetadataValue t ks) ks acc.2 with
    | .ok v => keyPairLoop U r (acc.1, v)
    | .err e => .err e
    | .panic => .panic
  | .node .entryCodeKeyValue _ [] :: r, acc => keyPairLoop U r acc
  | .node .entryCodeKeyValue t (.node .keyValue _ ks :: _) :: r, acc =>
    match valueOf (.node .entryCodeKeyValue t []) ks acc.2 with
    | .ok v => keyPairLoop U r (acc.1, v)
    | .err e => .err e
    | .panic => .panic
  | .node .entryCodeKeyValue _ (.node .entryCodeList _ ks :: _) :: r, acc => match codesOf ks with
    | .ok l => keyPairLoop U r (acc.1, .arr l)
    | .err e => .err e
    | .panic => .panic
  | .node .entryCodeKeyValue _ (.node .entryCodeObject _ ks :: _) :: r, acc => match keyPairsObj U ks [] with
    | .ok o => keyPairLoop U r (acc.1, .obj o)
    | .err e => .err e
    | .panic => .panic
  | .node .entryCodeKeyValue _ (.node _ _ _ :: _) :: _, _ => .panic
  | .node .entryCodeGroupKey _ ks :: r, acc => match innerString ks acc.1 with
    | .ok k => keyPairLoop U r (k, acc.2)
    | .err e => .err e
    | .panic => .panic
  | .node .entryCodeList _ ks :: r, acc => match codesOf ks with
    | .ok l => keyPairLoop U r (acc.1, .arr l)
    | .err e => .err e
    | .panic => .panic
  | .node .entryKey _ ks :: r, acc => match innerString ks acc.1 with
    | .ok k => keyPairLoop U r (k, acc.2)
    | .err e => .err e
    | .panic => .panic
  | .node .entryValue _ ks :: r, acc => match ks with
    | .node .string t ks' :: _ => match lastText (.node .string t ks') with
      | .ok s => keyPairLoop U r (acc.1, .val s)
      | .err e => .err e
      | .panic => .panic
    | _ => keyPairLoop U r acc
  | .node .entryKeyValue _ [] :: r, acc => keyPairLoop U r acc
  | .node .entryKeyValue t (.node .keyValue _ ks :: _) :: r, acc =>
    match valueOf (.node .entryKeyValue t []) ks acc.2 with
    | .ok v => keyPairLoop U r (acc.1, v)
    | .err e => .err e
    | .panic => .panic
  | .node .entryKeyValue _ (.node .entryObject _ ks :: _) :: r, acc => match keyPairsObj U ks [] with
    | .ok o => keyPairLoop U r (acc.1, .obj o)
    | .err e => .err e
    | .panic => .panic
  | .node .entryKeyValue _ (.node _ _ _ :: _) :: _, _ => .panic
  | .node .jsonObject _ ks :: r, acc => match jsonObject U ks [] with
    | .ok o => keyPairLoop U r (acc.1, .obj o)
    | .err e => .err e
    | .panic => .panic
  | .node _ _ _ :: _, _ => .panic
/-- the pairs of an `entry_code_object` or `entry_object` (`helpers.rs:164-170, 272-278`) -/
def keyPairsObj (U : Uni) : List Tok → List (Str × NVal) → R (List (Str × NVal))
  | [], acc => .ok acc
  | t :: r, acc => match keyPairOf U t with
    | .ok kv => keyPairsObj U r (imInsert kv.1 kv.2 acc)
    | .err e => .err e
    | .panic => .panic
end

/-! ## Contents (`helpers.rs:358-496`) -/

/-- a loop inserting pairs (`helpers.rs:370-379`) -/
def insertPairs (U : Uni) : List Tok → List (Str × NVal) → R (List (Str × NVal)) := keyPairsObj U

/-- `extract_attributes_key_paris` (`helpers.rs:358-391`) -/
def attributesOf (U : Uni) : List Tok → List (Str × NVal) → R (List (Str × NVal))
  | [], acc => .ok acc
  | t :: r, acc =>
    if t.rule = .attrKeyPairs ∨ t.rule = .attrEntryCodeKeyPairs ∨ t.rule = .attrEntryKeyPairs ∨
        t.rule = .unitAttrKeyPairs ∨ t.rule = .attrFramingKeyPairs then
      match insertPairs U t.kids acc with
      | .ok acc => attributesOf U r acc
      | .err e => .err e
      | .panic => .panic
    else attributesOf U r acc

/-- one iteration of `extract_properites_key_pairs` (`helpers.rs:398-461`); `unit_system` is not reachable -/
def propertyStep (E : Env) (U : Uni) (t : Tok) (acc : List (Str × NVal)) : R (List (Str × NVal)) :=
  match t.rule with
  | .propKeyPairs => insertPairs U t.kids acc
  | .lang => .ok (imInsert c!"lang" (.val t.text) acc)
  | .alias => .ok (imInsert c!"target" (.ref (.name t.text)) acc)
  | .said => if E.validSaid t.text then .ok (imInsert c!"target" (.ref (.said t.text)) acc) else .ok acc
  | .framingMetadata => insertPairs U t.kids acc
  | _ => .ok acc

/-- `extract_properites_key_pairs` (`helpers.rs:394-463`) -/
def propertiesOf (E : Env) (U : Uni) : List Tok → List (Str × NVal) → R (List (Str × NVal))
  | [], acc => .ok acc
  | t :: r, acc => match propertyStep E U t acc with
    | .ok acc => propertiesOf E U r acc
    | .err e => .err e
    | .panic => .panic

/-- `extract_content` (`helpers.rs:466-476`) -/
def contentOf (E : Env) (U : Uni) (t : Tok) : R Content :=
  match propertiesOf E U t.kids [] with
  | .ok ps => match attributesOf U t.kids [] with
    | .ok as => .ok ⟨some as, some ps⟩
    | .err e => .err e
    | .panic => .panic
  | .err e => .err e
  | .panic => .panic

/-- `extract_flagged_attrs` (`helpers.rs:479-496`): the whole list is one text. -/
def flaggedOf (t : Tok) : List Str := (t.kids.filter fun k => k.rule = .listValue).map Tree.text

/-! ## ADD (`add.rs`) -/

/-- the pairs inside one `attr_pairs` (`add.rs:31-37`) -/
def attrPairsLoop (E : Env) : List Tok → List (Str × NAttr) → R (List (Str × NAttr))
  | [], acc => .ok acc
  | t :: r, acc => match attributeOf E t with
    | .ok kv => attrPairsLoop E r (imInsert kv.1 kv.2 acc)
    | .err e => .err e
    | .panic => .panic

/-- the loop of ADD ATTRIBUTE (`add.rs:27-46`) -/
def addAttributes (E : Env) : List Tok → List (Str × NAttr) → R (List (Str × NAttr))
  | [], acc => .ok acc
  | t :: r, acc =>
    if t.rule = .attrPairs then
      match attrPairsLoop E t.kids acc with
      | .ok acc => addAttributes E r acc
      | .err e => .err e
      | .panic => .panic
    else .err c!"Invalid attributes in ATTRIBUTE instruction"

/-- the overlay an ADD rule stands for (`add.rs:19-146`) -/
def addKind : Rule → Option OvKind
  | .metaR => some .metaOv
  | .information => some .information
  | .characterEncoding => some .characterEncoding
  | .characterEncodingProps => some .characterEncoding
  | .label => some .label
  | .unit => some .unit
  | .format => some .format
  | .conformance => some .conformance
  | .conditional => some .conditional
  | .cardinality => some .cardinality
  | .entryCode => some .entryCode
  | .entry => some .entry
  | .link => some .link
  | .attributeFraming => some .attributeFraming
  | _ => none

/-- one iteration of `AddInstruction::from_record` (`add.rs:16-161`) -/
def addStep (E : Env) (U : Uni) (t : Tok) (old : Option ObjKind) : R (Option ObjKind) :=
  match addKind t.rule with
  | some k => match contentOf E U t with
    | .ok c => .ok (some (.overlay ⟨k, c!"1.1"⟩ c))
    | .err e => .err e
    | .panic => .panic
  | none => match t.rule with
    | .attribute => match addAttributes E t.kids [] with
      | .ok as => .ok (some (.captureBase ⟨some as, none, none⟩))
      | .err e => .err e
      | .panic => .panic
    | .comment => .ok old
    | .classification => match t.kids with
      | [] => .panic
      | k :: _ => .ok (some (.captureBase ⟨none, some [(c!"classification", .val k.text)], none⟩))
    | .flaggedAttrs => .ok (some (.captureBase ⟨none, none, some (flaggedOf t)⟩))
    | _ => .err c!"Overlay: unexpected token"

/-- the loop of `AddInstruction::from_record` -/
def addLoop (E : Env) (U : Uni) : List Tok → Option ObjKind → R (Option ObjKind)
  | [], old => .ok old
  | t :: r, old => match addStep E U t old with
    | .ok o => addLoop E U r o
    | .err e => .err e
    | .panic => .panic

/-- `AddInstruction::from_record` (`add.rs:11-167`) -/
def addOf (E : Env) (U : Uni) (t : Tok) : R Command :=
  match addLoop E U t.kids none with
  | .ok (some o) => .ok ⟨.add, o⟩
  | .ok none => .panic
  | .err e => .err e
  | .panic => .panic

/-! ## REMOVE (`remove.rs`) -/

/-- `extract_properties_pairs` and `extract_attribute_pairs` (`remove.rs:78-116`): the names up to the first token
of another kind -/
def namesOf (k : Rule) : List Tok → List (Str × NVal) → List (Str × NVal)
  | [], acc => acc
  | t :: r, acc => if t.rule = k then namesOf k r (imInsert t.text (.val []) acc) else acc

/-- one iteration of `RemoveInstruction::from_record` (`remove.rs:17-69`) -/
def removeStep (t : Tok) : R ObjKind :=
  match t.rule with
  | .removeMeta => .ok (.overlay ⟨.metaOv, c!"1.1"⟩ ⟨none, some (namesOf .propKey t.kids [])⟩)
  | .removeClassification => .ok (.captureBase ⟨none, some [(c!"classification", .val [])], none⟩)
  | .removeLabel =>
    .ok (.overlay ⟨.label, c!"1.1"⟩ ⟨some (namesOf .attrKey t.kids []), some (namesOf .propKey t.kids [])⟩)
  | .removeAttribute =>
    .ok (.captureBase ⟨some (t.kids.foldl (fun acc k => imInsert k.text .null acc) []), none, none⟩)
  | _ => .err c!"unexpected token"

/-- the loop of `RemoveInstruction::from_record` -/
def removeLoop : List Tok → Option ObjKind → R (Option ObjKind)
  | [], old => .ok old
  | t :: r, _ => match removeStep t with
    | .ok o => removeLoop r (some o)
    | .err e => .err e
    | .panic => .panic

/-- `RemoveInstruction::from_record` (`remove.rs:13-75`) -/
def removeOf (t : Tok) : R Command :=
  match removeLoop t.kids none with
  | .ok (some o) => .ok ⟨.remove, o⟩
  | .ok none => .panic
  | .err e => .err e
  | .panic => .panic

/-! ## FROM (`from.rs`) -/

/-- the loop of `FromInstruction::from_record` (`from.rs:15-26`) -/
def fromLoop : List Tok → Option Str → R (Option Str)
  | [], old => .ok old
  | t :: r, old => match t.rule with
    | .fromSaid => fromLoop r (some t.text)
    | .comment => fromLoop r old
    | _ => .err c!"unexpected token"

/-- `FromInstruction::from_record` (`from.rs:12-38`) -/
def fromOf (E : Env) (t : Tok) : R Command :=
  match fromLoop t.kids none with
  | .ok (some s) => if E.validSaid s then .ok ⟨.«from», .ocaBundle (.said s)⟩ else .err c!"Invalid said"
  | .ok none => .panic
  | .err e => .err e
  | .panic => .panic

/-! ## The whole file (`ocafile/mod.rs`) -/

/-- `Command::try_from_pair` (`mod.rs:31-42`) -/
def commandOf (E : Env) (U : Uni) (t : Tok) : R Command :=
  match t.rule with
  | .from_ => fromOf E t
  | .add => addOf E U t
  | .remove => removeOf t
  | _ => .err c!"unexpected token"

/-- the loop over a meta comment (`mod.rs:74-88`): the last key and the last value; both include quotes -/
def metaLoop : List Tok → Str × Str → Res ParseErr (Str × Str)
  | [], acc => .ok acc
  | t :: r, acc => match t.rule with
    | .metaAttrKey => metaLoop r (t.text, acc.2)
    | .metaAttrValue => metaLoop r (acc.1, t.text)
    | _ => .err (.metaError t.text)

/-- what the loop makes of one token of the file (`mod.rs:66-102`) -/
def lineOf (E : Env) (U : Uni) (t : Tok) : Res ParseErr Line :=
  match t.rule with
  | .eoi => .ok .eoi
  | .comment => .ok .comment
  | .metaComment => match metaLoop t.kids ([], []) with
    | .ok kv => .ok (.metaLine kv.1 kv.2)
    | .err e => .err e
    | .panic => .panic
  | .emptyLine => .ok .emptyLine
  | _ => .ok (.instr t.text (commandOf E U t))

/-- the loop of `parse_from_string` (`mod.rs:66-123`) -/
def tokLoop (E : Env) (U : Uni) (ast : OCAAst) (n : Nat) : List Tok → Res ParseErr OCAAst
  | [] => .ok ast
  | t :: r => match lineOf E U t with
    | .ok l => match parseLine ast n l with
      | .ok ast => tokLoop E U ast (n + 1) r
      | .err e => .err e
      | .panic => .panic
    | .err e => .err e
    | .panic => .panic

end Ins

/-- `parse_from_string` (`ocafile/mod.rs:44-125`) -/
def parseText (E : Env) (U : Uni) (s : Str) : Res ParseErr OCAAst :=
  match Gr.file U false s with
  | none => .err .grammar
  | some o => match o.ts with
    | [] => .panic
    | t :: _ => Ins.tokLoop E U OCAAst.new 0 t.kids

end OCA
