import Verif.Model.Peg
/-!
# The grammars (`semantics/oca-file/src/ocafile.pest`, `transformation/oca-file/src/ocafile.pest`,
`oca-file/src/ocafile.pest`)

Rule by rule. Silent rules (`_{..}`) are plain definitions. Rules that cannot be reached from `file` (`any_content`,
`any_breakable`, `any_eol`, `until_whitespace`, `identifier_whitespace`, `any_equals`, `arg_ws_maybe`, `unit_system`) are left
out.
-/
namespace OCA

/-- What the grammars use of Unicode: the general categories Letter and Number, the scripts listed in `SCRIPTS`
(`ocafile.pest:88-112`), and `str::to_lowercase`. Only their values on ASCII are assumed: of the ASCII characters, the
letters are the Letters, the digits the Numbers, and only letters have a script other than Common. -/
structure Uni where
  letter : Char → Bool
  number : Char → Bool
  script : Char → Bool
  lower : Str → Str
  letter_ascii : ∀ c : Char, c.toNat < 128 → letter c = c.isAlpha
  number_ascii : ∀ c : Char, c.toNat < 128 → number c = c.isDigit
  script_ascii : ∀ c : Char, c.toNat < 128 → script c = true → c.isAlpha = true

/-- The names of the rules that emit tokens. -/
inductive Rule where
  | metaAttrKey | metaAttrValue | metaKeyPair | metaComment | comment | emptyLine
  | inner | escape | unicode | singleQuotedInner | string
  | from_ | add | modify | remove | scripts | char | fromSaid
  | label | metaR | information | characterEncoding | characterEncodingProps | format | conformance | conditional
  | cardinality | entryCode | entry | unit | link | attributeFraming
  | framingMetadataKey | framingMetadataValue | framingMetadataPair | framingMetadata
  | attrFramingKeyPair | attrFramingKeyPairs | url | jsonKey | jsonValue | jsonPair | jsonObject
  | flaggedAttrs | classification | removeClassification | classificationValue
  | attribute | removeAttribute | removeMeta | removeLabel
  | attrKey | propKey | keyValue | keyPair | attrKeyPairs | propKeyPairs
  | unitChar | unitValue | unitKeyPair | unitAttrKeyPairs
  | entryCodeList | entryCodeObject | entryCodeGroupKey | entryCodeKeyValuePair | entryCodeKeyValue | entryCodeKeyPair
  | attrEntryCodeKeyPairs
  | entryValue | entryKey | entryObject | entryKeyValue | entryKeyValuePair | entryKeyPair | attrEntryKeyPairs
  | listValue | baseAttrType | arrayAttrType | alias | said | attrType | attrPair | attrPairs | lang
  | rename | tlink | renameAttributes | renameAttrPair | renameAttrPairs | linkAttributes | linkAttrPair | linkAttrPairs
  | file | eoi
deriving DecidableEq, Repr

/-- parsers emitting these tokens -/
abbrev P := Peg Rule

/-- tokens -/
abbrev Tok := Tree Rule

namespace Gr
open Peg

/-! ## Built-in rules of `pest` -/

/-- `NEWLINE` -/
def newline : P := lit c!"\n" |ₚ lit c!"\r\n" |ₚ lit c!"\r"

/-- `ASCII_ALPHA` -/
def alpha : P := cls Char.isAlpha

/-- `ASCII_HEX_DIGIT` -/
def hexDigit : P := cls fun c => c.isDigit || ('a' ≤ c && c ≤ 'f') || ('A' ≤ c && c ≤ 'F')

/-! ## Generic rules (`semantics/oca-file/src/ocafile.pest:1-75`), the same in the three files -/

/-- `ws` (`:5`) -/
def ws : P := lit c!" " |ₚ lit c!"\t"

/-- `comment` (`:13`) -/
def comment : P := atomic .comment (lit c!"#" ~ₚ (!ₚnewline ~ₚ any)*ₚ)

/-- `comment_line` (`:14`) -/
def commentLine : P := ws*ₚ ~ₚ comment ~ₚ newline ?ₚ

/-- `empty_line` (`:15`) -/
def emptyLine : P := atomic .emptyLine (ws*ₚ ~ₚ newline)

/-- `unicode` (`:20`) -/
def unicode : P := atomic .unicode
  ((lit c!"u" ~ₚ hexDigit ~ₚ hexDigit ~ₚ hexDigit ~ₚ hexDigit) |ₚ
   (lit c!"U" ~ₚ hexDigit ~ₚ hexDigit ~ₚ hexDigit ~ₚ hexDigit ~ₚ hexDigit ~ₚ hexDigit ~ₚ hexDigit ~ₚ hexDigit))

/-- `escape` (`:19`) -/
def escape : P := atomic .escape (lit c!"\\" ~ₚ
  (lit c!"b" |ₚ lit c!"t" |ₚ lit c!"n" |ₚ lit c!"f" |ₚ lit c!"r" |ₚ lit c!"\"" |ₚ lit c!"\\" |ₚ lit c!"'" |ₚ unicode |ₚ newline)?ₚ)

/-- the characters a string with delimiter `q` may hold unescaped (`:18, 23`) -/
def plainChar (q : Char) : P := !ₚ(lit [q] |ₚ lit c!"\\" |ₚ lit ['\x00'] |ₚ lit ['\x1f']) ~ₚ any

/-- the body of `inner` (`:18`) and `single_quoted_inner` (`:23`) -/
def innerBody (k : Rule) (q : Char) (self : P) : P := atomic k ((plainChar q)*ₚ ~ₚ (escape ~ₚ self)?ₚ)

/-- `inner` (`:18`) -/
def inner : P := fix (innerBody .inner '"')

/-- `single_quoted_inner` (`:23`) -/
def singleQuotedInner : P := fix (innerBody .singleQuotedInner '\'')

/-- `double_quoted_string` (`:17`) -/
def doubleQuotedString : P := lit c!"\"" ~ₚ inner ~ₚ lit c!"\""

/-- `single_quoted_string` (`:22`) -/
def singleQuotedString : P := lit c!"'" ~ₚ singleQuotedInner ~ₚ lit c!"'"

/-- `string` (`:25`) -/
def string : P := compound .string (singleQuotedString |ₚ doubleQuotedString)

/-- `line_continuation` (`:28`) -/
def lineContinuation : P := lit c!"\\" ~ₚ ws*ₚ ~ₚ newline

/-- `arg_ws` (`:32`) -/
def argWs : P := (ws |ₚ lineContinuation ~ₚ (commentLine |ₚ emptyLine)*ₚ)+ₚ

/-- `SCRIPTS` (`:88-112`) -/
def scripts (U : Uni) : P := normal .scripts (cls U.script)

/-- `char` (`:113`) -/
def char (U : Uni) : P := normal .char
  (cls U.letter |ₚ cls U.number |ₚ lit c!"." |ₚ lit c!"-" |ₚ lit c!"_" |ₚ lit c!"/" |ₚ lit c!":" |ₚ scripts U)

/-- the text of a value: `string | char+` -/
def value (U : Uni) : P := string |ₚ (char U)+ₚ

/-- `meta_attr_value` (`:8`) -/
def metaAttrValue (U : Uni) : P := compound .metaAttrValue (value U)

/-- `meta_key_pair` (`:9`), over the keys -/
def metaKeyPair (U : Uni) (metaAttrKey : P) : P :=
  atomic .metaKeyPair (metaAttrKey ~ₚ argWs ?ₚ ~ₚ lit c!"=" ~ₚ argWs ?ₚ ~ₚ metaAttrValue U)

/-- `meta_comment` (`:10`) -/
def metaComment (U : Uni) (metaAttrKey : P) : P :=
  atomic .metaComment (lit c!"--" ~ₚ ws*ₚ ~ₚ (!ₚnewline ~ₚ metaKeyPair U metaAttrKey)*ₚ)

/-- `meta_comment_line` (`:11`) -/
def metaCommentLine (U : Uni) (metaAttrKey : P) : P := ws*ₚ ~ₚ metaComment U metaAttrKey ~ₚ newline ?ₚ

/-- `meta_attr_key` of the semantics grammar (`semantics/oca-file/src/ocafile.pest:7`) -/
def semMetaKey : P := compound .metaAttrKey (lit c!"name" |ₚ lit c!"version" |ₚ lit c!"precompiler")

/-- `meta_attr_key` of the other two grammars (`oca-file/src/ocafile.pest:13`,
`transformation/oca-file/src/ocafile.pest:7`) -/
def topMetaKey : P := compound .metaAttrKey
  (lit c!"name" |ₚ lit c!"version" |ₚ lit c!"precompiler" |ₚ lit c!"source" |ₚ lit c!"target")

/-! ## The semantics grammar -/

/-- `from_said` (`:116`) -/
def fromSaid (U : Uni) : P := normal .fromSaid (ws*ₚ ~ₚ (char U)+ₚ)

/-- `from` (`:83`) -/
def from_ (U : Uni) : P := normal .from_ (ilit c!"from" ~ₚ ws*ₚ ~ₚ fromSaid U)

/-- `modify` (`:85`) -/
def modify (U : Uni) : P := normal .modify (ilit c!"modify" ~ₚ (char U)+ₚ)

/-- `attrs_key` (`:162`) -/
def attrsKey : P := ilit c!"attrs" ~ₚ argWs

/-- `props_key` (`:163`) -/
def propsKey : P := ilit c!"props" ~ₚ argWs

/-- `lang` (`:254`) -/
def lang : P := compound .lang (alpha ~ₚ alpha ~ₚ (lit c!"-" ~ₚ alpha ~ₚ alpha)?ₚ)

/-- characters of `attr_key` (`:204`) -/
def isAttrKeyChar (c : Char) : Bool := c.isAlphanum || c = '-' || c = '_' || c = '.'

/-- `attr_key` (`:204`) -/
def attrKey : P := compound .attrKey (cls isAttrKeyChar)+ₚ

/-- characters of `prop_key` (`:205`), and of `attr_key` in the transformation grammar -/
def isPropKeyChar (c : Char) : Bool := c.isAlphanum || c = '-' || c = '_'

/-- `prop_key` (`:205`) -/
def propKey : P := compound .propKey (cls isPropKeyChar)+ₚ

/-- `key_value` (`:206`) -/
def keyValue (U : Uni) : P := compound .keyValue (value U)

/-- `key_pair` (`:207`) -/
def keyPair (U : Uni) : P := atomic .keyPair (attrKey ~ₚ argWs ?ₚ ~ₚ lit c!"=" ~ₚ argWs ?ₚ ~ₚ keyValue U)

/-- `attr_key_pairs` (`:208`) -/
def attrKeyPairs (U : Uni) : P := compound .attrKeyPairs (argWs ?ₚ ~ₚ keyPair U ~ₚ argWs ?ₚ)+ₚ

/-- `prop_key_pairs` (`:209`) -/
def propKeyPairs (U : Uni) : P := compound .propKeyPairs (argWs ?ₚ ~ₚ keyPair U ~ₚ argWs ?ₚ)+ₚ

/-- `unit_char` (`:211`) -/
def unitChar : P := compound .unitChar (!ₚ(lit c!" ") ~ₚ !ₚnewline ~ₚ any)

/-- `unit_value` (`:212`) -/
def unitValue : P := compound .unitValue (string |ₚ unitChar+ₚ)

/-- `unit_key_pair` (`:213`) -/
def unitKeyPair : P := atomic .unitKeyPair (attrKey ~ₚ argWs ?ₚ ~ₚ lit c!"=" ~ₚ argWs ?ₚ ~ₚ unitValue)

/-- `unit_attr_key_pairs` (`:214`) -/
def unitAttrKeyPairs : P := compound .unitAttrKeyPairs (argWs ?ₚ ~ₚ unitKeyPair ~ₚ argWs ?ₚ)+ₚ

/-- `" "*` -/
def spaces : P := (lit c!" ")*ₚ

/-- `entry_code_list` (`:216`) -/
def entryCodeList : P := normal .entryCodeList
  (lit c!"[" ~ₚ lit c!"]" |ₚ lit c!"[" ~ₚ string ~ₚ (lit c!"," ~ₚ spaces ~ₚ string)*ₚ ~ₚ lit c!"]")

/-- `entry_code_group_key` (`:218`) -/
def entryCodeGroupKey : P := compound .entryCodeGroupKey string

/-- `entry_code_key_value_pair` (`:219`) -/
def entryCodeKeyValuePair : P :=
  normal .entryCodeKeyValuePair (entryCodeGroupKey ~ₚ lit c!":" ~ₚ spaces ~ₚ entryCodeList)

/-- `entry_code_object` (`:217`) -/
def entryCodeObject : P := normal .entryCodeObject
  (lit c!"{" ~ₚ lit c!"}" |ₚ
   lit c!"{" ~ₚ spaces ~ₚ entryCodeKeyValuePair ~ₚ (lit c!"," ~ₚ spaces ~ₚ entryCodeKeyValuePair)*ₚ ~ₚ spaces ~ₚ lit c!"}")

/-- `entry_code_key_value` (`:221`) -/
def entryCodeKeyValue (U : Uni) : P := normal .entryCodeKeyValue (keyValue U |ₚ entryCodeList |ₚ entryCodeObject)

/-- `entry_code_key_pair` (`:222`) -/
def entryCodeKeyPair (U : Uni) : P := compound .entryCodeKeyPair (attrKey ~ₚ lit c!"=" ~ₚ entryCodeKeyValue U)

/-- `attr_entry_code_key_pairs` (`:223`) -/
def attrEntryCodeKeyPairs (U : Uni) : P :=
  compound .attrEntryCodeKeyPairs (argWs ?ₚ ~ₚ entryCodeKeyPair U ~ₚ argWs ?ₚ)+ₚ

/-- `entry_value` (`:225`) -/
def entryValue : P := compound .entryValue string

/-- `entry_key` (`:226`) -/
def entryKey : P := compound .entryKey string

/-- `entry_key_value_pair` (`:229`) -/
def entryKeyValuePair : P := normal .entryKeyValuePair (entryKey ~ₚ lit c!":" ~ₚ spaces ~ₚ entryValue)

/-- `entry_object` (`:227`) -/
def entryObject : P := normal .entryObject
  (lit c!"{" ~ₚ lit c!"}" |ₚ
   lit c!"{" ~ₚ spaces ~ₚ entryKeyValuePair ~ₚ (lit c!"," ~ₚ spaces ~ₚ entryKeyValuePair)*ₚ ~ₚ spaces ~ₚ lit c!"}")

/-- `entry_key_value` (`:228`) -/
def entryKeyValue (U : Uni) : P := normal .entryKeyValue (keyValue U |ₚ entryObject)

/-- `entry_key_pair` (`:230`) -/
def entryKeyPair (U : Uni) : P := compound .entryKeyPair (attrKey ~ₚ lit c!"=" ~ₚ entryKeyValue U)

/-- `attr_entry_key_pairs` (`:231`) -/
def attrEntryKeyPairs (U : Uni) : P := compound .attrEntryKeyPairs (argWs ?ₚ ~ₚ entryKeyPair U ~ₚ argWs ?ₚ)+ₚ

/-- `list_value` (`:233`) -/
def listValue (U : Uni) : P := compound .listValue (argWs ?ₚ ~ₚ keyValue U ~ₚ argWs ?ₚ)+ₚ

/-- `base_attr_type` (`:236-240`) -/
def baseAttrType : P := atomic .baseAttrType
  (lit c!"Text" |ₚ lit c!"Numeric" |ₚ lit c!"Boolean" |ₚ lit c!"Binary" |ₚ lit c!"DateTime")

/-- `said` (`:245`) -/
def said (U : Uni) : P := atomic .said (char U)+ₚ

/-- `alias` (`:244`) -/
def alias (U : Uni) : P := atomic .alias (char U)+ₚ

/-- `ref_said` (`:248`) -/
def refSaid (U : Uni) : P := ilit c!"refs:" ~ₚ said U

/-- `ref_alias` (`:249`) -/
def refAlias (U : Uni) : P := ilit c!"refn:" ~ₚ alias U

/-- `reference_type` (`:243`) -/
def referenceType (U : Uni) : P := refSaid U |ₚ refAlias U

/-- the body of `array_attr_type` (`:242`) -/
def arrayBody (U : Uni) (self : P) : P := compound .arrayAttrType
  (lit c!"Array[" ~ₚ argWs ?ₚ ~ₚ (baseAttrType |ₚ referenceType U |ₚ self) ~ₚ argWs ?ₚ ~ₚ lit c!"]")

/-- `array_attr_type` (`:242`) -/
def arrayAttrType (U : Uni) : P := fix (arrayBody U)

/-- `_attr_type` (`:250`) -/
def attrType (U : Uni) : P := compound .attrType (baseAttrType |ₚ arrayAttrType U |ₚ refSaid U |ₚ refAlias U)

/-- `attr_pair` (`:251`) -/
def attrPair (U : Uni) : P := atomic .attrPair (attrKey ~ₚ argWs ?ₚ ~ₚ lit c!"=" ~ₚ argWs ?ₚ ~ₚ attrType U)

/-- `attr_pairs` (`:252`) -/
def attrPairs (U : Uni) : P := compound .attrPairs (argWs ~ₚ attrPair U)+ₚ

/-- `label` (`:164`) -/
def label (U : Uni) : P := normal .label (ilit c!"label" ~ₚ argWs ~ₚ lang ~ₚ argWs ~ₚ attrsKey ~ₚ attrKeyPairs U)

/-- `meta` (`:165`) -/
def metaR (U : Uni) : P := normal .metaR (ilit c!"meta" ~ₚ argWs ~ₚ lang ~ₚ argWs ~ₚ propsKey ~ₚ propKeyPairs U)

/-- `information` (`:166`) -/
def information (U : Uni) : P :=
  normal .information (ilit c!"information" ~ₚ argWs ~ₚ lang ~ₚ argWs ~ₚ attrsKey ~ₚ attrKeyPairs U)

/-- `character_encoding` (`:167`) -/
def characterEncoding (U : Uni) : P :=
  normal .characterEncoding (ilit c!"character_encoding" ~ₚ argWs ~ₚ attrsKey ~ₚ attrKeyPairs U)

/-- `character_encoding_props` (`:168`) -/
def characterEncodingProps (U : Uni) : P :=
  normal .characterEncodingProps (ilit c!"character_encoding" ~ₚ argWs ~ₚ propsKey ~ₚ propKeyPairs U)

/-- `format` (`:169`) -/
def format (U : Uni) : P := normal .format (ilit c!"format" ~ₚ argWs ~ₚ attrsKey ~ₚ attrKeyPairs U)

/-- `conformance` (`:170`) -/
def conformance (U : Uni) : P := normal .conformance (ilit c!"conformance" ~ₚ argWs ~ₚ attrsKey ~ₚ attrKeyPairs U)

/-- `conditional` (`:171`) -/
def conditional (U : Uni) : P := normal .conditional (ilit c!"condition" ~ₚ argWs ~ₚ attrsKey ~ₚ attrKeyPairs U)

/-- `cardinality` (`:172`) -/
def cardinality (U : Uni) : P := normal .cardinality (ilit c!"cardinality" ~ₚ argWs ~ₚ attrsKey ~ₚ attrKeyPairs U)

/-- `entry_code` (`:173`) -/
def entryCode (U : Uni) : P :=
  normal .entryCode (ilit c!"entry_code" ~ₚ argWs ~ₚ attrsKey ~ₚ attrEntryCodeKeyPairs U)

/-- `entry` (`:174`) -/
def entry (U : Uni) : P :=
  normal .entry (ilit c!"entry" ~ₚ argWs ~ₚ lang ~ₚ argWs ~ₚ attrsKey ~ₚ attrEntryKeyPairs U)

/-- `unit` (`:175`) -/
def unit : P := normal .unit (ilit c!"unit" ~ₚ argWs ~ₚ attrsKey ~ₚ unitAttrKeyPairs)

/-- `link` (`:176`) -/
def link (U : Uni) : P :=
  normal .link (ilit c!"link" ~ₚ argWs ~ₚ referenceType U ~ₚ argWs ~ₚ attrsKey ~ₚ attrKeyPairs U)

/-- `framing_metadata_key` (`:179`) -/
def framingMetadataKey : P :=
  compound .framingMetadataKey (lit c!"id" |ₚ lit c!"label" |ₚ lit c!"location" |ₚ lit c!"version")

/-- `framing_metadata_value` (`:180`) -/
def framingMetadataValue (U : Uni) : P := compound .framingMetadataValue (value U)

/-- `framing_metadata_pair` (`:181`) -/
def framingMetadataPair (U : Uni) : P :=
  atomic .framingMetadataPair (framingMetadataKey ~ₚ argWs ?ₚ ~ₚ lit c!"=" ~ₚ argWs ?ₚ ~ₚ framingMetadataValue U)

/-- `framing_metadata` (`:182`) -/
def framingMetadata (U : Uni) : P :=
  normal .framingMetadata (framingMetadataPair U ~ₚ (argWs ~ₚ framingMetadataPair U)*ₚ)

/-- `url` (`:187`) -/
def url : P := compound .url string

/-- `json_key` (`:188`) -/
def jsonKey : P := compound .jsonKey string

/-- `json_value` (`:189`) -/
def jsonValue (self : P) : P := compound .jsonValue (string |ₚ url |ₚ self)

/-- `json_pair` (`:190`) -/
def jsonPair (self : P) : P := compound .jsonPair
  (jsonKey ~ₚ argWs*ₚ ~ₚ lit c!":" ~ₚ (argWs |ₚ newline)?ₚ ~ₚ jsonValue self ~ₚ
    (argWs ?ₚ ~ₚ lit c!"," ~ₚ (argWs |ₚ newline)?ₚ)?ₚ)

/-- the body of `json_object` (`:191`) -/
def jsonBody (self : P) : P := compound .jsonObject
  (lit c!"{" ~ₚ ((argWs |ₚ newline)?ₚ ~ₚ argWs*ₚ ~ₚ jsonPair self ~ₚ (argWs |ₚ newline)?ₚ)+ₚ ~ₚ argWs*ₚ ~ₚ lit c!"}")

/-- `json_object` (`:191`) -/
def jsonObject : P := fix jsonBody

/-- `attr_framing_key_pair` (`:184`) -/
def attrFramingKeyPair : P := atomic .attrFramingKeyPair (attrKey ~ₚ argWs ?ₚ ~ₚ lit c!"=" ~ₚ argWs ?ₚ ~ₚ jsonObject)

/-- `attr_framing_key_pairs` (`:185`) -/
def attrFramingKeyPairs : P :=
  compound .attrFramingKeyPairs (argWs*ₚ ~ₚ attrFramingKeyPair ~ₚ (argWs |ₚ newline)?ₚ)

/-- `attribute_framing` (`:177`) -/
def attributeFraming (U : Uni) : P := normal .attributeFraming
  (ilit c!"attr_framing" ~ₚ argWs ~ₚ framingMetadata U ~ₚ argWs ~ₚ attrsKey ~ₚ attrFramingKeyPairs+ₚ)

/-- `flagged_attrs` (`:193`) -/
def flaggedAttrs (U : Uni) : P := normal .flaggedAttrs (ilit c!"flagged_attributes" ~ₚ argWs ~ₚ listValue U)

/-- `classification_value` (`:196`) -/
def classificationValue (U : Uni) : P := normal .classificationValue (value U)

/-- `classification` (`:194`) -/
def classification (U : Uni) : P :=
  normal .classification (ilit c!"classification" ~ₚ argWs ~ₚ classificationValue U)

/-- `remove_classification` (`:195`) -/
def removeClassification : P := normal .removeClassification (ilit c!"classification")

/-- `attribute` (`:199`) -/
def attributeR (U : Uni) : P := normal .attribute (ilit c!"attribute" ~ₚ (attrPairs U)+ₚ)

/-- `remove_attribute` (`:200`) -/
def removeAttribute : P := normal .removeAttribute (ilit c!"attribute" ~ₚ (argWs ~ₚ attrKey)*ₚ)

/-- `remove_meta` (`:201`) -/
def removeMeta : P :=
  normal .removeMeta (ilit c!"meta" ~ₚ argWs ~ₚ lang ~ₚ (argWs ~ₚ propsKey ~ₚ propKey+ₚ)?ₚ)

/-- `remove_label` (`:202`) -/
def removeLabel : P :=
  normal .removeLabel (ilit c!"label" ~ₚ argWs ~ₚ lang ~ₚ (argWs ~ₚ attrsKey ~ₚ attrKey+ₚ)?ₚ)

/-- The common end of `oca_object` and `remove_oca_object` (`:124-136, 146-158`). -/
def objectTail (U : Uni) : P :=
  information U |ₚ unit |ₚ characterEncoding U |ₚ characterEncodingProps U |ₚ format U |ₚ conformance U |ₚ conditional U |ₚ
  cardinality U |ₚ entryCode U |ₚ entry U |ₚ link U |ₚ attributeFraming U |ₚ flaggedAttrs U

/-- `oca_object` (`:118-138`) -/
def ocaObject (U : Uni) : P := metaR U |ₚ label U |ₚ attributeR U |ₚ classification U |ₚ objectTail U

/-- `remove_oca_object` (`:140-160`) -/
def removeOcaObject (U : Uni) : P := removeMeta |ₚ removeLabel |ₚ removeAttribute |ₚ removeClassification |ₚ objectTail U

/-- `add` (`:84`) -/
def add (U : Uni) : P := normal .add (ilit c!"add" ~ₚ argWs*ₚ ~ₚ ocaObject U)

/-- `remove` (`:86`) -/
def remove (U : Uni) : P := normal .remove (ilit c!"remove" ~ₚ argWs*ₚ ~ₚ removeOcaObject U)

/-- `commands` (`:73-80`) -/
def commands (U : Uni) : P := (from_ U |ₚ add U |ₚ modify U |ₚ remove U) ~ₚ newline ?ₚ

/-- the token `EOI` -/
def eoiTok : P := normal .eoi eoi

/-- `file` (`:256-260`) -/
def file (U : Uni) : P := normal .file
  ((emptyLine |ₚ metaCommentLine U semMetaKey |ₚ commentLine |ₚ commands U)*ₚ ~ₚ eoiTok)

end Gr
end OCA
