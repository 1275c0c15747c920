import Verif.Model.Basic
/-!
# The OCA command language (`semantics/oca-ast/src/ast`)
-/
namespace OCA

/-- A JSON value as `serde_json` sees it. Objects keep their order and may repeat keys.
The text form of JSON (serde_json's printer and parser) is not modelled. -/
inductive Json where
  | null
  | bool (b : Bool)
  | num (n : Nat)
  | str (s : Str)
  | arr (l : List Json)
  | obj (l : List (Str × Json))
deriving Repr

/-- A self-addressing identifier in its text form (`said::SelfAddressingIdentifier`).
The `said` crate is external: which texts are identifiers is the parameter `Env.validSaid`. -/
abbrev Said := Str

/-- A natural language (`isolang::Language`), represented by its ISO 639-3 code, which is also how
it is serialised. -/
abbrev Lang := Str

/-- What the code takes from external crates. Nothing else is assumed about these functions. -/
structure Env where
  /-- `SelfAddressingIdentifier::from_str(s).is_ok()` -/
  validSaid : Str → Bool
  /-- Blake3 digest (as SAID text) of a serialised JSON value (`SAD::compute_digest`) -/
  digest : Json → Said
  /-- the digest is a syntactically valid SAID -/
  digest_valid : ∀ j, validSaid (digest j) = true
  /-- the `v` version string of a versioned object (protocol, serialisation, length), a function of
  the serialised content -/
  version : Json → Str
  /-- `isolang::Language::from_639_1` -/
  lang1 : Str → Option Lang
  /-- `isolang::Language::to_639_1` -/
  lang1Inv : Lang → Option Str
  /-- the two tables agree -/
  lang1_inv : ∀ s l, lang1 s = some l → lang1Inv l = some s
  /-- and conversely -/
  lang1Inv_inv : ∀ s l, lang1Inv l = some s → lang1 s = some l
  /-- `Deserialize for isolang::Language` -/
  langOf : Str → Option Lang
  /-- a language known by its two letter code is read back from its serialised form -/
  langOf_lang1 : ∀ s l, lang1 s = some l → langOf l = some l
  /-- regex `\d`: Unicode decimal digits (category Nd) -/
  isNd : Char → Bool
  /-- among ASCII characters these are exactly `0`-`9` -/
  isNd_ascii : ∀ c, c.toNat < 128 → isNd c = c.isDigit
  /-- `str::to_lowercase` -/
  lower : Str → Str := id
  /-- lower case letters stay -/
  lower_lower : ∀ s, lower (lower s) = lower s := by intro _; rfl
  /-- `Standard::validate` (`state/standard.rs:33-49`): the `urn` crate reads the text, and the `regex` crate accepts its name with the pattern
  that `config/standards.yml` has for its namespace -/
  standardOk : Str → Bool := fun _ => true
  /-- running a Lua chunk `return <script>`: `none` on a load/run error or a non-boolean result -/
  lua : Str → Option Bool

/-- `ast/mod.rs:113-122` -/
inductive AttrType where
  | boolean | binary | text | numeric | dateTime
deriving DecidableEq, Repr

/-- `strum::Display` for `AttributeType` (`ast/mod.rs:113-122`) -/
def AttrType.toStr : AttrType → Str
  | .boolean => c!"Boolean"
  | .binary => c!"Binary"
  | .text => c!"Text"
  | .numeric => c!"Numeric"
  | .dateTime => c!"DateTime"

/-- `FromStr for AttributeType` (`ast/mod.rs:124-137`) -/
def AttrType.ofStr (s : Str) : Option AttrType :=
  if s = c!"Boolean" then some .boolean
  else if s = c!"Binary" then some .binary
  else if s = c!"Text" then some .text
  else if s = c!"Numeric" then some .numeric
  else if s = c!"DateTime" then some .dateTime
  else none

/-- The constructors of `OverlayType` (`ast/mod.rs:139-162`) without their version argument. -/
inductive OvKind where
  | label | information | encoding | characterEncoding | format | metaOv | standard | cardinality
  | conditional | conformance | entryCode | entry | unit | attributeMapping | entryCodeMapping
  | subset | unitMapping | layout | sensitivity | link | attributeFraming
deriving DecidableEq, Repr

/-- `OverlayType` (`ast/mod.rs:139-162`): a constructor and its version string. -/
structure OverlayType where
  kind : OvKind
  ver : Str
deriving DecidableEq, Repr

/-- All kinds, in declaration order. -/
def OvKind.all : List OvKind :=
  [.label, .information, .encoding, .characterEncoding, .format, .metaOv, .standard, .cardinality,
   .conditional, .conformance, .entryCode, .entry, .unit, .attributeMapping, .entryCodeMapping,
   .subset, .unitMapping, .layout, .sensitivity, .link, .attributeFraming]

/-- `RefValue` (`ast/mod.rs:424-429`) -/
inductive RefVal where
  | said (s : Said)
  | name (n : Str)
deriving DecidableEq, Repr

/-- `NestedAttrType` (`ast/attributes.rs:12-27`) -/
inductive NAttr where
  | ref (r : RefVal)
  | val (t : AttrType)
  | arr (a : NAttr)
  | null
deriving DecidableEq, Repr

/-- `NestedValue` (`ast/mod.rs:392-399`); `IndexMap` as an ordered association list. -/
inductive NVal where
  | ref (r : RefVal)
  | val (s : Str)
  | obj (l : List (Str × NVal))
  | arr (l : List NVal)
deriving Repr

/-- `CaptureContent` (`ast/mod.rs:364-372`) -/
structure CaptureContent where
  attributes : Option (List (Str × NAttr))
  properties : Option (List (Str × NVal))
  flagged : Option (List Str)
deriving Repr

/-- `Content` (`ast/mod.rs:374-381`) -/
structure Content where
  attributes : Option (List (Str × NVal))
  properties : Option (List (Str × NVal))
deriving Repr

/-- `ObjectKind` (`ast/mod.rs:50-55`); `BundleContent`/`ReferenceAttrType` (`:359-363,383-390`) have
a single field / variant and are represented by the reference itself. -/
inductive ObjKind where
  | captureBase (c : CaptureContent)
  | ocaBundle (said : RefVal)
  | overlay (t : OverlayType) (c : Content)
deriving Repr

/-- `CommandType` (`ast/mod.rs:42-48`) -/
inductive CmdType where
  | add | remove | modify | «from»
deriving DecidableEq, Repr

/-- `Command` (`ast/mod.rs:28-34`) -/
structure Command where
  kind : CmdType
  obj : ObjKind
deriving Repr

/-- `CommandMeta` (`ast/mod.rs:36-40`) -/
structure CommandMeta where
  lineNumber : Nat
  rawLine : Str
deriving DecidableEq, Repr

/-- `OCAAst` (`ast/mod.rs:20-26`). `commands_meta: IndexMap<usize, _>` is an ordered association
list; `meta` a map. -/
structure OCAAst where
  version : Str
  commands : List Command
  commandsMeta : List (Nat × CommandMeta)
  metaMap : FMap Str

/-- `OCAAst::new` (`ast/mod.rs:658-668`) -/
def OCAAst.new : OCAAst := ⟨c!"1.0.0", [], [], FMap.empty⟩

/-! ## Overlay type names and codes -/

/-- `Display for OverlayType` (`ast/mod.rs:287-313`): the version is not printed. -/
def OvKind.display : OvKind → Str
  | .label => c!"Label"
  | .information => c!"Information"
  | .encoding => c!"Encoding"
  | .characterEncoding => c!"CharacterEncoding"
  | .format => c!"Format"
  | .metaOv => c!"Meta"
  | .standard => c!"Standard"
  | .cardinality => c!"Cardinality"
  | .conditional => c!"Conditional"
  | .conformance => c!"Conformance"
  | .entryCode => c!"EntryCode"
  | .entry => c!"Entry"
  | .unit => c!"Unit"
  | .attributeMapping => c!"AttributeMapping"
  | .entryCodeMapping => c!"EntryCodeMapping"
  | .subset => c!"Subset"
  | .unitMapping => c!"UnitMapping"
  | .layout => c!"Layout"
  | .sensitivity => c!"Sensitivity"
  | .link => c!"Link"
  | .attributeFraming => c!"AttributeFraming"

/-- The table of `FromStr for OverlayType` (`ast/mod.rs:255-285`), note `"Mapping"`. -/
def OvKind.fromStrTable : List (Str × OvKind) :=
  [(c!"Label", .label), (c!"Information", .information), (c!"Encoding", .encoding),
   (c!"CharacterEncoding", .characterEncoding), (c!"Format", .format),
   (c!"Meta", .metaOv), (c!"Standard", .standard), (c!"Cardinality", .cardinality),
   (c!"Conditional", .conditional), (c!"Conformance", .conformance),
   (c!"EntryCode", .entryCode), (c!"Entry", .entry), (c!"Unit", .unit),
   (c!"Mapping", .attributeMapping), (c!"EntryCodeMapping", .entryCodeMapping),
   (c!"Subset", .subset), (c!"UnitMapping", .unitMapping), (c!"Layout", .layout),
   (c!"Sensitivity", .sensitivity), (c!"Link", .link),
   (c!"AttributeFraming", .attributeFraming)]

/-- `FromStr for OverlayType` (`ast/mod.rs:255-285`): the version is always `1.1`. -/
def OverlayType.fromStr (s : Str) : Option OverlayType :=
  (FMap.lget s OvKind.fromStrTable).map (fun k => ⟨k, c!"1.1"⟩)

/-- The path segment written by `Serialize for OverlayType` (`ast/mod.rs:164-227`). -/
def OvKind.segment : OvKind → Str
  | .label => c!"label"
  | .information => c!"information"
  | .encoding => c!"encoding"
  | .characterEncoding => c!"character_encoding"
  | .format => c!"format"
  | .metaOv => c!"meta"
  | .standard => c!"standard"
  | .cardinality => c!"cardinality"
  | .conditional => c!"conditional"
  | .conformance => c!"conformance"
  | .entryCode => c!"entry_code"
  | .entry => c!"entry"
  | .unit => c!"unit"
  | .attributeMapping => c!"mapping"
  | .entryCodeMapping => c!"entry_code_mapping"
  | .subset => c!"subset"
  | .unitMapping => c!"unit_mapping"
  | .layout => c!"layout"
  | .sensitivity => c!"sensitivity"
  | .link => c!"link"
  | .attributeFraming => c!"attribute_framing"

/-- `Serialize for OverlayType` (`ast/mod.rs:164-227`). -/
def OverlayType.path (t : OverlayType) : Str :=
  c!"spec/overlays/" ++ t.kind.segment ++ c!"/" ++ t.ver

/-- The table of `Deserialize for OverlayType` (`ast/mod.rs:329-352`). -/
def OvKind.segmentTable : List (Str × OvKind) :=
  [(c!"label", .label), (c!"format", .format), (c!"information", .information),
   (c!"encoding", .encoding), (c!"character_encoding", .characterEncoding),
   (c!"meta", .metaOv), (c!"standard", .standard), (c!"cardinality", .cardinality),
   (c!"conditional", .conditional), (c!"conformance", .conformance),
   (c!"entry_code", .entryCode), (c!"entry", .entry), (c!"unit", .unit),
   (c!"mapping", .attributeMapping), (c!"entry_code_mapping", .entryCodeMapping),
   (c!"subset", .subset), (c!"unit_mapping", .unitMapping), (c!"layout", .layout),
   (c!"sensitivity", .sensitivity), (c!"link", .link),
   (c!"attribute_framing", .attributeFraming)]

/-- Remove a prefix. -/
def stripPrefix : Str → Str → Option Str
  | [], s => some s
  | _ :: _, [] => none
  | a :: p, b :: s => if a = b then stripPrefix p s else none

/-- `str::split_once(c)`. -/
def splitOnce (c : Char) : Str → Option (Str × Str)
  | [] => none
  | a :: s => if a = c then some ([], s) else (splitOnce c s).map (fun p => (a :: p.1, p.2))

/-- The regex fragment `\d+\.\d+` over a whole text (`ast/mod.rs:324`). -/
def isVersion (E : Env) (s : Str) : Bool :=
  match splitOnce '.' s with
  | none => false
  | some (a, b) => !a.isEmpty && !b.isEmpty && a.all E.isNd && b.all E.isNd

/-- `Deserialize for OverlayType` (`ast/mod.rs:317-357`): the regex
`^spec/overlays/(\w+)/(\d+\.\d+)$` followed by the name table. `\w` does not contain `/`, so the name
is the segment up to the next `/`; a segment outside the table is an error whether or not it is a
`\w+` (the two error texts are not distinguished). -/
def OverlayType.ofPath (E : Env) (s : Str) : Option OverlayType :=
  match stripPrefix c!"spec/overlays/" s with
  | none => none
  | some r =>
    match splitOnce '/' r with
    | none => none
    | some (seg, ver) =>
      if isVersion E ver then (FMap.lget seg OvKind.segmentTable).map (fun k => ⟨k, ver⟩)
      else none

/-- `From<ObjectKind> for u8` (`ast/mod.rs:842-870`), overlay part. -/
def OvKind.code : OvKind → Nat
  | .label => 2
  | .information => 3
  | .encoding => 4
  | .characterEncoding => 5
  | .format => 6
  | .metaOv => 7
  | .standard => 8
  | .cardinality => 9
  | .conditional => 10
  | .conformance => 11
  | .entryCode => 12
  | .entry => 13
  | .unit => 14
  | .attributeMapping => 15
  | .entryCodeMapping => 16
  | .subset => 17
  | .unitMapping => 18
  | .layout => 19
  | .sensitivity => 20
  | .link => 21
  | .attributeFraming => 22

/-- `From<ObjectKind> for u8` (`ast/mod.rs:842-870`). -/
def ObjKind.code : ObjKind → Nat
  | .captureBase _ => 0
  | .ocaBundle _ => 1
  | .overlay t _ => t.kind.code

/-- The overlay arms of `From<u8> for ObjectKind` (`ast/mod.rs:690-836`). -/
def OvKind.ofCode : Nat → Option OvKind
  | 2 => some .label
  | 3 => some .information
  | 4 => some .encoding
  | 5 => some .characterEncoding
  | 6 => some .format
  | 7 => some .metaOv
  | 8 => some .standard
  | 9 => some .cardinality
  | 10 => some .conditional
  | 11 => some .conformance
  | 12 => some .entryCode
  | 13 => some .entry
  | 14 => some .unit
  | 15 => some .attributeMapping
  | 16 => some .entryCodeMapping
  | 17 => some .subset
  | 18 => some .unitMapping
  | 19 => some .layout
  | 20 => some .sensitivity
  | 21 => some .link
  | 22 => some .attributeFraming
  | _ => none

/-- `From<u8> for ObjectKind` (`ast/mod.rs:676-840`): an empty object of that kind, or a panic. -/
def ObjKind.ofCode (n : Nat) : Res Str ObjKind :=
  match n with
  | 0 => .ok (.captureBase ⟨none, none, none⟩)
  | 1 => .ok (.ocaBundle (.name []))
  | n => match OvKind.ofCode n with
    | some k => .ok (.overlay ⟨k, c!"1.1"⟩ ⟨none, none⟩)
    | none => .panic

/-- What identifies the kind of an object, without its content. -/
inductive ObjTag where
  | captureBase | ocaBundle | overlay (k : OvKind)
deriving DecidableEq, Repr

/-- The kind of an object. -/
def ObjKind.tag : ObjKind → ObjTag
  | .captureBase _ => .captureBase
  | .ocaBundle _ => .ocaBundle
  | .overlay t _ => .overlay t.kind

/-! ## References -/

/-- `RefValueParsingError` (`ast/mod.rs:449-458`) -/
inductive RefErr where
  | missingColon
  | unknownTag (t : Str)
  | saidError
deriving DecidableEq, Repr

/-- `Display` and `Serialize for RefValue` (`ast/mod.rs:460-482`) -/
def RefVal.toStr : RefVal → Str
  | .said s => c!"refs:" ++ s
  | .name n => c!"refn:" ++ n

/-- `FromStr for RefValue` (`ast/mod.rs:431-447`); `Deserialize` (`:629-656`) accepts the same texts. -/
def RefVal.parse (E : Env) (s : Str) : Res RefErr RefVal :=
  match splitOnce ':' s with
  | none => .err .missingColon
  | some (tag, rest) =>
    if tag = c!"refs" then
      if E.validSaid rest then .ok (.said rest) else .err .saidError
    else if tag = c!"refn" then .ok (.name rest)
    else .err (.unknownTag tag)

/-- A reference holding a real identifier (always so in Rust, by type). -/
def RefVal.wf (E : Env) : RefVal → Prop
  | .said s => E.validSaid s = true
  | .name _ => True

end OCA
