import Verif.Model.Attribute
import Verif.Model.AstJson
/-!
# Bundles and their JSON form (`state/oca.rs`, `state/oca/capture_base.rs`, `state/oca/overlay/*.rs`)
-/
namespace OCA

/-- The content of an overlay: one constructor per overlay struct of `state/oca/overlay/*.rs`. -/
inductive OvBody where
  /-- `CharacterEncodingOverlay` (`character_encoding.rs`) -/
  | charEnc (m : FMap Encoding)
  /-- `FormatOverlay` (`format.rs`) -/
  | format (m : FMap Str)
  /-- `ConformanceOverlay` (`conformance.rs`) -/
  | conformance (m : FMap Str)
  /-- `CardinalityOverlay` (`cardinality.rs`) -/
  | cardinality (m : FMap Str)
  /-- `UnitOverlay` (`unit.rs`) -/
  | unit (m : FMap Str)
  /-- `ConditionalOverlay` (`conditional.rs:120-130`) -/
  | conditional (conds : FMap Str) (deps : FMap (List Str))
  /-- `EntryCodeOverlay` (`entry_code.rs`) -/
  | entryCode (m : FMap EntryCodes)
  /-- `EntryOverlay` (`entry.rs:43-54`) -/
  | entry (lang : Lang) (m : FMap EntriesEl)
  /-- `LabelOverlay` (`label.rs:71-88`) without the field skipped by serde -/
  | label (lang : Lang) (categories : List Str) (m : FMap Str) (catLabels : FMap Str)
  /-- `InformationOverlay` (`information.rs`) -/
  | information (lang : Lang) (m : FMap Str)
  /-- `MetaOverlay` (`meta.rs:51-63`) -/
  | metaOv (lang : Lang) (pairs : FMap Str)
  /-- `LinkOverlay` (`link.rs:43-54`) -/
  | link (target : Str) (m : FMap Str)
  /-- `AttributeFramingOverlay` (`attribute_framing.rs:73-85`) -/
  | framing (metadata : FMap Str) (m : FMap (FMap Scope))
  /-- `AttributeMappingOverlay` (`attribute_mapping.rs:10-19`) -/
  | mapping (m : FMap Str)
  /-- `StandardOverlay` (`standard.rs:28-37`) -/
  | standard (m : FMap Str)
  /-- `SubsetOverlay` (`subset.rs:8-17`) -/
  | subset (l : List Str)
  /-- `EntryCodeMappingOverlay` (`entry_code_mapping.rs:9-18`) -/
  | entryCodeMapping (m : FMap (List Str))
deriving DecidableEq, Repr

/-- The constructor of the overlay's `overlay_type`. -/
def OvBody.kind : OvBody → OvKind
  | .charEnc _ => .characterEncoding
  | .format _ => .format
  | .conformance _ => .conformance
  | .cardinality _ => .cardinality
  | .unit _ => .unit
  | .conditional _ _ => .conditional
  | .entryCode _ => .entryCode
  | .entry _ _ => .entry
  | .label _ _ _ _ => .label
  | .information _ _ => .information
  | .metaOv _ _ => .metaOv
  | .link _ _ => .link
  | .framing _ _ => .attributeFraming
  | .mapping _ => .attributeMapping
  | .standard _ => .standard
  | .subset _ => .subset
  | .entryCodeMapping _ => .entryCodeMapping

/-- `Overlay::language` (`overlay.rs:56-58` and overrides) -/
def OvBody.language : OvBody → Option Lang
  | .entry l _ => some l
  | .label l _ _ _ => some l
  | .information l _ => some l
  | .metaOv l _ => some l
  | _ => none

/-- `Overlay::attributes` (`overlay.rs:60` and implementations): the attribute names mentioned. -/
def OvBody.attributes : OvBody → List Str
  | .charEnc m => m.keys
  | .format m => m.keys
  | .conformance m => m.keys
  | .cardinality m => m.keys
  | .unit m => m.keys
  | .conditional c _ => c.keys
  | .entryCode m => m.keys
  | .entry _ m => m.keys
  | .label _ _ m _ => m.keys
  | .information _ m => m.keys
  | .metaOv _ _ => []
  | .link _ m => m.keys
  | .framing _ m => m.keys
  | .mapping m => m.keys
  | .standard m => m.keys
  | .subset l => l
  | .entryCodeMapping m => m.keys

/-- An overlay object: SAID, capture base binding, version of its type, content. -/
structure Overlay where
  said : Option Said
  captureBase : Option Said
  ver : Str
  body : OvBody
deriving DecidableEq, Repr

/-- `Overlay::overlay_type` -/
def Overlay.type (o : Overlay) : OverlayType := ⟨o.body.kind, o.ver⟩

/-- `CaptureBase` (`capture_base.rs:42-53`). The `IndexMap` of attributes is filled in hash-map order
(or from sorted JSON); here it is a map, and iterating it uses an order oracle. -/
structure CaptureBase where
  said : Option Said
  schemaType : Str
  attributes : FMap NAttr
  classification : Str
  flagged : List Str
deriving DecidableEq, Repr

/-- `OCABundle` (`oca.rs:670-682`) -/
structure Bundle where
  said : Option Said
  captureBase : CaptureBase
  overlays : List Overlay
deriving DecidableEq, Repr

/-! ## JSON -/

/-- insertion into a list sorted by `Ord for String` -/
def insStr (s : Str) : List Str → List Str
  | [] => [s]
  | t :: l => if Str.lt t s then t :: insStr s l else s :: t :: l

/-- `Vec<String>::sort` -/
def sortStr : List Str → List Str
  | [] => []
  | s :: l => insStr s (sortStr l)

/-- a map as a JSON object, keys sorted (`serialize_attributes` and the like, `overlay.rs:80-93`) -/
def FMap.toJson {V : Type} (f : V → Json) (m : FMap V) : Json := .obj (m.l.map fun p => (p.1, f p.2))

/-- a list of strings -/
def strsJson (l : List Str) : Json := .arr (l.map Json.str)

/-- an optional SAID (`null` when absent) -/
def saidJson : Option Said → Json
  | none => .null
  | some s => .str s

/-- `Serialize for EntryCodes` (`entry_codes.rs:7-35`): an array is written sorted, groups in order. -/
def EntryCodes.toJson : EntryCodes → Json
  | .sai s => .str s
  | .array l => strsJson (sortStr l)
  | .object l => .obj (l.map fun p => (p.1, strsJson p.2))

/-- `Serialize for EntriesElement` (`entries.rs:4-25`) -/
def EntriesEl.toJson : EntriesEl → Json
  | .sai s => .str s
  | .object m => m.toJson Json.str

/-- derived `Serialize for FramingScope` (`attribute_framing.rs:12-18`; `frame_meta` is skipped) -/
def Scope.toJson (s : Scope) : Json :=
  .obj [(c!"predicate_id", .str s.predicateId), (c!"framing_justification", .str s.justification)]

/-- The fields after `d`, `capture_base`, `type` of each overlay struct, in declaration order. The meta
pairs are flattened (`meta.rs:61-62`). `StandardOverlay` is written in hash order by the code, in sorted
order here; no build command creates one. -/
def OvBody.fields : OvBody → List (Str × Json)
  | .charEnc m => [(c!"attribute_character_encoding", m.toJson fun e => .str e.toStr)]
  | .format m => [(c!"attribute_formats", m.toJson .str)]
  | .conformance m => [(c!"attribute_conformance", m.toJson .str)]
  | .cardinality m => [(c!"attribute_cardinality", m.toJson .str)]
  | .unit m => [(c!"attribute_unit", m.toJson .str)]
  | .conditional c d =>
    [(c!"attribute_conditions", c.toJson .str), (c!"attribute_dependencies", d.toJson strsJson)]
  | .entryCode m => [(c!"attribute_entry_codes", m.toJson EntryCodes.toJson)]
  | .entry l m => [(c!"language", .str l), (c!"attribute_entries", m.toJson EntriesEl.toJson)]
  | .label l cs m cl =>
    [(c!"language", .str l), (c!"attribute_categories", strsJson (sortStr cs)),
     (c!"attribute_labels", m.toJson .str), (c!"category_labels", cl.toJson .str)]
  | .information l m => [(c!"language", .str l), (c!"attribute_information", m.toJson .str)]
  | .metaOv l m => (c!"language", .str l) :: m.l.map fun p => (p.1, .str p.2)
  | .link t m => [(c!"target_bundle", .str t), (c!"attribute_mapping", m.toJson .str)]
  | .framing md m =>
    [(c!"framing_metadata", md.toJson .str), (c!"attribute_framing", m.toJson (·.toJson Scope.toJson))]
  | .mapping m => [(c!"attribute_mapping", m.toJson .str)]
  | .standard m => [(c!"attribute_standards", m.toJson .str)]
  | .subset l => [(c!"attributes", strsJson l)]
  | .entryCodeMapping m => [(c!"attribute_entry_codes_mapping", m.toJson strsJson)]

/-- The fields of an overlay with `d` as given (derived `Serialize` of each overlay struct;
`AttributeMappingOverlay` declares `type` before `capture_base`, `attribute_mapping.rs:12-18`). -/
def Overlay.fieldsWith (o : Overlay) (d : Json) : List (Str × Json) :=
  (match o.body with
    | .mapping _ => [(c!"d", d), (c!"type", .str o.type.path), (c!"capture_base", saidJson o.captureBase)]
    | _ => [(c!"d", d), (c!"capture_base", saidJson o.captureBase), (c!"type", .str o.type.path)])
  ++ o.body.fields

/-- JSON of an overlay. -/
def Overlay.toJson (o : Overlay) : Json := .obj (o.fieldsWith (saidJson o.said))

/-- The text put in place of the SAID while digesting (`said` crate: 44 `#` for Blake3-256). -/
def placeholder : Str := List.replicate 44 '#'

/-- What is digested for an overlay's SAID (`SAD::compute_digest`/`derivation_data` of the `said`
crate). -/
def Overlay.digestInput (o : Overlay) : Json := .obj (o.fieldsWith (.str placeholder))

/-- JSON fields of a capture base (`capture_base.rs:42-53`, serializers `:10-40`). -/
def CaptureBase.fieldsWith (c : CaptureBase) (d : Json) : List (Str × Json) :=
  [(c!"d", d), (c!"type", .str c.schemaType), (c!"attributes", c.attributes.toJson NAttr.toJson),
   (c!"classification", .str c.classification),
   (c!"flagged_attributes", strsJson (sortStr c.flagged))]

/-- JSON of a capture base. -/
def CaptureBase.toJson (c : CaptureBase) : Json := .obj (c.fieldsWith (saidJson c.said))

/-- What is digested for a capture base's SAID. -/
def CaptureBase.digestInput (c : CaptureBase) : Json := .obj (c.fieldsWith (.str placeholder))

/-- `overlay_type().to_string().to_case(Case::Snake)` (`oca.rs:581`) -/
def OvKind.snake : OvKind → Str
  | .label => c!"label"
  | .information => c!"information"
  | .encoding => c!"encoding"
  | .characterEncoding => c!"character_encoding"
  | .format => c!"format"
  | .metaOv => c!"meta"
  | .standard => c!"standard"
  | .cardinality => c!"cardinality"
  | .conditional => c!"conditional"
  | .conformance => c!"conformance"
  | .entryCode => c!"entry_code"
  | .entry => c!"entry"
  | .unit => c!"unit"
  | .attributeMapping => c!"attribute_mapping"
  | .entryCodeMapping => c!"entry_code_mapping"
  | .subset => c!"subset"
  | .unitMapping => c!"unit_mapping"
  | .layout => c!"layout"
  | .sensitivity => c!"sensitivity"
  | .link => c!"link"
  | .attributeFraming => c!"attribute_framing"

/-- `overlays_many` (`oca.rs:570-577`) -/
def OvKind.many : OvKind → Bool
  | .metaOv | .entry | .label | .information | .link | .attributeFraming => true
  | _ => false

/-- One overlay into the groups (`oca.rs:580-600`): appended to the group, or replacing it. -/
def groupStep (g : FMap (List Overlay)) (o : Overlay) : FMap (List Overlay) :=
  let k := o.body.kind.snake
  if o.body.kind.many then
    match g.get k with
    | some l => g.insert k (l ++ [o])
    | none => g.insert k [o]
  else g.insert k [o]

/-- the comparison of `oca.rs:605-615` is not `Greater` -/
def saidLe (a b : Overlay) : Bool :=
  match a.said, b.said with
  | some x, some y => !Str.lt y x
  | _, _ => true

/-- insertion keeping the order of equal elements -/
def insOv (o : Overlay) : List Overlay → List Overlay
  | [] => [o]
  | p :: l => if saidLe o p then o :: p :: l else p :: insOv o l

/-- the stable `sort_by` of `oca.rs:605-615` (if some SAID is missing the comparison is not an order and
Rust leaves the result unspecified; overlays being written have theirs) -/
def sortOvs : List Overlay → List Overlay
  | [] => []
  | o :: l => insOv o (sortOvs l)

/-- The value written for a group (`oca.rs:602-619`): an array of the overlays sorted by SAID, or the
single object. -/
def groupJson (k : Str) (l : List Overlay) : Json :=
  if (OvKind.all.filter OvKind.many).any (fun q => decide (q.snake = k)) then
    .arr ((sortOvs l).map Overlay.toJson)
  else match l with
    | [o] => o.toJson
    | l => .arr (l.map Overlay.toJson)

/-- `serialize_overlays` (`oca.rs:556-621`) -/
def overlaysJson (ovs : List Overlay) : Json :=
  .obj ((ovs.foldl groupStep FMap.empty).l.map fun p => (p.1, groupJson p.1 p.2))

/-- The fields after `v` of a bundle. -/
def Bundle.fieldsWith (b : Bundle) (d : Json) : List (Str × Json) :=
  [(c!"d", d), (c!"capture_base", b.captureBase.toJson), (c!"overlays", overlaysJson b.overlays)]

/-- A versioned object (`#[version(protocol = "OCAS", ..)]`, `oca.rs:671`): the `v` field first. -/
def versioned (E : Env) (fields : List (Str × Json)) : Json :=
  .obj ((c!"v", .str (E.version (.obj fields))) :: fields)

/-- JSON of a bundle. -/
def Bundle.toJson (E : Env) (b : Bundle) : Json := versioned E (b.fieldsWith (saidJson b.said))

/-- What is digested for a bundle's SAID. -/
def Bundle.digestInput (E : Env) (b : Bundle) : Json := versioned E (b.fieldsWith (.str placeholder))

end OCA
