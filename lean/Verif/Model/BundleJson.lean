import Verif.Model.Bundle
import Verif.Model.AstJson
/-!
# Loading a bundle from JSON (`state/oca.rs:339-554, 623-682`, `controller.rs:8-12`)

An overlay is first read into a `serde_value::Value`, whose maps are sorted by key and keep the last of two equal
keys; then the struct of its type is read from that map. The members of the bundle and of the capture base are
read directly by the derived `Deserialize`: a repeated or missing member is an error, an unknown one is ignored.
One simplification: when a document has both an error and something that aborts, the model does not follow which of
the two the reader meets first.
-/
namespace OCA

/-- a text -/
def jStr : Json → Option Str
  | .str s => some s
  | _ => none

/-- all elements, or none -/
def allSome {α β : Type} (f : α → Option β) : List α → Option (List β)
  | [] => some []
  | a :: t => match f a with
    | none => none
    | some b => match allSome f t with
      | none => none
      | some r => some (b :: r)

/-- a list of texts (`Vec<String>`) -/
def jStrs : Json → Option (List Str)
  | .arr l => allSome jStr l
  | _ => none

/-- a map read from a `serde_value` map: the last of equal keys counts -/
def jMap {V : Type} (f : Json → Option V) : Json → Option (FMap V)
  | .obj l => match allSome (fun p : Str × Json => (f p.2).map fun v => (p.1, v)) (FMap.ofList l).l with
    | none => none
    | some r => some (FMap.ofList r)
  | _ => none

/-- derived `Deserialize for Encoding` (`state/encoding.rs:5-21`) -/
def jEncoding (j : Json) : Option Encoding := (variantName j).bind Encoding.ofStr

/-- derived untagged `Deserialize for EntryCodes` (`entry_codes.rs:37-43`), the groups coming from a sorted map -/
def jEntryCodes : Json → Option EntryCodes
  | .str s => some (.sai s)
  | .arr l => (jStrs (.arr l)).map .array
  | .obj l => (jMap jStrs (.obj l)).map fun m => .object m.l
  | _ => none

/-- derived untagged `Deserialize for EntriesElement` (`entries.rs:27-32`) -/
def jEntries : Json → Option EntriesEl
  | .str s => some (.sai s)
  | .obj l => (jMap jStr (.obj l)).map .object
  | _ => none

/-- derived `Deserialize for FramingScope` (`attribute_framing.rs:12-18`): `frame_meta` is left empty. An array gives
the two members by position; `serde_value` does not ask whether more elements follow. -/
def jScope : Json → Option Scope
  | .obj l => match ((FMap.ofList l).get c!"predicate_id").bind jStr with
    | none => none
    | some p => match ((FMap.ofList l).get c!"framing_justification").bind jStr with
      | none => none
      | some j => some ⟨p, j, FMap.empty⟩
  | .arr (.str p :: .str j :: _) => some ⟨p, j, FMap.empty⟩
  | _ => none

/-- an optional SAID: missing or `null` is none -/
def jSaid (E : Env) : Option Json → Option (Option Said)
  | none => some none
  | some .null => some none
  | some (.str s) => if E.validSaid s then some (some s) else none
  | _ => none

/-- a language -/
def jLang (E : Env) (m : FMap Json) : Option Lang := ((m.get c!"language").bind jStr).bind E.langOf

/-- the member `k`, read by `f` -/
def jField {V : Type} (m : FMap Json) (k : Str) (f : Json → Option V) : Option V := (m.get k).bind f

/-- The member names `MetaOverlay` takes for itself (`meta.rs:52-60`). -/
def metaReserved : List Str := [c!"d", c!"capture_base", c!"type", c!"language"]

/-- `Standard::new` and `validate`, as in its `Deserialize` (`state/standard.rs:13-17`, `:33-49`, `:61-76`): the text in lower case, if valid -/
def standardOf (E : Env) (s : Str) : Option Str := if E.standardOk (E.lower s) then some (E.lower s) else none

/-- a standard -/
def jStandard (E : Env) (j : Json) : Option Str := (jStr j).bind (standardOf E)

/-- The derived `Deserialize` of each overlay struct (`oca.rs:355-538`); the other kinds are refused (`:539-544`).
The members of a meta overlay that are not its own are its pairs (`meta.rs:61-62`). -/
def OvBody.ofJson (E : Env) (m : FMap Json) : OvKind → Option OvBody
  | .characterEncoding => (jField m c!"attribute_character_encoding" (jMap jEncoding)).map .charEnc
  | .format => (jField m c!"attribute_formats" (jMap jStr)).map .format
  | .conformance => (jField m c!"attribute_conformance" (jMap jStr)).map .conformance
  | .cardinality => (jField m c!"attribute_cardinality" (jMap jStr)).map .cardinality
  | .unit => (jField m c!"attribute_unit" (jMap jStr)).map .unit
  | .conditional => match jField m c!"attribute_conditions" (jMap jStr) with
    | none => none
    | some c => (jField m c!"attribute_dependencies" (jMap jStrs)).map (.conditional c)
  | .entryCode => (jField m c!"attribute_entry_codes" (jMap jEntryCodes)).map .entryCode
  | .entry => match jLang E m with
    | none => none
    | some l => (jField m c!"attribute_entries" (jMap jEntries)).map (.entry l)
  | .label => match jLang E m with
    | none => none
    | some l => match jField m c!"attribute_categories" jStrs with
      | none => none
      | some cs => match jField m c!"attribute_labels" (jMap jStr) with
        | none => none
        | some as => (jField m c!"category_labels" (jMap jStr)).map (.label l cs as)
  | .information => match jLang E m with
    | none => none
    | some l => (jField m c!"attribute_information" (jMap jStr)).map (.information l)
  | .metaOv => match jLang E m with
    | none => none
    | some l => (jMap jStr (.obj (m.l.filter fun p => decide (p.1 ∉ metaReserved)))).map (.metaOv l)
  | .link => match jField m c!"target_bundle" jStr with
    | none => none
    | some t => (jField m c!"attribute_mapping" (jMap jStr)).map (.link t)
  | .attributeFraming => match jField m c!"framing_metadata" (jMap jStr) with
    | none => none
    | some md => (jField m c!"attribute_framing" (jMap (jMap jScope))).map (.framing md)
  | .attributeMapping => (jField m c!"attribute_mapping" (jMap jStr)).map .mapping
  | .standard => (jField m c!"attribute_standards" (jMap (jStandard E))).map .standard
  | .subset => (jField m c!"attributes" jStrs).map .subset
  | .entryCodeMapping => (jField m c!"attribute_entry_codes_mapping" (jMap jStrs)).map .entryCodeMapping
  | _ => none

/-- `Deserialize for DynOverlay` (`oca.rs:339-554`) -/
def Overlay.ofJson (E : Env) : Json → Option Overlay
  | .obj l =>
    let m := FMap.ofList l
    match ((m.get c!"type").bind jStr).bind (OverlayType.ofPath E) with
    | none => none
    | some t => match jSaid E (m.get c!"d") with
      | none => none
      | some d => match jSaid E (m.get c!"capture_base") with
        | none => none
        | some cb => (OvBody.ofJson E m t.kind).map fun b => ⟨d, cb, t.ver, b⟩
  | _ => none

/-- One member of `overlays` (`oca.rs:641-649`): the elements of a sequence, the value of a map, nothing else;
an overlay that cannot be read aborts (`unwrap`). -/
def loadGroup {ε : Type} (E : Env) : Json → Res ε (List Overlay)
  | .arr l => Res.unwrap (allSome (Overlay.ofJson E) l)
  | .obj l => Res.unwrap ((Overlay.ofJson E (.obj l)).map fun o => [o])
  | _ => .ok []

/-- the loop over the members (`oca.rs:640-650`) -/
def loadGroups {ε : Type} (E : Env) : List (Str × Json) → Res ε (List Overlay)
  | [] => .ok []
  | p :: t => do
    let a ← loadGroup E p.2
    let b ← loadGroups E t
    pure (a ++ b)

/-- `deserialize_overlays` (`oca.rs:623-657`): anything but a map is an error. -/
def overlaysOfJson (E : Env) : Json → Res Str (List Overlay)
  | .obj l => loadGroups E l
  | _ => .err c!"invalid type"

/-- a required member of a derived struct -/
def member (k : Str) (l : List (Str × Json)) : Res Str Json :=
  match l.filter fun p => decide (p.1 = k) with
  | [] => .err c!"missing field"
  | [p] => .ok p.2
  | _ => .err c!"duplicate field"

/-- an optional member of a derived struct -/
def memberOpt (k : Str) (l : List (Str × Json)) : Res Str (Option Json) :=
  match l.filter fun p => decide (p.1 = k) with
  | [] => .ok none
  | [p] => .ok (some p.2)
  | _ => .err c!"duplicate field"

/-- an error instead of nothing -/
def orErr {α : Type} : Option α → Res Str α
  | some a => .ok a
  | none => .err c!"invalid value"

/-- the attributes of a capture base, one after the other (`IndexMap`, a later equal key replaces the type) -/
def attrsOfJsonList (E : Env) : FMap NAttr → List (Str × Json) → Res Str (FMap NAttr)
  | m, [] => .ok m
  | m, p :: t => match NAttr.ofJson E p.2 with
    | .ok a => attrsOfJsonList E (m.insert p.1 a) t
    | .err _ => .err c!"attribute type"
    | .panic => .panic

/-- the members of a bundle (`oca.rs:672-682`) -/
def bundleMembers : List Str := [c!"d", c!"capture_base", c!"overlays"]
/-- the members of a capture base (`capture_base.rs:42-53`) -/
def baseMembers : List Str := [c!"d", c!"type", c!"attributes", c!"classification", c!"flagged_attributes"]

/-- derived `Deserialize for CaptureBase` (`capture_base.rs:42-53`). Which of several errors is reported is not
modelled. -/
def CaptureBase.ofJson (E : Env) (j : Json) : Res Str CaptureBase :=
  match structMembers baseMembers j with
  | some l => do
    let d ← memberOpt c!"d" l
    let d ← orErr (jSaid E d)
    let ty ← member c!"type" l
    let ty ← orErr (jStr ty)
    let as ← member c!"attributes" l
    let as ← match as with
      | .obj as => attrsOfJsonList E FMap.empty as
      | _ => .err c!"invalid type"
    let cl ← member c!"classification" l
    let cl ← orErr (jStr cl)
    let fl ← member c!"flagged_attributes" l
    let fl ← orErr (jStrs fl)
    pure ⟨d, ty, as, cl, fl⟩
  | none => .err c!"invalid type"

/-- `load_oca` (`controller.rs:8-12`), derived `Deserialize for OCABundle` (`oca.rs:670-682`) -/
def Bundle.ofJson (E : Env) (j : Json) : Res Str Bundle :=
  match structMembers bundleMembers j with
  | some l => do
    let d ← memberOpt c!"d" l
    let d ← orErr (jSaid E d)
    let cb ← member c!"capture_base" l
    let cb ← CaptureBase.ofJson E cb
    let ovs ← member c!"overlays" l
    let ovs ← overlaysOfJson E ovs
    pure ⟨d, cb, ovs⟩
  | none => .err c!"invalid type"

end OCA
