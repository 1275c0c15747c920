import Verif.Model.OcaBox
/-!
# The library interface: attributes made with setters, and the calls on a build state
(`semantics/oca-bundle/src/state/attribute.rs`, `state/oca.rs:60-107`, `state/oca/overlay/*.rs`)
-/
namespace OCA

/-- `set_attribute_type` (`attribute.rs:75-77`) -/
def Attribute.setTy (a : Attribute) (t : NAttr) : Attribute := { a with ty := some t }

/-- `set_flagged` (`attribute.rs:71-73`) -/
def Attribute.setFlagged (a : Attribute) : Attribute := { a with flagged := true }

/-- `set_encoding` (`overlay.rs:90-94` for `overlay/character_encoding.rs`) -/
def Attribute.setEncoding (a : Attribute) (e : Encoding) : Attribute := { a with encoding := some e }

/-- `set_format` (`overlay.rs:90-94` for `overlay/format.rs`) -/
def Attribute.setFormat (a : Attribute) (s : Str) : Attribute := { a with format := some s }

/-- `set_conformance` (`overlay.rs:90-94` for `overlay/conformance.rs`) -/
def Attribute.setConformance (a : Attribute) (s : Str) : Attribute := { a with conformance := some s }

/-- `set_cardinality` (`overlay.rs:90-94` for `overlay/cardinality.rs`) -/
def Attribute.setCardinality (a : Attribute) (s : Str) : Attribute := { a with cardinality := some s }

/-- `set_unit` (`overlay.rs:90-94` for `overlay/unit.rs`) -/
def Attribute.setUnit (a : Attribute) (s : Str) : Attribute := { a with unit := some s }

/-- `set_entry_codes` (`overlay.rs:90-94` for `overlay/entry_code.rs`) -/
def Attribute.setEntryCodes (a : Attribute) (e : EntryCodes) : Attribute := { a with entryCodes := some e }

/-- `add_classification` (`oca.rs:101-103`) -/
def OCABox.addClassification (b : OCABox) (s : Str) : OCABox := { b with classification := some s }

/-- `remove_classification` (`oca.rs:105-107`) -/
def OCABox.removeClassification (b : OCABox) : OCABox := { b with classification := none }

/-- A call of a setter on an attribute. Category labels and mappings, which no command and no loaded bundle sets, are left out;
so is frame metadata under the key `frame_id`, which the overlay uses for the name of the frame. -/
inductive SetCall : Attribute → Attribute → Prop
  | type (a : Attribute) (t : NAttr) : SetCall a (a.setTy t)
  | flagged (a : Attribute) : SetCall a a.setFlagged
  | label (a : Attribute) (l : Lang) (s : Str) : SetCall a (a.setLabel l s)
  | information (a : Attribute) (l : Lang) (s : Str) : SetCall a (a.setInformation l s)
  | entry (a : Attribute) (l : Lang) (e : EntriesEl) : SetCall a (a.setEntry l e)
  | entryCodes (a : Attribute) (e : EntryCodes) : SetCall a (a.setEntryCodes e)
  | encoding (a : Attribute) (e : Encoding) : SetCall a (a.setEncoding e)
  | format (a : Attribute) (s : Str) : SetCall a (a.setFormat s)
  | unit (a : Attribute) (s : Str) : SetCall a (a.setUnit s)
  | conformance (a : Attribute) (s : Str) : SetCall a (a.setConformance s)
  | cardinality (a : Attribute) (s : Str) : SetCall a (a.setCardinality s)
  | condition (a : Attribute) (s : Str) : SetCall a (a.setCond s)
  | link (a : Attribute) (t s : Str) : SetCall a (a.setLink t s)
  | framing (a : Attribute) (id : Str) (f : FMap Scope) (h : ∀ sc s, f.get sc = some s → s.frameMeta.get frameIdKey = none) :
      SetCall a (a.setFraming id f)

/-- The attributes a program can make: `Attribute::new` (`attribute.rs:45-69`), setters and `merge`. -/
inductive Attribute.Made : Attribute → Prop
  | new : Made {}
  | set {a a' : Attribute} : Made a → SetCall a a' → Made a'
  | merge {a a' : Attribute} : Made a → Made a' → Made (a.merge a')

/-- A call on a build state. An attribute that is new to the state must have a type (`generate_bundle` aborts otherwise). -/
inductive ApiCall : OCABox → OCABox → Prop
  | add (b : OCABox) (n : Str) (a : Attribute) : a.Made → (a.ty.isSome = true ∨ (b.attributes.get n).isSome = true) → ApiCall b (b.addAttribute n a)
  | remove (b : OCABox) (n : Str) : ApiCall b (b.removeAttribute n)
  | addMeta (b : OCABox) (l : Lang) (k v : Str) : ApiCall b (b.addMeta l k v)
  | addClassification (b : OCABox) (s : Str) : ApiCall b (b.addClassification s)
  | removeClassification (b : OCABox) : ApiCall b b.removeClassification

end OCA
