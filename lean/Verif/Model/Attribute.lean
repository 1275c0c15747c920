import Verif.Model.Condition
/-!
# Attributes under construction (`semantics/oca-bundle/src/state/attribute.rs` and the setters next to
the overlays)
-/
namespace OCA

/-- `Encoding` (`state/encoding.rs:5-21`) -/
inductive Encoding where
  | base64 | utf8 | iso88591 | utf16 | utf16be | utf16le
deriving DecidableEq, Repr

/-- serde names of `Encoding` (`state/encoding.rs:8-20`) -/
def Encoding.toStr : Encoding → Str
  | .base64 => c!"base64"
  | .utf8 => c!"utf-8"
  | .iso88591 => c!"iso-8859-1"
  | .utf16 => c!"utf-16"
  | .utf16be => c!"utf-16be"
  | .utf16le => c!"utf-16le"

/-- `FromStr for Encoding` (`state/encoding.rs:23-37`); derived `Deserialize` accepts the same names. -/
def Encoding.ofStr (s : Str) : Option Encoding :=
  if s = c!"base64" then some .base64
  else if s = c!"utf-8" then some .utf8
  else if s = c!"iso-8859-1" then some .iso88591
  else if s = c!"utf-16" then some .utf16
  else if s = c!"utf-16be" then some .utf16be
  else if s = c!"utf-16le" then some .utf16le
  else none

/-- `EntryCodes` (`state/entry_codes.rs:37-43`); the `IndexMap` is an ordered association list. -/
inductive EntryCodes where
  | sai (s : Str)
  | array (l : List Str)
  | object (l : List (Str × List Str))
deriving DecidableEq, Repr

/-- `EntriesElement` (`state/entries.rs:27-32`) -/
inductive EntriesEl where
  | sai (s : Str)
  | object (m : FMap Str)
deriving DecidableEq, Repr

/-- `FramingScope` (`overlay/attribute_framing.rs:12-18`) -/
structure Scope where
  predicateId : Str
  justification : Str
  frameMeta : FMap Str
deriving DecidableEq, Repr

/-- `Attribute` (`state/attribute.rs:12-36`) without its `name`: everywhere in the code an attribute
is stored in a map under its own name, so the name is the key. The `format_overlay` feature (on in the
`oca` and `oca-dag` crates) is taken to be on. -/
structure Attribute where
  ty : Option NAttr := none
  flagged : Bool := false
  labels : Option (FMap Str) := none
  categoryLabels : Option (FMap Str) := none
  informations : Option (FMap Str) := none
  entryCodes : Option EntryCodes := none
  entries : Option (FMap EntriesEl) := none
  mapping : Option Str := none
  encoding : Option Encoding := none
  format : Option Str := none
  unit : Option Str := none
  entryCodesMapping : Option (List Str) := none
  condition : Option Str := none
  dependencies : Option (List Str) := none
  cardinality : Option Str := none
  conformance : Option Str := none
  standards : Option (List Str) := none
  links : Option (FMap Str) := none
  framings : Option (FMap (FMap Scope)) := none
deriving DecidableEq, Repr

/-- `if other.is_some() { self.clone_from(other) }` (`attribute.rs:84-86` and the like) -/
def overwrite {α : Type} (self other : Option α) : Option α :=
  match other with
  | some v => some v
  | none => self

/-- `if self.is_none() { self.clone_from(other) }` (`attribute.rs:105-107` and the like) -/
def keepFirst {α : Type} (self other : Option α) : Option α :=
  match self with
  | some v => some v
  | none => other

/-- `merge_labels` and its three siblings (`attribute.rs:150-197`): clone when absent, else insert every
entry (the insertion order over `other`'s hash map cannot matter, see `FMap.insertAll_perm`). -/
def mergeMaps {V : Type} (self other : Option (FMap V)) : Option (FMap V) :=
  match self with
  | none => other
  | some m => match other with
    | none => some m
    | some m' => some (m.insertAll m'.l)

/-- The dependencies are taken along with the condition (`attribute.rs:113-119`). -/
def mergeDeps (cond : Option Str) (self other : Option (List Str)) : Option (List Str) :=
  match cond with
  | some _ => overwrite self other
  | none => self

/-- `Attribute::merge` (`attribute.rs:79-148`). The panic on different names cannot occur: both have
the name of the map key. -/
def Attribute.merge (self other : Attribute) : Attribute where
  ty := overwrite self.ty other.ty
  flagged := self.flagged
  labels := mergeMaps self.labels other.labels
  categoryLabels := mergeMaps self.categoryLabels other.categoryLabels
  informations := mergeMaps self.informations other.informations
  entryCodes := keepFirst self.entryCodes other.entryCodes
  entries := mergeMaps self.entries other.entries
  mapping := overwrite self.mapping other.mapping
  encoding := overwrite self.encoding other.encoding
  format := overwrite self.format other.format
  unit := keepFirst self.unit other.unit
  entryCodesMapping := keepFirst self.entryCodesMapping other.entryCodesMapping
  condition := overwrite self.condition other.condition
  dependencies := mergeDeps other.condition self.dependencies other.dependencies
  cardinality := overwrite self.cardinality other.cardinality
  conformance := overwrite self.conformance other.conformance
  standards := overwrite self.standards other.standards
  links := overwrite self.links other.links
  framings := overwrite self.framings other.framings

/-- Insert into an optional map, creating it (`set_label`, `set_information`, `set_entry`, `set_link`). -/
def putIn {V : Type} (m : Option (FMap V)) (k : Str) (v : V) : Option (FMap V) :=
  match m with
  | some m => some (m.insert k v)
  | none => some (FMap.empty.insert k v)

/-- `set_label` (`overlay/label.rs:16-27`) -/
def Attribute.setLabel (a : Attribute) (l : Lang) (s : Str) : Attribute :=
  { a with labels := putIn a.labels l s }

/-- `set_information` (`overlay/information.rs:14-24`) -/
def Attribute.setInformation (a : Attribute) (l : Lang) (s : Str) : Attribute :=
  { a with informations := putIn a.informations l s }

/-- `set_entry` (`overlay/entry.rs:14-24`) -/
def Attribute.setEntry (a : Attribute) (l : Lang) (e : EntriesEl) : Attribute :=
  { a with entries := putIn a.entries l e }

/-- `set_link` (`overlay/link.rs:13-23`) -/
def Attribute.setLink (a : Attribute) (t : Str) (s : Str) : Attribute :=
  { a with links := putIn a.links t s }

/-- `set_condition` (`overlay/conditional.rs:24-43`) -/
def Attribute.setCond (a : Attribute) (s : Str) : Attribute :=
  { a with condition := some (setCondition s).1, dependencies := some (setCondition s).2 }

/-- `set_framing` (`overlay/attribute_framing.rs:24-40`): extends an existing frame. -/
def Attribute.setFraming (a : Attribute) (id : Str) (f : FMap Scope) : Attribute :=
  { a with framings := match a.framings with
    | none => some (FMap.empty.insert id f)
    | some m => match m.get id with
      | some g => some (m.insert id (g.insertAll f.l))
      | none => some (m.insert id f) }

end OCA
