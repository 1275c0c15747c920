import Verif.Model.Bundle
/-!
# The build state and bundle generation (`semantics/oca-bundle/src/state/oca.rs:51-335`)
-/
namespace OCA

/-- `OCABox` (`oca.rs:51-58`); an attribute mapping overlay is represented by its map. -/
structure OCABox where
  attributes : FMap Attribute := FMap.empty
  mappings : Option (List (FMap Str)) := none
  metaMap : Option (FMap (FMap Str)) := none
  classification : Option Str := none
deriving DecidableEq, Repr

/-- `OCABox::new` (`oca.rs:67-74`) -/
def OCABox.new : OCABox := {}

/-- `remove_attribute` (`oca.rs:75-79`) -/
def OCABox.removeAttribute (b : OCABox) (n : Str) : OCABox :=
  { b with attributes := b.attributes.erase n }

/-- `add_attribute` (`oca.rs:80-90`) -/
def OCABox.addAttribute (b : OCABox) (n : Str) (a : Attribute) : OCABox :=
  match b.attributes.get n with
  | some a0 => { b with attributes := b.attributes.insert n (a0.merge a) }
  | none => { b with attributes := b.attributes.insert n a }

/-- `add_meta` (`overlay/meta.rs:15-33`) -/
def OCABox.addMeta (b : OCABox) (l : Lang) (k v : Str) : OCABox :=
  let m := b.metaMap.getD FMap.empty
  let pairs := (m.get l).getD FMap.empty
  { b with metaMap := some (m.insert l (pairs.insert k v)) }

/-- What an overlay made by `generate_overlays` is looked up by (`oca.rs:144-317`): its type, and its
language, link target or frame id. -/
inductive OvKey where
  | charEnc | format | conformance | cardinality | conditional | unit | entryCode
  | entry (l : Lang) | label (l : Lang) | information (l : Lang) | link (t : Str) | framing (id : Str)
deriving DecidableEq, Repr

/-- The name under which the frame id is stored in the framing metadata. -/
def frameIdKey : Str := c!"frame_id"

/-- The `find` predicates of `generate_overlays` (`oca.rs:147, 161, 174, 187, 200, 213, 226,
238-240, 253-255, 268-270, 283-288, 302-307`). All overlays present have version 1.1. -/
def OvBody.matches (b : OvBody) : OvKey → Bool
  | .charEnc => b.kind = .characterEncoding
  | .format => b.kind = .format
  | .conformance => b.kind = .conformance
  | .cardinality => b.kind = .cardinality
  | .conditional => b.kind = .conditional
  | .unit => b.kind = .unit
  | .entryCode => b.kind = .entryCode
  | .entry l => b.kind = .entry && b.language = some l
  | .label l => b.kind = .label && b.language = some l
  | .information l => b.kind = .information && b.language = some l
  | .link t => match b with
    | .link t' _ => t' = t
    | _ => false
  | .framing id => match b with
    | .framing md _ => md.get frameIdKey = some id
    | _ => false

/-- The constructors used in `generate_overlays` (`overlay.rs:149-158`, `entry.rs:89-99`,
`label.rs:130-143`, `information.rs:89-98`, `link.rs:85-94`, `attribute_framing.rs:129-141`). -/
def OvKey.newBody : OvKey → OvBody
  | .charEnc => .charEnc FMap.empty
  | .format => .format FMap.empty
  | .conformance => .conformance FMap.empty
  | .cardinality => .cardinality FMap.empty
  | .conditional => .conditional FMap.empty FMap.empty
  | .unit => .unit FMap.empty
  | .entryCode => .entryCode FMap.empty
  | .entry l => .entry l FMap.empty
  | .label l => .label l [] FMap.empty FMap.empty
  | .information l => .information l FMap.empty
  | .link t => .link t FMap.empty
  | .framing id => .framing (FMap.empty.insert frameIdKey id) FMap.empty

/-- `if let Some(v) = .. { map.insert(name, v) }` -/
def insOpt {V : Type} (m : FMap V) (n : Str) : Option V → FMap V
  | some v => m.insert n v
  | none => m

/-- `framings.get(id)` for an optional map -/
def optGet {V : Type} (m : Option (FMap V)) (k : Str) : Option V := m.bind (·.get k)

/-- The pairs written into the framing metadata by `AttributeFramingOverlay::add`
(`attribute_framing.rs:117-121`), in hash order of the scopes and of their metadata. -/
def scopeMetaPairs (O : Order) (n : Str) (fr : FMap Scope) : List (Str × Str) :=
  (O.iter 117 [n] fr).flatMap (fun p => O.iter 118 [n, p.1] p.2.frameMeta)

/-- `Overlay::add` of each overlay kind (`overlay.rs:135-139`, `conditional.rs:152-165`,
`entry.rs:79-86`, `label.rs:113-126`, `information.rs:79-86`, `meta.rs:90`, `link.rs:75-82`,
`attribute_framing.rs:110-125`, `attribute_mapping.rs:41-48`, `standard.rs:59-65`, `subset.rs:39-41`,
`entry_code_mapping.rs:42-49`). `standard[0]` on an empty list would panic; never reached. -/
def OvBody.add (O : Order) (n : Str) (a : Attribute) : OvBody → OvBody
  | .charEnc m => .charEnc (insOpt m n a.encoding)
  | .format m => .format (insOpt m n a.format)
  | .conformance m => .conformance (insOpt m n a.conformance)
  | .cardinality m => .cardinality (insOpt m n a.cardinality)
  | .unit m => .unit (insOpt m n a.unit)
  | .conditional c d => .conditional (insOpt c n a.condition) (insOpt d n a.dependencies)
  | .entryCode m => .entryCode (insOpt m n a.entryCodes)
  | .entry l m => .entry l (insOpt m n (optGet a.entries l))
  | .label l cs m cl => .label l cs (insOpt m n (optGet a.labels l)) (insOpt cl n (optGet a.categoryLabels l))
  | .information l m => .information l (insOpt m n (optGet a.informations l))
  | .metaOv l m => .metaOv l m
  | .link t m => .link t (insOpt m n (optGet a.links t))
  | .framing md m =>
    match md.get frameIdKey with
    | none => .framing md m
    | some id => match optGet a.framings id with
      | none => .framing md m
      | some fr => .framing (md.insertAll (scopeMetaPairs O n fr)) (m.insert n fr)
  | .mapping m => .mapping m
  | .standard m => .standard (insOpt m n (a.standards.bind List.head?))
  | .subset l => .subset (l ++ [n])
  | .entryCodeMapping m => .entryCodeMapping (insOpt m n a.entryCodesMapping)

/-- Keys of an optional hash map, in hash order. -/
def optKeys {V : Type} (O : Order) (site : Nat) (n : Str) : Option (FMap V) → List Str
  | none => []
  | some m => (O.iter site [n] m).map (·.1)

/-- one key if the field is set -/
def oneKey {V : Type} (k : OvKey) : Option V → List OvKey
  | none => []
  | some _ => [k]

/-- The overlays an attribute is added to, in the order of `generate_overlays` (`oca.rs:142-317`). -/
def attrKeys (O : Order) (n : Str) (a : Attribute) : List OvKey :=
  oneKey .charEnc a.encoding ++ oneKey .format a.format ++ oneKey .conformance a.conformance
  ++ oneKey .cardinality a.cardinality ++ oneKey .conditional a.condition ++ oneKey .unit a.unit
  ++ oneKey .entryCode a.entryCodes
  ++ (optKeys O 237 n a.entries).map .entry
  ++ (optKeys O 252 n a.labels).map .label
  ++ (optKeys O 267 n a.informations).map .information
  ++ (optKeys O 282 n a.links).map .link
  ++ (optKeys O 301 n a.framings).map .framing

/-- Find the overlay of a key, or push a new one, and add the attribute to it (`oca.rs:144-155` and the
like). -/
def upsert (O : Order) (k : OvKey) (n : Str) (a : Attribute) : List OvBody → List OvBody
  | [] => [(k.newBody).add O n a]
  | b :: l => if b.matches k then b.add O n a :: l else b :: upsert O k n a l

/-- The body of the attribute loop (`oca.rs:142-317`). -/
def addAttrOverlays (O : Order) (ovs : List OvBody) (p : Str × Attribute) : List OvBody :=
  (attrKeys O p.1 p.2).foldl (fun acc k => upsert O k p.1 p.2 acc) ovs

/-- The overlays pushed before the attribute loop (`oca.rs:129-140`): mappings, then metas in hash
order. -/
def preBodies (O : Order) (b : OCABox) : List OvBody :=
  (b.mappings.getD []).map .mapping
  ++ (match b.metaMap with
    | none => []
    | some m => (O.iter 136 [] m).map fun p => .metaOv p.1 p.2)

/-- `generate_overlays` (`oca.rs:128-321`) -/
def genBodies (O : Order) (b : OCABox) : List OvBody :=
  (O.iter 142 [] b.attributes).foldl (addAttrOverlays O) (preBodies O b)

/-- `CaptureBase::add` (`capture_base.rs:76-97`): a missing type panics. -/
def CaptureBase.add {ε : Type} (c : CaptureBase) (n : Str) (a : Attribute) : Res ε CaptureBase :=
  match a.ty with
  | none => .panic
  | some t => .ok { c with
      attributes := c.attributes.insert n t,
      flagged := if a.flagged then c.flagged ++ [n] else c.flagged }

/-- `CaptureBase::new` (`capture_base.rs:61-70`) -/
def CaptureBase.new : CaptureBase := ⟨none, c!"spec/capture_base/1.1", FMap.empty, [], []⟩

/-- the loop of `generate_capture_base` (`oca.rs:327-329`) -/
def addAllAttrs {ε : Type} : CaptureBase → List (Str × Attribute) → Res ε CaptureBase
  | c, [] => .ok c
  | c, p :: t => do
    let c ← c.add p.1 p.2
    addAllAttrs c t

/-- `generate_capture_base` (`oca.rs:322-331`) -/
def genCaptureBase {ε : Type} (O : Order) (b : OCABox) : Res ε CaptureBase :=
  addAllAttrs { CaptureBase.new with classification := b.classification.getD [] }
    (O.iter 327 [] b.attributes)

/-- `CaptureBase::sign` (`capture_base.rs:99-107`) -/
def CaptureBase.sign (E : Env) (c : CaptureBase) : CaptureBase :=
  { c with said := some (E.digest c.digestInput) }

/-- `Overlay::sign` (`overlay.rs:64-73`): bind to the capture base, then fill the SAID. -/
def Overlay.sign (E : Env) (cb : Said) (o : Overlay) : Overlay :=
  let o := { o with captureBase := some cb }
  { o with said := some (E.digest o.digestInput) }

/-- `OCABundle::fill_said` (`oca.rs:922-926`) -/
def Bundle.fillSaid (E : Env) (b : Bundle) : Bundle :=
  { b with said := some (E.digest (b.digestInput E)) }

/-- `generate_bundle` (`oca.rs:109-126`) -/
def generateBundle {ε : Type} (E : Env) (O : Order) (b : OCABox) : Res ε Bundle := do
  let cb ← genCaptureBase O b
  let cb := cb.sign E
  let said ← Res.unwrap cb.said
  let ovs := (genBodies O b).map fun body => Overlay.sign E said ⟨none, none, c!"1.1", body⟩
  pure (Bundle.fillSaid E ⟨none, cb, ovs⟩)

end OCA
