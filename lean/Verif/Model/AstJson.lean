import Verif.Model.Ast
/-!
# JSON form of attribute types, values and commands
-/
namespace OCA

/-- `FromStr` results as an option. -/
def Res.toOption {ε α : Type} : Res ε α → Option α
  | .ok a => some a
  | _ => none

/-! ## Attribute types -/

/-- `Serialize for NestedAttrType` (`ast/attributes.rs:12-27,39-51`, untagged): a reference as its
text, a base type as its name, an array as a one-element JSON array, null as null. -/
def NAttr.toJson : NAttr → Json
  | .ref r => .str r.toStr
  | .val t => .str t.toStr
  | .arr a => .arr [a.toJson]
  | .null => .null

/-- Errors of `Deserialize for NestedAttrType` (`ast/error.rs`). -/
inductive AttrErr where
  | unknownType (s : Str)
  | convertingFailure
  | refError (e : RefErr)
deriving DecidableEq, Repr

/-- `Deserialize for NestedAttrType` (`ast/attributes.rs:72-107`). `text.get(..5)` is `refs:`/`refn:`
exactly when the text starts so. `arr[0]` panics on an empty array and ignores further elements. -/
def NAttr.ofJson (E : Env) : Json → Res AttrErr NAttr
  | .null => .ok .null
  | .str s =>
    if (stripPrefix c!"refs:" s).isSome || (stripPrefix c!"refn:" s).isSome then
      match RefVal.parse E s with
      | .ok r => .ok (.ref r)
      | .err e => .err (.refError e)
      | .panic => .panic
    else
      match AttrType.ofStr s with
      | some t => .ok (.val t)
      | none => .err (.unknownType s)
  | .arr [] => .panic
  | .arr (j :: _) =>
    match NAttr.ofJson E j with
    | .ok a => .ok (.arr a)
    | .err e => .err e
    | .panic => .panic
  | .bool _ => .err .convertingFailure
  | .num _ => .err .convertingFailure
  | .obj _ => .err .convertingFailure

/-- All identifiers inside are real identifiers. -/
def NAttr.wf (E : Env) : NAttr → Prop
  | .ref r => r.wf E
  | .arr a => a.wf E
  | _ => True

/-! ## Nested values -/

mutual
/-- `Serialize for NestedValue` (`ast/mod.rs:392-399`, untagged). -/
def NVal.toJson : NVal → Json
  | .ref r => .str r.toStr
  | .val s => .str s
  | .obj l => .obj (NVal.toJsonObj l)
  | .arr l => .arr (NVal.toJsonArr l)
/-- entries of an object -/
def NVal.toJsonObj : List (Str × NVal) → List (Str × Json)
  | [] => []
  | (k, v) :: t => (k, v.toJson) :: NVal.toJsonObj t
/-- elements of an array -/
def NVal.toJsonArr : List NVal → List Json
  | [] => []
  | v :: t => v.toJson :: NVal.toJsonArr t
end

mutual
/-- `Deserialize for NestedValue` (`ast/mod.rs:392-399`, untagged): the variants are tried in order
`Reference`, `Value`, `Object`, `Array`, so a string is a reference whenever it parses as one. -/
def NVal.ofJson (E : Env) : Json → Option NVal
  | .str s =>
    match RefVal.parse E s with
    | .ok r => some (.ref r)
    | _ => some (.val s)
  | .obj l => (NVal.ofJsonObj E l).map (fun l => NVal.obj (imExtend [] l))
  | .arr l => (NVal.ofJsonArr E l).map NVal.arr
  | .null => none
  | .bool _ => none
  | .num _ => none
/-- entries of an object, in order (inserted into an `IndexMap` afterwards) -/
def NVal.ofJsonObj (E : Env) : List (Str × Json) → Option (List (Str × NVal))
  | [] => some []
  | (k, j) :: t =>
    match NVal.ofJson E j with
    | none => none
    | some v => (NVal.ofJsonObj E t).map (fun r => (k, v) :: r)
/-- elements of an array -/
def NVal.ofJsonArr (E : Env) : List Json → Option (List NVal)
  | [] => some []
  | j :: t =>
    match NVal.ofJson E j with
    | none => none
    | some v => (NVal.ofJsonArr E t).map (fun r => v :: r)
end

/-! ## Commands -/

/-- unit variant names of `CommandType` (`ast/mod.rs:42-48`, derived serde) -/
def CmdType.toStr : CmdType → Str
  | .add => c!"Add"
  | .remove => c!"Remove"
  | .modify => c!"Modify"
  | .«from» => c!"From"

/-- derived `Deserialize for CommandType` -/
def CmdType.ofStr (s : Str) : Option CmdType :=
  if s = c!"Add" then some .add
  else if s = c!"Remove" then some .remove
  else if s = c!"Modify" then some .modify
  else if s = c!"From" then some .«from»
  else none

/-- an optional field with `skip_serializing_if = "Option::is_none"` -/
def optField (k : Str) : Option Json → List (Str × Json)
  | none => []
  | some j => [(k, j)]

/-- derived `Serialize for CaptureContent` (`ast/mod.rs:364-372`) -/
def CaptureContent.toJson (c : CaptureContent) : Json :=
  .obj (optField c!"attributes" (c.attributes.map fun l => .obj (l.map fun p => (p.1, p.2.toJson)))
    ++ optField c!"properties" (c.properties.map fun l => .obj (NVal.toJsonObj l))
    ++ optField c!"flagged_attributes" (c.flagged.map fun l => .arr (l.map Json.str)))

/-- derived `Serialize for Content` (`ast/mod.rs:374-381`) -/
def Content.toJson (c : Content) : Json :=
  .obj (optField c!"attributes" (c.attributes.map fun l => .obj (NVal.toJsonObj l))
    ++ optField c!"properties" (c.properties.map fun l => .obj (NVal.toJsonObj l)))

/-- `Serialize for ObjectKind` (`ast/mod.rs:229-253`): the two fields flattened into the command. -/
def ObjKind.toFields : ObjKind → List (Str × Json)
  | .captureBase c => [(c!"object_kind", .str c!"CaptureBase"), (c!"content", c.toJson)]
  | .ocaBundle r =>
    [(c!"object_kind", .str c!"OCABundle"), (c!"content", .obj [(c!"said", .str r.toStr)])]
  | .overlay t c => [(c!"object_kind", .str t.kind.display), (c!"content", c.toJson)]

/-- derived `Serialize for Command` (`ast/mod.rs:28-34`): `type` then the flattened object kind. -/
def Command.toJson (c : Command) : Json :=
  .obj ((c!"type", .str c.kind.toStr) :: c.obj.toFields)

/-- The members a derived `Deserialize` of a struct sees: those of an object; an array holds them in the order of the fields,
all of them and no more (`visit_seq` of serde's derive). -/
def structMembers (names : List Str) : Json → Option (List (Str × Json))
  | .obj l => some l
  | .arr l => if l.length = names.length then some (names.zip l) else none
  | _ => none

/-- A struct field in a JSON object: absent or present once; a repeated field is an error. -/
def jfield (k : Str) (l : List (Str × Json)) : Option (Option Json) :=
  match l.filter (fun p => decide (p.1 = k)) with
  | [] => some none
  | [p] => some (some p.2)
  | _ => none

/-- Outcome of a deserialisation: value, error, or the panic of `arr[0]`. -/
abbrev DRes (α : Type) := Res Unit α

/-- sequence a list of outcomes -/
def collectRes {ε α β : Type} (f : α → Res ε β) : List α → Res ε (List β)
  | [] => .ok []
  | a :: t =>
    match f a with
    | .ok b => match collectRes f t with
      | .ok r => .ok (b :: r)
      | .err e => .err e
      | .panic => .panic
    | .err e => .err e
    | .panic => .panic

/-- forget the error -/
def Res.noErr {ε α : Type} : Res ε α → DRes α
  | .ok a => .ok a
  | .err _ => .err ()
  | .panic => .panic

/-- an option as an outcome -/
def DRes.ofOption {α : Type} : Option α → DRes α
  | some a => .ok a
  | none => .err ()

/-- a field of type `Option<IndexMap<String, NestedAttrType>>` -/
def attrsOfJson (E : Env) : Option Json → DRes (Option (List (Str × NAttr)))
  | none => .ok none
  | some .null => .ok none
  | some (.obj l) =>
    match collectRes (fun p : Str × Json =>
        match NAttr.ofJson E p.2 with
        | .ok a => .ok (p.1, a)
        | .err e => .err e
        | .panic => .panic) l with
    | .ok r => .ok (some (imExtend [] r))
    | .err _ => .err ()
    | .panic => .panic
  | some _ => .err ()

/-- a field of type `Option<IndexMap<String, NestedValue>>` -/
def valsOfJson (E : Env) : Option Json → DRes (Option (List (Str × NVal)))
  | none => .ok none
  | some .null => .ok none
  | some (.obj l) =>
    match NVal.ofJsonObj E l with
    | some r => .ok (some (imExtend [] r))
    | none => .err ()
  | some _ => .err ()

/-- a JSON string -/
def Json.asStr : Json → Option Str
  | .str s => some s
  | _ => none

/-- a field of type `Option<Vec<String>>` -/
def strsOfJson : Option Json → DRes (Option (List Str))
  | none => .ok none
  | some .null => .ok none
  | some (.arr l) =>
    match collectRes (fun j => DRes.ofOption (Json.asStr j)) l with
    | .ok r => .ok (some r)
    | .err e => .err e
    | .panic => .panic
  | some _ => .err ()

/-- derived `Deserialize for CaptureContent` (`ast/mod.rs:364-372`); unknown fields are ignored -/
def CaptureContent.ofJson (E : Env) (j : Json) : DRes CaptureContent :=
  match structMembers [c!"attributes", c!"properties", c!"flagged_attributes"] j with
  | some l => do
    let a ← DRes.ofOption (jfield c!"attributes" l)
    let p ← DRes.ofOption (jfield c!"properties" l)
    let f ← DRes.ofOption (jfield c!"flagged_attributes" l)
    let a ← attrsOfJson E a
    let p ← valsOfJson E p
    let f ← strsOfJson f
    pure ⟨a, p, f⟩
  | none => .err ()

/-- derived `Deserialize for Content` (`ast/mod.rs:374-381`) -/
def Content.ofJson (E : Env) (j : Json) : DRes Content :=
  match structMembers [c!"attributes", c!"properties"] j with
  | some l => do
    let a ← DRes.ofOption (jfield c!"attributes" l)
    let p ← DRes.ofOption (jfield c!"properties" l)
    let a ← valsOfJson E a
    let p ← valsOfJson E p
    pure ⟨a, p⟩
  | none => .err ()

/-- derived `Deserialize for BundleContent` (`ast/mod.rs:359-363`) -/
def bundleContentOfJson (E : Env) (j : Json) : DRes RefVal :=
  match structMembers [c!"said"] j with
  | some l =>
    match jfield c!"said" l with
    | some (some (.str s)) => (RefVal.parse E s).noErr
    | _ => .err ()
  | none => .err ()

/-- The value following the `object_kind` field (`ast/mod.rs:558-609`). -/
def objKindOfJson (E : Env) (kind : Str) (content : Json) : DRes ObjKind :=
  if kind = c!"CaptureBase" then
    match CaptureContent.ofJson E content with
    | .ok c => .ok (.captureBase c)
    | .err e => .err e
    | .panic => .panic
  else if kind = c!"OCABundle" then
    match bundleContentOfJson E content with
    | .ok c => .ok (.ocaBundle c)
    | .err e => .err e
    | .panic => .panic
  else
    match OverlayType.fromStr kind with
    | none => .err ()
    | some t =>
      match Content.ofJson E content with
      | .ok c => .ok (.overlay t c)
      | .err e => .err e
      | .panic => .panic

/-- the name of a variant without content, as a derived enum reads it: a text, or an object with that one key and `null` -/
def variantName : Json → Option Str
  | .str s => some s
  | .obj [(s, .null)] => some s
  | _ => none

/-- the `type` entry (`ast/mod.rs:545-550`): a second one is an error -/
def visitType (kind : Option CmdType) (v : Json) : DRes CmdType :=
  match kind, variantName v with
  | none, some s => DRes.ofOption (CmdType.ofStr s)
  | _, _ => .err ()

/-- the `object_kind` entry and the content after it (`ast/mod.rs:551-609`): a second one is an error -/
def visitObj (E : Env) (ok : Option ObjKind) (v c : Json) : DRes ObjKind :=
  match ok, v with
  | none, .str s => objKindOfJson E s c
  | _, _ => .err ()

/-- `CommandVisitor::visit_map` (`ast/mod.rs:537-620`): after `object_kind` the next entry is taken
as the content whatever its key; any other key than `type`/`object_kind` is an error. -/
def Command.visit (E : Env) (kind : Option CmdType) (ok : Option ObjKind) :
    List (Str × Json) → DRes Command
  | [] =>
    match kind, ok with
    | some k, some o => .ok ⟨k, o⟩
    | _, _ => .err ()
  | [(key, v)] =>
    if key = c!"type" then visitType kind v >>= fun k => Command.visit E (some k) ok []
    else .err ()
  | (key, v) :: (key', c) :: t =>
    if key = c!"type" then visitType kind v >>= fun k => Command.visit E (some k) ok ((key', c) :: t)
    else if key = c!"object_kind" then visitObj E ok v c >>= fun o => Command.visit E kind (some o) t
    else .err ()

/-- `Deserialize for Command` (`ast/mod.rs:485-627`) -/
def Command.ofJson (E : Env) : Json → DRes Command
  | .obj l => Command.visit E none none l
  | _ => .err ()

/-! ## When round trips can hold -/

mutual
/-- A value whose JSON reads back: object keys are distinct (always so for an `IndexMap`),
identifiers are real, and no plain text parses as a reference. -/
def NVal.faithful (E : Env) : NVal → Prop
  | .ref r => r.wf E
  | .val s => (RefVal.parse E s).isOk = false
  | .obj l => (l.map (·.1)).Nodup ∧ NVal.faithfulObj E l
  | .arr l => NVal.faithfulArr E l
/-- every value of an object -/
def NVal.faithfulObj (E : Env) : List (Str × NVal) → Prop
  | [] => True
  | (_, v) :: t => v.faithful E ∧ NVal.faithfulObj E t
/-- every element of an array -/
def NVal.faithfulArr (E : Env) : List NVal → Prop
  | [] => True
  | v :: t => v.faithful E ∧ NVal.faithfulArr E t
end

end OCA
