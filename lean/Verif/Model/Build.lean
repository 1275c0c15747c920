import Verif.Model.FromBundle
/-!
# Applying commands (`semantics/oca-bundle/src/build.rs`)
-/
namespace OCA

/-- `content.properties` → the language (`build.rs:160-165, 175-182, 201-208, 403-410`): the value of
`lang` as an ISO 639-1 code, `none` if missing, not a text, or unknown. -/
def Content.lang (E : Env) (c : Content) : Option Lang :=
  match c.properties.bind (imGet c!"lang") with
  | some (.val s) => E.lang1 s
  | _ => none

/-- One property of a META command (`build.rs:167-171`): `lang_iso.unwrap()` panics without language. -/
def metaStep {ε : Type} (lang : Option Lang) (box : OCABox) (p : Str × NVal) : Res ε OCABox :=
  match p.2 with
  | .val v => do
    let l ← Res.unwrap lang
    pure (box.addMeta l p.1 v)
  | _ => .ok box

/-- a loop with early exit -/
def foldRes {ε α β : Type} (f : β → α → Res ε β) : β → List α → Res ε β
  | b, [] => .ok b
  | b, a :: t => do
    let b ← f b a
    foldRes f b t

/-- ADD META (`build.rs:158-173`). `IndexMap::remove` may move the last property to the place of `lang`;
the properties have distinct names, so their order does not matter. -/
def applyMeta {ε : Type} (E : Env) (box : OCABox) (c : Content) : Res ε OCABox :=
  match c.properties with
  | none => .ok box
  | some ps => foldRes (metaStep (c.lang E)) box (imDrop (fun k => decide (k = c!"lang")) ps)

/-- the texts among a list of values (`build.rs:361-367, 376-387`) -/
def NVal.texts (l : List NVal) : List Str :=
  l.filterMap fun v => match v with
    | .val s => some s
    | _ => none

/-- EntryCode values (`build.rs:354-397`) -/
def entryCodesOf : NVal → Option EntryCodes
  | .val s => some (.sai s)
  | .arr l => some (.array (NVal.texts l))
  | .obj l => some (.object (imExtend [] (l.filterMap fun p => match p.2 with
      | .arr cs => some (p.1, NVal.texts cs)
      | _ => none)))
  | .ref _ => none

/-- Entry values (`build.rs:421-446`) -/
def entriesOf : NVal → Option EntriesEl
  | .val s => some (.sai s)
  | .obj l => some (.object (FMap.ofList (l.filterMap fun p => match p.2 with
      | .val s => some (p.1, s)
      | _ => none)))
  | _ => none

/-- LINK target (`build.rs:452-459`) -/
def Content.target (c : Content) : Option Str :=
  match c.properties.bind (imGet c!"target") with
  | some (.ref (.said s)) => some s
  | _ => none

/-- the text properties of a command -/
def Content.textProps (c : Content) : List (Str × Str) :=
  (c.properties.getD []).filterMap fun p => match p.2 with
    | .val s => some (p.1, s)
    | _ => none

/-- frame id (`build.rs:483, 488-489`): the last text property named `id` -/
def Content.frameId (c : Content) : Option Str := FMap.lastVal c.textProps c!"id"

/-- frame metadata (`build.rs:484, 490-493`): the other text properties, prefixed with `frame_` -/
def Content.frameMeta (c : Content) : FMap Str :=
  FMap.ofList ((c.textProps.filter fun p => decide (p.1 ≠ c!"id")).map fun p => (c!"frame_" ++ p.1, p.2))

/-- a framing scope (`build.rs:514-530`) -/
def scopeOf (fm : FMap Str) : NVal → Option Scope
  | .obj l => match imGet c!"predicate_id" l with
    | some (.val p) => match imGet c!"framing_justification" l with
      | some (.val j) => some ⟨p, j, fm⟩
      | _ => none
    | _ => none
  | _ => none

/-- the framing of one attribute (`build.rs:512-532`) -/
def framingOf (fm : FMap Str) (l : List (Str × NVal)) : FMap Scope :=
  FMap.ofList (l.filterMap fun p => (scopeOf fm p.2).map fun s => (p.1, s))

/-- How an ADD overlay command of each kind changes the clone of an attribute it names, with the errors
already collected before the attribute loop. `none`: the kind has no attribute loop. -/
def ovSetter (E : Env) (k : OvKind) (c : Content) :
    Option (List Str × (Attribute → NVal → Res (List Str) Attribute)) :=
  match k with
  -- `build.rs:174-199`
  | .label => some ([], fun a v => match v with
    | .val s => do
      let l ← Res.unwrap (c.lang E)
      pure (a.setLabel l s)
    | _ => .ok a)
  -- `build.rs:200-225`
  | .information => some ([], fun a v => match v with
    | .val s => do
      let l ← Res.unwrap (c.lang E)
      pure (a.setInformation l s)
    | _ => .ok a)
  -- `build.rs:226-248`
  | .characterEncoding => some ([], fun a v => match v with
    | .val s => match Encoding.ofStr s with
      | some e => .ok { a with encoding := some e }
      | none => .err [c!"Unknown encoding: " ++ s]
    | _ => .ok a)
  -- `build.rs:249-267`
  | .conformance => some ([], fun a v => match v with
    | .val s => .ok { a with conformance := some s }
    | _ => .ok a)
  -- `build.rs:268-288`
  | .format => some ([], fun a v => match v with
    | .val s => .ok { a with format := some s }
    | _ => .ok a)
  -- `build.rs:289-306`
  | .unit => some ([], fun a v => match v with
    | .val s => .ok { a with unit := some s }
    | _ => .ok a)
  -- `build.rs:307-324`
  | .cardinality => some ([], fun a v => match v with
    | .val s => .ok { a with cardinality := some s }
    | _ => .ok a)
  -- `build.rs:325-342`
  | .conditional => some ([], fun a v => match v with
    | .val s => .ok (a.setCond s)
    | _ => .ok a)
  -- `build.rs:343-401`
  | .entryCode => some ([], fun a v => match entryCodesOf v with
    | some e => .ok { a with entryCodes := some e }
    | none => .ok a)
  -- `build.rs:402-450`
  | .entry => some ([], fun a v => match entriesOf v with
    | some e => do
      let l ← Res.unwrap (c.lang E)
      pure (a.setEntry l e)
    | none => .ok a)
  -- `build.rs:451-481`
  | .link => some (if c.target.isNone then [c!"Undefined target bundle"] else [], fun a v => match v with
    | .val s => do
      let t ← Res.unwrap c.target
      pure (a.setLink t s)
    | _ => .ok a)
  -- `build.rs:482-538`
  | .attributeFraming => some (if c.frameId.isNone then [c!"Undefined frame id"] else [], fun a v => match v with
    | .obj l => do
      let id ← Res.unwrap c.frameId
      pure (a.setFraming id (framingOf c.frameMeta l))
    | _ => .ok a)
  | _ => none

/-- The text of the error for an attribute that does not exist (`build.rs:189` and the like). -/
def undefinedAttr (n : Str) : Str := c!"Undefined attribute: " ++ n

/-- One iteration of an attribute loop (`build.rs:184-197` and the like): clone, set, `add_attribute`
(which merges the clone back). -/
def ovAttrStep (errs : List Str) (f : Attribute → NVal → Res (List Str) Attribute) (box : OCABox)
    (p : Str × NVal) : Res (List Str) OCABox :=
  match box.attributes.get p.1 with
  | none => .err (errs ++ [undefinedAttr p.1])
  | some a => do
    let a' ← f a p.2
    pure (box.addAttribute p.1 a')

/-- ADD overlay (`build.rs:156-541`, and the final check `:564-568`) -/
def applyOverlay (E : Env) (box : OCABox) (k : OvKind) (c : Content) : Res (List Str) OCABox :=
  match k with
  | .metaOv => applyMeta E box c
  | k => match ovSetter E k c with
    | none => .ok box
    | some (errs, f) => do
      let box ← foldRes (ovAttrStep errs f) box (c.attributes.getD [])
      if errs.isEmpty then .ok box else .err errs

/-- one attribute of ADD ATTRIBUTE (`build.rs:139-143`) -/
def addAttrStep (box : OCABox) (p : Str × NAttr) : OCABox :=
  box.addAttribute p.1 { ty := some p.2 }

/-- one property of ADD CLASSIFICATION (`build.rs:147-153`) -/
def addPropStep (box : OCABox) (p : Str × NVal) : OCABox :=
  if p.1 = c!"classification" then
    match p.2 with
    | .val s => { box with classification := some s }
    | _ => box
  else box

/-- one property of a REMOVE (`build.rs:550-554`) -/
def removePropStep (box : OCABox) (p : Str × NVal) : OCABox :=
  if p.1 = c!"classification" then { box with classification := none } else box

/-- `apply_command` (`build.rs:123-569`) -/
def applyCommand (E : Env) (base : Option OCABox) (c : Command) : Res (List Str) OCABox :=
  let box := base.getD OCABox.new
  match c.kind, c.obj with
  | .«from», _ =>
    .err [c!"Unsupported FROM command, it should be resolved before applying commands"]
  | .add, .captureBase cc =>
    .ok ((cc.properties.getD []).foldl addPropStep ((cc.attributes.getD []).foldl addAttrStep box))
  | .add, .overlay t cc => applyOverlay E box t.kind cc
  | .add, .ocaBundle _ => .panic
  | .remove, .captureBase cc =>
    .ok ((cc.properties.getD []).foldl removePropStep
      ((cc.attributes.getD []).foldl (fun b p => b.removeAttribute p.1) box))
  | .remove, .ocaBundle _ => .panic
  | .remove, .overlay _ _ => .panic
  | .modify, _ => .panic

/-! ## Building -/

/-- `Error::FromASTError` (`build.rs:45-57`) -/
structure BuildErr where
  lineNumber : Nat
  rawLine : Str
  message : Str
deriving DecidableEq, Repr

/-- `OCABuildStep` (`build.rs:31-36`) -/
structure BuildStep where
  parentSaid : Option Said
  command : Command
  result : Bundle

/-- `OCABuild` (`build.rs:25-29`) -/
structure Build where
  bundle : Bundle
  steps : List BuildStep

/-- The loop variables of `from_ast` (`build.rs:63-69`). -/
structure LoopState where
  errors : List BuildErr
  steps : List BuildStep
  parent : Option Said
  base : Option OCABox

/-- `IndexMap<usize, _>::get` -/
def metaAt (l : List (Nat × CommandMeta)) (i : Nat) : Option CommandMeta :=
  (l.find? (fun p => p.1 == i)).map (·.2)

/-- `commands_meta.get(&command_index).unwrap_or(&default_command_meta)` (`build.rs:70-83`) -/
def cmdMeta (ast : OCAAst) (i : Nat) : CommandMeta := (metaAt ast.commandsMeta i).getD ⟨0, c!"unknown"⟩

/-- One iteration of the loop of `from_ast` (`build.rs:74-112`); `i` is the command index, `O` the hash
order of this `generate_bundle`. -/
def buildStep (E : Env) (O : Order) (cm : CommandMeta) (st : LoopState) (c : Command) :
    Res (List BuildErr) LoopState :=
  match applyCommand E st.base c with
  | .panic => .panic
  | .err es => .ok { st with errors := st.errors ++ es.map fun e => ⟨cm.lineNumber, cm.rawLine, e⟩ }
  | .ok box => do
    let bundle ← generateBundle E O box
    pure { errors := st.errors, steps := st.steps ++ [⟨st.parent, c, bundle⟩],
           parent := bundle.said, base := some box }

/-- The loop of `from_ast` from position `i` on; `shift` is 1 when there is a base (`build.rs:75-78`). -/
def buildLoop (E : Env) (Os : Nat → Order) (ast : OCAAst) (shift : Nat) :
    Nat → LoopState → List Command → Res (List BuildErr) LoopState
  | _, st, [] => .ok st
  | i, st, c :: cs => do
    let st ← buildStep E (Os i) (cmdMeta ast (i + shift)) st c
    buildLoop E Os ast shift (i + 1) st cs

/-- `from_oca.clone().map(OCABox::from)` (`build.rs:69`) -/
def baseOf {ε : Type} (E : Env) (fromOca : Option Bundle) : Res ε (Option OCABox) :=
  match fromOca with
  | none => .ok none
  | some b => do
    let x ← OCABox.ofBundle E b
    pure (some x)

/-- The end of `from_ast` (`build.rs:113-120`): `base.unwrap()` panics when there was neither a base nor
a command. -/
def buildFinish (E : Env) (O : Order) (st : LoopState) : Res (List BuildErr) Build :=
  if st.errors.isEmpty then do
    let box ← Res.unwrap st.base
    let bundle ← generateBundle E O box
    pure ⟨bundle, st.steps⟩
  else .err st.errors

/-- `from_ast` (`build.rs:59-121`). Each `generate_bundle` sees its own hash order (`Os`). -/
def fromAst (E : Env) (Os : Nat → Order) (fromOca : Option Bundle) (ast : OCAAst) :
    Res (List BuildErr) Build := do
  let base ← baseOf E fromOca
  let shift := if fromOca.isSome then 1 else 0
  let st ← buildLoop E Os ast shift 0 ⟨[], [], fromOca.bind Bundle.said, base⟩ ast.commands
  buildFinish E (Os ast.commands.length) st

end OCA
