import Verif.Model.OcaBox
/-!
# The semantic validator (`semantics/oca-bundle/src/state/validator.rs`)
-/
namespace OCA

/-- Errors of the validator (`validator.rs:14-21` and the messages built at `:95-215, 240-303`): one
constructor per message, without its wording. -/
inductive ValErr where
  | bundleSaid
  | baseSaid
  | overlaySaid (k : OvKind) (l : Option Lang)
  | overlayBase (k : OvKind) (l : Option Lang)
  | unexpectedLang (k : OvKind) (l : Lang)
  | missingLang (k : OvKind) (l : Lang)
  | missingKey (k : OvKind) (l : Lang) (key : Str)
  | selfDependency (attr : Str)
  | invalidCondition (attr : Str)
deriving DecidableEq, Repr

/-- `Overlay::fill_said` (`overlay.rs:64-68`) -/
def Overlay.fillSaid (E : Env) (o : Overlay) : Overlay := { o with said := some (E.digest o.digestInput) }

/-- The checks of one overlay (`validator.rs:109-128`). -/
def overlayErrors (E : Env) (cb : CaptureBase) (o : Overlay) : List ValErr :=
  (if o.said ≠ (o.fillSaid E).said then [.overlaySaid o.body.kind o.body.language] else []) ++
  (if o.captureBase ≠ cb.said then [.overlayBase o.body.kind o.body.language] else [])

/-- The SAID checks (`validator.rs:92-129`). -/
def saidErrors (E : Env) (b : Bundle) : List ValErr :=
  (if b.said ≠ (b.fillSaid E).said then [.bundleSaid] else []) ++
  (if b.captureBase.said ≠ (b.captureBase.sign E).said then [.baseSaid] else []) ++
  b.overlays.flatMap (overlayErrors E b.captureBase)

/-- The stand-in value of a dependency (`validator.rs:247-269`). -/
def mockValue {ε : Type} : NAttr → Res ε Str
  | .null => .ok c!"null"
  | .val .text => .ok c!"'test'"
  | .val .numeric => .ok c!"0"
  | .val .dateTime => .ok c!"'2020-01-01'"
  | .val .binary => .ok c!"test"
  | .val .boolean => .ok c!"true"
  | .arr (.val .text) => .ok c!"['test']"
  | .arr (.val .numeric) => .ok c!"[0]"
  | .arr (.val .dateTime) => .ok c!"['2020-01-01']"
  | .arr (.val .binary) => .ok c!"[test]"
  | .arr (.val .boolean) => .ok c!"[true]"
  | .arr _ => .panic
  | .ref r => .ok r.toStr

/-- The stand-in values of all dependencies (`validator.rs:244-271`). -/
def mockAll {ε : Type} (types : FMap NAttr) : List Str → FMap Str → Res ε (FMap Str)
  | [], m => .ok m
  | d :: ds, m => do
    let t ← Res.unwrap (types.get d)
    let v ← mockValue t
    mockAll types ds (m.insert d v)

/-- One attribute of the condition check (`validator.rs:234-303`): `none` if there is nothing to report.
The report text built from a Lua error (`e.source().unwrap()`) is not modelled. -/
def condCheck {ε : Type} (E : Env) (types : FMap NAttr) (deps : FMap (List Str)) (attr cond : Str) :
    Res ε (Option ValErr) := do
  let ds ← Res.unwrap (deps.get attr)
  if attr ∈ ds then pure (some (.selfDependency attr))
  else do
    let mocks ← mockAll types ds FMap.empty
    let script ← replacePieces (fun g => do
      let d ← depAt ds g
      Res.unwrap (mocks.get d)) (scan (matchNum E) 0 cond)
    match E.lua (c!"return " ++ script) with
    | some _ => pure none
    | none => pure (some (.invalidCondition attr))

/-- The loop of `validate_conditional` (`validator.rs:222-310`), in order of the `BTreeMap`. -/
def condErrorsOf {ε : Type} (E : Env) (types : FMap NAttr) (deps : FMap (List Str)) :
    List (Str × Str) → Res ε (List ValErr)
  | [] => .ok []
  | (attr, cond) :: t => do
    let e ← condCheck E types deps attr cond
    let es ← condErrorsOf E types deps t
    pure (e.toList ++ es)

/-- the first conditional overlay (`validator.rs:131-134`) -/
def firstConditional (b : Bundle) : Option (FMap Str × FMap (List Str)) :=
  b.overlays.findSome? fun o => match o.body with
    | .conditional c d => some (c, d)
    | _ => none

/-- `validate_conditional` on the first conditional overlay (`validator.rs:136-141`) -/
def conditionErrors {ε : Type} (E : Env) (b : Bundle) : Res ε (List ValErr) :=
  match firstConditional b with
  | none => .ok []
  | some (c, d) => condErrorsOf E b.captureBase.attributes d c.l

/-- What must be translated in an overlay: the pairs of a meta overlay (`validator.rs:334`), else the
attributes (`validator.rs:377`). -/
def OvBody.transKeys : OvBody → List Str
  | .metaOv _ m => m.keys
  | b => b.attributes

/-- `validate_meta` and `validate_translations` (`validator.rs:312-397`) for the overlays of one kind.
The code iterates hash sets, so the order of the reports (and, where a language has several overlays,
nothing else) is unspecified; here they come in the order of first occurrence. -/
def translationErrors (k : OvKind) (enforced : List Lang) (ovs : List OvBody) : List ValErr :=
  let langs := ovs.filterMap OvBody.language
  let keys := (ovs.flatMap OvBody.transKeys).eraseDups
  ((langs.eraseDups.filter fun l => !decide (l ∈ enforced)).map (.unexpectedLang k)) ++
  ((enforced.eraseDups.filter fun l => !decide (l ∈ langs)).map (.missingLang k)) ++
  ovs.flatMap fun o => (keys.filter fun key => !decide (key ∈ o.transKeys)).map
    (.missingKey k (o.language.getD []))

/-- The kinds checked, in order (`validator.rs:143-211`). -/
def translatedKinds : List OvKind := [.metaOv, .entry, .information, .label]

/-- The translation checks (`validator.rs:143-211`). `overlay_type().to_string()` is the kind without the
version (`ast/mod.rs:287-313`). -/
def allTranslationErrors (enforced : List Lang) (b : Bundle) : List ValErr :=
  if enforced = [] then [] else
    translatedKinds.flatMap fun k =>
      let ovs := (b.overlays.map Overlay.body).filter fun o => o.kind = k
      if ovs = [] then [] else translationErrors k enforced ovs

/-- `Validator::validate` (`validator.rs:85-220`): the `?` on the condition check discards the SAID errors
found before. -/
def validateBundle (E : Env) (enforced : List Lang) (b : Bundle) : Res (List ValErr) Unit := do
  let ce ← conditionErrors E b
  if ce = [] then
    let es := saidErrors E b ++ allTranslationErrors enforced b
    if es = [] then pure () else .err es
  else .err ce

end OCA
