import Verif.Model.Storage
import Verif.Model.Build
import Verif.Model.BundleJson
/-!
# The core model and the version graph (`semantics/oca-dag`)
-/
namespace OCA

/-! ## Core model (`oca-dag/src/lib.rs`) -/

/-- `CommandModel` (`lib.rs:9-13`): the digest of the command's JSON, and the JSON. -/
structure CommandModel where
  digest : Said
  json : Json

/-- `CaptureBaseModel` and `OverlayModel` (`lib.rs:30-42`): the object, what it replaces, and the command. -/
structure ObjectModel where
  said : Said
  parent : Option Said
  commandDigest : Said
deriving DecidableEq

/-- `OCABundleModel` (`lib.rs:44-50`) -/
structure BundleModel where
  said : Said
  parent : Option Said
  captureBase : Said
  overlays : List Said
deriving DecidableEq

/-- `State` (`lib.rs:52-66`) -/
structure DagState where
  bundle : Option Said := none
  captureBase : Option Said := none
  overlays : FMap Said := FMap.empty

/-- `ResultModel` (`lib.rs:68-84`); `command` and `oca_bundle` are always filled in. -/
structure ResultModel where
  command : CommandModel
  bundle : BundleModel
  captureBase : Option ObjectModel
  overlay : Option ObjectModel

/-- `overlay_key` (`lib.rs:126-131`): the printed type and the two letter code of the language -/
def overlayKey {ε : Type} (E : Env) (o : Overlay) : Res ε Str :=
  match o.body.language with
  | some l => do
    let c ← Res.unwrap (E.lang1Inv l)
    pure (o.body.kind.display ++ c!"-" ++ c)
  | none => .ok o.body.kind.display

/-- the SAIDs of overlays, each unwrapped -/
def unwrapSaids {ε : Type} : List Overlay → Res ε (List Said)
  | [] => .ok []
  | o :: t => do
    let s ← Res.unwrap o.said
    let l ← unwrapSaids t
    pure (s :: l)

/-- The object a step records, and the state after it (`lib.rs:109-145`): for a command about the capture base, the
capture base; for one about an overlay, the first overlay of that type and language. -/
def dagObject {ε : Type} (E : Env) (st : DagState) (step : BuildStep) :
    Res ε (DagState × Option ObjectModel × Option ObjectModel) :=
  match step.command.obj with
  | .captureBase _ => do
    let s ← Res.unwrap step.result.captureBase.said
    pure ({ st with captureBase := some s }, some ⟨s, st.captureBase, E.digest step.command.toJson⟩, none)
  | .overlay t c =>
    let lang := c.lang E
    match step.result.overlays.find? fun o =>
        decide (o.body.kind = t.kind ∧ o.ver = t.ver ∧ o.body.language = lang) with
    | some o => do
      let k ← overlayKey E o
      let s ← Res.unwrap o.said
      pure ({ st with overlays := st.overlays.insert k s }, none,
        some ⟨s, st.overlays.get k, E.digest step.command.toJson⟩)
    | none => pure (st, none, none)
  | .ocaBundle _ => pure (st, none, none)

/-- `apply_step` (`lib.rs:98-169`) -/
def dagStep {ε : Type} (E : Env) (st : DagState) (step : BuildStep) : Res ε (DagState × ResultModel) := do
  let cm : CommandModel := ⟨E.digest step.command.toJson, step.command.toJson⟩
  let r ← dagObject E st step
  let bs ← Res.unwrap step.result.said
  let cs ← Res.unwrap step.result.captureBase.said
  let os ← unwrapSaids step.result.overlays
  pure ({ r.1 with bundle := some bs }, ⟨cm, ⟨bs, st.bundle, cs, os⟩, r.2.1, r.2.2⟩)

/-- the loop of `build_core_db_model` -/
def coreModels {ε : Type} (E : Env) : DagState → List BuildStep → Res ε (List ResultModel)
  | _, [] => .ok []
  | st, s :: t => do
    let r ← dagStep E st s
    let l ← coreModels E r.1 t
    pure (r.2 :: l)

/-- `build_core_db_model` (`lib.rs:86-97`) -/
def buildCoreModel {ε : Type} (E : Env) (steps : List BuildStep) : Res ε (List ResultModel) :=
  coreModels E {} steps

/-! ## The version graph (`versioning/mod.rs`)

The storage is one key space (`oca-dag/src/data_storage.rs`), opened. -/

/-- `Graph::generate_parents_digests` (`mod.rs:34-41`) -/
def graphParents {ε : Type} : Option Str → Res ε Bytes
  | some to => lenPrefixed to
  | none => .ok []

/-- `Graph::update_children_digests` (`mod.rs:43-51`) -/
def graphChildren {ε : Type} (old : Option Bytes) (new : Str) : Res ε Bytes := do
  let p ← lenPrefixed new
  pure (old.getD [] ++ p)

/-- `format!("{}.upscending", x)` -/
def upKey (x : Str) : Str := x ++ c!".upscending"

/-- `format!("{}.downscending", x)` -/
def downKey (x : Str) : Str := x ++ c!".downscending"

/-- `Graph::add` (`mod.rs:15-32`) -/
def graphAdd {ε : Type} (db : FMap Bytes) (new : Str) (to : Option Str) : Res ε (FMap Bytes) := do
  let p ← graphParents to
  let db := db.insert (upKey new) p
  match to with
  | some to => do
    let c ← graphChildren (db.get (downKey to)) new
    pure (db.insert (downKey to) c)
  | none => pure db

/-- `From<OCABundleDTO> for Vec<u8>` (`versioning/bundle.rs:15-34`) -/
def bundleDigests {ε : Type} (b : Bundle) : Res ε Bytes := do
  let c ← match b.captureBase.said with
    | some s => lenPrefixed s
    | none => .ok []
  let rec go : List Overlay → Res ε Bytes
    | [] => .ok []
    | o :: t => do
      let a ← match o.said with
        | some s => lenPrefixed s
        | none => .ok []
      let r ← go t
      pure (a ++ r)
  let r ← go b.overlays
  pure (c ++ r)

/-! ## `versioning/ocafile.rs` -/

/-- The state after a command (`ocafile.rs:29-39`): a rejected command is printed and replaced by an empty state. -/
def dagNextBox (E : Env) (base : Option OCABox) (c : Command) : Res Str OCABox :=
  match applyCommand E base c with
  | .ok b => .ok b
  | .err _ => .ok OCABox.new
  | .panic => .panic

/-- What a record starts with (`ocafile.rs:43-53`): the SAID of the bundle generated for the base, or a zero. -/
def dagParent (E : Env) (P : Order) : Option OCABox → Res Str Bytes
  | some base => do
    let g ← generateBundle E P base
    let s ← Res.unwrap g.said
    lenPrefixed s
  | none => .ok [0]

/-- `FROM` (`ocafile.rs:12-27`) -/
def dagFrom (E : Env) (S : Serde) (db : FMap Bytes) : ObjKind → Res Str OCABox
  | .ocaBundle (.said s) => match db.get (c!"oca." ++ s) with
    | none => .err c!"OCA not found"
    | some b => do
      let t ← Res.unwrap (fromUtf8 b)
      let j ← Res.unwrap (S.parse t)
      match Bundle.ofJson E j with
      | .ok b => OCABox.ofBundle E b
      | _ => .panic
  | .ocaBundle (.name _) => .err c!"Not implemented"
  | _ => .err c!"Missing bundle content"

/-- Any other command (`ocafile.rs:29-65`): the command text must fit in 255 bytes. The bundle of the new state is generated with the order
`O`, that of the base with `P`. -/
def dagApply (E : Env) (S : Serde) (O P : Order) (db : FMap Bytes) (base : Option OCABox) (c : Command) :
    Res Str (FMap Bytes × Option OCABox) := do
  let box ← dagNextBox E base c
  let b ← generateBundle E O box
  let p ← dagParent E P base
  let t ← lenPrefixed (S.print c.toJson)
  let s ← Res.unwrap b.said
  let db := db.insert (c!"oca." ++ s ++ c!".operation") (p ++ t)
  let db := db.insert (c!"oca." ++ s) (utf8 (S.print (b.toJson E)))
  pure (db, some box)

/-- One command of `build_oca` (`ocafile.rs:11-67`) -/
def dagBuildStep (E : Env) (S : Serde) (O P : Order) (db : FMap Bytes) (base : Option OCABox) (c : Command) :
    Res Str (FMap Bytes × Option OCABox) :=
  if c.kind = .«from» then do
    let box ← dagFrom E S db c.obj
    pure (db, some box)
  else dagApply E S O P db base c

/-- the loop of `build_oca` -/
def dagBuildLoop (E : Env) (S : Serde) (Os Ps : Nat → Order) : Nat → FMap Bytes → Option OCABox → List Command →
    Res Str (FMap Bytes × Option OCABox)
  | _, db, base, [] => .ok (db, base)
  | n, db, base, c :: t => do
    let r ← dagBuildStep E S (Os n) (Ps n) db base c
    dagBuildLoop E S Os Ps (n + 1) r.1 r.2 t

/-- `build_oca` (`ocafile.rs:6-71`) -/
def dagBuild (E : Env) (S : Serde) (Os Ps : Nat → Order) (db : FMap Bytes) (cs : List Command) :
    Res Str (FMap Bytes × Bundle) := do
  let r ← dagBuildLoop E S Os Ps 0 db none cs
  let box ← Res.unwrap r.2
  let b ← generateBundle E (Os cs.length) box
  pure (r.1, b)

end OCA
