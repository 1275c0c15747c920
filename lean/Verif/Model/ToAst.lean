import Verif.Model.Build
/-!
# Turning a bundle into an AST (`OCABundle::to_ast`, `semantics/oca-bundle/src/state/oca.rs:928-1295`)

The hash maps of the overlays are iterated through the order oracle `O` (a sorted map is one of the possible
orders); the site is the line of the loop.
-/
namespace OCA

/-- `IndexMap` filled in a loop over a map with distinct keys: the entries in loop order. -/
def attrsOf {V : Type} (O : Order) (site : Nat) (f : V → NVal) (m : FMap V) : List (Str × NVal) :=
  (O.iter site [] m).map fun p => (p.1, f p.2)

/-- The conditions with their placeholders expanded (`oca.rs:1098-1110`): a condition without dependencies
aborts (`unwrap`), so does an index out of range. -/
def condTexts {ε : Type} (E : Env) (deps : FMap (List Str)) : List (Str × Str) → Res ε (List (Str × NVal))
  | [] => .ok []
  | (n, c) :: t => do
    let ds ← Res.unwrap (deps.get n)
    let s ← expandCondition E c ds
    let r ← condTexts E deps t
    pure ((n, .val s) :: r)

/-- The value of an entry code (`oca.rs:1156-1191`). -/
def EntryCodes.toVal : EntryCodes → NVal
  | .sai s => .val s
  | .array l => .arr (l.map .val)
  | .object l => .obj (l.map fun p => (p.1, .arr (p.2.map .val)))

/-- The value of an entry (`oca.rs:1217-1238`); the map of an object is iterated in hash order. -/
def EntriesEl.toVal (O : Order) : EntriesEl → NVal
  | .sai s => .val s
  | .object m => .obj ((O.iter 1229 [] m).map fun p => (p.1, .val p.2))

/-- ADD of an overlay with its own type and version (`oca.rs:977-986` and the like). -/
def ovAdd (o : Overlay) (attrs : Option (List (Str × NVal))) (props : Option (List (Str × NVal))) : Command :=
  ⟨.add, .overlay o.type ⟨attrs, props⟩⟩

/-- `{"lang": code}`; `to_639_1().unwrap()` aborts for a language without a two letter code
(`oca.rs:1011-1016` and the like). -/
def langProp {ε : Type} (E : Env) (l : Lang) : Res ε (List (Str × NVal)) := do
  let s ← Res.unwrap (E.lang1Inv l)
  pure [(c!"lang", .val s)]

/-- The command for one overlay, if any (`oca.rs:962-1291`). Links, framings, mappings, standards, subsets and
entry code mappings give none (`:1290`). -/
def ovCommand {ε : Type} (E : Env) (O : Order) (o : Overlay) : Res ε (Option Command) :=
  match o.body with
  | .charEnc m => .ok (some (ovAdd o (some (attrsOf O 968 (fun e => .val e.toStr) m)) none))
  | .format m => .ok (some (ovAdd o (some (attrsOf O 992 .val m)) none))
  | .metaOv l ps => do
    let p ← langProp E l
    pure (some (ovAdd o none (some ((O.iter 1017 [] ps).foldl (fun acc q => imInsert q.1 (.val q.2) acc) p))))
  | .label l _ m _ => do
    let p ← langProp E l
    pure (some (ovAdd o (some (attrsOf O 1043 .val m)) (some p)))
  | .information l m => do
    let p ← langProp E l
    pure (some (ovAdd o (some (attrsOf O 1076 .val m)) (some p)))
  | .conditional c d => do
    let as ← condTexts E d (O.iter 1098 [] c)
    pure (some (ovAdd o (some as) none))
  | .conformance m => .ok (some (ovAdd o (some (attrsOf O 1130 .val m)) none))
  | .entryCode m => .ok (some (ovAdd o (some (attrsOf O 1152 EntryCodes.toVal m)) none))
  | .entry l m => do
    let p ← langProp E l
    pure (some (ovAdd o (some (attrsOf O 1214 (EntriesEl.toVal O) m)) (some p)))
  | .cardinality m => .ok (some (ovAdd o (some (attrsOf O 1257 .val m)) none))
  | .unit m => .ok (some (ovAdd o (some (attrsOf O 1276 .val m)) none))
  | _ => .ok none

/-- the loop over the overlays (`oca.rs:961-1292`) -/
def ovCommands {ε : Type} (E : Env) (O : Order) : List Overlay → Res ε (List Command)
  | [] => .ok []
  | o :: t => do
    let c ← ovCommand E O o
    let cs ← ovCommands E O t
    pure (c.toList ++ cs)

/-- The first command (`oca.rs:931-959`): all attributes, the classification unless it is empty, no flagged
attributes. -/
def baseCommand (O : Order) (cb : CaptureBase) : Command :=
  ⟨.add, .captureBase ⟨some (O.iter 954 [] cb.attributes),
    if cb.classification.isEmpty then none else some [(c!"classification", .val cb.classification)], none⟩⟩

/-- `OCABundle::to_ast` (`oca.rs:928-1295`) -/
def Bundle.toAst {ε : Type} (E : Env) (O : Order) (b : Bundle) : Res ε OCAAst := do
  let cs ← ovCommands E O b.overlays
  pure { OCAAst.new with commands := baseCommand O b.captureBase :: cs }

end OCA
