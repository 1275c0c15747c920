import Verif.Model.OcaBox
/-!
# Loading a bundle as a build state (`From<OCABundle> for OCABox`, `state/oca.rs:684-919`)
-/
namespace OCA

/-- `attributes.get_mut(name).unwrap().set_..(..)` (`oca.rs:701, 726-729, ..`): panics on a name that is
not a capture base attribute. -/
def updAttr {ε : Type} (m : FMap Attribute) (n : Str) (f : Attribute → Attribute) :
    Res ε (FMap Attribute) :=
  match m.get n with
  | none => .panic
  | some a => .ok (m.insert n (f a))

/-- A loop over the entries of an overlay (`oca.rs:725-730` and the like). The code iterates a hash map;
each iteration changes only the attribute it names, so the order of the (distinct) keys cannot matter and
sorted order is used. -/
def updAll {ε V : Type} (f : V → Attribute → Attribute) : FMap Attribute → List (Str × V) →
    Res ε (FMap Attribute)
  | m, [] => .ok m
  | m, (n, v) :: t => do
    let m ← updAttr m n (f v)
    updAll f m t

/-- The conditions loop (`oca.rs:755-768`): `attribute_dependencies.get(..).unwrap()`, expansion of the
placeholders, `set_condition`. -/
def updConds {ε : Type} (E : Env) (deps : FMap (List Str)) : FMap Attribute → List (Str × Str) →
    Res ε (FMap Attribute)
  | m, [] => .ok m
  | m, (n, c) :: t => do
    let ds ← Res.unwrap (deps.get n)
    let s ← expandCondition E c ds
    let m ← updAttr m n (·.setCond s)
    updConds E deps m t

/-- One overlay's loop in `From<OCABundle>` (`oca.rs:719-911`). -/
def loadBody {ε : Type} (E : Env) (m : FMap Attribute) : OvBody → Res ε (FMap Attribute)
  | .charEnc x => updAll (fun v a => { a with encoding := some v }) m x.l
  | .conformance x => updAll (fun v a => { a with conformance := some v }) m x.l
  | .conditional c d => updConds E d m c.l
  | .cardinality x => updAll (fun v a => { a with cardinality := some v }) m x.l
  | .format x => updAll (fun v a => { a with format := some v }) m x.l
  | .unit x => updAll (fun v a => { a with unit := some v }) m x.l
  | .entryCode x => updAll (fun v a => { a with entryCodes := some v }) m x.l
  | .entry l x => updAll (fun v a => a.setEntry l v) m x.l
  | .label l _ x _ => updAll (fun v a => a.setLabel l v) m x.l
  | .information l x => updAll (fun v a => a.setInformation l v) m x.l
  | .link t x => updAll (fun v a => a.setLink t v) m x.l
  | .framing md x => do
    let id ← Res.unwrap (md.get frameIdKey)
    updAll (fun fr a => a.setFraming id
      (fr.filterMap fun _ sc => some { sc with frameMeta := md.erase frameIdKey })) m x.l
  | _ => .ok m

/-- The order in which the kinds are visited (`oca.rs:719, 733, 747, 771, 785, 802, 816, 830, 844, 858,
872, 886`). -/
def loadOrder : List OvKind :=
  [.characterEncoding, .conformance, .conditional, .cardinality, .format, .unit, .entryCode, .entry,
   .label, .information, .link, .attributeFraming]

/-- loops one after the other -/
def loadBodies {ε : Type} (E : Env) : FMap Attribute → List OvBody → Res ε (FMap Attribute)
  | m, [] => .ok m
  | m, b :: t => do
    let m ← loadBody E m b
    loadBodies E m t

/-- `set_flagged` for each flagged name (`oca.rs:700-702`) -/
def loadFlags {ε : Type} : FMap Attribute → List Str → Res ε (FMap Attribute)
  | m, [] => .ok m
  | m, n :: t => do
    let m ← updAttr m n (fun a => { a with flagged := true })
    loadFlags m t

/-- The meta loop (`oca.rs:704-717`): every pair is added, so a meta overlay without pairs leaves no
trace. -/
def loadMetas (b : OCABox) (bodies : List OvBody) : OCABox :=
  bodies.foldl (fun b body => match body with
    | .metaOv l m => m.l.foldl (fun b p => b.addMeta l p.1 p.2) b
    | _ => b) b

/-- `From<OCABundle> for OCABox` (`oca.rs:684-919`). The final `add_attribute` of every attribute into
an empty box stores the map as it is. -/
def OCABox.ofBundle {ε : Type} (E : Env) (b : Bundle) : Res ε OCABox := do
  let bodies := b.overlays.map Overlay.body
  let attrs := b.captureBase.attributes.filterMap (fun _ t => some { ty := some t : Attribute })
  let attrs ← loadFlags attrs b.captureBase.flagged
  let box := loadMetas { classification := some b.captureBase.classification } bodies
  let attrs ← loadBodies E attrs (loadOrder.flatMap fun k => bodies.filter (fun x => x.kind = k))
  pure { box with attributes := attrs }

end OCA
