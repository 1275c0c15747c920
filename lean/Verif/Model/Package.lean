import Verif.Model.Transformation
import Verif.Model.BundleJson
import Verif.Model.Bytes
/-!
# Bundles of a model and its transformations as JSON (`oca/src/facade/bundle.rs`)
-/
namespace OCA

/-- `Transformation::encode` (derived by `SAD`, `transformation-file/src/state/mod.rs:7-19`): the versioned object. -/
def Transformation.toJson (E : Env) (t : Transformation) : Json := versioned E (t.fieldsWith (saidJson t.said))

/-- an optional text: missing or `null` is none -/
def jOptStr : Option Json → Option (Option Str)
  | none => some none
  | some .null => some none
  | some (.str s) => some (some s)
  | _ => none

/-- an `IndexMap<String, String>`: a later equal key replaces the value, in its place -/
def jPairs : Json → Option (List (Str × Str))
  | .obj l => (allSome (fun p : Str × Json => (jStr p.2).map fun v => (p.1, v)) l).map (imExtend [])
  | _ => none

/-- derived `Deserialize for Transformation` (`state/mod.rs:7-19`); the member `v` is unknown to it and ignored -/
def Transformation.ofJson (E : Env) (j : Json) : Res Str Transformation :=
  match structMembers [c!"d", c!"source", c!"target", c!"attributes"] j with
  | some l => do
    let d ← memberOpt c!"d" l
    let d ← orErr (jSaid E d)
    let s ← memberOpt c!"source" l
    let s ← orErr (jOptStr s)
    let t ← memberOpt c!"target" l
    let t ← orErr (jOptStr t)
    let as ← member c!"attributes" l
    let as ← orErr (jPairs as)
    pure ⟨d, s, t, as⟩
  | none => .err c!"invalid type"

/-- the elements of a `Vec<Transformation>` -/
def transformationsOfJson (E : Env) : List Json → Res Str (List Transformation)
  | [] => .ok []
  | j :: l => do
    let t ← Transformation.ofJson E j
    let r ← transformationsOfJson E l
    pure (t :: r)

/-- The members written by `encode` (`bundle.rs:83-86`) -/
def packageFields (E : Env) (d : Str) (b : Bundle) (ts : List Transformation) : List (Str × Json) :=
  [(c!"d", .str d), (c!"m", b.toJson E), (c!"t", .arr (ts.map (Transformation.toJson E)))]

/-- `said::make_me_sad` (called at `bundle.rs:88-89`) on an object with a member `d`: the version string first, and the
digest of the whole, with a placeholder in `d`, in `d`. The version string (`OCAB`) is given by `V`. This is what the
crate documents; its code is not in the repository. -/
def makeSad (E : Env) (V : Json → Str) (fields : List (Str × Json)) : Json :=
  let setD (d : Str) : List (Str × Json) :=
    (c!"v", .str (V (.obj fields))) :: fields.map fun p => if p.1 = c!"d" then (p.1, .str d) else p
  .obj (setD (E.digest (.obj (setD placeholder))))

/-- the object behind a JSON value -/
def Json.members : Json → Option (List (Str × Json))
  | .obj l => some l
  | _ => none

/-- `Bundle::encode` (`bundle.rs:66-92`): without a model it aborts; `make_me_sad` reads the text again. The text put
together with `format!` is the printed object. -/
def Package.encode {ε : Type} (E : Env) (V : Json → Str) (S : Serde) (p : Package) : Res ε Str := do
  let b ← Res.unwrap p.structural
  let j ← Res.unwrap (S.parse (S.print (.obj (packageFields E [] b p.transformations))))
  let l ← Res.unwrap j.members
  pure (S.print (makeSad E V l))

/-- an `Option<StructuralBundle>` -/
def structuralOfJson (E : Env) : Option Json → Res Str (Option Bundle)
  | none => .ok none
  | some .null => .ok none
  | some j => do
    let b ← Bundle.ofJson E j
    pure (some b)

/-- a `Vec<Transformation>` -/
def transformationListOfJson (E : Env) : Json → Res Str (List Transformation)
  | .arr l => transformationsOfJson E l
  | _ => .err c!"invalid type"

/-- derived `Deserialize for Bundle` (`bundle.rs:22-32`) -/
def Package.ofJson (E : Env) (j : Json) : Res Str Package :=
  match structMembers [c!"d", c!"m", c!"t"] j with
  | some l => do
    let d ← memberOpt c!"d" l
    let d ← orErr (jSaid E d)
    let m ← memberOpt c!"m" l
    let m ← structuralOfJson E m
    let t ← member c!"t" l
    let t ← transformationListOfJson E t
    pure ⟨d, m, t⟩
  | none => .err c!"invalid type"

/-- `load_oca` (`bundle.rs:11-14`) -/
def Package.load (E : Env) (S : Serde) (s : Str) : Res Str Package :=
  match S.parse s with
  | none => .err c!"invalid JSON"
  | some j => Package.ofJson E j

end OCA
