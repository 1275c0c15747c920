import Verif.Lemmas.GenBundle
/-!
# A concrete instance

A small concrete environment and a concrete build, used by the `example`s that show that the hypotheses
of the theorems are met by non-trivial cases. Nothing here is used in a proof of a property.
-/
namespace OCA

mutual
/-- a text form of a JSON value -/
def flat : Json → Str
  | .null => c!"null"
  | .bool true => c!"true"
  | .bool false => c!"false"
  | .num n => (toString n).toList
  | .str s => '"' :: s ++ ['"']
  | .arr l => '[' :: flatArr l ++ [']']
  | .obj l => '{' :: flatObj l ++ ['}']

/-- elements -/
def flatArr : List Json → Str
  | [] => []
  | j :: l => flat j ++ ',' :: flatArr l

/-- members -/
def flatObj : List (Str × Json) → Str
  | [] => []
  | (k, j) :: l => k ++ ':' :: flat j ++ ',' :: flatObj l
end

/-- two languages -/
def demoLang1 (s : Str) : Option Lang :=
  if s = c!"en" then some c!"eng" else if s = c!"fr" then some c!"fra" else none

/-- and back -/
def demoLang1Inv (l : Lang) : Option Str :=
  if l = c!"eng" then some c!"en" else if l = c!"fra" then some c!"fr" else none

/-- A concrete environment; the digest of a value is its text behind an `E`. -/
def Env.demo : Env where
  validSaid s := s.head? = some 'E'
  digest j := 'E' :: flat j
  digest_valid _ := rfl
  version _ := c!"OCAS20JSON000000_"
  lang1 := demoLang1
  lang1Inv := demoLang1Inv
  lang1_inv s l h := by
    unfold demoLang1 at h
    split at h
    · next e => cases h; subst e; decide
    · split at h
      · next e => cases h; subst e; decide
      · cases h
  lang1Inv_inv s l h := by
    unfold demoLang1Inv at h
    split at h
    · next e => cases h; subst e; decide
    · split at h
      · next e => cases h; subst e; decide
      · cases h
  langOf s := if s = c!"eng" ∨ s = c!"fra" then some s else none
  langOf_lang1 s l h := by
    unfold demoLang1 at h
    split at h
    · cases h; decide
    · split at h
      · cases h; decide
      · cases h
  isNd c := c.isDigit
  isNd_ascii _ _ := rfl
  lua _ := some true

/-- `n` letters for a number -/
def letters : Nat → Nat → Str
  | 0, _ => []
  | n + 1, k => Char.ofNat (97 + k % 26) :: letters n (k / 26)

/-- a checksum of a text -/
def checksum (s : Str) : Nat := s.foldl (fun h c => (h * 257 + c.toNat) % 2305843009213693951) 7

/-- The same with short identifiers: an `E` and twelve letters. -/
def Env.short : Env := { Env.demo with
  digest := fun j => 'E' :: letters 12 (checksum (flat j))
  digest_valid := fun _ => rfl }

/-- ADD overlay -/
def addOv (k : OvKind) (props attrs : List (Str × NVal)) : Command :=
  ⟨.add, .overlay ⟨k, c!"1.1"⟩ ⟨some attrs, some props⟩⟩

/-- ADD ATTRIBUTE -/
def addAttrs (l : List (Str × NAttr)) : Command := ⟨.add, .captureBase ⟨some l, none, none⟩⟩

/-- ADD CLASSIFICATION -/
def addClass (s : Str) : Command :=
  ⟨.add, .captureBase ⟨none, some [(c!"classification", .val s)], none⟩⟩

/-- REMOVE ATTRIBUTE -/
def removeAttrs (l : List Str) : Command :=
  ⟨.remove, .captureBase ⟨some (l.map fun n => (n, .null)), none, none⟩⟩

/-- A build using most kinds of commands. -/
def demoCommands : List Command :=
  [addAttrs [(c!"name", .val .text), (c!"age", .val .numeric), (c!"tags", .arr (.val .text))],
   addClass c!"GICS:35102020",
   addOv .metaOv [(c!"lang", .val c!"en"), (c!"name", .val c!"Person")] [],
   addOv .label [(c!"lang", .val c!"en")] [(c!"name", .val c!"Name"), (c!"age", .val c!"Age")],
   addOv .label [(c!"lang", .val c!"fr")] [(c!"name", .val c!"Nom")],
   addOv .conditional [] [(c!"age", .val c!"${name} ~= ''")],
   addOv .characterEncoding [] [(c!"name", .val c!"utf-8")],
   addOv .entryCode [] [(c!"tags", .arr [.val c!"a", .val c!"b"])],
   addOv .entry [(c!"lang", .val c!"en")] [(c!"tags", .obj [(c!"a", .val c!"A"), (c!"b", .val c!"B")])],
   addOv .link [(c!"target", .ref (.said c!"Etarget"))] [(c!"name", .val c!"fullName")],
   addOv .attributeFraming [(c!"id", .val c!"frame1"), (c!"version", .val c!"2.0")]
     [(c!"name", .obj [(c!"http://x", .obj [(c!"predicate_id", .val c!"skos:exactMatch"),
        (c!"framing_justification", .val c!"semapv:ManualMappingCuration")])])]]

/-- Apply commands one after the other. -/
def runAll (E : Env) (b : OCABox) (cs : List Command) : Res (List Str) OCABox :=
  foldRes (fun b c => applyCommand E (some b) c) b cs

theorem runAll_reachable (E : Env) (cs : List Command) (b b' : OCABox) (h : Reachable E b)
    (hr : runAll E b cs = .ok b') : Reachable E b' :=
  foldRes_inv (Reachable E) (fun b c b' hb hs => Reachable.step b b' c hb hs) cs b b' h hr

/-- The state after the demo build. -/
def demoBox : OCABox :=
  match runAll Env.demo OCABox.new demoCommands with
  | .ok b => b
  | _ => OCABox.new

theorem demo_run : runAll Env.demo OCABox.new demoCommands = .ok demoBox := by
  have h : (runAll Env.demo OCABox.new demoCommands).isOk = true := by decide
  unfold demoBox
  cases hr : runAll Env.demo OCABox.new demoCommands with
  | ok b => rfl
  | err e => rw [hr] at h; cases h
  | panic => rw [hr] at h; cases h

theorem demo_reachable : Reachable Env.demo demoBox :=
  runAll_reachable _ _ _ _ Reachable.new demo_run

/-- The bundle generated from it. -/
def demoBundle : Bundle := bundleOf Env.demo Order.sorted demoBox

theorem demo_generated : (generateBundle Env.demo Order.sorted demoBox : Res Str Bundle) = .ok demoBundle :=
  generateBundle_ok _ _ _ (fun n a h => (demo_reachable.wf.attrs n a h).typed)

example : demoBundle.overlays.length = 9 := by decide
example : demoBox.attributes.keys = [c!"age", c!"name", c!"tags"] := by decide

end OCA
