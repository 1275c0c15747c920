import Verif.Model.JsonText
/-!
# Bytes, texts as bytes, and the record formats of the facade
-/
namespace OCA

/-- `Vec<u8>` -/
abbrev Bytes := List UInt8

/-- `str::as_bytes`, `String::into_bytes`: the UTF-8 form of a text -/
def utf8 (s : Str) : Bytes := s.flatMap String.utf8EncodeChar

/-- one character after the other is taken from the front; `n` bounds their number -/
def utf8Chars : Nat → Bytes → Option Str
  | _, [] => some []
  | 0, _ => none
  | n + 1, b => match ByteArray.utf8DecodeChar? (b.take 4).toByteArray 0 with
    | none => none
    | some c => (utf8Chars n (b.drop c.utf8Size)).map (c :: ·)

/-- `String::from_utf8`: the text these bytes are the UTF-8 encoding of, if there is one (`fromUtf8_iff`). -/
def fromUtf8 (b : Bytes) : Option Str := utf8Chars b.length b

/-- `String::from_utf8_lossy`; what replaces ill-formed bytes is not modelled in detail (a single U+FFFD). -/
def fromUtf8Lossy (b : Bytes) : Str := (fromUtf8 b).getD [Char.ofNat 0xFFFD]

/-- `serde_json::to_string` and `serde_json::from_str` on JSON values. The only assumption is that a written
value is read back, up to the nesting depth of 127 `serde_json` allows. `Json.print` and `Json.read` are an instance
(`Serde.text`). -/
structure Serde where
  print : Json → Str
  parse : Str → Option Json
  parse_print : ∀ j, j.depth < 128 → j.Small → parse (print j) = some j

/-- `len.try_into::<u8>().unwrap()` -/
def lenByte {ε : Type} (b : Bytes) : Res ε UInt8 :=
  if b.length < 256 then .ok (UInt8.ofNat b.length) else .panic

/-- A text behind its length in one byte (`facade/build.rs:291-292, 356-357`, ...) -/
def lenPrefixed {ε : Type} (s : Str) : Res ε Bytes := do
  let n ← lenByte (utf8 s)
  pure (n :: utf8 s)

/-- An optional parent: its length and text, or 0 (`facade/build.rs:289-297`, and the same in `build_models`) -/
def parentBytes {ε : Type} : Option Said → Res ε Bytes
  | some s => lenPrefixed s
  | none => .ok [0]

/-- The record of one build step (`facade/build.rs:288-300`) -/
def operationBytes {ε : Type} (S : Serde) (parent : Option Said) (c : Json) : Res ε Bytes := do
  let p ← parentBytes parent
  pure (p ++ utf8 (S.print c))

/-- The decoding of `extract_operation` (`facade/fetch.rs:286-292`): the parent, empty when there was none, and
the text of the command. A record shorter than it says panics (slice index). -/
def operationParse {ε : Type} (r : Bytes) : Res ε (Str × Str) :=
  match r with
  | [] => .panic
  | n :: t =>
    if n.toNat ≤ t.length then .ok (fromUtf8Lossy (t.take n.toNat), fromUtf8Lossy (t.drop n.toNat)) else .panic

/-! ## Relationship records (`facade/explore.rs:155-202`) -/

/-- `OCAObject` (`explore.rs:204-208`): a SAID and a kind. The kinds compared there always come from a byte
(`explore.rs:126-133, 192-202`), so the byte stands for the kind. -/
abbrev RelObj := Str × Nat

/-- one object -/
def relBytes {ε : Type} (o : RelObj) : Res ε Bytes := do
  let n ← lenByte (utf8 o.1)
  pure (UInt8.ofNat o.2 :: n :: utf8 o.1)

/-- `From<Relationship> for Vec<u8>` (`explore.rs:155-167`), the objects in the order of the hash set -/
def relsBytes {ε : Type} : List RelObj → Res ε Bytes
  | [] => .ok []
  | o :: t => do
    let a ← relBytes o
    let b ← relsBytes t
    pure (a ++ b)

/-- `HashSet::insert` on a set kept as a list -/
def setInsert {α : Type} [DecidableEq α] (s : List α) (a : α) : List α := if a ∈ s then s else s ++ [a]

/-- `From<Vec<u8>> for OCAObject` (`explore.rs:192-202`) -/
def relObjParse {ε : Type} (b : Bytes) : Res ε RelObj :=
  match b with
  | ty :: n :: t =>
    if n.toNat ≤ t.length then
      match fromUtf8 (t.take n.toNat) with
      | none => .panic
      | some s => match ObjKind.ofCode ty.toNat with
        | .ok o => .ok (s, o.code)
        | _ => .panic
    else .panic
  | _ => .panic

/-- `From<Vec<u8>> for Relationship` (`explore.rs:169-190`); `fuel` bounds the number of rounds, each of which
takes at least two bytes. -/
def relsParse {ε : Type} : Nat → List RelObj → Bytes → Res ε (List RelObj)
  | _, acc, [] => .ok acc
  | 0, _, _ => .panic
  | _, _, [_] => .panic
  | fuel + 1, acc, ty :: n :: t =>
    if n.toNat ≤ t.length then do
      let o ← relObjParse (ty :: n :: t.take n.toNat)
      relsParse fuel (setInsert acc o) (t.drop n.toNat)
    else .panic

/-- the whole record -/
def relationsOf {ε : Type} (b : Bytes) : Res ε (List RelObj) := relsParse b.length [] b

end OCA
