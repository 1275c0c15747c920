import Verif.Demo
import Verif.Props.Storage
import Verif.Model.Instructions
/-!
# The digest and the version text of the code, in Lean

The model leaves the digest abstract: every theorem holds for any `Env.digest`. To compare the model with the repository's own tests, which assert identifiers
literally, this file gives the digest the code uses: BLAKE3 (crate `said`, `HashFunctionCode::Blake3_256`) of the JSON text, written with the
URL-safe alphabet behind `E`; and the version text: protocol, version, format and the length in bytes of the JSON text with the version text in it.
Nothing here is used in a proof of a property.
-/
namespace OCA
namespace B3
/-- 2³² -/
def m32 : Nat := 4294967296
/-- addition of words -/
def add (a b : Nat) : Nat := (a + b) % m32
/-- rotation of a word -/
def rotr (x n : Nat) : Nat := (x >>> n) ||| ((x <<< (32 - n)) % m32)
/-- the initial chaining value -/
def iv : List Nat := [0x6A09E667, 0xBB67AE85, 0x3C6EF372, 0xA54FF53A, 0x510E527F, 0x9B05688C, 0x1F83D9AB, 0x5BE0CD19]
/-- the four words after one mixing -/
def g (a b c d x y : Nat) : Nat × Nat × Nat × Nat :=
  let a := add (add a b) x
  let d := rotr (d ^^^ a) 16
  let c := add c d
  let b := rotr (b ^^^ c) 12
  let a := add (add a b) y
  let d := rotr (d ^^^ a) 8
  let c := add c d
  let b := rotr (b ^^^ c) 7
  (a, b, c, d)
/-- one round -/
def round (s m : List Nat) : List Nat := match s, m with
  | [s0, s1, s2, s3, s4, s5, s6, s7, s8, s9, s10, s11, s12, s13, s14, s15], [m0, m1, m2, m3, m4, m5, m6, m7, m8, m9, m10, m11, m12, m13, m14, m15] =>
    match g s0 s4 s8 s12 m0 m1, g s1 s5 s9 s13 m2 m3, g s2 s6 s10 s14 m4 m5, g s3 s7 s11 s15 m6 m7 with
    | (s0, s4, s8, s12), (s1, s5, s9, s13), (s2, s6, s10, s14), (s3, s7, s11, s15) =>
      match g s0 s5 s10 s15 m8 m9, g s1 s6 s11 s12 m10 m11, g s2 s7 s8 s13 m12 m13, g s3 s4 s9 s14 m14 m15 with
      | (s0, s5, s10, s15), (s1, s6, s11, s12), (s2, s7, s8, s13), (s3, s4, s9, s14) =>
        [s0, s1, s2, s3, s4, s5, s6, s7, s8, s9, s10, s11, s12, s13, s14, s15]
  | _, _ => s
/-- the order of the message words in the next round -/
def permute (m : List Nat) : List Nat := match m with
  | [m0, m1, m2, m3, m4, m5, m6, m7, m8, m9, m10, m11, m12, m13, m14, m15] => [m2, m6, m3, m10, m7, m0, m4, m13, m1, m11, m12, m5, m9, m14, m15, m8]
  | _ => m
/-- some rounds -/
def rounds : Nat → List Nat → List Nat → List Nat
  | 0, s, _ => s
  | n + 1, s, m => rounds n (round s m) (permute m)
/-- the first eight words of the compression -/
def compress (cv m : List Nat) (counter len flags : Nat) : List Nat :=
  let s := rounds 7 (cv ++ iv.take 4 ++ [counter % m32, counter / m32, len, flags]) m
  List.zipWith (· ^^^ ·) (s.take 8) (s.drop 8)
/-- a little-endian word -/
def word (l : List Nat) : Nat := match l with
  | [a, b, c, d] => a + b * 256 + c * 65536 + d * 16777216
  | _ => 0
/-- the words of a block -/
def words : Nat → List Nat → List Nat
  | 0, _ => []
  | n + 1, l => word (l.take 4) :: words n (l.drop 4)
/-- a block filled with zeroes -/
def blockWords (b : List Nat) : List Nat := words 16 (b ++ List.replicate (64 - b.length) 0)
/-- the blocks of a chunk; fuel -/
def chunkGo (counter : Nat) (last : Nat) : Nat → List Nat → Nat → List Nat → List Nat
  | 0, cv, _, _ => cv
  | f + 1, cv, start, l =>
    if l.length ≤ 64 then compress cv (blockWords l) counter l.length (start + 2 + last)
    else chunkGo counter last f (compress cv (blockWords (l.take 64)) counter 64 start) 0 (l.drop 64)
/-- a chunk of at most 1024 bytes -/
def chunk (counter last : Nat) (l : List Nat) : List Nat := chunkGo counter last 17 iv 1 l
/-- the largest power of two of chunks that leaves something on the right -/
def leftLen (f k n : Nat) : Nat := match f with
  | 0 => k
  | f + 1 => if 2 * k * 1024 < n then leftLen f (2 * k) n else k
/-- the tree of chunks -/
def tree (f counter last : Nat) (l : List Nat) : List Nat := match f with
  | 0 => []
  | f + 1 =>
    if l.length ≤ 1024 then chunk counter last l
    else
      let k := leftLen 40 1 l.length
      compress iv (tree f counter 0 (l.take (k * 1024)) ++ tree f (counter + k) 0 (l.drop (k * 1024))) 0 64 (4 + last)
/-- the bytes of a word -/
def bytes4 (w : Nat) : List Nat := [w % 256, w / 256 % 256, w / 65536 % 256, w / 16777216]
/-- the BLAKE3 digest, 32 bytes -/
def hash (l : List Nat) : List Nat := (tree 40 0 8 l).flatMap bytes4
/-- the URL-safe alphabet -/
def b64 (n : Nat) : Char := if n < 26 then Char.ofNat (65 + n) else if n < 52 then Char.ofNat (71 + n) else if n < 62 then Char.ofNat (n - 4) else if n = 62 then '-' else '_'
/-- three bytes as four letters -/
def enc : List Nat → Str
  | a :: b :: c :: t => b64 (a / 4) :: b64 (a % 4 * 16 + b / 16) :: b64 (b % 16 * 4 + c / 64) :: b64 (c % 64) :: enc t
  | _ => []
/-- the identifier of some bytes -/
def said (l : List Nat) : Str := 'E' :: ((enc (0 :: hash l)).tail ++ List.replicate 43 'A').take 43
/-- the bytes of a text -/
def utf8 (s : Str) : List Nat := s.flatMap fun c => (String.utf8EncodeChar c).map UInt8.toNat
end B3

/-- letters beyond ASCII count as letters -/
def Uni.wide : Uni := ⟨fun c => c.isAlpha || c.toNat ≥ 128, Char.isDigit, fun c => decide (c.toNat ≥ 128), fun s => s.map Char.toLower,
  fun c h => by simp; omega, fun _ _ => rfl, fun c h e => by simp at e; omega⟩

/-- so many hexadecimal digits -/
def hexN : Nat → Nat → Str
  | 0, _ => []
  | n + 1, k => hexN n (k / 16) ++ [hexDigit (k % 16)]

/-- The environment with the code's digest and version text. -/
def Env.blake : Env := { Env.demo with
  validSaid := fun s => decide (s.head? = some 'E' ∧ s.length = 44)
  digest := fun j => B3.said (B3.utf8 j.print)
  digest_valid := fun j => by
    refine decide_eq_true ⟨rfl, ?_⟩
    show ('E' :: _).length = 44
    simp
  version := fun j => c!"OCAS11JSON" ++ hexN 6 ((B3.utf8 j.print).length + 24) ++ c!"_" }

set_option maxRecDepth 100000 in
/-- The first test vector of BLAKE3: the digest of nothing. -/
example : B3.hash [] = [175, 19, 73, 185, 245, 249, 161, 166, 160, 64, 77, 234, 54, 220, 201, 73, 155, 203, 37, 201, 173, 193, 18, 183, 204, 154, 147, 202, 228, 31,
    50, 98] := by decide +kernel

end OCA
