import Verif.Model.Ast
/-!
# JSON text

`serde_json::to_string` and `serde_json::from_str` (external crate, version 1): the compact printer, and a reader
with white space, escapes and the recursion limit of 128. Only the numbers a `u64` is printed as are read; floats,
signs and exponents are not modelled (no value written by this code base contains a number).
-/
namespace OCA

/-- a hexadecimal digit, lower case -/
def hexDigit (n : Nat) : Char := if n < 10 then Char.ofNat (48 + n) else Char.ofNat (87 + n)

/-- `serde_json`'s escapes -/
def escChar (c : Char) : Str :=
  if c = '"' then ['\\', '"'] else
  if c = '\\' then ['\\', '\\'] else
  if c.toNat = 8 then ['\\', 'b'] else
  if c.toNat = 12 then ['\\', 'f'] else
  if c.toNat = 10 then ['\\', 'n'] else
  if c.toNat = 13 then ['\\', 'r'] else
  if c.toNat = 9 then ['\\', 't'] else
  if c.toNat < 32 then ['\\', 'u', '0', '0', hexDigit (c.toNat / 16), hexDigit (c.toNat % 16)] else [c]

/-- a quoted string -/
def printStr (s : Str) : Str := '"' :: (s.flatMap escChar ++ ['"'])

/-- a decimal digit -/
def decDigit (n : Nat) : Char := Char.ofNat (48 + n)

/-- decimal notation -/
def printNat (n : Nat) : Str := if n < 10 then [decDigit n] else printNat (n / 10) ++ [decDigit (n % 10)]
termination_by n
decreasing_by omega

mutual
/-- `serde_json::to_string` -/
def Json.print : Json → Str
  | .null => c!"null"
  | .bool true => c!"true"
  | .bool false => c!"false"
  | .num n => printNat n
  | .str s => printStr s
  | .arr l => '[' :: Json.printArr l
  | .obj l => '{' :: Json.printObj l

/-- elements with the closing bracket -/
def Json.printArr : List Json → Str
  | [] => [']']
  | j :: l => Json.print j ++ Json.printElems l

/-- further elements -/
def Json.printElems : List Json → Str
  | [] => [']']
  | j :: l => ',' :: (Json.print j ++ Json.printElems l)

/-- members with the closing brace -/
def Json.printObj : List (Str × Json) → Str
  | [] => ['}']
  | (k, j) :: l => printStr k ++ ':' :: (Json.print j ++ Json.printMembers l)

/-- further members -/
def Json.printMembers : List (Str × Json) → Str
  | [] => ['}']
  | (k, j) :: l => ',' :: (printStr k ++ ':' :: (Json.print j ++ Json.printMembers l))
end

/-! ## Reading -/

/-- JSON white space -/
def isJsonWs (c : Char) : Bool := c = ' ' || c = '\n' || c = '\t' || c = '\r'

/-- skip it -/
def skipWs : Str → Str
  | [] => []
  | c :: t => if isJsonWs c then skipWs t else c :: t

/-- the value of a hexadecimal digit -/
def hexVal (c : Char) : Option Nat :=
  let n := c.toNat
  if 48 ≤ n ∧ n ≤ 57 then some (n - 48) else
  if 97 ≤ n ∧ n ≤ 102 then some (n - 87) else
  if 65 ≤ n ∧ n ≤ 70 then some (n - 55) else none

/-- four of them -/
def hex4 (a b c d : Char) : Option Nat := do
  let a ← hexVal a
  let b ← hexVal b
  let c ← hexVal c
  let d ← hexVal d
  pure (((a * 16 + b) * 16 + c) * 16 + d)

/-- a one letter escape -/
def simpleEsc (c : Char) : Option Char :=
  if c = '"' then some '"' else
  if c = '\\' then some '\\' else
  if c = '/' then some '/' else
  if c = 'b' then some (Char.ofNat 8) else
  if c = 'f' then some (Char.ofNat 12) else
  if c = 'n' then some '\n' else
  if c = 'r' then some '\r' else
  if c = 't' then some '\t' else none

/-- The rest of a quoted string: its text and what follows it. Unescaped control characters are refused.
`fuel` bounds the number of characters. -/
def readStr : Nat → Str → Option (Str × Str)
  | 0, _ => none
  | _, [] => none
  | fuel + 1, c :: t =>
    if c = '"' then some ([], t) else
    if c = '\\' then
      match t with
      | 'u' :: a :: b :: x :: d :: t =>
        match hex4 a b x d with
        | none => none
        | some n =>
          if 0xD800 ≤ n ∧ n < 0xDC00 then
            match t with
            | '\\' :: 'u' :: a :: b :: x :: d :: t =>
              match hex4 a b x d with
              | none => none
              | some m =>
                if 0xDC00 ≤ m ∧ m < 0xE000 then
                  (readStr fuel t).map fun r => (Char.ofNat (0x10000 + (n - 0xD800) * 0x400 + (m - 0xDC00)) :: r.1, r.2)
                else none
            | _ => none
          else if 0xDC00 ≤ n ∧ n < 0xE000 then none
          else (readStr fuel t).map fun r => (Char.ofNat n :: r.1, r.2)
      | e :: t =>
        match simpleEsc e with
        | none => none
        | some c => (readStr fuel t).map fun r => (c :: r.1, r.2)
      | [] => none
    else if c.toNat < 32 then none
    else (readStr fuel t).map fun r => (c :: r.1, r.2)

/-- is it a decimal digit? -/
def isDec (c : Char) : Bool := 48 ≤ c.toNat && c.toNat ≤ 57

/-- the digits of a number -/
def readDigits (acc : Nat) : Str → Nat × Str
  | [] => (acc, [])
  | c :: t => if isDec c then readDigits (acc * 10 + (c.toNat - 48)) t else (acc, c :: t)

/-- a number; one that starts with 0 is 0 -/
def readNat : Str → Option (Nat × Str)
  | [] => none
  | c :: t =>
    if c = '0' then
      match t with
      | d :: _ => if isDec d then none else some (0, t)
      | [] => some (0, t)
    else if isDec c then
      let r := readDigits (c.toNat - 48) t
      if r.1 < 18446744073709551616 then some r else none
    else none

mutual
/-- A value and what follows it. `depth` is what is left of the recursion limit, `fuel` bounds the number of steps. -/
def readVal : Nat → Nat → Str → Option (Json × Str)
  | 0, _, _ => none
  | fuel + 1, depth, s =>
    match skipWs s with
    | [] => none
    | c :: t =>
      if c = 'n' then (stripPrefix c!"ull" t).map fun r => (.null, r) else
      if c = 't' then (stripPrefix c!"rue" t).map fun r => (.bool true, r) else
      if c = 'f' then (stripPrefix c!"alse" t).map fun r => (.bool false, r) else
      if c = '"' then (readStr (t.length + 1) t).map fun r => (.str r.1, r.2) else
      if c = '[' then
        if depth ≤ 1 then none else
        match skipWs t with
        | ']' :: t => some (.arr [], t)
        | t => (readElems fuel (depth - 1) t).map fun r => (.arr r.1, r.2)
      else if c = '{' then
        if depth ≤ 1 then none else
        match skipWs t with
        | '}' :: t => some (.obj [], t)
        | t => (readMembers fuel (depth - 1) t).map fun r => (.obj r.1, r.2)
      else (readNat (c :: t)).map fun r => (.num r.1, r.2)

/-- elements up to the closing bracket -/
def readElems : Nat → Nat → Str → Option (List Json × Str)
  | 0, _, _ => none
  | fuel + 1, depth, s =>
    match readVal fuel depth s with
    | none => none
    | some (j, t) =>
      match skipWs t with
      | ']' :: t => some ([j], t)
      | ',' :: t => (readElems fuel depth t).map fun r => (j :: r.1, r.2)
      | _ => none

/-- members up to the closing brace -/
def readMembers : Nat → Nat → Str → Option (List (Str × Json) × Str)
  | 0, _, _ => none
  | fuel + 1, depth, s =>
    match skipWs s with
    | '"' :: t =>
      match readStr (t.length + 1) t with
      | none => none
      | some (k, t) =>
        match skipWs t with
        | ':' :: t =>
          match readVal fuel depth t with
          | none => none
          | some (j, t) =>
            match skipWs t with
            | '}' :: t => some ([(k, j)], t)
            | ',' :: t => (readMembers fuel depth t).map fun r => ((k, j) :: r.1, r.2)
            | _ => none
        | _ => none
    | _ => none
end

/-- `serde_json::from_str` -/
def Json.read (s : Str) : Option Json :=
  match readVal (2 * s.length + 1) 128 s with
  | some (j, t) => if skipWs t = [] then some j else none
  | none => none

mutual
/-- How deep arrays and objects are nested. -/
def Json.depth : Json → Nat
  | .arr l => Json.depthArr l + 1
  | .obj l => Json.depthObj l + 1
  | _ => 0

/-- of elements -/
def Json.depthArr : List Json → Nat
  | [] => 0
  | j :: l => max (Json.depth j) (Json.depthArr l)

/-- of members -/
def Json.depthObj : List (Str × Json) → Nat
  | [] => 0
  | (_, j) :: l => max (Json.depth j) (Json.depthObj l)
end

mutual
/-- Every number fits a `u64`. -/
def Json.Small : Json → Prop
  | .num n => n < 18446744073709551616
  | .arr l => Json.SmallArr l
  | .obj l => Json.SmallObj l
  | _ => True

/-- of elements -/
def Json.SmallArr : List Json → Prop
  | [] => True
  | j :: l => Json.Small j ∧ Json.SmallArr l

/-- of members -/
def Json.SmallObj : List (Str × Json) → Prop
  | [] => True
  | (_, j) :: l => Json.Small j ∧ Json.SmallObj l
end

end OCA
