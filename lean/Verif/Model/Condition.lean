import Verif.Model.Ast
/-!
# Conditions (`semantics/oca-bundle/src/state/oca/overlay/conditional.rs`)
-/
namespace OCA

/-- A text cut at the matches of a regex: unmatched characters and the captured names. -/
inductive Piece where
  | lit (c : Char)
  | ph (name : Str)
deriving DecidableEq, Repr

/-- The regex `\$\{([^}]*)\}` (`conditional.rs:25`) matched at the beginning of a text: the captured
group. `[^}]*` is greedy but cannot cross a `}`, so the group ends at the first `}`. -/
def matchAny (s : Str) : Option Str :=
  match stripPrefix c!"${" s with
  | none => none
  | some r => (splitOnce '}' r).map (·.1)

/-- The regex `\$\{(\d+)\}` (`conditional.rs:55`, `oca.rs:753,1097`) matched at the beginning of a
text: the captured group. -/
def matchNum (E : Env) (s : Str) : Option Str :=
  (matchAny s).filter (fun n => !n.isEmpty && n.all E.isNd)

/-- `Regex::replace_all` iterates over the leftmost non-overlapping matches: `skip` characters belong
to the match just found (`${`, group, `}` minus the first character). -/
def scan (m : Str → Option Str) : Nat → Str → List Piece
  | _, [] => []
  | 0, c :: s =>
    match m (c :: s) with
    | some n => .ph n :: scan m (n.length + 2) s
    | none => .lit c :: scan m 0 s
  | k + 1, _ :: s => scan m k s

/-- `format!("${{{}}}", x)` for a placeholder, the character itself otherwise. -/
def Piece.text : Piece → Str
  | .lit c => [c]
  | .ph n => c!"${" ++ n ++ c!"}"

/-- The text of a list of pieces. -/
def render (ps : List Piece) : Str := (ps.map Piece.text).flatten

/-- `Display for usize` -/
def natText (n : Nat) : Str := Nat.toDigits 10 n

/-- `str::parse::<usize>` on a text of Unicode digits: only ASCII digits are accepted. (A value above
`usize::MAX` fails to parse; here it parses but is then out of range of every list. Both abort.) -/
def parseNat (s : Str) : Option Nat :=
  if s.isEmpty || !s.all Char.isDigit then none else some (Nat.ofDigitChars 10 s 0)

/-- The closure of `set_condition` (`conditional.rs:29-38`): the position of the name in the
dependencies, which grow when it is new. -/
def depIndex (deps : List Str) (n : Str) : Nat × List Str :=
  if n ∈ deps then (deps.idxOf n, deps) else (deps.length, deps ++ [n])

/-- `replace_all` with that closure (`conditional.rs:28-39`). -/
def indexPieces : List Piece → List Str → List Piece × List Str
  | [], deps => ([], deps)
  | .lit c :: ps, deps =>
    let r := indexPieces ps deps
    (.lit c :: r.1, r.2)
  | .ph n :: ps, deps =>
    let i := depIndex deps n
    let r := indexPieces ps i.2
    (.ph (natText i.1) :: r.1, r.2)

/-- `Attribute::set_condition` (`conditional.rs:24-43`): the stored condition and dependencies. -/
def setCondition (s : Str) : Str × List Str :=
  let r := indexPieces (scan matchAny 0 s) []
  (render r.1, r.2)

/-- `condition_dependencies[caps[1].parse::<usize>().unwrap()]`: panics if the group does not parse
or is out of range. -/
def depAt {ε : Type} (deps : List Str) (group : Str) : Res ε Str :=
  match parseNat group with
  | none => .panic
  | some i => Res.unwrap deps[i]?

/-- `replace_all` with a closure that may panic. -/
def replacePieces {ε : Type} (f : Str → Res ε Str) : List Piece → Res ε Str
  | [] => .ok []
  | .lit c :: ps => do
    let r ← replacePieces f ps
    pure (c :: r)
  | .ph n :: ps => do
    let t ← f n
    let r ← replacePieces f ps
    pure (t ++ r)

/-- Reading a stored condition back (`oca.rs:757-762` in `From<OCABundle>`, `oca.rs:1101-1107` in
`to_ast`): every `${i}` becomes `${dependency i}`. -/
def expandCondition {ε : Type} (E : Env) (cond : Str) (deps : List Str) : Res ε Str :=
  replacePieces (fun g => do
    let d ← depAt deps g
    pure (c!"${" ++ d ++ c!"}")) (scan (matchNum E) 0 cond)

/-- Errors of `check_condition`; the texts of Lua errors are not modelled. -/
inductive CondErr where
  | noCondition
  | selfDependency (attr : Str)
  | missing (dep : Str)
  | invalid (attr : Str)
deriving DecidableEq, Repr

/-- The errors collected before running (`conditional.rs:57-67`). -/
def condErrors (attr : Str) (deps : List Str) (vals : FMap Str) : List CondErr :=
  (if attr ∈ deps then [.selfDependency attr] else []) ++
    (deps.filter (fun d => !vals.contains d)).map .missing

/-- `Attribute::check_condition` (`conditional.rs:45-117`). Values are given as their `Display` text.
Lua is the parameter `Env.lua`: the result of running the chunk, `none` if loading or running fails
or the result is not a boolean (the three error reports of `:88-115` are one error here). -/
def checkCondition (E : Env) (attr : Str) (cond : Option Str) (deps : Option (List Str))
    (vals : FMap Str) : Res (List CondErr) Bool :=
  match cond with
  | none => .err [.noCondition]
  | some c =>
    match deps with
    | none => .panic
    | some ds =>
      if (condErrors attr ds vals).isEmpty then do
        let script ← replacePieces (fun g => do
          let d ← depAt ds g
          Res.unwrap (vals.get d)) (scan (matchNum E) 0 c)
        match E.lua (c!"return " ++ script) with
        | some b => .ok b
        | none => .err [.invalid attr]
      else .err (condErrors attr ds vals)

end OCA
