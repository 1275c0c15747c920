import Verif.Model.Ast
/-!
# Parsing expressions (the `pest` crate, as used by the three grammars of the code)

A parser takes the context (whether it runs inside an atomic rule) and the remaining text. It fails, or gives the tokens
(`pest::iterators::Pair`) it emits, the text it consumed and the text that remains.

No grammar of the code has a `WHITESPACE` or `COMMENT` rule, so `~` and `*` never skip anything by themselves, and the
kinds of rules differ only in the tokens they emit (`ParserState::rule`, `ParserState::atomic` of `pest`):
a rule `{..}` emits a token unless it runs inside an atomic rule; `@{..}` likewise, and what runs inside it is inside an
atomic rule; `${..}` always emits a token, and what runs inside it is not inside an atomic rule; `_{..}` emits none.
Where and why a parse fails (`pest::error::Error`) is not modelled. The depth of the call stack is not bounded.
-/
namespace OCA

/-- A token: its rule, its text, and the tokens inside it -/
inductive Tree (R : Type) where
  | node (rule : R) (text : Str) (kids : List (Tree R))

namespace Tree
variable {R : Type}
/-- `Pair::as_rule` -/
def rule : Tree R → R
  | .node r _ _ => r
/-- `Pair::as_str` -/
def text : Tree R → Str
  | .node _ t _ => t
/-- `Pair::into_inner` -/
def kids : Tree R → List (Tree R)
  | .node _ _ k => k
end Tree

/-- a successful parse: tokens, consumed text, remaining text -/
structure Out (R : Type) where
  ts : List (Tree R)
  u : Str
  r : Str

/-- a parser; the argument says whether it runs inside an atomic rule -/
abbrev Peg (R : Type) := Bool → Str → Option (Out R)

namespace Peg
variable {R : Type}

/-- `"abc"` -/
def lit (s : Str) : Peg R := fun _ i => (stripPrefix s i).map fun r => ⟨[], s, r⟩

/-- ASCII lower case (`char::to_ascii_lowercase`) -/
def asciiLower (c : Char) : Char := if 'A' ≤ c ∧ c ≤ 'Z' then Char.ofNat (c.toNat + 32) else c

/-- `^"abc"`: compared with `eq_ignore_ascii_case` (`Position::match_insensitive`) -/
def ilit : Str → Peg R
  | [] => fun _ i => some ⟨[], [], i⟩
  | c :: s => fun a i => match i with
    | [] => none
    | d :: r => if asciiLower c = asciiLower d then (ilit s a r).map fun o => ⟨[], d :: o.u, o.r⟩ else none

/-- one character of a class -/
def cls (f : Char → Bool) : Peg R := fun _ i => match i with
  | [] => none
  | c :: r => if f c then some ⟨[], [c], r⟩ else none

/-- `ANY` -/
def any : Peg R := cls fun _ => true

/-- `EOI`, without its token -/
def eoi : Peg R := fun _ i => match i with
  | [] => some ⟨[], [], []⟩
  | _ :: _ => none

/-- `p ~ q` -/
def seq (p q : Peg R) : Peg R := fun a i => match p a i with
  | none => none
  | some o => match q a o.r with
    | none => none
    | some o' => some ⟨o.ts ++ o'.ts, o.u ++ o'.u, o'.r⟩

/-- `p | q` -/
def alt (p q : Peg R) : Peg R := fun a i => match p a i with
  | some o => some o
  | none => q a i

/-- `p?` -/
def opt (p : Peg R) : Peg R := fun a i => match p a i with
  | some o => some o
  | none => some ⟨[], [], i⟩

/-- `!p` -/
def neg (p : Peg R) : Peg R := fun a i => match p a i with
  | some _ => none
  | none => some ⟨[], [], i⟩

/-- at most `n` times -/
def starN (p : Peg R) : Nat → Peg R
  | 0 => fun _ i => some ⟨[], [], i⟩
  | n + 1 => fun a i => match p a i with
    | none => some ⟨[], [], i⟩
    | some o =>
      if o.r.length < i.length then
        match starN p n a o.r with
        | none => none
        | some o' => some ⟨o.ts ++ o'.ts, o.u ++ o'.u, o'.r⟩
      else some ⟨[], [], i⟩

/-- `p*`. `pest` refuses grammars in which `p` can succeed without consuming anything, so the text gets shorter each
time and its length bounds the number of iterations (`star_eq`). -/
def star (p : Peg R) : Peg R := fun a i => starN p i.length a i

/-- `p+` -/
def plus (p : Peg R) : Peg R := seq p (star p)

/-- `k = { p }` -/
def normal (k : R) (p : Peg R) : Peg R := fun a i => (p a i).map fun o =>
  if a then o else ⟨[.node k o.u o.ts], o.u, o.r⟩

/-- `k = @{ p }` -/
def atomic (k : R) (p : Peg R) : Peg R := fun a i => (p true i).map fun o =>
  if a then o else ⟨[.node k o.u o.ts], o.u, o.r⟩

/-- `k = ${ p }` -/
def compound (k : R) (p : Peg R) : Peg R := fun _ i => (p false i).map fun o => ⟨[.node k o.u o.ts], o.u, o.r⟩

/-- a recursive rule unfolded `n` times -/
def fixN (f : Peg R → Peg R) : Nat → Peg R
  | 0 => fun _ _ => none
  | n + 1 => f (fixN f n)

/-- A recursive rule. Each recursion of the grammars happens after at least one character was consumed, so the length of
the text bounds the depth (`Guarded.fix_eq`). -/
def fix (f : Peg R → Peg R) : Peg R := fun a i => fixN f (i.length + 1) a i

end Peg

@[inherit_doc] infixr:70 " ~ₚ " => Peg.seq
@[inherit_doc] infixr:60 " |ₚ " => Peg.alt
@[inherit_doc] postfix:max "*ₚ" => Peg.star
@[inherit_doc] postfix:max "+ₚ" => Peg.plus
@[inherit_doc] postfix:max "?ₚ" => Peg.opt
@[inherit_doc] prefix:max "!ₚ" => Peg.neg

end OCA
