import Verif.Props.Lines
/-!
# C75: the ways to lay out an OCA file (specification)

A file as a person writes it: keywords in any letter case; blanks, tabs and line breaks after a `\` wherever the grammar allows them; values
bare, in double or in single quotes; comments after commands; lines ended by `\n` or `\r\n`. Every layout has a text (`.text`) and a meaning
(`.meaning`), which does not mention the layout.
-/
namespace OCA
open Peg Gr

/-- the end of a line -/
inductive Eol where
  | lf | crlf
deriving DecidableEq

def Eol.text : Eol → Str
  | .lf => ['\n']
  | .crlf => ['\r', '\n']

/-- blanks and tabs: `false` is a blank, `true` a tab -/
abbrev Blanks := List Bool

def Blanks.text (w : Blanks) : Str := w.map fun t => if t then '\t' else ' '

/-- a blank, a tab, or a line break after a `\` (and blanks) -/
inductive Blank where
  | one (tab : Bool)
  | cont (w : Blanks) (e : Eol)
deriving DecidableEq

def Blank.text : Blank → Str
  | .one t => Blanks.text [t]
  | .cont w e => '\\' :: (Blanks.text w ++ e.text)

/-- what stands between two words of a command -/
abbrev Gap := List Blank

def Gap.text (g : Gap) : Str := g.flatMap Blank.text

/-- the word `s` is the keyword `kw`, whatever the case of its letters -/
def Spells (kw s : Str) : Prop := s.map asciiLower = kw.map asciiLower

/-- between single quotes: the same rule as `Quotable` has for double quotes -/
def SingleQuotable : Str → Bool
  | [] => true
  | c :: r =>
    if c = '\\' then
      match r with
      | [] => false
      | d :: r' => if d = '\'' ∨ d = '\\' then SingleQuotable r' else SingleQuotable (d :: r')
    else decide (c ≠ '\'' ∧ c ≠ '\x00' ∧ c ≠ '\x1f') && SingleQuotable r

/-- a quoted text -/
inductive Quoted where
  | double (s : Str)
  | single (s : Str)

namespace Quoted
def text : Quoted → Str
  | double s => '"' :: s ++ ['"']
  | single s => '\'' :: s ++ ['\'']
/-- the text between the quotes -/
def value : Quoted → Str
  | double s => s
  | single s => s
def Ok : Quoted → Prop
  | double s => Quotable s = true
  | single s => SingleQuotable s = true
end Quoted

/-- `[]`, or texts separated by commas; `n` blanks after a comma -/
inductive CodesLaid where
  | empty
  | items (x : Quoted) (more : List (Nat × Quoted))

namespace CodesLaid
def all : CodesLaid → List Quoted
  | empty => []
  | items x more => x :: more.map (·.2)
def text : CodesLaid → Str
  | empty => c!"[]"
  | items x more => c!"[" ++ x.text ++ (more.flatMap fun p => ',' :: (List.replicate p.1 ' ' ++ p.2.text)) ++ c!"]"
def values (l : CodesLaid) : List Str := l.all.map Quoted.value
def Ok (l : CodesLaid) : Prop := ∀ q ∈ l.all, q.Ok
end CodesLaid

/-- `{}`, or `key:value` separated by commas; `n` blanks after the `:`, after a comma, and inside the braces -/
inductive ObjLaid (α : Type) where
  | empty
  | items (a : Nat) (x : Quoted × Nat × α) (more : List (Nat × (Quoted × Nat × α))) (b : Nat)

namespace ObjLaid
variable {α : Type}
def all : ObjLaid α → List (Quoted × Nat × α)
  | empty => []
  | items _ x more _ => x :: more.map (·.2)
/-- `"key": value` -/
def itemText (f : α → Str) (x : Quoted × Nat × α) : Str := x.1.text ++ (':' :: (List.replicate x.2.1 ' ' ++ f x.2.2))
def text (f : α → Str) : ObjLaid α → Str
  | empty => c!"{}"
  | items a x more b => c!"{" ++ List.replicate a ' ' ++ itemText f x ++
      (more.flatMap fun p => ',' :: (List.replicate p.1 ' ' ++ itemText f p.2)) ++ List.replicate b ' ' ++ c!"}"
end ObjLaid

/-- a value: a word, a quoted text, and for the entries codes, groups of codes, or labels of codes -/
inductive ValueLaid where
  | word (s : Str)
  | quoted (q : Quoted)
  | codes (l : CodesLaid)
  | groups (o : ObjLaid CodesLaid)
  | entries (o : ObjLaid Quoted)

namespace ValueLaid
def text : ValueLaid → Str
  | word s => s
  | quoted q => q.text
  | codes l => l.text
  | groups o => o.text CodesLaid.text
  | entries o => o.text Quoted.text
/-- the value read: a later key replaces an earlier one -/
def meaning : ValueLaid → NVal
  | word s => .val s
  | quoted q => .val q.value
  | codes l => .arr (l.values.map .val)
  | groups o => .obj (imExtend [] (o.all.map fun x => (x.1.value, .arr (x.2.2.values.map .val))))
  | entries o => .obj (imExtend [] (o.all.map fun x => (x.1.value, .val x.2.2.value)))
end ValueLaid

/-- the overlays that can be added, as the grammar has them -/
inductive OvWord where
  | metaW | label | information | characterEncoding | characterEncodingProps | format | conformance | condition | cardinality
  | unit | link | entryCode | entry
deriving DecidableEq

namespace OvWord
/-- the keyword of the overlay -/
def keyword : OvWord → Str
  | metaW => c!"META"
  | label => c!"LABEL"
  | information => c!"INFORMATION"
  | characterEncoding => c!"CHARACTER_ENCODING"
  | characterEncodingProps => c!"CHARACTER_ENCODING"
  | format => c!"FORMAT"
  | conformance => c!"CONFORMANCE"
  | condition => c!"CONDITION"
  | cardinality => c!"CARDINALITY"
  | unit => c!"UNIT"
  | link => c!"LINK"
  | entryCode => c!"ENTRY_CODE"
  | entry => c!"ENTRY"
/-- the keyword before the pairs -/
def block : OvWord → Str
  | metaW => c!"PROPS"
  | characterEncodingProps => c!"PROPS"
  | _ => c!"ATTRS"
/-- the overlay -/
def kind : OvWord → OvKind
  | metaW => .metaOv
  | label => .label
  | information => .information
  | characterEncoding => .characterEncoding
  | characterEncodingProps => .characterEncoding
  | format => .format
  | conformance => .conformance
  | condition => .conditional
  | cardinality => .cardinality
  | unit => .unit
  | link => .link
  | entryCode => .entryCode
  | entry => .entry
/-- a language stands after the keyword -/
def hasLang : OvWord → Bool
  | metaW => true
  | label => true
  | information => true
  | entry => true
  | _ => false
/-- the pairs are properties -/
def isProps : OvWord → Bool
  | metaW => true
  | characterEncodingProps => true
  | _ => false
end OvWord

/-- a bare value of UNIT: anything up to a blank or a line break -/
def IsUnitWord (s : Str) : Prop :=
  (∀ c ∈ s, c ≠ ' ' ∧ c ≠ '\n' ∧ c ≠ '\r') ∧ ∃ c t, s = c :: t ∧ c ≠ '\t' ∧ c ≠ '\\' ∧ c ≠ '#' ∧ c ≠ '"' ∧ c ≠ '\''

/-- which values an overlay takes -/
def ValueLaid.Ok (U : Uni) (k : OvWord) : ValueLaid → Prop
  | .word s => if k = .unit then IsUnitWord s else IsWord U s
  | .quoted q => q.Ok
  | .codes l => k = .entryCode ∧ l.Ok
  | .groups o => k = .entryCode ∧ ∀ x ∈ o.all, x.1.Ok ∧ x.2.2.Ok
  | .entries o => k = .entry ∧ ∀ x ∈ o.all, x.1.Ok ∧ x.2.2.Ok

/-- `name = value` -/
structure PairLaid where
  name : Str
  g1 : Gap
  g2 : Gap
  value : ValueLaid

namespace PairLaid
def text (p : PairLaid) : Str := p.name ++ p.g1.text ++ c!"=" ++ p.g2.text ++ p.value.text
def meaning (p : PairLaid) : Str × NVal := (p.name, p.value.meaning)
/-- the entries allow no blanks round the `=` -/
def Ok (U : Uni) (k : OvWord) (p : PairLaid) : Prop :=
  IsKey p.name ∧ p.value.Ok U k ∧ (k = .entryCode ∨ k = .entry → p.g1 = [] ∧ p.g2 = [])
/-- a bare value, which in UNIT only a blank ends -/
def isBare (p : PairLaid) : Bool := match p.value with
  | .word _ => true
  | _ => false
/-- the gap may stand after the pair -/
def Then (k : OvWord) (p : PairLaid) (g : Gap) : Prop :=
  g ≠ [] ∧ (k = .unit → p.isBare = true → ∃ t, g = .one false :: t)
end PairLaid

/-- the pairs of a command: the first, and the others each after a gap -/
structure PairsLaid where
  first : PairLaid
  more : List (Gap × PairLaid)

namespace PairsLaid
def all (p : PairsLaid) : List PairLaid := p.first :: p.more.map (·.2)
def text (p : PairsLaid) : Str := p.first.text ++ p.more.flatMap fun x => x.1.text ++ x.2.text
/-- every gap may stand where it stands -/
def gapsOk (k : OvWord) : PairLaid → List (Gap × PairLaid) → Prop
  | _, [] => True
  | p, (g, q) :: t => p.Then k g ∧ gapsOk k q t
def Ok (U : Uni) (k : OvWord) (p : PairsLaid) : Prop := (∀ x ∈ p.all, x.Ok U k) ∧ gapsOk k p.first p.more
def last (p : PairsLaid) : PairLaid := match p.more.getLast? with
  | some x => x.2
  | none => p.first
end PairsLaid

/-- a reference: `refs:said` or `refn:name` -/
inductive RefLaid where
  | said (kw s : Str)
  | name (kw s : Str)

namespace RefLaid
def text : RefLaid → Str
  | said kw s => kw ++ s
  | name kw s => kw ++ s
def meaning : RefLaid → RefVal
  | said _ s => .said s
  | name _ s => .name s
def Ok (E : Env) (U : Uni) : RefLaid → Prop
  | said kw s => Spells c!"refs:" kw ∧ IsWord U s ∧ E.validSaid s = true
  | name kw s => Spells c!"refn:" kw ∧ IsWord U s
end RefLaid

/-- an attribute type -/
inductive TypeLaid where
  | base (t : AttrType)
  | ref (r : RefLaid)
  | array (g1 : Gap) (t : TypeLaid) (g2 : Gap)

namespace TypeLaid
def text : TypeLaid → Str
  | base t => t.toStr
  | ref r => r.text
  | array g1 t g2 => c!"Array[" ++ g1.text ++ t.text ++ g2.text ++ c!"]"
def meaning : TypeLaid → NAttr
  | base t => .val t
  | ref r => .ref r.meaning
  | array _ t _ => .arr t.meaning
def Ok (E : Env) (U : Uni) : TypeLaid → Prop
  | base _ => True
  | ref r => r.Ok E U
  | array _ t _ => t.Ok E U
end TypeLaid

/-- ` name = type` -/
structure AttrLaid where
  g : Gap
  name : Str
  g1 : Gap
  g2 : Gap
  type : TypeLaid

namespace AttrLaid
def text (a : AttrLaid) : Str := a.g.text ++ a.name ++ a.g1.text ++ c!"=" ++ a.g2.text ++ a.type.text
def meaning (a : AttrLaid) : Str × NAttr := (a.name, a.type.meaning)
def Ok (E : Env) (U : Uni) (a : AttrLaid) : Prop := a.g ≠ [] ∧ IsKey a.name ∧ a.type.Ok E U
end AttrLaid

/-- what stands between the keyword of an overlay and ATTRS or PROPS, with the gap after it -/
inductive MiddleLaid where
  | none
  | lang (l : Str) (g : Gap)
  | target (r : RefLaid) (g : Gap)

namespace MiddleLaid
def text : MiddleLaid → Str
  | none => []
  | lang l g => l ++ g.text
  | target r g => r.text ++ g.text
def props : MiddleLaid → List (Str × NVal)
  | none => []
  | lang l _ => [(c!"lang", .val l)]
  | target r _ => [(c!"target", .ref r.meaning)]
def Ok (E : Env) (U : Uni) (k : OvWord) : MiddleLaid → Prop
  | none => k.hasLang = false ∧ k ≠ .link
  | lang l g => k.hasLang = true ∧ IsLang l ∧ g ≠ []
  | target r g => k = .link ∧ r.Ok E U ∧ g ≠ []
end MiddleLaid

/-- a classification: a word or a quoted text -/
inductive ClassLaid where
  | word (s : Str)
  | quoted (q : Quoted)

namespace ClassLaid
/-- as it is written, and as it is kept: the quotes stay -/
def text : ClassLaid → Str
  | word s => s
  | quoted q => q.text
def Ok (U : Uni) : ClassLaid → Prop
  | word s => IsWord U s
  | quoted q => q.Ok
end ClassLaid

/-- a command as it is laid out -/
inductive Laid where
  | addAttributes (add : Str) (g : Gap) (kw : Str) (attrs : List AttrLaid)
  | addOverlay (add : Str) (g : Gap) (k : OvWord) (kw : Str) (g1 : Gap) (middle : MiddleLaid) (block : Str) (g2 : Gap) (pairs : PairsLaid)
  | addClass (add : Str) (g : Gap) (kw : Str) (g1 : Gap) (v : ClassLaid)
  | removeAttributes (remove : Str) (g : Gap) (kw : Str) (names : List (Gap × Str))
  | removeClass (remove : Str) (g : Gap) (kw : Str)
  | fromSaid (kw : Str) (w : Blanks) (s : Str)

namespace Laid
def text : Laid → Str
  | addAttributes add g kw attrs => add ++ g.text ++ kw ++ attrs.flatMap AttrLaid.text
  | addOverlay add g _ kw g1 m block g2 ps => add ++ g.text ++ kw ++ g1.text ++ m.text ++ block ++ g2.text ++ ps.text
  | addClass add g kw g1 v => add ++ g.text ++ kw ++ g1.text ++ v.text
  | removeAttributes remove g kw names => remove ++ g.text ++ kw ++ names.flatMap fun x => x.1.text ++ x.2
  | removeClass remove g kw => remove ++ g.text ++ kw
  | fromSaid kw w s => kw ++ w.text ++ s

/-- the command meant: of two pairs with the same name the later counts -/
def meaning : Laid → Command
  | addAttributes _ _ _ attrs => ⟨.add, .captureBase ⟨some (imExtend [] (attrs.map AttrLaid.meaning)), none, none⟩⟩
  | addOverlay _ _ k _ _ m _ _ ps => ⟨.add, .overlay ⟨k.kind, c!"1.1"⟩
      (if k.isProps then ⟨some [], some (imExtend m.props (ps.all.map PairLaid.meaning))⟩
       else ⟨some (imExtend [] (ps.all.map PairLaid.meaning)), some m.props⟩)⟩
  | addClass _ _ _ _ v => ⟨.add, .captureBase ⟨none, some [(c!"classification", .val v.text)], none⟩⟩
  | removeAttributes _ _ _ names => ⟨.remove, .captureBase ⟨some (imExtend [] (names.map fun x => (x.2, .null))), none, none⟩⟩
  | removeClass _ _ _ => ⟨.remove, .captureBase ⟨none, some [(c!"classification", .val [])], none⟩⟩
  | fromSaid _ _ s => ⟨.«from», .ocaBundle (.said s)⟩

/-- the layout is one the grammar knows -/
def Ok (E : Env) (U : Uni) : Laid → Prop
  | addAttributes add _ kw attrs => Spells c!"ADD" add ∧ Spells c!"ATTRIBUTE" kw ∧ attrs ≠ [] ∧ ∀ a ∈ attrs, a.Ok E U
  | addOverlay add _ k kw g1 m block g2 ps => Spells c!"ADD" add ∧ Spells k.keyword kw ∧ g1 ≠ [] ∧ m.Ok E U k ∧ Spells k.block block ∧ g2 ≠ [] ∧
      ps.Ok U k
  | addClass add _ kw g1 v => Spells c!"ADD" add ∧ Spells c!"CLASSIFICATION" kw ∧ g1 ≠ [] ∧ v.Ok U
  | removeAttributes remove _ kw names => Spells c!"REMOVE" remove ∧ Spells c!"ATTRIBUTE" kw ∧ ∀ x ∈ names, x.1 ≠ [] ∧ IsKey x.2
  | removeClass remove _ kw => Spells c!"REMOVE" remove ∧ Spells c!"CLASSIFICATION" kw
  | fromSaid kw _ s => Spells c!"FROM" kw ∧ IsWord U s ∧ E.validSaid s = true

/-- the last thing of the command is a bare value of UNIT, which would take what follows with it -/
def endsBare : Laid → Bool
  | addOverlay _ _ k _ _ _ _ _ ps => decide (k = .unit) && ps.last.isBare
  | _ => false
end Laid

/-- a command that adds an overlay takes the blanks after it -/
def Laid.takesBlanks : Laid → Bool
  | .addOverlay .. => true
  | _ => false

/-- a line of the file: a command, blanks, and perhaps a comment; a comment; blanks; or a meta line -/
inductive FreeLine where
  | command (c : Laid) (w : Blanks) (comment : Option Str) (e : Eol)
  | comment (w : Blanks) (t : Str) (e : Eol)
  | blank (w : Blanks) (e : Eol)
  | metaLine (w w1 : Blanks) (key : Str) (g1 g2 : Gap) (value : ClassLaid) (w2 : Blanks) (comment : Option Str) (e : Eol)

/-- the comment at the end of a line -/
def commentText : Option Str → Str
  | none => []
  | some t => '#' :: t

/-- a comment ends with its line -/
def CommentOk : Option Str → Prop
  | none => True
  | some t => ∀ c ∈ t, c ≠ '\n' ∧ c ≠ '\r'

namespace FreeLine
def text : FreeLine → Str
  | command c w t e => c.text ++ w.text ++ commentText t ++ e.text
  | comment w t e => w.text ++ c!"#" ++ t ++ e.text
  | blank w e => w.text ++ e.text
  | metaLine w w1 k g1 g2 v w2 t e =>
    w.text ++ c!"--" ++ w1.text ++ k ++ g1.text ++ c!"=" ++ g2.text ++ v.text ++ w2.text ++ commentText t ++ e.text

def Ok (E : Env) (U : Uni) : FreeLine → Prop
  | command c w t _ => c.Ok E U ∧ CommentOk t ∧
      (c.endsBare = true → w = [] → t = none) ∧ (c.endsBare = true → ∀ u, w ≠ true :: u)
  | comment _ t _ => ∀ c ∈ t, c ≠ '\n' ∧ c ≠ '\r'
  | blank _ _ => True
  | metaLine _ _ k _ _ v _ t _ => (k = c!"name" ∨ k = c!"version" ∨ k = c!"precompiler") ∧ v.Ok U ∧ CommentOk t

/-- the command of a line -/
def command? : FreeLine → Option Command
  | command c _ _ _ => some c.meaning
  | _ => none

/-- the meta data of a line; quotes stay -/
def meta? : FreeLine → Option (Str × Str)
  | metaLine _ _ k _ _ v _ _ _ => some (k, v.text)
  | _ => none
end FreeLine

/-- the text of a file -/
def freeText (ls : List FreeLine) : Str := ls.flatMap FreeLine.text

/-- its commands -/
def freeCommands (ls : List FreeLine) : List Command := ls.filterMap FreeLine.command?

/-- the last value given to a key -/
def freeMeta (ls : List FreeLine) (key : Str) : Option Str :=
  ((ls.filterMap FreeLine.meta?).reverse.find? fun p => p.1 = key).map (·.2)

/-- What stands behind a command or a meta pair on its line is counted as a line: a comment, and blanks if they are not taken with it. -/
def behind (taken : Bool) (w : Blanks) (t : Option Str) : Nat := if t = none ∧ (taken = true ∨ w = []) then 0 else 1

/-- how far the numbers of the following commands move on -/
def FreeLine.numbers : FreeLine → Nat
  | .command c w t _ => 1 + behind c.takesBlanks w t
  | .metaLine _ _ _ _ _ _ w2 t _ => 1 + behind false w2 t
  | _ => 1

/-- the text kept of the command of a line -/
def FreeLine.kept? : FreeLine → Option Str
  | .command c w _ _ => some (if c.takesBlanks = true then c.text ++ w.text else c.text)
  | _ => none

end OCA
