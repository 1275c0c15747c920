/-!
# Basic data used by the model of oca-rs

* `Str`   : Rust `String`/`&str` as the list of its Unicode scalar values.
* `FMap`  : `HashMap<String, _>` / `BTreeMap<String, _>` as a canonical finite map (strictly sorted
            association list), so that two maps with the same entries are equal.
* `imInsert`, ... : `IndexMap<String, _>` as an insertion-ordered association list.
* `Order` : the iteration order of a `HashMap`, known only to be *some* permutation, possibly a
            different one at each loop of the program.
* `Res`   : `Result<_, _>` plus an explicit panic outcome.
-/

namespace OCA

/-- Rust `String`. Rust compares strings bytewise on UTF-8, which is code point order. -/
abbrev Str := List Char

open Lean in
/-- `c!"abc"` is the text `abc`, written out as a list of characters. -/
macro:max "c!" s:str : term => do
  let cs := s.getString.toList.toArray.map (fun c => (Syntax.mkCharLit c : TSyntax `char))
  `(([$[$cs:char],*] : List Char))

/-- A Rust computation: a value, an `Err`, or a panic (`unwrap` on `None`, `todo!()`, ...). -/
inductive Res (ε α : Type) where
  | ok (a : α)
  | err (e : ε)
  | panic
deriving DecidableEq, Repr

namespace Res
/-- `?`: errors and panics propagate. -/
def bind {ε α β : Type} : Res ε α → (α → Res ε β) → Res ε β
  | .ok a, f => f a
  | .err e, _ => .err e
  | .panic, _ => .panic

instance {ε : Type} : Monad (Res ε) where
  pure := .ok
  bind := bind

def isOk {ε α : Type} : Res ε α → Bool
  | .ok _ => true
  | _ => false

/-- `Option::unwrap`. -/
def unwrap {ε α : Type} : Option α → Res ε α
  | some a => .ok a
  | none => .panic

@[simp] theorem bind_ok {ε α β} (a : α) (f : α → Res ε β) : (Res.ok a >>= f) = f a := rfl
@[simp] theorem bind_err {ε α β} (e : ε) (f : α → Res ε β) : (Res.err e >>= f) = .err e := rfl
@[simp] theorem bind_panic {ε α β} (f : α → Res ε β) : ((Res.panic : Res ε α) >>= f) = .panic := rfl
@[simp] theorem pure_eq {ε α} (a : α) : (pure a : Res ε α) = .ok a := rfl
@[simp] theorem unwrap_some {ε α} (a : α) : (unwrap (some a) : Res ε α) = .ok a := rfl
@[simp] theorem unwrap_none {ε α} : (unwrap none : Res ε α) = .panic := rfl

theorem bind_eq_ok {ε α β} {x : Res ε α} {f : α → Res ε β} {b : β} :
    (x >>= f) = .ok b ↔ ∃ a, x = .ok a ∧ f a = .ok b := by
  cases x <;> simp
end Res

/-! ## String order -/

/-- `Ord` on `String`: lexicographic on code points. -/
def Str.lt : Str → Str → Bool
  | [], [] => false
  | [], _ :: _ => true
  | _ :: _, [] => false
  | a :: as, b :: bs => decide (a.toNat < b.toNat) || (decide (a = b) && Str.lt as bs)

theorem Str.lt_irrefl (a : Str) : Str.lt a a = false := by
  induction a with
  | nil => rfl
  | cons a as ih => simp [Str.lt, ih]

theorem Str.lt_trans {a b c : Str} (h1 : Str.lt a b = true) (h2 : Str.lt b c = true) :
    Str.lt a c = true := by
  induction a generalizing b c with
  | nil => cases b with
    | nil => simp [Str.lt] at h1
    | cons b bs => cases c with
      | nil => simp [Str.lt] at h2
      | cons c cs => rfl
  | cons a as ih => cases b with
    | nil => simp [Str.lt] at h1
    | cons b bs => cases c with
      | nil => simp [Str.lt] at h2
      | cons c cs =>
        simp only [Str.lt, Bool.or_eq_true, decide_eq_true_eq, Bool.and_eq_true] at *
        rcases h1 with h1 | ⟨rfl, h1⟩
        · rcases h2 with h2 | ⟨rfl, h2⟩
          · left; omega
          · left; exact h1
        · rcases h2 with h2 | ⟨rfl, h2⟩
          · left; exact h2
          · right; exact ⟨rfl, ih h1 h2⟩

theorem Char.eq_of_toNat {a b : Char} (h : a.toNat = b.toNat) : a = b := by
  apply Char.ext
  apply UInt32.toNat_inj.mp
  exact h

theorem Str.lt_trichotomy (a b : Str) : Str.lt a b = true ∨ a = b ∨ Str.lt b a = true := by
  induction a generalizing b with
  | nil => cases b <;> simp [Str.lt]
  | cons a as ih => cases b with
    | nil => simp [Str.lt]
    | cons b bs =>
      by_cases h : a = b
      · subst h
        rcases ih bs with h | h | h <;> simp [Str.lt, h]
      · have : a.toNat ≠ b.toNat := fun e => h (Char.eq_of_toNat e)
        rcases Nat.lt_or_gt_of_ne this with h' | h'
        · left; simp [Str.lt, h']
        · right; right; simp [Str.lt, h']

theorem Str.lt_asymm {a b : Str} (h : Str.lt a b = true) : Str.lt b a = false := by
  cases hb : Str.lt b a with
  | false => rfl
  | true => have := Str.lt_trans h hb; rw [Str.lt_irrefl] at this; exact this.symm

theorem Str.lt_ne {a b : Str} (h : Str.lt a b = true) : a ≠ b := by
  rintro rfl; rw [Str.lt_irrefl] at h; cases h

/-! ## Finite maps -/

/-- Strictly increasing keys. -/
def SortedKeys {V : Type} : List (Str × V) → Prop :=
  List.Pairwise (fun a b => Str.lt a.1 b.1 = true)

instance {V : Type} (l : List (Str × V)) : Decidable (SortedKeys l) := by
  unfold SortedKeys; infer_instance

/-- `HashMap<String, V>` / `BTreeMap<String, V>`: a canonical finite map. -/
structure FMap (V : Type) where
  l : List (Str × V)
  sorted : SortedKeys l

namespace FMap
variable {V W : Type}

instance [DecidableEq V] : DecidableEq (FMap V) := fun a b =>
  if h : a.l = b.l then isTrue (by cases a; cases b; simp_all) else isFalse (by rintro rfl; exact h rfl)

instance [Repr V] : Repr (FMap V) := ⟨fun m n => reprPrec m.l n⟩

/-- First value stored under a key in an association list. -/
def lget (k : Str) : List (Str × V) → Option V
  | [] => none
  | (k', v) :: t => if k = k' then some v else lget k t

/-- Insert into a sorted association list. -/
def lins (k : Str) (v : V) : List (Str × V) → List (Str × V)
  | [] => [(k, v)]
  | (k', v') :: t =>
    if k = k' then (k, v) :: t
    else if Str.lt k k' then (k, v) :: (k', v') :: t
    else (k', v') :: lins k v t

theorem lget_lins (k k' : Str) (v : V) (l : List (Str × V)) :
    lget k' (lins k v l) = if k' = k then some v else lget k' l := by
  induction l with
  | nil => simp [lins, lget]
  | cons p t ih =>
    obtain ⟨a, b⟩ := p
    simp only [lins]
    split
    · next h => subst h; simp only [lget]; split <;> rfl
    · next h =>
      split
      · simp only [lget]
      · simp only [lget, ih]
        by_cases h1 : k' = a
        · subst h1
          have : k' ≠ k := fun e => h e.symm
          simp [this]
        · simp [h1]

theorem mem_lins {k : Str} {v : V} {l : List (Str × V)} {p : Str × V} (h : p ∈ lins k v l) :
    p = (k, v) ∨ p ∈ l := by
  induction l with
  | nil => simpa [lins] using h
  | cons q t ih =>
    obtain ⟨a, b⟩ := q
    simp only [lins] at h
    split at h
    · rcases List.mem_cons.mp h with h | h
      · exact .inl h
      · exact .inr (List.mem_cons_of_mem _ h)
    · split at h
      · rcases List.mem_cons.mp h with h | h
        · exact .inl h
        · exact .inr h
      · rcases List.mem_cons.mp h with h | h
        · exact .inr (by rw [h]; exact List.mem_cons_self ..)
        · rcases ih h with h | h
          · exact .inl h
          · exact .inr (List.mem_cons_of_mem _ h)

theorem lins_sorted (k : Str) (v : V) (l : List (Str × V)) (h : SortedKeys l) :
    SortedKeys (lins k v l) := by
  induction l with
  | nil => simp [lins, SortedKeys]
  | cons p t ih =>
    obtain ⟨a, b⟩ := p
    obtain ⟨h1, h2⟩ := List.pairwise_cons.mp h
    simp only [lins]
    split
    · next e => subst e; exact List.pairwise_cons.mpr ⟨h1, h2⟩
    · next e =>
      split
      · next hlt =>
        refine List.pairwise_cons.mpr ⟨?_, h⟩
        intro q hq
        rcases List.mem_cons.mp hq with hq | hq
        · rw [hq]; exact hlt
        · exact Str.lt_trans hlt (h1 q hq)
      · next hlt =>
        refine List.pairwise_cons.mpr ⟨?_, ih h2⟩
        intro q hq
        rcases mem_lins hq with hq | hq
        · rw [hq]
          rcases Str.lt_trichotomy k a with h' | h' | h'
          · exact absurd h' hlt
          · exact absurd h' e
          · exact h'
        · exact h1 q hq

theorem sorted_tail {p : Str × V} {t : List (Str × V)} (h : SortedKeys (p :: t)) : SortedKeys t :=
  (List.pairwise_cons.mp h).2

theorem lget_eq_none_of_lt {k : Str} {l : List (Str × V)}
    (h : ∀ q ∈ l, Str.lt k q.1 = true) : lget k l = none := by
  induction l with
  | nil => rfl
  | cons p t ih =>
    have h1 := h p (List.mem_cons_self ..)
    simp only [lget]
    rw [if_neg (Str.lt_ne h1)]
    exact ih (fun q hq => h q (List.mem_cons_of_mem _ hq))

theorem lget_iff_mem {l : List (Str × V)} (h : SortedKeys l) (k : Str) (v : V) :
    lget k l = some v ↔ (k, v) ∈ l := by
  induction l with
  | nil => simp [lget]
  | cons p t ih =>
    obtain ⟨a, b⟩ := p
    obtain ⟨h1, h2⟩ := List.pairwise_cons.mp h
    simp only [lget]
    split
    · next e =>
      subst e
      constructor
      · intro e; injection e with e; subst e; exact List.mem_cons_self ..
      · intro hm
        rcases List.mem_cons.mp hm with hm | hm
        · injection hm with _ e; rw [e]
        · have := h1 _ hm; simp [Str.lt_irrefl] at this
    · next e =>
      rw [ih h2]
      constructor
      · exact List.mem_cons_of_mem _
      · intro hm
        rcases List.mem_cons.mp hm with hm | hm
        · injection hm with e' _; exact absurd e' e
        · exact hm

theorem l_ext {l l' : List (Str × V)} (h : SortedKeys l) (h' : SortedKeys l')
    (he : ∀ k, lget k l = lget k l') : l = l' := by
  induction l generalizing l' with
  | nil =>
    cases l' with
    | nil => rfl
    | cons p t => have := he p.1; simp [lget] at this
  | cons p t ih =>
    obtain ⟨a, b⟩ := p
    obtain ⟨h1, h2⟩ := List.pairwise_cons.mp h
    cases l' with
    | nil => have := he a; simp [lget] at this
    | cons q t' =>
      obtain ⟨a', b'⟩ := q
      obtain ⟨h1', h2'⟩ := List.pairwise_cons.mp h'
      have haa : a = a' := by
        rcases Str.lt_trichotomy a a' with hlt | e | hlt
        · have h3 := he a
          have h4 : lget a ((a', b') :: t') = none := lget_eq_none_of_lt (by
            intro q hq
            rcases List.mem_cons.mp hq with hq | hq
            · rw [hq]; exact hlt
            · exact Str.lt_trans hlt (h1' q hq))
          rw [h4] at h3; simp [lget] at h3
        · exact e
        · have h3 := he a'
          have h4 : lget a' ((a, b) :: t) = none := lget_eq_none_of_lt (by
            intro q hq
            rcases List.mem_cons.mp hq with hq | hq
            · rw [hq]; exact hlt
            · exact Str.lt_trans hlt (h1 q hq))
          rw [h4] at h3; simp [lget] at h3
      subst haa
      have hbb : b = b' := by have := he a; simpa [lget] using this
      subst hbb
      congr 1
      apply ih h2 h2'
      intro k
      have h3 := he k
      simp only [lget] at h3
      by_cases hk : k = a
      · subst hk
        rw [lget_eq_none_of_lt h1, lget_eq_none_of_lt h1']
      · simpa [hk] using h3

/-- `HashMap::get`. -/
def get (m : FMap V) (k : Str) : Option V := lget k m.l

/-- `HashMap::new`. -/
def empty : FMap V := ⟨[], List.Pairwise.nil⟩

/-- `HashMap::insert` (overwrites). -/
def insert (m : FMap V) (k : Str) (v : V) : FMap V := ⟨lins k v m.l, lins_sorted k v m.l m.sorted⟩

/-- `HashMap::remove`. -/
def erase (m : FMap V) (k : Str) : FMap V :=
  ⟨m.l.filter (fun p => decide (p.1 ≠ k)), List.Pairwise.filter _ m.sorted⟩

/-- `HashMap::contains_key`. -/
def contains (m : FMap V) (k : Str) : Bool := (m.get k).isSome

/-- Keys in sorted order. -/
def keys (m : FMap V) : List Str := m.l.map (·.1)

@[ext] theorem ext {m m' : FMap V} (h : ∀ k, m.get k = m'.get k) : m = m' := by
  have : m.l = m'.l := l_ext m.sorted m'.sorted h
  cases m; cases m'; simp_all

@[simp] theorem get_empty (k : Str) : (empty : FMap V).get k = none := rfl

theorem get_insert (m : FMap V) (k k' : Str) (v : V) :
    (m.insert k v).get k' = if k' = k then some v else m.get k' := lget_lins ..

theorem get_eq_some_iff {m : FMap V} {k : Str} {v : V} : m.get k = some v ↔ (k, v) ∈ m.l :=
  lget_iff_mem m.sorted k v

theorem get_erase (m : FMap V) (k k' : Str) :
    (m.erase k).get k' = if k' = k then none else m.get k' := by
  apply Option.ext
  intro v
  rw [get_eq_some_iff]
  by_cases h : k' = k
  · simp [erase, h]
  · simp only [erase, List.mem_filter, h, if_false]
    rw [get_eq_some_iff]
    simp [h]

theorem mem_keys_iff {m : FMap V} {k : Str} : k ∈ m.keys ↔ (m.get k).isSome = true := by
  simp only [keys, List.mem_map, Option.isSome_iff_exists]
  constructor
  · rintro ⟨⟨a, b⟩, h, rfl⟩; exact ⟨b, get_eq_some_iff.mpr h⟩
  · rintro ⟨v, h⟩; exact ⟨(k, v), get_eq_some_iff.mp h, rfl⟩

theorem keys_nodup (m : FMap V) : m.keys.Nodup := by
  unfold keys List.Nodup
  rw [List.pairwise_map]
  exact List.Pairwise.imp (fun h => Str.lt_ne h) m.sorted

/-- Keep and transform entries; declarative counterpart of "build a map from another map". -/
def filterMap (f : Str → V → Option W) (m : FMap V) : FMap W :=
  ⟨m.l.filterMap (fun p => (f p.1 p.2).map (fun w => (p.1, w))), by
    have := m.sorted
    unfold SortedKeys at *
    rw [List.pairwise_filterMap]
    refine this.imp ?_
    intro a b hab a' ha b' hb
    simp only [Option.map_eq_some_iff] at ha hb
    obtain ⟨_, _, rfl⟩ := ha
    obtain ⟨_, _, rfl⟩ := hb
    exact hab⟩

theorem get_filterMap (f : Str → V → Option W) (m : FMap V) (k : Str) :
    (m.filterMap f).get k = (m.get k).bind (f k) := by
  apply Option.ext
  intro w
  rw [get_eq_some_iff]
  simp only [filterMap, List.mem_filterMap, Option.map_eq_some_iff, Option.bind_eq_some_iff]
  constructor
  · rintro ⟨⟨a, v⟩, hm, w', hf, he⟩
    injection he with e1 e2
    subst e1; subst e2
    exact ⟨v, get_eq_some_iff.mpr hm, hf⟩
  · rintro ⟨v, hg, hf⟩
    exact ⟨(k, v), get_eq_some_iff.mp hg, w, hf, rfl⟩

/-- Build a map from a list of pairs, later pairs overwriting earlier ones (`extend`/`collect`). -/
def insertAll (m : FMap V) (l : List (Str × V)) : FMap V :=
  l.foldl (fun m p => m.insert p.1 p.2) m

/-- `iter().collect::<HashMap<_,_>>()`. -/
def ofList (l : List (Str × V)) : FMap V := insertAll empty l

@[simp] theorem insertAll_nil (m : FMap V) : m.insertAll [] = m := rfl
@[simp] theorem insertAll_cons (m : FMap V) (p) (l : List (Str × V)) :
    m.insertAll (p :: l) = (m.insert p.1 p.2).insertAll l := rfl

/-- Last value stored under a key in a list of pairs. -/
def lastVal (l : List (Str × V)) (k : Str) : Option V :=
  l.foldl (fun acc p => if k = p.1 then some p.2 else acc) none

theorem foldl_last_acc (l : List (Str × V)) (k : Str) (a : Option V) :
    l.foldl (fun acc p => if k = p.1 then some p.2 else acc) a = (lastVal l k).or a := by
  induction l generalizing a with
  | nil => simp [lastVal]
  | cons p t ih =>
    simp only [lastVal, List.foldl_cons]
    rw [ih, ih (if k = p.1 then some p.2 else none)]
    cases h : lastVal t k with
    | some v => simp
    | none => split <;> simp

theorem lastVal_cons (p : Str × V) (t : List (Str × V)) (k : Str) :
    lastVal (p :: t) k = (lastVal t k).or (if k = p.1 then some p.2 else none) := by
  conv => lhs; unfold lastVal
  rw [List.foldl_cons, foldl_last_acc]

@[simp] theorem lastVal_nil (k : Str) : lastVal ([] : List (Str × V)) k = none := rfl

theorem get_insertAll (m : FMap V) (l : List (Str × V)) (k : Str) :
    (m.insertAll l).get k = (lastVal l k).or (m.get k) := by
  induction l generalizing m with
  | nil => simp
  | cons p t ih =>
    rw [insertAll_cons, ih, get_insert, lastVal_cons]
    cases lastVal t k with
    | some v => simp
    | none => split <;> simp

theorem lastVal_eq_none {l : List (Str × V)} {k : Str} :
    lastVal l k = none ↔ ∀ p ∈ l, p.1 ≠ k := by
  induction l with
  | nil => simp
  | cons p t ih =>
    rw [lastVal_cons]
    simp only [Option.or_eq_none_iff, ih, List.mem_cons, forall_eq_or_imp]
    constructor
    · rintro ⟨h1, h2⟩
      refine ⟨?_, h1⟩
      intro e; simp [e.symm] at h2
    · rintro ⟨h1, h2⟩
      exact ⟨h2, if_neg (fun e => h1 e.symm)⟩

theorem mem_of_lastVal {l : List (Str × V)} {k : Str} {v : V} (h : lastVal l k = some v) :
    (k, v) ∈ l := by
  induction l with
  | nil => simp at h
  | cons p t ih =>
    rw [lastVal_cons] at h
    cases ht : lastVal t k with
    | some w =>
      rw [ht] at h; simp at h; subst h
      exact List.mem_cons_of_mem _ (ih ht)
    | none =>
      rw [ht] at h
      simp only [Option.none_or] at h
      split at h
      · next e => injection h with h; subst e; subst h; exact List.mem_cons_self ..
      · cases h

theorem lastVal_of_nodup {l : List (Str × V)} (hn : (l.map (·.1)).Nodup) {k : Str} {v : V} :
    lastVal l k = some v ↔ (k, v) ∈ l := by
  refine ⟨mem_of_lastVal, ?_⟩
  induction l with
  | nil => simp
  | cons p t ih =>
    simp only [List.map_cons, List.nodup_cons] at hn
    intro hm
    rw [lastVal_cons]
    rcases List.mem_cons.mp hm with hm | hm
    · subst hm
      have : lastVal t k = none := by
        rw [lastVal_eq_none]
        intro q hq e
        exact hn.1 (List.mem_map.mpr ⟨q, hq, e⟩)
      simp [this]
    · rw [ih hn.2 hm]; simp

/-- Collecting the entries of a map in any order gives the map back. -/
theorem lastVal_perm (m : FMap V) {l : List (Str × V)} (h : l.Perm m.l) (k : Str) :
    lastVal l k = m.get k := by
  have hn : (l.map (·.1)).Nodup := (h.map _).nodup_iff.mpr m.keys_nodup
  apply Option.ext
  intro v
  rw [lastVal_of_nodup hn, get_eq_some_iff]
  exact h.mem_iff

theorem insertAll_perm (m m' : FMap V) {l : List (Str × V)} (h : l.Perm m'.l) :
    m.insertAll l = m.insertAll m'.l := by
  ext k : 1
  rw [get_insertAll, get_insertAll, lastVal_perm m' h, lastVal_perm m' (List.Perm.refl _)]

theorem ofList_perm (m : FMap V) {l : List (Str × V)} (h : l.Perm m.l) : ofList l = m := by
  ext k : 1
  unfold ofList
  rw [get_insertAll, lastVal_perm m h]; simp

end FMap

/-! ## Insertion ordered maps (`IndexMap<String, V>`) -/

/-- `IndexMap::insert`: overwrite in place, or append. -/
def imInsert {V : Type} (k : Str) (v : V) : List (Str × V) → List (Str × V)
  | [] => [(k, v)]
  | (k', v') :: t => if k = k' then (k, v) :: t else (k', v') :: imInsert k v t

/-- `IndexMap::get`. -/
def imGet {V : Type} (k : Str) (l : List (Str × V)) : Option V := FMap.lget k l

/-- `IndexMap::contains_key`. -/
def imHas {V : Type} (k : Str) (l : List (Str × V)) : Bool := (imGet k l).isSome

/-- `IndexMap::extend`. -/
def imExtend {V : Type} (l l' : List (Str × V)) : List (Str × V) :=
  l'.foldl (fun acc p => imInsert p.1 p.2 acc) l

/-- `IndexMap::retain(|k, _| !p(k))`, or `remove` followed by reading entries (order aside). -/
def imDrop {V : Type} (p : Str → Bool) (l : List (Str × V)) : List (Str × V) :=
  l.filter (fun q => !p q.1)

theorem imGet_imInsert {V : Type} (k k' : Str) (v : V) (l : List (Str × V)) :
    imGet k' (imInsert k v l) = if k' = k then some v else imGet k' l := by
  unfold imGet
  induction l with
  | nil => simp [imInsert, FMap.lget]
  | cons p t ih =>
    obtain ⟨a, b⟩ := p
    simp only [imInsert]
    split
    · next h => subst h; simp only [FMap.lget]; split <;> rfl
    · next h =>
      simp only [FMap.lget, ih]
      by_cases h1 : k' = a
      · subst h1
        have : k' ≠ k := fun e => h e.symm
        simp [this]
      · simp [h1]

theorem imGet_imExtend {V : Type} (l l' : List (Str × V)) (k : Str) :
    imGet k (imExtend l l') = (FMap.lastVal l' k).or (imGet k l) := by
  unfold imExtend
  induction l' generalizing l with
  | nil => simp
  | cons p t ih =>
    rw [List.foldl_cons, ih, imGet_imInsert, FMap.lastVal_cons]
    cases FMap.lastVal t k with
    | some v => simp
    | none => split <;> simp

theorem imGet_imDrop {V : Type} (p : Str → Bool) (l : List (Str × V)) (k : Str) :
    imGet k (imDrop p l) = if p k then none else imGet k l := by
  unfold imGet imDrop
  induction l with
  | nil => simp [FMap.lget]
  | cons q t ih =>
    obtain ⟨a, b⟩ := q
    simp only [List.filter_cons]
    by_cases hp : p a
    · simp only [hp, Bool.not_true, Bool.false_eq_true, if_false, ih, FMap.lget]
      by_cases hk : k = a
      · subst hk; simp [hp]
      · simp [hk]
    · simp only [hp, Bool.not_false, if_true, FMap.lget, ih]
      by_cases hk : k = a
      · subst hk; simp [hp]
      · simp [hk]

theorem imHas_iff_mem {V : Type} (k : Str) (l : List (Str × V)) :
    imHas k l = true ↔ k ∈ l.map (·.1) := by
  unfold imHas imGet
  induction l with
  | nil => simp [FMap.lget]
  | cons p t ih =>
    simp only [FMap.lget, List.map_cons, List.mem_cons]
    split
    · next h => simp [h]
    · next h => rw [ih]; simp [h]

/-! ## Hash-map iteration order -/

/-- The order in which a `HashMap` is iterated. Rust gives every map instance its own random
hasher, so the order may differ per loop (`site`, the source line of the loop) and per map (`ctx`,
e.g. the attribute whose map is iterated, as a path); only that it is a permutation of the entries is known. -/
structure Order where
  iter : (site : Nat) → (ctx : List Str) → {V : Type} → FMap V → List (Str × V)
  perm : ∀ site ctx {V : Type} (m : FMap V), (iter site ctx m).Perm m.l

/-- One possible order: sorted. -/
def Order.sorted : Order := ⟨fun _ _ _ m => m.l, fun _ _ _ _ => List.Perm.refl _⟩

/-- Another possible order: reverse sorted. -/
def Order.reversed : Order := ⟨fun _ _ _ m => m.l.reverse, fun _ _ _ m => List.reverse_perm m.l⟩

/-- reading a list from the end -/
theorem snoc_ind {α : Type} {P : List α → Prop} (h0 : P []) (h1 : ∀ l a, P l → P (l ++ [a])) (l : List α) : P l := by
  have : ∀ l : List α, P l.reverse := by
    intro l
    induction l with
    | nil => exact h0
    | cons a t ih => rw [List.reverse_cons]; exact h1 _ _ ih
  have h := this l.reverse
  rwa [List.reverse_reverse] at h

end OCA
