import Verif.Model.Ast
/-!
# Helper lemmas on texts
-/
namespace OCA

theorem stripPrefix_eq_some {p s r : Str} : stripPrefix p s = some r ↔ s = p ++ r := by
  induction p generalizing s with
  | nil => simp [stripPrefix]
  | cons a p ih =>
    cases s with
    | nil => simp [stripPrefix]
    | cons b s =>
      simp only [stripPrefix, List.cons_append, List.cons.injEq]
      split
      · next h => subst h; rw [ih]; simp
      · next h => simp only [reduceCtorEq, false_iff]; rintro ⟨e, _⟩; exact h e.symm

theorem stripPrefix_append (p r : Str) : stripPrefix p (p ++ r) = some r :=
  stripPrefix_eq_some.mpr rfl

theorem splitOnce_eq_none {c : Char} {s : Str} : splitOnce c s = none ↔ c ∉ s := by
  induction s with
  | nil => simp [splitOnce]
  | cons a s ih =>
    simp only [splitOnce]
    split
    · next h => simp [h]
    · next h =>
      simp only [Option.map_eq_none_iff, ih, List.mem_cons, not_or]
      exact ⟨fun h' => ⟨fun e => h e.symm, h'⟩, fun h' => h'.2⟩

theorem splitOnce_eq_some {c : Char} {s a b : Str} :
    splitOnce c s = some (a, b) ↔ s = a ++ c :: b ∧ c ∉ a := by
  induction s generalizing a b with
  | nil => simp [splitOnce]
  | cons x s ih =>
    simp only [splitOnce]
    split
    · next h =>
      subst h
      constructor
      · intro e; injection e with e; injection e with e1 e2; subst e1; subst e2; simp
      · rintro ⟨e, hn⟩
        cases a with
        | nil => simp at e; simp [e]
        | cons y a => simp at e; exact absurd (by simp [e.1]) hn
    · next h =>
      simp only [Option.map_eq_some_iff, Prod.mk.injEq, Prod.exists]
      constructor
      · rintro ⟨a', b', hs, rfl, rfl⟩
        obtain ⟨rfl, hn⟩ := ih.mp hs
        refine ⟨rfl, ?_⟩
        simp only [List.mem_cons, not_or]
        exact ⟨fun e => h e.symm, hn⟩
      · rintro ⟨e, hn⟩
        cases a with
        | nil => simp at e; exact absurd e.1 h
        | cons y a =>
          simp only [List.cons_append, List.cons.injEq] at e
          obtain ⟨rfl, rfl⟩ := e
          exact ⟨a, b, ih.mpr ⟨rfl, fun hm => hn (List.mem_cons_of_mem _ hm)⟩, rfl, rfl⟩

theorem splitOnce_append {c : Char} {a : Str} (b : Str) (h : c ∉ a) :
    splitOnce c (a ++ c :: b) = some (a, b) := splitOnce_eq_some.mpr ⟨rfl, h⟩

/-- association list lookup in a table with an entry -/
theorem lget_mem {V : Type} {k : Str} {v : V} {l : List (Str × V)} (h : FMap.lget k l = some v) :
    (k, v) ∈ l := by
  induction l with
  | nil => cases h
  | cons p t ih =>
    simp only [FMap.lget] at h
    split at h
    · next e => injection h with h; subst e; subst h; exact List.mem_cons_self ..
    · exact List.mem_cons_of_mem _ (ih h)

end OCA
