import Verif.Props.Portable
import Verif.Props.ExportTextExample
/-!
# C72 on concrete facades
-/
namespace OCA
open Peg Gr

theorem words_short : Env.words.ShortSaids := by
  intro s hs
  obtain ⟨-, h2, h3⟩ := of_decide_eq_true hs
  have hc : ∀ c ∈ s, c.val < 128 ∧ c ≠ '.' := by
    intro c hc
    have h := h3 c hc
    have hd : c ≠ '.' := by rintro rfl; exact absurd h (by decide)
    refine ⟨?_, hd⟩
    simp only [Char.isAlphanum, Char.isAlpha, Char.isUpper, Char.isLower, Char.isDigit, Bool.or_eq_true, Bool.and_eq_true, decide_eq_true_eq] at h
    rcases h with (h | h) | h <;> exact UInt32.lt_of_le_of_lt h.2 (by decide)
  refine ⟨?_, ?_⟩
  · rw [utf8_ascii _ fun c h => (hc c h).1, h2]
    decide
  · rintro t rfl
    exact (hc '.' (by simp [metaKey])).2 rfl

theorem Facade.TextBuilt.anyRuns {E : Env} {U : Uni} {S : Serde} {f : Facade} {l : List Build} (h : f.TextBuilt E U S l) : f.AnyRuns E S := by
  have key : ∀ {f : Facade} {Os : Nat → Order} {s : Str} {x : Facade × Build}, f.validateText E U S Os s = .ok x →
      ∃ ls, f.validate E S Os ls = .ok x := by
    intro f Os s x h
    rcases C56_text_is_lines E U S Os f s with ⟨-, e, -⟩ | ⟨ls, -, -, e, -⟩
    · rw [h] at e; cases e
    · exact ⟨ls, by rw [← e]; exact h⟩
  induction h with
  | new => exact .new
  | validated _ hv ih => obtain ⟨ls, e⟩ := key hv; exact .validated ih e
  | built _ _ hv _ hb ih => obtain ⟨ls, e⟩ := key hv; exact .built ih e hb

/-- **C72**, a concrete case: a bundle built in two files on one facade, carried to a facade on which two other files (the second
of which is built on a bundle both know) were built. -/
theorem C72_example : ∃ (A B B2 : Facade) (bs bs' : List Build) (s : Said) (text : Str) (b : Build),
    A.TextBuilt Env.words Uni.ascii Serde.text bs ∧ bs.length = 2 ∧ B.TextBuilt Env.words Uni.ascii Serde.text bs' ∧ bs'.length = 2 ∧
    A.bundleFile Env.words Serde.text 20 s false = some (.ok text) ∧
    B.validateText Env.words Uni.ascii Serde.text (fun _ => Order.reversed) text = .ok (B, b) ∧
    (B.build Env.words Serde.text .kept b : Res (List VErr) _) = .ok B2 ∧
    B2.cache.get .bundlesJson s = A.cache.get .bundlesJson s ∧ ∃ l', B2.HasHistory Env.words Serde.text s l' ∧ l'.length = 4 := by
  obtain ⟨A, b1, b2, s, l, text, h1, h2, h3, -, h5, h6, h7, h8, h9⟩ := chainCheck_sound chain_new
  obtain ⟨B, d1, d2, -, -, -, k1, -⟩ := chainCheck_sound chain_again
  have hacc : AcceptedSeq (l.map (·.command)) := by
    obtain ⟨text', g1, g2⟩ := C57_file_of_any_history Env.words Uni.ascii (fun _ => rfl) words_word Serde.text
      (by decide +kernel) A _ h1 h2 h3 20 s l h5 h7 false
    rw [h8] at g1
    cases g1
    rcases g2 with ⟨-, e, he⟩ | ⟨h, -⟩
    · rw [he] at h9; cases h9
    · exact h
  obtain ⟨text', B1, B2, b, e1, e2, e3, e4, e5, e6, l', e7, e8, e9, -⟩ := C72_portable Env.words Uni.ascii (fun _ => rfl) words_word Serde.text
    (by decide +kernel) words_short A _ h1 h2 h3 20 s l h5 h7 hacc false B k1.anyRuns (fun _ => Order.reversed) .kept
  rw [h8] at e1
  cases e1
  subst e4
  have hl' : l'.length = 4 := by
    have := congrArg List.length e8
    simpa [h6] using this
  exact ⟨A, B1, B2, _, _, s, text, b, h1, rfl, k1, rfl, h8, e2, e3, e6, l', e7, hl'⟩

end OCA
