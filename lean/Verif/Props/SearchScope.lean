import Verif.Props.Search
/-!
# C67: the text a search looks for in a record to find its scope
-/
namespace OCA

theorem splitGo_step (pat : Str) (n : Nat) (c : Char) (t acc : Str) : splitStr.go pat (n + 1) (c :: t) acc =
    (match stripPrefix pat (c :: t) with
    | some r => acc.reverse :: splitStr.go pat n r []
    | none => splitStr.go pat n t (c :: acc)) := rfl

theorem splitGo_join (s : Str) (acc : Str) (n : Nat) (hn : s.length ≤ n) :
    joinDots (splitStr.go c!"..." n s acc) = acc.reverse ++ s ∧ splitStr.go c!"..." n s acc ≠ [] := by
  induction n generalizing s acc with
  | zero =>
    cases s with
    | nil => simp [splitStr.go, joinDots]
    | cons c t => cases hn
  | succ n ih =>
    cases s with
    | nil => simp [splitStr.go, joinDots]
    | cons c t =>
      unfold splitStr.go
      cases h : stripPrefix c!"..." (c :: t) with
      | none =>
        have := ih t (c :: acc) (by simpa using hn)
        simpa using this
      | some r =>
        have e := stripPrefix_eq_some.1 h
        obtain ⟨h1, h2⟩ := ih r [] (by
          have : (c :: t).length = r.length + 3 := by rw [e]; simp
          simp at this hn; omega)
        refine ⟨?_, by simp⟩
        cases hg : splitStr.go c!"..." n r [] with
        | nil => exact absurd hg h2
        | cons y l =>
          rw [hg] at h1
          dsimp only
          rw [hg]
          show acc.reverse ++ c!"..." ++ joinDots (y :: l) = _
          rw [h1, e]; simp

/-- the first part is empty only if the text is or begins with the pattern -/
theorem splitGo_first (s : Str) (acc : Str) (n : Nat) (hn : s.length ≤ n) (l : List Str) (h : splitStr.go c!"..." n s acc = [] :: l) :
    acc = [] ∧ (s = [] ∨ ∃ r, s = c!"..." ++ r) := by
  induction n generalizing s acc with
  | zero =>
    cases s with
    | nil => simp [splitStr.go] at h; exact ⟨h.1, .inl rfl⟩
    | cons c t => cases hn
  | succ n ih =>
    cases s with
    | nil => simp [splitStr.go] at h; exact ⟨h.1, .inl rfl⟩
    | cons c t =>
      unfold splitStr.go at h
      cases hs : stripPrefix c!"..." (c :: t) with
      | none =>
        rw [hs] at h
        have := (ih t (c :: acc) (by simpa using hn) h).1
        cases this
      | some r =>
        rw [hs] at h
        have := (List.cons.inj h).1
        exact ⟨by simpa using this, .inr ⟨r, stripPrefix_eq_some.1 hs⟩⟩

/-- the last part is empty only if the text is or ends with the pattern -/
theorem splitGo_last (s : Str) (acc : Str) (n : Nat) (hn : s.length ≤ n) (h : (splitStr.go c!"..." n s acc).getLast? = some []) :
    (acc = [] ∧ s = []) ∨ ∃ r, s = r ++ c!"..." := by
  induction n generalizing s acc with
  | zero =>
    cases s with
    | nil => simp [splitStr.go] at h; exact .inl ⟨h, rfl⟩
    | cons c t => cases hn
  | succ n ih =>
    cases s with
    | nil => simp [splitStr.go] at h; exact .inl ⟨h, rfl⟩
    | cons c t =>
      unfold splitStr.go at h
      cases hs : stripPrefix c!"..." (c :: t) with
      | none =>
        rw [hs] at h
        rcases ih t (c :: acc) (by simpa using hn) h with ⟨h1, -⟩ | ⟨r, rfl⟩
        · cases h1
        · exact .inr ⟨c :: r, rfl⟩
      | some r =>
        rw [hs] at h
        have e := stripPrefix_eq_some.1 hs
        have hl : r.length ≤ n := by
          have : (c :: t).length = r.length + 3 := by rw [e]; simp
          simp at this hn; omega
        have hne := (splitGo_join r [] n hl).2
        dsimp only at h
        rw [List.getLast?_cons_of_ne_nil hne] at h
        rcases ih r [] hl h with ⟨-, h1⟩ | ⟨q, rfl⟩
        · exact .inr ⟨[], by rw [e, h1]; rfl⟩
        · exact .inr ⟨c!"..." ++ q, by rw [e]; simp⟩

/-- a text without the first character of the pattern is one part -/
theorem splitGo_none (p : Char) (pat s acc : Str) (n : Nat) (hn : s.length ≤ n) (h : p ∉ s) :
    splitStr.go (p :: pat) n s acc = [acc.reverse ++ s] := by
  induction n generalizing s acc with
  | zero =>
    cases s with
    | nil => simp [splitStr.go]
    | cons c t => cases hn
  | succ n ih =>
    cases s with
    | nil => simp [splitStr.go]
    | cons c t =>
      unfold splitStr.go
      have hc : p ≠ c := fun e => h (e ▸ List.mem_cons_self ..)
      have : stripPrefix (p :: pat) (c :: t) = none := by
        cases e : stripPrefix (p :: pat) (c :: t) with
        | none => rfl
        | some r => exact absurd (List.cons.inj (stripPrefix_eq_some.1 e)).1.symm hc
      rw [this]
      dsimp only
      rw [ih t (c :: acc) (by simpa using hn) (fun hx => h (.tail _ hx))]
      simp

/-- a text up to the first occurrence of the pattern -/
theorem splitGo_at (p : Char) (pat a r acc : Str) (n : Nat) (hn : (a ++ p :: pat ++ r).length ≤ n) (h : p ∉ a) :
    ∃ m, r.length ≤ m ∧ splitStr.go (p :: pat) n (a ++ p :: pat ++ r) acc = (acc.reverse ++ a) :: splitStr.go (p :: pat) m r [] := by
  induction a generalizing acc n with
  | nil =>
    cases n with
    | zero => simp at hn
    | succ n =>
      refine ⟨n, by simp at hn; omega, ?_⟩
      show splitStr.go (p :: pat) (n + 1) (p :: (pat ++ r)) acc = _
      have : stripPrefix (p :: pat) (p :: (pat ++ r)) = some r := stripPrefix_append (p :: pat) r
      rw [splitGo_step, this]
      simp
  | cons c t ih =>
    cases n with
    | zero => simp at hn
    | succ n =>
      have hc : p ≠ c := fun e => h (e ▸ List.mem_cons_self ..)
      show ∃ m, _ ∧ splitStr.go (p :: pat) (n + 1) (c :: (t ++ p :: pat ++ r)) acc = _
      have : stripPrefix (p :: pat) (c :: (t ++ p :: pat ++ r)) = none := by
        cases e : stripPrefix (p :: pat) (c :: (t ++ p :: pat ++ r)) with
        | none => rfl
        | some r' => exact absurd (List.cons.inj (stripPrefix_eq_some.1 e)).1.symm hc
      rw [splitGo_step, this]
      obtain ⟨m, h1, h2⟩ := ih (c :: acc) n (by simp at hn ⊢; omega) (fun hx => h (.tail _ hx))
      refine ⟨m, h1, ?_⟩
      dsimp only
      rw [h2]
      simp

/-- removing a pattern where its first character occurs once -/
theorem removeStr_once (p : Char) (pat a b : Str) (ha : p ∉ a) (hb : p ∉ b) : removeStr (p :: pat) (a ++ p :: pat ++ b) = a ++ b := by
  unfold removeStr splitStr
  obtain ⟨m, h1, h2⟩ := splitGo_at p pat a b [] _ (Nat.le_refl _) ha
  rw [h2, splitGo_none p pat b [] m h1 hb]
  simp

/-- one mark is removed -/
theorem unmarked (a m b : Str) (ha : '<' ∉ a) (hm : '<' ∉ m) (hb : '<' ∉ b) :
    removeStr c!"</mark>" (removeStr c!"<mark>" (a ++ c!"<mark>" ++ m ++ c!"</mark>" ++ b)) = a ++ m ++ b := by
  have h1 : removeStr c!"<mark>" (a ++ c!"<mark>" ++ m ++ c!"</mark>" ++ b) = a ++ m ++ c!"</mark>" ++ b := by
    unfold removeStr splitStr
    have e : a ++ c!"<mark>" ++ m ++ c!"</mark>" ++ b = a ++ '<' :: c!"mark>" ++ (m ++ c!"</mark>" ++ b) := by simp
    obtain ⟨k, h1, h2⟩ := splitGo_at '<' c!"mark>" a (m ++ c!"</mark>" ++ b) [] _ (Nat.le_refl _) ha
    rw [e, show c!"<mark>" = '<' :: c!"mark>" from rfl, h2]
    have rest : ∀ (s acc : Str) (n : Nat), s.length ≤ n → '<' ∉ s → ∀ k r, (s ++ '<' :: '/' :: r).length ≤ k → '<' ∉ r →
        (splitStr.go ('<' :: c!"mark>") k (s ++ '<' :: '/' :: r) acc).flatten = acc.reverse ++ s ++ '<' :: '/' :: r := by
      intro s acc n hn hs k r hk hr
      induction s generalizing acc k n with
      | nil =>
        cases k with
        | zero => simp at hk
        | succ k =>
          show (splitStr.go ('<' :: c!"mark>") (k + 1) ('<' :: '/' :: r) acc).flatten = _
          unfold splitStr.go
          rw [show stripPrefix ('<' :: c!"mark>") ('<' :: '/' :: r) = none from rfl]
          dsimp only
          rw [splitGo_none '<' c!"mark>" ('/' :: r) ('<' :: acc) k (by simp at hk ⊢; omega) (by simp [hr])]
          simp
      | cons c t ih =>
        cases k with
        | zero => simp at hk
        | succ k =>
          have hc : ¬ '<' = c := fun e => hs (e ▸ List.mem_cons_self ..)
          show (splitStr.go ('<' :: c!"mark>") (k + 1) (c :: (t ++ '<' :: '/' :: r)) acc).flatten = _
          unfold splitStr.go
          have : stripPrefix ('<' :: c!"mark>") (c :: (t ++ '<' :: '/' :: r)) = none := by
            cases e : stripPrefix ('<' :: c!"mark>") (c :: (t ++ '<' :: '/' :: r)) with
            | none => rfl
            | some r' => exact absurd (List.cons.inj (stripPrefix_eq_some.1 e)).1.symm hc
          rw [this]
          dsimp only
          rw [ih (c :: acc) t.length (Nat.le_refl _) (fun hx => hs (.tail _ hx)) k (by simp at hk ⊢; omega)]
          simp
    have := rest m [] m.length (Nat.le_refl _) hm k (c!"mark>" ++ b) (by simp at h1 ⊢; omega) (by simp [hb])
    rw [List.flatten_cons, show m ++ c!"</mark>" ++ b = m ++ '<' :: '/' :: (c!"mark>" ++ b) by simp, this]
    simp
  rw [h1]
  have := removeStr_once '<' c!"/mark>" (a ++ m) b (by simp [ha, hm]) hb
  simpa using this

/-- **C67** What is looked for, when the snippet shows the whole text: the text itself, without the marks (as a pattern, with nothing escaped). -/
theorem C67_scope_text_whole (a m b : Str) (ha : '<' ∉ a) (hm : '<' ∉ m) (hb : '<' ∉ b) (hne : a ++ m ++ b ≠ [])
    (h1 : ¬ ∃ r, a ++ m ++ b = c!"..." ++ r) (h2 : ¬ ∃ r, a ++ m ++ b = r ++ c!"...") :
    scopeText (a ++ c!"<mark>" ++ m ++ c!"</mark>" ++ b) = some (a ++ m ++ b) := by
  unfold scopeText
  rw [unmarked a m b ha hm hb]
  generalize hu : a ++ m ++ b = u at *
  obtain ⟨hj, hn⟩ := splitGo_join u [] u.length (Nat.le_refl _)
  have hf : ∀ l, splitStr c!"..." u ≠ [] :: l := by
    intro l e
    rcases (splitGo_first u [] u.length (Nat.le_refl _) l e).2 with h | ⟨r, h⟩
    · exact hne h
    · exact h1 ⟨r, h⟩
  have hl : (splitStr c!"..." u).getLast? ≠ some [] := by
    intro e
    rcases splitGo_last u [] u.length (Nat.le_refl _) e with ⟨-, h⟩ | ⟨r, h⟩
    · exact hne h
    · exact h2 ⟨r, h⟩
  have hj' : joinDots (splitStr c!"..." u) = u := by simpa [splitStr] using hj
  have hn' : splitStr c!"..." u ≠ [] := hn
  generalize splitStr c!"..." u = v at *
  cases v with
  | nil => exact absurd rfl hn'
  | cons x l =>
    cases x with
    | nil => exact absurd rfl (hf l)
    | cons c x =>
      dsimp only
      cases hg : ((c :: x) :: l).getLast? with
      | none => simp at hg
      | some y =>
        cases y with
        | nil => exact absurd hg hl
        | cons d y => dsimp only; rw [hj']

/-- **C67** What is looked for, when the snippet is cut off (`...`) at an end: there anything may come before, or after. -/
theorem C67_scope_text_cut (a m b : Str) (ha : '<' ∉ a ∧ '.' ∉ a) (hm : '<' ∉ m ∧ '.' ∉ m) (hb : '<' ∉ b ∧ '.' ∉ b) (hne : a ++ m ++ b ≠ []) :
    scopeText (c!"..." ++ a ++ c!"<mark>" ++ m ++ c!"</mark>" ++ b ++ c!"...") = some (c!".*" ++ (a ++ m ++ b) ++ c!".*") ∧
    scopeText (c!"..." ++ a ++ c!"<mark>" ++ m ++ c!"</mark>" ++ b) = some (c!".*" ++ (a ++ m ++ b)) ∧
    scopeText (a ++ c!"<mark>" ++ m ++ c!"</mark>" ++ b ++ c!"...") = some ((a ++ m ++ b) ++ c!".*") := by
  have hdot : '.' ∉ a ++ m ++ b := by simp [ha.2, hm.2, hb.2]
  have split0 : ∀ u : Str, '.' ∉ u → ∀ k, u.length ≤ k → splitStr.go c!"..." k u [] = [u] := by
    intro u hu k hk
    have := splitGo_none '.' c!".." u [] k hk hu
    simpa using this
  have split1 : ∀ u : Str, '.' ∉ u → ∀ k, (u ++ c!"...").length ≤ k → splitStr.go c!"..." k (u ++ c!"...") [] = [u, []] := by
    intro u hu k hk
    obtain ⟨m, h1, h2⟩ := splitGo_at '.' c!".." u [] [] k (by simpa using hk) hu
    rw [split0 [] (by simp) m h1] at h2
    simpa using h2
  have split2 : ∀ r : Str, ∃ k, r.length ≤ k ∧ splitStr c!"..." (c!"..." ++ r) = [] :: splitStr.go c!"..." k r [] := by
    intro r
    obtain ⟨m, h1, h2⟩ := splitGo_at '.' c!".." [] r [] _ (Nat.le_refl _) (by simp)
    exact ⟨m, h1, h2⟩
  have hl : '<' ∉ c!"..." ++ a := by simp [ha.1]
  have hr : '<' ∉ b ++ c!"..." := by simp [hb.1]
  refine ⟨?_, ?_, ?_⟩
  · unfold scopeText
    have := unmarked (c!"..." ++ a) m (b ++ c!"...") hl hm.1 hr
    rw [show c!"..." ++ a ++ c!"<mark>" ++ m ++ c!"</mark>" ++ b ++ c!"..." = (c!"..." ++ a) ++ c!"<mark>" ++ m ++ c!"</mark>" ++ (b ++ c!"...") by simp, this]
    obtain ⟨k, h1, h2⟩ := split2 (a ++ m ++ b ++ c!"...")
    rw [show c!"..." ++ a ++ m ++ (b ++ c!"...") = c!"..." ++ (a ++ m ++ b ++ c!"...") by simp, h2, split1 _ hdot k h1]
    simp [joinDots]
  · unfold scopeText
    have := unmarked (c!"..." ++ a) m b hl hm.1 hb.1
    rw [this]
    obtain ⟨k, h1, h2⟩ := split2 (a ++ m ++ b)
    rw [show c!"..." ++ a ++ m ++ b = c!"..." ++ (a ++ m ++ b) by simp, h2, split0 _ hdot k h1]
    simp [joinDots]
  · unfold scopeText
    have := unmarked a m (b ++ c!"...") ha.1 hm.1 hr
    rw [show a ++ c!"<mark>" ++ m ++ c!"</mark>" ++ b ++ c!"..." = a ++ c!"<mark>" ++ m ++ c!"</mark>" ++ (b ++ c!"...") by simp, this]
    rw [show a ++ m ++ (b ++ c!"...") = (a ++ m ++ b) ++ c!"..." by simp]
    unfold splitStr
    rw [split1 _ hdot _ (Nat.le_refl _)]
    generalize a ++ m ++ b = u at *
    cases u with
    | nil => exact absurd rfl hne
    | cons c t => simp [joinDots]

/-- a snippet with an ellipsis inside the text, and one that is cut off -/
example : scopeText c!"well... a <mark>form</mark> it is" = some c!"well... a form it is" ∧
    scopeText c!"...of a <mark>form</mark>..." = some c!".*of a form.*" := by decide +kernel

end OCA
