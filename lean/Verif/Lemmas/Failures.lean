import Verif.Model.Failures
import Verif.Lemmas.Threads
/-! Writes that fail: the program when none does; programs that need every write, programs that need none, and `add_relations`. -/
namespace OCA
namespace Attempt
variable {α β : Type}

/-! ## When every write succeeds -/

theorem undisturbed_of (r : Res Str α) : (Attempt.of r).undisturbed = Prog.of r := rfl
theorem undisturbed_pure (a : α) : (pure a : Attempt α).undisturbed = (pure a : Prog α) := rfl
theorem undisturbed_look (g : Store → Res Str α) : (look g).undisturbed = Prog.look g := rfl
theorem undisturbed_must (w : Write) : (must w).undisturbed = Prog.emit w := rfl
theorem undisturbed_ask (w : Write) : (ask w).undisturbed = Prog.emit w := rfl
theorem undisturbed_may (w : Write) : (may w).undisturbed = Prog.emit w := rfl

theorem undisturbed_bind (m : Attempt α) (k : α → Attempt β) : (m >>= k).undisturbed = m.undisturbed >>= fun a => (k a).undisturbed := by
  show (m.andThen k).undisturbed = Prog.next m.undisturbed fun a => (k a).undisturbed
  funext f
  induction m generalizing f with
  | done r =>
    cases r with
    | ok a => rfl
    | err e => rfl
    | panic => rfl
  | read c ih => exact ih _ f
  | put w c ih =>
    show (w :: (((c true).andThen k).undisturbed (f.write w)).1, (((c true).andThen k).undisturbed (f.write w)).2) = _
    rw [ih true (f.write w)]
    unfold Prog.next
    show _ = (match ((w :: ((c true).undisturbed (f.write w)).1, ((c true).undisturbed (f.write w)).2) : List Write × Res Str α) with
      | (ws, .ok a) => _
      | (ws, .err e) => _
      | (ws, .panic) => _)
    rcases (c true).undisturbed (f.write w) with ⟨ws, r⟩
    cases r <;> rfl

theorem undisturbed_ignore (m : Attempt Unit) : m.ignore.undisturbed = Prog.ignore m.undisturbed := by
  funext f
  induction m generalizing f with
  | done r => cases r <;> rfl
  | read c ih => exact ih _ f
  | put w c ih =>
    show (w :: ((c true).ignore.undisturbed (f.write w)).1, ((c true).ignore.undisturbed (f.write w)).2) = _
    rw [ih true (f.write w)]
    unfold Prog.ignore
    show _ = (match ((w :: ((c true).undisturbed (f.write w)).1, ((c true).undisturbed (f.write w)).2) : List Write × Res Str Unit) with
      | (ws, .err _) => _
      | r => r)
    rcases (c true).undisturbed (f.write w) with ⟨ws, r⟩
    cases r <;> rfl

theorem undisturbed_each {g : α → Attempt Unit} {h : α → Prog Unit} (hg : ∀ a, (g a).undisturbed = h a) (l : List α) :
    (Attempt.each g l).undisturbed = Prog.each h l := by
  induction l with
  | nil => rfl
  | cons a t ih =>
    show (g a >>= fun _ => Attempt.each g t).undisturbed = (h a >>= fun _ => Prog.each h t)
    rw [undisturbed_bind, hg, ih]

/-- Trying writes that all succeed is running undisturbed. -/
theorem tries_all (m : Attempt α) (f : Facade) (ws : List Write) (r : Res Str α) :
    m.Tries f (ws.map fun w => (w, true)) r ↔ m.undisturbed f = (ws, r) := by
  induction m generalizing f ws r with
  | done x =>
    constructor
    · intro h
      generalize hl : (ws.map fun w => (w, true)) = l at h
      cases h
      cases ws with
      | nil => rfl
      | cons w t => cases hl
    · intro h
      cases h
      exact .done f x
  | read c ih =>
    constructor
    · intro h
      generalize hl : (ws.map fun w => (w, true)) = l at h
      cases h with
      | read h => subst hl; exact (ih _ _ _ _).1 h
    · intro h
      exact .read ((ih _ _ _ _).2 h)
  | put w c ih =>
    constructor
    · intro h
      generalize hl : (ws.map fun w => (w, true)) = l at h
      cases h with
      | lands h =>
        cases ws with
        | nil => cases hl
        | cons x t =>
          obtain ⟨e1, e2⟩ := List.cons.inj hl
          cases e1
          subst e2
          have := (ih true (f.write w) t r).1 h
          show (w :: ((c true).undisturbed (f.write w)).1, ((c true).undisturbed (f.write w)).2) = _
          rw [this]
      | fails h =>
        cases ws with
        | nil => cases hl
        | cons x t => cases (List.cons.inj hl).1
    · intro h
      have h : (w :: ((c true).undisturbed (f.write w)).1, ((c true).undisturbed (f.write w)).2) = (ws, r) := h
      cases h
      exact .lands ((ih true (f.write w) _ _).2 rfl)

/-! ## One after the other -/

theorem landed_append (a b : List (Write × Bool)) : landed (a ++ b) = landed a ++ landed b := List.filterMap_append

theorem landed_all (ws : List Write) : landed (ws.map fun w => (w, true)) = ws := by
  unfold landed
  induction ws with
  | nil => rfl
  | cons w t ih => simp only [List.map_cons, List.filterMap_cons, ih]

theorem after_append (f : Facade) (a b : List (Write × Bool)) : f.after (a ++ b) = (f.after a).after b := by
  unfold Facade.after
  rw [landed_append, Facade.writes_append]

theorem mem_landed {l : List (Write × Bool)} {w : Write} : w ∈ landed l ↔ (w, true) ∈ l := by
  unfold landed
  rw [List.mem_filterMap]
  constructor
  · rintro ⟨⟨x, b⟩, hx, h⟩
    cases b with
    | true => cases h; exact hx
    | false => cases h
  · intro h
    exact ⟨_, h, rfl⟩

/-- how two programs run one after the other -/
theorem tries_bind {m : Attempt α} {k : α → Attempt β} {f : Facade} {l : List (Write × Bool)} {r : Res Str β} (h : (m >>= k).Tries f l r) :
    (∃ l1 a l2, l = l1 ++ l2 ∧ m.Tries f l1 (.ok a) ∧ (k a).Tries (f.after l1) l2 r) ∨ (∃ e, r = .err e ∧ m.Tries f l (.err e)) ∨ r = .panic ∧ m.Tries f l .panic := by
  have h : (m.andThen k).Tries f l r := h
  induction m generalizing f l with
  | done x =>
    cases x with
    | ok a => exact .inl ⟨[], a, l, rfl, .done _ _, h⟩
    | err e =>
      have h : (Attempt.done (.err e) : Attempt β).Tries f l r := h
      cases h
      exact .inr (.inl ⟨e, rfl, .done _ _⟩)
    | panic =>
      have h : (Attempt.done .panic : Attempt β).Tries f l r := h
      cases h
      exact .inr (.inr ⟨rfl, .done _ _⟩)
  | read c ih =>
    have h : (Attempt.read fun d => (c d).andThen k).Tries f l r := h
    cases h with
    | read h =>
      rcases ih _ h h with ⟨l1, a, l2, e, h1, h2⟩ | ⟨e, e1, h1⟩ | ⟨e1, h1⟩
      · exact .inl ⟨l1, a, l2, e, .read h1, h2⟩
      · exact .inr (.inl ⟨e, e1, .read h1⟩)
      · exact .inr (.inr ⟨e1, .read h1⟩)
  | put w c ih =>
    have h : (Attempt.put w fun b => (c b).andThen k).Tries f l r := h
    cases h with
    | lands h =>
      rcases ih _ h h with ⟨l1, a, l2, e, h1, h2⟩ | ⟨e, e1, h1⟩ | ⟨e1, h1⟩
      · exact .inl ⟨(w, true) :: l1, a, l2, by rw [e]; rfl, .lands h1, h2⟩
      · exact .inr (.inl ⟨e, e1, .lands h1⟩)
      · exact .inr (.inr ⟨e1, .lands h1⟩)
    | fails h =>
      rcases ih _ h h with ⟨l1, a, l2, e, h1, h2⟩ | ⟨e, e1, h1⟩ | ⟨e1, h1⟩
      · exact .inl ⟨(w, false) :: l1, a, l2, by rw [e]; rfl, .fails h1, h2⟩
      · exact .inr (.inl ⟨e, e1, .fails h1⟩)
      · exact .inr (.inr ⟨e1, .fails h1⟩)

theorem bind_tries {m : Attempt α} {k : α → Attempt β} {f : Facade} {l1 l2 : List (Write × Bool)} {a : α} {r : Res Str β}
    (h1 : m.Tries f l1 (.ok a)) (h2 : (k a).Tries (f.after l1) l2 r) : (m >>= k).Tries f (l1 ++ l2) r := by
  show (m.andThen k).Tries f (l1 ++ l2) r
  induction m generalizing f l1 with
  | done x =>
    cases h1
    exact h2
  | read c ih =>
    cases h1 with
    | read h1 => exact .read (ih _ h1 h2)
  | put w c ih =>
    cases h1 with
    | lands h1 => exact .lands (ih _ h1 h2)
    | fails h1 => exact .fails (ih _ h1 h2)

theorem tries_ignore {m : Attempt Unit} {f : Facade} {l : List (Write × Bool)} {r : Res Str Unit} (h : m.ignore.Tries f l r) :
    r = .ok () ∧ (m.Tries f l (.ok ()) ∨ ∃ e, m.Tries f l (.err e)) ∨ r = .panic ∧ m.Tries f l .panic := by
  induction m generalizing f l with
  | done x =>
    cases x with
    | ok a => cases h; exact .inl ⟨rfl, .inl (.done _ _)⟩
    | err e => cases h; exact .inl ⟨rfl, .inr ⟨e, .done _ _⟩⟩
    | panic => cases h; exact .inr ⟨rfl, .done _ _⟩
  | read c ih =>
    cases h with
    | read h =>
      rcases ih _ h with ⟨e, h | ⟨x, h⟩⟩ | ⟨e, h⟩
      · exact .inl ⟨e, .inl (.read h)⟩
      · exact .inl ⟨e, .inr ⟨x, .read h⟩⟩
      · exact .inr ⟨e, .read h⟩
  | put w c ih =>
    cases h with
    | lands h =>
      rcases ih _ h with ⟨e, h | ⟨x, h⟩⟩ | ⟨e, h⟩
      · exact .inl ⟨e, .inl (.lands h)⟩
      · exact .inl ⟨e, .inr ⟨x, .lands h⟩⟩
      · exact .inr ⟨e, .lands h⟩
    | fails h =>
      rcases ih _ h with ⟨e, h | ⟨x, h⟩⟩ | ⟨e, h⟩
      · exact .inl ⟨e, .inl (.fails h)⟩
      · exact .inl ⟨e, .inr ⟨x, .fails h⟩⟩
      · exact .inr ⟨e, .fails h⟩

theorem ignore_tries {m : Attempt Unit} {f : Facade} {l : List (Write × Bool)} {e : Str} (h : m.Tries f l (.err e)) : m.ignore.Tries f l (.ok ()) := by
  induction m generalizing f l with
  | done x => cases h; exact .done _ _
  | read c ih => cases h with | read h => exact .read (ih _ h)
  | put w c ih =>
    cases h with
    | lands h => exact .lands (ih _ h)
    | fails h => exact .fails (ih _ h)

/-! ## Programs that need every write -/

/-- reads nothing, and aborts as soon as a write fails -/
def Must : Attempt α → Prop
  | .done _ => True
  | .read _ => False
  | .put _ c => c false = .done .panic ∧ (c true).Must

theorem Must.of (r : Res Str α) : (Attempt.of r).Must := trivial
theorem Must.must (w : Write) : (Attempt.must w).Must := ⟨rfl, trivial⟩
theorem Must.bind {m : Attempt α} {k : α → Attempt β} (hm : m.Must) (hk : ∀ a, (k a).Must) : (m >>= k).Must := by
  show (m.andThen k).Must
  induction m with
  | done x =>
    cases x with
    | ok a => exact hk a
    | err e => trivial
    | panic => trivial
  | read c ih => exact hm.elim
  | put w c ih =>
    refine ⟨?_, ih true hm.2⟩
    show (c false).andThen k = _
    rw [hm.1]
    rfl
theorem Must.each {g : α → Attempt Unit} (h : ∀ a, (g a).Must) (l : List α) : (Attempt.each g l).Must := by
  induction l with
  | nil => trivial
  | cons a t ih => exact (h a).bind fun _ => ih

/-- what it writes depends on nothing -/
theorem Must.blind {m : Attempt α} (hm : m.Must) (f g : Facade) : m.undisturbed f = m.undisturbed g := by
  induction m generalizing f g with
  | done x => rfl
  | read c ih => exact hm.elim
  | put w c ih =>
    show (w :: ((c true).undisturbed (f.write w)).1, ((c true).undisturbed (f.write w)).2) =
      (w :: ((c true).undisturbed (g.write w)).1, ((c true).undisturbed (g.write w)).2)
    rw [ih true hm.2 (f.write w) (g.write w)]

/-- Either all writes succeed, or it aborts at the first one that does not. -/
theorem Must.tries {m : Attempt α} (hm : m.Must) {f f0 : Facade} {ws : List Write} {a : α} (hu : m.undisturbed f0 = (ws, .ok a))
    {l : List (Write × Bool)} {r : Res Str α} (h : m.Tries f l r) :
    r = .ok a ∧ l = (ws.map fun w => (w, true)) ∨
    r = .panic ∧ ∃ ws' w t, ws = ws' ++ w :: t ∧ l = (ws'.map fun w => (w, true)) ++ [(w, false)] := by
  induction m generalizing f f0 ws l with
  | done x =>
    cases h
    cases hu
    exact .inl ⟨rfl, rfl⟩
  | read c ih => exact hm.elim
  | put w c ih =>
    have hu : (w :: ((c true).undisturbed (f0.write w)).1, ((c true).undisturbed (f0.write w)).2) = (ws, .ok a) := hu
    obtain ⟨e1, e2⟩ := Prod.mk.inj hu
    have hu' : (c true).undisturbed (f0.write w) = (((c true).undisturbed (f0.write w)).1, .ok a) := by rw [← e2]
    cases h with
    | lands h =>
      rcases ih true hm.2 hu' h with ⟨e, el⟩ | ⟨e, ws', x, t, ew, el⟩
      · exact .inl ⟨e, by rw [← e1, el]; rfl⟩
      · refine .inr ⟨e, w :: ws', x, t, ?_, ?_⟩
        · rw [← e1, ew]; rfl
        · rw [el]; rfl
    | fails h =>
      rw [hm.1] at h
      cases h
      exact .inr ⟨rfl, [], w, _, e1.symm, rfl⟩

/-! ## Programs that need no write -/

/-- reads nothing, and goes on as if a write that failed had succeeded -/
def Careless : Attempt α → Prop
  | .done _ => True
  | .read _ => False
  | .put _ c => c false = c true ∧ (c true).Careless

theorem Careless.of (r : Res Str α) : (Attempt.of r).Careless := trivial
theorem Careless.may (w : Write) : (Attempt.may w).Careless := ⟨rfl, trivial⟩
theorem Careless.bind {m : Attempt α} {k : α → Attempt β} (hm : m.Careless) (hk : ∀ a, (k a).Careless) : (m >>= k).Careless := by
  show (m.andThen k).Careless
  induction m with
  | done x =>
    cases x with
    | ok a => exact hk a
    | err e => trivial
    | panic => trivial
  | read c ih => exact hm.elim
  | put w c ih =>
    refine ⟨?_, ih true hm.2⟩
    show (c false).andThen k = _
    rw [hm.1]
theorem Careless.each {g : α → Attempt Unit} (h : ∀ a, (g a).Careless) (l : List α) : (Attempt.each g l).Careless := by
  induction l with
  | nil => trivial
  | cons a t ih => exact (h a).bind fun _ => ih

/-- Whichever writes fail, it tries the same ones and ends in the same. -/
theorem Careless.tries {m : Attempt α} (hm : m.Careless) {f : Facade} (f0 : Facade) {l : List (Write × Bool)} {r : Res Str α} (h : m.Tries f l r) :
    m.undisturbed f0 = (l.map Prod.fst, r) := by
  induction m generalizing f f0 l with
  | done x =>
    cases h
    rfl
  | read c ih => exact hm.elim
  | put w c ih =>
    show (w :: ((c true).undisturbed (f0.write w)).1, ((c true).undisturbed (f0.write w)).2) = _
    cases h with
    | lands h => rw [ih true hm.2 (f0.write w) h]; rfl
    | fails h => rw [hm.1] at h; rw [ih true hm.2 (f0.write w) h]; rfl

/-- and any may fail -/
theorem Careless.any {m : Attempt α} (hm : m.Careless) {f0 : Facade} {ws : List Write} {r : Res Str α} (hu : m.undisturbed f0 = (ws, r))
    (l : List (Write × Bool)) (hl : l.map Prod.fst = ws) (f : Facade) : m.Tries f l r := by
  induction m generalizing f f0 ws l with
  | done x =>
    cases hu
    cases l with
    | nil => exact .done _ _
    | cons p t => cases hl
  | read c ih => exact hm.elim
  | put w c ih =>
    have hu : (w :: ((c true).undisturbed (f0.write w)).1, ((c true).undisturbed (f0.write w)).2) = (ws, r) := hu
    obtain ⟨e1, e2⟩ := Prod.mk.inj hu
    have hu' : (c true).undisturbed (f0.write w) = (((c true).undisturbed (f0.write w)).1, r) := by rw [← e2]
    cases l with
    | nil => rw [← e1] at hl; cases hl
    | cons p t =>
      obtain ⟨x, b⟩ := p
      rw [← e1] at hl
      obtain ⟨h1, h2⟩ := List.cons.inj hl
      have h1 : x = w := h1
      subst h1
      cases b with
      | true => exact .lands (ih true hm.2 hu' t h2 _)
      | false => exact .fails (by rw [hm.1]; exact ih true hm.2 hu' t h2 _)

/-! ## Programs that give up with an error -/

/-- every write that fails ends the program with an error, but for those `D` allows -/
def Gives (D : Write → Prop) : Attempt α → Prop
  | .done _ => True
  | .read c => ∀ d, (c d).Gives D
  | .put w c => (D w ∨ ∃ e, c false = .done (.err e)) ∧ ∀ b, (c b).Gives D

theorem Gives.bind {D : Write → Prop} {m : Attempt α} {k : α → Attempt β} (hm : m.Gives D) (hk : ∀ a, (k a).Gives D) : (m >>= k).Gives D := by
  show (m.andThen k).Gives D
  induction m with
  | done x =>
    cases x with
    | ok a => exact hk a
    | err e => trivial
    | panic => trivial
  | read c ih => exact fun d => ih d (hm d)
  | put w c ih =>
    refine ⟨?_, fun b => ih b (hm.2 b)⟩
    rcases hm.1 with h | ⟨e, h⟩
    · exact .inl h
    · refine .inr ⟨e, ?_⟩
      show (c false).andThen k = _
      rw [h]
      rfl
theorem Gives.of {D : Write → Prop} (r : Res Str α) : (Attempt.of r).Gives D := trivial
theorem Gives.look {D : Write → Prop} (g : Store → Res Str α) : (Attempt.look g).Gives D := fun _ => trivial
theorem Gives.ask {D : Write → Prop} (w : Write) : (Attempt.ask w).Gives D := ⟨.inr ⟨_, rfl⟩, fun b => by cases b <;> trivial⟩
theorem Gives.may {D : Write → Prop} {w : Write} (h : D w) : (Attempt.may w).Gives D := ⟨.inl h, fun b => trivial⟩
theorem Gives.each {D : Write → Prop} {g : α → Attempt Unit} (l : List α) (h : ∀ a ∈ l, (g a).Gives D) : (Attempt.each g l).Gives D := by
  induction l with
  | nil => trivial
  | cons a t ih => exact (h a (.head _)).bind fun _ => ih fun x hx => h x (.tail _ hx)

/-- It aborts only if it does undisturbed, or if a write that `D` allows failed. -/
theorem Gives.aborts {D : Write → Prop} {m : Attempt α} (hm : m.Gives D) {f : Facade} {l : List (Write × Bool)} (h : m.Tries f l .panic) :
    (m.undisturbed f).2 = .panic ∨ ∃ w, (w, false) ∈ l ∧ D w := by
  induction m generalizing f l with
  | done x => cases h; exact .inl rfl
  | read c ih => cases h with | read h => exact ih _ (hm _) h
  | put w c ih =>
    cases h with
    | lands h =>
      rcases ih true (hm.2 true) h with h | ⟨x, hx, hd⟩
      · exact .inl h
      · exact .inr ⟨x, .tail _ hx, hd⟩
    | fails h =>
      rcases hm.1 with hd | ⟨e, he⟩
      · exact .inr ⟨w, .head _, hd⟩
      · rw [he] at h
        cases h

/-! ## Which writes are tried -/

/-- only writes that `Q` allows are tried -/
def Tried (Q : Write → Prop) : Attempt α → Prop
  | .done _ => True
  | .read c => ∀ d, (c d).Tried Q
  | .put w c => Q w ∧ ∀ b, (c b).Tried Q

theorem Tried.tries {Q : Write → Prop} {m : Attempt α} (hm : m.Tried Q) {f : Facade} {l : List (Write × Bool)} {r : Res Str α} (h : m.Tries f l r) :
    ∀ p ∈ l, Q p.1 := by
  induction m generalizing f l with
  | done x => cases h; intro p hp; cases hp
  | read c ih => cases h with | read h => exact ih _ (hm _) h
  | put w c ih =>
    intro p hp
    cases h with
    | lands h =>
      cases hp with
      | head => exact hm.1
      | tail _ hp => exact ih true (hm.2 true) h p hp
    | fails h =>
      cases hp with
      | head => exact hm.1
      | tail _ hp => exact ih false (hm.2 false) h p hp

theorem Tried.bind {Q : Write → Prop} {m : Attempt α} {k : α → Attempt β} (hm : m.Tried Q) (hk : ∀ a, (k a).Tried Q) : (m >>= k).Tried Q := by
  show (m.andThen k).Tried Q
  induction m with
  | done x =>
    cases x with
    | ok a => exact hk a
    | err e => trivial
    | panic => trivial
  | read c ih => exact fun d => ih d (hm d)
  | put w c ih => exact ⟨hm.1, fun b => ih b (hm.2 b)⟩
theorem Tried.need {Q : Write → Prop} {o : Option α} {k : α → Attempt β} (hk : ∀ a, o = some a → (k a).Tried Q) : (Attempt.of (Res.unwrap o) >>= k).Tried Q := by
  cases o with
  | none => trivial
  | some a => exact hk a rfl
theorem Tried.of {Q : Write → Prop} {r : Res Str α} {k : α → Attempt β} (hk : ∀ a, r = .ok a → (k a).Tried Q) : (Attempt.of r >>= k).Tried Q := by
  cases r with
  | ok a => exact hk a rfl
  | err e => trivial
  | panic => trivial
theorem Tried.look {Q : Write → Prop} (g : Store → Res Str α) : (Attempt.look g).Tried Q := fun _ => trivial
theorem Tried.must {Q : Write → Prop} {w : Write} (h : Q w) : (Attempt.must w).Tried Q := ⟨h, fun b => by cases b <;> trivial⟩
theorem Tried.ask {Q : Write → Prop} {w : Write} (h : Q w) : (Attempt.ask w).Tried Q := ⟨h, fun b => by cases b <;> trivial⟩
theorem Tried.may {Q : Write → Prop} {w : Write} (h : Q w) : (Attempt.may w).Tried Q := ⟨h, fun b => trivial⟩
theorem Tried.each {Q : Write → Prop} {g : α → Attempt Unit} (l : List α) (h : ∀ a ∈ l, (g a).Tried Q) : (Attempt.each g l).Tried Q := by
  induction l with
  | nil => trivial
  | cons a t ih => exact (h a (.head _)).bind fun _ => ih fun x hx => h x (.tail _ hx)
theorem Tried.ignore {Q : Write → Prop} {m : Attempt Unit} (h : m.Tried Q) : m.ignore.Tried Q := by
  induction m with
  | done x => cases x <;> trivial
  | read c ih => exact fun d => ih d (h d)
  | put w c ih => exact ⟨h.1, fun b => ih b (h.2 b)⟩

/-- What is tried, and how it ends, depends only on the database. -/
theorem Tries.database {m : Attempt α} {f g : Facade} {l : List (Write × Bool)} {r : Res Str α} (h : m.Tries f l r) (hd : f.db = g.db) : m.Tries g l r := by
  induction h generalizing g with
  | done f r => exact .done _ _
  | read h ih => exact .read (by rw [← hd]; exact ih hd)
  | @lands f w c l r h ih =>
    refine .lands (ih ?_)
    cases w with
    | db n x v => show f.db.set n x v = g.db.set n x v; rw [hd]
    | _ => exact hd
  | fails h ih => exact .fails (ih hd)

end Attempt
end OCA
