import Verif.Lemmas.Frame
import Verif.Lemmas.Depth
import Verif.Demo
/-!
# C36, C37: names of files
-/
namespace OCA

/-! ## What a name stands for in a file -/

/-- the names in an attribute type, at any depth -/
def NAttr.names : NAttr → List Str
  | .ref (.name n) => [n]
  | .arr a => a.names
  | _ => []

/-- the names replaced by what they stand for, at any depth -/
def NAttr.withNames (σ : Str → Said) : NAttr → NAttr
  | .ref (.name n) => .ref (.said (σ n))
  | .arr a => .arr (a.withNames σ)
  | t => t

/-- the name a LINK command points at -/
def targetName : Str × NVal → Option Str
  | (k, .ref (.name n)) => if k = c!"target" then some n else none
  | _ => none

/-- with the target's name replaced -/
def targetWithName (σ : Str → Said) (p : Str × NVal) : Str × NVal :=
  match targetName p with
  | some n => (p.1, .ref (.said (σ n)))
  | none => p

/-- The names in a command, in order: those in the attribute types of an ADD ATTRIBUTE, and the target of an ADD LINK. -/
def Command.names (c : Command) : List Str :=
  match c with
  | ⟨.add, .captureBase ⟨some l, _, _⟩⟩ => l.flatMap fun p => p.2.names
  | ⟨.add, .overlay ⟨.link, _⟩ ⟨_, some ps⟩⟩ => ps.filterMap targetName
  | _ => []

/-- The command with these names replaced, and nothing else changed. -/
def Command.withNames (σ : Str → Said) (c : Command) : Command :=
  match c with
  | ⟨.add, .captureBase ⟨some l, ps, fs⟩⟩ => ⟨.add, .captureBase ⟨some (l.map fun p => (p.1, p.2.withNames σ)), ps, fs⟩⟩
  | ⟨.add, .overlay ⟨.link, v⟩ ⟨as, some ps⟩⟩ => ⟨.add, .overlay ⟨.link, v⟩ ⟨as, some (ps.map (targetWithName σ))⟩⟩
  | c => c

/-- No name sits in more than one array, and the properties of a LINK are a map. -/
def Command.Shallow (c : Command) : Prop :=
  match c with
  | ⟨.add, .captureBase ⟨some l, _, _⟩⟩ => ∀ p ∈ l, p.2.names = [] ∨ p.2.arrays ≤ 1
  | ⟨.add, .overlay ⟨.link, _⟩ ⟨_, some ps⟩⟩ => (ps.map (·.1)).Nodup
  | _ => True

/-- After the replacement no name is left. -/
theorem NAttr.names_withNames (σ : Str → Said) (t : NAttr) : (t.withNames σ).names = [] := by
  induction t with
  | ref r => cases r <;> rfl
  | val _ => rfl
  | null => rfl
  | arr a ih => exact ih

theorem NAttr.withNames_self (σ : Str → Said) (t : NAttr) (h : t.names = []) : t.withNames σ = t := by
  induction t with
  | ref r => cases r with
    | said s => rfl
    | name n => cases h
  | val _ => rfl
  | null => rfl
  | arr a ih => show NAttr.arr _ = _; rw [ih h]

theorem targetName_withName (σ : Str → Said) (p : Str × NVal) : targetName (targetWithName σ p) = none := by
  unfold targetWithName
  cases h : targetName p with
  | none => exact h
  | some n => rfl

theorem Command.names_withNames (σ : Str → Said) (c : Command) : (c.withNames σ).names = [] := by
  unfold Command.withNames
  split
  · show List.flatMap _ (List.map _ _) = []
    rw [List.flatMap_map, List.flatMap_eq_nil_iff]
    exact fun p _ => NAttr.names_withNames σ p.2
  · show List.filterMap _ (List.map _ _) = []
    rw [List.filterMap_map, List.filterMap_eq_nil_iff]
    exact fun p _ => targetName_withName σ p
  · next h1 h2 =>
    unfold Command.names
    split
    · exact absurd rfl (h1 _ _ _)
    · exact absurd rfl (h2 _ _ _)
    · rfl

/-! ## The code does that -/

/-- the outcome for a list of names: the first unknown one is reported -/
def outcome {α : Type} (refs : Str → Option Str) (names : List Str) (a : α) : Res VErr α :=
  match names.find? fun n => (refs n).isNone with
  | some n => .err (.unknownRefn n)
  | none => .ok a

theorem outcome_nil {α : Type} (refs : Str → Option Str) (a : α) : outcome refs [] a = .ok a := rfl

theorem outcome_append {α β γ : Type} (refs : Str → Option Str) (l l' : List Str) (a : α) (b : β) (f : α → β → γ) :
    ((outcome refs l a).bind fun a => (outcome refs l' b).bind fun b => .ok (f a b)) =
      outcome refs (l ++ l') (f a b) := by
  unfold outcome
  rw [List.find?_append]
  cases List.find? (fun n => (refs n).isNone) l with
  | some n => rfl
  | none =>
    show ((match List.find? _ l' with | some n => _ | none => _) : Res VErr β).bind _ = _
    cases List.find? (fun n => (refs n).isNone) l' <;> rfl

theorem outcome_map {α β : Type} (refs : Str → Option Str) (l : List Str) (a : α) (f : α → β) :
    ((outcome refs l a).bind fun a => .ok (f a)) = outcome refs l (f a) := by
  unfold outcome
  cases List.find? (fun n => (refs n).isNone) l <;> rfl

variable {E : Env} {refs : Str → Option Str}

/-- what `σ` the references give -/
def refsSaid (refs : Str → Option Str) (n : Str) : Said := (refs n).getD []

theorem derefName_eq (hv : ∀ n s, refs n = some s → E.validSaid s = true) (n : Str) :
    derefName E (fun n => .ok (refs n)) n = outcome refs [n] (.said (refsSaid refs n)) := by
  unfold derefName outcome refsSaid
  cases h : refs n with
  | none => simp [h]
  | some s => simp [h, hv n s h]

theorem derefAttr_eq (hv : ∀ n s, refs n = some s → E.validSaid s = true) (t : NAttr)
    (ht : t.names = [] ∨ t.arrays ≤ 1) :
    derefAttr E (fun n => .ok (refs n)) t = outcome refs t.names (t.withNames (refsSaid refs)) := by
  match t, ht with
  | .ref (.name n), _ =>
    show Res.bind _ _ = _
    rw [derefName_eq hv]
    exact outcome_map refs [n] _ _
  | .ref (.said s), _ => rfl
  | .val v, _ => rfl
  | .null, _ => rfl
  | .arr (.ref (.name n)), _ =>
    show Res.bind _ _ = _
    rw [derefName_eq hv]
    exact outcome_map refs [n] _ _
  | .arr (.ref (.said s)), _ => rfl
  | .arr (.val v), _ => rfl
  | .arr .null, _ => rfl
  | .arr (.arr a), h =>
    have hn : a.names = [] := by
      rcases h with h | h
      · exact h
      · have : (a.arrays + 1) + 1 ≤ 1 := h
        omega
    show Res.ok _ = outcome refs a.names _
    rw [hn, NAttr.withNames_self _ (.arr (.arr a)) hn]
    rfl

theorem derefAttrs_eq (hv : ∀ n s, refs n = some s → E.validSaid s = true) (l : List (Str × NAttr))
    (hl : ∀ p ∈ l, p.2.names = [] ∨ p.2.arrays ≤ 1) :
    derefAttrs E (fun n => .ok (refs n)) l =
      outcome refs (l.flatMap fun p => p.2.names) (l.map fun p => (p.1, p.2.withNames (refsSaid refs))) := by
  induction l with
  | nil => rfl
  | cons p t ih =>
    obtain ⟨n, a⟩ := p
    show Res.bind _ _ = _
    rw [derefAttr_eq hv a (hl _ (List.mem_cons_self ..))]
    have := ih (fun p hp => hl p (List.mem_cons_of_mem _ hp))
    rw [List.flatMap_cons, List.map_cons]
    rw [← outcome_append refs _ _ (a.withNames (refsSaid refs)) (t.map fun p => (p.1, p.2.withNames (refsSaid refs)))
      (fun a t => (n, a) :: t)]
    rw [← this]
    rfl

theorem target_none (ps : List (Str × NVal)) (h : c!"target" ∉ ps.map (·.1)) (σ : Str → Said) :
    ps.filterMap targetName = [] ∧ ps.map (targetWithName σ) = ps := by
  have h1 : ∀ p ∈ ps, targetName p = none := by
    intro p hp
    obtain ⟨k, v⟩ := p
    unfold targetName
    split
    · next n e =>
      cases e
      rw [if_neg]
      intro e
      exact h (List.mem_map.2 ⟨_, hp, e⟩)
    · rfl
  refine ⟨List.filterMap_eq_nil_iff.2 h1, ?_⟩
  rw [List.map_congr_left (g := id), List.map_id]
  intro p hp
  unfold targetWithName
  rw [h1 p hp]
  rfl

theorem derefTarget_eq (hv : ∀ n s, refs n = some s → E.validSaid s = true) (ps : List (Str × NVal))
    (hn : (ps.map (·.1)).Nodup) :
    derefTarget E (fun n => .ok (refs n)) ps =
      outcome refs (ps.filterMap targetName) (ps.map (targetWithName (refsSaid refs))) := by
  induction ps with
  | nil => rfl
  | cons p t ih =>
    obtain ⟨k, v⟩ := p
    rw [List.map_cons, List.nodup_cons] at hn
    by_cases hk : k = c!"target"
    · subst hk
      obtain ⟨e1, e2⟩ := target_none t hn.1 (refsSaid refs)
      rw [List.filterMap_cons, List.map_cons, e1, e2]
      match v with
      | .ref (.name n) =>
        have hg : imGet c!"target" ((c!"target", NVal.ref (.name n)) :: t) = some (.ref (.name n)) := rfl
        unfold derefTarget
        rw [hg]
        dsimp only
        rw [derefName_eq hv]
        exact outcome_map refs [n] _ _
      | .ref (.said s) => rfl
      | .val s => rfl
      | .obj l => rfl
      | .arr l => rfl
    · have hne : ¬ c!"target" = k := fun e => hk e.symm
      have e3 : targetName (k, v) = none := by
        unfold targetName
        split
        · next e => cases e; exact if_neg hk
        · rfl
      have e4 : targetWithName (refsSaid refs) (k, v) = (k, v) := by
        unfold targetWithName
        rw [e3]
      rw [List.filterMap_cons, e3, List.map_cons, e4]
      rw [← outcome_map refs _ (t.map (targetWithName (refsSaid refs))) (fun t => (k, v) :: t), ← ih hn.2]
      have hg : imGet c!"target" ((k, v) :: t) = imGet c!"target" t := by
        show (if c!"target" = k then some v else FMap.lget c!"target" t) = _
        rw [if_neg hne]
        rfl
      unfold derefTarget
      rw [hg]
      split
      · next n hh =>
        cases hd : derefName E (fun n => .ok (refs n)) n with
        | ok r =>
          show Res.ok (if c!"target" = k then _ else _) = _
          rw [if_neg hne]
          rfl
        | err e => rfl
        | panic => rfl
      · next hh =>
        rfl

theorem derefCommand_eq (hv : ∀ n s, refs n = some s → E.validSaid s = true) (c : Command) (hc : c.Shallow) :
    derefCommand E (fun n => .ok (refs n)) c = outcome refs c.names (c.withNames (refsSaid refs)) := by
  obtain ⟨k, o⟩ := c
  unfold derefCommand
  cases k with
  | add =>
    cases o with
    | captureBase cc =>
      obtain ⟨as, ps, fs⟩ := cc
      cases as with
      | none => rfl
      | some l =>
        show Res.bind _ _ = _
        dsimp only
        rw [derefAttrs_eq hv l hc]
        exact outcome_map refs _ _ _
    | ocaBundle r => rfl
    | overlay t cc =>
      obtain ⟨as, ps⟩ := cc
      obtain ⟨tk, v⟩ := t
      by_cases ht : tk = .link
      · subst ht
        cases ps with
        | none => rfl
        | some ps =>
          show Res.bind _ _ = _
          dsimp only
          rw [derefTarget_eq hv ps hc]
          exact outcome_map refs _ _ _
      · dsimp only
        rw [if_neg ht]
        cases tk <;> first | rfl | exact absurd rfl ht
  | remove => rfl
  | modify => rfl
  | «from» => rfl

/-- **C36** For a name table `refs` that holds identifiers only, and commands whose names sit in at most one array:
if some name is unknown, the first such name is reported; otherwise the commands come back with every name replaced by
its identifier and nothing else changed. -/
theorem C36_names_resolved (E : Env) (refs : Str → Option Str) (hv : ∀ n s, refs n = some s → E.validSaid s = true)
    (cs : List Command) (hc : ∀ c ∈ cs, c.Shallow) :
    derefCommands E (fun n => .ok (refs n)) cs =
      match (cs.flatMap Command.names).find? fun n => (refs n).isNone with
      | some n => .err (.unknownRefn n)
      | none => .ok (cs.map (Command.withNames fun n => (refs n).getD [])) := by
  show _ = outcome refs _ _
  induction cs with
  | nil => rfl
  | cons c t ih =>
    show Res.bind _ _ = _
    rw [derefCommand_eq hv c (hc c (List.mem_cons_self ..))]
    have := ih (fun c h => hc c (List.mem_cons_of_mem _ h))
    rw [List.flatMap_cons, List.map_cons]
    show _ = outcome refs _ (c.withNames (refsSaid refs) :: t.map (Command.withNames (refsSaid refs)))
    rw [← outcome_append refs _ _ (c.withNames (refsSaid refs)) (t.map (Command.withNames (refsSaid refs)))
      (fun c t => c :: t)]
    show _ = ((outcome refs c.names _).bind fun a => _)
    congr 1
    funext c
    show Res.bind _ _ = _
    rw [this]
    rfl

/-- After that no name is left in attribute types or link targets. -/
theorem C36_no_name_left (E : Env) (refs : Str → Option Str) (hv : ∀ n s, refs n = some s → E.validSaid s = true)
    (cs cs' : List Command) (hc : ∀ c ∈ cs, c.Shallow)
    (h : derefCommands E (fun n => .ok (refs n)) cs = .ok cs') : ∀ c ∈ cs', c.names = [] := by
  rw [C36_names_resolved E refs hv cs hc] at h
  split at h
  · cases h
  · cases h
    intro c hc
    obtain ⟨c0, _, rfl⟩ := List.mem_map.1 hc
    exact Command.names_withNames _ c0

/-- A name two arrays deep is not replaced. -/
theorem C36_deep_name_survives (E : Env) (refs : Str → Option Str) (a n : Str) :
    derefCommands E (fun n => .ok (refs n))
      [⟨.add, .captureBase ⟨some [(a, .arr (.arr (.ref (.name n))))], none, none⟩⟩] =
      .ok [⟨.add, .captureBase ⟨some [(a, .arr (.arr (.ref (.name n))))], none, none⟩⟩] := rfl

/-- A name whose recorded identifier is not one aborts the process. -/
theorem C36_bad_identifier_aborts (E : Env) (refs : Str → Option Str) (a n s : Str) (h : refs n = some s)
    (hs : E.validSaid s = false) :
    derefCommands E (fun n => .ok (refs n)) [⟨.add, .captureBase ⟨some [(a, .ref (.name n))], none, none⟩⟩] = .panic := by
  have : derefName E (fun n => .ok (refs n)) n = .panic := by
    unfold derefName
    simp [h, hs]
  show Res.bind (Res.bind (Res.bind (Res.bind (derefName E (fun n => .ok (refs n)) n) _) _) _) _ = _
  rw [this]
  rfl

example : ∃ refs : Str → Option Str, (∀ n s, refs n = some s → Env.demo.validSaid s = true) ∧
    derefCommands Env.demo (fun n => .ok (refs n))
      [⟨.add, .captureBase ⟨some [(c!"a", .arr (.ref (.name c!"x"))), (c!"b", .val .text)], none, none⟩⟩,
       ⟨.add, .overlay ⟨.link, c!"1.1"⟩ ⟨none, some [(c!"target", .ref (.name c!"y")), (c!"a", .val c!"z")]⟩⟩] =
    .ok [⟨.add, .captureBase ⟨some [(c!"a", .arr (.ref (.said c!"Esaid1"))), (c!"b", .val .text)], none, none⟩⟩,
       ⟨.add, .overlay ⟨.link, c!"1.1"⟩ ⟨none, some [(c!"target", .ref (.said c!"Esaid2")), (c!"a", .val c!"z")]⟩⟩] := by
  refine ⟨fun n => if n = c!"x" then some c!"Esaid1" else if n = c!"y" then some c!"Esaid2" else none, ?_, ?_⟩
  · intro n s h
    dsimp only at h
    split at h
    · cases h; decide
    · split at h
      · cases h; decide
      · cases h
  · rfl

/-! ## C37 -/

/-- One accepted file: the name in its meta block, and the identifier of the bundle built from it. -/
structure Named where
  name : Option Str
  said : Said

/-- What happens to a facade: files are validated, files are built, files are refused (that leaves no trace: a refused file
gives an error before anything is written). `l` lists the accepted files. -/
inductive Served (E : Env) (S : Serde) (f : Facade) : List Named → Facade → Prop
  | none : Served E S f [] f
  | validated {l : List Named} {g g' : Facade} {Os : Nat → Order} {ls : List Line} {ast : OCAAst} {b : Build} {s : Said} :
      Served E S f l g → parseLines ls = .ok ast → g.validate E S Os ls = .ok (g', b) → b.bundle.said = some s →
      Served E S f (l ++ [⟨ast.metaMap.get c!"name", s⟩]) g'
  | built {l : List Named} {g g' : Facade} {Os : Nat → Order} {O : SetOrder} {ls : List Line} {ast : OCAAst} {b : Bundle}
      {s : Said} :
      Served E S f l g → parseLines ls = .ok ast → g.buildFile E S Os O ls = .ok (g', b) → b.said = some s →
      Served E S f (l ++ [⟨ast.metaMap.get c!"name", s⟩]) g'
  | refused {l : List Named} {g : Facade} {Os : Nat → Order} {O : SetOrder} {ls : List Line} {es : List VErr} :
      Served E S f l g → g.buildFile E S Os O ls = .err es → Served E S f l g

/-- the identifier of the last accepted file of that name -/
def lastNamed (n : Str) (l : List Named) : Option Said :=
  (l.reverse.find? fun x => x.name = some n).map (·.said)

theorem lastNamed_snoc (n : Str) (l : List Named) (x : Named) :
    lastNamed n (l ++ [x]) = if x.name = some n then some x.said else lastNamed n l := by
  unfold lastNamed
  rw [List.reverse_append]
  show (List.find? _ (x :: l.reverse)).map _ = _
  rw [List.find?_cons]
  by_cases h : x.name = some n
  · simp [h]
  · simp [h]

theorem checkBase_meta {ε : Type} {E : Env} {S : Serde} {cache : Store} {ast ast' : OCAAst} {b : Option Bundle}
    (h : (checkBase E S cache ast : Res ε _) = .ok (b, ast')) : ast'.metaMap = ast.metaMap := by
  unfold checkBase at h
  split at h
  · split at h
    · split at h
      · cases h; rfl
      · cases h; rfl
      · cases h
    · cases h
  · cases h; rfl

/-- What a validation does to the names. -/
theorem validate_refs {E : Env} {S : Serde} {Os : Nat → Order} {f f' : Facade} {ls : List Line} {ast : OCAAst} {b : Build}
    {s : Said} (hp : parseLines ls = .ok ast) (h : f.validate E S Os ls = .ok (f', b)) (hs : b.bundle.said = some s)
    (k : Str) :
    f'.db.get .references k =
      if ast.metaMap.get c!"name" = some k then .ok (some (utf8 s)) else f.db.get .references k := by
  unfold Facade.validate at h
  rw [hp] at h
  obtain ⟨ast0, ha, h⟩ := Res.bind_eq_ok.1 h
  cases ha
  obtain ⟨⟨base, ast'⟩, hb, h⟩ := Res.bind_eq_ok.1 h
  obtain ⟨⟨db, b'⟩, hr, h⟩ := Res.bind_eq_ok.1 (show Res.bind _ _ = _ from h)
  cases h
  have hm := checkBase_meta hb
  unfold buildWithRefs at hr
  obtain ⟨cs, hcs, hr⟩ := Res.bind_eq_ok.1 hr
  obtain ⟨b2, hb2, hr⟩ := Res.bind_eq_ok.1 hr
  rw [hm] at hr
  show db.get _ _ = _
  cases hn : ast.metaMap.get c!"name" with
  | none =>
    rw [hn] at hr
    cases hr
    rw [if_neg (by simp)]
  | some n =>
    rw [hn] at hr
    obtain ⟨s', hs', hr⟩ := Res.bind_eq_ok.1 (show Res.bind _ _ = _ from hr)
    obtain ⟨d, hd, hr⟩ := Res.bind_eq_ok.1 (show Res.bind _ _ = _ from hr)
    cases hr
    rw [hs] at hs'
    cases hs'
    unfold Store.saveRefn at hd
    rw [Store.put_get hd]
    by_cases e : n = k
    · subst e; simp
    · simp [e]

/-- what is stored under a name -/
theorem served_refs {E : Env} {S : Serde} {f g : Facade} {l : List Named} (h : Served E S f l g) (n : Str) :
    g.db.get .references n = match lastNamed n l with
      | some s => .ok (some (utf8 s))
      | none => f.db.get .references n := by
  induction h with
  | none => rfl
  | refused h he ih => exact ih
  | @validated l g g' Os ls ast b s h hp hv hs ih =>
    rw [validate_refs hp hv hs n, lastNamed_snoc, ih]
    by_cases e : ast.metaMap.get c!"name" = some n
    · rw [if_pos e, if_pos e]
    · rw [if_neg e, if_neg e]
  | @built l g g' Os O ls ast b s h hp hb hs ih =>
    unfold Facade.buildFile at hb
    obtain ⟨⟨f1, b1⟩, hv, hb⟩ := Res.bind_eq_ok.1 hb
    obtain ⟨f2, hb2, hb⟩ := Res.bind_eq_ok.1 (show Res.bind _ _ = _ from hb)
    cases hb
    rw [build_refs hb2, validate_refs hp hv hs n, lastNamed_snoc, ih]
    by_cases e : ast.metaMap.get c!"name" = some n
    · rw [if_pos e, if_pos e]
    · rw [if_neg e, if_neg e]

/-- **C37** However many files are validated, built or refused, in whatever order, looking up a name gives the identifier
of the last accepted file with that name, or what it gave before if there is none. -/
theorem C37_name_is_latest (E : Env) (S : Serde) (f g : Facade) (l : List Named) (h : Served E S f l g) (n : Str) :
    (g.db.findRefn n : Res VErr _) = match lastNamed n l with
      | some s => .ok (some s)
      | none => f.db.findRefn n := by
  unfold Store.findRefn
  rw [served_refs h]
  cases lastNamed n l with
  | none => rfl
  | some s =>
    show ((Res.unwrap (fromUtf8 (utf8 s)) : Res VErr Str) >>= fun s => pure (some s)) = .ok (some s)
    rw [fromUtf8_utf8]
    rfl

/-- a file with a name and attributes -/
def nameFile (n : Str) (as : List (Str × NAttr)) : List Line := [.metaLine c!"name" n, .instr c!"" (.ok (addAttrs as))]

/-- the sets of related objects in the order of insertion -/
def SetOrder.kept : SetOrder := ⟨fun _ l => l, fun _ _ => List.Perm.refl _⟩

/-- building two files, one after the other -/
def twoFiles : Res (List VErr) (Facade × Bundle × Bundle) := do
  let (f1, b1) ← Facade.new.buildFile Env.short Serde.text (fun _ => Order.sorted) .kept (nameFile c!"x" [(c!"a", .val .text)])
  let (f2, b2) ← f1.buildFile Env.short Serde.text (fun _ => Order.sorted) .kept (nameFile c!"y" [(c!"b", .val .numeric)])
  pure (f2, b1, b2)

set_option maxRecDepth 20000 in
example : ∃ g s1 s2, Served Env.short Serde.text Facade.new [⟨some c!"x", s1⟩, ⟨some c!"y", s2⟩] g := by
  have h : (match twoFiles with | .ok (_, b1, b2) => b1.said.isSome && b2.said.isSome | _ => false) = true := by decide
  cases ht : twoFiles with
  | err e => rw [ht] at h; cases h
  | panic => rw [ht] at h; cases h
  | ok r =>
    obtain ⟨g, b1, b2⟩ := r
    rw [ht] at h
    simp only [Bool.and_eq_true, Option.isSome_iff_exists] at h
    obtain ⟨⟨s1, h1⟩, s2, h2⟩ := h
    unfold twoFiles at ht
    obtain ⟨⟨f1, b1'⟩, e1, ht⟩ := Res.bind_eq_ok.1 ht
    obtain ⟨⟨f2, b2'⟩, e2, ht⟩ := Res.bind_eq_ok.1 (show Res.bind _ _ = _ from ht)
    cases ht
    exact ⟨g, s1, s2, .built (l := [⟨some c!"x", s1⟩]) (.built (l := []) .none rfl e1 h1) rfl e2 h2⟩

end OCA
