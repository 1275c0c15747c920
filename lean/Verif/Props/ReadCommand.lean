import Verif.Props.WholeAst
import Verif.Props.AstProps
/-!
# C65: which JSON is read as a command
-/
namespace OCA

/-- the entry that says what the command does: under `type`, its name, or an object with that name as its only key and `null` -/
def KindSays (k : CmdType) (p : Str × Json) : Prop :=
  p.1 = c!"type" ∧ (p.2 = .str k.toStr ∨ p.2 = .obj [(k.toStr, .null)])

/-- what `content` is read as when the `object_kind` is `name` -/
inductive ContentSays (E : Env) (content : Json) : Str → ObjKind → Prop where
  | base (c : CaptureContent) (h : CaptureContent.ofJson E content = .ok c) : ContentSays E content c!"CaptureBase" (.captureBase c)
  | bundle (r : RefVal) (h : bundleContentOfJson E content = .ok r) : ContentSays E content c!"OCABundle" (.ocaBundle r)
  | overlay (name : Str) (t : OverlayType) (c : Content) (h1 : name ≠ c!"CaptureBase") (h2 : name ≠ c!"OCABundle")
      (h3 : OverlayType.fromStr name = some t) (h : Content.ofJson E content = .ok c) : ContentSays E content name (.overlay t c)

/-- the two entries that say what the command is about: `object_kind`, and the one after it, whatever its key -/
def ObjectSays (E : Env) (o : ObjKind) (p q : Str × Json) : Prop :=
  p.1 = c!"object_kind" ∧ ∃ name, p.2 = .str name ∧ ContentSays E q.2 name o

theorem objKind_says {E : Env} {name : Str} {content : Json} {o : ObjKind} :
    objKindOfJson E name content = .ok o ↔ ContentSays E content name o := by
  unfold objKindOfJson
  constructor
  · intro h
    split at h
    · next e =>
      subst e
      split at h <;> first | (cases h; done) | skip
      next c hc => cases h; exact .base c hc
    · next h1 =>
      split at h
      · next e =>
        subst e
        split at h <;> first | (cases h; done) | skip
        next c hc => cases h; exact .bundle c hc
      · next h2 =>
        split at h
        · cases h
        · next t ht =>
          split at h <;> first | (cases h; done) | skip
          next c hc => cases h; exact .overlay name t c h1 h2 ht hc
  · rintro (⟨c, h⟩ | ⟨r, h⟩ | ⟨name, t, c, h1, h2, h3, h⟩)
    · simp [h]
    · simp [h]
    · simp [h1, h2, h3, h]

theorem visitType_ok {kind : Option CmdType} {v : Json} {k : CmdType} :
    visitType kind v = .ok k ↔ kind = none ∧ KindSays k (c!"type", v) := by
  have key : ∀ s, DRes.ofOption (CmdType.ofStr s) = .ok k ↔ s = k.toStr := by
    intro s
    unfold CmdType.ofStr
    constructor
    · intro h
      repeat' split at h
      all_goals first | (cases h; done) | (cases h; assumption)
    · rintro rfl; cases k <;> decide
  unfold visitType KindSays
  cases kind with
  | some x => constructor
              · intro h; cases h
              · rintro ⟨h, -⟩; cases h
  | none =>
    constructor
    · intro h
      cases hv : variantName v with
      | none => rw [hv] at h; cases h
      | some s =>
        rw [hv] at h
        have e := (key s).1 h
        subst e
        refine ⟨rfl, rfl, ?_⟩
        unfold variantName at hv
        split at hv
        · cases hv; exact .inl rfl
        · cases hv; exact .inr rfl
        · cases hv
    · rintro ⟨-, -, h⟩
      rcases h with h | h <;> dsimp only at h <;> subst h <;> exact (key _).2 rfl

theorem visitObj_ok {E : Env} {ok : Option ObjKind} {v c : Json} {o : ObjKind} :
    visitObj E ok v c = .ok o ↔ ok = none ∧ ∃ name, v = .str name ∧ ContentSays E c name o := by
  unfold visitObj
  constructor
  · intro h
    split at h
    · exact ⟨rfl, _, rfl, objKind_says.1 h⟩
    · cases h
  · rintro ⟨rfl, name, rfl, h⟩
    exact objKind_says.2 h

/-- what comes first when a command is read -/
theorem cvisit_cons {E : Env} {kind : Option CmdType} {ok : Option ObjKind} {p : Str × Json} {t : List (Str × Json)} {c : Command} :
    Command.visit E kind ok (p :: t) = .ok c ↔
    (∃ k, kind = none ∧ KindSays k p ∧ Command.visit E (some k) ok t = .ok c) ∨
    (∃ o q t', ok = none ∧ t = q :: t' ∧ ObjectSays E o p q ∧ Command.visit E kind (some o) t' = .ok c) := by
  obtain ⟨key, v⟩ := p
  have hne : c!"object_kind" ≠ c!"type" := by decide
  have hT : ∀ t', (visitType kind v >>= fun k => Command.visit E (some k) ok t') = .ok c ↔
      ∃ k, kind = none ∧ KindSays k (c!"type", v) ∧ Command.visit E (some k) ok t' = .ok c := by
    intro t'
    constructor
    · intro h
      obtain ⟨k, h1, h2⟩ := Res.bind_eq_ok.1 (show Res.bind _ _ = _ from h)
      obtain ⟨e, h3⟩ := visitType_ok.1 h1
      exact ⟨k, e, h3, h2⟩
    · rintro ⟨k, e, h3, h2⟩
      rw [visitType_ok.2 ⟨e, h3⟩]; exact h2
  match t with
  | [] =>
    by_cases hk : key = c!"type"
    · subst hk
      have e : Command.visit E kind ok [(c!"type", v)] = (visitType kind v >>= fun k => Command.visit E (some k) ok []) := by
        rw [Command.visit, if_pos rfl]
      rw [e, hT []]
      constructor
      · exact .inl
      · rintro (h | ⟨o, q, t', -, h, -⟩)
        · exact h
        · cases h
    · simp only [Command.visit, hk, if_false]
      constructor
      · intro h; cases h
      · rintro (⟨k, -, h, -⟩ | ⟨o, q, t', -, h, -⟩)
        · exact absurd h.1 hk
        · cases h
  | (key', j) :: t =>
    by_cases hk : key = c!"type"
    · subst hk
      simp only [Command.visit, if_true]
      rw [show (visitType kind v >>= fun k => Command.visit E (some k) ok ((key', j) :: t)) = .ok c ↔ _ from hT _]
      constructor
      · exact .inl
      · rintro (h | ⟨o, q, t', -, -, h, -⟩)
        · exact h
        · exact absurd h.1.symm hne
    · by_cases hk' : key = c!"object_kind"
      · subst hk'
        simp only [Command.visit, hk, if_true, if_false]
        constructor
        · intro h
          obtain ⟨o, h1, h2⟩ := Res.bind_eq_ok.1 (show Res.bind _ _ = _ from h)
          obtain ⟨e, name, h3, h4⟩ := visitObj_ok.1 h1
          exact .inr ⟨o, (key', j), t, e, rfl, ⟨rfl, name, h3, h4⟩, h2⟩
        · rintro (⟨k, -, h, -⟩ | ⟨o, q, t', e, h, ⟨-, name, h3, h4⟩, h2⟩)
          · exact absurd h.1 hk
          · cases h
            rw [visitObj_ok.2 ⟨e, name, h3, h4⟩]; exact h2
      · simp only [Command.visit, hk, hk', if_false]
        constructor
        · intro h; cases h
        · rintro (⟨k, -, h, -⟩ | ⟨o, q, t', -, -, h, -⟩)
          · exact absurd h.1 hk
          · exact absurd h.1 hk'

theorem cvisit_full {E : Env} {k : CmdType} {o : ObjKind} {l : List (Str × Json)} {c : Command} :
    Command.visit E (some k) (some o) l = .ok c ↔ l = [] ∧ c = ⟨k, o⟩ := by
  cases l with
  | nil => simp [Command.visit, eq_comm]
  | cons p t => rw [cvisit_cons]; simp

/-- **C65** Exactly these JSON documents are read as a command: an object of three entries, the one that says what the command does either
first or last, and next to each other `object_kind` and the content, in this order. Nothing may be repeated, missing or added; the
key of the content does not matter. -/
theorem C65_command_read_exact (E : Env) (j : Json) (c : Command) : Command.ofJson E j = .ok c ↔
    ∃ ty p q, KindSays c.kind ty ∧ ObjectSays E c.obj p q ∧ (j = .obj [ty, p, q] ∨ j = .obj [p, q, ty]) := by
  constructor
  · intro h
    unfold Command.ofJson at h
    split at h
    · next l =>
      cases l with
      | nil => cases h
      | cons a t =>
        rcases cvisit_cons.1 h with ⟨k, -, h1, h2⟩ | ⟨o, q, t', -, rfl, h1, h2⟩
        · cases t with
          | nil => cases h2
          | cons b t =>
            rcases cvisit_cons.1 h2 with ⟨_, e, -⟩ | ⟨o, q, t', -, rfl, h3, h4⟩
            · cases e
            · obtain ⟨rfl, rfl⟩ := cvisit_full.1 h4
              exact ⟨a, b, q, h1, h3, .inl rfl⟩
        · cases t' with
          | nil => cases h2
          | cons b t =>
            rcases cvisit_cons.1 h2 with ⟨k, -, h3, h4⟩ | ⟨_, _, _, e, -⟩
            · obtain ⟨rfl, rfl⟩ := cvisit_full.1 h4
              exact ⟨b, a, q, h3, h1, .inr rfl⟩
            · cases e
    · cases h
  · rintro ⟨ty, p, q, h1, h2, rfl | rfl⟩
    · show Command.visit E none none _ = _
      exact cvisit_cons.2 (.inl ⟨c.kind, rfl, h1, cvisit_cons.2 (.inr ⟨c.obj, q, [], rfl, rfl, h2, rfl⟩)⟩)
    · show Command.visit E none none _ = _
      exact cvisit_cons.2 (.inr ⟨c.obj, q, [ty], rfl, rfl, h2, cvisit_cons.2 (.inl ⟨c.kind, rfl, h1, rfl⟩)⟩)

/-- **C65** A finding: the order of the members matters. The JSON of no command is read once its content stands before its `object_kind`. -/
theorem C65_content_first_refused (E : Env) (c c' : Command) (a b d : Json) :
    Command.ofJson E (.obj [(c!"type", a), (c!"content", b), (c!"object_kind", d)]) ≠ .ok c ∧
    Command.ofJson E (.obj [(c!"content", b), (c!"object_kind", d), (c!"type", a)]) ≠ .ok c' := by
  constructor <;> intro h <;> obtain ⟨ty, p, q, h1, h2, e | e⟩ := (C65_command_read_exact ..).1 h <;> cases e
  · exact absurd h2.1 (by simp)
  · exact absurd h1.1 (by simp)
  · exact absurd h1.1 (by simp)
  · exact absurd h2.1 (by simp)

/-- the attributes of a capture base content: among its members, one of whose types is an empty array (at any depth) -/
def EmptyTypeIn (content : Json) : Prop :=
  ∃ l as n v, structMembers [c!"attributes", c!"properties", c!"flagged_attributes"] content = some l ∧ (c!"attributes", .obj as) ∈ l ∧ (n, v) ∈ as ∧ EmptyArr v

theorem collectRes_panic {ε α β : Type} {f : α → Res ε β} : {l : List α} → collectRes f l = .panic → ∃ a ∈ l, f a = .panic
  | [], h => by cases h
  | a :: t, h => by
    unfold collectRes at h
    cases ha : f a with
    | panic => exact ⟨a, List.mem_cons_self .., ha⟩
    | err e => rw [ha] at h; cases h
    | ok b =>
      rw [ha] at h
      dsimp only at h
      cases ht : collectRes f t with
      | panic =>
        obtain ⟨x, hx, hp⟩ := collectRes_panic ht
        exact ⟨x, List.mem_cons_of_mem _ hx, hp⟩
      | err e => rw [ht] at h; cases h
      | ok r => rw [ht] at h; cases h

theorem bind_panic_cases {ε α β : Type} {x : Res ε α} {f : α → Res ε β} (h : (x >>= f) = .panic) :
    x = .panic ∨ ∃ a, x = .ok a ∧ f a = .panic := by
  cases x with
  | ok a => exact .inr ⟨a, rfl, h⟩
  | err e => cases h
  | panic => exact .inl rfl

theorem ofOption_ne_panic {α : Type} (o : Option α) : DRes.ofOption o ≠ .panic := by cases o <;> simp [DRes.ofOption]

theorem attrsOfJson_panic {E : Env} {o : Option Json} (h : attrsOfJson E o = .panic) :
    ∃ as n v, o = some (.obj as) ∧ (n, v) ∈ as ∧ EmptyArr v := by
  unfold attrsOfJson at h
  split at h <;> first | (cases h; done) | skip
  next l =>
    split at h <;> first | (cases h; done) | skip
    next hc =>
      obtain ⟨⟨n, v⟩, hm, hp⟩ := collectRes_panic hc
      refine ⟨l, n, v, rfl, hm, (C08_attribute_type_json_panics E v).1 ?_⟩
      dsimp only at hp
      cases hv : NAttr.ofJson E v with
      | panic => rfl
      | ok a => rw [hv] at hp; cases hp
      | err e => rw [hv] at hp; cases hp

theorem valsOfJson_ne_panic (E : Env) (o : Option Json) : valsOfJson E o ≠ .panic := by
  unfold valsOfJson
  intro h
  repeat' split at h
  all_goals cases h

theorem strsOfJson_ne_panic (o : Option Json) : strsOfJson o ≠ .panic := by
  unfold strsOfJson
  intro h
  split at h <;> first | (cases h; done) | skip
  split at h <;> first | (cases h; done) | skip
  next hc =>
    obtain ⟨j, -, hp⟩ := collectRes_panic hc
    exact ofOption_ne_panic _ hp

theorem jfield_mem {k : Str} {l : List (Str × Json)} {v : Json} (h : jfield k l = some (some v)) : (k, v) ∈ l := by
  unfold jfield at h
  split at h <;> first | (cases h; done) | skip
  next p hp =>
    cases h
    have : p ∈ l.filter fun p => decide (p.1 = k) := by rw [hp]; exact List.mem_singleton.2 rfl
    obtain ⟨h1, h2⟩ := List.mem_filter.1 this
    have : p.1 = k := of_decide_eq_true h2
    subst this
    exact h1

theorem captureContent_panic {E : Env} {content : Json} (h : CaptureContent.ofJson E content = .panic) : EmptyTypeIn content := by
  unfold CaptureContent.ofJson at h
  split at h
  · next l hl =>
    rcases bind_panic_cases h with h | ⟨a, ha, h⟩
    · exact absurd h (ofOption_ne_panic _)
    rcases bind_panic_cases h with h | ⟨p, -, h⟩
    · exact absurd h (ofOption_ne_panic _)
    rcases bind_panic_cases h with h | ⟨f, -, h⟩
    · exact absurd h (ofOption_ne_panic _)
    rcases bind_panic_cases h with h | ⟨_, -, h⟩
    · obtain ⟨as, n, v, rfl, h1, h2⟩ := attrsOfJson_panic h
      refine ⟨l, as, n, v, hl, jfield_mem ?_, h1, h2⟩
      cases hj : jfield c!"attributes" l with
      | none => rw [hj] at ha; cases ha
      | some x => rw [hj] at ha; cases ha; rfl
    rcases bind_panic_cases h with h | ⟨_, -, h⟩
    · exact absurd h (valsOfJson_ne_panic _ _)
    rcases bind_panic_cases h with h | ⟨_, -, h⟩
    · exact absurd h (strsOfJson_ne_panic _)
    cases h
  · cases h

theorem content_ne_panic (E : Env) (content : Json) : Content.ofJson E content ≠ .panic := by
  intro h
  unfold Content.ofJson at h
  split at h
  · rcases bind_panic_cases h with h | ⟨a, ha, h⟩
    · exact ofOption_ne_panic _ h
    rcases bind_panic_cases h with h | ⟨p, -, h⟩
    · exact ofOption_ne_panic _ h
    rcases bind_panic_cases h with h | ⟨f, -, h⟩
    · exact valsOfJson_ne_panic _ _ h
    rcases bind_panic_cases h with h | ⟨_, -, h⟩
    · exact valsOfJson_ne_panic _ _ h
    cases h
  · cases h

theorem bundleContent_ne_panic (E : Env) (content : Json) : bundleContentOfJson E content ≠ .panic := by
  intro h
  unfold bundleContentOfJson at h
  split at h
  · split at h
    · next s _ =>
      cases hp : RefVal.parse E s with
      | panic => exact (C07_reference_parse_spec E s).2.2.2.2 hp
      | ok a => rw [hp] at h; cases h
      | err e => rw [hp] at h; cases h
    · cases h
  · cases h

/-- a document in which an attribute of a capture base has an empty array as its type (or within it) -/
def EmptyTypeAt (l : List (Str × Json)) : Prop :=
  ∃ pre q post, l = pre ++ (c!"object_kind", .str c!"CaptureBase") :: q :: post ∧ EmptyTypeIn q.2

theorem EmptyTypeAt.cons {l : List (Str × Json)} (p : Str × Json) : EmptyTypeAt l → EmptyTypeAt (p :: l)
  | ⟨pre, q, post, e, h⟩ => ⟨p :: pre, q, post, by rw [e]; rfl, h⟩

theorem cvisit_panic (E : Env) : (kind : Option CmdType) → (ok : Option ObjKind) → (l : List (Str × Json)) →
    Command.visit E kind ok l = .panic → EmptyTypeAt l
  | kind, ok, [], h => by
    unfold Command.visit at h
    split at h <;> cases h
  | kind, ok, [(key, v)], h => by
    rw [Command.visit] at h
    split at h
    · rcases bind_panic_cases h with h | ⟨k, -, h⟩
      · unfold visitType at h
        split at h
        · exact absurd h (ofOption_ne_panic _)
        · cases h
      · unfold Command.visit at h
        split at h <;> cases h
    · cases h
  | kind, ok, (key, v) :: (key', c) :: t, h => by
    rw [Command.visit] at h
    split at h
    · rcases bind_panic_cases h with h | ⟨k, -, h⟩
      · unfold visitType at h
        split at h
        · exact absurd h (ofOption_ne_panic _)
        · cases h
      · exact (cvisit_panic E _ _ _ h).cons _
    · split at h
      · next hk =>
        rcases bind_panic_cases h with h | ⟨k, -, h⟩
        · unfold visitObj at h
          split at h
          · next s =>
            unfold objKindOfJson at h
            split at h
            · next e =>
              subst e; subst hk
              split at h <;> first | (cases h; done) | skip
              next hc => exact ⟨[], (key', c), t, rfl, captureContent_panic hc⟩
            · split at h
              · split at h <;> first | (cases h; done) | skip
                next hc => exact absurd hc (bundleContent_ne_panic _ _)
              · split at h
                · cases h
                · split at h <;> first | (cases h; done) | skip
                  next hc => exact absurd hc (content_ne_panic _ _)
          · cases h
        · exact ((cvisit_panic E _ _ _ h).cons _).cons _
      · cases h

/-- **C65** Reading a command aborts only if it is about a capture base with an attribute whose type is an empty array or an array
(of arrays …) of one. -/
theorem C65_command_aborts (E : Env) (j : Json) (h : Command.ofJson E j = .panic) : ∃ l, j = .obj l ∧ EmptyTypeAt l := by
  unfold Command.ofJson at h
  split at h
  · exact ⟨_, rfl, cvisit_panic E _ _ _ h⟩
  · cases h

/-- **C65** … and then it does, if nothing else is wrong with it: the other types can be read, and the command is otherwise one that is read. -/
theorem C65_command_aborts_if (E : Env) (k : CmdType) (key : Str) (as : List (Str × Json)) (n : Str) (v : Json) (hv : (n, v) ∈ as) (he : EmptyArr v)
    (fine : ∀ p ∈ as, EmptyArr p.2 ∨ ∃ a, NAttr.ofJson E p.2 = .ok a) :
    Command.ofJson E (.obj [(c!"type", .str k.toStr), (c!"object_kind", .str c!"CaptureBase"), (key, .obj [(c!"attributes", .obj as)])]) = .panic := by
  have hc : CaptureContent.ofJson E (.obj [(c!"attributes", .obj as)]) = .panic := by
    have ha : attrsOfJson E (some (.obj as)) = .panic := by
      have : collectRes (fun p : Str × Json =>
        match NAttr.ofJson E p.2 with
        | .ok a => (.ok (p.1, a) : Res AttrErr (Str × NAttr))
        | .err e => .err e
        | .panic => .panic) as = .panic := by
        clear k key
        induction as with
        | nil => cases hv
        | cons x t ih =>
          unfold collectRes
          rcases fine x (List.mem_cons_self ..) with hx | ⟨a, hx⟩
          · rw [(C08_attribute_type_json_panics E x.2).2 hx]
          · rw [hx]
            dsimp only
            rcases List.mem_cons.1 hv with e | hm
            · subst e
              rw [(C08_attribute_type_json_panics E v).2 he] at hx; cases hx
            · rw [ih hm fun p hp => fine p (List.mem_cons_of_mem _ hp)]
      exact (congrArg (fun r : Res AttrErr (List (Str × NAttr)) => match r with
        | .ok r => (.ok (some (imExtend [] r)) : DRes (Option (List (Str × NAttr))))
        | .err _ => .err ()
        | .panic => .panic) this).trans rfl
    unfold CaptureContent.ofJson
    have h1 : structMembers [c!"attributes", c!"properties", c!"flagged_attributes"] (.obj [(c!"attributes", Json.obj as)]) =
      some [(c!"attributes", .obj as)] := rfl
    rw [h1]
    dsimp only
    rw [show jfield c!"attributes" [(c!"attributes", Json.obj as)] = some (some (.obj as)) from rfl,
      show jfield c!"properties" [(c!"attributes", Json.obj as)] = some none from rfl,
      show jfield c!"flagged_attributes" [(c!"attributes", Json.obj as)] = some none from rfl]
    show (attrsOfJson E (some (.obj as)) >>= _) = _
    rw [ha]; rfl
  show Command.visit E none none _ = _
  rw [Command.visit, if_pos rfl, (visitType_ok (kind := none) (v := .str k.toStr)).2 ⟨rfl, rfl, .inl rfl⟩]
  show Command.visit E (some k) none _ = _
  rw [Command.visit, if_neg (by decide), if_pos rfl]
  unfold visitObj objKindOfJson
  dsimp only
  rw [if_pos rfl, hc]
  rfl

/-- **C65** Reading a whole tree aborts only if one of its commands does. -/
theorem C65_ast_aborts (E : Env) (j : Json) (h : OCAAst.ofJson E j = .panic) :
    ∃ l cs c m, structMembers [c!"version", c!"commands", c!"commands_meta", c!"meta"] j = some l ∧ (c!"commands", .arr cs) ∈ l ∧ c ∈ cs ∧
      c = .obj m ∧ EmptyTypeAt m := by
  have nf : ∀ k l, needField k l ≠ .panic := by
    intro k l h
    unfold needField at h
    split at h <;> cases h
  unfold OCAAst.ofJson treeOfJson at h
  split at h
  · cases h
  · next l hl =>
    rcases bind_panic_cases h with h | ⟨_, -, h⟩
    · exact absurd h (nf _ _)
    rcases bind_panic_cases h with h | ⟨_, -, h⟩
    · exact absurd h (ofOption_ne_panic _)
    rcases bind_panic_cases h with h | ⟨cs, hcs, h⟩
    · exact absurd h (nf _ _)
    rcases bind_panic_cases h with h | ⟨_, -, h⟩
    · unfold vecOfJson at h
      split at h
      · obtain ⟨c, hc, hp⟩ := collectRes_panic h
        obtain ⟨m, rfl, hm⟩ := C65_command_aborts E c hp
        refine ⟨l, _, _, m, hl, jfield_mem ?_, hc, rfl, hm⟩
        unfold needField at hcs
        split at hcs
        · next e => cases hcs; exact e
        · cases hcs
      · cases h
    rcases bind_panic_cases h with h | ⟨_, -, h⟩
    · exact absurd h (nf _ _)
    rcases bind_panic_cases h with h | ⟨_, -, h⟩
    · exact absurd h (ofOption_ne_panic _)
    rcases bind_panic_cases h with h | ⟨_, -, h⟩
    · exact absurd h (nf _ _)
    rcases bind_panic_cases h with h | ⟨_, -, h⟩
    · exact absurd h (ofOption_ne_panic _)
    cases h

/-- concrete cases: a command with its type last and an odd key is read; with its content first it is refused; with an empty array as a type it aborts -/
theorem C65_command_read_examples :
    (match Command.ofJson Env.demo (.obj [(c!"object_kind", .str c!"CaptureBase"), (c!"x", .obj [(c!"attributes", .obj [(c!"a", .str c!"Text")])]),
      (c!"type", .str c!"Add")]) with
      | .ok ⟨.add, .captureBase c⟩ => decide (c.attributes = some [(c!"a", .val .text)])
      | _ => false) = true ∧
    (match Command.ofJson Env.demo (.obj [(c!"type", .str c!"Add"), (c!"content", .obj [(c!"attributes", .obj [(c!"a", .str c!"Text")])]),
      (c!"object_kind", .str c!"CaptureBase")]) with
      | .err _ => true
      | _ => false) = true ∧
    Command.ofJson Env.demo (.obj [(c!"type", .str c!"Add"), (c!"object_kind", .str c!"CaptureBase"),
      (c!"content", .obj [(c!"attributes", .obj [(c!"a", .str c!"Text"), (c!"b", .arr [.arr []])])])]) = .panic := by
  refine ⟨by decide +kernel, by decide +kernel, ?_⟩
  exact C65_command_aborts_if Env.demo .add c!"content" _ c!"b" (.arr [.arr []]) (by simp) (.deeper _ _ .here) (by
    intro p hp
    rcases List.mem_cons.1 hp with rfl | hp
    · exact .inr ⟨.val .text, rfl⟩
    · rw [List.mem_singleton.1 hp]
      exact .inl (.deeper _ _ .here))

end OCA
