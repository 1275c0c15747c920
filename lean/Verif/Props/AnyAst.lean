import Verif.Props.AnyBase
import Verif.Props.Commands
/-!
# C81: the commands of a bundle of any origin

`OCABundle::to_ast` (`state/oca.rs:928-1295`) takes any bundle. Exactly when it aborts, which commands it gives, what building them does and what the bundle
built from them tells, compared with the bundle.
-/
namespace OCA

/-! ## Specification -/

/-- the kinds of overlays that give a command -/
def exportable : List OvKind :=
  [.characterEncoding, .format, .metaOv, .label, .information, .conditional, .conformance, .entryCode, .entry, .cardinality, .unit]

/-- What `to_ast` does not survive in an overlay: a language without a two letter code, a condition without a reading. -/
def OvBody.Untellable (E : Env) (b : OvBody) : Prop :=
  (∃ l, b.language = some l ∧ E.lang1Inv l = none) ∨
  ∃ c d, b = .conditional c d ∧ ∃ n x, c.get n = some x ∧ ¬ ∃ ds s, d.get n = some ds ∧ ReadsBack E ds x s

/-- The value a command has for the attribute, for an overlay with this content. The pairs of an entry are in any order. -/
def OvBody.Value (E : Env) (n : Str) (v : NVal) : OvBody → Prop
  | .charEnc m => ∃ e, m.get n = some e ∧ v = .val e.toStr
  | .format m => ∃ s, m.get n = some s ∧ v = .val s
  | .conformance m => ∃ s, m.get n = some s ∧ v = .val s
  | .cardinality m => ∃ s, m.get n = some s ∧ v = .val s
  | .unit m => ∃ s, m.get n = some s ∧ v = .val s
  | .label _ _ m _ => ∃ s, m.get n = some s ∧ v = .val s
  | .information _ m => ∃ s, m.get n = some s ∧ v = .val s
  | .conditional c d => ∃ x ds s, c.get n = some x ∧ d.get n = some ds ∧ ReadsBack E ds x s ∧ v = .val s
  | .entryCode m => ∃ e, m.get n = some e ∧ ((∃ s, e = .sai s ∧ v = .val s) ∨ (∃ l, e = .array l ∧ v = .arr (l.map .val)) ∨
      ∃ l, e = .object l ∧ v = .obj (l.map fun p => (p.1, .arr (p.2.map .val))))
  | .entry _ m => ∃ e, m.get n = some e ∧ ((∃ s, e = .sai s ∧ v = .val s) ∨
      ∃ (x : FMap Str) (l : List (Str × Str)), e = .object x ∧ v = .obj (l.map fun p => (p.1, .val p.2)) ∧ l.Perm x.l)
  | _ => False

/-- A property of the command: the two letter code of the language; and the pairs of a meta overlay, also one that happens to be named `lang`. -/
def OvBody.Property (E : Env) (k v : Str) (b : OvBody) : Prop :=
  (∃ l ps, b = .metaOv l ps ∧ ps.get k = some v) ∨
  (k = c!"lang" ∧ (∃ l, b.language = some l ∧ E.lang1Inv l = some v) ∧ ∀ l ps, b = .metaOv l ps → ps.get c!"lang" = none)

/-- The command says what the overlay does: an ADD of the overlay's type and version, with each name once. -/
def Overlay.ToldBy (E : Env) (o : Overlay) (c : Command) : Prop :=
  ∃ cc, c = ⟨.add, .overlay o.type cc⟩ ∧ c.Distinct ∧
    (∀ p ∈ cc.attributes.getD [], o.body.Value E p.1 p.2) ∧ (∀ n ∈ o.body.attributes, n ∈ (cc.attributes.getD []).map (·.1)) ∧
    (∀ k w, (k, w) ∈ cc.properties.getD [] ↔ ∃ v, w = .val v ∧ o.body.Property E k v)

/-- The first command: the attributes in any order, and the classification unless it is empty. -/
def Bundle.BaseToldBy (b : Bundle) (c : Command) : Prop :=
  ∃ l, l.Perm b.captureBase.attributes.l ∧
    c = ⟨.add, .captureBase ⟨some l, if b.captureBase.classification = [] then none else some [(c!"classification", .val b.captureBase.classification)], none⟩⟩

/-- What the command of an overlay says of an attribute: the facts of the overlay; of a condition, the one numbered again. -/
def OvBody.Meant (E : Env) (n : Str) (F : Fact) (b : OvBody) : Prop :=
  (b.kind ∈ exportable ∧ F.asTold = true ∧ b.States n F) ∨
  ∃ c ds c0 ds0 s, F = .condition c ds ∧ b.States n (.condition c0 ds0) ∧ ReadsBack E ds0 c0 s ∧ setCondition s = (c, ds)

/-- The language the pairs of a meta overlay go to: its own, or that of the pair named `lang`, if there is one. -/
def MetaLang (E : Env) (l0 : Lang) (ps : FMap Str) (l : Lang) : Prop :=
  (ps.get c!"lang" = none ∧ l = l0) ∨ ∃ x, ps.get c!"lang" = some x ∧ E.lang1 x = some l

/-- the overlay has a pair, not named `lang`, that goes to the language -/
def OvBody.MeantMeta (E : Env) (l : Lang) (k v : Str) (b : OvBody) : Prop :=
  ∃ l0 ps, b = .metaOv l0 ps ∧ MetaLang E l0 ps l ∧ k ≠ c!"lang" ∧ ps.get k = some v

/-- the names of groups of codes are distinct (they are the keys of an IndexMap) -/
def OvBody.CodesDistinct (b : OvBody) : Prop := ∀ m, b = .entryCode m → ∀ n g, m.get n = some (.object g) → (g.map (·.1)).Nodup

/-- The first overlay of the bundle for which `S` or not `Q` is one for which `S`. -/
def Bundle.FirstOverlay (b : Bundle) (S Q : OvBody → Prop) : Prop :=
  ∃ pre o post, b.overlays = pre ++ o :: post ∧ S o.body ∧ ∀ x ∈ pre, Q x.body

/-- what an overlay needs so that its command is accepted -/
def Bundle.Names (b : Bundle) (x : OvBody) : Prop := ∀ n ∈ x.attributes, (b.captureBase.attributes.get n).isSome = true

/-- a meta overlay with a pair named `lang` that is no two letter code, and another pair -/
def OvBody.LostMeta (E : Env) (x : OvBody) : Prop :=
  ∃ l ps s k v, x = .metaOv l ps ∧ ps.get c!"lang" = some s ∧ E.lang1 s = none ∧ k ≠ c!"lang" ∧ ps.get k = some v

/-! ## Proofs -/

theorem condTexts_any {ε : Type} (E : Env) (d : FMap (List Str)) (l : List (Str × Str)) :
    ((∃ n x, (n, x) ∈ l ∧ ¬ ∃ ds s, d.get n = some ds ∧ ReadsBack E ds x s) → (condTexts E d l : Res ε _) = .panic) ∧
    ((∀ n x, (n, x) ∈ l → ∃ ds s, d.get n = some ds ∧ ReadsBack E ds x s) → ∃ r, (condTexts E d l : Res ε _) = .ok r ∧ r.map (·.1) = l.map (·.1) ∧
      ∀ p ∈ r, ∃ x ds s, (p.1, x) ∈ l ∧ d.get p.1 = some ds ∧ ReadsBack E ds x s ∧ p.2 = .val s) := by
  induction l with
  | nil => exact ⟨(fun ⟨_, _, h, _⟩ => by cases h), fun _ => ⟨[], rfl, rfl, (fun p hp => by cases hp)⟩⟩
  | cons p t ih =>
    obtain ⟨n, c⟩ := p
    unfold condTexts
    by_cases hr : ∃ ds s, d.get n = some ds ∧ ReadsBack E ds c s
    · obtain ⟨ds, s, h1, h2⟩ := hr
      have e := ((expand_iff (ε := ε) E ds c).1 s).2 h2
      rw [h1]
      show (_ → Res.bind (expandCondition E c ds) _ = _) ∧ (_ → ∃ r, Res.bind (expandCondition E c ds) _ = _ ∧ _)
      rw [e]
      show (_ → Res.bind (condTexts E d t) _ = _) ∧ (_ → ∃ r, Res.bind (condTexts E d t) _ = _ ∧ _)
      constructor
      · rintro ⟨n', x, hm, hn⟩
        rcases List.mem_cons.1 hm with e' | hm
        · cases e'; exact absurd ⟨ds, s, h1, h2⟩ hn
        · rw [ih.1 ⟨n', x, hm, hn⟩]; rfl
      · intro h
        obtain ⟨r, e1, e2, e3⟩ := ih.2 fun n x hm => h n x (.tail _ hm)
        rw [e1]
        refine ⟨_, rfl, ?_, ?_⟩
        · rw [List.map_cons, List.map_cons, e2]
        · intro p hp
          rcases List.mem_cons.1 hp with rfl | hp
          · exact ⟨c, ds, s, .head _, h1, h2, rfl⟩
          · obtain ⟨x, ds, s, k1, k2⟩ := e3 p hp
            exact ⟨x, ds, s, .tail _ k1, k2⟩
    · refine ⟨fun _ => ?_, fun h => absurd (h n c (.head _)) hr⟩
      cases hd : d.get n with
      | none => rfl
      | some ds =>
        show Res.bind (expandCondition E c ds) _ = _
        cases e : (expandCondition E c ds : Res ε Str) with
        | ok s => exact absurd ⟨ds, s, hd, ((expand_iff E ds c).1 s).1 e⟩ hr
        | err x => exact absurd e ((expand_iff E ds c).2 x)
        | panic => rfl

theorem mem_iter {V : Type} {O : Order} {site : Nat} {m : FMap V} {p : Str × V} : p ∈ O.iter site [] m ↔ m.get p.1 = some p.2 := by
  rw [(O.perm site [] m).mem_iff, FMap.get_eq_some_iff]

theorem mem_attrsOf {V : Type} {O : Order} {site : Nat} {f : V → NVal} {m : FMap V} {p : Str × NVal} :
    p ∈ attrsOf O site f m ↔ ∃ v, m.get p.1 = some v ∧ p.2 = f v := by
  unfold attrsOf
  rw [List.mem_map]
  constructor
  · rintro ⟨q, hq, rfl⟩; exact ⟨q.2, mem_iter.1 hq, rfl⟩
  · rintro ⟨v, h1, h2⟩; exact ⟨(p.1, v), mem_iter.2 h1, by rw [← h2]⟩

theorem keys_attrsOf {V : Type} {O : Order} {site : Nat} {f : V → NVal} {m : FMap V} :
    (attrsOf O site f m).map (·.1) = (O.iter site [] m).map (·.1) := by
  unfold attrsOf
  rw [List.map_map]; rfl

theorem mem_keys_iter {V : Type} {O : Order} {site : Nat} {m : FMap V} {n : Str} (h : n ∈ m.keys) : n ∈ (O.iter site [] m).map (·.1) :=
  ((O.perm site [] m).map _).mem_iff.2 h

/-- the common part: an overlay whose command lists the entries of a map -/
theorem told_attrs {V : Type} (E : Env) (O : Order) (site : Nat) (f : V → NVal) (m : FMap V) (o : Overlay) (ps : Option (List (Str × NVal)))
    (h1 : o.body.attributes = m.keys) (h2 : ∀ n v, m.get n = some v → o.body.Value E n (f v))
    (h3 : ((ps.getD []).map (·.1)).Nodup) (h4 : ∀ k w, (k, w) ∈ ps.getD [] ↔ ∃ v, w = .val v ∧ o.body.Property E k v) :
    o.ToldBy E (ovAdd o (some (attrsOf O site f m)) ps) := by
  refine ⟨_, rfl, ⟨?_, h3⟩, ?_, ?_, h4⟩
  · show ((attrsOf O site f m).map (·.1)).Nodup
    rw [keys_attrsOf]; exact iter_nodup O site m
  · intro p hp
    obtain ⟨v, e1, e2⟩ := mem_attrsOf.1 hp
    rw [e2]; exact h2 _ _ e1
  · intro n hn
    show n ∈ (attrsOf O site f m).map (·.1)
    rw [keys_attrsOf]
    rw [h1] at hn
    exact mem_keys_iter hn

theorem imGet_nodup {V : Type} {l : List (Str × V)} (h : (l.map (·.1)).Nodup) (k : Str) (v : V) : imGet k l = some v ↔ (k, v) ∈ l := by
  unfold imGet
  induction l with
  | nil => simp [FMap.lget]
  | cons p t ih =>
    obtain ⟨a, b⟩ := p
    rw [List.map_cons, List.nodup_cons] at h
    simp only [FMap.lget]
    by_cases e : k = a
    · subst e
      rw [if_pos rfl]
      constructor
      · intro h'; cases h'; exact .head _
      · intro h'
        rcases List.mem_cons.1 h' with e | h'
        · cases e; rfl
        · exact absurd (List.mem_map.2 ⟨_, h', rfl⟩) h.1
    · rw [if_neg e, ih h.2, List.mem_cons]
      constructor
      · exact .inr
      · rintro (h' | h')
        · cases h'; exact absurd rfl e
        · exact h'

theorem foldl_imInsert_mem (l : List (Str × Str)) (hl : (l.map (·.1)).Nodup) (acc : List (Str × NVal)) (ha : (acc.map (·.1)).Nodup) :
    ((l.foldl (fun acc q => imInsert q.1 (.val q.2) acc) acc).map (·.1)).Nodup ∧
    ∀ k w, (k, w) ∈ l.foldl (fun acc q => imInsert q.1 (.val q.2) acc) acc ↔
      (∃ v, w = .val v ∧ (k, v) ∈ l) ∨ (k ∉ l.map (·.1) ∧ (k, w) ∈ acc) := by
  have e : l.foldl (fun acc q => imInsert q.1 (.val q.2) acc) acc = imExtend acc (l.map fun q => (q.1, NVal.val q.2)) := by
    unfold imExtend
    rw [List.foldl_map]
  rw [e]
  have hn := imExtend_keys_nodup acc (l.map fun q => (q.1, NVal.val q.2)) ha
  refine ⟨hn, fun k w => ?_⟩
  have hk : ((l.map fun q => (q.1, NVal.val q.2)).map (·.1)) = l.map (·.1) := by rw [List.map_map]; rfl
  have hm : ∀ w, (k, w) ∈ (l.map fun q => (q.1, NVal.val q.2)) ↔ ∃ v, w = .val v ∧ (k, v) ∈ l := by
    intro w
    rw [List.mem_map]
    constructor
    · rintro ⟨q, hq, e⟩; cases e; exact ⟨q.2, rfl, hq⟩
    · rintro ⟨v, rfl, hv⟩; exact ⟨(k, v), hv, rfl⟩
  rw [← imGet_nodup hn, imGet_imExtend, ← hm]
  rw [← imGet_nodup ha]
  cases hv : FMap.lastVal (l.map fun q => (q.1, NVal.val q.2)) k with
  | some v =>
    have := (lastVal_nodup (hk ▸ hl) k v).1 hv
    have hin : k ∈ l.map (·.1) := hk ▸ List.mem_map.2 ⟨_, this, rfl⟩
    rw [← lastVal_nodup (hk ▸ hl), hv]
    simp [hin]
  | none =>
    have : k ∉ l.map (·.1) := by
      rw [← hk]
      intro hin
      obtain ⟨q, hq, rfl⟩ := List.mem_map.1 hin
      rw [(lastVal_nodup (hk ▸ hl) q.1 q.2).2 hq] at hv
      cases hv
    rw [← lastVal_nodup (hk ▸ hl), hv]
    simp [this]

/-- the command of one overlay, whatever it is -/
theorem ovCommand_any {ε : Type} (E : Env) (O : Order) (o : Overlay) :
    (o.body.Untellable E → (ovCommand E O o : Res ε _) = .panic) ∧
    (¬ o.body.Untellable E → (o.body.kind ∈ exportable → ∃ c, (ovCommand E O o : Res ε _) = .ok (some c) ∧ o.ToldBy E c) ∧
      (o.body.kind ∉ exportable → (ovCommand E O o : Res ε _) = .ok none)) := by
  have nolang : ∀ k w, o.body.language = none → ((k, w) ∈ (none : Option (List (Str × NVal))).getD [] ↔ ∃ v, w = .val v ∧ o.body.Property E k v) := by
    intro k w h
    constructor
    · intro h'; cases h'
    · rintro ⟨v, -, ⟨l, ps, e, -⟩ | ⟨-, ⟨l, e, -⟩, -⟩⟩
      · rw [e] at h; cases h
      · rw [e] at h; cases h
  have lang : ∀ l s, o.body.language = some l → E.lang1Inv l = some s → o.body.kind ≠ .metaOv → ∀ k w, ((k, w) ∈ (some [(c!"lang", NVal.val s)]).getD [] ↔ ∃ v, w = .val v ∧ o.body.Property E k v) := by
    intro l s h hs hm k w
    have hm' : ∀ l ps, o.body ≠ .metaOv l ps := by intro l ps e; rw [e] at hm; exact hm rfl
    show (k, w) ∈ [(c!"lang", NVal.val s)] ↔ _
    rw [List.mem_singleton]
    constructor
    · intro e; cases e; exact ⟨s, rfl, .inr ⟨rfl, ⟨l, h, hs⟩, fun l ps e => absurd e (hm' l ps)⟩⟩
    · rintro ⟨v, rfl, ⟨l', ps, e, -⟩ | ⟨rfl, ⟨l', e, e'⟩, -⟩⟩
      · exact absurd e (hm' l' ps)
      · rw [h] at e; cases e; rw [hs] at e'; cases e'; rfl
  obtain ⟨said, cb, ver, body⟩ := o
  have plain : body.language = none → (∀ c d, body ≠ .conditional c d) → ¬ body.Untellable E := by
    rintro h1 h2 (⟨l, h, -⟩ | ⟨c, d, h, -⟩)
    · rw [h1] at h; cases h
    · exact h2 c d h
  have nd0 : (((none : Option (List (Str × NVal))).getD []).map (·.1)).Nodup := List.nodup_nil
  have nd1 : ∀ s, (((some [(c!"lang", NVal.val s)]).getD []).map (·.1)).Nodup := fun s => by simp
  have tongue : ∀ l, body.language = some l → E.lang1Inv l = none → body.Untellable E := fun l h1 h2 => .inl ⟨l, h1, h2⟩
  unfold ovCommand
  cases body with
  | charEnc m =>
    refine ⟨fun h => absurd h (plain rfl nofun), fun _ => ⟨fun _ => ⟨_, rfl, ?_⟩, fun h => absurd (by simp [exportable, OvBody.kind]) h⟩⟩
    exact told_attrs E O _ _ m _ none rfl (fun n v h => ⟨v, h, rfl⟩) nd0 fun k w => nolang k w rfl
  | format m =>
    refine ⟨fun h => absurd h (plain rfl nofun), fun _ => ⟨fun _ => ⟨_, rfl, ?_⟩, fun h => absurd (by simp [exportable, OvBody.kind]) h⟩⟩
    exact told_attrs E O _ _ m _ none rfl (fun n v h => ⟨v, h, rfl⟩) nd0 fun k w => nolang k w rfl
  | conformance m =>
    refine ⟨fun h => absurd h (plain rfl nofun), fun _ => ⟨fun _ => ⟨_, rfl, ?_⟩, fun h => absurd (by simp [exportable, OvBody.kind]) h⟩⟩
    exact told_attrs E O _ _ m _ none rfl (fun n v h => ⟨v, h, rfl⟩) nd0 fun k w => nolang k w rfl
  | cardinality m =>
    refine ⟨fun h => absurd h (plain rfl nofun), fun _ => ⟨fun _ => ⟨_, rfl, ?_⟩, fun h => absurd (by simp [exportable, OvBody.kind]) h⟩⟩
    exact told_attrs E O _ _ m _ none rfl (fun n v h => ⟨v, h, rfl⟩) nd0 fun k w => nolang k w rfl
  | unit m =>
    refine ⟨fun h => absurd h (plain rfl nofun), fun _ => ⟨fun _ => ⟨_, rfl, ?_⟩, fun h => absurd (by simp [exportable, OvBody.kind]) h⟩⟩
    exact told_attrs E O _ _ m _ none rfl (fun n v h => ⟨v, h, rfl⟩) nd0 fun k w => nolang k w rfl
  | entryCode m =>
    refine ⟨fun h => absurd h (plain rfl nofun), fun _ => ⟨fun _ => ⟨_, rfl, ?_⟩, fun h => absurd (by simp [exportable, OvBody.kind]) h⟩⟩
    refine told_attrs E O _ _ m _ none rfl (fun n v h => ⟨v, h, ?_⟩) nd0 fun k w => nolang k w rfl
    cases v with
    | sai s => exact .inl ⟨s, rfl, rfl⟩
    | array l => exact .inr (.inl ⟨l, rfl, rfl⟩)
    | object l => exact .inr (.inr ⟨l, rfl, rfl⟩)
  | conditional c d =>
    show (_ → Res.bind (condTexts E d _) _ = _) ∧ (_ → (_ → ∃ c', Res.bind (condTexts E d _) _ = _ ∧ _) ∧ _)
    obtain ⟨h1, h2⟩ := condTexts_any (ε := ε) E d (O.iter 1098 [] c)
    constructor
    · rintro (⟨l, h, -⟩ | ⟨c', d', e, n, x, hx, hn⟩)
      · cases h
      · cases e
        rw [h1 ⟨n, x, mem_iter.2 hx, hn⟩]; rfl
    · intro h
      refine ⟨fun _ => ?_, fun h => absurd (by simp [exportable, OvBody.kind]) h⟩
      obtain ⟨r, e1, e2, e3⟩ := h2 (by
        intro n x hm
        by_cases hr : ∃ ds s, d.get n = some ds ∧ ReadsBack E ds x s
        · exact hr
        · exact absurd (.inr ⟨c, d, rfl, n, x, mem_iter.1 hm, hr⟩) h)
      refine ⟨_, by rw [e1]; rfl, ?_⟩
      refine ⟨_, rfl, ⟨?_, nd0⟩, ?_, ?_, fun k w => nolang k w rfl⟩
      · show (r.map (·.1)).Nodup
        rw [e2]; exact iter_nodup O _ c
      · intro p hp
        obtain ⟨x, ds, s, k1, k2, k3, k4⟩ := e3 p hp
        exact ⟨x, ds, s, mem_iter.1 k1, k2, k3, k4⟩
      · intro n hn
        show n ∈ r.map (·.1)
        rw [e2]; exact mem_keys_iter hn
  | entry l m =>
    cases hs : E.lang1Inv l with
    | none => exact ⟨fun _ => by (unfold langProp; dsimp only; rw [hs]; rfl), fun h => absurd (tongue l rfl hs) h⟩
    | some s =>
      unfold langProp; dsimp only; rw [hs]
      refine ⟨?_, fun _ => ⟨fun _ => ⟨_, rfl, ?_⟩, fun h => absurd (by simp [exportable, OvBody.kind]) h⟩⟩
      · rintro (⟨l', h, hn⟩ | ⟨c, d, h, -⟩)
        · cases h; rw [hs] at hn; cases hn
        · cases h
      · refine told_attrs E O _ _ m _ _ rfl (fun n v h => ⟨v, h, ?_⟩) (nd1 s) (lang l s rfl hs (by simp [OvBody.kind]))
        cases v with
        | sai s => exact .inl ⟨s, rfl, rfl⟩
        | object x => exact .inr ⟨x, _, rfl, rfl, O.perm _ _ x⟩
  | label l cs m cl =>
    cases hs : E.lang1Inv l with
    | none => exact ⟨fun _ => by (unfold langProp; dsimp only; rw [hs]; rfl), fun h => absurd (tongue l rfl hs) h⟩
    | some s =>
      unfold langProp; dsimp only; rw [hs]
      refine ⟨?_, fun _ => ⟨fun _ => ⟨_, rfl, ?_⟩, fun h => absurd (by simp [exportable, OvBody.kind]) h⟩⟩
      · rintro (⟨l', h, hn⟩ | ⟨c, d, h, -⟩)
        · cases h; rw [hs] at hn; cases hn
        · cases h
      · exact told_attrs E O _ _ m _ _ rfl (fun n v h => ⟨v, h, rfl⟩) (nd1 s) (lang l s rfl hs (by simp [OvBody.kind]))
  | information l m =>
    cases hs : E.lang1Inv l with
    | none => exact ⟨fun _ => by (unfold langProp; dsimp only; rw [hs]; rfl), fun h => absurd (tongue l rfl hs) h⟩
    | some s =>
      unfold langProp; dsimp only; rw [hs]
      refine ⟨?_, fun _ => ⟨fun _ => ⟨_, rfl, ?_⟩, fun h => absurd (by simp [exportable, OvBody.kind]) h⟩⟩
      · rintro (⟨l', h, hn⟩ | ⟨c, d, h, -⟩)
        · cases h; rw [hs] at hn; cases hn
        · cases h
      · exact told_attrs E O _ _ m _ _ rfl (fun n v h => ⟨v, h, rfl⟩) (nd1 s) (lang l s rfl hs (by simp [OvBody.kind]))
  | metaOv l ps =>
    cases hs : E.lang1Inv l with
    | none => exact ⟨fun _ => by (unfold langProp; dsimp only; rw [hs]; rfl), fun h => absurd (tongue l rfl hs) h⟩
    | some s =>
      unfold langProp; dsimp only; rw [hs]
      refine ⟨?_, fun _ => ⟨fun _ => ⟨_, rfl, ?_⟩, fun h => absurd (by simp [exportable, OvBody.kind]) h⟩⟩
      · rintro (⟨l', h, hn⟩ | ⟨c, d, h, -⟩)
        · cases h; rw [hs] at hn; cases hn
        · cases h
      · obtain ⟨f1, f2⟩ := foldl_imInsert_mem (O.iter 1017 [] ps) (iter_nodup O _ ps) [(c!"lang", .val s)] (by simp)
        refine ⟨_, rfl, ⟨List.nodup_nil, f1⟩, (fun p hp => by cases hp), (fun n hn => by cases hn), fun k w => ?_⟩
        refine (f2 k w).trans ?_
        constructor
        · rintro (⟨v, rfl, h⟩ | ⟨h1, h2⟩)
          · exact ⟨v, rfl, .inl ⟨l, ps, rfl, mem_iter.1 h⟩⟩
          · rw [List.mem_singleton] at h2
            cases h2
            refine ⟨s, rfl, .inr ⟨rfl, ⟨l, rfl, hs⟩, ?_⟩⟩
            intro l' ps' e
            cases e
            cases hg : ps.get c!"lang" with
            | none => rfl
            | some v => exact absurd (List.mem_map.2 ⟨(c!"lang", v), mem_iter.2 hg, rfl⟩) h1
        · rintro ⟨v, rfl, ⟨l', ps', e, h⟩ | ⟨rfl, ⟨l', e, h⟩, h'⟩⟩
          · cases e; exact .inl ⟨v, rfl, mem_iter.2 h⟩
          · cases e
            rw [hs] at h; cases h
            refine .inr ⟨?_, .head _⟩
            intro hin
            obtain ⟨q, hq, e⟩ := List.mem_map.1 hin
            have := mem_iter.1 hq
            rw [e, h' l ps rfl] at this
            cases this
  | link t m => exact ⟨fun h => absurd h (plain rfl nofun), fun _ => ⟨fun h => absurd h (by simp [exportable, OvBody.kind]), fun _ => rfl⟩⟩
  | framing md m => exact ⟨fun h => absurd h (plain rfl nofun), fun _ => ⟨fun h => absurd h (by simp [exportable, OvBody.kind]), fun _ => rfl⟩⟩
  | mapping m => exact ⟨fun h => absurd h (plain rfl nofun), fun _ => ⟨fun h => absurd h (by simp [exportable, OvBody.kind]), fun _ => rfl⟩⟩
  | standard m => exact ⟨fun h => absurd h (plain rfl nofun), fun _ => ⟨fun h => absurd h (by simp [exportable, OvBody.kind]), fun _ => rfl⟩⟩
  | subset l => exact ⟨fun h => absurd h (plain rfl nofun), fun _ => ⟨fun h => absurd h (by simp [exportable, OvBody.kind]), fun _ => rfl⟩⟩
  | entryCodeMapping m => exact ⟨fun h => absurd h (plain rfl nofun), fun _ => ⟨fun h => absurd h (by simp [exportable, OvBody.kind]), fun _ => rfl⟩⟩

/-- the overlays that give a command -/
def Overlay.exports (o : Overlay) : Bool := decide (o.body.kind ∈ exportable)

theorem ovCommands_any {ε : Type} (E : Env) (O : Order) (l : List Overlay) :
    ((∃ o ∈ l, o.body.Untellable E) → (ovCommands E O l : Res ε _) = .panic) ∧
    ((∀ o ∈ l, ¬ o.body.Untellable E) → ∃ cs, (ovCommands E O l : Res ε _) = .ok cs ∧ All2 (Overlay.ToldBy E) (l.filter Overlay.exports) cs) := by
  induction l with
  | nil => exact ⟨(fun ⟨_, h, _⟩ => by cases h), fun _ => ⟨[], rfl, .nil⟩⟩
  | cons o t ih =>
    obtain ⟨h1, h2⟩ := ovCommand_any (ε := ε) E O o
    unfold ovCommands
    by_cases hu : o.body.Untellable E
    · refine ⟨fun _ => ?_, fun h => absurd hu (h o (.head _))⟩
      rw [h1 hu]; rfl
    · obtain ⟨h3, h4⟩ := h2 hu
      have main : ∀ oc, (ovCommand E O o : Res ε _) = .ok oc → (∀ cs, All2 (Overlay.ToldBy E) (t.filter Overlay.exports) cs →
            All2 (Overlay.ToldBy E) ((o :: t).filter Overlay.exports) (oc.toList ++ cs)) →
          ((∃ o' ∈ o :: t, o'.body.Untellable E) → (ovCommand E O o >>= fun c => ovCommands E O t >>= fun cs => pure (c.toList ++ cs) : Res ε _) = .panic) ∧
          ((∀ o' ∈ o :: t, ¬ o'.body.Untellable E) → ∃ cs, (ovCommand E O o >>= fun c => ovCommands E O t >>= fun cs => pure (c.toList ++ cs) : Res ε _) = .ok cs ∧
            All2 (Overlay.ToldBy E) ((o :: t).filter Overlay.exports) cs) := by
        intro oc e hk
        rw [e]
        constructor
        · rintro ⟨o', ho, hu'⟩
          rcases List.mem_cons.1 ho with rfl | ho
          · exact absurd hu' hu
          · show Res.bind (ovCommands E O t) _ = _
            rw [ih.1 ⟨o', ho, hu'⟩]; rfl
        · intro h
          obtain ⟨cs, e1, e2⟩ := ih.2 fun o' ho => h o' (.tail _ ho)
          refine ⟨oc.toList ++ cs, ?_, hk cs e2⟩
          show Res.bind (ovCommands E O t) _ = _
          rw [e1]; rfl
      by_cases hx : o.body.kind ∈ exportable
      · obtain ⟨c, e, hc⟩ := h3 hx
        refine main (some c) e fun cs hcs => ?_
        rw [List.filter_cons_of_pos (by simpa [Overlay.exports] using hx)]
        exact .cons hc hcs
      · refine main none (h4 hx) fun cs hcs => ?_
        rw [List.filter_cons_of_neg (by simpa [Overlay.exports] using hx)]
        exact hcs

/-- **C81** Exactly when `to_ast` aborts: for a language without a two letter code, or a condition without a reading. It never ends with an error. -/
theorem C81_aborts_iff {ε : Type} (E : Env) (O : Order) (b : Bundle) :
    ((b.toAst E O : Res ε _) = .panic ↔ ∃ o ∈ b.overlays, o.body.Untellable E) ∧ ∀ e, (b.toAst E O : Res ε _) ≠ .err e := by
  obtain ⟨h1, h2⟩ := ovCommands_any (ε := ε) E O b.overlays
  unfold Bundle.toAst
  by_cases h : ∃ o ∈ b.overlays, o.body.Untellable E
  · rw [h1 h]
    exact ⟨⟨fun _ => h, fun _ => rfl⟩, fun e h' => by cases h'⟩
  · obtain ⟨cs, e, -⟩ := h2 fun o ho hu => h ⟨o, ho, hu⟩
    rw [e]
    exact ⟨⟨(fun h' => by cases h'), fun h' => absurd h' h⟩, (fun e h' => by cases h')⟩

/-- **C81** The commands: one for the capture base, then one for each overlay of the kinds that give one, in the order of the overlays. -/
theorem C81_commands {ε : Type} (E : Env) (O : Order) (b : Bundle) (ast : OCAAst) (h : (b.toAst E O : Res ε _) = .ok ast) :
    ∃ c cs, ast.commands = c :: cs ∧ b.BaseToldBy c ∧ All2 (Overlay.ToldBy E) (b.overlays.filter fun o => decide (o.body.kind ∈ exportable)) cs := by
  obtain ⟨cs, h1, h2⟩ := Res.bind_eq_ok.1 (show Res.bind _ _ = _ from h)
  cases h2
  obtain ⟨k1, k2⟩ := ovCommands_any (ε := ε) E O b.overlays
  have hno : ∀ o ∈ b.overlays, ¬ o.body.Untellable E := by
    intro o ho hu
    rw [k1 ⟨o, ho, hu⟩] at h1; cases h1
  obtain ⟨cs', e1, e2⟩ := k2 hno
  rw [h1] at e1; cases e1
  refine ⟨_, cs, rfl, ⟨_, O.perm 954 [] _, ?_⟩, e2⟩
  unfold baseCommand
  cases b.captureBase.classification <;> rfl

theorem readsBack_unique {E : Env} {ds : List Str} {c s s' : Str} (h : ReadsBack E ds c s) (h' : ReadsBack E ds c s') : s = s' := by
  have e1 := ((expand_iff (ε := Unit) E ds c).1 s).2 h
  have e2 := ((expand_iff (ε := Unit) E ds c).1 s').2 h'
  rw [e1] at e2; cases e2; rfl

/-- the language of the command of an overlay other than meta -/
theorem told_lang {E : Env} {b : OvBody} {cc : Content} {l : Lang} (hl : b.language = some l) (hm : b.kind ≠ .metaOv) (hu : ¬ b.Untellable E)
    (hd : ((cc.properties.getD []).map (·.1)).Nodup) (hp : ∀ k w, (k, w) ∈ cc.properties.getD [] ↔ ∃ v, w = .val v ∧ b.Property E k v) : cc.lang E = some l := by
  cases hs : E.lang1Inv l with
  | none => exact absurd (.inl ⟨l, hl, hs⟩) hu
  | some s =>
    have : (c!"lang", NVal.val s) ∈ cc.properties.getD [] := by
      refine (hp _ _).2 ⟨s, rfl, .inr ⟨rfl, ⟨l, hl, hs⟩, ?_⟩⟩
      rintro l' ps rfl
      exact absurd rfl hm
    have hg := (imGet_nodup hd _ _).2 this
    unfold Content.lang
    cases hps : cc.properties with
    | none => rw [hps] at hg; cases hg
    | some ps =>
      rw [hps] at hg
      show (match imGet c!"lang" ps with | some (.val s) => E.lang1 s | _ => none) = _
      rw [show imGet c!"lang" ps = _ from hg]
      exact E.lang1Inv_inv s l hs

theorem told_value {E : Env} {b : OvBody} {cc : Content} (hx : b.kind ∈ exportable) (hu : ¬ b.Untellable E) (hc : b.CodesDistinct)
    (hd : ((cc.properties.getD []).map (·.1)).Nodup) (hp : ∀ k w, (k, w) ∈ cc.properties.getD [] ↔ ∃ v, w = .val v ∧ b.Property E k v)
    {n : Str} {v : NVal} (hv : b.Value E n v) : valueOk E b.kind cc v = true ∧ ∀ F, factOf E b.kind cc v = some F ↔ b.Meant E n F := by
  have hL := fun l hl hm => told_lang (E := E) (b := b) (cc := cc) (l := l) hl hm hu hd hp
  have plain : ∀ G : Fact, G.asTold = true → b.States n G → (∀ c ds c0 ds0 s, ¬ (b.States n (.condition c0 ds0) ∧ ReadsBack E ds0 c0 s ∧ setCondition s = (c, ds))) →
      (∀ F : Fact, b.States n F → F = G) → ∀ F, some G = some F ↔ b.Meant E n F := by
    intro G hG hs hno huniq F
    constructor
    · intro e; cases e; exact .inl ⟨hx, hG, hs⟩
    · rintro (⟨-, -, h⟩ | ⟨c, ds, c0, ds0, s, -, h⟩)
      · rw [huniq F h]
      · exact absurd h (hno c ds c0 ds0 s)
  have noc : (∀ c d, b ≠ .conditional c d) → ∀ c ds c0 ds0 s, ¬ (b.States n (.condition c0 ds0) ∧ ReadsBack E ds0 c0 s ∧ setCondition s = (c, ds)) := by
    rintro h c ds c0 ds0 s ⟨⟨m, d, e, -⟩, -⟩
    exact h m d e
  cases b with
  | charEnc m =>
    obtain ⟨e, h, rfl⟩ := hv
    simp only [valueOk, factOf, OvBody.kind, encoding_roundtrip]
    exact ⟨rfl, plain (.encoding e) rfl ⟨m, rfl, h⟩ (noc nofun) (by
      intro F hF
      cases F <;> simp only [OvBody.States, reduceCtorEq, false_and, exists_false, OvBody.charEnc.injEq, exists_eq_left'] at hF
      rw [h] at hF; cases hF; rfl)⟩
  | format m =>
    obtain ⟨e, h, rfl⟩ := hv
    exact ⟨rfl, plain (.format e) rfl ⟨m, rfl, h⟩ (noc nofun) (by
      intro F hF
      cases F <;> simp only [OvBody.States, reduceCtorEq, false_and, exists_false, OvBody.format.injEq, exists_eq_left'] at hF
      rw [h] at hF; cases hF; rfl)⟩
  | conformance m =>
    obtain ⟨e, h, rfl⟩ := hv
    exact ⟨rfl, plain (.conformance e) rfl ⟨m, rfl, h⟩ (noc nofun) (by
      intro F hF
      cases F <;> simp only [OvBody.States, reduceCtorEq, false_and, exists_false, OvBody.conformance.injEq, exists_eq_left'] at hF
      rw [h] at hF; cases hF; rfl)⟩
  | cardinality m =>
    obtain ⟨e, h, rfl⟩ := hv
    exact ⟨rfl, plain (.cardinality e) rfl ⟨m, rfl, h⟩ (noc nofun) (by
      intro F hF
      cases F <;> simp only [OvBody.States, reduceCtorEq, false_and, exists_false, OvBody.cardinality.injEq, exists_eq_left'] at hF
      rw [h] at hF; cases hF; rfl)⟩
  | unit m =>
    obtain ⟨e, h, rfl⟩ := hv
    exact ⟨rfl, plain (.unit e) rfl ⟨m, rfl, h⟩ (noc nofun) (by
      intro F hF
      cases F <;> simp only [OvBody.States, reduceCtorEq, false_and, exists_false, OvBody.unit.injEq, exists_eq_left'] at hF
      rw [h] at hF; cases hF; rfl)⟩
  | label l cs m cl =>
    obtain ⟨e, h, rfl⟩ := hv
    have hl := hL l rfl (by simp [OvBody.kind])
    simp only [valueOk, factOf, OvBody.kind, hl]
    exact ⟨rfl, plain (.label l e) rfl ⟨cs, m, cl, rfl, h⟩ (noc nofun) (by
      intro F hF
      cases F <;> simp only [OvBody.States, reduceCtorEq, false_and, exists_false] at hF
      obtain ⟨cs', m', cl', e', hF⟩ := hF
      cases e'
      rw [h] at hF; cases hF; rfl)⟩
  | information l m =>
    obtain ⟨e, h, rfl⟩ := hv
    have hl := hL l rfl (by simp [OvBody.kind])
    simp only [valueOk, factOf, OvBody.kind, hl]
    exact ⟨rfl, plain (.information l e) rfl ⟨m, rfl, h⟩ (noc nofun) (by
      intro F hF
      cases F <;> simp only [OvBody.States, reduceCtorEq, false_and, exists_false] at hF
      obtain ⟨m', e', hF⟩ := hF
      cases e'
      rw [h] at hF; cases hF; rfl)⟩
  | conditional c d =>
    obtain ⟨x, ds, s, h1, h2, h3, rfl⟩ := hv
    refine ⟨rfl, fun F => ?_⟩
    show some (Fact.condition (setCondition s).1 (setCondition s).2) = some F ↔ _
    constructor
    · intro e; cases e
      exact .inr ⟨_, _, x, ds, s, rfl, ⟨c, d, rfl, h1, h2⟩, h3, rfl⟩
    · rintro (⟨-, hF, hs⟩ | ⟨c1, ds1, c0, ds0, s', rfl, ⟨c', d', e, k1, k2⟩, k3, k4⟩)
      · cases F <;> simp only [OvBody.States, reduceCtorEq, false_and, exists_false] at hs
        cases hF
      · cases e
        rw [h1] at k1; cases k1
        rw [h2] at k2; cases k2
        cases readsBack_unique h3 k3
        rw [k4]
  | entryCode m =>
    obtain ⟨e, h, hv⟩ := hv
    have hr := entryCodes_roundtrip e fun g he => hc m rfl n g (he ▸ h)
    have hv' : v = e.toVal := by
      rcases hv with ⟨s, rfl, rfl⟩ | ⟨l, rfl, rfl⟩ | ⟨l, rfl, rfl⟩ <;> rfl
    subst hv'
    refine ⟨by cases e <;> rfl, ?_⟩
    have : factOf E .entryCode cc e.toVal = some (.entryCodes e) := by
      unfold factOf
      cases e <;> dsimp only [EntryCodes.toVal] at hr ⊢ <;> rw [hr] <;> rfl
    show ∀ F, factOf E .entryCode cc e.toVal = some F ↔ _
    rw [this]
    exact plain (.entryCodes e) rfl ⟨m, rfl, h⟩ (noc nofun) (by
      intro F hF
      cases F <;> simp only [OvBody.States, reduceCtorEq, false_and, exists_false, OvBody.entryCode.injEq, exists_eq_left'] at hF
      rw [h] at hF; cases hF; rfl)
  | entry l m =>
    obtain ⟨e, h, hv⟩ := hv
    have hl := hL l rfl (by simp [OvBody.kind])
    have hr : entriesOf v = some e := by
      rcases hv with ⟨s, rfl, rfl⟩ | ⟨x, q, rfl, rfl, hq⟩
      · rfl
      · have hf : ∀ l : List (Str × Str), (l.map fun p => (p.1, NVal.val p.2)).filterMap
            (fun p => match p.2 with | .val s => some (p.1, s) | _ => none) = l := by
          intro l
          induction l with
          | nil => rfl
          | cons p t ih => simp only [List.map_cons, List.filterMap_cons, ih]
        refine congrArg (fun x => some (EntriesEl.object x)) ((congrArg FMap.ofList (hf _)).trans ?_)
        exact FMap.ofList_perm x hq
    have hfact : factOf E .entry cc v = some (.entry l e) := by
      unfold factOf
      cases v <;> dsimp only at hr ⊢ <;> rw [hr, hl] <;> rfl
    refine ⟨?_, ?_⟩
    · show (match entriesOf v with | some _ => (cc.lang E).isSome | none => true) = true
      rw [hr, hl]; rfl
    show ∀ F, factOf E .entry cc v = some F ↔ _
    rw [hfact]
    exact plain (.entry l e) rfl ⟨m, rfl, h⟩ (noc nofun) (by
      intro F hF
      cases F <;> simp only [OvBody.States, reduceCtorEq, false_and, exists_false] at hF
      obtain ⟨m', e', hF⟩ := hF
      cases e'
      rw [h] at hF; cases hF; rfl)
  | metaOv l ps => exact hv.elim
  | link t m => exact hv.elim
  | framing md m => exact hv.elim
  | mapping m => exact hv.elim
  | standard m => exact hv.elim
  | subset l => exact hv.elim
  | entryCodeMapping m => exact hv.elim

theorem meant_attr {E : Env} {b : OvBody} {n : Str} {F : Fact} (h : b.Meant E n F) : n ∈ b.attributes := by
  have key : ∀ G : Fact, (∀ i f, G ≠ .framing i f) → b.States n G → n ∈ b.attributes := fun G hG h => loads_attr ((loads_states hG).2 h)
  rcases h with ⟨-, hF, h⟩ | ⟨c, ds, c0, ds0, s, -, h, -⟩
  · exact key F (by rintro i f rfl; cases hF) h
  · exact key _ (by rintro i f e; cases e) h

theorem value_attr {E : Env} {b : OvBody} {n : Str} {v : NVal} (h : b.Value E n v) : n ∈ b.attributes := by
  have key : ∀ {V : Type} (m : FMap V) v, m.get n = some v → n ∈ m.keys := fun m v h => List.mem_map.2 ⟨(n, v), FMap.get_eq_some_iff.1 h, rfl⟩
  cases b with
  | conditional c d => obtain ⟨x, ds, s, h, -⟩ := h; exact key _ _ h
  | metaOv l ps => exact h.elim
  | link t m => exact h.elim
  | framing md m => exact h.elim
  | mapping m => exact h.elim
  | standard m => exact h.elim
  | subset l => exact h.elim
  | entryCodeMapping m => exact h.elim
  | _ => obtain ⟨e, h, -⟩ := h; exact key _ _ h

theorem says_told {E : Env} {o : Overlay} {c : Command} (h : o.ToldBy E c) (hx : o.body.kind ∈ exportable) (hu : ¬ o.body.Untellable E) (hc : o.body.CodesDistinct)
    (n : Str) (F : Fact) : Says E c n F ↔ o.body.Meant E n F := by
  obtain ⟨cc, rfl, hd, h1, h2, h3⟩ := h
  rw [says_iff]
  constructor
  · rintro ⟨v, hv, hf⟩
    exact ((told_value hx hu hc hd.2 h3 (h1 _ hv)).2 F).1 hf
  · intro hm
    obtain ⟨⟨n', v⟩, hv, rfl⟩ := List.mem_map.1 (h2 n (meant_attr hm))
    exact ⟨v, hv, ((told_value hx hu hc hd.2 h3 (h1 _ hv)).2 F).2 hm⟩

theorem told_metaLang {E : Env} {cc : Content} {l0 : Lang} {ps : FMap Str} (hu : ¬ (OvBody.metaOv l0 ps).Untellable E)
    (hd : ((cc.properties.getD []).map (·.1)).Nodup) (hp : ∀ k w, (k, w) ∈ cc.properties.getD [] ↔ ∃ v, w = .val v ∧ (OvBody.metaOv l0 ps).Property E k v) (l : Lang) :
    cc.lang E = some l ↔ MetaLang E l0 ps l := by
  have key : ∀ s, (c!"lang", NVal.val s) ∈ cc.properties.getD [] → cc.lang E = E.lang1 s := by
    intro s h
    have hg := (imGet_nodup hd _ _).2 h
    unfold Content.lang
    cases hps : cc.properties with
    | none => rw [hps] at hg; cases hg
    | some ps =>
      rw [hps] at hg
      show (match imGet c!"lang" ps with | some (.val s) => E.lang1 s | _ => none) = _
      rw [show imGet c!"lang" ps = _ from hg]
  unfold MetaLang
  cases hg : ps.get c!"lang" with
  | some x =>
    rw [key x ((hp _ _).2 ⟨x, rfl, .inl ⟨l0, ps, rfl, hg⟩⟩)]
    simp
  | none =>
    cases hs : E.lang1Inv l0 with
    | none => exact absurd (.inl ⟨l0, rfl, hs⟩) hu
    | some s =>
      rw [key s ((hp _ _).2 ⟨s, rfl, .inr ⟨rfl, ⟨l0, rfl, hs⟩, fun l' ps' e => by cases e; exact hg⟩⟩), E.lang1Inv_inv s l0 hs]
      simp [eq_comm]

theorem told_property {E : Env} {b : OvBody} {k v : Str} (hk : k ≠ c!"lang") : b.Property E k v ↔ ∃ l ps, b = .metaOv l ps ∧ ps.get k = some v := by
  constructor
  · rintro (h | ⟨h, -⟩)
    · exact h
    · exact absurd h hk
  · exact .inl

theorem saysMeta_told {E : Env} {o : Overlay} {c : Command} (h : o.ToldBy E c) (hu : ¬ o.body.Untellable E) (l : Lang) (k v : Str) :
    SaysMeta E c l k v ↔ o.body.MeantMeta E l k v := by
  obtain ⟨said, cb, ver, body⟩ := o
  obtain ⟨cc, rfl, hd, h1, h2, h3⟩ := h
  dsimp only at h1 h2 h3 hu
  constructor
  · rintro ⟨-, t, cc', ps, e, hk, hl, hps, hm, hn⟩
    cases e
    have hk' : body.kind = .metaOv := hk
    cases body <;> simp only [OvBody.kind, reduceCtorEq] at hk'
    rename_i l0 ps'
    refine ⟨l0, ps', rfl, (told_metaLang hu hd.2 h3 l).1 hl, hn, ?_⟩
    obtain ⟨v', e, hp⟩ := (h3 k (.val v)).1 (by rw [hps]; exact hm)
    cases e
    obtain ⟨l1, ps1, e, hp⟩ := (told_property hn).1 hp
    cases e; exact hp
  · rintro ⟨l0, ps, rfl, hl, hn, hg⟩
    have hm := (h3 k (.val v)).2 ⟨v, rfl, .inl ⟨l0, ps, rfl, hg⟩⟩
    obtain ⟨ps', e, hm⟩ := mem_getD.1 hm
    exact ⟨rfl, _, cc, ps', rfl, rfl, (told_metaLang hu hd.2 h3 l).2 hl, e, hm, hn⟩

/-! ### The last and the first -/

theorem lastIn_all2 {α β : Type} {R : α → β → Prop} {S Q : α → Prop} {S' Q' : β → Prop} {l : List α} {l' : List β} (h : All2 R l l')
    (hs : ∀ x ∈ l, ∀ y, R x y → ((S x ↔ S' y) ∧ (Q x ↔ Q' y))) : (LastIn S Q l ↔ LastIn S' Q' l') ∧ ((∀ x ∈ l, Q x) ↔ ∀ y ∈ l', Q' y) := by
  induction h with
  | nil => exact ⟨⟨fun h => absurd h lastIn_nil, fun h => absurd h lastIn_nil⟩, by simp⟩
  | @cons a b t t' hab ht ih =>
    obtain ⟨i1, i2⟩ := ih fun x hx => hs x (.tail _ hx)
    obtain ⟨h1, h2⟩ := hs a (.head _) b hab
    refine ⟨?_, ?_⟩
    · rw [lastIn_cons, lastIn_cons, i1, h1, i2]
    · rw [List.forall_mem_cons, List.forall_mem_cons, h2, i2]

def FirstIn {α : Type} (S Q : α → Prop) (l : List α) : Prop := ∃ pre x post, l = pre ++ x :: post ∧ S x ∧ ∀ y ∈ pre, Q y

theorem firstIn_nil {α : Type} {S Q : α → Prop} : ¬ FirstIn S Q [] := by
  rintro ⟨pre, x, post, e, -⟩
  cases pre <;> cases e

theorem firstIn_cons {α : Type} {S Q : α → Prop} {x : α} {t : List α} : FirstIn S Q (x :: t) ↔ S x ∨ (Q x ∧ FirstIn S Q t) := by
  constructor
  · rintro ⟨pre, y, post, e, h1, h2⟩
    cases pre with
    | nil => cases e; exact .inl h1
    | cons z pre => cases e; exact .inr ⟨h2 _ (.head _), pre, y, post, rfl, h1, fun w hw => h2 w (.tail _ hw)⟩
  · rintro (h | ⟨h, pre, y, post, rfl, h1, h2⟩)
    · exact ⟨[], x, t, rfl, h, (fun y hy => by cases hy)⟩
    · refine ⟨x :: pre, y, post, rfl, h1, ?_⟩
      intro w hw
      rcases List.mem_cons.1 hw with rfl | hw
      · exact h
      · exact h2 w hw

theorem firstIn_filter {α : Type} {S Q : α → Prop} (p : α → Bool) (l : List α) (h : ∀ x ∈ l, p x = false → ¬ S x ∧ Q x) :
    FirstIn S Q (l.filter p) ↔ FirstIn S Q l := by
  induction l with
  | nil => rfl
  | cons x t ih =>
    have ih' := ih fun y hy => h y (.tail _ hy)
    rw [firstIn_cons]
    cases hp : p x with
    | true => rw [List.filter_cons_of_pos hp, firstIn_cons, ih']
    | false =>
      obtain ⟨h1, h2⟩ := h x (.head _) hp
      rw [List.filter_cons_of_neg (by simp [hp]), ih']
      simp [h1, h2]

theorem firstIn_all2 {α β : Type} {R : α → β → Prop} {S Q : α → Prop} {S' Q' : β → Prop} {l : List α} {l' : List β} (h : All2 R l l')
    (hs : ∀ x ∈ l, ∀ y, R x y → ((S x ↔ S' y) ∧ (Q x ↔ Q' y))) : FirstIn S Q l ↔ FirstIn S' Q' l' := by
  induction h with
  | nil => exact ⟨fun h => absurd h firstIn_nil, fun h => absurd h firstIn_nil⟩
  | @cons a b t t' hab ht ih =>
    obtain ⟨h1, h2⟩ := hs a (.head _) b hab
    rw [firstIn_cons, firstIn_cons, ih fun x hx => hs x (.tail _ hx), h1, h2]

/-! ### What the commands do -/

/-- the names of the attributes of a state are those of the capture base -/
def OCABox.Named (x : OCABox) (b : Bundle) : Prop := ∀ n, (x.attributes.get n).isSome = (b.captureBase.attributes.get n).isSome

theorem told_outcome {E : Env} {b : Bundle} {o : Overlay} {c : Command} (h : o.ToldBy E c) (hx : o.body.kind ∈ exportable) (hu : ¬ o.body.Untellable E)
    (hc : o.body.CodesDistinct) (x : OCABox) (hn : x.Named b) :
    (o.body.LostMeta E → applyCommand E (some x) c = .panic) ∧
    (¬ o.body.LostMeta E → ¬ b.Names o.body → ∃ es, applyCommand E (some x) c = .err es) ∧
    (¬ o.body.LostMeta E → b.Names o.body → ∃ y, applyCommand E (some x) c = .ok y ∧ y.Named b) := by
  obtain ⟨said, cb, ver, body⟩ := o
  obtain ⟨cc, rfl, hd, h1, h2, h3⟩ := h
  dsimp only at h1 h2 h3 hu hx hc
  have hA := C47_apply_aborts_iff E x ⟨.add, .overlay ⟨body.kind, ver⟩ cc⟩
  by_cases hm : body.kind = .metaOv
  · cases body <;> simp only [OvBody.kind, reduceCtorEq] at hm
    rename_i l ps
    have hlost : (OvBody.metaOv l ps).LostMeta E ↔ cc.lang E = none ∧ cc.metaPairs ≠ [] := by
      constructor
      · rintro ⟨l', ps', s, k, v, e, e1, e2, e3, e4⟩
        cases e
        constructor
        · cases hl : cc.lang E with
          | none => rfl
          | some l1 =>
            rcases (told_metaLang hu hd.2 h3 l1).1 hl with ⟨h, -⟩ | ⟨x, h, h'⟩
            · rw [e1] at h; cases h
            · rw [e1] at h; cases h; rw [e2] at h'; cases h'
        · have : (k, v) ∈ cc.metaPairs := mem_metaPairs.2 ⟨(h3 _ _).2 ⟨v, rfl, .inl ⟨l, ps, rfl, e4⟩⟩, e3⟩
          intro e; rw [e] at this; cases this
      · rintro ⟨e1, e2⟩
        obtain ⟨⟨k, v⟩, t, e⟩ := List.exists_cons_of_ne_nil e2 |>.imp fun a h => h
        have hkv : (k, v) ∈ cc.metaPairs := by rw [e]; exact .head _
        obtain ⟨hm, hk⟩ := mem_metaPairs.1 hkv
        obtain ⟨v', e', hp⟩ := (h3 _ _).1 hm
        cases e'
        obtain ⟨l1, ps1, e', hp⟩ := (told_property hk).1 hp
        cases e'
        cases hg : ps.get c!"lang" with
        | none =>
          have := (told_metaLang hu hd.2 h3 l).2 (.inl ⟨hg, rfl⟩)
          rw [e1] at this; cases this
        | some s =>
          refine ⟨l, ps, s, k, v, rfl, hg, ?_, hk, hp⟩
          cases hs : E.lang1 s with
          | none => rfl
          | some l2 =>
            have := (told_metaLang hu hd.2 h3 l2).2 (.inr ⟨s, hg, hs⟩)
            rw [e1] at this; cases this
    refine ⟨fun h => hA.2 ?_, ?_, ?_⟩
    · unfold Aborts
      dsimp only
      rw [if_pos (show (OvBody.metaOv l ps).kind = .metaOv from rfl)]
      exact hlost.1 h
    · intro _ h
      exact absurd (fun n hn => by cases hn) h
    · intro h _
      have : ∃ y, applyMeta E x cc = (.ok y : Res (List Str) _) ∧ y.Named b := by
        cases hl : cc.lang E with
        | none =>
          have hp : cc.metaPairs = [] := Classical.byContradiction fun hp => h (hlost.2 ⟨hl, hp⟩)
          exact ⟨x, (applyMeta_ok_iff E x x cc).2 (.inl ⟨hp, rfl⟩), hn⟩
        | some l1 => exact ⟨_, (applyMeta_ok_iff E x _ cc).2 (.inr ⟨l1, hl, rfl⟩), hn⟩
      exact this
  · have hloop : loopKind body.kind = true := by
      cases body <;> simp [exportable, OvBody.kind, loopKind] at hx hm ⊢
    have hlost : ¬ body.LostMeta E := by
      rintro ⟨l, ps, s, k, v, rfl, -⟩
      exact hm rfl
    have hok : ∀ p ∈ cc.attributes.getD [], valueOk E body.kind cc p.2 = true := fun p hp => (told_value hx hu hc hd.2 h3 (h1 p hp)).1
    have hhead : headOk body.kind cc = true := by
      cases body <;> simp [exportable, OvBody.kind, headOk] at hx ⊢
    have hiff := fun y => applyOverlay_ok_iff E x y body.kind cc hloop hd.1
    have hno : applyCommand E (some x) ⟨.add, .overlay ⟨body.kind, ver⟩ cc⟩ ≠ .panic := by
      intro hp
      have := hA.1 hp
      unfold Aborts at this
      dsimp only at this
      rw [if_neg hm] at this
      obtain ⟨-, -, pre, n, v, post, e, -, -, hv⟩ := this
      rw [hok (n, v) (by rw [e]; simp)] at hv
      cases hv
    refine ⟨fun h => absurd h hlost, fun _ h => ?_, fun _ h => ?_⟩
    · cases hr : applyCommand E (some x) ⟨.add, .overlay ⟨body.kind, ver⟩ cc⟩ with
      | panic => exact absurd hr hno
      | err es => exact ⟨es, hr⟩
      | ok y =>
        exfalso
        obtain ⟨-, hk, -⟩ := (hiff y).1 hr
        apply h
        intro n hn'
        obtain ⟨p, hp, rfl⟩ := List.mem_map.1 (h2 n hn')
        rw [← hn]
        exact (hk p hp).1
    · refine ⟨_, (hiff _).2 ⟨hhead, fun p hp => ⟨?_, hok p hp⟩, rfl⟩, ?_⟩
      · rw [hn]
        apply h
        exact value_attr (h1 p hp)
      · intro n
        rw [get_boxPut, Option.isSome_map, hn]

theorem told_results {E : Env} {b : Bundle} {l : List Overlay} {cs : List Command} (h : All2 (Overlay.ToldBy E) l cs)
    (hl : ∀ o ∈ l, o.body.kind ∈ exportable ∧ ¬ o.body.Untellable E ∧ o.body.CodesDistinct) (x : OCABox) (hn : x.Named b) :
    (Res.panic ∈ results E (some x) cs ↔ ∃ o ∈ l, o.body.LostMeta E) ∧
    ((∃ es, Res.err es ∈ results E (some x) cs) ↔ ∃ o ∈ l, ¬ b.Names o.body) ∧ finalState E (some x) cs ≠ none := by
  induction h generalizing x with
  | nil => exact ⟨by simp [results], by simp [results], nofun⟩
  | @cons o c t ct ho ht ih =>
    obtain ⟨k1, k2, k3⟩ := hl o (.head _)
    obtain ⟨h1, h2, h3⟩ := told_outcome (b := b) ho k1 k2 k3 x hn
    have ih' := ih fun o ho => hl o (.tail _ ho)
    unfold results finalState
    have ex : ∀ P : Overlay → Prop, (∃ a, a ∈ o :: t ∧ P a) ↔ P o ∨ ∃ a, a ∈ t ∧ P a := by
      intro P
      simp
    rw [ex, ex]
    have lostNames : o.body.LostMeta E → b.Names o.body := by
      rintro ⟨l, ps, s, k, v, e, -⟩ n hn'
      rw [e] at hn'; cases hn'
    by_cases hlost : o.body.LostMeta E
    · rw [h1 hlost]
      obtain ⟨i1, i2, i3⟩ := ih' x hn
      refine ⟨by simp [hlost], ?_, i3⟩
      simp only [List.mem_cons, reduceCtorEq, false_or]
      show (∃ es, Res.err es ∈ results E (some x) ct) ↔ _
      rw [i2]
      simp [lostNames hlost]
    · by_cases hnames : b.Names o.body
      · obtain ⟨y, e, hy⟩ := h3 hlost hnames
        rw [e]
        obtain ⟨i1, i2, i3⟩ := ih' y hy
        refine ⟨?_, ?_, i3⟩
        · simp only [List.mem_cons, reduceCtorEq, false_or]
          show Res.panic ∈ results E (some y) ct ↔ _
          rw [i1]; simp [hlost]
        · simp only [List.mem_cons, reduceCtorEq, false_or]
          show (∃ es, Res.err es ∈ results E (some y) ct) ↔ _
          rw [i2]; simp [hnames]
      · obtain ⟨es, e⟩ := h2 hlost hnames
        rw [e]
        obtain ⟨i1, i2, i3⟩ := ih' x hn
        refine ⟨?_, ?_, i3⟩
        · simp only [List.mem_cons, reduceCtorEq, false_or]
          show Res.panic ∈ results E (some x) ct ↔ _
          rw [i1]; simp [hlost]
        · exact ⟨fun _ => .inl hnames, fun _ => ⟨es, .head _⟩⟩

theorem base_named {b : Bundle} {c : Command} (E : Env) (h : b.BaseToldBy c) : ∃ x, applyCommand E none c = .ok x ∧ x.Named b := by
  obtain ⟨l, hl, rfl⟩ := h
  refine ⟨_, applyAddBase E OCABox.new _, fun n => ?_⟩
  rw [get_boxAdd]
  have hnd : (l.map (·.1)).Nodup := (hl.map _).nodup_iff.2 b.captureBase.attributes.keys_nodup
  show (match FMap.lastVal l n with | some t => some (setType (OCABox.new.attributes.get n) t) | none => OCABox.new.attributes.get n).isSome = _
  cases hg : b.captureBase.attributes.get n with
  | some t =>
    rw [(lastVal_nodup hnd n t).2 (hl.mem_iff.2 (FMap.get_eq_some_iff.1 hg))]; rfl
  | none =>
    cases hv : FMap.lastVal l n with
    | none => rfl
    | some t =>
      have := FMap.get_eq_some_iff.2 (hl.mem_iff.1 ((lastVal_nodup hnd n t).1 hv))
      rw [hg] at this; cases this

/-- **C81** What building the commands does, from scratch. It aborts exactly when some meta overlay has a pair named `lang` that is no two letter code of a
language, and another pair. Otherwise it ends with an error exactly when some overlay with a command has a name that is not one of the attributes. -/
theorem C81_outcome {ε : Type} (E : Env) (O : Order) (b : Bundle) (ast : OCAAst) (h : (b.toAst E O : Res ε _) = .ok ast)
    (hc : ∀ o ∈ b.overlays, o.body.CodesDistinct) (Os : Nat → Order) :
    (fromAst E Os none ast = .panic ↔ ∃ o ∈ b.overlays, o.body.LostMeta E) ∧
    ((∃ es, fromAst E Os none ast = .err es) ↔ (¬ ∃ o ∈ b.overlays, o.body.LostMeta E) ∧ ∃ o ∈ b.overlays, o.body.kind ∈ exportable ∧ ¬ b.Names o.body) := by
  obtain ⟨c, cs, e, hb, hcs⟩ := C81_commands E O b ast h
  have hu : ∀ o ∈ b.overlays, ¬ o.body.Untellable E := by
    intro o ho hu
    rw [(C81_aborts_iff (ε := ε) E O b).1.2 ⟨o, ho, hu⟩] at h; cases h
  obtain ⟨x, hx, hn⟩ := base_named E hb
  obtain ⟨r1, r2, r3⟩ := told_results (b := b) hcs (by
    intro o ho
    obtain ⟨ho, hk⟩ := List.mem_filter.1 ho
    exact ⟨of_decide_eq_true hk, hu o ho, hc o ho⟩) x hn
  obtain ⟨c1, c2, c3, c4⟩ := C12_build_outcome E Os none ast none rfl
  have hres : results E none ast.commands = .ok x :: results E (some x) cs := by
    rw [e]; simp only [results, hx, afterResult]
  have hfin : finalState E none ast.commands = finalState E (some x) cs := by
    rw [e]; simp only [finalState, hx, afterResult]
  have p1 : Res.panic ∈ results E none ast.commands ↔ ∃ o ∈ b.overlays, o.body.LostMeta E := by
    rw [hres]
    simp only [List.mem_cons, reduceCtorEq, false_or]
    rw [r1]
    constructor
    · rintro ⟨o, ho, hl⟩; exact ⟨o, (List.mem_filter.1 ho).1, hl⟩
    · rintro ⟨o, ho, hl⟩
      refine ⟨o, List.mem_filter.2 ⟨ho, ?_⟩, hl⟩
      obtain ⟨l, ps, s, k, v, e, -⟩ := hl
      rw [e]; simp [exportable, OvBody.kind]
  have p2 : (∃ es, Res.err es ∈ results E none ast.commands) ↔ ∃ o ∈ b.overlays, o.body.kind ∈ exportable ∧ ¬ b.Names o.body := by
    rw [hres]
    simp only [List.mem_cons, reduceCtorEq, false_or]
    rw [r2]
    constructor
    · rintro ⟨o, ho, hl⟩
      obtain ⟨ho, hk⟩ := List.mem_filter.1 ho
      exact ⟨o, ho, of_decide_eq_true hk, hl⟩
    · rintro ⟨o, ho, hk, hl⟩; exact ⟨o, List.mem_filter.2 ⟨ho, decide_eq_true hk⟩, hl⟩
  rw [← p1, ← p2]
  rw [hfin] at c3 c4
  by_cases hp : Res.panic ∈ results E none ast.commands
  · rw [c1 hp]
    exact ⟨⟨fun _ => hp, fun _ => rfl⟩, ⟨(fun ⟨_, h⟩ => by cases h), fun h => absurd hp h.1⟩⟩
  · by_cases he : ∃ es, Res.err es ∈ results E none ast.commands
    · rw [c2 hp he]
      exact ⟨⟨(fun h => by cases h), fun h => absurd h hp⟩, ⟨fun _ => ⟨hp, he⟩, fun _ => ⟨_, rfl⟩⟩⟩
    · obtain ⟨d, hd⟩ := c4 hp he r3
      rw [hd]
      exact ⟨⟨(fun h => by cases h), fun h => absurd h hp⟩, ⟨(fun ⟨_, h⟩ => by cases h), fun h => absurd h.2 he⟩⟩

theorem told_distinct {E : Env} {o : Overlay} {c : Command} (h : o.ToldBy E c) : c.Distinct := by
  obtain ⟨cc, rfl, hd, -⟩ := h; exact hd

theorem told_add {E : Env} {o : Overlay} {c : Command} (h : o.ToldBy E c) : ∃ t cc, c = ⟨.add, .overlay t cc⟩ := by
  obtain ⟨cc, rfl, -⟩ := h; exact ⟨_, cc, rfl⟩

/-- everything needed of the commands of a bundle -/
theorem toAst_parts {ε : Type} {E : Env} {O : Order} {b : Bundle} {ast : OCAAst} (h : (b.toAst E O : Res ε _) = .ok ast) :
    ∃ cc cs, ast.commands = ⟨.add, .captureBase cc⟩ :: cs ∧ b.BaseToldBy ⟨.add, .captureBase cc⟩ ∧
      All2 (Overlay.ToldBy E) (b.overlays.filter fun o => decide (o.body.kind ∈ exportable)) cs ∧
      (∀ o ∈ b.overlays, ¬ o.body.Untellable E) ∧ (∀ c ∈ ast.commands, c.Distinct) ∧ (∀ c ∈ cs, ∃ t cc, c = ⟨.add, .overlay t cc⟩) := by
  obtain ⟨c, cs, e, hb, hcs⟩ := C81_commands E O b ast h
  have hu : ∀ o ∈ b.overlays, ¬ o.body.Untellable E := by
    intro o ho hu
    rw [(C81_aborts_iff (ε := ε) E O b).1.2 ⟨o, ho, hu⟩] at h; cases h
  obtain ⟨l, hl, rfl⟩ := hb
  have key : ∀ {L : List Overlay} {C : List Command}, All2 (Overlay.ToldBy E) L C → ∀ c ∈ C, ∃ o : Overlay, o.ToldBy E c := by
    intro L C hA
    induction hA with
    | nil => exact (fun c hc => by cases hc)
    | cons ha _ ih =>
      intro c hc
      rcases List.mem_cons.1 hc with rfl | hc
      · exact ⟨_, ha⟩
      · exact ih c hc
  refine ⟨_, cs, e, ⟨l, hl, rfl⟩, hcs, hu, ?_, fun c hc => ?_⟩
  · intro c hc
    rw [e] at hc
    rcases List.mem_cons.1 hc with rfl | hc
    · refine ⟨(hl.map _).nodup_iff.2 b.captureBase.attributes.keys_nodup, ?_⟩
      dsimp only
      split
      · exact List.nodup_nil
      · simp
    · obtain ⟨o, ho⟩ := key hcs c hc
      exact told_distinct ho
  · obtain ⟨o, ho⟩ := key hcs c hc
    exact told_add ho

/-- **C81** The capture base of the bundle built from the commands: the same attributes with the same types and the same classification, nothing flagged. -/
theorem C81_capture_base {ε : Type} (E : Env) (O : Order) (b : Bundle) (ast : OCAAst) (h : (b.toAst E O : Res ε _) = .ok ast)
    (Os : Nat → Order) (d : Build) (hd : fromAst E Os none ast = .ok d) :
    d.bundle.captureBase.attributes = b.captureBase.attributes ∧ d.bundle.captureBase.classification = b.captureBase.classification ∧
    d.bundle.captureBase.flagged = [] := by
  obtain ⟨cc, cs, e, ⟨l, hl, hcc⟩, hcs, hu, hD, hov⟩ := toAst_parts h
  refine ⟨?_, ?_, ?_⟩
  · apply FMap.ext
    intro n
    have key : ∀ t, d.bundle.captureBase.attributes.get n = some t ↔ b.captureBase.attributes.get n = some t := by
      intro t
      rw [C68_types hd hD nofun n t]
      have h1 : ∀ c ∈ cs, NotNamed c n := by
        intro c hc
        obtain ⟨t, cc, rfl⟩ := hov c hc
        exact ⟨fun hA => by obtain ⟨t, hA⟩ := addsAttr_iff.1 hA; exact not_adds_overlay hA, not_removes_add⟩
      have h2 : ∀ t, AddsType ⟨.add, .captureBase cc⟩ n t ↔ b.captureBase.attributes.get n = some t := by
        intro t
        rw [addsType_iff]
        cases hcc
        show (n, t) ∈ l ↔ _
        rw [hl.mem_iff, FMap.get_eq_some_iff]
      have h3 : LastSays (AddsType · n t) (NotNamed · n) ast.commands ↔ b.captureBase.attributes.get n = some t := by
        rw [show LastSays (AddsType · n t) (NotNamed · n) ast.commands ↔ LastIn (AddsType · n t) (NotNamed · n) ast.commands from Iff.rfl, e, lastIn_cons]
        rw [h2]
        constructor
        · rintro (⟨pre, c, post, rfl, hA, -⟩ | h)
          · obtain ⟨t', cc', rfl⟩ := hov c (by simp)
            exact absurd hA not_adds_overlay
          · exact h.1
        · exact fun h => .inr ⟨h, h1⟩
      rw [h3]
      simp
    cases hg : b.captureBase.attributes.get n with
    | some t => exact (key t).2 hg
    | none =>
      cases hg' : d.bundle.captureBase.attributes.get n with
      | none => rfl
      | some t => rw [(key t).1 hg'] at hg; cases hg
  · rw [C26_bundle_classification E Os ast d hd, e]
    have h1 : cs.filterMap classEffect = [] := by
      rw [List.filterMap_eq_nil_iff]
      intro c hc
      obtain ⟨t, cc, rfl⟩ := hov c hc
      rfl
    unfold lastClass
    rw [List.filterMap_cons, h1]
    cases hcc
    cases hcl : b.captureBase.classification with
    | nil => rfl
    | cons x t => rfl
  · have : ∀ n, n ∉ d.bundle.captureBase.flagged := by
      intro n hn
      obtain ⟨-, B, e, -⟩ := (C68_flags hd hD nofun n).1 hn
      cases e
    exact List.eq_nil_iff_forall_not_mem.2 this

theorem not_exported_silent {E : Env} {b : OvBody} (h : b.kind ∉ exportable) (n : Str) (F : Fact) : ¬ b.Meant E n F := by
  rintro (⟨h', -⟩ | ⟨c, ds, c0, ds0, s, -, ⟨m, d, rfl, -⟩, -⟩)
  · exact h h'
  · exact h (by simp [exportable, OvBody.kind])

/-- **C81** What the bundle built from the commands tells, units, entry codes and frames apart: exactly what the last overlay says that says something of the kind
(for labels, entries and information: in that language). -/
theorem C81_facts {ε : Type} (E : Env) (O : Order) (b : Bundle) (ast : OCAAst) (h : (b.toAst E O : Res ε _) = .ok ast) (hc : ∀ o ∈ b.overlays, o.body.CodesDistinct)
    (Os : Nat → Order) (d : Build) (hd : fromAst E Os none ast = .ok d) (n : Str) (F : Fact) (hF : F.overwritten = true) :
    d.bundle.Tells n F ↔ b.LastOverlay (fun x => x.Meant E n F) (fun x => ∀ G : Fact, G.slot = F.slot → ¬ x.Meant E n G) := by
  obtain ⟨cc, cs, e, -, hcs, hu, hD, hov⟩ := toAst_parts h
  rw [C68_facts hd hD nofun n hF, lastOverlay_iff, lastIn_map]
  rw [show LastSays (Says E · n F) (Silent E · n F.slot) ast.commands ↔ LastIn (Says E · n F) (Silent E · n F.slot) ast.commands from Iff.rfl, e, lastIn_cons]
  have hno : ¬ Says E ⟨.add, .captureBase cc⟩ n F := not_says_base
  rw [← lastIn_filter (fun o : Overlay => decide (o.body.kind ∈ exportable)) b.overlays (fun o _ hk => by
    have hk : o.body.kind ∉ exportable := of_decide_eq_false hk
    exact ⟨not_exported_silent hk n F, fun G _ => not_exported_silent hk n G⟩)]
  have := (lastIn_all2 (S := fun o : Overlay => o.body.Meant E n F) (Q := fun o : Overlay => ∀ G : Fact, G.slot = F.slot → ¬ o.body.Meant E n G)
    (S' := (Says E · n F)) (Q' := (Silent E · n F.slot)) hcs (by
    intro o ho c hoc
    obtain ⟨ho, hk⟩ := List.mem_filter.1 ho
    have hs := fun G => says_told hoc (of_decide_eq_true hk) (hu o ho) (hc o ho) n G
    refine ⟨(hs F).symm, ?_⟩
    unfold Silent
    obtain ⟨t, cc, rfl⟩ := told_add hoc
    constructor
    · exact fun h => ⟨not_removes_add, fun G hG e => h G e ((hs G).1 hG)⟩
    · exact fun h G e hG => h.2 G ((hs G).2 hG) e)).1
  rw [this]
  simp [hno]

/-- **C81** Units and entry codes: those of the first overlay that has one for the attribute. (Loading the bundle as a base takes the last: `C79_facts`.) -/
theorem C81_first {ε : Type} (E : Env) (O : Order) (b : Bundle) (ast : OCAAst) (h : (b.toAst E O : Res ε _) = .ok ast) (hc : ∀ o ∈ b.overlays, o.body.CodesDistinct)
    (Os : Nat → Order) (d : Build) (hd : fromAst E Os none ast = .ok d) (n : Str) (F : Fact) (hF : F.first = true) :
    d.bundle.Tells n F ↔ b.FirstOverlay (fun x => x.States n F) (fun x => ∀ G : Fact, G.slot = F.slot → ¬ x.States n G) := by
  obtain ⟨cc, cs, e, -, hcs, hu, hD, hov⟩ := toAst_parts h
  have hG : ∀ G : Fact, G.slot = F.slot → ∀ x : OvBody, x.Meant E n G ↔ x.States n G := by
    intro G hG x
    cases F <;> cases hF <;> cases G <;> cases hG
    all_goals
      constructor
      · rintro (⟨-, -, h⟩ | ⟨c, ds, c0, ds0, s, e, -⟩)
        · exact h
        · cases e
      · intro h
        refine .inl ⟨?_, rfl, h⟩
        obtain ⟨m, rfl, -⟩ := h
        simp [exportable, OvBody.kind]
  have hadd : ∀ c ∈ ast.commands, ¬ RemovesAttr c n := by
    intro c hc
    rw [e] at hc
    rcases List.mem_cons.1 hc with rfl | hc
    · exact not_removes_add
    · obtain ⟨t, cc, rfl⟩ := hov c hc; exact not_removes_add
  have e1 : d.bundle.Tells n F ↔ FirstIn (Says E · n F) (Mute E · n F.slot) ast.commands := by
    rw [C68_first hd hD nofun n hF]
    constructor
    · rintro (⟨pre, c, post, e', hs, -, h | ⟨h, -⟩⟩ | ⟨-, B, h, -⟩)
      · obtain ⟨p1, c1, p2, e2, hr, -⟩ := h
        exact absurd hr (hadd c1 (by rw [e', e2]; simp))
      · exact ⟨pre, c, post, e', hs, h⟩
      · cases h
    · rintro ⟨pre, c, post, e', hs, h⟩
      refine .inl ⟨pre, c, post, e', hs, fun c' hc' => hadd c' (by rw [e']; simp [hc']), .inr ⟨h, nofun⟩⟩
  have hno : ∀ G, ¬ Says E ⟨.add, .captureBase cc⟩ n G := fun G => not_says_base
  have hmute : Mute E ⟨.add, .captureBase cc⟩ n F.slot := fun G hG => absurd hG (hno G)
  rw [e1, e, firstIn_cons]
  have e2 : b.FirstOverlay (fun x => x.States n F) (fun x => ∀ G : Fact, G.slot = F.slot → ¬ x.States n G) ↔
      FirstIn (fun o : Overlay => o.body.Meant E n F) (fun o : Overlay => ∀ G : Fact, G.slot = F.slot → ¬ o.body.Meant E n G) b.overlays := by
    unfold Bundle.FirstOverlay FirstIn
    constructor
    · rintro ⟨pre, o, post, e, h1, h2⟩
      exact ⟨pre, o, post, e, (hG F rfl _).2 h1, fun x hx G hG' h' => h2 x hx G hG' ((hG G hG' _).1 h')⟩
    · rintro ⟨pre, o, post, e, h1, h2⟩
      exact ⟨pre, o, post, e, (hG F rfl _).1 h1, fun x hx G hG' h' => h2 x hx G hG' ((hG G hG' _).2 h')⟩
  rw [e2, ← firstIn_filter (fun o : Overlay => decide (o.body.kind ∈ exportable)) b.overlays (fun o _ hk => by
    have hk : o.body.kind ∉ exportable := of_decide_eq_false hk
    exact ⟨not_exported_silent hk n F, fun G _ => not_exported_silent hk n G⟩)]
  rw [firstIn_all2 (S' := (Says E · n F)) (Q' := (Mute E · n F.slot)) hcs (by
    intro o ho c hoc
    obtain ⟨ho, hk⟩ := List.mem_filter.1 ho
    have hs := fun G => says_told hoc (of_decide_eq_true hk) (hu o ho) (hc o ho) n G
    refine ⟨(hs F).symm, ?_⟩
    constructor
    · exact fun h G hG e => h G e ((hs G).1 hG)
    · exact fun h G e hG => h G ((hs G).2 hG) e)]
  simp [hno, hmute]

/-- a command about another kind of overlay leaves a fact as it was -/
theorem holds_apart {E : Env} {b b' : OCABox} {c : Command} (hD : c.Distinct) (h : applyCommand E (some b) c = .ok b') {n : Str} {F : Fact}
    (hc : (∃ cc, c = ⟨.add, .captureBase cc⟩) ∨ ∃ t cc, c = ⟨.add, .overlay t cc⟩ ∧ t.kind ≠ F.slot.1) : b'.Holds n F → b.Holds n F := by
  rcases accepted_cases hD h with ⟨cc, rfl, rfl⟩ | ⟨cc, rfl, rfl⟩ | ⟨ot, cc, rfl, hk⟩
  · exact holds_add.1
  · rcases hc with ⟨_, e⟩ | ⟨_, _, e, -⟩ <;> cases e
  · have hne : ot.kind ≠ F.slot.1 := by
      rcases hc with ⟨_, e⟩ | ⟨t, _, e, h⟩
      · cases e
      · cases e; exact h
    rcases hk with ⟨-, rfl, hs⟩ | ⟨-, -, rfl⟩ | ⟨-, l, -, rfl⟩ | ⟨-, -, rfl⟩
    · rcases holds_put (E := E) (ot := ot) (F := F) (n := n) hD.1 (fun p hp => (hs p hp).1) with ⟨-, h1, -⟩ | ⟨w, a, -, h2, h3, -⟩
      · exact h1.1
      · rw [h3, put_other]
        · intro h4; exact ⟨a, h2, h4⟩
        · intro e
          have := congrArg Prod.fst e
          have h5 : (addressed E ot.kind cc).1 = ot.kind := by cases ot.kind <;> rfl
          rw [h5] at this
          exact hne this.symm
    · exact id
    · exact id
    · exact id

theorem took_apart {E : Env} {b b' : OCABox} {cs : List Command} (h : Took E b cs b') (hD : ∀ c ∈ cs, c.Distinct) {n : Str} {F : Fact}
    (hc : ∀ c ∈ cs, (∃ cc, c = ⟨.add, .captureBase cc⟩) ∨ ∃ t cc, c = ⟨.add, .overlay t cc⟩ ∧ t.kind ≠ F.slot.1) : b'.Holds n F → b.Holds n F := by
  induction h with
  | nil => exact id
  | cons h1 _ ih =>
    intro h
    exact holds_apart (hD _ (.head _)) h1 (hc _ (.head _)) (ih (fun c h => hD c (.tail _ h)) (fun c h => hc c (.tail _ h)) h)

/-- **C81** All overlays of the bundle built from the commands are of the kinds that give a command: no frames, links, mappings, standards or subsets. -/
theorem C81_lost {ε : Type} (E : Env) (O : Order) (b : Bundle) (ast : OCAAst) (h : (b.toAst E O : Res ε _) = .ok ast)
    (Os : Nat → Order) (d : Build) (hd : fromAst E Os none ast = .ok d) (o : Overlay) (ho : o ∈ d.bundle.overlays) : o.body.kind ∈ exportable := by
  obtain ⟨cc, cs, e, -, hcs, hu, hD, hov⟩ := toAst_parts h
  obtain ⟨m, box, h1, h2, h3, rfl⟩ := base_state hd nofun
  rcases (C17_no_empty_overlay E _ box h2 _ h3).1 o ho with ⟨n, F, hs⟩ | ⟨l, ps, e⟩
  · rw [(told_slot ((states_told n _ F).1 hs)).2.1]
    apply Classical.byContradiction
    intro hne
    have hh : box.Holds n F := (C17_overlay_content_exact E _ box h2 _ h3 n F).1 ⟨o, ho, hs⟩
    have key : ∀ {L : List Overlay} {C : List Command}, All2 (Overlay.ToldBy E) L C → (∀ o ∈ L, o.body.kind ∈ exportable) →
        ∀ c ∈ C, ∃ t cc, c = ⟨.add, .overlay t cc⟩ ∧ t.kind ≠ F.slot.1 := by
      intro L C hA
      induction hA with
      | nil => exact (fun _ c hc => by cases hc)
      | cons ha _ ih =>
        intro hL c hc
        rcases List.mem_cons.1 hc with rfl | hc
        · obtain ⟨cc, rfl, -⟩ := ha
          refine ⟨_, cc, rfl, ?_⟩
          intro e'
          apply hne
          rw [← e']
          exact hL _ (.head _)
        · exact ih (fun o ho => hL o (.tail _ ho)) c hc
    have := took_apart h1 hD (n := n) (F := F) (by
      intro c hc
      rw [e] at hc
      rcases List.mem_cons.1 hc with rfl | hc
      · exact .inl ⟨cc, rfl⟩
      · exact .inr (key hcs (fun o ho => of_decide_eq_true (List.mem_filter.1 ho).2) c hc)) hh
    obtain ⟨a, ha, -⟩ := this
    cases ha
  · rw [e]; simp [exportable, OvBody.kind]

/-- **C81** The meta of a language: each key has the value of the last overlay with the key whose pairs go to the language. -/
theorem C81_meta {ε : Type} (E : Env) (O : Order) (b : Bundle) (ast : OCAAst) (h : (b.toAst E O : Res ε _) = .ok ast)
    (Os : Nat → Order) (d : Build) (hd : fromAst E Os none ast = .ok d) (l : Lang) (k v : Str) :
    d.bundle.HasMeta l k v ↔ b.LastOverlay (fun x => x.MeantMeta E l k v) (fun x => ∀ w, ¬ x.MeantMeta E l k w) := by
  obtain ⟨cc, cs, e, -, hcs, hu, hD, hov⟩ := toAst_parts h
  rw [C68_meta hd hD nofun l k v, lastOverlay_iff, lastIn_map]
  rw [show LastSays (SaysMeta E · l k v) (fun c => ∀ w, ¬ SaysMeta E c l k w) ast.commands ↔
    LastIn (SaysMeta E · l k v) (fun c => ∀ w, ¬ SaysMeta E c l k w) ast.commands from Iff.rfl, e, lastIn_cons]
  have hno : ∀ w, ¬ SaysMeta E ⟨.add, .captureBase cc⟩ l k w := by
    rintro w ⟨-, t, cc, ps, e, -⟩; cases e
  have hnm : ∀ o : Overlay, o.body.kind ∉ exportable → ∀ w, ¬ o.body.MeantMeta E l k w := by
    rintro o hk w ⟨l0, ps, e, -⟩
    rw [e] at hk
    exact hk (by simp [exportable, OvBody.kind])
  rw [← lastIn_filter (fun o : Overlay => decide (o.body.kind ∈ exportable)) b.overlays (fun o _ hk =>
    ⟨hnm o (of_decide_eq_false hk) v, hnm o (of_decide_eq_false hk)⟩)]
  have := (lastIn_all2 (S := fun o : Overlay => o.body.MeantMeta E l k v) (Q := fun o : Overlay => ∀ w, ¬ o.body.MeantMeta E l k w)
    (S' := (SaysMeta E · l k v)) (Q' := fun c => ∀ w, ¬ SaysMeta E c l k w) hcs (by
    intro o ho c hoc
    obtain ⟨ho, hk⟩ := List.mem_filter.1 ho
    have hs := fun w => saysMeta_told hoc (hu o ho) l k w
    exact ⟨(hs v).symm, forall_congr' fun w => not_congr (hs w).symm⟩)).1
  rw [this]
  simp [hno]

/-! ## A concrete case -/

/-- The overlays of the bundle built from the commands of a bundle; nothing inside if the build ends with an error, nothing at all if something aborts. -/
def reborn (b : Bundle) : Option (Option (List OvBody)) :=
  match (b.toAst Env.words Order.sorted : Res Unit _) with
  | .ok ast => match fromAst Env.words (fun _ => Order.sorted) none ast with
    | .ok d => some (some (d.bundle.overlays.map (·.body)))
    | .err _ => some none
    | .panic => none
  | _ => none

set_option maxRecDepth 20000 in
/-- **C81** The bundle of `C79_example`: its commands build the first unit of `a` (as a base it has the last, kg); no category and no standard. A unit for a name that is no
attribute is an error. A pair of meta named `lang` moves the other pairs to another language, aborts the build, or is dropped when it is the only one. A language
without a two letter code aborts. -/
theorem C81_example : reborn (foreign foreignBodies) = some (some [.unit (FMap.ofList [(c!"a", c!"m"), (c!"b", c!"m")]),
      .label c!"eng" [] (FMap.ofList [(c!"a", c!"A")]) FMap.empty,
      .conditional (FMap.ofList [(c!"c", c!"${0} ~= ${1}")]) (FMap.ofList [(c!"c", [c!"b", c!"a"])])]) ∧
    reborn (foreign [.unit (FMap.ofList [(c!"x", c!"m")])]) = some none ∧
    reborn (foreign [.metaOv c!"eng" (FMap.ofList [(c!"lang", c!"fr"), (c!"k", c!"v")])]) = some (some [.metaOv c!"fra" (FMap.ofList [(c!"k", c!"v")])]) ∧
    reborn (foreign [.metaOv c!"eng" (FMap.ofList [(c!"lang", c!"zz"), (c!"k", c!"v")])]) = none ∧
    reborn (foreign [.metaOv c!"eng" (FMap.ofList [(c!"lang", c!"zz")])]) = some (some []) ∧
    reborn (foreign [.label c!"zzz" [] (FMap.ofList [(c!"a", c!"A")]) FMap.empty]) = none := by
  decide +kernel

end OCA
