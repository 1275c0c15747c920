import Verif.Props.Builds
/-!
# C11, C47, C48: what single commands do
-/
namespace OCA

/-! ## C11 -/

/-- The overlay kinds whose ADD command carries values per attribute and has an effect. -/
def attributeKinds : List OvKind :=
  [.label, .information, .characterEncoding, .conformance, .format, .unit, .cardinality, .conditional,
   .entryCode, .entry, .link, .attributeFraming]

theorem mem_attributeKinds (k : OvKind) : k ∈ attributeKinds ↔ loopKind k = true := by
  cases k <;> decide

/-- The error the code reports before looking at attributes: a link without valid target, a frame without
id. -/
def headErrors (k : OvKind) (c : Content) : List Str :=
  match k with
  | .link => if c.target.isNone then [c!"Undefined target bundle"] else []
  | .attributeFraming => if c.frameId.isNone then [c!"Undefined frame id"] else []
  | _ => []

theorem ovSetter_errs (E : Env) (k : OvKind) (c : Content) {errs f} (h : ovSetter E k c = some (errs, f)) :
    errs = headErrors k c := by
  cases k <;> simp only [ovSetter, Option.some.injEq, Prod.mk.injEq, reduceCtorEq] at h <;>
    exact h.1.symm

theorem applyOverlay_loop (E : Env) (b : OCABox) (k : OvKind) (c : Content) {errs f}
    (h1 : ovSetter E k c = some (errs, f)) :
    applyOverlay E b k c = (do
      let box ← foldRes (ovAttrStep errs f) b c.attrs
      if errs.isEmpty then .ok box else .err errs) := by
  unfold applyOverlay
  split
  · cases h1
  · rw [h1]; rfl

/-- the state of the loop only changes attributes that exist -/
theorem ovAttrStep_keeps {errs : List Str} {f : Attribute → NVal → Res (List Str) Attribute} {b b' : OCABox}
    {p : Str × NVal} (h : ovAttrStep errs f b p = .ok b') (n : Str) :
    (b'.attributes.get n).isSome = (b.attributes.get n).isSome := by
  unfold ovAttrStep at h
  split at h
  · cases h
  · next a ha =>
    obtain ⟨a', -, h2⟩ := Res.bind_eq_ok.mp h
    cases h2
    rw [addAttribute_some b p.1 a a' ha, FMap.get_insert]
    split
    · next e => subst e; simp [ha]
    · rfl

theorem foldRes_append {ε α β : Type} (f : β → α → Res ε β) (l l' : List α) (b : β) :
    foldRes f b (l ++ l') = (do
      let x ← foldRes f b l
      foldRes f x l') := by
  induction l generalizing b with
  | nil => rfl
  | cons a t ih =>
    simp only [List.cons_append, foldRes]
    cases f b a with
    | ok x => simp only [Res.bind_ok]; exact ih x
    | err e => rfl
    | panic => rfl

/-- what the loop does up to the first attribute that stops it -/
theorem foldRes_prefix (E : Env) (k : OvKind) (c : Content) {errs f} (h1 : ovSetter E k c = some (errs, f))
    (pre : List (Str × NVal)) : ∀ (b : OCABox),
    (∀ p ∈ pre, (b.attributes.get p.1).isSome = true ∧ valueOk E k c p.2 = true) →
    ∃ x, foldRes (ovAttrStep errs f) b pre = .ok x ∧
      ∀ n, (x.attributes.get n).isSome = (b.attributes.get n).isSome := by
  induction pre with
  | nil => intro b _; exact ⟨b, rfl, fun _ => rfl⟩
  | cons p t ih =>
    intro b h
    obtain ⟨hp1, hp2⟩ := h p (List.mem_cons_self ..)
    obtain ⟨a, ha⟩ := Option.isSome_iff_exists.mp hp1
    obtain ⟨a', ha'⟩ := (setter_ok_iff E k c h1 a p.2).mpr hp2
    have hstep : ovAttrStep errs f b p = .ok (b.addAttribute p.1 a') := by
      unfold ovAttrStep; rw [ha]; simp [ha']
    have hk := ovAttrStep_keeps hstep
    obtain ⟨x, hx1, hx2⟩ := ih (b.addAttribute p.1 a') (fun q hq => by
      rw [hk]; exact h q (List.mem_cons_of_mem _ hq))
    refine ⟨x, ?_, fun n => by rw [hx2, hk]⟩
    simp only [foldRes, hstep, Res.bind_ok]; exact hx1

/-- **C11** An ADD overlay command that names an absent attribute is not accepted. -/
theorem C11_undefined_attribute_not_accepted (E : Env) (b b' : OCABox) (t : OverlayType) (c : Content)
    (hk : t.kind ∈ attributeKinds) (h : applyCommand E (some b) ⟨.add, .overlay t c⟩ = .ok b')
    (p : Str × NVal) (hp : p ∈ c.attributes.getD []) : ∃ a, b.attributes.get p.1 = some a := by
  rw [mem_attributeKinds] at hk
  obtain ⟨errs, f, h1, -⟩ := (ovSetter_loop E t.kind c).1 hk
  have h' : applyOverlay E b t.kind c = .ok b' := h
  rw [applyOverlay_loop E b t.kind c h1] at h'
  obtain ⟨x, hx, -⟩ := Res.bind_eq_ok.mp h'
  obtain ⟨pre, post, e⟩ := List.append_of_mem hp
  have e' : c.attrs = pre ++ p :: post := e
  rw [e', foldRes_append] at hx
  obtain ⟨y, hy1, hy2⟩ := Res.bind_eq_ok.mp hx
  have hkeep : ∀ (l : List (Str × NVal)) (b y : OCABox), foldRes (ovAttrStep errs f) b l = .ok y →
      ∀ n, (y.attributes.get n).isSome = (b.attributes.get n).isSome := by
    intro l
    induction l with
    | nil => intro b y h n; cases h; rfl
    | cons q s ih =>
      intro b y h n
      simp only [foldRes] at h
      obtain ⟨z, hz1, hz2⟩ := Res.bind_eq_ok.mp h
      rw [ih z y hz2, ovAttrStep_keeps hz1]
  simp only [foldRes] at hy2
  obtain ⟨z, hz1, -⟩ := Res.bind_eq_ok.mp hy2
  unfold ovAttrStep at hz1
  split at hz1
  · cases hz1
  · next a ha =>
    have := hkeep pre b y hy1 p.1
    rw [ha] at this
    exact Option.isSome_iff_exists.mp this.symm

/-- **C11** If every attribute before the first absent one is present and given a usable value, the command
is rejected with an error naming the absent attribute (preceded by the complaint about a missing link
target or frame id, if any). -/
theorem C11_undefined_attribute_error (E : Env) (b : OCABox) (t : OverlayType) (c : Content)
    (hk : t.kind ∈ attributeKinds) (pre post : List (Str × NVal)) (n : Str) (v : NVal)
    (ha : c.attributes.getD [] = pre ++ (n, v) :: post)
    (hpre : ∀ p ∈ pre, (b.attributes.get p.1).isSome = true ∧ valueOk E t.kind c p.2 = true)
    (hn : b.attributes.get n = none) :
    applyCommand E (some b) ⟨.add, .overlay t c⟩ =
      .err (headErrors t.kind c ++ [c!"Undefined attribute: " ++ n]) := by
  rw [mem_attributeKinds] at hk
  obtain ⟨errs, f, h1, -⟩ := (ovSetter_loop E t.kind c).1 hk
  show applyOverlay E b t.kind c = _
  rw [applyOverlay_loop E b t.kind c h1]
  have e : c.attrs = pre ++ (n, v) :: post := ha
  rw [e, foldRes_append]
  obtain ⟨x, hx1, hx2⟩ := foldRes_prefix E t.kind c h1 pre b hpre
  rw [hx1]
  have hxn : x.attributes.get n = none := by
    have := hx2 n
    rw [hn] at this
    cases hg : x.attributes.get n with
    | none => rfl
    | some a => rw [hg] at this; cases this
  simp only [Res.bind_ok, foldRes, ovAttrStep, hxn, Res.bind_err, ovSetter_errs E t.kind c h1]
  rfl

/-- **C11** A rejected command has no effect: the build goes on from the state before it, as if the command
were not there. -/
theorem C11_rejected_command_no_effect (E : Env) (b : Option OCABox) (c : Command) (es : List Str)
    (h : applyCommand E b c = .err es) (cs : List Command) :
    results E b (c :: cs) = .err es :: results E b cs ∧ finalState E b (c :: cs) = finalState E b cs := by
  simp [results, finalState, afterResult, h]

/-- **C11** The remaining kinds are accepted whatever attributes they name, and change nothing. -/
theorem C11_ignored_kinds (E : Env) (b : OCABox) (t : OverlayType) (c : Content)
    (hk : t.kind ∉ attributeKinds) (hm : t.kind ≠ .metaOv) :
    applyCommand E (some b) ⟨.add, .overlay t c⟩ = .ok b := by
  rw [mem_attributeKinds] at hk
  exact applyOverlay_other E b t.kind c (by simpa using hk) hm

/-- The hypotheses of C11 are met. -/
example : applyCommand Env.demo (some demoBox)
    (addOv .label [(c!"lang", .val c!"en")] [(c!"name", .val c!"N"), (c!"nope", .val c!"x")]) =
    .err [c!"Undefined attribute: nope"] :=
  C11_undefined_attribute_error Env.demo demoBox ⟨.label, c!"1.1"⟩ _ (by decide) [(c!"name", .val c!"N")] []
    c!"nope" (.val c!"x") rfl (by decide) (by decide)

example : ¬ ∃ b', applyCommand Env.demo (some demoBox) (addOv .link [] [(c!"nope", .val c!"x")]) = .ok b' := by
  rintro ⟨b', h⟩
  obtain ⟨a, ha⟩ := C11_undefined_attribute_not_accepted Env.demo demoBox b' ⟨.link, c!"1.1"⟩ _ (by decide) h
    (c!"nope", .val c!"x") (List.mem_cons_self ..)
  have : demoBox.attributes.get c!"nope" = none := by decide
  rw [this] at ha; cases ha

/-! ## C47 -/

/-- When a command aborts the process (specification):
* ADD or REMOVE of a whole bundle, REMOVE of an overlay, and MODIFY are `todo!()`/unimplemented;
* ADD META with a text property but without a known language;
* an ADD overlay command whose first attribute that is absent or given an unusable value is present (and
  the value unusable), except for unknown character encodings, which are errors. -/
def Aborts (E : Env) (b : OCABox) (c : Command) : Prop :=
  match c.kind, c.obj with
  | .«from», _ => False
  | .modify, _ => True
  | _, .ocaBundle _ => True
  | .remove, .overlay _ _ => True
  | _, .captureBase _ => False
  | .add, .overlay t cc =>
    if t.kind = .metaOv then cc.lang E = none ∧ cc.metaPairs ≠ []
    else t.kind ∈ attributeKinds ∧ t.kind ≠ .characterEncoding ∧
      ∃ pre n v post, cc.attributes.getD [] = pre ++ (n, v) :: post ∧
        (∀ p ∈ pre, (b.attributes.get p.1).isSome = true ∧ valueOk E t.kind cc p.2 = true) ∧
        (b.attributes.get n).isSome = true ∧ valueOk E t.kind cc v = false

/-- **C47** Exactly which commands abort, for every build state. -/
theorem C47_apply_aborts_iff (E : Env) (b : OCABox) (c : Command) :
    applyCommand E (some b) c = .panic ↔ Aborts E b c := by
  obtain ⟨kind, obj⟩ := c
  cases kind <;> cases obj <;> simp only [applyCommand, Aborts, reduceCtorEq, Option.getD_some]
  rename_i t cc
  by_cases hm : t.kind = .metaOv
  · rw [if_pos hm, hm, applyOverlay_meta]
    unfold applyMeta Content.metaPairs
    cases hp : cc.properties with
    | none => simp [textPairs, imDrop]
    | some ps =>
      simp only [Option.getD_some]
      constructor
      · intro h
        rcases foldRes_meta_cases (ε := List Str) (cc.lang E) (imDrop (fun k => decide (k = c!"lang")) ps) b with
          ⟨b', h'⟩ | ⟨-, h2, h3⟩
        · rw [h'] at h; cases h
        · exact ⟨h2, h3⟩
      · rintro ⟨h2, h3⟩
        rcases foldRes_meta_cases (ε := List Str) (cc.lang E) (imDrop (fun k => decide (k = c!"lang")) ps) b with
          ⟨b', h'⟩ | ⟨h1, -, -⟩
        · rw [foldRes_meta] at h'
          rcases h' with ⟨h', -⟩ | ⟨l, h', -⟩
          · exact absurd h' h3
          · rw [h2] at h'; cases h'
        · exact h1
  · rw [if_neg hm, mem_attributeKinds]
    by_cases hk : loopKind t.kind = true
    · obtain ⟨errs, f, h1, -⟩ := (ovSetter_loop E t.kind cc).1 hk
      rw [applyOverlay_loop E b t.kind cc h1]
      have hfold : (foldRes (ovAttrStep errs f) b cc.attrs >>= fun box =>
          if errs.isEmpty then Res.ok box else Res.err errs) = Res.panic ↔
          foldRes (ovAttrStep errs f) b cc.attrs = .panic := by
        cases foldRes (ovAttrStep errs f) b cc.attrs with
        | ok x => simp only [Res.bind_ok, reduceCtorEq, iff_false]; split <;> simp
        | err e => simp
        | panic => simp
      rw [hfold]
      simp only [hk, true_and]
      have main : ∀ (l : List (Str × NVal)) (b : OCABox), foldRes (ovAttrStep errs f) b l = .panic ↔
          t.kind ≠ .characterEncoding ∧ ∃ pre n v post, l = pre ++ (n, v) :: post ∧
          (∀ p ∈ pre, (b.attributes.get p.1).isSome = true ∧ valueOk E t.kind cc p.2 = true) ∧
          (b.attributes.get n).isSome = true ∧ valueOk E t.kind cc v = false := by
        intro l
        induction l with
        | nil => intro b; simp [foldRes]
        | cons p s ih =>
          intro b
          simp only [foldRes]
          cases hg : b.attributes.get p.1 with
          | none =>
            have : ovAttrStep errs f b p = .err (errs ++ [undefinedAttr p.1]) := by
              unfold ovAttrStep; rw [hg]
            rw [this]
            simp only [Res.bind_err, reduceCtorEq, false_iff]
            rintro ⟨-, pre, n, v, post, e, h2, h3, -⟩
            cases pre with
            | nil => simp at e; rw [e.1] at hg; simp [hg] at h3
            | cons q r =>
              simp at e
              have := (h2 q (List.mem_cons_self ..)).1
              rw [← e.1, hg] at this; cases this
          | some a =>
            rcases setter_cases E t.kind cc h1 a p.2 with ⟨hv, a', ha'⟩ | ⟨hv, hce, x, hx, hf⟩ | ⟨hv, hce, hf⟩
            · have hstep : ovAttrStep errs f b p = .ok (b.addAttribute p.1 a') := by
                unfold ovAttrStep; rw [hg]; simp [ha']
              rw [hstep]
              simp only [Res.bind_ok]
              rw [ih]
              have hkeep := ovAttrStep_keeps hstep
              simp only [hkeep]
              refine and_congr_right fun _ => ?_
              constructor
              · rintro ⟨pre, n, v, post, e, h2, h3, h4⟩
                refine ⟨p :: pre, n, v, post, by rw [e]; rfl, ?_, h3, h4⟩
                intro q hq
                rcases List.mem_cons.mp hq with hq | hq
                · rw [hq]; exact ⟨by rw [hg]; rfl, hv⟩
                · exact h2 q hq
              · rintro ⟨pre, n, v, post, e, h2, h3, h4⟩
                cases pre with
                | nil => simp at e; rw [e.1] at hv; rw [hv] at h4; cases h4
                | cons q r =>
                  simp at e
                  exact ⟨r, n, v, post, e.2, fun q' hq' => h2 q' (List.mem_cons_of_mem _ hq'), h3, h4⟩
            · have hstep : ovAttrStep errs f b p = .err [c!"Unknown encoding: " ++ x] := by
                unfold ovAttrStep; rw [hg]; simp [hf]
              rw [hstep]
              simp [hce]
            · have hstep : ovAttrStep errs f b p = .panic := by
                unfold ovAttrStep; rw [hg]; simp [hf]
              rw [hstep]
              simp only [Res.bind_panic, true_iff]
              exact ⟨hce, [], p.1, p.2, s, rfl, by simp, by rw [hg]; rfl, hv⟩
      exact main cc.attrs b
    · rw [applyOverlay_other E b t.kind cc (by simpa using hk) hm]
      simp [hk]

/-- **C47** A build aborts exactly when loading its base does, some command does (in the state left by the
accepted ones before it), or there is neither base nor command. -/
theorem C47_build_aborts_iff (E : Env) (Os : Nat → Order) (fromOca : Option Bundle) (ast : OCAAst) :
    fromAst E Os fromOca ast = .panic ↔
      (baseOf E fromOca : Res (List BuildErr) _) = .panic ∨
      ∃ base, (baseOf E fromOca : Res (List BuildErr) _) = .ok base ∧
        (Res.panic ∈ results E base ast.commands ∨ (fromOca = none ∧ ast.commands = [])) := by
  cases hb : (baseOf E fromOca : Res (List BuildErr) _) with
  | panic => simp [fromAst, hb]
  | err e => simp [fromAst, hb]
  | ok base =>
    simp only [reduceCtorEq, Res.ok.injEq, false_or, exists_eq_left']
    have hout := C12_build_outcome E Os fromOca ast base hb
    constructor
    · intro h
      by_cases hp : Res.panic ∈ results E base ast.commands
      · exact .inl hp
      · right
        by_cases he : ∃ es, Res.err es ∈ results E base ast.commands
        · rw [hout.2.1 hp he] at h; cases h
        · by_cases hn : finalState E base ast.commands = none
          · have hsome : ∀ (cs : List Command) (x : OCABox), finalState E (some x) cs ≠ none := by
              intro cs
              induction cs with
              | nil => intro x h; cases h
              | cons c cs ih =>
                intro x
                simp only [finalState]
                cases applyCommand E (some x) c <;> simp only [afterResult] <;> exact ih _
            cases hbase : base with
            | some x => rw [hbase] at hn; exact absurd hn (hsome _ _)
            | none =>
              subst hbase
              refine ⟨?_, ?_⟩
              · cases fromOca with
                | none => rfl
                | some bu =>
                  simp only [baseOf] at hb
                  obtain ⟨x, -, h2⟩ := Res.bind_eq_ok.mp hb
                  cases h2
              · cases hc : ast.commands with
                | nil => rfl
                | cons c cs =>
                  exfalso
                  rw [hc] at hn hp he
                  simp only [finalState] at hn
                  cases ha : applyCommand E none c with
                  | ok x => rw [ha] at hn; exact hsome _ _ hn
                  | err es => exact he ⟨es, by simp [results, ha]⟩
                  | panic => exact hp (by simp [results, ha])
          · obtain ⟨x, hx⟩ := hout.2.2.2 hp he hn
            rw [hx] at h; cases h
    · rintro (hp | ⟨rfl, hc⟩)
      · exact hout.1 hp
      · cases hb
        exact C12_empty_build_aborts E Os ast hc

/-- **C47** A convenient sufficient condition. An ADD or REMOVE on the capture base never aborts; an ADD overlay command never aborts
if every value it carries is usable and, for META, its language is known. The full claim (no command a
parser can produce aborts) is false, see the next theorem. -/
theorem C47_no_abort (E : Env) (b : OCABox) (c : Command)
    (h : match c.kind, c.obj with
      | .«from», _ => True
      | .add, .captureBase _ => True
      | .remove, .captureBase _ => True
      | .add, .overlay t cc => (t.kind = .metaOv → (cc.lang E).isSome = true) ∧
          ∀ p ∈ cc.attributes.getD [], valueOk E t.kind cc p.2 = true
      | _, _ => False) :
    applyCommand E (some b) c ≠ .panic := by
  rw [Ne, C47_apply_aborts_iff]
  obtain ⟨kind, obj⟩ := c
  cases kind <;> cases obj <;> simp only [Aborts, not_false_eq_true] at h ⊢
  rename_i t cc
  split
  · next hm => intro h'; have := h.1 hm; rw [h'.1] at this; cases this
  · rintro ⟨-, -, pre, n, v, post, e, -, -, h4⟩
    have := h.2 (n, v) (by rw [e]; simp)
    rw [this] at h4; cases h4

/-- **C47** The full claim fails: an unknown language code, a link whose target is not a SAID reference, and
the removal of an overlay abort. -/
theorem C47_aborts_exist :
    applyCommand Env.demo (some demoBox) (addOv .label [(c!"lang", .val c!"xx")] [(c!"name", .val c!"x")]) = .panic ∧
    applyCommand Env.demo (some demoBox) (addOv .metaOv [(c!"lang", .val c!"xx"), (c!"name", .val c!"x")] []) = .panic ∧
    applyCommand Env.demo (some demoBox) (addOv .link [(c!"target", .ref (.name c!"other"))] [(c!"name", .val c!"x")]) = .panic ∧
    applyCommand Env.demo (some demoBox) ⟨.remove, .overlay ⟨.label, c!"1.1"⟩ ⟨none, none⟩⟩ = .panic :=
  ⟨rfl, rfl, rfl, rfl⟩

/-- Non-vacuity of the partial theorem: every demo command meets its hypothesis. -/
example : ∀ c ∈ demoCommands, ∀ b, applyCommand Env.demo (some b) c ≠ .panic := by
  intro c hc b
  apply C47_no_abort
  simp only [demoCommands, List.mem_cons, List.not_mem_nil, or_false] at hc
  rcases hc with rfl | rfl | rfl | rfl | rfl | rfl | rfl | rfl | rfl | rfl | rfl <;>
    first | exact trivial | exact ⟨by decide, by decide⟩

/-! ## C48 -/

theorem put_idem (E : Env) (k : OvKind) (c : Content) (a : Attribute) (v : NVal) :
    (a.put E k c v).put E k c v = a.put E k c v := by
  cases k <;> simp only [Attribute.put]
  case label => cases v <;> first | rfl | (cases c.lang E <;> simp [FMap.insert_insert])
  case information => cases v <;> first | rfl | (cases c.lang E <;> simp [FMap.insert_insert])
  case characterEncoding => cases v <;> first | rfl | (simp only; split <;> simp [*])
  case entryCode => cases entryCodesOf v <;> first | rfl | (cases a.entryCodes <;> simp)
  case entry => cases entriesOf v <;> first | rfl | (cases c.lang E <;> simp [FMap.insert_insert])
  case link => cases v <;> first | rfl | (cases c.target <;> simp [FMap.insert_insert])
  case attributeFraming =>
    cases v with
    | obj l =>
      cases c.frameId with
      | none => rfl
      | some id =>
        simp only [Option.getD_some, FMap.insert_insert, optGet, Option.bind_some, FMap.get_insert, if_true]
        congr 3
        ext n : 1
        rw [FMap.get_insertAll_map, FMap.get_insertAll_map]
        cases (framingOf c.frameMeta l).get n <;> simp
    | _ => rfl
  case unit => cases v <;> first | rfl | (cases a.unit <;> simp)
  all_goals cases v <;> rfl

theorem metaPut_idem (m : Option (FMap (FMap Str))) (l : Lang) (ps : List (Str × Str)) :
    metaPut (metaPut m l ps) l ps = metaPut m l ps := by
  unfold metaPut
  by_cases h : ps = []
  · simp [h]
  · simp only [h, if_false, Option.getD_some, FMap.get_insert, if_true, FMap.insert_insert]
    congr 2
    ext n : 1
    rw [FMap.get_insertAll, FMap.get_insertAll]
    cases FMap.lastVal ps n <;> simp

/-- The maps inside a command have distinct keys (they are `IndexMap`s). -/
def Command.DistinctKeys (c : Command) : Prop :=
  match c.obj with
  | .overlay _ cc => ((cc.attributes.getD []).map (·.1)).Nodup
  | _ => True

/-- **C48** Applying an accepted command (ADD or REMOVE) a second time is accepted and changes nothing; so
every bundle generated afterwards is the one generated before. -/
theorem C48_idempotent (E : Env) (b b' : OCABox) (c : Command) (hd : c.DistinctKeys)
    (h : applyCommand E (some b) c = .ok b') : applyCommand E (some b') c = .ok b' := by
  obtain ⟨kind, obj⟩ := c
  cases kind with
  | «from» => cases obj <;> cases h
  | modify => cases obj <;> cases h
  | remove =>
    cases obj with
    | ocaBundle r => cases h
    | overlay t cc => cases h
    | captureBase cc =>
      rw [applyRemoveBase] at h ⊢
      cases h
      congr 1
      refine OCABox.ext' (fun n => ?_) rfl rfl ?_
      · simp only [get_boxRemove]; split <;> rfl
      · simp only [boxRemove]; split <;> rfl
  | add =>
    cases obj with
    | ocaBundle r => cases h
    | captureBase cc =>
      rw [applyAddBase] at h ⊢
      cases h
      congr 1
      refine OCABox.ext' (fun n => ?_) (boxAdd_rest cc _).1 (boxAdd_rest cc _).2.1 ?_
      · simp only [get_boxAdd]
        cases FMap.lastVal (cc.attributes.getD []) n with
        | none => rfl
        | some t => cases b.attributes.get n <;> rfl
      · rw [(boxAdd_rest cc _).2.2, (boxAdd_rest cc b).2.2]
        cases classOf (cc.properties.getD []) <;> simp
    | overlay t cc =>
      have h' : applyOverlay E b t.kind cc = .ok b' := h
      show applyOverlay E b' t.kind cc = .ok b'
      by_cases hm : t.kind = .metaOv
      · rw [hm, applyOverlay_meta, applyMeta_ok_iff] at h' ⊢
        rcases h' with ⟨h1, rfl⟩ | ⟨l, h1, rfl⟩
        · exact .inl ⟨h1, rfl⟩
        · exact .inr ⟨l, h1, by rw [metaPut_idem]⟩
      · by_cases hk : loopKind t.kind = true
        · rw [applyOverlay_ok_iff E _ _ _ _ hk hd] at h' ⊢
          obtain ⟨h1, h2, rfl⟩ := h'
          refine ⟨h1, fun p hp => ⟨?_, (h2 p hp).2⟩, ?_⟩
          · rw [get_boxPut]; simpa using (h2 p hp).1
          · refine OCABox.ext' (fun n => ?_) rfl rfl rfl
            simp only [get_boxPut]
            cases b.attributes.get n with
            | none => rfl
            | some a =>
              simp only [Option.map_some, Option.some.injEq]
              unfold putOne
              cases imGet n cc.attrs with
              | none => rfl
              | some v => simp [put_idem]
        · rw [applyOverlay_other E _ _ _ (by simpa using hk) hm]

/-- The hypotheses are met by every demo command in the demo state. -/
example : ∀ c ∈ demoCommands, c.DistinctKeys ∧ (applyCommand Env.demo (some demoBox) c).isOk = true := by
  intro c hc
  simp only [demoCommands, List.mem_cons, List.not_mem_nil, or_false] at hc
  rcases hc with rfl | rfl | rfl | rfl | rfl | rfl | rfl | rfl | rfl | rfl | rfl <;>
    exact ⟨by simp [Command.DistinctKeys, addOv, addAttrs, addClass], by decide⟩

end OCA
