import Verif.Props.StoredBuild
import Verif.Props.Builds
import Verif.Lemmas.Depth
/-! States made of storable parts, also when they start from a loaded bundle. -/
namespace OCA

/-! ## Loading -/

/-- every attribute has the property -/
def AllAttrs (Q : Attribute → Prop) (m : FMap Attribute) : Prop := ∀ n a, m.get n = some a → Q a

theorem updAttr_all {ε : Type} {Q : Attribute → Prop} {m m' : FMap Attribute} {n : Str} {f : Attribute → Attribute}
    (h : (updAttr m n f : Res ε _) = .ok m') (hm : AllAttrs Q m) (hf : ∀ a, Q a → Q (f a)) : AllAttrs Q m' := by
  unfold updAttr at h
  split at h
  · cases h
  · next a ha =>
    cases h
    intro k b hb
    rw [FMap.get_insert] at hb
    split at hb
    · cases hb; exact hf a (hm n a ha)
    · exact hm k b hb

theorem updAll_all {ε V : Type} {Q : Attribute → Prop} {f : V → Attribute → Attribute} {l : List (Str × V)}
    {m m' : FMap Attribute} (h : (updAll f m l : Res ε _) = .ok m') (hm : AllAttrs Q m)
    (hf : ∀ p ∈ l, ∀ a, Q a → Q (f p.2 a)) : AllAttrs Q m' := by
  induction l generalizing m with
  | nil => cases h; exact hm
  | cons p t ih =>
    obtain ⟨n, v⟩ := p
    obtain ⟨m1, h1, h⟩ := Res.bind_eq_ok.1 h
    exact ih h (updAttr_all h1 hm (hf _ (.head _))) fun p hp => hf p (.tail _ hp)

theorem updConds_all {ε : Type} {E : Env} {Q : Attribute → Prop} {d : FMap (List Str)} {l : List (Str × Str)}
    {m m' : FMap Attribute} (h : (updConds E d m l : Res ε _) = .ok m') (hm : AllAttrs Q m)
    (hf : ∀ s a, Q a → Q (a.setCond s)) : AllAttrs Q m' := by
  induction l generalizing m with
  | nil => cases h; exact hm
  | cons p t ih =>
    obtain ⟨n, v⟩ := p
    obtain ⟨ds, _, h⟩ := Res.bind_eq_ok.1 h
    obtain ⟨s, _, h⟩ := Res.bind_eq_ok.1 h
    obtain ⟨m1, h1, h⟩ := Res.bind_eq_ok.1 h
    exact ih h (updAttr_all h1 hm (hf s))

theorem loadFlags_all {ε : Type} {Q : Attribute → Prop} {l : List Str} {m m' : FMap Attribute}
    (h : (loadFlags m l : Res ε _) = .ok m') (hm : AllAttrs Q m) (hf : ∀ a, Q a → Q { a with flagged := true }) :
    AllAttrs Q m' := by
  induction l generalizing m with
  | nil => cases h; exact hm
  | cons n t ih =>
    obtain ⟨m1, h1, h⟩ := Res.bind_eq_ok.1 h
    exact ih h (updAttr_all h1 hm hf)

/-- the type of attributes is never touched by an overlay -/
theorem loadBody_types {ε : Type} {E : Env} {P : NAttr → Prop} {b : OvBody} {m m' : FMap Attribute}
    (h : (loadBody E m b : Res ε _) = .ok m') (hm : AllAttrs (fun a => ∀ t, a.ty = some t → P t) m) :
    AllAttrs (fun a => ∀ t, a.ty = some t → P t) m' := by
  cases b <;> simp only [loadBody] at h
  case conditional c d => exact updConds_all h hm fun _ _ hq => hq
  case framing md x =>
    obtain ⟨id, _, h⟩ := Res.bind_eq_ok.1 h
    exact updAll_all h hm fun _ _ _ hq => hq
  all_goals first
    | exact updAll_all h hm fun _ _ _ hq => hq
    | (cases h; exact hm)

theorem loadBodies_all {ε : Type} {E : Env} {Q : Attribute → Prop} {l : List OvBody} {m m' : FMap Attribute}
    (hb : ∀ b ∈ l, ∀ m m', (loadBody E m b : Res ε _) = .ok m' → AllAttrs Q m → AllAttrs Q m')
    (h : (loadBodies E m l : Res ε _) = .ok m') (hm : AllAttrs Q m) : AllAttrs Q m' := by
  induction l generalizing m with
  | nil => cases h; exact hm
  | cons b t ih =>
    obtain ⟨m1, h1, h⟩ := Res.bind_eq_ok.1 h
    exact ih (fun b hb' => hb b (.tail _ hb')) h (hb b (.head _) _ _ h1 hm)

theorem loadBody_stor {ε : Type} {E : Env} {b : OvBody} {m m' : FMap Attribute}
    (hl : ∀ l, b.language = some l → E.langOf l = some l)
    (hg : ∀ x, b = .entryCode x → ∀ n g, x.get n = some (.object g) → SortedKeys g)
    (h : (loadBody E m b : Res ε _) = .ok m') (hm : AllAttrs (StorAttr E True) m) : AllAttrs (StorAttr E True) m' := by
  cases b <;> simp only [loadBody] at h
  case conditional c d => exact updConds_all h hm fun _ _ hq => { hq with }
  case framing md x =>
    obtain ⟨id, _, h⟩ := Res.bind_eq_ok.1 h
    exact updAll_all h hm fun _ _ _ hq => { hq with }
  case entryCode x =>
    refine updAll_all h hm fun p hp a hq => { hq with codes := ?_ }
    intro _ g e
    cases p with
    | mk n v =>
    cases e
    exact hg x rfl n g (FMap.get_eq_some_iff.2 hp)
  case label l _ x _ =>
    refine updAll_all h hm fun p hp a hq => { hq with labels := ?_ }
    show ∀ k, (optGet (putIn a.labels l p.2) k).isSome = true → _
    rw [putIn_eq]
    exact optGet_insert_some a.labels l _ (hl l rfl) hq.labels
  case information l x =>
    refine updAll_all h hm fun p hp a hq => { hq with informations := ?_ }
    show ∀ k, (optGet (putIn a.informations l p.2) k).isSome = true → _
    rw [putIn_eq]
    exact optGet_insert_some a.informations l _ (hl l rfl) hq.informations
  case entry l x =>
    refine updAll_all h hm fun p hp a hq => { hq with entries := ?_ }
    show ∀ k, (optGet (putIn a.entries l p.2) k).isSome = true → _
    rw [putIn_eq]
    exact optGet_insert_some a.entries l _ (hl l rfl) hq.entries
  all_goals first
    | exact updAll_all h hm fun _ _ _ hq => { hq with }
    | (cases h; exact hm)

/-- what meta pairs can be stored -/
def StorMetas (E : Env) (o : Option (FMap (FMap Str))) : Prop := ∀ m l ps, o = some m → m.get l = some ps →
  E.langOf l = some l ∧ ∀ k ∈ metaReserved, ps.get k = none

theorem loadMetas_stor {E : Env} {bodies : List OvBody} {b : OCABox} (h : StorMetas E b.metaMap)
    (hb : ∀ x ∈ bodies, ∀ l ps, x = .metaOv l ps → E.langOf l = some l ∧ ∀ k ∈ metaReserved, ps.get k = none) :
    StorMetas E (loadMetas b bodies).metaMap := by
  unfold loadMetas
  induction bodies generalizing b with
  | nil => exact h
  | cons x t ih =>
    rw [List.foldl_cons]
    refine ih ?_ fun y hy => hb y (.tail _ hy)
    cases x with
    | metaOv l ps =>
      obtain ⟨h1, h2⟩ := hb _ (.head _) l ps rfl
      have : ∀ p ∈ ps.l, p.1 ∉ metaReserved := by
        intro p hp hk
        have : ps.get p.1 = some p.2 := FMap.get_eq_some_iff.2 hp
        rw [h2 _ hk] at this
        cases this
      clear h2 hb ih
      dsimp only
      generalize ps.l = q at this
      induction q generalizing b with
      | nil => exact h
      | cons p t ih =>
        rw [List.foldl_cons]
        refine ih ?_ (fun q hq => this q (.tail _ hq))
        intro m l' ps' e hg
        unfold OCABox.addMeta at e
        cases e
        have hold : ∀ l ps, (b.metaMap.getD FMap.empty).get l = some ps →
            E.langOf l = some l ∧ ∀ k ∈ metaReserved, ps.get k = none := by
          intro l ps hg
          cases hm : b.metaMap with
          | none => rw [hm] at hg; cases hg
          | some m => rw [hm] at hg; exact h m l ps hm hg
        rw [FMap.get_insert] at hg
        split at hg
        · next e =>
          subst e
          cases hg
          refine ⟨h1, ?_⟩
          intro k hk
          have hne : k ≠ p.1 := fun e => this p (.head _) (by rw [← e]; exact hk)
          rw [FMap.get_insert, if_neg hne]
          cases hb : (b.metaMap.getD FMap.empty).get l' with
          | none => rfl
          | some ps => exact (hold _ _ hb).2 k hk
        · exact hold _ _ hg
    | _ => exact h

theorem StorBox.ofBundle {ε : Type} {E : Env} {b : Bundle} {box : OCABox} (hb : b.Storable E)
    (h : (OCABox.ofBundle E b : Res ε _) = .ok box) : StorBox E True box := by
  unfold OCABox.ofBundle at h
  obtain ⟨m1, h1, h⟩ := Res.bind_eq_ok.1 h
  obtain ⟨m2, h2, h⟩ := Res.bind_eq_ok.1 h
  cases h
  have h0 : AllAttrs (StorAttr E True) (b.captureBase.attributes.filterMap (fun _ t => some { ty := some t : Attribute })) := by
    intro n a ha
    rw [FMap.get_filterMap] at ha
    obtain ⟨t, ht, e⟩ := Option.bind_eq_some_iff.1 ha
    cases e
    exact ⟨fun _ t' e => (by cases e; exact hb.types n t ht), fun _ h => (by cases h), fun _ h => (by cases h),
      fun _ h => (by cases h), fun _ _ h => (by cases h)⟩
  refine ⟨?_, ?_⟩
  · refine loadBodies_all ?_ h2 (loadFlags_all h1 h0 fun a hq => { hq with })
    intro x hx m m' hl hm
    obtain ⟨k, _, hx⟩ := List.mem_flatMap.1 hx
    obtain ⟨o, ho, rfl⟩ := List.mem_map.1 (List.mem_filter.1 hx).1
    exact loadBody_stor (hb.overlays o ho).lang (hb.overlays o ho).groups hl hm
  · have key := loadMetas_stor (E := E) (b := { classification := some b.captureBase.classification }) (bodies := b.overlays.map Overlay.body)
      (fun _ _ _ e => by cases e) ?_
    · exact fun m l ps hm hg => ⟨(key m l ps hm hg).1, fun _ => (key m l ps hm hg).2⟩
    intro x hx l ps e
    obtain ⟨o, ho, rfl⟩ := List.mem_map.1 hx
    exact ⟨(hb.overlays o ho).lang l (by rw [e]; rfl), (hb.overlays o ho).noReserved l ps e⟩

theorem ofBundle_types {ε : Type} {E : Env} {P : NAttr → Prop} {b : Bundle} {box : OCABox}
    (hb : ∀ n t, b.captureBase.attributes.get n = some t → P t)
    (h : (OCABox.ofBundle E b : Res ε _) = .ok box) :
    AllAttrs (fun a => ∀ t, a.ty = some t → P t) box.attributes := by
  unfold OCABox.ofBundle at h
  obtain ⟨m1, h1, h⟩ := Res.bind_eq_ok.1 h
  obtain ⟨m2, h2, h⟩ := Res.bind_eq_ok.1 h
  cases h
  refine loadBodies_all (fun x _ m m' hl hm => loadBody_types hl hm) h2 (loadFlags_all h1 ?_ fun _ hq => hq)
  intro n a ha
  rw [FMap.get_filterMap] at ha
  obtain ⟨t, ht, e⟩ := Option.bind_eq_some_iff.1 ha
  cases e
  intro t' e
  cases e
  exact hb n t ht

/-! ## Commands -/

theorem putX_ty (E : Env) (k : OvKind) (c : Content) (a : Attribute) (v : NVal) : (a.put E k c v).ty = a.ty := by
  unfold Attribute.put
  cases k <;> dsimp only <;> (repeat' split) <;> rfl

/-- the types a command gives to attributes -/
def Command.givesOnly (P : NAttr → Prop) (c : Command) : Prop :=
  ∀ cc l, c.obj = .captureBase cc → cc.attributes = some l → ∀ p ∈ l, P p.2

theorem applyCommand_types (E : Env) (P : NAttr → Prop) (b b' : OCABox) (c : Command)
    (h : AllAttrs (fun a => ∀ t, a.ty = some t → P t) b.attributes) (hp : c.givesOnly P)
    (ha : applyCommand E (some b) c = .ok b') : AllAttrs (fun a => ∀ t, a.ty = some t → P t) b'.attributes := by
  obtain ⟨kind, obj⟩ := c
  cases obj with
  | ocaBundle r => cases kind <;> cases ha
  | captureBase cc =>
    cases kind with
    | add =>
      rw [applyAddBase] at ha
      cases ha
      intro n a hg
      rw [get_boxAdd] at hg
      split at hg
      · rename_i t ht
        cases hg
        have hwf : P t := by
          have hm := FMap.mem_of_lastVal ht
          cases hl : cc.attributes with
          | none => rw [hl] at hm; cases hm
          | some l => rw [hl] at hm; exact hp cc l rfl hl _ hm
        intro t' e
        cases hb : b.attributes.get n with
        | none => rw [hb] at e; cases e; exact hwf
        | some a0 => rw [hb] at e; cases e; exact hwf
      · exact h n a hg
    | remove =>
      rw [applyRemoveBase] at ha
      cases ha
      intro n a hg
      rw [get_boxRemove] at hg
      split at hg
      · cases hg
      · exact h n a hg
    | «from» => cases ha
    | modify => cases ha
  | overlay t cc =>
    cases kind with
    | remove => cases ha
    | «from» => cases ha
    | modify => cases ha
    | add =>
      simp only [OCA.applyCommand, Option.getD_some] at ha
      by_cases hm : t.kind = .metaOv
      · rw [hm, applyOverlay_meta, applyMeta_ok_iff] at ha
        rcases ha with ⟨-, rfl⟩ | ⟨l, hl, rfl⟩
        · exact h
        · exact h
      · unfold applyOverlay at ha
        split at ha
        · rename_i e; exact absurd e hm
        · split at ha
          · cases ha; exact h
          · rename_i errs f hset
            obtain ⟨b1, h1, h2⟩ := Res.bind_eq_ok.mp ha
            have hb1 : AllAttrs (fun a => ∀ t, a.ty = some t → P t) b1.attributes := by
              refine foldRes_inv_mem (fun b => AllAttrs (fun a => ∀ t, a.ty = some t → P t) b.attributes) _ ?_ b b1 h h1
              intro b p hpm b' hb hs
              unfold ovAttrStep at hs
              split at hs
              · cases hs
              · rename_i a hga
                obtain ⟨a', hf, hs⟩ := Res.bind_eq_ok.mp hs
                cases hs
                rw [addAttribute_some _ _ _ _ hga, merge_setter E _ _ hset _ _ _ hf]
                intro n a2 hg
                simp only [FMap.get_insert] at hg
                split at hg
                · cases hg
                  rw [putX_ty]
                  exact hb _ _ hga
                · exact hb n a2 hg
            split at h2
            · cases h2; exact hb1
            · cases h2

/-! ## Builds -/

/-- A command that can be stored, read back, and whose result can be. -/
structure Command.Keepable (E : Env) (c : Command) : Prop where
  storable : c.Storable E
  faithful : c.faithful E
  depth : c.toJson.depth < 128
  types : c.givesOnly fun t => t.arrays ≤ 124

/-- a bundle that can be stored and read back -/
structure Bundle.Keepable (E : Env) (b : Bundle) : Prop where
  storable : b.Storable E
  types : ∀ n t, b.captureBase.attributes.get n = some t → t.arrays ≤ 124

/-- a state all whose bundles can be -/
structure KeepBox (E : Env) (b : OCABox) : Prop where
  reach : Reachable E b
  stor : StorBox E True b
  types : AllAttrs (fun a => ∀ t, a.ty = some t → t.arrays ≤ 124) b.attributes

theorem KeepBox.new (E : Env) : KeepBox E OCABox.new :=
  ⟨.new, ⟨fun _ _ h => (by cases h), fun _ _ _ h => (by cases h)⟩, fun _ _ h => (by cases h)⟩

theorem KeepBox.step {E : Env} {b b' : OCABox} {c : Command} (h : KeepBox E b) (hc : c.Keepable E)
    (ha : applyCommand E (some b) c = .ok b') : KeepBox E b' :=
  ⟨.step b b' c h.reach ha, h.stor.applyCommand E True b b' c (fun _ => hc.storable) ha, applyCommand_types E _ b b' c h.types hc.types ha⟩

theorem KeepBox.bundle {E : Env} {b : OCABox} (h : KeepBox E b) (O : Order) : (bundleOf E O b).Keepable E := by
  refine ⟨h.stor.storable h.reach O, ?_⟩
  intro n t ht
  have : (typesOf b.attributes).get n = some t := ht
  unfold typesOf at this
  rw [get_collect] at this
  obtain ⟨a, ha, hc⟩ := Option.bind_eq_some_iff.mp this
  exact h.types n a ha t hc

theorem KeepBox.ofBundle {ε : Type} {E : Env} {b : Bundle} {box : OCABox} (hb : b.Keepable E)
    (h : (OCABox.ofBundle E b : Res ε _) = .ok box) : KeepBox E box := by
  exact ⟨.loaded b box h, StorBox.ofBundle hb.storable h, ofBundle_types hb.types h⟩

theorem KeepBox.base {ε : Type} {E : Env} {fromOca : Option Bundle} {base : Option OCABox}
    (hb : ∀ x, fromOca = some x → x.Keepable E) (h : (baseOf E fromOca : Res ε _) = .ok base) :
    ∀ x, base = some x → KeepBox E x := by
  cases fromOca with
  | none => cases h; intro x e; cases e
  | some bu =>
    simp only [baseOf] at h
    obtain ⟨y, h1, h2⟩ := Res.bind_eq_ok.1 h
    cases h2
    intro x e
    cases e
    exact KeepBox.ofBundle (hb bu rfl) h1

/-- What a successful build consists of. -/
theorem fromAst_parts {E : Env} {Os : Nat → Order} {fromOca : Option Bundle} {ast : OCAAst} {b : Build}
    (h : fromAst E Os fromOca ast = .ok b) :
    ∃ base box, (baseOf E fromOca : Res (List BuildErr) _) = .ok base ∧
      (∀ r ∈ results E base ast.commands, r.isOk = true) ∧ finalState E base ast.commands = some box ∧
      b.steps = stepsFrom E Os 0 (fromOca.bind Bundle.said) base ast.commands ∧
      b.bundle = bundleOf E (Os ast.commands.length) box := by
  obtain ⟨base, box, h1, h2, h3, h4, -, -, -, h8, -⟩ := C12_successful_build E Os fromOca ast b h
  refine ⟨base, box, h1, h2, h3, ?_, ?_⟩
  · have hreach := baseOf_reach E fromOca base h1
    have hp : Res.panic ∉ results E base ast.commands := fun hp => by cases h2 _ hp
    obtain ⟨st, e1, e2, e3, e4⟩ := (buildLoop_spec E Os ast (if fromOca.isSome then 1 else 0) ast.commands 0
      ⟨[], [], fromOca.bind Bundle.said, base⟩ hreach).2 hp
    unfold fromAst at h
    rw [h1] at h
    simp only [Res.bind_ok] at h
    rw [e1] at h
    simp only [Res.bind_ok, buildFinish] at h
    split at h
    · obtain ⟨box, h1, h⟩ := Res.bind_eq_ok.mp h
      obtain ⟨bu, h2, h⟩ := Res.bind_eq_ok.mp h
      cases h
      rw [e4]
      rfl
    · cases h
  · rw [reachable_gen h4] at h8
    exact (Res.ok.inj h8).symm

/-- Keepable commands on a keepable base: every step's result is keepable. -/
theorem stepsFrom_keep {E : Env} {Os : Nat → Order} {cs : List Command} {i : Nat} {p : Option Said} {base : Option OCABox}
    (hb : ∀ x, base = some x → KeepBox E x) (hc : ∀ c ∈ cs, c.Keepable E) :
    (∀ st ∈ stepsFrom E Os i p base cs, st.command ∈ cs ∧ st.result.Keepable E ∧ st.result.said ≠ none) ∧
    ∀ x, finalState E base cs = some x → KeepBox E x := by
  induction cs generalizing i p base with
  | nil => exact ⟨fun st h => (by cases h), hb⟩
  | cons c t ih =>
    have hstep : ∀ x, applyCommand E base c = .ok x → KeepBox E x := by
      intro x hx
      cases base with
      | none => exact (KeepBox.new E).step (hc c (.head _)) hx
      | some b => exact (hb b rfl).step (hc c (.head _)) hx
    unfold stepsFrom finalState
    cases ha : applyCommand E base c with
    | ok x =>
      have hx := hstep x ha
      obtain ⟨i1, i2⟩ := ih (i := i + 1) (p := (bundleOf E (Os i) x).said) (base := some x)
        (fun y e => by cases e; exact hx) fun c h => hc c (.tail _ h)
      refine ⟨?_, i2⟩
      intro st hst
      rcases List.mem_cons.1 hst with rfl | hst
      · exact ⟨.head _, hx.bundle _, by intro h; cases h⟩
      · obtain ⟨a, b⟩ := i1 st hst
        exact ⟨.tail _ a, b⟩
    | err e =>
      obtain ⟨i1, i2⟩ := ih (i := i + 1) (p := p) (base := base) hb fun c h => hc c (.tail _ h)
      exact ⟨fun st h => ⟨.tail _ (i1 st h).1, (i1 st h).2⟩, i2⟩
    | panic =>
      obtain ⟨i1, i2⟩ := ih (i := i + 1) (p := p) (base := base) hb fun c h => hc c (.tail _ h)
      exact ⟨fun st h => ⟨.tail _ (i1 st h).1, (i1 st h).2⟩, i2⟩

theorem fromAst_keep {E : Env} {Os : Nat → Order} {fromOca : Option Bundle} {ast : OCAAst} {b : Build}
    (h : fromAst E Os fromOca ast = .ok b) (hb : ∀ x, fromOca = some x → x.Keepable E)
    (hc : ∀ c ∈ ast.commands, c.Keepable E) :
    (∀ st ∈ b.steps, st.command.Keepable E ∧ st.result.Keepable E ∧ st.result.said ≠ none) ∧ b.bundle.Keepable E := by
  obtain ⟨base, box, h1, h2, h3, h4, h5⟩ := fromAst_parts h
  obtain ⟨k1, k2⟩ := stepsFrom_keep (Os := Os) (i := 0) (p := fromOca.bind Bundle.said) (KeepBox.base hb h1) hc
  rw [h4, h5]
  exact ⟨fun st hst => ⟨hc _ (k1 st hst).1, (k1 st hst).2⟩, (k2 box h3).bundle _⟩

/-! ## Loading what was stored -/

theorem language_norm (b : OvBody) : b.norm.language = b.language := by cases b <;> rfl

theorem kind_norm (b : OvBody) : b.norm.kind = b.kind := by cases b <;> rfl

theorem Overlay.norm_storable {E : Env} {o : Overlay} (h : o.Storable E) : o.norm.Storable E := by
  refine ⟨h.said, h.base, h.ver, ?_, ?_, ?_, ?_⟩
  rotate_right
  · intro m e
    have e : o.body.norm = .standard m := e
    cases hb : o.body <;> rw [hb] at e <;> cases e
    exact h.standards _ hb
  · intro l hl
    exact h.lang l (by rw [← language_norm]; exact hl)
  · intro l ps e
    have : o.body = .metaOv l ps := by
      have e : o.body.norm = .metaOv l ps := e
      cases hb : o.body <;> rw [hb] at e <;> cases e
      rfl
    exact h.noReserved l ps this
  · intro m e n g hg
    have e : o.body.norm = .entryCode m := e
    cases hb : o.body <;> rw [hb] at e <;> cases e
    rename_i m
    rw [FMap.get_filterMap] at hg
    obtain ⟨c, hc, e⟩ := Option.bind_eq_some_iff.1 hg
    cases c with
    | sai s => cases e
    | array l => cases e
    | object g' =>
      cases e
      exact (FMap.ofList g').sorted

theorem SinglesOnce.perm {l l' : List Overlay} (h : SinglesOnce l) (hp : l'.Perm l) : SinglesOnce l' := by
  intro k hk
  rw [(hp.filter _).length_eq]
  exact h k hk

theorem SinglesOnce.norm {l : List Overlay} (h : SinglesOnce l) : SinglesOnce (l.map Overlay.norm) := by
  intro k hk
  rw [List.filter_map, List.length_map]
  have : ((fun o : Overlay => decide (o.body.kind = k)) ∘ Overlay.norm) = fun o => decide (o.body.kind = k) := by
    funext o
    show decide (o.body.norm.kind = k) = _
    rw [kind_norm]
  rw [this]
  exact h k hk

/-- What is loaded for a keepable bundle is keepable. -/
theorem Bundle.Keepable.loaded {E : Env} {b : Bundle} (h : b.Keepable E) :
    (⟨b.said, { b.captureBase with flagged := sortStr b.captureBase.flagged },
      (written b.overlays).map Overlay.norm⟩ : Bundle).Keepable E := by
  have hp := written_perm _ h.storable.singles
  refine ⟨⟨h.storable.said, h.storable.base, h.storable.types, ?_, (h.storable.singles.perm hp).norm⟩, h.types⟩
  intro o ho
  obtain ⟨o', ho', rfl⟩ := List.mem_map.1 ho
  exact Overlay.norm_storable (h.storable.overlays o' (hp.mem_iff.1 ho'))

end OCA
