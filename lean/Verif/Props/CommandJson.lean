import Verif.Props.AstProps
import Verif.Lemmas.All2
/-!
# C06: commands survive JSON
-/
namespace OCA

theorem imInsert_of_not_mem {V : Type} {k : Str} {v : V} {l : List (Str × V)}
    (h : k ∉ l.map (·.1)) : imInsert k v l = l ++ [(k, v)] := by
  induction l with
  | nil => rfl
  | cons p t ih =>
    obtain ⟨a, b⟩ := p
    simp only [List.map_cons, List.mem_cons, not_or] at h
    simp only [imInsert, if_neg h.1, ih h.2, List.cons_append]

theorem imExtend_of_nodup {V : Type} (l l' : List (Str × V))
    (h : (l.map (·.1) ++ l'.map (·.1)).Nodup) : imExtend l l' = l ++ l' := by
  unfold imExtend
  induction l' generalizing l with
  | nil => simp
  | cons p t ih =>
    rw [List.foldl_cons]
    have hn : p.1 ∉ l.map (·.1) := by
      intro hm
      have := (List.nodup_append.mp h).2.2 _ hm p.1 (by simp)
      exact this rfl
    rw [imInsert_of_not_mem hn, ih]
    · simp
    · simpa [List.append_assoc] using h

theorem imExtend_nil {V : Type} (l : List (Str × V)) (h : (l.map (·.1)).Nodup) :
    imExtend [] l = l := by
  rw [imExtend_of_nodup [] l (by simpa using h)]; simp

mutual
theorem NVal.ofJson_toJson (E : Env) : (v : NVal) → v.faithful E → NVal.ofJson E v.toJson = some v
  | .ref r, h => by
    simp only [NVal.toJson, NVal.ofJson]
    rw [C07_reference_round_trip E r h]
  | .val s, h => by
    simp only [NVal.faithful] at h
    simp only [NVal.toJson, NVal.ofJson]
    split
    · next r hr => rw [hr] at h; cases h
    · rfl
  | .obj l, h => by
    simp only [NVal.faithful] at h
    simp only [NVal.toJson, NVal.ofJson, NVal.ofJsonObj_toJsonObj E l h.2, Option.map_some,
      imExtend_nil l h.1]
  | .arr l, h => by
    simp only [NVal.faithful] at h
    simp only [NVal.toJson, NVal.ofJson, NVal.ofJsonArr_toJsonArr E l h, Option.map_some]
theorem NVal.ofJsonObj_toJsonObj (E : Env) : (l : List (Str × NVal)) → NVal.faithfulObj E l →
    NVal.ofJsonObj E (NVal.toJsonObj l) = some l
  | [], _ => rfl
  | (k, v) :: t, h => by
    simp only [NVal.faithfulObj] at h
    simp only [NVal.toJsonObj, NVal.ofJsonObj, NVal.ofJson_toJson E v h.1,
      NVal.ofJsonObj_toJsonObj E t h.2, Option.map_some]
theorem NVal.ofJsonArr_toJsonArr (E : Env) : (l : List NVal) → NVal.faithfulArr E l →
    NVal.ofJsonArr E (NVal.toJsonArr l) = some l
  | [], _ => rfl
  | v :: t, h => by
    simp only [NVal.faithfulArr] at h
    simp only [NVal.toJsonArr, NVal.ofJsonArr, NVal.ofJson_toJson E v h.1,
      NVal.ofJsonArr_toJsonArr E t h.2, Option.map_some]
end

/-- Keys are distinct (an `IndexMap`) and every value is readable. -/
def faithfulVals (E : Env) (o : Option (List (Str × NVal))) : Prop :=
  ∀ l, o = some l → (l.map (·.1)).Nodup ∧ NVal.faithfulObj E l

/-- Keys are distinct (an `IndexMap`) and every identifier is real. -/
def faithfulAttrs (E : Env) (o : Option (List (Str × NAttr))) : Prop :=
  ∀ l, o = some l → (l.map (·.1)).Nodup ∧ ∀ p ∈ l, p.2.wf E

/-- The commands that read back: any reference value is well formed, no plain text has the form of a
reference, and an overlay is neither of kind AttributeMapping nor of a version other than 1.1. -/
def Command.faithful (E : Env) (c : Command) : Prop :=
  match c.obj with
  | .captureBase c => faithfulAttrs E c.attributes ∧ faithfulVals E c.properties
  | .ocaBundle r => r.wf E
  | .overlay t c => t.ver = c!"1.1" ∧ t.kind ≠ .attributeMapping ∧ faithfulVals E c.attributes ∧
      faithfulVals E c.properties

theorem collectRes_map {ε α β : Type} (f : α → Res ε β) (g : β → α) (l : List β)
    (h : ∀ b ∈ l, f (g b) = .ok b) : collectRes f (l.map g) = .ok l := by
  induction l with
  | nil => rfl
  | cons b t ih =>
    simp only [List.map_cons, collectRes]
    rw [h b (List.mem_cons_self ..), ih (fun b hb => h b (List.mem_cons_of_mem _ hb))]

theorem valsOfJson_toJson (E : Env) (o : Option (List (Str × NVal))) (h : faithfulVals E o) :
    valsOfJson E (o.map fun l => Json.obj (NVal.toJsonObj l)) = .ok o := by
  cases o with
  | none => rfl
  | some l =>
    obtain ⟨h1, h2⟩ := h l rfl
    simp only [Option.map_some, valsOfJson, NVal.ofJsonObj_toJsonObj E l h2, imExtend_nil l h1]

theorem attrsOfJson_toJson (E : Env) (o : Option (List (Str × NAttr))) (h : faithfulAttrs E o) :
    attrsOfJson E (o.map fun l => Json.obj (l.map fun p => (p.1, p.2.toJson))) = .ok o := by
  cases o with
  | none => rfl
  | some l =>
    obtain ⟨h1, h2⟩ := h l rfl
    simp only [Option.map_some, attrsOfJson]
    rw [collectRes_map _ (fun p : Str × NAttr => (p.1, p.2.toJson)) l]
    · simp only [imExtend_nil l h1]
    · intro p hp
      simp only [C08_attribute_type_json_round_trip E p.2 (h2 p hp)]

theorem strsOfJson_toJson (o : Option (List Str)) :
    strsOfJson (o.map fun l => Json.arr (l.map Json.str)) = .ok o := by
  cases o with
  | none => rfl
  | some l =>
    simp only [Option.map_some, strsOfJson]
    rw [collectRes_map _ Json.str l]
    intro s _; rfl

theorem jfield_optField3 (k1 k2 k3 : Str) (a b c : Option Json) (h12 : k1 ≠ k2) (h13 : k1 ≠ k3)
    (h23 : k2 ≠ k3) :
    jfield k1 (optField k1 a ++ optField k2 b ++ optField k3 c) = some a ∧
    jfield k2 (optField k1 a ++ optField k2 b ++ optField k3 c) = some b ∧
    jfield k3 (optField k1 a ++ optField k2 b ++ optField k3 c) = some c := by
  have h21 := h12.symm
  have h31 := h13.symm
  have h32 := h23.symm
  cases a <;> cases b <;> cases c <;> simp [jfield, optField, *]

theorem jfield_optField2 (k1 k2 : Str) (a b : Option Json) (h12 : k1 ≠ k2) :
    jfield k1 (optField k1 a ++ optField k2 b) = some a ∧
    jfield k2 (optField k1 a ++ optField k2 b) = some b := by
  have h21 := h12.symm
  cases a <;> cases b <;> simp [jfield, optField, *]

theorem CaptureContent.ofJson_toJson (E : Env) (c : CaptureContent)
    (h1 : faithfulAttrs E c.attributes) (h2 : faithfulVals E c.properties) :
    CaptureContent.ofJson E c.toJson = .ok c := by
  have hj := jfield_optField3 c!"attributes" c!"properties" c!"flagged_attributes"
    (c.attributes.map fun l => Json.obj (l.map fun p => (p.1, p.2.toJson)))
    (c.properties.map fun l => .obj (NVal.toJsonObj l))
    (c.flagged.map fun l => .arr (l.map Json.str)) (by decide) (by decide) (by decide)
  simp only [CaptureContent.toJson, CaptureContent.ofJson, structMembers, hj.1, hj.2.1, hj.2.2, DRes.ofOption,
    Res.bind_ok, attrsOfJson_toJson E _ h1, valsOfJson_toJson E _ h2, strsOfJson_toJson, Res.pure_eq]

theorem Content.ofJson_toJson (E : Env) (c : Content)
    (h1 : faithfulVals E c.attributes) (h2 : faithfulVals E c.properties) :
    Content.ofJson E c.toJson = .ok c := by
  have hj := jfield_optField2 c!"attributes" c!"properties"
    (c.attributes.map fun l => .obj (NVal.toJsonObj l))
    (c.properties.map fun l => .obj (NVal.toJsonObj l)) (by decide)
  simp only [Content.toJson, Content.ofJson, structMembers, hj.1, hj.2, DRes.ofOption,
    Res.bind_ok, valsOfJson_toJson E _ h1, valsOfJson_toJson E _ h2, Res.pure_eq]

theorem CmdType.ofStr_toStr (k : CmdType) : CmdType.ofStr k.toStr = some k := by
  cases k <;> decide

theorem fromStr_display (k : OvKind) (h : k ≠ .attributeMapping) :
    OverlayType.fromStr k.display = some ⟨k, c!"1.1"⟩ := by
  cases k <;> first | rfl | exact absurd rfl h

theorem display_ne (k : OvKind) : k.display ≠ c!"CaptureBase" ∧ k.display ≠ c!"OCABundle" := by
  cases k <;> decide

theorem Command.ofJson_toJson_eq (E : Env) (c : Command) (kind : Str) (content : Json)
    (h : c.obj.toFields = [(c!"object_kind", .str kind), (c!"content", content)]) :
    Command.ofJson E c.toJson = match objKindOfJson E kind content with
      | .ok o => .ok ⟨c.kind, o⟩
      | .err e => .err e
      | .panic => .panic := by
  simp only [Command.toJson, h, Command.ofJson]
  rw [Command.visit, if_pos rfl]
  simp only [visitType, variantName, CmdType.ofStr_toStr, DRes.ofOption, Res.bind_ok]
  rw [Command.visit, if_neg (by decide), if_pos rfl]
  simp only [visitObj]
  cases objKindOfJson E kind content <;> rfl

/-- **C06** every command outside the three known losses reads back from its JSON form as itself; the converse is in
`C06_reads_back_iff`. -/
theorem C06_command_json_round_trip (E : Env) (c : Command) (h : c.faithful E) :
    Command.ofJson E c.toJson = .ok c := by
  obtain ⟨kind, obj⟩ := c
  cases obj with
  | captureBase cc =>
    rw [Command.ofJson_toJson_eq E _ c!"CaptureBase" cc.toJson rfl]
    simp only [objKindOfJson, if_true, CaptureContent.ofJson_toJson E cc h.1 h.2]
  | ocaBundle r =>
    rw [Command.ofJson_toJson_eq E _ c!"OCABundle" (.obj [(c!"said", .str r.toStr)]) rfl]
    have h' : r.wf E := h
    unfold objKindOfJson
    rw [if_neg (by decide), if_pos rfl]
    simp [bundleContentOfJson, structMembers, jfield, C07_reference_round_trip E r h', Res.noErr]
  | overlay t cc =>
    obtain ⟨k, v⟩ := t
    obtain ⟨hv, hk, h1, h2⟩ := h
    simp only at hv hk
    subst hv
    rw [Command.ofJson_toJson_eq E _ k.display cc.toJson rfl]
    simp only [objKindOfJson]
    rw [if_neg (display_ne k).1, if_neg (display_ne k).2, fromStr_display k hk]
    simp only [Content.ofJson_toJson E cc h1 h2]

/-- **C06** negation: no AttributeMapping command reads back, whatever its content. -/
theorem C06_attribute_mapping_lost (E : Env) (k : CmdType) (v : Str) (c : Content) :
    Command.ofJson E (Command.toJson ⟨k, .overlay ⟨.attributeMapping, v⟩ c⟩) = .err () := by
  rw [Command.ofJson_toJson_eq E _ OvKind.attributeMapping.display c.toJson rfl]
  rfl

/-- **C06** negation: whatever version an overlay command has, if it reads back at all it comes back
with version 1.1. -/
theorem C06_version_lost (E : Env) (k : CmdType) (t : OverlayType) (c : Content) (d : Command)
    (h : Command.ofJson E (Command.toJson ⟨k, .overlay t c⟩) = .ok d) :
    ∃ c', d = ⟨k, .overlay ⟨t.kind, c!"1.1"⟩ c'⟩ := by
  rw [Command.ofJson_toJson_eq E _ t.kind.display c.toJson rfl] at h
  by_cases hk : t.kind = .attributeMapping
  · rw [hk] at h
    have : objKindOfJson E OvKind.attributeMapping.display c.toJson = .err () := rfl
    rw [this] at h; cases h
  · simp only [objKindOfJson] at h
    rw [if_neg (display_ne _).1, if_neg (display_ne _).2, fromStr_display _ hk] at h
    simp only at h
    cases hc : Content.ofJson E c.toJson with
    | ok c' => rw [hc] at h; simp only [Res.ok.injEq] at h; exact ⟨c', h.symm⟩
    | err e => rw [hc] at h; cases h
    | panic => rw [hc] at h; cases h

/-! ## Conversely, what reads back is faithful -/

theorem imInsert_keys_nodup {V : Type} (k : Str) (v : V) (l : List (Str × V)) (h : (l.map (·.1)).Nodup) :
    ((imInsert k v l).map (·.1)).Nodup ∧ ∀ x ∈ (imInsert k v l).map (·.1), x = k ∨ x ∈ l.map (·.1) := by
  induction l with
  | nil => simp [imInsert]
  | cons p t ih =>
    obtain ⟨a, b⟩ := p
    simp only [List.map_cons, List.nodup_cons] at h
    unfold imInsert
    split
    · next e => subst e; simpa using h
    · next e =>
      obtain ⟨i1, i2⟩ := ih h.2
      refine ⟨?_, ?_⟩
      · simp only [List.map_cons, List.nodup_cons]
        refine ⟨fun hm => ?_, i1⟩
        rcases i2 a hm with rfl | hm
        · exact e rfl
        · exact h.1 hm
      · intro x hx
        simp only [List.map_cons, List.mem_cons] at hx ⊢
        rcases hx with rfl | hx
        · exact .inr (.inl rfl)
        · rcases i2 x hx with h | h
          · exact .inl h
          · exact .inr (.inr h)

theorem imExtend_keys_nodup {V : Type} (l l' : List (Str × V)) (h : (l.map (·.1)).Nodup) :
    ((imExtend l l').map (·.1)).Nodup := by
  unfold imExtend
  induction l' generalizing l with
  | nil => exact h
  | cons p t ih => exact ih _ (imInsert_keys_nodup _ _ _ h).1

/-- entries put into an `IndexMap` give those entries back only if their keys are distinct -/
theorem imExtend_fixed {V : Type} {r l : List (Str × V)} (hk : r.map (·.1) = l.map (·.1)) (h : imExtend [] r = l) :
    r = l ∧ (l.map (·.1)).Nodup := by
  have hl : (l.map (·.1)).Nodup := h ▸ imExtend_keys_nodup [] r (by simp)
  rw [imExtend_nil r (hk ▸ hl)] at h
  exact ⟨h, hl⟩

theorem ofJsonObj_keys (E : Env) : (l : List (Str × NVal)) → (r : List (Str × NVal)) →
    NVal.ofJsonObj E (NVal.toJsonObj l) = some r → r.map (·.1) = l.map (·.1)
  | [], r, h => by cases h; rfl
  | (k, v) :: t, r, h => by
    simp only [NVal.toJsonObj, NVal.ofJsonObj] at h
    split at h
    · cases h
    · obtain ⟨r', hr, rfl⟩ := Option.map_eq_some_iff.1 h
      simp [ofJsonObj_keys E t r' hr]

mutual
theorem NVal.faithful_of_round (E : Env) : (v : NVal) → NVal.ofJson E v.toJson = some v → v.faithful E
  | .ref r, h => by
    simp only [NVal.toJson, NVal.ofJson] at h
    split at h
    · next r' hr =>
      cases h
      exact (((C07_reference_parse_spec E r.toStr).1 r).1 hr).2
    · cases h
  | .val s, h => by
    simp only [NVal.toJson, NVal.ofJson] at h
    split at h
    · cases h
    · next hr =>
      simp only [NVal.faithful]
      cases hp : RefVal.parse E s with
      | ok r => exact absurd hp (hr r)
      | err e => rfl
      | panic => rfl
  | .obj l, h => by
    simp only [NVal.toJson, NVal.ofJson] at h
    obtain ⟨r, hr, h⟩ := Option.map_eq_some_iff.1 h
    injection h with h
    obtain ⟨he, hn⟩ := imExtend_fixed (ofJsonObj_keys E l r hr) h
    exact ⟨hn, NVal.faithfulObj_of_round E l (he ▸ hr)⟩
  | .arr l, h => by
    simp only [NVal.toJson, NVal.ofJson] at h
    obtain ⟨r, hr, h⟩ := Option.map_eq_some_iff.1 h
    injection h with h
    exact NVal.faithfulArr_of_round E l (h ▸ hr)
theorem NVal.faithfulObj_of_round (E : Env) : (l : List (Str × NVal)) → NVal.ofJsonObj E (NVal.toJsonObj l) = some l →
    NVal.faithfulObj E l
  | [], _ => trivial
  | (k, v) :: t, h => by
    simp only [NVal.toJsonObj, NVal.ofJsonObj] at h
    split at h
    · cases h
    · next v' hv =>
      obtain ⟨r', hr, h⟩ := Option.map_eq_some_iff.1 h
      injection h with h1 h2
      injection h1 with _ h1
      exact ⟨NVal.faithful_of_round E v (h1 ▸ hv), NVal.faithfulObj_of_round E t (h2 ▸ hr)⟩
theorem NVal.faithfulArr_of_round (E : Env) : (l : List NVal) → NVal.ofJsonArr E (NVal.toJsonArr l) = some l →
    NVal.faithfulArr E l
  | [], _ => trivial
  | v :: t, h => by
    simp only [NVal.toJsonArr, NVal.ofJsonArr] at h
    split at h
    · cases h
    · next v' hv =>
      obtain ⟨r', hr, h⟩ := Option.map_eq_some_iff.1 h
      injection h with h1 h2
      exact ⟨NVal.faithful_of_round E v (h1 ▸ hv), NVal.faithfulArr_of_round E t (h2 ▸ hr)⟩
end

theorem faithfulVals_of_round (E : Env) (o : Option (List (Str × NVal)))
    (h : valsOfJson E (o.map fun l => Json.obj (NVal.toJsonObj l)) = .ok o) : faithfulVals E o := by
  rintro l rfl
  simp only [Option.map_some, valsOfJson] at h
  split at h
  · next r hr =>
    injection h with h
    injection h with h
    obtain ⟨rfl, hn⟩ := imExtend_fixed (ofJsonObj_keys E l r hr) h
    exact ⟨hn, NVal.faithfulObj_of_round E _ hr⟩
  · cases h

theorem NAttr.wf_of_round (E : Env) (t : NAttr) (h : NAttr.ofJson E t.toJson = .ok t) : t.wf E := by
  induction t with
  | ref r =>
    simp only [NAttr.toJson, NAttr.ofJson] at h
    split at h
    · split at h
      · next r' hr => cases h; exact (((C07_reference_parse_spec E r.toStr).1 r).1 hr).2
      · cases h
      · cases h
    · split at h <;> cases h
  | val t => trivial
  | arr a ih =>
    simp only [NAttr.toJson, NAttr.ofJson] at h
    split at h
    · next a' ha => cases h; exact ih ha
    · cases h
    · cases h
  | null => trivial

theorem collectRes_round {ε α β : Type} (f : α → Res ε β) : (l : List α) → (r : List β) → collectRes f l = .ok r →
    All2 (fun a b => f a = .ok b) l r
  | [], r, h => by cases h; exact .nil
  | a :: t, r, h => by
    simp only [collectRes] at h
    split at h
    · next b hb =>
      split at h
      · next r' hr => cases h; exact .cons hb (collectRes_round f t r' hr)
      · cases h
      · cases h
    · cases h
    · cases h

theorem faithfulAttrs_of_round (E : Env) (o : Option (List (Str × NAttr)))
    (h : attrsOfJson E (o.map fun l => Json.obj (l.map fun p => (p.1, p.2.toJson))) = .ok o) : faithfulAttrs E o := by
  rintro l rfl
  simp only [Option.map_some, attrsOfJson] at h
  split at h
  · next r hr =>
    injection h with h
    injection h with h
    have hall := collectRes_round _ _ _ hr
    have hk : r.map (·.1) = l.map (·.1) := by
      clear hr h
      generalize hm : (l.map fun p : Str × NAttr => (p.1, p.2.toJson)) = m at hall
      induction hall generalizing l with
      | nil => cases l with
        | nil => rfl
        | cons _ _ => cases hm
      | @cons a b as bs hb _ ih =>
        cases l with
        | nil => cases hm
        | cons p l =>
          injection hm with e1 e2
          subst e1
          dsimp only at hb
          rw [List.map_cons, List.map_cons, ih _ e2]
          split at hb
          · cases hb; rfl
          · cases hb
          · cases hb
    obtain ⟨rfl, hn⟩ := imExtend_fixed hk h
    refine ⟨hn, ?_⟩
    clear hr hn hk h
    intro p hp
    induction r with
    | nil => cases hp
    | cons q r ih =>
      rw [List.map_cons] at hall
      cases hall with
      | cons hb ht =>
        rcases List.mem_cons.1 hp with rfl | hp
        · dsimp only at hb
          split at hb
          · next a ha =>
            injection hb with hb
            have : a = p.2 := by rw [← hb]
            exact NAttr.wf_of_round E _ (this ▸ ha)
          · cases hb
          · cases hb
        · exact ih ht hp
  · cases h
  · cases h

/-- **C06** A command written as JSON reads back as the same command exactly if: no name occurs twice in a map, every reference is
well formed, no plain text has the form of a reference, and an overlay is neither an attribute mapping nor of a version other than
1.1. -/
theorem C06_reads_back_iff (E : Env) (c : Command) : Command.ofJson E c.toJson = .ok c ↔ c.faithful E := by
  refine ⟨fun h => ?_, C06_command_json_round_trip E c⟩
  obtain ⟨kind, obj⟩ := c
  cases obj with
  | captureBase cc =>
    rw [Command.ofJson_toJson_eq E _ c!"CaptureBase" cc.toJson rfl] at h
    simp only [objKindOfJson, if_true] at h
    cases hc : CaptureContent.ofJson E cc.toJson with
    | err e => rw [hc] at h; cases h
    | panic => rw [hc] at h; cases h
    | ok cc' =>
      rw [hc] at h
      injection h with h
      injection h with _ h
      injection h with h
      subst h
      have hj := jfield_optField3 c!"attributes" c!"properties" c!"flagged_attributes"
        (cc'.attributes.map fun l => Json.obj (l.map fun p => (p.1, p.2.toJson)))
        (cc'.properties.map fun l => .obj (NVal.toJsonObj l))
        (cc'.flagged.map fun l => .arr (l.map Json.str)) (by decide) (by decide) (by decide)
      simp only [CaptureContent.toJson, CaptureContent.ofJson, structMembers, hj.1, hj.2.1, hj.2.2, DRes.ofOption,
        Res.bind_ok, strsOfJson_toJson, Res.pure_eq] at hc
      obtain ⟨a, ha, hc⟩ := Res.bind_eq_ok.1 (show Res.bind _ _ = _ from hc)
      obtain ⟨p, hp, hc⟩ := Res.bind_eq_ok.1 (show Res.bind _ _ = _ from hc)
      have hc : Res.ok (⟨a, p, cc'.flagged⟩ : CaptureContent) = Res.ok (ε := Unit) cc' := hc
      injection hc with hc
      rw [← hc] at ha hp
      dsimp only at ha hp
      rw [← hc]
      exact ⟨faithfulAttrs_of_round E a ha, faithfulVals_of_round E p hp⟩
  | ocaBundle r =>
    rw [Command.ofJson_toJson_eq E _ c!"OCABundle" (.obj [(c!"said", .str r.toStr)]) rfl] at h
    unfold objKindOfJson at h
    rw [if_neg (by decide), if_pos rfl] at h
    simp only [bundleContentOfJson, structMembers, jfield, List.filter_cons, List.filter_nil, decide_true, if_true] at h
    cases hp : RefVal.parse E r.toStr with
    | ok r' =>
      rw [hp] at h
      injection h with h
      injection h with _ h
      injection h with h
      subst h
      exact (((C07_reference_parse_spec E r'.toStr).1 r').1 hp).2
    | err e => rw [hp] at h; cases h
    | panic => rw [hp] at h; cases h
  | overlay t cc =>
    obtain ⟨c', e⟩ := C06_version_lost E kind t cc _ h
    injection e with _ e
    injection e with e1 e2
    subst e2
    have hk : t.kind ≠ .attributeMapping := by
      intro hk
      obtain ⟨k, v⟩ := t
      cases hk
      rw [C06_attribute_mapping_lost] at h
      cases h
    refine ⟨by rw [e1], hk, ?_⟩
    rw [Command.ofJson_toJson_eq E _ t.kind.display cc.toJson rfl] at h
    simp only [objKindOfJson] at h
    rw [if_neg (display_ne _).1, if_neg (display_ne _).2, fromStr_display _ hk] at h
    cases hc : Content.ofJson E cc.toJson with
    | err e => rw [hc] at h; cases h
    | panic => rw [hc] at h; cases h
    | ok cc' =>
      rw [hc] at h
      injection h with h
      injection h with _ h
      injection h with _ h
      subst h
      have hj := jfield_optField2 c!"attributes" c!"properties"
        (cc'.attributes.map fun l => .obj (NVal.toJsonObj l))
        (cc'.properties.map fun l => .obj (NVal.toJsonObj l)) (by decide)
      simp only [Content.toJson, Content.ofJson, structMembers, hj.1, hj.2, DRes.ofOption, Res.bind_ok, Res.pure_eq] at hc
      obtain ⟨a, ha, hc⟩ := Res.bind_eq_ok.1 (show Res.bind _ _ = _ from hc)
      obtain ⟨p, hp, hc⟩ := Res.bind_eq_ok.1 (show Res.bind _ _ = _ from hc)
      have hc : Res.ok (⟨a, p⟩ : Content) = Res.ok (ε := Unit) cc' := hc
      injection hc with hc
      rw [← hc] at ha hp
      dsimp only at ha hp
      rw [← hc]
      exact ⟨faithfulVals_of_round E a ha, faithfulVals_of_round E p hp⟩

/-- **C06** negation: a plain text that parses as a reference comes back as the reference. -/
theorem C06_reference_text_lost (E : Env) (s : Str) (r : RefVal) (h : RefVal.parse E s = .ok r) :
    NVal.ofJson E (NVal.val s).toJson = some (.ref r) := by
  simp [NVal.toJson, NVal.ofJson, h]

/-- non-vacuity: a label command with a text value -/
example (E : Env) : Command.faithful E ⟨.add, .overlay ⟨.label, c!"1.1"⟩
    ⟨some [(c!"name", .val c!"Name")], some [(c!"lang", .val c!"en")]⟩⟩ := by
  refine ⟨rfl, by decide, ?_, ?_⟩ <;>
    · intro l hl
      injection hl with hl
      subst hl
      exact ⟨by simp, rfl, trivial⟩

end OCA
