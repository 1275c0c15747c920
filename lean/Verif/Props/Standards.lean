import Verif.Props.LoadJson
import Verif.Props.Validation
import Verif.Props.StoredBuild

/-!
# C77: standards

An overlay of kind `standard` names, for attributes, the standards their values follow, as URNs. `Standard` (`state/standard.rs`) takes a text in
lower case and checks it; the overlay is read from documents only, no command adds one.
-/

namespace OCA

/-- an overlay that gives attributes the standards `m` -/
def standardOverlay (d : Said) (base : Option Said) (ver : Str) (m : FMap Str) : Overlay := ⟨some d, base, ver, .standard m⟩

/-- the same with the standards in lower case -/
def lowered (E : Env) (m : FMap Str) : FMap Str := m.filterMap fun _ t => some (E.lower t)

theorem lowered_get (E : Env) (m : FMap Str) (n : Str) : (lowered E m).get n = (m.get n).map E.lower := by
  unfold lowered
  rw [FMap.get_filterMap]
  cases m.get n <;> rfl

theorem standard_members (o : Overlay) (m : FMap Str) (hb : o.body = .standard m) (k : Str) :
    (FMap.ofList (o.fieldsWith (saidJson o.said))).get k = FMap.lget k (o.fieldsWith (saidJson o.said)) := by
  obtain ⟨s, cb, v, body⟩ := o
  dsimp only at hb
  subst hb
  refine ofList_get _ ?_ k
  show ([c!"d", c!"capture_base", c!"type", c!"attribute_standards"] : List Str).Nodup
  decide

theorem standard_ofJson (E : Env) (d : Said) (base : Option Said) (ver : Str) (m : FMap Str) (hd : E.validSaid d = true)
    (hb : ∀ s, base = some s → E.validSaid s = true) (hv : IsVersion E ver) :
    Overlay.ofJson E (standardOverlay d base ver m).toJson =
      (jMap (jStandard E) (m.toJson .str)).map fun c => standardOverlay d base ver c := by
  have hg := standard_members (standardOverlay d base ver m) m rfl
  unfold Overlay.ofJson Overlay.toJson
  dsimp only
  have ht : OverlayType.ofPath E (OverlayType.path ⟨.standard, ver⟩) = some ⟨.standard, ver⟩ := (C04_overlay_type_round_trip E _ _).mpr ⟨rfl, hv⟩
  rw [hg c!"type"]
  show (match ((some (Json.str (OverlayType.path ⟨.standard, ver⟩))).bind jStr).bind (OverlayType.ofPath E) with
    | none => none
    | some t => _) = _
  simp only [Option.bind_some, jStr, ht]
  rw [hg c!"d"]
  show (match jSaid E (some (saidJson (some d))) with
    | none => none
    | some d => _) = _
  rw [jSaid_saidJson E _ (by intro x hx; cases hx; exact hd)]
  dsimp only
  rw [hg c!"capture_base"]
  show (match jSaid E (some (saidJson base)) with
    | none => none
    | some cb => _) = _
  rw [jSaid_saidJson E _ hb]
  dsimp only [OvBody.ofJson]
  have : jField (FMap.ofList ((standardOverlay d base ver m).fieldsWith (saidJson (standardOverlay d base ver m).said))) c!"attribute_standards" (jMap (jStandard E)) =
      jMap (jStandard E) (m.toJson .str) := by
    unfold jField
    rw [hg]
    rfl
  rw [this, Option.map_map]
  rfl

/-- **C77** A document of a standard overlay whose texts are, in lower case, valid URNs of a known namespace, is read; the standards are then in
lower case. -/
theorem C77_read (E : Env) (d : Said) (base : Option Said) (ver : Str) (m : FMap Str) (hd : E.validSaid d = true)
    (hb : ∀ s, base = some s → E.validSaid s = true) (hv : IsVersion E ver) (hm : ∀ n t, m.get n = some t → E.standardOk (E.lower t) = true) :
    ∃ c, Overlay.ofJson E (standardOverlay d base ver m).toJson = some (standardOverlay d base ver c) ∧ ∀ n, c.get n = (m.get n).map E.lower := by
  refine ⟨lowered E m, ?_, lowered_get E m⟩
  rw [standard_ofJson E d base ver m hd hb hv, jMap_toJson (jStandard E) .str E.lower m (fun n t ht => by
    show standardOf E t = _
    unfold standardOf
    rw [if_pos (hm n t ht)])]
  rfl

/-- **C77** With a single text that is not, the overlay is refused. -/
theorem C77_refused (E : Env) (d : Said) (base : Option Said) (ver : Str) (m : FMap Str) (hd : E.validSaid d = true)
    (hb : ∀ s, base = some s → E.validSaid s = true) (hv : IsVersion E ver) (n t : Str) (hn : m.get n = some t) (ht : E.standardOk (E.lower t) = false) :
    Overlay.ofJson E (standardOverlay d base ver m).toJson = none := by
  rw [standard_ofJson E d base ver m hd hb hv]
  have : jMap (jStandard E) (m.toJson .str) = none := by
    unfold jMap FMap.toJson
    dsimp only
    rw [← toList_map_eq (fun _ v => Json.str v), ofList_l, allSome_none _ _ (n, Json.str t) ?_ ?_]
    · rw [toList_map_eq (fun _ v => Json.str v)]
      exact List.mem_map.2 ⟨(n, t), FMap.get_eq_some_iff.1 hn, rfl⟩
    · show ((standardOf E t).map _) = none
      unfold standardOf
      rw [if_neg (by rw [ht]; simp)]
      rfl
  rw [this]
  rfl

/-- **C77** What was read is read again as it is. -/
theorem C77_reload (E : Env) (d : Said) (base : Option Said) (ver : Str) (m : FMap Str) (hd : E.validSaid d = true)
    (hb : ∀ s, base = some s → E.validSaid s = true) (hv : IsVersion E ver) (j : Json) (hj : Overlay.ofJson E j = some (standardOverlay d base ver m)) :
    Overlay.ofJson E (standardOverlay d base ver m).toJson = some (standardOverlay d base ver m) := by
  have hl := (overlay_loaded hj).standards m rfl
  have hm : ∀ n t, m.get n = some t → E.standardOk (E.lower t) = true := fun n t ht => by rw [(hl n t ht).2]; exact (hl n t ht).1
  obtain ⟨c, h1, h2⟩ := C77_read E d base ver m hd hb hv hm
  have : c = m := FMap.ext fun n => by
    rw [h2]
    cases hn : m.get n with
    | none => rfl
    | some t => exact congrArg some (hl n t hn).2
  rw [h1, this]

theorem toJson_str_inj {m m' : FMap Str} (h : m.toJson Json.str = m'.toJson Json.str) : m = m' := by
  have h1 := jMap_toJson_id jStr .str m (fun _ => rfl)
  have h2 := jMap_toJson_id jStr .str m' (fun _ => rfl)
  rw [h, h2] at h1
  exact (Option.some.inj h1).symm

/-- **C77** (what does not hold) A document whose identifier is the digest of what it says, but which writes a standard with a capital letter, is read
as an overlay whose identifier is wrong: the validation refuses every bundle with it - or the two texts have the same digest. -/
theorem C77_capital_invalid (E : Env) (base : Option Said) (ver : Str) (m : FMap Str) (d : Said)
    (hd : d = E.digest (standardOverlay d base ver m).digestInput) (n t : Str) (hn : m.get n = some t) (hc : E.lower t ≠ t)
    (hbase : ∀ s, base = some s → E.validSaid s = true) (hv : IsVersion E ver)
    (o : Overlay) (ho : Overlay.ofJson E (standardOverlay d base ver m).toJson = some o)
    (b : Bundle) (hb : o ∈ b.overlays) (es : List Lang) :
    validateBundle E es b ≠ .ok () ∨
      ((standardOverlay d base ver m).digestInput ≠ o.digestInput ∧ E.digest (standardOverlay d base ver m).digestInput = E.digest o.digestInput) := by
  have hd' : E.validSaid d = true := by rw [hd]; exact E.digest_valid _
  have hm : ∀ n t, m.get n = some t → E.standardOk (E.lower t) = true := by
    intro n t hn
    cases hk : E.standardOk (E.lower t) with
    | true => rfl
    | false => rw [C77_refused E d base ver m hd' hbase hv n t hn hk] at ho; cases ho
  obtain ⟨c, h1, h2⟩ := C77_read E d base ver m hd' hbase hv hm
  rw [h1] at ho
  cases ho
  by_cases hv : validateBundle E es b = .ok ()
  · refine .inr ⟨?_, ?_⟩
    · intro e
      have : m.toJson Json.str = c.toJson Json.str := by
        have e : Json.obj _ = Json.obj _ := e
        injection e with e
        simp only [Overlay.fieldsWith, standardOverlay, OvBody.fields, List.cons_append, List.nil_append, List.cons.injEq, Prod.mk.injEq] at e
        exact e.2.2.2.1.2
      have hm := toJson_str_inj this
      have := h2 n
      rw [← hm, hn] at this
      exact hc (Option.some.inj this).symm
    · have hs : saidErrors E b = [] := by
        unfold validateBundle at hv
        obtain ⟨ce, h3, h4⟩ := Res.bind_eq_ok.1 (show Res.bind _ _ = _ from hv)
        split at h4
        · dsimp only at h4
          split at h4
          · next hx => exact (List.append_eq_nil_iff.1 hx).1
          · cases h4
        · cases h4
      have := (((C18_said_checks_exact E b).1 hs).overlays _ hb).1
      rw [← hd]
      exact Option.some.inj this
  · exact .inl hv

theorem toLower_toLower (c : Char) : c.toLower.toLower = c.toLower := by
  by_cases h : c.val ≥ 'A'.val ∧ c.val ≤ 'Z'.val
  · have e : c.toLower.val = c.val + ('a'.val - 'A'.val) := by
      unfold Char.toLower
      rw [dif_pos h]
    have h' : ¬ (c.toLower.val ≥ 'A'.val ∧ c.toLower.val ≤ 'Z'.val) := by
      rw [e]
      rintro ⟨-, h2⟩
      have h1 := UInt32.le_iff_toNat_le.1 h.1
      have h3 := UInt32.le_iff_toNat_le.1 h.2
      have h2 := UInt32.le_iff_toNat_le.1 h2
      rw [UInt32.toNat_add] at h2
      have e1 : ('a'.val - 'A'.val).toNat = 32 := by decide
      have e2 : 'A'.val.toNat = 65 := by decide
      have e3 : 'Z'.val.toNat = 90 := by decide
      omega
    show (if h : _ then _ else _) = _
    rw [dif_neg h']
  · have e : c.toLower = c := by
      unfold Char.toLower
      rw [dif_neg h]
    rw [e, e]

/-- lower case letters, and URNs of the namespace `iso` -/
def Env.urns : Env := { Env.demo with
  lower := fun s => s.map Char.toLower
  lower_lower := fun s => by
    rw [List.map_map]
    refine List.map_congr_left fun c _ => ?_
    exact toLower_toLower c
  standardOk := fun s => c!"urn:iso:".isPrefixOf s }

/-- the document of an overlay, with its identifier, that gives the attribute `a` a standard -/
def isoDoc (t : Str) : Json :=
  (standardOverlay (Env.urns.digest (standardOverlay [] (some c!"Ebase") c!"1.1" (FMap.ofList [(c!"a", t)])).digestInput) (some c!"Ebase") c!"1.1"
    (FMap.ofList [(c!"a", t)])).toJson

/-- what is read of it: the standard of `a`, and whether the identifier is still right -/
def isoRead (t : Str) : Option (Option Str × Bool) :=
  match Overlay.ofJson Env.urns (isoDoc t) with
  | some o => match o.body with
    | .standard m => some (m.get c!"a", decide (o.said = some (Env.urns.digest o.digestInput)))
    | _ => none
  | none => none

set_option maxRecDepth 20000 in
/-- **C77** on examples: a valid standard is read, one in capitals is read in small letters and loses its identifier, anything else is refused. -/
theorem C77_example : isoRead c!"urn:iso:std:iso:8601" = some (some c!"urn:iso:std:iso:8601", true) ∧
    isoRead c!"urn:ISO:std:iso:8601" = some (some c!"urn:iso:std:iso:8601", false) ∧ isoRead c!"8601" = none := by
  decide +kernel

end OCA
