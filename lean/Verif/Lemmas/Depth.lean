import Verif.Props.Storage
import Verif.Model.BundleJson
/-! How deep the JSON of a bundle is nested. -/
namespace OCA

/-- Only numbers of 64 bits, and at most `n` arrays and objects inside each other. -/
def Json.Within (n : Nat) (j : Json) : Prop := j.Small ∧ j.depth ≤ n

theorem Json.Within.mono {n m : Nat} {j : Json} (h : j.Within n) (hm : n ≤ m) : j.Within m := ⟨h.1, Nat.le_trans h.2 hm⟩

theorem Json.within_str (n : Nat) (s : Str) : (Json.str s).Within n := ⟨trivial, Nat.zero_le _⟩

theorem Json.within_null (n : Nat) : Json.null.Within n := ⟨trivial, Nat.zero_le _⟩

theorem Json.depthArr_le {l : List Json} {n : Nat} (h : ∀ j ∈ l, j.depth ≤ n) : Json.depthArr l ≤ n := by
  induction l with
  | nil => exact Nat.zero_le _
  | cons a t ih =>
    show max _ _ ≤ n
    exact Nat.max_le.2 ⟨h a (.head _), ih fun j hj => h j (.tail _ hj)⟩

theorem Json.depthObj_le {l : List (Str × Json)} {n : Nat} (h : ∀ p ∈ l, p.2.depth ≤ n) : Json.depthObj l ≤ n := by
  induction l with
  | nil => exact Nat.zero_le _
  | cons a t ih =>
    show max _ _ ≤ n
    exact Nat.max_le.2 ⟨h a (.head _), ih fun j hj => h j (.tail _ hj)⟩

theorem Json.within_arr {l : List Json} {n : Nat} (h : ∀ j ∈ l, j.Within n) : (Json.arr l).Within (n + 1) :=
  ⟨(smallArr_iff l).2 fun j hj => (h j hj).1, Nat.succ_le_succ (Json.depthArr_le fun j hj => (h j hj).2)⟩

theorem Json.within_obj {l : List (Str × Json)} {n : Nat} (h : ∀ p ∈ l, p.2.Within n) : (Json.obj l).Within (n + 1) :=
  ⟨(smallObj_iff l).2 fun j hj => (h j hj).1, Nat.succ_le_succ (Json.depthObj_le fun j hj => (h j hj).2)⟩

theorem within_map {V : Type} {f : V → Json} {m : FMap V} {n : Nat} (h : ∀ k v, m.get k = some v → (f v).Within n) :
    (m.toJson f).Within (n + 1) := by
  refine Json.within_obj fun p hp => ?_
  obtain ⟨q, hq, rfl⟩ := List.mem_map.1 hp
  exact h q.1 q.2 (FMap.get_eq_some_iff.2 hq)

theorem within_strs (l : List Str) (n : Nat) : (strsJson l).Within (n + 1) :=
  Json.within_arr fun j hj => by
    obtain ⟨s, _, rfl⟩ := List.mem_map.1 hj
    exact Json.within_str n s

theorem within_said (s : Option Said) (n : Nat) : (saidJson s).Within n := by
  cases s with
  | none => exact Json.within_null n
  | some s => exact Json.within_str n s

/-- arrays around the base of a type -/
def NAttr.arrays : NAttr → Nat
  | .arr a => a.arrays + 1
  | _ => 0

theorem within_type (t : NAttr) : t.toJson.Within t.arrays := by
  induction t with
  | ref r => exact Json.within_str _ _
  | val v => exact Json.within_str _ _
  | null => exact Json.within_null _
  | arr a ih =>
    refine Json.within_arr fun j hj => ?_
    rw [List.mem_singleton.1 hj]
    exact ih

theorem within_codes (c : EntryCodes) : c.toJson.Within 2 := by
  cases c with
  | sai s => exact Json.within_str _ _
  | array l => exact (within_strs _ 1)
  | object l =>
    refine Json.within_obj fun p hp => ?_
    obtain ⟨q, _, rfl⟩ := List.mem_map.1 hp
    exact within_strs _ 0

theorem within_entries (c : EntriesEl) : c.toJson.Within 2 := by
  cases c with
  | sai s => exact Json.within_str _ _
  | object m => exact within_map (n := 1) fun _ _ _ => Json.within_str _ _

theorem within_scope (s : Scope) : s.toJson.Within 1 := by
  refine Json.within_obj fun p hp => ?_
  rcases List.mem_cons.1 hp with rfl | hp
  · exact Json.within_str _ _
  · rw [List.mem_singleton.1 hp]
    exact Json.within_str _ _

theorem within_body (b : OvBody) : ∀ p ∈ b.fields, p.2.Within 3 := by
  have hs : ∀ m : FMap Str, (m.toJson Json.str).Within 3 := fun m => within_map fun _ _ _ => Json.within_str _ _
  intro p hp
  cases b <;> simp only [OvBody.fields, List.mem_cons, List.not_mem_nil, or_false, List.mem_map] at hp
  case charEnc m => subst hp; exact within_map fun _ _ _ => Json.within_str _ _
  case conditional c d => 
    rcases hp with rfl | rfl
    · exact hs _
    · exact within_map fun _ _ _ => within_strs _ _
  case entryCode m => subst hp; exact within_map fun _ _ _ => within_codes _
  case entry l m =>
    rcases hp with rfl | rfl
    · exact Json.within_str _ _
    · exact within_map fun _ _ _ => within_entries _
  case label l cs m cl =>
    rcases hp with rfl | rfl | rfl | rfl
    · exact Json.within_str _ _
    · exact within_strs _ _
    · exact hs _
    · exact hs _
  case metaOv l m =>
    rcases hp with rfl | ⟨q, _, rfl⟩
    · exact Json.within_str _ _
    · exact Json.within_str _ _
  case framing md m =>
    rcases hp with rfl | rfl
    · exact hs _
    · exact within_map fun _ _ _ => within_map fun _ _ _ => within_scope _
  case subset l => subst hp; exact within_strs _ _
  case entryCodeMapping m => subst hp; exact within_map fun _ _ _ => within_strs _ _
  case information l m =>
    rcases hp with rfl | rfl
    · exact Json.within_str _ _
    · exact hs _
  case link l m =>
    rcases hp with rfl | rfl
    · exact Json.within_str _ _
    · exact hs _
  all_goals (subst hp; exact hs _)

theorem Overlay.within (o : Overlay) : o.toJson.Within 4 := by
  refine Json.within_obj fun p hp => ?_
  rcases List.mem_append.1 hp with hp | hp
  · have h3 : ∀ (a b c : Str × Json), a.2.Within 3 → b.2.Within 3 → c.2.Within 3 → p ∈ [a, b, c] → p.2.Within 3 := by
      intro a b c ha hb hc h
      simp only [List.mem_cons, List.not_mem_nil, or_false] at h
      rcases h with rfl | rfl | rfl <;> assumption
    split at hp
    · exact h3 _ _ _ (within_said _ _) (Json.within_str _ _) (within_said _ _) hp
    · exact h3 _ _ _ (within_said _ _) (within_said _ _) (Json.within_str _ _) hp
  · exact within_body _ p hp

theorem CaptureBase.within (c : CaptureBase) (k : Nat) (h : ∀ n t, c.attributes.get n = some t → t.arrays ≤ k) :
    c.toJson.Within (k + 2) := by
  refine Json.within_obj (n := k + 1) fun p hp => ?_
  simp only [CaptureBase.fieldsWith, List.mem_cons, List.not_mem_nil, or_false] at hp
  rcases hp with rfl | rfl | rfl | rfl | rfl
  · exact within_said _ _
  · exact Json.within_str _ _
  · exact within_map fun n t ht => (within_type t).mono (h n t ht)
  · exact Json.within_str _ _
  · exact within_strs _ _

theorem within_group (l : List Overlay) (p : Str) : (groupJson p l).Within 5 := by
  unfold groupJson
  have harr : ∀ l : List Overlay, (Json.arr (l.map Overlay.toJson)).Within 5 := fun l =>
    Json.within_arr fun j hj => by
      obtain ⟨o, _, rfl⟩ := List.mem_map.1 hj
      exact o.within
  split
  · exact harr _
  · split
    · exact (Overlay.within _).mono (by omega)
    · exact harr _

/-- The JSON of a bundle is at most 7 deep, or three more than its attribute types have arrays. -/
theorem Bundle.within (E : Env) (b : Bundle) (k : Nat) (h : ∀ n t, b.captureBase.attributes.get n = some t → t.arrays ≤ k) :
    (b.toJson E).Within (max 7 (k + 3)) := by
  have e : max 7 (k + 3) = max 6 (k + 2) + 1 := by omega
  rw [e]
  refine Json.within_obj fun p hp => ?_
  simp only [Bundle.fieldsWith, List.mem_cons, List.not_mem_nil, or_false] at hp
  rcases hp with rfl | rfl | rfl | rfl
  · exact Json.within_str _ _
  · exact within_said _ _
  · exact (b.captureBase.within k h).mono (by omega)
  · refine Json.Within.mono (n := 6) ?_ (by omega)
    refine Json.within_obj fun p hp => ?_
    obtain ⟨q, _, rfl⟩ := List.mem_map.1 hp
    exact within_group _ _

end OCA
