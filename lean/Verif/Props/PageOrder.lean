import Verif.Props.Pages
/-!
# C39: the order of the records of a page
-/
namespace OCA

theorem insRow_sorted (r : Said × Str) (t : Table) (h : t.Pairwise fun x y => Str.lt y.1 x.1 = false) :
    (insRow r t).Pairwise fun x y => Str.lt y.1 x.1 = false := by
  induction t with
  | nil => simp [insRow]
  | cons x t ih =>
    rw [insRow]
    rw [List.pairwise_cons] at h
    split
    · next hlt =>
      rw [List.pairwise_cons]
      refine ⟨fun y hy => ?_, ih h.2⟩
      rcases List.mem_cons.1 ((insRow_perm r t).mem_iff.1 hy) with rfl | hy
      · exact Str.lt_asymm hlt
      · exact h.1 y hy
    · next hlt =>
      have hx : Str.lt x.1 r.1 = false := by simpa using hlt
      rw [List.pairwise_cons, List.pairwise_cons]
      refine ⟨fun y hy => ?_, h⟩
      rcases List.mem_cons.1 hy with rfl | hy
      · exact hx
      · cases e : Str.lt y.1 r.1 with
        | false => rfl
        | true =>
          rcases Str.lt_trichotomy x.1 y.1 with g | g | g
          · rw [Str.lt_trans g e] at hx; cases hx
          · rw [g, e] at hx; cases hx
          · rw [h.1 y hy] at g; cases g

theorem sortRows_sorted (t : Table) (h : (t.map (·.1)).Nodup) : (sortRows t).Pairwise fun x y => Str.lt x.1 y.1 = true := by
  have h1 : (sortRows t).Pairwise fun x y => Str.lt y.1 x.1 = false := by
    clear h
    induction t with
    | nil => exact .nil
    | cons r t ih => exact insRow_sorted r _ ih
  have h2 : (sortRows t).Pairwise fun x y => x.1 ≠ y.1 := by
    have := ((sortRows_perm t).map (·.1)).nodup_iff.2 h
    exact List.pairwise_map.1 this
  refine (h1.and h2).imp fun {x y} ⟨a, b⟩ => ?_
  rcases Str.lt_trichotomy x.1 y.1 with g | g | g
  · exact g
  · exact absurd g b
  · rw [a] at g; cases g

/-- **C39** The records of a page of bundles come in the order of their identifiers, whatever was built before. -/
theorem C39_bundle_order (E : Env) (S : Serde) (f : Facade) (l : List Bundle) (h : Facade.BuiltFrom E S f l) (limit page : Nat) (bs : List Bundle)
    (total : Nat) (hp : f.fetchAllBundles E S limit page = .ok (bs, total)) :
    (bs.map Bundle.said).Pairwise fun a b => ∃ s t, a = some s ∧ b = some t ∧ Str.lt s t = true := by
  obtain ⟨hh, -⟩ := h.holds
  have hc : ¬ (page = 0 ∨ 9223372036854775808 ≤ limit ∨ 9223372036854775808 ≤ (page - 1) * limit) := by
    intro hc
    simp only [Facade.fetchAllBundles, fetchAll, fetchPage, if_pos hc] at hp
    cases hp
  let g : Said × Str → Bundle := fun r => match parseBundle E S r.2 with
    | .ok b => b
    | _ => ⟨none, ⟨none, [], .empty, [], []⟩, []⟩
  have hrow : ∀ r ∈ f.bundles, parseBundle E S r.2 = .ok (g r) ∧ (g r).said = some r.1 := by
    intro r hr
    obtain ⟨b, h1, h2, h3⟩ := hh.row r hr
    have hp := parseBundle_eq (S := S) h3
    have hb : b.said = some r.1 := find_decide (p := fun b : Bundle => b.said = some r.1) h1
    have hg : g r = ⟨b.said, { b.captureBase with flagged := sortStr b.captureBase.flagged },
        (written b.overlays).map Overlay.norm⟩ := by
      show (match parseBundle E S r.2 with | .ok b => b | _ => _) = _
      rw [h2, hp]
    exact ⟨by rw [hg, h2, hp], by rw [hg]; exact hb⟩
  obtain ⟨i, rfl⟩ : ∃ i, page = i + 1 := ⟨page - 1, by omega⟩
  have he := fetchAll_eq f.bundles (fun r hr => (hrow r hr).1) limit i (by omega) (by rw [Nat.add_sub_cancel] at hc; omega)
  rw [Facade.fetchAllBundles, he] at hp
  cases hp
  have hm : ∀ r ∈ pageOf f.bundles limit i, r ∈ f.bundles := fun r hr => List.mem_of_mem_drop (List.mem_of_mem_take ((sortRows_perm _).mem_iff.1 hr))
  have hs : (pageOf f.bundles limit i).Pairwise fun x y => Str.lt x.1 y.1 = true := by
    refine sortRows_sorted _ (List.Nodup.sublist ?_ hh.nodup)
    exact ((List.take_sublist _ _).trans (List.drop_sublist _ _)).map _
  rw [List.map_map, List.pairwise_map]
  refine hs.imp_of_mem fun {x y} hx hy hlt => ?_
  exact ⟨_, _, (hrow x (hm x hx)).2, (hrow y (hm y hy)).2, hlt⟩

/-- **C39** The same for the capture bases. -/
theorem C39_base_order (E : Env) (S : Serde) (f : Facade) (l : List Bundle) (h : Facade.BuiltFrom E S f l) (limit page : Nat) (bs : List CaptureBase)
    (total : Nat) (hp : f.fetchAllBases E S limit page = .ok (bs, total)) :
    (bs.map CaptureBase.said).Pairwise fun a b => ∃ s t, a = some s ∧ b = some t ∧ Str.lt s t = true := by
  obtain ⟨-, hh⟩ := h.holds
  have hc : ¬ (page = 0 ∨ 9223372036854775808 ≤ limit ∨ 9223372036854775808 ≤ (page - 1) * limit) := by
    intro hc
    simp only [Facade.fetchAllBases, fetchAll, fetchPage, if_pos hc] at hp
    cases hp
  let g : Said × Str → CaptureBase := fun r => match parseBase E S r.2 with
    | .ok b => b
    | _ => ⟨none, [], .empty, [], []⟩
  have hrow : ∀ r ∈ f.bases, parseBase E S r.2 = .ok (g r) ∧ (g r).said = some r.1 := by
    intro r hr
    obtain ⟨b, h1, h2, h3⟩ := hh.row r hr
    have hp := parseBase_eq (S := S) h3
    have hb : b.captureBase.said = some r.1 := find_decide (p := fun b : Bundle => b.captureBase.said = some r.1) h1
    have hg : g r = { b.captureBase with flagged := sortStr b.captureBase.flagged } := by
      show (match parseBase E S r.2 with | .ok b => b | _ => _) = _
      rw [h2, hp]
    exact ⟨by rw [hg, h2, hp], by rw [hg]; exact hb⟩
  obtain ⟨i, rfl⟩ : ∃ i, page = i + 1 := ⟨page - 1, by omega⟩
  have he := fetchAll_eq f.bases (fun r hr => (hrow r hr).1) limit i (by omega) (by rw [Nat.add_sub_cancel] at hc; omega)
  rw [Facade.fetchAllBases, he] at hp
  cases hp
  have hm : ∀ r ∈ pageOf f.bases limit i, r ∈ f.bases := fun r hr => List.mem_of_mem_drop (List.mem_of_mem_take ((sortRows_perm _).mem_iff.1 hr))
  have hs : (pageOf f.bases limit i).Pairwise fun x y => Str.lt x.1 y.1 = true := by
    refine sortRows_sorted _ (List.Nodup.sublist ?_ hh.nodup)
    exact ((List.take_sublist _ _).trans (List.drop_sublist _ _)).map _
  rw [List.map_map, List.pairwise_map]
  refine hs.imp_of_mem fun {x y} hx hy hlt => ?_
  exact ⟨_, _, (hrow x (hm x hx)).2, (hrow y (hm y hy)).2, hlt⟩

end OCA
