import Verif.Props.Library
import Verif.Props.Validation
/-!
# C69: what the calls on a build state make of the bundle
-/
namespace OCA

/-! ## The bundle after a call, from the bundle before it -/

theorem attrs_addAttribute (b : OCABox) (n : Str) (a : Attribute) :
    (b.addAttribute n a).attributes = b.attributes.insert n (((b.attributes.get n).map (·.merge a)).getD a) ∧
    (b.addAttribute n a).metaMap = b.metaMap ∧ (b.addAttribute n a).classification = b.classification ∧ (b.addAttribute n a).mappings = b.mappings := by
  unfold OCABox.addAttribute
  cases b.attributes.get n <;> exact ⟨rfl, rfl, rfl, rfl⟩

theorem hasMeta_gen {E : Env} {O : Order} {box : OCABox} {B : Bundle} (hr : Reachable E box) (h : (generateBundle E O box : Res Unit _) = .ok B) (l : Lang) (k v : Str) :
    B.HasMeta l k v ↔ ∃ m ps, box.metaMap = some m ∧ m.get l = some ps ∧ ps.get k = some v := by
  have := (C17_no_empty_overlay E O box hr B h).2.1
  constructor
  · rintro ⟨o, ho, ps, e, hk⟩
    obtain ⟨m, h1, h2⟩ := (this l ps).1 ⟨o, ho, e⟩
    exact ⟨m, ps, h1, h2, hk⟩
  · rintro ⟨m, ps, h1, h2, hk⟩
    obtain ⟨o, ho, e⟩ := (this l ps).2 ⟨m, h1, h2⟩
    exact ⟨o, ho, ps, e, hk⟩

/-- **C69** `add_attribute`. The bundle generated after the call says about the attribute what the bundle before it said joined with what the attribute given carries:
what is given takes the place of what was there (for links and frames: of all links and all frames), except that a unit and entry codes that are there stay. The type
is the one given, or the one there was. A flag is taken only if the attribute is new. Nothing else changes. -/
theorem C69_add_attribute (E : Env) (O O' : Order) (box : OCABox) (hr : Reachable E box) (n : Str) (a : Attribute) (ha : a.Made)
    (ht : a.ty.isSome = true ∨ (box.attributes.get n).isSome = true) (B B' : Bundle)
    (hB : (generateBundle E O box : Res Unit _) = .ok B) (hB' : (generateBundle E O' (box.addAttribute n a) : Res Unit _) = .ok B') :
    (∀ F, B'.Tells n F ↔ Joined (B.Tells n) a.Carries F) ∧
    (∀ m, m ≠ n → ∀ F, B'.Tells m F ↔ B.Tells m F) ∧
    (∀ m, B'.captureBase.attributes.get m = if m = n then a.ty.or (B.captureBase.attributes.get n) else B.captureBase.attributes.get m) ∧
    (∀ m, m ∈ B'.captureBase.flagged ↔ m ∈ B.captureBase.flagged ∨ (m = n ∧ a.flagged = true ∧ B.captureBase.attributes.get n = none)) ∧
    B'.captureBase.classification = B.captureBase.classification ∧
    (∀ l k v, B'.HasMeta l k v ↔ B.HasMeta l k v) := by
  have hr' : Reachable E (box.addAttribute n a) := .api _ _ hr (.add box n a ha ht)
  have t := C17_overlay_content_exact E O box hr B hB
  have t' := C17_overlay_content_exact E O' _ hr' B' hB'
  obtain ⟨e1, e2, e3, -⟩ := attrs_addAttribute box n a
  obtain ⟨c1, c2, c3, -, c5⟩ := C14_capture_base_exact E O box B hB
  obtain ⟨d1, d2, d3, -, d5⟩ := C14_capture_base_exact E O' _ B' hB'
  have hget : ∀ m, (box.addAttribute n a).attributes.get m = if m = n then some (((box.attributes.get n).map (·.merge a)).getD a) else box.attributes.get m := by
    intro m; rw [e1, FMap.get_insert]
  have ty : ∀ m, B.captureBase.attributes.get m = (box.attributes.get m).bind (·.ty) := by
    intro m
    apply Option.ext; intro v
    rw [show (B.captureBase.attributes.get m = some v) = _ from propext (c1 m v), Option.bind_eq_some_iff]
  have ty' : ∀ m, B'.captureBase.attributes.get m = ((box.addAttribute n a).attributes.get m).bind (·.ty) := by
    intro m
    apply Option.ext; intro v
    rw [show (B'.captureBase.attributes.get m = some v) = _ from propext (d1 m v), Option.bind_eq_some_iff]
  have hwas : ∀ F, B.Tells n F ↔ ∃ a0, box.attributes.get n = some a0 ∧ a0.Carries F := fun F => t n F
  refine ⟨?_, ?_, ?_, ?_, ?_, ?_⟩
  · intro F
    refine (t' n F).trans ?_
    rw [hget, if_pos rfl]
    cases hn : box.attributes.get n with
    | none =>
      have no : ∀ G, ¬ B.Tells n G := by
        intro G hG
        obtain ⟨a0, h0, -⟩ := (hwas G).1 hG
        rw [hn] at h0; cases h0
      simp [Joined, no]
    | some a0 =>
      have hP : (fun F => B.Tells n F) = a0.Carries := by
        funext F
        apply propext
        rw [hwas F, hn]
        simp
      show (∃ a1, some (a0.merge a) = some a1 ∧ a1.Carries F) ↔ Joined (fun F => B.Tells n F) a.Carries F
      rw [hP]
      simp only [Option.some.injEq, exists_eq_left']
      exact merge_carries ha.plain (hr.wf.attrs n a0 hn).paired ha.paired F
  · intro m hm F
    refine (t' m F).trans ?_
    rw [hget, if_neg hm]
    exact (t m F).symm
  · intro m
    rw [ty', hget]
    by_cases e : m = n
    · rw [if_pos e, if_pos e, ty]
      cases box.attributes.get n with
      | none => simp
      | some a0 => cases h : a.ty <;> simp [Attribute.merge, overwrite, h]
    · rw [if_neg e, if_neg e, ty]
  · intro m
    rw [d5, hget, c5, ty n]
    by_cases e : m = n
    · subst e
      rw [if_pos rfl]
      cases hm : box.attributes.get m with
      | none => simp
      | some a0 =>
        obtain ⟨w, hw⟩ := Option.isSome_iff_exists.1 (hr.wf.attrs m a0 hm).typed
        simp [Attribute.merge, hw]
    · simp [e]
  · rw [d3, c3, e3]
  · intro l k v
    rw [hasMeta_gen hr' hB', hasMeta_gen hr hB, e2]

/-- **C69** `remove_attribute`: the attribute, its flag and all that was said about it are gone, nothing else is. -/
theorem C69_remove_attribute (E : Env) (O O' : Order) (box : OCABox) (hr : Reachable E box) (n : Str) (B B' : Bundle)
    (hB : (generateBundle E O box : Res Unit _) = .ok B) (hB' : (generateBundle E O' (box.removeAttribute n) : Res Unit _) = .ok B') :
    (∀ m F, B'.Tells m F ↔ m ≠ n ∧ B.Tells m F) ∧
    (∀ m, B'.captureBase.attributes.get m = if m = n then none else B.captureBase.attributes.get m) ∧
    (∀ m, m ∈ B'.captureBase.flagged ↔ m ∈ B.captureBase.flagged ∧ m ≠ n) ∧
    B'.captureBase.classification = B.captureBase.classification ∧
    (∀ l k v, B'.HasMeta l k v ↔ B.HasMeta l k v) := by
  have hr' : Reachable E (box.removeAttribute n) := .api _ _ hr (.remove box n)
  have t := C17_overlay_content_exact E O box hr B hB
  have t' := C17_overlay_content_exact E O' _ hr' B' hB'
  obtain ⟨c1, c2, c3, -, c5⟩ := C14_capture_base_exact E O box B hB
  obtain ⟨d1, d2, d3, -, d5⟩ := C14_capture_base_exact E O' _ B' hB'
  have hget : ∀ m, (box.removeAttribute n).attributes.get m = if m = n then none else box.attributes.get m := fun m => FMap.get_erase ..
  refine ⟨?_, ?_, ?_, ?_, ?_⟩
  · intro m F
    refine (t' m F).trans (Iff.trans ?_ (and_congr Iff.rfl (t m F).symm))
    rw [hget]
    by_cases e : m = n <;> simp [e]
  · intro m
    apply Option.ext; intro v
    rw [show (B'.captureBase.attributes.get m = some v) = _ from propext (d1 m v), hget]
    by_cases e : m = n
    · simp [e]
    · simp only [if_neg e]
      exact (c1 m v).symm
  · intro m
    rw [d5, c5, hget]
    by_cases e : m = n <;> simp [e]
  · rw [d3, c3]; rfl
  · intro l k v
    rw [hasMeta_gen hr' hB', hasMeta_gen hr hB]; exact Iff.rfl

/-- **C69** `add_meta`, `add_classification`, `remove_classification`: the pair, or the classification, is set, nothing else changes. -/
theorem C69_meta_and_classification (E : Env) (O O' : Order) (box box' : OCABox) (hr : Reachable E box) (B B' : Bundle)
    (hB : (generateBundle E O box : Res Unit _) = .ok B) (hB' : (generateBundle E O' box' : Res Unit _) = .ok B') :
    (∀ l k v, box' = box.addMeta l k v →
      (∀ l' k' v', B'.HasMeta l' k' v' ↔ (l' = l ∧ k' = k ∧ v' = v) ∨ (B.HasMeta l' k' v' ∧ ¬ (l' = l ∧ k' = k))) ∧
      B'.captureBase.classification = B.captureBase.classification) ∧
    (∀ s, box' = box.addClassification s → B'.captureBase.classification = s ∧ ∀ l k v, B'.HasMeta l k v ↔ B.HasMeta l k v) ∧
    (box' = box.removeClassification → B'.captureBase.classification = [] ∧ ∀ l k v, B'.HasMeta l k v ↔ B.HasMeta l k v) ∧
    (((∃ l k v, box' = box.addMeta l k v) ∨ (∃ s, box' = box.addClassification s) ∨ box' = box.removeClassification) →
      (∀ n F, B'.Tells n F ↔ B.Tells n F) ∧ B'.captureBase.attributes = B.captureBase.attributes ∧
      ∀ n, n ∈ B'.captureBase.flagged ↔ n ∈ B.captureBase.flagged) := by
  obtain ⟨c1, c2, c3, -, c5⟩ := C14_capture_base_exact E O box B hB
  obtain ⟨d1, d2, d3, -, d5⟩ := C14_capture_base_exact E O' _ B' hB'
  refine ⟨?_, ?_, ?_, ?_⟩
  · rintro l k v rfl
    have hr' : Reachable E (box.addMeta l k v) := .api _ _ hr (.addMeta box l k v)
    refine ⟨fun l' k' v' => ?_, by rw [d3, c3]; rfl⟩
    rw [hasMeta_gen hr' hB', hasMeta_gen hr hB]
    simp only [OCABox.addMeta, Option.some.injEq, exists_and_left, exists_eq_left']
    simp only [FMap.get_insert]
    by_cases e : l' = l
    · subst e
      simp only [if_true, Option.some.injEq, exists_eq_left', FMap.get_insert, true_and]
      by_cases e' : k' = k
      · simp [e', eq_comm]
      · simp only [if_neg e', false_and, false_or, not_false_eq_true, e', and_true]
        cases box.metaMap with
        | none => simp
        | some m => cases hl : m.get l' <;> simp [hl]
    · simp only [if_neg e, e, false_and, false_or, not_false_eq_true, and_true]
      cases box.metaMap <;> simp
  · rintro s rfl
    have hr' : Reachable E (box.addClassification s) := .api _ _ hr (.addClassification box s)
    refine ⟨by rw [d3]; rfl, fun l k v => ?_⟩
    rw [hasMeta_gen hr' hB', hasMeta_gen hr hB]; exact Iff.rfl
  · rintro rfl
    have hr' : Reachable E box.removeClassification := .api _ _ hr (.removeClassification box)
    refine ⟨by rw [d3]; rfl, fun l k v => ?_⟩
    rw [hasMeta_gen hr' hB', hasMeta_gen hr hB]; exact Iff.rfl
  · intro h
    have ha : box'.attributes = box.attributes := by
      rcases h with ⟨_, _, _, rfl⟩ | ⟨_, rfl⟩ | rfl <;> rfl
    have hr' : Reachable E box' := by
      rcases h with ⟨l, k, v, rfl⟩ | ⟨s, rfl⟩ | rfl
      · exact .api _ _ hr (.addMeta box l k v)
      · exact .api _ _ hr (.addClassification box s)
      · exact .api _ _ hr (.removeClassification box)
    refine ⟨fun n F => ?_, ?_, fun n => ?_⟩
    · refine (C17_overlay_content_exact E O' _ hr' B' hB' n F).trans (Iff.trans ?_ (C17_overlay_content_exact E O box hr B hB n F).symm)
      rw [ha]
    · apply FMap.ext; intro n
      apply Option.ext; intro v
      rw [show (B'.captureBase.attributes.get n = some v) = _ from propext (d1 n v), ha]
      exact (c1 n v).symm
    · rw [d5, c5, ha]

/-! ## Orders of calls -/

theorem mergeMaps_assoc {V : Type} (a b c : Option (FMap V)) : mergeMaps (mergeMaps a b) c = mergeMaps a (mergeMaps b c) := by
  cases a with
  | none => rfl
  | some a =>
    cases b with
    | none => cases c <;> rfl
    | some b =>
      cases c with
      | none => rfl
      | some c =>
        simp only [mergeMaps, Option.some.injEq]
        apply FMap.ext; intro k
        have e := optGet_mergeMaps (some a) (some b) k
        have e' := optGet_mergeMaps (some b) (some c) k
        have f := optGet_mergeMaps (some (a.insertAll b.l)) (some c) k
        have f' := optGet_mergeMaps (some a) (some (b.insertAll c.l)) k
        simp only [mergeMaps, optGet, Option.bind_some] at e e' f f'
        rw [f, f', e, e', Option.or_assoc]

/-- **C69** Adding an attribute twice is adding it once; adding two under the same name is adding the second merged into the first; under different names the order does not
matter; neither does it for a removal of another name; adding and removing leaves the state without the name; meta and classification do not depend on the order either. -/
theorem C69_orders (box : OCABox) (n m : Str) (a b : Attribute) (ha : a.Made) (hb : b.Made) :
    ((box.addAttribute n a).addAttribute n b = box.addAttribute n (a.merge b)) ∧
    (a.merge a = a) ∧
    ((box.addAttribute n a).addAttribute n a = box.addAttribute n a) ∧
    (n ≠ m → (box.addAttribute n a).addAttribute m b = (box.addAttribute m b).addAttribute n a) ∧
    (n ≠ m → (box.addAttribute n a).removeAttribute m = (box.removeAttribute m).addAttribute n a) ∧
    ((box.addAttribute n a).removeAttribute n = box.removeAttribute n) ∧
    (∀ l k v, (box.addAttribute n a).addMeta l k v = (box.addMeta l k v).addAttribute n a) ∧
    (∀ s, (box.addAttribute n a).addClassification s = (box.addClassification s).addAttribute n a) := by
  have ext : ∀ x y : OCABox, (∀ k, x.attributes.get k = y.attributes.get k) → x.metaMap = y.metaMap → x.classification = y.classification → x.mappings = y.mappings → x = y := by
    rintro ⟨xa, _, _, _⟩ ⟨ya, _, _, _⟩ h h1 h2 h3
    have : xa = ya := FMap.ext h
    simp only at h1 h2 h3
    subst this h1 h2 h3; rfl
  have maps : ∀ {V : Type} (o : Option (FMap V)), mergeMaps o o = o := by
    intro V o
    cases o with
    | none => rfl
    | some m =>
      simp only [mergeMaps, Option.some.injEq]
      apply FMap.ext; intro k
      have f := optGet_mergeMaps (some m) (some m) k
      simp only [mergeMaps, optGet, Option.bind_some] at f
      rw [f]; cases m.get k <;> rfl
  have idem : a.merge a = a := by
    have over : ∀ {α : Type} (o : Option α), overwrite o o = o := by intro α o; cases o <;> rfl
    have keep : ∀ {α : Type} (o : Option α), keepFirst o o = o := by intro α o; cases o <;> rfl
    have deps : mergeDeps a.condition a.dependencies a.dependencies = a.dependencies := by cases a.condition <;> simp [mergeDeps, over]
    simp only [Attribute.merge, over, keep, maps, deps]
  have assoc : ∀ x : Attribute, (x.merge a).merge b = x.merge (a.merge b) := by
    intro x
    have over : ∀ {α : Type} (o p q : Option α), overwrite (overwrite o p) q = overwrite o (overwrite p q) := by intro α o p q; cases q <;> rfl
    have keep : ∀ {α : Type} (o p q : Option α), keepFirst (keepFirst o p) q = keepFirst o (keepFirst p q) := by intro α o p q; cases o <;> rfl
    have deps : mergeDeps b.condition (mergeDeps a.condition x.dependencies a.dependencies) b.dependencies =
        mergeDeps (overwrite a.condition b.condition) x.dependencies (mergeDeps b.condition a.dependencies b.dependencies) := by
      have hp : b.condition.isSome = b.dependencies.isSome := hb.paired
      cases e : b.condition with
      | none => rfl
      | some c =>
        rw [e] at hp
        obtain ⟨d, hd⟩ := Option.isSome_iff_exists.1 hp.symm
        simp [mergeDeps, overwrite, hd]
    simp only [Attribute.merge, over, keep, mergeMaps_assoc, deps]
  have two : (box.addAttribute n a).addAttribute n b = box.addAttribute n (a.merge b) := by
    obtain ⟨e1, e2, e3, e4⟩ := attrs_addAttribute box n a
    obtain ⟨f1, f2, f3, f4⟩ := attrs_addAttribute (box.addAttribute n a) n b
    obtain ⟨g1, g2, g3, g4⟩ := attrs_addAttribute box n (a.merge b)
    refine ext _ _ (fun k => ?_) (by rw [f2, e2, g2]) (by rw [f3, e3, g3]) (by rw [f4, e4, g4])
    rw [f1, g1, e1]
    simp only [FMap.get_insert]
    by_cases e : k = n
    · simp only [if_pos e, if_true, Option.map_some, Option.getD_some]
      cases box.attributes.get n with
      | none => rfl
      | some x => simp [assoc]
    · simp [if_neg e]
  refine ⟨two, idem, ?_, ?_, ?_, ?_, ?_, ?_⟩
  · obtain ⟨e1, e2, e3, e4⟩ := attrs_addAttribute box n a
    obtain ⟨f1, f2, f3, f4⟩ := attrs_addAttribute (box.addAttribute n a) n a
    have assoc' : ∀ x : Attribute, (x.merge a).merge a = x.merge a := by
      intro x
      have hover : ∀ {α : Type} (o p : Option α), overwrite (overwrite o p) p = overwrite o p := by intro α o p; cases p <;> rfl
      have hkeep : ∀ {α : Type} (o p : Option α), keepFirst (keepFirst o p) p = keepFirst o p := by intro α o p; cases o <;> cases p <;> rfl
      have hmaps : ∀ {V : Type} (o p : Option (FMap V)), mergeMaps (mergeMaps o p) p = mergeMaps o p := by
        intro V o p; rw [mergeMaps_assoc, maps]
      have hdeps : mergeDeps a.condition (mergeDeps a.condition x.dependencies a.dependencies) a.dependencies = mergeDeps a.condition x.dependencies a.dependencies := by
        cases a.condition <;> simp [mergeDeps, hover]
      simp only [Attribute.merge, hover, hkeep, hmaps, hdeps]
    refine ext _ _ (fun k => ?_) (by rw [f2]) (by rw [f3]) (by rw [f4])
    rw [f1, e1]
    simp only [FMap.get_insert]
    by_cases e : k = n
    · simp only [if_pos e, if_true, Option.map_some, Option.getD_some]
      cases box.attributes.get n with
      | none => simp [idem]
      | some x => simp [assoc']
    · simp [if_neg e]
  · intro hnm
    obtain ⟨e1, e2, e3, e4⟩ := attrs_addAttribute box n a
    obtain ⟨f1, f2, f3, f4⟩ := attrs_addAttribute (box.addAttribute n a) m b
    obtain ⟨g1, g2, g3, g4⟩ := attrs_addAttribute box m b
    obtain ⟨k1, k2, k3, k4⟩ := attrs_addAttribute (box.addAttribute m b) n a
    refine ext _ _ (fun k => ?_) (by rw [f2, e2, k2, g2]) (by rw [f3, e3, k3, g3]) (by rw [f4, e4, k4, g4])
    rw [f1, k1, e1, g1]
    simp only [FMap.get_insert, if_neg hnm, if_neg (Ne.symm hnm)]
    by_cases e : k = m
    · subst e; simp [Ne.symm hnm]
    · by_cases e' : k = n <;> simp [e, e', hnm]
  · intro hnm
    obtain ⟨e1, e2, e3, e4⟩ := attrs_addAttribute box n a
    obtain ⟨k1, k2, k3, k4⟩ := attrs_addAttribute (box.removeAttribute m) n a
    refine ext _ _ (fun k => ?_) (by rw [k2]; exact e2) (by rw [k3]; exact e3) (by rw [k4]; exact e4)
    rw [k1]
    show ((box.addAttribute n a).attributes.erase m).get k = ((box.attributes.erase m).insert n (((box.attributes.erase m).get n |>.map (·.merge a)).getD a)).get k
    rw [e1]
    simp only [FMap.get_insert, FMap.get_erase, if_neg hnm]
    by_cases e : k = n
    · subst e; simp [hnm]
    · simp [e]
  · obtain ⟨e1, e2, e3, e4⟩ := attrs_addAttribute box n a
    refine ext _ _ (fun k => ?_) e2 e3 e4
    show ((box.addAttribute n a).attributes.erase n).get k = (box.attributes.erase n).get k
    rw [e1]
    simp only [FMap.get_insert, FMap.get_erase]
    by_cases e : k = n <;> simp [e]
  · intro l k v
    obtain ⟨e1, e2, e3, e4⟩ := attrs_addAttribute box n a
    obtain ⟨k1, k2, k3, k4⟩ := attrs_addAttribute (box.addMeta l k v) n a
    refine ext _ _ (fun _ => ?_) ?_ (by rw [k3]; exact e3) (by rw [k4]; exact e4)
    · rw [k1]
      show (box.addAttribute n a).attributes.get _ = _
      rw [e1]; rfl
    · rw [k2]; unfold OCABox.addMeta; rw [e2]
  · intro s
    obtain ⟨e1, e2, e3, e4⟩ := attrs_addAttribute box n a
    obtain ⟨k1, k2, k3, k4⟩ := attrs_addAttribute (box.addClassification s) n a
    refine ext _ _ (fun _ => ?_) (by rw [k2]; exact e2) (by rw [k3]; rfl) (by rw [k4]; exact e4)
    rw [k1]
    show (box.addAttribute n a).attributes.get _ = _
    rw [e1]; rfl

/-- **C69** Whatever calls a program makes, on a new state or on a loaded bundle, the state gives a bundle, whose SAIDs are valid, whose overlays are each of a different kind, language,
target or frame, and speak only of attributes of the capture base. -/
theorem C69_any_calls (E : Env) (O : Order) (box : OCABox) (calls : List OCABox)
    (hr : Reachable E box) (hc : ∀ i b b', (box :: calls)[i]? = some b → (box :: calls)[i + 1]? = some b' → ApiCall b b') :
    ∀ b ∈ box :: calls, ∃ B, (generateBundle E O b : Res Unit _) = .ok B ∧ B.WellMade ∧ B.SaidsValid E := by
  have all : ∀ (l : List OCABox) (x : OCABox), Reachable E x → (∀ i b b', (x :: l)[i]? = some b → (x :: l)[i + 1]? = some b' → ApiCall b b') → ∀ b ∈ x :: l, Reachable E b := by
    intro l
    induction l with
    | nil => intro x hx _ b hb; rw [List.mem_singleton.1 hb]; exact hx
    | cons y l ih =>
      intro x hx h b hb
      rcases List.mem_cons.1 hb with rfl | hb
      · exact hx
      · exact ih y (.api _ _ hx (h 0 x y rfl rfl)) (fun i b b' h1 h2 => h (i + 1) b b' h1 h2) b hb
  intro b hb
  have hrb := all calls box hr hc b hb
  exact ⟨_, reachable_gen hrb O, C68_built_well_made.wellMade_bundleOf E O b hrb, (C18_generated_saids_valid E O b _ (reachable_gen (ε := Unit) hrb O)).1⟩

/-! ## A concrete case -/

/-- An attribute made by a program: a text with two labels, a unit, a link and a flag. -/
def madeOne : Attribute := ((((({} : Attribute).setTy (.val .text)).setLabel c!"eng" c!"Name").setLabel c!"fra" c!"Nom").setUnit c!"kg").setLink c!"X" c!"x"

/-- Another: another label in English, another unit, a link to something else, and a flag. -/
def madeTwo : Attribute := (((({} : Attribute).setLabel c!"eng" c!"Full name").setUnit c!"lb").setLink c!"Y" c!"y").setFlagged

theorem madeOne_made : madeOne.Made :=
  .set (.set (.set (.set (.set .new (.type _ _)) (.label _ _ _)) (.label _ _ _)) (.unit _ _)) (.link _ _ _)

theorem madeTwo_made : madeTwo.Made :=
  .set (.set (.set (.set .new (.label _ _ _)) (.unit _ _)) (.link _ _ _)) (.flagged _)

def twoCalls : OCABox := (OCABox.new.addAttribute c!"n" madeOne).addAttribute c!"n" madeTwo

theorem twoCalls_reachable (E : Env) : Reachable E (OCABox.new.addAttribute c!"n" madeOne) ∧ Reachable E twoCalls := by
  have h : Reachable E (OCABox.new.addAttribute c!"n" madeOne) := .api _ _ .new (.add _ _ _ madeOne_made (.inl rfl))
  exact ⟨h, .api _ _ h (.add _ _ _ madeTwo_made (.inr rfl))⟩

/-- **C69** The label in English is the new one, the French one stays, the unit is the first one, the first link is gone though the second is to something else, and the flag is lost. -/
theorem C69_concrete (E : Env) (O : Order) : ∃ B, (generateBundle E O twoCalls : Res Unit _) = .ok B ∧
    B.Tells c!"n" (.label c!"eng" c!"Full name") ∧ ¬ B.Tells c!"n" (.label c!"eng" c!"Name") ∧ B.Tells c!"n" (.label c!"fra" c!"Nom") ∧
    B.Tells c!"n" (.unit c!"kg") ∧ ¬ B.Tells c!"n" (.unit c!"lb") ∧ B.Tells c!"n" (.link c!"Y" c!"y") ∧ ¬ B.Tells c!"n" (.link c!"X" c!"x") ∧
    B.captureBase.attributes.get c!"n" = some (.val .text) ∧ c!"n" ∉ B.captureBase.flagged := by
  obtain ⟨h1, h2⟩ := twoCalls_reachable E
  obtain ⟨B, hB⟩ : ∃ B, (generateBundle E O twoCalls : Res Unit _) = .ok B := ⟨_, reachable_gen h2 O⟩
  have t := fun F => C17_overlay_content_exact E O twoCalls h2 B hB c!"n" F
  obtain ⟨c1, -, -, -, c5⟩ := C14_capture_base_exact E O _ B hB
  have hg : twoCalls.attributes.get c!"n" = some (madeOne.merge madeTwo) := by decide +kernel
  have T : ∀ F, B.Tells c!"n" F ↔ (madeOne.merge madeTwo).Carries F := by
    intro F
    refine (t F).trans ?_
    rw [hg]; simp
  refine ⟨B, hB, ?_, ?_, ?_, ?_, ?_, ?_, ?_, ?_, ?_⟩
  · exact (T _).2 (optGet_eq_some.1 (by decide +kernel))
  · intro h; exact absurd (optGet_eq_some.2 ((T _).1 h)) (by decide +kernel)
  · exact (T _).2 (optGet_eq_some.1 (by decide +kernel))
  · exact (T _).2 (by decide +kernel : (madeOne.merge madeTwo).unit = _)
  · intro h; exact absurd ((T _).1 h) (by decide +kernel : ¬ (madeOne.merge madeTwo).unit = _)
  · exact (T _).2 (optGet_eq_some.1 (by decide +kernel))
  · intro h; exact absurd (optGet_eq_some.2 ((T _).1 h)) (by decide +kernel)
  · exact (c1 _ _).2 ⟨_, hg, by decide +kernel⟩
  · intro h
    obtain ⟨a, ha, hf⟩ := (c5 _).1 h
    rw [hg] at ha
    cases ha
    exact absurd hf (by decide +kernel)

end OCA
