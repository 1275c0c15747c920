import Verif.Props.Extended
import Verif.Props.Objects
import Verif.Props.HistoryText
import Verif.Props.ExportText
/-!
# C68 for files: what `FROM` keeps
-/
namespace OCA
open Peg Gr

/-- **C68** The keys of a command of a text are distinct, whatever the text. -/
theorem C68_text_distinct (E : Env) (U : Uni) (s : Str) (ast : OCAAst) (h : parseText E U s = .ok ast) : ∀ c ∈ ast.commands, c.Distinct := by
  intro c hc
  have hf := C52_commands_of_text E U s ast h c hc
  cases hf with
  | «from» => trivial
  | attributes l hl => exact ⟨hl.distinct, .nil⟩
  | classification v => exact ⟨.nil, List.nodup_cons.2 ⟨by simp, .nil⟩⟩
  | flagged v => exact ⟨.nil, .nil⟩
  | removeAttributes l hd =>
    refine ⟨?_, .nil⟩
    show ((l.map fun k => (k, NAttr.null)).map (·.1)).Nodup
    rw [List.map_map]
    rw [show ((fun p : Str × NAttr => p.1) ∘ fun k => (k, NAttr.null)) = id from rfl, List.map_id]
    exact hd
  | removeClassification => exact ⟨.nil, List.nodup_cons.2 ⟨by simp, .nil⟩⟩
  | removeMeta => exact ⟨.nil, .nil⟩
  | removeLabel => exact ⟨.nil, .nil⟩
  | overlay k c hk =>
    cases hk with
    | plain k hk as h => exact ⟨h.distinct, .nil⟩
    | unit as h => exact ⟨h.distinct, .nil⟩
    | withLang k hk as h => exact ⟨h.distinct, List.nodup_cons.2 ⟨by simp, .nil⟩⟩
    | metas ps h => exact ⟨.nil, h.distinct⟩
    | encodingProps ps h => exact ⟨.nil, h.distinct⟩
    | entryCodes as h => exact ⟨h.distinct, .nil⟩
    | entries as h => exact ⟨h.distinct, List.nodup_cons.2 ⟨by simp, .nil⟩⟩
    | link as h ps hp =>
      refine ⟨h.distinct, ?_⟩
      obtain ⟨_, -, h | ⟨-, h⟩ | ⟨-, h⟩⟩ := hp <;> rw [h] <;> first | exact .nil | exact List.nodup_cons.2 ⟨by simp, .nil⟩
    | framing as h ps hp => exact ⟨h.distinct, hp.distinct⟩

/-- replacing names in a command leaves its keys alone -/
theorem derefCommand_names {E : Env} {find : Str → Res VErr (Option Str)} {c c' : Command} (h : derefCommand E find c = .ok c') :
    (c.Distinct → c'.Distinct) ∧ (∀ n, AddsAttr c n ↔ AddsAttr c' n) ∧ ∀ n, RemovesAttr c n ↔ RemovesAttr c' n := by
  obtain ⟨k, o⟩ := c
  have same : c' = ⟨k, o⟩ → (Command.Distinct ⟨k, o⟩ → c'.Distinct) ∧ (∀ n, AddsAttr ⟨k, o⟩ n ↔ AddsAttr c' n) ∧ ∀ n, RemovesAttr ⟨k, o⟩ n ↔ RemovesAttr c' n := by
    rintro rfl; exact ⟨id, fun _ => .rfl, fun _ => .rfl⟩
  unfold derefCommand at h
  split at h
  · next e1 e2 =>
    cases e1; cases e2
    rename_i cc
    split at h
    · next l hl =>
      obtain ⟨l', h1, h⟩ := Res.bind_eq_ok.1 (show Res.bind (derefAttrs E find l) _ = _ from h)
      cases h
      have hk := (derefAttrs_all l h1).keys fun _ _ h => h.1
      refine ⟨?_, ?_, ?_⟩
      · rintro ⟨d1, d2⟩
        rw [hl] at d1
        exact ⟨by show (l'.map _).Nodup; rw [← hk]; exact d1, d2⟩
      · intro n
        constructor
        · rintro ⟨-, _, l0, e1, e2, e3⟩
          cases e1; rw [hl] at e2; cases e2
          exact ⟨rfl, _, _, rfl, rfl, mem_keys.2 (hk ▸ mem_keys.1 e3)⟩
        · rintro ⟨-, _, l0, e1, e2, e3⟩
          cases e1; cases e2
          exact ⟨rfl, cc, _, rfl, hl, mem_keys.2 (hk ▸ mem_keys.1 e3)⟩
      · intro n; constructor <;> (rintro ⟨e, -⟩; cases e)
    · cases h; exact same rfl
  · next t cc e1 e2 =>
    cases e1; cases e2
    split at h
    · split at h
      · next ps hp =>
        obtain ⟨ps', h1, h⟩ := Res.bind_eq_ok.1 (show Res.bind (derefTarget E find ps) _ = _ from h)
        cases h
        refine ⟨?_, ?_, ?_⟩
        · rintro ⟨d1, d2⟩
          refine ⟨d1, ?_⟩
          rw [hp] at d2
          show (ps'.map _).Nodup
          unfold derefTarget at h1
          split at h1
          · obtain ⟨r, -, h1⟩ := Res.bind_eq_ok.1 (show Res.bind _ _ = _ from h1)
            cases h1
            exact (imInsert_keys_nodup _ _ _ d2).1
          · cases h1; exact d2
        · intro n; constructor <;> (rintro ⟨-, _, _, e, -⟩; cases e)
        · intro n; constructor <;> (rintro ⟨e, -⟩; cases e)
      · cases h; exact same rfl
    · cases h; exact same rfl
  · cases h; exact same rfl

/-- **C68** What the façade finds under an identifier is well made, after any history of validating and building files. -/
theorem C68_fetched_well_made {E : Env} {S : Serde} {f : Facade} {l : List Build} (h : f.Built E S l) {s : Said} {B : Bundle}
    (hB : fetchBundle E S f.cache s = .ok B) : B.WellMade := by
  have hsteps : ∀ b ∈ l, ∀ st ∈ b.steps, st.result.WellMade := by
    clear hB
    have key : ∀ {Os : Nat → Order} {base : Option Bundle} {ast : OCAAst} {b : Build}, fromAst E Os base ast = .ok b → ∀ st ∈ b.steps, st.result.WellMade := by
      intro Os base ast b hb
      obtain ⟨st0, box, -, hr, -, -, -, rfl⟩ := fromAst_steps hb
      have : ∀ (cs : List Command) (i : Nat) (p : Option Said) (m : Option OCABox), OptReach E m → ∀ st ∈ stepsFrom E Os i p m cs, st.result.WellMade := by
        intro cs
        induction cs with
        | nil => intro i p m _ st hst; cases hst
        | cons c cs ih =>
          intro i p m hm st hst
          unfold stepsFrom at hst
          cases ha : applyCommand E m c with
          | ok x =>
            have hx : Reachable E x := by
              cases m with
              | none => exact .step OCABox.new x c .new ha
              | some y => exact .step y x c (hm y rfl) ha
            rw [ha] at hst
            rcases List.mem_cons.1 hst with rfl | hst
            · exact C68_built_well_made.wellMade_bundleOf E (Os i) x hx
            · exact ih _ _ (some x) (fun y hy => by cases hy; exact hx) st hst
          | err e => rw [ha] at hst; exact ih _ _ m hm st hst
          | panic => rw [ha] at hst; exact ih _ _ m hm st hst
      exact this _ _ _ _ hr
    induction h with
    | new => intro b hb; cases hb
    | validated _ _ ih => exact ih
    | built hf hv hc _ ih =>
      intro b hb st hst
      rcases List.mem_append.1 hb with hb | hb
      · exact ih b hb st hst
      · have e := List.mem_singleton.1 hb
        rw [e] at hst
        obtain ⟨_, _, _, _, -, -, -, h4, -⟩ := validate_parts hv
        exact key h4 st hst
  have hget : ∃ v, f.cache.get .bundlesJson s = .ok (some v) := by
    unfold fetchBundle at hB
    split at hB <;> first | (cases hB; done) | exact ⟨_, by assumption⟩
  obtain ⟨v, hv⟩ := hget
  obtain ⟨st, hst, hs, hval⟩ := h.bundle_record hv
  obtain ⟨b, hb, hst⟩ := mem_stepsOf.1 hst
  have hk := h.keepable b hb st hst
  obtain ⟨B', h1, h2, h3, h4⟩ := fetchBundle_eq E S f.cache st.result s (hval ▸ hv) hk.storable hk.types
  rw [hB] at h1
  cases h1
  refine C68_loaded_well_made (hsteps b hb st hst) hk.storable ?_
  obtain ⟨B1, e1, -, e3, e4, -, e6⟩ := C29_json_round_trip E st.result hk.storable
  rw [e1, h4]
  obtain ⟨x, y, z⟩ := B1
  dsimp only at e3 e4 e6
  rw [e3, e4, e6]

/-- **C68** The build of a file by a façade is one of those of the theorems above: its steps' commands have distinct keys, the base is what the façade
finds under the identifier of FROM (none without FROM, or when nothing is found) and is well made. -/
theorem C68_file {E : Env} {U : Uni} {S : Serde} {Os : Nat → Order} {f f' : Facade} {l : List Build} (hf : f.Built E S l) {s : Str} {b : Build}
    (h : f.validateText E U S Os s = .ok (f', b)) :
    ∃ ast base ast', parseText E U s = .ok ast ∧ fromAst E Os base ast' = .ok b ∧ ast'.commands = b.steps.map (·.command) ∧
      (∀ c ∈ ast'.commands, c.Distinct) ∧
      (∀ B, base = some B → B.WellMade ∧ ∃ x t, ast.commands = ⟨.«from», .ocaBundle (.said x)⟩ :: t ∧ fetchBundle E S f.cache x = .ok B) ∧
      (∀ x t B, ast.commands = ⟨.«from», .ocaBundle (.said x)⟩ :: t → fetchBundle E S f.cache x = .ok B → base = some B) ∧
      (∀ n, (∃ c ∈ ast'.commands, RemovesAttr c n) → ∃ c ∈ ast'.commands, AddsAttr c n) ∧
      (∀ n, (∃ c ∈ ast'.commands, AddsAttr c n) ↔ ∃ c ∈ ast.commands, AddsAttr c n) ∧
      (∀ n, (∃ c ∈ ast'.commands, RemovesAttr c n) → ∃ c ∈ ast.commands, RemovesAttr c n) := by
  rcases C56_text_is_lines E U S Os f s with ⟨-, e, -⟩ | ⟨ls, -, hpl, e, -⟩
  · rw [h] at e; cases e
  rw [h] at e
  obtain ⟨ast, base, ast1, cs, e1, e2, e3, e4, -⟩ := validate_parts e.symm
  have hp : parseText E U s = .ok ast := hpl ▸ e1
  obtain ⟨_, _, -, -, -, -, hcs, -⟩ := C12_successful_build E Os base _ b e4
  have hall := derefCommands_all _ e3
  have hsub := checkBase_commands e2
  have hadds : ∀ n, (∃ c ∈ cs, AddsAttr c n) ↔ ∃ c ∈ ast.commands, AddsAttr c n := by
    intro n
    constructor
    · rintro ⟨c', hc', ha⟩
      obtain ⟨c, hc, hd⟩ := hall.right hc'
      exact ⟨c, hsub c hc, ((derefCommand_names hd).2.1 n).2 ha⟩
    · rintro ⟨c, hc, ha⟩
      have hc1 : c ∈ ast1.commands := by
        unfold checkBase at e2
        split at e2
        · next r t et =>
          rw [et] at hc
          rcases List.mem_cons.1 hc with rfl | hc2
          · cases ha.1
          · split at e2
            · split at e2
              · cases e2; exact hc2
              · cases e2; exact hc2
              · cases e2
            · cases e2
        · cases e2; exact hc
      obtain ⟨c', hc', hd⟩ := hall.flip.right hc1
      exact ⟨c', hc', ((derefCommand_names hd).2.1 n).1 ha⟩
  refine ⟨ast, base, { ast1 with commands := cs }, hp, e4, hcs.symm, ?_, ?_, ?_, ?_, hadds, ?_⟩
  · intro c' hc'
    obtain ⟨c, hc, hd⟩ := hall.right hc'
    exact (derefCommand_names hd).1 (C68_text_distinct E U s ast hp c (hsub c hc))
  · rintro B rfl
    unfold checkBase at e2
    split at e2
    · next r t et =>
      split at e2
      · split at e2
        · next B' hB' => cases e2; exact ⟨C68_fetched_well_made hf hB', _, t, et, hB'⟩
        · cases e2
        · cases e2
      · cases e2
    · cases e2
  · intro x t B et hB
    unfold checkBase at e2
    rw [et] at e2
    simp only [hB] at e2
    cases e2; rfl
  · rintro n ⟨c', hc', hr⟩
    obtain ⟨c, hc, hd⟩ := hall.right hc'
    have hr' := ((derefCommand_names hd).2.2 n).2 hr
    obtain ⟨pre, post, es⟩ := List.append_of_mem (hsub c hc)
    obtain ⟨p1, d, p2, ep, ha, -⟩ := (C09_text_commands_consistent E U s ast hp pre post c es).2.1 n hr'
    exact (hadds n).2 ⟨d, by rw [es, ep]; simp, ha⟩
  · rintro n ⟨c', hc', hr⟩
    obtain ⟨c, hc, hd⟩ := hall.right hc'
    exact ⟨c, hsub c hc, ((derefCommand_names hd).2.2 n).2 hr⟩

/-- **C68** What a file keeps of its base: an attribute the file does not add itself is in the result, with its type, its flag and every scope, unit and
entry codes; what the base tells about it is what the result tells, in all that the file does not speak of. -/
theorem C68_base_kept {E : Env} {U : Uni} {S : Serde} {Os : Nat → Order} {f f' : Facade} {l : List Build} (hf : f.Built E S l) {s : Str} {b : Build}
    (h : f.validateText E U S Os s = .ok (f', b)) {ast : OCAAst} (hp : parseText E U s = .ok ast) {x : Said} {t : List Command}
    (hx : ast.commands = ⟨.«from», .ocaBundle (.said x)⟩ :: t) {B : Bundle} (hB : fetchBundle E S f.cache x = .ok B)
    {n : Str} {ty : NAttr} (hn : B.captureBase.attributes.get n = some ty) (hno : ∀ c ∈ ast.commands, ¬ AddsAttr c n) :
    b.bundle.captureBase.attributes.get n = some ty ∧
    (n ∈ b.bundle.captureBase.flagged ↔ n ∈ B.captureBase.flagged) ∧
    (∀ F : Fact, F.first = true → B.Tells n F → b.bundle.Tells n F) ∧
    (∀ F : Fact, F.overwritten = true → (∀ st ∈ b.steps, Mute E st.command n F.slot) → (b.bundle.Tells n F ↔ B.Tells n F)) ∧
    (∀ id sc v, (∀ st ∈ b.steps, ∀ w, ¬ SaysScope st.command n id sc w) → (b.bundle.HasScope n id sc v ↔ B.GivesScope n id sc v)) := by
  obtain ⟨ast0, base, ast', h1, h2, h3, h4, h5, h6, h7, h8, -⟩ := C68_file hf h
  rw [hp] at h1
  cases h1
  have hb : base = some B := h6 x t B hx hB
  subst hb
  have hW : ∀ B', some B = some B' → B'.WellMade := fun B' e => (h5 B' e).1
  have hA : ∀ c ∈ ast'.commands, ¬ AddsAttr c n := by
    intro c hc ha
    obtain ⟨d, hd, ha⟩ := (h8 n).1 ⟨c, hc, ha⟩
    exact hno d hd ha
  have hR : ∀ c ∈ ast'.commands, ¬ RemovesAttr c n := by
    intro c hc hr
    obtain ⟨d, hd, ha⟩ := h7 n ⟨c, hc, hr⟩
    exact hA d hd ha
  have hmem : ∀ {P : Command → Prop}, (∀ st ∈ b.steps, P st.command) → ∀ c ∈ ast'.commands, P c := by
    intro P hP c hc
    rw [h3] at hc
    obtain ⟨st, hst, rfl⟩ := List.mem_map.1 hc
    exact hP st hst
  refine ⟨?_, ?_, ?_, ?_, ?_⟩
  · exact (C68_types h2 h4 hW n ty).2 (.inr ⟨fun c hc => ⟨hA c hc, hR c hc⟩, B, rfl, hn⟩)
  · rw [C68_flags h2 h4 hW n]
    constructor
    · rintro ⟨-, _, e, hh⟩; cases e; exact hh
    · intro hh; exact ⟨hR, B, rfl, hh⟩
  · intro F hF hT
    exact (C68_first h2 h4 hW n hF).2 (.inr ⟨hR, B, rfl, hT⟩)
  · intro F hF hm
    have hs : ∀ c ∈ ast'.commands, Silent E c n F.slot := fun c hc => ⟨hR c hc, hmem (P := fun c => Mute E c n F.slot) hm c hc⟩
    rw [C68_facts h2 h4 hW n hF]
    constructor
    · rintro (⟨pre, c, post, e, hc, -⟩ | ⟨-, _, e, hT⟩)
      · exact absurd rfl ((hs c (by rw [e]; simp)).2 F hc)
      · cases e; exact hT
    · intro hT; exact .inr ⟨hs, B, rfl, hT⟩
  · intro id sc v hm
    have hs : ∀ c ∈ ast'.commands, ¬ RemovesAttr c n ∧ ∀ w, ¬ SaysScope c n id sc w := fun c hc => ⟨hR c hc, hmem (P := fun c => ∀ w, ¬ SaysScope c n id sc w) hm c hc⟩
    rw [C68_scopes h2 h4 hW n id sc v]
    constructor
    · rintro (⟨pre, c, post, e, hc, -⟩ | ⟨-, _, e, hT⟩)
      · exact absurd hc ((hs c (by rw [e]; simp)).2 v)
      · cases e; exact hT
    · intro hT; exact .inr ⟨hs, B, rfl, hT⟩

/-- the last member of a list with a property -/
theorem last_split {α : Type} {P : α → Prop} : ∀ {l : List α}, (∃ a ∈ l, P a) → ∃ pre c post, l = pre ++ c :: post ∧ P c ∧ ∀ d ∈ post, ¬ P d
  | [], ⟨_, h, _⟩ => nomatch h
  | a :: l, ⟨d, hd, hp⟩ => by
    by_cases hl : ∃ a ∈ l, P a
    · obtain ⟨pre, c, post, e, h⟩ := last_split hl
      exact ⟨a :: pre, c, post, by rw [e]; rfl, h⟩
    · rcases List.mem_cons.1 hd with rfl | hd
      · exact ⟨[], d, l, rfl, hp, fun x hx h => hl ⟨x, hx, h⟩⟩
      · exact absurd ⟨d, hd, hp⟩ hl

/-- **C68** An attribute of the base that the result lacks was added and removed by the file itself. -/
theorem C68_base_attribute_lost {E : Env} {U : Uni} {S : Serde} {Os : Nat → Order} {f f' : Facade} {l : List Build} (hf : f.Built E S l) {s : Str} {b : Build}
    (h : f.validateText E U S Os s = .ok (f', b)) {ast : OCAAst} (hp : parseText E U s = .ok ast) {x : Said} {t : List Command}
    (hx : ast.commands = ⟨.«from», .ocaBundle (.said x)⟩ :: t) {B : Bundle} (hB : fetchBundle E S f.cache x = .ok B)
    {n : Str} {ty : NAttr} (hn : B.captureBase.attributes.get n = some ty) (hl : b.bundle.captureBase.attributes.get n = none) :
    (∃ c ∈ ast.commands, AddsAttr c n) ∧ ∃ c ∈ ast.commands, RemovesAttr c n := by
  have hadd : ∃ c ∈ ast.commands, AddsAttr c n := by
    refine Classical.byContradiction fun hno => ?_
    have := (C68_base_kept hf h hp hx hB hn fun c hc ha => hno ⟨c, hc, ha⟩).1
    rw [hl] at this; cases this
  refine ⟨hadd, ?_⟩
  obtain ⟨ast0, base, ast', h1, h2, h3, h4, h5, h6, h7, h8, h9⟩ := C68_file hf h
  rw [hp] at h1
  cases h1
  have hb : base = some B := h6 x t B hx hB
  subst hb
  have hW : ∀ B', some B = some B' → B'.WellMade := fun B' e => (h5 B' e).1
  refine Classical.byContradiction fun hno => ?_
  have hR : ∀ c ∈ ast'.commands, ¬ RemovesAttr c n := fun c hc hr => hno (h9 n ⟨c, hc, hr⟩)
  obtain ⟨d, hd, had⟩ := (h8 n).2 hadd
  obtain ⟨pre, c, post, e, hc, hpost⟩ := last_split (P := fun c => AddsAttr c n) ⟨d, hd, had⟩
  have hcT : ∃ ty', AddsType c n ty' := by
    obtain ⟨hk, cc, l, h1, h2, t, ht⟩ := hc
    exact ⟨t, hk, cc, l, h1, h2, ht⟩
  obtain ⟨ty', hty⟩ := hcT
  have := (C68_types h2 h4 hW n ty').2 (.inl ⟨pre, c, post, e, hty, fun d hd => ⟨hpost d hd, hR d (by rw [e]; simp [hd])⟩⟩)
  rw [hl] at this; cases this

end OCA
