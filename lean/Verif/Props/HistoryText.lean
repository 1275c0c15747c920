import Verif.Model.Fetch
import Verif.Props.Reprint
import Verif.Props.TextBuild
import Verif.Props.FacadeText
import Verif.Props.Continuation
/-!
# C57: the OCA file of a stored bundle

`get_oca_bundle_ocafile` and `get_oca_bundle_ast`: from a text, through the build and the storage, back to a text.
-/
namespace OCA
open Peg Gr

/-! ## Names replaced by identifiers -/

/-- the same names and the same kind of command -/
structure SameNames (c c' : Command) : Prop where
  adds : ∀ x, AddsAttr c x ↔ AddsAttr c' x
  removes : ∀ x, RemovesAttr c x ↔ RemovesAttr c' x
  addsProp : ∀ x, AddsProp c x ↔ AddsProp c' x
  removesProp : ∀ x, RemovesProp c x ↔ RemovesProp c' x

theorem SameNames.refl (c : Command) : SameNames c c := ⟨fun _ => .rfl, fun _ => .rfl, fun _ => .rfl, fun _ => .rfl⟩

theorem present_same {A R : Command → Str → Prop} {l l' : List Command}
    (h : All2 (fun c c' => (∀ x, A c x ↔ A c' x) ∧ ∀ x, R c x ↔ R c' x) l l') (x : Str) : Present A R l x → Present A R l' x := by
  rintro ⟨pre, c, post, rfl, ha, hr⟩
  have split : ∀ {pre : List Command} {post l' : List Command} {c : Command},
      All2 (fun c c' => (∀ x, A c x ↔ A c' x) ∧ ∀ x, R c x ↔ R c' x) (pre ++ c :: post) l' →
      ∃ pre' c' post', l' = pre' ++ c' :: post' ∧ (A c x ↔ A c' x) ∧
        All2 (fun c c' => (∀ x, A c x ↔ A c' x) ∧ ∀ x, R c x ↔ R c' x) post post' := by
    intro pre
    induction pre with
    | nil =>
      intro post l' c h
      cases h with
      | cons h1 h2 => exact ⟨[], _, _, rfl, h1.1 x, h2⟩
    | cons d t ih =>
      intro post l' c h
      cases h with
      | cons h1 h2 =>
        obtain ⟨pre', c', post', rfl, e, h3⟩ := ih h2
        exact ⟨_ :: pre', c', post', rfl, e, h3⟩
  obtain ⟨pre', c', post', rfl, e, h3⟩ := split h
  refine ⟨pre', c', post', rfl, e.1 ha, ?_⟩
  intro d' hd'
  have : ∃ d ∈ post, R d x ↔ R d' x := by
    clear h hr
    induction h3 with
    | nil => cases hd'
    | cons h1 _ ih =>
      rcases List.mem_cons.1 hd' with rfl | hd'
      · exact ⟨_, .head _, h1.2 x⟩
      · obtain ⟨d, hd, e⟩ := ih hd'
        exact ⟨d, .tail _ hd, e⟩
  obtain ⟨d, hd, e⟩ := this
  exact fun hr' => hr d hd (e.2 hr')

theorem All2.flip {α β : Type} {R : α → β → Prop} {l : List α} {l' : List β} (h : All2 R l l') : All2 (fun b a => R a b) l' l := by
  induction h with
  | nil => exact .nil
  | cons h _ ih => exact .cons h ih

theorem All2.imp {α β : Type} {R Q : α → β → Prop} {l : List α} {l' : List β} (h : All2 R l l') (hi : ∀ a b, R a b → Q a b) : All2 Q l l' := by
  induction h with
  | nil => exact .nil
  | cons h _ ih => exact .cons (hi _ _ h) ih

/-- the rules speak of names only -/
theorem breaks_same {l l' : List Command} (h : All2 SameNames l l') {c c' : Command} (hc : SameNames c c') (hb : BreaksRules l' c') :
    BreaksRules l c := by
  have h1 : ∀ x, Present AddsAttr RemovesAttr l x ↔ Present AddsAttr RemovesAttr l' x := fun x =>
    ⟨present_same (h.imp fun _ _ h => ⟨h.adds, h.removes⟩) x,
     present_same (h.flip.imp fun _ _ h => ⟨fun x => (h.adds x).symm, fun x => (h.removes x).symm⟩) x⟩
  have h2 : ∀ x, Present AddsProp RemovesProp l x ↔ Present AddsProp RemovesProp l' x := fun x =>
    ⟨present_same (h.imp fun _ _ h => ⟨h.addsProp, h.removesProp⟩) x,
     present_same (h.flip.imp fun _ _ h => ⟨fun x => (h.addsProp x).symm, fun x => (h.removesProp x).symm⟩) x⟩
  rcases hb with ⟨x, a, b⟩ | ⟨x, a, b⟩ | ⟨x, a, b⟩
  · exact .inl ⟨x, (hc.adds x).2 a, (h1 x).2 b⟩
  · exact .inr (.inl ⟨x, (hc.removes x).2 a, fun e => b ((h1 x).1 e)⟩)
  · exact .inr (.inr ⟨x, (hc.removesProp x).2 a, fun e => b ((h2 x).1 e)⟩)

theorem derefName_valid {E : Env} {find : Str → Res VErr (Option Str)} {n : Str} {r : RefVal} (h : derefName E find n = .ok r) :
    ∃ s, r = .said s ∧ E.validSaid s = true := by
  unfold derefName at h
  obtain ⟨o, -, h⟩ := Res.bind_eq_ok.1 (show Res.bind _ _ = _ from h)
  cases o with
  | none => cases h
  | some s =>
    dsimp only at h
    split at h
    · next hv => cases h; exact ⟨s, rfl, hv⟩
    · cases h

theorem derefAttr_text {E : Env} {U : Uni} (hw : ∀ s, E.validSaid s = true → IsWord U s) {find : Str → Res VErr (Option Str)}
    {t t' : NAttr} (h : derefAttr E find t = .ok t') (ht : FileType E U t) : FileType E U t' := by
  unfold derefAttr at h
  split at h
  · obtain ⟨r, h1, h⟩ := Res.bind_eq_ok.1 (show Res.bind _ _ = _ from h)
    cases h
    obtain ⟨s, rfl, hs⟩ := derefName_valid h1
    exact .said s (hw s hs) hs
  · obtain ⟨r, h1, h⟩ := Res.bind_eq_ok.1 (show Res.bind _ _ = _ from h)
    cases h
    obtain ⟨s, rfl, hs⟩ := derefName_valid h1
    exact .arr _ (.said s (hw s hs) hs)
  · cases h; exact ht

theorem derefAttrs_all {E : Env} {find : Str → Res VErr (Option Str)} (l : List (Str × NAttr)) : ∀ {l' : List (Str × NAttr)},
    derefAttrs E find l = .ok l' → All2 (fun p p' => p.1 = p'.1 ∧ derefAttr E find p.2 = .ok p'.2) l l' := by
  induction l with
  | nil => intro l' h; cases h; exact .nil
  | cons p t ih =>
    intro l' h
    obtain ⟨a, h1, h⟩ := Res.bind_eq_ok.1 (show Res.bind _ _ = _ from h)
    obtain ⟨t', h2, h⟩ := Res.bind_eq_ok.1 (show Res.bind _ _ = _ from h)
    cases h
    exact .cons ⟨rfl, h1⟩ (ih h2)

theorem All2.keys {α β γ : Type} {R : γ × α → γ × β → Prop} {l : List (γ × α)} {l' : List (γ × β)} (h : All2 R l l') (hk : ∀ p p', R p p' → p.1 = p'.1) :
    l.map (·.1) = l'.map (·.1) := by
  induction h with
  | nil => rfl
  | cons h _ ih => rw [List.map_cons, List.map_cons, hk _ _ h, ih]

theorem All2.right {α β : Type} {R : α → β → Prop} {l : List α} {l' : List β} (h : All2 R l l') {b : β} (hb : b ∈ l') : ∃ a ∈ l, R a b := by
  induction h with
  | nil => cases hb
  | cons h _ ih =>
    rcases List.mem_cons.1 hb with rfl | hb
    · exact ⟨_, .head _, h⟩
    · obtain ⟨a, ha, e⟩ := ih hb; exact ⟨a, .tail _ ha, e⟩

theorem mem_keys {α : Type} {l : List (Str × α)} {x : Str} : (∃ t, (x, t) ∈ l) ↔ x ∈ l.map (·.1) :=
  ⟨fun ⟨t, h⟩ => List.mem_map.2 ⟨_, h, rfl⟩, fun h => by obtain ⟨p, hp, rfl⟩ := List.mem_map.1 h; exact ⟨p.2, hp⟩⟩

/-- Replacing the names in a command of a text gives a command that could stand in a text, with the same attributes. -/
theorem derefCommand_text {E : Env} {U : Uni} (hw : ∀ s, E.validSaid s = true → IsWord U s) {find : Str → Res VErr (Option Str)}
    {c c' : Command} (h : derefCommand E find c = .ok c') (hc : FromText E U false c) : FromText E U false c' ∧ SameNames c c' := by
  cases hc with
  | attributes l hl =>
    obtain ⟨l', h1, h⟩ := Res.bind_eq_ok.1 (show Res.bind (derefAttrs E find l) _ = _ from h)
    cases h
    have ha := derefAttrs_all l h1
    have hk := ha.keys fun _ _ h => h.1
    refine ⟨.attributes l' ⟨?_, hk ▸ hl.distinct, hk ▸ hl.ne⟩, ⟨fun x => ?_, fun x => ?_, fun x => ?_, fun x => ?_⟩⟩
    · intro p' hp'
      obtain ⟨p, hp, e1, e2⟩ := ha.right hp'
      rcases hl.ok p hp with h' | ⟨h', -⟩
      · exact .inl ⟨e1 ▸ h'.1, derefAttr_text hw e2 h'.2⟩
      · cases h'
    · constructor
      · rintro ⟨-, cc, l0, e1, e2, e3⟩
        cases e1; cases e2
        exact ⟨rfl, _, _, rfl, rfl, mem_keys.2 (hk ▸ mem_keys.1 e3)⟩
      · rintro ⟨-, cc, l0, e1, e2, e3⟩
        cases e1; cases e2
        exact ⟨rfl, _, _, rfl, rfl, mem_keys.2 (hk ▸ mem_keys.1 e3)⟩
    · constructor <;> (rintro ⟨e, -⟩; cases e)
    · constructor <;> (rintro ⟨-, cc, l0, e1, e2, -⟩; cases e1; cases e2)
    · constructor <;> (rintro ⟨e, -⟩; cases e)
  | overlay k cc hcc =>
    have same : ∀ {t t' : OverlayType} {a a' : Content}, SameNames ⟨.add, .overlay t a⟩ ⟨.add, .overlay t' a'⟩ := by
      intro t t' a a'
      refine ⟨fun x => ?_, fun x => ?_, fun x => ?_, fun x => ?_⟩ <;> constructor <;> (rintro ⟨-, cc, l0, e1, -⟩; cases e1)
    cases hcc with
    | link as has ps hps =>
      obtain ⟨ps', h1, h⟩ := Res.bind_eq_ok.1 (show Res.bind (derefTarget E find ps) _ = _ from h)
      cases h
      refine ⟨.overlay _ _ (.link as has ps' ?_), same⟩
      obtain ⟨s, hs, rfl | ⟨hv, rfl⟩ | ⟨hv, rfl⟩⟩ := hps
      · obtain ⟨r, h2, h3⟩ := Res.bind_eq_ok.1 (show Res.bind (derefName E find s) _ = _ from h1)
        cases h3
        obtain ⟨s', rfl, hs'⟩ := derefName_valid h2
        exact ⟨s', hw s' hs', .inr (.inl ⟨hs', rfl⟩)⟩
      · cases h1; exact ⟨s, hs, .inr (.inl ⟨hv, rfl⟩)⟩
      · cases h1; exact ⟨s, hs, .inr (.inr ⟨hv, rfl⟩)⟩
    | plain k hk as has =>
      rcases hk with rfl | rfl | rfl | rfl | rfl <;> (cases h; exact ⟨.overlay _ _ (.plain _ (by simp) as has), same⟩)
    | withLang k hk as has l hl => rcases hk with rfl | rfl <;> (cases h; exact ⟨.overlay _ _ (.withLang _ (by simp) as has l hl), same⟩)
    | unit as has => cases h; exact ⟨.overlay _ _ (.unit as has), same⟩
    | metas ps hps => cases h; exact ⟨.overlay _ _ (.metas ps hps), same⟩
    | encodingProps ps hps => cases h; exact ⟨.overlay _ _ (.encodingProps ps hps), same⟩
    | entryCodes as has => cases h; exact ⟨.overlay _ _ (.entryCodes as has), same⟩
    | entries as has l hl => cases h; exact ⟨.overlay _ _ (.entries as has l hl), same⟩
    | framing as has ps hps => cases h; exact ⟨.overlay _ _ (.framing as has ps hps), same⟩
  | «from» s hs => cases h; exact ⟨.«from» s hs, .refl _⟩
  | classification v hv => cases h; exact ⟨.classification v hv, .refl _⟩
  | flagged v => cases h; exact ⟨.flagged v, .refl _⟩
  | removeAttributes l hd hl => cases h; exact ⟨.removeAttributes l hd hl, .refl _⟩
  | removeClassification => cases h; exact ⟨.removeClassification, .refl _⟩
  | removeMeta => cases h; exact ⟨.removeMeta, .refl _⟩
  | removeLabel => cases h; exact ⟨.removeLabel, .refl _⟩

theorem derefCommands_all {E : Env} {find : Str → Res VErr (Option Str)} (l : List Command) : ∀ {l' : List Command},
    derefCommands E find l = .ok l' → All2 (fun c c' => derefCommand E find c = .ok c') l l' := by
  induction l with
  | nil => intro l' h; cases h; exact .nil
  | cons p t ih =>
    intro l' h
    obtain ⟨a, h1, h⟩ := Res.bind_eq_ok.1 (show Res.bind _ _ = _ from h)
    obtain ⟨t', h2, h⟩ := Res.bind_eq_ok.1 (show Res.bind _ _ = _ from h)
    cases h
    exact .cons h1 (ih h2)

/-- A command that can be written down has no name left to replace. -/
theorem derefCommand_self {E : Env} {U : Uni} {find : Str → Res VErr (Option Str)} {c : Command} (hr : CanReprint c)
    (hc : FromText E U false c) : derefCommand E find c = .ok c := by
  cases hc with
  | attributes l hl =>
    have hn : ∀ p ∈ l, derefAttr E find p.2 = .ok p.2 := by
      intro p hp
      have := hr.2.1 p hp
      unfold derefAttr
      split
      · next n e => rw [e] at this; exact absurd trivial this
      · next n e => rw [e] at this; exact absurd trivial this
      · rfl
    have : ∀ l : List (Str × NAttr), (∀ p ∈ l, derefAttr E find p.2 = .ok p.2) → derefAttrs E find l = .ok l := by
      intro l hl
      induction l with
      | nil => rfl
      | cons p t ih =>
        show Res.bind (derefAttr E find p.2) _ = _
        rw [hl p (.head _)]
        show Res.bind (derefAttrs E find t) _ = _
        rw [ih fun p hp => hl p (.tail _ hp)]
        rfl
    show Res.bind (derefAttrs E find l) _ = _
    rw [this l hn]
    rfl
  | overlay k cc hcc =>
    cases hcc with
    | link as has ps hps =>
      obtain ⟨s, hs, rfl | ⟨hv, rfl⟩ | ⟨hv, rfl⟩⟩ := hps
      · exact absurd rfl hr.2.2
      · rfl
      · rfl
    | plain k hk as has => rcases hk with rfl | rfl | rfl | rfl | rfl <;> rfl
    | withLang k hk as has l hl => rcases hk with rfl | rfl <;> rfl
    | unit as has => rfl
    | metas ps hps => rfl
    | encodingProps ps hps => rfl
    | entryCodes as has => rfl
    | entries as has l hl => rfl
    | framing as has ps hps => rfl
  | «from» s hs => rfl
  | classification v hv => rfl
  | flagged v => rfl
  | removeAttributes l hd hl => rfl
  | removeClassification => rfl
  | removeMeta => rfl
  | removeLabel => rfl

/-! ## The file of a history -/

/-- Printing succeeds or fails alike, whatever the type of errors. -/
theorem printAst_any {E : Env} {U : Uni} {ast : OCAAst} (hp : ∀ c ∈ ast.commands, Printable E U c) :
    ∃ text, ∀ ε, (printAst ast : Res ε Str) = .ok text := by
  obtain ⟨xs, -, h, -⟩ := lines_of ast.commands fun c hc => lined_of_printable (hp c hc)
  exact ⟨_, h⟩

theorem derefCommands_self {E : Env} {find : Str → Res VErr (Option Str)} {l : List Command} (h : ∀ c ∈ l, derefCommand E find c = .ok c) :
    derefCommands E find l = .ok l := by
  induction l with
  | nil => rfl
  | cons c t ih =>
    show Res.bind (derefCommand E find c) _ = _
    rw [h c (.head _)]
    show Res.bind (derefCommands E find t) _ = _
    rw [ih fun d hd => h d (.tail _ hd)]
    rfl

/-- **C57** A history that can be looked up and written down: the AST of the bundle holds exactly its commands; the file of the bundle, with
names replaced or not, parses to the same commands in the same order; and that text builds as the commands themselves do, on any base. -/
theorem C57_file_of_history (E : Env) (U : Uni) (S : Serde) (f : Facade) (x : Said) (l : List BuildStep) (h : f.HasHistory E S x l)
    (hp : ∀ st ∈ l, Printable E U st.command) (hn : ∀ st ∈ l, ∀ find, derefCommand E find st.command = .ok st.command)
    (hr : AcceptedSeq (l.map (·.command))) :
    (∀ fuel, l.length ≤ fuel → ∃ a, f.bundleAst E S fuel x = some (.ok a) ∧ a.commands = l.map (·.command) ∧ a.version = c!"1.0.0") ∧
    ∃ text out, (∀ fuel deref, l.length ≤ fuel → f.bundleFile E S fuel x deref = some (.ok text)) ∧
      parseText E U text = .ok out ∧ All2 Like (l.map (·.command)) out.commands ∧
      ∀ Os base a, a.commands = l.map (·.command) → SameOutcome (fromAst E Os base a) (fromAst E Os base out) := by
  have hp' : ∀ c ∈ (stepsAst l).commands, Printable E U c := by
    intro c hc
    obtain ⟨st, hst, rfl⟩ := List.mem_map.1 hc
    exact hp st hst
  have hself : ∀ find, derefCommands E find (stepsAst l).commands = .ok (stepsAst l).commands := by
    intro find
    refine derefCommands_self fun c hc => ?_
    obtain ⟨st, hst, rfl⟩ := List.mem_map.1 hc
    exact hn st hst find
  obtain ⟨text, out, h1, h2, h3⟩ := C49_print_parse E U (stepsAst l) hp' hr
  obtain ⟨text', ht⟩ := printAst_any hp'
  obtain rfl : text' = text := by have := h1.symm.trans (ht _); injection this with this; exact this.symm
  refine ⟨fun fuel hf => ⟨stepsAst l, ?_, rfl, rfl⟩, text', out, fun fuel deref hf => ?_, h2, h3, fun Os base a ha => ?_⟩
  · unfold Facade.bundleAst; rw [h fuel hf]
  · unfold Facade.bundleFile
    rw [h fuel hf]
    dsimp only
    cases deref with
    | false => exact congrArg some (ht _)
    | true =>
      rw [if_pos rfl, hself]
      exact congrArg some (ht _)
  · exact sameOutcome_of_like E (by rw [ha]; exact h3) (fun c hc => (hp' c (by rw [ha] at hc; exact hc)).propsDistinct) Os base

/-- **C57** From a text through the build and the storage back to a text: a file without FROM and without backslashes, built on a facade
with any past, no two steps of which have the same identifier and whose commands (names replaced) can be written down. The facade then
gives out a file for the result; that file parses, has the same commands (names replaced) in the same order, and building it gives the very
bundle, with the same identifier. -/
theorem C57_exported_file (E : Env) (U : Uni) (hU : ∀ s, U.lower (U.lower s) = U.lower s) (hw : ∀ s, E.validSaid s = true → IsWord U s)
    (S : Serde) (hv : E.validSaid [] = false) (f f1 f2 : Facade) (hf : Facade.Runs E S f) (Os : Nat → Order) (O : SetOrder) (s : Str)
    (hs : '\\' ∉ s) (ast : OCAAst) (hp : parseText E U s = .ok ast) (hnb : ast.NoBase) (b : Build)
    (h1 : f.validateText E U S Os s = .ok (f1, b)) (hc : ∀ st ∈ b.steps, st.command.Keepable E)
    (h2 : (f1.build E S O b : Res (List VErr) _) = .ok f2) (hd : (b.steps.map (·.result.said)).Nodup)
    (hr : ∀ st ∈ b.steps, CanReprint st.command)
    (last : BuildStep) (hlast : b.steps.getLast? = some last) (x : Said) (hx : last.result.said = some x) :
    ∃ text out, (∀ fuel deref, b.steps.length ≤ fuel → f2.bundleFile E S fuel x deref = some (.ok text)) ∧
      parseText E U text = .ok out ∧ All2 Like (b.steps.map (·.command)) out.commands ∧
      ∃ b', fromAst E Os none out = .ok b' ∧ b'.bundle = b.bundle := by
  rcases C56_text_is_lines E U S Os f s with ⟨hg, -, -⟩ | ⟨ls, hls, hpl, hvl, -⟩
  · rw [hp] at hg; cases hg
  rw [hpl] at hp
  rw [hvl] at h1
  have hft : ∀ c ∈ ast.commands, FromText E U false c := by
    intro c hc
    have := C52_commands_of_text E U s ast (hpl ▸ hp) c hc
    rwa [show hasBackslash s = false by simpa [hasBackslash] using hs] at this
  obtain ⟨l, a1, a2, a3⟩ := C30_history_of_file E S hv f f1 f2 hf Os O ls ast hp hnb b h1 hc h2 hd last hlast x hx
  obtain ⟨ast0, base, ast', cs, e1, e2, e3, e4, -⟩ := validate_parts h1
  rw [hp] at e1
  cases e1
  rw [checkBase_noBase hnb] at e2
  cases e2
  rw [a2] at e3
  injection e3 with e3
  obtain ⟨_, _, -, -, -, -, hcs, -⟩ := C12_successful_build E Os none _ b e4
  have hcs : b.steps.map (·.command) = l.map (·.command) := by rw [hcs]; exact e3.symm
  have hall := derefCommands_all _ a2
  have hsame : All2 SameNames ast.commands (l.map (·.command)) := by
    have : ∀ {m m' : List Command}, All2 (fun c c' => derefCommand E f.db.findRefn c = .ok c') m m' → (∀ c ∈ m, FromText E U false c) →
        All2 SameNames m m' := by
      intro m m' h hm
      induction h with
      | nil => exact .nil
      | cons h _ ih => exact .cons (derefCommand_text hw h (hm _ (.head _))).2 (ih fun c hc => hm c (.tail _ hc))
    exact this hall hft
  have htext : ∀ st ∈ l, FromText E U false st.command ∧ CanReprint st.command := by
    intro st hst
    have hm := List.mem_map_of_mem (f := (·.command)) hst
    obtain ⟨c, hc', e⟩ := hall.right hm
    refine ⟨(derefCommand_text hw e (hft c hc')).1, ?_⟩
    rw [← hcs] at hm
    obtain ⟨st', hst', e⟩ := List.mem_map.1 hm
    rw [← e]
    exact hr st' hst'
  have hacc : AcceptedSeq (l.map (·.command)) := by
    intro pre c' post e hb
    have hrev := hsame.flip
    rw [e] at hrev
    have split : ∀ {pre : List Command} {post m : List Command} {c : Command}, All2 (fun b a => SameNames a b) (pre ++ c :: post) m →
        ∃ pre' c' post', m = pre' ++ c' :: post' ∧ All2 SameNames pre' pre ∧ SameNames c' c := by
      intro pre
      induction pre with
      | nil =>
        intro post m c h
        cases h with
        | cons h1 h2 => exact ⟨[], _, _, rfl, .nil, h1⟩
      | cons d t ih =>
        intro post m c h
        cases h with
        | cons h1 h2 =>
          obtain ⟨pre', c', post', rfl, e, h3⟩ := ih h2
          exact ⟨_ :: pre', c', post', rfl, .cons h1 e, h3⟩
    obtain ⟨pre', c, post', e', h3, h4⟩ := split hrev
    exact (parseLoop_accepted ls OCAAst.new 0 ast rfl (by intro pre c post he; simp [OCAAst.new] at he) hp).2 pre' c post' e'
      (breaks_same h3 h4 hb)
  obtain ⟨-, text, out, t1, t2, t3, t4⟩ := C57_file_of_history E U S f2 x l a1 (fun st hst => printable_of_text hU (htext st hst).1 (htext st hst).2)
    (fun st hst find => derefCommand_self (htext st hst).2 (htext st hst).1) hacc
  have hlen : l.length = b.steps.length := by have := congrArg List.length hcs; simpa using this.symm
  refine ⟨text, out, fun fuel deref hfu => t1 fuel deref (by omega), t2, hcs ▸ t3, ?_⟩
  exact sameOutcome_ok (t4 Os none { ast with commands := cs } e3.symm) e4

/-! ## Histories the parser refuses -/

theorem tokLoop_broken (E : Env) (U : Uni) : ∀ (cs : List Command) (done : List Command) (xs : List CmdLine) (ast : OCAAst) (n : Nat),
    ast.version = c!"1.0.0" → All2 Like done ast.commands →
    (∃ pre c post, cs = pre ++ c :: post ∧ BreaksRules (done ++ pre) c) →
    All2 (fun c (x : CmdLine) => (x.tok.rule = .add ∨ x.tok.rule = .remove) ∧ Ins.commandOf E U x.tok = .ok c.reread ∧ Like c c.reread) cs xs →
    ∃ e, Ins.tokLoop E U ast n (xs.map CmdLine.tok ++ [.node .eoi [] []]) = .err e := by
  intro cs
  induction cs with
  | nil =>
    rintro done xs ast n hv hd ⟨pre, c, post, e, -⟩ hx
    cases pre <;> cases e
  | cons c cs ih =>
    intro done xs ast n hv hd hb hx
    cases hx with
    | cons h1 h2 =>
      rename_i x xs
      obtain ⟨hr, hc, hl⟩ := h1
      generalize hc' : c.reread = c' at hc hl
      have hline : Ins.lineOf E U x.tok = .ok (.instr x.tok.text (.ok c')) := by
        unfold Ins.lineOf
        rcases hr with hr | hr <;> rw [hr] <;> dsimp only <;> rw [hc]
      have heq : astValidate ast c' = astValidate ⟨c!"1.0.0", done, ast.commandsMeta, ast.metaMap⟩ c := by
        unfold astValidate
        rw [if_pos hv, ← validate_like hd hl, if_pos rfl]
      rw [List.map_cons, List.cons_append, Ins.tokLoop, hline]
      dsimp only
      cases hval : astValidate ast c' with
      | panic => rw [heq] at hval; exact absurd hval (C10_validate_exact _ c).2
      | err e => exact ⟨.validation e, by simp only [parseLine, hval]⟩
      | ok u =>
        have hok := (C10_validate_exact ⟨c!"1.0.0", done, ast.commandsMeta, ast.metaMap⟩ c).1.1 (by rw [← heq, hval])
        simp only [parseLine, hval]
        refine ih (done ++ [c]) xs { ast with
          commands := ast.commands ++ [c'],
          commandsMeta := ast.commandsMeta ++ [(ast.commands.length, ⟨n + 1, x.tok.text⟩)] } (n + 1) hv (hd.snoc hl) ?_ h2
        obtain ⟨pre, d, post, e, hbr⟩ := hb
        cases pre with
        | nil => cases e; exact absurd (by simpa using hbr) hok.2
        | cons p pre => cases e; exact ⟨pre, d, post, rfl, by simpa using hbr⟩

/-- **C57** The converse of C49: a printed AST whose commands are printable parses only if no command breaks the rules of the commands
before it; otherwise its own text is refused. -/
theorem C57_printed_refused (E : Env) (U : Uni) (ast : OCAAst) (hp : ∀ c ∈ ast.commands, Printable E U c)
    (hr : ∃ pre c post, ast.commands = pre ++ c :: post ∧ BreaksRules pre c) :
    ∃ text e, (∀ ε, (printAst ast : Res ε Str) = .ok text) ∧ parseText E U text = .err e := by
  obtain ⟨xs, h1, h2, h3⟩ := lines_of ast.commands fun c hc => lined_of_printable (hp c hc)
  obtain ⟨pre, c, post, e, hb⟩ := hr
  obtain ⟨er, ho⟩ := tokLoop_broken E U ast.commands [] xs OCAAst.new 0 rfl .nil ⟨pre, c, post, e, by simpa using hb⟩ h3
  refine ⟨linesText xs, er, h2, ?_⟩
  unfold parseText
  rw [file_parse xs h1]
  exact ho

/-- **C57** So a history in which some command breaks the rules of the commands before it (a base already had the attribute that the
file built on it adds again) has a file, but that file is refused by the parser: a bundle built by the facade, whose OCA file cannot be
built again. -/
theorem C57_file_refused (E : Env) (U : Uni) (S : Serde) (f : Facade) (x : Said) (l : List BuildStep) (h : f.HasHistory E S x l)
    (hp : ∀ st ∈ l, Printable E U st.command) (hr : ¬ AcceptedSeq (l.map (·.command))) :
    ∃ text e, (∀ fuel, l.length ≤ fuel → f.bundleFile E S fuel x false = some (.ok text)) ∧ parseText E U text = .err e := by
  have hr' : ∃ pre c post, (stepsAst l).commands = pre ++ c :: post ∧ BreaksRules pre c := by
    apply Classical.byContradiction
    intro hn
    exact hr fun pre c post e hb => hn ⟨pre, c, post, e, hb⟩
  obtain ⟨text, e, h1, h2⟩ := C57_printed_refused E U (stepsAst l) (by
    intro c hc
    obtain ⟨st, hst, rfl⟩ := List.mem_map.1 hc
    exact hp st hst) hr'
  refine ⟨text, e, fun fuel hf => ?_, h2⟩
  unfold Facade.bundleFile
  rw [h fuel hf]
  exact congrArg some (h1 _)

/-- what becomes of a list of commands that is printed and parsed -/
def printedFate (cs : List Command) : Option Bool :=
  match (printAst ⟨c!"1.0.0", cs, [], FMap.empty⟩ : Res ParseErr Str) with
  | .ok t => match parseText Env.demo Uni.ascii t with
    | .ok _ => some true
    | .err _ => some false
    | .panic => none
  | _ => none

/-- Such a history: the base adds `a`; the file built on it adds `a` once more, which the build accepts. The commands one after
the other build; their text is refused. -/
theorem C57_refused_example :
    (match fromAst Env.demo (fun _ => Order.sorted) none
        ⟨c!"1.0.0", [addAttrs [(c!"a", .val .text)], addAttrs [(c!"a", .val .text), (c!"b", .val .numeric)]], [], FMap.empty⟩ with
      | .ok b => b.steps.length == 2
      | _ => false) = true ∧
    printedFate [addAttrs [(c!"a", .val .text)], addAttrs [(c!"a", .val .text), (c!"b", .val .numeric)]] = some false ∧
    printedFate [addAttrs [(c!"a", .val .text)], addAttrs [(c!"b", .val .numeric)]] = some true := by
  decide +kernel

end OCA
