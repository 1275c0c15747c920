import Verif.Props.ExportText
import Verif.Props.Lineage
import Verif.Props.Format
import Verif.Props.StoreTotal
import Verif.Props.WholeAst
/-!
# C72: the file of a bundle carries it to another repository
-/
namespace OCA
open Peg Gr

/-! ## A history that is reported has no bundle twice -/

theorem Lineage.unique {ss : List BuildStep} {s : Said} {l l' : List BuildStep} (h : Lineage ss s l) : Lineage ss s l' → l = l' := by
  induction h generalizing l' with
  | first h1 h2 =>
    intro g
    cases g with
    | first g1 g2 => rw [h1] at g1; cases g1; rfl
    | next g1 g2 g3 g4 => rw [h1] at g1; cases g1; rw [h2] at g2; cases g2
  | next h1 h2 h3 _ ih =>
    intro g
    cases g with
    | first g1 g2 => rw [h1] at g1; cases g1; rw [h2] at g2; cases g2
    | next g1 g2 g3 g4 => rw [h1] at g1; cases g1; rw [h2] at g2; cases g2; rw [ih g4]

theorem Lineage.last {ss : List BuildStep} {s : Said} {l : List BuildStep} (h : Lineage ss s l) :
    ∃ l0 st, l = l0 ++ [st] ∧ lastStep ss s = some st ∧ st.result.said = some s := by
  cases h with
  | first h1 h2 => exact ⟨[], _, rfl, h1, (lastStep_some h1).2⟩
  | next h1 h2 h3 h4 => exact ⟨_, _, rfl, h1, (lastStep_some h1).2⟩

/-- every step of the way back is the end of a way back, as long as its place says -/
theorem Lineage.sub {ss : List BuildStep} {s : Said} {l : List BuildStep} (h : Lineage ss s l) :
    ∀ st ∈ l, ∃ x l', st.result.said = some x ∧ Lineage ss x l' ∧ l'.length ≤ l.length ∧ (x = s ∨ l'.length < l.length) := by
  induction h with
  | @first s st h1 h2 =>
    intro st' hst'
    have e := List.mem_singleton.1 hst'
    rw [e]
    exact ⟨s, _, (lastStep_some h1).2, .first h1 h2, Nat.le_refl _, .inl rfl⟩
  | @next s p st l h1 h2 h3 h4 ih =>
    intro st' hst'
    rcases List.mem_append.1 hst' with h | h
    · obtain ⟨x, l', a1, a2, a3, -⟩ := ih st' h
      exact ⟨x, l', a1, a2, by simp; omega, .inr (by simp; omega)⟩
    · have e := List.mem_singleton.1 h
      rw [e]
      exact ⟨s, _, (lastStep_some h1).2, .next h1 h2 h3 h4, Nat.le_refl _, .inl rfl⟩

theorem Lineage.nodup {ss : List BuildStep} {s : Said} {l : List BuildStep} (h : Lineage ss s l) : (l.map (·.result.said)).Nodup := by
  induction h with
  | first h1 h2 => exact List.nodup_cons.2 ⟨by simp, .nil⟩
  | @next s p st l h1 h2 h3 h4 ih =>
    rw [List.map_append, List.nodup_append]
    refine ⟨ih, List.nodup_cons.2 ⟨by simp, .nil⟩, ?_⟩
    intro a ha b hb e
    rw [List.map_singleton, List.mem_singleton, (lastStep_some h1).2] at hb
    obtain ⟨st', hst', rfl⟩ := List.mem_map.1 ha
    obtain ⟨x, l', a1, a2, a3, -⟩ := h4.sub st' hst'
    rw [a1, hb] at e
    cases e
    have := (Lineage.next h1 h2 h3 h4).unique a2
    have := congrArg List.length this
    rw [List.length_append] at this
    simp only [List.length_singleton] at this
    omega

/-! ## The commands as they are read back can be stored -/

theorem depth_le_of_mem {l : List (Str × Json)} {p : Str × Json} (h : p ∈ l) : p.2.depth ≤ Json.depthObj l := by
  induction h with
  | head => exact Nat.le_max_left _ _
  | tail _ _ ih => exact Nat.le_trans ih (Nat.le_max_right _ _)

theorem mem_toJsonObj {l : List (Str × NVal)} {q : Str × Json} : q ∈ NVal.toJsonObj l ↔ ∃ p ∈ l, q = (p.1, p.2.toJson) := by
  induction l with
  | nil => simp [NVal.toJsonObj]
  | cons p t ih =>
    obtain ⟨k, v⟩ := p
    simp only [NVal.toJsonObj, List.mem_cons, ih, exists_eq_or_imp]

theorem depth_vals_le {l l' : List (Str × NVal)} (h : ∀ p ∈ l', p ∈ l) : Json.depthObj (NVal.toJsonObj l') ≤ Json.depthObj (NVal.toJsonObj l) := by
  refine Json.depthObj_le fun q hq => ?_
  obtain ⟨p, hp, rfl⟩ := mem_toJsonObj.1 hq
  exact depth_le_of_mem (p := (p.1, p.2.toJson)) (mem_toJsonObj.2 ⟨p, h p hp, rfl⟩)

theorem overlay_depth (k : CmdType) (t : OverlayType) (cc : Content) (n : Nat) :
    (⟨k, .overlay t cc⟩ : Command).toJson.depth < n + 4 ↔
      (∀ l, cc.attributes = some l → Json.depthObj (NVal.toJsonObj l) ≤ n) ∧ ∀ l, cc.properties = some l → Json.depthObj (NVal.toJsonObj l) ≤ n := by
  obtain ⟨as, ps⟩ := cc
  cases as <;> cases ps <;>
    simp [Command.toJson, ObjKind.toFields, Content.toJson, optField, Json.depth, Json.depthObj] <;> omega

theorem Command.Keepable.reread {E : Env} {U : Uni} {c : Command} (h : c.Keepable E) (hp : Printable E U c) : c.reread.Keepable E := by
  have hl := like_reread hp
  obtain ⟨k, o⟩ := c
  cases o with
  | captureBase cc => exact h
  | ocaBundle r => exact h
  | overlay t cc =>
    obtain ⟨h1, h2, h3, h4⟩ := h
    obtain ⟨as, ps⟩ := cc
    have hmem : ∀ p ∈ (if t.kind = .metaOv then langFirst (ps.getD []) else ps.getD []), p ∈ ps.getD [] := fun p hp => hl.2.2.2.mem_iff.2 hp
    have hperm : (ps.getD []).Perm (if t.kind = .metaOv then langFirst (ps.getD []) else ps.getD []) := hl.2.2.2
    show (⟨k, .overlay t ⟨some (as.getD []), some (if t.kind = .metaOv then langFirst (ps.getD []) else ps.getD [])⟩⟩ : Command).Keepable E
    generalize (if t.kind = .metaOv then langFirst (ps.getD []) else ps.getD []) = qs at hmem hperm
    refine ⟨⟨?_, ?_, ?_⟩, ?_, ?_, ?_⟩
    · intro cc l e; cases e
    · intro t' cc l e hk e2
      cases e
      cases e2
      intro p hq
      cases ps with
      | none => cases hmem p hq
      | some ps => exact h1.props _ _ _ rfl hk rfl p (hmem p hq)
    · intro t' cc l e hk e2
      cases e
      cases e2
      cases as with
      | none => intro n gs h; cases h
      | some as => exact h1.groups _ _ _ rfl hk rfl
    · obtain ⟨f1, f2, f3, f4⟩ := h2
      refine ⟨f1, f2, ?_, ?_⟩
      · rintro l ⟨⟩
        cases as with
        | none => exact ⟨.nil, trivial⟩
        | some as => exact f3 _ rfl
      · rintro l ⟨⟩
        cases ps with
        | none =>
          have : qs = [] := List.Perm.eq_nil hperm.symm
          rw [this]
          exact ⟨.nil, trivial⟩
        | some ps =>
          obtain ⟨g1, g2⟩ := f4 _ rfl
          exact ⟨(hperm.map _).nodup_iff.1 g1, faithfulObj_iff.2 fun p hp => faithfulObj_iff.1 g2 p (hmem p hp)⟩
    · rw [show (128 : Nat) = 124 + 4 from rfl, overlay_depth] at h3 ⊢
      constructor
      · rintro l ⟨⟩
        cases as with
        | none => exact Nat.zero_le _
        | some as => exact h3.1 _ rfl
      · rintro l ⟨⟩
        cases ps with
        | none =>
          have : qs = [] := List.Perm.eq_nil hperm.symm
          rw [this]
          exact Nat.zero_le _
        | some ps => exact Nat.le_trans (depth_vals_le hmem) (h3.2 _ rfl)
    · intro cc l e; cases e

/-- Nothing in a printable command is a name to be looked up. -/
theorem derefCommand_printable {E : Env} {U : Uni} {find : Str → Res VErr (Option Str)} {c : Command} (h : Printable E U c) :
    derefCommand E find c = .ok c := by
  cases h with
  | attributes l hn h hd =>
    have : ∀ l : List (Str × NAttr), (∀ p ∈ l, AttrOk E U p) → derefAttrs E find l = .ok l := by
      intro l hl
      induction l with
      | nil => rfl
      | cons p t ih =>
        have h1 : derefAttr E find p.2 = .ok p.2 := by
          have := (hl p (.head _)).2
          unfold derefAttr
          split
          · next n e => rw [e] at this; exact this.elim
          · next n e => rw [e] at this; exact this.elim
          · rfl
        show Res.bind (derefAttr E find p.2) _ = _
        rw [h1]
        show Res.bind (derefAttrs E find t) _ = _
        rw [ih fun q hq => hl q (.tail _ hq)]
        rfl
    show Res.bind (derefAttrs E find l) _ = _
    rw [this l h]
    rfl
  | plain k hk as h ps hp => rcases hk with rfl | rfl | rfl | rfl | rfl | rfl <;> rfl
  | withLang k hk as h lg hl => rcases hk with rfl | rfl <;> rfl
  | _ => rfl

/-! ## Two builds whose commands do the same -/

/-- what a step shows of the bundles: what it started from, the identifier it led to, and the JSON of that (specification) -/
def BuildStep.bundles (E : Env) (st : BuildStep) : Option Said × Option Said × Json := (st.parentSaid, st.result.said, st.result.toJson E)

theorem stepsFrom_same (E : Env) (Os : Nat → Order) {cs cs' : List Command} (h : All2 (fun c c' => ∀ b, applyCommand E b c = applyCommand E b c') cs cs') :
    ∀ i p b, (stepsFrom E Os i p b cs').map (BuildStep.bundles E) = (stepsFrom E Os i p b cs).map (BuildStep.bundles E) := by
  induction h with
  | nil => intro i p b; rfl
  | cons h1 _ ih =>
    intro i p b
    rw [stepsFrom, stepsFrom, h1 b]
    split
    · next x _ => simp only [List.map_cons, ih]; rfl
    · exact ih _ _ _

theorem shown_bundles {E : Env} {l l' : List BuildStep} (h : l.map (BuildStep.shown E) = l'.map (BuildStep.shown E)) :
    l.map (BuildStep.bundles E) = l'.map (BuildStep.bundles E) := by
  have e : ∀ l : List BuildStep, l.map (BuildStep.bundles E) = (l.map (BuildStep.shown E)).map fun x => (x.1, x.2.2.1, x.2.2.2) := by
    intro l; rw [List.map_map]; rfl
  rw [e, e, h]

theorem Facade.Built.commands_keepable {E : Env} {S : Serde} {f : Facade} {l : List Build} (h : f.Built E S l) :
    ∀ st ∈ stepsOf l, st.command.Keepable E := by
  induction h with
  | new => intro st hst; cases hst
  | validated _ _ ih => exact ih
  | built _ _ hc _ ih =>
    intro st hst
    obtain ⟨b', hb', hst'⟩ := mem_stepsOf.1 hst
    rcases List.mem_append.1 hb' with hb' | hb'
    · exact ih st (mem_stepsOf.2 ⟨b', hb', hst'⟩)
    · have e := List.mem_singleton.1 hb'
      rw [e] at hst'
      exact hc st hst'

/-! ## Carrying a bundle over -/

/-- **C72** A bundle that was built on a facade `A` in whatever files, on whatever bases, whose history is reported and can be written down:
the OCA file that `A` gives out for it can be built on any other facade `B`, whatever was done with that before, with any order of the hash maps.
The bundle `B` then has under the identifier is the one `A` has, byte for byte; `B` reports a history with the same commands, the same parents and the
same intermediate bundles; and (unless a META says several things, C71) `B` gives out the very same file. -/
theorem C72_portable (E : Env) (U : Uni) (hU : ∀ s, U.lower (U.lower s) = U.lower s) (hw : ∀ s, E.validSaid s = true → IsWord U s)
    (S : Serde) (hv : E.validSaid [] = false) (hE : E.ShortSaids) (A : Facade) (bs : List Build) (hA : A.TextBuilt E U S bs)
    (hf : SameFrameMeta ((stepsOf bs).map (·.command))) (hn : NoClash E (stepsOf bs)) (fuel : Nat) (s : Said) (l : List BuildStep)
    (hl : A.steps E S fuel s = some (.ok l)) (hr : ∀ st ∈ l, CanReprint st.command) (hacc : AcceptedSeq (l.map (·.command))) (deref : Bool)
    (B : Facade) (hB : B.AnyRuns E S) (Os : Nat → Order) (O : SetOrder) :
    ∃ (text : Str) (B1 B2 : Facade) (b : Build), A.bundleFile E S fuel s deref = some (.ok text) ∧
      B.validateText E U S Os text = .ok (B1, b) ∧ (B1.build E S O b : Res (List VErr) _) = .ok B2 ∧ B1 = B ∧ b.bundle.said = some s ∧
      B2.cache.get .bundlesJson s = A.cache.get .bundlesJson s ∧
      ∃ l', B2.HasHistory E S s l' ∧ l'.map (·.command) = l.map (fun st => st.command.reread) ∧ l'.map (BuildStep.bundles E) = l.map (BuildStep.bundles E) ∧
        ((∀ st ∈ l, st.command.Settled) → ∀ fuel' deref', l.length ≤ fuel' → B2.bundleFile E S fuel' s deref' = some (.ok text)) := by
  have hM : ∀ st ∈ stepsOf bs, st.command.FramesAs (frameMetaIn ((stepsOf bs).map (·.command))) :=
    fun st hst => hf.framesAs _ (List.mem_map_of_mem hst)
  obtain ⟨l0, e, hmem, -⟩ := replay_loop hv hA.builds hM hn fuel s [] l hl
  rw [List.append_nil] at e
  subst e
  have htext : ∀ st ∈ l, FromText E U false st.command := by
    intro st hst
    obtain ⟨st', h1, h2⟩ := hmem st hst
    rw [← h2]; exact hA.fromText hw st' h1
  have hkeep : ∀ st ∈ l, st.command.Keepable E := by
    intro st hst
    obtain ⟨st', h1, h2⟩ := hmem st hst
    rw [← h2]; exact hA.builds.commands_keepable st' h1
  have hp : ∀ c ∈ (stepsAst l).commands, Printable E U c := by
    intro c hc
    obtain ⟨st, hst, rfl⟩ := List.mem_map.1 hc
    exact printable_of_text hU (htext st hst) (hr st hst)
  obtain ⟨text, out, ht, hparse, hcs, hlike, hmeta, -⟩ := C49_print_parse_exact E U (stepsAst l) hp hacc
  -- the file of A
  have hfileA : A.bundleFile E S fuel s deref = some (.ok text) := by
    unfold Facade.bundleFile
    rw [hl]
    dsimp only
    cases deref with
    | false => exact congrArg some (ht _)
    | true =>
      rw [if_pos rfl, derefCommands_self fun c hc => derefCommand_printable (hp c hc)]
      exact congrArg some (ht _)
  -- the replay
  obtain ⟨r, a1, a2, a3, a4⟩ := C61_history_replays E S hv A bs hA.builds hf hn fuel s l hl Os (stepsAst l) rfl
  obtain ⟨b, b1, b2⟩ := sameOutcome_ok (sameOutcome_of_like E hlike (fun c hc => (hp c hc).propsDistinct) Os none) a1
  -- what B makes of it
  have hpo : ∀ c ∈ out.commands, Printable E U c := by
    rw [hcs]
    intro c hc
    obtain ⟨d, hd, rfl⟩ := List.mem_map.1 hc
    exact (hp d hd).reread
  have hnb : out.NoBase := by
    intro o ho
    have : (⟨.«from», o⟩ : Command) ∈ out.commands := List.mem_of_mem_head? ho
    cases hpo _ this
  have hval : B.validateText E U S Os text = .ok (B, b) := by
    unfold Facade.validateText
    rw [hparse]
    simp only [Res.mapErr, Res.bind_ok, checkBase_noBase hnb]
    have : buildWithRefs E Os B.db none out = .ok (B.db, b) := by
      unfold buildWithRefs
      rw [derefCommands_self fun c hc => derefCommand_printable (hpo c hc)]
      simp only [Res.mapErr, Res.bind_ok]
      rw [show ({ out with commands := out.commands } : OCAAst) = out from rfl, b1, hmeta]
      rfl
    rw [this]
    rfl
  obtain ⟨B2, hB2⟩ : ∃ B2, (B.build E S O b : Res (List VErr) _) = .ok B2 := by
    rcases C56_text_is_lines E U S Os B text with ⟨-, e, -⟩ | ⟨ls, -, -, e, -⟩
    · rw [hval] at e; cases e
    · rw [hval] at e
      obtain ⟨B2, h2, -⟩ := C60_validated_is_stored E hE S O B B hB Os ls b e.symm
      exact ⟨B2, h2⟩
  -- the steps of the two builds
  obtain ⟨base, box, p1, -, -, -, -, p6⟩ := fromAst_steps a1
  obtain ⟨base', box', q1, -, -, -, -, q6⟩ := fromAst_steps b1
  rw [p1] at q1
  cases q1
  have hsteps : b.steps.map (BuildStep.bundles E) = l.map (BuildStep.bundles E) := by
    rw [← shown_bundles a2, p6, q6, hcs]
    refine stepsFrom_same E Os (all2_map_right fun c hc bb => ?_) _ _ _
    exact applyCommand_like E bb (like_reread (hp c hc)) (hp c hc).propsDistinct
  obtain ⟨_, _, -, -, -, -, hbc, -⟩ := C12_successful_build E Os none out b b1
  have hread : ∀ st ∈ b.steps, st.Readable E := by
    refine readable_of (fromAst_keep b1 (fun x h => by cases h) ?_).1
    rw [hcs]
    intro c hc
    obtain ⟨d, hd, rfl⟩ := List.mem_map.1 hc
    obtain ⟨st, hst, rfl⟩ := List.mem_map.1 hd
    exact (hkeep st hst).reread (hp _ hd)
  -- no bundle twice
  obtain ⟨lin, hlin, hsh⟩ := (C70_reported E S hv A bs hA.builds s).1 fuel l hl
  have hsaid : ∀ {x y : List BuildStep}, x.map (BuildStep.bundles E) = y.map (BuildStep.bundles E) → x.map (·.result.said) = y.map (·.result.said) := by
    intro x y h
    have e : ∀ l : List BuildStep, l.map (·.result.said) = (l.map (BuildStep.bundles E)).map fun x => x.2.1 := by
      intro l; rw [List.map_map]; rfl
    rw [e, e, h]
  have hd : (b.steps.map (·.result.said)).Nodup := by
    rw [hsaid hsteps, hsaid (shown_bundles hsh)]
    exact hlin.nodup
  -- the last one
  obtain ⟨lin0, st, e0, hst, hsts⟩ := hlin.last
  have hbl : b.steps.map (BuildStep.bundles E) = lin0.map (BuildStep.bundles E) ++ [st.bundles E] := by
    rw [hsteps, shown_bundles hsh, e0]; simp
  obtain ⟨last, hlast, hlb⟩ : ∃ last, b.steps.getLast? = some last ∧ last.bundles E = st.bundles E := by
    have := congrArg List.getLast? hbl
    rw [List.getLast?_map] at this
    simp only [List.getLast?_append, List.getLast?_singleton, Option.some_or] at this
    cases h : b.steps.getLast? with
    | none => rw [h] at this; cases this
    | some x => rw [h] at this; exact ⟨x, rfl, by injection this⟩
  have hlasts : last.result.said = some s := by
    have : last.result.said = st.result.said := congrArg (fun x => x.2.1) hlb
    rw [this]; exact hsts
  obtain ⟨l', c1, c2, c3⟩ := C30_history_of_build E S hv Os O none out b b1 B B2 hB2 hread hd [] (.inl ⟨rfl, rfl⟩) last hlast s hlasts
  rw [List.nil_append] at c1
  have hcache : B2.cache.get .bundlesJson s = A.cache.get .bundlesJson s := by
    obtain ⟨s', hh⟩ := (build_records hB2).2 hd last (List.mem_of_getLast? hlast)
    have es : s' = s := by have := hh.said; rw [hlasts] at this; injection this with this; exact this.symm
    subst es
    rw [hh.bundle, ((hA.builds.keepsLast s').2 st hst).bundle, show last.result.toJson E = st.result.toJson E from congrArg (fun x => x.2.2) hlb]
  have hl'c : l'.map (·.command) = l.map fun st => st.command.reread := by
    rw [c2, hcs]
    show (l.map (·.command)).map Command.reread = _
    rw [List.map_map]; rfl
  refine ⟨text, B, B2, b, hfileA, hval, hB2, rfl, by rw [b2]; exact a3, hcache, l', c1, hl'c, (shown_bundles c3).trans hsteps, ?_⟩
  intro hset fuel' deref' hfuel
  have hlen : l'.length ≤ fuel' := by
    have := congrArg List.length hl'c
    simp only [List.length_map] at this
    omega
  have hprint : ∀ ε, (printAst (stepsAst l') : Res ε Str) = .ok text := by
    intro ε
    rw [← ht ε]
    show (Pr.commands (l'.map (·.command)) : Res ε Str) = Pr.commands (l.map (·.command))
    rw [hl'c, show (l.map fun st => st.command.reread) = (l.map (·.command)).map Command.reread by rw [List.map_map]; rfl]
    refine commands_congr (all2_map_right fun c hc => print_reread (hp c hc) ?_ ε)
    obtain ⟨st, hst, rfl⟩ := List.mem_map.1 hc
    exact hset st hst
  unfold Facade.bundleFile
  rw [c1 fuel' hlen]
  dsimp only
  cases deref' with
  | false => exact congrArg some (hprint _)
  | true =>
    rw [if_pos rfl, derefCommands_self fun c hc => derefCommand_printable (hpo c (by rw [← c2]; exact hc))]
    exact congrArg some (hprint _)

end OCA
