import Verif.Props.AnyAst
import Verif.Props.ExportText
import Verif.Props.TextExamples
/-!
# C81: the OCA file of a bundle of any origin

`parse_oca_bundle_to_ocafile` (`oca/src/facade/build.rs:87-89`) prints the commands of C81. When the names and texts of the bundle can be written, the file reads back as
these commands, so that what C81 says of building them holds of building the file.
-/
namespace OCA
open Peg Gr

/-! ## Specification -/

/-- What the text of an overlay's command needs: the version 1.1; something to say; names of the grammar; texts that can stand between double quotes; no pair of meta
named `lang`; distinct names of groups of codes. -/
structure Overlay.Writes (E : Env) (o : Overlay) : Prop where
  ver : o.ver = c!"1.1"
  some : (∃ n, n ∈ o.body.attributes) ∨ ∃ l ps k v, o.body = .metaOv l ps ∧ ps.get k = some v
  names : ∀ n ∈ o.body.attributes, IsKey n
  texts : o.body.Quotes E
  noLang : ∀ l ps, o.body = .metaOv l ps → ps.get c!"lang" = none
  codes : o.body.CodesDistinct

/-- … and that of the bundle: attributes, their names and types of the grammar, and no classification. -/
structure Bundle.Writes (E : Env) (U : Uni) (b : Bundle) : Prop where
  some_attr : ∃ n, (b.captureBase.attributes.get n).isSome = true
  attrs : ∀ n t, b.captureBase.attributes.get n = some t → IsKey n ∧ TypeOk E U t
  noClass : b.captureBase.classification = []
  overlays : ∀ o ∈ b.overlays, o.body.kind ∈ exportable → o.Writes E

/-! ## Proofs -/

theorem writes_printable {ε : Type} (E : Env) (U : Uni) (O : Order) (iso : ∀ l s, E.lang1Inv l = some s → IsLang s) (o : Overlay)
    (hk : o.body.kind ∈ exportable) (hu : ¬ o.body.Untellable E) (hw : o.Writes E) (c : Command) (hc : (ovCommand E O o : Res ε _) = .ok (some c)) :
    Printable E U c := by
  by_cases hcond : ∃ cs d, o.body = .conditional cs d
  · obtain ⟨cs, d, e⟩ := hcond
    obtain ⟨hv, hne, hn, hq, -, -⟩ := hw
    obtain ⟨said, cb, ver, body⟩ := o
    dsimp only at *
    subst e hv
    have hne' : ∃ n v, cs.get n = some v := by
      rcases hne with ⟨n, hn⟩ | ⟨l, ps, k, v, e, -⟩
      · obtain ⟨q, hq, rfl⟩ := List.mem_map.1 hn
        exact ⟨q.1, q.2, FMap.get_eq_some_iff.2 hq⟩
      · cases e
    obtain ⟨n, v, hnv⟩ := hne'
    obtain ⟨r, e1, e2, e3⟩ := (condTexts_any (ε := ε) E d (O.iter 1098 [] cs)).2 (by
      intro n x hm
      apply Classical.byContradiction
      intro hno
      exact hu (.inr ⟨cs, d, rfl, n, x, mem_iter.1 hm, hno⟩))
    have hc' : (ovCommand E O ⟨said, cb, c!"1.1", .conditional cs d⟩ : Res ε _) = .ok (some (ovAdd ⟨said, cb, c!"1.1", .conditional cs d⟩ (some r) none)) := by
      show Res.bind (condTexts E d (O.iter 1098 [] cs)) _ = _
      rw [e1]; rfl
    rw [hc'] at hc
    cases hc
    refine .plain .conditional (by simp [PlainKind]) _ ⟨?_, ?_, ?_⟩ _ (.inl rfl)
    · intro e
      have := iter_ne O 1098 cs hnv
      rw [e] at e2
      exact this (List.map_eq_nil_iff.1 e2.symm)
    · intro p hp
      obtain ⟨x, ds, s, h1, h2, h3, h4⟩ := e3 p hp
      have hg := mem_iter.1 h1
      exact ⟨hn _ (List.mem_map.2 ⟨_, FMap.get_eq_some_iff.1 hg, rfl⟩), s, h4, hq _ _ _ _ hg h2 (((expand_iff E ds x).1 s).2 h3)⟩
    · unfold Distinct
      rw [e2]
      exact iter_nodup O 1098 cs
  · refine ovCommand_printable E U O iso o hw.ver ?_ hw.names hw.texts ?_ ?_ c hc
    · refine ⟨?_, ?_, ?_, ?_, hw.noLang, hw.codes, fun c d e => absurd ⟨c, d, e⟩ hcond⟩
      · intro e; rw [e] at hk; simp [exportable] at hk
      · intro e; rw [e] at hk; simp [exportable] at hk
      · revert hk
        generalize o.body.kind = k
        cases k <;> simp [exportable, loadOrder]
      · intro l hl
        cases h : E.lang1Inv l with
        | some s => rfl
        | none => exact absurd (.inl ⟨l, hl, h⟩) hu
    · rcases hw.some with h | ⟨l, ps, k, v, e, -⟩
      · exact .inl h
      · exact .inr ⟨l, ps, e⟩
    · intro l ps e h
      rcases hw.some with ⟨n, hn⟩ | ⟨l', ps', k, v, e', hv⟩
      · rw [e] at hn; cases hn
      · rw [e] at e'; cases e'
        rw [h] at hv; cases hv

/-- **C81** The OCA file of a bundle of any origin whose names and texts can be written: it is the text of the commands, it reads back as the same commands, and building it, on any base,
does what building the commands does (for which see `C81_outcome`, `C81_facts`, …). -/
theorem C81_file (E : Env) (U : Uni) (iso : ∀ l s, E.lang1Inv l = some s → IsLang s) (O : Order) (b : Bundle) (ast : OCAAst)
    (h : (b.toAst E O : Res (List Str) _) = .ok ast) (hw : b.Writes E U) :
    ∃ text out, b.toFile E O = .ok text ∧ parseText E U text = .ok out ∧ All2 Like ast.commands out.commands ∧
      ∀ Os fromOca, SameOutcome (fromAst E Os fromOca ast) (fromAst E Os fromOca out) := by
  obtain ⟨cs, hcs, he⟩ := Res.bind_eq_ok.1 (show Res.bind _ _ = _ from h)
  have hu : ∀ o ∈ b.overlays, ¬ o.body.Untellable E := by
    intro o ho hu
    rw [(C81_aborts_iff E O b).1.2 ⟨o, ho, hu⟩] at h; cases h
  cases he
  have hov : ∀ c ∈ cs, Printable E U c ∧ ∃ t cc, c = ⟨.add, .overlay t cc⟩ := by
    intro c hc
    obtain ⟨o, ho, hoc⟩ := mem_ovCommands E O _ cs hcs c hc
    refine ⟨?_, ovCommand_isOverlay E O o c hoc⟩
    by_cases hk : o.body.kind ∈ exportable
    · exact writes_printable E U O iso o hk (hu o ho) (hw.overlays o ho hk) c hoc
    · rw [((ovCommand_any E O o).2 (hu o ho)).2 hk] at hoc; cases hoc
  have hbase : Printable E U (baseCommand O b.captureBase) := by
    obtain ⟨n, hn⟩ := hw.some_attr
    obtain ⟨t, ht⟩ := Option.isSome_iff_exists.1 hn
    unfold baseCommand
    rw [hw.noClass]
    refine .attributes _ (iter_ne O 954 _ ht) ?_ (iter_nodup O 954 _)
    intro p hp
    exact hw.attrs _ _ (mem_iter_get O _ _ hp)
  have hp : ∀ c ∈ baseCommand O b.captureBase :: cs, Printable E U c := by
    intro c hc
    rcases List.mem_cons.1 hc with rfl | hc
    · exact hbase
    · exact (hov c hc).1
  obtain ⟨text, out, h1, h2, h3⟩ := C49_print_parse E U { OCAAst.new with commands := baseCommand O b.captureBase :: cs } hp (by
    intro pre c post e
    cases pre with
    | nil =>
      rintro (⟨x, -, h⟩ | ⟨x, h, -⟩ | ⟨x, h, -⟩)
      · obtain ⟨pre, c, post, e, -⟩ := h; simp at e
      · injection e with e1 e2; subst e1; exact not_removes_add h
      · injection e with e1 e2; subst e1; obtain ⟨e, -⟩ := h; cases e
    | cons d pre =>
      injection e with e1 e2
      obtain ⟨t, cc, rfl⟩ := (hov c (by rw [e2]; simp)).2
      rintro (⟨x, h, -⟩ | ⟨x, h, -⟩ | ⟨x, h, -⟩)
      · obtain ⟨t, hA⟩ := addsAttr_iff.1 h; exact not_adds_overlay hA
      · exact not_removes_add h
      · obtain ⟨e, -⟩ := h; cases e)
  refine ⟨text, out, ?_, h2, h3, fun Os fromOca => sameOutcome_of_like E h3 (fun c hc => (hp c hc).propsDistinct) Os fromOca⟩
  show Res.bind (b.toAst E O) _ = _
  rw [h]
  exact printAst_ok_any h1 _

/-! ## A concrete case -/

theorem foreign_overlay {bs : List OvBody} {o : Overlay} (h : o ∈ (foreign bs).overlays) : ∃ x ∈ bs, o.body = x ∧ o.ver = c!"1.1" := by
  unfold foreign at h
  dsimp only [Bundle.fillSaid] at h
  obtain ⟨x, hx, rfl⟩ := List.mem_map.1 h
  exact ⟨x, hx, rfl, rfl⟩

set_option maxRecDepth 20000 in
/-- the bundle of `C79_example` meets the hypotheses -/
theorem foreign_writes : (foreign foreignBodies).Writes Env.words Uni.ascii := by
  refine ⟨⟨c!"a", by decide +kernel⟩, ?_, by decide +kernel, ?_⟩
  · refine forall_get ?_
    have hl : (foreign foreignBodies).captureBase.attributes.l = [(c!"a", .val .text), (c!"b", .val .text), (c!"c", .val .text)] := by decide +kernel
    rw [hl]
    intro p hp
    simp only [List.mem_cons, List.not_mem_nil, or_false] at hp
    rcases hp with rfl | rfl | rfl <;> exact ⟨isKey_of (by decide), trivial⟩
  · intro o ho hk
    obtain ⟨x, hx', hb, hv⟩ := foreign_overlay ho
    simp only [foreignBodies, List.mem_cons, List.not_mem_nil, or_false] at hx'
    refine ⟨hv, ?_, ?_, ?_, ?_, ?_⟩ <;> rw [hb] <;> rw [hb] at hk
    · rcases hx' with rfl | rfl | rfl | rfl | rfl
      · exact .inl ⟨c!"a", by decide +kernel⟩
      · exact .inl ⟨c!"a", by decide +kernel⟩
      · exact .inl ⟨c!"c", by decide +kernel⟩
      · exact .inl ⟨c!"a", by decide +kernel⟩
      · exact absurd hk (by decide)
    · have : ∀ n ∈ x.attributes, n = c!"a" ∨ n = c!"b" ∨ n = c!"c" := by
        rcases hx' with rfl | rfl | rfl | rfl | rfl <;> decide +kernel
      intro n hn
      rcases this n hn with rfl | rfl | rfl <;> exact isKey_of (by decide)
    · rcases hx' with rfl | rfl | rfl | rfl | rfl
      · exact OvBody.quotes_of _ _ (by decide +kernel)
      · exact OvBody.quotes_of _ _ (by decide +kernel)
      · intro n y ds s h1 h2 h3
        have h1' := FMap.get_eq_some_iff.1 h1
        have hl : (FMap.ofList [(c!"c", c!"${1} ~= ${0}")]).l = [(c!"c", c!"${1} ~= ${0}")] := by decide +kernel
        rw [hl] at h1'
        cases List.mem_singleton.1 h1'
        have h2' : (FMap.ofList [(c!"c", [c!"a", c!"b"])]).get c!"c" = some [c!"a", c!"b"] := by decide +kernel
        rw [h2'] at h2
        cases h2
        have key : (match (expandCondition Env.words c!"${1} ~= ${0}" [c!"a", c!"b"] : Res Unit Str) with
          | .ok s => Quotable s
          | _ => true) = true := by decide +kernel
        rw [h3] at key
        exact key
      · exact OvBody.quotes_of _ _ (by decide +kernel)
      · exact absurd hk (by decide)
    · rintro l ps e
      rcases hx' with rfl | rfl | rfl | rfl | rfl <;> cases e
    · rintro m e
      rcases hx' with rfl | rfl | rfl | rfl | rfl <;> cases e

/-- the file of a bundle, and the overlays of the bundle built from it -/
def filed (b : Bundle) : Option (Str × Option (List OvBody)) :=
  match b.toFile Env.words Order.sorted with
  | .ok text => match parseText Env.words Uni.ascii text with
    | .ok out => match fromAst Env.words (fun _ => Order.sorted) none out with
      | .ok d => some (text, some (d.bundle.overlays.map (·.body)))
      | _ => some (text, none)
    | _ => none
  | _ => none

set_option maxRecDepth 20000 in
/-- **C81** Its file, and what building the file gives: what building its commands gives (`C81_example`). -/
theorem C81_file_example : filed (foreign foreignBodies) = some (c!"ADD ATTRIBUTE a=Text b=Text c=Text\nADD UNIT ATTRS a=\"m\" b=\"m\"\nADD UNIT ATTRS a=\"kg\"\nADD CONDITION ATTRS c=\"${b} ~= ${a}\"\nADD LABEL en ATTRS a=\"A\"\n",
    (reborn (foreign foreignBodies)).getD none) := by
  decide +kernel

end OCA
