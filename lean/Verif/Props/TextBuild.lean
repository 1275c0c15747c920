import Verif.Props.PrintParse
import Verif.Props.ToAstFull
/-!
# Building from printed text (C50, C51)
-/
namespace OCA
open Peg Gr

/-! ## Commands that differ in the order of their properties -/

theorem foldRes_perm {ε α β : Type} (f : β → α → Res ε β) {l l' : List α} (hp : l.Perm l')
    (hc : l.Pairwise fun x y => ∀ b, (f b x).bind (f · y) = (f b y).bind (f · x)) :
    ∀ b, foldRes f b l = foldRes f b l' := by
  induction hp with
  | nil => intro b; rfl
  | cons a _ ih =>
    intro b
    simp only [foldRes]
    cases f b a with
    | ok b' => exact ih (List.pairwise_cons.1 hc).2 b'
    | err e => rfl
    | panic => rfl
  | swap x y t =>
    intro b
    have h := (List.pairwise_cons.1 hc).1 x (.head _) b
    simp only [foldRes]
    have assoc : ∀ (u v : α), (do let b1 ← f b u; let b2 ← f b1 v; foldRes f b2 t) = ((f b u).bind (f · v)).bind fun b => foldRes f b t := by
      intro u v
      cases f b u <;> rfl
    rw [assoc y x, assoc x y, h]
  | trans p1 _ ih1 ih2 =>
    intro b
    rw [ih1 hc, ih2]
    exact (p1.pairwise_iff fun {x y} h b => (h b).symm).1 hc

theorem addMeta_comm (b : OCABox) (l : Lang) (k k' v v' : Str) (h : k ≠ k') :
    (b.addMeta l k v).addMeta l k' v' = (b.addMeta l k' v').addMeta l k v := by
  simp only [OCABox.addMeta, Option.getD_some, FMap.get_insert, if_true, FMap.insert_insert]
  congr 3
  ext x : 1
  simp only [FMap.get_insert]
  by_cases h1 : x = k
  · rw [if_pos h1, if_pos h1, if_neg (fun h2 => h (h1.symm.trans h2))]
  · rw [if_neg h1, if_neg h1]

theorem metaStep_comm {ε : Type} (lang : Option Lang) (p q : Str × NVal) (h : p.1 ≠ q.1) (b : OCABox) :
    (metaStep lang b p : Res ε OCABox).bind (metaStep lang · q) = (metaStep lang b q).bind (metaStep lang · p) := by
  obtain ⟨k, v⟩ := p
  obtain ⟨k', v'⟩ := q
  cases v <;> cases v' <;> cases lang <;> simp [metaStep, Res.unwrap, Res.bind]
  exact addMeta_comm _ _ _ _ _ _ h

/-- the names of the properties of an overlay command are distinct -/
def PropsDistinct (c : Command) : Prop := ∀ t cc, c.obj = .overlay t cc → ((cc.properties.getD []).map (·.1)).Nodup

theorem bind_imGet (ps : Option (List (Str × NVal))) (k : Str) : ps.bind (imGet k) = FMap.lget k (ps.getD []) := by
  cases ps with
  | none => rfl
  | some l => rfl

theorem textProps_nodup {l : List (Str × NVal)} (h : (l.map (·.1)).Nodup) :
    ((l.filterMap fun p => match p.2 with
      | .val s => some (p.1, s)
      | _ => none).map (·.1)).Nodup := by
  induction l with
  | nil => exact .nil
  | cons p t ih =>
    obtain ⟨k, v⟩ := p
    rw [List.map_cons, List.nodup_cons] at h
    have ht := ih h.2
    cases v with
    | val s =>
      show ((k, s) :: _ |>.map (·.1)).Nodup
      rw [List.map_cons, List.nodup_cons]
      refine ⟨fun hm => h.1 ?_, ht⟩
      obtain ⟨q, hq, e⟩ := List.mem_map.1 hm
      obtain ⟨r, hr, er⟩ := List.mem_filterMap.1 hq
      refine List.mem_map.2 ⟨r, hr, ?_⟩
      cases hv : r.2 with
      | val s' => rw [hv] at er; cases er; exact e
      | ref _ => rw [hv] at er; cases er
      | obj _ => rw [hv] at er; cases er
      | arr _ => rw [hv] at er; cases er
    | ref _ => exact ht
    | obj _ => exact ht
    | arr _ => exact ht

theorem lastVal_perm_nodup {V : Type} {l l' : List (Str × V)} (hp : l.Perm l') (hn : (l.map (·.1)).Nodup) (k : Str) :
    FMap.lastVal l k = FMap.lastVal l' k := by
  apply Option.ext
  intro v
  rw [FMap.lastVal_of_nodup hn, FMap.lastVal_of_nodup ((hp.map _).nodup_iff.1 hn), hp.mem_iff]

theorem ofList_perm_nodup {V : Type} {l l' : List (Str × V)} (hp : l.Perm l') (hn : (l.map (·.1)).Nodup) :
    FMap.ofList l = FMap.ofList l' := by
  ext k : 1
  unfold FMap.ofList
  rw [FMap.get_insertAll, FMap.get_insertAll, lastVal_perm_nodup hp hn]

theorem content_like {E : Env} {a b : Content} (hp : (a.properties.getD []).Perm (b.properties.getD []))
    (hn : ((a.properties.getD []).map (·.1)).Nodup) :
    a.lang E = b.lang E ∧ a.target = b.target ∧ a.frameId = b.frameId ∧ a.frameMeta = b.frameMeta := by
  have h1 : ∀ k, a.properties.bind (imGet k) = b.properties.bind (imGet k) := by
    intro k
    rw [bind_imGet, bind_imGet, lget_perm hp hn]
  have h2 : a.textProps.Perm b.textProps := hp.filterMap _
  have h3 : (a.textProps.map (·.1)).Nodup := textProps_nodup hn
  refine ⟨by unfold Content.lang; rw [h1], by unfold Content.target; rw [h1], lastVal_perm_nodup h2 h3 _, ?_⟩
  refine ofList_perm_nodup ((h2.filter _).map _) ?_
  have h4 : ((a.textProps.filter fun p => decide (p.1 ≠ c!"id")).map (·.1)).Nodup := by
    have : ((a.textProps.filter fun p => decide (p.1 ≠ c!"id")).map (·.1)).Sublist (a.textProps.map (·.1)) :=
      List.Sublist.map _ List.filter_sublist
    exact this.nodup h3
  rw [List.map_map]
  unfold List.Nodup at h4 ⊢
  rw [List.pairwise_map] at h4 ⊢
  exact h4.imp fun h e => h (List.append_cancel_left e)

theorem applyMeta_like (E : Env) (box : OCABox) {a b : Content} (hp : (a.properties.getD []).Perm (b.properties.getD []))
    (hn : ((a.properties.getD []).map (·.1)).Nodup) : (applyMeta E box a : Res (List Str) _) = applyMeta E box b := by
  have e : ∀ c : Content, (applyMeta E box c : Res (List Str) _) =
      foldRes (metaStep (c.lang E)) box (imDrop (fun k => decide (k = c!"lang")) (c.properties.getD [])) := by
    intro c
    unfold applyMeta
    cases c.properties with
    | none => rfl
    | some l => rfl
  rw [e, e, (content_like (E := E) hp hn).1]
  refine foldRes_perm _ (hp.filter _) ?_ box
  have hs : ((imDrop (fun k => decide (k = c!"lang")) (a.properties.getD [])).map (·.1)).Nodup :=
    (List.Sublist.map _ List.filter_sublist).nodup hn
  unfold List.Nodup at hs
  rw [List.pairwise_map] at hs
  exact hs.imp fun h b => metaStep_comm _ _ _ h b

/-- Commands that differ only in the order of their properties have the same effect. -/
theorem applyCommand_like (E : Env) (base : Option OCABox) {c c' : Command} (h : Like c c') (hn : PropsDistinct c) :
    applyCommand E base c = applyCommand E base c' := by
  obtain ⟨k, o⟩ := c
  obtain ⟨k', o'⟩ := c'
  obtain ⟨hk, ho⟩ := h
  dsimp only at hk ho
  subst hk
  cases o with
  | captureBase x => simp only at ho; subst ho; rfl
  | ocaBundle x => simp only at ho; subst ho; rfl
  | overlay t x =>
    cases o' with
    | captureBase _ => simp at ho
    | ocaBundle _ => simp at ho
    | overlay t' y =>
      obtain ⟨rfl, ha, hp⟩ := ho
      have hnx := hn t x rfl
      cases k with
      | add =>
        obtain ⟨h1, h2, h3, h4⟩ := content_like (E := E) hp hnx
        have hset : ∀ k, ovSetter E k x = ovSetter E k y := by
          intro k
          cases k <;> simp only [ovSetter, h1, h2, h3, h4]
        show applyOverlay E _ t.kind x = applyOverlay E _ t.kind y
        unfold applyOverlay
        simp only [applyMeta_like E _ hp hnx, ha, hset]
      | _ => rfl

theorem outcome_like (E : Env) {cs cs' : List Command} (h : All2 Like cs cs') (hn : ∀ c ∈ cs, PropsDistinct c) :
    ∀ b, results E b cs = results E b cs' ∧ finalState E b cs = finalState E b cs' := by
  induction h with
  | nil => intro b; exact ⟨rfl, rfl⟩
  | cons hx _ ih =>
    intro b
    have h1 := applyCommand_like E b hx (hn _ (.head _))
    have h2 := ih fun c hc => hn c (.tail _ hc)
    exact ⟨by rw [results, results, h1, (h2 _).1], by rw [finalState, finalState, h1, (h2 _).2]⟩

/-! ## C50 -/

/-- the same outcome of two builds, but for the line numbers and the texts of the lines in error messages -/
def SameOutcome : Res (List BuildErr) Build → Res (List BuildErr) Build → Prop
  | .ok b, .ok b' => b.bundle = b'.bundle ∧ b.steps.length = b'.steps.length
  | .err es, .err es' => es.map (·.message) = es'.map (·.message)
  | .panic, .panic => True
  | _, _ => False

theorem All2.length_eq {α β : Type} {R : α → β → Prop} {l : List α} {l' : List β} (h : All2 R l l') : l.length = l'.length := by
  induction h with
  | nil => rfl
  | cons _ _ ih => simp [ih]

theorem errorsFrom_messages (ast ast' : OCAAst) (shift : Nat) (rs : List (Res (List Str) OCABox)) :
    ∀ i, (errorsFrom ast shift i rs).map (·.message) = (errorsFrom ast' shift i rs).map (·.message) := by
  induction rs with
  | nil => intro i; rfl
  | cons r rs ih =>
    intro i
    cases r <;> simp [errorsFrom, ih, List.map_map, Function.comp_def]

theorem sameOutcome_of_like (E : Env) {ast out : OCAAst} (h : All2 Like ast.commands out.commands)
    (hn : ∀ c ∈ ast.commands, PropsDistinct c) (Os : Nat → Order) (fromOca : Option Bundle) :
    SameOutcome (fromAst E Os fromOca ast) (fromAst E Os fromOca out) := by
  cases hb : (baseOf E fromOca : Res (List BuildErr) _) with
  | err e =>
    have : ∀ a, fromAst E Os fromOca a = .err e := by intro a; unfold fromAst; rw [hb]; rfl
    rw [this, this]
    exact rfl
  | panic =>
    have : ∀ a, fromAst E Os fromOca a = .panic := by intro a; unfold fromAst; rw [hb]; rfl
    rw [this, this]
    exact trivial
  | ok base =>
    obtain ⟨hr, hf⟩ := outcome_like E h hn base
    obtain ⟨a1, a2, a3, a4⟩ := C12_build_outcome E Os fromOca ast base hb
    obtain ⟨b1, b2, b3, b4⟩ := C12_build_outcome E Os fromOca out base hb
    rw [← hr] at b1 b2 b3 b4
    rw [← hf] at b3 b4
    by_cases hp : Res.panic ∈ results E base ast.commands
    · rw [a1 hp, b1 hp]; exact trivial
    by_cases he : ∃ es, Res.err es ∈ results E base ast.commands
    · rw [a2 hp he, b2 hp he]
      exact errorsFrom_messages _ _ _ _ _
    by_cases hz : finalState E base ast.commands = none
    · rw [a3 hp he hz, b3 hp he hz]; exact trivial
    obtain ⟨x, hx⟩ := a4 hp he hz
    obtain ⟨y, hy⟩ := b4 hp he hz
    rw [hx, hy]
    obtain ⟨base1, box1, p1, -, p3, -, p5, -, -, p8, -⟩ := C12_successful_build E Os fromOca ast x hx
    obtain ⟨base2, box2, q1, -, q3, -, q5, -, -, q8, -⟩ := C12_successful_build E Os fromOca out y hy
    rw [hb] at p1 q1
    cases p1
    cases q1
    rw [← hf, p3] at q3
    cases q3
    rw [← h.length_eq, p8] at q8
    have p6 := congrArg List.length p5
    have q6 := congrArg List.length q5
    rw [List.length_map] at p6 q6
    exact ⟨by injection q8, by rw [p6, q6, h.length_eq]⟩

theorem Printable.propsDistinct {E : Env} {U : Uni} {c : Command} (h : Printable E U c) : PropsDistinct c := by
  intro t cc e
  cases h with
  | attributes l hn h hd => cases e
  | classification v h => cases e
  | removeAttributes l h hd => cases e
  | removeClassification => cases e
  | plain k hk as h ps hp => cases e; rcases hp with rfl | rfl <;> simp
  | withLang k hk as h lg hl => cases e; simp
  | metas as ha ps hd lg hl hg h hne => cases e; exact hd
  | entryCodes l hn h hd ps hp => cases e; rcases hp with rfl | rfl <;> simp
  | entries l hn h hd lg hl => cases e; simp
  | link as h s hs hv => cases e; simp
  | framing ms hm hk hdm l hn h hd =>
    cases e
    simpa [Distinct, List.map_map, Function.comp_def] using hdm

/-- **C50** Building the text of an AST has the same outcome as building the AST itself: the same bundle, or the same errors (but for the
line they name), or both abort; on any base. -/
theorem C50_text_builds_like_ast (E : Env) (U : Uni) (ast : OCAAst) (hp : ∀ c ∈ ast.commands, Printable E U c)
    (hr : ∀ pre c post, ast.commands = pre ++ c :: post → ¬ BreaksRules pre c) :
    ∃ text out, (printAst ast : Res ParseErr Str) = .ok text ∧ parseText E U text = .ok out ∧
      ∀ Os fromOca, SameOutcome (fromAst E Os fromOca ast) (fromAst E Os fromOca out) := by
  obtain ⟨text, out, h1, h2, h3⟩ := C49_print_parse E U ast hp hr
  exact ⟨text, out, h1, h2, fun Os fromOca => sameOutcome_of_like E h3 (fun c hc => (hp c hc).propsDistinct) Os fromOca⟩

/-! ## C51: exporting a bundle as an OCA file -/

/-- the texts of an entry code can stand between quotes -/
def EntryCodes.Quotes : EntryCodes → Prop
  | .sai s => Quotable s = true
  | .array l => ∀ v ∈ l, Quotable v = true
  | .object l => ∀ g ∈ l, Quotable g.1 = true ∧ ∀ v ∈ g.2, Quotable v = true

/-- the texts of an entry can stand between quotes -/
def EntriesEl.Quotes : EntriesEl → Prop
  | .sai s => Quotable s = true
  | .object m => ∀ k v, m.get k = some v → Quotable k = true ∧ Quotable v = true

/-- every text in an overlay can stand between quotes; the names of meta pairs are names of the grammar -/
def OvBody.Quotes (E : Env) : OvBody → Prop
  | .format m | .conformance m | .cardinality m | .unit m | .label _ _ m _ | .information _ m =>
      ∀ n v, m.get n = some v → Quotable v = true
  | .conditional c d => ∀ n x ds s, c.get n = some x → d.get n = some ds → (expandCondition E x ds : Res Unit Str) = .ok s → Quotable s = true
  | .entryCode m => ∀ n v, m.get n = some v → v.Quotes
  | .entry _ m => ∀ n v, m.get n = some v → v.Quotes
  | .metaOv _ m => ∀ k v, m.get k = some v → IsKey k ∧ Quotable v = true
  | _ => True

/-- What the OCA-file syntax can express of a bundle: there are attributes, their names are names of the grammar and their types can be printed,
there is no classification, and all texts can stand between quotes. -/
structure Bundle.Writable (E : Env) (U : Uni) (b : Bundle) : Prop where
  some_attr : ∃ n, (b.captureBase.attributes.get n).isSome = true
  attrs : ∀ n t, b.captureBase.attributes.get n = some t → IsKey n ∧ TypeOk E U t
  noClass : b.captureBase.classification = []
  texts : ∀ o ∈ b.overlays, o.body.spoken = true → o.body.Quotes E

theorem iter_ne {V : Type} (O : Order) (site : Nat) (m : FMap V) {n : Str} {v : V} (h : m.get n = some v) : O.iter site [] m ≠ [] := by
  intro e
  have := (O.perm site [] m).mem_iff.2 (FMap.get_eq_some_iff.1 h)
  rw [e] at this
  cases this

theorem mem_iter_get {V : Type} (O : Order) (site : Nat) (m : FMap V) {p : Str × V} (h : p ∈ O.iter site [] m) : m.get p.1 = some p.2 :=
  FMap.get_eq_some_iff.2 ((O.perm site [] m).mem_iff.1 h)

/-- the pairs of an overlay of texts -/
theorem pairs_attrsOf {V : Type} (O : Order) (site : Nat) (f : V → Str) (m : FMap V) (hk : ∀ n ∈ m.keys, IsKey n) {n : Str} {v : V}
    (hn : m.get n = some v) (hq : ∀ n v, m.get n = some v → Quotable (f v) = true) : Pairs (attrsOf O site (fun v => .val (f v)) m) := by
  refine ⟨by simpa [attrsOf] using iter_ne O site m hn, ?_, ?_⟩
  · intro p hp
    obtain ⟨q, hq', rfl⟩ := List.mem_map.1 hp
    have hg := mem_iter_get O site m hq'
    exact ⟨hk _ (List.mem_map.2 ⟨q, FMap.get_eq_some_iff.1 hg, rfl⟩), _, rfl, hq _ _ hg⟩
  · unfold Distinct attrsOf
    rw [List.map_map]
    exact iter_nodup O site m

/-- the command of an overlay can be printed -/
theorem ovCommand_printable {ε : Type} (E : Env) (U : Uni) (O : Order) (iso : ∀ l s, E.lang1Inv l = some s → IsLang s) (o : Overlay)
    (hv : o.ver = c!"1.1") (hx : o.Expressible E) (hk : ∀ n ∈ o.body.attributes, IsKey n) (hq : o.body.Quotes E)
    (hne : (∃ n, n ∈ o.body.attributes) ∨ ∃ l ps, o.body = .metaOv l ps) (hm : ∀ l ps, o.body = .metaOv l ps → ps ≠ FMap.empty)
    (c : Command) (hc : (ovCommand E O o : Res ε _) = .ok (some c)) : Printable E U c := by
  obtain ⟨said, cb, ver, body⟩ := o
  dsimp only at *
  subst hv
  have get_of_key : ∀ {V : Type} {m : FMap V}, (∃ n, n ∈ m.keys) → ∃ n v, m.get n = some v := by
    intro V m ⟨n, hn⟩
    obtain ⟨q, hq, rfl⟩ := List.mem_map.1 hn
    exact ⟨q.1, q.2, FMap.get_eq_some_iff.2 hq⟩
  have hne' : ∀ {V : Type} {m : FMap V}, body.attributes = m.keys → (∀ l ps, body ≠ .metaOv l ps) → ∃ n v, m.get n = some v := by
    intro V m e h
    rcases hne with ⟨n, hn⟩ | ⟨l, ps, e'⟩
    · exact get_of_key ⟨n, e ▸ hn⟩
    · exact absurd e' (h l ps)
  have hlang : ∀ l, body.language = some l → ∃ s, E.lang1Inv l = some s ∧ IsLang s := by
    intro l hl
    obtain ⟨s, hs⟩ := Option.isSome_iff_exists.1 (hx.langs l hl)
    exact ⟨s, hs, iso l s hs⟩
  cases body with
  | charEnc m =>
    cases hc
    obtain ⟨n, v, hn⟩ := hne' (m := m) rfl (by simp)
    exact .plain .characterEncoding (by simp [PlainKind]) _
      (pairs_attrsOf O _ Encoding.toStr m hk hn (by intro _ v _; cases v <;> decide)) _ (.inl rfl)
  | format m =>
    cases hc
    obtain ⟨n, v, hn⟩ := hne' (m := m) rfl (by simp)
    exact .plain .format (by simp [PlainKind]) _ (pairs_attrsOf O _ id m hk hn hq) _ (.inl rfl)
  | conformance m =>
    cases hc
    obtain ⟨n, v, hn⟩ := hne' (m := m) rfl (by simp)
    exact .plain .conformance (by simp [PlainKind]) _ (pairs_attrsOf O _ id m hk hn hq) _ (.inl rfl)
  | cardinality m =>
    cases hc
    obtain ⟨n, v, hn⟩ := hne' (m := m) rfl (by simp)
    exact .plain .cardinality (by simp [PlainKind]) _ (pairs_attrsOf O _ id m hk hn hq) _ (.inl rfl)
  | unit m =>
    cases hc
    obtain ⟨n, v, hn⟩ := hne' (m := m) rfl (by simp)
    exact .plain .unit (by simp [PlainKind]) _ (pairs_attrsOf O _ id m hk hn hq) _ (.inl rfl)
  | conditional cs d =>
    obtain ⟨n, v, hn⟩ := hne' (m := cs) rfl (by simp)
    have hct := condTexts_ok (ε := ε) E cs d (hx.conds cs d rfl) (O.iter 1098 [] cs) fun p hp => mem_iter_get O _ cs hp
    unfold ovCommand at hc
    dsimp only at hc
    rw [hct] at hc
    cases hc
    refine .plain .conditional (by simp [PlainKind]) _ ⟨by simpa using iter_ne O 1098 cs hn, ?_, ?_⟩ _ (.inl rfl)
    · intro p hp
      obtain ⟨q, hq', rfl⟩ := List.mem_map.1 hp
      have hg := mem_iter_get O _ cs hq'
      refine ⟨hk _ (List.mem_map.2 ⟨q, FMap.get_eq_some_iff.1 hg, rfl⟩), _, rfl, ?_⟩
      obtain ⟨s, hs, hd⟩ := hx.conds cs d rfl q.1 q.2 hg
      have he : (expandCondition E q.2 (setCondition s).2 : Res Unit Str) = .ok s := by rw [hs]; exact expand_stored E s
      have hqt := hq q.1 q.2 _ s hg hd he
      have : condText E d q.1 q.2 = s := by
        unfold condText condOf
        simp only [hd, Option.bind_some, he, Option.getD_some]
      rw [this]
      exact hqt
    · unfold Distinct
      rw [List.map_map]
      exact iter_nodup O 1098 cs
  | entryCode m =>
    cases hc
    obtain ⟨n, v, hn⟩ := hne' (m := m) rfl (by simp)
    have e : attrsOf O 1152 EntryCodes.toVal m = ((O.iter 1152 [] m).map fun p => (p.1, match p.2 with
        | .sai s => CodeVal.one s
        | .array l => .list l
        | .object l => .groups l)).map fun p => (p.1, p.2.val) := by
      unfold attrsOf
      rw [List.map_map]
      refine List.map_congr_left fun p _ => ?_
      obtain ⟨k, v⟩ := p
      cases v <;> rfl
    show Printable E U ⟨.add, .overlay ⟨.entryCode, c!"1.1"⟩ ⟨some (attrsOf O 1152 EntryCodes.toVal m), none⟩⟩
    rw [e]
    refine .entryCodes _ (by simpa using iter_ne O 1152 m hn) ?_ ?_ _ (.inl rfl)
    · intro p hp
      obtain ⟨q, hq', rfl⟩ := List.mem_map.1 hp
      have hg := mem_iter_get O _ m hq'
      refine ⟨hk _ (List.mem_map.2 ⟨q, FMap.get_eq_some_iff.1 hg, rfl⟩), ?_⟩
      have hqq := hq q.1 q.2 hg
      have hcc := hx.codes m rfl q.1
      cases hv : q.2 with
      | sai s => rw [hv] at hqq; exact hqq
      | array l => rw [hv] at hqq; exact hqq
      | object l => rw [hv] at hqq; exact ⟨hqq, hcc l (by rw [hg, hv])⟩
    · unfold Distinct
      rw [List.map_map]
      exact iter_nodup O 1152 m
  | entry l m =>
    obtain ⟨s, hs, hl⟩ := hlang l rfl
    simp only [ovCommand, langProp, hs, Res.unwrap_some, Res.bind_ok] at hc
    cases hc
    obtain ⟨n, v, hn⟩ := hne' (m := m) rfl (by simp)
    have e : attrsOf O 1214 (EntriesEl.toVal O) m = ((O.iter 1214 [] m).map fun p => (p.1, match p.2 with
        | .sai s => EntryVal.one s
        | .object t => .table (O.iter 1229 [] t))).map fun p => (p.1, p.2.val) := by
      unfold attrsOf
      rw [List.map_map]
      refine List.map_congr_left fun p _ => ?_
      obtain ⟨k, v⟩ := p
      cases v <;> rfl
    show Printable E U ⟨.add, .overlay ⟨.entry, c!"1.1"⟩ ⟨some (attrsOf O 1214 (EntriesEl.toVal O) m), some [(c!"lang", .val s)]⟩⟩
    rw [e]
    refine .entries _ (by simpa using iter_ne O 1214 m hn) ?_ ?_ _ hl
    · intro p hp
      obtain ⟨q, hq', rfl⟩ := List.mem_map.1 hp
      have hg := mem_iter_get O _ m hq'
      refine ⟨hk _ (List.mem_map.2 ⟨q, FMap.get_eq_some_iff.1 hg, rfl⟩), ?_⟩
      have hqq := hq q.1 q.2 hg
      cases hv : q.2 with
      | sai s => rw [hv] at hqq; exact hqq
      | object t =>
        rw [hv] at hqq
        exact ⟨fun r hr => hqq r.1 r.2 (mem_iter_get O _ t hr), iter_nodup O 1229 t⟩
    · unfold Distinct
      rw [List.map_map]
      exact iter_nodup O 1214 m
  | label l cats m cl =>
    obtain ⟨s, hs, hl⟩ := hlang l rfl
    simp only [ovCommand, langProp, hs, Res.unwrap_some, Res.bind_ok] at hc
    cases hc
    obtain ⟨n, v, hn⟩ := hne' (m := m) rfl (by simp)
    exact .withLang .label (.inl rfl) _ (pairs_attrsOf O _ id m hk hn hq) _ hl
  | information l m =>
    obtain ⟨s, hs, hl⟩ := hlang l rfl
    simp only [ovCommand, langProp, hs, Res.unwrap_some, Res.bind_ok] at hc
    cases hc
    obtain ⟨n, v, hn⟩ := hne' (m := m) rfl (by simp)
    exact .withLang .information (.inr rfl) _ (pairs_attrsOf O _ id m hk hn hq) _ hl
  | metaOv l ps =>
    obtain ⟨s, hs, hl⟩ := hlang l rfl
    simp only [ovCommand, langProp, hs, Res.unwrap_some, Res.bind_ok] at hc
    cases hc
    have hnl := hx.noLangPair l ps rfl
    have hnd : (((c!"lang", NVal.val s) :: (O.iter 1017 [] ps).map fun q => (q.1, NVal.val q.2)).map (·.1)).Nodup := by
      rw [List.map_cons, List.nodup_cons, List.map_map]
      refine ⟨?_, iter_nodup O 1017 ps⟩
      intro hmem
      obtain ⟨q, hq', e⟩ := List.mem_map.1 hmem
      have hg := mem_iter_get O _ ps hq'
      simp only [Function.comp_apply] at e
      rw [e, hnl] at hg
      cases hg
    have he : (O.iter 1017 [] ps).foldl (fun acc q => imInsert q.1 (.val q.2) acc) [(c!"lang", NVal.val s)] =
        (c!"lang", NVal.val s) :: (O.iter 1017 [] ps).map fun q => (q.1, NVal.val q.2) := by
      have h1 : ∀ (l : List (Str × Str)) acc, l.foldl (fun acc q => imInsert q.1 (NVal.val q.2) acc) acc =
          imExtend acc (l.map fun q => (q.1, NVal.val q.2)) := by
        intro l
        induction l with
        | nil => intro acc; rfl
        | cons q t ih => intro acc; rw [List.foldl_cons, ih]; rfl
      rw [h1]
      exact imExtend_nil_nodup _ hnd
    show Printable E U ⟨.add, .overlay ⟨.metaOv, c!"1.1"⟩ ⟨none, some _⟩⟩
    rw [he]
    refine .metas _ (.inl rfl) _ hnd s (.head _) hl ?_ ?_
    · intro p hp hpl
      rcases List.mem_cons.1 hp with rfl | hp
      · exact absurd rfl hpl
      · obtain ⟨q, hq', rfl⟩ := List.mem_map.1 hp
        have := hq q.1 q.2 (mem_iter_get O _ ps hq')
        exact ⟨this.1, _, rfl, this.2⟩
    · have hps : ∃ k v, ps.get k = some v := by
        refine Classical.byContradiction fun hno => hm l ps rfl ?_
        ext k v
        constructor
        · intro h; exact absurd ⟨k, v, h⟩ hno
        · intro h; simp at h
      obtain ⟨k, v, hkv⟩ := hps
      have hmem := (O.perm 1017 [] ps).mem_iff.2 (FMap.get_eq_some_iff.1 hkv)
      refine ⟨(k, .val v), .tail _ (List.mem_map.2 ⟨_, hmem, rfl⟩), ?_⟩
      rintro e
      dsimp only at e
      rw [e, hnl] at hkv
      cases hkv
  | link t m => exact absurd rfl hx.noLink
  | framing md m => exact absurd rfl hx.noFraming
  | mapping m => cases hc
  | standard m => cases hc
  | subset l => cases hc
  | entryCodeMapping m => cases hc

theorem ovCommand_isOverlay {ε : Type} (E : Env) (O : Order) (o : Overlay) (c : Command) (hc : (ovCommand E O o : Res ε _) = .ok (some c)) :
    ∃ t cc, c = ⟨.add, .overlay t cc⟩ := by
  unfold ovCommand at hc
  split at hc
  all_goals first
    | (cases hc; done)
    | (cases hc; exact ⟨_, _, rfl⟩)
    | (obtain ⟨a, h1, h2⟩ := Res.bind_eq_ok.1 (show Res.bind _ _ = _ from hc); cases h2; exact ⟨_, _, rfl⟩)

theorem mem_ovCommands {ε : Type} (E : Env) (O : Order) (os : List Overlay) : ∀ cs, (ovCommands E O os : Res ε _) = .ok cs →
    ∀ c ∈ cs, ∃ o ∈ os, (ovCommand E O o : Res ε _) = .ok (some c) := by
  induction os with
  | nil => intro cs h c hc; cases h; cases hc
  | cons o t ih =>
    intro cs h c hc
    obtain ⟨oc, h1, h2⟩ := Res.bind_eq_ok.1 (show Res.bind _ _ = _ from h)
    obtain ⟨cs', h3, h4⟩ := Res.bind_eq_ok.1 (show Res.bind _ _ = _ from h2)
    cases h4
    rcases List.mem_append.1 hc with hc | hc
    · cases oc with
      | none => cases hc
      | some d =>
        rcases List.mem_cons.1 hc with rfl | hc
        · exact ⟨o, .head _, h1⟩
        · cases hc
    · obtain ⟨o', ho', h5⟩ := ih cs' h3 c hc
      exact ⟨o', .tail _ ho', h5⟩

theorem generated_expressible (E : Env) (O : Order) (box : OCABox) (hw : BoxWF box) (hx : (bundleOf E O box).Speakable E) :
    ∀ o ∈ (bundleOf E O box).overlays, o.body.spoken = true → o.Expressible E := by
  intro o ho hs
  have hmem := (mem_overlays ho).1
  have hs' : o.body.kind ≠ .link ∧ o.body.kind ≠ .attributeFraming := by
    unfold OvBody.spoken at hs
    simpa using hs
  refine ⟨hs'.1, hs'.2, ?_, hx.langs o ho, hx.noLangPair o ho, hx.codes o ho, ?_⟩
  · rcases mem_genBodies O box hw _ hmem with ⟨m, l, ps, -, -, e⟩ | ⟨K, hK, -⟩
    · rw [e]; exact .inl rfl
    · right
      cases K <;> simp only [IsBody] at hK
      case framing id => obtain ⟨md, e, -⟩ := hK; rw [e]; simp [OvBody.kind, loadOrder]
      all_goals rw [hK]; simp [OvBody.kind, loadOrder]
  · intro c d e
    have := (genBody_loadable hw hmem).2
    rw [e] at this
    exact this

theorem states_attribute {b : OvBody} {n : Str} {f : Fact} (h : b.States n f) : n ∈ b.attributes := by
  have key : ∀ {V : Type} {m : FMap V} {v : V}, m.get n = some v → n ∈ m.keys := fun h => List.mem_map.2 ⟨_, FMap.get_eq_some_iff.1 h, rfl⟩
  cases f <;> simp only [OvBody.States] at h
  case condition => obtain ⟨m, d, rfl, h, -⟩ := h; exact key h
  case label => obtain ⟨cs, m, cl, rfl, h⟩ := h; exact key h
  case framing => obtain ⟨md, m, rfl, -, h⟩ := h; exact key h
  all_goals obtain ⟨m, rfl, h⟩ := h; exact key h

/-- printing the AST of a bundle and reading the text gives an AST that builds the same -/
theorem export_text {ε ε' : Type} (E : Env) (U : Uni) (iso : ∀ l s, E.lang1Inv l = some s → IsLang s) (O : Order) (box : OCABox)
    (hr : Reachable E box) (b : Bundle) (h : (generateBundle E O box : Res ε _) = .ok b) (hx : b.Speakable E) (hw : b.Writable E U) (O' : Order)
    (ast : OCAAst) (hast : (b.toAst E O' : Res ε' _) = .ok ast) :
    ∃ text out, (printAst ast : Res ParseErr Str) = .ok text ∧ parseText E U text = .ok out ∧
      ∀ Os fromOca, SameOutcome (fromAst E Os fromOca ast) (fromAst E Os fromOca out) := by
  obtain ⟨cs, hcs, he⟩ := Res.bind_eq_ok.1 (show Res.bind _ _ = _ from hast)
  cases he
  have hov : ∀ c ∈ cs, Printable E U c ∧ ∃ t cc, c = ⟨.add, .overlay t cc⟩ := by
    intro c hc
    obtain ⟨o, ho, hoc⟩ := mem_ovCommands E O' _ cs hcs c hc
    refine ⟨?_, ovCommand_isOverlay E O' o c hoc⟩
    have hsp : o.body.spoken = true := by
      cases hs : o.body.spoken with
      | true => rfl
      | false => rw [ovCommand_unspoken E O' o hs] at hoc; cases hoc
    have hno := C17_no_empty_overlay E O box hr b h
    have h15 := C15_overlays_within_capture_base E O box hr b h o ho
    refine ovCommand_printable E U O' iso o ?_ ?_ ?_ (hw.texts o ho hsp) ?_ ?_ c hoc
    · obtain ⟨-, rfl⟩ := generateBundle_eq_ok h
      have := (mem_overlays ho).2
      rw [this]
      rfl
    · obtain ⟨-, rfl⟩ := generateBundle_eq_ok h
      exact generated_expressible E O box hr.wf hx o ho hsp
    · intro n hn
      obtain ⟨t, ht⟩ := h15 n hn
      exact (hw.attrs n t ht).1
    · rcases hno.1 o ho with ⟨n, f, hs⟩ | hmeta
      · exact .inl ⟨n, states_attribute hs⟩
      · exact .inr hmeta
    · intro l ps e
      exact hno.2.2 l ps ⟨o, ho, e⟩
  have hbase : Printable E U (baseCommand O' b.captureBase) := by
    obtain ⟨n, hn⟩ := hw.some_attr
    obtain ⟨t, ht⟩ := Option.isSome_iff_exists.1 hn
    unfold baseCommand
    rw [hw.noClass]
    refine .attributes _ (iter_ne O' 954 _ ht) ?_ (iter_nodup O' 954 _)
    intro p hp
    exact hw.attrs _ _ (mem_iter_get O' _ _ hp)
  obtain ⟨text, out, h1, h2, h3⟩ := C50_text_builds_like_ast E U { OCAAst.new with commands := baseCommand O' b.captureBase :: cs }
    (by
      intro c hc
      rcases List.mem_cons.1 hc with rfl | hc
      · exact hbase
      · exact (hov c hc).1)
    (by
      intro pre c post e
      have hval : astValidate ⟨c!"1.0.0", pre, [], OCAAst.new.metaMap⟩ c = .ok () := by
        unfold astValidate
        rw [if_pos rfl]
        dsimp only at e ⊢
        cases pre with
        | nil =>
          injection e with e1 e2
          subst e1
          have hz : ∀ l : List (Str × NAttr), ((l.map (·.1)).filter fun k => imHas k (extractAttributes [])) = [] := by
            intro l
            rw [List.filter_eq_nil_iff]
            intro k _
            simp [extractAttributes, imHas, FMap.lget, imGet]
          simp only [validate100, baseCommand, ruleAdd, hz, List.isEmpty_nil, if_true]
        | cons d pre =>
          injection e with e1 e2
          obtain ⟨t, cc, rfl⟩ := (hov c (by rw [e2]; simp)).2
          rfl
      exact ((C10_validate_exact _ c).1.1 hval).2)
  exact ⟨text, out, h1, h2, h3⟩

theorem sameOutcome_ok {r r' : Res (List BuildErr) Build} {b : Build} (h : SameOutcome r r') (hb : r = .ok b) :
    ∃ b', r' = .ok b' ∧ b'.bundle = b.bundle := by
  rw [hb] at h
  cases hr : r' with
  | ok b' => rw [hr] at h; exact ⟨b', rfl, h.1.symm⟩
  | err e => rw [hr] at h; exact h.elim
  | panic => rw [hr] at h; exact h.elim

/-- **C51** Exporting a bundle as an OCA file and building that file gives the bundle back up to links and framings: for the bundle of
any history of accepted commands that has an attribute, no classification, and whose texts can stand between double quotes, the export
succeeds, the file parses, and building it from scratch gives the same capture base (SAID included) and exactly the same overlays (SAIDs
included) other than links and attribute framings. -/
theorem C51_export_rebuilds {ε ε' : Type} (E : Env) (U : Uni) (iso : ∀ l s, E.lang1Inv l = some s → IsLang s) (O : Order) (box : OCABox)
    (hr : FromScratch E box) (b : Bundle) (h : (generateBundle E O box : Res ε _) = .ok b) (hw : b.Writable E U) (O' : Order) :
    ∃ ast text out, (b.toAst E O' : Res ε' _) = .ok ast ∧ (printAst ast : Res ParseErr Str) = .ok text ∧ parseText E U text = .ok out ∧
      ∀ Os, ∃ build, fromAst E Os none out = .ok build ∧ build.bundle.captureBase = b.captureBase ∧
        build.bundle.overlays.Perm (b.overlays.filter fun o => o.body.spoken) := by
  obtain ⟨ast, hast, hbuild⟩ := C23_history_rebuilds (ε' := ε') E O box hr b h O'
  have hx : b.Speakable E := by
    obtain ⟨-, rfl⟩ := generateBundle_eq_ok h
    exact (hr.speakable O).2
  obtain ⟨text, out, h1, h2, h3⟩ := export_text E U iso O box hr.reachable b h hx hw O' ast hast
  refine ⟨ast, text, out, hast, h1, h2, fun Os => ?_⟩
  obtain ⟨build, hb, hres⟩ := hbuild Os
  obtain ⟨build', hb', e⟩ := sameOutcome_ok (h3 Os none) hb
  exact ⟨build', hb', by rw [e]; exact hres.1, by rw [e]; exact hres.2⟩

/-- **C51** If moreover the bundle has no links and framings, the rebuilt bundle has the same SAID and the same JSON, unless two different
overlays of the bundle have the same SAID. (Also for bundles loaded from JSON, if they are expressible.) -/
theorem C51_export_same_bundle {ε ε' : Type} (E : Env) (U : Uni) (iso : ∀ l s, E.lang1Inv l = some s → IsLang s) (O : Order) (box : OCABox)
    (hr : Reachable E box) (b : Bundle) (h : (generateBundle E O box : Res ε _) = .ok b) (hx : b.Expressible E) (hw : b.Writable E U) (O' : Order) :
    ∃ ast text out, (b.toAst E O' : Res ε' _) = .ok ast ∧ (printAst ast : Res ParseErr Str) = .ok text ∧ parseText E U text = .ok out ∧
      ∀ Os, ∃ build, fromAst E Os none out = .ok build ∧
        ((build.bundle.said = b.said ∧ build.bundle.toJson E = b.toJson E) ∨
          ∃ o ∈ b.overlays, ∃ o' ∈ b.overlays, o ≠ o' ∧ o.said = o'.said) := by
  obtain ⟨ast, hast, hbuild⟩ := C23_same_bundle (ε' := ε') E O box hr b h hx O'
  obtain ⟨text, out, h1, h2, h3⟩ := export_text E U iso O box hr b h ⟨hx.langs, hx.noLangPair, hx.codes⟩ hw O' ast hast
  refine ⟨ast, text, out, hast, h1, h2, fun Os => ?_⟩
  obtain ⟨build, hb, hres⟩ := hbuild Os
  obtain ⟨build', hb', e⟩ := sameOutcome_ok (h3 Os none) hb
  exact ⟨build', hb', by rw [e]; exact hres⟩

end OCA
