import Verif.Model.WholeAst
import Verif.Props.JsonText
import Verif.Props.LoadJson
import Verif.Props.Package
/-!
# C65: whole syntax trees as JSON
-/
namespace OCA

/-! ## Numbers as keys -/

theorem natOfKey_print {n : Nat} (h : n < 18446744073709551616) : natOfKey (printNat n) = some n := by
  have := readNat_print n h [] (fun _ _ e => by cases e)
  rw [List.append_nil] at this
  unfold natOfKey
  rw [this]

theorem natOfKey_lt {s : Str} {n : Nat} (h : natOfKey s = some n) : n < 18446744073709551616 := by
  unfold natOfKey at h
  split at h
  · next m hm =>
    cases h
    cases s with
    | nil => cases hm
    | cons c t =>
      unfold readNat at hm
      dsimp only at hm
      split at hm
      · split at hm
        · split at hm
          · cases hm
          · cases hm
        · cases hm; decide
      · split at hm
        · split at hm
          · next hl =>
            have e : readDigits (c.toNat - 48) t = (n, []) := Option.some.inj hm
            rw [e] at hl
            exact hl
          · cases hm
        · cases hm
  · cases h

theorem mem_natInsert {V : Type} {k : Nat} {v : V} {l : List (Nat × V)} {p : Nat × V} (h : p ∈ natInsert k v l) : p = (k, v) ∨ p ∈ l := by
  induction l with
  | nil => exact .inl (List.mem_singleton.1 h)
  | cons q l ih =>
    unfold natInsert at h
    split at h
    · rcases List.mem_cons.1 h with h | h
      · exact .inl h
      · exact .inr (.tail _ h)
    · rcases List.mem_cons.1 h with rfl | h
      · exact .inr (.head _)
      · rcases ih h with h | h
        · exact .inl h
        · exact .inr (.tail _ h)

theorem natInsert_keys {V : Type} (k : Nat) (v : V) (l : List (Nat × V)) :
    (natInsert k v l).map (·.1) = if k ∈ l.map (·.1) then l.map (·.1) else l.map (·.1) ++ [k] := by
  induction l with
  | nil => rfl
  | cons q l ih =>
    unfold natInsert
    split
    · next h => simp [h]
    · next h =>
      rw [List.map_cons, ih]
      have hn : ¬ k = q.1 := fun e => h e.symm
      by_cases hk : k ∈ l.map (·.1)
      · rw [if_pos hk, if_pos (by simp only [List.map_cons, List.mem_cons]; exact .inr hk), List.map_cons]
      · rw [if_neg hk, if_neg (by simp only [List.map_cons, List.mem_cons]; exact fun h => h.elim hn hk), List.map_cons, List.cons_append]

theorem natInsert_nodup {V : Type} {k : Nat} {v : V} {l : List (Nat × V)} (h : (l.map (·.1)).Nodup) : ((natInsert k v l).map (·.1)).Nodup := by
  rw [natInsert_keys]
  split
  · exact h
  · next hk =>
    refine List.nodup_append.2 ⟨h, by simp, ?_⟩
    intro a ha b hb e
    cases List.mem_singleton.1 hb
    exact hk (e ▸ ha)

theorem natInsert_last {V : Type} {k : Nat} {v : V} {l : List (Nat × V)} (h : k ∉ l.map (·.1)) : natInsert k v l = l ++ [(k, v)] := by
  induction l with
  | nil => rfl
  | cons q l ih =>
    simp only [List.map_cons, List.mem_cons, not_or] at h
    unfold natInsert
    rw [if_neg (fun e => h.1 e.symm), ih h.2]
    rfl

theorem natExtend_id {V : Type} (l : List (Nat × V)) : ∀ acc : List (Nat × V), ((acc ++ l).map (·.1)).Nodup →
    l.foldl (fun m p => natInsert p.1 p.2 m) acc = acc ++ l := by
  induction l with
  | nil => intro acc _; simp
  | cons p l ih =>
    intro acc h
    rw [List.foldl_cons, natInsert_last, ih]
    · simp
    · simpa using h
    · rw [List.map_append, List.nodup_append] at h
      intro hk
      exact h.2.2 p.1 hk p.1 (by simp) rfl

theorem natExtend_spec {V : Type} (l : List (Nat × V)) : ∀ acc : List (Nat × V), (acc.map (·.1)).Nodup →
    ((l.foldl (fun m p => natInsert p.1 p.2 m) acc).map (·.1)).Nodup ∧ ∀ p ∈ l.foldl (fun m p => natInsert p.1 p.2 m) acc, p ∈ acc ∨ p ∈ l := by
  induction l with
  | nil => intro acc h; exact ⟨h, fun p hp => .inl hp⟩
  | cons q l ih =>
    intro acc h
    obtain ⟨h1, h2⟩ := ih _ (natInsert_nodup (k := q.1) (v := q.2) h)
    refine ⟨h1, fun p hp => ?_⟩
    rcases h2 p hp with h | h
    · rcases mem_natInsert h with rfl | h
      · exact .inr (.head _)
      · exact .inl h
    · exact .inr (.tail _ h)

/-! ## `commands_meta` -/

/-- `commands_meta` as a program can hold it: the keys are those of a map, all numbers fit a machine word. -/
def MetasFit (l : List (Nat × CommandMeta)) : Prop :=
  (l.map (·.1)).Nodup ∧ ∀ p ∈ l, p.1 < 18446744073709551616 ∧ p.2.lineNumber < 18446744073709551616

theorem CommandMeta.ofJson_toJson (m : CommandMeta) (h : m.lineNumber < 18446744073709551616) : CommandMeta.ofJson m.toJson = some m := by
  have e1 : jfield c!"line_number" [(c!"line_number", Json.num m.lineNumber), (c!"raw_line", .str m.rawLine)] = some (some (.num m.lineNumber)) := rfl
  have e2 : jfield c!"raw_line" [(c!"line_number", Json.num m.lineNumber), (c!"raw_line", .str m.rawLine)] = some (some (.str m.rawLine)) := rfl
  simp only [CommandMeta.ofJson, CommandMeta.toJson, structMembers, e1, e2, jUsize, h, if_true, jStr]

theorem CommandMeta.ofJson_fits {j : Json} {m : CommandMeta} (h : CommandMeta.ofJson j = some m) : m.lineNumber < 18446744073709551616 := by
  unfold CommandMeta.ofJson at h
  split at h
  · cases h
  · split at h
    · split at h
      · next n s hn hs =>
        cases h
        unfold jUsize at hn
        split at hn
        · split at hn
          · next hl => cases hn; exact hl
          · cases hn
        · cases hn
      · cases h
    · cases h

theorem metasOfJson_json {l : List (Nat × CommandMeta)} (h : MetasFit l) :
    metasOfJson (.obj (l.map fun p => (printNat p.1, p.2.toJson))) = some l := by
  have : allSome metaEntryOfJson (l.map fun p => (printNat p.1, p.2.toJson)) = some l := by
    refine allSome_eq_some.2 ?_
    rw [List.map_map]
    apply List.map_congr_left
    intro p hp
    show metaEntryOfJson (printNat p.1, p.2.toJson) = some p
    simp only [metaEntryOfJson, natOfKey_print (h.2 p hp).1, CommandMeta.ofJson_toJson p.2 (h.2 p hp).2]
  unfold metasOfJson
  dsimp only
  rw [this, Option.map_some, natExtend_id l [] (by simpa using h.1), List.nil_append]

theorem metasOfJson_fit {j : Json} {l : List (Nat × CommandMeta)} (h : metasOfJson j = some l) : MetasFit l := by
  unfold metasOfJson at h
  split at h
  · obtain ⟨r, hr, rfl⟩ := Option.map_eq_some_iff.1 h
    obtain ⟨h1, h2⟩ := natExtend_spec r [] List.nodup_nil
    refine ⟨h1, fun p hp => ?_⟩
    rcases h2 p hp with h | h
    · cases h
    · have : some p ∈ List.map metaEntryOfJson _ := (allSome_eq_some.1 hr) ▸ List.mem_map_of_mem h
      obtain ⟨q, -, e⟩ := List.mem_map.1 this
      unfold metaEntryOfJson at e
      split at e
      · next n m hn hm => cases e; exact ⟨natOfKey_lt hn, CommandMeta.ofJson_fits hm⟩
      · cases e
  · cases h

/-! ## Trees in general -/

theorem strMapOfJson_json (O : Order) (k : Nat) (m : FMap Str) : strMapOfJson (.obj ((O.iter k [] m).map fun p => (p.1, .str p.2))) = some m := by
  simp only [strMapOfJson, allSome_strs, Option.map_some, FMap.ofList_perm m (O.perm k [] m)]

theorem treeOfJson_json {α β : Type} (f : Json → DRes α) (g : α → Json) (mk : Str → List α → List (Nat × CommandMeta) → FMap Str → β)
    (O : Order) (k : Nat) (v : Str) (cs : List α) (ms : List (Nat × CommandMeta)) (m : FMap Str)
    (hc : ∀ c ∈ cs, f (g c) = .ok c) (hm : MetasFit ms) :
    treeOfJson f mk (treeJson v (cs.map g) ms (O.iter k [] m)) = .ok (mk v cs ms m) := by
  have e : ∀ l : List (Str × Json), l = [(c!"version", .str v), (c!"commands", .arr (cs.map g)),
    (c!"commands_meta", .obj (ms.map fun p => (printNat p.1, p.2.toJson))),
    (c!"meta", .obj ((O.iter k [] m).map fun p => (p.1, .str p.2)))] →
    needField c!"version" l = .ok (.str v) ∧ needField c!"commands" l = .ok (.arr (cs.map g)) ∧
    needField c!"commands_meta" l = .ok (.obj (ms.map fun p => (printNat p.1, p.2.toJson))) ∧
    needField c!"meta" l = .ok (.obj ((O.iter k [] m).map fun p => (p.1, .str p.2))) := by
    rintro l rfl
    exact ⟨rfl, rfl, rfl, rfl⟩
  obtain ⟨e1, e2, e3, e4⟩ := e _ rfl
  simp only [treeOfJson, treeJson, structMembers, e1, e2, e3, e4, Res.bind_ok, jStr, DRes.ofOption, vecOfJson, collectRes_map f g cs hc,
    metasOfJson_json hm, strMapOfJson_json, Res.pure_eq]

theorem ofOption_ok {α : Type} {o : Option α} {a : α} : DRes.ofOption o = .ok a ↔ o = some a := by cases o <;> simp [DRes.ofOption]

theorem treeOfJson_parts {α β : Type} {f : Json → DRes α} {mk : Str → List α → List (Nat × CommandMeta) → FMap Str → β} {j : Json} {b : β}
    (h : treeOfJson f mk j = .ok b) : ∃ v cs ms m l js, b = mk v cs ms m ∧ structMembers astMembers j = some l ∧
      needField c!"commands" l = .ok (.arr js) ∧ All2 (fun j c => f j = .ok c) js cs ∧ MetasFit ms := by
  unfold treeOfJson at h
  split at h
  · cases h
  · next l hl =>
    obtain ⟨_, -, h⟩ := Res.bind_eq_ok.1 (show Res.bind _ _ = _ from h)
    obtain ⟨_, -, h⟩ := Res.bind_eq_ok.1 (show Res.bind _ _ = _ from h)
    obtain ⟨jcs, hj, h⟩ := Res.bind_eq_ok.1 (show Res.bind _ _ = _ from h)
    obtain ⟨cs, hcs, h⟩ := Res.bind_eq_ok.1 (show Res.bind _ _ = _ from h)
    obtain ⟨_, -, h⟩ := Res.bind_eq_ok.1 (show Res.bind _ _ = _ from h)
    obtain ⟨ms, hms, h⟩ := Res.bind_eq_ok.1 (show Res.bind _ _ = _ from h)
    obtain ⟨_, -, h⟩ := Res.bind_eq_ok.1 (show Res.bind _ _ = _ from h)
    obtain ⟨m, -, h⟩ := Res.bind_eq_ok.1 (show Res.bind _ _ = _ from h)
    cases h
    unfold vecOfJson at hcs
    split at hcs
    · next js => exact ⟨_, cs, ms, m, l, js, rfl, hl, hj, collectRes_round _ _ _ hcs, metasOfJson_fit (ofOption_ok.1 hms)⟩
    · cases hcs

theorem all2_of_read {α β : Type} {R : α → β → Prop} {js : List α} {cs : List β} (h : All2 R js cs) : ∀ c ∈ cs, ∃ j ∈ js, R j c := by
  induction h with
  | nil => exact fun _ h => by cases h
  | cons hb _ ih =>
    intro c hc
    rcases List.mem_cons.1 hc with rfl | hc
    · exact ⟨_, .head _, hb⟩
    · obtain ⟨j, hj, h⟩ := ih c hc
      exact ⟨j, .tail _ hj, h⟩

theorem all2_map_self {α β : Type} {R : α → β → Prop} {g : β → α} : ∀ {cs : List β}, All2 R (cs.map g) cs → ∀ c ∈ cs, R (g c) c
  | [], _, _, h => by cases h
  | c :: cs, h, d, hd => by
    cases h with
    | cons hb ht =>
      rcases List.mem_cons.1 hd with rfl | hd
      · exact hb
      · exact all2_map_self ht d hd

/-! ## Commands that were read -/

theorem mem_imExtend {V : Type} {p : Str × V} : ∀ {l' l : List (Str × V)}, p ∈ imExtend l l' → p ∈ l ∨ p ∈ l' := by
  intro l'
  induction l' with
  | nil => exact fun h => .inl h
  | cons q l' ih =>
    intro l h
    have h : p ∈ imExtend (imInsert q.1 q.2 l) l' := h
    rcases ih h with h | h
    · have aux : ∀ l : List (Str × V), p ∈ imInsert q.1 q.2 l → p = q ∨ p ∈ l := by
        intro l
        induction l with
        | nil => exact fun h => .inl (List.mem_singleton.1 h)
        | cons r l ih =>
          intro h
          obtain ⟨k, v⟩ := r
          unfold imInsert at h
          split at h
          · rcases List.mem_cons.1 h with h | h
            · exact .inl h
            · exact .inr (.tail _ h)
          · rcases List.mem_cons.1 h with rfl | h
            · exact .inr (.head _)
            · rcases ih h with h | h
              · exact .inl h
              · exact .inr (.tail _ h)
      rcases aux l h with rfl | h
      · exact .inr (.head _)
      · exact .inl h
    · exact .inr (.tail _ h)

theorem faithfulObj_iff {E : Env} : ∀ {l : List (Str × NVal)}, NVal.faithfulObj E l ↔ ∀ p ∈ l, p.2.faithful E
  | [] => by simp [NVal.faithfulObj]
  | (k, v) :: t => by
    simp only [NVal.faithfulObj, List.mem_cons, forall_eq_or_imp]
    rw [faithfulObj_iff]

theorem faithful_extend {E : Env} {r : List (Str × NVal)} (h : NVal.faithfulObj E r) :
    ((imExtend [] r).map (·.1)).Nodup ∧ NVal.faithfulObj E (imExtend [] r) := by
  refine ⟨imExtend_keys_nodup [] r List.nodup_nil, faithfulObj_iff.2 fun p hp => ?_⟩
  rcases mem_imExtend hp with h' | h'
  · cases h'
  · exact faithfulObj_iff.1 h p h'

mutual
theorem NVal.ofJson_faithful (E : Env) : ∀ (j : Json) (v : NVal), NVal.ofJson E j = some v → v.faithful E
  | .str s, v, h => by
    simp only [NVal.ofJson] at h
    split at h
    · next r hr => cases h; exact (((C07_reference_parse_spec E s).1 r).1 hr).2
    · next hr =>
      cases h
      show (RefVal.parse E s).isOk = false
      cases he : RefVal.parse E s with
      | ok r => exact absurd he (hr r)
      | err _ => rfl
      | panic => rfl
  | .obj l, v, h => by
    simp only [NVal.ofJson] at h
    obtain ⟨r, hr, rfl⟩ := Option.map_eq_some_iff.1 h
    exact faithful_extend (NVal.ofJsonObj_faithful E l r hr)
  | .arr l, v, h => by
    simp only [NVal.ofJson] at h
    obtain ⟨r, hr, rfl⟩ := Option.map_eq_some_iff.1 h
    exact NVal.ofJsonArr_faithful E l r hr
  | .null, v, h => by simp [NVal.ofJson] at h
  | .bool _, v, h => by simp [NVal.ofJson] at h
  | .num _, v, h => by simp [NVal.ofJson] at h
theorem NVal.ofJsonObj_faithful (E : Env) : ∀ (l : List (Str × Json)) (r : List (Str × NVal)), NVal.ofJsonObj E l = some r → NVal.faithfulObj E r
  | [], r, h => by simp only [NVal.ofJsonObj] at h; cases h; trivial
  | (k, j) :: t, r, h => by
    simp only [NVal.ofJsonObj] at h
    split at h
    · cases h
    · next v hv =>
      obtain ⟨r', hr, rfl⟩ := Option.map_eq_some_iff.1 h
      exact ⟨NVal.ofJson_faithful E j v hv, NVal.ofJsonObj_faithful E t r' hr⟩
theorem NVal.ofJsonArr_faithful (E : Env) : ∀ (l : List Json) (r : List NVal), NVal.ofJsonArr E l = some r → NVal.faithfulArr E r
  | [], r, h => by simp only [NVal.ofJsonArr] at h; cases h; trivial
  | j :: t, r, h => by
    simp only [NVal.ofJsonArr] at h
    split at h
    · cases h
    · next v hv =>
      obtain ⟨r', hr, rfl⟩ := Option.map_eq_some_iff.1 h
      exact ⟨NVal.ofJson_faithful E j v hv, NVal.ofJsonArr_faithful E t r' hr⟩
end

theorem valsOfJson_faithful {E : Env} {j : Option Json} {o : Option (List (Str × NVal))} (h : valsOfJson E j = .ok o) : faithfulVals E o := by
  unfold valsOfJson at h
  split at h
  · cases h; exact fun _ e => by cases e
  · cases h; exact fun _ e => by cases e
  · split at h
    · next r hr => cases h; intro l e; cases e; exact faithful_extend (NVal.ofJsonObj_faithful E _ _ hr)
    · cases h
  · cases h

theorem attrsOfJson_faithful {E : Env} {j : Option Json} {o : Option (List (Str × NAttr))} (h : attrsOfJson E j = .ok o) : faithfulAttrs E o := by
  unfold attrsOfJson at h
  split at h
  · cases h; exact fun _ e => by cases e
  · cases h; exact fun _ e => by cases e
  · split at h
    · next l r hr =>
      cases h
      intro l' e
      cases e
      refine ⟨imExtend_keys_nodup [] r List.nodup_nil, fun p hp => ?_⟩
      rcases mem_imExtend hp with h' | h'
      · cases h'
      · have := collectRes_round _ _ _ hr
        clear hr hp
        induction this with
        | nil => cases h'
        | cons hb _ ih =>
          rcases List.mem_cons.1 h' with rfl | hc
          · split at hb
            · next ha => cases hb; exact NAttr.ofJson_wf ha
            · cases hb
            · cases hb
          · exact ih hc
    · cases h
    · cases h
  · cases h

/-- an attribute mapping: its JSON cannot be read (C06) -/
def Command.isMapping (c : Command) : Prop := ∃ v cc, c.obj = .overlay ⟨.attributeMapping, v⟩ cc

theorem fromStr_ver {s : Str} {t : OverlayType} (h : OverlayType.fromStr s = some t) : t.ver = c!"1.1" := by
  obtain ⟨k, hk, rfl⟩ := Option.map_eq_some_iff.1 h
  rfl

theorem objKind_faithful {E : Env} {kind : Str} {j : Json} {o : ObjKind} (h : objKindOfJson E kind j = .ok o) (k : CmdType) :
    Command.faithful E ⟨k, o⟩ ∨ Command.isMapping ⟨k, o⟩ := by
  unfold objKindOfJson at h
  split at h
  · split at h
    · next c hc =>
      cases h
      unfold CaptureContent.ofJson at hc
      split at hc
      · obtain ⟨_, -, hc⟩ := Res.bind_eq_ok.1 (show Res.bind _ _ = _ from hc)
        obtain ⟨_, -, hc⟩ := Res.bind_eq_ok.1 (show Res.bind _ _ = _ from hc)
        obtain ⟨_, -, hc⟩ := Res.bind_eq_ok.1 (show Res.bind _ _ = _ from hc)
        obtain ⟨_, ha, hc⟩ := Res.bind_eq_ok.1 (show Res.bind _ _ = _ from hc)
        obtain ⟨_, hp, hc⟩ := Res.bind_eq_ok.1 (show Res.bind _ _ = _ from hc)
        obtain ⟨_, -, hc⟩ := Res.bind_eq_ok.1 (show Res.bind _ _ = _ from hc)
        cases hc
        exact .inl ⟨attrsOfJson_faithful ha, valsOfJson_faithful hp⟩
      · cases hc
    · cases h
    · cases h
  · split at h
    · split at h
      · next r hr =>
        cases h
        unfold bundleContentOfJson at hr
        split at hr
        · split at hr
          · next s _ =>
            cases he : RefVal.parse E s with
            | ok r' => rw [he] at hr; cases hr; exact .inl (((C07_reference_parse_spec E s).1 _).1 he).2
            | err _ => rw [he] at hr; cases hr
            | panic => rw [he] at hr; cases hr
          · cases hr
        · cases hr
      · cases h
      · cases h
    · split at h
      · cases h
      · next t ht =>
        split at h
        · next c hc =>
          cases h
          unfold Content.ofJson at hc
          split at hc
          · obtain ⟨_, -, hc⟩ := Res.bind_eq_ok.1 (show Res.bind _ _ = _ from hc)
            obtain ⟨_, -, hc⟩ := Res.bind_eq_ok.1 (show Res.bind _ _ = _ from hc)
            obtain ⟨_, ha, hc⟩ := Res.bind_eq_ok.1 (show Res.bind _ _ = _ from hc)
            obtain ⟨_, hp, hc⟩ := Res.bind_eq_ok.1 (show Res.bind _ _ = _ from hc)
            cases hc
            by_cases hk : t.kind = .attributeMapping
            · obtain ⟨k, v⟩ := t
              cases hk
              exact .inr ⟨v, _, rfl⟩
            · exact .inl ⟨fromStr_ver ht, hk, valsOfJson_faithful ha, valsOfJson_faithful hp⟩
          · cases hc
        · cases h
        · cases h

theorem visit_faithful {E : Env} : ∀ (kind : Option CmdType) (ok : Option ObjKind) (l : List (Str × Json)) (c : Command),
    (∀ o, ok = some o → ∀ k, Command.faithful E ⟨k, o⟩ ∨ Command.isMapping ⟨k, o⟩) →
    Command.visit E kind ok l = .ok c → c.faithful E ∨ c.isMapping := by
  intro kind ok l
  induction kind, ok, l using Command.visit.induct with
  | case1 k o => intro c ho h; simp only [Command.visit] at h; cases h; exact ho o rfl k
  | case2 kind ok hn => intro c ho h; unfold Command.visit at h; split at h <;> simp_all
  | case3 kind ok v ih =>
    intro c ho h
    simp only [Command.visit, if_true] at h
    obtain ⟨k, -, h⟩ := Res.bind_eq_ok.1 (show Res.bind _ _ = _ from h)
    exact ih k c ho h
  | case4 kind ok key v hk => intro c ho h; simp [Command.visit, hk] at h
  | case5 kind ok v key' j t ih =>
    intro c ho h
    simp only [Command.visit, if_true] at h
    obtain ⟨k, -, h⟩ := Res.bind_eq_ok.1 (show Res.bind _ _ = _ from h)
    exact ih k c ho h
  | case6 kind ok v key' j t hk ih =>
    intro c ho h
    rw [Command.visit, if_neg hk, if_pos rfl] at h
    obtain ⟨o, hv, h⟩ := Res.bind_eq_ok.1 (show Res.bind _ _ = _ from h)
    refine ih o c ?_ h
    intro o' e k
    cases e
    unfold visitObj at hv
    split at hv
    · exact objKind_faithful hv k
    · cases hv
  | case7 kind ok key v key' j t hk hk' => intro c ho h; rw [Command.visit, if_neg hk, if_neg hk'] at h; cases h

/-- **C65** Every command read from any JSON is one that reads back, except an attribute mapping. -/
theorem C65_read_commands (E : Env) (j : Json) (c : Command) (h : Command.ofJson E j = .ok c) : c.faithful E ∨ c.isMapping := by
  cases j with
  | obj l => exact visit_faithful none none l c (fun _ e => by cases e) h
  | _ => cases h

/-- **C65** An attribute mapping is read under the name `Mapping` and written under `AttributeMapping`, which is not read. -/
theorem C65_mapping_lost (E : Env) (k : CmdType) :
    ∃ c, Command.ofJson E (.obj [(c!"type", .str k.toStr), (c!"object_kind", .str c!"Mapping"), (c!"content", .obj [])]) = .ok c ∧
      c.isMapping ∧ Command.ofJson E c.toJson = .err () := by
  refine ⟨⟨k, .overlay ⟨.attributeMapping, c!"1.1"⟩ ⟨none, none⟩⟩, ?_, ⟨_, _, rfl⟩, C06_attribute_mapping_lost E k _ _⟩
  cases k <;> rfl

/-! ## OCA trees -/

/-- A tree that can be written and read back. -/
structure OCAAst.Sound (E : Env) (a : OCAAst) : Prop where
  commands : ∀ c ∈ a.commands, c.faithful E
  metas : MetasFit a.commandsMeta

/-- **C65** A tree is read back from its JSON, whatever the order in which its metadata is written, exactly when its commands are read back
from theirs and its line records are those of a program. -/
theorem C65_ast_reads_back (E : Env) (O : Order) (a : OCAAst) : OCAAst.ofJson E (a.toJson O) = .ok a ↔ a.Sound E := by
  constructor
  · intro h
    obtain ⟨v, cs, ms, m, l, js, rfl, hl, hj, hc, hm⟩ := treeOfJson_parts h
    cases hl
    have e : needField c!"commands" _ = .ok (.arr js) := hj
    cases e
    exact ⟨fun c hc' => (C06_reads_back_iff E c).1 (all2_map_self hc c hc'), hm⟩
  · rintro ⟨h1, h2⟩
    obtain ⟨v, cs, ms, m⟩ := a
    exact treeOfJson_json (Command.ofJson E) Command.toJson OCAAst.mk O 100 v cs ms m (fun c hc => C06_command_json_round_trip E c (h1 c hc)) h2

/-- **C65** Whatever JSON a tree was read from, if no attribute mapping is in it then writing and reading it again changes nothing. -/
theorem C65_ast_stable (E : Env) (O : Order) (j : Json) (a : OCAAst) (h : OCAAst.ofJson E j = .ok a) (hn : ∀ c ∈ a.commands, ¬ c.isMapping) :
    OCAAst.ofJson E (a.toJson O) = .ok a := by
  refine (C65_ast_reads_back E O a).2 ?_
  obtain ⟨v, cs, ms, m, l, js, rfl, hl, hj, hc, hm⟩ := treeOfJson_parts h
  refine ⟨fun c hc' => ?_, hm⟩
  obtain ⟨j, -, hr⟩ := all2_of_read hc c hc'
  exact (C65_read_commands E j c hr).resolve_right (hn c hc')

/-- **C65** The JSON says which tree it is: two trees with the same JSON are the same. -/
theorem C65_ast_injective (E : Env) (O O' : Order) (a b : OCAAst) (ha : a.Sound E) (hb : b.Sound E) (h : a.toJson O = b.toJson O') : a = b := by
  have := (C65_ast_reads_back E O a).2 ha
  rw [h, (C65_ast_reads_back E O' b).2 hb] at this
  exact (Res.ok.inj this).symm

theorem within_meta {m : CommandMeta} (h : m.lineNumber < 18446744073709551616) : m.toJson.Within 1 := by
  refine Json.within_obj (n := 0) fun p hp => ?_
  simp only [List.mem_cons, List.not_mem_nil, or_false] at hp
  rcases hp with rfl | rfl
  · exact ⟨h, Nat.le_refl _⟩
  · exact Json.within_str _ _

theorem within_tree {v : Str} {cs : List Json} {ms : List (Nat × CommandMeta)} {it : List (Str × Str)} (hc : ∀ c ∈ cs, c.Within 125)
    (hm : MetasFit ms) : (treeJson v cs ms it).Within 127 := by
  refine Json.within_obj (n := 126) fun p hp => ?_
  simp only [List.mem_cons, List.not_mem_nil, or_false] at hp
  rcases hp with rfl | rfl | rfl | rfl
  · exact Json.within_str _ _
  · exact Json.within_arr hc
  · refine (Json.within_obj (n := 1) fun q hq => ?_).mono (by decide)
    obtain ⟨x, hx, rfl⟩ := List.mem_map.1 hq
    exact within_meta (hm.2 x hx).2
  · refine (Json.within_obj (n := 0) fun q hq => ?_).mono (by decide)
    obtain ⟨x, hx, rfl⟩ := List.mem_map.1 hq
    exact Json.within_str _ _

/-- **C65** The same as text, if the commands are nested so that the whole stays under the limit of `serde_json`. -/
theorem C65_ast_text (E : Env) (S : Serde) (O : Order) (a : OCAAst) (h : a.Sound E) (hd : ∀ c ∈ a.commands, c.toJson.Within 125) :
    ∃ j, S.parse (S.print (a.toJson O)) = some j ∧ OCAAst.ofJson E j = .ok a := by
  have hw : (a.toJson O).Within 127 := by
    refine within_tree (fun c hc => ?_) h.metas
    obtain ⟨c, hc', rfl⟩ := List.mem_map.1 hc
    exact hd c hc'
  exact ⟨_, S.parse_print _ (Nat.lt_of_le_of_lt hw.2 (by decide)) hw.1, (C65_ast_reads_back E O a).2 h⟩

/-! ## Transformation trees -/

/-- what a content holds -/
def TObj.pairs : TObj → Option (List (Str × Str))
  | .rename o => o
  | .link o => o

/-- The attributes of a command are those of a map: no key twice. -/
def TCommand.faithful (c : TCommand) : Prop := ∀ l, c.obj.pairs = some l → (l.map (·.1)).Nodup

theorem tContent_json {o : Option (List (Str × Str))} (h : ∀ l, o = some l → (l.map (·.1)).Nodup) : tContentOfJson (tContentJson o) = some o := by
  cases o with
  | none => rfl
  | some l =>
    show tPairsOfJson (some (.obj (l.map fun p => (p.1, .str p.2)))) = _
    simp only [tPairsOfJson, allSome_strs, Option.map_some, imExtend_nil l (h l rfl)]

theorem tContent_nodup {j : Json} {o : Option (List (Str × Str))} (h : tContentOfJson j = some o) : ∀ l, o = some l → (l.map (·.1)).Nodup := by
  unfold tContentOfJson at h
  split at h
  · cases h
  · obtain ⟨x, -, hx⟩ := Option.bind_eq_some_iff.1 h
    unfold tPairsOfJson at hx
    split at hx
    · cases hx; exact fun _ e => by cases e
    · cases hx; exact fun _ e => by cases e
    · obtain ⟨r, -, rfl⟩ := Option.map_eq_some_iff.1 hx
      intro l e
      cases e
      exact imExtend_keys_nodup [] r List.nodup_nil
    · cases hx

/-- **C65** A transformation command reads back. -/
theorem C65_trans_command (c : TCommand) (h : c.faithful) : TCommand.ofJson c.toJson = some c := by
  obtain ⟨k, o⟩ := c
  cases o with
  | rename o =>
    have := tContent_json (o := o) h
    cases k <;> simp [TCommand.ofJson, TCommand.toJson, TObj.toFields, TCommand.visit, tVisitType, variantName, TKind.toStr, TKind.ofStr,
      tVisitObj, jStr, tNext, this]
  | link o =>
    have := tContent_json (o := o) h
    cases k <;> simp [TCommand.ofJson, TCommand.toJson, TObj.toFields, TCommand.visit, tVisitType, variantName, TKind.toStr, TKind.ofStr,
      tVisitObj, jStr, tNext, this]

theorem tVisit_faithful : ∀ (n : Nat) (l : List (Str × Json)), l.length ≤ n → ∀ (kind : Option TKind) (o : Option TObj) (c : TCommand),
    (∀ x, o = some x → ∀ l, x.pairs = some l → (l.map (·.1)).Nodup) → TCommand.visit kind o l = some c → c.faithful := by
  intro n
  induction n with
  | zero =>
    intro l hl kind o c ho h
    cases l with
    | nil =>
      unfold TCommand.visit at h
      split at h
      · cases h; exact ho _ rfl
      · cases h
    | cons => simp at hl
  | succ n ih =>
    intro l hl kind o c ho h
    match l, hl, h with
    | [], _, h =>
      unfold TCommand.visit at h
      split at h
      · cases h; exact ho _ rfl
      · cases h
    | [(key, v)], hl, h =>
      unfold TCommand.visit at h
      split at h
      · split at h
        · exact ih [] (by simp) _ _ c ho h
        · cases h
      · split at h
        · split at h
          · exact ih [] (by simp) _ _ c ho h
          · cases h
        · cases h
    | (key, v) :: (key', j) :: t, hl, h =>
      unfold TCommand.visit at h
      split at h
      · split at h
        · exact ih _ (by simp at hl ⊢; omega) _ _ c ho h
        · cases h
      · split at h
        · split at h
          · next f hf =>
            split at h
            · next a ha =>
              refine ih _ (by simp at hl ⊢; omega) _ _ c ?_ h
              intro x e
              cases e
              unfold tVisitObj at hf
              split at hf
              · obtain ⟨s, -, hs⟩ := Option.map_eq_some_iff.1 hf
                unfold tNext at hs
                split at hs
                · cases hs; exact tContent_nodup ha
                · split at hs
                  · cases hs; exact tContent_nodup ha
                  · cases hs
              · cases hf
            · cases h
          · exact ih _ (by simp at hl ⊢; omega) _ _ c ho h
          · cases h
        · cases h

/-- **C65** Every transformation command read from any JSON reads back. -/
theorem C65_trans_read_commands (j : Json) (c : TCommand) (h : TCommand.ofJson j = some c) : c.faithful := by
  cases j with
  | obj l => exact tVisit_faithful l.length l (Nat.le_refl _) none none c (fun _ e => by cases e) h
  | _ => cases h

/-- A transformation tree that can be written and read back. -/
structure TAst.Sound (a : TAst) : Prop where
  commands : ∀ c ∈ a.commands, c.faithful
  metas : MetasFit a.commandsMeta

/-- **C65** A transformation tree is read back from its JSON exactly when it is one a program can hold. -/
theorem C65_trans_reads_back (O : Order) (a : TAst) : TAst.ofJson (a.toJson O) = .ok a ↔ a.Sound := by
  constructor
  · intro h
    obtain ⟨v, cs, ms, m, l, js, rfl, hl, hj, hc, hm⟩ := treeOfJson_parts h
    refine ⟨fun c hc' => ?_, hm⟩
    obtain ⟨j, -, hr⟩ := all2_of_read hc c hc'
    exact C65_trans_read_commands j c (ofOption_ok.1 hr)
  · rintro ⟨h1, h2⟩
    obtain ⟨v, cs, ms, m⟩ := a
    exact treeOfJson_json (fun j => DRes.ofOption (TCommand.ofJson j)) TCommand.toJson TAst.mk O 101 v cs ms m
      (fun c hc => ofOption_ok.2 (C65_trans_command c (h1 c hc))) h2

/-- **C65** Whatever JSON a transformation tree was read from, writing and reading it again changes nothing. -/
theorem C65_trans_stable (O : Order) (j : Json) (a : TAst) (h : TAst.ofJson j = .ok a) : TAst.ofJson (a.toJson O) = .ok a := by
  refine (C65_trans_reads_back O a).2 ?_
  obtain ⟨v, cs, ms, m, l, js, rfl, hl, hj, hc, hm⟩ := treeOfJson_parts h
  refine ⟨fun c hc' => ?_, hm⟩
  obtain ⟨j, -, hr⟩ := all2_of_read hc c hc'
  exact C65_trans_read_commands j c (ofOption_ok.1 hr)

/-- **C65** Reading a transformation tree never aborts, whatever the JSON. -/
theorem C65_trans_no_abort (j : Json) : TAst.ofJson j ≠ .panic := by
  have ho : ∀ {α : Type} (o : Option α), DRes.ofOption o ≠ .panic := by intro α o; cases o <;> simp [DRes.ofOption]
  have hn : ∀ k l, needField k l ≠ .panic := by
    intro k l
    unfold needField
    split <;> simp
  have hv : ∀ j, vecOfJson (fun j => DRes.ofOption (TCommand.ofJson j)) j ≠ .panic := by
    intro j
    unfold vecOfJson
    split
    · next l =>
      induction l with
      | nil => simp [collectRes]
      | cons a l ih =>
        simp only [collectRes]
        split
        · split <;> simp_all
        · simp
        · next h => exact absurd h (ho _)
    · simp
  have bind : ∀ {α β : Type} (r : DRes α) (f : α → DRes β), r ≠ .panic → (∀ a, f a ≠ .panic) → (r >>= f) ≠ .panic := by
    intro α β r f h1 h2
    cases r with
    | ok a => exact h2 a
    | err e => exact fun h => by cases h
    | panic => exact absurd rfl h1
  unfold TAst.ofJson treeOfJson
  split
  · simp
  · exact bind _ _ (hn _ _) fun _ => bind _ _ (ho _) fun _ => bind _ _ (hn _ _) fun _ => bind _ _ (hv _) fun _ => bind _ _ (hn _ _) fun _ =>
      bind _ _ (ho _) fun _ => bind _ _ (hn _ _) fun _ => bind _ _ (ho _) fun _ => fun h => by cases h

end OCA
