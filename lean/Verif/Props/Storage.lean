import Verif.Model.Storage
import Verif.Props.JsonText
import Verif.Props.CommandJson
import Verif.Model.Build
/-!
# C32, C33: records decode to what was stored; C35: storage is a map
-/
namespace OCA

/-! ## Texts -/

theorem utf8Chars_utf8 (s : Str) : ∀ n, (utf8 s).length ≤ n → utf8Chars n (utf8 s) = some s := by
  induction s with
  | nil => intro n _; cases n <;> rfl
  | cons c s ih =>
    intro n hn
    have e : utf8 (c :: s) = String.utf8EncodeChar c ++ utf8 s := rfl
    have hl : (String.utf8EncodeChar c).length = c.utf8Size := String.length_utf8EncodeChar c
    have h4 := c.utf8Size_le_four
    have h1 := c.utf8Size_pos
    rw [e, List.length_append, hl] at hn
    cases n with
    | zero => omega
    | succ n =>
      have hcons : ∃ x t, String.utf8EncodeChar c ++ utf8 s = x :: t := by
        cases h : String.utf8EncodeChar c with
        | nil => rw [h] at hl; simp at hl; omega
        | cons x t => exact ⟨x, _, rfl⟩
      obtain ⟨x, t, hx⟩ := hcons
      have hstep : utf8Chars (n + 1) (String.utf8EncodeChar c ++ utf8 s) =
          match ByteArray.utf8DecodeChar? ((String.utf8EncodeChar c ++ utf8 s).take 4).toByteArray 0 with
          | none => none
          | some c' => (utf8Chars n ((String.utf8EncodeChar c ++ utf8 s).drop c'.utf8Size)).map (c' :: ·) := by
        rw [hx]; rfl
      have ht : (String.utf8EncodeChar c ++ utf8 s).take 4 = String.utf8EncodeChar c ++ (utf8 s).take (4 - c.utf8Size) := by
        rw [List.take_append, hl, List.take_of_length_le (by omega)]
      rw [e, hstep, ht, List.toByteArray_append, ByteArray.utf8DecodeChar?_utf8EncodeChar_append]
      dsimp only
      rw [← hl, List.drop_left, ih n (by omega)]
      rfl

theorem fromUtf8_utf8 (s : Str) : fromUtf8 (utf8 s) = some s := utf8Chars_utf8 s _ (Nat.le_refl _)

theorem toByteArray_inj {a b : List UInt8} (h : a.toByteArray = b.toByteArray) : a = b := by
  have := congrArg (fun x => x.data.toList) h
  simpa using this

theorem utf8Chars_sound : ∀ (n : Nat) (b : Bytes) (s : Str), utf8Chars n b = some s → utf8 s = b := by
  intro n
  induction n with
  | zero =>
    intro b s h
    cases b with
    | nil => cases h; rfl
    | cons x t => cases h
  | succ n ih =>
    intro b s h
    cases b with
    | nil => cases h; rfl
    | cons x t =>
      rw [utf8Chars] at h
      · split at h
        · cases h
        · next c hc =>
          obtain ⟨s', h1, rfl⟩ := Option.map_eq_some_iff.1 h
          have h2 := ih _ _ h1
          have h3 := String.toByteArray_utf8EncodeChar_of_utf8DecodeChar?_eq_some hc
          have h4 : ((x :: t).take 4).toByteArray.extract 0 c.utf8Size = ((x :: t).take c.utf8Size).toByteArray := by
            have := c.utf8Size_le_four
            have e : ((x :: t).take 4).take c.utf8Size = (x :: t).take c.utf8Size := by rw [List.take_take, Nat.min_eq_left this]
            rw [← e]
            ext1
            simp
          rw [h4] at h3
          show String.utf8EncodeChar c ++ utf8 s' = _
          rw [h2, toByteArray_inj h3, List.take_append_drop]
      · intro e; cases e

/-- The decoder used in the model: a list of bytes decodes to a text exactly when it is the UTF-8 encoding of the text. -/
theorem fromUtf8_iff (b : Bytes) (s : Str) : fromUtf8 b = some s ↔ utf8 s = b :=
  ⟨utf8Chars_sound _ b s, fun h => by rw [← h]; exact fromUtf8_utf8 s⟩

theorem fromUtf8Lossy_utf8 (s : Str) : fromUtf8Lossy (utf8 s) = s := by
  unfold fromUtf8Lossy
  rw [fromUtf8_utf8]
  rfl

theorem utf8_inj {s t : Str} (h : utf8 s = utf8 t) : s = t := by
  have := congrArg fromUtf8 h
  rw [fromUtf8_utf8, fromUtf8_utf8] at this
  exact Option.some.inj this

/-! ## C32 -/

/-- **C32** For every parent whose text takes at most 255 bytes and every command, writing the record succeeds
and decoding it gives that parent (empty for none) and the text of that command. -/
theorem C32_operation_round_trip {ε : Type} (S : Serde) (parent : Option Said) (j : Json)
    (h : ∀ s, parent = some s → (utf8 s).length ≤ 255) :
    ∃ r, (operationBytes S parent j : Res ε _) = .ok r ∧
      (operationParse r : Res ε _) = .ok (parent.getD [], S.print j) := by
  cases parent with
  | none =>
    refine ⟨_, rfl, ?_⟩
    show operationParse ((0 : UInt8) :: utf8 (S.print j)) = _
    simp only [operationParse, UInt8.toNat_zero, Nat.zero_le, if_true, List.take_zero, List.drop_zero,
      fromUtf8Lossy_utf8]
    rfl
  | some s =>
    have hl := h s rfl
    have hlt : (utf8 s).length < 256 := by omega
    refine ⟨UInt8.ofNat (utf8 s).length :: utf8 s ++ utf8 (S.print j), ?_, ?_⟩
    · simp only [operationBytes, parentBytes, lenPrefixed, lenByte, hlt, if_true, Res.bind_ok]
      rfl
    · have hn : (UInt8.ofNat (utf8 s).length).toNat = (utf8 s).length := by
        rw [UInt8.toNat_ofNat']
        exact Nat.mod_eq_of_lt hlt
      simp only [operationParse, List.cons_append, hn, List.length_append, Nat.le_add_right, if_true,
        List.take_left', List.drop_left', fromUtf8Lossy_utf8, Option.getD_some]

/-- Writing aborts when the parent is longer than a byte can say. -/
theorem C32_long_parent_aborts {ε : Type} (S : Serde) (s : Said) (j : Json) (h : 255 < (utf8 s).length) :
    (operationBytes S (some s) j : Res ε _) = .panic := by
  have : ¬ (utf8 s).length < 256 := by omega
  simp only [operationBytes, parentBytes, lenPrefixed, lenByte, this, if_false]
  rfl

/-- A text of ASCII characters takes one byte per character, so a SAID (44 characters) fits. -/
theorem utf8_ascii (s : Str) (h : ∀ c ∈ s, c.val < 128) : (utf8 s).length = s.length := by
  induction s with
  | nil => rfl
  | cons c t ih =>
    unfold utf8 at ih ⊢
    rw [List.flatMap_cons, List.length_append, ih fun c hc => h c (.tail _ hc)]
    have hc := h c (.head _)
    have : (String.utf8EncodeChar c).length = 1 := by
      rw [String.length_utf8EncodeChar]
      unfold Char.utf8Size
      have : c.val ≤ 127 := by
        rw [UInt32.le_iff_toNat_le]
        rw [UInt32.lt_iff_toNat_lt] at hc
        exact Nat.le_of_lt_succ hc
      simp [this]
    rw [this]
    simp only [List.length_cons]
    omega

/-- The reader and the printer of JSON text are an instance of what is assumed of `serde_json`. -/
def Serde.text : Serde := ⟨Json.print, Json.read, Json.read_print⟩

mutual
theorem NAttr.small (t : NAttr) : t.toJson.Small := by
  match t with
  | .ref r => rw [NAttr.toJson]; trivial
  | .val v => rw [NAttr.toJson]; trivial
  | .arr t => rw [NAttr.toJson]; exact ⟨NAttr.small t, trivial⟩
  | .null => rw [NAttr.toJson]; trivial
end

mutual
theorem NVal.small (v : NVal) : v.toJson.Small := by
  match v with
  | .ref r => rw [NVal.toJson]; trivial
  | .val v => rw [NVal.toJson]; trivial
  | .obj l => rw [NVal.toJson]; exact NVal.smallObj l
  | .arr l => rw [NVal.toJson]; exact NVal.smallArr l

theorem NVal.smallObj (l : List (Str × NVal)) : Json.SmallObj (NVal.toJsonObj l) := by
  match l with
  | [] => rw [NVal.toJsonObj]; trivial
  | (k, v) :: t => rw [NVal.toJsonObj]; exact ⟨NVal.small v, NVal.smallObj t⟩

theorem NVal.smallArr (l : List NVal) : Json.SmallArr (NVal.toJsonArr l) := by
  match l with
  | [] => rw [NVal.toJsonArr]; trivial
  | v :: t => rw [NVal.toJsonArr]; exact ⟨NVal.small v, NVal.smallArr t⟩
end

theorem smallObj_iff (l : List (Str × Json)) : Json.SmallObj l ↔ ∀ p ∈ l, p.2.Small := by
  induction l with
  | nil => exact ⟨fun _ _ h => (by cases h), fun _ => trivial⟩
  | cons p t ih =>
    obtain ⟨k, j⟩ := p
    rw [Json.SmallObj, ih, List.forall_mem_cons]

theorem smallArr_iff (l : List Json) : Json.SmallArr l ↔ ∀ p ∈ l, p.Small := by
  induction l with
  | nil => exact ⟨fun _ _ h => (by cases h), fun _ => trivial⟩
  | cons p t ih => rw [Json.SmallArr, ih, List.forall_mem_cons]

theorem optField_small (k : Str) (o : Option Json) (h : ∀ j, o = some j → j.Small) : ∀ p ∈ optField k o, p.2.Small := by
  cases o with
  | none => intro p hp; cases hp
  | some j =>
    intro p hp
    cases List.mem_singleton.mp hp
    exact h j rfl

/-- No number is ever written for a command. -/
theorem Command.small (c : Command) : c.toJson.Small := by
  obtain ⟨k, o⟩ := c
  rw [Command.toJson, Json.Small, smallObj_iff]
  intro p hp
  simp only [List.mem_append, List.mem_cons, List.not_mem_nil, or_false] at hp
  rcases hp with rfl | hp
  · trivial
  · cases o with
    | captureBase cc =>
      simp only [ObjKind.toFields, List.mem_append, List.mem_cons, List.not_mem_nil, or_false] at hp
      rcases hp with rfl | rfl
      · trivial
      · show (CaptureContent.toJson cc).Small
        rw [CaptureContent.toJson, Json.Small, smallObj_iff]
        intro p hp
        simp only [List.mem_append] at hp
        rcases hp with (hp | hp) | hp
        · refine optField_small _ _ ?_ p hp
          intro j hj
          rw [Option.map_eq_some_iff] at hj
          obtain ⟨l, _, rfl⟩ := hj
          rw [Json.Small, smallObj_iff]
          intro q hq
          obtain ⟨x, _, rfl⟩ := List.mem_map.mp hq
          exact NAttr.small _
        · refine optField_small _ _ ?_ p hp
          intro j hj
          rw [Option.map_eq_some_iff] at hj
          obtain ⟨l, _, rfl⟩ := hj
          exact NVal.smallObj l
        · refine optField_small _ _ ?_ p hp
          intro j hj
          rw [Option.map_eq_some_iff] at hj
          obtain ⟨l, _, rfl⟩ := hj
          rw [Json.Small, smallArr_iff]
          intro q hq
          obtain ⟨x, _, rfl⟩ := List.mem_map.mp hq
          trivial
    | ocaBundle r =>
      simp only [ObjKind.toFields, List.mem_append, List.mem_cons, List.not_mem_nil, or_false] at hp
      rcases hp with rfl | rfl <;> first | trivial | exact ⟨trivial, trivial⟩
    | overlay t cc =>
      simp only [ObjKind.toFields, List.mem_append, List.mem_cons, List.not_mem_nil, or_false] at hp
      rcases hp with rfl | rfl
      · trivial
      · show (Content.toJson cc).Small
        rw [Content.toJson, Json.Small, smallObj_iff]
        intro p hp
        simp only [List.mem_append] at hp
        rcases hp with hp | hp
        · refine optField_small _ _ ?_ p hp
          intro j hj
          rw [Option.map_eq_some_iff] at hj
          obtain ⟨l, _, rfl⟩ := hj
          exact NVal.smallObj l
        · refine optField_small _ _ ?_ p hp
          intro j hj
          rw [Option.map_eq_some_iff] at hj
          obtain ⟨l, _, rfl⟩ := hj
          exact NVal.smallObj l

/-- **C32** The text of the command is read back as that command: for every command that survives JSON (C06) and is
nested less than 128 deep. -/
theorem C32_command_read_back (E : Env) (S : Serde) (c : Command) (h : c.faithful E) (hd : c.toJson.depth < 128) :
    ∃ j, S.parse (S.print c.toJson) = some j ∧ Command.ofJson E j = .ok c :=
  ⟨_, S.parse_print _ hd c.small, C06_command_json_round_trip E c h⟩

example (S : Serde) (j : Json) : ∃ r, (operationBytes S (some (List.replicate 44 'E')) j : Res Str _) = .ok r ∧
    (operationParse r : Res Str _) = .ok (List.replicate 44 'E', S.print j) :=
  C32_operation_round_trip S (some (List.replicate 44 'E')) j (by
    intro s hs
    cases hs
    rw [utf8_ascii _ (by intro c hc; rw [List.eq_of_mem_replicate hc]; decide)]
    decide)

/-! ## C33 -/

/-- a relation that can be written -/
def RelObj.Fits (o : RelObj) : Prop := (utf8 o.1).length ≤ 255 ∧ o.2 ≤ 22

theorem code_ofCode : ∀ n ≤ 22, ∃ o, ObjKind.ofCode n = .ok o ∧ o.code = n := by
  intro n h
  have : n = 0 ∨ n = 1 ∨ n = 2 ∨ n = 3 ∨ n = 4 ∨ n = 5 ∨ n = 6 ∨ n = 7 ∨ n = 8 ∨ n = 9 ∨ n = 10 ∨
    n = 11 ∨ n = 12 ∨ n = 13 ∨ n = 14 ∨ n = 15 ∨ n = 16 ∨ n = 17 ∨ n = 18 ∨ n = 19 ∨ n = 20 ∨
    n = 21 ∨ n = 22 := by omega
  rcases this with rfl | rfl | rfl | rfl | rfl | rfl | rfl | rfl | rfl | rfl | rfl | rfl | rfl |
    rfl | rfl | rfl | rfl | rfl | rfl | rfl | rfl | rfl | rfl <;> exact ⟨_, rfl, rfl⟩

theorem relObjParse_ok {ε : Type} (o : RelObj) (h : o.Fits) :
    (relObjParse (UInt8.ofNat o.2 :: UInt8.ofNat (utf8 o.1).length :: utf8 o.1) : Res ε _) = .ok o := by
  obtain ⟨s, c⟩ := o
  obtain ⟨h1, h2⟩ := h
  dsimp only at h1 h2 ⊢
  have hn : (UInt8.ofNat (utf8 s).length).toNat = (utf8 s).length := by
    rw [UInt8.toNat_ofNat']
    exact Nat.mod_eq_of_lt (by omega)
  have hc : (UInt8.ofNat c).toNat = c := by
    rw [UInt8.toNat_ofNat']
    exact Nat.mod_eq_of_lt (by omega)
  obtain ⟨k, hk, hk2⟩ := code_ofCode c h2
  simp only [relObjParse, hn, Nat.le_refl, if_true, List.take_length, fromUtf8_utf8, hc, hk, hk2]

theorem relsBytes_ok {ε : Type} (l : List RelObj) (h : ∀ o ∈ l, o.Fits) :
    ∃ b, (relsBytes l : Res ε _) = .ok b ∧ l.length * 2 ≤ b.length ∧
      ∀ fuel acc, l.length ≤ fuel → (relsParse fuel acc b : Res ε _) = .ok (l.foldl setInsert acc) := by
  induction l with
  | nil =>
    refine ⟨[], rfl, Nat.le_refl _, ?_⟩
    intro fuel acc _
    cases fuel <;> rfl
  | cons o t ih =>
    obtain ⟨b, hb, hlen, hp⟩ := ih fun o ho => h o (.tail _ ho)
    have ho := h o (.head _)
    have hlt : (utf8 o.1).length < 256 := by have := ho.1; omega
    have hn : (UInt8.ofNat (utf8 o.1).length).toNat = (utf8 o.1).length := by
      rw [UInt8.toNat_ofNat']
      exact Nat.mod_eq_of_lt hlt
    refine ⟨UInt8.ofNat o.2 :: UInt8.ofNat (utf8 o.1).length :: utf8 o.1 ++ b, ?_, ?_, ?_⟩
    · simp only [relsBytes, relBytes, lenByte, hlt, if_true, Res.bind_ok, hb]
      rfl
    · simp only [List.length_cons, List.length_append]
      omega
    · intro fuel acc hf
      cases fuel with
      | zero => simp at hf
      | succ fuel =>
        simp only [List.cons_append, relsParse, hn, List.length_append, Nat.le_add_right, if_true,
          List.take_left', List.drop_left']
        rw [relObjParse_ok o ho, Res.bind_ok, hp fuel _ (by simpa using hf)]
        rfl

theorem foldl_setInsert_nodup {α : Type} [DecidableEq α] (l acc : List α) (h : (acc ++ l).Nodup) :
    l.foldl setInsert acc = acc ++ l := by
  induction l generalizing acc with
  | nil => simp
  | cons a t ih =>
    have : a ∉ acc := by
      intro hm
      exact (List.nodup_append.mp h).2.2 a hm a (.head _) rfl
    have h' : ((acc ++ [a]) ++ t).Nodup := by rw [List.append_assoc]; exact h
    simp only [List.foldl_cons, setInsert, this, if_false]
    rw [ih _ h', List.append_assoc]
    rfl

/-- **C33** Every set of relations (SAIDs of at most 255 bytes, kinds that exist), written in any order, is decoded
to the same objects. -/
theorem C33_relations_round_trip {ε : Type} (l : List RelObj) (hn : l.Nodup)
    (h : ∀ o ∈ l, (utf8 o.1).length ≤ 255 ∧ o.2 ≤ 22) :
    ∃ b, (relsBytes l : Res ε _) = .ok b ∧ (relationsOf b : Res ε _) = .ok l := by
  obtain ⟨b, hb, hlen, hp⟩ := relsBytes_ok (ε := ε) l h
  refine ⟨b, hb, ?_⟩
  unfold relationsOf
  rw [hp b.length [] (by omega), foldl_setInsert_nodup l [] (by simpa using hn)]
  rfl

/-- Different sets are never written as the same bytes. -/
theorem C33_relations_injective {ε : Type} (l l' : List RelObj) (hn : l.Nodup) (hn' : l'.Nodup)
    (h : ∀ o ∈ l, (utf8 o.1).length ≤ 255 ∧ o.2 ≤ 22) (h' : ∀ o ∈ l', (utf8 o.1).length ≤ 255 ∧ o.2 ≤ 22)
    (e : (relsBytes l : Res ε _) = relsBytes l') : l = l' := by
  obtain ⟨b, hb, hp⟩ := C33_relations_round_trip (ε := ε) l hn h
  obtain ⟨b', hb', hp'⟩ := C33_relations_round_trip (ε := ε) l' hn' h'
  rw [hb, hb'] at e
  cases e
  rw [hp] at hp'
  exact Res.ok.inj hp'

/-- Two objects, of which one has an empty SAID. -/
example : ∃ b, (relsBytes [(c!"Eabc", 1), ([], 0)] : Res Str _) = .ok b ∧
    (relationsOf b : Res Str _) = .ok [(c!"Eabc", 1), ([], 0)] :=
  C33_relations_round_trip _ (by decide) (by decide)

/-! ## C35 -/

/-- Specification: the value of the last insert with this namespace and key. -/
def lastInsert (ns : Namespace) (k : Str) : List (Namespace × Str × Bytes) → Option Bytes
  | [] => none
  | op :: t => match lastInsert ns k t with
    | some v => some v
    | none => if op.1 = ns ∧ op.2.1 = k then some op.2.2 else none

theorem lastInsert_append (ns : Namespace) (k : Str) (l : List (Namespace × Str × Bytes)) (op : Namespace × Str × Bytes) :
    lastInsert ns k (l ++ [op]) = if op.1 = ns ∧ op.2.1 = k then some op.2.2 else lastInsert ns k l := by
  induction l with
  | nil => simp [lastInsert]
  | cons a t ih =>
    simp only [List.cons_append, lastInsert, ih]
    by_cases h : op.1 = ns ∧ op.2.1 = k
    · simp [h]
    · simp only [if_neg h]

theorem ns_inj {a b : Namespace} (h : a.str = b.str) : a = b := by
  cases a <;> cases b <;> first | rfl | (exact absurd h (by decide))

/-- the inserts, one after the other -/
def Store.run (s : Store) (ops : List (Namespace × Str × Bytes)) : Res Str Store :=
  foldRes (fun s op => s.insert op.1 op.2.1 op.2.2) s ops

theorem Store.get_insert (s s' : Store) (ns ns' : Namespace) (k k' : Str) (v : Bytes)
    (h : s.insert ns k v = .ok s') :
    s'.get ns' k' = if ns = ns' ∧ k = k' then .ok (some v) else s.get ns' k' := by
  unfold Store.insert at h
  cases h
  unfold Store.get
  rw [FMap.get_insert]
  by_cases e : ns = ns'
  · subst e
    rw [if_pos rfl]
    simp only [FMap.get_insert, true_and]
    by_cases ek : k' = k
    · subst ek; simp
    · have ek' : ¬ k = k' := fun e => ek e.symm
      simp only [ek, ek', if_false]
      cases FMap.get s ns.str <;> rfl
  · have : ns'.str ≠ ns.str := fun h => e (ns_inj h.symm)
    rw [if_neg this, if_neg (fun h => e h.1)]

theorem Store.insert_ok (s : Store) (ns : Namespace) (k : Str) (v : Bytes) : ∃ s', s.insert ns k v = .ok s' :=
  ⟨_, rfl⟩

/-- a run ends with its last operation -/
theorem foldRes_snoc {ε α β : Type} (f : β → α → Res ε β) (b : β) (l : List α) (a : α) :
    foldRes f b (l ++ [a]) = (foldRes f b l).bind fun b => f b a := by
  induction l generalizing b with
  | nil =>
    simp only [List.nil_append, foldRes]
    show _ = f b a
    cases f b a <;> rfl
  | cons x t ih =>
    simp only [List.cons_append, foldRes]
    cases hx : f b x with
    | ok b' => exact ih b'
    | err e => rfl
    | panic => rfl

/-- **C35** (in memory) After any sequence of inserts into an empty storage, every one of which succeeds, `get`
returns the value of the last insert with the same namespace and key. -/
theorem C35_memory_is_a_map (ops : List (Namespace × Str × Bytes)) :
    ∃ s, Store.new.run ops = .ok s ∧ ∀ ns k, s.get ns k = .ok (lastInsert ns k ops) := by
  induction ops using snoc_ind with
  | h0 => exact ⟨_, rfl, fun _ _ => rfl⟩
  | h1 l op ih =>
    obtain ⟨s, hs, hg⟩ := ih
    obtain ⟨s', h'⟩ := s.insert_ok op.1 op.2.1 op.2.2
    refine ⟨s', ?_, ?_⟩
    · unfold Store.run at hs ⊢
      rw [foldRes_snoc, hs]
      exact h'
    · intro ns k
      rw [Store.get_insert s s' _ _ _ _ _ h', hg, lastInsert_append]
      split <;> rfl

/-- `get_all` returns exactly the keys and values `get` returns. -/
theorem C35_get_all (s : Store) (ns : Namespace) : ∃ m, s.getAll ns = .ok m ∧ ∀ k, s.get ns k = .ok (m.get k) := by
  unfold Store.getAll Store.get
  cases FMap.get s ns.str with
  | none => exact ⟨_, rfl, fun _ => rfl⟩
  | some m =>
    refine ⟨m, rfl, fun k => ?_⟩
    dsimp only
    cases m.get k <;> rfl

/-- An opened Sled database gives the same answers as the storage in memory. -/
theorem C35_sled_same (s : Store) (ns : Namespace) (k : Str) (v : Bytes) :
    Sled.get ⟨some s⟩ ns k = s.get ns k ∧ Sled.getAll ⟨some s⟩ ns = s.getAll ns ∧
      ∃ s', s.insert ns k v = .ok s' ∧ Sled.insert ⟨some s⟩ ns k v = .ok ⟨some s'⟩ := by
  unfold Sled.get Sled.getAll Sled.insert Store.get Store.getAll Store.insert
  dsimp only
  cases FMap.get s ns.str with
  | none => exact ⟨rfl, rfl, _, rfl, rfl⟩
  | some m =>
    refine ⟨?_, rfl, _, rfl, rfl⟩
    simp only [Option.getD_some]
    cases m.get k <;> rfl

/-- One that was not opened answers every request with an error. -/
theorem C35_sled_unopened (ns : Namespace) (k : Str) (v : Bytes) :
    Sled.get ⟨none⟩ ns k = .err c!"Data Storage must be opened first" ∧
    Sled.getAll ⟨none⟩ ns = .err c!"Data Storage must be opened first" ∧
    Sled.insert ⟨none⟩ ns k v = .err c!"Data Storage must be opened first" := ⟨rfl, rfl, rfl⟩

/-! ### Files -/

/-- A key that is a plain file name. -/
def PlainName (k : Str) : Prop := k ≠ [] ∧ k ≠ c!"." ∧ k ≠ c!".." ∧ '/' ∉ k

theorem pathParts_plain (k : Str) (h : '/' ∉ k) : pathParts k = [k] := by
  induction k with
  | nil => rfl
  | cons c t ih =>
    simp only [List.mem_cons, not_or] at h
    have hc : c ≠ '/' := fun e => h.1 e.symm
    unfold pathParts
    split
    · rename_i e; cases e
    · rename_i e; cases e; exact absurd rfl hc
    · rename_i e
      cases e
      rw [ih h.2]

theorem pathPush_plain (d : List Str) (k : Str) (h : PlainName k) : pathPush d k = d ++ [k] := by
  obtain ⟨h1, h2, h3, h4⟩ := h
  unfold pathPush
  split
  · exact absurd (List.mem_cons_self ..) h4
  · rw [pathParts_plain k h4]
    simp only [List.foldl_cons, List.foldl_nil, pathStep, h1, h2, h3, or_self, if_false]

/-- the inserts, one after the other -/
def FileStore.run (s : FileStore) (ops : List (Namespace × Str × Bytes)) : Res Str FileStore :=
  foldRes (fun s op => s.insert op.1 op.2.1 op.2.2) s ops

theorem read_write {t t' : FileTree} {p : List Str} {v : Bytes} (h : t.write p v = some t') (q : List Str) :
    t'.read q = if q = p then some v else t.read q := by
  unfold FileTree.write at h
  split at h
  · cases h
  · cases h
    unfold FileTree.read
    simp only [List.find?_cons]
    by_cases e : q = p
    · subst e; simp
    · have e' : (p == q) = false := by simp; exact fun h => e h.symm
      rw [e', if_neg e]
      simp only
      congr 1
      induction t.files with
      | nil => rfl
      | cons f fs ih =>
        rw [List.filter_cons]
        by_cases hf : f.1 = p
        · have h1 : (f.1 == q) = false := by rw [hf]; exact e'
          simp only [hf, beq_self_eq_true, Bool.not_true, Bool.false_eq_true, if_false]
          rw [ih, List.find?_cons, h1]
        · have h1 : (f.1 == p) = false := by simp [hf]
          simp only [h1, Bool.not_false, if_true, List.find?_cons, ih]

/-- **C35** (files) As long as the keys are plain file names, a storage over files does the same, starting with
any tree that has nothing where the values go. -/
theorem C35_files_are_a_map (d : List Str) (t0 : FileTree) (ops : List (Namespace × Str × Bytes))
    (hp : ∀ op ∈ ops, PlainName op.2.1) (hd : ∀ ns k, d ++ [Namespace.str ns, k] ∉ t0.dirs)
    (hf : ∀ ns k, t0.read (d ++ [Namespace.str ns, k]) = none) :
    ∃ t, FileStore.run ⟨some d, t0⟩ ops = .ok ⟨some d, t⟩ ∧
      ∀ ns k, PlainName k → FileStore.get ⟨some d, t⟩ ns k = .ok (lastInsert ns k ops) := by
  have key : ∀ ops : List (Namespace × Str × Bytes), (∀ op ∈ ops, PlainName op.2.1) →
      ∃ t, FileStore.run ⟨some d, t0⟩ ops = .ok ⟨some d, t⟩ ∧
        (∀ ns k, d ++ [Namespace.str ns, k] ∉ t.dirs) ∧
        (∀ ns k, t.read (d ++ [Namespace.str ns, k]) = lastInsert ns k ops) ∧
        (∀ ns k, lastInsert ns k ops ≠ none → d ++ [Namespace.str ns] ∈ t.dirs) := by
    intro ops
    induction ops using snoc_ind with
    | h0 => intro _; exact ⟨t0, rfl, hd, hf, fun ns k h => absurd rfl h⟩
    | h1 l op ih =>
      intro hp
      obtain ⟨t, h1, h2, h3, h4⟩ := ih fun o ho => hp o (List.mem_append_left _ ho)
      have hop := hp op (List.mem_append_right _ (List.mem_singleton.mpr rfl))
      -- the tree with the directory
      obtain ⟨t1, ht1⟩ : ∃ t1, t1 = if d ++ [op.1.str] ∈ t.dirs then t else t.mkdirs (d ++ [op.1.str]) := ⟨_, rfl⟩
      have hmk : ∀ x, x ∈ (t.mkdirs (d ++ [op.1.str])).dirs ↔ x ∈ t.dirs ∨ ∃ n, x = (d ++ [op.1.str]).take n ∧
          n ≤ (d ++ [op.1.str]).length ∧ x ∉ t.dirs := by
        intro x
        unfold FileTree.mkdirs
        simp only [List.mem_append, List.mem_filter, List.mem_map, List.mem_range, decide_eq_true_eq]
        constructor
        · rintro (h | ⟨⟨n, hn, rfl⟩, hx⟩)
          · exact .inl h
          · exact .inr ⟨n, rfl, by omega, hx⟩
        · rintro (h | ⟨n, rfl, hn, hx⟩)
          · exact .inl h
          · exact .inr ⟨⟨n, by omega, rfl⟩, hx⟩
      have hmem : d ++ [op.1.str] ∈ t1.dirs := by
        rw [ht1]
        split
        · assumption
        · rename_i hno
          rw [hmk]
          exact .inr ⟨(d ++ [op.1.str]).length, (List.take_length).symm, Nat.le_refl _, hno⟩
      have hkeep : ∀ x, x ∈ t.dirs → x ∈ t1.dirs := by
        intro x hx
        rw [ht1]
        split
        · exact hx
        · rw [hmk]; exact .inl hx
      have hread : ∀ p, t1.read p = t.read p := by
        intro p
        rw [ht1]
        split <;> rfl
      have hnot : ∀ ns k, d ++ [Namespace.str ns, k] ∉ t1.dirs := by
        intro ns k hm
        rw [ht1] at hm
        split at hm
        · exact h2 ns k hm
        · rw [hmk] at hm
          rcases hm with hm | ⟨n, e, -, -⟩
          · exact h2 ns k hm
          · have := congrArg List.length e
            simp only [List.length_append, List.length_take, List.length_cons, List.length_nil] at this
            omega
      have hw : t1.write (d ++ [op.1.str, op.2.1]) op.2.2 =
          some { t1 with files := (d ++ [op.1.str, op.2.1], op.2.2) ::
            t1.files.filter fun f => !(f.1 == d ++ [op.1.str, op.2.1]) } := by
        unfold FileTree.write
        rw [if_neg]
        have hdl : (d ++ [op.1.str, op.2.1]).dropLast = d ++ [op.1.str] := by
          rw [show d ++ [op.1.str, op.2.1] = (d ++ [op.1.str]) ++ [op.2.1] by simp, List.dropLast_concat]
        rw [hdl]
        simp [hnot, hmem]
      refine ⟨{ t1 with files := (d ++ [op.1.str, op.2.1], op.2.2) ::
            t1.files.filter fun f => !(f.1 == d ++ [op.1.str, op.2.1]) }, ?_, ?_, ?_, ?_⟩
      rotate_left
      · exact fun ns k => hnot ns k
      · intro ns k
        rw [read_write hw, hread, h3, lastInsert_append]
        by_cases e : op.1 = ns ∧ op.2.1 = k
        · obtain ⟨rfl, rfl⟩ := e; simp
        · rw [if_neg e, if_neg]
          intro h
          have := List.append_cancel_left h
          simp only [List.cons.injEq, and_true] at this
          exact e ⟨(ns_inj this.1).symm, this.2.symm⟩
      · intro ns k h
        rw [lastInsert_append] at h
        split at h
        · rename_i e; rw [← e.1]; exact hmem
        · exact hkeep _ (h4 ns k h)
      · unfold FileStore.run at h1 ⊢
        rw [foldRes_snoc, h1]
        show FileStore.insert ⟨some d, t⟩ op.1 op.2.1 op.2.2 = _
        unfold FileStore.insert
        dsimp only
        rw [pathPush_plain _ _ hop, ← ht1]
        have : (d ++ [op.1.str]) ++ [op.2.1] = d ++ [op.1.str, op.2.1] := by simp
        rw [this, hw]
  obtain ⟨t, h1, -, h3, h4⟩ := key ops hp
  refine ⟨t, h1, ?_⟩
  intro ns k hk
  unfold FileStore.get
  dsimp only
  rw [pathPush_plain _ _ hk]
  have : (d ++ [ns.str]) ++ [k] = d ++ [ns.str, k] := by simp
  rw [this, h3]
  split
  · rfl
  · rename_i hno
    cases hl : lastInsert ns k ops with
    | none => rfl
    | some v => exact absurd (h4 ns k (by rw [hl]; simp)) hno

/-- Two inserts and a read, in an empty tree. -/
example : ∃ t, FileStore.run ⟨some [c!"data"], ⟨[], [[]]⟩⟩ [(.oca, c!"k", [1]), (.references, c!"k", [2])] =
      .ok ⟨some [c!"data"], t⟩ ∧ FileStore.get ⟨some [c!"data"], t⟩ .oca c!"k" = .ok (some [1]) := by
  obtain ⟨t, h1, h2⟩ := C35_files_are_a_map [c!"data"] ⟨[], [[]]⟩
    [(.oca, c!"k", [1]), (.references, c!"k", [2])] (by
      intro op hop
      simp only [List.mem_cons, List.not_mem_nil, or_false] at hop
      rcases hop with rfl | rfl <;> (unfold PlainName; decide)) (by simp) (fun _ _ => rfl)
  exact ⟨t, h1, by rw [h2 _ _ (by unfold PlainName; decide)]; rfl⟩

/-- A key with `..` in it (the name a file gives itself is such a key) reaches into another namespace: the
restriction to plain names cannot be dropped. -/
theorem C35_files_keys_escape :
    ∃ t, FileStore.run ⟨some [c!"data"], ⟨[], [[]]⟩⟩
        [(.oca, c!"k", [1]), (.references, c!"../oca/k", [2])] = .ok ⟨some [c!"data"], t⟩ ∧
      FileStore.get ⟨some [c!"data"], t⟩ .oca c!"k" = .ok (some [2]) ∧
      lastInsert .oca c!"k" [(.oca, c!"k", [1]), (.references, c!"../oca/k", [2])] = some [1] :=
  ⟨_, rfl, by decide, by decide⟩

end OCA
