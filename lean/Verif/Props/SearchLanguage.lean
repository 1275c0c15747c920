import Verif.Props.SearchExample
import Verif.Lemmas.Str
/-!
# C78: a language given to a search does not filter

`search_oca_bundle` takes a language. The query made of it (`oca_bundle_fts_repo.rs:81-87`) asks for the rows with the word and that language, or
with the word and not that language: with any language, or none, the same bundles are found. (The language can only change their order, by the rank.)
-/
namespace OCA

/-! ## Specification: the part of FTS5's query language that the queries of the code are written in -/

/-- one word in some columns: the name and the description, or the language -/
inductive FtsTerm where
  | texts (word : Str)
  | language (word : Str)
deriving DecidableEq, Repr

/-- a term, or two -/
inductive FtsPart where
  | one (a : FtsTerm)
  | both (a b : FtsTerm)
  | without (a b : FtsTerm)
deriving DecidableEq, Repr

/-- a part, or one part or another -/
inductive FtsExpr where
  | part (p : FtsPart)
  | either (p q : FtsPart)
deriving DecidableEq, Repr

def FtsTerm.text : FtsTerm → Str
  | .texts w => c!"{name description}:" ++ w
  | .language w => c!"language_code:" ++ w

def FtsPart.text : FtsPart → Str
  | .one a => a.text
  | .both a b => a.text ++ c!" AND " ++ b.text
  | .without a b => a.text ++ c!" NOT " ++ b.text

def FtsExpr.text : FtsExpr → Str
  | .part p => p.text
  | .either p q => c!"(" ++ p.text ++ c!") OR (" ++ q.text ++ c!")"

/-- what FTS5 takes for a word without quotes (here: letters and digits only), and not for an operator -/
def Bareword (w : Str) : Prop :=
  w ≠ [] ∧ (∀ c ∈ w, c.isAlphanum = true) ∧ w ≠ c!"AND" ∧ w ≠ c!"OR" ∧ w ≠ c!"NOT" ∧ w ≠ c!"NEAR"

instance (w : Str) : Decidable (Bareword w) := inferInstanceAs (Decidable (_ ∧ _ ∧ _ ∧ _ ∧ _ ∧ _))

def FtsTerm.Ok : FtsTerm → Prop
  | .texts w => Bareword w
  | .language w => Bareword w

def FtsPart.Ok : FtsPart → Prop
  | .one a => a.Ok
  | .both a b => a.Ok ∧ b.Ok
  | .without a b => a.Ok ∧ b.Ok

def FtsExpr.Ok : FtsExpr → Prop
  | .part p => p.Ok
  | .either p q => p.Ok ∧ q.Ok

/-- which rows match; `tok w t`: the word `w` is found in the text `t` -/
def FtsTerm.eval (tok : Str → Str → Bool) (r : FtsRow) : FtsTerm → Bool
  | .texts w => tok w r.name || tok w r.description
  | .language w => tok w r.lang

def FtsPart.eval (tok : Str → Str → Bool) (r : FtsRow) : FtsPart → Bool
  | .one a => a.eval tok r
  | .both a b => a.eval tok r && b.eval tok r
  | .without a b => a.eval tok r && !b.eval tok r

def FtsExpr.eval (tok : Str → Str → Bool) (r : FtsRow) : FtsExpr → Bool
  | .part p => p.eval tok r
  | .either p q => p.eval tok r || q.eval tok r

/-- the index reads these queries as they are meant -/
def Fts.Reads (F : Fts) (tok : Str → Str → Bool) : Prop :=
  ∀ e : FtsExpr, e.Ok → ∀ t, ∃ hit, F.hits e.text t = some hit ∧ ∀ r ∈ t, (hit r ≠ none ↔ e.eval tok r = true)

/-- the word is in the name or the description of a row of the bundle -/
def Facade.HasWord (f : Facade) (tok : Str → Str → Bool) (w : Str) (s : Said) : Prop :=
  ∃ r ∈ f.fts, r.said = s ∧ (tok w r.name = true ∨ tok w r.description = true)

/-! ## The theorems -/

/-- the text of the code is a query of that language -/
theorem ftsQuery_none (w : Str) : ftsQuery none w = (FtsExpr.part (.one (.texts w))).text := rfl

theorem ftsQuery_some (l w : Str) : ftsQuery (some l) w =
    (FtsExpr.either (.both (.texts w) (.language l)) (.without (.texts w) (.language l))).text := by
  simp [ftsQuery, FtsExpr.text, FtsPart.text, FtsTerm.text]

/-- **C78** Whatever language is given, the rows that match are those with the word in the name or the description. -/
theorem C78_rows (F : Fts) (tok : Str → Str → Bool) (hF : F.Reads tok) (lang : Option Str) (w : Str) (hw : Bareword w)
    (hl : ∀ l, lang = some l → Bareword l) (t : List FtsRow) :
    ∃ hit, F.hits (ftsQuery lang w) t = some hit ∧ ∀ r ∈ t, (hit r ≠ none ↔ (tok w r.name = true ∨ tok w r.description = true)) := by
  cases lang with
  | none =>
    obtain ⟨hit, h1, h2⟩ := hF (.part (.one (.texts w))) hw t
    refine ⟨hit, h1, fun r hr => (h2 r hr).trans ?_⟩
    simp [FtsExpr.eval, FtsPart.eval, FtsTerm.eval]
  | some l =>
    obtain ⟨hit, h1, h2⟩ := hF (.either (.both (.texts w) (.language l)) (.without (.texts w) (.language l)))
      ⟨⟨hw, hl l rfl⟩, hw, hl l rfl⟩ t
    refine ⟨hit, by rw [ftsQuery_some]; exact h1, fun r hr => (h2 r hr).trans ?_⟩
    simp only [FtsExpr.eval, FtsPart.eval, FtsTerm.eval]
    cases tok w r.name <;> cases tok w r.description <;> cases tok l r.lang <;> simp

/-- **C78** Searching what was built for a word, page by page, with a language or without: there is one number `total` and one set of bundles, the
same for every language and for none, such that every page has that total and the pages together name these bundles, each once; they are the ones with
the word in a name or a description of theirs, in whatever language that is. -/
theorem C78_search {ε : Type} (E : Env) (S : Serde) (F : Fts) (R : Rx) (tok : Str → Str → Bool) (hF : F.Reads tok) (f : Facade) (l : List Build)
    (h : f.Built E S l) (hb : ∀ b ∈ l, b.Stepped) (w : Str) (hw : Bareword w)
    (hc : ∀ q hit, F.hits q f.fts = some hit → f.ScopesCompile R hit) :
    ∃ total, (∃ ss : List Said, ss.Nodup ∧ (∀ s, s ∈ ss ↔ f.HasWord tok w s) ∧ ss.length = total) ∧
      (∀ s, f.HasWord tok w s → ∃ b ∈ l, b.bundle.said = some s ∧ ∃ o ∈ b.bundle.overlays, ∃ la, ∃ ps : FMap Str, o.body = .metaOv la ps ∧
        (tok w ((ps.get c!"name").getD []) = true ∨ tok w ((ps.get c!"description").getD []) = true)) ∧
      ∀ (lang : Option Str), (∀ l, lang = some l → Bareword l) → ∀ limit n, limit < 9223372036854775808 → n * limit < 9223372036854775808 →
        ∃ pages, (∀ i < n, (f.search E S F R lang w limit (i + 1) : Res ε _) = .ok ⟨pages i, total, i + 1⟩) ∧
          (((List.range n).flatMap pages).map (·.2.said)).Nodup ∧
          (∀ s ∈ ((List.range n).flatMap pages).map (·.2.said), f.HasWord tok w s) ∧
          (total ≤ n * limit → ∀ s, s ∈ ((List.range n).flatMap pages).map (·.2.said) ↔ f.HasWord tok w s) := by
  have finds : ∀ hit : FtsRow → Option FtsHit, (∀ r ∈ f.fts, (hit r ≠ none ↔ (tok w r.name = true ∨ tok w r.description = true))) →
      ∀ s, f.Finds hit s ↔ f.HasWord tok w s := by
    intro hit hh s
    constructor
    · rintro ⟨r, hr, hs, hn⟩
      exact ⟨r, hr, hs, (hh r hr).1 hn⟩
    · rintro ⟨r, hr, hs, hn⟩
      exact ⟨r, hr, hs, (hh r hr).2 hn⟩
  obtain ⟨hit0, h1, h2⟩ := C78_rows F tok hF none w hw (fun _ e => by cases e) f.fts
  let ss0 := ftsSaids (ftsRows hit0 f.fts)
  have hmem0 : ∀ s, s ∈ ss0 ↔ f.HasWord tok w s := fun s => mem_ftsSaids.trans (finds hit0 h2 s)
  have hnd0 : ss0.Nodup := nodup_eraseDups _
  refine ⟨ss0.length, ⟨ss0, hnd0, hmem0, rfl⟩, ?_, ?_⟩
  · rintro s ⟨r, hr, hs, hn⟩
    obtain ⟨b, hbl, hbs, o, ho, ps, he, hname, hdesc⟩ := (C62_search_index E S f l h).1 r hr
    exact ⟨b, hbl, by rw [hbs, hs], o, ho, r.lang, ps, he, by rw [← hname, ← hdesc]; exact hn⟩
  · intro lang hlang limit n hlim hn
    obtain ⟨hit, k1, k2⟩ := C78_rows F tok hF lang w hw hlang f.fts
    obtain ⟨pages, total, ⟨ss, hss, hmem, htot⟩, p1, p2, p3, p4, -⟩ :=
      C67_pages (ε := ε) E S F R f l h hb lang w limit n hlim hn hit k1 (hc _ hit k1)
    have heq : total = ss0.length := by
      rw [← htot]
      refine (perm_of_nodup hss hnd0 fun s => ?_).length_eq
      rw [hmem s, hmem0 s]
      exact finds hit k2 s
    refine ⟨pages, fun i hi => heq ▸ (p1 i hi).1, p3, ?_, fun ht s => (p4 (heq ▸ ht) s).trans (finds hit k2 s)⟩
    intro s hs
    obtain ⟨x, hx, rfl⟩ := List.mem_map.1 hs
    obtain ⟨i, hi, hx⟩ := List.mem_flatMap.1 hx
    obtain ⟨r, hr, hrs, -, hh, e, -⟩ := (p2 i (List.mem_range.1 hi) x hx).row
    exact ⟨r, hr, hrs, (k2 r hr).1 (by rw [e]; exact fun e => by cases e)⟩

/-! ## An index that reads queries -/

/-- a word at the start of a text -/
def readWord (s : Str) : Option (Str × Str) :=
  if Bareword (s.takeWhile Char.isAlphanum) then some (s.takeWhile Char.isAlphanum, s.dropWhile Char.isAlphanum) else none

def readTerm (s : Str) : Option (FtsTerm × Str) := match stripPrefix c!"{name description}:" s with
  | some r => (readWord r).map fun x => (.texts x.1, x.2)
  | none => match stripPrefix c!"language_code:" s with
    | some r => (readWord r).map fun x => (.language x.1, x.2)
    | none => none

def readPart (s : Str) : Option (FtsPart × Str) := match readTerm s with
  | none => none
  | some (a, r) => match stripPrefix c!" AND " r with
    | some r => (readTerm r).map fun x => (.both a x.1, x.2)
    | none => match stripPrefix c!" NOT " r with
      | some r => (readTerm r).map fun x => (.without a x.1, x.2)
      | none => some (.one a, r)

def readExpr (s : Str) : Option FtsExpr := match stripPrefix c!"(" s with
  | some r => match readPart r with
    | some (p, r) => match stripPrefix c!") OR (" r with
      | some r => match readPart r with
        | some (q, r) => if r = c!")" then some (.either p q) else none
        | none => none
      | none => none
    | none => none
  | none => match readPart s with
    | some (p, []) => some (.part p)
    | _ => none

/-- nothing that goes on with the word -/
def Stops (s : Str) : Prop := ∀ c t, s = c :: t → c.isAlphanum = false

theorem takeWhile_word {w s : Str} (hw : ∀ c ∈ w, c.isAlphanum = true) (hs : Stops s) :
    (w ++ s).takeWhile Char.isAlphanum = w ∧ (w ++ s).dropWhile Char.isAlphanum = s := by
  induction w with
  | nil =>
    cases s with
    | nil => exact ⟨rfl, rfl⟩
    | cons c t => simp [hs c t rfl]
  | cons c t ih =>
    have h1 := hw c (.head _)
    obtain ⟨i1, i2⟩ := ih fun x hx => hw x (.tail _ hx)
    simp [h1, i1, i2]

theorem readWord_word {w s : Str} (hw : Bareword w) (hs : Stops s) : readWord (w ++ s) = some (w, s) := by
  obtain ⟨h1, h2⟩ := takeWhile_word hw.2.1 hs
  unfold readWord
  rw [h1, h2, if_pos hw]

theorem readTerm_text (a : FtsTerm) (ha : a.Ok) {s : Str} (hs : Stops s) : readTerm (a.text ++ s) = some (a, s) := by
  unfold readTerm
  cases a with
  | texts w =>
    rw [FtsTerm.text, List.append_assoc, stripPrefix_append]
    dsimp only
    rw [readWord_word ha hs]; rfl
  | language w =>
    rw [FtsTerm.text, List.append_assoc]
    rw [show stripPrefix c!"{name description}:" (c!"language_code:" ++ (w ++ s)) = none from rfl, stripPrefix_append]
    dsimp only
    rw [readWord_word ha hs]; rfl

theorem readPart_text (p : FtsPart) (hp : p.Ok) {s : Str} (hs : s = [] ∨ ∃ t, s = ')' :: t) : readPart (p.text ++ s) = some (p, s) := by
  have stop : Stops s := by
    intro c t e
    rcases hs with rfl | ⟨t, rfl⟩
    · cases e
    · cases e; rfl
  unfold readPart
  cases p with
  | one a =>
    rw [FtsPart.text, readTerm_text a hp stop]
    rcases hs with rfl | ⟨t, rfl⟩ <;> rfl
  | both a b =>
    rw [FtsPart.text, List.append_assoc, List.append_assoc, readTerm_text a hp.1 (by intro c t e; cases e; rfl)]
    dsimp only
    rw [stripPrefix_append]
    dsimp only
    rw [readTerm_text b hp.2 stop]; rfl
  | without a b =>
    rw [FtsPart.text, List.append_assoc, List.append_assoc, readTerm_text a hp.1 (by intro c t e; cases e; rfl)]
    dsimp only
    rw [show stripPrefix c!" AND " (c!" NOT " ++ (b.text ++ s)) = none from rfl, stripPrefix_append]
    dsimp only
    rw [readTerm_text b hp.2 stop]; rfl

theorem readExpr_text (e : FtsExpr) (he : e.Ok) : readExpr e.text = some e := by
  unfold readExpr
  cases e with
  | part p =>
    have h := readPart_text p he (s := []) (.inl rfl)
    rw [List.append_nil] at h
    have : stripPrefix c!"(" (FtsExpr.part p).text = none := by
      rcases p with a | ⟨a, b⟩ | ⟨a, b⟩ <;> cases a <;> rfl
    rw [this]
    dsimp only
    rw [show (FtsExpr.part p).text = p.text from rfl, h]
  | either p q =>
    rw [FtsExpr.text, List.append_assoc, List.append_assoc, List.append_assoc, stripPrefix_append]
    dsimp only
    rw [readPart_text p he.1 (s := c!") OR (" ++ (q.text ++ c!")")) (.inr ⟨_, rfl⟩)]
    dsimp only
    rw [stripPrefix_append]
    dsimp only
    rw [readPart_text q he.2 (s := c!")") (.inr ⟨_, rfl⟩)]
    rfl

/-- the trigram tokenizer of the index (`oca_bundle_fts_repo.rs:44`): a text has a word of three letters or more as a part, upper or lower case -/
def trigram (w t : Str) : Bool := decide (3 ≤ w.length) && hasPart (w.map Char.toLower) (t.map Char.toLower)

/-- an index that reads the queries of the code -/
def Fts.reader : Fts := { Fts.plain with
  hits := fun q _ => (readExpr q).map fun e r => if e.eval trigram r then some ⟨(r.name.length : Int) - 1000, r.name⟩ else none }

theorem Fts.reader_reads : Fts.reader.Reads trigram := by
  intro e he t
  refine ⟨_, congrArg (Option.map _) (readExpr_text e he), fun r _ => ?_⟩
  dsimp only
  split
  · next h => simp [h]
  · next h => simp [h]

theorem Fts.reader_scopes (f : Facade)
    (hc : (f.fts.all fun r => match scopeText r.name with | some t => Rx.plain.compiles (scopePattern t) | none => false) = true)
    (q : Str) (hit : FtsRow → Option FtsHit) (hq : Fts.reader.hits q f.fts = some hit) : f.ScopesCompile Rx.plain hit := by
  intro r hr h e
  obtain ⟨x, -, rfl⟩ := Option.map_eq_some_iff.1 hq
  dsimp only at e
  split at e
  · cases e
    have := List.all_eq_true.1 hc r hr
    dsimp only at this ⊢
    split at this
    · next t ht => exact ⟨t, ht, this⟩
    · cases this
  · cases e

/-- the names found by the search for a word, with a language -/
def shownIn (f : Facade) (lang : Option Str) (w : Str) (limit page : Nat) : Option (List Str × Nat) :=
  match (f.search Env.tight Serde.text Fts.reader Rx.plain lang w limit page : Res Unit _) with
  | .ok r => some (r.records.map (·.2.phrase), r.total)
  | _ => none

def languagePages (f : Facade) (b1 b2 : Build) : Bool :=
  searchCheck b1 && searchCheck b2 && decide (f.fts.map (·.lang) = [c!"eng", c!"fra", c!"eng"]) &&
  (f.fts.all fun r => match scopeText r.name with | some t => Rx.plain.compiles (scopePattern t) | none => false) &&
  decide (shownIn f none c!"person" 5 1 = some ([c!"Person", c!"A Person"], 2)) &&
  decide (shownIn f (some c!"eng") c!"person" 5 1 = some ([c!"Person", c!"A Person"], 2)) &&
  decide (shownIn f (some c!"fra") c!"person" 5 1 = some ([c!"Person", c!"A Person"], 2)) &&
  decide (shownIn f (some c!"deu") c!"personne" 5 1 = some ([c!"Personne"], 1)) &&
  decide (shownIn f (some c!"eng") c!"eng" 5 1 = some ([], 0)) &&
  decide (shownIn f none c!"A" 5 1 = some ([], 0))

set_option maxRecDepth 20000 in
theorem languageRun_ok : (match searchRun with | some (f, b1, b2) => languagePages f b1 b2 | none => false) = true := by decide +kernel

/-- **C78**, a concrete case: two bundles, the first with a name in English and one in French. A search gives the same with no language, English, French
or German; it does not look for the word among the languages. A word of less than three letters is not found: the index is one of trigrams. -/
theorem C78_example : ∃ (f : Facade) (b1 b2 : Build), f.Built Env.tight Serde.text [b1, b2] ∧
    (∀ b ∈ [b1, b2], b.Stepped) ∧ Fts.reader.Reads trigram ∧ (∀ q hit, Fts.reader.hits q f.fts = some hit → f.ScopesCompile Rx.plain hit) ∧
    Bareword c!"person" ∧ Bareword c!"fra" ∧ f.fts.map (·.lang) = [c!"eng", c!"fra", c!"eng"] ∧
    shownIn f none c!"person" 5 1 = some ([c!"Person", c!"A Person"], 2) ∧
    shownIn f (some c!"eng") c!"person" 5 1 = some ([c!"Person", c!"A Person"], 2) ∧
    shownIn f (some c!"fra") c!"person" 5 1 = some ([c!"Person", c!"A Person"], 2) ∧
    shownIn f (some c!"deu") c!"personne" 5 1 = some ([c!"Personne"], 1) ∧
    shownIn f (some c!"eng") c!"eng" 5 1 = some ([], 0) ∧
    shownIn f none c!"A" 5 1 = some ([], 0) := by
  have h := languageRun_ok
  split at h
  · next f b1 b2 e =>
    unfold searchRun at e
    split at e
    · next f1 c1 h1 =>
      split at e
      · next f2 h2 =>
        split at e
        · next f3 c2 h3 =>
          split at e
          · next f4 h4 =>
            cases e
            simp only [languagePages, searchCheck, Bool.and_eq_true, List.all_eq_true, decide_eq_true_eq] at h
            obtain ⟨⟨⟨⟨⟨⟨⟨⟨⟨⟨s1, s2⟩, s3, s4⟩, k3⟩, k4⟩, k5⟩, k6⟩, k7⟩, k8⟩, k9⟩, k10⟩ := h
            have hB1 := Facade.Built.built (.new (E := Env.tight) (S := Serde.text)) h1 (fun st hst => keepB_sound (s1 st hst)) h2
            have hB2 := Facade.Built.built hB1 h3 (fun st hst => keepB_sound (s3 st hst)) h4
            have step : ∀ b : Build, b.steps.getLast?.map (·.result) = some b.bundle → b.Stepped := by
              intro b hb
              obtain ⟨st, hl, hle⟩ := Option.map_eq_some_iff.1 hb
              exact ⟨st, List.mem_of_getLast? hl, by rw [hle]⟩
            refine ⟨f, b1, b2, hB2, ?_, Fts.reader_reads, Fts.reader_scopes f (List.all_eq_true.2 k4), by decide, by decide,
              k3, k5, k6, k7, k8, k9, k10⟩
            intro b hb
            rcases List.mem_cons.1 hb with e | hb
            · rw [e]; exact step _ s2
            · rw [List.mem_singleton.1 hb]; exact step _ s4
          · cases e
        · cases e
      · cases e
    · cases e
  · cases h

end OCA
