import Verif.Props.Same
import Verif.Props.ThreadHistoryExample
/-!
# C88: a concrete case

A file with metadata in two languages, a file that builds on it, and a file that is refused, given to two repositories that walk their hash
maps in opposite orders.
-/
namespace OCA

/-- no prefix of these commands frames an attribute -/
def noFrames (E : Env) (x : Option OCABox) (cs : List Command) : Bool := (List.range (cs.length + 1)).all fun n =>
  match finalState E x (cs.take n) with
  | none => true
  | some b => b.unframed

theorem noFrames_consistent {E : Env} {x : Option OCABox} {cs : List Command} (h : noFrames E x cs = true) : FramesConsistent E x cs := by
  intro n box hb
  have key : ∀ n, n ≤ cs.length → finalState E x (cs.take n) = some box → FrameConsistent box := by
    intro n hn hb
    have := List.all_eq_true.1 h n (List.mem_range.2 (by omega))
    rw [hb] at this
    exact unframed_consistent this
  by_cases hn : n ≤ cs.length
  · exact key n hn hb
  · refine key cs.length (Nat.le_refl _) ?_
    rw [List.take_of_length_le (by omega)] at hb
    rw [List.take_length]
    exact hb

/-- the build of a file that is accepted -/
def acceptedBuild (refs : Bool) (E : Env) (S : Serde) (f : Facade) (x : Handed) : Option Build :=
  if refs then match f.validate E S x.orders x.file with
    | .ok (_, b) => some b
    | _ => none
  else match f.validatePlain E S x.orders x.file with
    | .ok b => some b
    | _ => none

theorem accepted_build {refs : Bool} {E : Env} {S : Serde} {f : Facade} {x : Handed} {b : Build} (h : f.Accepts refs E S x b) :
    acceptedBuild refs E S f x = some b := by
  unfold acceptedBuild
  cases refs with
  | true =>
    simp only [Facade.Accepts, ite_true] at h
    obtain ⟨f1, h⟩ := h
    rw [h]; rfl
  | false =>
    simp only [Facade.Accepts, Bool.false_eq_true, ite_false] at h
    rw [h]; rfl

/-- the conditions on one file, checked -/
def clearOne (refs : Bool) (E : Env) (S : Serde) (f : Facade) (x : Handed) : Bool :=
  match parseLines x.file, acceptedBuild refs E S f x with
  | .ok ast, some b =>
    !b.bundle.collides && (b.steps.all fun st => !st.result.collides) && decide b.bundle.saids.Nodup &&
      match (checkBase E S f.cache ast : Res (List VErr) _) with
      | .ok (base, _) =>
        match (baseOf E base : Res (List BuildErr) _) with
        | .ok box => noFrames E box (b.steps.map (·.command))
        | _ => true
      | _ => true
  | _, _ => true

theorem clearOne_sound {refs : Bool} {E : Env} {S : Serde} {f : Facade} {x : Handed} (h : clearOne refs E S f x = true) (ast : OCAAst) (b : Build)
    (hp : parseLines x.file = .ok ast) (hv : f.Accepts refs E S x b) : b.Clear E S f ast := by
  unfold clearOne at h
  rw [hp, accepted_build hv] at h
  simp only [Bool.and_eq_true, Bool.not_eq_true', List.all_eq_true, decide_eq_true_eq] at h
  obtain ⟨⟨⟨h1, h2⟩, h3⟩, h4⟩ := h
  refine ⟨?_, not_collides h1, fun st hst => not_collides (h2 st hst), h3⟩
  intro base ast' hb box hx
  rw [hb] at h4
  dsimp only at h4
  rw [hx] at h4
  exact noFrames_consistent h4

def clearFeed (refs : Bool) (E : Env) (S : Serde) (f : Facade) : List Handed → Bool
  | [] => true
  | x :: t => clearOne refs E S f x && clearFeed refs E S (f.handed refs E S x) t

theorem clearFeed_sound {refs : Bool} {E : Env} {S : Serde} {f : Facade} {xs : List Handed} (h : clearFeed refs E S f xs = true) :
    f.FeedsClear refs E S xs := by
  induction xs generalizing f with
  | nil => trivial
  | cons x t ih =>
    unfold clearFeed at h
    rw [Bool.and_eq_true] at h
    exact ⟨fun ast b hp hv => clearOne_sound h.1 ast b hp hv, ih h.2⟩

/-- ADD ATTRIBUTE a=Text b=Numeric; ADD META en, fr; ADD LABEL en -/
def bilingual : List Command :=
  [addAttrs [(c!"a", .val .text), (c!"b", .val .numeric)],
   addOv .metaOv [(c!"lang", .val c!"en"), (c!"name", .val c!"Person")] [],
   addOv .metaOv [(c!"lang", .val c!"fr"), (c!"name", .val c!"Personne")] [],
   addOv .label [(c!"lang", .val c!"en")] [(c!"a", .val c!"Name")]]

/-- the identifier the first file gets -/
def bilingualSaid : Said :=
  match Facade.new.validate Env.tight Serde.text sortedOrders (fileOf bilingual) with
  | .ok (_, b) => b.bundle.said.getD []
  | _ => []

/-- FROM the first; ADD LABEL fr -/
def frenchToo : List Command :=
  [⟨.«from», .ocaBundle (.said bilingualSaid)⟩, addOv .label [(c!"lang", .val c!"fr")] [(c!"a", .val c!"Nom")]]

/-- FROM a bundle nobody has -/
def removesNothing : List Command := [⟨.«from», .ocaBundle (.said c!"Enothing")⟩]

/-- the three files, with these orders -/
def threeFiles (O : Order) (T : SetOrder) : List Handed :=
  [⟨fileOf bilingual, fun _ => O, T⟩, ⟨fileOf frenchToo, fun _ => O, T⟩, ⟨fileOf removesNothing, fun _ => O, T⟩]

/-- the languages of the search rows, in their order -/
def threeRows (O : Order) (T : SetOrder) : List Str := (Facade.new.feed true Env.tight Serde.text (threeFiles O T)).fts.map (·.lang)

/-- what became of the files -/
def threeFates (O : Order) (T : SetOrder) : List (Option Said) :=
  (Facade.new.fates true Env.tight Serde.text (threeFiles O T)).map fun | .ok b => b.said | _ => none

/-- a hash set walked from the end -/
def SetOrder.backwards : SetOrder := ⟨fun _ l => l.reverse, fun _ l => List.reverse_perm l⟩

set_option maxRecDepth 20000 in
theorem three_clear : clearFeed true Env.tight Serde.text Facade.new (threeFiles .sorted .kept) = true := by decide +kernel

set_option maxRecDepth 20000 in
theorem three_rows : threeRows .sorted .kept = [c!"eng", c!"fra", c!"eng", c!"fra"] := by decide +kernel

set_option maxRecDepth 20000 in
theorem three_rows_backwards : threeRows .reversed .backwards = [c!"fra", c!"eng", c!"fra", c!"eng"] := by decide +kernel

set_option maxRecDepth 20000 in
theorem three_fates : threeFates .sorted .kept = [some c!"Eetyhttcbuwor", some c!"Ezotzmnmoftjw", none] := by decide +kernel

theorem threeFiles_files (O O' : Order) (T T' : SetOrder) : (threeFiles O T).map (·.file) = (threeFiles O' T').map (·.file) := by
  simp only [threeFiles, List.map_cons, List.map_nil]

theorem rows_differ {f g : Facade} (hf : f.fts.map (·.lang) = [c!"eng", c!"fra", c!"eng", c!"fra"])
    (hg : g.fts.map (·.lang) = [c!"fra", c!"eng", c!"fra", c!"eng"]) : f.fts ≠ g.fts := by
  intro h
  rw [h, hg] at hf
  exact absurd hf (by decide)

set_option maxRecDepth 20000 in
theorem three_clear_plain : clearFeed false Env.tight Serde.text Facade.new (threeFiles .sorted .kept) = true := by decide +kernel

/-- The hypotheses of `C88_same` are met by three files: two are stored and one is refused, and the two repositories hold their search rows in
different orders. -/
theorem C88_example :
    Env.tight.ShortSaids ∧ Facade.new.FeedsClear true Env.tight Serde.text (threeFiles .sorted .kept) ∧
    Facade.new.FeedsClear false Env.tight Serde.text (threeFiles .sorted .kept) ∧
    threeFates .sorted .kept = [some c!"Eetyhttcbuwor", some c!"Ezotzmnmoftjw", none] ∧
    (Facade.new.feed true Env.tight Serde.text (threeFiles .sorted .kept)).fts ≠
      (Facade.new.feed true Env.tight Serde.text (threeFiles .reversed .backwards)).fts ∧
    (Facade.new.feed true Env.tight Serde.text (threeFiles .sorted .kept)).SameAnswers
      (Facade.new.feed true Env.tight Serde.text (threeFiles .reversed .backwards)) := by
  have h := C88_same Env.tight tight_short Serde.text true _ _ (threeFiles_files .sorted .reversed .kept .backwards) (clearFeed_sound three_clear)
  exact ⟨tight_short, clearFeed_sound three_clear, clearFeed_sound three_clear_plain, three_fates, rows_differ three_rows three_rows_backwards, h.2.1⟩

end OCA
