import Verif.Props.Reprint
import Verif.Props.TextBuild
/-!
# C71: printing as a formatter — what printing, reading and printing again does to a file
-/
namespace OCA
open Peg Gr

/-- A META command says at most one thing besides its language (specification). Other commands always count. -/
def Command.Settled (c : Command) : Prop :=
  ∀ t cc, c.obj = .overlay t cc → t.kind = .metaOv → ((cc.properties.getD []).filter fun p => decide (p.1 ≠ c!"lang")).length ≤ 1

/-- the last one moved to the front (specification) -/
def lastToFront {α : Type} (l : List α) : List α :=
  match l.getLast? with
  | none => []
  | some q => q :: l.dropLast

/-- the language, then the others with the last one moved to the front -/
theorem langFirst_cons (lg : NVal) (rs : List (Str × NVal)) (hk : ∀ p ∈ rs, p.1 ≠ c!"lang") :
    langFirst ((c!"lang", lg) :: rs) = (c!"lang", lg) :: lastToFront rs := by
  unfold langFirst
  rw [List.filter_cons_of_pos (by simp), List.filter_eq_nil_iff.2 (by intro p hp; simpa using hk p hp)]
  simp only [Pr.swapRemove, if_true, lastToFront]
  cases rs.getLast? <;> rfl

theorem langFirst_shape {ps : List (Str × NVal)} {lg : NVal} (hd : Distinct ps) (hl : (c!"lang", lg) ∈ ps) :
    ∃ rs, langFirst ps = (c!"lang", lg) :: rs ∧ ps.Perm ((c!"lang", lg) :: rs) ∧ (∀ p ∈ rs, p.1 ≠ c!"lang") ∧ Pr.swapRemove c!"lang" ps = rs := by
  have hperm := swapRemove_perm c!"lang" lg ps hd hl
  have hnd : (((c!"lang", lg) :: Pr.swapRemove c!"lang" ps).map (·.1)).Nodup := (hperm.map _).nodup_iff.1 hd
  have hkey : ∀ p ∈ Pr.swapRemove c!"lang" ps, p.1 ≠ c!"lang" := by
    intro p hp e
    rw [List.map_cons, List.nodup_cons] at hnd
    exact hnd.1 (List.mem_map.2 ⟨p, hp, e⟩)
  refine ⟨_, ?_, hperm, hkey, rfl⟩
  unfold langFirst
  have h1 : ((c!"lang", lg) :: Pr.swapRemove c!"lang" ps).filter (fun p => decide (p.1 = c!"lang")) = [(c!"lang", lg)] := by
    rw [List.filter_cons_of_pos (by simp), List.filter_eq_nil_iff.2]
    intro p hp
    simpa using hkey p hp
  have h2 : (ps.filter fun p => decide (p.1 = c!"lang")) = [(c!"lang", lg)] := List.perm_singleton.1 (h1 ▸ hperm.filter _)
  rw [h2]
  rfl

/-- What is read back can be printed again. -/
theorem Printable.reread {E : Env} {U : Uni} {c : Command} (h : Printable E U c) : Printable E U c.reread := by
  cases h with
  | attributes l hn h hd => exact .attributes l hn h hd
  | classification v h => exact .classification v h
  | removeAttributes l h hd => exact .removeAttributes l h hd
  | removeClassification => exact .removeClassification
  | plain k hk as h ps hp =>
    have : (⟨.add, .overlay ⟨k, c!"1.1"⟩ ⟨some as, ps⟩⟩ : Command).reread = ⟨.add, .overlay ⟨k, c!"1.1"⟩ ⟨some as, some []⟩⟩ := by
      rcases hk with rfl | rfl | rfl | rfl | rfl | rfl <;> rcases hp with rfl | rfl <;> rfl
    rw [this]
    exact .plain k hk as h _ (.inr rfl)
  | withLang k hk as h lg hl => rcases hk with rfl | rfl <;> exact .withLang _ (by simp) as h lg hl
  | metas as ha ps hd lg hl hg h hne =>
    obtain ⟨rs, e, hperm, hk, -⟩ := langFirst_shape hd hl
    have : (⟨.add, .overlay ⟨.metaOv, c!"1.1"⟩ ⟨as, some ps⟩⟩ : Command).reread = ⟨.add, .overlay ⟨.metaOv, c!"1.1"⟩ ⟨some [], some ((c!"lang", .val lg) :: rs)⟩⟩ := by
      rw [← e]
      rcases ha with rfl | rfl <;> rfl
    rw [this]
    refine .metas _ (.inr rfl) _ ((hperm.map _).nodup_iff.1 hd) lg (.head _) hg (fun p hp => h p (hperm.mem_iff.2 hp)) ?_
    obtain ⟨p, hp, hpl⟩ := hne
    exact ⟨p, hperm.mem_iff.1 hp, hpl⟩
  | entryCodes l hn h hd ps hp =>
    have : (⟨.add, .overlay ⟨.entryCode, c!"1.1"⟩ ⟨some (l.map fun p => (p.1, p.2.val)), ps⟩⟩ : Command).reread =
        ⟨.add, .overlay ⟨.entryCode, c!"1.1"⟩ ⟨some (l.map fun p => (p.1, p.2.val)), some []⟩⟩ := by
      rcases hp with rfl | rfl <;> rfl
    rw [this]
    exact .entryCodes l hn h hd _ (.inr rfl)
  | entries l hn h hd lg hl => exact .entries l hn h hd lg hl
  | link as h s hs hv => exact .link as h s hs hv
  | framing ms hm hk hdm l hn h hd => exact .framing ms hm hk hdm l hn h hd

theorem like_reread {E : Env} {U : Uni} {c : Command} (h : Printable E U c) : Like c c.reread := by
  obtain ⟨_, _, -, -, -, -, -, hl⟩ := lined_of_printable h
  exact hl

theorem filter_lang_length {ps rs : List (Str × NVal)} {lg : NVal} (hp : ps.Perm ((c!"lang", lg) :: rs)) (hk : ∀ p ∈ rs, p.1 ≠ c!"lang") :
    (ps.filter fun p => decide (p.1 ≠ c!"lang")).length = rs.length := by
  rw [(hp.filter _).length_eq, List.filter_cons_of_neg (by simp), List.filter_eq_self.2]
  intro p h
  simpa using hk p h

/-- The text of a settled command is the text of what is read back. -/
theorem print_reread {E : Env} {U : Uni} {c : Command} (h : Printable E U c) (hs : c.Settled) (ε : Type) :
    (Pr.command c.reread : Res ε Str) = Pr.command c := by
  cases h with
  | attributes l hn h hd => rfl
  | classification v h => rfl
  | removeAttributes l h hd => rfl
  | removeClassification => rfl
  | plain k hk as h ps hp => rcases hk with rfl | rfl | rfl | rfl | rfl | rfl <;> rcases hp with rfl | rfl <;> rfl
  | withLang k hk as h lg hl => rcases hk with rfl | rfl <;> rfl
  | metas as ha ps hd lg hl hg h hne =>
    obtain ⟨rs, e, hperm, hk, e2⟩ := langFirst_shape hd hl
    have hlen : rs.length ≤ 1 := by
      rw [← filter_lang_length hperm hk]
      exact hs _ _ rfl rfl
    have h1 : ∀ (l : List (Str × NVal)) (hd : Distinct l) (hl : (c!"lang", NVal.val lg) ∈ l), Pr.langText l = lg ++ c!" " := by
      intro l hd hl
      unfold Pr.langText
      rw [imGet_listed c!"lang" (NVal.val lg) l hd hl]
    have h2 : Pr.swapRemove c!"lang" ((c!"lang", NVal.val lg) :: rs) = rs := by
      match rs, hlen with
      | [], _ => rfl
      | [q], _ => rfl
      | _ :: _ :: _, h => exact absurd h (by simp)
    have : (⟨.add, .overlay ⟨.metaOv, c!"1.1"⟩ ⟨as, some ps⟩⟩ : Command).reread = ⟨.add, .overlay ⟨.metaOv, c!"1.1"⟩ ⟨some [], some ((c!"lang", .val lg) :: rs)⟩⟩ := by
      rw [← e]
      rcases ha with rfl | rfl <;> rfl
    rw [this]
    have h3 : Pr.propsText Pr.quotedPairs ps = Pr.propsText Pr.quotedPairs ((c!"lang", NVal.val lg) :: rs) := by
      unfold Pr.propsText
      rw [e2, h2]
    rcases ha with rfl | rfl <;>
      simp only [Pr.command, Pr.overlayText, Pr.onSome, h1 ps hd hl, h1 _ ((hperm.map _).nodup_iff.1 hd) (.head _), h3] <;> rfl
  | entryCodes l hn h hd ps hp => rcases hp with rfl | rfl <;> rfl
  | entries l hn h hd lg hl => rfl
  | link as h s hs hv => rfl
  | framing ms hm hk hdm l hn h hd => rfl

theorem commands_congr {ε : Type} {cs cs' : List Command} (h : All2 (fun c c' => (Pr.command c' : Res ε Str) = Pr.command c) cs cs') :
    (Pr.commands cs' : Res ε Str) = Pr.commands cs := by
  induction h with
  | nil => rfl
  | cons h1 _ ih => rw [Pr.commands, Pr.commands, h1, ih]

theorem all2_map_right {α β : Type} {R : α → β → Prop} {f : α → β} {l : List α} (h : ∀ a ∈ l, R a (f a)) : All2 R l (l.map f) := by
  induction l with
  | nil => exact .nil
  | cons a t ih => exact .cons (h a (.head _)) (ih fun b hb => h b (.tail _ hb))

/-! ## Printing what was read -/

theorem acceptedSeq_of_text {E : Env} {U : Uni} {s : Str} {ast : OCAAst} (h : parseText E U s = .ok ast) : AcceptedSeq ast.commands := by
  intro pre c post e hb
  obtain ⟨h1, h2, h3⟩ := C09_text_commands_consistent E U s ast h pre post c e
  rcases hb with ⟨x, a, b⟩ | ⟨x, a, b⟩ | ⟨x, a, b⟩
  · exact h1 x a b
  · exact b (h2 x a)
  · exact b (h3 x a)

/-- **C71** A printed file is in its final form, unless a META command says two or more things: reading it and printing it again gives the
very same text. -/
theorem C71_printed_is_stable (E : Env) (U : Uni) (ast : OCAAst) (hp : ∀ c ∈ ast.commands, Printable E U c) (hr : AcceptedSeq ast.commands)
    (hs : ∀ c ∈ ast.commands, c.Settled) :
    ∃ text out, (∀ ε, (printAst ast : Res ε Str) = .ok text) ∧ parseText E U text = .ok out ∧ ∀ ε, (printAst out : Res ε Str) = .ok text := by
  obtain ⟨text, out, h1, h2, h3, -⟩ := C49_print_parse_exact E U ast hp hr
  refine ⟨text, out, h1, h2, fun ε => ?_⟩
  rw [← h1 ε]
  show (Pr.commands out.commands : Res ε Str) = Pr.commands ast.commands
  rw [h3]
  exact commands_congr (all2_map_right fun c hc => print_reread (hp c hc) (hs c hc) ε)

/-- **C71** So formatting a file (reading it and printing what was read) twice is formatting it once. -/
theorem C71_format_twice (E : Env) (U : Uni) (hU : ∀ s, U.lower (U.lower s) = U.lower s) (s : Str) (hs : '\\' ∉ s) (ast : OCAAst)
    (h : parseText E U s = .ok ast) (hr : ∀ c ∈ ast.commands, CanReprint c) (hm : ∀ c ∈ ast.commands, c.Settled) :
    ∃ text out, (∀ ε, (printAst ast : Res ε Str) = .ok text) ∧ parseText E U text = .ok out ∧ ∀ ε, (printAst out : Res ε Str) = .ok text := by
  refine C71_printed_is_stable E U ast ?_ (acceptedSeq_of_text h) hm
  intro c hc
  have := C52_commands_of_text E U s ast h c hc
  rw [show hasBackslash s = false by simpa [hasBackslash] using hs] at this
  exact printable_of_text hU this (hr c hc)

/-! ## Printing and reading again and again -/

theorem Like.trans {a b c : Command} (h : Like a b) (g : Like b c) : Like a c := by
  obtain ⟨ak, ao⟩ := a
  obtain ⟨bk, bo⟩ := b
  obtain ⟨ck, co⟩ := c
  obtain ⟨h1, h2⟩ := h
  obtain ⟨g1, g2⟩ := g
  refine ⟨h1.trans g1, ?_⟩
  dsimp only at h2 g2 ⊢
  cases ao with
  | overlay t x =>
    cases bo with
    | overlay t' y =>
      cases co with
      | overlay t'' z => exact ⟨h2.1.trans g2.1, h2.2.1.trans g2.2.1, h2.2.2.trans g2.2.2⟩
      | _ => cases g2
    | _ => cases h2
  | captureBase x => cases bo <;> first | (cases h2; done) | skip
                     cases h2; exact g2
  | ocaBundle x => cases bo <;> first | (cases h2; done) | skip
                   cases h2; exact g2

theorem All2.likeTrans {a b c : List Command} (h : All2 Like a b) : All2 Like b c → All2 Like a c := by
  induction h generalizing c with
  | nil => intro g; cases g; exact .nil
  | cons h1 _ ih => intro g; cases g with | cons g1 g2 => exact .cons (h1.trans g1) (ih g2)

/-- the AST printed, and the text read -/
def roundTrip (E : Env) (U : Uni) (a : OCAAst) : Option (Str × OCAAst) :=
  match (printAst a : Res ParseErr Str) with
  | .ok text => match parseText E U text with
    | .ok out => some (text, out)
    | _ => none
  | _ => none

/-- `n` times, and the last text -/
def roundTrips (E : Env) (U : Uni) : Nat → OCAAst → Option (Str × OCAAst)
  | 0, a => roundTrip E U a
  | n + 1, a => match roundTrip E U a with
    | some (_, out) => roundTrips E U n out
    | none => none

theorem roundTrip_of {E : Env} {U : Uni} {ast : OCAAst} (hp : ∀ c ∈ ast.commands, Printable E U c) (hr : AcceptedSeq ast.commands) :
    ∃ text out, roundTrip E U ast = some (text, out) ∧ out.commands = ast.commands.map Command.reread ∧ (∀ c ∈ out.commands, Printable E U c) ∧
      AcceptedSeq out.commands ∧ All2 Like ast.commands out.commands := by
  obtain ⟨text, out, h1, h2, h3, h4, -⟩ := C49_print_parse_exact E U ast hp hr
  refine ⟨text, out, ?_, h3, ?_, acceptedSeq_of_text h2, h4⟩
  · unfold roundTrip
    rw [h1]
    dsimp only
    rw [h2]
  · rw [h3]
    intro c hc
    obtain ⟨d, hd, rfl⟩ := List.mem_map.1 hc
    exact (hp d hd).reread

theorem Printable.rereads {E : Env} {U : Uni} {c : Command} (h : Printable E U c) (n : Nat) : Printable E U (Nat.repeat Command.reread n c) := by
  induction n with
  | zero => exact h
  | succ n ih => exact ih.reread

theorem repeat_comm {α : Type} (f : α → α) (n : Nat) (a : α) : Nat.repeat f n (f a) = f (Nat.repeat f n a) := by
  induction n with
  | zero => rfl
  | succ n ih => exact congrArg f ih

/-- **C71** However often a file is printed and read again: it can always be printed and read once more, and the commands are those of the first
one, each with its properties possibly in another order; so the bundle built from it is always the same. -/
theorem C71_rounds (E : Env) (U : Uni) (ast : OCAAst) (hp : ∀ c ∈ ast.commands, Printable E U c) (hr : AcceptedSeq ast.commands) (n : Nat) :
    ∃ text out, roundTrips E U n ast = some (text, out) ∧ out.commands = ast.commands.map (Nat.repeat Command.reread (n + 1)) ∧
      ∀ Os base, SameOutcome (fromAst E Os base ast) (fromAst E Os base out) := by
  suffices h : ∃ text out, roundTrips E U n ast = some (text, out) ∧ out.commands = ast.commands.map (Nat.repeat Command.reread (n + 1)) ∧
      All2 Like ast.commands out.commands by
    obtain ⟨text, out, h1, h2, h3⟩ := h
    exact ⟨text, out, h1, h2, fun Os base => sameOutcome_of_like E h3 (fun c hc => (hp c hc).propsDistinct) Os base⟩
  induction n generalizing ast with
  | zero =>
    obtain ⟨text, out, h1, h2, h3, h4, h5⟩ := roundTrip_of hp hr
    exact ⟨text, out, h1, h2, h5⟩
  | succ n ih =>
    obtain ⟨text, out, h1, h2, h3, h4, h5⟩ := roundTrip_of hp hr
    obtain ⟨text', out', g1, g2, g3⟩ := ih out h3 h4
    refine ⟨text', out', ?_, ?_, h5.likeTrans g3⟩
    · rw [roundTrips, h1]; exact g1
    · rw [g2, h2, List.map_map]
      apply List.map_congr_left
      intro c _
      exact repeat_comm Command.reread (n + 1) c

/-! ## META -/

theorem lastToFront_snoc {α : Type} (l : List α) (q : α) : lastToFront (l ++ [q]) = q :: l := by
  simp [lastToFront]

theorem repeat_lastToFront {α : Type} (b : List α) : ∀ a : List α, Nat.repeat lastToFront b.length (a ++ b) = b ++ a := by
  induction b using snoc_ind with
  | h0 => intro a; simp [Nat.repeat]
  | h1 b q ih =>
    intro a
    rw [List.length_append, show b.length + [q].length = b.length + 1 from rfl]
    show lastToFront (Nat.repeat lastToFront b.length (a ++ (b ++ [q]))) = _
    rw [← repeat_comm lastToFront, ← List.append_assoc, lastToFront_snoc, ← List.cons_append, ih (q :: a)]
    simp

/-- a META command as the parser gives it: the language first -/
def metaCommand (lg : Str) (rs : List (Str × NVal)) : Command := ⟨.add, .overlay ⟨.metaOv, c!"1.1"⟩ ⟨some [], some ((c!"lang", .val lg) :: rs)⟩⟩

theorem reread_meta (lg : Str) (rs : List (Str × NVal)) (hk : ∀ p ∈ rs, p.1 ≠ c!"lang") : (metaCommand lg rs).reread = metaCommand lg (lastToFront rs) := by
  show (⟨.add, .overlay _ ⟨some [], some (langFirst ((c!"lang", .val lg) :: rs))⟩⟩ : Command) = _
  rw [langFirst_cons _ _ hk]
  rfl

theorem mem_lastToFront {α : Type} {l : List α} {x : α} : x ∈ lastToFront l ↔ x ∈ l := by
  induction l using snoc_ind with
  | h0 => rfl
  | h1 l q _ => rw [lastToFront_snoc]; simp [or_comm]

/-- **C71** What happens to META: every time the file is printed and read, the last thing it says comes to the front; after as many times as it says
things everything is where it was. -/
theorem C71_meta_turns (lg : Str) (rs : List (Str × NVal)) (hk : ∀ p ∈ rs, p.1 ≠ c!"lang") (n : Nat) :
    Nat.repeat Command.reread n (metaCommand lg rs) = metaCommand lg (Nat.repeat lastToFront n rs) ∧
    Nat.repeat Command.reread rs.length (metaCommand lg rs) = metaCommand lg rs := by
  have key : ∀ n, Nat.repeat Command.reread n (metaCommand lg rs) = metaCommand lg (Nat.repeat lastToFront n rs) ∧
      ∀ p ∈ Nat.repeat lastToFront n rs, p.1 ≠ c!"lang" := by
    intro n
    induction n with
    | zero => exact ⟨rfl, hk⟩
    | succ n ih =>
      refine ⟨?_, fun p hp => ih.2 p (mem_lastToFront.1 hp)⟩
      show (Nat.repeat Command.reread n (metaCommand lg rs)).reread = _
      rw [ih.1, reread_meta _ _ ih.2]
      rfl
  refine ⟨(key n).1, ?_⟩
  rw [(key _).1]
  have := repeat_lastToFront rs []
  rw [List.nil_append, List.append_nil] at this
  rw [this]

/-- every other command is read back unchanged from the second time on -/
theorem C71_others_settle {E : Env} {U : Uni} {c : Command} (h : Printable E U c) (hm : ∀ t cc, c.obj = .overlay t cc → t.kind ≠ .metaOv) :
    c.reread.reread = c.reread := by
  obtain ⟨k, o⟩ := c
  cases o with
  | captureBase cc => rfl
  | ocaBundle r => rfl
  | overlay t cc =>
    have := hm t cc rfl
    simp only [Command.reread, if_neg this]
    rfl

/-- the texts of the first, second and third time -/
def metaTexts (s : Str) : Option (Str × Str × Str) :=
  match parseText Env.demo Uni.ascii s with
  | .ok a => match roundTrips Env.demo Uni.ascii 0 a, roundTrips Env.demo Uni.ascii 1 a, roundTrips Env.demo Uni.ascii 2 a with
    | some x, some y, some z => some (x.1, y.1, z.1)
    | _, _, _ => none
  | _ => none

set_option maxRecDepth 20000 in
/-- **C71**, concrete cases: a file that is in its final form after being printed once; and a META whose properties keep turning. -/
theorem C71_example :
    metaTexts c!"ADD ATTRIBUTE a=Text   b=Numeric\n\nADD META en PROPS name='x'\n" =
      some (c!"ADD ATTRIBUTE a=Text b=Numeric\nADD META en PROPS  name=\"x\"\n", c!"ADD ATTRIBUTE a=Text b=Numeric\nADD META en PROPS  name=\"x\"\n",
        c!"ADD ATTRIBUTE a=Text b=Numeric\nADD META en PROPS  name=\"x\"\n") ∧
    metaTexts c!"ADD META en PROPS a=\"1\" b=\"2\" c=\"3\"\n" =
      some (c!"ADD META en PROPS  c=\"3\" a=\"1\" b=\"2\"\n", c!"ADD META en PROPS  b=\"2\" c=\"3\" a=\"1\"\n", c!"ADD META en PROPS  a=\"1\" b=\"2\" c=\"3\"\n") := by
  decide +kernel

end OCA
