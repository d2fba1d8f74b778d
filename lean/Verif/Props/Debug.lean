import Verif.Model.Debug

/-! The commands of the debugger (`toffee/debug.py`): C98. -/

namespace Toffee.Debug

/-! ### What the user sees of the DUT -/

/-- A write to a signal: the value (`none`: the value it has), the mode in which it is made, and
whether a write of the same value is ignored. -/
structure Write where
  name : Text
  value : Option Int
  mode : Mode
  ignored : Bool
  deriving DecidableEq

/-- The DUT: cycles stepped, the writes made so far, the settings of the signals, whether the
combinational logic is out of date, whether the waveform is written out. -/
structure Dev where
  cycle : Int
  writes : List Write
  mode : Text → Mode
  ignore : Text → Bool
  stale : Bool
  flushed : Bool

def set {α : Type} (f : Text → α) (n : Text) (a : α) : Text → α := fun m => if m = n then a else f m

/-- What a call does to the DUT. -/
def Dev.step (d : Dev) : Op → Dev
  | .say => d
  | .step n => { d with cycle := d.cycle + n, flushed := false }
  | .flush => { d with flushed := true }
  | .refresh => { d with stale := false }
  | .list _ _ => d
  | .look _ => d
  | .show' _ _ => d
  | .write n v =>
    { d with writes := d.writes ++ [⟨n, some v, d.mode n, d.ignore n⟩], stale := true }
  | .keep n =>
    { d with writes := d.writes ++ [⟨n, none, d.mode n, d.ignore n⟩], stale := true }
  | .mode n m => { d with mode := set d.mode n m }
  | .ignore n b => { d with ignore := set d.ignore n b }

def Dev.after (d : Dev) (ops : List Op) : Dev := ops.foldl Dev.step d

/-! ### Words -/

def Word (w : Text) : Prop := w ≠ [] ∧ ∀ c ∈ w, c.isWhitespace = false
def Blank (s : Text) : Prop := ∀ c ∈ s, c.isWhitespace = true
/-- The end of the text, or white space. -/
def Ends (t : Text) : Prop := ∀ c t', t = c :: t' → c.isWhitespace = true

/-- The text starts with the words `n` and `v`. -/
def Two (arg n v : Text) : Prop :=
  ∃ s t, Word n ∧ s ≠ [] ∧ Blank s ∧ Word v ∧ Ends t ∧ arg = n ++ s ++ v ++ t

/-- The text starts with the word `n`, and that is all. -/
def One (arg n : Text) : Prop := ∃ s, Word n ∧ Blank s ∧ arg = n ++ s

/-- No white space in front: `pdb` strips the line. -/
def Stripped (arg : Text) : Prop := ∀ c t, arg = c :: t → c.isWhitespace = false

theorem splitGo_blank : ∀ {s t : Text}, Blank s → splitGo [] (s ++ t) = splitGo [] t
  | [], _, _ => rfl
  | c :: s, t, h => by
    rw [List.cons_append, splitGo, if_pos (h c List.mem_cons_self), if_pos rfl]
    exact splitGo_blank fun c hc => h c (List.mem_cons_of_mem _ hc)

theorem splitGo_word : ∀ {w acc t : Text}, (∀ c ∈ w, c.isWhitespace = false) → Ends t →
    acc.reverse ++ w ≠ [] → splitGo acc (w ++ t) = (acc.reverse ++ w) :: splitGo [] t
  | [], acc, t, _, ht, hn => by
    rw [List.append_nil] at hn ⊢
    have ha : acc ≠ [] := by
      intro h
      rw [h] at hn
      exact hn rfl
    cases t with
    | nil => rw [List.nil_append, splitGo, if_neg ha]; rfl
    | cons c t =>
      have hc := ht c t rfl
      rw [List.nil_append, splitGo, if_pos hc, if_neg ha]
      rw [splitGo, if_pos hc, if_pos rfl]
  | c :: w, acc, t, hw, ht, _ => by
    rw [List.cons_append, splitGo, if_neg (by rw [hw c List.mem_cons_self]; simp),
      splitGo_word (fun c hc => hw c (List.mem_cons_of_mem _ hc)) ht (by simp)]
    simp

theorem split_word {w t : Text} (hw : Word w) (ht : Ends t) : split (w ++ t) = w :: split t := by
  have := splitGo_word (acc := []) hw.2 ht (by simpa using hw.1)
  simpa [split] using this

theorem split_blank {s t : Text} (h : Blank s) : split (s ++ t) = split t := splitGo_blank h

theorem ends_blank {s t : Text} (h : Blank s) (hn : s ≠ []) : Ends (s ++ t) := by
  intro c t' he
  cases s with
  | nil => exact absurd rfl hn
  | cons x s =>
    cases he
    exact h _ List.mem_cons_self

theorem two_split {arg n v : Text} (h : Two arg n v) : ∃ r, split arg = n :: v :: r := by
  obtain ⟨s, t, h1, h2, h3, h4, h5, rfl⟩ := h
  refine ⟨split t, ?_⟩
  rw [List.append_assoc, List.append_assoc, split_word h1 (ends_blank h3 h2), split_blank h3,
    split_word h4 h5]

/-- A text without leading white space is empty or a word and the rest. -/
theorem word_of : ∀ t : Text, ∃ w r, (∀ c ∈ w, c.isWhitespace = false) ∧ Ends r ∧ t = w ++ r
  | [] => ⟨[], [], by simp, (by intro _ _ h; cases h), rfl⟩
  | c :: t => by
    by_cases hc : c.isWhitespace = true
    · exact ⟨[], c :: t, by simp, fun _ _ h => by cases h; exact hc, rfl⟩
    · obtain ⟨w, r, h1, h2, rfl⟩ := word_of t
      refine ⟨c :: w, r, fun x hx => ?_, h2, rfl⟩
      rcases List.mem_cons.1 hx with rfl | hx
      · simpa using hc
      · exact h1 x hx

theorem blank_of : ∀ t : Text, ∃ s r, Blank s ∧ Stripped r ∧ t = s ++ r
  | [] => ⟨[], [], by simp [Blank], (by intro _ _ h; cases h), rfl⟩
  | c :: t => by
    by_cases hc : c.isWhitespace = true
    · obtain ⟨s, r, h1, h2, rfl⟩ := blank_of t
      refine ⟨c :: s, r, fun x hx => ?_, h2, rfl⟩
      rcases List.mem_cons.1 hx with rfl | hx
      · exact hc
      · exact h1 x hx
    · exact ⟨[], c :: t, by simp [Blank], fun _ _ h => by cases h; simpa using hc, rfl⟩

theorem word_of_stripped {t : Text} (h : Stripped t) (hn : t ≠ []) :
    ∃ w r, Word w ∧ Ends r ∧ t = w ++ r := by
  obtain ⟨w, r, h1, h2, rfl⟩ := word_of t
  refine ⟨w, r, ⟨?_, h1⟩, h2, rfl⟩
  rintro rfl
  cases r with
  | nil => exact hn rfl
  | cons c r =>
    have a := h c r rfl
    rw [h2 c r rfl] at a
    cases a

/-- The cases of an argument. -/
theorem arg_case {arg : Text} (h : Stripped arg) :
    arg = [] ∨ (∃ n, One arg n ∧ split arg = [n]) ∨
      ∃ n v r, Two arg n v ∧ split arg = n :: v :: r := by
  by_cases hn : arg = []
  · exact .inl hn
  · obtain ⟨n, r, hw, hr, rfl⟩ := word_of_stripped h hn
    obtain ⟨s, u, hs, hu, rfl⟩ := blank_of r
    right
    by_cases hun : u = []
    · subst hun
      rw [List.append_nil] at hr ⊢
      refine .inl ⟨n, ⟨s, hw, hs, rfl⟩, ?_⟩
      have := split_blank (t := []) hs
      rw [List.append_nil] at this
      rw [split_word hw hr, this]
      rfl
    · obtain ⟨v, t, hv, ht, rfl⟩ := word_of_stripped hu hun
      have hsn : s ≠ [] := by
        rintro rfl
        cases v with
        | nil => exact hv.1 rfl
        | cons c v =>
          have a := hr c (v ++ t) rfl
          rw [hv.2 c List.mem_cons_self] at a
          cases a
      have h2 : Two (n ++ (s ++ (v ++ t))) n v := ⟨s, t, hw, hsn, hs, hv, ht, by simp⟩
      obtain ⟨r, h3⟩ := two_split h2
      exact .inr ⟨n, v, r, h2, h3⟩

theorem two_unique {arg n v n' v' : Text} (h : Two arg n v) (h' : Two arg n' v') :
    n = n' ∧ v = v' := by
  obtain ⟨r, h⟩ := two_split h
  obtain ⟨r', h'⟩ := two_split h'
  rw [h] at h'
  cases h'
  exact ⟨rfl, rfl⟩

theorem one_split {arg n : Text} (h : One arg n) : split arg = [n] := by
  obtain ⟨s, hw, hs, rfl⟩ := h
  have := split_blank (t := []) hs
  rw [List.append_nil] at this
  rw [split_word hw (by
    cases s with
    | nil => intro _ _ h; cases h
    | cons => intro c t h; cases h; exact hs _ List.mem_cons_self), this]
  rfl

/-! ### What a command means -/

/-- The command names a signal of the DUT and a value. -/
def Names (h : Host) (arg n : Text) (x : Int) : Prop :=
  ∃ v, Two arg n v ∧ h.int v = some x ∧ h.found n = true

/-- The command acts on the signal `n`: it forces it (`true`) or releases it (`false`). -/
def Acts (h : Host) (n : Text) (force : Bool) (e : Cmd × Text) : Prop :=
  (force = true ∧ e.1 = .tforce ∧ ∃ x, Names h e.2 n x) ∨
  (force = false ∧ e.1 = .trelease ∧ e.2 = n ∧ n ≠ [] ∧ h.found n = true)

/-- What the commands should do to the DUT. -/
inductive Does (h : Host) (d : Dev) : Cmd → Text → Dev → Prop
  | step1 : Does h d .tstep [] { d with cycle := d.cycle + 1, flushed := true }
  | step {arg : Text} {n : Int} (ha : arg ≠ []) (hn : h.int arg = some n) :
      Does h d .tstep arg { d with cycle := d.cycle + n, flushed := true }
  | badStep {arg : Text} (ha : arg ≠ []) (hn : h.int arg = none) : Does h d .tstep arg d
  | flush : Does h d .tflush [] { d with flushed := true }
  | badFlush {arg : Text} (ha : arg ≠ []) : Does h d .tflush arg d
  | list (arg : Text) : Does h d .tlist arg d
  | print (arg : Text) : Does h d .tprint arg d
  | set {arg n : Text} {x : Int} (hn : Names h arg n x) :
      Does h d .tset arg
        { d with writes := d.writes ++ [⟨n, some x, d.mode n, d.ignore n⟩], stale := false }
  | badSet {arg : Text} (hn : ¬ ∃ n x, Names h arg n x) : Does h d .tset arg d
  | force {arg n : Text} {x : Int} (hn : Names h arg n x) :
      Does h d .tforce arg
        { d with
          writes := d.writes ++ [⟨n, some x, .force, false⟩]
          mode := set d.mode n .force
          ignore := set d.ignore n true
          stale := false }
  | badForce {arg : Text} (hn : ¬ ∃ n x, Names h arg n x) : Does h d .tforce arg d
  | release {arg : Text} (ha : arg ≠ []) (hn : h.found arg = true) :
      Does h d .trelease arg
        { d with
          writes := d.writes ++ [⟨arg, none, .release, false⟩]
          mode := set d.mode arg .noDelay
          ignore := set d.ignore arg true
          stale := false }
  | badRelease {arg : Text} (hn : ¬ (arg ≠ [] ∧ h.found arg = true)) : Does h d .trelease arg d

theorem set_set {α : Type} (f : Text → α) (n : Text) (a b : α) : set (set f n a) n b = set f n b := by
  funext m
  simp only [set]
  split <;> rfl

theorem set_same {α : Type} (f : Text → α) (n : Text) (a : α) : set f n a n = a := by
  simp [set]

theorem names_iff {h : Host} {arg n v : Text} {r : List Text} (hs : split arg = n :: v :: r)
    {n' : Text} {x : Int} (hx : Names h arg n' x) : n' = n ∧ h.int v = some x ∧ h.found n = true := by
  obtain ⟨v', h1, h2, h3⟩ := hx
  obtain ⟨r', h1⟩ := two_split h1
  rw [hs] at h1
  cases h1
  exact ⟨rfl, h2, h3⟩

theorem no_names {h : Host} {arg : Text} (hs : ∀ n v r, split arg ≠ n :: v :: r) :
    ¬ ∃ n x, Names h arg n x := by
  rintro ⟨n, x, v, h1, _⟩
  obtain ⟨r, h1⟩ := two_split h1
  exact hs _ _ _ h1

/-- **C98.** Every command on a stripped argument returns without an exception and does to the DUT
exactly what `Does` says: a command that is not well formed, or names a signal that does not exist,
changes nothing; `tset` and `tforce` make one write, to the named signal and of the named value,
and refresh the combinational logic; no other signal is touched. -/
theorem C98_commands (h : Host) (d : Dev) (c : Cmd) (arg : Text) (hs : Stripped arg) :
    ∃ ops, run h c arg = some ops ∧ Does h d c arg (d.after ops) := by
  cases c with
  | tstep =>
    simp only [run, tstep]
    by_cases ha : arg = []
    · subst ha
      exact ⟨_, rfl, .step1⟩
    · rw [if_neg ha]
      cases hi : h.int arg with
      | none => exact ⟨_, rfl, .badStep ha hi⟩
      | some n => exact ⟨_, rfl, .step ha hi⟩
  | tflush =>
    simp only [run, tflush]
    by_cases ha : arg = []
    · subst ha
      exact ⟨_, rfl, .flush⟩
    · rw [if_neg ha]
      exact ⟨_, rfl, .badFlush ha⟩
  | tlist =>
    simp only [run, tlist]
    rcases arg_case hs with rfl | ⟨n, h1, h2⟩ | ⟨n, v, r, h1, h2⟩
    · exact ⟨_, rfl, .list _⟩
    all_goals
      have ha : arg ≠ [] := by rintro rfl; cases h2
      rw [if_neg ha, h2]
      simp only
      cases h.int n with
      | none => exact ⟨_, rfl, .list _⟩
      | some n => exact ⟨_, rfl, .list _⟩
  | tprint =>
    simp only [run, tprint]
    have key : ∀ n b, ∃ ops, tprintBase h n b = some ops ∧ Does h d .tprint arg (d.after ops) := by
      intro n b
      cases b with
      | none => exact ⟨_, rfl, .print _⟩
      | some b =>
        simp only [tprintBase]
        split
        · exact ⟨_, rfl, .print _⟩
        · exact ⟨_, rfl, .print _⟩
    rcases arg_case hs with rfl | ⟨n, h1, h2⟩ | ⟨n, v, r, h1, h2⟩
    · exact ⟨_, rfl, .print _⟩
    all_goals
      have ha : arg ≠ [] := by rintro rfl; cases h2
      rw [if_neg ha, h2]
      exact key _ _
  | tset =>
    simp only [run, tset]
    rcases arg_case hs with rfl | ⟨n, h1, h2⟩ | ⟨n, v, r, h1, h2⟩
    · exact ⟨_, rfl, .badSet (no_names (by intro _ _ _ h; cases h))⟩
    · have ha : arg ≠ [] := by rintro rfl; cases h2
      rw [if_neg ha, h2]
      exact ⟨_, rfl, .badSet (no_names (by intro _ _ _ h; rw [h2] at h; cases h))⟩
    · have ha : arg ≠ [] := by rintro rfl; cases h2
      rw [if_neg ha, h2]
      simp only
      cases hi : h.int v with
      | none =>
        refine ⟨_, rfl, .badSet ?_⟩
        rintro ⟨n', x, hx⟩
        have := (names_iff h2 hx).2.1
        rw [hi] at this
        cases this
      | some x =>
        by_cases hf : h.found n = true
        · simp only [if_pos hf]
          exact ⟨_, rfl, .set ⟨v, h1, hi, hf⟩⟩
        · simp only [if_neg hf]
          refine ⟨_, rfl, .badSet ?_⟩
          rintro ⟨n', x, hx⟩
          exact hf (names_iff h2 hx).2.2
  | tforce =>
    simp only [run, tforce]
    rcases arg_case hs with rfl | ⟨n, h1, h2⟩ | ⟨n, v, r, h1, h2⟩
    · exact ⟨_, rfl, .badForce (no_names (by intro _ _ _ h; cases h))⟩
    · have ha : arg ≠ [] := by rintro rfl; cases h2
      rw [if_neg ha, h2]
      exact ⟨_, rfl, .badForce (no_names (by intro _ _ _ h; rw [h2] at h; cases h))⟩
    · have ha : arg ≠ [] := by rintro rfl; cases h2
      rw [if_neg ha, h2]
      simp only
      cases hi : h.int v with
      | none =>
        refine ⟨_, rfl, .badForce ?_⟩
        rintro ⟨n', x, hx⟩
        have := (names_iff h2 hx).2.1
        rw [hi] at this
        cases this
      | some x =>
        by_cases hf : h.found n = true
        · simp only [if_pos hf]
          refine ⟨_, rfl, ?_⟩
          have := Does.force (d := d) (x := x) (h := h) (arg := arg) (n := n) ⟨v, h1, hi, hf⟩
          simpa only [Dev.after, List.foldl_cons, List.foldl_nil, Dev.step, set_set, set_same]
            using this
        · simp only [if_neg hf]
          refine ⟨_, rfl, .badForce ?_⟩
          rintro ⟨n', x, hx⟩
          exact hf (names_iff h2 hx).2.2
  | trelease =>
    simp only [run, trelease]
    by_cases ha : arg = []
    · rw [if_pos ha]
      exact ⟨_, rfl, .badRelease fun h => h.1 ha⟩
    · rw [if_neg ha]
      by_cases hf : h.found arg = true
      · rw [if_pos hf]
        refine ⟨_, rfl, ?_⟩
        have := Does.release (d := d) ha hf
        simpa only [Dev.after, List.foldl_cons, List.foldl_nil, Dev.step, set_set, set_same]
          using this
      · rw [if_neg hf]
        exact ⟨_, rfl, .badRelease fun h => hf h.2⟩

theorem baseOf_iff (w : Text) (b : Nat) : baseOf w = some b ↔
    ((w = "bin".toList ∧ b = 2) ∨ (w = "hex".toList ∧ b = 16) ∨ (w = "dec".toList ∧ b = 10)) := by
  unfold baseOf
  by_cases h1 : w = "bin".toList
  · subst h1
    simp [eq_comm]
  · by_cases h2 : w = "hex".toList
    · subst h2
      simp [eq_comm]
    · by_cases h3 : w = "dec".toList
      · subst h3
        simp [eq_comm]
      · rw [if_neg h1, if_neg h2, if_neg h3]
        simp only [h1, h2, h3, false_and, or_false, reduceCtorEq]

/-- **C98.** `tprint` shows the named signal in the named base, decimal if none is named, and
nothing else. -/
theorem C98_tprint (h : Host) (arg n : Text) (b : Nat) (hs : Stripped arg) :
    (∃ ops, run h .tprint arg = some ops ∧ Op.show' n b ∈ ops) ↔
      h.found n = true ∧ ((One arg n ∧ b = 10) ∨ ∃ v, Two arg n v ∧
        ((v.map Char.toLower = "bin".toList ∧ b = 2) ∨
          (v.map Char.toLower = "hex".toList ∧ b = 16) ∨
          (v.map Char.toLower = "dec".toList ∧ b = 10))) := by
  have key : ∀ m o, (∃ ops, tprintBase h m o = some ops ∧ Op.show' n b ∈ ops) ↔
      h.found m = true ∧ m = n ∧ o = some b := by
    intro m o
    cases o with
    | none => simp [tprintBase]
    | some b' =>
      simp only [tprintBase]
      by_cases hf : h.found m = true
      · simp only [if_pos hf]
        simp [hf]
        constructor <;> rintro ⟨rfl, rfl⟩ <;> exact ⟨rfl, rfl⟩
      · simp only [if_neg hf]
        simp [hf]
  have hb : ∀ v : Text, baseOf (lower v) = some b ↔
      ((v.map Char.toLower = "bin".toList ∧ b = 2) ∨
          (v.map Char.toLower = "hex".toList ∧ b = 16) ∨
          (v.map Char.toLower = "dec".toList ∧ b = 10)) := by
    intro v
    exact baseOf_iff (lower v) b
  simp only [run, tprint]
  rcases arg_case hs with rfl | ⟨m, h1, h2⟩ | ⟨m, v, r, h1, h2⟩
  · rw [if_pos rfl]
    constructor
    · rintro ⟨ops, h1, h2⟩
      cases h1
      cases h2
    · rintro ⟨_, ⟨h1, _⟩ | ⟨v, h1, _⟩⟩
      · have := one_split h1
        cases this
      · obtain ⟨r, this⟩ := two_split h1
        cases this
  · have ha : arg ≠ [] := by rintro rfl; cases h2
    rw [if_neg ha, h2]
    simp only
    rw [key]
    constructor
    · rintro ⟨a, rfl, c⟩
      cases c
      exact ⟨a, .inl ⟨h1, rfl⟩⟩
    · rintro ⟨a, ⟨b, rfl⟩ | ⟨v, b, _⟩⟩
      · have := one_split b
        rw [h2] at this
        cases this
        exact ⟨a, rfl, rfl⟩
      · obtain ⟨r, this⟩ := two_split b
        rw [h2] at this
        cases this
  · have ha : arg ≠ [] := by rintro rfl; cases h2
    rw [if_neg ha, h2]
    simp only
    rw [key, hb]
    constructor
    · rintro ⟨a, rfl, c⟩
      exact ⟨a, .inr ⟨v, h1, c⟩⟩
    · rintro ⟨a, ⟨b, _⟩ | ⟨v', b, c⟩⟩
      · have := one_split b
        rw [h2] at this
        cases this
      · obtain ⟨rfl, rfl⟩ := two_unique b h1
        exact ⟨a, rfl, c⟩

/-- **C98.** `tlist` lists the signals below the named prefix, of the named depth; everything if
nothing is named. -/
theorem C98_tlist (h : Host) (arg p : Text) (n : Int) (hs : Stripped arg) :
    (∃ ops, run h .tlist arg = some ops ∧ Op.list p n ∈ ops) ↔
      (arg = [] ∧ p = [] ∧ n = 99) ∨
      (∃ w, h.int w = some n ∧ ((One arg w ∧ p = []) ∨ Two arg w p)) := by
  simp only [run, tlist]
  rcases arg_case hs with rfl | ⟨m, h1, h2⟩ | ⟨m, v, r, h1, h2⟩
  · rw [if_pos rfl]
    constructor
    · rintro ⟨ops, h1, h2⟩
      cases h1
      cases List.mem_singleton.1 h2
      exact .inl ⟨rfl, rfl, rfl⟩
    · rintro (⟨_, rfl, rfl⟩ | ⟨w, _, ⟨h1, _⟩ | h1⟩)
      · exact ⟨_, rfl, by simp⟩
      · have := one_split h1
        cases this
      · obtain ⟨r, this⟩ := two_split h1
        cases this
  · have ha : arg ≠ [] := by rintro rfl; cases h2
    rw [if_neg ha, h2]
    simp only
    constructor
    · rintro ⟨ops, h3, h4⟩
      cases hi : h.int m with
      | none =>
        rw [hi] at h3
        cases h3
        simp at h4
      | some k =>
        rw [hi] at h3
        cases h3
        cases List.mem_singleton.1 h4
        exact .inr ⟨m, hi, .inl ⟨h1, rfl⟩⟩
    · rintro (⟨h3, _⟩ | ⟨w, hw, ⟨h3, rfl⟩ | h3⟩)
      · exact absurd h3 ha
      · have := one_split h3
        rw [h2] at this
        cases this
        rw [hw]
        exact ⟨_, rfl, by simp⟩
      · obtain ⟨r, this⟩ := two_split h3
        rw [h2] at this
        cases this
  · have ha : arg ≠ [] := by rintro rfl; cases h2
    rw [if_neg ha, h2]
    simp only
    constructor
    · rintro ⟨ops, h3, h4⟩
      cases hi : h.int m with
      | none =>
        rw [hi] at h3
        cases h3
        simp at h4
      | some k =>
        rw [hi] at h3
        cases h3
        cases List.mem_singleton.1 h4
        exact .inr ⟨m, hi, .inr h1⟩
    · rintro (⟨h3, _⟩ | ⟨w, hw, ⟨h3, rfl⟩ | h3⟩)
      · exact absurd h3 ha
      · have := one_split h3
        rw [h2] at this
        cases this
      · obtain ⟨rfl, rfl⟩ := two_unique h3 h1
        rw [hw]
        exact ⟨_, rfl, by simp⟩

/-- What makes a command that changes the DUT wrong. -/
def Wrong (h : Host) (arg : Text) : Cmd → Prop
  | .tstep => arg ≠ [] ∧ h.int arg = none
  | .tflush => arg ≠ []
  | .tset => arg ≠ [] ∧ ¬ ∃ n x, Names h arg n x
  | .tforce => arg ≠ [] ∧ ¬ ∃ n x, Names h arg n x
  | .trelease => arg ≠ [] ∧ h.found arg = false
  | .tlist => False
  | .tprint => False

/-- **C98.** Exactly the wrong commands are reported. -/
theorem C98_reports (h : Host) (c : Cmd) (arg : Text) (hs : Stripped arg) (h1 : c ≠ .tlist)
    (h2 : c ≠ .tprint) :
    (∃ ops, run h c arg = some ops ∧ Op.say ∈ ops) ↔ Wrong h arg c := by
  cases c with
  | tlist => exact absurd rfl h1
  | tprint => exact absurd rfl h2
  | tstep =>
    simp only [run, tstep, Wrong]
    by_cases ha : arg = []
    · simp [ha]
    · cases hi : h.int arg <;> simp [ha]
  | tflush =>
    simp only [run, tflush, Wrong]
    by_cases ha : arg = [] <;> simp [ha]
  | trelease =>
    simp only [run, trelease, Wrong]
    by_cases ha : arg = []
    · simp [ha]
    · cases hf : h.found arg <;> simp [ha]
  | tset =>
    simp only [run, tset, Wrong]
    rcases arg_case hs with rfl | ⟨n, a1, a2⟩ | ⟨n, v, r, a1, a2⟩
    · simp
    · have ha : arg ≠ [] := by rintro rfl; cases a2
      have hn : ¬ ∃ n x, Names h arg n x :=
        no_names (by intro _ _ _ h; rw [a2] at h; cases h)
      rw [if_neg ha, a2]
      exact ⟨fun _ => ⟨ha, hn⟩, fun _ => ⟨_, rfl, by simp⟩⟩
    · have ha : arg ≠ [] := by rintro rfl; cases a2
      rw [if_neg ha, a2]
      simp only
      cases hi : h.int v with
      | none =>
        refine ⟨fun _ => ⟨ha, ?_⟩, fun _ => ⟨_, rfl, by simp⟩⟩
        rintro ⟨n', x, hx⟩
        have := (names_iff a2 hx).2.1
        rw [hi] at this
        cases this
      | some x =>
        by_cases hf : h.found n = true
        · simp only [if_pos hf]
          exact ⟨fun ⟨_, e, m⟩ => (by cases e; simp at m),
            fun hw => absurd ⟨n, x, v, a1, hi, hf⟩ hw.2⟩
        · simp only [if_neg hf]
          refine ⟨fun _ => ⟨ha, ?_⟩, fun _ => ⟨_, rfl, by simp⟩⟩
          rintro ⟨n', x, hx⟩
          exact hf (names_iff a2 hx).2.2
  | tforce =>
    simp only [run, tforce, Wrong]
    rcases arg_case hs with rfl | ⟨n, a1, a2⟩ | ⟨n, v, r, a1, a2⟩
    · simp
    · have ha : arg ≠ [] := by rintro rfl; cases a2
      have hn : ¬ ∃ n x, Names h arg n x :=
        no_names (by intro _ _ _ h; rw [a2] at h; cases h)
      rw [if_neg ha, a2]
      exact ⟨fun _ => ⟨ha, hn⟩, fun _ => ⟨_, rfl, by simp⟩⟩
    · have ha : arg ≠ [] := by rintro rfl; cases a2
      rw [if_neg ha, a2]
      simp only
      cases hi : h.int v with
      | none =>
        refine ⟨fun _ => ⟨ha, ?_⟩, fun _ => ⟨_, rfl, by simp⟩⟩
        rintro ⟨n', x, hx⟩
        have := (names_iff a2 hx).2.1
        rw [hi] at this
        cases this
      | some x =>
        by_cases hf : h.found n = true
        · simp only [if_pos hf]
          exact ⟨fun ⟨_, e, m⟩ => (by cases e; simp at m),
            fun hw => absurd ⟨n, x, v, a1, hi, hf⟩ hw.2⟩
        · simp only [if_neg hf]
          refine ⟨fun _ => ⟨ha, ?_⟩, fun _ => ⟨_, rfl, by simp⟩⟩
          rintro ⟨n', x, hx⟩
          exact hf (names_iff a2 hx).2.2

/-! ### Sessions -/

/-- Entering commands one after the other. -/
inductive Session (h : Host) (d : Dev) : List (Cmd × Text) → Dev → Prop
  | start : Session h d [] d
  | next {cs : List (Cmd × Text)} {d1 : Dev} {c : Cmd} {arg : Text} {ops : List Op}
      (hs : Session h d cs d1) (ha : Stripped arg) (hr : run h c arg = some ops) :
      Session h d (cs ++ [(c, arg)]) (d1.after ops)

/-- The last command that acted on the signal forced it. -/
def Forced (h : Host) (n : Text) (cs : List (Cmd × Text)) : Prop :=
  ∃ pre e post, cs = pre ++ e :: post ∧ Acts h n true e ∧ ∀ e' ∈ post, ¬ Acts h n false e'

theorem forced_snoc {h : Host} {n : Text} {cs : List (Cmd × Text)} {e : Cmd × Text} :
    Forced h n (cs ++ [e]) ↔ Acts h n true e ∨ (Forced h n cs ∧ ¬ Acts h n false e) := by
  constructor
  · rintro ⟨pre, f, post, h1, h2, h3⟩
    rcases List.eq_nil_or_concat post with rfl | ⟨post', g, rfl⟩
    · obtain ⟨_, h5⟩ := List.append_inj' h1 rfl
      cases h5
      exact .inl h2
    · rw [List.concat_eq_append, ← List.cons_append, ← List.append_assoc] at h1
      obtain ⟨h4, h5⟩ := List.append_inj' h1 rfl
      cases h5
      exact .inr ⟨⟨pre, f, post', h4, h2, fun e' he => h3 e' (by simp [he])⟩, h3 e (by simp)⟩
  · rintro (h1 | ⟨⟨pre, f, post, rfl, h2, h3⟩, h4⟩)
    · exact ⟨cs, e, [], rfl, h1, by simp⟩
    · refine ⟨pre, f, post ++ [e], by simp, h2, fun e' he => ?_⟩
      rcases List.mem_append.1 he with he | he
      · exact h3 e' he
      · cases List.mem_singleton.1 he
        exact h4

/-- The mode of a signal after a command. -/
theorem mode_after {h : Host} {d d' : Dev} {c : Cmd} {arg : Text} (hd : Does h d c arg d')
    (n : Text) :
    (Acts h n true (c, arg) → d'.mode n = .force) ∧
    (Acts h n false (c, arg) → d'.mode n = .noDelay) ∧
    (¬ Acts h n true (c, arg) → ¬ Acts h n false (c, arg) → d'.mode n = d.mode n) := by
  have other : c ≠ .tforce → c ≠ .trelease → d'.mode = d.mode →
      (Acts h n true (c, arg) → d'.mode n = .force) ∧
      (Acts h n false (c, arg) → d'.mode n = .noDelay) ∧
      (¬ Acts h n true (c, arg) → ¬ Acts h n false (c, arg) → d'.mode n = d.mode n) := by
    intro h1 h2 h3
    refine ⟨?_, ?_, fun _ _ => by rw [h3]⟩
    · rintro (⟨_, h, _⟩ | ⟨h, _⟩)
      · exact absurd h h1
      · cases h
    · rintro (⟨h, _⟩ | ⟨_, h, _⟩)
      · cases h
      · exact absurd h h2
  cases hd with
  | @force _ m x hn =>
    have hm : ∀ n', (∃ x, Names h arg n' x) → n' = m := by
      rintro n' ⟨x', hx⟩
      obtain ⟨v, h1, _⟩ := hn
      obtain ⟨r, h1⟩ := two_split h1
      exact (names_iff h1 hx).1
    refine ⟨?_, ?_, ?_⟩
    · rintro (⟨_, _, h2⟩ | ⟨h, _⟩)
      · rw [hm n h2]
        exact set_same _ _ _
      · cases h
    · rintro (⟨h, _⟩ | ⟨_, h, _⟩)
      · cases h
      · cases h
    · intro h1 _
      have : n ≠ m := by
        rintro rfl
        exact h1 (.inl ⟨rfl, rfl, x, hn⟩)
      exact if_neg this
  | badForce hn =>
    refine ⟨?_, ?_, fun _ _ => rfl⟩
    · rintro (⟨_, _, x, h2⟩ | ⟨h, _⟩)
      · exact absurd ⟨n, x, h2⟩ hn
      · cases h
    · rintro (⟨h, _⟩ | ⟨_, h, _⟩)
      · cases h
      · cases h
  | release ha hn =>
    refine ⟨?_, ?_, ?_⟩
    · rintro (⟨_, h, _⟩ | ⟨h, _⟩)
      · cases h
      · cases h
    · rintro (⟨h, _⟩ | ⟨_, _, h2, _⟩)
      · cases h
      · cases h2
        exact set_same _ _ _
    · intro _ h2
      have : n ≠ arg := by
        rintro rfl
        exact h2 (.inr ⟨rfl, rfl, rfl, ha, hn⟩)
      exact if_neg this
  | badRelease hn =>
    refine ⟨?_, ?_, fun _ _ => rfl⟩
    · rintro (⟨_, h, _⟩ | ⟨h, _⟩)
      · cases h
      · cases h
    · rintro (⟨h, _⟩ | ⟨_, _, h2, h3, h4⟩)
      · cases h
      · cases h2
        exact absurd ⟨h3, h4⟩ hn
  | _ => exact other (by simp) (by simp) rfl

theorem acts_not {h : Host} {n : Text} {e : Cmd × Text} (h1 : Acts h n true e) :
    ¬ Acts h n false e := by
  rcases h1 with ⟨_, h1, _⟩ | ⟨h1, _⟩
  · rintro (⟨h2, _⟩ | ⟨_, h2, _⟩)
    · cases h2
    · rw [h1] at h2
      cases h2
  · cases h1

/-- **C98.** In every session that starts with ordinary signals, a signal is in the force mode
exactly if the last command that acted on it was `tforce`, and in the ordinary mode otherwise:
`trelease` undoes `tforce`, for this signal and no other. -/
theorem C98_force_until_release (h : Host) (d d' : Dev) (cs : List (Cmd × Text))
    (h0 : ∀ n, d.mode n = .noDelay) (hs : Session h d cs d') (n : Text) :
    (Forced h n cs → d'.mode n = .force) ∧ (¬ Forced h n cs → d'.mode n = .noDelay) := by
  induction hs with
  | start =>
    refine ⟨?_, fun _ => h0 n⟩
    rintro ⟨pre, e, post, h1, _⟩
    have := congrArg List.length h1
    simp at this
  | @next cs d1 c arg ops _ ha hr ih =>
    obtain ⟨ops', h1, h2⟩ := C98_commands h d1 c arg ha
    rw [hr] at h1
    cases h1
    obtain ⟨m1, m2, m3⟩ := mode_after h2 n
    rw [forced_snoc]
    by_cases a : Acts h n true (c, arg)
    · exact ⟨fun _ => m1 a, fun hn => absurd (.inl a) hn⟩
    · by_cases b : Acts h n false (c, arg)
      · exact ⟨fun hn => (hn.elim (fun hn => absurd hn a) fun hn => absurd b hn.2),
          fun _ => m2 b⟩
      · rw [m3 a b]
        refine ⟨fun hn => ?_, fun hn => ih.2 fun hf => hn (.inr ⟨hf, b⟩)⟩
        rcases hn with hn | ⟨hn, _⟩
        · exact absurd hn a
        · exact ih.1 hn

/-- **C98**, for signals that are not forced at the time: `tset` makes an ordinary write.  Missing:
signals that are forced, for which `tset` is another `tforce` (`C98_tset_violated`). -/
theorem C98_tset_partial (h : Host) (d d' : Dev) (cs : List (Cmd × Text))
    (h0 : ∀ n, d.mode n = .noDelay) (hs : Session h d cs d') (arg n : Text) (x : Int)
    (ha : Stripped arg) (hn : Names h arg n x) (hf : ¬ Forced h n cs) :
    ∃ ops, run h .tset arg = some ops ∧
      (d'.after ops).writes = d'.writes ++ [⟨n, some x, .noDelay, d'.ignore n⟩] ∧
      (d'.after ops).mode = d'.mode ∧ (d'.after ops).stale = false := by
  obtain ⟨ops, h1, h2⟩ := C98_commands h d' .tset arg ha
  refine ⟨ops, h1, ?_⟩
  have hm := (C98_force_until_release h d d' cs h0 hs n).2 hf
  generalize d'.after ops = e at h2
  cases h2 with
  | @set _ m y hm' =>
    obtain ⟨v, t1, t2, t3⟩ := hn
    obtain ⟨v', s1, s2, s3⟩ := hm'
    obtain ⟨rfl, rfl⟩ := two_unique t1 s1
    rw [t2] at s2
    cases s2
    rw [hm]
    exact ⟨rfl, rfl, rfl⟩
  | badSet hb => exact absurd ⟨n, x, hn⟩ hb

/-! ### The case that fails, and an example -/

def demoHost : Host where
  int := fun t => if t = "5".toList then some 5 else if t = "6".toList then some 6 else none
  found := fun t => t == "top.a".toList

def demoDev : Dev where
  cycle := 0
  writes := []
  mode := fun _ => .noDelay
  ignore := fun _ => true
  stale := false
  flushed := false

theorem demo_stripped {t : Text} {c : Char} {r : Text} (h : t = c :: r)
    (hc : c.isWhitespace = false) : Stripped t := by
  intro c' r' he
  rw [h] at he
  cases he
  exact hc

/-- **C98 is false** for forced signals: after `tforce top.a 5`, the command `tset top.a 6` forces
the signal to 6. -/
theorem C98_tset_violated :
    ∃ (h : Host) (d d' : Dev) (cs : List (Cmd × Text)) (arg n : Text) (x : Int) (ops : List Op),
      (∀ n, d.mode n = .noDelay) ∧ Session h d cs d' ∧ Stripped arg ∧ Names h arg n x ∧
      run h .tset arg = some ops ∧
      (d'.after ops).writes = d'.writes ++ [⟨n, some x, .force, true⟩] := by
  refine ⟨demoHost, demoDev, _, _, "top.a 6".toList, "top.a".toList, 6, _, fun _ => rfl,
    .next .start (c := .tforce) (arg := "top.a 5".toList) (demo_stripped rfl (by decide)) rfl,
    demo_stripped rfl (by decide), ⟨"6".toList, ⟨[' '], [], ⟨by decide, by decide⟩, by decide,
      (by simp [Blank]), ⟨by decide, by decide⟩, (by intro _ _ h; cases h), rfl⟩, by decide, by decide⟩,
    rfl, by decide⟩

/-- A session: force, a set of a signal that does not exist, a step, release, set.  The last set is an
ordinary write. -/
example : ∃ d', Session demoHost demoDev
      [(.tforce, "top.a 5".toList), (.tset, "b 5".toList), (.tstep, []),
        (.trelease, "top.a".toList), (.tset, "top.a 6".toList)] d' ∧ d'.cycle = 1 ∧
      d'.writes = [⟨"top.a".toList, some 5, .force, false⟩, ⟨"top.a".toList, none, .release, false⟩,
        ⟨"top.a".toList, some 6, .noDelay, true⟩] := by
  refine ⟨_, .next (.next (.next (.next (.next .start
    (demo_stripped rfl (by decide)) rfl) (demo_stripped rfl (by decide)) rfl)
    (by intro _ _ h; cases h) rfl) (demo_stripped rfl (by decide)) rfl)
    (demo_stripped rfl (by decide)) rfl, by decide, by decide⟩

/-- Commands that are wrong and commands that are not. -/
example : Wrong demoHost "5x".toList .tstep ∧ ¬ Wrong demoHost "5".toList .tstep ∧
    Wrong demoHost "b".toList .trelease ∧ ¬ Wrong demoHost "top.a".toList .trelease ∧
    One "top.a".toList "top.a".toList ∧
    run demoHost .tprint "top.a HEX".toList =
      some [.look "top.a".toList, .show' "top.a".toList 16] := by
  refine ⟨⟨by decide, by decide⟩, fun h => absurd h.2 (by decide), ⟨by decide, by decide⟩,
    fun h => absurd h.2 (by decide), ⟨[], ⟨by decide, by decide⟩, by simp [Blank], rfl⟩, by decide⟩

end Toffee.Debug
