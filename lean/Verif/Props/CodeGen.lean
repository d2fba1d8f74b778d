import Verif.Model.CodeGen

/-! Properties C65 and C66 of `scripts/bundle_code_gen.py`. -/

namespace Toffee.CodeGen

/-! ## Specification -/

/-- The lines of a text. -/
def splitLines : Text → List Text
  | [] => [[]]
  | c :: t =>
    if c = '\n' then [] :: splitLines t
    else match splitLines t with
      | [] => [[c]]
      | l :: ls => (c :: l) :: ls

/-- The number of columns a line takes, with a tab counted as 4. -/
def columns (l : Text) : Nat := (l.map fun c => if c = '\t' then 4 else 1).sum

/-- The logical line Python reads: a backslash at the end of a line joins it with the next one;
blanks between tokens do not matter. -/
def logical : Text → Text
  | [] => []
  | '\\' :: '\n' :: t => logical t
  | c :: t => if c = ' ' ∨ c = '\t' then logical t else c :: logical t

/-- `",".join(names)`. -/
def commaJoin : List Text → Text
  | [] => []
  | [s] => s
  | s :: rest => s ++ ",".toList ++ commaJoin rest

/-- A signal name: no blanks, line ends, backslashes. -/
def IsName (s : Text) : Prop := ∀ c ∈ s, c ≠ '\n' ∧ c ≠ '\t' ∧ c ≠ ' ' ∧ c ≠ '\\'

/-! ## Lemmas on the specification -/

theorem splitLines_append (a b : Text) (h : '\n' ∉ a) :
    splitLines (a ++ '\n' :: b) = a :: splitLines b := by
  induction a with
  | nil => simp [splitLines]
  | cons c a ih =>
    simp only [List.mem_cons, not_or] at h
    simp only [List.cons_append, splitLines, if_neg (Ne.symm h.1), ih h.2]

theorem columns_append (a b : Text) : columns (a ++ b) = columns a + columns b := by
  simp [columns]

theorem columns_eq_length (a : Text) (h : '\t' ∉ a) : columns a = a.length := by
  induction a with
  | nil => rfl
  | cons c a ih =>
    simp only [List.mem_cons, not_or] at h
    have := ih h.2
    simp only [columns, List.map_cons, List.sum_cons, if_neg (Ne.symm h.1), List.length_cons] at *
    omega

/-- No backslash, and every blank is dropped. -/
theorem logical_append (a b : Text) (h : '\\' ∉ a) :
    logical (a ++ b) = (a.filter fun c => decide ¬(c = ' ' ∨ c = '\t')) ++ logical b := by
  induction a with
  | nil => rfl
  | cons c a ih =>
    simp only [List.mem_cons, not_or] at h
    have hc : logical (c :: (a ++ b)) =
        if c = ' ' ∨ c = '\t' then logical (a ++ b) else c :: logical (a ++ b) := by
      rw [logical]
      intro t h1
      exact absurd h1.symm h.1
    rw [List.cons_append, hc, ih h.2, List.filter_cons]
    by_cases hb : c = ' ' ∨ c = '\t' <;> simp [hb]

theorem logical_name {s : Text} (hs : IsName s) (b : Text) : logical (s ++ b) = s ++ logical b := by
  rw [logical_append s b (fun h => (hs _ h).2.2.2 rfl)]
  congr 1
  rw [List.filter_eq_self]
  intro c hc
  have := hs c hc
  simp [this.2.1, this.2.2.1]

/-! ## The loops -/

/-- The text of a list of names with `", "` after each. -/
def listed (l : List Text) : Text := l.flatMap fun s => s ++ ", ".toList

/-- The total width of a list of names with `", "` after each. -/
def listedWidth (l : List Text) : Nat := (l.map fun s => s.length + 2).sum

theorem inner_spec (m : Int) (ss : List Text) (line : Text) (w : Int) :
    ∃ taken, ss = taken ++ (inner m ss line w).2.2 ∧
      (inner m ss line w).1 = line ++ listed taken ∧
      (inner m ss line w).2.1 = w + listedWidth taken ∧
      (w ≤ m → (inner m ss line w).2.1 ≤ m) := by
  induction ss generalizing line w with
  | nil => exact ⟨[], by simp [inner, listed, listedWidth]⟩
  | cons s rest ih =>
    unfold inner
    split
    · rename_i hfit
      obtain ⟨taken, h1, h2, h3, h4⟩ := ih (line ++ (s ++ ", ".toList)) (w + (s.length + 2))
      refine ⟨s :: taken, ?_, ?_, ?_, ?_⟩
      · rw [List.cons_append, ← h1]
      · rw [h2]; simp [listed]
      · rw [h3]; simp [listedWidth]; omega
      · intro _; exact h4 (by omega)
    · exact ⟨[], by simp [listed, listedWidth]⟩

theorem listed_names {l : List Text} (h : ∀ s ∈ l, IsName s) :
    '\n' ∉ listed l ∧ '\t' ∉ listed l ∧ '\\' ∉ listed l := by
  induction l with
  | nil => simp [listed]
  | cons s l ih =>
    have hs := h s List.mem_cons_self
    have hl := ih fun t ht => h t (List.mem_cons_of_mem _ ht)
    have : listed (s :: l) = s ++ (", ".toList ++ listed l) := by simp [listed]
    rw [this]
    simp only [List.mem_append]
    refine ⟨?_, ?_, ?_⟩
    · rintro (h | h | h)
      · exact (hs _ h).1 rfl
      · revert h; decide
      · exact hl.1 h
    · rintro (h | h | h)
      · exact (hs _ h).2.1 rfl
      · revert h; decide
      · exact hl.2.1 h
    · rintro (h | h | h)
      · exact (hs _ h).2.2.2 rfl
      · revert h; decide
      · exact hl.2.2 h

theorem listed_length (l : List Text) : (listed l).length = listedWidth l := by
  induction l with
  | nil => rfl
  | cons s l ih =>
    have : listed (s :: l) = s ++ (", ".toList ++ listed l) := by simp [listed]
    rw [this]
    simp only [List.length_append, ih]
    simp [listedWidth]; omega

theorem listed_dropLast (s : Text) (l : List Text) :
    ∃ t, listed (s :: l) = t ++ ", ".toList ∧
      ∀ x, (∀ u ∈ s :: l, IsName u) → logical (t ++ x) = commaJoin (s :: l) ++ logical x := by
  induction l generalizing s with
  | nil =>
    refine ⟨s, by simp [listed], fun x h => ?_⟩
    rw [logical_name (h s List.mem_cons_self)]; rfl
  | cons u l ih =>
    obtain ⟨t, ht, hj⟩ := ih u
    refine ⟨s ++ (", ".toList ++ t), ?_, fun x h => ?_⟩
    · have : listed (s :: u :: l) = s ++ (", ".toList ++ listed (u :: l)) := by simp [listed]
      rw [this, ht]; simp
    · rw [List.append_assoc, logical_name (h s List.mem_cons_self), List.append_assoc,
        logical_append ", ".toList _ (by decide),
        hj x fun v hv => h v (List.mem_cons_of_mem _ hv)]
      have hf : (", ".toList.filter fun c => decide ¬(c = ' ' ∨ c = '\t')) = ",".toList := by decide
      rw [hf]; simp [commaJoin]

theorem logical_listed (l : List Text) (h : ∀ s ∈ l, IsName s) (x : Text) :
    logical (listed l ++ x) = (l.flatMap fun s => s ++ ",".toList) ++ logical x := by
  induction l with
  | nil => rfl
  | cons s l ih =>
    have : listed (s :: l) = s ++ (", ".toList ++ listed l) := by simp [listed]
    rw [this, List.append_assoc, logical_name (h s List.mem_cons_self), List.append_assoc,
        logical_append ", ".toList _ (by decide), ih fun v hv => h v (List.mem_cons_of_mem _ hv)]
    have hf : (", ".toList.filter fun c => decide ¬(c = ' ' ∨ c = '\t')) = ",".toList := by decide
    rw [hf]; simp

theorem commaJoin_append (a b : List Text) (hb : b ≠ []) :
    commaJoin (a ++ b) = (a.flatMap fun s => s ++ ",".toList) ++ commaJoin b := by
  induction a with
  | nil => rfl
  | cons s a ih =>
    have : a ++ b ≠ [] := by simp [hb]
    cases hab : a ++ b with
    | nil => exact absurd hab this
    | cons u l =>
      rw [List.cons_append, hab, commaJoin]
      · rw [← hab, ih]; simp
      · intro h; cases h

theorem dropLast2 (a : Text) (t : Text) : (a ++ (t ++ ", ".toList)).dropLast.dropLast = a ++ t := by
  have : a ++ (t ++ ", ".toList) = (a ++ t ++ [',']) ++ [' '] := by simp
  rw [this, List.dropLast_concat, List.dropLast_concat]

/-! ## The closing code -/

/-- The closing code consists of a blank and a text without line ends, tabs and backslashes. -/
structure Closing (endc : Text) : Prop where
  nonl : '\n' ∉ endc
  notab : '\t' ∉ endc
  nobs : '\\' ∉ endc
  blank : endc.head? = some ' '

theorem digitChar_ne (d : Nat) (c : Char) (hc : c = '\n' ∨ c = '\t' ∨ c = '\\' ∨ c = ' ') :
    Nat.digitChar d ≠ c := by
  by_cases hd : d < 16
  · have key : ∀ d < 16, ∀ c ∈ ['\n', '\t', '\\', ' '], Nat.digitChar d ≠ c := by decide
    exact key d hd c (by simpa using hc)
  · have : Nat.digitChar d = '*' := by
      simp only [Nat.digitChar]
      repeat rw [if_neg (by omega)]
    rw [this]
    rcases hc with rfl | rfl | rfl | rfl <;> decide

theorem mem_toDigitsCore (b : Nat) (c : Char) (fuel n : Nat) (acc : Text)
    (h : c ∈ Nat.toDigitsCore b fuel n acc) : c ∈ acc ∨ ∃ d, c = Nat.digitChar d := by
  induction fuel generalizing n acc with
  | zero => exact Or.inl h
  | succ fuel ih =>
    simp only [Nat.toDigitsCore] at h
    split at h
    · rcases List.mem_cons.1 h with h | h
      · exact Or.inr ⟨_, h⟩
      · exact Or.inl h
    · rcases ih _ _ h with h | h
      · rcases List.mem_cons.1 h with h | h
        · exact Or.inr ⟨_, h⟩
        · exact Or.inl h
      · exact Or.inr h

theorem str_clean (n : Nat) : ∀ c ∈ str n, c ≠ '\n' ∧ c ≠ '\t' ∧ c ≠ '\\' ∧ c ≠ ' ' := by
  intro c hc
  rcases mem_toDigitsCore 10 c _ _ _ hc with h | ⟨d, rfl⟩
  · cases h
  · exact ⟨digitChar_ne d _ (by simp), digitChar_ne d _ (by simp), digitChar_ne d _ (by simp),
      digitChar_ne d _ (by simp)⟩

theorem endCode_closing (n : Nat) : Closing (endCode n) := by
  unfold endCode
  split
  · exact ⟨by decide, by decide, by decide, by decide⟩
  · have hs := str_clean n
    refine ⟨?_, ?_, ?_, rfl⟩
    · simp only [List.mem_append, not_or]
      exact ⟨⟨by decide, fun h => (hs _ h).1 rfl⟩, by decide⟩
    · simp only [List.mem_append, not_or]
      exact ⟨⟨by decide, fun h => (hs _ h).2.1 rfl⟩, by decide⟩
    · simp only [List.mem_append, not_or]
      exact ⟨⟨by decide, fun h => (hs _ h).2.2.1 rfl⟩, by decide⟩

/-! ## Line widths -/

theorem outer_width (m : Int) (endc : Text) (hc : Closing endc) (hend : 4 + endc.length - 1 ≤ m)
    (h0 : 0 ≤ m) (ss : List Text) (hn : ∀ s ∈ ss, IsName s) (hw : ∀ s ∈ ss, 4 + (s.length : Int) + 3 ≤ m) :
    ∀ l ∈ splitLines (outer m endc ss), (columns l : Int) ≤ m := by
  induction hk : ss.length using Nat.strongRecOn generalizing ss with
  | _ k ih =>
  cases ss with
  | nil => intro l hl; simp [outer, splitLines] at hl; subst hl; simpa [columns] using h0
  | cons s rest =>
    have hlen := inner_length m rest ("\t".toList ++ (s ++ ", ".toList)) (tabSize + s.length + 2 + 1)
    obtain ⟨taken, h1, h2, h3, h4⟩ :=
      inner_spec m rest ("\t".toList ++ (s ++ ", ".toList)) (tabSize + s.length + 2 + 1)
    have hs := hw s List.mem_cons_self
    have h4 := h4 (by simp only [tabSize]; omega)
    rw [outer]
    generalize hr : inner m rest ("\t".toList ++ (s ++ ", ".toList)) (tabSize + s.length + 2 + 1) = r
      at *
    obtain ⟨line, width, left⟩ := r
    dsimp only at *
    have hline : line = "\t".toList ++ listed (s :: taken) := by rw [h2]; simp [listed]
    have hwid : width = 5 + listedWidth (s :: taken) := by
      rw [h3]; simp [listedWidth, tabSize]; omega
    have htn : ∀ u ∈ s :: taken, IsName u := by
      intro u hu
      rcases List.mem_cons.1 hu with hu | hu
      · rw [hu]; exact hn s List.mem_cons_self
      · exact hn u (List.mem_cons_of_mem _ (by rw [h1]; exact List.mem_append_left _ hu))
    obtain ⟨c1, c2, c3⟩ := listed_names htn
    have hll := listed_length (s :: taken)
    split
    · obtain ⟨t, ht, -⟩ := listed_dropLast s taken
      rw [hline, ht, dropLast2]
      rw [ht] at hll c1 c2
      simp only [List.mem_append, not_or, List.length_append] at c1 c2 hll
      have hll : t.length + 2 = listedWidth (s :: taken) := hll
      split
      · rename_i hfit
        have e : ("\t".toList ++ t ++ (endc ++ "\n".toList)) = ("\t".toList ++ t ++ endc) ++ '\n' :: [] := by
          simp
        rw [e, splitLines_append _ _ (by
          simp only [List.mem_append, not_or]; exact ⟨⟨by decide, c1.1⟩, hc.nonl⟩)]
        intro l hl
        rcases List.mem_cons.1 hl with hl | hl
        · subst hl
          rw [columns_append, columns_append, columns_eq_length t c2.1, columns_eq_length endc hc.notab]
          have : columns "\t".toList = 4 := rfl
          omega
        · simp [splitLines] at hl; subst hl; simpa [columns] using h0
      · have e : ("\t".toList ++ t ++ (" \\\n\t".toList ++ endc.drop 1 ++ "\n".toList)) =
            ("\t".toList ++ t ++ " \\".toList) ++ '\n' :: (("\t".toList ++ endc.drop 1) ++ '\n' :: []) := by
          simp
        have hd1 : '\n' ∉ endc.drop 1 := fun h => hc.nonl (List.mem_of_mem_drop h)
        have hd2 : '\t' ∉ endc.drop 1 := fun h => hc.notab (List.mem_of_mem_drop h)
        rw [e, splitLines_append _ _ (by
          simp only [List.mem_append, not_or]; exact ⟨⟨by decide, c1.1⟩, by decide⟩),
          splitLines_append _ _ (by simp only [List.mem_append, not_or]; exact ⟨by decide, hd1⟩)]
        intro l hl
        rcases List.mem_cons.1 hl with hl | hl
        · subst hl
          rw [columns_append, columns_append, columns_eq_length t c2.1]
          have : columns "\t".toList = 4 := rfl
          have : columns " \\".toList = 2 := rfl
          omega
        · rcases List.mem_cons.1 hl with hl | hl
          · subst hl
            rw [columns_append, columns_eq_length _ hd2, List.length_drop]
            have : columns "\t".toList = 4 := rfl
            have : 0 < endc.length := by
              have := hc.blank; cases endc with
              | nil => cases this
              | cons a b => simp
            omega
          · simp [splitLines] at hl; subst hl; simpa [columns] using h0
    · have e : (line ++ "\\\n".toList ++ outer m endc left) =
          (line ++ "\\".toList) ++ '\n' :: outer m endc left := by simp
      rw [e, splitLines_append _ _ (by
        rw [hline]; simp only [List.mem_append, not_or]; exact ⟨⟨by decide, c1⟩, by decide⟩)]
      intro l hl
      rcases List.mem_cons.1 hl with hl | hl
      · subst hl
        rw [hline, columns_append, columns_append, columns_eq_length _ c2]
        have : columns "\t".toList = 4 := rfl
        have : columns "\\".toList = 1 := rfl
        omega
      · refine ih left.length ?_ left ?_ ?_ rfl l hl
        · simp only [List.length_cons] at hk; omega
        · intro u hu
          exact hn u (List.mem_cons_of_mem _ (by rw [h1]; exact List.mem_append_right _ hu))
        · intro u hu
          exact hw u (List.mem_cons_of_mem _ (by rw [h1]; exact List.mem_append_right _ hu))

/-- C65: if every signal name (followed by `", \"` after a tab) and the closing `= Signals(n)` (after a
tab) fit into `maxWidth` columns on a line of their own, no declaration line is wider than
`maxWidth`. -/
theorem C65_line_width (signals : List Text) (maxWidth : Int) (hnames : ∀ s ∈ signals, IsName s)
    (hfit : ∀ s ∈ signals, 4 + (s.length : Int) + ", \\".length ≤ maxWidth)
    (hclose : 4 + ("= Signals()".length : Int) + (str signals.length).length ≤ maxWidth) :
    ∀ l ∈ splitLines (declaration signals maxWidth), (columns l : Int) ≤ maxWidth := by
  have hl1 : ", \\".length = 3 := rfl
  have hl2 : "= Signals()".length = 11 := rfl
  rw [hl1] at hfit; rw [hl2] at hclose
  refine outer_width maxWidth _ (endCode_closing _) ?_ (by omega) signals hnames ?_
  · unfold endCode
    split
    · have : (" = Signal()".toList).length = 11 := rfl
      rw [this]; omega
    · simp only [List.length_append]
      have : (" = Signals(".toList).length = 11 := rfl
      have : (")".toList).length = 1 := rfl
      omega
  · intro s hs; have := hfit s hs; omega

/-- Non-vacuity: three names on lines of at most 20 columns need two declaration lines and one for the
closing code. -/
example :
    let l := ["clk".toList, "data_in".toList, "valid".toList]
    (∀ s ∈ l, 4 + (s.length : Int) + 3 ≤ 20) ∧
    declaration l 20 = "\tclk, data_in, \\\n\tvalid \\\n\t= Signals(3)\n".toList := by
  refine ⟨by decide, by decide +kernel⟩

/-! ## C66 -/

theorem outer_logical (m : Int) (endc : Text) (hc : Closing endc) (ss : List Text) (hne : ss ≠ [])
    (hn : ∀ s ∈ ss, IsName s) :
    logical (outer m endc ss) = commaJoin ss ++
      ((endc.filter fun c => decide ¬(c = ' ' ∨ c = '\t')) ++ ['\n']) := by
  induction hk : ss.length using Nat.strongRecOn generalizing ss with
  | _ k ih =>
  cases ss with
  | nil => exact absurd rfl hne
  | cons s rest =>
    have hlen := inner_length m rest ("\t".toList ++ (s ++ ", ".toList)) (tabSize + s.length + 2 + 1)
    obtain ⟨taken, h1, h2, -, -⟩ :=
      inner_spec m rest ("\t".toList ++ (s ++ ", ".toList)) (tabSize + s.length + 2 + 1)
    rw [outer]
    generalize inner m rest ("\t".toList ++ (s ++ ", ".toList)) (tabSize + s.length + 2 + 1) = r at *
    obtain ⟨line, width, left⟩ := r
    dsimp only at *
    have hline : line = "\t".toList ++ listed (s :: taken) := by rw [h2]; simp [listed]
    have htn : ∀ u ∈ s :: taken, IsName u := by
      intro u hu
      rcases List.mem_cons.1 hu with hu | hu
      · rw [hu]; exact hn s List.mem_cons_self
      · exact hn u (List.mem_cons_of_mem _ (by rw [h1]; exact List.mem_append_left _ hu))
    have htab : ("\t".toList.filter fun c => decide ¬(c = ' ' ∨ c = '\t')) = [] := by decide
    split
    · rename_i hleft
      obtain ⟨t, ht, hj⟩ := listed_dropLast s taken
      rw [hleft, List.append_nil] at h1
      rw [hline, ht, dropLast2, h1]
      split
      · rw [List.append_assoc, logical_append _ _ (by decide), htab, List.nil_append, hj _ htn,
          logical_append _ _ hc.nobs]
        congr 2
      · rw [List.append_assoc, logical_append _ _ (by decide), htab, List.nil_append, hj _ htn]
        congr 1
        obtain ⟨tl, rfl⟩ : ∃ tl, endc = ' ' :: tl := by
          have := hc.blank
          cases endc with
          | nil => cases this
          | cons a b => simp at this; subst this; exact ⟨b, rfl⟩
        have hb : '\\' ∉ tl := fun h => hc.nobs (List.mem_cons_of_mem _ h)
        have e : (" \\\n\t".toList ++ List.drop 1 (' ' :: tl) ++ "\n".toList) =
            ' ' :: '\\' :: '\n' :: '\t' :: (tl ++ ['\n']) := by simp
        rw [e]
        have e1 : logical (' ' :: '\\' :: '\n' :: '\t' :: (tl ++ ['\n'])) = logical (tl ++ ['\n']) := by
          rw [logical, if_pos (Or.inl rfl), logical, logical, if_pos (Or.inr rfl)] <;> simp
        rw [e1, logical_append _ _ hb, List.filter_cons]
        simp [logical]
    · rename_i hleft
      have e : (line ++ "\\\n".toList ++ outer m endc left) =
          "\t".toList ++ (listed (s :: taken) ++ ('\\' :: '\n' :: outer m endc left)) := by
        rw [hline]; simp
      rw [e, logical_append _ _ (by decide), htab, List.nil_append, logical_listed _ htn, logical]
      have : s :: rest = (s :: taken) ++ left := by rw [List.cons_append, ← h1]
      rw [this, commaJoin_append _ _ hleft, List.append_assoc]
      congr 1
      refine ih left.length ?_ left hleft ?_ rfl
      · simp only [List.length_cons] at hk; omega
      · intro u hu
        exact hn u (List.mem_cons_of_mem _ (by rw [h1]; exact List.mem_append_right _ hu))

/-- C66: whatever the width, the declaration read by Python is
`s₁,s₂,…,sₙ=Signals(n)`: exactly the given signals, in order, once each, and their number. -/
theorem C66_declares_exactly (signals : List Text) (maxWidth : Int) (hne : signals ≠ [])
    (hnames : ∀ s ∈ signals, IsName s) :
    logical (declaration signals maxWidth) =
      commaJoin signals ++ "=Signals(".toList ++ str signals.length ++ ")\n".toList := by
  unfold declaration
  rw [outer_logical maxWidth _ (endCode_closing _) signals hne hnames]
  have h0 : signals.length ≠ 0 := by simpa using hne
  simp only [endCode, h0, if_false, List.filter_append]
  have h1 : (" = Signals(".toList.filter fun c => decide ¬(c = ' ' ∨ c = '\t')) = "=Signals(".toList := by
    decide
  have h2 : (")".toList.filter fun c => decide ¬(c = ' ' ∨ c = '\t')) = ")".toList := by decide
  have h3 : ((str signals.length).filter fun c => decide ¬(c = ' ' ∨ c = '\t')) = str signals.length := by
    rw [List.filter_eq_self]
    intro c hc
    have := str_clean _ c hc
    simp [this.2.1, this.2.2.2]
  rw [h1, h2, h3]
  simp

/-- Splitting a comma separated text at the commas. -/
def splitCommas : Text → List Text
  | [] => [[]]
  | c :: t =>
    if c = ',' then [] :: splitCommas t
    else match splitCommas t with
      | [] => [[c]]
      | l :: ls => (c :: l) :: ls

/-- C66: the names can be read back from the declaration: for names without commas, cutting the joined
text at its commas gives the signal list. -/
theorem C66_names_read_back (signals : List Text) (hne : signals ≠ []) (hc : ∀ s ∈ signals, ',' ∉ s) :
    splitCommas (commaJoin signals) = signals := by
  have key : ∀ (s : Text) (x : List Text) (t : Text), ',' ∉ s → splitCommas t = [] :: x →
      splitCommas (s ++ t) = s :: x := by
    intro s x t hs ht
    induction s with
    | nil => exact ht
    | cons c s ih =>
      simp only [List.mem_cons, not_or] at hs
      simp only [List.cons_append, splitCommas, if_neg (Ne.symm hs.1), ih hs.2]
  induction signals with
  | nil => exact absurd rfl hne
  | cons s rest ih =>
    cases rest with
    | nil =>
      simp only [commaJoin]
      have := key s [] [] (hc s List.mem_cons_self) rfl
      simpa using this
    | cons u l =>
      rw [commaJoin]
      · rw [List.append_assoc]
        refine key s (u :: l) _ (hc s List.mem_cons_self) ?_
        have := ih (by simp) fun v hv => hc v (List.mem_cons_of_mem _ hv)
        simp [splitCommas, this]
      · intro h; cases h

theorem insert_perm (x : Text) (l : List Text) : (insert x l).Perm (x :: l) := by
  induction l with
  | nil => exact .refl _
  | cons y l ih =>
    unfold insert
    split
    · exact .refl _
    · exact (ih.cons y).trans (.swap x y l)

theorem sort_perm (l : List Text) : (sort l).Perm l := by
  induction l with
  | nil => exact .refl _
  | cons x l ih => exact (insert_perm x (sort l)).trans (ih.cons x)

theorem textLe_total (a b : Text) : textLe a b = true ∨ textLe b a = true := by
  induction a generalizing b with
  | nil => simp [textLe]
  | cons x a ih =>
    cases b with
    | nil => simp [textLe]
    | cons y b =>
      simp only [textLe]
      by_cases h1 : x.toNat < y.toNat
      · simp [h1]
      · by_cases h2 : y.toNat < x.toNat
        · simp [h2]
        · simpa [h1, h2] using ih b

theorem textLe_trans (a b c : Text) (hab : textLe a b = true) (hbc : textLe b c = true) :
    textLe a c = true := by
  induction a generalizing b c with
  | nil => simp [textLe]
  | cons x a ih =>
    cases b with
    | nil => simp [textLe] at hab
    | cons y b =>
      cases c with
      | nil => simp [textLe] at hbc
      | cons z c =>
        simp only [textLe] at *
        by_cases h1 : x.toNat < y.toNat
        · by_cases h2 : y.toNat < z.toNat
          · rw [if_pos (by omega)]
          · by_cases h3 : z.toNat < y.toNat
            · simp [h2, h3] at hbc
            · rw [if_pos (by omega)]
        · by_cases h2 : y.toNat < x.toNat
          · simp [h1, h2] at hab
          · simp only [h1, h2, if_false] at hab
            by_cases h3 : y.toNat < z.toNat
            · rw [if_pos (by omega)]
            · by_cases h4 : z.toNat < y.toNat
              · simp [h3, h4] at hbc
              · simp only [h3, h4, if_false] at hbc
                rw [if_neg (by omega), if_neg (by omega)]
                exact ih b c hab hbc

theorem insert_sorted (x : Text) (l : List Text) (h : l.Pairwise fun a b => textLe a b = true) :
    (insert x l).Pairwise fun a b => textLe a b = true := by
  induction l with
  | nil => simp [insert]
  | cons y l ih =>
    unfold insert
    rw [List.pairwise_cons] at h
    split
    · rename_i hxy
      rw [List.pairwise_cons]
      refine ⟨fun z hz => ?_, List.pairwise_cons.2 h⟩
      rcases List.mem_cons.1 hz with rfl | hz
      · exact hxy
      · exact textLe_trans _ _ _ hxy (h.1 z hz)
    · rename_i hxy
      rw [List.pairwise_cons]
      refine ⟨fun z hz => ?_, ih h.2⟩
      rcases List.mem_cons.1 ((insert_perm x l).mem_iff.1 hz) with rfl | hz
      · exact (textLe_total _ _).resolve_left hxy
      · exact h.1 z hz

/-- C66: the generators declare the signals in alphabetical order. -/
theorem C66_sorted (l : List Text) : (sort l).Pairwise fun a b => textLe a b = true := by
  induction l with
  | nil => exact .nil
  | cons x l ih => exact insert_sorted x _ ih

/-- C66: the prefix generator declares, for each pin with the prefix, the rest of its name, and nothing
else; the dictionary generator each key whose value is a pin. -/
theorem C66_selected (pins : List Text) (pre : Text) (d : List (Text × Text)) :
    (∀ l, selectPrefix pins pre = some l → l.Perm
      ((pins.filter (fun n => pre.isPrefixOf n)).map (fun n => n.drop pre.length))) ∧
    (∀ l, selectPrefix pins pre = some l → ∀ s, s ∈ l ↔ pre ++ s ∈ pins) ∧
    (selectPrefix pins pre = none ↔ ∀ s, pre ++ s ∉ pins) ∧
    (∀ l, selectDict pins d = some l → ∀ s, s ∈ l ↔ ∃ pin ∈ pins, (s, pin) ∈ d) := by
  have hperm := sort_perm
    ((pins.filter (fun n => pre.isPrefixOf n)).map (fun n => n.drop pre.length))
  have hmem : ∀ s, s ∈ ((pins.filter (fun n => pre.isPrefixOf n)).map (fun n => n.drop pre.length)) ↔
      pre ++ s ∈ pins := by
    intro s
    simp only [List.mem_map, List.mem_filter, List.isPrefixOf_iff_prefix]
    constructor
    · rintro ⟨n, ⟨hn, ⟨r, rfl⟩⟩, rfl⟩; simpa using hn
    · intro h; exact ⟨pre ++ s, ⟨h, ⟨s, rfl⟩⟩, by simp⟩
  refine ⟨?_, ?_, ?_, ?_⟩
  · intro l hl
    simp only [selectPrefix] at hl
    split at hl
    · cases hl
    · cases hl; exact hperm
  · intro l hl s
    simp only [selectPrefix] at hl
    split at hl
    · cases hl
    · cases hl; exact hperm.mem_iff.trans (hmem s)
  · simp only [selectPrefix]
    constructor
    · intro h s hs
      split at h
      · rename_i h0
        rw [h0] at hperm
        have := hperm.mem_iff.2 ((hmem s).2 hs)
        cases this
      · cases h
    · intro h
      rw [if_pos]
      apply List.eq_nil_iff_forall_not_mem.2
      intro s hs
      exact h s ((hmem s).1 (hperm.mem_iff.1 hs))
  · intro l hl s
    simp only [selectDict] at hl
    split at hl
    · cases hl
    · cases hl
      refine (sort_perm _).mem_iff.trans ?_
      simp only [List.mem_map, List.mem_filter, List.contains_iff_mem]
      constructor
      · rintro ⟨⟨a, b⟩, ⟨h1, h2⟩, rfl⟩; exact ⟨b, h2, h1⟩
      · rintro ⟨pin, h1, h2⟩; exact ⟨(s, pin), ⟨h2, h1⟩, rfl⟩

/-- Non-vacuity. -/
example : selectPrefix ["io_a".toList, "x".toList, "io_b".toList] "io_".toList = some ["a".toList, "b".toList] ∧
    logical (declaration ["a".toList, "b".toList] 120) = "a,b=Signals(2)\n".toList := by
  refine ⟨by decide +kernel, by decide +kernel⟩

end Toffee.CodeGen
