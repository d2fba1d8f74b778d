import Verif.Model.FunCovArgs
import Verif.Props.FunCov
/-!
C95: arguments of `add_watch_point` and `mark_function` that have to be completed or rejected.
-/

namespace Toffee.Props.FunCovArgs

open Toffee.FunCov Toffee.FunCovArgs

variable {Obs : Type}

/-! ## Points without a name -/

/-- C95: with a name, `add_watch_point` is as C57 says. -/
theorem C95_named (t : Texts) (g : Group Obs) (bins : RawBins Obs) (name : String) (once : Option Bool)
    (hn : name ≠ "") :
    ((addPoint t g bins name once).2 = none ↔ name ∉ Dict.keys g.points ∧ AllCallable bins) ∧
    (addPoint t g bins name once).1 = (g.step (.add name bins once)).1 := by
  have h := C57_add_rejected_iff g name bins once
  unfold addPoint pointKey
  simp only [if_pos hn, Group.step] at h ⊢
  cases ha : g.add name bins once with
  | error e =>
    rw [ha] at h
    simp only [Group.step.lift, ne_eq, reduceCtorEq, not_false_eq_true, true_iff] at h ⊢
    refine ⟨?_, trivial⟩
    constructor
    · intro h; cases h
    · rintro ⟨h1, h2⟩
      exact absurd h (by simp [h1, h2])
  | ok g' =>
    rw [ha] at h
    simp only [Group.step.lift, ne_eq, not_true_eq_false, false_iff, not_or, Classical.not_not] at h ⊢
    exact ⟨by simpa using h, trivial⟩

/-- C95 (partial): without a name and with a dict of bins, `add_watch_point` is rejected exactly for
bins that are not callable, or if there is already a point for a target with the same text and bins of
the same names.  Missing with respect to the full statement: a single condition instead of a dict, for
which it is false, see `C95_single_violated`. -/
theorem C95_nameless_partial (t : Texts) (g : Group Obs) (es : List (String × RawBin Obs))
    (once : Option Bool) :
    ((addPoint t g (.dict es) "" once).2 = none ↔
      t.target ++ ":" ++ t.keys (Dict.keys (ofList es)) ∉ Dict.keys g.points ∧
        AllCallable (.dict es)) ∧
    (addPoint t g (.dict es) "" once).1 =
      (g.step (.add (t.target ++ ":" ++ t.keys (Dict.keys (ofList es))) (.dict es) once)).1 := by
  have h := C57_add_rejected_iff g (t.target ++ ":" ++ t.keys (Dict.keys (ofList es))) (.dict es) once
  unfold addPoint pointKey
  simp only [ne_eq, not_true_eq_false, if_false, Group.step] at h ⊢
  cases ha : g.add (t.target ++ ":" ++ t.keys (Dict.keys (ofList es))) (.dict es) once with
  | error e =>
    rw [ha] at h
    simp only [Group.step.lift, reduceCtorEq, not_false_eq_true, true_iff] at h ⊢
    refine ⟨?_, trivial⟩
    constructor
    · intro h; cases h
    · rintro ⟨h1, h2⟩
      exact absurd h (by simp [h1, h2])
  | ok g' =>
    rw [ha] at h
    simp only [Group.step.lift, not_true_eq_false, false_iff, not_or, Classical.not_not] at h ⊢
    exact ⟨by simpa using h, trivial⟩

/-- C95 is false: a single condition without a name is rejected with an `AttributeError` by every
group, although it is callable. -/
theorem C95_single_violated (t : Texts) (g : Group Obs) (c : Obs → Bool) (once : Option Bool) :
    AllCallable (.callable c) ∧ addPoint t g (.callable c) "" once = (g, some .attributeError) :=
  ⟨trivial, rfl⟩

/-- C95: whenever `add_watch_point` raises, the group is as before. -/
theorem C95_add_rejected_unchanged (t : Texts) (g : Group Obs) (bins : RawBins Obs) (name : String)
    (once : Option Bool) (h : (addPoint t g bins name once).2 ≠ none) :
    (addPoint t g bins name once).1 = g := by
  unfold addPoint at h ⊢
  split <;> rename_i hk
  · rfl
  · rw [hk] at h
    dsimp only at h ⊢
    split <;> rename_i ha
    · rfl
    · rw [ha] at h
      exact absurd rfl h

/-! ## Functions that cannot be marked -/

theorem markFuncs_set (funcs : List (Option String)) (s : List String) (x : String) :
    x ∈ (markFuncs funcs s).1 ↔
      x ∈ s ∨ ∃ pre post, funcs = pre ++ some x :: post ∧ none ∉ pre := by
  induction funcs generalizing s with
  | nil => simp [markFuncs]
  | cons f fs ih =>
    cases f with
    | none =>
      simp only [markFuncs]
      constructor
      · exact .inl
      · rintro (h | ⟨pre, post, h1, h2⟩)
        · exact h
        · cases pre with
          | nil => cases h1
          | cons q pre =>
            simp only [List.cons_append, List.cons.injEq] at h1
            exact absurd (by simp [← h1.1]) h2
    | some f =>
      simp only [markFuncs, ih]
      have hs := mem_foldl_setAdd [f] s x
      simp only [List.foldl_cons, List.foldl_nil, List.mem_singleton] at hs
      rw [hs, or_assoc]
      refine or_congr_right ?_
      constructor
      · rintro (rfl | ⟨pre, post, rfl, h⟩)
        · exact ⟨[], fs, rfl, by simp⟩
        · exact ⟨some f :: pre, post, rfl, by simpa using h⟩
      · rintro ⟨pre, post, h1, h2⟩
        cases pre with
        | nil =>
          simp only [List.nil_append, List.cons.injEq, Option.some.injEq] at h1
          exact .inl h1.1.symm
        | cons q pre =>
          simp only [List.cons_append, List.cons.injEq] at h1
          exact .inr ⟨pre, post, h1.2, fun h => h2 (by simp [h])⟩

theorem markFuncs_raises (funcs : List (Option String)) (s : List String) :
    (markFuncs funcs s).2 = true ↔ none ∈ funcs := by
  induction funcs generalizing s with
  | nil => simp [markFuncs]
  | cons f fs ih => cases f <;> simp [markFuncs, ih]

theorem markBins_raises (funcs : List (Option String)) (bs : List String) (d : Dict String (List String)) :
    (markBins funcs bs d).2 = true ↔ none ∈ funcs ∧ bs ≠ [] := by
  induction bs generalizing d with
  | nil => simp [markBins]
  | cons b bs ih =>
    have h := markFuncs_raises funcs ((Dict.get? d b).getD [])
    unfold markBins
    split <;> rename_i s hs
    · rw [hs] at h; simpa using h
    · rw [hs] at h
      have : none ∉ funcs := fun hn => absurd (h.2 hn) (by simp)
      rw [ih]; simp [this]

/-- Without invalid functions every bin gets all of them. -/
theorem markBins_valid (funcs : List (Option String)) (hv : none ∉ funcs) (bs : List String)
    (d : Dict String (List String)) (b x : String) :
    x ∈ (Dict.get? (markBins funcs bs d).1 b).getD [] ↔
      x ∈ (Dict.get? d b).getD [] ∨ (b ∈ bs ∧ some x ∈ funcs) := by
  induction bs generalizing d with
  | nil => simp [markBins]
  | cons c bs ih =>
    have h := markFuncs_raises funcs ((Dict.get? d c).getD [])
    have hm := markFuncs_set funcs ((Dict.get? d c).getD []) x
    unfold markBins
    split <;> rename_i s hs
    · rw [hs] at h
      exact absurd (h.1 rfl) hv
    · rw [hs] at hm
      dsimp only at hm
      have hx : (∃ pre post, funcs = pre ++ some x :: post ∧ none ∉ pre) ↔ some x ∈ funcs := by
        constructor
        · rintro ⟨pre, post, rfl, _⟩; simp
        · intro h
          obtain ⟨pre, post, rfl⟩ := List.append_of_mem h
          exact ⟨pre, post, rfl, fun h => hv (by simp [h])⟩
      rw [hx] at hm
      rw [ih]
      by_cases hc : c = b
      · subst hc
        rw [Dict.get?_set_self]
        simp only [Option.getD_some, hm, List.mem_cons, true_or, true_and]
        constructor
        · rintro ((h | h) | h)
          · exact .inl h
          · exact .inr h
          · exact .inr h.2
        · exact .inl
      · rw [Dict.get?_set_ne _ hc]
        simp [Ne.symm hc]

/-- With an invalid function only the first bin gets marks, those of the functions before it. -/
theorem markBins_invalid (funcs : List (Option String)) (hv : none ∈ funcs) (c : String)
    (bs : List String) (d : Dict String (List String)) (b x : String) :
    x ∈ (Dict.get? (markBins funcs (c :: bs) d).1 b).getD [] ↔
      x ∈ (Dict.get? d b).getD [] ∨
        (b = c ∧ ∃ pre post, funcs = pre ++ some x :: post ∧ none ∉ pre) := by
  have h := markFuncs_raises funcs ((Dict.get? d c).getD [])
  have hm := markFuncs_set funcs ((Dict.get? d c).getD []) x
  unfold markBins
  split <;> rename_i s hs
  · rw [hs] at hm
    dsimp only at hm ⊢
    by_cases hc : c = b
    · subst hc
      rw [Dict.get?_set_self]
      simp [hm]
    · rw [Dict.get?_set_ne _ hc]
      simp [Ne.symm hc]
  · rw [hs] at h
    exact absurd (h.2 hv) (by simp)

/-- `ord` iterates over a set: every element once, in some order. -/
def SetOrder (ord : List String → List String) : Prop := ∀ l, (ord l).Perm l.eraseDups

/-- The patterns select the bin. -/
def Selected (m : Matchers) (p : Point Obs) (pats : List String) (b : String) : Prop :=
  ∃ pat ∈ pats, Selects m (Dict.keys p.bins) pat b

theorem mem_ord {ord : List String → List String} (ho : SetOrder ord) (m : Matchers) (p : Point Obs)
    (pats : List String) (b : String) :
    b ∈ ord (pats.map (m.select (Dict.keys p.bins))).flatten ↔ Selected m p pats b := by
  rw [(ho _).mem_iff, List.mem_eraseDups, List.mem_flatten]
  constructor
  · rintro ⟨l, hl, hb⟩
    obtain ⟨pat, hpat, rfl⟩ := List.mem_map.1 hl
    exact ⟨pat, hpat, (mem_select m _ pat b).1 hb⟩
  · rintro ⟨pat, hpat, hb⟩
    exact ⟨_, List.mem_map.2 ⟨pat, hpat, rfl⟩, (mem_select m _ pat b).2 hb⟩

theorem any_empty (m : Matchers) (p : Point Obs) (pats : List String) :
    ((pats.map (m.select (Dict.keys p.bins))).any (·.isEmpty)) = true ↔
      ∃ pat ∈ pats, ∀ b, ¬ Selects m (Dict.keys p.bins) pat b := by
  rw [List.any_eq_true]
  constructor
  · rintro ⟨l, hl, he⟩
    obtain ⟨pat, hpat, rfl⟩ := List.mem_map.1 hl
    refine ⟨pat, hpat, fun b hb => ?_⟩
    rw [← mem_select, List.isEmpty_iff.1 he] at hb
    cases hb
  · rintro ⟨pat, hpat, hb⟩
    refine ⟨_, List.mem_map.2 ⟨pat, hpat, rfl⟩, ?_⟩
    rw [List.isEmpty_iff, List.eq_nil_iff_forall_not_mem]
    exact fun b h => hb b ((mem_select m _ pat b).1 h)

/-- C95: `mark_function` raises iff there is no such point (and `raise_error` is set), there is no
pattern, some pattern selects no bin, or some function cannot be marked. -/
theorem C95_mark_raises_iff (m : Matchers) (ord : List String → List String) (ho : SetOrder ord)
    (g : Group Obs) (name : String) (funcs : List (Option String)) (pats : List String) (r : Bool) :
    (mark m ord g name funcs pats r).2 ≠ none ↔
      match Dict.get? g.points name with
      | none => r = true
      | some p => pats = [] ∨ (∃ pat ∈ pats, ∀ b, ¬ Selects m (Dict.keys p.bins) pat b) ∨ none ∈ funcs := by
  unfold mark
  cases hp : Dict.get? g.points name with
  | none => cases r <;> simp
  | some p =>
    dsimp only
    by_cases h1 : pats = []
    · simp [h1]
    rw [if_neg h1]
    by_cases h2 : ((pats.map (m.select (Dict.keys p.bins))).any (·.isEmpty)) = true
    · rw [if_pos h2]
      simp [(any_empty m p pats).1 h2]
    · rw [if_neg h2]
      have h3 : ¬ ∃ pat ∈ pats, ∀ b, ¬ Selects m (Dict.keys p.bins) pat b :=
        fun h => h2 ((any_empty m p pats).2 h)
      have hne : ord (pats.map (m.select (Dict.keys p.bins))).flatten ≠ [] := by
        intro he
        obtain ⟨pat, rest, rfl⟩ := List.exists_cons_of_ne_nil h1
        obtain ⟨b, hb⟩ : ∃ b, Selects m (Dict.keys p.bins) pat b := by
          refine Classical.byContradiction fun hc => ?_
          exact h3 ⟨pat, List.mem_cons_self, fun b hb => hc ⟨b, hb⟩⟩
        have := (mem_ord ho m p (pat :: rest) b).2 ⟨pat, List.mem_cons_self, hb⟩
        rw [he] at this
        cases this
      have hr := markBins_raises funcs (ord (pats.map (m.select (Dict.keys p.bins))).flatten) p.functions
      simp only [h1, h3, false_or]
      by_cases hv : none ∈ funcs
      · rw [if_pos (hr.2 ⟨hv, hne⟩)]; simp [hv]
      · rw [if_neg (fun h => hv (hr.1 h).1)]; simp [hv]

/-- C95: a successful `mark_function` adds the functions to exactly the selected bins, whatever the
order of the set. -/
theorem C95_mark_exact (m : Matchers) (ord : List String → List String) (ho : SetOrder ord)
    (g : Group Obs) (name : String) (funcs : List (Option String)) (pats : List String) (r : Bool)
    (p : Point Obs) (hp : Dict.get? g.points name = some p)
    (hok : (mark m ord g name funcs pats r).2 = none) (other b f : String) :
    f ∈ marks (mark m ord g name funcs pats r).1 other b ↔
      f ∈ marks g other b ∨ (other = name ∧ some f ∈ funcs ∧ Selected m p pats b) := by
  have hr := C95_mark_raises_iff m ord ho g name funcs pats r
  simp only [hok, hp] at hr
  simp only [ne_eq, not_true_eq_false, false_iff, not_or] at hr
  obtain ⟨h1, h3, h4⟩ := hr
  unfold mark
  simp only [hp, if_neg h1, if_neg (fun h => h3 ((any_empty m p pats).1 h))]
  unfold marks
  simp only [Dict.get?_modify]
  by_cases hn : name = other
  · subst hn
    rw [if_pos rfl, hp]
    simp only [Option.map_some, true_and]
    rw [markBins_valid funcs h4, mem_ord ho m p pats b, and_comm (a := some f ∈ funcs)]
  · rw [if_neg hn]
    simp [Ne.symm hn]

/-- C95 (partial): a `mark_function` that raises changes nothing, unless every argument but a function
is right.  Missing with respect to the full statement: functions that cannot be marked; for those it is
false, see `C95_mark_atomic_violated`. -/
theorem C95_mark_rejected_partial (m : Matchers) (ord : List String → List String)
    (g : Group Obs) (name : String) (funcs : List (Option String)) (pats : List String) (r : Bool)
    (hr : (mark m ord g name funcs pats r).2 ≠ none) (hv : none ∉ funcs) :
    (mark m ord g name funcs pats r).1 = g := by
  unfold mark at hr ⊢
  split <;> rename_i hp
  · split <;> rfl
  · rw [hp] at hr
    dsimp only at hr ⊢
    split <;> rename_i h1
    · rfl
    · rw [if_neg h1] at hr
      split <;> rename_i h2
      · rfl
      · rw [if_neg h2] at hr
        dsimp only at hr
        rw [if_neg (fun h => hv ((markBins_raises funcs _ _).1 h).1)] at hr
        exact absurd rfl hr

/-- C95: what a `mark_function` with a function that cannot be marked leaves behind: one of the selected
bins, the first of the set, has the marks of the functions before it; no other bin is touched. -/
theorem C95_mark_invalid (m : Matchers) (ord : List String → List String) (ho : SetOrder ord)
    (g : Group Obs) (name : String) (funcs : List (Option String)) (pats : List String) (r : Bool)
    (p : Point Obs) (hp : Dict.get? g.points name = some p) (hv : none ∈ funcs) (h1 : pats ≠ [])
    (h2 : ∀ pat ∈ pats, ∃ b, Selects m (Dict.keys p.bins) pat b) :
    ∃ c, Selected m p pats c ∧ ∀ other b f,
      f ∈ marks (mark m ord g name funcs pats r).1 other b ↔
        f ∈ marks g other b ∨ (other = name ∧ b = c ∧
          ∃ pre post, funcs = pre ++ some f :: post ∧ none ∉ pre) := by
  have h3 : ¬ ((pats.map (m.select (Dict.keys p.bins))).any (·.isEmpty)) = true := by
    rw [any_empty]
    rintro ⟨pat, hpat, h⟩
    obtain ⟨b, hb⟩ := h2 pat hpat
    exact h b hb
  cases hord : ord (pats.map (m.select (Dict.keys p.bins))).flatten with
  | nil =>
    obtain ⟨pat, rest, rfl⟩ := List.exists_cons_of_ne_nil h1
    obtain ⟨b, hb⟩ := h2 pat (by simp)
    have := (mem_ord ho m p (pat :: rest) b).2 ⟨pat, List.mem_cons_self, hb⟩
    rw [hord] at this
    cases this
  | cons c bs =>
    refine ⟨c, (mem_ord ho m p pats c).1 (by rw [hord]; simp), ?_⟩
    intro other b f
    unfold mark
    simp only [hp, if_neg h1, if_neg h3, hord]
    unfold marks
    simp only [Dict.get?_modify]
    by_cases hn : name = other
    · subst hn
      rw [if_pos rfl, hp]
      simp only [Option.map_some, true_and]
      exact markBins_invalid funcs hv c bs p.functions b f
    · rw [if_neg hn]
      simp [Ne.symm hn]

/-- Matchers for which `*` is everything. -/
def demoM : Matchers := ⟨fun p => p == "*", fun _ _ => true, fun _ _ => false⟩

/-- A group with a point of two bins. -/
def demoG : Group Nat := (Group.new Nat true).run
  [.add "p" (.dict [("a", .callable (· == 1)), ("b", .callable (· == 2))]) none]

/-- C95 is false: a `mark_function` that raises has marked a bin. -/
theorem C95_mark_atomic_violated : ∃ (g : Group Nat) (funcs : List (Option String)),
    (mark demoM List.eraseDups g "p" funcs ["*"] true).2 ≠ none ∧
    marks g "p" "a" = [] ∧
    marks (mark demoM List.eraseDups g "p" funcs ["*"] true).1 "p" "a" = ["f"] ∧
    marks (mark demoM List.eraseDups g "p" funcs ["*"] true).1 "p" "b" = [] :=
  ⟨demoG, [some "f", none], by decide⟩

/-- The hypotheses of the theorems above are met: the order of first occurrence is a set order, the
patterns select bins, and a call with good functions succeeds. -/
example : SetOrder List.eraseDups ∧
    (∀ pat ∈ ["*"], ∃ b, Selects demoM ["a", "b"] pat b) ∧
    (mark demoM List.eraseDups demoG "p" [some "f"] ["*"] true).2 = none ∧
    (mark demoM List.eraseDups demoG "p" [some "f"] ["x"] true).2 ≠ none := by
  refine ⟨fun l => List.Perm.refl _, ?_, by decide, by decide⟩
  intro pat hp
  simp only [List.mem_singleton] at hp
  subst hp
  exact ⟨"a", by simp, .inr (.inl ⟨by decide, rfl, rfl⟩)⟩

end Toffee.Props.FunCovArgs
