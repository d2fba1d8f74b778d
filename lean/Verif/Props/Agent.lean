import Verif.Model.Agent
import Verif.Lemmas.Dict

/-! Drivers and monitors of agents (`toffee/agent.py`), names of agents (`toffee/env.py`): C79, C80,
C81. -/

namespace Toffee.Agent

/-! ### Specification -/

/-- The class at position `i` defines `n` as `a`. -/
def Defines (mro : List Class) (i : Nat) (n : Name) (a : Attr) : Prop :=
  ∃ c, mro[i]? = some c ∧ (n, a) ∈ c

/-- The first class at or behind position `k` that defines `n` defines it as `a`: what Python finds for
`agent.n` (`k = 0`), or for `super().n` in the class at position `k - 1`. -/
def Finds (mro : List Class) (k : Nat) (n : Name) (a : Attr) : Prop :=
  ∃ i, k ≤ i ∧ Defines mro i n a ∧ ∀ j a', k ≤ j → j < i → ¬ Defines mro j n a'

/-- A class dictionary has every name once. -/
def Classes (mro : List Class) : Prop := ∀ c ∈ mro, (c.map Prod.fst).Nodup

/-- Every driver method that can be called on the agent is under the name of its function. -/
def OwnNames (mro : List Class) : Prop := ∀ n f, Finds mro 0 n (.driver f) → f.name = n

/-- The same for monitor methods. -/
def OwnNamesM (mro : List Class) : Prop := ∀ n f, Finds mro 0 n (.monitor f) → f.name = n

/-! ### `dir` -/

theorem mem_insertName {n m : Name} {l : List Name} : m ∈ insertName n l ↔ m = n ∨ m ∈ l := by
  induction l with
  | nil => simp [insertName]
  | cons x l ih =>
    rw [insertName]
    split
    · rename_i h
      subst h
      simp
    · split
      · simp
      · rw [List.mem_cons, ih, List.mem_cons]
        constructor
        · rintro (h | h | h)
          · exact .inr (.inl h)
          · exact .inl h
          · exact .inr (.inr h)
        · rintro (h | h | h)
          · exact .inr (.inl h)
          · exact .inl h
          · exact .inr (.inr h)

theorem sorted_insertName (n : Name) {l : List Name} (h : l.Pairwise (· < ·)) :
    (insertName n l).Pairwise (· < ·) := by
  induction l with
  | nil => simp [insertName]
  | cons x l ih =>
    rw [List.pairwise_cons] at h
    rw [insertName]
    split
    · exact List.pairwise_cons.2 h
    · rename_i hne
      split
      · rename_i hlt
        refine List.pairwise_cons.2 ⟨fun y hy => ?_, List.pairwise_cons.2 h⟩
        rcases List.mem_cons.1 hy with rfl | hy
        · exact hlt
        · exact Std.lt_trans hlt (h.1 y hy)
      · rename_i hlt
        refine List.pairwise_cons.2 ⟨fun y hy => ?_, ih h.2⟩
        rcases mem_insertName.1 hy with rfl | hy
        · exact Std.lt_of_le_of_ne hlt (Ne.symm hne)
        · exact h.1 y hy

theorem mem_sort {l : List Name} {m : Name} : m ∈ l.foldr insertName [] ↔ m ∈ l := by
  induction l with
  | nil => simp
  | cons x l ih => rw [List.foldr_cons, mem_insertName, ih, List.mem_cons]

theorem sorted_sort (l : List Name) : (l.foldr insertName []).Pairwise (· < ·) := by
  induction l with
  | nil => simp
  | cons x l ih => rw [List.foldr_cons]; exact sorted_insertName x ih

theorem nodup_sort (l : List Name) : (l.foldr insertName []).Nodup :=
  (sorted_sort l).imp fun h h' => by
    subst h'
    exact Std.lt_irrefl h

/-! ### Look-up -/

theorem lookup_some {mro : List Class} {n : Name} {a : Attr} (h : lookup mro n = some a) :
    Finds mro 0 n a := by
  induction mro with
  | nil => cases h
  | cons c cs ih =>
    rw [lookup] at h
    cases hc : c.get? n with
    | some b =>
      rw [hc] at h
      cases h
      exact ⟨0, Nat.le_refl _, ⟨c, rfl, Dict.mem_of_get? hc⟩, fun j _ _ h => absurd h (Nat.not_lt_zero j)⟩
    | none =>
      rw [hc] at h
      obtain ⟨i, _, ⟨c', h1, h2⟩, h3⟩ := ih h
      refine ⟨i + 1, Nat.zero_le _, ⟨c', by simpa using h1, h2⟩, fun j a' _ hj hd => ?_⟩
      obtain ⟨c'', h4, h5⟩ := hd
      cases j with
      | zero =>
        simp only [List.getElem?_cons_zero, Option.some.injEq] at h4
        subst h4
        exact Dict.get?_eq_none.1 hc (List.mem_map_of_mem (f := Prod.fst) h5)
      | succ j => exact h3 j a' (Nat.zero_le _) (by omega) ⟨c'', by simpa using h4, h5⟩

theorem finds_drop {mro : List Class} {k : Nat} {n : Name} {a : Attr} :
    Finds (mro.drop k) 0 n a ↔ Finds mro k n a := by
  have hdef : ∀ i b, Defines (mro.drop k) i n b ↔ Defines mro (k + i) n b := by
    intro i b
    unfold Defines
    rw [List.getElem?_drop]
  constructor
  · rintro ⟨i, _, h1, h2⟩
    refine ⟨k + i, by omega, (hdef i a).1 h1, fun j a' hk hj hd => ?_⟩
    refine h2 (j - k) a' (Nat.zero_le _) (by omega) ((hdef _ _).2 ?_)
    rw [show k + (j - k) = j by omega]
    exact hd
  · rintro ⟨i, hk, h1, h2⟩
    refine ⟨i - k, Nat.zero_le _, (hdef _ _).2 (by rw [show k + (i - k) = i by omega]; exact h1),
      fun j a' _ hj hd => ?_⟩
    exact h2 (k + j) a' (by omega) (by omega) ((hdef _ _).1 hd)

theorem finds_unique {mro : List Class} (hc : Classes mro) {k : Nat} {n : Name} {a b : Attr}
    (ha : Finds mro k n a) (hb : Finds mro k n b) : a = b := by
  obtain ⟨i, hi, h1, h2⟩ := ha
  obtain ⟨j, hj, h3, h4⟩ := hb
  have hij : i = j := by
    rcases Nat.lt_trichotomy i j with h | h | h
    · exact absurd h1 (h4 i a hi h)
    · exact h
    · exact absurd h3 (h2 j b hj h)
  subst hij
  obtain ⟨c, h5, h6⟩ := h1
  obtain ⟨c', h7, h8⟩ := h3
  rw [h5] at h7
  cases h7
  have hn := hc c (List.mem_of_getElem? h5)
  have := Dict.get?_of_mem hn h6
  rw [Dict.get?_of_mem hn h8] at this
  exact (Option.some.inj this).symm

theorem lookup_isSome {mro : List Class} {n : Name} {i : Nat} {a : Attr} (h : Defines mro i n a) :
    ∃ b, lookup mro n = some b := by
  induction mro generalizing i with
  | nil => obtain ⟨c, h, _⟩ := h; simp at h
  | cons c cs ih =>
    rw [lookup]
    cases hc : c.get? n with
    | some b => exact ⟨b, rfl⟩
    | none =>
      obtain ⟨c', h1, h2⟩ := h
      cases i with
      | zero =>
        simp only [List.getElem?_cons_zero, Option.some.injEq] at h1
        subst h1
        exact absurd (List.mem_map_of_mem (f := Prod.fst) h2) (Dict.get?_eq_none.1 hc)
      | succ i => exact ih (i := i) ⟨c', by simpa using h1, h2⟩

/-- The model's look-up is Python's. -/
theorem lookup_iff {mro : List Class} (hc : Classes mro) (k : Nat) (n : Name) (a : Attr) :
    lookup (mro.drop k) n = some a ↔ Finds mro k n a := by
  constructor
  · exact fun h => finds_drop.1 (lookup_some h)
  · intro h
    have h' := finds_drop.2 h
    obtain ⟨i, _, h1, _⟩ := h'
    obtain ⟨b, hb⟩ := lookup_isSome h1
    rw [hb, finds_unique hc h (finds_drop.1 (lookup_some hb))]

theorem lookup_iff0 {mro : List Class} (hc : Classes mro) (n : Name) (a : Attr) :
    lookup mro n = some a ↔ Finds mro 0 n a := lookup_iff hc 0 n a

theorem mem_dir {mro : List Class} {n : Name} {a : Attr} (h : lookup mro n = some a) : n ∈ dir mro := by
  obtain ⟨i, _, ⟨c, h1, h2⟩, _⟩ := lookup_some h
  unfold dir
  rw [mem_sort, List.mem_flatMap]
  exact ⟨c, List.mem_of_getElem? h1, List.mem_map_of_mem (f := Prod.fst) h2⟩

theorem mem_driverMethods {mro : List Class} (hc : Classes mro) {f : Func} :
    f ∈ driverMethods mro ↔ ∃ n, Finds mro 0 n (.driver f) := by
  unfold driverMethods
  rw [List.mem_filterMap]
  constructor
  · rintro ⟨n, _, h⟩
    refine ⟨n, (lookup_iff0 hc n _).1 ?_⟩
    split at h
    · rename_i h'
      cases h
      exact h'
    · cases h
  · rintro ⟨n, h⟩
    have h' := (lookup_iff0 hc n _).2 h
    exact ⟨n, mem_dir h', by rw [h']⟩

theorem mem_monitorMethods {mro : List Class} (hc : Classes mro) {f : Func} :
    f ∈ monitorMethods mro ↔ ∃ n, Finds mro 0 n (.monitor f) := by
  unfold monitorMethods
  rw [List.mem_filterMap]
  constructor
  · rintro ⟨n, _, h⟩
    refine ⟨n, (lookup_iff0 hc n _).1 ?_⟩
    split at h
    · rename_i h'
      cases h
      exact h'
    · cases h
  · rintro ⟨n, h⟩
    have h' := (lookup_iff0 hc n _).2 h
    exact ⟨n, mem_dir h', by rw [h']⟩

/-! ### Drivers -/

theorem get_fold {l : List Func} {d : Dict Name Func} {k : Name} {f : Func}
    (h : (l.foldl (fun d f => d.set f.name f) d).get? k = some f) :
    f ∈ l ∧ f.name = k ∨ d.get? k = some f := by
  induction l generalizing d with
  | nil => exact .inr h
  | cons x l ih =>
    rw [List.foldl_cons] at h
    rcases ih h with ⟨h1, h2⟩ | h1
    · exact .inl ⟨List.mem_cons_of_mem _ h1, h2⟩
    · by_cases hx : x.name = k
      · rw [hx, Dict.get?_set_self] at h1
        cases h1
        exact .inl ⟨List.mem_cons_self, hx⟩
      · rw [Dict.get?_set_ne _ hx] at h1
        exact .inr h1

theorem get_fold_isSome {l : List Func} {d : Dict Name Func} {k : Name}
    (h : (∃ f ∈ l, f.name = k) ∨ ∃ g, d.get? k = some g) :
    ∃ g, (l.foldl (fun d f => d.set f.name f) d).get? k = some g := by
  induction l generalizing d with
  | nil =>
    rcases h with ⟨f, h, _⟩ | h
    · cases h
    · exact h
  | cons x l ih =>
    rw [List.foldl_cons]
    apply ih
    by_cases hx : x.name = k
    · right
      exact ⟨x, by rw [hx, Dict.get?_set_self]⟩
    · rcases h with ⟨f, h, hf⟩ | ⟨g, h⟩
      · rcases List.mem_cons.1 h with rfl | h
        · exact absurd hf hx
        · exact .inl ⟨f, h, hf⟩
      · exact .inr ⟨g, by rw [Dict.get?_set_ne _ hx]; exact h⟩

/-- The driver of a name has the function of a visible driver method with that `__name__`. -/
theorem drivers_get {mro : List Class} (hc : Classes mro) {k : Name} {f : Func}
    (h : (drivers mro).get? k = some f) : f.name = k ∧ ∃ n, Finds mro 0 n (.driver f) := by
  rcases get_fold h with ⟨h1, h2⟩ | h1
  · exact ⟨h2, (mem_driverMethods hc).1 h1⟩
  · cases h1

theorem drivers_own {mro : List Class} (hc : Classes mro) (ho : OwnNames mro) {n : Name} {f : Func}
    (h : Finds mro 0 n (.driver f)) : (drivers mro).get? n = some f := by
  obtain ⟨g, hg⟩ := get_fold_isSome (l := driverMethods mro) (d := [])
    (.inl ⟨f, (mem_driverMethods hc).2 ⟨n, h⟩, ho n f h⟩)
  have hg : (drivers mro).get? n = some g := hg
  obtain ⟨h1, m, h2⟩ := drivers_get hc hg
  have hm := ho m g h2
  rw [h1] at hm
  subst hm
  have := finds_unique hc h h2
  cases this
  exact hg

/-- C79: `agent.n(..)` runs the function that the class hierarchy gives for `n`, if every driver method
is under the name of its function.  Missing: `super().n(..)` (`C79_super_violated`,
`C79_plain_override_violated`) and functions under other names (`C79_alias_violated`). -/
theorem C79_call_partial (mro : List Class) (hc : Classes mro) (ho : OwnNames mro) (n : Name) (f : Func)
    (h : Finds mro 0 n (.driver f)) : call mro 0 n = .runs f := by
  have h1 := (lookup_iff hc 0 n _).2 h
  have h2 := drivers_own hc ho h
  simp only [call, h1]
  rw [ho n f h, h2]

/-- C79: `super().n(..)` runs the function of the next class that defines `n`, if no class before it
defines `n`. -/
theorem C79_super_partial (mro : List Class) (hc : Classes mro) (ho : OwnNames mro) (k : Nat) (n : Name)
    (f : Func) (h : Finds mro k n (.driver f)) (hno : ∀ j a, j < k → ¬ Defines mro j n a) :
    call mro k n = .runs f := by
  have h0 : Finds mro 0 n (.driver f) := by
    obtain ⟨i, hi, h1, h2⟩ := h
    refine ⟨i, Nat.zero_le _, h1, fun j a' _ hj hd => ?_⟩
    by_cases hjk : j < k
    · exact hno j a' hjk hd
    · exact h2 j a' (by omega) hj hd
  have h1 := (lookup_iff hc k n _).2 h
  have h2 := drivers_own hc ho h0
  simp only [call, h1]
  rw [ho n f h0, h2]

/-- C79: a driver call never runs anything but a driver method of the agent, one whose function has the
same name as the called one. -/
theorem C79_only_methods (mro : List Class) (hc : Classes mro) (k : Nat) (n : Name) (f g : Func)
    (h : Finds mro k n (.driver f)) (hr : call mro k n = .runs g) :
    g.name = f.name ∧ ∃ m, Finds mro 0 m (.driver g) := by
  have h1 := (lookup_iff hc k n _).2 h
  simp only [call, h1] at hr
  cases hg : (drivers mro).get? f.name with
  | none => rw [hg] at hr; cases hr
  | some g' =>
    rw [hg] at hr
    cases hr
    exact drivers_get hc hg

/-- **C79 is false** for `super()`: in *every* class hierarchy where a driver method overrides another
one under its own name, `super().n(..)` runs the overriding function again (which then calls
`super().n(..)` again, and so on without end). -/
theorem C79_super_violated (mro : List Class) (hc : Classes mro) (ho : OwnNames mro) (k : Nat) (n : Name)
    (f g : Func) (h : Finds mro k n (.driver f)) (hf : f.name = n) (h0 : Finds mro 0 n (.driver g)) :
    call mro k n = .runs g := by
  have h1 := (lookup_iff hc k n _).2 h
  have h2 := drivers_own hc ho h0
  simp only [call, h1]
  rw [hf, h2]

/-- **C79 is false** for `super()` in an overriding method that is not decorated: `KeyError`. -/
theorem C79_plain_override_violated (mro : List Class) (hc : Classes mro) (ho : OwnNames mro) (k : Nat)
    (n : Name) (f : Func) (h : Finds mro k n (.driver f)) (hf : f.name = n)
    (h0 : Finds mro 0 n .other) : call mro k n = .keyError := by
  have h1 := (lookup_iff hc k n _).2 h
  simp only [call, h1]
  cases hg : (drivers mro).get? f.name with
  | none => rfl
  | some g =>
    exfalso
    obtain ⟨h2, m, h3⟩ := drivers_get hc hg
    have := ho m g h3
    rw [h2, hf] at this
    subst this
    have := finds_unique hc h0 h3
    cases this

/-- **C79 is false** for functions under other names: two driver methods that were made by one function
factory; the call of the first runs the second. -/
theorem C79_alias_violated :
    let f : Func := ⟨0, "send".toList⟩
    let g : Func := ⟨1, "send".toList⟩
    let mro : List Class := [[("send_a".toList, .driver f), ("send_b".toList, .driver g)]]
    lookup mro "send_a".toList = some (.driver f) ∧ call mro 0 "send_a".toList = .runs g := by
  decide +kernel

/-- A class with a driver and a monitor method, and one derived from it that overrides the driver
method and adds another. -/
def hierarchy : List Class :=
  [[("send".toList, .driver ⟨2, "send".toList⟩), ("recv".toList, .driver ⟨3, "recv".toList⟩)],
   [("send".toList, .driver ⟨0, "send".toList⟩), ("watch".toList, .monitor ⟨1, "watch".toList⟩)]]

theorem finds_mem {mro : List Class} {n : Name} {a : Attr} (h : Finds mro 0 n a) :
    (n, a) ∈ mro.flatten := by
  obtain ⟨i, _, ⟨c, h1, h2⟩, _⟩ := h
  exact List.mem_flatten.2 ⟨c, List.mem_of_getElem? h1, h2⟩

theorem hierarchy_classes : Classes hierarchy := by
  unfold Classes
  decide +kernel

theorem hierarchy_own : OwnNames hierarchy := by
  intro n f h
  have hm := finds_mem h
  have : ∀ x ∈ hierarchy.flatten, ∀ f, x.2 = .driver f → f.name = x.1 := by
    intro x hx f hf
    have : x ∈ [("send".toList, Attr.driver ⟨2, "send".toList⟩), ("recv".toList, .driver ⟨3, "recv".toList⟩),
      ("send".toList, .driver ⟨0, "send".toList⟩), ("watch".toList, .monitor ⟨1, "watch".toList⟩)] := hx
    simp only [List.mem_cons, List.not_mem_nil, or_false] at this
    rcases this with rfl | rfl | rfl | rfl <;> cases hf <;> rfl
  exact this _ hm f rfl

theorem hierarchy_ownM : OwnNamesM hierarchy := by
  intro n f h
  have hm := finds_mem h
  have : ∀ x ∈ hierarchy.flatten, ∀ f, x.2 = .monitor f → f.name = x.1 := by
    intro x hx f hf
    have : x ∈ [("send".toList, Attr.driver ⟨2, "send".toList⟩), ("recv".toList, .driver ⟨3, "recv".toList⟩),
      ("send".toList, .driver ⟨0, "send".toList⟩), ("watch".toList, .monitor ⟨1, "watch".toList⟩)] := hx
    simp only [List.mem_cons, List.not_mem_nil, or_false] at this
    rcases this with rfl | rfl | rfl | rfl <;> cases hf <;> rfl
  exact this _ hm f rfl

/-- The hypotheses of `C79_super_violated` hold: `super().send(..)` in the derived class. -/
example : Finds hierarchy 1 "send".toList (.driver ⟨0, "send".toList⟩) ∧
    Finds hierarchy 0 "send".toList (.driver ⟨2, "send".toList⟩) ∧
    call hierarchy 1 "send".toList = .runs ⟨2, "send".toList⟩ :=
  ⟨(lookup_iff hierarchy_classes 1 _ _).1 (by decide +kernel),
   (lookup_iff hierarchy_classes 0 _ _).1 (by decide +kernel), by decide +kernel⟩

/-- Those of `C79_super_partial`: with a class in between that does not define the method. -/
example : ∃ mro k f, Classes mro ∧ Finds mro k "send".toList (.driver f) ∧
    (∀ j a, j < k → ¬ Defines mro j "send".toList a) ∧ 0 < k ∧ call mro k "send".toList = .runs f := by
  have hc : Classes ([] :: hierarchy) := by unfold Classes; decide +kernel
  refine ⟨[] :: hierarchy, 1, ⟨2, "send".toList⟩, hc, (lookup_iff hc 1 _ _).1 (by decide +kernel), ?_,
    Nat.one_pos, by decide +kernel⟩
  rintro j a hj ⟨c, h1, h2⟩
  have : j = 0 := by omega
  subst this
  simp only [List.getElem?_cons_zero, Option.some.injEq] at h1
  subst h1
  cases h2

/-- Those of `C79_plain_override_violated`. -/
example : ∃ mro f, Classes mro ∧ Finds mro 1 "send".toList (.driver f) ∧
    Finds mro 0 "send".toList .other ∧ call mro 1 "send".toList = .keyError := by
  have hc : Classes ([("send".toList, .other)] :: hierarchy) := by unfold Classes; decide +kernel
  exact ⟨_, ⟨2, "send".toList⟩, hc, (lookup_iff hc 1 _ _).1 (by decide +kernel),
    (lookup_iff hc 0 _ _).1 (by decide +kernel), by decide +kernel⟩

/-! ### Monitors -/

theorem monitors_fold (l : List Func) (s : List Func × Dict Name Nat) :
    (l.foldl (fun s f => (s.1 ++ [f], s.2.set f.name s.1.length)) s).1 = s.1 ++ l := by
  induction l generalizing s with
  | nil => simp
  | cons x l ih => rw [List.foldl_cons, ih]; simp

theorem monitors_get {l : List Func} {s : List Func × Dict Name Nat} {k : Name} {i : Nat}
    (hs : ∀ i, s.2.get? k = some i → ∃ f, s.1[i]? = some f ∧ f.name = k)
    (h : (l.foldl (fun s f => (s.1 ++ [f], s.2.set f.name s.1.length)) s).2.get? k = some i) :
    ∃ f, (s.1 ++ l)[i]? = some f ∧ f.name = k := by
  induction l generalizing s with
  | nil => simpa using hs i h
  | cons x l ih =>
    rw [List.foldl_cons] at h
    have := ih (s := (s.1 ++ [x], s.2.set x.name s.1.length)) ?_ h
    · simpa using this
    · intro i hi
      simp only at hi ⊢
      by_cases hx : x.name = k
      · rw [hx, Dict.get?_set_self] at hi
        cases hi
        exact ⟨x, by simp, hx⟩
      · rw [Dict.get?_set_ne _ hx] at hi
        obtain ⟨f, h1, h2⟩ := hs i hi
        refine ⟨f, ?_, h2⟩
        rw [List.getElem?_append_left (List.getElem?_eq_some_iff.1 h1).1]
        exact h1

theorem monitors_isSome {l : List Func} {s : List Func × Dict Name Nat} {k : Name}
    (h : (∃ f ∈ l, f.name = k) ∨ ∃ g, s.2.get? k = some g) :
    ∃ i, (l.foldl (fun s f => (s.1 ++ [f], s.2.set f.name s.1.length)) s).2.get? k = some i := by
  induction l generalizing s with
  | nil =>
    rcases h with ⟨f, h, _⟩ | h
    · cases h
    · exact h
  | cons x l ih =>
    rw [List.foldl_cons]
    apply ih
    by_cases hx : x.name = k
    · right
      exact ⟨s.1.length, by simp only; rw [hx, Dict.get?_set_self]⟩
    · rcases h with ⟨f, h, hf⟩ | ⟨g, h⟩
      · rcases List.mem_cons.1 h with rfl | h
        · exact absurd hf hx
        · exact .inl ⟨f, h, hf⟩
      · exact .inr ⟨g, by simp only; rw [Dict.get?_set_ne _ hx]; exact h⟩

/-- C80: there is one monitor task per attribute of the agent that is a monitor method, with the function
that the class hierarchy gives for it, and no other. -/
theorem C80_tasks (mro : List Class) (hc : Classes mro) :
    ∃ ns : List Name, ns.Nodup ∧ (∀ n, n ∈ ns ↔ ∃ f, Finds mro 0 n (.monitor f)) ∧
      (monitors mro).1.length = ns.length ∧
      ∀ (i : Nat) n, ns[i]? = some n → ∃ f, Finds mro 0 n (.monitor f) ∧ (monitors mro).1[i]? = some f := by
  have htasks : (monitors mro).1 = monitorMethods mro := by
    unfold monitors
    rw [monitors_fold]
    simp
  let get : Name → Option Func := fun n =>
    match lookup mro n with
    | some (.monitor f) => some f
    | _ => none
  have hget : ∀ n f, get n = some f ↔ lookup mro n = some (.monitor f) := by
    intro n f
    constructor
    · intro h
      simp only [get] at h
      split at h
      · rename_i h'
        cases h
        exact h'
      · cases h
    · intro h
      simp only [get, h]
  have hl : ∀ l : List Name, (l.filterMap get).length = (l.filter fun n => (get n).isSome).length ∧
      ∀ (i : Nat) n, (l.filter fun n => (get n).isSome)[i]? = some n →
        ∃ f, get n = some f ∧ (l.filterMap get)[i]? = some f := by
    intro l
    induction l with
    | nil => simp
    | cons x l ih =>
      cases hx : get x with
      | none =>
        rw [List.filterMap_cons_none hx, List.filter_cons_of_neg (by simp [hx])]
        exact ih
      | some f =>
        rw [List.filterMap_cons_some hx, List.filter_cons_of_pos (by simp [hx])]
        refine ⟨by simp [ih.1], fun i n hi => ?_⟩
        cases i with
        | zero =>
          simp only [List.getElem?_cons_zero, Option.some.injEq] at hi
          subst hi
          exact ⟨f, hx, rfl⟩
        | succ i =>
          rw [List.getElem?_cons_succ] at hi ⊢
          exact ih.2 i n hi
  refine ⟨(dir mro).filter fun n => (get n).isSome, (nodup_sort _).filter _, fun n => ?_, ?_, ?_⟩
  · rw [List.mem_filter]
    constructor
    · rintro ⟨_, h⟩
      obtain ⟨f, hf⟩ := Option.isSome_iff_exists.1 h
      exact ⟨f, (lookup_iff0 hc n _).1 ((hget n f).1 hf)⟩
    · rintro ⟨f, h⟩
      have h' := (lookup_iff0 hc n _).2 h
      exact ⟨mem_dir h', by rw [(hget n f).2 h']; rfl⟩
  · rw [htasks]
    exact (hl _).1
  · intro i n hi
    obtain ⟨f, h1, h2⟩ := (hl _).2 i n hi
    refine ⟨f, (lookup_iff0 hc n _).1 ((hget n f).1 h1), ?_⟩
    rw [htasks]
    exact h2

/-- C80: `await agent.n()` reads what the only task of the monitor method produces, if every monitor method
is under the name of its function.  Missing: functions under other names (`C80_alias_violated`). -/
theorem C80_reads_partial (mro : List Class) (hc : Classes mro) (ho : OwnNamesM mro) (n : Name) (f : Func)
    (h : Finds mro 0 n (.monitor f)) :
    ∃ i, call mro 0 n = .reads i ∧ (monitors mro).1[i]? = some f ∧
      ∀ (j : Nat) g, (monitors mro).1[j]? = some g → g.name = n → j = i := by
  have h1 := (lookup_iff hc 0 n _).2 h
  obtain ⟨i, hi⟩ := monitors_isSome (l := monitorMethods mro) (s := ([], []))
    (.inl ⟨f, (mem_monitorMethods hc).2 ⟨n, h⟩, ho n f h⟩)
  have hi : (monitors mro).2.get? n = some i := hi
  obtain ⟨g, h2, h3⟩ := monitors_get (l := monitorMethods mro) (s := ([], [])) (by simp [Dict.get?]) hi
  obtain ⟨ns, hn, hm, hlen, hall⟩ := C80_tasks mro hc
  have htasks : (monitors mro).1 = monitorMethods mro := by
    unfold monitors
    rw [monitors_fold]
    simp
  have hat : ∀ (j : Nat) g, (monitors mro).1[j]? = some g → g.name = n → ns[j]? = some n := by
    intro j g hj hg
    have hjl := (List.getElem?_eq_some_iff.1 hj).1
    have hjn : ns[j]? = some (ns[j]'(by omega)) := List.getElem?_eq_getElem _
    obtain ⟨f', h4, h5⟩ := hall j _ hjn
    rw [hj] at h5
    cases h5
    rw [hjn, ← ho _ _ h4, hg]
  have h2' : (monitors mro).1[i]? = some g := by rw [htasks]; simpa using h2
  have hin := hat i g h2' h3
  refine ⟨i, ?_, ?_, fun j g' hj hg' => ?_⟩
  · simp only [call, h1]
    rw [ho n f h, hi]
  · obtain ⟨f', h4, h5⟩ := hall i n hin
    have := finds_unique hc h h4
    cases this
    exact h5
  · have hjn := hat j g' hj hg'
    obtain ⟨a1, a2⟩ := List.getElem?_eq_some_iff.1 hin
    obtain ⟨b1, b2⟩ := List.getElem?_eq_some_iff.1 hjn
    exact (List.getElem_inj hn).1 (b2.trans a2.symm)

example : Classes hierarchy ∧ OwnNamesM hierarchy ∧
    Finds hierarchy 0 "watch".toList (.monitor ⟨1, "watch".toList⟩) ∧
    call hierarchy 0 "watch".toList = .reads 0 :=
  ⟨hierarchy_classes, hierarchy_ownM, (lookup_iff hierarchy_classes 0 _ _).1 (by decide +kernel),
   by decide +kernel⟩

/-- **C80 is false** for a monitor method that is under two names: two tasks run it, and only one of them
can be read. -/
theorem C80_alias_violated :
    let f : Func := ⟨0, "watch".toList⟩
    let mro : List Class := [[("watch".toList, .monitor f), ("observe".toList, .monitor f)]]
    (monitors mro).1 = [f, f] ∧ call mro 0 "watch".toList = .reads 1 ∧
      call mro 0 "observe".toList = .reads 1 := by
  decide +kernel

/-! ### Names of agents -/

/-- The assignments of agents that the constructor executes, in order. -/
def executed : List (List Stmt) → List (Name × Nat)
  | [] => []
  | body :: rest => body.flatMap fun st =>
      match st with
      | .assign n a => [(n, a)]
      | .super => executed rest

/-- The last value that was assigned. -/
def lastOf (l : List (Name × Nat)) (n : Name) : Option Nat := (l.filter fun x => x.1 = n).getLast?.map Prod.snd

/-- The names under which the environment holds an agent at the end. -/
def Holds (bodies : List (List Stmt)) (n : Name) (a : Nat) : Prop := lastOf (executed bodies) n = some a

theorem config_attrs (s : EnvSt) : (config s).attrs = s.attrs := rfl

theorem body_attrs (rest : List (List Stmt))
    (ih : ∀ s, (initEnv rest s).attrs = (executed rest).foldl (fun d x => d.set x.1 x.2) s.attrs)
    (body : List Stmt) (s : EnvSt) :
    (body.foldl (fun s st =>
      match st with
      | .assign n a => { s with attrs := s.attrs.set n a }
      | .super => initEnv rest s) s).attrs =
    (body.flatMap fun st =>
      match st with
      | .assign n a => [(n, a)]
      | .super => executed rest).foldl (fun d x => d.set x.1 x.2) s.attrs := by
  induction body generalizing s with
  | nil => rfl
  | cons st body ihb =>
    rw [List.foldl_cons, ihb, List.flatMap_cons, List.foldl_append]
    cases st with
    | assign n a => rfl
    | super => simp only [ih]

theorem initEnv_attrs (bodies : List (List Stmt)) (s : EnvSt) :
    (initEnv bodies s).attrs = (executed bodies).foldl (fun d x => d.set x.1 x.2) s.attrs := by
  induction bodies generalizing s with
  | nil => rfl
  | cons body rest ih =>
    rw [initEnv, config_attrs, executed]
    exact body_attrs rest ih body s

theorem get_foldSet (l : List (Name × Nat)) (d : Dict Name Nat) (n : Name) :
    (l.foldl (fun d x => d.set x.1 x.2) d).get? n =
      match lastOf l n with
      | some a => some a
      | none => d.get? n := by
  induction l generalizing d with
  | nil => rfl
  | cons x l ih =>
    rw [List.foldl_cons, ih]
    unfold lastOf
    by_cases hx : x.1 = n
    · rw [List.filter_cons_of_pos (by simpa using hx)]
      cases hl : l.filter (fun x => x.1 = n) with
      | nil =>
        subst hx
        simp [Dict.get?_set_self]
      | cons y ys =>
        simp [List.getLast?_cons]
    · rw [List.filter_cons_of_neg (by simpa using hx), Dict.get?_set_ne _ hx]

theorem mem_set {d : Dict Name Nat} {k : Name} {v : Nat} {x : Name × Nat} (h : x ∈ d.set k v) :
    x ∈ d ∨ x = (k, v) := by
  induction d with
  | nil => right; simpa [Dict.set] using h
  | cons y d ih =>
    rw [Dict.set] at h
    split at h
    · rename_i hy
      rcases List.mem_cons.1 h with h | h
      · right
        rw [h, hy]
      · exact .inl (List.mem_cons_of_mem _ h)
    · rcases List.mem_cons.1 h with h | h
      · left
        rw [h]
        exact List.mem_cons_self
      · rcases ih h with h | h
        · exact .inl (List.mem_cons_of_mem _ h)
        · exact .inr h

theorem mem_foldSet {l : List (Name × Nat)} {d : Dict Name Nat} {x : Name × Nat}
    (h : x ∈ l.foldl (fun d x => d.set x.1 x.2) d) : x ∈ d ∨ x ∈ l := by
  induction l generalizing d with
  | nil => exact .inl h
  | cons y l ih =>
    rw [List.foldl_cons] at h
    rcases ih h with h | h
    · rcases mem_set h with h | h
      · exact .inl h
      · exact .inr (by rw [h]; exact List.mem_cons_self)
    · exact .inr (List.mem_cons_of_mem _ h)

/-- C81: the environment holds the agents that were assigned last. -/
theorem C81_attrs (bodies : List (List Stmt)) (n : Name) :
    (newEnv bodies).attrs.get? n = lastOf (executed bodies) n := by
  unfold newEnv
  rw [initEnv_attrs, get_foldSet]
  cases lastOf (executed bodies) n <;> rfl

theorem snoc_ind {α : Type} {P : List α → Prop} (h0 : P []) (h1 : ∀ l x, P l → P (l ++ [x])) (l : List α) :
    P l := by
  rw [← List.reverse_reverse l]
  induction l.reverse with
  | nil => exact h0
  | cons x l ih => rw [List.reverse_cons]; exact h1 _ _ ih

theorem names_fold (d : Dict Name Nat) (nm : Nat → Name) (a : Nat) (l : List Name)
    (hl : l.Pairwise (· < ·)) :
    let r := l.foldl (fun nm n =>
      match d.get? n with
      | some a => fun b => if b = a then n else nm b
      | none => nm) nm
    (r a ∈ l ∧ d.get? (r a) = some a ∧ ∀ m ∈ l, d.get? m = some a → m = r a ∨ m < r a) ∨
      (r a = nm a ∧ ∀ m ∈ l, d.get? m ≠ some a) := by
  induction l using snoc_ind with
  | h0 => exact .inr ⟨rfl, fun m hm => nomatch hm⟩
  | h1 l x ih =>
    rw [List.pairwise_append] at hl
    have ih := ih hl.1
    simp only [List.foldl_append, List.foldl_cons, List.foldl_nil] at ih ⊢
    by_cases hx : d.get? x = some a
    · left
      simp only [hx, if_true]
      refine ⟨by simp, trivial, fun m hm _ => ?_⟩
      rcases List.mem_append.1 hm with hm | hm
      · exact .inr (hl.2.2 m hm x (by simp))
      · exact .inl (by simpa using hm)
    · have hr : ∀ r : Nat → Name, (match d.get? x with
          | some a => fun b => if b = a then x else r b
          | none => r) a = r a := by
        intro r
        cases hd : d.get? x with
        | none => rfl
        | some b =>
          simp only
          rw [if_neg]
          rintro rfl
          exact hx hd
      rw [hr]
      rcases ih with ⟨h1, h2, h3⟩ | ⟨h1, h2⟩
      · refine .inl ⟨List.mem_append_left _ h1, h2, fun m hm hma => ?_⟩
        rcases List.mem_append.1 hm with hm | hm
        · exact h3 m hm hma
        · simp only [List.mem_singleton] at hm
          subst hm
          exact absurd hma hx
      · refine .inr ⟨h1, fun m hm hma => ?_⟩
        rcases List.mem_append.1 hm with hm | hm
        · exact h2 m hm hma
        · simp only [List.mem_singleton] at hm
          subst hm
          exact hx hma

theorem config_names (s : EnvSt) (a : Nat) :
    (s.attrs.get? ((config s).names a) = some a ∧
      ∀ m, s.attrs.get? m = some a → m = (config s).names a ∨ m < (config s).names a) ∨
    ((config s).names a = s.names a ∧ ∀ m, s.attrs.get? m ≠ some a) := by
  have hmem : ∀ m, s.attrs.get? m = some a → m ∈ agentNames s := by
    intro m hm
    unfold agentNames
    rw [mem_sort]
    exact List.mem_map_of_mem (f := Prod.fst) (Dict.mem_of_get? hm)
  rcases names_fold s.attrs s.names a (agentNames s) (sorted_sort _) with ⟨_, h2, h3⟩ | ⟨h1, h2⟩
  · exact .inl ⟨h2, fun m hm => h3 m (hmem m hm) hm⟩
  · exact .inr ⟨h1, fun m hm => h2 m (hmem m hm) hm⟩

/-- C81: after the constructor of an environment, the drivers and monitors of every agent that it holds
have the name of an attribute that holds the agent, the greatest one if there are several. -/
theorem C81_named (bodies : List (List Stmt)) (hb : bodies ≠ []) (n : Name) (a : Nat)
    (h : Holds bodies n a) :
    Holds bodies ((newEnv bodies).names a) a ∧
      ∀ m, Holds bodies m a → m = (newEnv bodies).names a ∨ m < (newEnv bodies).names a := by
  unfold Holds at *
  simp only [← C81_attrs] at *
  cases bodies with
  | nil => exact absurd rfl hb
  | cons body rest =>
    obtain ⟨s, hs⟩ : ∃ s, newEnv (body :: rest) = config s := ⟨_, rfl⟩
    rw [hs] at h ⊢
    rcases config_names s a with h1 | ⟨_, h2⟩
    · exact h1
    · exact absurd h (h2 n)

/-- C81: an agent that is held by one attribute has the name of that attribute. -/
theorem C81_unique (bodies : List (List Stmt)) (hb : bodies ≠ []) (n : Name) (a : Nat)
    (h : Holds bodies n a) (hu : ∀ m, Holds bodies m a → m = n) : (newEnv bodies).names a = n :=
  hu _ (C81_named bodies hb n a h).1

/-- C81: different agents of an environment have different names. -/
theorem C81_distinct (bodies : List (List Stmt)) (hb : bodies ≠ []) (n m : Name) (a b : Nat)
    (ha : Holds bodies n a) (hb' : Holds bodies m b) (hn : (newEnv bodies).names a = (newEnv bodies).names b) :
    a = b := by
  have h1 := (C81_named bodies hb n a ha).1
  have h2 := (C81_named bodies hb m b hb').1
  unfold Holds at h1 h2
  rw [hn, h2] at h1
  exact (Option.some.inj h1).symm

theorem body_names (rest : List (List Stmt)) (a : Nat)
    (ih : ∀ s, (initEnv rest s).names a = s.names a ∨
      ((initEnv rest s).names a, a) ∈ s.attrs ∨ ((initEnv rest s).names a, a) ∈ executed rest)
    (body : List Stmt) (s : EnvSt) :
    let r := body.foldl (fun s st =>
      match st with
      | .assign n a => { s with attrs := s.attrs.set n a }
      | .super => initEnv rest s) s
    r.names a = s.names a ∨ (r.names a, a) ∈ s.attrs ∨
    (r.names a, a) ∈ body.flatMap fun st =>
      match st with
      | .assign n a => [(n, a)]
      | .super => executed rest := by
  induction body generalizing s with
  | nil => exact .inl rfl
  | cons st body ihb =>
    simp only [List.foldl_cons, List.flatMap_cons, List.mem_append] at ihb ⊢
    cases st with
    | assign n b =>
      rcases ihb { s with attrs := s.attrs.set n b } with h | h | h
      · exact .inl h
      · rcases mem_set h with h | h
        · exact .inr (.inl h)
        · exact .inr (.inr (.inl (by simpa using h)))
      · exact .inr (.inr (.inr h))
    | super =>
      have hat := initEnv_attrs rest s
      rcases ihb (initEnv rest s) with h | h | h
      · simp only at h ⊢
        rcases ih s with h' | h' | h'
        · exact .inl (h.trans h')
        · exact .inr (.inl (by rw [h]; exact h'))
        · exact .inr (.inr (.inl (by rw [h]; exact h')))
      · simp only at h ⊢
        rw [hat] at h
        rcases mem_foldSet h with h | h
        · exact .inr (.inl h)
        · exact .inr (.inr (.inl h))
      · exact .inr (.inr (.inr h))

theorem initEnv_names (bodies : List (List Stmt)) (a : Nat) (s : EnvSt) :
    (initEnv bodies s).names a = s.names a ∨ ((initEnv bodies s).names a, a) ∈ s.attrs ∨
      ((initEnv bodies s).names a, a) ∈ executed bodies := by
  induction bodies generalizing s with
  | nil => exact .inl rfl
  | cons body rest ih =>
    have hb := body_names rest a ih body s
    have hat := body_attrs rest (initEnv_attrs rest) body s
    obtain ⟨r, hr⟩ : ∃ r, r = body.foldl (fun s st =>
      match st with
      | .assign n a => { s with attrs := s.attrs.set n a }
      | .super => initEnv rest s) s := ⟨_, rfl⟩
    have hd : initEnv (body :: rest) s = config r := by rw [hr]; rfl
    rw [hd]
    simp only at hb
    rw [← hr] at hb hat
    rcases config_names r a with ⟨h1, _⟩ | ⟨h1, _⟩
    · have := Dict.mem_of_get? h1
      rw [hat] at this
      rcases mem_foldSet this with h | h
      · exact .inr (.inl h)
      · exact .inr (.inr h)
    · rw [h1]
      exact hb

/-- C81: the name of an agent is a name under which it was assigned, or empty. -/
theorem C81_only (bodies : List (List Stmt)) (a : Nat) :
    (newEnv bodies).names a = [] ∨ ((newEnv bodies).names a, a) ∈ executed bodies := by
  rcases initEnv_names bodies a ⟨[], fun _ => []⟩ with h | h | h
  · exact .inl h
  · cases h
  · exact .inr h

/-- An `__init__` of two classes: the derived class assigns before and after `super().__init__()`. -/
def twoClasses : List (List Stmt) :=
  [[.assign "b".toList 1, .super, .assign "d".toList 2], [.assign "b".toList 0, .assign "a".toList 0]]

example : Holds twoClasses "a".toList 0 ∧ Holds twoClasses "b".toList 0 ∧ Holds twoClasses "d".toList 2 ∧
    (newEnv twoClasses).names 0 = "b".toList ∧ (newEnv twoClasses).names 2 = "d".toList := by
  unfold Holds
  decide +kernel

end Toffee.Agent
