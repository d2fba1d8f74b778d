import Verif.Model.Config

/-! The parts of an instance of a bundle class (`toffee/bundle.py`): C115. -/

namespace Toffee.Config

/-! ## Specification -/

/-- The bundle at a path below an object. -/
def Obj.at (o : Obj) : List Label → Option Obj
  | [] => some o
  | l :: q =>
    match o.parts.find l with
    | some o' => o'.at q
    | none => none

/-- The bundle at a path as it was written in the body of the class. -/
def Cls.written (c : Cls) : List Label → Option Obj
  | [] => none
  | l :: q =>
    match c.parts.find l with
    | some o => o.at q
    | none => none

/-- A sub-bundle that was made from its class, given a connect method (and signals, as
`from_prefix(p, dut)` does), and not changed otherwise. -/
def Plain (o : Obj) : Prop :=
  ∃ o', create o.cls = some o' ∧ o = .mk o'.cls o.method o'.mode o'.name o.signals o'.parts

def Parts.toList : Parts → List (Label × Obj)
  | .nil => []
  | .cons l o rest => (l, o) :: rest.toList

/-- A sub-bundle or the first element of a bundle list. -/
def Label.called : Label → Prop
  | .sub _ => True
  | .elem _ i => i = 0

/-- The `__init__` of some class that is called for an instance needs arguments. -/
inductive Needs : Cls → Prop
  | here (signals : List Name) (parts : Parts) : Needs (.mk true signals parts)
  | part {args : Bool} {signals : List Name} {parts : Parts} {l : Label} {o : Obj} :
      (l, o) ∈ parts.toList → l.called → Needs o.cls → Needs (.mk args signals parts)

/-! ## Lemmas -/

theorem recreate_eq (o : Obj) : recreate o =
    (create o.cls).map fun b => .mk b.cls o.method b.mode b.name o.signals b.parts := by
  obtain ⟨c, m, w, n, s, p⟩ := o
  simp only [recreate, Obj.cls, Obj.method, Obj.signals]
  cases create c with
  | none => rfl
  | some b => obtain ⟨c', m', w', n', s', p'⟩ := b; rfl

theorem recreate_isNone (o : Obj) : recreate o = none ↔ create o.cls = none := by
  rw [recreate_eq, Option.map_eq_none_iff]

theorem create_some {args : Bool} {signals : List Name} {parts : Parts} {o : Obj}
    (h : create (.mk args signals parts) = some o) :
    args = false ∧ ∃ ps, recreateAll parts = some ps ∧
      o = .mk (.mk args signals parts) (.pre []) none [] signals ps := by
  rw [create] at h
  cases args with
  | true => cases h
  | false =>
    refine ⟨rfl, ?_⟩
    rw [if_neg (by decide), Option.map_eq_some_iff] at h
    obtain ⟨ps, h1, h2⟩ := h
    exact ⟨ps, h1, h2.symm⟩

theorem create_cls {c : Cls} {o : Obj} (h : create c = some o) :
    o.cls = c ∧ o.mode = none ∧ o.name = [] := by
  obtain ⟨a1, a2, a3⟩ := c
  obtain ⟨_, _, _, rfl⟩ := create_some h
  exact ⟨rfl, rfl, rfl⟩

theorem mem_of_find : ∀ (q : Parts) (l : Label) (o : Obj), q.find l = some o → (l, o) ∈ q.toList
  | .nil, l, o, h => by cases h
  | .cons l' o' rest, l, o, h => by
    rw [Parts.find] at h
    split at h
    · rename_i hl
      cases h
      subst hl
      exact List.mem_cons_self
    · exact List.mem_cons_of_mem _ (mem_of_find rest l o h)

/-- Sub-bundles are made anew, elements of lists stay. -/
theorem find_recreateAll : ∀ (ps ps' : Parts), recreateAll ps = some ps' → ∀ l,
    ps'.find l = match l, ps.find l with
      | .sub _, some o => recreate o
      | _, x => x
  | .nil, ps', h, l => by
    rw [recreateAll] at h
    cases h
    cases l <;> rfl
  | .cons (.sub n) o rest, ps', h, l => by
    rw [recreateAll] at h
    split at h
    · rename_i o' rest' h1 h2
      cases h
      by_cases hl : Label.sub n = l
      · subst hl
        simp only [Parts.find, if_true]
        exact h1.symm
      · simp only [Parts.find, if_neg hl]
        exact find_recreateAll rest rest' h2 l
    · cases h
  | .cons (.elem n 0) o rest, ps', h, l => by
    rw [recreateAll] at h
    split at h
    · rename_i o' rest' h1 h2
      cases h
      by_cases hl : Label.elem n 0 = l
      · subst hl
        simp only [Parts.find, if_true]
      · simp only [Parts.find, if_neg hl]
        exact find_recreateAll rest rest' h2 l
    · cases h
  | .cons (.elem n (i + 1)) o rest, ps', h, l => by
    rw [recreateAll, Option.map_eq_some_iff] at h
    obtain ⟨rest', h2, h3⟩ := h
    subst h3
    by_cases hl : Label.elem n (i + 1) = l
    · subst hl
      simp only [Parts.find, if_true]
    · simp only [Parts.find, if_neg hl]
      exact find_recreateAll rest rest' h2 l

theorem recreateAll_none_of {ps : Parts} {l : Label} {o : Obj} (h : (l, o) ∈ ps.toList) (hl : l.called)
    (ho : create o.cls = none) : recreateAll ps = none := by
  match ps with
  | .nil => cases h
  | .cons (.sub n) o' rest =>
    rw [recreateAll]
    rcases List.mem_cons.1 h with h | h
    · cases h
      rw [(recreate_isNone o).2 ho]
    · rw [recreateAll_none_of h hl ho]
      cases recreate o' <;> rfl
  | .cons (.elem n 0) o' rest =>
    rw [recreateAll]
    rcases List.mem_cons.1 h with h | h
    · cases h
      rw [(recreate_isNone o).2 ho]
    · rw [recreateAll_none_of h hl ho]
      cases recreate o' <;> rfl
  | .cons (.elem n (i + 1)) o' rest =>
    rw [recreateAll]
    rcases List.mem_cons.1 h with h | h
    · cases h
      cases hl
    · rw [recreateAll_none_of h hl ho]
      rfl

mutual
theorem needs_of_create : ∀ c : Cls, create c = none → Needs c
  | .mk args signals parts, h => by
    rw [create] at h
    cases args with
    | true => exact .here _ _
    | false =>
      rw [if_neg (by decide), Option.map_eq_none_iff] at h
      obtain ⟨l, o, h1, h2, h3⟩ := needs_of_recreateAll parts h
      exact .part h1 h2 h3
theorem needs_of_recreate : ∀ o : Obj, recreate o = none → Needs o.cls
  | .mk c m w n s p, h => by
    rw [recreate, Option.map_eq_none_iff] at h
    exact needs_of_create c h
theorem needs_of_recreateAll : ∀ ps : Parts, recreateAll ps = none →
    ∃ l o, (l, o) ∈ ps.toList ∧ l.called ∧ Needs o.cls
  | .nil, h => by rw [recreateAll] at h; cases h
  | .cons (.sub n) o rest, h => by
    rw [recreateAll] at h
    cases h1 : recreate o with
    | none => exact ⟨_, o, List.mem_cons_self, trivial, needs_of_recreate o h1⟩
    | some o' =>
      cases h2 : recreateAll rest with
      | none =>
        obtain ⟨l, x, hx, hl, hn⟩ := needs_of_recreateAll rest h2
        exact ⟨l, x, List.mem_cons_of_mem _ hx, hl, hn⟩
      | some rest' => rw [h1, h2] at h; cases h
  | .cons (.elem n 0) o rest, h => by
    rw [recreateAll] at h
    cases h1 : recreate o with
    | none => exact ⟨_, o, List.mem_cons_self, rfl, needs_of_recreate o h1⟩
    | some o' =>
      cases h2 : recreateAll rest with
      | none =>
        obtain ⟨l, x, hx, hl, hn⟩ := needs_of_recreateAll rest h2
        exact ⟨l, x, List.mem_cons_of_mem _ hx, hl, hn⟩
      | some rest' => rw [h1, h2] at h; cases h
  | .cons (.elem n (i + 1)) o rest, h => by
    rw [recreateAll, Option.map_eq_none_iff] at h
    obtain ⟨l, x, hx, hl, hn⟩ := needs_of_recreateAll rest h
    exact ⟨l, x, List.mem_cons_of_mem _ hx, hl, hn⟩
end

/-! ## C115 -/

/-- **C115.** An instance can be made exactly if no `__init__` called on the way needs arguments. -/
theorem C115_raises_iff (c : Cls) : create c = none ↔ Needs c := by
  refine ⟨needs_of_create c, ?_⟩
  intro h
  induction h with
  | here signals parts => rw [create]; rfl
  | part h1 h2 _ ih =>
    rw [create, recreateAll_none_of h1 h2 ih]
    split <;> rfl

/-- **C115.** The sub-bundles of an instance have the connect method and the signals written in the class
body; bundle list elements are the very ones of the class body, at every depth. -/
theorem C115_direct (c : Cls) (o : Obj) (h : create c = some o) :
    (∀ n w, c.written [.sub n] = some w →
      ∃ x, o.at [.sub n] = some x ∧ x.method = w.method ∧ x.signals = w.signals ∧ x.cls = w.cls) ∧
    (∀ n, c.written [.sub n] = none → o.at [.sub n] = none) ∧
    ∀ n i q, o.at (.elem n i :: q) = c.written (.elem n i :: q) := by
  obtain ⟨args, signals, parts⟩ := c
  obtain ⟨_, ps, hps, rfl⟩ := create_some h
  have hf := find_recreateAll parts ps hps
  refine ⟨?_, ?_, ?_⟩
  · intro n w hw
    have hw : (match parts.find (.sub n) with | some o => some o | none => none) = some w := hw
    have hx := hf (.sub n)
    cases hp : parts.find (.sub n) with
    | none => rw [hp] at hw; cases hw
    | some o =>
      rw [hp] at hw hx
      cases hw
      have hx : ps.find (.sub n) = recreate w := hx
      cases hr : create w.cls with
      | none =>
        have hn := recreateAll_none_of (mem_of_find _ _ _ hp) trivial hr
        rw [hn] at hps
        cases hps
      | some b =>
        rw [recreate_eq, hr] at hx
        refine ⟨.mk b.cls w.method b.mode b.name w.signals b.parts, ?_, rfl, rfl, ?_⟩
        · show (match ps.find (.sub n) with | some o' => some o' | none => none) = _
          rw [hx]; rfl
        · exact (create_cls hr).1
  · intro n hw
    have hw : (match parts.find (.sub n) with | some o => some o | none => none) = none := hw
    have hx := hf (.sub n)
    cases hp : parts.find (.sub n) with
    | none =>
      rw [hp] at hx
      show (match ps.find (.sub n) with | some o' => some o' | none => none) = _
      rw [hx]
    | some o => rw [hp] at hw; cases hw
  · intro n i q
    have hx := hf (.elem n i)
    show (match ps.find (.elem n i) with | some o' => o'.at q | none => none) =
      (match parts.find (.elem n i) with | some o' => o'.at q | none => none)
    rw [hx]

/-- **C115.** What lies deeper in a sub-bundle, and its write mode and name, are as in any instance of its
class, whatever the class body says. -/
theorem C115_deep (c : Cls) (o : Obj) (h : create c = some o) (n : Name) (w : Obj)
    (hw : c.written [.sub n] = some w) :
    ∃ b, create w.cls = some b ∧ (∀ l q, o.at (.sub n :: l :: q) = b.at (l :: q)) ∧
      ∀ x, o.at [.sub n] = some x → x.mode = none ∧ x.name = [] := by
  obtain ⟨args, signals, parts⟩ := c
  obtain ⟨_, ps, hps, rfl⟩ := create_some h
  have hx := find_recreateAll parts ps hps (.sub n)
  have hw : (match parts.find (.sub n) with | some o => some o | none => none) = some w := hw
  cases hp : parts.find (.sub n) with
  | none => rw [hp] at hw; cases hw
  | some o =>
    rw [hp] at hw hx
    cases hw
    have hx : ps.find (.sub n) = recreate w := hx
    cases hr : create w.cls with
    | none =>
      have hn := recreateAll_none_of (mem_of_find _ _ _ hp) trivial hr
      rw [hn] at hps
      cases hps
    | some b =>
      rw [recreate_eq, hr] at hx
      have hx : ps.find (.sub n) = some (.mk b.cls w.method b.mode b.name w.signals b.parts) := hx
      refine ⟨b, rfl, ?_, ?_⟩
      · intro l q
        show (match ps.find (.sub n) with | some o' => o'.at (l :: q) | none => none) = _
        rw [hx]
        rfl
      · intro x hxx
        have hxx : (match ps.find (.sub n) with | some o' => some o' | none => none) = some x := hxx
        rw [hx] at hxx
        cases hxx
        exact (create_cls hr).2

/-- **C115 (partial).** If the sub-bundles in the class body were made by `cls()`, `from_prefix`,
`from_regex` or `from_dict` and then only given a connect method, every instance is at every path exactly
as written.  (Missing: sub-bundles that were changed further, see the violations.) -/
theorem C115_plain_partial (c : Cls) (o : Obj) (h : create c = some o)
    (hp : ∀ n w, c.written [.sub n] = some w → Plain w) (l : Label) (q : List Label) :
    o.at (l :: q) = c.written (l :: q) := by
  cases l with
  | elem n i => exact (C115_direct c o h).2.2 n i q
  | sub n =>
    obtain ⟨args, signals, parts⟩ := c
    obtain ⟨_, ps, hps, rfl⟩ := create_some h
    have hx := find_recreateAll parts ps hps (.sub n)
    show (match ps.find (.sub n) with | some o' => o'.at q | none => none) =
      (match parts.find (.sub n) with | some o' => o'.at q | none => none)
    cases hf : parts.find (.sub n) with
    | none => rw [hf] at hx; rw [hx]
    | some w =>
      rw [hf] at hx
      obtain ⟨b, hb, he⟩ := hp n w (by
        show (match parts.find (.sub n) with | some o => some o | none => none) = some w
        rw [hf])
      have hx : ps.find (.sub n) = recreate w := hx
      rw [recreate_eq, hb] at hx
      rw [hx, Option.map_some, ← he]

/-- A class with one sub-bundle in its body. -/
def oneSub (n : Name) (w : Obj) : Cls := .mk false [] (.cons (.sub n) w .nil)

/-- **C115 (violated).** Whatever the class body does to a part of a sub-bundle, to its write mode or to
its name has no effect on any instance. -/
theorem C115_nested_violated (n : Name) (w : Obj) (f : Obj → Obj) (l : Label) (md : Mode) (nm : Name)
    (p : List Label) (hp : p ≠ []) :
    ((create (oneSub n (w.modify f l))).bind fun o => o.at p) = ((create (oneSub n w)).bind fun o => o.at p) ∧
    ((create (oneSub n (w.setMode md))).bind fun o => o.at p) = ((create (oneSub n w)).bind fun o => o.at p) ∧
    ((create (oneSub n (w.setName nm))).bind fun o => o.at p) =
      ((create (oneSub n w)).bind fun o => o.at p) := by
  have key : ∀ v : Obj, v.cls = w.cls → v.method = w.method → v.signals = w.signals →
      ((create (oneSub n v)).bind fun o => o.at p) = ((create (oneSub n w)).bind fun o => o.at p) := by
    intro v h1 h2 h3
    have hr : recreate v = recreate w := by
      rw [recreate_eq, recreate_eq, h1, h2, h3]
    have hall : recreateAll (.cons (.sub n) v .nil) = recreateAll (.cons (.sub n) w .nil) := by
      simp only [recreateAll, hr]
    unfold oneSub
    rw [create, create, hall]
    match p, hp with
    | l :: q, _ =>
      cases recreateAll (.cons (.sub n) w .nil) with
      | none => rfl
      | some x => rfl
  obtain ⟨c, m, md', nm', s, ps⟩ := w
  exact ⟨key _ rfl rfl rfl, key _ rfl rfl rfl, key _ rfl rfl rfl⟩

/-- **C115.** Element `i` of a bundle list is a new instance of the class, connected by the `i`-th name; there
are no other elements. -/
theorem C115_list_elements (attr : Name) (b : Obj) (i : Nat) (names : List Name) (ps : Parts)
    (h : bundleList attr b i names = some ps) (j : Nat) :
    ps.find (.elem attr j) = if j < i then none else (names[j - i]?).bind fun n => from' (.pre n) b.cls := by
  induction names generalizing i ps with
  | nil =>
    cases h
    split <;> simp [Parts.find]
  | cons n ns ih =>
    rw [bundleList] at h
    split at h
    · rename_i o rest h1 h2
      cases h
      rw [Parts.find, ih (i + 1) rest h2]
      by_cases e : i = j
      · subst e
        rw [if_pos rfl, if_neg (by omega)]
        simp [h1]
      · rw [if_neg (by simpa using e)]
        by_cases e2 : j < i
        · rw [if_pos e2, if_pos (by omega)]
        · rw [if_neg e2, if_neg (by omega), show j - i = (j - (i + 1)) + 1 by omega, List.getElem?_cons_succ]
    · cases h

/-- **C115 (violated).** `BundleList(bundle, …)` with an instance ignores everything but its class: its
connect method, its signals (`from_prefix(p, dut)`), its mode, what was set in its parts. -/
theorem C115_list_violated (attr : Name) (a b : Obj) (h : a.cls = b.cls) (i : Nat) (names : List Name) :
    bundleList attr a i names = bundleList attr b i names := by
  induction names generalizing i with
  | nil => rfl
  | cons n ns ih => rw [bundleList, bundleList, h, ih]

/-! ### Concrete classes -/

/-- `class Inner(Bundle): x = Signal()`. -/
def inner : Cls := .mk false ["x".toList] .nil

/-- `Inner.from_prefix("i_")`. -/
def innerObj : Obj := .mk inner (.pre "i_".toList) none [] ["x".toList] .nil

example : from' (.pre "i_".toList) inner = some innerObj := rfl

/-- `class Mid(Bundle): inner = Inner.from_prefix("i_")`. -/
def mid : Cls := .mk false [] (.cons (.sub "inner".toList) innerObj .nil)

/-- `Mid.from_prefix("m_")`. -/
def midObj : Obj := .mk mid (.pre "m_".toList) none [] [] (.cons (.sub "inner".toList) innerObj .nil)

example : from' (.pre "m_".toList) mid = some midObj := rfl

/-- `class Top(Bundle): mid = Mid.from_prefix("m_")`. -/
def top : Cls := oneSub "mid".toList midObj

example : Plain midObj := ⟨_, rfl, rfl⟩

/-- An instance of `Top` is as written. -/
example : ∃ o, create top = some o ∧
    o.at [.sub "mid".toList, .sub "inner".toList] = some innerObj ∧
    top.written [.sub "mid".toList, .sub "inner".toList] = some innerObj := ⟨_, rfl, rfl, rfl⟩

/-- `class Top2(Bundle): mid = Mid.from_prefix("m_"); mid.inner.set_prefix("j_");
mid.set_write_mode_as_rise()`. -/
def top2 : Cls := oneSub "mid".toList
  ((midObj.modify (Obj.setMethod (.pre "j_".toList)) (.sub "inner".toList)).setMode .rise)

/-- The class body says `j_` and `Rise`; the instance has `i_` and no mode. -/
theorem C115_lost_violated : ∃ o, create top2 = some o ∧
    (top2.written [.sub "mid".toList, .sub "inner".toList]).map (·.method) = some (.pre "j_".toList) ∧
    (o.at [.sub "mid".toList, .sub "inner".toList]).map (·.method) = some (.pre "i_".toList) ∧
    (top2.written [.sub "mid".toList]).map (·.mode) = some (some .rise) ∧
    (o.at [.sub "mid".toList]).map (·.mode) = some none := ⟨_, rfl, rfl, rfl, rfl, rfl⟩

/-- `BundleList(Inner.from_regex("r"), "a#_", 1)`: the regular expression is lost. -/
example : (bundleList "v".toList (innerObj.setMethod (.regex "r".toList)) 0 ["a0_".toList]).map
    (fun ps => (ps.find (.elem "v".toList 0)).map (·.method)) = some (some (.pre "a0_".toList)) := rfl

/-- `class Arg(Bundle): def __init__(self, n): …` and `class Has(Bundle): a = Arg(3)`: `Has()` raises. -/
example : Needs (oneSub "a".toList (.mk (.mk true [] .nil) (.pre []) none [] [] .nil)) :=
  .part (List.mem_cons_self) trivial (.here _ _)

end Toffee.Config
