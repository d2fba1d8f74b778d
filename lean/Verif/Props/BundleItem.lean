import Verif.Model.BundleItem

/-! C128: `b[path]` for the paths that `all_signals` gives. -/

namespace Toffee.Props.BundleItem

open Toffee.Bundle

/-! ### Specification -/

/-- A name without dots and brackets. -/
def Plain (n : Name) : Prop := n ≠ [] ∧ '.' ∉ n ∧ '[' ∉ n

/-- The names of the children. -/
def names : Kids → List Name
  | .nil => []
  | .cons (.sub n) _ ks => n :: names ks
  | .cons (.elem n _) _ ks => n :: names ks

/-- The attributes of the bundle itself have names as Python's identifiers; its signals have different names. -/
structure Named (oth : Name → Bool) (b : Bundle) : Prop where
  signals : ∀ c ∈ b.lvl.signals, Plain c.name
  lists : ∀ l ∈ b.lvl.lists, Plain l.1
  kids : ∀ n ∈ names b.kids, Plain n
  others : ∀ n, oth n = true → Plain n
  differ : (b.lvl.signals.map Cell.name).Nodup

/-- What `b[path]` is to give for an entry of `all_signals`. -/
def wanted : Slot → Option Item
  | .absent => none
  | s => some (.signal s)

/-! ### Proof -/

theorem mem_appended (level s : Name) (h : level ≠ []) : '.' ∈ appended level s := by
  unfold appended
  rw [if_neg h]
  simp

theorem appended_ne (level s : Name) (h : level ≠ []) : appended level s ≠ [] := by
  intro e
  have := mem_appended level s h
  rw [e] at this
  simp at this

theorem listSlots_mem (level name : Name) (es : List (Name × Slot)) : ∀ (i : Nat), ∀ q ∈ listSlots level name i es, '[' ∈ q.1 := by
  induction es with
  | nil => intro i q h; simp [listSlots] at h
  | cons e es ih =>
    intro i q h
    rcases List.mem_cons.1 h with rfl | h
    · show '[' ∈ appended level (indexed name i)
      unfold appended indexed
      split <;> simp
    · exact ih _ q h

theorem listSlots_dot (level name : Name) (hl : level ≠ []) (es : List (Name × Slot)) :
    ∀ (i : Nat), ∀ q ∈ listSlots level name i es, '.' ∈ q.1 := by
  induction es with
  | nil => intro i q h; simp [listSlots] at h
  | cons e es ih =>
    intro i q h
    rcases List.mem_cons.1 h with rfl | h
    · exact mem_appended _ _ hl
    · exact ih _ q h

mutual
theorem allSignals_dot : ∀ (b : Bundle) (level : Name), level ≠ [] → ∀ q ∈ Bundle.allSignals level b, '.' ∈ q.1
  | .mk _ lv _ ks, level, hl, q, h => by
    rw [Bundle.allSignals] at h
    rcases List.mem_append.1 h with h | h
    · rcases List.mem_append.1 h with h | h
      · obtain ⟨c, _, rfl⟩ := List.mem_map.1 h
        exact mem_appended _ _ hl
      · obtain ⟨l, _, h⟩ := List.mem_flatMap.1 h
        exact listSlots_dot _ _ hl _ _ q h
    · exact kidsSignals_dot ks level hl q h
theorem kidsSignals_dot : ∀ (ks : Kids) (level : Name), level ≠ [] → ∀ q ∈ Kids.allSignals level ks, '.' ∈ q.1
  | .nil, _, _, q, h => by simp [Kids.allSignals] at h
  | .cons l b ks, level, hl, q, h => by
    rw [Kids.allSignals] at h
    rcases List.mem_append.1 h with h | h
    · exact allSignals_dot b _ (appended_ne _ _ hl) q h
    · exact kidsSignals_dot ks level hl q h
end

theorem kids_dot : ∀ (ks : Kids), (∀ n ∈ names ks, Plain n) → ∀ q ∈ Kids.allSignals [] ks, '.' ∈ q.1
  | .nil, _, q, h => by simp [Kids.allSignals] at h
  | .cons l b ks, hn, q, h => by
    rw [Kids.allSignals] at h
    rcases List.mem_append.1 h with h | h
    · refine allSignals_dot b _ ?_ q h
      cases l with
      | sub n => exact (hn n (by simp [names])).1
      | elem n i => simp [appended, Label.text, indexed]
    · refine kids_dot ks (fun n hm => hn n ?_) q h
      cases l <;> simp [names, hm]

theorem attr_none (key : Name) : ∀ (ks : Kids), key ∉ names ks → ks.attr key = none
  | .nil, _ => rfl
  | .cons (.sub n) b ks, h => by
    rw [Kids.attr, if_neg (by rintro rfl; simp [names] at h)]
    exact attr_none key ks (by intro e; simp [names, e] at h)
  | .cons (.elem n i) b ks, h => by
    rw [Kids.attr, if_neg (by rintro rfl; simp [names] at h)]
    exact attr_none key ks (by intro e; simp [names, e] at h)

/-- There is nothing under a key with a dot or a bracket. -/
theorem item_none {oth : Name → Bool} {b : Bundle} (h : Named oth b) {key : Name} (hk : ¬ Plain key) :
    b.item oth key = none := by
  have h1 : b.lvl.signals.find? (fun c => c.name == key) = none := by
    rw [List.find?_eq_none]
    intro c hc e
    exact hk ((beq_iff_eq.1 e) ▸ h.signals c hc)
  have h2 : b.lvl.lists.find? (fun l => l.1 == key) = none := by
    rw [List.find?_eq_none]
    intro l hl e
    exact hk ((beq_iff_eq.1 e) ▸ h.lists l hl)
  have h3 : b.kids.attr key = none := attr_none key b.kids fun e => hk (h.kids key e)
  have h4 : oth key = false := by
    cases e : oth key with
    | false => rfl
    | true => exact absurd (h.others key e) hk
  unfold Bundle.item
  rw [h1, h2, h3, h4]
  rfl

theorem find_cell {key : Name} : ∀ {cs : List Cell}, (cs.map Cell.name).Nodup → ∀ c ∈ cs, c.name = key →
    cs.find? (fun c => c.name == key) = some c := by
  intro cs
  induction cs with
  | nil => intro _ c h; simp at h
  | cons c' cs ih =>
    intro hn c hc e
    rw [List.map_cons, List.nodup_cons] at hn
    rcases List.mem_cons.1 hc with rfl | hc
    · rw [List.find?_cons_of_pos (by simp [e])]
    · rw [List.find?_cons_of_neg, ih hn.2 c hc e]
      intro e'
      exact hn.1 (List.mem_map.2 ⟨c, hc, by rw [e, beq_iff_eq.1 e']⟩)

theorem attr_signal {key : Name} {s : Slot} : ∀ (ks : Kids), ks.attr key ≠ some (.signal s)
  | .nil => by simp [Kids.attr]
  | .cons (.sub n) b ks => by
    rw [Kids.attr]
    split
    · simp
    · exact attr_signal ks
  | .cons (.elem n i) b ks => by
    rw [Kids.attr]
    split
    · simp
    · exact attr_signal ks

/-! ### Theorems -/

/-- **C128, in part.** The signals of the bundle itself are found under the paths `all_signals` gives them, that is
their names.  Missing: the signals in lists and in sub-bundles. -/
theorem C128_level_partial {oth : Name → Bool} {b : Bundle} (h : Named oth b) (c : Cell) (hc : c ∈ b.lvl.signals) :
    (c.name, c.slot) ∈ Bundle.allSignals [] b ∧ b.item oth c.name = wanted c.slot := by
  constructor
  · obtain ⟨r, lv, cl, ks⟩ := b
    rw [Bundle.allSignals]
    exact List.mem_append_left _ (List.mem_append_left _ (List.mem_map.2 ⟨c, hc, rfl⟩))
  · unfold Bundle.item
    rw [find_cell h.differ c hc rfl]
    show (if c.slot = .absent then none else some (Item.signal c.slot)) = _
    cases c.slot <;> rfl

/-- **C128, in part.** If the bundle has neither signal lists nor sub-bundles, `b[path]` is right for all entries
of `all_signals`. -/
theorem C128_flat_partial {oth : Name → Bool} {b : Bundle} (h : Named oth b) (hl : b.lvl.lists = [])
    (hk : b.kids = .nil) (q : Name × Slot) (hq : q ∈ Bundle.allSignals [] b) : b.item oth q.1 = wanted q.2 := by
  obtain ⟨r, lv, cl, ks⟩ := b
  cases hk
  have hl : lv.lists = [] := hl
  rw [Bundle.allSignals, hl] at hq
  simp only [List.flatMap_nil, List.append_nil, Kids.allSignals] at hq
  obtain ⟨c, hc, rfl⟩ := List.mem_map.1 hq
  exact (C128_level_partial h c hc).2

/-- **C128, violated.** No signal of a list or of a sub-bundle, at any depth, is found under the path that
`all_signals` gives it: `b[path]` is `None`, without an exception. -/
theorem C128_nested_violated {oth : Name → Bool} {b : Bundle} (h : Named oth b) (q : Name × Slot)
    (hq : q ∈ Bundle.allSignals [] b) (hn : ∀ c ∈ b.lvl.signals, c.name ≠ q.1) : b.item oth q.1 = none := by
  refine item_none h fun hp => ?_
  obtain ⟨r, lv, cl, ks⟩ := b
  rw [Bundle.allSignals] at hq
  rcases List.mem_append.1 hq with hq | hq
  · rcases List.mem_append.1 hq with hq | hq
    · obtain ⟨c, hc, rfl⟩ := List.mem_map.1 hq
      exact hn c hc rfl
    · obtain ⟨l, _, hq⟩ := List.mem_flatMap.1 hq
      exact hp.2.2 (listSlots_mem _ _ _ _ q hq)
  · exact hp.2.1 (kids_dot ks h.kids q hq)

/-- **C128.** Nothing else looks like a signal: what `b[key]` gives as a signal is an entry of `all_signals`. -/
theorem C128_only {oth : Name → Bool} {b : Bundle} (key : Name) (s : Slot) (h : b.item oth key = some (.signal s)) :
    (key, s) ∈ Bundle.allSignals [] b := by
  obtain ⟨r, lv, cl, ks⟩ := b
  unfold Bundle.item at h
  cases h1 : (Bundle.mk r lv cl ks).lvl.signals.find? (fun c => c.name == key) with
  | some c =>
    rw [h1] at h
    simp only at h
    split at h
    · cases h
    · cases h
      rw [Bundle.allSignals]
      refine List.mem_append_left _ (List.mem_append_left _ (List.mem_map.2 ⟨c, List.mem_of_find?_eq_some h1, ?_⟩))
      have := List.find?_some h1
      have e : c.name = key := by simpa using this
      rw [e]; rfl
  | none =>
    rw [h1] at h
    simp only at h
    split at h
    · cases h
    · split at h
      · rename_i i hi
        rw [h] at hi
        exact absurd hi (attr_signal _)
      · split at h <;> cases h

/-! ### Example: a signal `a`, connected, a list `v` and a sub-bundle `s` with a signal `c` -/

def inner : Bundle := .mk (.pre []) ⟨[⟨['c'], true, .pin 2⟩], []⟩ none .nil

def outer : Bundle :=
  .mk (.pre []) ⟨[⟨['a'], true, .pin 0⟩, ⟨['b'], false, .absent⟩], [(['v'], [(['x'], .pin 1)])]⟩ none
    (.cons (.sub ['s']) inner .nil)

def methods (n : Name) : Bool := n == "step".toList

example : Named methods outer where
  signals := by simp [outer, Bundle.lvl, Plain]
  lists := by simp [outer, Bundle.lvl, Plain]
  kids := by simp [outer, Bundle.kids, names, Plain]
  others := by
    intro n h
    rw [beq_iff_eq.1 (show (n == "step".toList) = true from h)]
    refine ⟨?_, ?_, ?_⟩ <;> decide
  differ := by simp [outer, Bundle.lvl]

example : Bundle.allSignals [] outer =
    [(['a'], .pin 0), (['b'], .absent), ("v[0]".toList, .pin 1), ("s.c".toList, .pin 2)] := by decide

example : outer.item methods ['a'] = some (.signal (.pin 0)) ∧ outer.item methods ['b'] = none ∧
    outer.item methods "v[0]".toList = none ∧ outer.item methods "s.c".toList = none ∧
    outer.item methods ['s'] = some (.sub inner) ∧ outer.item methods "step".toList = some .other := by
  refine ⟨rfl, rfl, rfl, rfl, rfl, rfl⟩

end Toffee.Props.BundleItem
