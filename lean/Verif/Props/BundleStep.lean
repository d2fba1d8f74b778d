import Verif.Props.BundleAgain
import Verif.Lemmas.BundleMsg
import Verif.Props.WriteMode
/-!
C75: `step` of a bound bundle.
-/

namespace Toffee.Bundle

open Toffee.WriteMode Toffee.Props.WriteMode

/-- The attribute of the `i`-th child is a sub-bundle (and not an element of a bundle list). -/
def Kids.isSub : Kids → Nat → Prop
  | .nil, _ => False
  | .cons l _ _, 0 => ∃ n, l = .sub n
  | .cons _ _ ks, i + 1 => Kids.isSub ks i

/-- The path goes through sub-bundles only. -/
def OnSubs : Bundle → List Nat → Prop
  | _, [] => True
  | b, i :: is => b.kids.isSub i ∧ ∃ k, b.kids.get i = some k ∧ OnSubs k is

/-- Some signal of the bundle itself, or of a bundle that is reached through sub-bundles, is
connected. -/
def Alive (b : Bundle) : Prop := ∃ is p q, OnSubs b is ∧ b.slotAt is p = some (.pin q)

/-! ### Lemmas -/

theorem connect_clock_iff (r : Rule) (lv : Level) (sigs : List Sig) (a : Acc)
    (ha : a.lvl.shape = lv.shape) :
    (sigs.foldl (connectOne r) a).clock.isSome = true ↔
      a.clock.isSome = true ∨ ∃ s ∈ sigs, (hit r lv s).isSome = true := by
  induction sigs generalizing a with
  | nil => simp
  | cons s ss ih =>
    rw [List.foldl_cons, ih (connectOne r a s) (connect_spec r lv [s] a ha).shape]
    rcases connectOne_cases r lv a s ha with ⟨hm, he⟩ | ⟨m, hm, hf, he⟩ | ⟨m, q, hm, hf, he⟩
    · have : hit r lv s = none := by simp [hit, hm]
      rw [he]; simp [this]
    · have : hit r lv s = none := by simp [hit, hm, hf]
      rw [he]; simp [this]
    · have : hit r lv s = some q := by simp [hit, hm, hf]
      rw [he]
      cases hc : a.clock <;> simp [this]

theorem level_alive (r : Rule) (lv : Level) (hf : ∀ p q, lv.slot p ≠ some (.pin q))
    (access : Bool) (sigs : List Sig) :
    (connect r lv none sigs).clock.isSome = true ↔
      ∃ p q, (missing access (connect r lv none sigs).connected
        (connect r lv none sigs).lvl).slot p = some (.pin q) := by
  have h0 : (∃ p q, (missing access (connect r lv none sigs).connected
        (connect r lv none sigs).lvl).slot p = some (.pin q)) ↔
      ∃ p q, (connect r lv none sigs).lvl.slot p = some (.pin q) := by
    cases access with
    | false => rw [missing_false]
    | true =>
      constructor
      · rintro ⟨p, q, h⟩
        exact ⟨p, q, by have := (level_flag r lv hf none sigs p q).1 h; rwa [missing_false] at this⟩
      · rintro ⟨p, q, h⟩
        exact ⟨p, q, (level_flag r lv hf none sigs p q).2 (by rwa [missing_false])⟩
  rw [h0]
  have hc := connect_spec r lv sigs { lvl := lv, clock := none } rfl
  have h1 := connect_clock_iff r lv sigs { lvl := lv, clock := none } rfl
  have h1 : (connect r lv none sigs).clock.isSome = true ↔ _ := h1
  rw [h1]
  constructor
  · rintro (h | ⟨s, hs, h⟩)
    · cases h
    · obtain ⟨p, hp⟩ := Option.isSome_iff_exists.1 h
      rcases hc.slot p with ⟨t, _, _, ht⟩ | ⟨hn, _⟩
      · exact ⟨p, t.pin, ht⟩
      · exact absurd hp (hn s hs)
  · rintro ⟨p, q, h⟩
    rcases hc.slot p with ⟨t, htm, ht, _⟩ | ⟨_, he⟩
    · exact .inr ⟨t, htm, by rw [ht]; rfl⟩
    · exact absurd (he.symm.trans h) (hf p q)

theorem alive_mk (r : Rule) (lv : Level) (c : Option Nat) (ks : Kids) :
    Alive (.mk r lv c ks) ↔ (∃ p q, lv.slot p = some (.pin q)) ∨
      ∃ i k, ks.isSub i ∧ ks.get i = some k ∧ Alive k := by
  constructor
  · rintro ⟨is, p, q, h1, h2⟩
    cases is with
    | nil => exact .inl ⟨p, q, h2⟩
    | cons i is =>
      obtain ⟨hs, k, hk, ho⟩ := h1
      have hk : ks.get i = some k := hk
      refine .inr ⟨i, k, hs, hk, is, p, q, ho, ?_⟩
      have h2 : (ks.get i).bind (fun k => k.slotAt is p) = _ := h2
      rwa [hk] at h2
  · rintro (⟨p, q, h⟩ | ⟨i, k, hs, hk, is, p, q, ho, h⟩)
    · exact ⟨[], p, q, trivial, h⟩
    · refine ⟨i :: is, p, q, ⟨hs, k, hk, ho⟩, ?_⟩
      show (ks.get i).bind (fun k => k.slotAt is p) = _
      rw [hk]; exact h

mutual
theorem bindList_alive (access : Bool) : ∀ (b : Bundle) (sigs : List Sig), b.Fresh → b.Unclocked →
    ((b.bindList access sigs).1.clock.isSome = true ↔ Alive (b.bindList access sigs).1)
  | .mk r lv c ks, sigs, hf, hu => by
    obtain ⟨hc, hu⟩ := hu
    subst hc
    rw [Bundle.bindList]
    show (Kids.bindList access ks (connect r lv none sigs).matching
      (connect r lv none sigs).clock).2.2.2.isSome = true ↔ _
    rw [kidsBind_alive access ks _ _ hf.2 hu, alive_mk, level_alive r lv hf.1 access]
theorem kidsBind_alive (access : Bool) : ∀ (ks : Kids) (sigs : List Sig) (c : Option Nat),
    ks.Fresh → ks.Unclocked →
    ((ks.bindList access sigs c).2.2.2.isSome = true ↔ c.isSome = true ∨
      ∃ i k, (ks.bindList access sigs c).1.isSub i ∧ (ks.bindList access sigs c).1.get i = some k ∧
        Alive k)
  | .nil, sigs, c, _, _ => by
    rw [Kids.bindList]
    constructor
    · exact .inl
    · rintro (h | ⟨i, k, h, _⟩)
      · exact h
      · exact h.elim
  | .cons l b ks, sigs, c, hf, hu => by
    have h1 := bindList_alive access b sigs hf.1 hu.1
    have h2 := kidsBind_alive access ks (b.bindList access sigs).2.1
      (parentClock l (b.bindList access sigs).1.clock c) hf.2 hu.2
    rw [Kids.bindList]
    refine h2.trans ?_
    have hp : (parentClock l (b.bindList access sigs).1.clock c).isSome = true ↔
        c.isSome = true ∨ ((∃ n, l = .sub n) ∧ Alive (b.bindList access sigs).1) := by
      rw [← h1]
      unfold parentClock
      cases l with
      | elem n i => simp
      | sub n =>
        cases hx : (b.bindList access sigs).1.clock with
        | none => simp
        | some e => simp
    rw [hp, or_assoc]
    apply or_congr_right
    constructor
    · rintro (⟨hl, ha⟩ | ⟨i, k, hs, hk, ha⟩)
      · exact ⟨0, _, hl, rfl, ha⟩
      · exact ⟨i + 1, k, hs, hk, ha⟩
    · rintro ⟨i, k, hs, hk, ha⟩
      cases i with
      | zero => cases hk; exact .inl ⟨hs, ha⟩
      | succ i => exact .inr ⟨i, k, hs, hk, ha⟩
end

theorem kidsBind_get (access : Bool) (e : Nat) : ∀ (ks : Kids) (sigs : List Sig) (c : Option Nat)
    (i : Nat) (k : Bundle), (∀ s ∈ sigs, s.event = e) →
    (ks.bindList access sigs c).1.get i = some k →
    ∃ k₀ sigs', ks.get i = some k₀ ∧ (∀ s ∈ sigs', s.event = e) ∧ k = (k₀.bindList access sigs').1
  | .nil, sigs, c, i, k, _, h => by rw [Kids.bindList] at h; cases h
  | .cons l b ks, sigs, c, i, k, hs, h => by
    rw [Kids.bindList] at h
    cases i with
    | zero => exact ⟨b, sigs, rfl, hs, (Option.some.inj h).symm⟩
    | succ i => exact kidsBind_get access e ks _ _ i k (rest_events access e b sigs hs) h

theorem unclocked_get : ∀ {ks : Kids} {i : Nat} {k : Bundle}, ks.Unclocked → ks.get i = some k →
    k.Unclocked
  | .nil, _, _, _, h => by cases h
  | .cons _ _ _, 0, _, hu, h => by cases h; exact hu.1
  | .cons _ _ _, _ + 1, _, hu, h => unclocked_get hu.2 h

theorem fresh_get : ∀ {ks : Kids} {i : Nat} {k : Bundle}, ks.Fresh → ks.get i = some k → k.Fresh
  | .nil, _, _, _, h => by cases h
  | .cons _ _ _, 0, _, hu, h => by cases h; exact hu.1
  | .cons _ _ _, _ + 1, _, hu, h => fresh_get hu.2 h

/-- Every bundle of a bound tree is a bound bundle. -/
theorem node_bindList (access : Bool) (e : Nat) {b n : Bundle} {path : List Nat} {sigs : List Sig}
    (hs : ∀ s ∈ sigs, s.event = e) (hf : b.Fresh) (hu : b.Unclocked)
    (h : node (b.bindList access sigs).1 path = some n) :
    ∃ (c : Bundle) (sigs' : List Sig), c.Fresh ∧ c.Unclocked ∧ (∀ s ∈ sigs', s.event = e) ∧
      n = (c.bindList access sigs').1 := by
  induction path generalizing b sigs with
  | nil => exact ⟨b, sigs, hf, hu, hs, (Option.some.inj h).symm⟩
  | cons i path ih =>
    rw [node, child_eq] at h
    obtain ⟨r, lv, c, ks⟩ := b
    rw [Bundle.bindList] at h
    have h : ((Kids.bindList access ks (connect r lv c sigs).matching
      (connect r lv c sigs).clock).1.get i).bind (fun c => node c path) = some n := h
    cases hk : (Kids.bindList access ks (connect r lv c sigs).matching
        (connect r lv c sigs).clock).1.get i with
    | none => rw [hk] at h; cases h
    | some k =>
      rw [hk] at h
      obtain ⟨k₀, sigs', h1, h2, rfl⟩ := kidsBind_get access e ks _ _ i k
        (matching_events r lv c e sigs hs) hk
      exact ih h2 (fresh_get hf.2 h1) (unclocked_get hu.2 h1) h

/-! ### C75 -/

/-- C75, part: after `bind` to a DUT whose pins share the clock event `e`, `step(n)` of the bundle, and
of every sub-bundle and list element in it, waits for `n` clock cycles if a signal of that bundle or of
its (nested) sub-bundles is connected; otherwise `step` raises.  Missing: signals that are only reached
through the elements of a bundle list (`C75_list_violated`). -/
theorem C75_step_partial (access : Bool) (b : Bundle) (dut : List DutSig) (e : Nat)
    (hf : b.Fresh) (hu : b.Unclocked) (he : ∀ d ∈ dut, d.event = e) (path : List Nat) (n : Bundle)
    (hn : node (b.bind access dut).1 path = some n) :
    (Alive n → ∀ k, n.step k = some (List.replicate k e)) ∧
    (¬ Alive n → ∀ k, 0 < k → n.step k = none) := by
  have hev : ∀ s ∈ dutSignals dut, s.event = e := by
    intro s hs
    obtain ⟨d, hd, rfl⟩ := List.mem_map.1 hs
    exact he d hd
  obtain ⟨c, sigs, h1, h2, h3, rfl⟩ := node_bindList access e hev hf hu hn
  have h4 := bindList_alive access c sigs h1 h2
  have h5 := (bindList_clocked access e c sigs h3 (h2.clocked e)).clock
  constructor
  · intro ha k
    obtain ⟨e', he'⟩ := Option.isSome_iff_exists.1 (h4.2 ha)
    unfold Bundle.step
    rcases h5 with h | h
    · rw [h] at he'; cases he'
    · rw [h]
  · intro ha k hk
    unfold Bundle.step
    rcases h5 with h | h
    · rw [h]
      show (if k = 0 then some [] else none) = none
      rw [if_neg (by omega)]
    · exact absurd (h4.1 (by rw [h]; rfl)) ha

/-- C75 for bundles without bundle lists: `step` can be used if and only if a signal is connected. -/
theorem C75_no_lists_partial (access : Bool) (b : Bundle) (dut : List DutSig) (e : Nat)
    (hf : b.Fresh) (hu : b.Unclocked) (he : ∀ d ∈ dut, d.event = e)
    (hl : ∀ is p s, (b.bind access dut).1.slotAt is p = some s → OnSubs (b.bind access dut).1 is) :
    (∃ k, 0 < k ∧ (b.bind access dut).1.step k = some (List.replicate k e)) ↔
      ∃ is p q, (b.bind access dut).1.slotAt is p = some (.pin q) := by
  obtain ⟨h1, h2⟩ := C75_step_partial access b dut e hf hu he [] _ rfl
  constructor
  · rintro ⟨k, hk, h⟩
    apply Classical.byContradiction
    intro hn
    rw [h2 (fun ⟨is, p, q, _, h⟩ => hn ⟨is, p, q, h⟩) k hk] at h
    cases h
  · rintro ⟨is, p, q, h⟩
    exact ⟨1, by omega, h1 ⟨is, p, q, hl is p _ h, h⟩ 1⟩

/-! ### Witnesses -/

/-- A bundle with nothing but a bundle list of one element with one signal. -/
def listOnly : Bundle :=
  .mk (.pre "io_".toList) { signals := [], lists := [] } none
    (.cons (.elem "v".toList 0)
      (.mk (.pre "v_0_".toList)
        { signals := [⟨"d".toList, true, .unconnected⟩], lists := [] } none .nil)
      .nil)

/-- C75 is false: a signal of a bundle list is connected, but `step` of the bundle raises. -/
theorem C75_list_violated :
    listOnly.Fresh ∧ listOnly.Unclocked ∧ (∀ d ∈ demoDut, d.event = 0) ∧
    (listOnly.bind true demoDut).1.slotAt [0] (.sig "d".toList) = some (.pin 13) ∧
    (listOnly.bind true demoDut).1.step 1 = none := by
  refine ⟨⟨level_fresh _ (by decide), ⟨level_fresh _ (by decide), trivial⟩, trivial⟩,
    ⟨rfl, ⟨rfl, trivial⟩, trivial⟩, by decide, by decide, by decide⟩

/-- C75 is false: `step` raises for every bundle made by `from_xport`, although all its signals are
connected. -/
theorem C75_xport_violated : (∀ xp k, 0 < k → (fromXport xp).step k = none) ∧
    ∃ xp, (fromXport xp).slotAt [] (.sig "a".toList) = some (.pin 3) := by
  refine ⟨fun xp k hk => ?_, [("a".toList, 3)], by decide⟩
  show (if k = 0 then some [] else none) = none
  rw [if_neg (by omega)]

/-- Non-vacuity: the hypotheses hold for the demo, and both cases occur: its sub-bundle `c` has a
connected signal; bound to a DUT without signals, it has none. -/
example : demoBundle.Fresh ∧ demoBundle.Unclocked ∧ (∀ d ∈ demoDut, d.event = 0) ∧
    (∃ n, node (demoBundle.bind true demoDut).1 [0] = some n ∧ Alive n ∧ n.step 3 = some [0, 0, 0]) ∧
    (∃ n, node (demoBundle.bind true []).1 [0] = some n ∧ n.step 3 = none) := by
  refine ⟨demo_fresh, ⟨rfl, ⟨rfl, trivial⟩, ⟨rfl, trivial⟩, trivial⟩, by decide, ⟨_, rfl, ?_, ?_⟩,
    _, rfl, ?_⟩
  · exact ⟨[], .sig "w".toList, 12, trivial, by decide⟩
  · decide
  · decide

end Toffee.Bundle
