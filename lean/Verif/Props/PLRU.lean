import Verif.Lemmas.PLRU

/-!
Properties C04, C05, C06: the pseudo-LRU replacement policy.  `bits` is an arbitrary state,
`L = layers ways_num` the number of tree layers of the object.
-/

namespace Toffee.PLRU

/-- C04.  After `update(w)` from any state and fewer than `L` further updates of any ways, `get()`
does not return `w`. -/
theorem C04_recently_used_not_evicted (ways : Nat) (bits : Bits) (w : Nat)
    (accesses : List Nat) (hlen : accesses.length < layers ways) :
    get (layers ways) (runUpdates (layers ways) (update (layers ways) bits w) accesses) ≠ w := by
  intro h
  have ht := toward_runUpdates (layers ways) bits w accesses
  have hg := toward_getP (perfect_tree
    (runUpdates (layers ways) (update (layers ways) bits w) accesses) (layers ways) 0 0)
  rw [← path_get, h] at hg
  omega

/-- C04, immediate form: right after `update(w)`, `get() != w` when there is more than one way. -/
theorem C04_not_most_recent (ways : Nat) (hways : 2 ≤ ways) (bits : Bits) (w : Nat) :
    get (layers ways) (update (layers ways) bits w) ≠ w := by
  apply C04_recently_used_not_evicted ways bits w []
  have := ways_le_two_pow_layers ways
  rcases Nat.eq_zero_or_pos (layers ways) with h | h
  · rw [h] at this; omega
  · exact h

/-- The window of C04 is as large as possible: `L` accesses can make `w` the victim again
(8 ways, 3 layers). -/
example : layers 8 = 3 ∧ get 3 (runUpdates 3 (update 3 init 5) [4, 6, 0]) = 5 := by decide

/-- C05, power-of-two part: with `2^L` ways, `get()` is a valid way after every history. -/
theorem C05_victim_valid_partial (L : Nat) (history : List Nat) :
    get (layers (2 ^ L)) (runUpdates (layers (2 ^ L)) init history) < 2 ^ L := by
  have := get_lt (layers (2 ^ L)) (runUpdates (layers (2 ^ L)) init history)
  rwa [layers_two_pow] at *

/-- C05, general bound: the victim is below twice the number of ways. -/
theorem C05_victim_bound_partial (ways : Nat) (hways : 2 ≤ ways) (history : List Nat) :
    get (layers ways) (runUpdates (layers ways) init history) < 2 * ways :=
  Nat.lt_trans (get_lt _ _) (two_pow_layers_lt ways hways)

/-- C05 is violated for *every* number of ways that is not a power of two: some history of valid
accesses makes `get()` return a way that does not exist. -/
theorem C05_victim_invalid_violated (ways : Nat) (hnot : ∀ L, ways ≠ 2 ^ L) :
    ∃ history : List Nat, (∀ w ∈ history, w < ways) ∧
      ways ≤ get (layers ways) (runUpdates (layers ways) init history) := by
  have hlt : ways < 2 ^ layers ways :=
    Nat.lt_of_le_of_ne (ways_le_two_pow_layers ways) (hnot _)
  obtain ⟨k, ⟨_, hk⟩, _⟩ := victT_unique (perfect_tree init (layers ways) 0 0)
    (path (layers ways) ways) (path_length _ _)
  rw [← path_victim] at hk
  have hk' : victim (layers ways) init k = ways :=
    path_inj _ _ _ (get_lt _ _) hlt hk
  have hex : ∃ k, ways ≤ victim (layers ways) init k := ⟨k, by omega⟩
  refine ⟨(List.range (Nat.find hex)).map (victim (layers ways) init), ?_, ?_⟩
  · intro w hw
    obtain ⟨j, hj, rfl⟩ := List.mem_map.1 hw
    have := Nat.find_min hex (List.mem_range.1 hj)
    omega
  · rw [← sweepState_eq_run]
    exact Nat.find_spec hex

/-- A concrete instance of the violation: 3 ways, accesses 0, 2, 1, then `get()` is 3. -/
example : layers 3 = 2 ∧ get 2 (runUpdates 2 init [0, 2, 1]) = 3 := by decide

/-- C06.  From any state, `2^L` successive replacements return every way exactly once. -/
theorem C06_sweep_is_fair (L : Nat) (bits : Bits) (w : Nat) (hw : w < 2 ^ L) :
    ∃ k, (k < 2 ^ L ∧ victim (layers (2 ^ L)) bits k = w) ∧
      ∀ k', k' < 2 ^ L ∧ victim (layers (2 ^ L)) bits k' = w → k' = k := by
  rw [layers_two_pow]
  obtain ⟨k, ⟨hk, hv⟩, hu⟩ := victT_unique (perfect_tree bits L 0 0) (path L w) (path_length _ _)
  refine ⟨k, ⟨hk, ?_⟩, ?_⟩
  · rw [← path_victim] at hv
    exact path_inj L _ _ (get_lt _ _) hw hv
  · rintro k' ⟨hk', hv'⟩
    apply hu k' ⟨hk', ?_⟩
    rw [← path_victim, hv']

/-- Non-vacuity for C04–C06: four ways swept from the initial state. -/
example : (List.range 4).map (victim (layers 4) init) = [0, 2, 1, 3] := by decide

end Toffee.PLRU
