import Verif.Model.PLRU
import Mathlib.Algebra.Order.Ring.Nat
import Mathlib.Data.Nat.Bitwise
import Mathlib.Data.List.Induction
import Mathlib.Order.Nat

/-!
Helper lemmas for the PLRU tree: the layered bit arrays are viewed as a binary tree, ways as
root-to-leaf paths (most significant bit first).
-/

namespace Toffee.PLRU

inductive T where
  | leaf
  | node (b : Bool) (l r : T)

/-- The subtree of height `rem` rooted at layer `i`, position `pos`. -/
def tree (bits : Bits) : (rem i pos : Nat) → T
  | 0, _, _ => .leaf
  | rem + 1, i, pos =>
    .node (bits i pos) (tree bits rem (i + 1) (pos * 2)) (tree bits rem (i + 1) (pos * 2 + 1))

inductive Perfect : Nat → T → Prop
  | leaf : Perfect 0 .leaf
  | node {n b l r} : Perfect n l → Perfect n r → Perfect (n + 1) (.node b l r)

theorem perfect_tree (bits : Bits) (rem i pos : Nat) : Perfect rem (tree bits rem i pos) := by
  induction rem generalizing i pos with
  | zero => exact .leaf
  | succ n ih => exact .node (ih _ _) (ih _ _)

def getP : T → List Bool
  | .leaf => []
  | .node b l r => b :: (if b then getP r else getP l)

def updP : T → List Bool → T
  | .leaf, _ => .leaf
  | t, [] => t
  | .node _ l r, true :: p => .node false l (updP r p)
  | .node _ l r, false :: p => .node true (updP l p) r

theorem getP_length {n : Nat} {t : T} (h : Perfect n t) : (getP t).length = n := by
  induction h with
  | leaf => rfl
  | @node n b l r hl hr ihl ihr => cases b <;> simp [getP, ihl, ihr]

theorem perfect_updP {n : Nat} {t : T} (h : Perfect n t) (p : List Bool) :
    Perfect n (updP t p) := by
  induction h generalizing p with
  | leaf => cases p <;> exact .leaf
  | @node n b l r hl hr ihl ihr =>
    match p with
    | [] => exact .node hl hr
    | true :: p => exact .node hl (ihr p)
    | false :: p => exact .node (ihl p) hr

/-- The low `n` bits of `w`, most significant first. -/
def path : Nat → Nat → List Bool
  | 0, _ => []
  | n + 1, w => w.testBit n :: path n w

theorem path_length (n w : Nat) : (path n w).length = n := by
  induction n with
  | zero => rfl
  | succ n ih => simp [path, ih]

/-- Value of a path as a number. -/
def val : List Bool → Nat
  | [] => 0
  | b :: p => b.toNat * 2 ^ p.length + val p

theorem val_lt (p : List Bool) : val p < 2 ^ p.length := by
  induction p with
  | nil => simp [val]
  | cons b p ih =>
    simp only [val, List.length_cons, Nat.pow_succ]
    cases b <;> simp <;> omega

theorem path_val (p : List Bool) (a : Nat) : path p.length (a * 2 ^ p.length + val p) = p := by
  induction p generalizing a with
  | nil => rfl
  | cons b p ih =>
    simp only [List.length_cons, path]
    have hlt := val_lt p
    have e : a * 2 ^ (p.length + 1) + val (b :: p) = (a * 2 + b.toNat) * 2 ^ p.length + val p := by
      simp only [val, Nat.pow_succ, Nat.add_mul]
      rw [Nat.mul_assoc a 2, Nat.mul_comm 2 (2 ^ p.length)]; omega
    rw [e, ih (a * 2 + b.toNat)]
    congr 1
    rw [Nat.testBit_eq_decide_div_mod_eq, Nat.mul_comm, Nat.mul_add_div (Nat.two_pow_pos _),
      Nat.div_eq_of_lt hlt]
    cases b <;> simp

theorem val_path (n w : Nat) (h : w < 2 ^ n) : val (path n w) = w := by
  induction n generalizing w with
  | zero => simp at h; subst h; rfl
  | succ n ih =>
    have hmod : ∀ k, k ≤ n → path k w = path k (w % 2 ^ n) := by
      intro k hk
      induction k with
      | zero => rfl
      | succ k ihk =>
        simp only [path]
        rw [ihk (by omega), Nat.testBit_mod_two_pow]
        simp [show k < n by omega]
    simp only [path, val, path_length]
    rw [hmod n (Nat.le_refl _), ih _ (Nat.mod_lt _ (Nat.two_pow_pos _))]
    rw [Nat.testBit_eq_decide_div_mod_eq]
    have h2 : w / 2 ^ n < 2 := by
      rw [Nat.div_lt_iff_lt_mul (Nat.two_pow_pos _)]; rw [Nat.pow_succ] at h; omega
    have h3 := Nat.div_add_mod w (2 ^ n)
    have h4 : w / 2 ^ n = 0 ∨ w / 2 ^ n = 1 := by
      generalize w / 2 ^ n = q at h2; omega
    rcases h4 with h4 | h4
    · rw [h4] at h3 ⊢; simpa using h3
    · rw [h4] at h3 ⊢; simpa using h3

theorem path_inj (n a b : Nat) (ha : a < 2 ^ n) (hb : b < 2 ^ n) (h : path n a = path n b) :
    a = b := by
  rw [← val_path n a ha, ← val_path n b hb, h]

/-! ### get -/

theorem getLoop_eq (bits : Bits) (rem i pos : Nat) :
    getLoop rem i pos bits = pos * 2 ^ rem + val (getP (tree bits rem i pos)) := by
  induction rem generalizing i pos with
  | zero => simp [getLoop, tree, getP, val]
  | succ n ih =>
    simp only [getLoop, tree, getP]
    cases hb : bits i pos
    · simp only [Bool.toNat_false, Nat.add_zero, ih]
      simp [val, getP_length (perfect_tree bits n (i + 1) (pos * 2)), Nat.pow_succ]
      rw [Nat.mul_assoc, Nat.mul_comm 2]
    · simp only [Bool.toNat_true, ih]
      simp [val, getP_length (perfect_tree bits n (i + 1) (pos * 2 + 1)), Nat.pow_succ]
      rw [Nat.add_mul, Nat.mul_assoc, Nat.mul_comm 2]; omega

theorem get_eq_val (L : Nat) (bits : Bits) : get L bits = val (getP (tree bits L 0 0)) := by
  rw [get, getLoop_eq]; simp

theorem get_lt (L : Nat) (bits : Bits) : get L bits < 2 ^ L := by
  rw [get_eq_val]
  have := val_lt (getP (tree bits L 0 0))
  rwa [getP_length (perfect_tree _ _ _ _)] at this

theorem path_get (L : Nat) (bits : Bits) : path L (get L bits) = getP (tree bits L 0 0) := by
  have := path_val (getP (tree bits L 0 0)) 0
  rw [getP_length (perfect_tree _ _ _ _)] at this
  rw [get_eq_val]; simpa using this

/-! ### update -/

theorem updateLoop_frame (L w : Nat) (rem i pos : Nat) (bits : Bits) (i' p' : Nat)
    (h : i' < i ∨ p' / 2 ^ (i' - i) ≠ pos) :
    updateLoop L w rem i pos bits i' p' = bits i' p' := by
  induction rem generalizing i pos bits with
  | zero => rfl
  | succ n ih =>
    simp only [updateLoop]
    rw [ih]
    · unfold setBit
      split
      · rename_i hc
        obtain ⟨rfl, rfl⟩ := hc
        rcases h with h | h
        · omega
        · simp at h
      · rfl
    · rcases h with h | h
      · left; omega
      · by_cases hlt : i' < i + 1
        · left; exact hlt
        · right
          intro hc
          apply h
          have hs : i' - i = (i' - (i + 1)) + 1 := by omega
          rw [hs, Nat.pow_succ, ← Nat.div_div_eq_div_mul, hc]
          generalize setBit bits i pos _ i pos = c
          cases c
          · simp; omega
          · simp

theorem tree_congr (b b' : Bits) (rem i pos : Nat)
    (h : ∀ i' p', i ≤ i' → p' / 2 ^ (i' - i) = pos → b i' p' = b' i' p') :
    tree b rem i pos = tree b' rem i pos := by
  induction rem generalizing i pos with
  | zero => rfl
  | succ n ih =>
    simp only [tree]
    rw [h i pos (Nat.le_refl _) (by simp)]
    have hh : ∀ c, c < 2 → ∀ i' p', i + 1 ≤ i' → p' / 2 ^ (i' - (i + 1)) = pos * 2 + c →
        b i' p' = b' i' p' := by
      intro c hc i' p' hi hp
      apply h i' p' (by omega)
      have hs : i' - i = (i' - (i + 1)) + 1 := by omega
      rw [hs, Nat.pow_succ, ← Nat.div_div_eq_div_mul, hp]
      omega
    congr 1
    · exact ih _ _ (hh 0 (by decide))
    · exact ih _ _ (hh 1 (by decide))

theorem and_shift_ne_zero (w n : Nat) : (w &&& (1 <<< n) ≠ 0) ↔ w.testBit n = true := by
  rw [Nat.shiftLeft_eq, Nat.one_mul]
  constructor
  · intro h
    by_contra hb
    apply h
    apply Nat.eq_of_testBit_eq
    intro j
    rw [Nat.testBit_and, Nat.testBit_two_pow, Nat.zero_testBit]
    by_cases hj : n = j
    · subst hj; simp at hb; simp [hb]
    · simp [hj]
  · intro h hz
    have := congrArg (fun x => Nat.testBit x n) hz
    simp [Nat.testBit_and, h] at this

theorem tree_updateLoop (L w : Nat) (rem i pos : Nat) (bits : Bits) (hL : i + rem = L) :
    tree (updateLoop L w rem i pos bits) rem i pos = updP (tree bits rem i pos) (path rem w) := by
  induction rem generalizing i pos bits with
  | zero => simp [tree, updP]
  | succ n ih =>
    have hroot : updateLoop L w (n + 1) i pos bits i pos = !w.testBit n := by
      simp only [updateLoop]
      rw [updateLoop_frame _ _ _ _ _ _ _ _ (Or.inl (by omega))]
      have : L - i - 1 = n := by omega
      simp only [setBit, and_self, if_true, this, and_shift_ne_zero]
      cases w.testBit n <;> simp
    have hsub : updateLoop L w (n + 1) i pos bits =
        updateLoop L w n (i + 1) (pos * 2 + (w.testBit n).toNat)
          (setBit bits i pos (!w.testBit n)) := by
      have : L - i - 1 = n := by omega
      simp only [updateLoop, this, and_shift_ne_zero]
      cases w.testBit n <;> simp [setBit]
    simp only [tree, path]
    rw [hroot, hsub]
    have hset : ∀ c, c < 2 → tree (setBit bits i pos (!w.testBit n)) n (i + 1) (pos * 2 + c) =
        tree bits n (i + 1) (pos * 2 + c) := by
      intro c _
      apply tree_congr
      intro i' p' hi _
      unfold setBit
      rw [if_neg]; rintro ⟨h1, _⟩; omega
    have hother : ∀ c, c < 2 → c ≠ (w.testBit n).toNat →
        tree (updateLoop L w n (i + 1) (pos * 2 + (w.testBit n).toNat)
          (setBit bits i pos (!w.testBit n))) n (i + 1) (pos * 2 + c) =
        tree bits n (i + 1) (pos * 2 + c) := by
      intro c hc hne
      rw [← hset c hc]
      apply tree_congr
      intro i' p' _ hp
      apply updateLoop_frame
      right; omega
    have hsame := ih (i + 1) (pos * 2 + (w.testBit n).toNat)
      (setBit bits i pos (!w.testBit n)) (by omega)
    cases hb : w.testBit n
    · rw [hb] at hsame hother hset
      simp only [Bool.toNat_false, Nat.add_zero, Bool.not_false] at hsame hother hset ⊢
      simp only [updP]
      rw [hsame]
      have h1 := hother 1 (by decide) (by decide)
      have h0 := hset 0 (by decide)
      simp only [Nat.add_zero] at h0
      rw [h1, h0]
    · rw [hb] at hsame hother hset
      simp only [Bool.toNat_true, Bool.not_true] at hsame hother hset ⊢
      simp only [updP]
      rw [hsame]
      have h0 := hother 0 (by decide) (by decide)
      have h1 := hset 1 (by decide)
      simp only [Nat.add_zero] at h0
      rw [h1, h0]

theorem tree_update (L : Nat) (bits : Bits) (w : Nat) :
    tree (update L bits w) L 0 0 = updP (tree bits L 0 0) (path L w) :=
  tree_updateLoop L w L 0 0 bits (by omega)

/-! ### Protection window -/

/-- Number of nodes on the path `p` whose bit points along `p`. -/
def toward : T → List Bool → Nat
  | .node b l r, d :: p => (if b = d then 1 else 0) + (if d then toward r p else toward l p)
  | _, _ => 0

theorem toward_self {n : Nat} {t : T} (h : Perfect n t) (p : List Bool) :
    toward (updP t p) p = 0 := by
  induction h generalizing p with
  | leaf => cases p <;> rfl
  | @node n b l r hl hr ihl ihr =>
    match p with
    | [] => rfl
    | true :: p => simp [updP, toward, ihr p]
    | false :: p => simp [updP, toward, ihl p]

theorem toward_updP {n : Nat} {t : T} (h : Perfect n t) (p q : List Bool) :
    toward (updP t q) p ≤ toward t p + 1 := by
  induction h generalizing p q with
  | leaf => cases q <;> cases p <;> simp [updP, toward]
  | @node n b l r hl hr ihl ihr =>
    match q, p with
    | [], p => simp [updP]
    | true :: q, [] => simp [updP, toward]
    | false :: q, [] => simp [updP, toward]
    | true :: q, true :: p =>
      have := ihr p q
      simp [updP, toward]; omega
    | false :: q, false :: p =>
      have := ihl p q
      simp [updP, toward]; omega
    | true :: q, false :: p => simp [updP, toward]; omega
    | false :: q, true :: p => simp [updP, toward]; omega

theorem toward_getP {n : Nat} {t : T} (h : Perfect n t) : toward t (getP t) = n := by
  induction h with
  | leaf => rfl
  | @node n b l r hl hr ihl ihr =>
    cases b
    · simp [getP, toward, ihl]; omega
    · simp [getP, toward, ihr]; omega

theorem toward_runUpdates (L : Nat) (bits : Bits) (w : Nat) (as : List Nat) :
    toward (tree (runUpdates L (update L bits w) as) L 0 0) (path L w) ≤ as.length := by
  induction as using List.reverseRecOn with
  | nil =>
    simp only [runUpdates, List.foldl_nil, tree_update]
    rw [toward_self (perfect_tree _ _ _ _)]; simp
  | append_singleton as a ih =>
    simp only [runUpdates, List.foldl_append, List.foldl_cons, List.foldl_nil, tree_update] at ih ⊢
    have := toward_updP (perfect_tree (runUpdates L (update L bits w) as) L 0 0) (path L w)
      (path L a)
    simp only [runUpdates] at this
    simp only [List.length_append, List.length_cons, List.length_nil]
    omega

/-! ### Sweep -/

def stepT (t : T) : T := updP t (getP t)

def sweepT : T → Nat → T
  | t, 0 => t
  | t, k + 1 => stepT (sweepT t k)

theorem stepT_node (b : Bool) (l r : T) :
    stepT (.node b l r) = if b then .node false l (stepT r) else .node true (stepT l) r := by
  cases b <;> simp [stepT, getP, updP]

theorem sweepT_node (b : Bool) (l r : T) (k : Nat) :
    sweepT (.node b l r) (2 * k) = .node b (sweepT l k) (sweepT r k) ∧
    sweepT (.node b l r) (2 * k + 1) =
      if b then .node false (sweepT l k) (sweepT r (k + 1))
      else .node true (sweepT l (k + 1)) (sweepT r k) := by
  induction k with
  | zero => exact ⟨rfl, by simp [sweepT, stepT_node]⟩
  | succ k ih =>
    have h0 : sweepT (.node b l r) (2 * (k + 1)) = .node b (sweepT l (k + 1)) (sweepT r (k + 1)) := by
      rw [show 2 * (k + 1) = (2 * k + 1) + 1 by omega, sweepT, ih.2]
      cases b <;> simp [stepT_node, sweepT]
    refine ⟨h0, ?_⟩
    rw [sweepT, h0, stepT_node]
    cases b <;> simp [sweepT]

def victT (t : T) (k : Nat) : List Bool := getP (sweepT t k)

theorem perfect_sweepT {n : Nat} {t : T} (h : Perfect n t) (k : Nat) : Perfect n (sweepT t k) := by
  induction k with
  | zero => exact h
  | succ k ih => exact perfect_updP ih _

theorem victT_node (b : Bool) (l r : T) (k : Nat) :
    victT (.node b l r) (2 * k) = b :: (if b then victT r k else victT l k) ∧
    victT (.node b l r) (2 * k + 1) = (!b) :: (if b then victT l k else victT r k) := by
  unfold victT
  rw [(sweepT_node b l r k).1, (sweepT_node b l r k).2]
  cases b <;> simp [getP]

theorem victT_unique {n : Nat} {t : T} (h : Perfect n t) (p : List Bool) (hp : p.length = n) :
    ∃ k, (k < 2 ^ n ∧ victT t k = p) ∧ ∀ k', k' < 2 ^ n ∧ victT t k' = p → k' = k := by
  induction h generalizing p with
  | leaf =>
    have : p = [] := List.eq_nil_of_length_eq_zero hp
    subst this
    exact ⟨0, ⟨by decide, rfl⟩, fun k' hk => by have := hk.1; omega⟩
  | @node n b l r hl hr ihl ihr =>
    match p with
    | d :: p =>
      have hp' : p.length = n := by simpa using hp
      obtain ⟨kl, ⟨hkl, hvl⟩, ul⟩ := ihl p hp'
      obtain ⟨kr, ⟨hkr, hvr⟩, ur⟩ := ihr p hp'
      have hpow : 2 ^ (n + 1) = 2 * 2 ^ n := by rw [Nat.pow_succ]; omega
      have cover : ∀ k', ∃ j, k' = 2 * j ∨ k' = 2 * j + 1 := fun k' => ⟨k' / 2, by omega⟩
      cases b <;> cases d
      · refine ⟨2 * kl, ⟨by omega, by simp [(victT_node false l r kl).1, hvl]⟩, ?_⟩
        rintro k' ⟨hk, hv⟩
        obtain ⟨j, rfl | rfl⟩ := cover k'
        · rw [(victT_node false l r j).1] at hv
          rw [ul j ⟨by omega, by simpa using hv⟩]
        · rw [(victT_node false l r j).2] at hv; simp at hv
      · refine ⟨2 * kr + 1, ⟨by omega, by simp [(victT_node false l r kr).2, hvr]⟩, ?_⟩
        rintro k' ⟨hk, hv⟩
        obtain ⟨j, rfl | rfl⟩ := cover k'
        · rw [(victT_node false l r j).1] at hv; simp at hv
        · rw [(victT_node false l r j).2] at hv
          rw [ur j ⟨by omega, by simpa using hv⟩]
      · refine ⟨2 * kl + 1, ⟨by omega, by simp [(victT_node true l r kl).2, hvl]⟩, ?_⟩
        rintro k' ⟨hk, hv⟩
        obtain ⟨j, rfl | rfl⟩ := cover k'
        · rw [(victT_node true l r j).1] at hv; simp at hv
        · rw [(victT_node true l r j).2] at hv
          rw [ul j ⟨by omega, by simpa using hv⟩]
      · refine ⟨2 * kr, ⟨by omega, by simp [(victT_node true l r kr).1, hvr]⟩, ?_⟩
        rintro k' ⟨hk, hv⟩
        obtain ⟨j, rfl | rfl⟩ := cover k'
        · rw [(victT_node true l r j).1] at hv
          rw [ur j ⟨by omega, by simpa using hv⟩]
        · rw [(victT_node true l r j).2] at hv; simp at hv

theorem tree_sweepState (L : Nat) (bits : Bits) (k : Nat) :
    tree (sweepState L bits k) L 0 0 = sweepT (tree bits L 0 0) k := by
  induction k with
  | zero => rfl
  | succ k ih => rw [sweepState, tree_update, path_get, ih]; rfl

theorem path_victim (L : Nat) (bits : Bits) (k : Nat) :
    path L (victim L bits k) = victT (tree bits L 0 0) k := by
  rw [victim, path_get, tree_sweepState]; rfl

/-- A sweep state is reached by a history of updates with the victims. -/
theorem sweepState_eq_run (L : Nat) (bits : Bits) (k : Nat) :
    sweepState L bits k = runUpdates L bits ((List.range k).map (victim L bits)) := by
  induction k with
  | zero => rfl
  | succ k ih =>
    rw [sweepState, List.range_succ, List.map_append, runUpdates, List.foldl_append]
    simp only [List.map_cons, List.map_nil, List.foldl_cons, List.foldl_nil]
    rw [← runUpdates, ← ih]; rfl

theorem ways_le_two_pow_layers (n : Nat) : n ≤ 2 ^ layers n := by
  unfold layers
  split
  · omega
  · have := @Nat.lt_log2_self (n - 1)
    omega

theorem two_pow_layers_lt (n : Nat) (hn : 2 ≤ n) : 2 ^ layers n < 2 * n := by
  unfold layers
  rw [if_neg (by omega), Nat.pow_succ]
  have := Nat.log2_self_le (n := n - 1) (by omega)
  omega

theorem layers_two_pow (L : Nat) : layers (2 ^ L) = L := by
  by_cases h : 2 ^ L ≤ 1
  · cases L with
    | zero => rfl
    | succ L =>
      have : 2 ^ (L + 1) = 2 * 2 ^ L := by rw [Nat.pow_succ]; omega
      have : 0 < 2 ^ L := Nat.two_pow_pos _
      omega
  · have h1 := ways_le_two_pow_layers (2 ^ L)
    have h2 := two_pow_layers_lt (2 ^ L) (by omega)
    have h3 : L ≤ layers (2 ^ L) := (Nat.pow_le_pow_iff_right (by decide)).1 h1
    have h4 : 2 ^ layers (2 ^ L) < 2 ^ (L + 1) := by rw [Nat.pow_succ]; omega
    have h5 := (Nat.pow_lt_pow_iff_right (by decide)).1 h4
    omega

end Toffee.PLRU
