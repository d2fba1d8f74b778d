import Verif.Model.Requests

/-! `Bundle.process_requests` (`toffee/bundle.py`): C49. -/

namespace Toffee.Requests

variable {V : Type}

/-! ### Specification -/

/-- A dictionary that is taken in cycle `t` is applied in cycle `u`: at once if it has no condition,
and otherwise in the first cycle in which the condition holds. -/
def AppliedAt (E : Env V) (cond : Nat → Bool) (r t u : Nat) : Prop :=
  t ≤ u ∧ (cond r = false → u = t) ∧
    (cond r = true → E.cond r u = true ∧ ∀ w, t ≤ w → w < u → E.cond r w = false)

/-- From cycle `t` on, the requests are served in order, each in a later cycle than the one before;
this produces the events; the next request would be taken in cycle `t'`. -/
inductive Served (E : Env V) (cond : Nat → Bool) : Nat → List Item → List Ev → Nat → Prop
  | nil (t : Nat) : Served E cond t [] [] t
  | none {t t' : Nat} {is : List Item} {l : List Ev} (h : Served E cond (t + 1) is l t') :
    Served E cond t (.none :: is) l t'
  | dict {t u t' r : Nat} {is : List Item} {l : List Ev} (ha : AppliedAt E cond r t u)
    (h : Served E cond (u + 1) is l t') : Served E cond t (.dict r :: is) (.applied r u :: l) t'
  | callNone {t t' f : Nat} {is : List Item} {l : List Ev} (hr : E.res f t = Option.none)
    (h : Served E cond (t + 1) is l t') : Served E cond t (.call f :: is) (.called f t :: l) t'
  | callDict {t u t' f r : Nat} {is : List Item} {l : List Ev} (hr : E.res f t = some r)
    (ha : AppliedAt E cond r t u) (h : Served E cond (u + 1) is l t') :
    Served E cond t (.call f :: is) (.called f t :: .applied r u :: l) t'

/-- The dictionaries in the list. -/
def dicts (items : List Item) : List Nat :=
  items.filterMap fun i =>
    match i with
    | .dict r => some r
    | _ => none

/-- Every dictionary is a new object: none is in the list twice, none was used before, and callable
requests return new ones. -/
structure Fresh (E : Env V) (items : List Item) (s : St V) : Prop where
  nodup : (dicts items).Nodup
  new : ∀ r ∈ dicts items, (s.heap r).result = none
  res : ∀ f c r, E.res f c = some r → r ∉ dicts items
  inj : ∀ f f' c c' r, E.res f c = some r → E.res f' c' = some r → c = c'

/-- The bundle was bound once and no request is left from before. -/
def Idle (s : St V) : Prop := s.queue = [] ∧ s.blocked = none

/-- The conditions of the requests. -/
def condOf (s : St V) (r : Nat) : Bool := (s.heap r).cond

/-- One result for each dictionary with return bundles, in order, with the cycle in which it was
applied. -/
def Results (E : Env V) (s : St V) (items : List Item) (log : List Ev) (res : List (V × Nat)) : Prop :=
  ∃ cyc : Nat → Nat, (∀ r ∈ dicts items, .applied r (cyc r) ∈ log) ∧
    res = ((dicts items).filter fun r => (s.heap r).ret).map fun r => (E.sample r (cyc r), cyc r)

/-! ### Lemmas -/

theorem served_append {E : Env V} {cond : Nat → Bool} {t t' t'' : Nat} {a b : List Item}
    {l l' : List Ev} (h : Served E cond t a l t') (h' : Served E cond t' b l' t'') :
    Served E cond t (a ++ b) (l ++ l') t'' := by
  induction h with
  | nil => exact h'
  | none _ ih => exact .none (ih h')
  | dict ha _ ih => exact .dict ha (ih h')
  | callNone hr _ ih => exact .callNone hr (ih h')
  | callDict hr ha _ ih => exact .callDict hr ha (ih h')

theorem served_le {E : Env V} {cond : Nat → Bool} {t t' : Nat} {a : List Item} {l : List Ev}
    (h : Served E cond t a l t') : t ≤ t' := by
  induction h with
  | nil => exact Nat.le_refl _
  | none _ ih => omega
  | dict ha _ ih => have := ha.1; omega
  | callNone hr _ ih => omega
  | callDict hr ha _ ih => have := ha.1; omega

theorem served_calls {E : Env V} {cond : Nat → Bool} {t t' : Nat} {a : List Item} {l : List Ev}
    (h : Served E cond t a l t') : ∀ f c, .called f c ∈ l → t ≤ c ∧ c < t' := by
  induction h with
  | nil => simp
  | none hs ih =>
    intro f c hm
    have := ih f c hm
    omega
  | dict ha hs ih =>
    intro f c hm
    rcases List.mem_cons.1 hm with hm | hm
    · cases hm
    · have := ih f c hm
      have := ha.1
      omega
  | callNone hr hs ih =>
    intro f c hm
    have := served_le hs
    rcases List.mem_cons.1 hm with hm | hm
    · cases hm
      omega
    · have := ih f c hm
      omega
  | callDict hr ha hs ih =>
    intro f c hm
    have := served_le hs
    have := ha.1
    rcases List.mem_cons.1 hm with hm | hm
    · cases hm
      omega
    · rcases List.mem_cons.1 hm with hm | hm
      · cases hm
      · have := ih f c hm
        omega

/-- Which dictionaries are applied: those in the list and those from callable requests. -/
theorem served_applied {E : Env V} {cond : Nat → Bool} {t t' : Nat} {a : List Item} {l : List Ev}
    (h : Served E cond t a l t') : ∀ r u, .applied r u ∈ l →
      u < t' ∧ (r ∈ dicts a ∨ ∃ f c, E.res f c = some r ∧ t ≤ c ∧ c < t') := by
  induction h with
  | nil => simp
  | none hs ih =>
    intro r u hm
    obtain ⟨h1, h2⟩ := ih r u hm
    refine ⟨h1, ?_⟩
    rcases h2 with h2 | ⟨f, c, h2, h3, h4⟩
    · exact .inl h2
    · exact .inr ⟨f, c, h2, by omega, h4⟩
  | dict ha hs ih =>
    intro r' u' hm
    have hle := served_le hs
    have hau := ha.1
    rcases List.mem_cons.1 hm with hm | hm
    · cases hm
      exact ⟨by omega, .inl (by simp [dicts])⟩
    · obtain ⟨h1, h2⟩ := ih r' u' hm
      refine ⟨h1, ?_⟩
      rcases h2 with h2 | ⟨f, c, h2, h3, h4⟩
      · exact .inl (List.mem_cons_of_mem _ h2)
      · exact .inr ⟨f, c, h2, by omega, h4⟩
  | callNone hr hs ih =>
    intro r' u' hm
    rcases List.mem_cons.1 hm with hm | hm
    · cases hm
    · obtain ⟨h1, h2⟩ := ih r' u' hm
      refine ⟨h1, ?_⟩
      rcases h2 with h2 | ⟨f, c, h2, h3, h4⟩
      · exact .inl h2
      · exact .inr ⟨f, c, h2, by omega, h4⟩
  | callDict hr ha hs ih =>
    intro r' u' hm
    have hle := served_le hs
    have hau := ha.1
    rcases List.mem_cons.1 hm with hm | hm
    · cases hm
    · rcases List.mem_cons.1 hm with hm | hm
      · cases hm
        exact ⟨by omega, .inr ⟨_, _, hr, by omega, by omega⟩⟩
      · obtain ⟨h1, h2⟩ := ih r' u' hm
        refine ⟨h1, ?_⟩
        rcases h2 with h2 | ⟨f, c, h2, h3, h4⟩
        · exact .inl h2
        · exact .inr ⟨f, c, h2, by omega, h4⟩

/-- A request that has been taken and waits for its condition. -/
def Blocked (E : Env V) (cond : Nat → Bool) (u t r : Nat) (i : Item) (l : List Ev) : Prop :=
  cond r = true ∧ u < t ∧ (∀ w, u ≤ w → w < t → E.cond r w = false) ∧
    ((i = .dict r ∧ l = []) ∨ ∃ f, i = .call f ∧ E.res f u = some r ∧ l = [.called f u])

/-- A dictionary that was not applied is unchanged, the others are finished. -/
def HeapOk (E : Env V) (s0 : St V) (heap : Nat → Obj V) (l : List Ev) : Prop :=
  (∀ r, (∀ u, .applied r u ∉ l) → heap r = s0.heap r) ∧
  ∀ r u, .applied r u ∈ l →
    heap r = ⟨false, false, if (s0.heap r).ret then some (E.sample r u, u) else (s0.heap r).result⟩

/-- The state after some rounds, against the state `s0` before. -/
def Inv (E : Env V) (items : List Item) (s0 s : St V) : Prop :=
  ∃ done l, s.log = s0.log ++ l ∧ items = done ++ s.queue ∧ HeapOk E s0 s.heap l ∧
    ((s.blocked = none ∧ Served E (condOf s0) s0.cycle done l s.cycle) ∨
    ∃ r d i l1 l2 u, s.blocked = some r ∧ done = d ++ [i] ∧ l = l1 ++ l2 ∧
      Served E (condOf s0) s0.cycle d l1 u ∧ Blocked E (condOf s0) u s.cycle r i l2)

theorem step_one (E : Env V) (s : St V) :
    step E 1 s = { onRise E s.cycle s with cycle := s.cycle + 1 } := rfl

/-- A dictionary is taken: from the list, or returned by a callable request. -/
def Taken (E : Env V) (u r : Nat) (i : Item) (l : List Ev) : Prop :=
  (i = .dict r ∧ l = []) ∨ ∃ f, i = .call f ∧ E.res f u = some r ∧ l = [.called f u]

theorem taken_no_applied {E : Env V} {u r : Nat} {i : Item} {l : List Ev} (h : Taken E u r i l) :
    ∀ r' w, .applied r' w ∉ l := by
  intro r' w
  rcases h with ⟨_, rfl⟩ | ⟨f, _, _, rfl⟩ <;> simp

/-- A dictionary that is taken was not applied before. -/
theorem unapplied {E : Env V} {items d q : List Item} {s0 : St V} {l : List Ev} {u r : Nat} {i : Item}
    {l2 : List Ev} (hf : Fresh E items s0) (hi : items = d ++ [i] ++ q)
    (hs : Served E (condOf s0) s0.cycle d l u) (ht : Taken E u r i l2) :
    ∀ w, .applied r w ∉ l := by
  intro w hm
  have hd : ∀ x, x ∈ dicts d → x ∈ dicts items := by
    intro x hx
    rw [hi]
    unfold dicts at hx ⊢
    rw [List.filterMap_append, List.filterMap_append]
    exact List.mem_append_left _ (List.mem_append_left _ hx)
  rcases (served_applied hs r w hm).2 with h | ⟨f, c, h, _, hc⟩
  · rcases ht with ⟨rfl, _⟩ | ⟨f, rfl, hr, _⟩
    · have := hf.nodup
      rw [hi] at this
      unfold dicts at this h
      rw [List.filterMap_append, List.filterMap_append, List.nodup_append] at this
      have := this.1
      rw [List.nodup_append] at this
      exact this.2.2 r h r (by simp) rfl
    · exact hf.res f u r hr (hd r h)
  · rcases ht with ⟨rfl, _⟩ | ⟨f', rfl, hr, _⟩
    · refine hf.res f c r h ?_
      rw [hi]
      unfold dicts
      rw [List.filterMap_append, List.filterMap_append]
      exact List.mem_append_left _ (List.mem_append_right _ (by simp))
    · have := hf.inj f f' c u r h hr
      omega

theorem heapOk_apply {E : Env V} {s0 : St V} {heap : Nat → Obj V} {l l' : List Ev} {r c : Nat}
    (h : HeapOk E s0 heap l) (hr : ∀ u, .applied r u ∉ l) (hl' : ∀ r u, .applied r u ∉ l') :
    HeapOk E s0 (fun r' => if r' = r then
      ⟨false, false, if (heap r).ret then some (E.sample r c, c) else (heap r).result⟩ else heap r')
      (l ++ l' ++ [.applied r c]) := by
  obtain ⟨h1, h2⟩ := h
  constructor
  · intro r' hn
    have : r' ≠ r := by
      rintro rfl
      exact hn c (by simp)
    simp only [this, if_false]
    apply h1
    intro u hu
    exact hn u (by simp [hu])
  · intro r' u hm
    by_cases he : r' = r
    · subst he
      have hu : u = c := by
        rw [List.mem_append, List.mem_append] at hm
        rcases hm with (hm | hm) | hm
        · exact absurd hm (hr u)
        · exact absurd hm (hl' _ _)
        · simpa using hm
      subst hu
      simp only [if_true, h1 r' hr]
    · simp only [he, if_false]
      apply h2
      rw [List.mem_append, List.mem_append] at hm
      rcases hm with (hm | hm) | hm
      · exact hm
      · exact absurd hm (hl' _ _)
      · simp at hm
        exact absurd hm.1 he

theorem heapOk_append {E : Env V} {s0 : St V} {heap : Nat → Obj V} {l l' : List Ev}
    (h : HeapOk E s0 heap l) (hl' : ∀ r u, .applied r u ∉ l') : HeapOk E s0 heap (l ++ l') := by
  constructor
  · intro r hr
    exact h.1 r fun u hu => hr u (List.mem_append_left _ hu)
  · intro r u hm
    rcases List.mem_append.1 hm with hm | hm
    · exact h.2 r u hm
    · exact absurd hm (hl' _ _)

theorem heapOk_prefix {E : Env V} {s0 : St V} {heap : Nat → Obj V} {l l' : List Ev}
    (h : HeapOk E s0 heap (l ++ l')) (hl' : ∀ r u, .applied r u ∉ l') : HeapOk E s0 heap l := by
  constructor
  · intro r hr
    apply h.1
    intro u hu
    rcases List.mem_append.1 hu with hu | hu
    · exact hr u hu
    · exact hl' _ _ hu
  · intro r u hm
    exact h.2 r u (List.mem_append_left _ hm)

/-- A taken request that is applied in cycle `c`. -/
theorem inv_apply {E : Env V} {items d q : List Item} {s0 : St V} {l1 l2 : List Ev} {u c r : Nat}
    {i : Item} (hf : Fresh E items s0) (hi : items = d ++ [i] ++ q)
    (hs : Served E (condOf s0) s0.cycle d l1 u) (ht : Taken E u r i l2)
    (ha : AppliedAt E (condOf s0) r u c) (s : St V) (hb : s.blocked = none)
    (hq : s.queue = q) (hlog : s.log = s0.log ++ (l1 ++ l2)) (hh : HeapOk E s0 s.heap l1) :
    Inv E items s0 { apply E c r s with cycle := c + 1 } := by
  refine ⟨d ++ [i], l1 ++ l2 ++ [.applied r c], ?_, ?_, ?_, .inl ⟨hb, ?_⟩⟩
  · simp [apply, hlog]
  · rw [hi, ← hq]
    rfl
  · exact heapOk_apply hh (unapplied hf hi hs ht) (taken_no_applied ht)
  · rw [List.append_assoc]
    refine served_append hs ?_
    rcases ht with ⟨rfl, rfl⟩ | ⟨f, rfl, hr, rfl⟩
    · exact .dict ha (.nil _)
    · exact .callDict hr ha (.nil _)

theorem inv_step {E : Env V} {items : List Item} {s0 s : St V} (hf : Fresh E items s0)
    (h : Inv E items s0 s) (hne : s.queue ≠ []) : Inv E items s0 (step E 1 s) := by
  obtain ⟨done, l, h1, h2, h3, h4⟩ := h
  rw [step_one]
  rcases h4 with ⟨hb, hs⟩ | ⟨r, d, i, l1, l2, u, hb, rfl, rfl, hs, hcond, hlt, hw, ht⟩
  · -- a dictionary is taken and checked
    have hcheck : ∀ (r : Nat) (i : Item) (q : List Item) (l2 : List Ev), s.queue = i :: q →
        Taken E s.cycle r i l2 → Inv E items s0
          { check E s.cycle r { s with queue := q, log := s.log ++ l2 } with cycle := s.cycle + 1 } := by
      intro r i q l2 hq ht
      have hi : items = done ++ [i] ++ q := by rw [h2, hq]; simp
      have hn := unapplied hf hi hs ht
      have hcr : (s.heap r).cond = condOf s0 r := by rw [h3.1 r hn]; rfl
      unfold check
      simp only [hcr]
      by_cases hc : condOf s0 r = true
      · rw [if_pos hc]
        by_cases he : E.cond r s.cycle = true
        · rw [if_pos he]
          refine inv_apply hf hi hs ht ⟨Nat.le_refl _, ?_, ?_⟩ _ hb rfl ?_ h3
          · exact fun _ => rfl
          · exact fun _ => ⟨he, fun w hw1 hw2 => (by omega)⟩
          · simp [h1]
        · rw [if_neg he]
          refine ⟨done ++ [i], l ++ l2, by simp [h1], hi,
            heapOk_append h3 (taken_no_applied ht),
            .inr ⟨r, done, i, l, l2, s.cycle, rfl, rfl, rfl, hs, hc, ?_, ?_, ht⟩⟩
          · exact Nat.lt_succ_self _
          · intro w hw1 hw2
            have : w = s.cycle := by
              have : w < s.cycle + 1 := hw2
              omega
            rw [this]
            simpa using he
      · rw [if_neg hc]
        refine inv_apply hf hi hs ht ⟨Nat.le_refl _, fun _ => rfl, fun hc' => absurd hc' hc⟩ _ hb
          rfl ?_ h3
        simp [h1]
    obtain ⟨queue, blocked, heap, cycle, log⟩ := s
    simp only at hb h1 h2 h3 hs hcheck hne
    subst hb
    cases queue with
    | nil => exact absurd rfl hne
    | cons i q =>
      cases i with
      | none =>
        refine ⟨done ++ [.none], l, h1, by rw [h2]; simp [onRise], h3, .inl ⟨rfl, ?_⟩⟩
        have := served_append hs (.none (.nil (cycle + 1)))
        rwa [List.append_nil] at this
      | dict r =>
        have := hcheck r _ q [] rfl (.inl ⟨rfl, rfl⟩)
        rw [List.append_nil] at this
        exact this
      | call f =>
        simp only [onRise]
        cases hr : E.res f cycle with
        | none =>
          refine ⟨done ++ [.call f], l ++ [.called f cycle], by simp [h1], by rw [h2]; simp,
            heapOk_append h3 (by simp), .inl ⟨rfl, ?_⟩⟩
          exact served_append hs (.callNone hr (.nil (cycle + 1)))
        | some r => exact hcheck r _ q [.called f cycle] rfl (.inr ⟨f, rfl, hr, rfl⟩)
  · unfold onRise
    rw [hb]
    simp only
    have hh : HeapOk E s0 s.heap l1 := heapOk_prefix h3 (taken_no_applied ht)
    by_cases he : E.cond r s.cycle = true
    · rw [if_pos he]
      refine inv_apply hf h2 hs ht ⟨Nat.le_of_lt hlt, ?_, ?_⟩ _ rfl rfl h1 hh
      · intro hc'
        rw [hcond] at hc'
        cases hc'
      · exact fun _ => ⟨he, hw⟩
    · rw [if_neg he]
      refine ⟨d ++ [i], l1 ++ l2, h1, h2, h3,
        .inr ⟨r, d, i, l1, l2, u, hb, rfl, rfl, hs, hcond, ?_, ?_, ht⟩⟩
      · show u < s.cycle + 1
        omega
      · intro w hw1 hw2
        have hw2' : w < s.cycle + 1 := hw2
        by_cases hws : w = s.cycle
        · rw [hws]
          simpa using he
        · exact hw w hw1 (by omega)

theorem after_succ (E : Env V) (k : Nat) (items : List Item) (s : St V) (n : Nat) :
    after E k items s (n + 1) = step E k (after E k items s n) := rfl

theorem inv_after {E : Env V} {items : List Item} {s : St V} (hf : Fresh E items s) (hi : Idle s)
    {n : Nat} (hn : ∀ m, m < n → (after E 1 items s m).queue ≠ []) :
    Inv E items s (after E 1 items s n) := by
  induction n with
  | zero =>
    refine ⟨[], [], by simp [after], rfl, ⟨fun _ _ => rfl, by simp⟩, .inl ⟨hi.2, .nil _⟩⟩
  | succ n ih =>
    rw [after_succ]
    exact inv_step hf (ih fun m hm => hn m (by omega)) (hn n (by omega))

theorem after_cycle (E : Env V) (k : Nat) (items : List Item) (s : St V) (n : Nat) :
    (after E k items s n).cycle = s.cycle + n := by
  induction n with
  | zero => rfl
  | succ n ih =>
    rw [after_succ]
    simp only [step, ih]
    omega

/-- The cycles of the applied dictionaries. -/
def cycles (l : List Ev) : List Nat :=
  l.filterMap fun e =>
    match e with
    | .applied _ c => some c
    | _ => none

theorem served_cycles {E : Env V} {cond : Nat → Bool} {t t' : Nat} {a : List Item} {l : List Ev}
    (h : Served E cond t a l t') : (cycles l).Pairwise (· < ·) ∧ ∀ c ∈ cycles l, t ≤ c := by
  induction h with
  | nil => exact ⟨List.Pairwise.nil, by simp [cycles]⟩
  | none hs ih =>
    refine ⟨ih.1, fun c hc => ?_⟩
    have := ih.2 c hc
    omega
  | dict ha hs ih =>
    have hau := ha.1
    simp only [cycles, List.filterMap_cons] at ih ⊢
    refine ⟨List.pairwise_cons.2 ⟨fun c hc => ih.2 c hc, ih.1⟩, ?_⟩
    intro c hc
    rcases List.mem_cons.1 hc with rfl | hc
    · exact hau
    · have := ih.2 c hc
      omega
  | callNone hr hs ih =>
    simp only [cycles, List.filterMap_cons] at ih ⊢
    refine ⟨ih.1, fun c hc => ?_⟩
    have := ih.2 c hc
    omega
  | callDict hr ha hs ih =>
    have hau := ha.1
    simp only [cycles, List.filterMap_cons] at ih ⊢
    refine ⟨List.pairwise_cons.2 ⟨fun c hc => ih.2 c hc, ih.1⟩, ?_⟩
    intro c hc
    rcases List.mem_cons.1 hc with rfl | hc
    · exact hau
    · have := ih.2 c hc
      omega

theorem served_all {E : Env V} {cond : Nat → Bool} {t t' : Nat} {a : List Item} {l : List Ev}
    (h : Served E cond t a l t') : ∀ r ∈ dicts a, ∃ u, .applied r u ∈ l := by
  induction h with
  | nil => simp [dicts]
  | none hs ih => exact ih
  | dict ha hs ih =>
    intro r hr
    rcases List.mem_cons.1 hr with rfl | hr
    · exact ⟨_, List.mem_cons_self ..⟩
    · obtain ⟨u, hu⟩ := ih r hr
      exact ⟨u, List.mem_cons_of_mem _ hu⟩
  | callNone hr hs ih =>
    intro r hr
    obtain ⟨u, hu⟩ := ih r hr
    exact ⟨u, List.mem_cons_of_mem _ hu⟩
  | callDict hr ha hs ih =>
    intro r hr
    obtain ⟨u, hu⟩ := ih r hr
    exact ⟨u, List.mem_cons_of_mem _ (List.mem_cons_of_mem _ hu)⟩

theorem results_eq (items : List Item) (s : St V) :
    results items s = (dicts items).filterMap fun r => (s.heap r).result := by
  unfold results dicts
  induction items with
  | nil => rfl
  | cons i is ih =>
    cases i <;> simp only [List.filterMap_cons, ih]

theorem filterMap_if {α β : Type} (l : List α) (p : α → Bool) (f : α → β) (g : α → Option β)
    (h : ∀ a ∈ l, g a = if p a then some (f a) else none) :
    l.filterMap g = (l.filter p).map f := by
  induction l with
  | nil => rfl
  | cons a l ih =>
    rw [List.filterMap_cons, h a (List.mem_cons_self ..), List.filter_cons,
      ih fun b hb => h b (List.mem_cons_of_mem _ hb)]
    cases p a <;> simp

/-! ### C49 -/

/-- C49: while `process_requests` runs and when it returns, the requests have been taken in order, and
those before the last one that was taken have been applied, in order, each in the first cycle in which
it was its turn and its condition held. Missing: a bundle that was bound once (see
`C49_rebind_violated`), and new dictionaries (`C49_reuse_violated`). -/
theorem C49_order_partial (E : Env V) (items : List Item) (s : St V) (hf : Fresh E items s) (hi : Idle s)
    (n : Nat) (hn : ∀ m, m < n → (after E 1 items s m).queue ≠ []) :
    ∃ done rest l l' u, items = done ++ rest ∧ (after E 1 items s n).log = s.log ++ l ++ l' ∧
      Served E (condOf s) s.cycle done l u ∧ (∀ r c, .applied r c ∉ l') ∧
      rest.length ≤ (after E 1 items s n).queue.length + 1 := by
  obtain ⟨done, l, h1, h2, h3, h4⟩ := inv_after hf hi hn
  rcases h4 with ⟨_, hs⟩ | ⟨r, d, i, l1, l2, u, _, rfl, rfl, hs, _, _, _, ht⟩
  · exact ⟨done, _, l, [], _, h2, by rw [h1]; simp, hs, by simp, by omega⟩
  · refine ⟨d, i :: (after E 1 items s n).queue, l1, l2, u, ?_, ?_, hs, taken_no_applied ht, by simp⟩
    · simpa using h2
    · rw [h1]
      simp

/-- C49: at most one request is applied per cycle. Missing: as above. -/
theorem C49_one_per_cycle_partial (E : Env V) (items : List Item) (s : St V) (hf : Fresh E items s)
    (hi : Idle s) (n : Nat) (hn : ∀ m, m < n → (after E 1 items s m).queue ≠ []) :
    ∃ l, (after E 1 items s n).log = s.log ++ l ∧ (cycles l).Pairwise (· < ·) := by
  obtain ⟨done, l, h1, h2, h3, h4⟩ := inv_after hf hi hn
  refine ⟨l, h1, ?_⟩
  rcases h4 with ⟨_, hs⟩ | ⟨r, d, i, l1, l2, u, _, rfl, rfl, hs, _, _, _, ht⟩
  · exact (served_cycles hs).1
  · have : cycles l2 = [] := by
      rcases ht with ⟨_, rfl⟩ | ⟨f, _, _, rfl⟩ <;> rfl
    unfold cycles at this ⊢
    rw [List.filterMap_append, this, List.append_nil]
    exact (served_cycles hs).1

/-- C49: if the last request was not left waiting for its condition, `process_requests` returns when
all requests have been applied, after exactly the cycles that they took, and it returns one result for
each dictionary with return bundles, in order, with the cycle of its application. Missing: a last
request whose condition does not hold when it is taken (`C49_returns_violated`); and as above. -/
theorem C49_returns_partial (E : Env V) (items : List Item) (s : St V) (hf : Fresh E items s)
    (hi : Idle s) (n : Nat) (hn : Ends E 1 items s n) (hb : (after E 1 items s n).blocked = none) :
    ∃ l, (after E 1 items s n).log = s.log ++ l ∧
      Served E (condOf s) s.cycle items l (s.cycle + n) ∧
      Results E s items l (results items (after E 1 items s n)) := by
  obtain ⟨done, l, h1, h2, h3, h4⟩ := inv_after hf hi hn.2
  rw [hn.1, List.append_nil] at h2
  rcases h4 with ⟨_, hs⟩ | ⟨r, d, i, l1, l2, u, hb', _⟩
  · rw [after_cycle] at hs
    subst h2
    refine ⟨l, h1, hs, ?_⟩
    have hall := served_all hs
    have hch : ∃ cyc : Nat → Nat, ∀ r ∈ dicts items, .applied r (cyc r) ∈ l := by
      classical
      refine ⟨fun r => if h : ∃ u, .applied r u ∈ l then Classical.choose h else 0, ?_⟩
      intro r hr
      have h := hall r hr
      simp only [h, dif_pos]
      exact Classical.choose_spec h
    obtain ⟨cyc, hcyc⟩ := hch
    refine ⟨cyc, hcyc, ?_⟩
    rw [results_eq]
    apply filterMap_if
    intro r hr
    rw [h3.2 r _ (hcyc r hr)]
    simp only [hf.new r hr]
  · rw [hb] at hb'
    cases hb'

/-- C49: that is so if the last request has no condition. -/
theorem C49_last_partial (E : Env V) (items : List Item) (i : Item) (s : St V)
    (hf : Fresh E (items ++ [i]) s) (hi : Idle s) (n : Nat) (hn : Ends E 1 (items ++ [i]) s n)
    (hl : i = .none ∨ ∃ r, i = .dict r ∧ (s.heap r).cond = false) :
    (after E 1 (items ++ [i]) s n).blocked = none := by
  obtain ⟨done, l, h1, h2, h3, h4⟩ := inv_after hf hi hn.2
  rw [hn.1, List.append_nil] at h2
  rcases h4 with ⟨hb, _⟩ | ⟨r, d, j, l1, l2, u, hb, hd, _, _, hc, _, _, ht⟩
  · exact hb
  · exfalso
    rw [hd] at h2
    have hij : i = j := by
      have := congrArg List.getLast? h2
      simpa using this
    subst hij
    rcases hl with rfl | ⟨r', rfl, hl⟩
    · rcases ht with ⟨ht, _⟩ | ⟨f, ht, _⟩ <;> cases ht
    · rcases ht with ⟨ht, _⟩ | ⟨f, ht, _⟩
      · cases ht
        unfold condOf at hc
        rw [hl] at hc
        cases hc
      · cases ht

/-! ### The loop ends -/

/-- Rounds of the loop. -/
def rounds (E : Env V) (s : St V) : Nat → St V
  | 0 => s
  | n + 1 => step E 1 (rounds E s n)

theorem rounds_add (E : Env V) (s : St V) (m n : Nat) :
    rounds E s (m + n) = rounds E (rounds E s m) n := by
  induction n with
  | zero => rfl
  | succ n ih =>
    show step E 1 (rounds E s (m + n)) = _
    rw [ih]
    rfl

theorem apply_queue (E : Env V) (c r : Nat) (s : St V) :
    (apply E c r s).queue = s.queue ∧ (apply E c r s).blocked = s.blocked := ⟨rfl, rfl⟩

theorem check_queue (E : Env V) (c r : Nat) (s : St V) : (check E c r s).queue = s.queue := by
  unfold check
  split
  · split <;> rfl
  · rfl

/-- Without a blocked request, a round takes a request. -/
theorem step_takes (E : Env V) (s : St V) (hb : s.blocked = none) :
    (step E 1 s).queue = s.queue.tail := by
  rw [step_one]
  unfold onRise
  rw [hb]
  cases hq : s.queue with
  | nil => simp [hq]
  | cons i q =>
    cases i with
    | none => rfl
    | dict r => exact check_queue ..
    | call f =>
      simp only
      cases E.res f s.cycle with
      | none => rfl
      | some r => exact check_queue ..

/-- A blocked request is unblocked when its condition holds. -/
theorem unblocks (E : Env V) (r : Nat) (d : Nat) : ∀ s : St V, s.blocked = some r →
    E.cond r (s.cycle + d) = true →
    ∃ n, (rounds E s n).blocked = none ∧ (rounds E s n).queue = s.queue := by
  induction d with
  | zero =>
    intro s hb hc
    have hc : E.cond r s.cycle = true := hc
    have h : rounds E s 1 = { apply E s.cycle r { s with blocked := none } with cycle := s.cycle + 1 } := by
      show step E 1 s = _
      rw [step_one]
      unfold onRise
      rw [hb]
      simp [hc]
    exact ⟨1, by rw [h]; rfl, by rw [h]; rfl⟩
  | succ d ih =>
    intro s hb hc
    by_cases hc' : E.cond r s.cycle = true
    · have h : rounds E s 1 =
          { apply E s.cycle r { s with blocked := none } with cycle := s.cycle + 1 } := by
        show step E 1 s = _
        rw [step_one]
        unfold onRise
        rw [hb]
        simp [hc']
      exact ⟨1, by rw [h]; rfl, by rw [h]; rfl⟩
    · have h : rounds E s 1 = { s with cycle := s.cycle + 1 } := by
        show step E 1 s = _
        rw [step_one]
        unfold onRise
        simp only [hb]
        rw [if_neg hc', hb]
      obtain ⟨n, h1, h2⟩ := ih { s with cycle := s.cycle + 1 } hb (by
        rw [← hc]
        show E.cond r (s.cycle + 1 + d) = _
        congr 1
        omega)
      refine ⟨1 + n, ?_, ?_⟩
      · rw [rounds_add, h, h1]
      · rw [rounds_add, h, h2]

theorem empties (E : Env V) (hE : ∀ r c, ∃ d, E.cond r (c + d) = true) (k : Nat) :
    ∀ s : St V, s.queue.length = k → ∃ n, (rounds E s n).queue = [] := by
  induction k with
  | zero =>
    intro s hs
    exact ⟨0, List.eq_nil_of_length_eq_zero hs⟩
  | succ k ih =>
    intro s hs
    have key : ∀ s : St V, s.blocked = none → s.queue.length = k + 1 →
        ∃ n, (rounds E s n).queue = [] := by
      intro s hb hs
      obtain ⟨n, hn⟩ := ih (rounds E s 1) (by
        show (step E 1 s).queue.length = k
        rw [step_takes E s hb, List.length_tail, hs]
        rfl)
      exact ⟨1 + n, by rw [rounds_add, hn]⟩
    cases hb : s.blocked with
    | none => exact key s hb hs
    | some r =>
      obtain ⟨d, hd⟩ := hE r s.cycle
      obtain ⟨m, h1, h2⟩ := unblocks E r d s hb hd
      obtain ⟨n, hn⟩ := key (rounds E s m) h1 (by rw [h2, hs])
      exact ⟨m + n, by rw [rounds_add, hn]⟩

theorem least (p : Nat → Prop) (n : Nat) (h : p n) : ∃ m, p m ∧ ∀ k, k < m → ¬ p k := by
  induction n using Nat.strongRecOn with
  | ind n ih =>
    by_cases hk : ∃ k, k < n ∧ p k
    · obtain ⟨k, hk, hp⟩ := hk
      exact ih k hk hp
    · exact ⟨n, h, fun k hkn hp => hk ⟨k, hkn, hp⟩⟩

theorem after_rounds (E : Env V) (items : List Item) (s : St V) (n : Nat) :
    after E 1 items s n = rounds E { s with queue := items } n := by
  induction n with
  | zero => rfl
  | succ n ih => rw [after_succ, ih]; rfl

/-- C49: if every condition holds again and again, `process_requests` returns. -/
theorem C49_terminates (E : Env V) (hE : ∀ r c, ∃ d, E.cond r (c + d) = true) (items : List Item)
    (s : St V) : ∃ n, Ends E 1 items s n := by
  obtain ⟨n, hn⟩ := empties E hE _ { s with queue := items } rfl
  obtain ⟨m, h1, h2⟩ := least (fun n => (after E 1 items s n).queue = []) n
    (by rw [after_rounds]; exact hn)
  exact ⟨m, h1, h2⟩

/-! ### Requests that do not fit -/

/-- The functions of the examples: the condition of dictionary `1` holds from cycle 2 on, a callable
request returns a new dictionary, and the bundles show the number of the cycle. -/
def exE : Env Nat := ⟨fun r c => r != 1 || decide (2 ≤ c), fun _ c => some (9 + c), fun _ c => 10 * c⟩

/-- Dictionary `1` has a condition, `0`, `1` and `2` have return bundles. -/
def exS : St Nat := ⟨[], none, fun r => ⟨r == 1, decide (r ≤ 2), none⟩, 0, []⟩

/-- C49 is violated: when the last request waits for its condition, `process_requests` returns without
its result, and the request is applied in a later cycle. -/
theorem C49_returns_violated :
    Ends exE 1 [.dict 0, .dict 1] exS 2 ∧
      results [.dict 0, .dict 1] (after exE 1 [.dict 0, .dict 1] exS 2) = [(0, 0)] ∧
      (after exE 1 [.dict 0, .dict 1] exS 2).log = [.applied 0 0] ∧
      (step exE 1 (after exE 1 [.dict 0, .dict 1] exS 2)).log = [.applied 0 0, .applied 1 2] := by
  refine ⟨⟨by decide, ?_⟩, by decide, by decide, by decide⟩
  intro m hm
  rcases (by omega : m = 0 ∨ m = 1) with rfl | rfl <;> decide

/-- C49 is violated: after a second `bind`, two requests are applied in one cycle. -/
theorem C49_rebind_violated :
    (after exE (registrations 2) [.dict 0, .dict 2] exS 1).log = [.applied 0 0, .applied 2 0] := by
  decide

/-- C49 is violated: a dictionary that is processed again has lost its special keys; its condition is
not waited for, and the result is that of its first application. -/
theorem C49_reuse_violated :
    let s := after exE 1 [.dict 1, .none] exS 4
    let s' := after exE 1 [.dict 1] s 1
    results [.dict 1] s = [(20, 2)] ∧ s'.log = [.applied 1 2, .applied 1 4] ∧
      results [.dict 1] s' = [(20, 2)] := by
  decide

/-! ### The hypotheses can be met -/

/-- The hypotheses of the theorems above hold for a list with every kind of request: the loop ends after
six rounds, because the second request waits for its condition. -/
def exItems : List Item := [.dict 0, .dict 1, .none, .call 0, .dict 2]

example : Fresh exE exItems exS ∧ Idle exS := by
  refine ⟨⟨by decide, fun _ _ => rfl, ?_, ?_⟩, rfl, rfl⟩
  · intro f c r h
    have : r = 9 + c := by
      simp [exE] at h
      omega
    subst this
    simp [exItems, dicts]
    omega
  · intro f f' c c' r h h'
    simp [exE] at h h'
    omega

example : Ends exE 1 exItems exS 6 ∧ (after exE 1 exItems exS 6).blocked = none ∧
    (after exE 1 exItems exS 6).log =
      [.applied 0 0, .applied 1 2, .called 0 4, .applied 13 4, .applied 2 5] ∧
    results exItems (after exE 1 exItems exS 6) = [(0, 0), (20, 2), (50, 5)] := by
  refine ⟨⟨by decide, ?_⟩, by decide, by decide, by decide⟩
  intro m hm
  have : m = 0 ∨ m = 1 ∨ m = 2 ∨ m = 3 ∨ m = 4 ∨ m = 5 := by omega
  rcases this with rfl | rfl | rfl | rfl | rfl | rfl <;> decide

example : ∀ r c, ∃ d, exE.cond r (c + d) = true := fun r c => ⟨2, by simp [exE]⟩

end Toffee.Requests
