import Verif.Model.Readers

/-! Reading from a monitor: C117. -/

namespace Toffee.Readers

variable {V : Type}

/-! ## Specification -/

/-- The values that were accepted into the queue. -/
def queuedOf : List (Ev V) → List V
  | [] => []
  | .queued v :: es => v :: queuedOf es
  | _ :: es => queuedOf es

/-- The values that readers received. -/
def receivedOf : List (Ev V) → List V
  | [] => []
  | .received _ v :: es => v :: receivedOf es
  | _ :: es => receivedOf es

/-- The values that the monitor produced. -/
def producedOf : List (Op V) → List V
  | [] => []
  | .produce v :: os => v :: producedOf os
  | _ :: os => producedOf os

/-- `start_monitor` does not occur. -/
def NoStart (ops : List (Op V)) : Prop := ∀ m, Op.start m ∉ ops

/-- Whether a task is inside a read, from what has happened: it was told to wait and has not received a
value since. -/
def waitsIn (r : Nat) : Bool → List (Ev V) → Bool
  | b, [] => b
  | b, .waits r' :: es => waitsIn r (if r' = r then true else b) es
  | b, .received r' _ :: es => waitsIn r (if r' = r then false else b) es
  | b, _ :: es => waitsIn r b es

def Reachable (s : St V) : Prop := ∃ ops, (run (St.init V) ops).1 = s

/-! ## Lemmas -/

theorem run_cons (s : St V) (op : Op V) (ops : List (Op V)) :
    run s (op :: ops) = ((run (step s op).1 ops).1, (step s op).2 :: (run (step s op).1 ops).2) := rfl

theorem run_append (s : St V) (a b : List (Op V)) :
    run s (a ++ b) = ((run (run s a).1 b).1, (run s a).2 ++ (run (run s a).1 b).2) := by
  induction a generalizing s with
  | nil => rfl
  | cons op a ih => rw [List.cons_append, run_cons, ih, run_cons]; rfl

/-- A property of queues that every queue of the state has. -/
def All (P : Q V → Prop) (s : St V) : Prop := (∀ q, s.cur = some q → P q) ∧ ∀ q ∈ s.old, P q

theorem resumeOld_all (P : Q V → Prop) (hres : ∀ q r, r ∈ q.woken → P q → P (q.resume r).1) (r : Nat)
    (qs : List (Q V)) (h : ∀ q ∈ qs, P q) : ∀ q ∈ (resumeOld r qs).1, P q := by
  induction qs with
  | nil => simp [resumeOld]
  | cons q qs ih =>
    intro q' hq'
    by_cases hw : r ∈ q.woken
    · simp only [resumeOld, if_pos hw, List.mem_cons] at hq'
      rcases hq' with rfl | hq'
      · exact hres q r hw (h q List.mem_cons_self)
      · exact h q' (List.mem_cons_of_mem _ hq')
    · simp only [resumeOld, if_neg hw, List.mem_cons] at hq'
      rcases hq' with rfl | hq'
      · exact h _ List.mem_cons_self
      · exact ih (fun x hx => h x (List.mem_cons_of_mem _ hx)) q' hq'

theorem step_all (P : Q V → Prop) (hnew : P ⟨[], [], []⟩) (hput : ∀ q v, P q → P (q.put v))
    (htake : ∀ q r, P q → P (q.take r).1) (hres : ∀ q r, r ∈ q.woken → P q → P (q.resume r).1)
    (s : St V) (op : Op V) (h : All P s) : All P (step s op).1 := by
  cases op with
  | start m =>
    refine ⟨fun q hq => ?_, fun q hq => ?_⟩
    · have : q = ⟨[], [], []⟩ := by simpa [step, eq_comm] using hq
      rw [this]; exact hnew
    · have : q ∈ s.cur.toList ++ s.old := hq
      rcases List.mem_append.mp this with hq | hq
      · exact h.1 q (by simpa using hq)
      · exact h.2 q hq
  | produce v =>
    cases hc : s.cur with
    | none => simpa [step, hc] using h
    | some q =>
      by_cases hm : (q.items.length : Int) ≥ s.max
      · simpa [step, hc, hm] using h
      · simp only [step, hc, hm, if_false]
        refine ⟨fun q' hq' => ?_, h.2⟩
        have : q.put v = q' := by simpa using hq'
        rw [← this]; exact hput q v (h.1 q hc)
  | read r =>
    by_cases hb : s.busy r = true
    · simpa [step, hb] using h
    · cases hc : s.cur with
      | none => simpa [step, hb, hc] using h
      | some q =>
        simp only [step, hb, hc]
        refine ⟨fun q' hq' => ?_, h.2⟩
        have : (q.take r).1 = q' := by simpa using hq'
        rw [← this]; exact htake q r (h.1 q hc)
  | resume r =>
    cases hc : s.cur with
    | none => simpa [step, hc] using h
    | some q =>
      by_cases hw : r ∈ q.woken
      · simp only [step, hc, if_pos hw]
        refine ⟨fun q' hq' => ?_, h.2⟩
        have : (q.resume r).1 = q' := by simpa using hq'
        rw [← this]; exact hres q r hw (h.1 q hc)
      · simp only [step, hc, if_neg hw]
        refine ⟨fun q' hq' => h.1 q' ?_, resumeOld_all P hres r s.old h.2⟩
        rw [hc]; exact hq'

theorem run_all (P : Q V → Prop) (hnew : P ⟨[], [], []⟩) (hput : ∀ q v, P q → P (q.put v))
    (htake : ∀ q r, P q → P (q.take r).1) (hres : ∀ q r, r ∈ q.woken → P q → P (q.resume r).1)
    (s : St V) (ops : List (Op V)) (h : All P s) : All P (run s ops).1 := by
  induction ops generalizing s with
  | nil => exact h
  | cons op ops ih => rw [run_cons]; exact ih _ (step_all P hnew hput htake hres s op h)

/-- Every item that a waiting reader could have has a woken reader coming for it. -/
def Served (q : Q V) : Prop := q.getters ≠ [] → q.items.length ≤ q.woken.length

theorem served_put (q : Q V) (v : V) (h : Served q) : Served (q.put v) := by
  cases hg : q.getters with
  | nil => intro hn; simp [Q.put, hg] at hn
  | cons r rs =>
    intro _
    have := h (by simp [hg])
    simp [Q.put, hg]; omega

theorem served_take (q : Q V) (r : Nat) (h : Served q) : Served (q.take r).1 := by
  cases hi : q.items with
  | nil => intro _; simp [Q.take, hi]
  | cons v vs =>
    intro hn
    have := h (by simpa [Q.take, hi] using hn)
    simp [Q.take, hi] at this ⊢; omega

theorem served_resume (q : Q V) (r : Nat) (hr : r ∈ q.woken) (h : Served q) : Served (q.resume r).1 := by
  cases hi : q.items with
  | nil => intro _; simp [Q.resume, Q.take, hi]
  | cons v vs =>
    intro hn
    have := h (by simpa [Q.resume, Q.take, hi] using hn)
    simp [Q.resume, Q.take, hi, List.length_erase_of_mem hr] at this ⊢; omega

/-! ## C117 -/

/-- C117: in every execution, a value never lies in a queue for which readers wait without a woken reader
coming for it: once every woken reader has run, the queue is empty or nobody waits for it. -/
theorem C117_no_lost_wakeup (s : St V) (h : Reachable s) (q : Q V) (hq : q ∈ s.cur.toList ++ s.old)
    (hw : q.woken = []) : q.items = [] ∨ q.getters = [] := by
  obtain ⟨ops, rfl⟩ := h
  have hall := run_all Served (fun h => absurd rfl h) served_put served_take served_resume
    (St.init V) ops ⟨by intro q hq; simp [St.init] at hq, by simp [St.init]⟩
  have hs : Served q := by
    rcases List.mem_append.mp hq with hq | hq
    · exact hall.1 q (by simpa using hq)
    · exact hall.2 q hq
  by_cases hg : q.getters = []
  · exact .inr hg
  · left
    have := hs hg
    rw [hw] at this
    exact List.length_eq_zero_iff.mp (by simpa using this)

theorem take_ev (q : Q V) (r : Nat) :
    (q.take r).2 = .waits r ∧ (q.take r).1.items = q.items ∨
      ∃ v, (q.take r).2 = .received r v ∧ q.items = v :: (q.take r).1.items := by
  cases hi : q.items with
  | nil => left; simp [Q.take, hi]
  | cons v vs => right; exact ⟨v, by simp [Q.take, hi]⟩

/-- C117, what holds while `start_monitor` is not called again: the values that were accepted are those
that the readers have received, in order, followed by those in the queue; nothing is lost, repeated or
reordered, whatever the readers do and however they are scheduled. -/
theorem C117_fifo_partial (m : Int) (ops : List (Op V)) (hns : NoStart ops) :
    ∃ q, (run (step (St.init V) (.start m)).1 ops).1.cur = some q ∧
      queuedOf (run (step (St.init V) (.start m)).1 ops).2 =
        receivedOf (run (step (St.init V) (.start m)).1 ops).2 ++ q.items := by
  have key : ∀ (ops : List (Op V)) (q : Q V), NoStart ops →
      ∃ q', (run ⟨m, some q, []⟩ ops).1.cur = some q' ∧
        q.items ++ queuedOf (run ⟨m, some q, []⟩ ops).2 =
          receivedOf (run ⟨m, some q, []⟩ ops).2 ++ q'.items := by
    intro ops
    induction ops with
    | nil => intro q _; exact ⟨q, rfl, by simp [run, queuedOf, receivedOf]⟩
    | cons op ops ih =>
      intro q hns
      have hns' : NoStart ops := fun m hm => hns m (List.mem_cons_of_mem _ hm)
      cases op with
      | start m' => exact absurd List.mem_cons_self (hns m')
      | produce v =>
        by_cases hm : (q.items.length : Int) ≥ m
        · simpa [run_cons, step, hm, queuedOf, receivedOf] using ih q hns'
        · have hi : (q.put v).items = q.items ++ [v] := by
            cases hg : q.getters <;> simp [Q.put, hg]
          obtain ⟨q', h1, h2⟩ := ih (q.put v) hns'
          refine ⟨q', by simpa [run_cons, step, hm] using h1, ?_⟩
          rw [hi] at h2
          simpa [run_cons, step, hm, queuedOf, receivedOf] using h2
      | read r =>
        by_cases hb : (⟨m, some q, []⟩ : St V).busy r = true
        · simpa [run_cons, step, hb, queuedOf, receivedOf] using ih q hns'
        · obtain ⟨q', h1, h2⟩ := ih (q.take r).1 hns'
          have hst : step ⟨m, some q, []⟩ (.read r) = (⟨m, some (q.take r).1, []⟩, (q.take r).2) := by
            simp [step, hb]
          refine ⟨q', by rw [run_cons, hst]; exact h1, ?_⟩
          rw [run_cons, hst]
          rcases take_ev q r with ⟨he, hi⟩ | ⟨v, he, hi⟩
          · simpa [he, hi, queuedOf, receivedOf] using h2
          · simpa [he, hi, queuedOf, receivedOf] using h2
      | resume r =>
        by_cases hw : r ∈ q.woken
        · obtain ⟨q', h1, h2⟩ := ih (q.resume r).1 hns'
          have hst : step ⟨m, some q, []⟩ (.resume r) =
              (⟨m, some (q.resume r).1, []⟩, (q.resume r).2) := by simp [step, hw]
          refine ⟨q', by rw [run_cons, hst]; exact h1, ?_⟩
          rw [run_cons, hst]
          rcases take_ev { q with woken := q.woken.erase r } r with ⟨he, hi⟩ | ⟨v, he, hi⟩
          · have he : (q.resume r).2 = .waits r := he
            have hi : (q.resume r).1.items = q.items := hi
            simpa [he, hi, queuedOf, receivedOf] using h2
          · have he : (q.resume r).2 = .received r v := he
            have hi : q.items = v :: (q.resume r).1.items := hi
            simpa [he, hi, queuedOf, receivedOf] using h2
        · simpa [run_cons, step, hw, resumeOld, queuedOf, receivedOf] using ih q hns'
  obtain ⟨q, h1, h2⟩ := key ops ⟨[], [], []⟩ hns
  exact ⟨q, h1, by rw [List.nil_append] at h2; exact h2⟩

/-- The reader waits on an old queue and has not been woken. -/
def Stuck (r : Nat) (s : St V) : Prop :=
  s.cur.isSome ∧ (∃ q ∈ s.old, r ∈ q.getters) ∧ (∀ q, s.cur = some q → r ∉ q.woken) ∧
    ∀ q ∈ s.old, r ∉ q.woken

theorem resumeOld_stuck (r r' : Nat) (qs : List (Q V)) (h : ∃ q ∈ qs, r ∈ q.getters)
    (hw : ∀ q ∈ qs, r ∉ q.woken) :
    (∃ q ∈ (resumeOld r' qs).1, r ∈ q.getters) ∧ (∀ q ∈ (resumeOld r' qs).1, r ∉ q.woken) ∧
      ∀ v, (resumeOld r' qs).2 ≠ .received r v := by
  induction qs with
  | nil => obtain ⟨q, hq, _⟩ := h; cases hq
  | cons q qs ih =>
    have hwq := hw q List.mem_cons_self
    have hwqs : ∀ q ∈ qs, r ∉ q.woken := fun x hx => hw x (List.mem_cons_of_mem _ hx)
    by_cases hq : r' ∈ q.woken
    · have hne : r' ≠ r := fun e => hwq (e ▸ hq)
      have hg : ∀ x, x ∈ q.getters → x ∈ (q.resume r').1.getters := by
        intro x hx
        cases hi : q.items <;> simp [Q.resume, Q.take, hi, hx]
      have hwk : (q.resume r').1.woken = q.woken.erase r' := by
        cases hi : q.items <;> simp [Q.resume, Q.take, hi]
      have hev : ∀ v, (q.resume r').2 ≠ .received r v := by
        intro v
        cases hi : q.items with
        | nil => simp [Q.resume, Q.take, hi]
        | cons w ws => simp [Q.resume, Q.take, hi, hne]
      simp only [resumeOld, if_pos hq]
      refine ⟨?_, ?_, hev⟩
      · obtain ⟨x, hx, hxr⟩ := h
        rcases List.mem_cons.mp hx with rfl | hx
        · exact ⟨_, List.mem_cons_self, hg r hxr⟩
        · exact ⟨x, List.mem_cons_of_mem _ hx, hxr⟩
      · intro x hx
        rcases List.mem_cons.mp hx with rfl | hx
        · rw [hwk]; exact fun hm => hwq (List.mem_of_mem_erase hm)
        · exact hwqs x hx
    · simp only [resumeOld, if_neg hq]
      by_cases hh : ∃ x ∈ qs, r ∈ x.getters
      · obtain ⟨⟨x, hx, hxr⟩, h2, h3⟩ := ih hh hwqs
        refine ⟨⟨x, List.mem_cons_of_mem _ hx, hxr⟩, ?_, h3⟩
        intro y hy
        rcases List.mem_cons.mp hy with rfl | hy
        · exact hwq
        · exact h2 y hy
      · have hr : r ∈ q.getters := by
          obtain ⟨x, hx, hxr⟩ := h
          rcases List.mem_cons.mp hx with rfl | hx
          · exact hxr
          · exact absurd ⟨x, hx, hxr⟩ hh
        have h2 : (∀ y ∈ (resumeOld r' qs).1, r ∉ y.woken) ∧ ∀ v, (resumeOld r' qs).2 ≠ .received r v := by
          clear ih h hw hh
          induction qs with
          | nil => simp [resumeOld]
          | cons z zs ihz =>
            have hz := hwqs z List.mem_cons_self
            obtain ⟨a, b⟩ := ihz (fun x hx => hwqs x (List.mem_cons_of_mem _ hx))
            by_cases hzr : r' ∈ z.woken
            · have hne : r' ≠ r := fun e => hz (e ▸ hzr)
              simp only [resumeOld, if_pos hzr]
              refine ⟨?_, ?_⟩
              · intro y hy
                rcases List.mem_cons.mp hy with rfl | hy
                · have : (z.resume r').1.woken = z.woken.erase r' := by
                    cases hi : z.items <;> simp [Q.resume, Q.take, hi]
                  rw [this]; exact fun hm => hz (List.mem_of_mem_erase hm)
                · exact hwqs y (List.mem_cons_of_mem _ hy)
              · intro v
                cases hi : z.items with
                | nil => simp [Q.resume, Q.take, hi]
                | cons w ws => simp [Q.resume, Q.take, hi, hne]
            · simp only [resumeOld, if_neg hzr]
              refine ⟨?_, b⟩
              intro y hy
              rcases List.mem_cons.mp hy with rfl | hy
              · exact hz
              · exact a y hy
        refine ⟨⟨q, List.mem_cons_self, hr⟩, ?_, h2.2⟩
        intro y hy
        rcases List.mem_cons.mp hy with rfl | hy
        · exact hwq
        · exact h2.1 y hy

theorem stuck_busy (r : Nat) (s : St V) (h : Stuck r s) : s.busy r = true := by
  obtain ⟨_, ⟨q, hq, hr⟩, _⟩ := h
  simp only [St.busy, Bool.or_eq_true, List.any_eq_true]
  exact .inr ⟨q, hq, by simp [Q.has, hr]⟩

theorem stuck_step (r : Nat) (s : St V) (op : Op V) (h : Stuck r s)
    (hc : ∀ q, s.cur = some q → r ∉ q.getters) :
    Stuck r (step s op).1 ∧ (∀ q, (step s op).1.cur = some q → r ∉ q.getters) ∧
      ∀ v, (step s op).2 ≠ .received r v := by
  have hb := stuck_busy r s h
  obtain ⟨h1, ⟨q0, hq0, hr0⟩, h3, h4⟩ := h
  cases op with
  | start m =>
    refine ⟨⟨rfl, ⟨q0, by simp [step, hq0], hr0⟩, ?_, ?_⟩, ?_, by simp [step]⟩
    · intro q hq
      have : q = ⟨[], [], []⟩ := by simpa [step, eq_comm] using hq
      simp [this]
    · intro q hq
      have hq : q ∈ s.cur.toList ++ s.old := hq
      rcases List.mem_append.mp hq with hq | hq
      · exact h3 q (by simpa using hq)
      · exact h4 q hq
    · intro q hq
      have : q = ⟨[], [], []⟩ := by simpa [step, eq_comm] using hq
      simp [this]
  | produce v =>
    cases hcur : s.cur with
    | none => rw [hcur] at h1; cases h1
    | some q =>
      by_cases hm : (q.items.length : Int) ≥ s.max
      · simp only [step, hcur, if_pos hm]
        exact ⟨⟨h1, ⟨q0, hq0, hr0⟩, h3, h4⟩, fun x hx => hc x (by rw [hcur]; exact (hcur ▸ hx)), by simp⟩
      · simp only [step, hcur, if_neg hm]
        have hg := hc q hcur
        have hw := h3 q hcur
        have hput : r ∉ (q.put v).getters ∧ r ∉ (q.put v).woken := by
          cases hgt : q.getters with
          | nil => simpa [Q.put, hgt] using hw
          | cons x xs =>
            rw [hgt] at hg
            simp only [List.mem_cons, not_or] at hg
            simp [Q.put, hgt, hw, hg.1, hg.2]
        refine ⟨⟨rfl, ⟨q0, hq0, hr0⟩, ?_, h4⟩, ?_, by simp⟩
        · intro x hx
          have : q.put v = x := by simpa using hx
          rw [← this]; exact hput.2
        · intro x hx
          have : q.put v = x := by simpa using hx
          rw [← this]; exact hput.1
  | read r' =>
    by_cases hb' : s.busy r' = true
    · simp only [step, if_pos hb']
      exact ⟨⟨h1, ⟨q0, hq0, hr0⟩, h3, h4⟩, hc, by simp⟩
    · have hne : r' ≠ r := fun e => hb' (e ▸ hb)
      cases hcur : s.cur with
      | none => rw [hcur] at h1; cases h1
      | some q =>
        simp only [step, hb', hcur]
        have hg := hc q hcur
        have hw := h3 q hcur
        have ht : r ∉ (q.take r').1.getters ∧ r ∉ (q.take r').1.woken ∧
            ∀ v, (q.take r').2 ≠ .received r v := by
          cases hi : q.items with
          | nil => simp [Q.take, hi, hg, hw, Ne.symm hne]
          | cons w ws => simp [Q.take, hi, hg, hw, hne]
        refine ⟨⟨rfl, ⟨q0, hq0, hr0⟩, ?_, h4⟩, ?_, ht.2.2⟩
        · intro x hx
          have : (q.take r').1 = x := by simpa using hx
          rw [← this]; exact ht.2.1
        · intro x hx
          have : (q.take r').1 = x := by simpa using hx
          rw [← this]; exact ht.1
  | resume r' =>
    cases hcur : s.cur with
    | none => rw [hcur] at h1; cases h1
    | some q =>
      have hg := hc q hcur
      have hw := h3 q hcur
      by_cases hr' : r' ∈ q.woken
      · have hne : r' ≠ r := fun e => hw (e ▸ hr')
        simp only [step, hcur, if_pos hr']
        have ht : r ∉ (q.resume r').1.getters ∧ r ∉ (q.resume r').1.woken ∧
            ∀ v, (q.resume r').2 ≠ .received r v := by
          have hwe : r ∉ q.woken.erase r' := fun hm => hw (List.mem_of_mem_erase hm)
          cases hi : q.items with
          | nil => simp [Q.resume, Q.take, hi, hg, hwe, Ne.symm hne]
          | cons w ws => simp [Q.resume, Q.take, hi, hg, hwe, hne]
        refine ⟨⟨rfl, ⟨q0, hq0, hr0⟩, ?_, h4⟩, ?_, ht.2.2⟩
        · intro x hx
          have : (q.resume r').1 = x := by simpa using hx
          rw [← this]; exact ht.2.1
        · intro x hx
          have : (q.resume r').1 = x := by simpa using hx
          rw [← this]; exact ht.1
      · simp only [step, hcur, if_neg hr']
        obtain ⟨a, b, c⟩ := resumeOld_stuck r r' s.old ⟨q0, hq0, hr0⟩ h4
        refine ⟨⟨rfl, a, ?_, b⟩, ?_, c⟩
        · intro x hx
          have : q = x := by simpa using hx
          rw [← this]; exact hw
        · intro x hx
          have : q = x := by simpa using hx
          rw [← this]; exact hg

/-- How many times a reader is inside the reads of a queue. -/
def cnt (r : Nat) (q : Q V) : Nat := q.getters.count r + q.woken.count r

def total (r : Nat) : List (Q V) → Nat
  | [] => 0
  | q :: qs => cnt r q + total r qs

theorem total_append (r : Nat) (a b : List (Q V)) : total r (a ++ b) = total r a + total r b := by
  induction a with
  | nil => simp [total]
  | cons q a ih => simp [total, ih]; omega

theorem cnt_put (r : Nat) (q : Q V) (v : V) : cnt r (q.put v) = cnt r q := by
  cases hg : q.getters with
  | nil => simp [Q.put, hg, cnt]
  | cons x xs => simp [Q.put, hg, cnt, List.count_cons, List.count_append]; omega

theorem cnt_take (r r' : Nat) (q : Q V) :
    cnt r (q.take r').1 ≤ cnt r q + if r' = r then 1 else 0 := by
  cases hi : q.items with
  | nil => simp [Q.take, hi, cnt, List.count_append, List.count_cons]; split <;> omega
  | cons v vs => simp [Q.take, hi, cnt]

theorem cnt_resume (r r' : Nat) (q : Q V) (h : r' ∈ q.woken) : cnt r (q.resume r').1 ≤ cnt r q := by
  have h1 := cnt_take r r' { q with woken := q.woken.erase r' }
  have h2 : cnt r { q with woken := q.woken.erase r' } + (if r' = r then 1 else 0) = cnt r q := by
    have hp : 0 < q.woken.count r' := List.count_pos_iff.mpr h
    by_cases e : r' = r
    · subst e
      simp only [cnt, List.count_erase_self, if_pos]
      omega
    · simp only [cnt, if_neg e, List.count_erase_of_ne (Ne.symm e), Nat.add_zero]
  exact Nat.le_trans h1 (Nat.le_of_eq h2)

theorem total_resumeOld (r r' : Nat) (qs : List (Q V)) :
    total r (resumeOld r' qs).1 ≤ total r qs := by
  induction qs with
  | nil => simp [resumeOld]
  | cons q qs ih =>
    by_cases h : r' ∈ q.woken
    · have := cnt_resume r r' q h
      simp only [resumeOld, if_pos h, total]; omega
    · simp only [resumeOld, if_neg h, total]; omega

theorem total_zero (r : Nat) (qs : List (Q V)) (h : ∀ q ∈ qs, q.has r = false) : total r qs = 0 := by
  induction qs with
  | nil => rfl
  | cons q qs ih =>
    have hq := h q List.mem_cons_self
    simp only [Q.has, Bool.or_eq_false_iff, decide_eq_false_iff_not] at hq
    simp [total, cnt, List.count_eq_zero.mpr hq.1, List.count_eq_zero.mpr hq.2,
      ih (fun x hx => h x (List.mem_cons_of_mem _ hx))]

def St.all (s : St V) : List (Q V) := s.cur.toList ++ s.old

theorem busy_false (s : St V) (r : Nat) (h : ¬s.busy r = true) : total r s.all = 0 := by
  apply total_zero
  intro q hq
  simp only [St.busy, Bool.or_eq_true, List.any_eq_true, not_or, not_exists, not_and,
    Bool.not_eq_true] at h
  rcases List.mem_append.mp hq with hq | hq
  · exact h.1 q hq
  · exact h.2 q hq

theorem once_step (s : St V) (op : Op V) (h : ∀ r, total r s.all ≤ 1) (r : Nat) :
    total r (step s op).1.all ≤ 1 := by
  have hr := h r
  cases op with
  | start m =>
    have : (step s (.start m)).1.all = ⟨[], [], []⟩ :: s.all := rfl
    rw [this]
    simpa [total, cnt] using hr
  | produce v =>
    cases hc : s.cur with
    | none => simpa [step, hc] using hr
    | some q =>
      by_cases hm : (q.items.length : Int) ≥ s.max
      · simpa [step, hc, hm] using hr
      · simpa [step, hc, hm, St.all, total, cnt_put] using hr
  | read r' =>
    by_cases hb : s.busy r' = true
    · simpa [step, hb] using hr
    · cases hc : s.cur with
      | none => simpa [step, hb, hc] using hr
      | some q =>
        have h1 := cnt_take r r' q
        have h0 := busy_false s r' hb
        have ha : s.all = q :: s.old := by simp [St.all, hc]
        have hst : (step s (.read r')).1.all = (q.take r').1 :: s.old := by
          simp [step, hb, hc, St.all]
        rw [hst]
        rw [ha] at hr h0
        simp only [total] at hr h0 ⊢
        by_cases e : r' = r
        · subst e; simp at h1; omega
        · simp [e] at h1; omega
  | resume r' =>
    cases hc : s.cur with
    | none => simpa [step, hc] using hr
    | some q =>
      have ha : s.all = q :: s.old := by simp [St.all, hc]
      rw [ha] at hr
      by_cases hw : r' ∈ q.woken
      · have h1 := cnt_resume r r' q hw
        have hst : (step s (.resume r')).1.all = (q.resume r').1 :: s.old := by
          simp [step, hw, hc, St.all]
        rw [hst]
        simp only [total] at hr ⊢; omega
      · have h1 := total_resumeOld r r' s.old
        have hst : (step s (.resume r')).1.all = q :: (resumeOld r' s.old).1 := by
          simp [step, hw, hc, St.all]
        rw [hst]
        simp only [total] at hr ⊢; omega

theorem once (s : St V) (h : Reachable s) (r : Nat) : total r s.all ≤ 1 := by
  obtain ⟨ops, rfl⟩ := h
  have key : ∀ (ops : List (Op V)) (s : St V), (∀ r, total r s.all ≤ 1) →
      ∀ r, total r (run s ops).1.all ≤ 1 := by
    intro ops
    induction ops with
    | nil => intro s h; exact h
    | cons op ops ih => intro s h; rw [run_cons]; exact ih _ (once_step s op h)
  exact key ops _ (fun r => by simp [St.init, St.all, total]) r

theorem total_take_waits (r r' : Nat) (q : Q V) (h : (q.take r').2 = .waits r') :
    cnt r (q.take r').1 = cnt r q + if r' = r then 1 else 0 := by
  cases hi : q.items with
  | nil => simp [Q.take, hi, cnt, List.count_append, List.count_cons]; split <;> omega
  | cons v vs => simp [Q.take, hi] at h

theorem total_take_received (r r' : Nat) (q : Q V) (v : V) (h : (q.take r').2 = .received r' v) :
    cnt r (q.take r').1 = cnt r q := by
  cases hi : q.items with
  | nil => simp [Q.take, hi] at h
  | cons v vs => simp [Q.take, hi, cnt]

theorem cnt_erase (r r' : Nat) (q : Q V) (h : r' ∈ q.woken) :
    cnt r { q with woken := q.woken.erase r' } + (if r' = r then 1 else 0) = cnt r q := by
  have hp : 0 < q.woken.count r' := List.count_pos_iff.mpr h
  by_cases e : r' = r
  · subst e
    simp only [cnt, List.count_erase_self, if_pos]
    omega
  · simp only [cnt, if_neg e, List.count_erase_of_ne (Ne.symm e), Nat.add_zero]

/-- How an event changes the number of reads a task is inside of. -/
def after (r : Nat) (n : Nat) : Ev V → Nat
  | .waits r' => if r' = r then 1 else n
  | .received r' _ => if r' = r then 0 else n
  | _ => n

theorem resumeOld_ev (r : Nat) (qs : List (Q V)) :
    (resumeOld r qs).2 = .skip ∨ 0 < total r qs ∧
      ((resumeOld r qs).2 = .waits r ∨ ∃ v, (resumeOld r qs).2 = .received r v) := by
  induction qs with
  | nil => exact .inl rfl
  | cons q qs ih =>
    by_cases hw : r ∈ q.woken
    · right
      have hpos : 0 < q.woken.count r := List.count_pos_iff.mpr hw
      simp only [resumeOld, if_pos hw, total, cnt]
      refine ⟨by omega, ?_⟩
      rcases take_ev { q with woken := q.woken.erase r } r with ⟨e, _⟩ | ⟨v, e, _⟩
      · exact .inl e
      · exact .inr ⟨v, e⟩
    · simp only [resumeOld, if_neg hw, total]
      rcases ih with h | ⟨h1, h2⟩
      · exact .inl h
      · exact .inr ⟨by omega, h2⟩

theorem resumeOld_after (r r' : Nat) (qs : List (Q V)) (hn : ∀ r, total r qs ≤ 1) :
    total r (resumeOld r' qs).1 = after r (total r qs) (resumeOld r' qs).2 := by
  induction qs with
  | nil => simp [resumeOld, after]
  | cons q qs ih =>
    by_cases hw : r' ∈ q.woken
    · have he := cnt_erase r r' q hw
      have hone := hn r'
      have hpos : 0 < q.woken.count r' := List.count_pos_iff.mpr hw
      simp only [resumeOld, if_pos hw]
      simp only [total] at hone ⊢
      rcases take_ev { q with woken := q.woken.erase r' } r' with ⟨e, _⟩ | ⟨v, e, _⟩
      · have ht := total_take_waits r r' { q with woken := q.woken.erase r' } e
        have e' : (q.resume r').2 = .waits r' := e
        have ht' : cnt r (q.resume r').1 = _ := ht
        rw [e', ht']
        simp only [after]
        by_cases hr : r' = r
        · subst hr
          simp only [if_pos] at he ⊢
          simp only [cnt] at hone he ⊢; omega
        · simp only [if_neg hr] at he ⊢; omega
      · have ht := total_take_received r r' { q with woken := q.woken.erase r' } v e
        have e' : (q.resume r').2 = .received r' v := e
        have ht' : cnt r (q.resume r').1 = _ := ht
        rw [e', ht']
        simp only [after]
        by_cases hr : r' = r
        · subst hr
          simp only [if_pos] at he ⊢
          simp only [cnt] at hone he ⊢; omega
        · simp only [if_neg hr] at he ⊢; omega
    · have hqs : ∀ r, total r qs ≤ 1 := fun r => by
        have := hn r
        simp only [total] at this; omega
      have ih := ih hqs
      have hone := hn r'
      simp only [resumeOld, if_neg hw, total] at hone ⊢
      rw [ih]
      rcases resumeOld_ev r' qs with h | ⟨h1, h | ⟨v, h⟩⟩
      · rw [h]; rfl
      · rw [h]
        simp only [after]
        by_cases hr : r' = r
        · subst hr; simp only [if_pos]; omega
        · simp only [if_neg hr]
      · rw [h]
        simp only [after]
        by_cases hr : r' = r
        · subst hr; simp only [if_pos]; omega
        · simp only [if_neg hr]

theorem after_step (s : St V) (op : Op V) (h : ∀ r, total r s.all ≤ 1) (r : Nat) :
    total r (step s op).1.all = after r (total r s.all) (step s op).2 := by
  cases op with
  | start m =>
    have : (step s (.start m)).1.all = ⟨[], [], []⟩ :: s.all := rfl
    rw [this]
    simp [total, cnt, step, after]
  | produce v =>
    cases hc : s.cur with
    | none => simp [step, hc, after]
    | some q =>
      by_cases hm : (q.items.length : Int) ≥ s.max
      · simp [step, hc, hm, after]
      · simp [step, hc, hm, St.all, total, cnt_put, after]
  | read r' =>
    by_cases hb : s.busy r' = true
    · simp [step, hb, after]
    · cases hc : s.cur with
      | none => simp [step, hb, hc, after]
      | some q =>
        have h0 := busy_false s r' hb
        have ha : s.all = q :: s.old := by simp [St.all, hc]
        have hst : (step s (.read r')).1.all = (q.take r').1 :: s.old := by
          simp [step, hb, hc, St.all]
        have hev : (step s (.read r')).2 = (q.take r').2 := by simp [step, hb, hc]
        rw [hst, hev, ha]
        rw [ha] at h0
        simp only [total] at h0 ⊢
        rcases take_ev q r' with ⟨e, _⟩ | ⟨v, e, _⟩
        · rw [e, total_take_waits r r' q e]
          simp only [after]
          by_cases hr : r' = r
          · subst hr; simp only [if_pos]; omega
          · simp only [if_neg hr]; omega
        · rw [e, total_take_received r r' q v e]
          simp only [after]
          by_cases hr : r' = r
          · subst hr; simp only [if_pos]; omega
          · simp only [if_neg hr]
  | resume r' =>
    cases hc : s.cur with
    | none => simp [step, hc, after]
    | some q =>
      have ha : s.all = q :: s.old := by simp [St.all, hc]
      have hst : (step s (.resume r')).1.all = (resumeOld r' (q :: s.old)).1 ∧
          (step s (.resume r')).2 = (resumeOld r' (q :: s.old)).2 := by
        by_cases hw : r' ∈ q.woken <;> simp [step, resumeOld, hw, hc, St.all]
      rw [hst.1, hst.2, ha]
      exact resumeOld_after r r' _ (fun r => ha ▸ h r)


theorem total_mem (r : Nat) (qs : List (Q V)) (q : Q V) (h : q ∈ qs) : cnt r q ≤ total r qs := by
  induction qs with
  | nil => cases h
  | cons x xs ih =>
    simp only [total]
    rcases List.mem_cons.mp h with rfl | h
    · omega
    · have := ih h; omega

/-- C117: `get_queue_size` is the number of values accepted and not received since `start_monitor`, and 0
before the first `start_monitor`. -/
theorem C117_size (m : Int) (ops : List (Op V)) (hns : NoStart ops) :
    (run (St.init V) ops).1.size = 0 ∧
    (run (step (St.init V) (.start m)).1 ops).1.size +
        (receivedOf (run (step (St.init V) (.start m)).1 ops).2).length =
      (queuedOf (run (step (St.init V) (.start m)).1 ops).2).length := by
  constructor
  · have key : ∀ (ops : List (Op V)), NoStart ops → (run (St.init V) ops).1 = St.init V := by
      intro ops
      induction ops with
      | nil => intro _; rfl
      | cons op ops ih =>
        intro hns
        have hns' : NoStart ops := fun m hm => hns m (List.mem_cons_of_mem _ hm)
        cases op with
        | start m' => exact absurd List.mem_cons_self (hns m')
        | _ => exact ih hns'
    rw [key ops hns]; rfl
  · obtain ⟨q, h1, h2⟩ := C117_fifo_partial m ops hns
    rw [h2, List.length_append]
    unfold St.size
    rw [h1]
    simp only
    omega

/-- C117: a task that was told to wait and has not received a value since is inside exactly one read, of
one queue, waiting or woken; any other task is inside none. -/
theorem C117_registered (ops : List (Op V)) (r : Nat) :
    (((run (St.init V) ops).1.cur.toList ++ (run (St.init V) ops).1.old).map fun q =>
      q.getters.count r + q.woken.count r).sum = (waitsIn r false (run (St.init V) ops).2).toNat := by
  have hsum : ∀ qs : List (Q V), (qs.map fun q => q.getters.count r + q.woken.count r).sum = total r qs := by
    intro qs
    induction qs with
    | nil => rfl
    | cons q qs ih => simp [total, cnt, ih]
  rw [hsum]
  have key : ∀ (ops : List (Op V)) (s : St V) (b : Bool), (∀ r, total r s.all ≤ 1) →
      total r s.all = b.toNat → total r (run s ops).1.all = (waitsIn r b (run s ops).2).toNat := by
    intro ops
    induction ops with
    | nil => intro s b _ h; exact h
    | cons op ops ih =>
      intro s b h1 h2
      have h3 := after_step s op h1 r
      have h4 : ∀ r, total r (step s op).1.all ≤ 1 := once_step s op h1
      rw [run_cons]
      cases he : (step s op).2 with
      | waits r' =>
        refine ih _ _ h4 ?_
        rw [h3, he, h2]
        simp only [after]
        by_cases hr : r' = r <;> simp [hr]
      | received r' v =>
        refine ih _ _ h4 ?_
        rw [h3, he, h2]
        simp only [after]
        by_cases hr : r' = r <;> simp [hr]
      | _ =>
        refine ih _ _ h4 ?_
        rw [h3, he, h2]
        rfl
  exact key ops _ false (fun r => by simp [St.init, St.all, total]) (by simp [St.init, St.all, total])

/-- C117, not what a user expects: a task that waits for a value when `start_monitor` is called again
waits forever.  Whatever follows, however many values are monitored, it receives nothing. -/
theorem C117_stranded_violated (s : St V) (hreach : Reachable s) (q : Q V) (r : Nat)
    (hcur : s.cur = some q) (hr : r ∈ q.getters) (m : Int) (ops : List (Op V)) (v : V) :
    Ev.received r v ∉ (run s (.start m :: ops)).2 := by
  have hw : ∀ x ∈ q :: s.old, r ∉ x.woken := by
    have h1 := once s hreach r
    rw [St.all, hcur] at h1
    simp only [Option.toList_some, List.cons_append, List.nil_append, total] at h1
    have hg : 0 < q.getters.count r := List.count_pos_iff.mpr hr
    intro x hx hxw
    have hxc : 0 < x.woken.count r := List.count_pos_iff.mpr hxw
    rcases List.mem_cons.mp hx with rfl | hx
    · simp only [cnt] at h1; omega
    · have := total_mem r s.old x hx
      simp only [cnt] at h1 this; omega
  have key : ∀ (ops : List (Op V)) (s : St V), Stuck r s → (∀ q, s.cur = some q → r ∉ q.getters) →
      Ev.received r v ∉ (run s ops).2 := by
    intro ops
    induction ops with
    | nil => intro s _ _; simp [run]
    | cons op ops ih =>
      intro s h hc
      obtain ⟨a, b, c⟩ := stuck_step r s op h hc
      rw [run_cons]
      intro hm
      rcases List.mem_cons.mp hm with hm | hm
      · exact c v hm.symm
      · exact ih _ a b hm
  rw [run_cons]
  intro hm
  rcases List.mem_cons.mp hm with hm | hm
  · cases hm
  · refine key ops _ ⟨rfl, ⟨q, by simp [step, hcur], hr⟩, ?_, ?_⟩ ?_ hm
    · intro x hx
      have : x = ⟨[], [], []⟩ := by simpa [step, eq_comm] using hx
      simp [this]
    · intro x hx
      have hx : x ∈ s.cur.toList ++ s.old := hx
      rw [hcur] at hx
      exact hw x hx
    · intro x hx
      have : x = ⟨[], [], []⟩ := by simpa [step, eq_comm] using hx
      simp [this]

/-- Only values in `P` can be received from the queues of the state. -/
def Only (P : List V) (s : St V) : Prop :=
  (∀ q, s.cur = some q → ∀ v ∈ q.items, v ∈ P) ∧ ∀ q ∈ s.old, q.woken = [] ∨ ∀ v ∈ q.items, v ∈ P

theorem take_only (P : List V) (q : Q V) (r : Nat) (h : ∀ v ∈ q.items, v ∈ P) :
    (∀ v ∈ (q.take r).1.items, v ∈ P) ∧ ∀ r' v, (q.take r).2 = .received r' v → v ∈ P := by
  rcases take_ev q r with ⟨he, hi⟩ | ⟨w, he, hi⟩
  · exact ⟨by rw [hi]; exact h, by intro r' v hv; rw [he] at hv; cases hv⟩
  · rw [hi] at h
    refine ⟨fun v hv => h v (List.mem_cons_of_mem _ hv), ?_⟩
    intro r' v hv
    rw [he] at hv
    cases hv
    exact h w List.mem_cons_self

theorem resume_only (P : List V) (q : Q V) (r : Nat) (h : ∀ v ∈ q.items, v ∈ P) :
    (∀ v ∈ (q.resume r).1.items, v ∈ P) ∧ ∀ r' v, (q.resume r).2 = .received r' v → v ∈ P :=
  take_only P { q with woken := q.woken.erase r } r h

theorem resumeOld_only (P : List V) (r : Nat) (qs : List (Q V))
    (h : ∀ q ∈ qs, q.woken = [] ∨ ∀ v ∈ q.items, v ∈ P) :
    (∀ q ∈ (resumeOld r qs).1, q.woken = [] ∨ ∀ v ∈ q.items, v ∈ P) ∧
      ∀ r' v, (resumeOld r qs).2 = .received r' v → v ∈ P := by
  induction qs with
  | nil => simp [resumeOld]
  | cons q qs ih =>
    have hq := h q List.mem_cons_self
    have hqs : ∀ q ∈ qs, q.woken = [] ∨ ∀ v ∈ q.items, v ∈ P :=
      fun x hx => h x (List.mem_cons_of_mem _ hx)
    by_cases hr : r ∈ q.woken
    · have hit : ∀ v ∈ q.items, v ∈ P := by
        rcases hq with hq | hq
        · rw [hq] at hr; cases hr
        · exact hq
      obtain ⟨a, b⟩ := resume_only P q r hit
      simp only [resumeOld, if_pos hr]
      refine ⟨?_, b⟩
      intro x hx
      rcases List.mem_cons.mp hx with rfl | hx
      · exact .inr a
      · exact hqs x hx
    · obtain ⟨a, b⟩ := ih hqs
      simp only [resumeOld, if_neg hr]
      refine ⟨?_, b⟩
      intro x hx
      rcases List.mem_cons.mp hx with rfl | hx
      · exact hq
      · exact a x hx

theorem only_step (P : List V) (s : St V) (op : Op V) (h : Only P s)
    (hop : ∀ v, op = .produce v → v ∈ P) :
    Only P (step s op).1 ∧ ∀ r v, (step s op).2 = .received r v → v ∈ P := by
  cases op with
  | start m =>
    refine ⟨⟨fun q hq => ?_, fun q hq => ?_⟩, by simp [step]⟩
    · have : q = ⟨[], [], []⟩ := by simpa [step, eq_comm] using hq
      simp [this]
    · have hq : q ∈ s.cur.toList ++ s.old := hq
      rcases List.mem_append.mp hq with hq | hq
      · exact .inr (h.1 q (by simpa using hq))
      · exact h.2 q hq
  | produce v =>
    cases hc : s.cur with
    | none => simpa [step, hc] using h
    | some q =>
      by_cases hm : (q.items.length : Int) ≥ s.max
      · simpa [step, hc, hm] using h
      · simp only [step, hc, if_neg hm]
        refine ⟨⟨fun q' hq' => ?_, h.2⟩, by simp⟩
        have : q.put v = q' := by simpa using hq'
        have hi : (q.put v).items = q.items ++ [v] := by
          cases hg : q.getters <;> simp [Q.put, hg]
        rw [← this, hi]
        intro w hw
        rcases List.mem_append.mp hw with hw | hw
        · exact h.1 q hc w hw
        · exact hop w (by rw [List.mem_singleton.mp hw])
  | read r =>
    by_cases hb : s.busy r = true
    · simpa [step, hb] using h
    · cases hc : s.cur with
      | none => simpa [step, hb, hc] using h
      | some q =>
        obtain ⟨a, b⟩ := take_only P q r (h.1 q hc)
        simp only [step, hb, hc]
        refine ⟨⟨fun q' hq' => ?_, h.2⟩, b⟩
        have : (q.take r).1 = q' := by simpa using hq'
        rw [← this]; exact a
  | resume r =>
    cases hc : s.cur with
    | none => simpa [step, hc] using h
    | some q =>
      by_cases hr : r ∈ q.woken
      · obtain ⟨a, b⟩ := resume_only P q r (h.1 q hc)
        simp only [step, hc, if_pos hr]
        refine ⟨⟨fun q' hq' => ?_, h.2⟩, b⟩
        have : (q.resume r).1 = q' := by simpa using hq'
        rw [← this]; exact a
      · obtain ⟨a, b⟩ := resumeOld_only P r s.old h.2
        simp only [step, hc, if_neg hr]
        refine ⟨⟨fun q' hq' => h.1 q' ?_, a⟩, b⟩
        rw [hc]; exact hq'

theorem only_run (P : List V) (ops : List (Op V)) (s : St V) (h : Only P s)
    (hops : ∀ v ∈ producedOf ops, v ∈ P) : ∀ v ∈ receivedOf (run s ops).2, v ∈ P := by
  induction ops generalizing s with
  | nil => simp [run, receivedOf]
  | cons op ops ih =>
    obtain ⟨a, b⟩ := only_step P s op h (fun v hv => hops v (by simp [hv, producedOf]))
    have hops' : ∀ v ∈ producedOf ops, v ∈ P := by
      intro v hv
      apply hops
      cases op <;> simp [producedOf, hv]
    have ih := ih _ a hops'
    rw [run_cons]
    intro v hv
    cases he : (step s op).2 with
    | received r w =>
      simp only [he, receivedOf, List.mem_cons] at hv
      rcases hv with rfl | hv
      · exact b r _ he
      · exact ih v hv
    | _ =>
      simp only [he, receivedOf] at hv
      exact ih v hv

/-- C117, not what a user expects: calling `start_monitor` again discards what is in the queue.  If no
reader is just about to run, what is received from then on are values that the monitor produces from
then on, whatever was in the queue. -/
theorem C117_discarded_violated (s : St V) (hw : ∀ q ∈ s.cur.toList ++ s.old, q.woken = []) (m : Int)
    (ops : List (Op V)) : ∀ v ∈ receivedOf (run s (.start m :: ops)).2, v ∈ producedOf ops := by
  intro v hv
  rw [run_cons] at hv
  refine only_run (producedOf ops) ops _ ⟨?_, ?_⟩ (fun _ h => h) v hv
  · intro q hq
    have : q = ⟨[], [], []⟩ := by simpa [step, eq_comm] using hq
    simp [this]
  · intro q hq
    exact .inl (hw q hq)

/-- C117, not what a user expects: readers are not served in the order in which they ask.  Reader 1 waits
when the value comes, reader 2 asks afterwards and receives it. -/
theorem C117_overtaken_violated :
    (run (St.init Nat) [.start 4, .read 1, .produce 10, .read 2, .resume 1]).2 =
      [.started, .waits 1, .queued 10, .received 2 10, .waits 1] := by decide

/-! Non-vacuity. -/

/-- Two readers, a full queue, a read after the fact. -/
example : (run (St.init Nat) [.start 1, .read 1, .produce 10, .produce 11, .resume 1, .produce 12,
    .read 2]).2 =
    [.started, .waits 1, .queued 10, .dropped 11, .received 1 10, .queued 12, .received 2 12] := by
  decide

example : waitsIn 1 false (run (St.init Nat) [.start 4, .read 1, .produce 10, .read 2, .resume 1]).2 = true := by
  decide

example : NoStart [Op.read 1, .produce 10, .resume (V := Nat) 1] := by intro m hm; simp at hm

/-- A state as in `C117_stranded_violated`, and one as in `C117_discarded_violated`. -/
example : Reachable (⟨4, some ⟨[], [1], []⟩, []⟩ : St Nat) := ⟨[.start 4, .read 1], by decide⟩
example : (run (St.init Nat) [.start 4, .read 1, .start 4, .produce 10, .read 1, .resume 1, .read 2]).2 =
    [.started, .waits 1, .started, .queued 10, .skip, .skip, .received 2 10] := by decide
example : (run (St.init Nat) [.start 4, .produce 10]).1 = ⟨4, some ⟨[10], [], []⟩, []⟩ := by decide
example : (run (St.init Nat) [.start 4, .produce 10, .start 4, .read 1, .produce 11, .resume 1]).2 =
    [.started, .queued 10, .started, .waits 1, .queued 11, .received 1 11] := by decide
/-- A reader that has been woken when `start_monitor` is called still receives its value. -/
example : (run (St.init Nat) [.start 4, .read 1, .produce 10, .start 4, .resume 1]).2 =
    [.started, .waits 1, .queued 10, .started, .received 1 10] := by decide

end Toffee.Readers
