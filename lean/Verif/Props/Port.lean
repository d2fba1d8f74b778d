import Verif.Model.Port

/-!
Properties C25 and C26: ports and monitor queues are bounded drop-newest FIFOs.
-/

namespace Toffee.Port
variable {V : Type}

/-- Spec: the accepted and the received values of an outcome history, in order. -/
def acceptedOf : List (Out V) → List V
  | [] => []
  | .accepted v :: os => v :: acceptedOf os
  | _ :: os => acceptedOf os

def receivedOf : List (Out V) → List V
  | [] => []
  | .received v :: os => v :: receivedOf os
  | _ :: os => receivedOf os

/-- Spec: the values sent by an operation history. -/
def sentOf : List (Op V) → List V
  | [] => []
  | .put v :: ops => v :: sentOf ops
  | .get :: ops => sentOf ops

theorem run_conservation (p : Port V) (ops : List (Op V)) :
    p.items ++ acceptedOf (p.run ops).2 = receivedOf (p.run ops).2 ++ (p.run ops).1.items ∧
    (p.run ops).1.maxsize = p.maxsize := by
  induction ops generalizing p with
  | nil => simp [Port.run, acceptedOf, receivedOf]
  | cons op ops ih =>
    cases op with
    | put v =>
      by_cases h : (p.items.length : Int) ≥ p.maxsize ∧ p.maxsize ≠ -1
      · have := ih p
        simp [Port.run, Port.step, Port.put, h, acceptedOf, receivedOf, this]
      · have := ih { p with items := p.items ++ [v] }
        simp only [List.append_assoc, List.singleton_append] at this
        simp [Port.run, Port.step, Port.put, h, acceptedOf, receivedOf, this]
    | get =>
      cases hi : p.items with
      | nil =>
        have := ih p
        rw [hi] at this
        simpa [Port.run, Port.step, Port.get, hi, acceptedOf, receivedOf] using this
      | cons v rest =>
        have := ih { p with items := rest }
        simp [Port.run, Port.step, Port.get, hi, acceptedOf, receivedOf, this]

/-- C25, FIFO: starting from an empty port, the accepted values are exactly the received ones
followed by those still held, in order: nothing accepted is lost, duplicated or reordered. -/
theorem C25_fifo (maxsize : Int) (ops : List (Op V)) :
    acceptedOf ((⟨maxsize, []⟩ : Port V).run ops).2 =
      receivedOf ((⟨maxsize, []⟩ : Port V).run ops).2 ++ ((⟨maxsize, []⟩ : Port V).run ops).1.items := by
  have := (run_conservation (⟨maxsize, []⟩ : Port V) ops).1
  simpa using this

theorem run_bounded (p : Port V) (hm : p.maxsize > 0) (hb : (p.items.length : Int) ≤ p.maxsize)
    (ops : List (Op V)) : ((p.run ops).1.items.length : Int) ≤ p.maxsize := by
  induction ops generalizing p with
  | nil => exact hb
  | cons op ops ih =>
    cases op with
    | put v =>
      by_cases h : (p.items.length : Int) ≥ p.maxsize ∧ p.maxsize ≠ -1
      · simpa [Port.run, Port.step, Port.put, h] using ih p hm hb
      · have hlt : (p.items.length : Int) < p.maxsize := by omega
        simpa [Port.run, Port.step, Port.put, h] using
          ih { p with items := p.items ++ [v] } hm (by simp; omega)
    | get =>
      cases hi : p.items with
      | nil => simpa [Port.run, Port.step, Port.get, hi] using ih p hm hb
      | cons v rest =>
        rw [hi] at hb
        simpa [Port.run, Port.step, Port.get, hi] using
          ih { p with items := rest } hm (by simp at hb ⊢; omega)

/-- C25, bound: a port with `maxsize > 0` never holds more than `maxsize` values. -/
theorem C25_bounded (maxsize : Int) (hm : maxsize > 0) (ops : List (Op V)) :
    (((⟨maxsize, []⟩ : Port V).run ops).1.items.length : Int) ≤ maxsize :=
  run_bounded ⟨maxsize, []⟩ hm (by simp; omega) ops

/-- C25, what is dropped: after any history, a further value is dropped exactly when the port is
bounded and already holds `maxsize` values; then the port is unchanged.  Otherwise it is appended. -/
theorem C25_drops_exactly_when_full (maxsize : Int) (hm : maxsize > 0 ∨ maxsize = -1)
    (ops : List (Op V)) (v : V) :
    let p := ((⟨maxsize, []⟩ : Port V).run ops).1
    ((p.step (.put v)).2 = .dropped v ↔ maxsize ≠ -1 ∧ (p.items.length : Int) = maxsize) ∧
    ((p.step (.put v)).2 = .dropped v → (p.step (.put v)).1 = p) ∧
    ((p.step (.put v)).2 ≠ .dropped v →
      (p.step (.put v)).2 = .accepted v ∧ (p.step (.put v)).1.items = p.items ++ [v]) := by
  intro p
  have hmax : p.maxsize = maxsize := (run_conservation (⟨maxsize, []⟩ : Port V) ops).2
  have hbound : maxsize > 0 → (p.items.length : Int) ≤ maxsize := fun h => C25_bounded maxsize h ops
  by_cases h : (p.items.length : Int) ≥ p.maxsize ∧ p.maxsize ≠ -1
  · have hs : p.step (.put v) = (p, .dropped v) := by simp only [Port.step, Port.put, if_pos h]
    rw [hs]
    rw [hmax] at h
    refine ⟨⟨fun _ => ⟨h.2, by have := h.1; have := h.2; omega⟩, fun _ => rfl⟩, fun _ => rfl,
      fun hne => absurd rfl hne⟩
  · have hs : p.step (.put v) = ({ p with items := p.items ++ [v] }, .accepted v) := by
      simp only [Port.step, Port.put, if_neg h]
    rw [hs]
    refine ⟨⟨fun hd => (nomatch hd), fun hd => ?_⟩, fun hd => (nomatch hd), fun _ => ⟨rfl, rfl⟩⟩
    exfalso; apply h
    rw [hmax]; omega

/-- C25: an unbounded port (`maxsize = -1`) accepts everything, in order. -/
theorem C25_unbounded_accepts_all (ops : List (Op V)) :
    acceptedOf ((⟨-1, []⟩ : Port V).run ops).2 = sentOf ops := by
  suffices h : ∀ p : Port V, p.maxsize = -1 → acceptedOf (p.run ops).2 = sentOf ops from h _ rfl
  induction ops with
  | nil => intro p _; rfl
  | cons op ops ih =>
    intro p hp
    cases op with
    | put v =>
      have := ih { p with items := p.items ++ [v] } hp
      simp [Port.run, Port.step, Port.put, hp, acceptedOf, sentOf]
      simpa [hp] using this
    | get =>
      cases hi : p.items with
      | nil => simpa [Port.run, Port.step, Port.get, hi, acceptedOf, sentOf] using ih p hp
      | cons v rest =>
        simpa [Port.run, Port.step, Port.get, hi, acceptedOf, sentOf] using
          ih { p with items := rest } hp

/-- C25: only positive sizes and `-1` are admitted. -/
theorem C25_constructor (maxsize : Int) :
    (∃ p, Port.new V maxsize = .ok p) ↔ (maxsize > 0 ∨ maxsize = -1) := by
  unfold Port.new
  split
  · rename_i h; exact ⟨fun _ => h, fun _ => ⟨_, rfl⟩⟩
  · rename_i h; exact ⟨fun ⟨p, hp⟩ => (nomatch hp), fun h' => absurd h' h⟩

/-- Non-vacuity for C25: a full port drops, and accepts again after a read. -/
example : ((⟨2, []⟩ : Port Nat).run [.put 1, .put 2, .put 3, .get, .put 4, .get, .get, .get]).2 =
    [.accepted 1, .accepted 2, .dropped 3, .received 1, .accepted 4, .received 2, .received 4,
      .empty] := by decide

/-! ### C26 -/

def queuedOf : List (MOut V) → List V
  | [] => []
  | .queued v :: os => v :: queuedOf os
  | _ :: os => queuedOf os

def mreceivedOf : List (MOut V) → List V
  | [] => []
  | .received v :: os => v :: mreceivedOf os
  | _ :: os => mreceivedOf os

/-- Histories after `start_monitor` without a further `start_monitor`. -/
def NoStart (ops : List (MOp V)) : Prop := ∀ m, MOp.start m ∉ ops

theorem mrun_inv (q : List V) (mx : Int) (hq : (q.length : Int) ≤ max mx 0) (ops : List (MOp V))
    (hns : NoStart ops) :
    ∃ q', ((⟨some (q, mx)⟩ : MonitorQueue V).run ops).1 = ⟨some (q', mx)⟩ ∧
      (q'.length : Int) ≤ max mx 0 ∧
      q ++ queuedOf ((⟨some (q, mx)⟩ : MonitorQueue V).run ops).2 =
        mreceivedOf ((⟨some (q, mx)⟩ : MonitorQueue V).run ops).2 ++ q' := by
  induction ops generalizing q with
  | nil => exact ⟨q, rfl, hq, by simp [MonitorQueue.run, queuedOf, mreceivedOf]⟩
  | cons op ops ih =>
    have hns' : NoStart ops := fun m hm => hns m (List.mem_cons_of_mem _ hm)
    cases op with
    | start m => exact absurd List.mem_cons_self (hns m)
    | produce r =>
      cases r with
      | none => simpa [MonitorQueue.run, MonitorQueue.step, queuedOf, mreceivedOf] using ih q hq hns'
      | some v =>
        by_cases h : (q.length : Int) ≥ mx
        · simpa [MonitorQueue.run, MonitorQueue.step, h, queuedOf, mreceivedOf] using ih q hq hns'
        · have := ih (q ++ [v]) (by simp; omega) hns'
          simpa [MonitorQueue.run, MonitorQueue.step, h, queuedOf, mreceivedOf] using this
    | read =>
      cases q with
      | nil => simpa [MonitorQueue.run, MonitorQueue.step, queuedOf, mreceivedOf] using ih [] hq hns'
      | cons v rest =>
        have := ih rest (by simp at hq ⊢; omega) hns'
        simpa [MonitorQueue.run, MonitorQueue.step, queuedOf, mreceivedOf] using this

/-- C26, FIFO and bound.  After `start_monitor(name, m)` and any further history of monitored values
and reads, the queued values are exactly the received ones followed by those waiting, in order, and
`monitor_size` never exceeds `m` (0 for a non-positive `m`). -/
theorem C26_fifo_bounded (pre : List (MOp V)) (mx : Int) (ops : List (MOp V)) (hns : NoStart ops) :
    let m0 := (((⟨none⟩ : MonitorQueue V).run pre).1.step (.start mx)).1
    ∃ waiting, queuedOf (m0.run ops).2 = mreceivedOf (m0.run ops).2 ++ waiting ∧
      (m0.run ops).1.size = waiting.length ∧ ((m0.run ops).1.size : Int) ≤ max mx 0 := by
  intro m0
  have hm0 : m0 = ⟨some ([], mx)⟩ := rfl
  obtain ⟨q', h1, h2, h3⟩ := mrun_inv ([] : List V) mx (by simp; omega) ops hns
  rw [hm0]
  refine ⟨q', by simpa using h3, by simp [MonitorQueue.size, h1], by simpa [MonitorQueue.size, h1] using h2⟩

/-- C26, what is dropped, as long as the monitor task runs: with a positive size, a produced value is dropped
exactly when `monitor_size` equals the size; `None` results are never queued or dropped.  Missing: agents that belong
to no environment, whose monitor tasks end when the queue is full (`C26_no_env_violated`). -/
theorem C26_drops_exactly_when_full_partial (pre : List (MOp V)) (mx : Int) (hmx : mx > 0)
    (ops : List (MOp V)) (hns : NoStart ops) (v : V) :
    let m := ((((⟨none⟩ : MonitorQueue V).run pre).1.step (.start mx)).1.run ops).1
    ((m.step (.produce (some v))).2 = .dropped v ↔ (m.size : Int) = mx) ∧
    ((m.size : Int) ≠ mx → (m.step (.produce (some v))).2 = .queued v) ∧
    (m.step (.produce none)) = (m, .ignored) := by
  intro m
  obtain ⟨q', h1, h2, _⟩ := mrun_inv ([] : List V) mx (by simp; omega) ops hns
  have hm : m = ⟨some (q', mx)⟩ := h1
  rw [hm]
  have h2' : (q'.length : Int) ≤ mx := by omega
  by_cases h : (q'.length : Int) ≥ mx
  · simp [MonitorQueue.step, MonitorQueue.size, h]; omega
  · simp [MonitorQueue.step, MonitorQueue.size, h]; omega

/-- C26: before `start_monitor` nothing is queued, the size is 0 and reading raises. -/
theorem C26_before_start (ops : List (MOp V)) (hns : NoStart ops) :
    ((⟨none⟩ : MonitorQueue V).run ops).1 = ⟨none⟩ ∧
    ((⟨none⟩ : MonitorQueue V).run ops).1.size = 0 ∧
    (((⟨none⟩ : MonitorQueue V).run ops).1.step .read).2 = .attributeError := by
  have h : ((⟨none⟩ : MonitorQueue V).run ops).1 = ⟨none⟩ := by
    induction ops with
    | nil => rfl
    | cons op ops ih =>
      have hns' : NoStart ops := fun m hm => hns m (List.mem_cons_of_mem _ hm)
      cases op with
      | start m => exact absurd List.mem_cons_self (hns m)
      | produce r => cases r <;> simpa [MonitorQueue.run, MonitorQueue.step] using ih hns'
      | read => simpa [MonitorQueue.run, MonitorQueue.step] using ih hns'
  rw [h]; exact ⟨rfl, rfl, rfl⟩

/-- Unlike a port, a monitor queue has no unbounded mode: `maxsize = -1` (or 0) drops everything. -/
theorem C26_nonpositive_size_drops_all (mx : Int) (hmx : mx ≤ 0) (v : V) :
    (((⟨none⟩ : MonitorQueue V).step (.start mx)).1.step (.produce (some v))).2 = .dropped v := by
  have h : ((([] : List V).length : Nat) : Int) ≥ mx := by simp; omega
  simp only [MonitorQueue.step, if_pos h]

/-- Non-vacuity for C26. -/
example : ((⟨none⟩ : MonitorQueue Nat).run [.produce (some 9), .start 2, .produce (some 0),
      .produce none, .produce (some 1), .produce (some 2), .read, .produce (some 3), .read]).2 =
    [.ignored, .started, .queued 0, .ignored, .queued 1, .dropped 2, .received 0, .queued 3,
      .received 1] := by decide
example : NoStart ([.produce (some 0), .read] : List (MOp Nat)) := by
  intro m h; simp at h

end Toffee.Port
