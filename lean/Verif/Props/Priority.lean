import Verif.Lemmas.Priority
/-!
C14: the pending hooks of a cycle run in priority order, FIFO on ties, each exactly once.
-/

namespace Toffee.Props.Priority

open Toffee.Priority

/-- Specification, independent of any sorting algorithm: `ran` is an order in which the requested
hooks `pend` (in order of request, with their priority numbers) may be executed. -/
structure GoodOrder (pend ran : List (Task × Int)) : Prop where
  /-- the same hooks, each as often as it was requested -/
  once : ∀ h, ran.count h = pend.count h
  /-- no hook runs after one with a larger priority number -/
  prio : ∀ i j (hi : i < ran.length) (hj : j < ran.length), i < j → ran[i].2 ≤ ran[j].2
  /-- hooks of the same priority run in the order of request -/
  fifo : ∀ p : Int, ran.filter (fun h => h.2 = p) = pend.filter (fun h => h.2 = p)

/-- The pending list after a sequence of requests. -/
def requests (reqs : List (Task × Int)) : List (Task × Int) :=
  reqs.foldl (fun l r => add l r.1 r.2) []

theorem requests_eq (reqs : List (Task × Int)) : requests reqs = reqs := by
  have : ∀ (reqs acc : List (Task × Int)),
      reqs.foldl (fun l r => add l r.1 r.2) acc = acc ++ reqs := by
    intro reqs
    induction reqs with
    | nil => simp
    | cons r rs ih => intro acc; rw [List.foldl_cons, ih]; simp [add]
  simpa [requests] using this reqs []

/-- C14: whatever was requested, the executed hooks are the requested ones in an order that is
good, and afterwards nothing is pending; the callback asks for another round exactly when some
executed hook had a done event. -/
theorem C14_execute (reqs : List (Task × Int)) :
    ∃ ran, GoodOrder reqs ran ∧
      (execute (requests reqs)).1 = ran.map (·.1) ∧
      ((execute (requests reqs)).2.1 = true ↔ ∃ h ∈ reqs, h.1.hasDone = true) ∧
      (execute (requests reqs)).2.2 = [] := by
  rw [requests_eq]
  refine ⟨sorted reqs, ⟨?_, ?_, ?_⟩, rfl, ?_, rfl⟩
  · intro h
    exact (sorted_perm reqs).count_eq h
  · intro i j hi hj hij
    exact List.pairwise_iff_getElem.1 (sorted_sorted reqs) i j hi hj hij
  · intro p
    have := sorted_filter reqs p
    simpa [BEq.beq] using this
  · simp only [execute, List.any_map, List.any_eq_true, Function.comp]
    constructor
    · rintro ⟨h, hm, hd⟩
      exact ⟨h, mem_sorted.1 hm, hd⟩
    · rintro ⟨h, hm, hd⟩
      exact ⟨h, mem_sorted.2 hm, hd⟩

/-- C14: the order is completely determined by the specification. -/
theorem C14_order_unique (pend r1 r2 : List (Task × Int))
    (h1 : GoodOrder pend r1) (h2 : GoodOrder pend r2) : r1 = r2 := by
  apply sorted_unique
  · exact List.pairwise_iff_getElem.2 h1.prio
  · exact List.pairwise_iff_getElem.2 h2.prio
  · intro p
    have := (h1.fifo p).trans (h2.fifo p).symm
    simpa [BEq.beq] using this

/-- Non-vacuity: three hooks, two of equal priority. -/
example : (execute (requests [(⟨1, false⟩, 5), (⟨2, true⟩, 3), (⟨3, false⟩, 5), (⟨4, false⟩, 0)])) =
    ([⟨4, false⟩, ⟨2, true⟩, ⟨1, false⟩, ⟨3, false⟩], true, []) := by decide

end Toffee.Props.Priority
