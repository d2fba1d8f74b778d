import Verif.Model.PortClass
import Verif.Props.PortAlias

/-! C135: ports that several models share. -/

namespace Toffee.Props.PortClass

open Toffee.PortClass
open Toffee.Props.PortAlias (putTimes deliver_count putTimes_unbounded)

variable {V : Type}

/-- The number of attached models that have the port `i` for the method. -/
def sharers (models : List (Option Nat)) (i : Nat) : Nat := models.count (some i)

theorem filterMap_count (models : List (Option Nat)) (i : Nat) :
    (models.filterMap id).count i = sharers models i := by
  induction models with
  | nil => rfl
  | cons x xs ih =>
    cases x with
    | none => simpa [sharers] using ih
    | some j =>
      simp only [sharers, List.count_cons] at ih ⊢
      simp [List.count_cons, ih]

theorem put_maxsize (p : Port.Port V) (v : V) : (p.put v).1.maxsize = p.maxsize := by
  unfold Port.Port.put
  split <;> rfl

theorem putTimes_maxsize (v : V) (k : Nat) (p : Port.Port V) : (putTimes v k p).maxsize = p.maxsize := by
  induction k generalizing p with
  | zero => rfl
  | succ k ih => rw [putTimes, ih, put_maxsize]

theorem messages_at (models : List (Option Nat)) (q : Nat → Port.Port V) (vs : List V) (i : Nat) :
    messages models q vs i = vs.foldl (fun p v => putTimes v (sharers models i) p) (q i) := by
  induction vs generalizing q with
  | nil => rfl
  | cons v vs ih =>
    rw [messages, List.foldl_cons, List.foldl_cons]
    refine (ih (message models q v)).trans ?_
    rw [message, deliver_count, filterMap_count]

theorem messages_unbounded (models : List (Option Nat)) (q : Nat → Port.Port V) (vs : List V) (i : Nat)
    (h : (q i).maxsize = -1) :
    (messages models q vs i).items = (q i).items ++ vs.flatMap (List.replicate (sharers models i)) := by
  rw [messages_at]
  generalize q i = p at h
  induction vs generalizing p with
  | nil => simp
  | cons v vs ih =>
    rw [List.foldl_cons, ih _ (by rw [putTimes_maxsize]; exact h), putTimes_unbounded v _ _ h, List.append_assoc]
    rfl

theorem reads_eq (n : Nat) (p : Port.Port V) : reads n p = p.items.take n := by
  induction n generalizing p with
  | zero => simp [reads]
  | succ n ih =>
    rcases p with ⟨m, items⟩
    cases items with
    | nil => simp [reads, Port.Port.get]
    | cons v rest => simp [reads, Port.Port.get, ih]

/-- **C135 (in part).** A port that one attached model has for the method is treated as if the model were alone: each
message is put once, in order. -/
theorem C135_own_partial {models : List (Option Nat)} {i : Nat} (h : sharers models i = 1) (q : Nat → Port.Port V)
    (vs : List V) : messages models q vs i = vs.foldl (fun p v => (p.put v).1) (q i) := by
  rw [messages_at, h]
  rfl

/-- **C135 (in part).** A model whose empty port without bound is its own reads the first `n` messages, each once. -/
theorem C135_reads_partial {models : List (Option Nat)} {i : Nat} (h : sharers models i = 1) {q : Nat → Port.Port V}
    (hq : q i = ⟨-1, []⟩) (vs : List V) (n : Nat) : reads n (messages models q vs i) = vs.take n := by
  rw [reads_eq, messages_unbounded models q vs i (by rw [hq]), h, hq]
  simp [List.replicate, List.flatMap_singleton']

/-- **C135 (violated).** If `k` attached models share a port without bound, a model that reads it as long as the
others do not reads every message `k` times. -/
theorem C135_copies_violated (models : List (Option Nat)) {i : Nat} {q : Nat → Port.Port V} (hq : q i = ⟨-1, []⟩)
    (vs : List V) (n : Nat) :
    reads n (messages models q vs i) = (vs.flatMap (List.replicate (sharers models i))).take n := by
  rw [reads_eq, messages_unbounded models q vs i (by rw [hq]), hq]
  rfl

/-- **C135 (violated).** Whatever the messages are: of two models with one port, the one that reads first gets the
first message twice. -/
theorem C135_twice_violated {models : List (Option Nat)} {i : Nat} (h : sharers models i = 2) {q : Nat → Port.Port V}
    (hq : q i = ⟨-1, []⟩) (v w : V) (vs : List V) :
    reads 2 (messages models q (v :: w :: vs) i) = [v, v] := by
  rw [C135_copies_violated models hq, h]
  rfl

/-- **C135 (violated).** With the default size 4, two models with one port lose the third of three messages, though a
port with one model holds all of them. -/
theorem C135_lost_violated :
    (messages [some 0, some 0] (fun _ => ⟨4, []⟩) [1, 2, 3] 0).items = [1, 1, 2, 2] ∧
      (messages [some 0, some 1] (fun _ => ⟨4, []⟩) [1, 2, 3] 0).items = [1, 2, 3] ∧
      (messages [some 0, some 1] (fun _ => ⟨4, []⟩) [1, 2, 3] 1).items = [1, 2, 3] := by
  decide

theorem putTimes_bounded (v : V) (k s : Nat) (p : Port.Port V) (h : p.maxsize = s) (hl : p.items.length ≤ s) :
    (putTimes v k p).items = (p.items ++ List.replicate k v).take s := by
  induction k generalizing p with
  | zero => simp [putTimes, List.take_of_length_le hl]
  | succ k ih =>
    by_cases hf : p.items.length = s
    · have e : (p.put v).1 = p := by
        unfold Port.Port.put
        rw [if_pos (by rw [h]; omega)]
      rw [putTimes, e, ih p h hl]
      subst hf
      simp
    · have e : (p.put v).1 = { p with items := p.items ++ [v] } := by
        unfold Port.Port.put
        rw [if_neg (by rw [h]; omega)]
      have h1 : ({ p with items := p.items ++ [v] } : Port.Port V).items.length ≤ s := by
        rw [List.length_append, List.length_singleton]
        omega
      rw [putTimes, e, ih { p with items := p.items ++ [v] } h h1]
      simp [List.replicate_succ]

/-- **C135 (violated).** Whatever the size `s` of the port, the number of its sharers and the messages are: the port
holds the first `s` of the copies and loses the rest.  With `k` sharers there is room for `s / k` messages. -/
theorem C135_room_violated (models : List (Option Nat)) {i s : Nat} {q : Nat → Port.Port V} (hq : q i = ⟨s, []⟩)
    (vs : List V) (n : Nat) :
    reads n (messages models q vs i) = ((vs.flatMap (List.replicate (sharers models i))).take s).take n := by
  have key : ∀ (ws : List V) (p : Port.Port V), p.maxsize = s → p.items.length ≤ s →
      (ws.foldl (fun p v => putTimes v (sharers models i) p) p).items =
        (p.items ++ ws.flatMap (List.replicate (sharers models i))).take s := by
    intro ws
    induction ws with
    | nil => intro p _ hl; simp [List.take_of_length_le hl]
    | cons w ws ih =>
      intro p h hl
      have hb := putTimes_bounded w (sharers models i) s p h hl
      rw [List.foldl_cons, ih _ (by rw [putTimes_maxsize]; exact h) (by rw [hb]; simp; omega), hb,
        List.flatMap_cons, ← List.append_assoc]
      generalize p.items ++ List.replicate (sharers models i) w = a
      generalize List.flatMap _ ws = b
      rw [List.take_append, List.take_append, List.take_take, Nat.min_self, List.length_take]
      by_cases hs : s ≤ a.length
      · rw [Nat.min_eq_left hs]
        simp [Nat.sub_eq_zero_of_le hs]
      · rw [Nat.min_eq_right (by omega)]
  rw [reads_eq, messages_at, key vs _ (by rw [hq]) (by rw [hq]; simp), hq]
  rfl

/-- Cases that meet the hypotheses: three models, one without a port for the method. -/
example : reads 5 (messages [some 0, none, some 1] (fun _ => ⟨-1, []⟩) ["a", "b"] 1) = ["a", "b"] :=
  C135_reads_partial (by decide) rfl _ _

example : reads 2 (messages [some 0, none, some 0] (fun _ => ⟨-1, []⟩) ["a", "b"] 0) = ["a", "a"] :=
  C135_twice_violated (by decide) rfl _ _ _

/-- Two sharers of a port of size 3: half of the second message fits, the third is lost. -/
example : reads 9 (messages [some 0, some 0] (fun _ => ⟨(3 : Nat), []⟩) ["a", "b", "c"] 0) = ["a", "a", "b"] := by
  rw [C135_room_violated [some 0, some 0] (s := 3) rfl]
  rfl

end Toffee.Props.PortClass
