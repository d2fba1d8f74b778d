import Verif.Model.PortBoard
/-!
C126: a scoreboard on ports compares the i-th output with the i-th input.
-/

namespace Toffee.Props.PortBoard

open Toffee.PortBoard
open Toffee.Port (Act Reads Final snoc snoc_self snoc_ne Sb sb sb_bad)

variable {V S : Type}

/-- What was sent to port `q`. -/
def sent (l : List (Ev V)) (q : Nat) : List V :=
  l.filterMap fun
    | .send y v => if y = q then some v else none
    | .run => none

/-- Nothing has been lost: what was sent is what has been read followed by what is in the port. -/
structure Kept (A : S → Act V S) (a0 : S) (l : List (Ev V)) (b : Board V S) : Prop where
  kept : ∃ h, Reads A a0 h b.a ∧ ∀ q, sent l q = h q ++ (b.ports q).items

theorem sent_snoc (l : List (Ev V)) (e : Ev V) (q : Nat) :
    sent (l ++ [e]) q = sent l q ++ sent [e] q := List.filterMap_append

theorem put_true {p p' : Port.Port V} {v : V} (h : p.put v = (p', true)) :
    p' = { p with items := p.items ++ [v] } := by
  unfold Port.Port.put at h
  split at h <;> simp at h
  exact h.symm

theorem get_some {p p' : Port.Port V} {v : V} (h : p.get = (p', some v)) :
    p.items = v :: p'.items ∧ p'.maxsize = p.maxsize := by
  unfold Port.Port.get at h
  split at h
  · simp at h
  · rename_i w rest hw
    simp at h
    obtain ⟨rfl, rfl⟩ := h
    exact ⟨hw, rfl⟩

theorem get_none {p p' : Port.Port V} (h : p.get = (p', none)) : p.items = [] := by
  unfold Port.Port.get at h
  split at h
  · assumption
  · simp at h

/-- Running the model loses nothing, and it cannot go on afterwards. -/
theorem drain_kept {A : S → Act V S} {a0 : S} {l : List (Ev V)} {b b' : Board V S}
    (hd : Drain A b b') (hk : Kept A a0 l b) :
    Kept A a0 l b' ∧ b'.lost = b.lost ∧ (∀ q k, A b'.a = .get q k → (b'.ports q).items = []) := by
  induction hd with
  | ended h => exact ⟨hk, rfl, fun q k ha => absurd ha (h q k)⟩
  | @empty b q k p ha hg =>
    refine ⟨hk, rfl, fun q' k' ha' => ?_⟩
    rw [ha] at ha'
    cases ha'
    exact get_none hg
  | @read b b' q k p v ha hg _ ih =>
    apply ih
    obtain ⟨h, hre, hq⟩ := hk
    refine ⟨snoc h q v, .step v hre ha, fun i => ?_⟩
    by_cases hi : i = q
    · subst hi
      rw [snoc_self, hq i, (get_some hg).1]
      simp
    · rw [snoc_ne _ _ hi, hq i]
      simp [hi]

theorem exec_kept {A : S → Act V S} {m : Nat → Int} {a0 : S} {l : List (Ev V)} {b : Board V S}
    (he : Exec A m a0 l b) (hl : b.lost = []) : Kept A a0 l b := by
  induction he with
  | nil => exact ⟨_, .refl, fun q => rfl⟩
  | @snoc l e b b' he hs ih =>
    cases hs with
    | send q v _ =>
      unfold Board.send at hl ⊢
      split at hl
      · rename_i p hp
        have hp' := put_true hp
        obtain ⟨h, hre, hq⟩ := (ih hl).kept
        refine ⟨h, hre, fun i => ?_⟩
        rw [sent_snoc, hq i]
        by_cases hi : i = q
        · subst hi
          simp [sent, hp']
        · simp [sent, hi, Ne.symm hi]
      · simp at hl
    | run hd =>
      have hx : ∀ {b b' : Board V S}, Drain A b b' → b'.lost = b.lost := by
        intro b b' h
        induction h with
        | ended _ => rfl
        | empty _ _ => rfl
        | read _ _ _ ih => exact ih
      have h1 := (drain_kept hd (ih (by rw [← hx hd]; exact hl))).1
      obtain ⟨h, hre, hq⟩ := h1.kept
      exact ⟨h, hre, fun q => by rw [sent_snoc, hq q]; simp [sent]⟩

/-- C126 (partial): if no value was reported as dropped, a model that has run is in the state determined by
what was sent to its ports.  Missing with respect to the full statement: values are dropped as soon as
the model is behind by `maxsize` of them, see `C126_violated` and `C126_missed_violated`. -/
theorem C126_nothing_dropped_partial (A : S → Act V S) (m : Nat → Int) (a0 : S) (l : List (Ev V))
    (b : Board V S) (he : Exec A m a0 (l ++ [.run]) b) (hl : b.lost = []) :
    ∃ h, Final A a0 (sent (l ++ [.run])) h b.a := by
  generalize hx : l ++ [Ev.run] = l' at he
  cases he with
  | nil => simp at hx
  | @snoc l1 e b1 b' he hs =>
    obtain ⟨rfl, h2⟩ := List.append_inj' hx rfl
    cases h2
    cases hs with
    | run hd =>
      have hlost : b1.lost = [] := by
        have h3 : ∀ {b b' : Board V S}, Drain A b b' → b'.lost = b.lost := by
          intro b b' h
          induction h with
          | ended _ => rfl
          | empty _ _ => rfl
          | read _ _ _ ih => exact ih
        rw [← h3 hd]; exact hl
      obtain ⟨⟨h, hre, hq⟩, _, hst⟩ := drain_kept hd (exec_kept he hlost)
      have hs : ∀ q, sent (l ++ [.run]) q = h q ++ (b.ports q).items := by
        intro q
        rw [sent_snoc, hq q]
        simp [sent]
      refine ⟨h, hre, fun q => ?_, fun q k ha => ?_⟩
      · rw [hs q]; exact List.prefix_append _ _
      · rw [hs q, hst q k ha, List.append_nil]

/-! ### A pipelined DUT -/

/-- Clock cycle `c`: the output for the input of `L` cycles ago and a new input are sent, then the model
runs. -/
def cycle (L : Nat) (x o : Nat → V) (qi qo c : Nat) : List (Ev V) :=
  (if L ≤ c then [.send qo (o (c - L))] else []) ++ [.send qi (x c), .run]

/-- The first `n` cycles. -/
def cycles (L : Nat) (x o : Nat → V) (qi qo : Nat) : Nat → List (Ev V)
  | 0 => []
  | n + 1 => cycles L x o qi qo n ++ cycle L x o qi qo n

theorem exec_append {A : S → Act V S} {m : Nat → Int} {a0 : S} {l l' : List (Ev V)} {b : Board V S}
    (h : Exec A m a0 (l ++ l') b) : ∃ b0, Exec A m a0 l b0 ∧
      (∀ e, l' = [e] → Step A e b0 b) ∧
      (∀ e f, l' = [e, f] → ∃ b1, Step A e b0 b1 ∧ Step A f b1 b) ∧
      (∀ e f d, l' = [e, f, d] → ∃ b1 b2, Step A e b0 b1 ∧ Step A f b1 b2 ∧ Step A d b2 b) := by
  have back : ∀ {l : List (Ev V)} {e b}, Exec A m a0 (l ++ [e]) b →
      ∃ b0, Exec A m a0 l b0 ∧ Step A e b0 b := by
    intro l e b h
    generalize hx : l ++ [e] = l' at h
    cases h with
    | nil => simp at hx
    | snoc h hs =>
      obtain ⟨rfl, h2⟩ := List.append_inj' hx rfl
      cases h2
      exact ⟨_, h, hs⟩
  have all : ∀ (l' : List (Ev V)) {l b}, Exec A m a0 (l ++ l') b → ∃ b0, Exec A m a0 l b0 := by
    intro l'
    induction l' with
    | nil => intro l b h; exact ⟨b, by simpa using h⟩
    | cons e l' ih =>
      intro l b h
      obtain ⟨b1, h1⟩ := ih (l := l ++ [e]) (b := b) (by simpa using h)
      obtain ⟨b0, h0, _⟩ := back h1
      exact ⟨b0, h0⟩
  match l', h with
  | [], h => exact ⟨b, by simpa using h, by simp, by simp, by simp⟩
  | [e], h =>
    obtain ⟨b0, h0, h1⟩ := back h
    exact ⟨b0, h0, fun e' he => by cases he; exact h1, by simp, by simp⟩
  | [e, f], h =>
    obtain ⟨b1, h1, s1⟩ := back (l := l ++ [e]) (e := f) (by simpa using h)
    obtain ⟨b0, h0, s0⟩ := back h1
    exact ⟨b0, h0, by simp, fun e' f' he => by cases he; exact ⟨b1, s0, s1⟩, by simp⟩
  | [e, f, d], h =>
    obtain ⟨b2, h2, s2⟩ := back (l := l ++ [e, f]) (e := d) (by simpa using h)
    obtain ⟨b1, h1, s1⟩ := back (l := l ++ [e]) (e := f) (by simpa using h2)
    obtain ⟨b0, h0, s0⟩ := back h1
    exact ⟨b0, h0, by simp, by simp, fun e' f' d' he => by cases he; exact ⟨b1, b2, s0, s1, s2⟩⟩
  | e :: f :: d :: c :: l', h =>
    obtain ⟨b0, h0⟩ := all _ h
    exact ⟨b0, h0, by simp, by simp, by simp⟩

section
variable {ok : V → V → Bool} {qi qo : Nat} {m : Nat → Int} {L : Nat} {x o : Nat → V}

/-- Where the scoreboard is after `n` cycles. -/
inductive Pos (ok : V → V → Bool) (qi qo : Nat) (m : Nat → Int) (L : Nat) (x o : Nat → V) (n : Nat)
    (b : Board V (Sb V)) : Prop where
  | bad (h : b.a = .bad) (i : Nat) (hi : i + L < n) (hx : ok (x i) (o i) = false)
  | start (hn : n = 0) (h : b.a = .head) (hi : b.ports qi = ⟨m qi, []⟩) (ho : b.ports qo = ⟨m qo, []⟩)
      (hl : b.lost = [])
  | good (hn : 0 < n) (hok : ∀ i, i + L < n → ok (x i) (o i) = true) (h : b.a = .have_ (x (n - L)))
      (hi : b.ports qi = ⟨m qi, (List.range' (n - L + 1) (n - 1 - (n - L))).map x⟩)
      (ho : b.ports qo = ⟨m qo, []⟩) (hl : b.lost = [])

theorem step_bad {e : Ev V} {b b' : Board V (Sb V)} (h : b.a = .bad)
    (hs : Step (sb ok qi qo) e b b') : b'.a = .bad := by
  cases hs with
  | send q v _ =>
    unfold Board.send
    split <;> exact h
  | run hd =>
    cases hd with
    | ended _ => exact h
    | empty _ _ => exact h
    | read ha _ _ => rw [h] at ha; cases ha

theorem send_ok {b : Board V (Sb V)} {q : Nat} {v : V} {M : Int} {l : List V}
    (h : b.ports q = ⟨M, l⟩) (hM : (l.length : Int) < M ∨ M = -1) :
    b.send q v = { b with ports := fun i => if i = q then ⟨M, l ++ [v]⟩ else b.ports i } := by
  have : (b.ports q).put v = (⟨M, l ++ [v]⟩, true) := by
    rw [h]
    unfold Port.Port.put
    rw [if_neg]
    rintro ⟨h1, h2⟩
    rcases hM with h3 | h3
    · have h1 : (l.length : Int) ≥ M := h1
      omega
    · exact h2 h3
  unfold Board.send
  rw [this]

theorem drain_head {b b' : Board V (Sb V)} {v : V} {l : List V} {M : Int}
    (hd : Drain (sb ok qi qo) b b') (h : b.a = .head) (hi : b.ports qi = ⟨M, v :: l⟩) :
    Drain (sb ok qi qo) { b with
      ports := fun i => if i = qi then ⟨M, l⟩ else b.ports i
      a := .have_ v } b' := by
  have hA : sb ok qi qo b.a = .get qi .have_ := by rw [h]; rfl
  cases hd with
  | ended hx => exact absurd hA (hx _ _)
  | empty ha hg =>
    rw [hA] at ha; cases ha
    rw [hi] at hg; simp [Port.Port.get] at hg
  | read ha hg hd =>
    rw [hA] at ha; cases ha
    rw [hi] at hg
    simp [Port.Port.get] at hg
    obtain ⟨rfl, rfl⟩ := hg
    exact hd

theorem drain_have {b b' : Board V (Sb V)} {u v : V} {l : List V} {M : Int}
    (hd : Drain (sb ok qi qo) b b') (h : b.a = .have_ u) (ho : b.ports qo = ⟨M, v :: l⟩) :
    Drain (sb ok qi qo) { b with
      ports := fun i => if i = qo then ⟨M, l⟩ else b.ports i
      a := if ok u v then .head else .bad } b' := by
  have hA : sb ok qi qo b.a = .get qo fun y => if ok u y then .head else .bad := by rw [h]; rfl
  cases hd with
  | ended hx => exact absurd hA (hx _ _)
  | empty ha hg =>
    rw [hA] at ha; cases ha
    rw [ho] at hg; simp [Port.Port.get] at hg
  | read ha hg hd =>
    rw [hA] at ha; cases ha
    rw [ho] at hg
    simp [Port.Port.get] at hg
    obtain ⟨rfl, rfl⟩ := hg
    exact hd

theorem drain_wait {b b' : Board V (Sb V)} {u : V} {M : Int}
    (hd : Drain (sb ok qi qo) b b') (h : b.a = .have_ u) (ho : b.ports qo = ⟨M, []⟩) : b' = b := by
  have hA : sb ok qi qo b.a = .get qo fun y => if ok u y then .head else .bad := by rw [h]; rfl
  cases hd with
  | ended hx => rfl
  | empty ha hg => rfl
  | read ha hg hd =>
    rw [hA] at ha; cases ha
    rw [ho] at hg
    simp [Port.Port.get] at hg

theorem drain_bad {b b' : Board V (Sb V)} (hd : Drain (sb ok qi qo) b b') (h : b.a = .bad) :
    b' = b := by
  cases hd with
  | ended hx => rfl
  | empty ha hg => rfl
  | read ha _ _ => rw [h] at ha; cases ha

theorem pos_of (hq : qi ≠ qo) (hL : 0 < L) (hi : (L : Int) ≤ m qi ∨ m qi = -1)
    (ho : 0 < m qo ∨ m qo = -1) (n : Nat) (b : Board V (Sb V))
    (he : Exec (sb ok qi qo) m .head (cycles L x o qi qo n) b) : Pos ok qi qo m L x o n b := by
  induction n generalizing b with
  | zero =>
    generalize hx : cycles L x o qi qo 0 = l at he
    cases he with
    | nil => exact .start rfl rfl rfl rfl rfl
    | snoc _ _ => simp [cycles] at hx
  | succ n ih =>
    have he : Exec (sb ok qi qo) m .head (cycles L x o qi qo n ++ cycle L x o qi qo n) b := he
    obtain ⟨b0, h0, _, h2, h3⟩ := exec_append he
    have hp := ih b0 h0
    by_cases hLn : L ≤ n
    · obtain ⟨b1, b2, s1, s2, s3⟩ := h3 (.send qo (o (n - L))) (.send qi (x n)) .run (by
        unfold cycle; rw [if_pos hLn]; rfl)
      cases hp with
      | bad h i hi' hx => exact .bad (step_bad (step_bad (step_bad h s1) s2) s3) i (by omega) hx
      | start hn => omega
      | good hn hok h hpi hpo hl =>
        cases s1
        cases s2
        cases s3 with
        | run hd =>
        rw [send_ok hpo (by rcases ho with ho | ho <;> simp [ho])] at hd
        rw [send_ok (M := m qi) (l := (List.range' (n - L + 1) (n - 1 - (n - L))).map x)
          (by show (if qi = qo then _ else b0.ports qi) = _; rw [if_neg hq]; exact hpi)
          (by rcases hi with hi | hi
              · left; simp; omega
              · right; exact hi)] at hd
        have hd := drain_have (M := m qo) (l := []) (v := o (n - L)) hd h
          (by show (if qo = qi then _ else _) = _; rw [if_neg (Ne.symm hq)]; simp)
        cases hok1 : ok (x (n - L)) (o (n - L)) with
        | false =>
          rw [hok1] at hd
          rw [drain_bad hd rfl]
          exact .bad rfl (n - L) (by omega) hok1
        | true =>
          rw [hok1] at hd
          have hitems : (List.range' (n - L + 1) (n - 1 - (n - L))).map x ++ [x n] =
              x (n + 1 - L) :: (List.range' (n + 1 - L + 1) (n + 1 - 1 - (n + 1 - L))).map x := by
            have e1 : (List.range' (n - L + 1) (n - 1 - (n - L))).map x ++ [x n] =
                (List.range' (n - L + 1) (n - (n - L))).map x := by
              have : n - (n - L) = (n - 1 - (n - L)) + 1 := by omega
              rw [this, List.range'_1_concat, List.map_append]
              have e : n - L + 1 + (n - 1 - (n - L)) = n := by omega
              rw [e]; rfl
            rw [e1]
            have : n - (n - L) = (n + 1 - 1 - (n + 1 - L)) + 1 := by omega
            rw [this, List.range'_succ, List.map_cons]
            have e2 : n - L + 1 = n + 1 - L := by omega
            rw [e2]
          have hd := drain_head (M := m qi) (v := x (n + 1 - L))
            (l := (List.range' (n + 1 - L + 1) (n + 1 - 1 - (n + 1 - L))).map x) hd rfl
            (by show (if qi = qo then _ else if qi = qi then _ else _) = _
                rw [if_neg hq, if_pos rfl, hitems])
          rw [drain_wait (M := m qo) hd rfl (by
            show (if qo = qi then _ else if qo = qo then _ else _) = _
            rw [if_neg (Ne.symm hq), if_pos rfl])]
          refine .good (by omega) (fun i hi' => ?_) rfl ?_ ?_ hl
          · by_cases hin : i + L < n
            · exact hok i hin
            · have : i = n - L := by omega
              rw [this]; exact hok1
          · show (if qi = qi then _ else _) = _
            rw [if_pos rfl]
          · show (if qo = qi then _ else if qo = qo then _ else _) = _
            rw [if_neg (Ne.symm hq), if_pos rfl]
    · obtain ⟨b1, s1, s2⟩ := h2 (.send qi (x n)) .run (by unfold cycle; rw [if_neg hLn]; rfl)
      cases hp with
      | bad h i hi' hx => exact .bad (step_bad (step_bad h s1) s2) i (by omega) hx
      | start hn h hpi hpo hl =>
        subst hn
        cases s1
        cases s2 with
        | run hd =>
        rw [send_ok hpi (by rcases hi with hi | hi
                            · left; simp; omega
                            · right; exact hi)] at hd
        have hd := drain_head (M := m qi) (v := x 0) (l := []) hd h
          (by show (if qi = qi then _ else _) = _; rw [if_pos rfl]; rfl)
        rw [drain_wait (M := m qo) hd rfl (by
          show (if qo = qi then _ else if qo = qi then _ else _) = _
          rw [if_neg (Ne.symm hq), if_neg (Ne.symm hq)]; exact hpo)]
        have e0 : 0 + 1 - L = 0 := by omega
        refine .good (by omega) (fun i hi' => by omega) (by rw [e0]) ?_ ?_ hl
        · show (if qi = qi then _ else _) = _
          rw [if_pos rfl, e0]; rfl
        · show (if qo = qi then _ else if qo = qi then _ else _) = _
          rw [if_neg (Ne.symm hq), if_neg (Ne.symm hq)]; exact hpo
      | good hn hok h hpi hpo hl =>
        cases s1
        cases s2 with
        | run hd =>
        rw [send_ok hpi (by rcases hi with hi | hi
                            · left; simp; omega
                            · right; exact hi)] at hd
        have hpo' : (if qo = qi then (⟨m qi, (List.range' (n - L + 1) (n - 1 - (n - L))).map x ++
            [x n]⟩ : Port.Port V) else b0.ports qo) = ⟨m qo, []⟩ := by
          rw [if_neg (Ne.symm hq)]; exact hpo
        rw [drain_wait (M := m qo) hd h hpo']
        have e0 : n + 1 - L = 0 := by omega
        have e1 : n - L = 0 := by omega
        refine .good (by omega) (fun i hi' => by omega) (by rw [e0, ← e1]; exact h) ?_ hpo' hl
        show (if qi = qi then _ else _) = _
        rw [if_pos rfl, e0, e1]
        have : n + 1 - 1 - 0 = (n - 1 - 0) + 1 := by omega
        rw [this, List.range'_1_concat, List.map_append]
        have e : 0 + 1 + (n - 1 - 0) = n := by omega
        rw [e]; rfl

end

/-- C126 (partial): a DUT that takes an input in every cycle and gives the output `L` cycles later: if the
port for the inputs holds at least `L` values (or is unbounded), the scoreboard has failed if and only
if an output was wrong, and as long as none was wrong nothing has been dropped.  Missing with respect to the full
statement: a larger latency, see `C126_violated` and `C126_missed_violated`. -/
theorem C126_latency_partial (ok : V → V → Bool) (qi qo : Nat) (m : Nat → Int) (L : Nat)
    (x o : Nat → V) (n : Nat) (b : Board V (Sb V)) (hq : qi ≠ qo) (hL : 0 < L)
    (hi : (L : Int) ≤ m qi ∨ m qi = -1) (ho : 0 < m qo ∨ m qo = -1)
    (he : Exec (sb ok qi qo) m .head (cycles L x o qi qo n) b) :
    (b.a = .bad ↔ ∃ i, i + L < n ∧ ok (x i) (o i) = false) ∧ (b.a ≠ .bad → b.lost = []) := by
  cases pos_of hq hL hi ho n b he with
  | bad h i hi' hx => exact ⟨⟨fun _ => ⟨i, hi', hx⟩, fun _ => h⟩, fun h' => absurd h h'⟩
  | start hn h _ _ hl =>
    refine ⟨⟨fun h' => ?_, fun ⟨i, h1, _⟩ => ?_⟩, fun _ => hl⟩
    · rw [h] at h'; cases h'
    · omega
  | good hn hok h _ _ hl =>
    refine ⟨⟨fun h' => ?_, fun ⟨i, h1, h2⟩ => ?_⟩, fun _ => hl⟩
    · rw [h] at h'; cases h'
    · rw [hok i h1] at h2; cases h2

/-! ### A latency above the size of the port -/

section
variable {ok : V → V → Bool} {qi qo : Nat} {m : Nat → Int} {L M : Nat} {x o : Nat → V}

/-- The inputs that are not dropped: after the first `M + 1`, those of the cycles `M + 1` to `L` are. -/
def kept (x : Nat → V) (L M i : Nat) : V := if i ≤ M then x i else x (i + (L - M))

theorem send_full {b : Board V S} {q : Nat} {v : V} {l : List V} {M : Nat}
    (h : b.ports q = ⟨(M : Int), l⟩) (hM : l.length = M) :
    b.send q v = { b with lost := b.lost ++ [(q, v)] } := by
  have : (b.ports q).put v = (⟨(M : Int), l⟩, false) := by
    rw [h]
    unfold Port.Port.put
    rw [if_pos]
    refine ⟨?_, ?_⟩
    · show (l.length : Int) ≥ (M : Int)
      omega
    · show (M : Int) ≠ -1
      omega
  unfold Board.send
  rw [this]

/-- Where the scoreboard is after `n` cycles, if the latency is above the size `M` of the port. -/
inductive Late (ok : V → V → Bool) (qi qo : Nat) (m : Nat → Int) (L M : Nat) (x : Nat → V) (n : Nat)
    (b : Board V (Sb V)) : Prop where
  | start (hn : n = 0) (h : b.a = .head) (hi : b.ports qi = ⟨(M : Int), []⟩) (ho : b.ports qo = ⟨m qo, []⟩)
  | fill (hn : 0 < n) (hL : n ≤ L) (h : b.a = .have_ (x 0))
      (hi : b.ports qi = ⟨(M : Int), (List.range' 1 (min (n - 1) M)).map x⟩) (ho : b.ports qo = ⟨m qo, []⟩)
  | shift (j : Nat) (hj : n = L + j + 1) (hM : j ≤ M) (h : b.a = .have_ (kept x L M (j + 1)))
      (hi : b.ports qi = ⟨(M : Int), (List.range' (j + 2) (M - 1)).map (kept x L M)⟩)
      (ho : b.ports qo = ⟨m qo, []⟩)
  | bad (h : b.a = .bad) (hn : L + M + 2 ≤ n)

/-- A cycle in which the scoreboard has an input and gets a right output for it. -/
theorem cycle_good {b0 b1 b : Board V (Sb V)} {u v w : V} {l : List V} (hq : qi ≠ qo)
    (h : b0.a = .have_ u) (hb1 : b1.a = b0.a) (hb1o : b1.ports qo = ⟨m qo, [v]⟩) (hb1i : b1.ports qi = ⟨(M : Int), w :: l⟩)
    (hd : Drain (sb ok qi qo) b1 b) :
    (ok u v = false → b.a = .bad) ∧
    (ok u v = true → b.a = .have_ w ∧ b.ports qi = ⟨(M : Int), l⟩ ∧ b.ports qo = ⟨m qo, []⟩) := by
  have hd := drain_have (M := m qo) (l := []) (v := v) hd (hb1.trans h) hb1o
  refine ⟨fun hok => ?_, fun hok => ?_⟩
  · rw [hok] at hd
    rw [drain_bad hd rfl]
    rfl
  · rw [hok] at hd
    have hd := drain_head (M := (M : Int)) (v := w) (l := l) hd rfl
      (by show (if qi = qo then _ else _) = _; rw [if_neg hq]; exact hb1i)
    rw [drain_wait (M := m qo) hd rfl (by
      show (if qo = qi then _ else if qo = qo then _ else _) = _
      rw [if_neg (Ne.symm hq), if_pos rfl])]
    refine ⟨rfl, ?_, ?_⟩
    · show (if qi = qi then _ else _) = _
      rw [if_pos rfl]
    · show (if qo = qi then _ else if qo = qo then _ else _) = _
      rw [if_neg (Ne.symm hq), if_pos rfl]

theorem late_of (hq : qi ≠ qo) (hM : 0 < M) (hL : M < L) (hi : m qi = (M : Int))
    (ho : 0 < m qo ∨ m qo = -1) (hok : ∀ i, ok (x i) (o i) = true)
    (hno : ok (x (L + 1)) (o (M + 1)) = false) (n : Nat) (b : Board V (Sb V))
    (he : Exec (sb ok qi qo) m .head (cycles L x o qi qo n) b) : Late ok qi qo m L M x n b := by
  induction n generalizing b with
  | zero =>
    generalize hx : cycles L x o qi qo 0 = l at he
    cases he with
    | nil =>
      refine .start rfl rfl ?_ rfl
      show (⟨m qi, []⟩ : Port.Port V) = _
      rw [hi]
    | snoc _ _ => simp [cycles] at hx
  | succ n ih =>
    have he : Exec (sb ok qi qo) m .head (cycles L x o qi qo n ++ cycle L x o qi qo n) b := he
    obtain ⟨b0, h0, _, h2, h3⟩ := exec_append he
    have hp := ih b0 h0
    have hooks : ((([] : List V).length : Nat) : Int) < m qo ∨ m qo = -1 := by
      rcases ho with ho | ho
      · exact .inl ho
      · exact .inr ho
    by_cases hLn : L ≤ n
    · obtain ⟨b1, b2, s1, s2, s3⟩ := h3 (.send qo (o (n - L))) (.send qi (x n)) .run (by
        unfold cycle; rw [if_pos hLn]; rfl)
      cases hp with
      | bad h hn => exact .bad (step_bad (step_bad (step_bad h s1) s2) s3) (by omega)
      | start hn => omega
      | fill hn hL' h hpi hpo =>
        have hnL : n = L := by omega
        subst hnL
        cases s1
        cases s2
        cases s3 with
        | run hd =>
        rw [send_ok hpo hooks] at hd
        rw [send_full (M := M) (l := (List.range' 1 M).map x)
          (by show (if qi = qo then _ else b0.ports qi) = _
              rw [if_neg hq, hpi, Nat.min_eq_right (by omega)]) (by simp)] at hd
        have hg := cycle_good (m := m) (w := kept x n M 1) (l := (List.range' 2 (M - 1)).map (kept x n M))
          (v := o (n - n)) hq h (by rfl)
          (by show (if qo = qo then _ else _) = _; rw [if_pos rfl]; rfl)
          (by show (if qi = qo then _ else b0.ports qi) = _
              rw [if_neg hq, hpi, Nat.min_eq_right (by omega)]
              congr 1
              have e : M = (M - 1) + 1 := by omega
              conv => lhs; rw [e, List.range'_succ, List.map_cons]
              congr 1
              · unfold kept; rw [if_pos (by omega)]
              · apply List.map_congr_left
                intro i hi'
                have := List.mem_range'_1.1 hi'
                unfold kept
                rw [if_pos (by omega)]) hd
        obtain ⟨e1, e2, e3⟩ := hg.2 (by rw [Nat.sub_self]; exact hok 0)
        exact .shift 0 rfl (Nat.zero_le _) e1 e2 e3
      | shift j hj hjM h hpi hpo =>
        cases s1
        cases s2
        cases s3 with
        | run hd =>
        rw [send_ok hpo hooks] at hd
        rw [send_ok (M := (M : Int)) (l := (List.range' (j + 2) (M - 1)).map (kept x L M))
          (by show (if qi = qo then _ else b0.ports qi) = _; rw [if_neg hq]; exact hpi)
          (by left; simp; omega)] at hd
        have enL : n - L = j + 1 := by omega
        have ex : x n = kept x L M (M + j + 1) := by
          unfold kept
          rw [if_neg (by omega)]
          congr 1
          omega
        have hg := cycle_good (m := m) (w := kept x L M (j + 2))
          (l := (List.range' (j + 3) (M - 1)).map (kept x L M))
          (v := o (n - L)) hq h (by rfl)
          (by show (if qo = qi then _ else if qo = qo then _ else _) = _
              rw [if_neg (Ne.symm hq), if_pos rfl]; rfl)
          (by show (if qi = qi then _ else _) = _
              rw [if_pos rfl]
              congr 1
              rw [ex, ← List.map_singleton (f := kept x L M), ← List.map_append, ← List.map_cons]
              congr 1
              have e : M + j + 1 = j + 2 + (M - 1) := by omega
              rw [e, ← List.range'_1_concat, List.range'_succ]) hd
        rw [enL] at hg
        by_cases hjl : j = M
        · refine .bad (hg.1 ?_) (by omega)
          unfold kept
          rw [if_neg (by omega), hjl]
          have e : M + 1 + (L - M) = L + 1 := by omega
          rw [e]
          exact hno
        · obtain ⟨e1, e2, e3⟩ := hg.2 (by
            unfold kept
            rw [if_pos (by omega)]
            exact hok (j + 1))
          exact .shift (j + 1) (by omega) (by omega) e1 e2 e3
    · obtain ⟨b1, s1, s2⟩ := h2 (.send qi (x n)) .run (by unfold cycle; rw [if_neg hLn]; rfl)
      cases hp with
      | bad h hn => omega
      | shift j hj => omega
      | start hn h hpi hpo =>
        subst hn
        cases s1
        cases s2 with
        | run hd =>
        rw [send_ok hpi (by left; simp; omega)] at hd
        have hd := drain_head (M := (M : Int)) (v := x 0) (l := []) hd h
          (by show (if qi = qi then _ else _) = _; rw [if_pos rfl]; rfl)
        rw [drain_wait (M := m qo) hd rfl (by
          show (if qo = qi then _ else if qo = qi then _ else _) = _
          rw [if_neg (Ne.symm hq), if_neg (Ne.symm hq)]; exact hpo)]
        refine .fill (by omega) (by omega) rfl ?_ ?_
        · show (if qi = qi then _ else _) = _
          rw [if_pos rfl]
          simp
        · show (if qo = qi then _ else if qo = qi then _ else _) = _
          rw [if_neg (Ne.symm hq), if_neg (Ne.symm hq)]; exact hpo
      | fill hn hL' h hpi hpo =>
        cases s1
        cases s2 with
        | run hd =>
        by_cases hfull : n - 1 < M
        · rw [send_ok hpi (by left; simp; omega)] at hd
          have hpo' : (if qo = qi then (⟨(M : Int), (List.range' 1 (min (n - 1) M)).map x ++ [x n]⟩ : Port.Port V)
              else b0.ports qo) = ⟨m qo, []⟩ := by
            rw [if_neg (Ne.symm hq)]; exact hpo
          rw [drain_wait (M := m qo) hd h hpo']
          refine .fill (by omega) (by omega) h ?_ hpo'
          show (if qi = qi then _ else _) = _
          rw [if_pos rfl, Nat.min_eq_left (by omega), Nat.min_eq_left (by omega)]
          have : n + 1 - 1 = (n - 1) + 1 := by omega
          rw [this, List.range'_1_concat, List.map_append]
          have e : 1 + (n - 1) = n := by omega
          rw [e]; rfl
        · rw [send_full hpi (by simp; omega)] at hd
          rw [drain_wait (M := m qo) hd h hpo]
          refine .fill (by omega) (by omega) h ?_ hpo
          show b0.ports qi = _
          rw [hpi, Nat.min_eq_right (by omega), Nat.min_eq_right (by omega)]

end

/-- C126 (violated): for every size of the port and every larger latency, a right DUT makes the model fail
within `L + M + 2` cycles, unless the output for the input of cycle `M + 1` happens to be right for the
input of cycle `L + 1` as well; it has then failed for good. -/
theorem C126_late_violated (ok : V → V → Bool) (qi qo : Nat) (m : Nat → Int) (L M : Nat) (x o : Nat → V)
    (n : Nat) (b : Board V (Sb V)) (hq : qi ≠ qo) (hM : 0 < M) (hL : M < L) (hi : m qi = (M : Int))
    (ho : 0 < m qo ∨ m qo = -1) (hok : ∀ i, ok (x i) (o i) = true)
    (hno : ok (x (L + 1)) (o (M + 1)) = false) (hn : L + M + 2 ≤ n)
    (he : Exec (sb ok qi qo) m .head (cycles L x o qi qo n) b) : b.a = .bad := by
  cases late_of hq hM hL hi ho hok hno n b he with
  | bad h _ => exact h
  | start h => omega
  | fill _ h => omega
  | shift j hj hjM => omega

/-! ### Running the model -/

/-- Read at most `n` values. -/
def drain (A : S → Act V S) : Nat → Board V S → Board V S
  | 0, b => b
  | n + 1, b => match A b.a with
    | .get q k => match (b.ports q).get with
      | (p, some v) => drain A n { b with
          ports := fun i => if i = q then p else b.ports i
          a := k v }
      | (_, none) => b
    | _ => b

/-- The model cannot go on. -/
def stuck (A : S → Act V S) (b : Board V S) : Bool :=
  match A b.a with
  | .get q _ => (b.ports q).items.isEmpty
  | _ => true

theorem drain_drain {A : S → Act V S} (n : Nat) (b : Board V S) (h : stuck A (drain A n b) = true) :
    Drain A b (drain A n b) := by
  have base : ∀ b : Board V S, stuck A b = true → Drain A b b := by
    intro b h
    cases ha : A b.a with
    | get q k =>
      refine .empty (p := b.ports q) ha ?_
      unfold stuck at h
      rw [ha] at h
      have h : (b.ports q).items.isEmpty = true := h
      rw [List.isEmpty_iff] at h
      unfold Port.Port.get
      rw [h]
    | stop => exact .ended (by simp [ha])
    | fail => exact .ended (by simp [ha])
  induction n generalizing b with
  | zero => exact base b h
  | succ n ih =>
    unfold drain at h ⊢
    cases ha : A b.a with
    | get q k =>
      simp only [ha] at h ⊢
      rcases hg : (b.ports q).get with ⟨p, r⟩
      cases r with
      | none => simp only [hg] at h ⊢; exact .empty ha hg
      | some v => simp only [hg] at h ⊢; exact .read ha hg (ih _ h)
    | stop => exact .ended (by simp [ha])
    | fail => exact .ended (by simp [ha])

/-- Play the events; `none` if the fuel does not suffice. -/
def play (A : S → Act V S) (fuel : Nat) : List (Ev V) → Board V S → Option (Board V S)
  | [], b => some b
  | .send q v :: l, b => play A fuel l (b.send q v)
  | .run :: l, b => if stuck A (drain A fuel b) then play A fuel l (drain A fuel b) else none

theorem exec_of_play {A : S → Act V S} {m : Nat → Int} {a0 : S} {fuel : Nat} {l l' : List (Ev V)}
    {b b' : Board V S} (h : Exec A m a0 l b) (hp : play A fuel l' b = some b') :
    Exec A m a0 (l ++ l') b' := by
  induction l' generalizing l b with
  | nil => cases hp; simpa using h
  | cons e l' ih =>
    rw [show l ++ e :: l' = (l ++ [e]) ++ l' by simp]
    cases e with
    | send q v => exact ih (.snoc h (.send q v b)) hp
    | run =>
      unfold play at hp
      split at hp
      · rename_i hs
        exact ih (.snoc h (.run (drain_drain fuel b hs))) hp
      · cases hp

theorem played {A : S → Act V S} {m : Nat → Int} {a0 : S} {fuel : Nat} {l : List (Ev V)}
    (P : Board V S → Bool) (h : (play A fuel l (.new m a0)).map P = some true) :
    ∃ b, Exec A m a0 l b ∧ P b = true := by
  obtain ⟨b, hb, hP⟩ := Option.map_eq_some_iff.1 h
  exact ⟨b, exec_of_play (l := []) .nil hb, hP⟩

def isBad : Sb V → Bool
  | .bad => true
  | _ => false

/-- A DUT that adds 1, with a latency of `L` cycles. -/
def pipe (L n : Nat) : List (Ev Nat) := cycles L (fun c => c) (fun c => c + 1) 1 2 n

/-- The default ports. -/
def four : Nat → Int := fun _ => 4

/-- The scoreboard for it. -/
def inc : Sb Nat → Act Nat (Sb Nat) := sb (fun x y => y == x + 1) 1 2

/-- C126 does not hold: with ports of the default size and a latency of five cycles, a DUT that is right
makes the model fail. -/
theorem C126_violated : ∃ b, Exec inc four .head (pipe 5 12) b ∧ b.a = .bad ∧
    ∀ (i x y : Nat), (sent (pipe 5 12) 1)[i]? = some x → (sent (pipe 5 12) 2)[i]? = some y →
      (y == x + 1) = true := by
  obtain ⟨b, he, hb⟩ := played (A := inc) (m := four) (a0 := .head) (fuel := 30) (l := pipe 5 12)
    (fun b => isBad b.a) (by decide +kernel)
  refine ⟨b, he, ?_, ?_⟩
  · cases ha : b.a with
    | bad => rfl
    | head => rw [ha] at hb; cases hb
    | have_ x => rw [ha] at hb; cases hb
  · intro i x y hx hy
    have e1 : sent (pipe 5 12) 1 = [0, 1, 2, 3, 4, 5, 6, 7, 8, 9, 10, 11] := by decide +kernel
    have e2 : sent (pipe 5 12) 2 = [1, 2, 3, 4, 5, 6, 7] := by decide +kernel
    rw [e1] at hx
    rw [e2] at hy
    have hi := (List.getElem?_eq_some_iff.1 hy).1
    simp at hi
    match i, hi with
    | 0, _ => cases hx; cases hy; rfl
    | 1, _ => cases hx; cases hy; rfl
    | 2, _ => cases hx; cases hy; rfl
    | 3, _ => cases hx; cases hy; rfl
    | 4, _ => cases hx; cases hy; rfl
    | 5, _ => cases hx; cases hy; rfl
    | 6, _ => cases hx; cases hy; rfl

/-- Six inputs in one cycle, then their outputs, one per cycle; the last one is wrong. -/
def burst : List (Ev Nat) :=
  [.send 1 7, .send 1 7, .send 1 7, .send 1 7, .send 1 7, .send 1 7, .run,
    .send 2 8, .run, .send 2 8, .run, .send 2 8, .run, .send 2 8, .run, .send 2 8, .run,
    .send 2 0, .run]

/-- C126 does not hold: a wrong output is not noticed. -/
theorem C126_missed_violated : ∃ b, Exec inc four .head burst b ∧ b.a ≠ .bad ∧
    (sent burst 1)[5]? = some 7 ∧ (sent burst 2)[5]? = some 0 := by
  obtain ⟨b, he, hb⟩ := played (A := inc) (m := four) (a0 := .head) (fuel := 30) (l := burst)
    (fun b => !isBad b.a) (by decide +kernel)
  refine ⟨b, he, fun ha => ?_, by decide +kernel, by decide +kernel⟩
  rw [ha] at hb
  cases hb

/-- The hypotheses of `C126_late_violated` are met by the DUT of `C126_violated`. -/
example : (∃ b, Exec inc four .head (pipe 5 11) b) ∧ four 1 = ((4 : Nat) : Int) ∧
    (∀ i : Nat, (i + 1 == i + 1) = true) ∧ ((4 + 1) + 1 == (5 + 1) + 1) = false := by
  obtain ⟨b, he, _⟩ := played (A := inc) (m := four) (a0 := .head) (fuel := 30) (l := pipe 5 11)
    (fun _ => true) (by decide +kernel)
  exact ⟨⟨b, he⟩, rfl, fun i => by simp, by decide⟩

/-- The hypotheses of `C126_latency_partial` and `C126_nothing_dropped_partial` are met by the same DUT with
a latency of four cycles. -/
example : ∃ b, Exec inc four .head (pipe 4 12) b ∧ b.lost = [] ∧ ∃ l, pipe 4 12 = l ++ [.run] := by
  obtain ⟨b, he, hb⟩ := played (A := inc) (m := four) (a0 := .head) (fuel := 30) (l := pipe 4 12)
    (fun b => b.lost.isEmpty) (by decide +kernel)
  exact ⟨b, he, List.isEmpty_iff.1 hb, (pipe 4 11) ++ [.send 2 8, .send 1 11], by
    show _ ++ cycle 4 _ _ 1 2 11 = _
    rw [List.append_assoc]; rfl⟩

end Toffee.Props.PortBoard
