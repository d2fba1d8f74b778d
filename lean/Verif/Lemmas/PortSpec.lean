/-!
What a reference model that takes its inputs from ports does, as a function of what arrives at the ports
(C125).  Nothing here mentions the event loop.
-/

namespace Toffee.Port

/-- What a program that only reads from queues does next. -/
inductive Act (V S : Type) where
  /-- take the next item of queue `q` and go on with it -/
  | get (q : Nat) (k : V → S)
  /-- return -/
  | stop
  /-- raise (an assertion fails) -/
  | fail

variable {V S : Type}

/-- `h` with `v` appended at `q`. -/
def snoc (h : Nat → List V) (q : Nat) (v : V) : Nat → List V :=
  fun i => if i = q then h i ++ [v] else h i

/-- Reading the items `h` (for each queue, in order) leads from state `a0` to state `a`. -/
inductive Reads (A : S → Act V S) (a0 : S) : (Nat → List V) → S → Prop where
  | refl : Reads A a0 (fun _ => []) a0
  | step {h a q k} (v : V) : Reads A a0 h a → A a = .get q k → Reads A a0 (snoc h q v) (k v)

/-- The program has read `h` of the streams `p`, is in state `a`, and cannot go on. -/
structure Final (A : S → Act V S) (a0 : S) (p h : Nat → List V) (a : S) : Prop where
  reads : Reads A a0 h a
  pre : ∀ q, h q <+: p q
  stuck : ∀ q k, A a = .get q k → h q = p q

theorem snoc_self (h : Nat → List V) (q : Nat) (v : V) : snoc h q v q = h q ++ [v] := by
  simp [snoc]

theorem snoc_ne (h : Nat → List V) {q i : Nat} (v : V) (hi : i ≠ q) : snoc h q v i = h i := by
  simp [snoc, hi]

/-! ### The result is determined by the streams -/

/-- `Reads` with the number of items read. -/
inductive ReadsN (A : S → Act V S) (a0 : S) : Nat → (Nat → List V) → S → Prop where
  | refl : ReadsN A a0 0 (fun _ => []) a0
  | step {n h a q k} (v : V) : ReadsN A a0 n h a → A a = .get q k →
      ReadsN A a0 (n + 1) (snoc h q v) (k v)

theorem Reads.count {A : S → Act V S} {a0 a : S} {h : Nat → List V} (hr : Reads A a0 h a) :
    ∃ n, ReadsN A a0 n h a := by
  induction hr with
  | refl => exact ⟨0, .refl⟩
  | step v _ hk ih =>
    obtain ⟨n, hn⟩ := ih
    exact ⟨n + 1, .step v hn hk⟩

theorem pre_of_snoc {p h : Nat → List V} {q : Nat} {v : V} (hp : ∀ i, snoc h q v i <+: p i) :
    (∀ i, h i <+: p i) ∧ h q ++ [v] <+: p q := by
  have h1 := hp q
  rw [snoc_self] at h1
  refine ⟨fun i => ?_, h1⟩
  by_cases hi : i = q
  · subst hi
    exact (List.prefix_append _ _).trans h1
  · have := hp i
    rw [snoc_ne _ _ hi] at this
    exact this

theorem ReadsN.det {A : S → Act V S} {a0 : S} {p : Nat → List V} {n : Nat} {h h' : Nat → List V}
    {a b : S} (h1 : ReadsN A a0 n h a) (hp : ∀ i, h i <+: p i) (h2 : ReadsN A a0 n h' b)
    (hp' : ∀ i, h' i <+: p i) : h = h' ∧ a = b := by
  induction n generalizing h h' a b with
  | zero => cases h1; cases h2; exact ⟨rfl, rfl⟩
  | succ n ih =>
    cases h1 with
    | @step _ h a q k v h1 hk =>
      cases h2 with
      | @step _ h' b q' k' v' h2 hk' =>
        obtain ⟨e1, e2⟩ := pre_of_snoc hp
        obtain ⟨e3, e4⟩ := pre_of_snoc hp'
        obtain ⟨rfl, rfl⟩ := ih h1 e1 h2 e3
        rw [hk] at hk'
        cases hk'
        have h5 := List.prefix_of_prefix_length_le e2 e4 (by simp)
        have := h5.eq_of_length (by simp)
        have : v = v' := by simpa using this
        subst this
        exact ⟨rfl, rfl⟩

/-- After fewer items the program was in a state in which it went on. -/
theorem ReadsN.back {A : S → Act V S} {a0 : S} {n m : Nat} {h : Nat → List V} {a : S}
    (h1 : ReadsN A a0 m h a) (hn : n < m) :
    ∃ h' b q k v, ReadsN A a0 n h' b ∧ A b = .get q k ∧ (∀ i, snoc h' q v i <+: h i) := by
  induction h1 with
  | refl => omega
  | @step m h a q k v h1 hk ih =>
    by_cases hm : n = m
    · subst hm
      exact ⟨h, a, q, k, v, h1, hk, fun i => List.prefix_refl _⟩
    · obtain ⟨h', b, q', k', v', e1, e2, e3⟩ := ih (by omega)
      refine ⟨h', b, q', k', v', e1, e2, fun i => (e3 i).trans ?_⟩
      by_cases hi : i = q
      · subst hi; rw [snoc_self]; exact List.prefix_append _ _
      · rw [snoc_ne _ _ hi]; exact List.prefix_refl _

/-- A program that cannot go on with the streams `p` has read no more than it reads of longer streams;
and if it has ended, it ends in the same way. -/
theorem Final.mono {A : S → Act V S} {a0 a b : S} {p p' h h' : Nat → List V}
    (h1 : Final A a0 p h a) (hp : ∀ q, p q <+: p' q) (h2 : Final A a0 p' h' b) :
    (∀ q, h q <+: h' q) ∧ ((∀ q k, A a ≠ .get q k) → h' = h ∧ b = a) := by
  obtain ⟨n, e1⟩ := h1.reads.count
  obtain ⟨m, e2⟩ := h2.reads.count
  have pre1 : ∀ q, h q <+: p' q := fun q => (h1.pre q).trans (hp q)
  rcases Nat.lt_trichotomy n m with hn | hn | hn
  · obtain ⟨h3, c, q, k, v, e3, e4, e5⟩ := e2.back hn
    obtain ⟨rfl, rfl⟩ := e1.det pre1 e3 (fun i => (pre_of_snoc e5).1 i |>.trans (h2.pre i))
    exact ⟨(pre_of_snoc e5).1, fun hx => absurd e4 (hx q k)⟩
  · subst hn
    obtain ⟨rfl, rfl⟩ := e1.det pre1 e2 h2.pre
    exact ⟨fun q => List.prefix_refl _, fun _ => ⟨rfl, rfl⟩⟩
  · exfalso
    obtain ⟨h3, c, q, k, v, e3, e4, e5⟩ := e1.back hn
    obtain ⟨rfl, rfl⟩ := e2.det h2.pre e3 (fun i => (pre_of_snoc e5).1 i |>.trans (pre1 i))
    have h6 := (pre_of_snoc e5).2.trans (pre1 q)
    rw [← h2.stuck q k e4] at h6
    have := h6.length_le
    simp at this
    omega

/-- The streams determine what has been read of them and in which state the program is. -/
theorem Final.unique {A : S → Act V S} {a0 a b : S} {p h h' : Nat → List V}
    (h1 : Final A a0 p h a) (h2 : Final A a0 p h' b) : h = h' ∧ a = b := by
  obtain ⟨n, e1⟩ := h1.reads.count
  obtain ⟨m, e2⟩ := h2.reads.count
  have key : ∀ {n m : Nat} {h h' : Nat → List V} {a b : S}, Final A a0 p h a → Final A a0 p h' b →
      ReadsN A a0 n h a → ReadsN A a0 m h' b → ¬ n < m := by
    intro n m h h' a b h1 h2 e1 e2 hn
    obtain ⟨h3, c, q, k, v, e3, e4, e5⟩ := e2.back hn
    obtain ⟨rfl, rfl⟩ := e1.det h1.pre e3 (fun i => (pre_of_snoc e5).1 i |>.trans (h2.pre i))
    have h6 := (pre_of_snoc e5).2.trans (h2.pre q)
    rw [← h1.stuck q k e4] at h6
    have := h6.length_le
    simp at this
    omega
  have hnm : n = m := Nat.le_antisymm (Nat.le_of_not_lt (key h2 h1 e2 e1))
    (Nat.le_of_not_lt (key h1 h2 e1 e2))
  subst hnm
  exact e1.det h1.pre e2 h2.pre

/-! ### The scoreboard: one port for the inputs, one for the outputs -/

/-- `while True: x = await inputs(); y = await outputs(); assert ok(x, y)`. -/
inductive Sb (V : Type) where
  | head
  | have_ (x : V)
  | bad

/-- The scoreboard that reads the inputs from queue `qi`, the outputs from queue `qo`. -/
def sb (ok : V → V → Bool) (qi qo : Nat) : Sb V → Act V (Sb V)
  | .head => .get qi .have_
  | .have_ x => .get qo fun y => if ok x y then .head else .bad
  | .bad => .fail

/-- The scoreboard has found an error exactly if the `i`-th output is not right for the `i`-th input, for
some `i`. -/
theorem sb_bad {ok : V → V → Bool} {qi qo : Nat} (hq : qi ≠ qo) {p h : Nat → List V} {a : Sb V}
    (hf : Final (sb ok qi qo) .head p h a) :
    a = .bad ↔ ∃ (i : Nat) (x y : V), (p qi)[i]? = some x ∧ (p qo)[i]? = some y ∧ ok x y = false := by
  -- what has been read
  have key : ∀ {h a}, Reads (sb ok qi qo) .head h a →
      match a with
      | .head => (h qi).length = (h qo).length ∧
          ∀ (i : Nat) (x y : V), (h qi)[i]? = some x → (h qo)[i]? = some y → ok x y = true
      | .have_ x0 => (h qi).length = (h qo).length + 1 ∧ (h qi)[(h qo).length]? = some x0 ∧
          ∀ (i : Nat) (x y : V), (h qi)[i]? = some x → (h qo)[i]? = some y → ok x y = true
      | .bad => ∃ (i : Nat) (x y : V), (h qi)[i]? = some x ∧ (h qo)[i]? = some y ∧ ok x y = false := by
    intro h a hr
    induction hr with
    | refl => simp
    | @step h a q k v hr hk ih =>
      cases a with
      | head =>
        cases hk
        obtain ⟨e1, e2⟩ := ih
        show _ ∧ _ ∧ _
        rw [snoc_self, snoc_ne _ _ (Ne.symm hq)]
        refine ⟨by simp [e1], by simp [← e1], fun i x y hx hy => ?_⟩
        have hi : i < (h qo).length := by
          rw [List.getElem?_eq_some_iff] at hy; exact hy.1
        rw [List.getElem?_append_left (by omega)] at hx
        exact e2 i x y hx hy
      | have_ x0 =>
        cases hk
        obtain ⟨e1, e2, e3⟩ := ih
        cases hok : ok x0 v with
        | true =>
          rw [show (fun y => if ok x0 y = true then Sb.head else Sb.bad) v = Sb.head from if_pos hok]
          show _ ∧ _
          rw [snoc_self, snoc_ne _ _ hq]
          refine ⟨by simp [e1], fun i x y hx hy => ?_⟩
          by_cases hi : i = (h qo).length
          · subst hi
            rw [e2] at hx
            cases hx
            rw [List.getElem?_append_right (Nat.le_refl _)] at hy
            simp at hy
            rw [← hy]; exact hok
          · rw [List.getElem?_append_left (by
              rw [List.getElem?_eq_some_iff] at hy
              obtain ⟨hy, _⟩ := hy
              simp at hy; omega)] at hy
            exact e3 i x y hx hy
        | false =>
          rw [show (fun y => if ok x0 y = true then Sb.head else Sb.bad) v = Sb.bad from
            if_neg (by simp [hok])]
          show ∃ (i : Nat) (x y : V), _
          rw [snoc_self, snoc_ne _ _ hq]
          exact ⟨(h qo).length, x0, v, e2, by simp, hok⟩
      | bad => cases hk
  have hk := key hf.reads
  have get_pre : ∀ {l l' : List V} {i : Nat} {x : V}, l <+: l' → l[i]? = some x → l'[i]? = some x := by
    intro l l' i x h hx
    obtain ⟨t, rfl⟩ := h
    rw [List.getElem?_append_left (List.getElem?_eq_some_iff.1 hx).1]
    exact hx
  constructor
  · rintro rfl
    obtain ⟨i, x, y, e1, e2, e3⟩ := hk
    exact ⟨i, x, y, get_pre (hf.pre _) e1, get_pre (hf.pre _) e2, e3⟩
  · rintro ⟨i, x, y, e1, e2, e3⟩
    cases a with
    | bad => rfl
    | head =>
      exfalso
      obtain ⟨h1, h2⟩ := hk
      have h3 := hf.stuck qi _ rfl
      rw [← h3] at e1
      have hi := (List.getElem?_eq_some_iff.1 e1).1
      have h4 : (h qo)[i]? = some y := by
        obtain ⟨t, ht⟩ := hf.pre qo
        rw [← ht, List.getElem?_append_left (by omega)] at e2
        exact e2
      rw [h2 i x y e1 h4] at e3
      cases e3
    | have_ x0 =>
      exfalso
      obtain ⟨h1, _, h2⟩ := hk
      have h3 := hf.stuck qo _ rfl
      rw [← h3] at e2
      have hi := (List.getElem?_eq_some_iff.1 e2).1
      have h4 : (h qi)[i]? = some x := by
        obtain ⟨t, ht⟩ := hf.pre qi
        rw [← ht, List.getElem?_append_left (by omega)] at e1
        exact e1
      rw [h2 i x y h4 e2] at e3
      cases e3

end Toffee.Port
