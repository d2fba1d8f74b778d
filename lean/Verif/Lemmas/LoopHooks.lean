import Verif.Lemmas.LoopSym
import Verif.Lemmas.Priority

/-! Symbolic execution of the event loop (`Verif.Lemmas.LoopSym`): several hooks in one clock cycle. -/

namespace Toffee.LoopSym

open Toffee.Loop

variable {σ G V : Type} {sys : Sys σ G V} {p : P σ G V} {s : St σ G V}

/-- What is known of the tasks that have ended may be forgotten. -/
theorem S.weaken (h : S p s) (lv : Nat → Option (Status σ V))
    (hl : ∀ t, lv t = p.lv t ∨ (lv t = none ∧ ∃ r, p.lv t = some (.done r))) : S { p with lv := lv } s := by
  refine { h with st := fun t => ?_ }
  have := h.st t
  rcases hl t with e | ⟨e, r, hr⟩
  · show Mt (lv t) _
    rw [e]; exact this
  · show Mt (lv t) _
    rw [e]
    rw [hr] at this
    exact ⟨r, this⟩

theorem To.weaken {r : P σ G V} (lv : Nat → Option (Status σ V))
    (hl : ∀ t, lv t = p.lv t ∨ (lv t = none ∧ ∃ r, p.lv t = some (.done r)))
    (h2 : To sys { p with lv := lv } r) : To sys p r :=
  To.trans (fun _ h => ⟨0, h.weaken lv hl⟩) h2

/-- Awaiting a task that has returned. -/
theorem exJoinDone (h : S p s) {t u : Nat} {k kx : σ} {k' : V → σ} {v : V} (hc : p.cur = some (t, k))
    (hp : sys.prog k p.g = .join u k' kx) (hu : p.lv u = some (.done (some v))) :
    S { p with cur := some (t, k' v) } (step sys [] s) := by
  rw [stepCur h hc hp]
  have hu' : s.st u = .done (some v) := by have := h.st u; rw [hu] at this; exact this
  simp only [exec, hu']
  exact { h with cur := rfl }

/-- A hook that only changes the shared state and sets its event. -/
structure Plain (H : Hook σ G V) (e : Nat) : Prop where
  done : H.done = some e
  fails : ∀ g, H.fails g = false
  run : ∀ g, (H.run g).2 = []

/-- What is known after a hook ran. -/
def after (p : P σ G V) (H : Hook σ G V) (e : Nat) : P σ G V :=
  { p with
    g := (H.run p.g).1
    lv := fun t => if t ∈ p.waiters e then (p.lv t).map Status.finish else p.lv t
    ready := p.ready ++ (p.waiters e).map .task
    waiters := upd p.waiters e []
    ev := upd p.ev e true }

theorem hook_after (h : S p s) {H : Hook σ G V} {e : Nat} (hp : Plain H e) (hev : p.ev e = false)
    (i : Nat) (pr : Int) : S (after p H e) (runHook s ((i, H), pr)) := by
  have hev' : s.ev e = false := by rw [h.ev, hev]
  simp only [runHook, hp.done, hp.run, List.foldl_nil, setEv, note, hev', Bool.false_eq_true, if_false, wake]
  exact { h with
    g := by show (H.run s.g).1 = _; rw [h.g]; rfl
    ready := by show s.ready ++ _ = _; rw [h.ready, h.waiters]; rfl
    waiters := by show upd s.waiters e [] = _; rw [h.waiters]; rfl
    ev := by show upd s.ev e true = _; rw [h.ev]; rfl
    st := by
      show ∀ t, Mt (if t ∈ p.waiters e then (p.lv t).map Status.finish else p.lv t) _
      rw [← h.waiters]; exact mt_wake h.st _ }

/-- What is known after a list of hooks ran. -/
def afterAll (p : P σ G V) : List (Hook σ G V × Nat) → P σ G V
  | [] => p
  | (H, e) :: l => afterAll (after p H e) l

theorem hooks_after (l : List (((Nat × Hook σ G V) × Int) × Nat)) : ∀ {p : P σ G V} {s : St σ G V}, S p s →
    (∀ q ∈ l, Plain q.1.1.2 q.2) → (l.map (·.2)).Nodup → (∀ q ∈ l, p.ev q.2 = false) →
    S (afterAll p (l.map fun q => (q.1.1.2, q.2))) ((l.map (·.1)).foldl runHook s) := by
  induction l with
  | nil => intro p s h _ _ _; exact h
  | cons q l ih =>
    intro p s h hp hn he
    obtain ⟨⟨⟨i, H⟩, pr⟩, e⟩ := q
    rw [List.map_cons, List.nodup_cons] at hn
    refine ih (hook_after h (hp _ (by simp)) (he _ (by simp)) i pr) (fun q hq => hp q (by simp [hq])) hn.2 ?_
    intro q hq
    have : q.2 ≠ e := fun x => hn.1 (List.mem_map.2 ⟨q, hq, x⟩)
    show upd p.ev e true q.2 = false
    simp [upd, this, he q (by simp [hq])]

theorem raising_none (l : List ((Nat × Hook σ G V) × Int)) (h : ∀ q ∈ l, ∀ g, q.1.2.fails g = false) :
    ∀ (ran : List Nat) (s : St σ G V), raising l ran s = none := by
  induction l with
  | nil => intro ran s; rfl
  | cons q l ih =>
    intro ran s
    unfold raising
    rw [h q (by simp) s.g]
    exact ih (fun q hq => h q (by simp [hq])) _ _

theorem insertStable_map {α β : Type} (f : α → β) (x : α × Int) (l : List (α × Int)) :
    Priority.insertStable (f x.1, x.2) (l.map fun q => (f q.1, q.2)) =
      (Priority.insertStable x l).map fun q => (f q.1, q.2) := by
  induction l with
  | nil => rfl
  | cons y l ih =>
    simp only [List.map_cons, Priority.insertStable]
    split
    · rw [ih]; rfl
    · rfl

theorem sorted_map {α β : Type} (f : α → β) (l : List (α × Int)) :
    Priority.sorted (l.map fun q => (f q.1, q.2)) = (Priority.sorted l).map fun q => (f q.1, q.2) := by
  unfold Priority.sorted
  have : ∀ (l acc : List (α × Int)),
      (l.map fun q => (f q.1, q.2)).foldl (fun acc x => Priority.insertStable x acc)
        (acc.map fun q => (f q.1, q.2)) =
      (l.foldl (fun acc x => Priority.insertStable x acc) acc).map fun q => (f q.1, q.2) := by
    intro l
    induction l with
    | nil => intro acc; rfl
    | cons x l ih =>
      intro acc
      rw [List.map_cons, List.foldl_cons, List.foldl_cons, ← ih, insertStable_map]
  exact this l []

/-- The clock runs the hooks that were requested, in the order of their priorities. -/
theorem runHooks (h : S p s) (hk : p.clock = .check) (hq : ∀ t, busy (p.lv t) = false)
    (hf : p.flag = false) (ev : Hook σ G V → Nat) (hne : p.hooks ≠ [])
    (hp : ∀ q ∈ p.hooks, Plain q.1 (ev q.1)) (hn : (p.hooks.map fun q => ev q.1).Nodup)
    (he : ∀ q ∈ p.hooks, p.ev (ev q.1) = false) (hsam : sys.sample = id) :
    S { afterAll p ((Priority.sorted p.hooks).map fun q => (q.1, ev q.1)) with
        hooks := []
        ready := (afterAll p ((Priority.sorted p.hooks).map fun q => (q.1, ev q.1))).ready ++ [.clock]
        flag := false
        clock := .check }
      (runClock sys s) := by
  have hk' : s.clock = .check := by rw [h.clock, hk]
  have hu : hasUnwait s = false := quiet h hq
  have hf' : s.flag = false := by rw [h.flag, hf]
  have hso : (Priority.sorted s.hooks).map (fun q => (q.1.2, q.2)) = Priority.sorted p.hooks := by
    rw [← h.hooks, sorted_map (fun q : Nat × Hook σ G V => q.2)]
  have mem : ∀ q ∈ Priority.sorted s.hooks, (q.1.2, q.2) ∈ p.hooks := by
    intro q hq
    have : (q.1.2, q.2) ∈ Priority.sorted p.hooks := by
      rw [← hso]; exact List.mem_map.2 ⟨q, hq, rfl⟩
    exact (Priority.sorted_perm _).mem_iff.1 this
  have hra : raising (Priority.sorted s.hooks) [] s = none :=
    raising_none _ (fun q hq => (hp _ (mem q hq)).fails) _ _
  have key := hooks_after ((Priority.sorted s.hooks).map fun q => (q, ev q.1.2)) h
    (by
      intro q hq
      obtain ⟨a, ha, rfl⟩ := List.mem_map.1 hq
      exact hp _ (mem a ha))
    (by
      have e : ((Priority.sorted s.hooks).map fun q => (q, ev q.1.2)).map (·.2) =
          (Priority.sorted p.hooks).map fun q => ev q.1 := by
        rw [← hso]; simp [List.map_map, Function.comp_def]
      rw [e]
      exact ((Priority.sorted_perm p.hooks).map _).nodup_iff.2 hn)
    (by
      intro q hq
      obtain ⟨a, ha, rfl⟩ := List.mem_map.1 hq
      exact he _ (mem a ha))
  have e1 : ((Priority.sorted s.hooks).map fun q => (q, ev q.1.2)).map (·.1) = Priority.sorted s.hooks := by
    simp [List.map_map, Function.comp_def]
  have e2 : ((Priority.sorted s.hooks).map fun q => (q, ev q.1.2)).map (fun q => (q.1.1.2, q.2)) =
      (Priority.sorted p.hooks).map fun q => (q.1, ev q.1) := by
    rw [← hso]; simp [List.map_map, Function.comp_def]
  rw [e1, e2] at key
  have hany : (s.hooks.any fun h => h.1.2.done.isSome) = true := by
    cases hs : s.hooks with
    | nil =>
      have := h.hooks
      rw [hs] at this
      exact absurd this.symm hne
    | cons q l =>
      have : (q.1.2, q.2) ∈ p.hooks := by rw [← h.hooks, hs]; simp
      have := (hp _ this).done
      simp only at this
      simp [this]
  simp only [runClock, clockTurn, hk', hu, hf', Bool.or_false, Bool.false_eq_true, if_false, hra,
    callbacks, hany, if_true, note, clockYield, push, hsam, id]
  exact { key with
    ready := by
      show ((Priority.sorted s.hooks).foldl runHook s).ready ++ _ = _
      rw [key.ready]
    flag := rfl
    clock := rfl
    hooks := rfl }

theorem clockHooks (h : S p s) (hc : p.cur = none) {rest : List Handle}
    (hb : p.batch = .clock :: rest) (hk : p.clock = .check) (hq : ∀ t, busy (p.lv t) = false)
    (hf : p.flag = false) (ev : Hook σ G V → Nat) (hne : p.hooks ≠ [])
    (hp : ∀ q ∈ p.hooks, Plain q.1 (ev q.1)) (hn : (p.hooks.map fun q => ev q.1).Nodup)
    (he : ∀ q ∈ p.hooks, p.ev (ev q.1) = false) (hsam : sys.sample = id) :
    S { afterAll { p with batch := rest } ((Priority.sorted p.hooks).map fun q => (q.1, ev q.1)) with
        hooks := []
        ready := (afterAll { p with batch := rest }
          ((Priority.sorted p.hooks).map fun q => (q.1, ev q.1))).ready ++ [.clock]
        flag := false
        clock := .check }
      (step sys [] s) := by
  rw [stepClock h hc hb]
  exact runHooks (h.drop rest) hk hq hf ev hne hp hn he hsam

theorem map_finish_idem (x : Option (Status σ V)) : (x.map Status.finish).map Status.finish = x.map Status.finish := by
  cases x with
  | none => rfl
  | some y => cases y <;> rfl

/-- `afterAll` in one piece. -/
theorem afterAll_eq (l : List (Hook σ G V × Nat)) : ∀ (p : P σ G V), (l.map (·.2)).Nodup →
    afterAll p l = { p with
      g := l.foldl (fun g q => (q.1.run g).1) p.g
      lv := fun t => if t ∈ l.flatMap (fun q => p.waiters q.2) then (p.lv t).map Status.finish else p.lv t
      ready := p.ready ++ (l.flatMap fun q => p.waiters q.2).map .task
      waiters := fun e => if e ∈ l.map (·.2) then [] else p.waiters e
      ev := fun e => if e ∈ l.map (·.2) then true else p.ev e } := by
  induction l with
  | nil => intro p _; simp [afterAll]
  | cons q l ih =>
    intro p hn
    obtain ⟨H, e⟩ := q
    rw [List.map_cons, List.nodup_cons] at hn
    unfold afterAll
    rw [ih _ hn.2]
    have hw : (l.flatMap fun q => (after p H e).waiters q.2) = l.flatMap fun q => p.waiters q.2 := by
      rw [List.flatMap_def, List.flatMap_def]
      congr 1
      refine List.map_congr_left fun q hq => ?_
      have : q.2 ≠ e := fun x => hn.1 (List.mem_map.2 ⟨q, hq, x⟩)
      show upd p.waiters e [] q.2 = _
      simp [upd, this]
    rw [hw]
    show P.mk _ _ _ _ _ _ _ _ _ _ _ _ _ _ _ _ = P.mk _ _ _ _ _ _ _ _ _ _ _ _ _ _ _ _
    congr 1
    · show (p.ready ++ _) ++ _ = _
      simp
    · funext t
      show (if t ∈ _ then Option.map Status.finish (if t ∈ p.waiters e then _ else _)
        else (if t ∈ p.waiters e then _ else _)) = _
      simp only [List.flatMap_cons, List.mem_append]
      by_cases h1 : t ∈ p.waiters e <;>
        by_cases h2 : t ∈ l.flatMap (fun q => p.waiters q.2)
      · simp only [h1, h2, if_true, map_finish_idem, or_self]
      · simp only [h1, h2, if_true, if_false, or_false]
      · simp only [h1, h2, if_true, if_false, or_true]
      · simp only [h1, h2, if_false, or_self]
    · funext x
      show (if x ∈ l.map (·.2) then true else upd p.ev e true x) = _
      simp only [List.map_cons, List.mem_cons, upd]
      by_cases h1 : x = e <;> by_cases h2 : x ∈ l.map (·.2) <;> simp only [h1, h2, if_true, if_false, or_true, true_or, or_self, ite_self]
    · funext x
      show (if x ∈ l.map (·.2) then [] else upd p.waiters e [] x) = _
      simp only [List.map_cons, List.mem_cons, upd]
      by_cases h1 : x = e <;> by_cases h2 : x ∈ l.map (·.2) <;> simp only [h1, h2, if_true, if_false, or_true, true_or, or_self, ite_self]

end Toffee.LoopSym
