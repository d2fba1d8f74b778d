import Verif.Props.Executor

/-! Which coroutines of an executor run at the same time (`toffee/executor.py` 173-215): C69. -/

namespace Toffee.Executor

variable {V : Type}

/-- A group task that has begun its first coroutine, if it has one. -/
def begun (g : Name × List Entry) : Task V :=
  match g.2 with
  | [] => ⟨[], none, [], false, none⟩
  | e :: es => ⟨es, some e.coro, [], false, none⟩

theorem begun_nil {g : Name × List Entry} (h : g.2 = []) :
    begun g = (⟨[], none, [], false, none⟩ : Task V) := by
  obtain ⟨n, l⟩ := g
  cases h
  rfl

theorem begun_cons {g : Name × List Entry} {e : Entry} {es : List Entry} (h : g.2 = e :: es) :
    begun g = (⟨es, some e.coro, [], false, none⟩ : Task V) := by
  obtain ⟨n, l⟩ := g
  cases h
  rfl

/-- Starting the first `k` tasks. -/
theorem run_starts (exit : Name) (s : St V) (t : List (Name × List Entry))
    (ht : s.tasks = newTasks t) (hl : s.log = []) (k : Nat) (hk : k ≤ t.length) :
    (run exit s ((List.range k).map .start)).tasks =
        (t.take k).map begun ++ (t.drop k).map (fun g => ⟨g.2, none, [], false, none⟩) ∧
      (run exit s ((List.range k).map .start)).log =
        (t.take k).flatMap fun g => (g.2.head?.map fun e => Ev.start e.coro.id).toList := by
  induction k with
  | zero => exact ⟨by simpa [run, newTasks] using ht, by simpa [run] using hl⟩
  | succ k ih =>
    obtain ⟨h1, h2⟩ := ih (by omega)
    have hlt : k < t.length := by omega
    rw [List.range_succ, List.map_append, run_append]
    generalize run exit s ((List.range k).map .start) = s1 at h1 h2
    simp only [List.map_cons, List.map_nil, run, List.foldl_cons, List.foldl_nil]
    have hlen : ((t.take k).map (begun (V := V))).length = k := by simp; omega
    have hd : t.drop k = t[k] :: t.drop (k + 1) := List.drop_eq_getElem_cons hlt
    have htk : t.take (k + 1) = t.take k ++ [t[k]] := by rw [List.take_succ_eq_append_getElem hlt]
    have hget : s1.tasks[k]? = some ⟨t[k].2, none, [], false, none⟩ := by
      rw [h1, List.getElem?_append_right (by omega), hlen, Nat.sub_self, hd]
      rfl
    rw [htk, List.map_append, List.flatMap_append]
    rw [hd] at h1
    generalize t[k] = g at *
    generalize t.take k = t1 at *
    generalize t.drop (k + 1) = t2 at *
    cases he : g.2 with
    | nil =>
      rw [he] at hget
      simp only [step, hget]
      rw [h1, h2]
      simp [begun_nil he, he]
    | cons e es =>
      rw [he] at hget
      simp only [step, hget]
      rw [h1, h2]
      constructor
      · rw [List.set_append_right _ _ (by omega), hlen, Nat.sub_self]
        simp [begun_cons he]
      · simp [he]

/-- C69: the first coroutines of all groups can run at the same time: all of them have been started
before any has returned or raised. -/
theorem C69_concurrent (exit : Name) (cs : List Call) (hv : ValidExit exit) :
    ∃ as, (∀ g c, (group cs g).head? = some c → .start c ∈ (after (V := V) exit cs as).log) ∧
      (∀ c v, .finish c v ∉ (after (V := V) exit cs as).log) ∧
      ∀ c, .raise c ∉ (after (V := V) exit cs as).log := by
  obtain ⟨_, _, h3, _, _, h6, _⟩ := after_nil (V := V) cs hv
  obtain ⟨_, h⟩ := run_starts exit _ (table cs) h3 h6 (table cs).length (Nat.le_refl _)
  refine ⟨(List.range (table cs).length).map .start, ?_, ?_, ?_⟩
  · intro g c hc
    rw [← List.nil_append ((List.range _).map _), after_append, h, List.take_length, List.mem_flatMap]
    have hmem : ∃ x ∈ cs, Legal x ∧ key x = g := by
      have : c ∈ group cs g := List.mem_of_mem_head? hc
      unfold group at this
      rw [List.mem_map] at this
      obtain ⟨x, hx, _⟩ := this
      rw [List.mem_filter] at hx
      exact ⟨x, hx.1, of_decide_eq_true hx.2⟩
    obtain ⟨x, hx, _, rfl⟩ := hmem
    refine ⟨(key x, (members cs (key x)).map Call.entry), ?_, ?_⟩
    · unfold table
      rw [List.mem_map]
      refine ⟨key x, ?_, rfl⟩
      rw [groupsOf_eq, firsts_mem]
      exact List.mem_map_of_mem hx
    · rw [← members_group] at hc
      cases hm : members cs (key x) with
      | nil => rw [hm] at hc; cases hc
      | cons y ys =>
        rw [hm] at hc
        cases hc
        simp [Call.entry]
  · intro c v hf
    rw [← List.nil_append ((List.range _).map _), after_append, h, List.mem_flatMap] at hf
    obtain ⟨g, _, hg⟩ := hf
    cases he : g.2.head? <;> simp [he] at hg
  · intro c hf
    rw [← List.nil_append ((List.range _).map _), after_append, h, List.mem_flatMap] at hf
    obtain ⟨g, _, hg⟩ := hf
    cases he : g.2.head? <;> simp [he] at hg

/-! ### Driver methods of agents -/

/-- The call `exec(agent.method(..))` of the driver method of an agent, without further arguments:
the agent object, the method, the coroutine.  `nm` are the agents' names. -/
structure DCall where
  agent : Nat
  method : Name
  coro : Nat
  deriving DecidableEq

def DCall.call (nm : Nat → Name) (x : DCall) : Call :=
  ⟨⟨x.coro, x.method, some (nm x.agent)⟩, none, none, none⟩

/-- The same method of the same agent. -/
def DCall.Same (x y : DCall) : Prop := x.agent = y.agent ∧ x.method = y.method

/-- The first call of its method. -/
def FirstCall (xs : List DCall) (y : DCall) : Prop :=
  ∃ l r, xs = l ++ y :: r ∧ ∀ z ∈ l, ¬ z.Same y

/-- Names are identifiers: they have no dots. -/
def NoDots (n : Name) : Prop := '.' ∉ n

theorem append_dot {a b c d : Name} (ha : NoDots a) (hc : NoDots c)
    (h : a ++ '.' :: b = c ++ '.' :: d) : a = c ∧ b = d := by
  induction a generalizing c with
  | nil =>
    cases c with
    | nil => simpa using h
    | cons x c =>
      exfalso
      apply hc
      simp only [List.nil_append, List.cons_append, List.cons.injEq] at h
      rw [← h.1]
      exact List.mem_cons_self
  | cons x a ih =>
    cases c with
    | nil =>
      exfalso
      apply ha
      simp only [List.nil_append, List.cons_append, List.cons.injEq] at h
      rw [h.1]
      exact List.mem_cons_self
    | cons y c =>
      simp only [List.cons_append, List.cons.injEq] at h
      obtain ⟨h1, h2⟩ := ih (fun hm => ha (List.mem_cons_of_mem _ hm))
        (fun hm => hc (List.mem_cons_of_mem _ hm)) h.2
      exact ⟨by rw [h.1, h1], h2⟩

theorem key_call (nm : Nat → Name) (x : DCall) : key (x.call nm) = nm x.agent ++ '.' :: x.method := by
  simp [key, DCall.call, List.intercalate]

theorem legal_call (nm : Nat → Name) (x : DCall) : Legal (x.call nm) := by
  rw [← legal_iff]
  rfl

/-- C69: if different agents have different names, the first calls of any different driver methods
can run at the same time.  Missing: agents with equal names (`C69_overlap_violated`). -/
theorem C69_overlap_partial (exit : Name) (nm : Nat → Name) (xs ys : List DCall) (hv : ValidExit exit)
    (hinj : ∀ x ∈ xs, ∀ y ∈ xs, nm x.agent = nm y.agent → x.agent = y.agent)
    (hdot : ∀ x ∈ xs, NoDots (nm x.agent)) (hf : ∀ y ∈ ys, FirstCall xs y) :
    ∃ as, (∀ y ∈ ys, .start y.coro ∈ (after (V := V) exit (xs.map (DCall.call nm)) as).log) ∧
      (∀ c v, .finish c v ∉ (after (V := V) exit (xs.map (DCall.call nm)) as).log) ∧
      ∀ c, .raise c ∉ (after (V := V) exit (xs.map (DCall.call nm)) as).log := by
  obtain ⟨as, h1, h2⟩ := C69_concurrent (V := V) exit (xs.map (DCall.call nm)) hv
  refine ⟨as, fun y hy => ?_, h2⟩
  obtain ⟨l, r, rfl, hl⟩ := hf y hy
  apply h1 (key (y.call nm))
  unfold group
  rw [List.map_append, List.filter_append]
  have : (l.map (DCall.call nm)).filter (fun c => decide (Legal c ∧ key c = key (y.call nm))) = [] := by
    rw [List.filter_eq_nil_iff]
    intro c hc h
    obtain ⟨x, hx, rfl⟩ := List.mem_map.1 hc
    have h := (of_decide_eq_true h).2
    rw [key_call, key_call] at h
    have hxm : x ∈ l ++ y :: r := List.mem_append_left _ hx
    have hym : y ∈ l ++ y :: r := List.mem_append_right _ List.mem_cons_self
    obtain ⟨h3, h4⟩ := append_dot (hdot x hxm) (hdot y hym) h
    exact hl x hx ⟨hinj x hxm y hym h3, h4⟩
  rw [this, List.map_cons, List.filter_cons_of_pos (by simp [legal_call])]
  rfl

/-- One after the other: when the later one has started, the earlier one has returned. -/
theorem oneByOne_before {cs : List Nat} {log : List (Ev V)} (hn : cs.Nodup)
    (h : OneByOne cs (proj cs log)) {i j : Nat} {x y : Nat} (hi : cs[i]? = some x)
    (hj : cs[j]? = some y) (hij : i < j) (hy : .start y ∈ log) : ∃ v, .finish x v ∈ log := by
  obtain ⟨vs, h1, h2⟩ := h
  obtain ⟨hjl, hje⟩ := List.getElem?_eq_some_iff.1 hj
  have hy' : .start y ∈ proj cs log := by
    unfold proj
    rw [List.mem_filter]
    exact ⟨hy, decide_eq_true (by rw [← hje]; exact List.getElem_mem _)⟩
  have huniq : ∀ k : Nat, cs[k]? = some y → k = j := by
    intro k hk
    obtain ⟨hkl, hke⟩ := List.getElem?_eq_some_iff.1 hk
    exact (List.getElem_inj hn).1 (hke.trans hje.symm)
  have hlen : i < vs.length := by
    rcases h2 with h2 | ⟨c, hc, h2 | h2⟩
    · rw [h2] at hy'
      obtain ⟨k, hk, hkl⟩ := start_mem_seqTrace hy'
      have := huniq k hk
      omega
    · rw [h2, List.mem_append] at hy'
      rcases hy' with hy' | hy'
      · obtain ⟨k, hk, hkl⟩ := start_mem_seqTrace hy'
        have := huniq k hk
        omega
      · rw [List.mem_singleton, Ev.start.injEq] at hy'
        subst hy'
        have := huniq _ hc
        omega
    · rw [h2, List.mem_append] at hy'
      rcases hy' with hy' | hy'
      · obtain ⟨k, hk, hkl⟩ := start_mem_seqTrace hy'
        have := huniq k hk
        omega
      · simp only [List.mem_cons, Ev.start.injEq, reduceCtorEq, List.not_mem_nil, or_false] at hy'
        subst hy'
        have := huniq _ hc
        omega
  have hf : .finish x vs[i] ∈ seqTrace cs vs :=
    finish_mem_seqTrace.2 ⟨i, hi, List.getElem?_eq_getElem hlen⟩
  refine ⟨vs[i], ?_⟩
  have hm : .finish x vs[i] ∈ proj cs log := by
    rcases h2 with h2 | ⟨c, _, h2 | h2⟩
    · rw [h2]; exact hf
    · rw [h2]; exact List.mem_append_left _ hf
    · rw [h2]; exact List.mem_append_left _ hf
  unfold proj at hm
  exact (List.mem_filter.1 hm).1

theorem distinct_map {nm : Nat → Name} {xs : List DCall} (hd : (xs.map DCall.coro).Nodup) :
    Distinct (xs.map (DCall.call nm)) := by
  unfold Distinct
  rw [List.map_map]
  exact hd

theorem group_map (nm : Nat → Name) (xs : List DCall) (g : Name) :
    group (xs.map (DCall.call nm)) g =
      (xs.filter fun x => decide (key (x.call nm) = g)).map DCall.coro := by
  unfold group
  rw [List.filter_map, List.map_map]
  congr 1
  apply List.filter_congr
  intro x _
  simp [legal_call]

/-- Calls whose keys are equal run one after the other. -/
theorem equal_keys (exit : Name) (nm : Nat → Name) (xs : List DCall) (as : List (Act V))
    (hd : (xs.map DCall.coro).Nodup) (x y : DCall) (l m r : List DCall)
    (hx : xs = l ++ x :: m ++ y :: r) (hs : key (x.call nm) = key (y.call nm))
    (h : .start y.coro ∈ (after (V := V) exit (xs.map (DCall.call nm)) as).log) :
    ∃ v, .finish x.coro v ∈ (after (V := V) exit (xs.map (DCall.call nm)) as).log := by
  have h1 := C19_sequential exit _ as (key (y.call nm)) (distinct_map (nm := nm) hd)
  have hg : group (xs.map (DCall.call nm)) (key (y.call nm)) =
      (l.filter fun x => decide (key (x.call nm) = key (y.call nm))).map DCall.coro ++ x.coro ::
        ((m.filter fun x => decide (key (x.call nm) = key (y.call nm))).map DCall.coro ++ y.coro ::
          (r.filter fun x => decide (key (x.call nm) = key (y.call nm))).map DCall.coro) := by
    rw [group_map, hx]
    simp [List.filter_append, hs]
  have hn : (group (xs.map (DCall.call nm)) (key (y.call nm))).Nodup := by
    rw [group_map]
    exact List.Nodup.sublist (List.Sublist.map _ List.filter_sublist) hd
  generalize hL : (l.filter fun x => decide (key (x.call nm) = key (y.call nm))).map DCall.coro = L at hg
  generalize hM : (m.filter fun x => decide (key (x.call nm) = key (y.call nm))).map DCall.coro = M at hg
  generalize hR : (r.filter fun x => decide (key (x.call nm) = key (y.call nm))).map DCall.coro = R at hg
  generalize group (xs.map (DCall.call nm)) (key (y.call nm)) = G at h1 hg hn
  refine oneByOne_before hn h1 (i := L.length) (j := L.length + 1 + M.length) ?_ ?_ (by omega) h
  · rw [hg]; simp
  · rw [hg, List.getElem?_append_right (by omega),
      show L.length + 1 + M.length - L.length = M.length + 1 by omega, List.getElem?_cons_succ]
    simp

/-- C69: calls of the same method of the same agent never run at the same time: when the later one has
started, the earlier one has returned. -/
theorem C69_same_method (exit : Name) (nm : Nat → Name) (xs : List DCall) (as : List (Act V))
    (hd : (xs.map DCall.coro).Nodup) (x y : DCall) (l m r : List DCall)
    (hx : xs = l ++ x :: m ++ y :: r) (hs : x.Same y)
    (h : .start y.coro ∈ (after (V := V) exit (xs.map (DCall.call nm)) as).log) :
    ∃ v, .finish x.coro v ∈ (after (V := V) exit (xs.map (DCall.call nm)) as).log :=
  equal_keys exit nm xs as hd x y l m r hx (by rw [key_call, key_call, hs.1, hs.2]) h

/-- C69 fails: two agents that belong to no environment have the same (empty) name
(`_base_agent.py` 19); the calls of their methods of the same name never run at the same time. -/
theorem C69_overlap_violated (exit : Name) (as : List (Act V)) :
    let xs : List DCall := [⟨0, "m".toList, 0⟩, ⟨1, "m".toList, 1⟩]
    (∀ y ∈ xs, FirstCall xs y) ∧
      (.start 1 ∈ (after (V := V) exit (xs.map (DCall.call fun _ => [])) as).log →
        ∃ v, .finish 0 v ∈ (after (V := V) exit (xs.map (DCall.call fun _ => [])) as).log) := by
  refine ⟨?_, equal_keys exit _ _ as (by decide) ⟨0, "m".toList, 0⟩ ⟨1, "m".toList, 1⟩ [] [] [] rfl rfl⟩
  intro y hy
  rcases List.mem_cons.1 hy with rfl | hy
  · exact ⟨[], _, rfl, by simp⟩
  · rw [List.mem_singleton] at hy
    subst hy
    exact ⟨[⟨0, "m".toList, 0⟩], [], rfl, by simp [DCall.Same]⟩

/-! ### The hypotheses can be met -/

namespace GroupsWitness

def nm : Nat → Name := fun n => if n = 0 then "a".toList else "b".toList

def xs : List DCall := [⟨0, "m".toList, 0⟩, ⟨0, "m".toList, 1⟩, ⟨1, "m".toList, 2⟩]

end GroupsWitness

open GroupsWitness in
example : (∀ x ∈ xs, ∀ y ∈ xs, nm x.agent = nm y.agent → x.agent = y.agent) ∧
    (∀ x ∈ xs, NoDots (nm x.agent)) ∧ FirstCall xs ⟨0, "m".toList, 0⟩ ∧
    FirstCall xs ⟨1, "m".toList, 2⟩ :=
  ⟨by decide, by unfold NoDots; decide, ⟨[], _, rfl, by simp⟩,
    ⟨[⟨0, "m".toList, 0⟩, ⟨0, "m".toList, 1⟩], [], rfl, by simp [DCall.Same]⟩⟩

open GroupsWitness in
/-- Both first calls are running. -/
example : (after (V := Nat) "all".toList (xs.map (DCall.call nm)) [.start 0, .start 1]).log =
    [.start 0, .start 2] := by decide +kernel

end Toffee.Executor
