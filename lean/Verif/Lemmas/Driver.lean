import Verif.Model.Driver
import Verif.Lemmas.Priority

/-! Lemmas about driver calls. -/

namespace Toffee.Driver

variable {A D R : Type}

theorem snoc_ind {α : Type} {P : List α → Prop} (h0 : P []) (h1 : ∀ l a, P l → P (l ++ [a]))
    (l : List α) : P l := by
  rw [← List.reverse_reverse l]
  induction l.reverse with
  | nil => exact h0
  | cons a l ih => rw [List.reverse_cons]; exact h1 _ _ ih

def Ev.call : Ev A D R → Nat
  | .invoke c _ _ _ => c
  | .put c _ => c
  | .request c _ _ => c
  | .exec c _ _ _ => c
  | .bodyStart c => c
  | .bodyEnd c _ => c
  | .checked c _ => c

/-- Executions of hooks, begin and end of the driver method, and the comparison. -/
def Ev.main : Ev A D R → Bool
  | .exec _ _ _ _ => true
  | .bodyStart _ => true
  | .bodyEnd _ _ => true
  | .checked _ _ => true
  | _ => false

/-- What happened in a call. -/
def proj (c : Nat) (log : List (Ev A D R)) : List (Ev A D R) :=
  log.filter fun e => e.main && decide (e.call = c)

/-- Executions of hooks. -/
def execs (c : Nat) (args : A) (e : List (Hook × Option R)) : List (Ev A D R) :=
  e.map fun x => .exec c x.1 args x.2

/-- The hooks of a call that were requested and have not run. -/
def pend (c : Nat) (p : List (Req A × Int)) : List Hook :=
  (p.filter fun r => decide (r.1.call = c)).map fun r => r.1.hook

theorem proj_append (c : Nat) (a b : List (Ev A D R)) : proj c (a ++ b) = proj c a ++ proj c b :=
  List.filter_append ..

theorem pend_append (c : Nat) (a b : List (Req A × Int)) : pend c (a ++ b) = pend c a ++ pend c b := by
  unfold pend
  rw [List.filter_append, List.map_append]

theorem execs_append (c : Nat) (args : A) (a b : List (Hook × Option R)) :
    execs (D := D) c args (a ++ b) = execs c args a ++ execs c args b := List.map_append

theorem proj_none {c : Nat} {l : List (Ev A D R)} (h : ∀ e ∈ l, e.main = true → e.call ≠ c) :
    proj c l = [] := by
  unfold proj
  rw [List.filter_eq_nil_iff]
  intro e he hc
  rw [Bool.and_eq_true_iff] at hc
  exact h e he hc.1 (by simpa using hc.2)

theorem pend_none {c : Nat} {p : List (Req A × Int)} (h : ∀ r ∈ p, r.1.call ≠ c) : pend c p = [] := by
  unfold pend
  rw [List.map_eq_nil_iff, List.filter_eq_nil_iff]
  intro r hr hc
  exact h r hr (by simpa using hc)

theorem idle_iff {s : St A D R} {c : Nat} : idle s c = true ↔ ∀ r ∈ s.pending, r.1.call ≠ c := by
  unfold idle
  rw [List.all_eq_true]
  simp

theorem idle_pend {s : St A D R} {c : Nat} (h : idle s c = true) : pend c s.pending = [] :=
  pend_none (idle_iff.1 h)

/-- What running the priority tasks of a list does. -/
theorem foldl_runReq (ret : Nat → Hook → Option R) (l : List (Req A × Int)) (s : St A D R) :
    (l.foldl (runReq ret) s).set = s.set ∧
    (l.foldl (runReq ret) s).log =
      s.log ++ l.map (fun r => .exec r.1.call r.1.hook r.1.args (ret r.1.call r.1.hook)) ∧
    (l.foldl (runReq ret) s).calls.length = s.calls.length ∧
    ∀ c : Nat, (l.foldl (runReq ret) s).calls[c]? = s.calls[c]?.map fun k =>
      { k with results := k.results ++ (pend c l).map (ret c) } := by
  induction l generalizing s with
  | nil =>
    refine ⟨rfl, by simp, rfl, fun c => ?_⟩
    cases h : s.calls[c]? <;> simp [pend, h]
  | cons r l ih =>
    obtain ⟨h1, h2, h3, h4⟩ := ih (runReq ret s r)
    refine ⟨h1, ?_, ?_, fun c => ?_⟩
    · rw [List.foldl_cons, h2]
      simp [runReq]
    · rw [List.foldl_cons, h3]
      simp [runReq]
    · rw [List.foldl_cons, h4]
      simp only [runReq]
      rw [List.getElem?_modify]
      unfold pend
      by_cases hc : r.1.call = c
      · subst hc
        cases s.calls[r.1.call]? <;> simp
      · cases s.calls[c]? <;> simp [hc]

/-! ### The history of a call -/

/-- How far a call has come, against what was observed: `pr` is what happened in the call, `pd` the
hooks that have not run yet. -/
def StageOk (x : Drv D R) (o : Option Name) (c : Nat) (k : Call A D R) (pd : List Hook)
    (pr : List (Ev A D R)) : Prop :=
  match k.stage with
  | .waiting later => later = laterHooks o x.infos ∧ ∃ e1, pr = execs c k.args e1 ∧
      (e1.map Prod.fst ++ pd).Perm (firstHooks o x.infos) ∧ k.results = e1.map Prod.snd
  | .body later => later = laterHooks o x.infos ∧ pd = [] ∧ ∃ e1,
      pr = execs c k.args e1 ++ [.bodyStart c] ∧
      (e1.map Prod.fst).Perm (firstHooks o x.infos) ∧ k.results = e1.map Prod.snd
  | .created later d => later = laterHooks o x.infos ∧ pd = [] ∧ ∃ e1,
      pr = execs c k.args e1 ++ [.bodyStart c, .bodyEnd c d] ∧
      (e1.map Prod.fst).Perm (firstHooks o x.infos) ∧ k.results = e1.map Prod.snd
  | .checking d => ∃ e1 e2,
      pr = execs c k.args e1 ++ [.bodyStart c, .bodyEnd c d] ++ execs c k.args e2 ∧
      (e1.map Prod.fst).Perm (firstHooks o x.infos) ∧
      (e2.map Prod.fst ++ pd).Perm (laterHooks o x.infos) ∧ k.results = (e1 ++ e2).map Prod.snd
  | .done ok => pd = [] ∧ ∃ e1 e2 d,
      pr = execs c k.args e1 ++ [.bodyStart c, .bodyEnd c d] ++ execs c k.args e2 ++
        [.checked c ok] ∧
      (e1.map Prod.fst).Perm (firstHooks o x.infos) ∧
      (e2.map Prod.fst).Perm (laterHooks o x.infos) ∧
      ok = compareAll x.cmp d ((e1 ++ e2).map Prod.snd)

/-- A call with its history; `P` says which order is used for which way of calling. -/
def CallOk (drv : Nat → Drv D R) (P : Option Setting → Option Name → Prop) (s : St A D R) (c : Nat)
    (k : Call A D R) : Prop :=
  ∃ x o, .invoke c k.drv k.args x ∈ s.log ∧ P x o ∧
    StageOk (drv k.drv) o c k (pend c s.pending) (proj c s.log)

structure Inv (drv : Nat → Drv D R) (P : Option Setting → Option Name → Prop) (s : St A D R) :
    Prop where
  log : ∀ e ∈ s.log, e.call < s.calls.length
  pending : ∀ r ∈ s.pending, ∃ k, s.calls[r.1.call]? = some k ∧ r.1.args = k.args
  calls : ∀ (c : Nat) k, s.calls[c]? = some k → CallOk drv P s c k
  invoked : ∀ c d d' a a' x x', .invoke c d a x ∈ s.log → .invoke c d' a' x' ∈ s.log →
    d = d' ∧ a = a' ∧ x = x'

theorem inv_init (drv : Nat → Drv D R) (P : Option Setting → Option Name → Prop) :
    Inv drv P (init : St A D R) :=
  ⟨by simp [init], by simp [init], by simp [init], by simp [init]⟩

/-- What a call to a driver method finds. -/
def effective (s : St A D R) (d : Nat) (x : Option Setting) : Setting :=
  match x with
  | some x => x
  | none => s.set d

/-- The effect of `invoke`. -/
theorem invoke_eq (drv : Nat → Drv D R) (s : St A D R) (d : Nat) (args : A) (x : Option Setting) :
    let e := effective s d x
    let fs := firstHooks e.order (drv d).infos
    (step drv s (.invoke d args x)).set = (fun d' => if d' = d then e else s.set d') ∧
    (step drv s (.invoke d args x)).calls =
      s.calls ++ [⟨d, args, .waiting (laterHooks e.order (drv d).infos), []⟩] ∧
    (step drv s (.invoke d args x)).pending =
      s.pending ++ fs.map (fun h => (⟨s.calls.length, h, args⟩, prioOf e.prio h)) ∧
    (step drv s (.invoke d args x)).log =
      s.log ++ (.invoke s.calls.length d args x :: (ports (drv d).infos).map (.put s.calls.length) ++
        fs.map fun h => .request s.calls.length h (prioOf e.prio h)) := by
  cases x with
  | some x => simp [step, setting, request, effective]
  | none =>
    refine ⟨?_, ?_, ?_, ?_⟩
    · funext d'
      simp only [step, request, effective]
      split
      · rename_i h; rw [h]
      · rfl
    · simp [step, request, effective]
    · simp [step, request, effective]
    · simp [step, request, effective]

theorem stageOk_callbacks {x : Drv D R} {o : Option Name} {c : Nat} {k : Call A D R} {pd : List Hook}
    {pr : List (Ev A D R)} (h : StageOk x o c k pd pr) (e : List (Hook × Option R))
    (he : (e.map Prod.fst).Perm pd) :
    StageOk x o c { k with results := k.results ++ e.map Prod.snd } [] (pr ++ execs c k.args e) := by
  have hnil : pd = [] → e = [] := by
    intro h0
    rw [h0, List.perm_nil, List.map_eq_nil_iff] at he
    exact he
  unfold StageOk at h ⊢
  cases hs : k.stage with
  | waiting later =>
    simp only [hs] at h ⊢
    obtain ⟨h1, e1, h2, h3, h4⟩ := h
    refine ⟨h1, e1 ++ e, ?_, ?_, ?_⟩
    · rw [h2, execs_append]
    · rw [List.map_append, List.append_nil]
      exact (he.append_left _).trans h3
    · rw [h4, List.map_append]
  | body later =>
    simp only [hs] at h ⊢
    obtain ⟨h1, h0, e1, h2, h3, h4⟩ := h
    rw [hnil h0]
    exact ⟨h1, trivial, e1, by simp [h2, execs], h3, by simp [h4]⟩
  | created later d =>
    simp only [hs] at h ⊢
    obtain ⟨h1, h0, e1, h2, h3, h4⟩ := h
    rw [hnil h0]
    exact ⟨h1, trivial, e1, by simp [h2, execs], h3, by simp [h4]⟩
  | checking d =>
    simp only [hs] at h ⊢
    obtain ⟨e1, e2, h1, h2, h3, h4⟩ := h
    refine ⟨e1, e2 ++ e, ?_, h2, ?_, ?_⟩
    · rw [h1, execs_append]
      simp
    · rw [List.map_append, List.append_nil]
      exact (he.append_left _).trans h3
    · rw [h4]
      simp
  | done ok =>
    simp only [hs] at h ⊢
    obtain ⟨h0, e1, e2, d, h1, h2, h3, h4⟩ := h
    rw [hnil h0]
    exact ⟨trivial, e1, e2, d, by simp [h1, execs], h2, h3, h4⟩

/-- A step of one call `c`: the others keep their histories. -/
theorem inv_setStage {drv : Nat → Drv D R} {P : Option Setting → Option Name → Prop}
    {s s' : St A D R} (h : Inv drv P s) {c : Nat} {k : Call A D R} (hk : s.calls[c]? = some k)
    {st : Stage D} {hs : List Hook} {prio : Option Int} {evs : List (Ev A D R)}
    (hcalls : s'.calls = s.calls.modify c fun k => { k with stage := st })
    (hpend : s'.pending = s.pending ++ hs.map fun h => (⟨c, h, k.args⟩, prioOf prio h))
    (hlog : s'.log = s.log ++ evs) (hev : ∀ e ∈ evs, e.call = c)
    (hni : ∀ c d a x, .invoke c d a x ∉ evs)
    (hok : ∀ o, StageOk (drv k.drv) o c k (pend c s.pending) (proj c s.log) →
      StageOk (drv k.drv) o c { k with stage := st } (pend c s.pending ++ hs)
        (proj c s.log ++ proj c evs)) :
    Inv drv P s' := by
  have hlt : c < s.calls.length := by
    rw [List.getElem?_eq_some_iff] at hk
    exact hk.1
  have hlen : s'.calls.length = s.calls.length := by rw [hcalls]; simp
  have hget : ∀ i : Nat, s'.calls[i]? =
      s.calls[i]?.map fun k => if c = i then { k with stage := st } else k := by
    intro i
    rw [hcalls, List.getElem?_modify]
    by_cases hi : c = i <;> simp [hi]
  have hpc : pend c (hs.map fun h => ((⟨c, h, k.args⟩ : Req A), prioOf prio h)) = hs := by
    unfold pend
    rw [List.filter_eq_self.2 (by intro r hr; obtain ⟨x, _, rfl⟩ := List.mem_map.1 hr; simp),
      List.map_map]
    exact List.map_id _
  refine ⟨?_, ?_, ?_, ?_⟩
  · intro e he
    rw [hlen]
    rw [hlog] at he
    rcases List.mem_append.1 he with he | he
    · exact h.log e he
    · rw [hev e he]
      exact hlt
  · intro r hr
    rw [hpend] at hr
    rcases List.mem_append.1 hr with hr | hr
    · obtain ⟨k', h1, h2⟩ := h.pending r hr
      rw [hget, h1]
      exact ⟨_, rfl, by simp only; split <;> exact h2⟩
    · obtain ⟨x, _, rfl⟩ := List.mem_map.1 hr
      rw [hget, hk]
      exact ⟨_, rfl, by simp⟩
  · intro i k' hk'
    rw [hget] at hk'
    by_cases hi : c = i
    · subst hi
      rw [hk] at hk'
      simp only [if_true, Option.map_some, Option.some.injEq] at hk'
      subst hk'
      obtain ⟨x, o, h1, h2, h3⟩ := h.calls c k hk
      refine ⟨x, o, by rw [hlog]; exact List.mem_append_left _ h1, h2, ?_⟩
      rw [hpend, pend_append, hpc, hlog, proj_append]
      exact hok o h3
    · have hk'' : s.calls[i]? = some k' := by
        cases hs' : s.calls[i]? with
        | none => rw [hs'] at hk'; cases hk'
        | some y =>
          rw [hs'] at hk'
          simp only [hi, if_false, Option.map_some] at hk'
          exact hk'
      obtain ⟨x, o, h1, h2, h3⟩ := h.calls i k' hk''
      refine ⟨x, o, by rw [hlog]; exact List.mem_append_left _ h1, h2, ?_⟩
      rw [hpend, pend_append, hlog, proj_append, proj_none (l := evs), pend_none (p := hs.map _),
        List.append_nil, List.append_nil]
      · exact h3
      · intro r hr
        obtain ⟨x, _, rfl⟩ := List.mem_map.1 hr
        exact hi
      · intro e he _
        rw [hev e he]
        exact hi
  · intro c' d d' a a' x x' h1 h2
    rw [hlog] at h1 h2
    refine h.invoked c' d d' a a' x x' ?_ ?_
    · exact (List.mem_append.1 h1).resolve_right (hni _ _ _ _)
    · exact (List.mem_append.1 h2).resolve_right (hni _ _ _ _)

theorem getElem?_snoc {α : Type} (l : List α) (a : α) (i : Nat) :
    (l ++ [a])[i]? = if i = l.length then some a else l[i]? := by
  by_cases h : i = l.length
  · subst h; simp
  · rw [if_neg h]
    by_cases h' : i < l.length
    · rw [List.getElem?_append_left h']
    · rw [List.getElem?_eq_none (by simp; omega), List.getElem?_eq_none (by omega)]

/-- All steps keep the histories. -/
theorem inv_step (drv : Nat → Drv D R) {P : Option Setting → Option Name → Prop} {s : St A D R}
    (h : Inv drv P s) (a : Act A D R)
    (hP : ∀ d args x, a = .invoke d args x → P x (effective s d x).order) :
    Inv drv P (step drv s a) := by
  cases a with
  | invoke d args x =>
    obtain ⟨_, h2, h3, h4⟩ := invoke_eq drv s d args x
    generalize step drv s (.invoke d args x) = s' at h2 h3 h4
    generalize hfs : firstHooks (effective s d x).order (drv d).infos = fs at h3 h4
    have hlen : s'.calls.length = s.calls.length + 1 := by rw [h2]; simp
    have hpc : pend s.calls.length
        (fs.map fun h => ((⟨s.calls.length, h, args⟩ : Req A), prioOf (effective s d x).prio h)) = fs := by
      unfold pend
      rw [List.filter_eq_self.2 (by intro r hr; obtain ⟨x, _, rfl⟩ := List.mem_map.1 hr; simp),
        List.map_map]
      exact List.map_id _
    refine ⟨?_, ?_, ?_, ?_⟩
    · intro e he
      rw [hlen]
      rw [h4] at he
      rcases List.mem_append.1 he with he | he
      · have := h.log e he
        omega
      · have : e.call = s.calls.length := by
          rcases List.mem_append.1 he with he | he
          · rcases List.mem_cons.1 he with rfl | he
            · rfl
            · obtain ⟨y, _, rfl⟩ := List.mem_map.1 he
              rfl
          · obtain ⟨y, _, rfl⟩ := List.mem_map.1 he
            rfl
        omega
    · intro r hr
      rw [h3] at hr
      rw [h2, getElem?_snoc]
      rcases List.mem_append.1 hr with hr | hr
      · obtain ⟨k, h5, h6⟩ := h.pending r hr
        have : r.1.call ≠ s.calls.length := by
          rw [List.getElem?_eq_some_iff] at h5
          have := h5.1
          omega
        rw [if_neg this]
        exact ⟨k, h5, h6⟩
      · obtain ⟨y, _, rfl⟩ := List.mem_map.1 hr
        rw [if_pos rfl]
        exact ⟨_, rfl, rfl⟩
    · intro c k hk
      rw [h2, getElem?_snoc] at hk
      by_cases hc : c = s.calls.length
      · subst hc
        rw [if_pos rfl] at hk
        cases hk
        refine ⟨x, (effective s d x).order, ?_, hP d args x rfl, ?_⟩
        · rw [h4]
          simp
        · rw [h3, pend_append, hpc, h4, proj_append]
          have e1 : pend s.calls.length s.pending = [] := by
            apply pend_none
            intro r hr
            obtain ⟨k, h5, _⟩ := h.pending r hr
            rw [List.getElem?_eq_some_iff] at h5
            have := h5.1
            omega
          have e2 : proj s.calls.length s.log = [] := by
            apply proj_none
            intro e he _
            have := h.log e he
            omega
          have e3 : proj s.calls.length ((.invoke s.calls.length d args x ::
              (ports (drv d).infos).map (.put s.calls.length) ++
              fs.map fun h => .request s.calls.length h (prioOf (effective s d x).prio h)) :
                List (Ev A D R)) = [] := by
            apply proj_none
            intro e he hm
            rcases List.mem_append.1 he with he | he
            · rcases List.mem_cons.1 he with rfl | he
              · cases hm
              · obtain ⟨y, _, rfl⟩ := List.mem_map.1 he
                cases hm
            · obtain ⟨y, _, rfl⟩ := List.mem_map.1 he
              cases hm
          rw [e1, e2, e3]
          refine ⟨rfl, [], rfl, ?_, rfl⟩
          rw [← hfs]
          exact List.Perm.refl _
      · rw [if_neg hc] at hk
        obtain ⟨y, o, h5, h6, h7⟩ := h.calls c k hk
        refine ⟨y, o, by rw [h4]; exact List.mem_append_left _ h5, h6, ?_⟩
        rw [h3, pend_append, h4, proj_append]
        rw [proj_none (l := _ :: _ ++ _), pend_none (p := fs.map _), List.append_nil, List.append_nil]
        · exact h7
        · intro r hr
          obtain ⟨z, _, rfl⟩ := List.mem_map.1 hr
          exact fun h => hc h.symm
        · intro e he hm
          rcases List.mem_append.1 he with he | he
          · rcases List.mem_cons.1 he with rfl | he
            · cases hm
            · obtain ⟨y, _, rfl⟩ := List.mem_map.1 he
              cases hm
          · obtain ⟨y, _, rfl⟩ := List.mem_map.1 he
            cases hm
    · have key : ∀ c d' a' x', .invoke c d' a' x' ∈ s'.log →
          (.invoke c d' a' x' ∈ s.log ∧ c < s.calls.length) ∨
            (c = s.calls.length ∧ d' = d ∧ a' = args ∧ x' = x) := by
        intro c d' a' x' hm
        rw [h4] at hm
        rcases List.mem_append.1 hm with hm | hm
        · exact .inl ⟨hm, h.log _ hm⟩
        · right
          rcases List.mem_append.1 hm with hm | hm
          · rcases List.mem_cons.1 hm with hm | hm
            · cases hm
              exact ⟨rfl, rfl, rfl, rfl⟩
            · obtain ⟨y, _, hy⟩ := List.mem_map.1 hm
              cases hy
          · obtain ⟨y, _, hy⟩ := List.mem_map.1 hm
            cases hy
      intro c d1 d2 a1 a2 x1 x2 hm1 hm2
      rcases key _ _ _ _ hm1 with ⟨hm1, hl1⟩ | ⟨hl1, rfl, rfl, rfl⟩ <;>
        rcases key _ _ _ _ hm2 with ⟨hm2, hl2⟩ | ⟨hl2, rfl, rfl, rfl⟩
      · exact h.invoked _ _ _ _ _ _ _ hm1 hm2
      · omega
      · omega
      · exact ⟨rfl, rfl, rfl⟩
  | callbacks ret =>
    obtain ⟨h1, h2, h3, h4⟩ := foldl_runReq ret (Priority.sorted s.pending) s
    have hperm := Priority.sorted_perm s.pending
    show Inv drv P { (Priority.sorted s.pending).foldl (runReq ret) s with pending := [] }
    refine ⟨?_, by simp, ?_, ?_⟩
    · intro e he
      simp only at he ⊢
      rw [h3]
      rw [h2] at he
      rcases List.mem_append.1 he with he | he
      · exact h.log e he
      · obtain ⟨r, hr, rfl⟩ := List.mem_map.1 he
        obtain ⟨k, h5, _⟩ := h.pending r (hperm.mem_iff.1 hr)
        rw [List.getElem?_eq_some_iff] at h5
        exact h5.1
    · intro c k hk
      simp only at hk
      rw [h4, Option.map_eq_some_iff] at hk
      obtain ⟨k, hk, rfl⟩ := hk
      obtain ⟨x, o, h5, h6, h7⟩ := h.calls c k hk
      refine ⟨x, o, ?_, h6, ?_⟩
      · show _ ∈ (List.foldl (runReq ret) s (Priority.sorted s.pending)).log
        rw [h2]
        exact List.mem_append_left _ h5
      · show StageOk (drv k.drv) o c _ [] (proj c (List.foldl (runReq ret) s (Priority.sorted s.pending)).log)
        have hmap : ∀ l : List Hook, l.map (ret c) = (l.map fun h => (h, ret c h)).map Prod.snd := by
          intro l
          rw [List.map_map]
          rfl
        have hproj : proj c ((Priority.sorted s.pending).map
            (fun r => (.exec r.1.call r.1.hook r.1.args (ret r.1.call r.1.hook) : Ev A D R))) =
            execs c k.args ((pend c (Priority.sorted s.pending)).map fun h => (h, ret c h)) := by
          unfold proj pend execs
          rw [List.filter_map, List.map_map, List.map_map]
          have : ((fun e : Ev A D R => e.main && decide (e.call = c)) ∘ fun r : Req A × Int =>
              (.exec r.1.call r.1.hook r.1.args (ret r.1.call r.1.hook) : Ev A D R)) =
              fun r => decide (r.1.call = c) := by
            funext r
            rfl
          rw [this]
          refine List.map_congr_left fun r hr => ?_
          rw [List.mem_filter] at hr
          have hc : r.1.call = c := by simpa using hr.2
          obtain ⟨k', h8, h9⟩ := h.pending r (hperm.mem_iff.1 hr.1)
          rw [hc, hk] at h8
          cases h8
          simp [hc, h9]
        rw [h2, proj_append, hproj, hmap]
        refine stageOk_callbacks h7 _ ?_
        rw [List.map_map]
        have : (Prod.fst ∘ fun h => (h, ret c h)) = (id : Hook → Hook) := rfl
        rw [this, List.map_id]
        exact (hperm.filter _).map _
    · have key : ∀ c d a x, .invoke c d a x ∈
          ({ (Priority.sorted s.pending).foldl (runReq ret) s with pending := [] } : St A D R).log →
          .invoke c d a x ∈ s.log := by
        intro c d a x hm
        simp only at hm
        rw [h2] at hm
        rcases List.mem_append.1 hm with hm | hm
        · exact hm
        · obtain ⟨r, _, hr⟩ := List.mem_map.1 hm
          cases hr
      intro c d d' a a' x x' hm1 hm2
      exact h.invoked _ _ _ _ _ _ _ (key _ _ _ _ hm1) (key _ _ _ _ hm2)
  | proceed c =>
    simp only [step]
    split
    · rename_i dr args later rs hk
      split
      · rename_i hid
        have hp := idle_pend hid
        refine inv_setStage (prio := none) (hs := []) h hk rfl (by simp [setStage]) rfl
          (by simp [Ev.call]) (by simp) ?_
        intro o ho
        obtain ⟨h1, e1, h2, h3, h4⟩ := ho
        rw [hp, List.append_nil] at h3
        rw [hp]
        refine ⟨h1, rfl, e1, ?_, h3, h4⟩
        rw [h2]
        simp [proj, Ev.main, Ev.call]
      · exact h
    · exact h
  | bodyEnd c d =>
    simp only [step]
    split
    · rename_i dr args later rs hk
      refine inv_setStage (prio := none) (hs := []) h hk rfl (by simp [setStage]) rfl
        (by simp [Ev.call]) (by simp) ?_
      intro o ho
      obtain ⟨h1, hp, e1, h2, h3, h4⟩ := ho
      rw [hp]
      refine ⟨h1, rfl, e1, ?_, h3, h4⟩
      rw [h2]
      simp [proj, Ev.main, Ev.call]
    · exact h
  | background c =>
    simp only [step]
    split
    · rename_i dr args later d rs hk
      refine inv_setStage (prio := (s.set dr).prio) (hs := later)
        (evs := later.map fun h => .request c h (prioOf (s.set dr).prio h)) h hk rfl rfl
        (by simp [setStage, request]) ?_ (by simp) ?_
      · intro e he
        obtain ⟨y, _, rfl⟩ := List.mem_map.1 he
        rfl
      · intro o ho
        obtain ⟨h1, hp, e1, h2, h3, h4⟩ := ho
        rw [hp, proj_none (l := later.map _)]
        · refine ⟨e1, [], ?_, h3, ?_, ?_⟩
          · rw [h2]
            simp [execs]
          · simp [h1]
          · simpa using h4
        · intro e he hm
          obtain ⟨y, _, rfl⟩ := List.mem_map.1 he
          cases hm
    · exact h
  | check c =>
    simp only [step]
    split
    · rename_i dr args d rs hk
      split
      · rename_i hid
        have hp := idle_pend hid
        have key : Inv drv P (setStage s c (.done (compareAll (drv dr).cmp d rs))
            [.checked c (compareAll (drv dr).cmp d rs)]) := by
          refine inv_setStage (prio := none) (hs := []) h hk rfl (by simp [setStage]) rfl
            (by simp [Ev.call]) (by simp) ?_
          intro o ho
          obtain ⟨e1, e2, h1, h2, h3, h4⟩ := ho
          rw [hp, List.append_nil] at h3
          rw [hp]
          refine ⟨rfl, e1, e2, d, ?_, h2, h3, ?_⟩
          · rw [h1]
            simp [proj, Ev.main, Ev.call]
          · rw [← h4]
        split
        · exact ⟨key.log, key.pending, key.calls, key.invoked⟩
        · exact key
      · exact h
    · exact h

end Toffee.Driver
