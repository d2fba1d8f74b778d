import Verif.Props.Driver

/-! The ports that a driver call serves (`toffee/_base_agent.py` 57-65, 131-133): C24. -/

namespace Toffee.Driver

variable {A D R : Type}

/-! ### Specification -/

/-- The ports to which a call delivered, in order. -/
def delivered (c : Nat) : List (Ev A D R) → List Nat
  | [] => []
  | .put c' p :: l => if c' = c then p :: delivered c l else delivered c l
  | _ :: l => delivered c l

/-- The ports that the models provide for a method. -/
def allPorts (infos : List Info) : List Nat :=
  infos.flatMap (fun i => i.driverPort.toList) ++ infos.flatMap Info.agentPorts

/-! ### Proofs -/

theorem delivered_append (c : Nat) (l m : List (Ev A D R)) :
    delivered c (l ++ m) = delivered c l ++ delivered c m := by
  induction l with
  | nil => rfl
  | cons e l ih =>
    cases e with
    | put c' p =>
      simp only [List.cons_append, delivered, ih]
      split <;> rfl
    | _ => simpa only [List.cons_append, delivered] using ih

theorem delivered_invoke (c c' d : Nat) (a : A) (x : Option Setting) (l : List (Ev A D R)) :
    delivered c (.invoke c' d a x :: l) = delivered c l := rfl

theorem delivered_put (c c' : Nat) (l : List Nat) :
    delivered c (l.map (Ev.put c') : List (Ev A D R)) = if c' = c then l else [] := by
  induction l with
  | nil => simp [delivered]
  | cons p l ih =>
    rw [List.map_cons, delivered, ih]
    split <;> rfl

/-- Not a delivery. -/
def NoPut : Ev A D R → Prop
  | .put _ _ => False
  | _ => True

theorem delivered_none (c : Nat) {l : List (Ev A D R)} (h : ∀ e ∈ l, NoPut e) : delivered c l = [] := by
  induction l with
  | nil => rfl
  | cons e l ih =>
    have h1 := h e List.mem_cons_self
    have h2 := ih fun e he => h e (List.mem_cons_of_mem _ he)
    cases e with
    | put c' p => exact h1.elim
    | _ => simpa only [delivered] using h2

/-- Only `invoke` delivers. -/
theorem step_delivers (drv : Nat → Drv D R) (s : St A D R) (a : Act A D R)
    (ha : ∀ d args x, a ≠ .invoke d args x) :
    (step drv s a).calls.length = s.calls.length ∧
      ∃ l, (step drv s a).log = s.log ++ l ∧ ∀ e ∈ l, NoPut e := by
  cases a with
  | invoke d args x => exact absurd rfl (ha d args x)
  | callbacks ret =>
    obtain ⟨_, h2, h3, _⟩ := foldl_runReq ret (Priority.sorted s.pending) s
    refine ⟨h3, _, h2, ?_⟩
    intro e he
    obtain ⟨r, _, rfl⟩ := List.mem_map.1 he
    trivial
  | proceed c' =>
    simp only [step]
    split
    · split
      · exact ⟨by simp [setStage], _, rfl, by simp [NoPut]⟩
      · exact ⟨rfl, [], by simp, by simp⟩
    · exact ⟨rfl, [], by simp, by simp⟩
  | bodyEnd c' r =>
    simp only [step]
    split
    · exact ⟨by simp [setStage], _, rfl, by simp [NoPut]⟩
    · exact ⟨rfl, [], by simp, by simp⟩
  | background c' =>
    simp only [step]
    split
    · refine ⟨by simp [setStage, request], _, by simp only [setStage, request, List.append_nil]; rfl, ?_⟩
      intro e he
      obtain ⟨r, _, rfl⟩ := List.mem_map.1 he
      trivial
    · exact ⟨rfl, [], by simp, by simp⟩
  | check c' =>
    simp only [step]
    split
    · split
      · split
        · exact ⟨by simp [setStage, setting], _, rfl, by simp [NoPut]⟩
        · exact ⟨by simp [setStage], _, rfl, by simp [NoPut]⟩
      · exact ⟨rfl, [], by simp, by simp⟩
    · exact ⟨rfl, [], by simp, by simp⟩

theorem ports_perm (infos : List Info) : (ports infos).Perm (allPorts infos) := by
  unfold ports allPorts
  induction infos with
  | nil => exact List.Perm.refl _
  | cons i is ih =>
    simp only [List.flatMap_cons]
    have h1 : (if i.hasPort = true then i.agentPorts ++ i.driverPort.toList else []) =
        i.agentPorts ++ i.driverPort.toList := by
      unfold Info.hasPort
      cases hd : i.driverPort <;> cases ha : i.agentPorts <;> simp
    rw [h1]
    generalize is.flatMap (fun i => i.driverPort.toList) = x at *
    generalize is.flatMap Info.agentPorts = y at *
    generalize i.driverPort.toList = u
    generalize i.agentPorts = v
    -- `(v ++ u) ++ l ~ (u ++ x) ++ (v ++ y)` for `l ~ x ++ y`
    have e1 := List.Perm.append_left (v ++ u) ih
    refine e1.trans ?_
    rw [List.append_assoc u x]
    refine (List.Perm.append_right _ List.perm_append_comm).trans ?_
    rw [List.append_assoc]
    apply List.Perm.append_left
    rw [← List.append_assoc, ← List.append_assoc]
    exact List.Perm.append_right _ List.perm_append_comm

/-- **C24**, who gets it: from the moment of the call on, and whatever else happens, every port that a
model provides for the method has been served exactly once by the call, and no other port.  The payload
is the subject of `C24_delivers_partial`. -/
theorem C24_served (drv : Nat → Drv D R) (as : List (Act A D R)) (c d : Nat) (a : A)
    (x : Option Setting) (h : .invoke c d a x ∈ (run drv init as).log) :
    (delivered c (run drv init as).log).Perm (allPorts (drv d).infos) := by
  suffices H : (∀ c, (run drv init as).calls.length ≤ c → delivered c (run drv init as).log = []) ∧
      ∀ c d a x, .invoke c d a x ∈ (run drv init as).log → c < (run drv init as).calls.length ∧
        delivered c (run drv init as).log = ports (drv d).infos by
    rw [(H.2 c d a x h).2]
    exact ports_perm _
  clear h
  induction as using snoc_ind with
  | h0 => exact ⟨fun _ _ => rfl, fun _ _ _ _ h => absurd h (by simp [run, init])⟩
  | h1 as act ih =>
    rw [run_append]
    generalize run drv init as = s at ih
    show (∀ c, (step drv s act).calls.length ≤ c → delivered c (step drv s act).log = []) ∧
      ∀ c d a x, .invoke c d a x ∈ (step drv s act).log → c < (step drv s act).calls.length ∧
        delivered c (step drv s act).log = ports (drv d).infos
    obtain ⟨ih1, ih2⟩ := ih
    by_cases hact : ∃ d args x, act = .invoke d args x
    · obtain ⟨d', args', x', rfl⟩ := hact
      obtain ⟨_, h2, _, h4⟩ := invoke_eq drv s d' args' x'
      have hdel : ∀ c, delivered c (step drv s (.invoke d' args' x')).log =
          delivered c s.log ++ if s.calls.length = c then ports (drv d').infos else [] := by
        intro c
        rw [h4, delivered_append, List.cons_append, delivered_invoke, delivered_append, delivered_put,
          delivered_none c (l := List.map (fun h => Ev.request _ _ _) _), List.append_nil]
        intro e he
        obtain ⟨r, _, rfl⟩ := List.mem_map.1 he
        trivial
      have hlen : (step drv s (.invoke d' args' x')).calls.length = s.calls.length + 1 := by
        rw [h2]; simp
      refine ⟨fun c hc => ?_, fun c d a x hm => ?_⟩
      · rw [hdel, ih1 c (by omega), if_neg (by omega)]
        rfl
      · rcases step_invoke hm with hm | ⟨rfl, he⟩
        · obtain ⟨h5, h6⟩ := ih2 c d a x hm
          rw [hdel, h6, if_neg (by omega), List.append_nil]
          exact ⟨by omega, rfl⟩
        · cases he
          rw [hdel, ih1 _ (Nat.le_refl _), if_pos rfl]
          exact ⟨by omega, rfl⟩
    · have hact : ∀ d args x, act ≠ .invoke d args x := fun d args x he => hact ⟨d, args, x, he⟩
      obtain ⟨h1, l, h2, h3⟩ := step_delivers drv s act hact
      have hdel : ∀ c, delivered c (step drv s act).log = delivered c s.log := by
        intro c
        rw [h2, delivered_append, delivered_none c h3, List.append_nil]
      refine ⟨fun c hc => by rw [hdel, ih1 c (by omega)], fun c d a x hm => ?_⟩
      rcases step_invoke hm with hm | ⟨_, he⟩
      · obtain ⟨h5, h6⟩ := ih2 c d a x hm
        exact ⟨by omega, by rw [hdel, h6]⟩
      · exact absurd he (hact d a x)

/-- The hypotheses can be met: two ports of two models. -/
example :
    let drv : Nat → Drv Nat Nat := fun _ => ⟨[⟨none, [], some 4, [7]⟩, ⟨none, [], none, []⟩, ⟨none, [], none, [9]⟩], fun _ _ => true⟩
    let as : List (Act Unit Nat Nat) := [.invoke 0 () none]
    .invoke 0 0 () none ∈ (run drv init as).log ∧ delivered 0 (run drv init as).log = [7, 4, 9] := by
  decide +kernel

end Toffee.Driver
