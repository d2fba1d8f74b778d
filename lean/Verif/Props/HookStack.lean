import Verif.Model.HookStack

/-! C133: a function under several hook decorators. -/

namespace Toffee.Props.HookStack

open Toffee.HookStack
open Toffee.HookDeco (Kind)

variable {τ : Type}

/-- What the user asks for with the decorator `d`: the function is a hook of this kind for what `d` names, with the
priority and, unless it is a monitor hook, the order that `d` gives. -/
def InForce (f : Func τ) (d : Deco τ) : Prop :=
  collected f = some (d.kind, d.names) ∧ f.priority = some d.priority ∧
    (d.kind ≠ .monitor → f.modelFirst = some d.modelFirst)

/-- Two decorators that ask for the same. -/
def Same (d e : Deco τ) : Prop :=
  d.kind = e.kind ∧ d.names = e.names ∧ d.priority = e.priority ∧ (d.kind ≠ .monitor → d.modelFirst = e.modelFirst)

/-- The attribute in which decorators of a kind write what they name. -/
def slot (k : Kind) (f : Func τ) : Option τ :=
  match k with
  | .agent => f.agent
  | .driver => f.driver
  | .monitor => f.monitor

/-- Driver hooks come before agent hooks, and these before monitor hooks. -/
def rank : Kind → Nat
  | .driver => 2
  | .agent => 1
  | .monitor => 0

theorem apply_slot (f : Func τ) (d : Deco τ) (k : Kind) :
    slot k (apply f d) = if d.kind = k then some d.names else slot k f := by
  rcases d with ⟨dk, n, p, m⟩
  cases dk <;> cases k <;> rfl

theorem apply_priority (f : Func τ) (d : Deco τ) : (apply f d).priority = some d.priority := by
  rcases d with ⟨dk, n, p, m⟩
  cases dk <;> rfl

theorem apply_order (f : Func τ) (d : Deco τ) :
    (apply f d).modelFirst = if d.kind = .monitor then f.modelFirst else some d.modelFirst := by
  rcases d with ⟨dk, n, p, m⟩
  cases dk <;> rfl

theorem fold_slot_other (ds : List (Deco τ)) (f : Func τ) (k : Kind) (h : ∀ e ∈ ds, e.kind ≠ k) :
    slot k (ds.foldl apply f) = slot k f := by
  induction ds generalizing f with
  | nil => rfl
  | cons d ds ih =>
    rw [List.foldl_cons, ih _ fun e he => h e (List.mem_cons_of_mem _ he), apply_slot,
      if_neg (h d List.mem_cons_self)]

theorem decorated_slot (pre post : List (Deco τ)) (d : Deco τ) (h : ∀ e ∈ post, e.kind ≠ d.kind) :
    slot d.kind (decorated (pre ++ d :: post)) = some d.names := by
  rw [decorated, List.foldl_append, List.foldl_cons, fold_slot_other post _ _ h, apply_slot, if_pos rfl]

theorem decorated_slot_none (ds : List (Deco τ)) (k : Kind) (h : ∀ e ∈ ds, e.kind ≠ k) :
    slot k (decorated ds) = none := by
  rw [decorated, fold_slot_other ds _ _ h]
  cases k <;> rfl

theorem collected_of_slots (f : Func τ) (k : Kind) (t : τ) (h : slot k f = some t)
    (hn : ∀ k', rank k < rank k' → slot k' f = none) : collected f = some (k, t) := by
  cases k with
  | driver =>
    have h : f.driver = some t := h
    simp [collected, h]
  | agent =>
    have h : f.agent = some t := h
    have h2 : f.driver = none := hn .driver (by decide)
    simp [collected, h, h2]
  | monitor =>
    have h : f.monitor = some t := h
    have h1 : f.agent = none := hn .agent (by decide)
    have h2 : f.driver = none := hn .driver (by decide)
    simp [collected, h, h1, h2]

/-- **C133 (in part).** Whatever decorators a function has: it is a hook of one kind — a driver hook if one of them
is `driver_hook`, otherwise an agent hook if one of them is `agent_hook` — for what the outermost decorator of this
kind names. -/
theorem C133_kind_partial {pre post : List (Deco τ)} {d : Deco τ}
    (hr : ∀ e ∈ pre ++ d :: post, rank e.kind ≤ rank d.kind) (h : ∀ e ∈ post, e.kind ≠ d.kind) :
    collected (decorated (pre ++ d :: post)) = some (d.kind, d.names) := by
  refine collected_of_slots _ _ _ (decorated_slot pre post d h) fun k' hk => ?_
  refine decorated_slot_none _ k' fun e he hek => ?_
  have := hr e he
  rw [hek] at this
  omega

/-- **C133 (in part).** The priority is that of the outermost decorator, whatever kind it has. -/
theorem C133_priority_partial (pre : List (Deco τ)) (d : Deco τ) :
    (decorated (pre ++ [d])).priority = some d.priority := by
  rw [decorated, List.foldl_append, List.foldl_cons, List.foldl_nil, apply_priority]

/-- **C133 (in part).** The order relative to the method is that of the outermost decorator that is not
`monitor_hook`. -/
theorem C133_order_partial {pre post : List (Deco τ)} {d : Deco τ} (hd : d.kind ≠ .monitor)
    (h : ∀ e ∈ post, e.kind = .monitor) : (decorated (pre ++ d :: post)).modelFirst = some d.modelFirst := by
  rw [decorated, List.foldl_append, List.foldl_cons]
  have : ∀ (l : List (Deco τ)) (f : Func τ), (∀ e ∈ l, e.kind = .monitor) →
      (l.foldl apply f).modelFirst = f.modelFirst := by
    intro l
    induction l with
    | nil => intro f _; rfl
    | cons e l ih =>
      intro f he
      rw [List.foldl_cons, ih _ fun x hx => he x (List.mem_cons_of_mem _ hx), apply_order,
        if_pos (he e List.mem_cons_self)]
  rw [this post _ h, apply_order, if_neg hd]

/-- **C133 (in part).** Every decorator of a function is in force exactly if all of them ask for the same; in
particular a single decorator is in force. -/
theorem C133_all_iff_partial (ds : List (Deco τ)) :
    (∀ d ∈ ds, InForce (decorated ds) d) ↔ ∀ d ∈ ds, ∀ e ∈ ds, Same d e := by
  constructor
  · intro h d hd e he
    obtain ⟨a, b, c⟩ := h d hd
    obtain ⟨a', b', c'⟩ := h e he
    rw [a] at a'
    have hk : d.kind = e.kind := congrArg Prod.fst (Option.some.inj a')
    refine ⟨hk, congrArg Prod.snd (Option.some.inj a'), Option.some.inj (b.symm.trans b'), fun hm => ?_⟩
    exact Option.some.inj ((c hm).symm.trans (c' (hk ▸ hm)))
  · intro h
    rcases List.eq_nil_or_concat ds with rfl | ⟨pre, l, hds⟩
    · intro d hd
      cases hd
    · rw [List.concat_eq_append] at hds
      subst hds
      have hl : l ∈ pre ++ [l] := by simp
      have key : InForce (decorated (pre ++ [l])) l := by
        refine ⟨C133_kind_partial (post := []) (fun e he => ?_) (by simp), C133_priority_partial pre l, fun hm => ?_⟩
        · rw [(h e he l hl).1]
          exact Nat.le_refl _
        · exact C133_order_partial (post := []) hm (by simp)
      intro d hd
      obtain ⟨hk, hn, hp, ho⟩ := h d hd l hl
      refine ⟨?_, ?_, fun hm => ?_⟩
      · rw [hk, hn]; exact key.1
      · rw [hp]; exact key.2.1
      · rw [ho hm]; exact key.2.2 (hk ▸ hm)

theorem C133_single_partial (d : Deco τ) : InForce (decorated [d]) d :=
  (C133_all_iff_partial [d]).2
    (fun a ha b hb => by
      rw [List.mem_singleton.1 ha, List.mem_singleton.1 hb]
      exact ⟨rfl, rfl, rfl, fun _ => rfl⟩) d List.mem_cons_self

/-- **C133 (violated).** Two decorators of one function that are of different kinds or name different things are
never both in force. -/
theorem C133_both_violated {ds : List (Deco τ)} {d e : Deco τ} (h : (d.kind, d.names) ≠ (e.kind, e.names)) :
    ¬ (InForce (decorated ds) d ∧ InForce (decorated ds) e) :=
  fun ⟨a, b⟩ => h (Option.some.inj (a.1.symm.trans b.1))

/-- **C133 (violated).** Two `driver_hook`s for different methods: the inner one has no effect at all, the function
is the hook of the outer one as if it stood alone. -/
theorem C133_inner_violated {d e : Deco τ} (hd : d.kind = .driver) (he : e.kind = .driver)
    (hn : d.names ≠ e.names) : decorated [d, e] = decorated [e] ∧ ¬ InForce (decorated [d, e]) d := by
  have h : decorated [d, e] = decorated [e] := by
    rcases d with ⟨dk, n, p, m⟩
    rcases e with ⟨ek, n', p', m'⟩
    cases hd
    cases he
    rfl
  refine ⟨h, fun hf => hn ?_⟩
  rw [h] at hf
  exact congrArg Prod.snd (Option.some.inj (hf.1.symm.trans (C133_single_partial e).1))

/-- **C133 (violated).** `monitor_hook` around `driver_hook`: the function is a driver hook only, and runs with the
priority given to the monitor hook instead of its own. -/
theorem C133_mixed_violated {d e : Deco τ} (hd : d.kind = .driver) (he : e.kind = .monitor)
    (hp : d.priority ≠ e.priority) :
    collected (decorated [d, e]) = some (.driver, d.names) ∧ (decorated [d, e]).priority = some e.priority ∧
      ¬ InForce (decorated [d, e]) d ∧ ¬ InForce (decorated [d, e]) e := by
  have hc : collected (decorated [d, e]) = some (.driver, d.names) := by
    rw [← hd]
    refine C133_kind_partial (pre := []) (post := [e]) (fun x hx => ?_) (fun x hx => ?_)
    · rw [hd]
      cases x.kind <;> decide
    · rw [List.mem_singleton.1 hx, he, hd]
      decide
  have hq : (decorated [d, e]).priority = some e.priority := C133_priority_partial [d] e
  refine ⟨hc, hq, fun h => hp ?_, fun h => ?_⟩
  · exact Option.some.inj (h.2.1.symm.trans hq)
  · have := congrArg Prod.fst (Option.some.inj (hc.symm.trans h.1))
    rw [he] at this
    cases this

/-- Cases that meet the hypotheses: a driver hook with the default priority under a monitor hook with the default
priority; the names are those of two methods. -/
example : collected (decorated [⟨.driver, "a.send", 99, false⟩, ⟨.monitor, "a.recv", 0, true⟩])
      = some (.driver, "a.send") ∧
    (decorated [⟨.driver, "a.send", 99, false⟩, ⟨.monitor, "a.recv", 0, true⟩]).priority = some 0 :=
  let h := C133_mixed_violated (d := ⟨.driver, "a.send", 99, false⟩) (e := ⟨.monitor, "a.recv", 0, true⟩) rfl rfl
    (by decide)
  ⟨h.1, h.2.1⟩

example : InForce (decorated [⟨.agent, "a", 7, true⟩, ⟨.agent, "a", 7, true⟩]) (⟨.agent, "a", 7, true⟩ : Deco String) :=
  (C133_all_iff_partial _).2 (fun d hd e he => by
    simp only [List.mem_cons, List.not_mem_nil, or_false, or_self] at hd he
    subst hd
    subst he
    exact ⟨rfl, rfl, rfl, fun _ => rfl⟩) _ List.mem_cons_self

/-- Three decorators: an agent hook inside two monitor hooks is an agent hook, with the priority of the outermost. -/
example : collected (decorated [(⟨.monitor, "a.x", 3, true⟩ : Deco String), ⟨.agent, "b", 5, false⟩, ⟨.monitor, "a.y", 4, true⟩])
      = some (.agent, "b") :=
  C133_kind_partial (pre := [⟨.monitor, "a.x", 3, true⟩]) (post := [⟨.monitor, "a.y", 4, true⟩])
    (by intro e he; simp at he; rcases he with rfl | rfl | rfl <;> decide) (by intro e he; simp at he; subst he; decide)

end Toffee.Props.HookStack
