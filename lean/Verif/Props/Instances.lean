import Verif.Model.Instances

/-! Instances of a bundle class (`toffee/bundle.py`): C51. -/

namespace Toffee.Instances

/-! ### Specification -/

mutual

/-- The addresses of the objects of an instance; with `deep = false`, without the elements of bundle
lists. -/
def addrs (deep : Bool) : Inst → List Nat
  | .mk a ls is es => a :: ls ++ addrsAll deep is ++ (if deep then addrsAll deep es else [])

def addrsAll (deep : Bool) : List Inst → List Nat
  | [] => []
  | i :: is => addrs deep i ++ addrsAll deep is

end

mutual

/-- The elements of the bundle lists of the class were created when the class was defined, before the
address `base`. -/
def Below (base : Nat) : Cls → Prop
  | .mk _ _ cs es => (∀ a ∈ addrsAll true es, a < base) ∧ BelowAll base cs

def BelowAll (base : Nat) : List (Nat × Cls) → Prop
  | [] => True
  | (_, c) :: cs => Below base c ∧ BelowAll base cs

end

mutual

/-- There are no bundle lists in the class. -/
def Plain : Cls → Prop
  | .mk _ _ cs es => es = [] ∧ PlainAll cs

def PlainAll : List (Nat × Cls) → Prop
  | [] => True
  | (_, c) :: cs => Plain c ∧ PlainAll cs

end

/-- The bundle objects of an instance: itself, those of its sub-bundles, and with `deep` those of the
elements of its bundle lists. -/
inductive Has (deep : Bool) : Inst → Inst → Prop
  | self (i : Inst) : Has deep i i
  | sub {a : Nat} {ls : List Nat} {is es : List Inst} {i j : Inst} :
      i ∈ is → Has deep i j → Has deep (.mk a ls is es) j
  | elem {a : Nat} {ls : List Nat} {is es : List Inst} {i j : Inst} :
      deep = true → i ∈ es → Has deep i j → Has deep (.mk a ls is es) j

/-- A program starts when the classes are defined. -/
def Start (base : Nat) (p : Prog) : Prop := p.insts = [] ∧ p.st.next = base

/-! ### Lemmas -/

/-- Two states agree on an address. -/
def Same (s s' : St) (a : Nat) : Prop := s'.objs a = s.objs a ∧ s'.lists a = s.lists a

theorem map_same {s s' : St} (ls : List Nat) (h : ∀ a ∈ ls, Same s s' a) :
    ls.map s'.lists = ls.map s.lists := by
  apply List.map_congr_left
  intro a ha
  exact (h a ha).2

mutual

theorem view_same (deep : Bool) (s s' : St) : ∀ i : Inst, (∀ a ∈ addrs deep i, Same s s' a) →
    view deep s' i = view deep s i
  | .mk a ls is es, h => by
    simp only [addrs] at h
    have h1 := (h a (by simp)).1
    have h2 := map_same ls fun b hb => h b (by simp [hb])
    have h3 := viewAll_same deep s s' is fun b hb => h b (by simp [hb])
    simp only [view, h1, h2, h3]
    cases deep with
    | false => rfl
    | true =>
      have h4 := viewAll_same true s s' es fun b hb => h b (by simp [hb])
      simp only [h4]

theorem viewAll_same (deep : Bool) (s s' : St) : ∀ is : List Inst,
    (∀ a ∈ addrsAll deep is, Same s s' a) → viewAll deep s' is = viewAll deep s is
  | [], _ => rfl
  | i :: is, h => by
    simp only [addrsAll] at h
    simp only [viewAll, view_same deep s s' i fun b hb => h b (by simp [hb]),
      viewAll_same deep s s' is fun b hb => h b (by simp [hb])]

end

theorem same_trans {s s' s'' : St} {a : Nat} (h : Same s s' a) (h' : Same s' s'' a) : Same s s'' a :=
  ⟨h'.1.trans h.1, h'.2.trans h.2⟩

theorem same_refl (s : St) (a : Nat) : Same s s a := ⟨rfl, rfl⟩

theorem setObj_same {s : St} {a b : Nat} {o : Obj} (h : b ≠ a) : Same s (s.setObj a o) b := by
  simp [Same, St.setObj, h]

theorem setList_same {s : St} {a b : Nat} {l : List (Option Nat)} (h : b ≠ a) :
    Same s (s.setList a l) b := by
  simp [Same, St.setList, h]

theorem walkLists_same (g : Nat → List (Option Nat) → List (Option Nat)) (ls : List Nat) :
    ∀ s : St, (walkLists g ls s).next = s.next ∧ ∀ b, b ∉ ls → Same s (walkLists g ls s) b := by
  induction ls with
  | nil => exact fun s => ⟨rfl, fun b _ => same_refl s b⟩
  | cons a as ih =>
    intro s
    simp only [walkLists]
    refine ⟨(ih _).1, fun b hb => ?_⟩
    rw [List.mem_cons, not_or] at hb
    exact same_trans (setList_same hb.1) ((ih _).2 b hb.2)

mutual

/-- A method of an instance only changes the objects of the instance. -/
theorem walk_same (f : Nat → Obj → Obj) (g : Nat → List (Option Nat) → List (Option Nat)) :
    ∀ (i : Inst) (s : St), (walk f g i s).next = s.next ∧
      ∀ b, b ∉ addrs true i → Same s (walk f g i s) b
  | .mk a ls is es, s => by
    simp only [walk]
    obtain ⟨n1, h1⟩ := walkLists_same g ls (s.setObj a (f a (s.objs a)))
    obtain ⟨n2, h2⟩ := walkAll_same f g is (walkLists g ls (s.setObj a (f a (s.objs a))))
    obtain ⟨n3, h3⟩ := walkAll_same f g es
      (walkAll f g is (walkLists g ls (s.setObj a (f a (s.objs a)))))
    refine ⟨by rw [n3, n2, n1]; rfl, fun b hb => ?_⟩
    simp only [addrs, if_true, List.mem_append, List.mem_cons, not_or] at hb
    exact same_trans (same_trans (same_trans (setObj_same hb.1.1.1) (h1 b hb.1.1.2)) (h2 b hb.1.2))
      (h3 b hb.2)

theorem walkAll_same (f : Nat → Obj → Obj) (g : Nat → List (Option Nat) → List (Option Nat)) :
    ∀ (is : List Inst) (s : St), (walkAll f g is s).next = s.next ∧
      ∀ b, b ∉ addrsAll true is → Same s (walkAll f g is s) b
  | [], s => ⟨rfl, fun b _ => same_refl s b⟩
  | i :: is, s => by
    simp only [walkAll]
    obtain ⟨n1, h1⟩ := walk_same f g i s
    obtain ⟨n2, h2⟩ := walkAll_same f g is (walk f g i s)
    refine ⟨by rw [n2, n1], fun b hb => ?_⟩
    simp only [addrsAll, List.mem_append, not_or] at hb
    exact same_trans (h1 b hb.1) (h2 b hb.2)

end

/-- Only addresses from `s.next` on were used between two states. -/
def Grows (s s' : St) : Prop := s.next ≤ s'.next ∧ ∀ b, b < s.next → Same s s' b

theorem grows_trans {s s' s'' : St} (h : Grows s s') (h' : Grows s' s'') : Grows s s'' :=
  ⟨Nat.le_trans h.1 h'.1,
    fun b hb => same_trans (h.2 b hb) (h'.2 b (Nat.lt_of_lt_of_le hb h.1))⟩

theorem copyLists_grows (ts : List Nat) : ∀ s : St, Grows s (copyLists ts s).2 ∧
    ∀ a ∈ (copyLists ts s).1, s.next ≤ a ∧ a < (copyLists ts s).2.next := by
  induction ts with
  | nil => exact fun s => ⟨⟨Nat.le_refl _, fun b _ => same_refl s b⟩, by simp [copyLists]⟩
  | cons t ts ih =>
    intro s
    simp only [copyLists]
    have h1 : Grows s (copyList t s).2 := by
      refine ⟨Nat.le_succ _, fun b hb => ?_⟩
      exact setList_same (s := s) (Nat.ne_of_lt hb)
    obtain ⟨h2, h3⟩ := ih (copyList t s).2
    refine ⟨grows_trans h1 h2, fun a ha => ?_⟩
    rcases List.mem_cons.1 ha with rfl | ha
    · exact ⟨Nat.le_refl _, Nat.lt_of_lt_of_le (Nat.lt_succ_self _) h2.1⟩
    · have := h3 a ha
      exact ⟨Nat.le_trans h1.1 this.1, this.2⟩

mutual

/-- A new instance consists of new objects, except the elements of bundle lists. -/
theorem create_grows : ∀ (c : Cls) (m : Nat) (s : St), Grows s (create c m s).2 ∧
    (∀ a ∈ addrs false (create c m s).1, s.next ≤ a ∧ a < (create c m s).2.next) ∧
    (∀ base, Below base c → ∀ a ∈ addrs true (create c m s).1,
      a < base ∨ s.next ≤ a ∧ a < (create c m s).2.next) ∧
    (Plain c → addrs true (create c m s).1 = addrs false (create c m s).1)
  | .mk n ts cs es, m, s => by
    simp only [create]
    have h1 : Grows s { s.setObj s.next { method := m, signals := List.replicate n none } with
        next := s.next + 1 } :=
      ⟨Nat.le_succ _, fun b hb => setObj_same (s := s) (Nat.ne_of_lt hb)⟩
    generalize hs1 : ({ s.setObj s.next { method := m, signals := List.replicate n none } with
        next := s.next + 1 } : St) = s1 at h1
    have hn1 : s1.next = s.next + 1 := by rw [← hs1]
    obtain ⟨h2, o2, d2, p2⟩ := createAll_grows cs s1
    obtain ⟨h3, o3⟩ := copyLists_grows ts (createAll cs s1).2
    have l3 := h3.1
    have l2 := h2.1
    refine ⟨grows_trans (grows_trans h1 h2) h3, ?_, ?_, ?_⟩
    · intro a ha
      simp only [addrs, List.mem_append, List.mem_cons, Bool.false_eq_true, if_false, List.not_mem_nil,
        or_false] at ha
      rcases ha with (rfl | ha) | ha
      · omega
      · have := o3 a ha
        omega
      · have := o2 a ha
        omega
    · intro base hb a ha
      simp only [Below] at hb
      simp only [addrs, List.mem_append, List.mem_cons, if_true] at ha
      rcases ha with ((rfl | ha) | ha) | ha
      · omega
      · have := o3 a ha
        omega
      · have := d2 base hb.2 a ha
        omega
      · exact .inl (hb.1 a ha)
    · intro hp
      simp only [Plain] at hp
      simp [addrs, p2 hp.2, hp.1, addrsAll]

theorem createAll_grows : ∀ (cs : List (Nat × Cls)) (s : St), Grows s (createAll cs s).2 ∧
    (∀ a ∈ addrsAll false (createAll cs s).1, s.next ≤ a ∧ a < (createAll cs s).2.next) ∧
    (∀ base, BelowAll base cs → ∀ a ∈ addrsAll true (createAll cs s).1,
      a < base ∨ s.next ≤ a ∧ a < (createAll cs s).2.next) ∧
    (PlainAll cs → addrsAll true (createAll cs s).1 = addrsAll false (createAll cs s).1)
  | [], s => by
    simp only [createAll]
    exact ⟨⟨Nat.le_refl _, fun b _ => same_refl s b⟩, by simp [addrsAll], by simp [addrsAll],
      fun _ => rfl⟩
  | (m, c) :: cs, s => by
    simp only [createAll]
    obtain ⟨h1, o1, d1, p1⟩ := create_grows c m s
    obtain ⟨h2, o2, d2, p2⟩ := createAll_grows cs (create c m s).2
    have l1 := h1.1
    have l2 := h2.1
    refine ⟨grows_trans h1 h2, ?_, ?_, ?_⟩
    · intro a ha
      simp only [addrsAll, List.mem_append] at ha
      rcases ha with ha | ha
      · have := o1 a ha
        omega
      · have := o2 a ha
        omega
    · intro base hb a ha
      simp only [BelowAll] at hb
      simp only [addrsAll, List.mem_append] at ha
      rcases ha with ha | ha
      · have := d1 base hb.1 a ha
        omega
      · have := d2 base hb.2 a ha
        omega
    · intro hp
      simp only [PlainAll] at hp
      simp only [addrsAll, p1 hp.1, p2 hp.2]

end

mutual

theorem addrs_own : ∀ (i : Inst) (a : Nat), a ∈ addrs false i → a ∈ addrs true i
  | .mk b ls is es, a, h => by
    simp only [addrs, List.mem_append, List.mem_cons, Bool.false_eq_true, if_false, List.not_mem_nil,
      or_false, if_true] at h ⊢
    rcases h with (h | h) | h
    · exact .inl (.inl (.inl h))
    · exact .inl (.inl (.inr h))
    · exact .inl (.inr (addrsAll_own is a h))

theorem addrsAll_own : ∀ (is : List Inst) (a : Nat), a ∈ addrsAll false is → a ∈ addrsAll true is
  | [], _, h => h
  | i :: is, a, h => by
    simp only [addrsAll, List.mem_append] at h ⊢
    rcases h with h | h
    · exact .inl (addrs_own i a h)
    · exact .inr (addrsAll_own is a h)

end

/-- No method of one instance changes what the other one owns. -/
def Apart (i j : Inst) : Prop :=
  (∀ a ∈ addrs true i, a ∉ addrs false j) ∧ ∀ a ∈ addrs true j, a ∉ addrs false i

structure Inv (base : Nat) (p : Prog) : Prop where
  le : base ≤ p.st.next
  own : ∀ i ∈ p.insts, ∀ a ∈ addrs false i, base ≤ a
  lt : ∀ i ∈ p.insts, ∀ a ∈ addrs true i, a < p.st.next
  apart : p.insts.Pairwise Apart

theorem inv_step {base : Nat} {p : Prog} {act : Act} (h : Inv base p)
    (hc : ∀ c, act = .create c → Below base c) : Inv base (step p act) := by
  cases act with
  | create c =>
    obtain ⟨h1, o1, d1, _⟩ := create_grows c 0 p.st
    have l1 := h1.1
    have hle := h.le
    simp only [step]
    have hd := d1 base (hc c rfl)
    refine ⟨by show base ≤ (create c 0 p.st).2.next; omega, ?_, ?_, ?_⟩
    · intro i hi a ha
      rcases List.mem_append.1 hi with hi | hi
      · exact h.own i hi a ha
      · rw [List.mem_singleton.1 hi] at ha
        have := o1 a ha
        omega
    · intro i hi a ha
      show a < (create c 0 p.st).2.next
      rcases List.mem_append.1 hi with hi | hi
      · have := h.lt i hi a ha
        omega
      · rw [List.mem_singleton.1 hi] at ha
        have := hd a ha
        omega
    · refine List.pairwise_append.2 ⟨h.apart, by simp, ?_⟩
      intro i hi j hj
      rw [List.mem_singleton.1 hj]
      constructor
      · intro a ha ha'
        have := h.lt i hi a ha
        have := o1 a ha'
        omega
      · intro a ha ha'
        have := h.own i hi a ha'
        have := h.lt i hi a (addrs_own i a ha')
        have := hd a ha
        omega
  | call k f g =>
    simp only [step]
    cases hk : p.insts[k]? with
    | none => exact h
    | some i =>
      have hn := (walk_same f g i p.st).1
      exact ⟨by show base ≤ (walk f g i p.st).next; rw [hn]; exact h.le, h.own,
        fun i' hi a ha => by
          show a < (walk f g i p.st).next
          rw [hn]
          exact h.lt i' hi a ha, h.apart⟩

theorem inv_run {base : Nat} (as : List Act) : ∀ {p : Prog}, Inv base p →
    (∀ c, .create c ∈ as → Below base c) → Inv base (run p as) := by
  induction as with
  | nil => exact fun h _ => h
  | cons a as ih =>
    intro p h hc
    exact ih (inv_step h fun c hca => hc c (by simp [hca])) fun c hm => hc c (List.mem_cons_of_mem _ hm)

theorem inv_start {base : Nat} {p : Prog} (h : Start base p) : Inv base p :=
  ⟨Nat.le_of_eq h.2.symm, by simp [h.1], by simp [h.1], by simp [h.1]⟩

theorem step_insts {p : Prog} {act : Act} {j : Nat} {i : Inst} (h : p.insts[j]? = some i) :
    (step p act).insts[j]? = some i := by
  cases act with
  | create c =>
    simp only [step]
    rw [List.getElem?_append_left (List.getElem?_eq_some_iff.1 h).1, h]
  | call k f g =>
    simp only [step]
    cases p.insts[k]? <;> exact h

theorem apart_get {l : List Inst} (h : l.Pairwise Apart) {k j : Nat} {i i' : Inst} (hkj : k ≠ j)
    (hk : l[k]? = some i) (hj : l[j]? = some i') : ∀ a ∈ addrs true i, a ∉ addrs false i' := by
  obtain ⟨hk1, rfl⟩ := List.getElem?_eq_some_iff.1 hk
  obtain ⟨hj1, rfl⟩ := List.getElem?_eq_some_iff.1 hj
  rw [List.pairwise_iff_getElem] at h
  rcases Nat.lt_or_gt_of_ne hkj with hlt | hlt
  · exact (h k j hk1 hj1 hlt).1
  · exact (h j k hj1 hk1 hlt).2

/-- One action that is not a call of the instance. -/
theorem step_same {base : Nat} {p : Prog} (h : Inv base p) {act : Act} {j : Nat} {i : Inst}
    (hj : p.insts[j]? = some i) (ha : ∀ k f g, act = .call k f g → k ≠ j) :
    ∀ a ∈ addrs false i, Same p.st (step p act).st a := by
  intro a hai
  cases act with
  | create c =>
    exact (create_grows c 0 p.st).1.2 a
      (h.lt i (List.mem_of_getElem? hj) a (addrs_own i a hai))
  | call k f g =>
    simp only [step]
    cases hk : p.insts[k]? with
    | none => exact same_refl _ _
    | some i' =>
      refine (walk_same f g i' p.st).2 a fun hm => ?_
      exact apart_get h.apart (ha k f g rfl) hk hj a hm hai

theorem run_same {base : Nat} (bs : List Act) : ∀ {p : Prog} {j : Nat} {i : Inst}, Inv base p →
    p.insts[j]? = some i → (∀ c, .create c ∈ bs → Below base c) →
    (∀ k f g, .call k f g ∈ bs → k ≠ j) → ∀ a ∈ addrs false i, Same p.st (run p bs).st a := by
  induction bs with
  | nil => exact fun _ _ _ _ a _ => same_refl _ a
  | cons b bs ih =>
    intro p j i h hj hc hk a ha
    have h1 := step_same (act := b) h hj (fun k f g hb => hk k f g (by simp [hb])) a ha
    have h2 := inv_step (act := b) h fun c hb => hc c (by simp [hb])
    exact same_trans h1 (ih h2 (step_insts hj) (fun c hm => hc c (List.mem_cons_of_mem _ hm))
      (fun k f g hm => hk k f g (List.mem_cons_of_mem _ hm)) a ha)

theorem run_append (p : Prog) (as bs : List Act) : run p (as ++ bs) = run (run p as) bs := by
  simp [run, List.foldl_append]

/-- All instances come from plain classes. -/
theorem plain_run (as : List Act) : ∀ {p : Prog}, (∀ i ∈ p.insts, addrs true i = addrs false i) →
    (∀ c, .create c ∈ as → Plain c) → ∀ i ∈ (run p as).insts, addrs true i = addrs false i := by
  induction as with
  | nil => exact fun h _ => h
  | cons a as ih =>
    intro p h hc
    refine ih (p := step p a) ?_ fun c hm => hc c (List.mem_cons_of_mem _ hm)
    cases a with
    | create c =>
      intro i hi
      simp only [step] at hi
      rcases List.mem_append.1 hi with hi | hi
      · exact h i hi
      · rw [List.mem_singleton.1 hi]
        exact (create_grows c 0 p.st).2.2.2 (hc c (by simp))
    | call k f g =>
      simp only [step]
      cases p.insts[k]? <;> exact h

mutual

theorem plain_below (base : Nat) : ∀ c : Cls, Plain c → Below base c
  | .mk n ts cs es, h => by
    simp only [Plain] at h
    simp only [Below]
    exact ⟨by simp [h.1, addrsAll], plainAll_below base cs h.2⟩

theorem plainAll_below (base : Nat) : ∀ cs : List (Nat × Cls), PlainAll cs → BelowAll base cs
  | [], _ => trivial
  | (_, c) :: cs, h => by
    simp only [PlainAll] at h
    exact ⟨plain_below base c h.1, plainAll_below base cs h.2⟩

end

theorem mem_addrsAll {deep : Bool} {is : List Inst} {i : Inst} (hi : i ∈ is) {b : Nat}
    (hb : b ∈ addrs deep i) : b ∈ addrsAll deep is := by
  induction is with
  | nil => cases hi
  | cons x is ih =>
    simp only [addrsAll, List.mem_append]
    rcases List.mem_cons.1 hi with rfl | hi
    · exact .inl hb
    · exact .inr (ih hi)

theorem has_addrs {deep : Bool} {i j : Inst} (h : Has deep i j) : ∀ b ∈ addrs deep j, b ∈ addrs deep i := by
  induction h with
  | self i => exact fun b hb => hb
  | sub hi _ ih =>
    intro b hb
    simp only [addrs, List.mem_append]
    exact .inl (.inr (mem_addrsAll hi (ih b hb)))
  | elem hd hi _ ih =>
    intro b hb
    simp only [addrs, List.mem_append, hd, if_true]
    exact .inr (mem_addrsAll hi (hd ▸ ih b hb))

theorem has_same {deep : Bool} {s s' : St} {i : Inst} (h : ∀ a ∈ addrs deep i, Same s s' a) {a : Nat}
    {ls : List Nat} {is es : List Inst} (hh : Has deep i (.mk a ls is es)) :
    s'.objs a = s.objs a ∧ ∀ l ∈ ls, s'.lists l = s.lists l := by
  have hsub := has_addrs hh
  refine ⟨(h a (hsub a (by simp [addrs]))).1, fun l hl => (h l (hsub l ?_)).2⟩
  simp only [addrs, List.mem_append]
  exact .inl (.inl (List.mem_cons_of_mem _ hl))

mutual

theorem mem_view (s : St) : ∀ (i : Inst) (x : Option Nat),
    ((∃ o ∈ (view true s i).1, x ∈ o.signals) ∨ ∃ l ∈ (view true s i).2, x ∈ l) ↔
      ∃ a ls is es, Has true i (.mk a ls is es) ∧ (x ∈ (s.objs a).signals ∨ ∃ l ∈ ls, x ∈ s.lists l)
  | .mk a ls is es, x => by
    have h1 := mem_viewAll s is x
    have h2 := mem_viewAll s es x
    have hv : ((∃ o ∈ (view true s (.mk a ls is es)).1, x ∈ o.signals) ∨
        ∃ l ∈ (view true s (.mk a ls is es)).2, x ∈ l) ↔
        (x ∈ (s.objs a).signals ∨ ∃ l ∈ ls, x ∈ s.lists l) ∨
          ((∃ o ∈ (viewAll true s is).1, x ∈ o.signals) ∨ ∃ l ∈ (viewAll true s is).2, x ∈ l) ∨
          ((∃ o ∈ (viewAll true s es).1, x ∈ o.signals) ∨ ∃ l ∈ (viewAll true s es).2, x ∈ l) := by
      simp only [view, if_true, List.cons_append, List.mem_cons, List.mem_append, List.mem_map, or_and_right,
        exists_or, exists_eq_left]
      constructor
      · rintro ((h | h | h) | (h | h) | h)
        · exact .inl (.inl h)
        · exact .inr (.inl (.inl h))
        · exact .inr (.inr (.inl h))
        · obtain ⟨_, ⟨l, hl, rfl⟩, hx⟩ := h
          exact .inl (.inr ⟨l, hl, hx⟩)
        · exact .inr (.inl (.inr h))
        · exact .inr (.inr (.inr h))
      · rintro ((h | h) | (h | h) | h | h)
        · exact .inl (.inl h)
        · obtain ⟨l, hl, hx⟩ := h
          exact .inr (.inl (.inl ⟨_, ⟨l, hl, rfl⟩, hx⟩))
        · exact .inl (.inr (.inl h))
        · exact .inr (.inl (.inr h))
        · exact .inl (.inr (.inr h))
        · exact .inr (.inr h)
    rw [hv, h1, h2]
    constructor
    · rintro (h | ⟨i, hi, a', ls', is', es', hh, h⟩ | ⟨i, hi, a', ls', is', es', hh, h⟩)
      · exact ⟨a, ls, is, es, .self _, h⟩
      · exact ⟨a', ls', is', es', .sub hi hh, h⟩
      · exact ⟨a', ls', is', es', .elem rfl hi hh, h⟩
    · rintro ⟨a', ls', is', es', hh, h⟩
      cases hh with
      | self => exact .inl h
      | sub hi hh => exact .inr (.inl ⟨_, hi, a', ls', is', es', hh, h⟩)
      | elem _ hi hh => exact .inr (.inr ⟨_, hi, a', ls', is', es', hh, h⟩)

theorem mem_viewAll (s : St) : ∀ (is : List Inst) (x : Option Nat),
    ((∃ o ∈ (viewAll true s is).1, x ∈ o.signals) ∨ ∃ l ∈ (viewAll true s is).2, x ∈ l) ↔
      ∃ i ∈ is, ∃ a ls is' es, Has true i (.mk a ls is' es) ∧
        (x ∈ (s.objs a).signals ∨ ∃ l ∈ ls, x ∈ s.lists l)
  | [], x => by simp [viewAll]
  | i :: is, x => by
    have h1 := mem_view s i x
    have h2 := mem_viewAll s is x
    have hv : ((∃ o ∈ (viewAll true s (i :: is)).1, x ∈ o.signals) ∨
        ∃ l ∈ (viewAll true s (i :: is)).2, x ∈ l) ↔
        ((∃ o ∈ (view true s i).1, x ∈ o.signals) ∨ ∃ l ∈ (view true s i).2, x ∈ l) ∨
          ((∃ o ∈ (viewAll true s is).1, x ∈ o.signals) ∨ ∃ l ∈ (viewAll true s is).2, x ∈ l) := by
      simp only [viewAll, List.mem_append, or_and_right, exists_or]
      constructor
      · rintro ((h | h) | h | h)
        · exact .inl (.inl h)
        · exact .inr (.inl h)
        · exact .inl (.inr h)
        · exact .inr (.inr h)
      · rintro ((h | h) | h | h)
        · exact .inl (.inl h)
        · exact .inr (.inl h)
        · exact .inl (.inr h)
        · exact .inr (.inr h)
    rw [hv, h1, h2]
    simp only [List.mem_cons, or_and_right, exists_or, exists_eq_left]

end

/-- The pins of an instance are those of its bundle objects and of their signal lists. -/
theorem mem_pins (s : St) (i : Inst) (p : Nat) :
    p ∈ pins s i ↔ ∃ a ls is es, Has true i (.mk a ls is es) ∧
      (some p ∈ (s.objs a).signals ∨ ∃ l ∈ ls, some p ∈ s.lists l) := by
  rw [← mem_view]
  unfold pins
  simp only [List.mem_filterMap, List.mem_append, List.mem_flatMap, List.mem_flatten, id]
  constructor
  · rintro ⟨x, h, rfl⟩
    exact h
  · intro h
    exact ⟨_, h, rfl⟩

/-! ### C51 -/

/-- C51: whatever is done with other instances, and whatever instances are created, an instance keeps
what it shows outside of its bundle lists. Missing: the elements of bundle lists, see `C51_violated`. -/
theorem C51_own_partial (base : Nat) (p : Prog) (hp : Start base p) (as bs : List Act)
    (hc : ∀ c, .create c ∈ as ++ bs → Below base c) (j : Nat) (i : Inst)
    (hj : (run p as).insts[j]? = some i) (hb : ∀ k f g, .call k f g ∈ bs → k ≠ j) :
    view false (run p (as ++ bs)).st i = view false (run p as).st i := by
  rw [run_append]
  exact view_same false _ _ i (run_same bs
    (inv_run as (inv_start hp) fun c hm => hc c (List.mem_append_left _ hm)) hj
    (fun c hm => hc c (List.mem_append_right _ hm)) hb)

/-- C51: the same for each of its bundle objects and each of their signal lists. Missing: the elements of
bundle lists, see `C51_violated`. -/
theorem C51_parts_partial (base : Nat) (p : Prog) (hp : Start base p) (as bs : List Act)
    (hc : ∀ c, .create c ∈ as ++ bs → Below base c) (j : Nat) (i : Inst)
    (hj : (run p as).insts[j]? = some i) (hb : ∀ k f g, .call k f g ∈ bs → k ≠ j) {a : Nat}
    {ls : List Nat} {is es : List Inst} (hi : Has false i (.mk a ls is es)) :
    (run p (as ++ bs)).st.objs a = (run p as).st.objs a ∧
      ∀ l ∈ ls, (run p (as ++ bs)).st.lists l = (run p as).st.lists l := by
  rw [run_append]
  exact has_same (run_same bs
    (inv_run as (inv_start hp) fun c hm => hc c (List.mem_append_left _ hm)) hj
    (fun c hm => hc c (List.mem_append_right _ hm)) hb) hi

/-- C51: if the classes contain no bundle lists, that is everything that the instance shows. -/
theorem C51_plain_partial (base : Nat) (p : Prog) (hp : Start base p) (as bs : List Act)
    (hc : ∀ c, .create c ∈ as ++ bs → Plain c) (j : Nat) (i : Inst)
    (hj : (run p as).insts[j]? = some i) (hb : ∀ k f g, .call k f g ∈ bs → k ≠ j) :
    view true (run p (as ++ bs)).st i = view true (run p as).st i ∧
      pins (run p (as ++ bs)).st i = pins (run p as).st i := by
  have h : view true (run p (as ++ bs)).st i = view true (run p as).st i := by
    have hpl := plain_run as (p := p) (by simp [hp.1]) (fun c hm => hc c (List.mem_append_left _ hm)) i
      (List.mem_of_getElem? hj)
    rw [run_append]
    apply view_same true
    rw [hpl]
    exact run_same bs
      (inv_run as (inv_start hp) fun c hm => plain_below _ _ (hc c (List.mem_append_left _ hm))) hj
      (fun c hm => plain_below _ _ (hc c (List.mem_append_right _ hm))) hb
  exact ⟨h, by simp only [pins, h]⟩

/-- C51: creating instances does not change anything that an instance shows, with any classes. -/
theorem C51_create (base : Nat) (p : Prog) (hp : Start base p) (as : List Act)
    (hc : ∀ c, .create c ∈ as → Below base c) (c : Cls) (i : Inst) (hi : i ∈ (run p as).insts) :
    view true (step (run p as) (.create c)).st i = view true (run p as).st i := by
  have h := inv_run as (inv_start hp) hc
  exact view_same true _ _ i fun a ha => (create_grows c 0 _).1.2 a (h.lt i hi a ha)

/-- C51: nor anything of any of its bundle objects, those in bundle lists included. -/
theorem C51_create_parts (base : Nat) (p : Prog) (hp : Start base p) (as : List Act)
    (hc : ∀ c, .create c ∈ as → Below base c) (c : Cls) (i : Inst) (hi : i ∈ (run p as).insts)
    {a : Nat} {ls : List Nat} {is es : List Inst} (hh : Has true i (.mk a ls is es)) :
    (step (run p as) (.create c)).st.objs a = (run p as).st.objs a ∧
      ∀ l ∈ ls, (step (run p as) (.create c)).st.lists l = (run p as).st.lists l := by
  have h := inv_run as (inv_start hp) hc
  exact has_same (fun a ha => (create_grows c 0 _).1.2 a (h.lt i hi a ha)) hh

/-- C51: assigning an instance changes no pin of an instance that is connected to other pins. -/
theorem C51_assign_pins (s : St) (i j : Inst)
    (hd : ∀ p a ls is es b ms js fs, Has true i (.mk a ls is es) → Has true j (.mk b ms js fs) →
      (some p ∈ (s.objs a).signals ∨ ∃ l ∈ ls, some p ∈ s.lists l) →
      ¬ (some p ∈ (s.objs b).signals ∨ ∃ l ∈ ms, some p ∈ s.lists l))
    (vals : Nat → Option Int) (dev : Nat → Int) (p b : Nat) (ms : List Nat) (js fs : List Inst)
    (hj : Has true j (.mk b ms js fs))
    (hp : some p ∈ (s.objs b).signals ∨ ∃ l ∈ ms, some p ∈ s.lists l) :
    assign s i vals dev p = dev p := by
  unfold assign
  rw [if_neg]
  rw [mem_pins]
  rintro ⟨a, ls, is, es, hi, h⟩
  exact hd p a ls is es b ms js fs hi hj h hp

/-- C51: the same in terms of all pins. -/
theorem C51_assign (s : St) (i j : Inst) (hd : ∀ p ∈ pins s i, p ∉ pins s j)
    (vals : Nat → Option Int) (dev : Nat → Int) :
    (pins s j).map (assign s i vals dev) = (pins s j).map dev := by
  apply List.map_congr_left
  intro p hp
  unfold assign
  rw [if_neg fun h => hd p h hp]

/-! ### Bundle lists -/

/-- A class with one signal and a bundle list with one element, which is the object `0`. -/
def exList : Cls := .mk 1 [] [] [.mk 0 [] [] []]

def exStart : Prog := ⟨⟨1, fun _ => { signals := [none] }, fun _ => []⟩, []⟩

/-- Binding to a device: all signals are connected to the pin. -/
def exBind (k pin : Nat) : Act :=
  .call k (fun _ o => { o with bound := true, signals := o.signals.map fun _ => some pin })
    fun _ l => l.map fun _ => some pin

/-- C51 is violated: two instances of a class with a bundle list share the elements. Binding the second
one moves elements of the first one to the other device. -/
theorem C51_violated :
    Start 1 exStart ∧ Below 1 exList ∧
      let p := run exStart [.create exList, .create exList, exBind 0 10]
      p.insts.map (pins p.st) = [[10, 10], [10]] ∧
      (step p (exBind 1 20)).insts.map (pins (step p (exBind 1 20)).st) = [[10, 20], [20, 20]] := by
  refine ⟨⟨rfl, rfl⟩, ?_, by decide, by decide⟩
  simp [exList, Below, BelowAll, addrsAll, addrs]

/-! ### The hypotheses can be met -/

/-- A plain class with a signal list and sub-bundles of depth two: the second instance is bound, the
first one is not. -/
def exPlain : Cls := .mk 2 [0] [(7, .mk 1 [0] [(8, .mk 1 [] [] [])] [])] []

example :
    let p := run ⟨⟨1, fun _ => { signals := [] }, fun _ => [none, none]⟩, []⟩
      [.create exPlain, .create exPlain, exBind 0 10, exBind 1 20]
    p.insts.map (pins p.st) = [List.replicate 8 10, List.replicate 8 20] := by
  decide

example : Has false (.mk 0 [1] [.mk 2 [3] [] []] []) (.mk 2 [3] [] []) :=
  .sub (by simp) (.self _)

example : Plain exPlain := by simp [exPlain, Plain, PlainAll]

end Toffee.Instances
