import Verif.Model.RequestsFull

/-! `Bundle.process_requests` as a sequential program (`toffee/bundle.py`): C108. -/

namespace Toffee.RequestsFull

variable {W V R : Type}

/-! ### Specification: the sequential program -/

/-- The functions are called one after the other; what is not callable gives `None`. -/
inductive Calls (c : Nat) : List (Func W R) → W → List (Option R) → W → Prop
  | nil (w : W) : Calls c [] w [] w
  | skip {fs w rs w'} : Calls c fs w rs w' → Calls c (none :: fs) w (none :: rs) w'
  | call {f fs w r w1 rs w'} : f c w = (r, w1) → Calls c fs w1 rs w' →
      Calls c (some f :: fs) w (some r :: rs) w'

/-- A list of one element is given as that element. -/
def Shape {A : Type} (l : List A) (m : Many A) : Prop :=
  (∃ a, l = [a] ∧ m = .one a) ∨ (l.length ≠ 1 ∧ m = .list l)

/-- The functions of a request, and what they return: `None` if there are none. -/
def Funcs (c : Nat) (q : Req W V R) (w : W) (m : Many (Option R)) (w' : W) : Prop :=
  match q.funcs with
  | none => m = .one none ∧ w' = w
  | some (.one f) => ∃ rs, Calls c [f] w rs w' ∧ Shape rs m
  | some (.list fs) => ∃ rs, Calls c fs w rs w' ∧ Shape rs m

/-- The bundles among the return bundles. -/
def bundles (q : Many (Option (W → V))) : List (W → V) :=
  match q with
  | .one b => b.toList
  | .list bs => bs.filterMap id

/-- A request is carried out in one cycle: the values are assigned, then the functions are called, then
the return bundles are read. -/
def Does (c : Nat) (q : Req W V R) (w : W) (res : Option (Res V R)) (w' : W) : Prop :=
  ∃ m, Funcs c q (q.assign w) m w' ∧
    match q.ret with
    | none => res = none
    | some bs => ∃ d, Shape ((bundles bs).map fun b => b w') d ∧ res = some ⟨d, c, m⟩

/-- A request has its turn: its condition is asked once in each cycle, until it holds. The states are
those seen by the callback. -/
inductive Turn (D : Dut W) (q : Req W V R) : Nat → W → Option (Res V R) → Nat → W → Prop
  | plain {c w res w'} : q.cond = none → Does c q w res w' → Turn D q c w res c w'
  | now {cond c w w1 res w'} : q.cond = some cond → cond c w = (true, w1) → Does c q w1 res w' →
      Turn D q c w res c w'
  | later {cond c w w1 res c' w'} : q.cond = some cond → cond c w = (false, w1) →
      Turn D q (c + 1) (D.before (c + 1) (D.after c w1)) res c' w' → Turn D q c w res c' w'

/-- The requests of the list have their turns, one after the other, each in a cycle of its own. A
dictionary that a callable request returns has the turn of that request, and gives no result. -/
inductive Run (D : Dut W) : List (Item W V R) → Nat → W → List (Res V R) → Nat → W → Prop
  | nil (c : Nat) (w : W) : Run D [] c w [] c w
  | none {l c w rs c' w'} : Run D l (c + 1) (D.after c (D.before c w)) rs c' w' →
      Run D (.none :: l) c w rs c' w'
  | dict {q l c w res c1 w1 rs c' w'} : Turn D q c (D.before c w) res c1 w1 →
      Run D l (c1 + 1) (D.after c1 w1) rs c' w' → Run D (.dict q :: l) c w (res.toList ++ rs) c' w'
  | callNone {f l c w w1 rs c' w'} : f c (D.before c w) = (none, w1) →
      Run D l (c + 1) (D.after c w1) rs c' w' → Run D (.call f :: l) c w rs c' w'
  | callSome {f q l c w w0 res c1 w1 rs c' w'} : f c (D.before c w) = (some q, w0) →
      Turn D q c w0 res c1 w1 → Run D l (c1 + 1) (D.after c1 w1) rs c' w' →
      Run D (.call f :: l) c w rs c' w'

/-! ### Lemmas -/

theorem callFuncs_spec (c : Nat) (fs : List (Func W R)) (w : W) :
    Calls c fs w (callFuncs c fs w).1 (callFuncs c fs w).2 := by
  induction fs generalizing w with
  | nil => exact .nil w
  | cons f fs ih =>
    cases f with
    | none => exact .skip (ih w)
    | some f => exact .call (by rfl) (ih _)

theorem unwrap_spec {A : Type} (l : List A) : Shape l (unwrap l) := by
  match l with
  | [] => exact .inr ⟨by simp, rfl⟩
  | [a] => exact .inl ⟨a, rfl, rfl⟩
  | _ :: _ :: _ => exact .inr ⟨by simp, rfl⟩

theorem readAll_eq (w : W) (bs : Many (Option (W → V))) :
    readAll w bs.toList = (bundles bs).map fun b => b w := by
  have : ∀ l : List (Option (W → V)), readAll w l = (l.filterMap id).map fun b => b w := by
    intro l
    induction l with
    | nil => rfl
    | cons b l ih => cases b <;> simp [readAll, ih]
  rw [this]
  cases bs with
  | one b => cases b <;> rfl
  | list l => rfl

/-- What `apply` does. -/
theorem apply_spec (c : Nat) (k : Option Nat) (q : Req W V R) (s : St W V R) :
    ∃ res, Does c q s.w res (apply c k q s).w ∧ (apply c k q s).queue = s.queue ∧
      (apply c k q s).blocked = s.blocked ∧ (apply c k q s).cycle = s.cycle ∧
      (∀ j, some j ≠ k → (apply c k q s).saved j = s.saved j) ∧
      ∀ j, some j = k → (apply c k q s).saved j = res.or (s.saved j) := by
  let funcs : List (Func W R) := match q.funcs with
    | some fs => fs.toList
    | none => [none]
  have hfun : Funcs c q (q.assign s.w) (unwrap (callFuncs c funcs (q.assign s.w)).1)
      (callFuncs c funcs (q.assign s.w)).2 := by
    have hc := callFuncs_spec c funcs (q.assign s.w)
    have hu := unwrap_spec (callFuncs c funcs (q.assign s.w)).1
    unfold Funcs
    cases hq : q.funcs with
    | none =>
      have : funcs = [none] := by simp only [funcs, hq]
      rw [this]
      exact ⟨rfl, rfl⟩
    | some m =>
      have : funcs = m.toList := by simp only [funcs, hq]
      cases m with
      | one f => exact ⟨_, by rw [this] at hc ⊢; exact hc, hu⟩
      | list fs => exact ⟨_, by rw [this] at hc ⊢; exact hc, hu⟩
  cases hr : q.ret with
  | none =>
    have ha : apply c k q s = { s with w := (callFuncs c funcs (q.assign s.w)).2 } := by
      simp only [apply, hr]
      rfl
    refine ⟨none, ⟨_, by rw [ha]; exact hfun, by simp only [hr]⟩, ?_⟩
    rw [ha]
    exact ⟨rfl, rfl, rfl, fun _ _ => rfl, fun _ _ => rfl⟩
  | some bs =>
    let res : Res V R := ⟨unwrap (readAll (callFuncs c funcs (q.assign s.w)).2 bs.toList), c,
      unwrap (callFuncs c funcs (q.assign s.w)).1⟩
    have hdoes : Does c q s.w (some res) (callFuncs c funcs (q.assign s.w)).2 := by
      refine ⟨_, hfun, ?_⟩
      simp only [hr]
      refine ⟨unwrap (readAll (callFuncs c funcs (q.assign s.w)).2 bs.toList), ?_, rfl⟩
      rw [readAll_eq]
      exact unwrap_spec _
    cases k with
    | none =>
      have ha : apply c none q s = { s with w := (callFuncs c funcs (q.assign s.w)).2 } := by
        simp only [apply, hr]
        rfl
      refine ⟨some res, by rw [ha]; exact hdoes, ?_⟩
      rw [ha]
      exact ⟨rfl, rfl, rfl, fun _ _ => rfl, fun _ h => by cases h⟩
    | some k =>
      have ha : apply c (some k) q s = { s with
          w := (callFuncs c funcs (q.assign s.w)).2
          saved := fun j => if j = k then some res else s.saved j } := by
        simp only [apply, hr]
        rfl
      refine ⟨some res, by rw [ha]; exact hdoes, ?_⟩
      rw [ha]
      refine ⟨rfl, rfl, rfl, ?_, ?_⟩
      · intro j hj
        show (if j = k then some res else s.saved j) = _
        rw [if_neg (fun he => hj (by rw [he]))]
      · intro j hj
        show (if j = k then some res else s.saved j) = _
        rw [if_pos (Option.some.inj hj)]
        rfl

/-- Several steps. -/
def steps (D : Dut W) : Nat → St W V R → St W V R
  | 0, s => s
  | n + 1, s => steps D n (step D s)

theorem steps_succ (D : Dut W) (n : Nat) (s : St W V R) : steps D (n + 1) s = step D (steps D n s) := by
  induction n generalizing s with
  | zero => rfl
  | succ n ih => exact ih (step D s)

theorem rounds_eq (D : Dut W) (items : List (Item W V R)) (c : Nat) (w : W) (n : Nat) :
    rounds D items c w n = steps D n ⟨enum 0 items, none, fun _ => none, c, w⟩ := by
  induction n with
  | zero => rfl
  | succ n ih => rw [steps_succ, ← ih]; rfl

def Idle (s : St W V R) : Prop := s.queue = [] ∧ s.blocked = none

/-- The end of a step. -/
def fin (D : Dut W) (c : Nat) (t : St W V R) : St W V R := { t with w := D.after c t.w, cycle := c + 1 }

/-- The results of the requests from position `k` on. -/
def collect (saved : Nat → Option (Res V R)) (k : Nat) (items : List (Item W V R)) : List (Res V R) :=
  (enum k items).filterMap fun x =>
    match x.2 with
    | .dict _ => saved x.1
    | _ => none

/-- What happens from an idle callback on. -/
def Part1 (D : Dut W) (n : Nat) : Prop :=
  ∀ (s : St W V R) (k : Nat) (items : List (Item W V R)), s.queue = enum k items → s.blocked = none →
    Idle (steps D n s) → (∀ m, m < n → ¬ Idle (steps D m s)) → (∀ j, k ≤ j → s.saved j = none) →
    Run D items s.cycle s.w (collect (steps D n s).saved k items) (s.cycle + n) (steps D n s).w ∧
      ∀ j, j < k → (steps D n s).saved j = s.saved j

/-- What happens from a blocked request on. -/
def Part2 (D : Dut W) (n : Nat) : Prop :=
  ∀ (s : St W V R) (k : Nat) (items : List (Item W V R)) (kk : Option Nat) (q : Req W V R),
    s.queue = enum k items → s.blocked = some (kk, q) → q.cond ≠ none →
    Idle (steps D n s) → (∀ m, m < n → ¬ Idle (steps D m s)) → (∀ j, k ≤ j → s.saved j = none) →
    (∀ j, kk = some j → j < k ∧ s.saved j = none) →
    ∃ res c1 w1, Turn D q s.cycle (D.before s.cycle s.w) res c1 w1 ∧
      Run D items (c1 + 1) (D.after c1 w1) (collect (steps D n s).saved k items) (s.cycle + n)
        (steps D n s).w ∧
      ∀ j, j < k → (steps D n s).saved j = if some j = kk then res else s.saved j

/-- A request is carried out, and then the rest. -/
theorem after_apply (D : Dut W) {n : Nat} (h1 : Part1 (V := V) (R := R) D n) (t : St W V R) (k : Nat)
    (items : List (Item W V R)) (c : Nat) (kk : Option Nat) (q : Req W V R) (hq : t.queue = enum k items)
    (hb : t.blocked = none) (hi : Idle (steps D n (fin D c (apply c kk q t))))
    (hm : ∀ m, m < n → ¬ Idle (steps D m (fin D c (apply c kk q t))))
    (hs : ∀ j, k ≤ j → t.saved j = none) (hk : ∀ j, kk = some j → j < k ∧ t.saved j = none) :
    ∃ res w1, Does c q t.w res w1 ∧
      Run D items (c + 1) (D.after c w1)
        (collect (steps D n (fin D c (apply c kk q t))).saved k items) (c + 1 + n)
        (steps D n (fin D c (apply c kk q t))).w ∧
      ∀ j, j < k → (steps D n (fin D c (apply c kk q t))).saved j =
        if some j = kk then res else t.saved j := by
  obtain ⟨res, hd, a1, a2, a3, a4, a5⟩ := apply_spec c kk q t
  obtain ⟨hr, hsv⟩ := h1 (fin D c (apply c kk q t)) k items (a1.trans hq) (a2.trans hb) hi hm (by
    intro j hj
    show (apply c kk q t).saved j = none
    rw [a4 j, hs j hj]
    intro he
    have := (hk j he.symm).1
    omega)
  refine ⟨res, _, hd, hr, ?_⟩
  intro j hj
  rw [hsv j hj]
  show (apply c kk q t).saved j = _
  by_cases he : some j = kk
  · rw [if_pos he, a5 j he, (hk j he.symm).2, Option.or_none]
  · rw [if_neg he, a4 j he]

/-- A request has its turn, and then the rest. -/
theorem after_check (D : Dut W) {n : Nat} (h1 : Part1 (V := V) (R := R) D n) (h2 : Part2 (V := V) (R := R) D n)
    (t : St W V R) (k : Nat) (items : List (Item W V R)) (c : Nat) (kk : Option Nat) (q : Req W V R)
    (hq : t.queue = enum k items)
    (hb : t.blocked = none) (hi : Idle (steps D n (fin D c (check c kk q t))))
    (hm : ∀ m, m < n → ¬ Idle (steps D m (fin D c (check c kk q t))))
    (hs : ∀ j, k ≤ j → t.saved j = none) (hk : ∀ j, kk = some j → j < k ∧ t.saved j = none) :
    ∃ res c1 w1, Turn D q c t.w res c1 w1 ∧
      Run D items (c1 + 1) (D.after c1 w1)
        (collect (steps D n (fin D c (check c kk q t))).saved k items) (c + 1 + n)
        (steps D n (fin D c (check c kk q t))).w ∧
      ∀ j, j < k → (steps D n (fin D c (check c kk q t))).saved j =
        if some j = kk then res else t.saved j := by
  cases hc : q.cond with
  | none =>
    have he : check c kk q t = apply c kk q t := by simp only [check, hc]
    rw [he] at hi hm ⊢
    obtain ⟨res, w1, hd, hr, hsv⟩ := after_apply D h1 t k items c kk q hq hb hi hm hs hk
    exact ⟨res, c, w1, .plain hc hd, hr, hsv⟩
  | some cond =>
    cases hx : cond c t.w with
    | mk b w =>
      cases b with
      | true =>
        have he : check c kk q t = apply c kk q { t with w := w } := by
          simp only [check, hc, hx]
          rfl
        rw [he] at hi hm ⊢
        obtain ⟨res, w1, hd, hr, hsv⟩ :=
          after_apply D h1 { t with w := w } k items c kk q hq hb hi hm hs hk
        exact ⟨res, c, w1, .now hc hx hd, hr, hsv⟩
      | false =>
        have he : check c kk q t = { t with w := w, blocked := some (kk, q) } := by
          simp only [check, hc, hx]
          rfl
        rw [he] at hi hm ⊢
        obtain ⟨res, c1, w1, ht, hr, hsv⟩ :=
          h2 (fin D c { t with w := w, blocked := some (kk, q) }) k items kk q hq rfl
            (by rw [hc]; simp) hi hm hs hk
        exact ⟨res, c1, w1, .later hc hx ht, hr, hsv⟩

theorem enum_nil {A : Type} {k : Nat} {l : List A} (h : enum k l = []) : l = [] := by
  cases l with
  | nil => rfl
  | cons a l => cases h

theorem parts (D : Dut W) (n : Nat) : Part1 (V := V) (R := R) D n ∧ Part2 (V := V) (R := R) D n := by
  induction n with
  | zero =>
    constructor
    · intro s k items hq _ hi _ _
      have : items = [] := enum_nil (hq.symm.trans hi.1)
      subst this
      exact ⟨.nil _ _, fun _ _ => rfl⟩
    · intro s k items kk q _ hb _ hi
      have := hi.2
      rw [show (steps D 0 s).blocked = some (kk, q) from hb] at this
      cases this
  | succ n ih =>
    obtain ⟨h1, h2⟩ := ih
    have hmm : ∀ {s : St W V R}, (∀ m, m < n + 1 → ¬ Idle (steps D m s)) →
        ∀ m, m < n → ¬ Idle (steps D m (step D s)) := fun h m hm => h (m + 1) (Nat.succ_lt_succ hm)
    constructor
    · intro s k items hq hb hi hm hs
      cases items with
      | nil => exact absurd ⟨hq, hb⟩ (hm 0 (Nat.succ_pos n))
      | cons i items =>
        have hcyc : s.cycle + (n + 1) = s.cycle + 1 + n := by omega
        rw [hcyc]
        cases i with
        | none =>
          have he : step D s = fin D s.cycle
              { s with w := D.before s.cycle s.w, queue := enum (k + 1) items } := by
            simp only [step, onRise, hb, hq, enum]
            rfl
          have hi' := hi
          have hm' := hmm hm
          rw [show steps D (n + 1) s = steps D n (step D s) from rfl, he] at hi' ⊢
          rw [he] at hm'
          obtain ⟨hr, hsv⟩ := h1 (fin D s.cycle
            { s with w := D.before s.cycle s.w, queue := enum (k + 1) items }) (k + 1) items rfl hb hi' hm'
            (fun j hj => hs j (by omega))
          exact ⟨.none hr, fun j hj => hsv j (by omega)⟩
        | dict q =>
          have he : step D s = fin D s.cycle (check s.cycle (some k) q
              { s with w := D.before s.cycle s.w, queue := enum (k + 1) items }) := by
            simp only [step, onRise, hb, hq, enum]
            rfl
          have hi' := hi
          have hm' := hmm hm
          rw [show steps D (n + 1) s = steps D n (step D s) from rfl, he] at hi' ⊢
          rw [he] at hm'
          obtain ⟨res, c1, w1, ht, hr, hsv⟩ := after_check D h1 h2
            { s with w := D.before s.cycle s.w, queue := enum (k + 1) items } (k + 1) items s.cycle (some k) q
            rfl hb hi' hm' (fun j hj => hs j (by omega))
            (fun j hj => by cases hj; exact ⟨Nat.lt_succ_self k, hs k (Nat.le_refl k)⟩)
          refine ⟨?_, fun j hj => ?_⟩
          · have hk := hsv k (Nat.lt_succ_self k)
            rw [if_pos rfl] at hk
            have : collect (steps D n (fin D s.cycle (check s.cycle (some k) q
                { s with w := D.before s.cycle s.w, queue := enum (k + 1) items }))).saved k
                (.dict q :: items) = res.toList ++ collect (steps D n (fin D s.cycle (check s.cycle (some k) q
                { s with w := D.before s.cycle s.w, queue := enum (k + 1) items }))).saved (k + 1) items := by
              unfold collect
              simp only [enum, List.filterMap_cons, hk]
              cases res <;> rfl
            rw [this]
            exact .dict ht hr
          · rw [hsv j (by omega), if_neg]
            intro hx
            cases hx
            omega
        | call f =>
          cases hx : f s.cycle (D.before s.cycle s.w) with
          | mk o w =>
            cases o with
            | none =>
              have he : step D s = fin D s.cycle { s with w := w, queue := enum (k + 1) items } := by
                simp only [step, onRise, hb, hq, enum, hx]
                rfl
              have hi' := hi
              have hm' := hmm hm
              rw [show steps D (n + 1) s = steps D n (step D s) from rfl, he] at hi' ⊢
              rw [he] at hm'
              obtain ⟨hr, hsv⟩ := h1 (fin D s.cycle { s with w := w, queue := enum (k + 1) items })
                (k + 1) items rfl hb hi' hm' (fun j hj => hs j (by omega))
              exact ⟨.callNone hx hr, fun j hj => hsv j (by omega)⟩
            | some q =>
              have he : step D s = fin D s.cycle (check s.cycle none q
                  { s with w := w, queue := enum (k + 1) items }) := by
                simp only [step, onRise, hb, hq, enum, hx]
                rfl
              have hi' := hi
              have hm' := hmm hm
              rw [show steps D (n + 1) s = steps D n (step D s) from rfl, he] at hi' ⊢
              rw [he] at hm'
              obtain ⟨res, c1, w1, ht, hr, hsv⟩ := after_check D h1 h2
                { s with w := w, queue := enum (k + 1) items } (k + 1) items s.cycle none q
                rfl hb hi' hm' (fun j hj => hs j (by omega)) (fun j hj => by cases hj)
              refine ⟨.callSome hx ht hr, fun j hj => ?_⟩
              rw [hsv j (by omega), if_neg (by simp)]
    · intro s k items kk q hq hb hc hi hm hs hk
      have hcyc : s.cycle + (n + 1) = s.cycle + 1 + n := by omega
      rw [hcyc]
      have he : step D s = fin D s.cycle (check s.cycle kk q
          { s with w := D.before s.cycle s.w, blocked := none }) := by
        cases hcc : q.cond with
        | none => exact absurd hcc hc
        | some cond =>
          simp only [step, onRise, hb, hcc, check, fin]
      have hi' := hi
      have hm' := hmm hm
      rw [show steps D (n + 1) s = steps D n (step D s) from rfl, he] at hi' ⊢
      rw [he] at hm'
      exact after_check D h1 h2 { s with w := D.before s.cycle s.w, blocked := none } k items s.cycle kk q
        hq rfl hi' hm' hs hk

/-! There is only one way. -/

theorem calls_det {c : Nat} {fs : List (Func W R)} {w : W} {rs rs' : List (Option R)} {w' w'' : W}
    (h : Calls c fs w rs w') (h' : Calls c fs w rs' w'') : rs = rs' ∧ w' = w'' := by
  induction h generalizing rs' w'' with
  | nil w => cases h'; exact ⟨rfl, rfl⟩
  | skip _ ih =>
    cases h' with
    | skip h' =>
      obtain ⟨rfl, rfl⟩ := ih h'
      exact ⟨rfl, rfl⟩
  | call he _ ih =>
    cases h' with
    | call he' h' =>
      rw [he] at he'
      cases he'
      obtain ⟨rfl, rfl⟩ := ih h'
      exact ⟨rfl, rfl⟩

theorem shape_det {A : Type} {l : List A} {m m' : Many A} (h : Shape l m) (h' : Shape l m') : m = m' := by
  rcases h with ⟨a, rfl, rfl⟩ | ⟨h, rfl⟩ <;> rcases h' with ⟨a', he, rfl⟩ | ⟨h', rfl⟩
  · cases he
    rfl
  · simp at h'
  · rw [he] at h
    simp at h
  · rfl

theorem does_det {c : Nat} {q : Req W V R} {w : W} {res res' : Option (Res V R)} {w' w'' : W}
    (h : Does c q w res w') (h' : Does c q w res' w'') : res = res' ∧ w' = w'' := by
  obtain ⟨m, h1, h2⟩ := h
  obtain ⟨m', h1', h2'⟩ := h'
  have hm : m = m' ∧ w' = w'' := by
    unfold Funcs at h1 h1'
    cases hq : q.funcs with
    | none =>
      rw [hq] at h1 h1'
      obtain ⟨rfl, rfl⟩ := h1
      obtain ⟨rfl, rfl⟩ := h1'
      exact ⟨rfl, rfl⟩
    | some x =>
      rw [hq] at h1 h1'
      cases x <;>
      · obtain ⟨rs, a, b⟩ := h1
        obtain ⟨rs', a', b'⟩ := h1'
        obtain ⟨rfl, rfl⟩ := calls_det a a'
        exact ⟨shape_det b b', rfl⟩
  obtain ⟨rfl, rfl⟩ := hm
  refine ⟨?_, rfl⟩
  cases hr : q.ret with
  | none =>
    rw [hr] at h2 h2'
    exact Eq.trans h2 (Eq.symm h2')
  | some bs =>
    rw [hr] at h2 h2'
    obtain ⟨d, a, rfl⟩ := h2
    obtain ⟨d', a', rfl⟩ := h2'
    rw [shape_det a a']

theorem turn_det {D : Dut W} {q : Req W V R} {c : Nat} {w : W} {res res' : Option (Res V R)}
    {c' c'' : Nat} {w' w'' : W} (h : Turn D q c w res c' w') (h' : Turn D q c w res' c'' w'') :
    res = res' ∧ c' = c'' ∧ w' = w'' := by
  induction h generalizing res' c'' w'' with
  | plain hc hd =>
    cases h' with
    | plain _ hd' =>
      obtain ⟨rfl, rfl⟩ := does_det hd hd'
      exact ⟨rfl, rfl, rfl⟩
    | now hc' => rw [hc] at hc'; cases hc'
    | later hc' => rw [hc] at hc'; cases hc'
  | now hc hx hd =>
    cases h' with
    | plain hc' => rw [hc] at hc'; cases hc'
    | now hc' hx' hd' =>
      rw [hc] at hc'
      cases hc'
      rw [hx] at hx'
      cases hx'
      obtain ⟨rfl, rfl⟩ := does_det hd hd'
      exact ⟨rfl, rfl, rfl⟩
    | later hc' hx' =>
      rw [hc] at hc'
      cases hc'
      rw [hx] at hx'
      cases hx'
  | later hc hx _ ih =>
    cases h' with
    | plain hc' => rw [hc] at hc'; cases hc'
    | now hc' hx' hd' =>
      rw [hc] at hc'
      cases hc'
      rw [hx] at hx'
      cases hx'
    | later hc' hx' ht' =>
      rw [hc] at hc'
      cases hc'
      rw [hx] at hx'
      cases hx'
      exact ih ht'

/-! ### C108 -/

/-- C108: the state and the results after `process_requests` are those of the sequential program, after
exactly the cycles that it takes. Missing: a last request whose condition does not hold when its turn
comes; `process_requests` returns without it (`C49_returns_violated`, and `C108_last_violated` below). -/
theorem C108_sequential_partial (D : Dut W) (items : List (Item W V R)) (c : Nat) (w : W) (n : Nat)
    (hn : Ends D items c w n) (hb : (rounds D items c w n).blocked = none) :
    Run D items c w (results items (rounds D items c w n)) (c + n) (rounds D items c w n).w := by
  have h := (parts (V := V) (R := R) D n).1 ⟨enum 0 items, none, fun _ => none, c, w⟩ 0 items rfl rfl
  simp only [← rounds_eq] at h
  exact (h ⟨hn.1, hb⟩ (fun m hm hi => hn.2 m hm hi.1) (by simp)).1

/-- C108: the sequential program has only one result. -/
theorem C108_unique (D : Dut W) {items : List (Item W V R)} {c : Nat} {w : W} {rs rs' : List (Res V R)}
    {c' c'' : Nat} {w' w'' : W} (h : Run D items c w rs c' w') (h' : Run D items c w rs' c'' w'') :
    rs = rs' ∧ c' = c'' ∧ w' = w'' := by
  induction h generalizing rs' c'' w'' with
  | nil => cases h'; exact ⟨rfl, rfl, rfl⟩
  | none _ ih =>
    cases h' with
    | none h' => exact ih h'
  | dict ht _ ih =>
    cases h' with
    | dict ht' h' =>
      obtain ⟨rfl, rfl, rfl⟩ := turn_det ht ht'
      obtain ⟨rfl, rfl, rfl⟩ := ih h'
      exact ⟨rfl, rfl, rfl⟩
  | callNone hx _ ih =>
    cases h' with
    | callNone hx' h' =>
      rw [hx] at hx'
      cases hx'
      exact ih h'
    | callSome hx' =>
      rw [hx] at hx'
      cases hx'
  | callSome hx ht _ ih =>
    cases h' with
    | callNone hx' =>
      rw [hx] at hx'
      cases hx'
    | callSome hx' ht' h' =>
      rw [hx] at hx'
      cases hx'
      obtain ⟨rfl, rfl, rfl⟩ := turn_det ht ht'
      exact ih h'

/-! If the sequential program ends, so do the steps. -/

theorem steps_add (D : Dut W) (a b : Nat) (s : St W V R) : steps D (a + b) s = steps D b (steps D a s) := by
  induction b with
  | zero => rfl
  | succ b ih => rw [← Nat.add_assoc, steps_succ, ih, ← steps_succ]

theorem turn_steps (D : Dut W) {q : Req W V R} {c : Nat} {w : W} {res : Option (Res V R)} {c1 : Nat}
    {w1 : W} (h : Turn D q c w res c1 w1) (kk : Option Nat) :
    ∀ t : St W V R, t.w = w → t.blocked = none → ∃ n,
      c1 = c + n ∧ (steps D n (fin D c (check c kk q t))).queue = t.queue ∧
      (steps D n (fin D c (check c kk q t))).blocked = none ∧
      (steps D n (fin D c (check c kk q t))).cycle = c1 + 1 ∧
      (steps D n (fin D c (check c kk q t))).w = D.after c1 w1 := by
  induction h with
  | @plain c w res w' hc hd =>
    rintro t rfl hb
    have he : check c kk q t = apply c kk q t := by simp only [check, hc]
    obtain ⟨res', hd', a1, a2, a3, _⟩ := apply_spec c kk q t
    obtain ⟨_, hw⟩ := does_det hd hd'
    refine ⟨0, rfl, ?_⟩
    rw [he]
    refine ⟨a1, a2.trans hb, rfl, ?_⟩
    show D.after c (apply c kk q t).w = _
    rw [← hw]
  | @now cond c w w1 res w' hc hx hd =>
    rintro t rfl hb
    have he : check c kk q t = apply c kk q { t with w := w1 } := by
      simp only [check, hc, hx]
      rfl
    obtain ⟨res', hd', a1, a2, a3, _⟩ := apply_spec c kk q { t with w := w1 }
    obtain ⟨_, hw⟩ := does_det hd hd'
    refine ⟨0, rfl, ?_⟩
    rw [he]
    refine ⟨a1, a2.trans hb, rfl, ?_⟩
    show D.after c (apply c kk q { t with w := w1 }).w = _
    rw [← hw]
  | @later cond c w w1 res c' w' hc hx _ ih =>
    rintro t rfl hb
    have he : check c kk q t = { t with w := w1, blocked := some (kk, q) } := by
      simp only [check, hc, hx]
      rfl
    have hs : step D (fin D c (check c kk q t)) = fin D (c + 1) (check (c + 1) kk q
        { t with w := D.before (c + 1) (D.after c w1), cycle := c + 1 }) := by
      rw [he]
      obtain ⟨tq, tb, ts, tc, tw⟩ := t
      cases hb
      simp only [step, onRise, fin, check, hc]
      rfl
    obtain ⟨n, h1, h2⟩ := ih { t with w := D.before (c + 1) (D.after c w1), cycle := c + 1 } rfl hb
    refine ⟨n + 1, by omega, ?_⟩
    rw [show steps D (n + 1) (fin D c (check c kk q t)) = steps D n (step D (fin D c (check c kk q t))) from rfl,
      hs]
    exact h2

theorem run_steps (D : Dut W) {items : List (Item W V R)} {c : Nat} {w : W} {rs : List (Res V R)}
    {c' : Nat} {w' : W} (h : Run D items c w rs c' w') :
    ∀ (k : Nat) (s : St W V R), s.queue = enum k items → s.blocked = none → s.cycle = c → s.w = w →
      ∃ n, c' = c + n ∧ Idle (steps D n s) := by
  induction h with
  | nil c w =>
    intro k s hq hb _ _
    exact ⟨0, rfl, hq, hb⟩
  | @none l c w rs c' w' _ ih =>
    rintro k s hq hb rfl rfl
    have he : step D s = fin D s.cycle
        { s with w := D.before s.cycle s.w, queue := enum (k + 1) l } := by
      simp only [step, onRise, hb, hq, enum]
      rfl
    obtain ⟨n, h1, h2⟩ := ih (k + 1) (step D s) (by rw [he]; rfl) (by rw [he]; exact hb)
      (by rw [he]; rfl) (by rw [he]; rfl)
    exact ⟨n + 1, by omega, h2⟩
  | @dict q l c w res c1 w1 rs c' w' ht _ ih =>
    rintro k s hq hb rfl rfl
    have he : step D s = fin D s.cycle (check s.cycle (some k) q
        { s with w := D.before s.cycle s.w, queue := enum (k + 1) l }) := by
      simp only [step, onRise, hb, hq, enum]
      rfl
    obtain ⟨m, m1, m2, m3, m4, m5⟩ := turn_steps D ht (some k)
      { s with w := D.before s.cycle s.w, queue := enum (k + 1) l } rfl hb
    obtain ⟨n, h1, h2⟩ := ih (k + 1) (steps D m (step D s)) (by rw [he]; exact m2)
      (by rw [he]; exact m3) (by rw [he]; exact m4) (by rw [he]; exact m5)
    refine ⟨(m + 1) + n, by omega, ?_⟩
    rw [steps_add]
    exact h2
  | @callNone f l c w w1 rs c' w' hx _ ih =>
    rintro k s hq hb rfl rfl
    have he : step D s = fin D s.cycle { s with w := w1, queue := enum (k + 1) l } := by
      simp only [step, onRise, hb, hq, enum, hx]
      rfl
    obtain ⟨n, h1, h2⟩ := ih (k + 1) (step D s) (by rw [he]; rfl) (by rw [he]; exact hb)
      (by rw [he]; rfl) (by rw [he]; rfl)
    exact ⟨n + 1, by omega, h2⟩
  | @callSome f q l c w w0 res c1 w1 rs c' w' hx ht _ ih =>
    rintro k s hq hb rfl rfl
    have he : step D s = fin D s.cycle (check s.cycle none q
        { s with w := w0, queue := enum (k + 1) l }) := by
      simp only [step, onRise, hb, hq, enum, hx]
      rfl
    obtain ⟨m, m1, m2, m3, m4, m5⟩ := turn_steps D ht none
      { s with w := w0, queue := enum (k + 1) l } rfl hb
    obtain ⟨n, h1, h2⟩ := ih (k + 1) (steps D m (step D s)) (by rw [he]; exact m2)
      (by rw [he]; exact m3) (by rw [he]; exact m4) (by rw [he]; exact m5)
    refine ⟨(m + 1) + n, by omega, ?_⟩
    rw [steps_add]
    exact h2

/-- A step of an idle bundle changes nothing but the cycle and the device. -/
theorem idle_step (D : Dut W) {s : St W V R} (h : Idle s) : Idle (step D s) := by
  have : step D s = fin D s.cycle { s with w := D.before s.cycle s.w } := by
    simp only [step, onRise, h.1, h.2]
    rfl
  rw [this]
  exact h

theorem least_idle (D : Dut W) (s : St W V R) : ∀ n, Idle (steps D n s) →
    ∃ m, m ≤ n ∧ Idle (steps D m s) ∧ ∀ j, j < m → ¬ Idle (steps D j s) := by
  intro n
  induction n with
  | zero => exact fun h => ⟨0, Nat.le_refl _, h, fun j hj => by cases hj⟩
  | succ n ih =>
    intro h
    by_cases hn : Idle (steps D n s)
    · obtain ⟨m, h1, h2, h3⟩ := ih hn
      exact ⟨m, Nat.le_succ_of_le h1, h2, h3⟩
    · refine ⟨n + 1, Nat.le_refl _, h, ?_⟩
      intro j hj hi
      apply hn
      have : ∀ d, Idle (steps D (j + d) s) := by
        intro d
        induction d with
        | zero => exact hi
        | succ d ih => rw [← Nat.add_assoc, steps_succ]; exact idle_step D ih
      have := this (n - j)
      rwa [Nat.add_sub_cancel' (by omega)] at this

/-- C108: conversely, when the sequential program ends, after `n` cycles, then `n` steps bring the bundle
to its state and its results, with no request left or waiting. -/
theorem C108_reaches (D : Dut W) {items : List (Item W V R)} {c : Nat} {w : W} {rs : List (Res V R)}
    {c' : Nat} {w' : W} (h : Run D items c w rs c' w') :
    ∃ n, c' = c + n ∧ (rounds D items c w n).queue = [] ∧ (rounds D items c w n).blocked = none ∧
      (rounds D items c w n).w = w' ∧ results items (rounds D items c w n) = rs := by
  obtain ⟨n, hn, hi⟩ := run_steps D h 0 ⟨enum 0 items, none, fun _ => none, c, w⟩ rfl rfl rfl rfl
  obtain ⟨m, _, hm, hl⟩ := least_idle D _ n hi
  have hr := ((parts (V := V) (R := R) D m).1 ⟨enum 0 items, none, fun _ => none, c, w⟩ 0 items rfl rfl hm hl
    (by simp)).1
  obtain ⟨h1, h2, h3⟩ := C108_unique D h hr
  refine ⟨m, h2, ?_⟩
  rw [rounds_eq]
  exact ⟨hm.1, hm.2, h3.symm, h1.symm⟩

/-- C108: and `process_requests` takes just these steps unless it returns before the last request was
carried out. -/
theorem C108_all_partial (D : Dut W) {items : List (Item W V R)} {c : Nat} {w : W} {rs : List (Res V R)}
    {c' : Nat} {w' : W} (h : Run D items c w rs c' w') {n : Nat} (hn : Ends D items c w n)
    (hb : (rounds D items c w n).blocked = none) :
    c' = c + n ∧ (rounds D items c w n).w = w' ∧ results items (rounds D items c w n) = rs := by
  obtain ⟨h1, h2, h3⟩ := C108_unique D h (C108_sequential_partial D items c w n hn hb)
  exact ⟨h2, h3.symm, h1.symm⟩

/-- A request that never waits. -/
def Plain : Item W V R → Prop
  | .none => True
  | .dict q => q.cond = none
  | .call _ => False

theorem apply_blocked (c : Nat) (k : Option Nat) (q : Req W V R) (s : St W V R) :
    (apply c k q s).blocked = s.blocked ∧ (apply c k q s).queue = s.queue := by
  obtain ⟨_, _, h1, h2, _⟩ := apply_spec c k q s
  exact ⟨h2, h1⟩

theorem check_queue (c : Nat) (k : Option Nat) (q : Req W V R) (s : St W V R) :
    (check c k q s).queue = s.queue := by
  unfold check
  split
  · exact (apply_blocked c k q s).2
  · simp only
    split
    · exact (apply_blocked c k q _).2
    · rfl

/-- A step takes the first request of the queue if none waits, and leaves the queue alone otherwise. -/
theorem step_queue (D : Dut W) (s : St W V R) :
    (s.blocked.isSome = true → (step D s).queue = s.queue) ∧
    (s.blocked = none → (step D s).queue = s.queue.tail) := by
  refine ⟨?_, ?_⟩
  · intro h
    obtain ⟨⟨k, q⟩, hb⟩ := Option.isSome_iff_exists.1 h
    show (onRise s.cycle { s with w := D.before s.cycle s.w }).queue = _
    simp only [onRise, hb]
    split
    · rfl
    · split
      · exact (apply_blocked _ _ _ _).2
      · rfl
  · intro hb
    show (onRise s.cycle { s with w := D.before s.cycle s.w }).queue = _
    simp only [onRise, hb]
    split
    · rename_i h; rw [h]; rfl
    · rename_i h; rw [h]; rfl
    · rename_i h; rw [h]; exact check_queue _ _ _ _
    · rename_i h
      rw [h]
      split
      · rfl
      · exact check_queue _ _ _ _

theorem queue_suffix (D : Dut W) (items : List (Item W V R)) (c : Nat) (w : W) (n : Nat) :
    (rounds D items c w n).queue <:+ enum 0 items := by
  induction n with
  | zero => exact List.suffix_refl _
  | succ n ih =>
    show (step D (rounds D items c w n)).queue <:+ _
    cases hb : (rounds D items c w n).blocked with
    | none =>
      rw [(step_queue D _).2 hb]
      exact (List.tail_suffix _).trans ih
    | some x =>
      rw [(step_queue D _).1 (by rw [hb]; rfl)]
      exact ih

theorem enum_append {A : Type} (k : Nat) (l m : List A) :
    enum k (l ++ m) = enum k l ++ enum (k + l.length) m := by
  induction l generalizing k with
  | nil => rfl
  | cons a l ih =>
    show (k, a) :: enum (k + 1) (l ++ m) = _
    rw [ih, show k + (a :: l).length = k + 1 + l.length by simp only [List.length_cons]; omega]
    rfl

/-- C108: if the last request is `None` or a dictionary without a condition, `process_requests` returns
only when all requests were carried out: it is the sequential program. -/
theorem C108_plain_partial (D : Dut W) (items : List (Item W V R)) (a : Item W V R) (ha : Plain a)
    (c : Nat) (w : W) (n : Nat) (hn : Ends D (items ++ [a]) c w n) :
    Run D (items ++ [a]) c w (results (items ++ [a]) (rounds D (items ++ [a]) c w n)) (c + n)
      (rounds D (items ++ [a]) c w n).w := by
  apply C108_sequential_partial D _ c w n hn
  obtain ⟨h0, hl⟩ := hn
  cases n with
  | zero => rfl
  | succ n =>
    have h1 := hl n (Nat.lt_succ_self n)
    have hs := queue_suffix D (items ++ [a]) c w n
    have h0' : (step D (rounds D (items ++ [a]) c w n)).queue = [] := h0
    show (step D (rounds D (items ++ [a]) c w n)).blocked = none
    generalize rounds D (items ++ [a]) c w n = s at *
    cases hb : s.blocked with
    | some x => exact absurd ((step_queue D s).1 (by rw [hb]; rfl) ▸ h0') h1
    | none =>
      have ht := (step_queue D s).2 hb ▸ h0'
      match hq : s.queue, h1, ht with
      | [x], _, _ =>
        have hx : x = (0 + items.length, a) := by
          rw [hq, enum_append] at hs
          obtain ⟨t, ht⟩ := hs
          exact (List.append_inj' ht rfl).2 |> fun h => (List.cons.inj h).1
        subst hx
        show (onRise s.cycle { s with w := D.before s.cycle s.w }).blocked = _
        cases a with
        | none => simp only [onRise, hb, hq]
        | dict q =>
          simp only [onRise, hb, hq, check, show q.cond = none from ha]
          exact (apply_blocked _ _ _ _).1
        | call f => exact ha.elim

/-! ### A last request that waits -/

namespace Witness

/-- The rest of the program is a list of what happened. -/
abbrev World := List (String × Nat)

def dut : Dut World := ⟨fun c w => w ++ [("rise", c)], fun c w => w ++ [("eval", c)]⟩

/-- A request with a condition that holds from cycle 2 on, two functions, of which the second one is not
callable, and a return bundle that shows how much has happened. -/
def full : Req World Nat Nat :=
  ⟨some fun c w => (decide (2 ≤ c), w ++ [("cond", c)]), fun w => w ++ [("assign", 0)],
    some (.list [some fun c w => (c + 100, w ++ [("func", c)]), none]), some (.one (some List.length))⟩

/-- A request with one function and no return bundles. -/
def short : Req World Nat Nat :=
  ⟨none, fun w => w ++ [("assign", 1)], some (.one (some fun c w => (c, w ++ [("func", c)]))), none⟩

end Witness

open Witness in
/-- C108 fails: when the condition of the last request does not hold at once, `process_requests` returns
after one cycle, without it. The sequential program carries it out in cycle 2. -/
theorem C108_last_violated :
    Ends dut [.dict full] 0 [] 1 ∧ results [.dict full] (rounds dut [.dict full] 0 [] 1) = [] ∧
    ∃ w, Run dut [.dict full] 0 []
      [⟨.one 10, 2, .list [some 102, none]⟩] 3 w := by
  refine ⟨⟨rfl, ?_⟩, rfl, ?_⟩
  · intro m hm
    have : m = 0 := by omega
    subst this
    simp [rounds, enum]
  · let v : World := [("rise", 0), ("cond", 0), ("eval", 0), ("rise", 1), ("cond", 1), ("eval", 1),
      ("rise", 2), ("cond", 2)]
    have hd : Does 2 full v (some ⟨.one 10, 2, .list [some 102, none]⟩)
        (v ++ [("assign", 0), ("func", 2)]) := by
      refine ⟨.list [some 102, none], ⟨[some 102, none], .call rfl (.skip (.nil _)), .inr ⟨by simp, rfl⟩⟩, ?_⟩
      exact ⟨.one 10, .inl ⟨_, rfl, rfl⟩, rfl⟩
    exact ⟨_, Run.dict (rs := []) (Turn.later rfl rfl (.later rfl rfl (.now rfl rfl hd))) (.nil _ _)⟩

/-! ### The hypotheses can be met -/

open Witness in
/-- Four requests: one that waits for two cycles, nothing, a function that returns a dictionary, and a
last one without a condition. -/
example :
    let items : List (Item World Nat Nat) :=
      [.dict full, .none, .call fun c w => (some short, w ++ [("call", c)]), .dict short]
    (rounds dut items 0 [] 6).queue = [] ∧ (rounds dut items 0 [] 6).blocked = none ∧
      (rounds dut items 0 [] 6).w =
        [("rise", 0), ("cond", 0), ("eval", 0), ("rise", 1), ("cond", 1), ("eval", 1),
         ("rise", 2), ("cond", 2), ("assign", 0), ("func", 2), ("eval", 2), ("rise", 3), ("eval", 3),
         ("rise", 4), ("call", 4), ("assign", 1), ("func", 4), ("eval", 4),
         ("rise", 5), ("assign", 1), ("func", 5), ("eval", 5)] ∧
      (∀ m, m < 6 → (rounds dut items 0 [] m).queue ≠ []) ∧
      (results items (rounds dut items 0 [] 6)).map (fun r => r.cycle) = [2] := by
  refine ⟨rfl, rfl, by rfl, ?_, rfl⟩
  intro m hm
  rcases (by omega : m = 0 ∨ m = 1 ∨ m = 2 ∨ m = 3 ∨ m = 4 ∨ m = 5) with rfl | rfl | rfl | rfl | rfl | rfl <;>
    exact fun h => by cases h

end Toffee.RequestsFull
