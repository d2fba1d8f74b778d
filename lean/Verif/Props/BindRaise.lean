import Verif.Model.BindRaise
import Verif.Lemmas.BundleAgain
import Verif.Props.BundleWarn
import Verif.Props.RuleString

/-! C129: `bind` after a `bind` that raised. -/

namespace Toffee.Props.BindRaise

open Toffee.Bundle

/-! ### The model is that of `bind`, as far as it returns -/

theorem missCells_ok (access : Bool) (con : List Name) (txt : Name → Option Name) (cs : List Cell) :
    (missCells access con txt cs).2 = cs.all (fun c => decide (c.name ∈ con) || (txt c.name).isSome) ∧
    ((missCells access con txt cs).2 = true → (missCells access con txt cs).1 =
      if access then cs.map fun c => if c.name ∈ con then c else { c with slot := .dummy } else cs) ∧
    (missCells access con txt cs).1.map Cell.name = cs.map Cell.name := by
  induction cs with
  | nil => simp [missCells]
  | cons c cs ih =>
    obtain ⟨h1, h2, h3⟩ := ih
    rw [missCells]
    by_cases hc : c.name ∈ con
    · simp only [hc, if_true, List.all_cons, decide_true, Bool.true_or, Bool.true_and, List.map_cons, h3, and_true]
      refine ⟨h1, fun h => ?_⟩
      rw [h2 h]
      cases access <;> rfl
    · simp only [hc, if_false, List.all_cons, decide_false, Bool.false_or, List.map_cons]
      cases ht : txt c.name with
      | none => simp
      | some t =>
        simp only [Option.isSome_some, Bool.true_and, List.map_cons, h3]
        refine ⟨h1, fun h => ?_, by cases access <;> rfl⟩
        rw [h2 h]
        cases access <;> rfl

theorem missElems_ok (access : Bool) (con : List Name) (txt : Name → Option Name) (es : List (Name × Slot)) :
    (missElems access con txt es).2 = es.all (fun e => decide (e.1 ∈ con) || (txt e.1).isSome) ∧
    ((missElems access con txt es).2 = true → (missElems access con txt es).1 =
      if access then es.map fun e => if e.1 ∈ con then e else (e.1, .dummy) else es) ∧
    (missElems access con txt es).1.map Prod.fst = es.map Prod.fst := by
  induction es with
  | nil => simp [missElems]
  | cons c cs ih =>
    obtain ⟨h1, h2, h3⟩ := ih
    rw [missElems]
    by_cases hc : c.1 ∈ con
    · simp only [hc, if_true, List.all_cons, decide_true, Bool.true_or, Bool.true_and, List.map_cons, h3, and_true]
      refine ⟨h1, fun h => ?_⟩
      rw [h2 h]
      cases access <;> rfl
    · simp only [hc, if_false, List.all_cons, decide_false, Bool.false_or, List.map_cons]
      cases ht : txt c.1 with
      | none => simp
      | some t =>
        simp only [Option.isSome_some, Bool.true_and, List.map_cons, h3]
        refine ⟨h1, fun h => ?_, by cases access <;> rfl⟩
        rw [h2 h]
        cases access <;> rfl

theorem missLists_ok (access : Bool) (con : List Name) (txt : Name → Option Name)
    (ls : List (Name × List (Name × Slot))) :
    (missLists access con txt ls).2 =
      ls.all (fun l => l.2.all fun e => decide (e.1 ∈ con) || (txt e.1).isSome) ∧
    ((missLists access con txt ls).2 = true → (missLists access con txt ls).1 =
      if access then ls.map fun l => (l.1, l.2.map fun e => if e.1 ∈ con then e else (e.1, .dummy)) else ls) ∧
    ((missLists access con txt ls).1.map fun l => l.2.map Prod.fst) = ls.map fun l => l.2.map Prod.fst := by
  induction ls with
  | nil => simp [missLists]
  | cons l ls ih =>
    obtain ⟨h1, h2, h3⟩ := ih
    obtain ⟨e1, e2, e3⟩ := missElems_ok access con txt l.2
    rw [missLists, List.all_cons]
    cases hm : (missElems access con txt l.2).2 with
    | false =>
      rw [← e1, hm]
      simp [e3]
    | true =>
      rw [← e1, hm]
      simp only [if_true, Bool.true_and, List.map_cons, h3, e3, and_true]
      refine ⟨h1, fun h => ?_⟩
      rw [h2 h, e2 hm]
      cases access <;> rfl

theorem missTo_ok (access : Bool) (con : List Name) (txt : Name → Option Name) (lv : Level) :
    (missTo access con txt lv).2 = (lv.signals.all (fun c => decide (c.name ∈ con) || (txt c.name).isSome) &&
      lv.lists.all (fun l => l.2.all fun e => decide (e.1 ∈ con) || (txt e.1).isSome)) ∧
    ((missTo access con txt lv).2 = true → (missTo access con txt lv).1 = missing access con lv) ∧
    (missTo access con txt lv).1.shape = lv.shape := by
  obtain ⟨h1, h2, h3⟩ := missCells_ok access con txt lv.signals
  obtain ⟨e1, e2, e3⟩ := missLists_ok access con txt lv.lists
  unfold missTo
  cases hm : (missCells access con txt lv.signals).2 with
  | false =>
    rw [← h1, hm]
    simp only [Bool.false_eq_true, if_false, Bool.false_and, false_implies, true_and]
    simp only [Level.shape, h3]
  | true =>
    rw [← h1, hm]
    simp only [if_true, Bool.true_and]
    refine ⟨e1, fun h => ?_, by simp only [Level.shape, h3, e3]⟩
    rw [h2 hm, e2 h]
    unfold missing
    cases access <;> rfl

/-- The warnings of a level have their rule strings if and only if the loops come to their end. -/
theorem levelWarn_all (con : List Name) (level : Name) (txt : Name → Option Name) (lv : Level) :
    (levelWarn con level txt lv).all (fun x => x.2.isSome) =
      (lv.signals.all (fun c => decide (c.name ∈ con) || (txt c.name).isSome) &&
        lv.lists.all (fun l => l.2.all fun e => decide (e.1 ∈ con) || (txt e.1).isSome)) := by
  have hl : ∀ (es : List (Name × Slot)) (name : Name) (i : Nat) (level : Name),
      (listWarn con name txt i es level).1.all (fun x => x.2.isSome) =
        es.all fun e => decide (e.1 ∈ con) || (txt e.1).isSome := by
    intro es
    induction es with
    | nil => intros; rfl
    | cons e es ih =>
      intro name i level
      rw [listWarn, List.all_cons]
      by_cases h : e.1 ∈ con
      · simp only [h, if_true, decide_true, Bool.true_or, Bool.true_and, ih]
      · simp only [h, if_false, decide_false, Bool.false_or, List.all_cons, ih]
  have hls : ∀ (ls : List (Name × List (Name × Slot))) (level : Name),
      (listsWarn con txt ls level).all (fun x => x.2.isSome) =
        ls.all (fun l => l.2.all fun e => decide (e.1 ∈ con) || (txt e.1).isSome) := by
    intro ls
    induction ls with
    | nil => intros; rfl
    | cons l ls ih =>
      intro level
      rw [listsWarn, List.all_append, List.all_cons, hl, ih]
  unfold levelWarn
  rw [List.all_append, hls]
  congr 1
  induction lv.signals with
  | nil => rfl
  | cons c cs ih =>
    rw [List.all_cons, ← ih]
    by_cases h : c.name ∈ con <;> simp [h]

theorem all_shape {lv lv' : Level} (h : lv.shape = lv'.shape) (f : Name → Bool) :
    (lv.signals.all (fun c => f c.name) && lv.lists.all (fun l => l.2.all fun e => f e.1)) =
      (lv'.signals.all (fun c => f c.name) && lv'.lists.all (fun l => l.2.all fun e => f e.1)) := by
  simp only [Level.shape, Prod.mk.injEq] at h
  have h1 : ∀ lv : Level, lv.signals.all (fun c => f c.name) = (lv.signals.map Cell.name).all f := by
    intro lv; rw [List.all_map]; rfl
  have h2 : ∀ lv : Level, lv.lists.all (fun l => l.2.all fun e => f e.1) =
      (lv.lists.map fun l => l.2.map Prod.fst).all fun l => l.all f := by
    intro lv
    rw [List.all_map]
    congr 1
    funext l
    simp only [Function.comp, List.all_map]
    rfl
  rw [h1, h1, h2, h2, h.1, h.2]

mutual
theorem bindTo_ok (access : Bool) : ∀ (b : Bundle) (level : Name) (st : Stack) (nm : Name) (sigs : List Sig),
    (b.bindTo access st nm sigs).2.2.2 = (b.warn level st nm sigs).all (fun x => x.2.isSome) ∧
    ((b.bindTo access st nm sigs).2.2.2 = true →
      b.bindTo access st nm sigs =
        ((b.bindList access sigs).1, (b.bindList access sigs).2.1, (b.bindList access sigs).2.2, true)) ∧
    (b.bindTo access st nm sigs).1.Same b
  | .mk r lv c ks, level, st, nm, sigs => by
    have hs : (connect r lv c sigs).lvl.shape = lv.shape := (connect_same r rfl c c sigs).2.2.2.1
    obtain ⟨m1, m2, m3⟩ := missTo_ok access (connect r lv c sigs).connected
      (ruleText (st ++ [(.mk r lv c ks, nm)])) (connect r lv c sigs).lvl
    have m1' := m1.trans ((all_shape hs fun n => decide (n ∈ (connect r lv c sigs).connected) ||
      (ruleText (st ++ [(.mk r lv c ks, nm)]) n).isSome).trans
      (levelWarn_all (connect r lv c sigs).connected level _ lv).symm)
    obtain ⟨k1, k2, k3⟩ := kidsBindTo_ok access ks level (st ++ [(.mk r lv c ks, nm)]) (connect r lv c sigs).matching
      (connect r lv c sigs).clock
    rw [Bundle.bindTo, Bundle.warn, Bundle.bindList]
    simp only [List.all_append, ← m1']
    cases hm : (missTo access (connect r lv c sigs).connected (ruleText (st ++ [(.mk r lv c ks, nm)]))
        (connect r lv c sigs).lvl).2 with
    | false =>
      simp only [Bool.false_eq_true, if_false, Bool.false_and, false_implies, true_and]
      exact ⟨rfl, m3.trans hs, Kids.Same.refl ks⟩
    | true =>
      simp only [if_true, Bool.true_and]
      refine ⟨k1, fun h => ?_, rfl, m3.trans hs, k3⟩
      rw [k2 h, m2 hm]
theorem kidsBindTo_ok (access : Bool) : ∀ (ks : Kids) (level : Name) (st : Stack) (sigs : List Sig) (c : Option Nat),
    (ks.bindTo access st sigs c).2.2.2.2 = (ks.warn level st sigs).all (fun x => x.2.isSome) ∧
    ((ks.bindTo access st sigs c).2.2.2.2 = true →
      ks.bindTo access st sigs c =
        ((ks.bindList access sigs c).1, (ks.bindList access sigs c).2.1, (ks.bindList access sigs c).2.2.1,
          (ks.bindList access sigs c).2.2.2, true)) ∧
    (ks.bindTo access st sigs c).1.Same ks
  | .nil, level, st, sigs, c => by
    rw [Kids.bindTo, Kids.warn, Kids.bindList]
    exact ⟨rfl, fun _ => rfl, trivial⟩
  | .cons l b ks, level, st, sigs, c => by
    obtain ⟨b1, b2, b3⟩ := bindTo_ok access b (appended level l.text) st (kidName true st l) sigs
    rw [Kids.bindTo, Kids.warn, Kids.bindList]
    simp only [List.all_append, ← b1]
    cases hb : (b.bindTo access st (kidName true st l) sigs).2.2.2 with
    | false =>
      simp only [Bool.false_eq_true, if_false, Bool.false_and, false_implies, true_and]
      exact ⟨rfl, b3, Kids.Same.refl ks⟩
    | true =>
      have hb' := b2 hb
      rw [hb'] at b3 ⊢
      obtain ⟨k1, k2, k3⟩ := kidsBindTo_ok access ks level st (b.bindList access sigs).2.1
        (parentClock l (b.bindList access sigs).1.clock c)
      simp only [if_true, Bool.true_and]
      rw [show (b.bindList true sigs).2.1 = (b.bindList access sigs).2.1 from
        congrArg Prod.fst (bindList_same true access b b sigs (Bundle.Same.refl b))]
      refine ⟨k1, fun h => ?_, rfl, b3, k3⟩
      rw [k2 h]
end

/-! ### What a call does depends on the names and rules only -/

theorem missTo_same (access access' : Bool) {con con' : List Name} (hc : ∀ n, n ∈ con ↔ n ∈ con')
    {txt txt' : Name → Option Name} (ht : ∀ n, txt n = txt' n) {lv lv' : Level} (h : lv.shape = lv'.shape) :
    (missTo access con txt lv).2 = (missTo access' con' txt' lv').2 := by
  rw [(missTo_ok access con txt lv).1, (missTo_ok access' con' txt' lv').1]
  rw [show txt = txt' from funext ht]
  simp only [hc]
  exact all_shape h fun n => decide (n ∈ con') || (txt' n).isSome

mutual
theorem bindTo_same (access access' : Bool) : ∀ (b b' : Bundle) (st st' : Stack) (nm : Name) (sigs : List Sig),
    b.Same b' → StackSame st st' →
    (b.bindTo access st nm sigs).2 = (b'.bindTo access' st' nm sigs).2
  | .mk r lv c ks, .mk r' lv' c' ks', st, st', nm, sigs, h, hst => by
    have hst' := hst.snoc h nm
    obtain ⟨rfl, hl, hk⟩ := h
    obtain ⟨h1, h2, h3, h4, h5⟩ := connect_same r hl c c' sigs
    have hm := missTo_same access access' h5 (ruleText_same hst')
      (lv := (connect r lv c sigs).lvl) (lv' := (connect r lv' c' sigs).lvl)
      (by rw [h4, (connect_same r (rfl : lv'.shape = lv'.shape) c' c' sigs).2.2.2.1, hl])
    obtain ⟨k1, k2⟩ := kidsBindTo_same access access' ks ks' _ _ (connect r lv c sigs).matching
      (connect r lv c sigs).clock (connect r lv' c' sigs).clock hk hst'
    rw [Bundle.bindTo, Bundle.bindTo]
    simp only [← h1, ← h2, ← h3, ← hm]
    cases (missTo access (connect r lv c sigs).connected (ruleText (st ++ [(.mk r lv c ks, nm)]))
        (connect r lv c sigs).lvl).2 with
    | false => rfl
    | true => simp only [if_true, k1, k2.1, k2.2]
theorem kidsBindTo_same (access access' : Bool) : ∀ (ks ks' : Kids) (st st' : Stack) (sigs : List Sig)
    (c c' : Option Nat), ks.Same ks' → StackSame st st' →
    (ks.bindTo access st sigs c).2.1 = (ks'.bindTo access' st' sigs c').2.1 ∧
    (ks.bindTo access st sigs c).2.2.1 = (ks'.bindTo access' st' sigs c').2.2.1 ∧
    (ks.bindTo access st sigs c).2.2.2.2 = (ks'.bindTo access' st' sigs c').2.2.2.2
  | .nil, .nil, _, _, _, _, _, _, _ => ⟨rfl, rfl, rfl⟩
  | .cons l b ks, .cons l' b' ks', st, st', sigs, c, c', h, hst => by
    obtain ⟨rfl, hb, hk⟩ := h
    have h1 := bindTo_same access access' b b' st st' (kidName true st l) sigs hb hst
    rw [Kids.bindTo, Kids.bindTo, ← kidName_same hst]
    obtain ⟨k1, k2, k3⟩ := kidsBindTo_same access access' ks ks' st st'
      (b'.bindTo access' st' (kidName true st l) sigs).2.1
      (parentClock l (b.bindTo access st (kidName true st l) sigs).1.clock c)
      (parentClock l (b'.bindTo access' st' (kidName true st l) sigs).1.clock c') hk hst
    simp only [h1]
    cases (b'.bindTo access' st' (kidName true st l) sigs).2.2.2 with
    | false => exact ⟨rfl, rfl, rfl⟩
    | true => simp only [if_true, k1, k2, k3, and_self]
  | .nil, .cons _ _ _, _, _, _, _, _, h, _ => h.elim
  | .cons _ _ _, .nil, _, _, _, _, _, h, _ => h.elim
end

/-! ### Unbinding -/

theorem unbindCellsTo_ok (cs : List Cell) :
    (unbindCells cs = some ((unbindCellsTo cs).1, (unbindCellsTo cs).2.1) ∧ (unbindCellsTo cs).2.2 = true) ∨
    (unbindCells cs = none ∧ (unbindCellsTo cs).2.2 = false ∧
      ∃ c ∈ (unbindCellsTo cs).1, c.slot = .unconnected) := by
  induction cs with
  | nil => exact .inl ⟨rfl, rfl⟩
  | cons c cs ih =>
    rw [unbindCells, unbindCellsTo]
    cases hc : c.unbind with
    | none =>
      refine .inr ⟨rfl, rfl, c, List.mem_cons_self, ?_⟩
      unfold Cell.unbind at hc
      cases hs : c.slot <;> rw [hs] at hc <;> first | rfl | cases hc
    | some r =>
      rcases ih with ⟨h1, h2⟩ | ⟨h1, h2, d, hd, h3⟩
      · exact .inl ⟨by rw [h1]; rfl, h2⟩
      · exact .inr ⟨by rw [h1]; rfl, h2, d, List.mem_cons_of_mem _ hd, h3⟩

mutual
theorem unbindTo_ok : ∀ b : Bundle,
    (b.unbindAll = some ((b.unbindTo).1, (b.unbindTo).2.1) ∧ (b.unbindTo).2.2 = true) ∨
    (b.unbindAll = none ∧ (b.unbindTo).2.2 = false ∧ ¬ (b.unbindTo).1.Ready)
  | .mk r lv c ks => by
    rw [Bundle.unbindAll, Bundle.unbindTo]
    rcases unbindCellsTo_ok lv.signals with ⟨h1, h2⟩ | ⟨h1, h2, d, hd, h3⟩
    · simp only [h2, if_true]
      rcases kidsUnbindTo_ok ks with ⟨k1, k2⟩ | ⟨k1, k2, k3⟩
      · exact .inl ⟨by rw [h1, k1]; rfl, k2⟩
      · exact .inr ⟨by rw [h1, k1]; rfl, k2, fun h => k3 h.2⟩
    · simp only [h2, Bool.false_eq_true, if_false]
      exact .inr ⟨by rw [h1]; rfl, trivial, fun h => h.1 d hd h3⟩
theorem kidsUnbindTo_ok : ∀ ks : Kids,
    (ks.unbindAll = some ((ks.unbindTo).1, (ks.unbindTo).2.1) ∧ (ks.unbindTo).2.2 = true) ∨
    (ks.unbindAll = none ∧ (ks.unbindTo).2.2 = false ∧ ¬ (ks.unbindTo).1.Ready)
  | .nil => .inl ⟨rfl, rfl⟩
  | .cons (.sub n) b ks => by
    rw [Kids.unbindAll, Kids.unbindTo]
    rcases unbindTo_ok b with ⟨h1, h2⟩ | ⟨h1, h2, h3⟩
    · simp only [h2, if_true]
      rcases kidsUnbindTo_ok ks with ⟨k1, k2⟩ | ⟨k1, k2, k3⟩
      · exact .inl ⟨by rw [h1, k1]; rfl, k2⟩
      · exact .inr ⟨by rw [h1, k1]; rfl, k2, fun h => k3 h.2⟩
    · simp only [h2, Bool.false_eq_true, if_false]
      exact .inr ⟨by rw [h1]; rfl, trivial, fun h => h3 h.1⟩
  | .cons (.elem n i) b ks => by
    rw [Kids.unbindAll, Kids.unbindTo]
    rcases kidsUnbindTo_ok ks with ⟨k1, k2⟩ | ⟨k1, k2, k3⟩
    · exact .inl ⟨by rw [k1]; rfl, k2⟩
    · exact .inr ⟨by rw [k1]; rfl, k2, fun h => k3 h⟩
end

theorem unbindTo_ready (b : Bundle) : (b.unbindTo).2.2 = true ↔ b.Ready := by
  rw [← unbindAll_isSome]
  rcases unbindTo_ok b with ⟨h1, h2⟩ | ⟨h1, h2, _⟩ <;> simp [h1, h2]

theorem unbindTo_again {b : Bundle} (h : (b.unbindTo).2.2 = false) : ((b.unbindTo).1.unbindTo).2.2 = false := by
  rcases unbindTo_ok b with ⟨_, h2⟩ | ⟨_, _, h3⟩
  · rw [h] at h2; cases h2
  · rw [← Bool.not_eq_true, unbindTo_ready]
    exact h3

theorem bindResult_isSome (access : Bool) (name : Name) (b : Bundle) (dut : List DutSig) :
    (b.bindResult access name dut).isSome = (b.warnings name dut).all fun x => x.2.isSome := by
  unfold Bundle.bindResult
  rw [Option.isSome_map]
  induction b.warnings name dut with
  | nil => rfl
  | cons x xs ih =>
    rw [List.all_cons, ← ih, List.mapM_cons]
    cases x.2 with
    | none => rfl
    | some t => cases xs.mapM fun (x : Name × Option Name) => x.2.map fun t => (x.1, t) <;> rfl

/-! ### The property -/

/-- `y` is what calls of `bind` that all raised have made of `x`. -/
inductive Tried (x : Inst) : Inst → Prop
  | none : Tried x x
  | again {y : Inst} (h : Tried x y) (access : Bool) (name : Name) (dut : List DutSig)
      (hr : (y.bind access name dut).2 = false) : Tried x (y.bind access name dut).1

theorem bind_unbound {x : Inst} (h : x.bound = false) (access : Bool) (name : Name) (dut : List DutSig) :
    x.bind access name dut =
      (⟨(x.bundle.bindTo access [] name (dutSignals dut)).1,
        (x.bundle.bindTo access [] name (dutSignals dut)).2.2.2,
        fun p => x.count p + (x.bundle.bindTo access [] name (dutSignals dut)).2.2.1.count p⟩,
        (x.bundle.bindTo access [] name (dutSignals dut)).2.2.2) := by
  unfold Inst.bind
  simp [h]

theorem tried_same {x y : Inst} (h : Tried x y) (hb : x.bound = false) :
    y.bound = false ∧ y.bundle.Same x.bundle ∧ ∀ p, x.count p ≤ y.count p := by
  induction h with
  | none => exact ⟨hb, Bundle.Same.refl _, fun _ => Nat.le_refl _⟩
  | @again y h access name dut hr ih =>
    obtain ⟨h1, h2, h3⟩ := ih
    rw [bind_unbound h1] at hr ⊢
    exact ⟨hr, (bindTo_ok access y.bundle [] [] name _).2.2.trans h2,
      fun p => Nat.le_trans (h3 p) (Nat.le_add_right _ _)⟩

/-- What `Inst.bind` says of a call that returns is what `Bundle.bindResult`, and for a bound bundle
`Bundle.rebind`, say. -/
theorem C129_returns (x : Inst) (access : Bool) (name : Name) (dut : List DutSig) :
    (x.bound = false →
      ((x.bind access name dut).2 = true ↔ (x.bundle.bindResult access name dut).isSome) ∧
      ((x.bind access name dut).2 = true → (x.bind access name dut).1.bound = true ∧
        (x.bind access name dut).1.bundle = (x.bundle.bind access dut).1 ∧
        ∀ p, (x.bind access name dut).1.count p = x.count p + (x.bundle.bind access dut).2.count p)) ∧
    (x.bound = true → (x.bind access name dut).2 = true →
      ∃ b dec inc, x.bundle.rebind access dut = some (b, dec, inc) ∧
        (x.bind access name dut).1.bound = true ∧ (x.bind access name dut).1.bundle = b ∧
        ∀ p, (x.bind access name dut).1.count p = x.count p - dec.count p + inc.count p) := by
  constructor
  · intro hb
    obtain ⟨h1, h2, _⟩ := bindTo_ok access x.bundle name [] name (dutSignals dut)
    rw [bind_unbound hb]
    constructor
    · rw [bindResult_isSome]
      exact Eq.to_iff (congrArg (· = true) h1)
    · intro ho
      change (x.bundle.bindTo access [] name (dutSignals dut)).2.2.2 = true at ho
      rw [h2 ho]
      exact ⟨rfl, rfl, fun _ => rfl⟩
  · intro hb ho
    unfold Inst.bind at ho ⊢
    simp only [hb, if_true] at ho ⊢
    rcases unbindTo_ok x.bundle with ⟨u1, u2⟩ | ⟨u1, u2, _⟩
    · simp only [u2, if_true] at ho ⊢
      refine ⟨_, _, _, by rw [Bundle.rebind, u1]; rfl, rfl, ?_, ?_⟩
      · rw [(bindTo_ok access x.bundle.unbindTo.1 name [] name (dutSignals dut)).2.1 ho]
        rfl
      · intro p
        rw [(bindTo_ok access x.bundle.unbindTo.1 name [] name (dutSignals dut)).2.1 ho]
        rfl
    · simp [u2] at ho

/-- **C129 (in part).** Whatever calls of the first `bind` of a bundle have raised before: the next call returns
if and only if it would have returned without them. -/
theorem C129_outcome_partial {x y : Inst} (hb : x.bound = false) (h : Tried x y) (access : Bool) (name : Name)
    (dut : List DutSig) : (y.bind access name dut).2 = (x.bind access name dut).2 := by
  obtain ⟨h1, h2, _⟩ := tried_same h hb
  rw [bind_unbound h1, bind_unbound hb]
  exact congrArg (fun r => r.2.2) (bindTo_same access access _ _ [] [] name (dutSignals dut) h2 trivial)

/-- **C129 (in part).** If it returns and unconnected signals may be accessed (the default), every slot of the tree
is the same as without the calls that raised. -/
theorem C129_slots_partial {x y : Inst} (hb : x.bound = false) (h : Tried x y) (hd : x.bundle.Distinct)
    (name : Name) (dut : List DutSig) (ho : (y.bind true name dut).2 = true) (is : List Nat) (p : Pos) :
    (y.bind true name dut).1.bundle.slotAt is p = (x.bind true name dut).1.bundle.slotAt is p := by
  have hx := C129_outcome_partial hb h true name dut
  obtain ⟨h1, h2, _⟩ := tried_same h hb
  rw [((C129_returns y true name dut).1 h1).2 ho |>.2.1,
    ((C129_returns x true name dut).1 hb).2 (hx ▸ ho) |>.2.1]
  exact (bindList_slots_same true x.bundle y.bundle (dutSignals dut) h2.symm hd is p (.inl rfl)).symm

theorem bindTo_log (access : Bool) (b : Bundle) (st : Stack) (nm : Name) (dut : List DutSig) {d : DutSig}
    (hd : d ∈ dut) {m : Name} (hm : b.rule.strip d.name = some m) (hf : (b.lvl.find m).isSome) :
    d.pin ∈ (b.bindTo access st nm (dutSignals dut)).2.2.1 := by
  obtain ⟨r, lv, c, ks⟩ := b
  have hl : d.pin ∈ (connect r lv c (dutSignals dut)).log := by
    rw [show (connect r lv c (dutSignals dut)).log = _ from
      (connect_spec r lv (dutSignals dut) { lvl := lv, clock := c } rfl).log]
    refine List.mem_append_right _ (List.mem_map.2 ⟨⟨d.name, d.name, d.pin, d.event⟩, List.mem_filter.2
      ⟨List.mem_map.2 ⟨d, hd, rfl⟩, ?_⟩, rfl⟩)
    unfold hit
    change r.strip d.name = some m at hm
    simp only [hm]
    exact hf
  rw [Bundle.bindTo]
  dsimp only
  split
  · exact List.mem_append_left _ hl
  · exact hl

/-- **C129 (violated), counters.** Every DUT signal that belongs to a slot of the bundle itself is counted by the
call that raises, and never taken back: after the next call, its counter
`number_of_bundles_connected_to` is greater than it would be without the call that raised. -/
theorem C129_counts_violated {x : Inst} (hb : x.bound = false) {access access' : Bool} {name name' : Name}
    {dut dut' : List DutSig} (hr : (x.bind access name dut).2 = false)
    {d : DutSig} (hd : d ∈ dut) {m : Name} (hm : x.bundle.rule.strip d.name = some m)
    (hf : (x.bundle.lvl.find m).isSome) :
    (x.bind access' name' dut').1.count d.pin <
      ((x.bind access name dut).1.bind access' name' dut').1.count d.pin := by
  have ht : Tried x (x.bind access name dut).1 := .again .none access name dut hr
  obtain ⟨h1, h2, _⟩ := tried_same ht hb
  have hl := bindTo_same access' access' _ _ [] [] name' (dutSignals dut') h2 trivial
  rw [bind_unbound h1, bind_unbound hb]
  dsimp only
  rw [hl]
  refine Nat.add_lt_add_right ?_ _
  rw [bind_unbound hb]
  dsimp only
  have := List.count_pos_iff.2 (bindTo_log access x.bundle [] name dut hd hm hf)
  omega

/-! ### Every pin that a call leaves in a slot is counted -/

theorem missCells_pin (access : Bool) (con : List Name) (txt : Name → Option Name) (cs : List Cell) (n : Name)
    {q : Nat} (h : ((missCells access con txt cs).1.find? fun c => c.name = n).map Cell.slot = some (.pin q)) :
    (cs.find? fun c => c.name = n).map Cell.slot = some (.pin q) := by
  induction cs with
  | nil => exact h
  | cons c cs ih =>
    rw [missCells] at h
    by_cases hc : c.name ∈ con
    · simp only [hc, if_true] at h
      by_cases hn : c.name = n
      · simpa [hn] using h
      · simp only [List.find?_cons, hn, decide_false] at h ⊢
        exact ih h
    · simp only [hc, if_false] at h
      cases ht : txt c.name with
      | none => rw [ht] at h; exact h
      | some t =>
        simp only [ht] at h
        by_cases hn : c.name = n
        · cases access
          · simpa [hn] using h
          · simp [hn] at h
        · have hn' : (if access then { c with slot := .dummy } else c : Cell).name ≠ n := by
            cases access <;> exact hn
          simp only [List.find?_cons, hn, hn', decide_false] at h ⊢
          exact ih h

theorem missElems_pin (access : Bool) (con : List Name) (txt : Name → Option Name) (es : List (Name × Slot))
    (i : Nat) {q : Nat} (h : ((missElems access con txt es).1[i]?).map Prod.snd = some (.pin q)) :
    (es[i]?).map Prod.snd = some (.pin q) := by
  induction es generalizing i with
  | nil => exact h
  | cons e es ih =>
    rw [missElems] at h
    by_cases hc : e.1 ∈ con
    · simp only [hc, if_true] at h
      cases i with
      | zero => exact h
      | succ i => exact ih i h
    · simp only [hc, if_false] at h
      cases ht : txt e.1 with
      | none => rw [ht] at h; exact h
      | some t =>
        simp only [ht] at h
        cases i with
        | zero =>
          cases access
          · exact h
          · simp at h
        | succ i => exact ih i h

theorem missLists_pin (access : Bool) (con : List Name) (txt : Name → Option Name)
    (ls : List (Name × List (Name × Slot))) (l i : Nat) {q : Nat}
    (h : ((missLists access con txt ls).1[l]?).bind (fun e => (e.2[i]?).map Prod.snd) = some (.pin q)) :
    (ls[l]?).bind (fun e => (e.2[i]?).map Prod.snd) = some (.pin q) := by
  induction ls generalizing l with
  | nil => exact h
  | cons x ls ih =>
    rw [missLists] at h
    split at h
    · cases l with
      | zero => exact missElems_pin access con txt x.2 i h
      | succ l => exact ih l h
    · cases l with
      | zero => exact missElems_pin access con txt x.2 i h
      | succ l => exact h

theorem missTo_pin (access : Bool) (con : List Name) (txt : Name → Option Name) (lv : Level) (p : Pos) {q : Nat}
    (h : (missTo access con txt lv).1.slot p = some (.pin q)) : lv.slot p = some (.pin q) := by
  unfold missTo at h
  cases p with
  | sig n =>
    split at h
    · exact missCells_pin access con txt lv.signals n h
    · exact missCells_pin access con txt lv.signals n h
  | elem l i =>
    split at h
    · exact missLists_pin access con txt lv.lists l i h
    · exact h

mutual
theorem bindTo_pin (access : Bool) : ∀ (b : Bundle) (st : Stack) (nm : Name) (sigs : List Sig) (is : List Nat)
    (p : Pos) (q : Nat), (b.bindTo access st nm sigs).1.slotAt is p = some (.pin q) →
    b.slotAt is p = some (.pin q) ∨ q ∈ (b.bindTo access st nm sigs).2.2.1
  | .mk r lv c ks, st, nm, sigs, is, p, q, h => by
    have hl : ∀ p : Pos, (connect r lv c sigs).lvl.slot p = some (.pin q) →
        lv.slot p = some (.pin q) ∨ q ∈ (connect r lv c sigs).log := by
      intro p hp
      have hs := connect_spec r lv sigs { lvl := lv, clock := c } rfl
      rcases hs.slot p with ⟨s, hm, hh, he⟩ | ⟨_, he⟩
      · have : s.pin = q := by
          have := he.symm.trans hp
          simpa using this
        refine .inr ?_
        rw [show (connect r lv c sigs).log = _ from hs.log, ← this]
        exact List.mem_append_right _ (List.mem_map.2 ⟨s, List.mem_filter.2 ⟨hm, by rw [hh]; rfl⟩, rfl⟩)
      · exact .inl (he.symm.trans hp)
    rw [Bundle.bindTo] at h ⊢
    dsimp only at h ⊢
    split at h
    · rename_i hm
      rw [if_pos hm]
      cases is with
      | nil =>
        rcases hl p (missTo_pin _ _ _ _ p h) with h1 | h1
        · exact .inl h1
        · exact .inr (List.mem_append_left _ h1)
      | cons i is =>
        rcases kidsBindTo_pin access ks _ _ _ i is p q h with h1 | h1
        · exact .inl h1
        · exact .inr (List.mem_append_right _ h1)
    · rename_i hm
      rw [if_neg hm]
      cases is with
      | nil => exact hl p (missTo_pin _ _ _ _ p h)
      | cons i is => exact .inl h
theorem kidsBindTo_pin (access : Bool) : ∀ (ks : Kids) (st : Stack) (sigs : List Sig) (c : Option Nat)
    (i : Nat) (is : List Nat) (p : Pos) (q : Nat),
    (((ks.bindTo access st sigs c).1.get i).bind fun k => k.slotAt is p) = some (.pin q) →
    ((ks.get i).bind fun k => k.slotAt is p) = some (.pin q) ∨ q ∈ (ks.bindTo access st sigs c).2.2.1
  | .nil, _, _, _, _, _, _, _, h => .inl h
  | .cons l b ks, st, sigs, c, i, is, p, q, h => by
    rw [Kids.bindTo] at h ⊢
    dsimp only at h ⊢
    split at h
    · rename_i hm
      rw [if_pos hm]
      cases i with
      | zero =>
        rcases bindTo_pin access b _ _ _ is p q h with h1 | h1
        · exact .inl h1
        · exact .inr (List.mem_append_left _ h1)
      | succ i =>
        rcases kidsBindTo_pin access ks _ _ _ i is p q h with h1 | h1
        · exact .inl h1
        · exact .inr (List.mem_append_right _ h1)
    · rename_i hm
      rw [if_neg hm]
      cases i with
      | zero => exact bindTo_pin access b _ _ _ is p q h
      | succ i => exact .inl h
end

/-- **C129 (violated), counters, at any depth.** A pin that the call that raised has left in a slot of the tree is
counted one more time than before, and this stays so after the next call. -/
theorem C129_left_violated {x : Inst} (hb : x.bound = false) {access access' : Bool} {name name' : Name}
    {dut dut' : List DutSig} (hr : (x.bind access name dut).2 = false) {is : List Nat} {p : Pos} {q : Nat}
    (hq : (x.bind access name dut).1.bundle.slotAt is p = some (.pin q))
    (hx : x.bundle.slotAt is p ≠ some (.pin q)) :
    x.count q < (x.bind access name dut).1.count q ∧
    (x.bind access' name' dut').1.count q < ((x.bind access name dut).1.bind access' name' dut').1.count q := by
  have ht : Tried x (x.bind access name dut).1 := .again .none access name dut hr
  obtain ⟨h1, h2, _⟩ := tried_same ht hb
  have hl := bindTo_same access' access' _ _ [] [] name' (dutSignals dut') h2 trivial
  have h3 : x.count q < (x.bind access name dut).1.count q := by
    rw [bind_unbound hb] at hq ⊢
    rcases bindTo_pin access x.bundle [] name _ is p q hq with h | h
    · exact absurd h hx
    · have := List.count_pos_iff.2 h
      dsimp only
      omega
  refine ⟨h3, ?_⟩
  rw [bind_unbound h1, bind_unbound hb (dut := dut')]
  dsimp only
  rw [hl]
  exact Nat.add_lt_add_right h3 _

/-- An unbound bundle; no pin has a counter. -/
def fresh (b : Bundle) : Inst := ⟨b, false, fun _ => 0⟩

/-- Binding `crossed` to a DUT without `c` raises; binding it then to a DUT that has `b` and `c` returns, and the
counter of `b` is 2, so that `detect_multiple_connections` reports it. -/
example :
    ((fresh crossed).bind true [] [⟨"b".toList, 0, 0⟩]).2 = false ∧
    (((fresh crossed).bind true [] [⟨"b".toList, 0, 0⟩]).1.bind true []
      [⟨"b".toList, 0, 0⟩, ⟨"c".toList, 1, 0⟩]).2 = true ∧
    (((fresh crossed).bind true [] [⟨"b".toList, 0, 0⟩]).1.bind true []
      [⟨"b".toList, 0, 0⟩, ⟨"c".toList, 1, 0⟩]).1.count 0 = 2 ∧
    crossed.rule.strip "b".toList = some "a".toList ∧ (crossed.lvl.find "a".toList).isSome ∧ crossed.Distinct := by
  refine ⟨by decide, by decide, by decide, by decide, by decide, by decide, trivial⟩

/-- A bundle with a signal `x` and a sub-bundle `s` that is `crossed`. -/
def holder : Bundle :=
  .mk (.pre []) { signals := [⟨"x".toList, true, .unconnected⟩], lists := [] } none
    (.cons (.sub "s".toList) crossed .nil)

/-- The hypotheses of `C129_left_violated`: the call that raises leaves pin 8 in the slot `s.a`. -/
example :
    ((fresh holder).bind false [] [⟨"x".toList, 7, 5⟩, ⟨"b".toList, 8, 5⟩]).2 = false ∧
    ((fresh holder).bind false [] [⟨"x".toList, 7, 5⟩, ⟨"b".toList, 8, 5⟩]).1.bundle.slotAt [0] (.sig "a".toList) =
      some (.pin 8) ∧
    holder.slotAt [0] (.sig "a".toList) ≠ some (.pin 8) := by
  decide

/-- **C129 (violated), slots.** `holder` is bound to one DUT, whose `x` is pin 7 with event 5, and the
call raises in the sub-bundle; then it is bound to another DUT without `x`, with `unconnected_signal_access=False`.
That call returns, but `x` is still the pin of the first DUT, and without the first call it would be the unconnected
placeholder. -/
theorem C129_stale_violated :
    ((fresh holder).bind false [] [⟨"x".toList, 7, 5⟩, ⟨"b".toList, 8, 5⟩]).2 = false ∧
    (((fresh holder).bind false [] [⟨"x".toList, 7, 5⟩, ⟨"b".toList, 8, 5⟩]).1.bind false []
      [⟨"b".toList, 0, 1⟩, ⟨"c".toList, 1, 1⟩]).2 = true ∧
    (((fresh holder).bind false [] [⟨"x".toList, 7, 5⟩, ⟨"b".toList, 8, 5⟩]).1.bind false []
      [⟨"b".toList, 0, 1⟩, ⟨"c".toList, 1, 1⟩]).1.bundle.slotAt [] (.sig "x".toList) = some (.pin 7) ∧
    ((fresh holder).bind false [] [⟨"b".toList, 0, 1⟩, ⟨"c".toList, 1, 1⟩]).1.bundle.slotAt [] (.sig "x".toList) =
      some .unconnected := by
  decide

/-- **C129 (violated), clock.** `crossed` is bound to one DUT with event 5, which raises, and then to another one with
event 1, which returns: `step` waits for the event of the first DUT. -/
theorem C129_clock_violated :
    ((fresh crossed).bind true [] [⟨"b".toList, 0, 5⟩]).2 = false ∧
    (((fresh crossed).bind true [] [⟨"b".toList, 0, 5⟩]).1.bind true []
      [⟨"b".toList, 2, 1⟩, ⟨"c".toList, 3, 1⟩]).2 = true ∧
    (((fresh crossed).bind true [] [⟨"b".toList, 0, 5⟩]).1.bind true []
      [⟨"b".toList, 2, 1⟩, ⟨"c".toList, 3, 1⟩]).1.bundle.step 1 = some [5] ∧
    ((fresh crossed).bind true [] [⟨"b".toList, 2, 1⟩, ⟨"c".toList, 3, 1⟩]).1.bundle.step 1 = some [1] := by
  decide

/-- **C129 (violated), bound bundles.** If unbinding a bound bundle raises, because a slot outside bundle lists still
is the placeholder of its class, then after any number of calls every call raises, for every DUT. -/
theorem C129_stuck_violated {x y : Inst} (hb : x.bound = true) (hn : ¬ x.bundle.Ready) (h : Tried x y)
    (access : Bool) (name : Name) (dut : List DutSig) : (y.bind access name dut).2 = false := by
  have key : ∀ y, Tried x y → y.bound = true ∧ (y.bundle.unbindTo).2.2 = false := by
    intro y h
    induction h with
    | none => exact ⟨hb, by rw [← Bool.not_eq_true, unbindTo_ready]; exact hn⟩
    | @again y h access name dut hr ih =>
      unfold Inst.bind
      simp only [ih.1, ih.2, if_true, Bool.false_eq_true, if_false]
      exact ⟨trivial, unbindTo_again ih.2⟩
  unfold Inst.bind
  simp only [(key y h).1, (key y h).2, if_true, Bool.false_eq_true, if_false]

/-- `crossed` is bound and works; a second `bind` to a DUT that lacks `c` raises; from then on every `bind` raises,
also to the first DUT. -/
theorem C129_rebind_violated :
    ((fresh crossed).bind true [] [⟨"b".toList, 0, 0⟩, ⟨"c".toList, 1, 0⟩]).2 = true ∧
    (((fresh crossed).bind true [] [⟨"b".toList, 0, 0⟩, ⟨"c".toList, 1, 0⟩]).1.bind true []
      [⟨"b".toList, 0, 0⟩]).2 = false ∧
    ∀ y, Tried (((fresh crossed).bind true [] [⟨"b".toList, 0, 0⟩, ⟨"c".toList, 1, 0⟩]).1.bind true []
      [⟨"b".toList, 0, 0⟩]).1 y → ∀ access name dut, (y.bind access name dut).2 = false := by
  refine ⟨by decide, by decide, fun y h access name dut => C129_stuck_violated (by decide) ?_ h access name dut⟩
  rw [← unbindTo_ready]
  decide

end Toffee.Props.BindRaise
