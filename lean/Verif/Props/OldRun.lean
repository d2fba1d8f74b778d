import Verif.Model.OldRun
import Verif.Props.BundleStep
/-!
C127: waiting for clock cycles, in runs on all supported versions of Python.
-/

namespace Toffee.Props.OldRun

open Toffee.OldRun
open Toffee.Bundle (DutSig Bundle.Unclocked Bundle.Clocked Kids.Clocked)
open Toffee.WriteMode (node)

/-- All of the DUT refers to one event: `dut.event`, `dut.xclock` and the pins; events made later are
others. -/
structure Coherent (w : World) : Prop where
  step : w.step = w.event
  pins : ∀ d ∈ w.sigs, d.event = w.event
  next : w.event < w.next

/-- The bundles are constructed by the script: they have no clock event then. -/
def Made (as : List Act) : Prop := ∀ b, Act.make b ∈ as → b.Unclocked

/-- `step(k)` of the bundle, and of all bundles in it, waits for `k` cycles of a clock that sets `e`, if it
does not raise (C75 says when it does). -/
def Steps (e : Nat) (b : Bundle.Bundle) : Prop :=
  ∀ path n k evs, node b path = some n → n.step k = some evs → evs = List.replicate k e

/-! ### Lemmas -/

theorem kids_clocked_child {e : Nat} : ∀ {ks : Bundle.Kids} {i : Nat} {c : Bundle.Bundle}, ks.Clocked e →
    WriteMode.child ks i = some c → c.Clocked e
  | .nil, _, _, _, h => by cases h
  | .cons _ _ _, 0, _, hc, h => by cases h; exact hc.1
  | .cons _ _ _, _ + 1, _, hc, h => kids_clocked_child hc.2 h

theorem clocked_steps {e : Nat} {b : Bundle.Bundle} (h : b.Clocked e) : Steps e b := by
  intro path
  induction path generalizing b with
  | nil =>
    intro n k evs hn hs
    cases hn
    unfold Bundle.Bundle.step at hs
    rcases h.clock with hc | hc <;> rw [hc] at hs
    · simp only at hs
      split at hs
      · rename_i hk
        cases hs
        rw [hk]
        rfl
      · cases hs
    · exact (Option.some.inj hs).symm
  | cons i path ih =>
    intro n k evs hn hs
    rw [node] at hn
    cases hc : WriteMode.child b.kids i with
    | none => rw [hc] at hn; cases hn
    | some c =>
      rw [hc] at hn
      have hcl : b.kids.Clocked e := by
        cases b
        exact h.2
      exact ih (kids_clocked_child hcl hc) n k evs hn hs

theorem dutSignals_events {sigs : List DutSig} {e : Nat} (h : ∀ d ∈ sigs, d.event = e) :
    ∀ s ∈ Bundle.dutSignals sigs, s.event = e := by
  intro s hs
  obtain ⟨d, hd, rfl⟩ := List.mem_map.1 hs
  exact h d hd

theorem bindOne_clocked {sigs : List DutSig} {e : Nat} {access : Bool} {x y : Bundle.Bundle × Bool}
    (hs : ∀ d ∈ sigs, d.event = e) (hx : x.1.Clocked e) (h : bindOne sigs access x = some y) :
    y.1.Clocked e := by
  unfold bindOne at h
  split at h
  · unfold Bundle.Bundle.rebind at h
    cases hu : x.1.unbindAll with
    | none => rw [hu] at h; cases h
    | some u =>
      rw [hu] at h
      cases h
      exact Bundle.bindList_clocked access e u.1 _ (dutSignals_events hs)
        (Bundle.unbindAll_clocked e x.1 u hu hx)
  · cases h
    exact Bundle.bindList_clocked access e x.1 _ (dutSignals_events hs) hx

theorem coherent_act {v : Version} {w : World} (h : Coherent w) (a : Act) : Coherent (act v w a) := by
  cases a with
  | make b => exact ⟨h.step, h.pins, h.next⟩
  | bind i access =>
    unfold act
    dsimp only
    split
    · exact ⟨h.step, h.pins, h.next⟩
    · exact h
  | run d =>
    unfold act run
    dsimp only
    split
    · exact h
    · split
      · exact h
      · split
        · exact h
        · refine ⟨rfl, ?_, Nat.lt_succ_self _⟩
          intro x hx
          obtain ⟨y, _, rfl⟩ := List.mem_map.1 hx
          rfl

theorem coherent_script {v : Version} {w : World} (h : Coherent w) (as : List Act) :
    Coherent (script v w as) := by
  induction as generalizing w with
  | nil => exact h
  | cons a as ih => exact ih (coherent_act h a)

/-- Without a new event, a bundle whose clock events are all that of the DUT stays so. -/
theorem keep_script {v : Version} {i : Nat} (as : List Act) (w : World) (hm : Made as)
    (hr : v.fresh = true ∨ Act.run true ∉ as) (h : Coherent w)
    (hi : ∀ x, w.bundles[i]? = some x → x.1.Clocked w.event) :
    (script v w as).event = w.event ∧
      ∀ x, (script v w as).bundles[i]? = some x → x.1.Clocked w.event := by
  induction as generalizing w with
  | nil => exact ⟨rfl, hi⟩
  | cons a as ih =>
    have hkey : (act v w a).event = w.event ∧
        ∀ x, (act v w a).bundles[i]? = some x → x.1.Clocked w.event := by
      cases a with
      | make b =>
        refine ⟨rfl, ?_⟩
        intro x hx
        change (w.bundles ++ [(b, false)])[i]? = some x at hx
        rw [List.getElem?_append] at hx
        split at hx
        · exact hi x hx
        · obtain ⟨j, hj⟩ : ∃ j, j = i - w.bundles.length := ⟨_, rfl⟩
          rw [← hj] at hx
          cases j with
          | zero =>
            cases hx
            exact (hm b List.mem_cons_self).clocked _
          | succ j => cases hx
      | bind j access =>
        unfold act
        dsimp only
        split
        · rename_i y hy
          refine ⟨rfl, ?_⟩
          intro x hx
          change (w.bundles.set j y)[i]? = some x at hx
          rw [List.getElem?_set] at hx
          split at hx
          · rename_i hji
            subst hji
            split at hx
            · cases hx
              cases hz : w.bundles[j]? with
              | none => rw [hz] at hy; cases hy
              | some z =>
                rw [hz] at hy
                exact bindOne_clocked h.pins (hi z hz) hy
            · cases hx
          · exact hi x hx
        · exact ⟨rfl, hi⟩
      | run d =>
        unfold act run
        dsimp only
        split
        · exact ⟨rfl, hi⟩
        · split
          · exact ⟨rfl, hi⟩
          · rename_i hf hd
            rcases hr with hr | hr
            · exact absurd hr hf
            · cases d with
              | true => exact absurd List.mem_cons_self hr
              | false => exact absurd rfl hd
    have h2 := ih (act v w a) (fun b hb => hm b (List.mem_cons_of_mem _ hb))
      (hr.imp id fun hn hb => hn (List.mem_cons_of_mem _ hb)) (coherent_act h a)
      (by rw [hkey.1]; exact hkey.2)
    rw [hkey.1] at h2
    exact h2

/-- A bundle that is never bound has no clock event. -/
theorem unbound_script {v : Version} {i : Nat} (as : List Act) (w : World) (hm : Made as)
    (hb : ∀ access, Act.bind i access ∉ as)
    (hi : ∀ x, w.bundles[i]? = some x → x.1.Unclocked) :
    ∀ x, (script v w as).bundles[i]? = some x → x.1.Unclocked := by
  induction as generalizing w with
  | nil => exact hi
  | cons a as ih =>
    refine ih (act v w a) (fun b hb => hm b (List.mem_cons_of_mem _ hb))
      (fun access h => hb access (List.mem_cons_of_mem _ h)) ?_
    cases a with
    | make b =>
      intro x hx
      change (w.bundles ++ [(b, false)])[i]? = some x at hx
      rw [List.getElem?_append] at hx
      split at hx
      · exact hi x hx
      · obtain ⟨j, hj⟩ : ∃ j, j = i - w.bundles.length := ⟨_, rfl⟩
        rw [← hj] at hx
        cases j with
        | zero =>
          cases hx
          exact hm b List.mem_cons_self
        | succ j => cases hx
    | bind j access =>
      unfold act
      dsimp only
      split
      · rename_i y hy
        intro x hx
        change (w.bundles.set j y)[i]? = some x at hx
        rw [List.getElem?_set] at hx
        split at hx
        · rename_i hji
          subst hji
          exact absurd List.mem_cons_self (hb access)
        · exact hi x hx
      · exact hi
    | run d =>
      unfold act run
      dsimp only
      split
      · exact hi
      · split
        · exact hi
        · split
          · exact hi
          · exact hi

mutual
/-- Every bundle of the tree has the clock event `e`. -/
def Ticks (e : Nat) : Bundle.Bundle → Prop
  | .mk _ _ c ks => c = some e ∧ KidsTick e ks
def KidsTick (e : Nat) : Bundle.Kids → Prop
  | .nil => True
  | .cons _ b ks => Ticks e b ∧ KidsTick e ks
end

theorem Ticks.clock {e : Nat} {b : Bundle.Bundle} (h : Ticks e b) : b.clock = some e := by
  cases b
  exact h.1

theorem connect_ticks (r : Bundle.Rule) (e : Nat) (sigs : List Bundle.Sig) (a : Bundle.Acc)
    (h : a.clock = some e) : (sigs.foldl (Bundle.connectOne r) a).clock = some e := by
  induction sigs generalizing a with
  | nil => exact h
  | cons s ss ih =>
    rw [List.foldl_cons]
    apply ih
    unfold Bundle.connectOne
    split
    · exact h
    · split
      · simp [h]
      · exact h

mutual
theorem bindList_ticks (access : Bool) (e : Nat) : ∀ (b : Bundle.Bundle) (sigs : List Bundle.Sig),
    Ticks e b → Ticks e (b.bindList access sigs).1
  | .mk r lv c ks, sigs, h => by
    have hc := connect_ticks r e sigs { lvl := lv, clock := c } h.1
    have hk := kidsBind_ticks access e ks (Bundle.connect r lv c sigs).matching
      (Bundle.connect r lv c sigs).clock h.2 hc
    rw [Bundle.Bundle.bindList]
    exact ⟨hk.2, hk.1⟩
theorem kidsBind_ticks (access : Bool) (e : Nat) : ∀ (ks : Bundle.Kids) (sigs : List Bundle.Sig)
    (c : Option Nat), KidsTick e ks → c = some e →
    KidsTick e (ks.bindList access sigs c).1 ∧ (ks.bindList access sigs c).2.2.2 = some e
  | .nil, sigs, c, h, hc => by rw [Bundle.Kids.bindList]; exact ⟨trivial, hc⟩
  | .cons l b ks, sigs, c, h, hc => by
    have h1 := bindList_ticks access e b sigs h.1
    have hp : Bundle.parentClock l (b.bindList access sigs).1.clock c = some e := by
      unfold Bundle.parentClock
      split
      · rename_i e' he
        rw [h1.clock] at he
        exact he.symm
      · exact hc
    have h2 := kidsBind_ticks access e ks (b.bindList access sigs).2.1 _ h.2 hp
    rw [Bundle.Kids.bindList]
    exact ⟨⟨h1, h2.1⟩, h2.2⟩
end

mutual
theorem unbindAll_ticks (e : Nat) : ∀ (b : Bundle.Bundle) (u : Bundle.Bundle × List Nat),
    b.unbindAll = some u → Ticks e b → Ticks e u.1
  | .mk r lv c ks, u, h, hc => by
    rw [Bundle.Bundle.unbindAll] at h
    cases hs : Bundle.unbindCells lv.signals with
    | none => rw [hs] at h; cases h
    | some s =>
      rw [hs, Option.bind_some] at h
      cases hk : ks.unbindAll with
      | none => rw [hk] at h; cases h
      | some k =>
        rw [hk] at h
        have h := Option.some.inj h
        subst h
        exact ⟨hc.1, kidsUnbind_ticks e ks k hk hc.2⟩
theorem kidsUnbind_ticks (e : Nat) : ∀ (ks : Bundle.Kids) (u : Bundle.Kids × List Nat),
    ks.unbindAll = some u → KidsTick e ks → KidsTick e u.1
  | .nil, u, h, _ => by
    rw [Bundle.Kids.unbindAll] at h
    cases h
    trivial
  | .cons (.sub n) b ks, u, h, hc => by
    rw [Bundle.Kids.unbindAll] at h
    cases hb : b.unbindAll with
    | none => rw [hb] at h; cases h
    | some rb =>
      rw [hb, Option.bind_some] at h
      cases hk : ks.unbindAll with
      | none => rw [hk] at h; cases h
      | some rk =>
        rw [hk] at h
        have h := Option.some.inj h
        subst h
        exact ⟨unbindAll_ticks e b rb hb hc.1, kidsUnbind_ticks e ks rk hk hc.2⟩
  | .cons (.elem n i) b ks, u, h, hc => by
    rw [Bundle.Kids.unbindAll] at h
    cases hk : ks.unbindAll with
    | none => rw [hk] at h; cases h
    | some rk =>
      rw [hk] at h
      have h := Option.some.inj h
      subst h
      exact ⟨hc.1, kidsUnbind_ticks e ks rk hk hc.2⟩
end

theorem bindOne_ticks {sigs : List DutSig} {e : Nat} {access : Bool} {x y : Bundle.Bundle × Bool}
    (hx : Ticks e x.1) (h : bindOne sigs access x = some y) : Ticks e y.1 := by
  unfold bindOne at h
  split at h
  · unfold Bundle.Bundle.rebind at h
    cases hu : x.1.unbindAll with
    | none => rw [hu] at h; cases h
    | some u =>
      rw [hu] at h
      cases h
      exact bindList_ticks access e u.1 _ (unbindAll_ticks e x.1 u hu hx)
  · cases h
    exact bindList_ticks access e x.1 _ hx

/-- The clock events of a bundle stay, and the event of the DUT only grows. -/
theorem stale_script {v : Version} {i e : Nat} (as : List Act) (w : World) (h : Coherent w)
    (he : e < w.event) (hi : ∃ x, w.bundles[i]? = some x ∧ Ticks e x.1) :
    e < (script v w as).event ∧ ∃ x, (script v w as).bundles[i]? = some x ∧ Ticks e x.1 := by
  induction as generalizing w with
  | nil => exact ⟨he, hi⟩
  | cons a as ih =>
    have hkey : e < (act v w a).event ∧ ∃ x, (act v w a).bundles[i]? = some x ∧ Ticks e x.1 := by
      obtain ⟨x, hx, ht⟩ := hi
      cases a with
      | make b =>
        refine ⟨he, x, ?_, ht⟩
        show (w.bundles ++ [(b, false)])[i]? = some x
        rw [List.getElem?_append_left (List.getElem?_eq_some_iff.1 hx).1]
        exact hx
      | bind j access =>
        unfold act
        dsimp only
        split
        · rename_i y hy
          refine ⟨he, ?_⟩
          show ∃ x, (w.bundles.set j y)[i]? = some x ∧ Ticks e x.1
          by_cases hji : j = i
          · subst hji
            rw [hx] at hy
            refine ⟨y, ?_, bindOne_ticks ht hy⟩
            rw [List.getElem?_set_self (List.getElem?_eq_some_iff.1 hx).1]
          · exact ⟨x, by rw [List.getElem?_set_ne hji]; exact hx, ht⟩
        · exact ⟨he, x, hx, ht⟩
      | run d =>
        unfold act run
        dsimp only
        split
        · exact ⟨he, x, hx, ht⟩
        · split
          · exact ⟨he, x, hx, ht⟩
          · split
            · exact ⟨he, x, hx, ht⟩
            · exact ⟨Nat.lt_trans he h.next, x, hx, ht⟩
    exact ih (act v w a) (coherent_act h a) hkey.1 hkey.2

/-! ### C127 -/

/-- **C127.** On every version of Python and after every script, `dut.event`, the event of the DUT's clock
and the events of all pins are one event: waiting for a pin or for the DUT is waiting for the event that the
clock sets. -/
theorem C127_pins (v : Version) (w : World) (h : Coherent w) (as : List Act) :
    Coherent (script v w as) := coherent_script h as

/-- **C127, part.** From Python 3.10.1 on, `step(k)` of every bundle waits for `k` cycles, in every run and
however often bundles were bound and runs were started before. -/
theorem C127_new_partial (v : Version) (hv : v.fresh = true) (w : World) (h : Coherent w)
    (h0 : w.bundles = []) (as : List Act) (hm : Made as) (i : Nat) (x : Bundle.Bundle × Bool)
    (hx : (script v w as).bundles[i]? = some x) : Steps (script v w as).event x.1 := by
  have h1 := keep_script (v := v) (i := i) as w hm (.inl hv) h (by rw [h0]; intro x hx; cases hx)
  rw [h1.1]
  exact clocked_steps (h1.2 x hx)

/-- **C127, part.** On every version, also before Python 3.10, this holds for the bundles that are not bound
before the run.  Missing: bundles bound before it, see `C127_stale_violated`. -/
theorem C127_old_partial (v : Version) (w : World) (h : Coherent w)
    (h0 : w.bundles = []) (pre post : List Act) (hm : Made (pre ++ post)) (hr : Act.run true ∉ post)
    (i : Nat) (hb : ∀ access, Act.bind i access ∉ pre) (x : Bundle.Bundle × Bool)
    (hx : (script v w (pre ++ .run true :: post)).bundles[i]? = some x) :
    Steps (script v w (pre ++ .run true :: post)).event x.1 := by
  have hp := unbound_script (v := v) (i := i) pre w
    (fun b hb => hm b (List.mem_append.2 (.inl hb))) hb (by rw [h0]; intro x hx; cases hx)
  have hc : Coherent (act v (script v w pre) (.run true)) := coherent_act (coherent_script h pre) _
  have hbd : (act v (script v w pre) (.run true)).bundles = (script v w pre).bundles := by
    unfold act run
    dsimp only
    split
    · rfl
    · split
      · rfl
      · split <;> rfl
  have h1 := keep_script (v := v) (i := i) post (act v (script v w pre) (.run true))
    (fun b hb => hm b (List.mem_append.2 (.inr hb))) (.inr hr) hc
    (by
      rw [hbd]
      intro x hx
      exact (hp x hx).clocked _)
  have he : script v w (pre ++ .run true :: post) = script v (act v (script v w pre) (.run true)) post := by
    unfold script
    rw [List.foldl_append]
    rfl
  rw [he] at hx ⊢
  rw [h1.1]
  exact clocked_steps (h1.2 x hx)

/-- **C127 (violated).** Before Python 3.10, a bundle that was bound before the run waits for an event that
the clock never sets: `step` does not return, and binding the bundle again, in this run or later, does not
help.  (Stated for a bundle with the clock event of the DUT in all its parts.) -/
theorem C127_stale_violated (v : Version) (hv : v.noLoop = false) (w : World) (h : Coherent w)
    (i : Nat) (x : Bundle.Bundle × Bool) (hx : w.bundles[i]? = some x) (ht : Ticks w.event x.1)
    (as : List Act) :
    ∃ y e, (script v w (.run true :: as)).bundles[i]? = some y ∧
      (∀ k, y.1.step k = some (List.replicate k e)) ∧ e ≠ (script v w (.run true :: as)).event := by
  have hf : v.fresh = false := by
    unfold Version.noLoop at hv
    unfold Version.fresh
    simp only [Bool.or_eq_false_iff, Bool.and_eq_false_iff, decide_eq_false_iff_not] at hv ⊢
    refine ⟨hv.1, ?_⟩
    rcases hv.2 with h | h
    · exact .inl h
    · exact .inr ⟨by omega, .inl (by omega)⟩
  have he : act v w (.run true) = setClockEvent w := by
    unfold act run
    rw [hf, hv]
    rfl
  have h1 := stale_script (v := v) (i := i) (e := w.event) as (act v w (.run true)) (coherent_act h _)
    (by rw [he]; exact h.next) (by rw [he]; exact ⟨x, hx, ht⟩)
  obtain ⟨hlt, y, hy, hty⟩ := h1
  refine ⟨y, w.event, hy, ?_, Nat.ne_of_lt hlt⟩
  intro k
  unfold Bundle.Bundle.step
  rw [hty.clock]

/-- **C127 (violated).** On Python 3.10.0 `run` always raises; before 3.10 it raises without the argument
`dut`. -/
theorem C127_raises_violated (w : World) :
    (∀ d, run ⟨3, 10, 0⟩ d w = none) ∧
    ∀ v : Version, v.noLoop = false → run v false w = none ∧ (run v true w).isSome := by
  refine ⟨fun d => by cases d <;> rfl, ?_⟩
  intro v hv
  have hf : v.fresh = false := by
    unfold Version.noLoop at hv
    unfold Version.fresh
    simp only [Bool.or_eq_false_iff, Bool.and_eq_false_iff, decide_eq_false_iff_not] at hv ⊢
    refine ⟨hv.1, ?_⟩
    rcases hv.2 with h | h
    · exact .inl h
    · exact .inr ⟨by omega, .inl (by omega)⟩
  unfold run
  rw [hf, hv]
  exact ⟨rfl, rfl⟩

/-! ### Non-vacuity -/

/-- A bundle with the signals `a` and `b`, the latter in a sub-bundle. -/
def demo : Bundle.Bundle :=
  .mk (.pre "io_".toList) { signals := [⟨"a".toList, true, .unconnected⟩], lists := [] } none
    (.cons (.sub "c".toList)
      (.mk (.pre "c_".toList) { signals := [⟨"b".toList, true, .unconnected⟩], lists := [] } none .nil) .nil)

def dut : World :=
  ⟨1, 0, 0, [⟨"io_a".toList, 7, 0⟩, ⟨"io_c_b".toList, 8, 0⟩], []⟩

theorem demo_unclocked : demo.Unclocked := ⟨rfl, ⟨rfl, trivial⟩, trivial⟩

theorem dut_coherent : Coherent dut := ⟨rfl, by decide, by decide⟩

/-- What the root of the `i`-th bundle waits for in `step(1)`, and the event of the clock. -/
def view (w : World) (i : Nat) : Option (Option (List Nat)) × Nat :=
  ((w.bundles[i]?).map fun x => x.1.step 1, w.event)

/-- On a new Python, a bundle bound before the run steps with the clock.  On an old one it waits for event 0,
while the clock sets event 1; a bundle made in the run waits for event 1. -/
example :
    view (script ⟨3, 12, 0⟩ dut [.make demo, .bind 0 true, .run true, .bind 0 true]) 0 = (some (some [0]), 0) ∧
    view (script ⟨3, 9, 2⟩ dut [.make demo, .bind 0 true, .run true, .bind 0 true]) 0 = (some (some [0]), 1) ∧
    view (script ⟨3, 9, 2⟩ dut [.make demo, .run true, .bind 0 true]) 0 = (some (some [1]), 1) ∧
    Made [.make demo, .run true, .bind 0 true] := by
  refine ⟨by decide +kernel, by decide +kernel, by decide +kernel, ?_⟩
  intro b hb
  simp only [List.mem_cons, Act.make.injEq, reduceCtorEq, List.not_mem_nil, or_false] at hb
  rw [hb]
  exact demo_unclocked

/-- The hypotheses of `C127_stale_violated` hold after `bind`. -/
example : ∃ x, (script ⟨3, 9, 2⟩ dut [.make demo, .bind 0 true]).bundles[0]? = some x ∧
    Ticks (script ⟨3, 9, 2⟩ dut [.make demo, .bind 0 true]).event x.1 :=
  ⟨_, rfl, by decide +kernel, ⟨by decide +kernel, trivial⟩, trivial⟩

end Toffee.Props.OldRun
