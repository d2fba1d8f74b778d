import Verif.Lemmas.BundleSame

/-! Round trips between `assign` and `as_dict` (`toffee/bundle.py`): C39, C40. -/

namespace Toffee.Bundle

/-- The pin is in some slot of the tree. -/
def Bundle.Has (b : Bundle) (q : Nat) : Prop := ∃ is p, b.slotAt is p = some (.pin q)

/-- The effect on the pins of the writes of an assignment. -/
theorem run_given (dev : Dev) (flat : Bool) {b : Bundle} (hb : b.Sound) (v : Val)
    (he : (assign dev flat [] b v).err = none) (pins : Nat → Int) {q : Nat} {x : Int}
    (h : ∀ is p st, b.slotAt is p = some (.pin q) → b.steps flat is p = some st →
      given (!dev.out q) st v = [.num x]) (hq : b.Has q) :
    dev.run pins (assign dev flat [] b v).writes q = dev.wr q (pins q) x := by
  obtain ⟨is, p, hs⟩ := hq
  obtain ⟨k, ss, rest, hst⟩ := steps_key flat is p (b := b) (by rw [hs]; rfl)
  have h1 := assign_hit dev flat q v [] b is p _ hb.attr hb.distinct (hb.only hs) hst he
  rw [h is p _ hs hst] at h1
  rw [run_eq]
  cases hw : onPin q (assign dev flat [] b v).writes with
  | nil => rw [hw] at h1; cases h1
  | cons y ys =>
    rw [hw] at h1
    cases ys with
    | nil =>
      cases h1
      rfl
    | cons => cases h1

theorem run_outside (dev : Dev) (flat : Bool) {b : Bundle} (hb : b.Sound) (v : Val)
    (pins : Nat → Int) {q : Nat} (hq : ¬ b.Has q) :
    dev.run pins (assign dev flat [] b v).writes q = pins q := by
  have h := assign_free dev flat q v [] b hb.attr hb.distinct fun is p hs => hq ⟨is, p, hs⟩
  rw [run_eq, h]
  rfl

/-- **C39.** Let `d` be the multilevel dictionary that describes the values `want` of the bundle, and
`m` any dictionary equal to it: the keys may come in another order at every level.  Assigning `m` to
the bundle, whatever the pins held before, raises nothing and reports nothing; if the pins can hold
these values, `as_dict()` then returns `d`, and no other pin has changed. -/
theorem C39_assign_as_dict (dev : Dev) (b : Bundle) (hb : b.Sound) (want pins : Nat → Int)
    (d m : Items) (hd : b.asDict want = some d) (hm : Val.Same (.dict d) (.dict m))
    (hw : ∀ q, b.Has q → dev.wr q (pins q) (want q) = want q) :
    (assign dev false [] b (.dict m)).err = none ∧
    (assign dev false [] b (.dict m)).reports = [] ∧
    b.asDict (dev.run pins (assign dev false [] b (.dict m)).writes) = some d ∧
    (∀ q, ¬ b.Has q → dev.run pins (assign dev false [] b (.dict m)).writes q = pins q) := by
  obtain ⟨h1, h2⟩ := assign_same dev want b hb.attr [] d m hd hm
  refine ⟨h1, h2, ?_, fun q hq => run_outside dev false hb _ pins hq⟩
  rw [← hd]
  refine asDict_congr b hb.distinct fun is p q hq => ?_
  rw [run_given dev false hb _ h1 pins (fun is p st hs hst =>
    given_same _ want hb.attr hs hst hd hm) ⟨is, p, hq⟩]
  exact hw q ⟨is, p, hq⟩

/-- **C39.** `assign(as_dict())` changes nothing, and neither does assigning a dictionary equal to
it. -/
theorem C39_as_dict_assign (dev : Dev) (b : Bundle) (hb : b.Sound) (pins : Nat → Int)
    (d : Items) (hd : b.asDict pins = some d)
    (hw : ∀ q, b.Has q → dev.wr q (pins q) (pins q) = pins q) :
    Val.Same (.dict d) (.dict d) ∧ ∀ m, Val.Same (.dict d) (.dict m) →
      dev.run pins (assign dev false [] b (.dict m)).writes = pins := by
  refine ⟨asDict_same pins b hb.attr d hd, fun m hm => ?_⟩
  obtain ⟨h1, h2⟩ := assign_same dev pins b hb.attr [] d m hd hm
  funext q
  by_cases hq : b.Has q
  · rw [run_given dev false hb _ h1 pins (fun is p st hs hst =>
      given_same _ pins hb.attr hs hst hd hm) hq]
    exact hw q hq
  · exact run_outside dev false hb _ pins hq

/-- **C39.** The dictionary exists: after `bind` with access to unconnected signals, `as_dict` raises
in neither form. -/
theorem C39_readable (b : Bundle) (dut : List DutSig) (hb : b.Distinct)
    (hd : (dut.map DutSig.name).Nodup) (pins : Nat → Int) :
    ((b.bind true dut).1.asDict pins).isSome ∧ ((b.bind true dut).1.asFlat pins).isSome := by
  refine asDict_isSome pins _ ((bindList_self true b (dutSignals dut)).symm.distinct hb) ?_
  intro is p s hs
  have hc := C34_bind_connects true b dut hb hd is p
  by_cases h : ∃ d ∈ dut, Denotes b d.name is p
  · obtain ⟨x, _, _, this⟩ := hc.1 h
    rw [this] at hs
    cases hs
    rfl
  · have := hc.2 h
    rw [this] at hs
    cases hb' : b.slotAt is p with
    | none => rw [hb'] at hs; cases hs
    | some s' =>
      rw [hb'] at hs
      cases s' <;> cases hs <;> rfl

/-- **C40**, for bundles without bundle lists: let `l` be the flat dictionary that describes the
values `want`, and `m` any dictionary equal to it, with its keys in any order; `l` itself is one.
Assigning `m` raises nothing and reports nothing; if the pins can hold these values,
`as_dict(multilevel=False)` then returns `l`, and no other pin has changed.  Missing: bundles with
bundle lists, for which it is false (`C40_round_trip_violated`). -/
theorem C40_round_trip_partial (dev : Dev) (b : Bundle) (hb : b.Sound) (hll : b.Listless)
    (want pins : Nat → Int) (l : List (Name × Val)) (hl : b.asFlat want = some l)
    (hw : ∀ q, b.Has q → dev.wr q (pins q) (want q) = want q) :
    Val.Same (.dict (Items.ofList l)) (.dict (Items.ofList l)) ∧
    ∀ m, Val.Same (.dict (Items.ofList l)) (.dict m) →
      let o := assign dev true [] b (.dict m)
      o.err = none ∧ o.reports = [] ∧ b.asFlat (dev.run pins o.writes) = some l ∧
      (∀ q, ¬ b.Has q → dev.run pins o.writes q = pins q) := by
  refine ⟨asFlat_same want hb.attr hll hl, fun m hm => ?_⟩
  obtain ⟨h1, h2⟩ := assign_same_flat dev want b hb.attr hll [] hl hm
  refine ⟨h1, h2, ?_, fun q hq => run_outside dev true hb _ pins hq⟩
  rw [← hl]
  refine asFlat_congr b hb.distinct fun is p q hq => ?_
  rw [run_given dev true hb _ h1 pins (fun is p st hs hst =>
    given_same_flat _ want hb hll hs hst hl hm) ⟨is, p, hq⟩]
  exact hw q ⟨is, p, hq⟩

/-- The number in the last entry of a flat dictionary. -/
def lastNum (r : Option (List (Name × Val))) : Option Int :=
  (r.bind List.getLast?).bind fun e =>
    match e.2 with
    | .num x => some x
    | _ => none

/-- **C40 is false** for bundles with bundle lists: the keys `v[0].d` of the flat `as_dict` are
unknown to a flat `assign`, which reports them and leaves the pins. -/
theorem C40_round_trip_violated :
    ∃ (dev : Dev) (b : Bundle) (want pins : Nat → Int) (l : List (Name × Val)), b.Sound ∧
      (∀ q old x, dev.wr q old x = x) ∧ b.asFlat want = some l ∧
      (assign dev true [] b (.dict (Items.ofList l))).err = none ∧
      (assign dev true [] b (.dict (Items.ofList l))).reports = ["v[0].d".toList] ∧
      b.asFlat (dev.run pins (assign dev true [] b (.dict (Items.ofList l))).writes) ≠ some l := by
  refine ⟨demoDev, demoBound, fun _ => 1, fun _ => 0, (demoBound.asFlat fun _ => 1).getD [],
    demo_sound, fun _ _ _ => rfl, by rfl, by decide +kernel, by decide +kernel, fun h => ?_⟩
  have h := congrArg lastNum h
  revert h
  decide +kernel

/-! ### Examples -/

/-- The demo tree, with a sub-bundle, a signal list and a bundle list, meets the hypotheses of C39. -/
example : demoBound.Sound ∧ (∃ d, demoBound.asDict (fun q => q) = some d) ∧
    demoBound.Has 11 ∧ demoBound.Has 12 ∧ demoBound.Has 13 ∧
    ∀ q, demoBound.Has q → demoDev.wr q 0 q = q :=
  ⟨demo_sound, ⟨_, rfl⟩, ⟨[], .sig "a".toList, by decide +kernel⟩,
    ⟨[0], .sig "w".toList, by decide +kernel⟩, ⟨[1], .sig "d".toList, by decide +kernel⟩,
    fun _ _ => rfl⟩

/-- A tree without bundle lists. -/
def demoFlat : Bundle :=
  .mk (.pre "io_".toList)
    { signals := [⟨"a".toList, true, .unconnected⟩]
      lists := [("x".toList, [("x_0".toList, .unconnected), ("x_1".toList, .unconnected)])] }
    none
    (.cons (.sub "c".toList)
      (.mk (.dict [("u".toList, "c_p".toList), ("w".toList, "c_q".toList)])
        { signals := [⟨"u".toList, false, .absent⟩, ⟨"w".toList, false, .absent⟩], lists := [] }
        none .nil)
      .nil)

def demoFlatBound : Bundle := (demoFlat.bind true demoDut).1

/-- It meets the hypotheses of C40, with a pin in a sub-bundle and one in a signal list. -/
example : demoFlatBound.Sound ∧ demoFlatBound.Listless ∧
    (∃ l, demoFlatBound.asFlat (fun q => q) = some l) ∧ demoFlatBound.Has 12 ∧ demoFlatBound.Has 14 :=
  ⟨bind_sound true demoFlat demoDut ⟨by decide, by decide, by decide, trivial,
      ⟨by decide, by decide, by decide, trivial, trivial⟩, trivial⟩
      ⟨by decide, ⟨by decide, trivial⟩, trivial⟩
      ⟨level_fresh _ (by decide), ⟨level_fresh _ (by decide), trivial⟩, trivial⟩
      (by decide) (by decide),
    ⟨trivial, trivial⟩, ⟨_, rfl⟩, ⟨[0], .sig "w".toList, by decide +kernel⟩,
    ⟨[], .elem 0 1, by decide +kernel⟩⟩

/-- The dictionary of this tree with the keys in another order on both levels: it is equal to
`as_dict()`, and assigning it sets the pins. -/
def demoOrder : Items :=
  .cons "c".toList (.dict (.cons "w".toList (.num 12) (.cons "u".toList .none .nil)))
    (.cons "x".toList (.seq (.cons .none (.cons (.num 14) .nil)))
      (.cons "a".toList (.num 11) .nil))

example : ∃ d, demoFlatBound.asDict (fun q => q) = some d ∧ Val.Same (.dict d) (.dict demoOrder) ∧
    d.toList.map Prod.fst = ["a".toList, "x".toList, "c".toList] ∧
    demoOrder.toList.map Prod.fst = ["c".toList, "x".toList, "a".toList] ∧
    demoDev.run (fun _ => 0) (assign demoDev false [] demoFlatBound (.dict demoOrder)).writes 12 = 12 :=
  ⟨_, rfl,
    .dict (by decide) rfl
      (.cons (.tail _ (.tail _ (.head _))) (.num _)
        (.cons (.tail _ (.head _)) (.seq (.cons .none (.cons (.num _) .nil)))
          (.cons (.head _)
            (.dict (by decide) rfl (.cons (.tail _ (.head _)) .none
              (.cons (.head _) (.num _) (.nil _))))
            (.nil _)))),
    by decide +kernel, by decide +kernel, by decide +kernel⟩

end Toffee.Bundle
