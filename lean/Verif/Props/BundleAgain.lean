import Verif.Lemmas.BundleAgain

/-! Binding an already bound bundle (C47). -/

namespace Toffee.Bundle

/-! ### The clock -/

mutual
/-- Every clock event in the tree is `e`. -/
def Bundle.Clocked (e : Nat) : Bundle → Prop
  | .mk _ _ c ks => (c = none ∨ c = some e) ∧ Kids.Clocked e ks
def Kids.Clocked (e : Nat) : Kids → Prop
  | .nil => True
  | .cons _ b ks => Bundle.Clocked e b ∧ Kids.Clocked e ks
end

theorem connect_clock (r : Rule) (e : Nat) (sigs : List Sig) (a : Acc)
    (hs : ∀ s ∈ sigs, s.event = e) (h : a.clock = none ∨ a.clock = some e) :
    (sigs.foldl (connectOne r) a).clock = none ∨ (sigs.foldl (connectOne r) a).clock = some e := by
  induction sigs generalizing a with
  | nil => exact h
  | cons s ss ih =>
    rw [List.foldl_cons]
    apply ih _ fun t ht => hs t (List.mem_cons_of_mem _ ht)
    unfold connectOne
    split
    · exact h
    · split
      · rcases h with h | h
        · right
          simp [h, hs s List.mem_cons_self]
        · right
          simp [h]
      · exact h

theorem Bundle.Clocked.clock {e : Nat} {b : Bundle} (h : b.Clocked e) :
    b.clock = none ∨ b.clock = some e := by
  cases b
  exact h.1

theorem matching_events (r : Rule) (lv : Level) (c : Option Nat) (e : Nat) (sigs : List Sig)
    (hs : ∀ s ∈ sigs, s.event = e) : ∀ s ∈ (connect r lv c sigs).matching, s.event = e := by
  have h1 := (connect_spec r lv sigs { lvl := lv, clock := c } rfl).matching
  have h1 : (connect r lv c sigs).matching = [] ++ sigs.filterMap (pass r lv) := h1
  rw [h1, List.nil_append]
  intro s hs'
  obtain ⟨t, ht, hp⟩ := List.mem_filterMap.1 hs'
  obtain ⟨m, _, _, rfl⟩ := pass_name hp
  exact hs t ht

theorem revert_events (l last : List Sig) (e : Nat) (h : ∀ s ∈ l, s.event = e) :
    ∀ s ∈ revert l last, s.event = e := by
  unfold revert
  intro s hs
  obtain ⟨t, ht, rfl⟩ := List.mem_map.1 hs
  have : ∀ (last : List Sig) (t : Sig),
      (last.foldl (fun s l => if s.org = l.org then { s with name := l.name } else s) t).event =
        t.event := by
    intro last
    induction last with
    | nil => intro t; rfl
    | cons x xs ih =>
      intro t
      rw [List.foldl_cons, ih]
      split <;> rfl
  rw [this]
  exact h t ht

mutual
theorem rest_events (access : Bool) (e : Nat) : ∀ (b : Bundle) (sigs : List Sig),
    (∀ s ∈ sigs, s.event = e) → ∀ s ∈ (b.bindList access sigs).2.1, s.event = e
  | .mk r lv c ks, sigs, hs => by
    rw [Bundle.bindList]
    intro s hm
    rcases List.mem_append.1 hm with hm | hm
    · exact revert_events _ _ e (kidsRest_events access e ks _ _
        (matching_events r lv c e sigs hs)) s hm
    · have h1 := (connect_spec r lv sigs { lvl := lv, clock := c } rfl).remain
      have h1 : (connect r lv c sigs).remain = [] ++ _ := h1
      rw [h1, List.nil_append] at hm
      exact hs s (List.mem_filter.1 hm).1
theorem kidsRest_events (access : Bool) (e : Nat) : ∀ (ks : Kids) (sigs : List Sig)
    (c : Option Nat), (∀ s ∈ sigs, s.event = e) →
    ∀ s ∈ (ks.bindList access sigs c).2.1, s.event = e
  | .nil, sigs, c, hs => by rw [Kids.bindList]; exact hs
  | .cons l b ks, sigs, c, hs => by
    rw [Kids.bindList]
    exact kidsRest_events access e ks _ _ (rest_events access e b sigs hs)
end

mutual
theorem bindList_clocked (access : Bool) (e : Nat) : ∀ (b : Bundle) (sigs : List Sig),
    (∀ s ∈ sigs, s.event = e) → b.Clocked e → (b.bindList access sigs).1.Clocked e
  | .mk r lv c ks, sigs, hs, h => by
    have hc := connect_clock r e sigs { lvl := lv, clock := c } hs h.1
    have hk := kidsBind_clocked access e ks (connect r lv c sigs).matching
      (connect r lv c sigs).clock (matching_events r lv c e sigs hs) h.2 hc
    rw [Bundle.bindList]
    exact ⟨hk.2, hk.1⟩
theorem kidsBind_clocked (access : Bool) (e : Nat) : ∀ (ks : Kids) (sigs : List Sig)
    (c : Option Nat), (∀ s ∈ sigs, s.event = e) → ks.Clocked e → (c = none ∨ c = some e) →
    (ks.bindList access sigs c).1.Clocked e ∧
      ((ks.bindList access sigs c).2.2.2 = none ∨ (ks.bindList access sigs c).2.2.2 = some e)
  | .nil, sigs, c, hs, h, hc => by rw [Kids.bindList]; exact ⟨trivial, hc⟩
  | .cons l b ks, sigs, c, hs, h, hc => by
    have h1 := bindList_clocked access e b sigs hs h.1
    have hp : parentClock l (b.bindList access sigs).1.clock c = none ∨
        parentClock l (b.bindList access sigs).1.clock c = some e := by
      unfold parentClock
      split
      · rename_i e' he
        rcases h1.clock with h | h
        · rw [h] at he; cases he
        · rw [h] at he; exact .inr he.symm
      · exact hc
    have h2 := kidsBind_clocked access e ks _ _ (rest_events access e b sigs hs) h.2 hp
    rw [Kids.bindList]
    exact ⟨⟨h1, h2.1⟩, h2.2⟩
end

mutual
theorem unbindAll_clocked (e : Nat) : ∀ (b : Bundle) (u : Bundle × List Nat),
    b.unbindAll = some u → b.Clocked e → u.1.Clocked e
  | .mk r lv c ks, u, h, hc => by
    rw [Bundle.unbindAll] at h
    cases hs : unbindCells lv.signals with
    | none => rw [hs] at h; cases h
    | some s =>
      rw [hs, Option.bind_some] at h
      cases hk : ks.unbindAll with
      | none => rw [hk] at h; cases h
      | some k =>
        rw [hk] at h
        have h := Option.some.inj h
        subst h
        exact ⟨hc.1, kidsUnbind_clocked e ks k hk hc.2⟩
theorem kidsUnbind_clocked (e : Nat) : ∀ (ks : Kids) (u : Kids × List Nat),
    ks.unbindAll = some u → ks.Clocked e → u.1.Clocked e
  | .nil, u, h, _ => by
    rw [Kids.unbindAll] at h
    cases h
    trivial
  | .cons (.sub n) b ks, u, h, hc => by
    rw [Kids.unbindAll] at h
    cases hb : b.unbindAll with
    | none => rw [hb] at h; cases h
    | some rb =>
      rw [hb, Option.bind_some] at h
      cases hk : ks.unbindAll with
      | none => rw [hk] at h; cases h
      | some rk =>
        rw [hk] at h
        have h := Option.some.inj h
        subst h
        exact ⟨unbindAll_clocked e b rb hb hc.1, kidsUnbind_clocked e ks rk hk hc.2⟩
  | .cons (.elem n i) b ks, u, h, hc => by
    rw [Kids.unbindAll] at h
    cases hk : ks.unbindAll with
    | none => rw [hk] at h; cases h
    | some rk =>
      rw [hk] at h
      have h := Option.some.inj h
      subst h
      exact ⟨hc.1, kidsUnbind_clocked e ks rk hk hc.2⟩
end

mutual
/-- No clock event in the tree (a bundle as constructed). -/
def Bundle.Unclocked : Bundle → Prop
  | .mk _ _ c ks => c = none ∧ Kids.Unclocked ks
def Kids.Unclocked : Kids → Prop
  | .nil => True
  | .cons _ b ks => Bundle.Unclocked b ∧ Kids.Unclocked ks
end

mutual
theorem Bundle.Unclocked.clocked (e : Nat) : ∀ {b : Bundle}, b.Unclocked → b.Clocked e
  | .mk _ _ _ _, h => ⟨.inl h.1, Kids.Unclocked.clocked e h.2⟩
theorem Kids.Unclocked.clocked (e : Nat) : ∀ {ks : Kids}, ks.Unclocked → ks.Clocked e
  | .nil, _ => trivial
  | .cons _ _ _, h => ⟨Bundle.Unclocked.clocked e h.1, Kids.Unclocked.clocked e h.2⟩
end

theorem connect_clock_some (r : Rule) {lv : Level} (sigs : List Sig) (a a' : Acc) (ha : a.lvl.shape = lv.shape) (ha' : a'.lvl.shape = lv.shape)
    (hc : a.clock.isSome → a'.clock.isSome) :
    (sigs.foldl (connectOne r) a).clock.isSome → (sigs.foldl (connectOne r) a').clock.isSome := by
  induction sigs generalizing a a' with
  | nil => exact hc
  | cons s ss ih =>
    rw [List.foldl_cons, List.foldl_cons]
    apply ih
    · exact (connect_spec r lv [s] a ha).shape
    · exact (connect_spec r lv [s] a' ha').shape
    · rcases connectOne_cases r lv a s ha with ⟨hm, he⟩ | ⟨m, hm, hf, he⟩ | ⟨m, q, hm, hf, he⟩ <;>
        rcases connectOne_cases r lv a' s ha' with
          ⟨hm', he'⟩ | ⟨m', hm', hf', he'⟩ | ⟨m', q', hm', hf', he'⟩ <;>
        rw [he, he'] <;> rw [hm] at hm'
      · exact hc
      · cases hm'
      · cases hm'
      · cases hm'
      · exact hc
      · cases hm'; rw [hf] at hf'; cases hf'
      · cases hm'
      · cases hm'; rw [hf] at hf'; cases hf'
      · intro _
        simp only
        split
        · rfl
        · rename_i hne
          exact Option.isSome_iff_ne_none.2 hne

mutual
/-- Starting from a tree without clock events gives no more clocks than starting from any other. -/
theorem bindList_clock_some (access : Bool) : ∀ (b b' : Bundle) (sigs : List Sig), b.Same b' →
    b.Unclocked → (b.bindList access sigs).1.clock.isSome → (b'.bindList access sigs).1.clock.isSome
  | .mk r lv c ks, .mk r' lv' c' ks', sigs, h, hu => by
    obtain ⟨rfl, hl, hk⟩ := h
    have h1 := connect_clock_some r (lv := lv) sigs { lvl := lv, clock := c } { lvl := lv', clock := c' }
      rfl hl.symm (by intro h; simp [hu.1] at h)
    have h2 := kidsBind_clock_some access ks ks' (connect r lv c sigs).matching
      (connect r lv c sigs).clock (connect r lv' c' sigs).clock hk hu.2 h1
    rw [Bundle.bindList, Bundle.bindList]
    rw [(connect_same r hl c c' sigs).1] at h2 ⊢
    exact h2
theorem kidsBind_clock_some (access : Bool) : ∀ (ks ks' : Kids) (sigs : List Sig)
    (c c' : Option Nat), ks.Same ks' → ks.Unclocked → (c.isSome → c'.isSome) →
    (ks.bindList access sigs c).2.2.2.isSome → (ks'.bindList access sigs c').2.2.2.isSome
  | .nil, .nil, sigs, c, c', _, _, hc => by rw [Kids.bindList, Kids.bindList]; exact hc
  | .cons l b ks, .cons l' b' ks', sigs, c, c', h, hu, hc => by
    obtain ⟨rfl, hb, hk⟩ := h
    have h1 := bindList_clock_some access b b' sigs hb hu.1
    have h2 := kidsBind_clock_some access ks ks' (b.bindList access sigs).2.1
      (parentClock l (b.bindList access sigs).1.clock c)
      (parentClock l (b'.bindList access sigs).1.clock c') hk hu.2 (by
        unfold parentClock
        cases l with
        | elem n i => exact hc
        | sub n =>
          cases hx : (b.bindList access sigs).1.clock with
          | some e =>
            intro _
            obtain ⟨e', he'⟩ := Option.isSome_iff_exists.1 (h1 (by rw [hx]; rfl))
            rw [he']; rfl
          | none =>
            cases hy : (b'.bindList access sigs).1.clock with
            | none => exact hc
            | some e' => intro _; rfl)
    rw [Kids.bindList, Kids.bindList]
    rw [bindList_same access access b b' sigs hb] at h2 ⊢
    exact h2
  | .nil, .cons _ _ _, _, _, _, h, _, _ => h.elim
  | .cons _ _ _, .nil, _, _, _, h, _, _ => h.elim
end

/-! ### C47 -/

/-- **C47**, the slots, with the default `unconnected_signal_access=True`: binding again never
raises, connects the pins a fresh bind connects, and leaves every slot of the tree (signal lists and
bundle lists included) as a fresh bind does.  Missing: connection counts, clock event, and
`unconnected_signal_access=False`; see the other theorems and `C47_rebind_violated`. -/
theorem C47_slots_default_partial (b : Bundle) (dut₁ dut₂ : List DutSig) (hb : b.Distinct)
    (hd₁ : (dut₁.map DutSig.name).Nodup) :
    ∃ b' dec, (b.bind true dut₁).1.rebind true dut₂ = some (b', dec, (b.bind true dut₂).2) ∧
      ∀ is p, b'.slotAt is p = (b.bind true dut₂).1.slotAt is p := by
  have hself := bindList_self true b (dutSignals dut₁)
  have hready : (b.bind true dut₁).1.Ready := by
    refine ready_of_slots _ (hself.symm.distinct hb) ?_
    intro is p
    rcases bind_slots true b dut₁ hb hd₁ is p with ⟨d, _, _, h⟩ | ⟨_, h⟩
    · rw [h]; simp
    · rw [h]
      unfold idle
      cases b.slotAt is p <;> simp
  obtain ⟨u, hu⟩ := Option.isSome_iff_exists.1 ((unbindAll_isSome _).2 hready)
  have hsame : u.1.Same b := (unbindAll_same _ u hu).trans hself
  refine ⟨(u.1.bind true dut₂).1, u.2, ?_, ?_⟩
  · unfold Bundle.rebind
    rw [hu]
    simp only [Option.map_some, Bundle.bind]
    rw [bindList_same true true u.1 b _ hsame]
  · intro is p
    exact bindList_slots_same true u.1 b _ hsame (hsame.symm.distinct hb) is p (.inl rfl)

/-- **C47**, the slots, for trees without signal lists and bundle lists and for every choice of
`unconnected_signal_access`: unless the first bind left a class-level `Signal()` unconnected and
inaccessible (when binding again raises `AttributeError`), the slots and the connected pins are those
of a fresh bind.  Missing: see `C47_rebind_violated`. -/
theorem C47_slots_no_lists_partial (a₁ a₂ : Bool) (b : Bundle) (dut₁ dut₂ : List DutSig)
    (hb : b.Distinct) (hn : b.NoLists) (hi : b.Initial) :
    ((b.bind a₁ dut₁).1.rebind a₂ dut₂ = none ↔ ¬ (b.bind a₁ dut₁).1.Ready) ∧
    ∀ b' dec inc, (b.bind a₁ dut₁).1.rebind a₂ dut₂ = some (b', dec, inc) →
      inc = (b.bind a₂ dut₂).2 ∧ ∀ is p, b'.slotAt is p = (b.bind a₂ dut₂).1.slotAt is p := by
  constructor
  · rw [← unbindAll_isSome]
    unfold Bundle.rebind
    cases (b.bind a₁ dut₁).1.unbindAll <;> simp
  · intro b' dec inc h
    unfold Bundle.rebind at h
    cases hu : (b.bind a₁ dut₁).1.unbindAll with
    | none => rw [hu] at h; cases h
    | some u =>
      rw [hu] at h
      simp only [Option.map_some, Option.some.injEq, Prod.mk.injEq] at h
      obtain ⟨rfl, _, rfl⟩ := h
      have hsame : u.1.Same b :=
        (unbindAll_same _ u hu).trans (bindList_self a₁ b (dutSignals dut₁))
      refine ⟨?_, ?_⟩
      · simp only [Bundle.bind]
        rw [bindList_same a₂ a₂ u.1 b _ hsame]
      · intro is p
        exact bindList_slots_same a₂ u.1 b _ hsame (hsame.symm.distinct hb) is p
          (.inr (unbind_bind_slots a₁ b _ u hn hi hu is p))

theorem mem_allSignals_iff (b : Bundle) (hb : b.Distinct) (q : Nat) :
    q ∈ (b.allSignals []).filterMap (fun x => x.2.pin?) ↔
      ∃ is p, b.slotAt is p = some (.pin q) := by
  rw [allSignals_eq b [] hb, List.filterMap_filterMap, List.mem_filterMap]
  constructor
  · rintro ⟨x, _, h⟩
    refine ⟨x.1, x.2, ?_⟩
    cases h1 : b.pathOf [] x.1 x.2 with
    | none => rw [h1] at h; cases h
    | some t =>
      cases h2 : b.slotAt x.1 x.2 with
      | none => rw [h1, h2] at h; cases h
      | some s =>
        rw [h1, h2] at h
        cases s <;> simp [Slot.pin?] at h
        rw [h]
  · rintro ⟨is, p, h⟩
    have hs : (b.slotAt is p).isSome := by rw [h]; rfl
    obtain ⟨t, ht⟩ := Option.isSome_iff_exists.1 (pathOf_isSome is p [] hs)
    refine ⟨(is, p), (mem_positions b is p).2 hs, ?_⟩
    simp [ht, h, Slot.pin?]

theorem allSignals_pins_nodup (b : Bundle) (hb : b.Distinct)
    (huniq : ∀ {is is' p p' q}, b.slotAt is p = some (.pin q) → b.slotAt is' p' = some (.pin q) →
      is = is' ∧ p = p') : ((b.allSignals []).filterMap fun x => x.2.pin?).Nodup := by
  rw [allSignals_eq b [] hb, List.filterMap_filterMap]
  unfold List.Nodup
  have key : ∀ (x : List Nat × Pos) (q : Nat),
      (((b.pathOf [] x.1 x.2).bind fun t => (b.slotAt x.1 x.2).map fun s => (t, s)).bind
        fun x => x.2.pin?) = some q → b.slotAt x.1 x.2 = some (.pin q) := by
    intro x q h
    cases h1 : b.pathOf [] x.1 x.2 with
    | none => rw [h1] at h; cases h
    | some t =>
      cases h2 : b.slotAt x.1 x.2 with
      | none => rw [h1, h2] at h; cases h
      | some s =>
        rw [h1, h2] at h
        cases s <;> simp [Slot.pin?] at h
        rw [h]
  refine List.Pairwise.filterMap _ ?_ (positions_nodup b hb)
  intro x y hne q hx q' hy he
  subst he
  obtain ⟨h1, h2⟩ := huniq (key x q hx) (key y q hy)
  exact hne (Prod.ext h1 h2)

/-- **C47**, the counts, for trees without lists and with prefix and dictionary rules: binding again
releases exactly the connections made by the first bind, and counts those of the second, so that the
counters are those after a fresh bind.  Missing: lists, see `C47_rebind_violated`. -/
theorem C47_counts_partial (a₁ a₂ : Bool) (b : Bundle) (dut₁ dut₂ : List DutSig)
    (hb : b.Distinct) (hn : b.NoLists) (hf : b.Fresh) (hp : b.Plain)
    (hd₁ : (dut₁.map DutSig.name).Nodup) (hpin₁ : (dut₁.map DutSig.pin).Nodup)
    {b' : Bundle} {dec inc : List Nat}
    (h : (b.bind a₁ dut₁).1.rebind a₂ dut₂ = some (b', dec, inc)) :
    dec.Perm (b.bind a₁ dut₁).2 ∧ inc = (b.bind a₂ dut₂).2 := by
  unfold Bundle.rebind at h
  cases hu : (b.bind a₁ dut₁).1.unbindAll with
  | none => rw [hu] at h; cases h
  | some u =>
    rw [hu] at h
    simp only [Option.map_some, Option.some.injEq, Prod.mk.injEq] at h
    obtain ⟨_, rfl, rfl⟩ := h
    have hself := bindList_self a₁ b (dutSignals dut₁)
    have hsame : u.1.Same b := (unbindAll_same _ u hu).trans hself
    have hb1 : (b.bind a₁ dut₁).1.Distinct := hself.symm.distinct hb
    refine ⟨?_, by simp only [Bundle.bind]; rw [bindList_same a₂ a₂ u.1 b _ hsame]⟩
    rw [unbindAll_dec _ u [] (hself.symm.noLists hn) hu]
    have hnd1 := allSignals_pins_nodup (b.bind a₁ dut₁).1 hb1
      fun h h' => C35_pin_once a₁ b dut₁ hb hf hd₁ hpin₁ h h'
    have hlog := (bindList_spec a₁ b (dutSignals dut₁) hb (dut_orgs dut₁ hd₁)).log
    have hnd2 : (b.bind a₁ dut₁).2.Nodup := by
      refine hlog.nodup_iff.2 ?_
      refine (List.filter_sublist.map Sig.pin).nodup ?_
      unfold dutSignals
      rw [List.map_map]
      exact hpin₁
    refine (List.perm_ext_iff_of_nodup hnd1 hnd2).2 ?_
    intro q
    rw [mem_allSignals_iff _ hb1]
    constructor
    · rintro ⟨is, p, h⟩
      obtain ⟨d, hdm, rfl, _⟩ := (C34_bind_exact a₁ b dut₁ hb hf hp hd₁ is p q).1 h
      have := (log_count a₁ b dut₁ hb hf hp hd₁ hpin₁ hdm).1 ⟨is, p, h⟩
      exact List.count_pos_iff.1 (by omega)
    · intro h
      have h' : q ∈ ((dutSignals dut₁).filter fun s => (b.route s.name).isSome).map Sig.pin :=
        hlog.mem_iff.1 h
      obtain ⟨s, hs, rfl⟩ := List.mem_map.1 h'
      obtain ⟨d, hdm, rfl⟩ := List.mem_map.1 (List.mem_filter.1 hs).1
      by_cases hin : InSlot dut₁ (a₁, b) d
      · exact hin
      · have := (log_count a₁ b dut₁ hb hf hp hd₁ hpin₁ hdm).2 hin
        exact absurd h (List.count_eq_zero.1 this)

/-- **C47**, the clock, when all signals of both DUTs have the same event (one DUT with one clock):
if a fresh bind gives the bundle a clock event, binding again leaves the same.  Missing: different
events, see `C47_rebind_violated`. -/
theorem C47_clock_partial (a₁ a₂ : Bool) (b : Bundle) (dut₁ dut₂ : List DutSig) (e : Nat)
    (hc : b.Unclocked) (h₁ : ∀ d ∈ dut₁, d.event = e) (h₂ : ∀ d ∈ dut₂, d.event = e)
    {b' : Bundle} {dec inc : List Nat}
    (h : (b.bind a₁ dut₁).1.rebind a₂ dut₂ = some (b', dec, inc))
    (hs : (b.bind a₂ dut₂).1.clock.isSome) : b'.clock = (b.bind a₂ dut₂).1.clock := by
  unfold Bundle.rebind at h
  cases hu : (b.bind a₁ dut₁).1.unbindAll with
  | none => rw [hu] at h; cases h
  | some u =>
    rw [hu] at h
    simp only [Option.map_some, Option.some.injEq, Prod.mk.injEq] at h
    obtain ⟨rfl, _, _⟩ := h
    have hev : ∀ dut : List DutSig, (∀ d ∈ dut, d.event = e) → ∀ s ∈ dutSignals dut, s.event = e := by
      intro dut hd s hs
      obtain ⟨d, hdm, rfl⟩ := List.mem_map.1 hs
      exact hd d hdm
    have hself := bindList_self a₁ b (dutSignals dut₁)
    have hsame : u.1.Same b := (unbindAll_same _ u hu).trans hself
    have c0 := hc.clocked e
    have c1 := bindList_clocked a₁ e b _ (hev dut₁ h₁) c0
    have c2 := unbindAll_clocked e _ u hu c1
    have c3 := (bindList_clocked a₂ e u.1 _ (hev dut₂ h₂) c2).clock
    have c4 := (bindList_clocked a₂ e b _ (hev dut₂ h₂) c0).clock
    have hsm := bindList_clock_some a₂ b u.1 (dutSignals dut₂) hsame.symm hc hs
    have hs : (b.bindList a₂ (dutSignals dut₂)).1.clock.isSome := hs
    show (u.1.bindList a₂ (dutSignals dut₂)).1.clock = (b.bindList a₂ (dutSignals dut₂)).1.clock
    rcases c3 with c3 | c3
    · rw [c3] at hsm; cases hsm
    · rcases c4 with c4 | c4
      · rw [c4] at hs; cases hs
      · rw [c3, c4]

/-- **C47 fails.**
(1) A signal list keeps its old pin when the new DUT has no such signal and unconnected signals may
not be accessed.  (2) Even with the default access, the connection of a signal list is not released,
so its pin counts as connected twice.  (3) The clock event stays the one of the old DUT.
(4) When the first bind left a `Signal()` unconnected and inaccessible, binding again raises. -/
theorem C47_rebind_violated :
    (∃ (b : Bundle) (dut₁ dut₂ : List DutSig), b.Distinct ∧ b.Fresh ∧ ∃ b' dec inc,
      (b.bind false dut₁).1.rebind false dut₂ = some (b', dec, inc) ∧
      b'.slotAt [] (.elem 0 0) = some (.pin 1) ∧
      (b.bind false dut₂).1.slotAt [] (.elem 0 0) = some .unconnected) ∧
    (∃ (b : Bundle) (dut : List DutSig), b.Distinct ∧ b.Fresh ∧ ∃ b' dec inc,
      (b.bind true dut).1.rebind true dut = some (b', dec, inc) ∧
      (b.bind true dut).2.count 1 + inc.count 1 - dec.count 1 = 2 ∧
      (b.bind true dut).2.count 1 = 1) ∧
    (∃ (b : Bundle) (dut₁ dut₂ : List DutSig), b.Distinct ∧ b.NoLists ∧ b.Fresh ∧ ∃ b' dec inc,
      (b.bind true dut₁).1.rebind true dut₂ = some (b', dec, inc) ∧
      b'.clock = some 7 ∧ (b.bind true dut₂).1.clock = some 8) ∧
    (∃ (b : Bundle) (dut : List DutSig), b.Distinct ∧ b.NoLists ∧ b.Fresh ∧
      (b.bind false dut).1.rebind false dut = none) := by
  refine ⟨⟨.mk (.pre []) ⟨[], [("x".toList, [("x0".toList, .unconnected)])]⟩ none .nil,
      [⟨"x0".toList, 1, 0⟩], [], ⟨by decide, trivial⟩, ⟨level_fresh _ (by decide), trivial⟩,
      _, _, _, rfl, by decide, by decide⟩,
    ⟨.mk (.pre []) ⟨[], [("x".toList, [("x0".toList, .unconnected)])]⟩ none .nil,
      [⟨"x0".toList, 1, 0⟩], ⟨by decide, trivial⟩, ⟨level_fresh _ (by decide), trivial⟩,
      _, _, _, rfl, by decide, by decide⟩,
    ⟨.mk (.pre []) ⟨[⟨"a".toList, true, .unconnected⟩], []⟩ none .nil,
      [⟨"a".toList, 1, 7⟩], [⟨"a".toList, 2, 8⟩], ⟨by decide, trivial⟩, ⟨rfl, trivial⟩,
      ⟨level_fresh _ (by decide), trivial⟩, _, _, _, rfl, by decide, by decide⟩,
    ⟨.mk (.pre []) ⟨[⟨"a".toList, true, .unconnected⟩], []⟩ none .nil,
      [], ⟨by decide, trivial⟩, ⟨rfl, trivial⟩, ⟨level_fresh _ (by decide), trivial⟩, by decide⟩⟩

/-- A concrete pair of binds meeting the hypotheses of the partial theorems. -/
def againBundle : Bundle :=
  .mk (.pre "io_".toList) ⟨[⟨"a".toList, true, .unconnected⟩, ⟨"b".toList, false, .absent⟩], []⟩ none
    (.cons (.sub "c".toList)
      (.mk (.dict [("u".toList, "c_p".toList)]) ⟨[⟨"u".toList, false, .absent⟩], []⟩ none .nil) .nil)

example : againBundle.Distinct ∧ againBundle.NoLists ∧ againBundle.Initial ∧ againBundle.Plain ∧
    againBundle.Fresh ∧ againBundle.Unclocked ∧
    ∃ b', (againBundle.bind true [⟨"io_a".toList, 1, 0⟩, ⟨"io_c_p".toList, 2, 0⟩]).1.rebind true
        [⟨"io_b".toList, 3, 0⟩, ⟨"io_c_p".toList, 4, 0⟩] = some (b', [1, 2], [3, 4]) ∧
      b'.slotAt [] (.sig "a".toList) = some .dummy ∧
      b'.slotAt [] (.sig "b".toList) = some (.pin 3) ∧
      b'.slotAt [0] (.sig "u".toList) = some (.pin 4) ∧ b'.clock = some 0 := by
  refine ⟨⟨by decide, ⟨by decide, trivial⟩, trivial⟩, ⟨rfl, ⟨_, rfl⟩, ⟨rfl, trivial⟩, trivial⟩,
    ⟨by decide, ⟨by decide, trivial⟩, trivial⟩, ⟨trivial, ⟨?_, trivial⟩, trivial⟩,
    ⟨level_fresh _ (by decide), ⟨level_fresh _ (by decide), trivial⟩, trivial⟩,
    ⟨rfl, ⟨rfl, trivial⟩, trivial⟩, _, rfl, by decide, by decide, by decide, by decide⟩
  show List.Nodup _
  decide

end Toffee.Bundle
