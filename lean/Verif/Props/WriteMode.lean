import Verif.Model.WriteMode
import Verif.Lemmas.BundleMsg
/-!
C74: `set_write_mode`.
-/

namespace Toffee.Props.WriteMode

open Toffee.Bundle Toffee.WriteMode

/-- The mode of the last call that covers the bundle at `is`: a call for this bundle or for one that
contains it. -/
def lastCover (h : List (List Nat × Mode)) (is : List Nat) : Option Mode :=
  ((h.filter fun c => c.1.isPrefixOf is).getLast?).map Prod.snd

/-- The mode of the last call for the whole bundle. -/
def lastRoot (h : List (List Nat × Mode)) : Option Mode :=
  ((h.filter fun c => c.1 = []).getLast?).map Prod.snd

/-- All calls are made with a valid mode. -/
def Valid (h : List (List Nat × Mode)) : Prop := ∀ c ∈ h, c.2 ≠ .bad

/-- A bundle on which `h₁` was called, that was then bound and on which `h₂` was called. -/
def history (out : Nat → Bool) (access : Bool) (dut : List DutSig) (b : Bundle)
    (pins : Nat → Mode) (h₁ h₂ : List (List Nat × Mode)) : Option Obj :=
  (bind out access dut (setModes out h₁ (start b pins))).map fun r => setModes out h₂ r.1

/-! ### Lemmas -/

theorem child_eq (ks : Kids) (i : Nat) : child ks i = ks.get i := by
  induction i generalizing ks with
  | zero => cases ks <;> rfl
  | succ i ih =>
    cases ks with
    | nil => rfl
    | cons l b ks => exact ih ks

theorem node_slotAt {b n : Bundle} {path : List Nat} (h : node b path = some n) (js : List Nat)
    (p : Pos) : b.slotAt (path ++ js) p = n.slotAt js p := by
  induction path generalizing b with
  | nil => cases h; rfl
  | cons i path ih =>
    rw [node, child_eq] at h
    cases hc : b.kids.get i with
    | none => rw [hc] at h; cases h
    | some c =>
      rw [hc] at h
      rw [List.cons_append, Bundle.slotAt, hc]
      exact ih h

theorem node_of_slotAt {b : Bundle} {path js : List Nat} {p : Pos} {s : Slot}
    (h : b.slotAt (path ++ js) p = some s) : ∃ n, node b path = some n := by
  induction path generalizing b with
  | nil => exact ⟨b, rfl⟩
  | cons i path ih =>
    rw [List.cons_append, Bundle.slotAt] at h
    cases hc : b.kids.get i with
    | none => rw [hc] at h; cases h
    | some c =>
      rw [hc] at h
      rw [node, child_eq, hc]
      exact ih h

theorem node_distinct {b n : Bundle} {path : List Nat} (h : node b path = some n)
    (hb : b.Distinct) : n.Distinct := by
  induction path generalizing b with
  | nil => cases h; exact hb
  | cons i path ih =>
    rw [node, child_eq] at h
    cases hc : b.kids.get i with
    | none => rw [hc] at h; cases h
    | some c =>
      rw [hc] at h
      refine ih h ?_
      obtain ⟨r, lv, cl, ks⟩ := b
      exact Kids.distinct_get' hb.2 hc

theorem snocInd {α : Type} {P : List α → Prop} (nil : P [])
    (snoc : ∀ l a, P l → P (l ++ [a])) (l : List α) : P l := by
  have h : ∀ r : List α, P r.reverse := by
    intro r
    induction r with
    | nil => exact nil
    | cons a r ih => rw [List.reverse_cons]; exact snoc _ _ ih
  have := h l.reverse
  rwa [List.reverse_reverse] at this

theorem mem_snd_cons (n : Name) (s t : Slot) (sigs : List (Name × Slot)) :
    t ∈ ((n, s) :: sigs).map Prod.snd ↔ t = s ∨ t ∈ sigs.map Prod.snd := by
  rw [List.map_cons, List.mem_cons]

theorem setAll_spec (out : Nat → Bool) {m : Mode} (hm : m ≠ .bad) (sigs : List (Name × Slot))
    (pins : Nat → Mode) (q : Nat) :
    (Slot.pin q ∈ sigs.map Prod.snd ∧ out q = false → (setAll out m sigs pins).1 q = m) ∧
    (¬ (Slot.pin q ∈ sigs.map Prod.snd ∧ out q = false) →
      (setAll out m sigs pins).1 q = pins q) := by
  induction sigs generalizing pins with
  | nil => exact ⟨fun h => absurd h.1 (by simp), fun _ => rfl⟩
  | cons x sigs ih =>
    obtain ⟨n, s⟩ := x
    have skip : ∀ t : Slot, (∀ r, t = .pin r → out r = true) →
        (setAll out m ((n, t) :: sigs) pins) = setAll out m sigs pins →
        (Slot.pin q ∈ ((n, t) :: sigs).map Prod.snd ∧ out q = false →
          (setAll out m ((n, t) :: sigs) pins).1 q = m) ∧
        (¬ (Slot.pin q ∈ ((n, t) :: sigs).map Prod.snd ∧ out q = false) →
          (setAll out m ((n, t) :: sigs) pins).1 q = pins q) := by
      intro t ht he
      rw [he, mem_snd_cons]
      refine ⟨fun h => (ih pins).1 ⟨?_, h.2⟩, fun h => (ih pins).2 fun hh => h ⟨.inr hh.1, hh.2⟩⟩
      rcases h.1 with h1 | h1
      · have := ht q h1.symm
        rw [h.2] at this; cases this
      · exact h1
    cases s with
    | pin r =>
      cases ho : out r with
      | true =>
        refine skip _ (fun r' e => by cases e; exact ho) ?_
        rw [setAll, ho, if_pos rfl]
      | false =>
        rw [setAll, mem_snd_cons]
        simp only [ho, Bool.false_eq_true, if_false, if_neg hm]
        by_cases hq : q = r
        · subst hq
          refine ⟨fun _ => ?_, fun h => absurd ⟨.inl rfl, ho⟩ h⟩
          by_cases hmem : Slot.pin q ∈ sigs.map Prod.snd
          · exact (ih _).1 ⟨hmem, ho⟩
          · rw [(ih _).2 fun h => hmem h.1]; simp
        · refine ⟨fun h => (ih _).1 ⟨h.1.resolve_left fun e => hq (by cases e; rfl), h.2⟩,
            fun h => ?_⟩
          rw [(ih _).2 fun hh => h ⟨.inr hh.1, hh.2⟩]
          simp [hq]
    | absent => exact skip _ (fun _ e => by cases e) rfl
    | unconnected => exact skip _ (fun _ e => by cases e) rfl
    | dummy => exact skip _ (fun _ e => by cases e) rfl

theorem setAll_raises (out : Nat → Bool) (m : Mode) (sigs : List (Name × Slot))
    (pins : Nat → Mode) :
    ((setAll out m sigs pins).2 = true ↔
      m = .bad ∧ ∃ q, Slot.pin q ∈ sigs.map Prod.snd ∧ out q = false) ∧
    (m = .bad → (setAll out m sigs pins).1 = pins) := by
  induction sigs generalizing pins with
  | nil => simp [setAll]
  | cons x sigs ih =>
    obtain ⟨n, s⟩ := x
    cases s with
    | pin r =>
      rw [setAll]
      cases ho : out r with
      | true =>
        rw [if_pos rfl]
        refine ⟨(ih pins).1.trans (and_congr_right fun _ => ?_), (ih pins).2⟩
        constructor
        · rintro ⟨q, h1, h2⟩; exact ⟨q, List.mem_cons_of_mem _ h1, h2⟩
        · rintro ⟨q, h1, h2⟩
          rcases List.mem_cons.1 h1 with h1 | h1
          · have : q = r := by simpa using h1
            subst this; rw [ho] at h2; cases h2
          · exact ⟨q, h1, h2⟩
      | false =>
        simp only [Bool.false_eq_true, if_false]
        by_cases hm : m = .bad
        · rw [if_pos hm]
          exact ⟨⟨fun _ => ⟨hm, r, by simp, ho⟩, fun _ => rfl⟩, fun _ => rfl⟩
        · rw [if_neg hm]
          refine ⟨⟨fun h => absurd ((ih _).1.1 h).1 hm, fun h => absurd h.1 hm⟩,
            fun h => absurd h hm⟩
    | absent => rw [setAll]; · simpa using ih pins
                · intro q e; cases e
    | unconnected => rw [setAll]; · simpa using ih pins
                     · intro q e; cases e
    | dummy => rw [setAll]; · simpa using ih pins
               · intro q e; cases e

theorem setMode_tree (out : Nat → Bool) (path : List Nat) (m : Mode) (o : Obj) :
    (setMode out path m o).1.tree = o.tree ∧ (setMode out path m o).1.bound = o.bound := by
  unfold setMode
  split <;> exact ⟨rfl, rfl⟩

theorem setModes_tree (out : Nat → Bool) (h : List (List Nat × Mode)) (o : Obj) :
    (setModes out h o).tree = o.tree ∧ (setModes out h o).bound = o.bound := by
  induction h generalizing o with
  | nil => exact ⟨rfl, rfl⟩
  | cons c h ih =>
    obtain ⟨h1, h2⟩ := setMode_tree out c.1 c.2 o
    obtain ⟨h3, h4⟩ := ih (setMode out c.1 c.2 o).1
    exact ⟨h3.trans h1, h4.trans h2⟩

/-- A call changes exactly the non-output pins in the slots below the path. -/
theorem setMode_pins (out : Nat → Bool) (path : List Nat) {m : Mode} (hm : m ≠ .bad) (o : Obj)
    (hd : o.tree.Distinct) (q : Nat) :
    ((∃ js p, o.tree.slotAt (path ++ js) p = some (.pin q)) ∧ out q = false →
      (setMode out path m o).1.pins q = m) ∧
    (¬ ((∃ js p, o.tree.slotAt (path ++ js) p = some (.pin q)) ∧ out q = false) →
      (setMode out path m o).1.pins q = o.pins q) := by
  unfold setMode
  cases hn : node o.tree path with
  | none =>
    refine ⟨?_, fun _ => rfl⟩
    rintro ⟨⟨js, p, h⟩, _⟩
    obtain ⟨n, hn'⟩ := node_of_slotAt h
    rw [hn] at hn'; cases hn'
  | some n =>
    have hsp := setAll_spec out hm (n.allSignals []) o.pins q
    have hiff : Slot.pin q ∈ (n.allSignals []).map Prod.snd ↔
        ∃ js p, o.tree.slotAt (path ++ js) p = some (.pin q) := by
      rw [slots_of_pin (node_distinct hn hd)]
      constructor
      · rintro ⟨js, p, h⟩; exact ⟨js, p, by rw [node_slotAt hn, h]⟩
      · rintro ⟨js, p, h⟩; exact ⟨js, p, by rw [← node_slotAt hn, h]⟩
    rw [hiff] at hsp
    exact hsp

theorem lastCover_snoc (h : List (List Nat × Mode)) (c : List Nat × Mode) (is : List Nat) :
    lastCover (h ++ [c]) is = if c.1 <+: is then some c.2 else lastCover h is := by
  unfold lastCover
  rw [List.filter_append]
  by_cases hc : c.1 <+: is
  · have : c.1.isPrefixOf is = true := List.isPrefixOf_iff_prefix.2 hc
    rw [if_pos hc]
    simp [this]
  · have : c.1.isPrefixOf is = false := by
      cases hx : c.1.isPrefixOf is with
      | false => rfl
      | true => exact absurd (List.isPrefixOf_iff_prefix.1 hx) hc
    rw [if_neg hc]
    simp [this]

theorem lastRoot_snoc (h : List (List Nat × Mode)) (c : List Nat × Mode) :
    lastRoot (h ++ [c]) = if c.1 = [] then some c.2 else lastRoot h := by
  unfold lastRoot
  rw [List.filter_append]
  by_cases hc : c.1 = []
  · rw [if_pos hc]; simp [hc]
  · rw [if_neg hc]; simp [hc]

theorem setModes_snoc (out : Nat → Bool) (h : List (List Nat × Mode)) (c : List Nat × Mode)
    (o : Obj) : setModes out (h ++ [c]) o = (setMode out c.1 c.2 (setModes out h o)).1 := by
  unfold setModes
  rw [List.foldl_append]
  rfl

/-- On a tree in which the pin has one slot, the last covering call decides. -/
theorem setModes_pin (out : Nat → Bool) (h : List (List Nat × Mode)) (hv : Valid h) (o : Obj)
    (hd : o.tree.Distinct) {is : List Nat} {p : Pos} {q : Nat} (hq : Only q o.tree is p)
    (ho : out q = false) : (setModes out h o).pins q = (lastCover h is).getD (o.pins q) := by
  induction h using snocInd with
  | nil => rfl
  | snoc h c ih =>
    have ih := ih fun c hc => hv c (List.mem_append_left _ hc)
    have hm : c.2 ≠ .bad := hv c (List.mem_append_right _ (List.mem_singleton.2 rfl))
    rw [setModes_snoc, lastCover_snoc]
    obtain ⟨ht, _⟩ := setModes_tree out h o
    obtain ⟨h1, h2⟩ := setMode_pins out c.1 hm (setModes out h o) (by rw [ht]; exact hd) q
    rw [ht] at h1 h2
    by_cases hc : c.1 <+: is
    · rw [if_pos hc]
      obtain ⟨js, rfl⟩ := hc
      exact h1 ⟨⟨js, p, hq.1⟩, ho⟩
    · rw [if_neg hc, ← ih]
      apply h2
      rintro ⟨⟨js, p', hs⟩, _⟩
      exact hc ⟨js, (hq.2 _ _ hs).1⟩

/-- Pins that are outputs or in no slot keep their mode. -/
theorem setModes_other (out : Nat → Bool) (h : List (List Nat × Mode)) (hv : Valid h) (o : Obj)
    (hd : o.tree.Distinct) (q : Nat)
    (hq : out q = true ∨ ∀ is p, o.tree.slotAt is p ≠ some (.pin q)) :
    (setModes out h o).pins q = o.pins q := by
  induction h using snocInd with
  | nil => rfl
  | snoc h c ih =>
    have ih := ih fun c hc => hv c (List.mem_append_left _ hc)
    have hm : c.2 ≠ .bad := hv c (List.mem_append_right _ (List.mem_singleton.2 rfl))
    rw [setModes_snoc]
    obtain ⟨ht, _⟩ := setModes_tree out h o
    obtain ⟨_, h2⟩ := setMode_pins out c.1 hm (setModes out h o) (by rw [ht]; exact hd) q
    rw [ht] at h2
    rw [← ih]
    apply h2
    rintro ⟨⟨js, p, hs⟩, ho⟩
    rcases hq with hq | hq
    · rw [hq] at ho; cases ho
    · exact hq _ _ hs

theorem setModes_own (out : Nat → Bool) (h : List (List Nat × Mode)) (o : Obj) :
    (setModes out h o).own [] = (lastRoot h).or (o.own []) := by
  induction h using snocInd with
  | nil => rfl
  | snoc h c ih =>
    rw [setModes_snoc, lastRoot_snoc]
    unfold setMode
    by_cases hc : c.1 = []
    · rw [if_pos hc, hc]; rfl
    · rw [if_neg hc, ← ih]
      split
      · rfl
      · show (if [] = c.1 then some c.2 else (setModes out h o).own []) = _
        rw [if_neg (Ne.symm hc)]

theorem lastRoot_valid {h : List (List Nat × Mode)} (hv : Valid h) {m : Mode}
    (hm : lastRoot h = some m) : m ≠ .bad := by
  unfold lastRoot at hm
  cases hl : (h.filter fun c => c.1 = []).getLast? with
  | none => rw [hl] at hm; cases hm
  | some c =>
    rw [hl] at hm
    cases hm
    exact hv c (List.mem_filter.1 (List.mem_of_getLast? hl)).1

/-- The state after the calls before `bind` and `bind` itself. -/
theorem bind_state (out : Nat → Bool) (access : Bool) (dut : List DutSig) (b : Bundle)
    (pins : Nat → Mode) (h₁ : List (List Nat × Mode)) (hv : Valid h₁) (hb : b.Distinct)
    (hf : b.Fresh) :
    ∃ o, bind out access dut (setModes out h₁ (start b pins)) = some (o, false) ∧
      o.tree = (b.bind access dut).1 ∧
      ∀ q, ((∃ is p, (b.bind access dut).1.slotAt is p = some (.pin q)) ∧ out q = false →
          o.pins q = (lastRoot h₁).getD (pins q)) ∧
        (¬ ((∃ is p, (b.bind access dut).1.slotAt is p = some (.pin q)) ∧ out q = false) →
          o.pins q = pins q) := by
  obtain ⟨ht, hbd⟩ := setModes_tree out h₁ (start b pins)
  have hpins : ∀ q, (setModes out h₁ (start b pins)).pins q = pins q := fun q =>
    setModes_other out h₁ hv (start b pins) hb q (.inr fun is p => fresh_slotAt hf is p q)
  have hown := setModes_own out h₁ (start b pins)
  have hd : (b.bind access dut).1.Distinct :=
    (bindList_self access b (dutSignals dut)).symm.distinct hb
  unfold WriteMode.bind
  rw [hbd]
  simp only [start, Bool.false_eq_true, if_false]
  unfold applyOwn
  have hown' : (setModes out h₁ (start b pins)).own [] = lastRoot h₁ := by
    rw [hown]; cases lastRoot h₁ <;> rfl
  have ht' : (setModes out h₁ (start b pins)).tree = b := ht
  change ∃ o, some (match (setModes out h₁ (start b pins)).own [] with
    | none => _ | some m => _) = some (o, false) ∧ _
  rw [hown']
  cases hr : lastRoot h₁ with
  | none =>
    refine ⟨_, rfl, ?_, fun q => ?_⟩
    · show ((setModes out h₁ (start b pins)).tree.bind access dut).1 = _
      rw [ht']
    · exact ⟨fun _ => hpins q, fun _ => hpins q⟩
  | some m =>
    have hm := lastRoot_valid hv hr
    refine ⟨{ (setModes out h₁ (start b pins)) with
        tree := ((setModes out h₁ (start b pins)).tree.bind access dut).1, bound := true
        pins := (setAll out m (((setModes out h₁ (start b pins)).tree.bind access dut).1.allSignals [])
          (setModes out h₁ (start b pins)).pins).1 }, ?_, ?_, fun q => ?_⟩
    · have : (setAll out m (((setModes out h₁ (start b pins)).tree.bind access dut).1.allSignals [])
          (setModes out h₁ (start b pins)).pins).2 = false := by
        cases hx : (setAll out m
            (((setModes out h₁ (start b pins)).tree.bind access dut).1.allSignals [])
            (setModes out h₁ (start b pins)).pins).2 with
        | false => rfl
        | true => exact absurd ((setAll_raises out m _ _).1.1 hx).1 hm
      exact congrArg some (Prod.ext rfl this)
    · show ((setModes out h₁ (start b pins)).tree.bind access dut).1 = _
      rw [ht']
    · have := setAll_spec out hm (((setModes out h₁ (start b pins)).tree.bind access dut).1.allSignals
        []) (setModes out h₁ (start b pins)).pins q
      rw [hpins q, ht', slots_of_pin hd] at this
      rw [← ht'] at this
      simpa [ht'] using this

/-! ### C74 -/

/-- C74, what happens: the mode of a connected non-output pin is that of the last covering call made
after `bind`, else that of the last call for the whole bundle made before `bind`, else what it was. -/
theorem C74_exact (out : Nat → Bool) (access : Bool) (dut : List DutSig) (b : Bundle)
    (pins : Nat → Mode) (h₁ h₂ : List (List Nat × Mode)) (hv₁ : Valid h₁) (hv₂ : Valid h₂)
    (hb : b.Distinct) (hf : b.Fresh) (hd : (dut.map DutSig.name).Nodup)
    (hpin : (dut.map DutSig.pin).Nodup) :
    ∃ o, history out access dut b pins h₁ h₂ = some o ∧
      ∀ is p q, o.tree.slotAt is p = some (.pin q) → out q = false →
        o.pins q = (lastCover h₂ is).getD ((lastRoot h₁).getD (pins q)) := by
  obtain ⟨o, h1, h2, h3⟩ := bind_state out access dut b pins h₁ hv₁ hb hf
  refine ⟨setModes out h₂ o, by unfold history; rw [h1]; rfl, fun is p q hs ho => ?_⟩
  have hdd : (b.bind access dut).1.Distinct :=
    (bindList_self access b (dutSignals dut)).symm.distinct hb
  rw [(setModes_tree out h₂ o).1, h2] at hs
  have honly : Only q o.tree is p := by
    rw [h2]
    exact ⟨hs, fun is' p' h' => C35_pin_once access b dut hb hf hd hpin h' hs⟩
  rw [setModes_pin out h₂ hv₂ o (by rw [h2]; exact hdd) honly ho,
    (h3 q).1 ⟨⟨is, p, hs⟩, ho⟩]

/-- C74, part: the last call that covers a connected non-output pin decides, whether made before or
after `bind`, provided that the calls before `bind` are for the whole bundle.  Missing: calls for
sub-bundles before `bind` (`C74_sub_violated`), a second `bind` (`C74_rebind_violated`). -/
theorem C74_last_partial (out : Nat → Bool) (access : Bool) (dut : List DutSig) (b : Bundle)
    (pins : Nat → Mode) (h₁ h₂ : List (List Nat × Mode)) (hv₁ : Valid h₁) (hv₂ : Valid h₂)
    (hroot : ∀ c ∈ h₁, c.1 = [])
    (hb : b.Distinct) (hf : b.Fresh) (hd : (dut.map DutSig.name).Nodup)
    (hpin : (dut.map DutSig.pin).Nodup) :
    ∃ o, history out access dut b pins h₁ h₂ = some o ∧
      ∀ is p q, o.tree.slotAt is p = some (.pin q) → out q = false →
        o.pins q = (lastCover (h₁ ++ h₂) is).getD (pins q) := by
  obtain ⟨o, h1, h2⟩ := C74_exact out access dut b pins h₁ h₂ hv₁ hv₂ hb hf hd hpin
  refine ⟨o, h1, fun is p q hs ho => ?_⟩
  rw [h2 is p q hs ho]
  have e1 : lastRoot h₁ = lastCover h₁ is := by
    unfold lastRoot lastCover
    congr 2
    apply List.filter_congr
    intro c hc
    rw [hroot c hc]; simp
  have e2 : lastCover (h₁ ++ h₂) is = (lastCover h₂ is).or (lastCover h₁ is) := by
    unfold lastCover
    rw [List.filter_append, List.getLast?_append]
    cases (h₂.filter fun c => c.1.isPrefixOf is).getLast? <;> rfl
  rw [e1, e2]
  cases lastCover h₂ is <;> rfl

/-- C74: output pins and pins that are not in the bundle never change their mode. -/
theorem C74_others (out : Nat → Bool) (access : Bool) (dut : List DutSig) (b : Bundle)
    (pins : Nat → Mode) (h₁ h₂ : List (List Nat × Mode)) (hv₁ : Valid h₁) (hv₂ : Valid h₂)
    (hb : b.Distinct) (hf : b.Fresh) :
    ∃ o, history out access dut b pins h₁ h₂ = some o ∧
      ∀ q, (out q = true ∨ ∀ is p, o.tree.slotAt is p ≠ some (.pin q)) → o.pins q = pins q := by
  obtain ⟨o, h1, h2, h3⟩ := bind_state out access dut b pins h₁ hv₁ hb hf
  refine ⟨setModes out h₂ o, by unfold history; rw [h1]; rfl, fun q hq => ?_⟩
  have hdd : (b.bind access dut).1.Distinct :=
    (bindList_self access b (dutSignals dut)).symm.distinct hb
  have ht := (setModes_tree out h₂ o).1
  rw [setModes_other out h₂ hv₂ o (by rw [h2]; exact hdd) q (by rw [← ht]; exact hq)]
  apply (h3 q).2
  rintro ⟨⟨is, p, hs⟩, ho⟩
  rcases hq with hq | hq
  · rw [hq] at ho; cases ho
  · rw [ht, h2] at hq
    exact hq is p hs

/-- C74: an invalid mode raises `ValueError` and changes no pin, if there is a connected non-output
pin below. -/
theorem C74_invalid (out : Nat → Bool) (path : List Nat) (o : Obj) (hd : o.tree.Distinct) :
    ((setMode out path .bad o).2 = true ↔
      ∃ js p q, o.tree.slotAt (path ++ js) p = some (.pin q) ∧ out q = false) ∧
    (setMode out path .bad o).1.pins = o.pins := by
  unfold setMode
  cases hn : node o.tree path with
  | none =>
    refine ⟨⟨fun h => ?_, ?_⟩, rfl⟩
    · simp at h
    rintro ⟨js, p, q, h, _⟩
    obtain ⟨n, hn'⟩ := node_of_slotAt h
    rw [hn] at hn'; cases hn'
  | some n =>
    have h := setAll_raises out .bad (n.allSignals []) o.pins
    refine ⟨h.1.trans ?_, h.2 rfl⟩
    constructor
    · rintro ⟨_, q, hq, ho⟩
      obtain ⟨js, p, hs⟩ := (slots_of_pin (node_distinct hn hd) []).1 hq
      exact ⟨js, p, q, by rw [node_slotAt hn, hs], ho⟩
    · rintro ⟨js, p, q, hs, ho⟩
      exact ⟨rfl, q, (slots_of_pin (node_distinct hn hd) []).2 ⟨js, p, by rw [← node_slotAt hn, hs]⟩,
        ho⟩

/-! ### Witnesses -/

/-- Only pin 13 is an output. -/
def demoOut (q : Nat) : Bool := q = 13

/-- C74 is false: the mode set for a sub-bundle before `bind` is forgotten. -/
theorem C74_sub_violated : ∃ o, history demoOut true demoDut demoBundle (fun _ => .imme)
      [([0], .rise)] [] = some o ∧
    o.tree.slotAt [0] (.sig "w".toList) = some (.pin 12) ∧ demoOut 12 = false ∧
    lastCover [([0], .rise)] [0] = some .rise ∧ o.pins 12 = .imme := by
  refine ⟨_, rfl, ?_, ?_, ?_, ?_⟩ <;> decide

/-- C74 is false: a second `bind` (to the same DUT) gives a sub-bundle the older mode of the whole
bundle. -/
theorem C74_rebind_violated : ∃ o o', history demoOut true demoDut demoBundle (fun _ => .imme)
      [] [([], .fall), ([0], .rise)] = some o ∧ o.pins 12 = .rise ∧
    bind demoOut true demoDut o = some (o', false) ∧
    o'.tree.slotAt [0] (.sig "w".toList) = some (.pin 12) ∧ o'.pins 12 = .fall := by
  refine ⟨_, _, rfl, ?_, rfl, ?_, ?_⟩ <;> decide

/-- C74 is false: before `bind` an invalid mode is accepted; it is `bind` that raises. -/
theorem C74_invalid_violated :
    (setMode demoOut [] .bad (start demoBundle fun _ => .imme)).2 = false ∧
    ∃ o, bind demoOut true demoDut (setModes demoOut [([], .bad)]
      (start demoBundle fun _ => .imme)) = some (o, true) := by
  refine ⟨by decide, _, rfl⟩

/-- Non-vacuity of the theorems: a call for the whole bundle before `bind`, one for a sub-bundle
after it. -/
example : Valid [([], .fall)] ∧ Valid [([0], .rise)] ∧ (∀ c ∈ [(([] : List Nat), Mode.fall)], c.1 = []) ∧
    demoBundle.Distinct ∧ demoBundle.Fresh ∧ (demoDut.map DutSig.name).Nodup ∧
    (demoDut.map DutSig.pin).Nodup ∧
    ∃ o, history demoOut true demoDut demoBundle (fun _ => .imme) [([], .fall)] [([0], .rise)] =
      some o ∧ o.pins 11 = .fall ∧ o.pins 12 = .rise ∧ o.pins 13 = .imme ∧ o.pins 10 = .imme := by
  refine ⟨by simp [Valid], by simp [Valid], by simp, demo_distinct, demo_fresh, by decide, by decide,
    _, rfl, ?_, ?_, ?_, ?_⟩ <;> decide

end Toffee.Props.WriteMode
