import Verif.Props.BundleBind
import Verif.Lemmas.BundlePaths

/-!
Slots and their names (C45, C48, C50) and binding again (C47).
-/

namespace Toffee.Bundle

/-! ### C50 -/

theorem replaceHash_length (fmt r : Name) :
    (replaceHash fmt r).length + fmt.count '#' = fmt.length + fmt.count '#' * r.length := by
  induction fmt with
  | nil => simp [replaceHash]
  | cons c fmt ih =>
    unfold replaceHash at *
    rw [List.flatMap_cons, List.length_append, List.count_cons, List.length_cons]
    by_cases hc : c = '#'
    · subst hc
      simp only [if_true, beq_self_eq_true, Nat.add_mul, Nat.one_mul]
      omega
    · have : (c == '#') = false := by simpa using hc
      simp only [if_neg hc, this, List.length_cons, List.length_nil, Bool.false_eq_true, if_false,
        Nat.add_zero]
      omega

theorem replaceHash_inj {fmt a b : Name} (hf : '#' ∈ fmt)
    (h : replaceHash fmt a = replaceHash fmt b) : a = b := by
  have hlen : a.length = b.length := by
    have h1 := replaceHash_length fmt a
    have h2 := replaceHash_length fmt b
    rw [h] at h1
    have h3 : fmt.count '#' * a.length = fmt.count '#' * b.length := by omega
    exact Nat.eq_of_mul_eq_mul_left (List.count_pos_iff.2 hf) h3
  induction fmt with
  | nil => cases hf
  | cons c fmt ih =>
    unfold replaceHash at h ih
    rw [List.flatMap_cons, List.flatMap_cons] at h
    by_cases hc : c = '#'
    · rw [if_pos hc, if_pos hc] at h
      exact (List.append_inj h hlen).1
    · rw [if_neg hc, if_neg hc] at h
      refine ih ?_ ((List.append_inj h rfl).2)
      rcases List.mem_cons.1 hf with h | h
      · exact absurd h.symm hc
      · exact h

/-- **C50.** A `SignalList` with a `#` in its format and any rule giving different texts for
different numbers has `limit` pairwise distinct names; without `#` or with limit 0 it is rejected. -/
theorem C50_names_distinct (fmt : Name) (n : Nat) (rule : Nat → Name)
    (hr : ∀ i j, i < n → j < n → rule i = rule j → i = j) :
    (0 < n ∧ '#' ∈ fmt → ∃ l, signalList fmt n rule = some l ∧ l.length = n ∧
      (l.map Prod.fst).Nodup) ∧
    (¬ (0 < n ∧ '#' ∈ fmt) → signalList fmt n rule = none) := by
  constructor
  · intro h
    refine ⟨_, if_pos h, by simp, ?_⟩
    rw [List.map_map]
    unfold List.Nodup
    rw [List.pairwise_map]
    refine List.Pairwise.imp_of_mem ?_ List.nodup_range
    intro i j hi hj hne he
    exact hne (hr i j (List.mem_range.1 hi) (List.mem_range.1 hj) (replaceHash_inj h.2 he))
  · intro h
    exact if_neg h

/-- **C50** for the default rule. -/
theorem C50_default_distinct (fmt : Name) (n : Nat) (hn : 0 < n) (hf : '#' ∈ fmt) :
    ∃ l, signalList fmt n defaultRule = some l ∧ l.length = n ∧ (l.map Prod.fst).Nodup :=
  (C50_names_distinct fmt n defaultRule fun _ _ _ _ h => toDigits_inj h).1 ⟨hn, hf⟩

/-- The same for the prefixes of the elements of a `BundleList`. -/
theorem C50_bundle_prefixes_distinct (fmt : Name) (n : Nat) (rule : Nat → Name)
    (hr : ∀ i j, i < n → j < n → rule i = rule j → i = j) :
    (0 < n ∧ '#' ∈ fmt → ∃ l, bundleListPrefixes fmt n rule = some l ∧ l.length = n ∧ l.Nodup) ∧
    (¬ (0 < n ∧ '#' ∈ fmt) → bundleListPrefixes fmt n rule = none) := by
  refine ⟨?_, fun h => if_neg h⟩
  rintro ⟨hn, hf⟩
  refine ⟨_, if_pos ⟨hn, hf⟩, by simp, ?_⟩
  unfold List.Nodup
  rw [List.pairwise_map]
  refine List.Pairwise.imp_of_mem ?_ List.nodup_range
  intro i j hi hj hne he
  exact hne (hr i j (List.mem_range.1 hi) (List.mem_range.1 hj) (replaceHash_inj hf he))

/-- **C50**, consequence for binding: in a level whose only slots are those of one signal list, a
DUT name denotes exactly one index. -/
theorem C50_one_index {fmt : Name} {n : Nat} {rule : Nat → Name}
    (hr : ∀ i j, i < n → j < n → rule i = rule j → i = j) {l : List (Name × Slot)}
    (hl : signalList fmt n rule = some l) {i : Nat} (hi : i < n) (name : Name) :
    ({ signals := [], lists := [(name, l)] } : Level).find (replaceHash fmt (rule i)) =
      some (.elem 0 i) := by
  have hpos : 0 < n ∧ '#' ∈ fmt := by
    unfold signalList at hl
    split at hl
    · assumption
    · cases hl
  obtain ⟨l', hl', _, hnd⟩ := (C50_names_distinct fmt n rule hr).1 hpos
  rw [hl] at hl'
  have hl' := Option.some.inj hl'
  subst hl'
  refine Level.find_of_name (lv := { signals := [], lists := [(name, l)] }) ?_ ?_
  · simpa [Level.names] using hnd
  · have he : l = (List.range n).map fun i => (replaceHash fmt (rule i), Slot.unconnected) := by
      unfold signalList at hl
      rw [if_pos hpos] at hl
      exact (Option.some.inj hl).symm
    simp [Level.nameOf, he, hi]

example : signalList "x#_#".toList 2 defaultRule =
    some [("x0_0".toList, .unconnected), ("x1_1".toList, .unconnected)] := by decide
example : signalList "x".toList 2 defaultRule = none := by decide
example : signalList "x#".toList 0 defaultRule = none := by decide

/-! ### C45 -/

/-- **C45.** `all_signals` yields every slot of the tree exactly once, with its path name and its
content. -/
theorem C45_every_slot_once (b : Bundle) (hb : b.Distinct) (level : Name) :
    ∃ ps : List (List Nat × Pos), ps.Nodup ∧
      (∀ is p, (is, p) ∈ ps ↔ ∃ s, b.slotAt is p = some s) ∧
      (b.allSignals level).map some = ps.map fun x =>
        (b.pathOf level x.1 x.2).bind fun t => (b.slotAt x.1 x.2).map fun s => (t, s) := by
  refine ⟨b.positions, positions_nodup b hb, ?_, ?_⟩
  · intro is p
    rw [mem_positions, Option.isSome_iff_exists]
  · rw [allSignals_eq b level hb]
    have : ∀ l : List (List Nat × Pos), (∀ x ∈ l, x ∈ b.positions) →
        (l.filterMap fun x => (b.pathOf level x.1 x.2).bind fun t =>
          (b.slotAt x.1 x.2).map fun s => (t, s)).map some =
        l.map fun x => (b.pathOf level x.1 x.2).bind fun t =>
          (b.slotAt x.1 x.2).map fun s => (t, s) := by
      intro l hl
      induction l with
      | nil => rfl
      | cons x xs ih =>
        have hs := (mem_positions b x.1 x.2).1 (hl x List.mem_cons_self)
        obtain ⟨s, hs'⟩ := Option.isSome_iff_exists.1 hs
        obtain ⟨t, ht⟩ := Option.isSome_iff_exists.1 (pathOf_isSome x.1 x.2 level hs)
        have hx : ((b.pathOf level x.1 x.2).bind fun t =>
          (b.slotAt x.1 x.2).map fun s => (t, s)) = some (t, s) := by rw [ht, hs']; rfl
        rw [List.filterMap_cons_some (f := fun x : List Nat × Pos => (b.pathOf level x.1 x.2).bind fun t =>
            (b.slotAt x.1 x.2).map fun s => (t, s)) hx, List.map_cons, List.map_cons, hx,
          ih fun y hy => hl y (List.mem_cons_of_mem _ hy)]
    exact this _ fun x hx => hx

/-- **C45.** The path names are pairwise distinct when sibling names are distinct and contain
neither `.` nor `[`. -/
theorem C45_paths_distinct (b : Bundle) (hb : b.Distinct) (hn : b.Named) :
    ((b.allSignals []).map Prod.fst).Nodup := by
  rw [allSignals_eq b [] hb]
  have hpos := positions_nodup b hb
  have hmem : ∀ x ∈ b.positions, x ∈ b.positions := fun x hx => hx
  generalize hl : b.positions = l at hpos hmem
  replace hmem : ∀ x ∈ l, x ∈ b.positions := by rw [hl]; exact hmem
  clear hl
  induction l with
  | nil => exact List.nodup_nil
  | cons x xs ih =>
    rw [List.nodup_cons] at hpos
    have ih := ih hpos.2 fun y hy => hmem y (List.mem_cons_of_mem _ hy)
    have hs := (mem_positions b x.1 x.2).1 (hmem x List.mem_cons_self)
    obtain ⟨s, hs'⟩ := Option.isSome_iff_exists.1 hs
    obtain ⟨t, ht⟩ := Option.isSome_iff_exists.1 (pathOf_isSome x.1 x.2 [] hs)
    have hx : ((b.pathOf [] x.1 x.2).bind fun t =>
      (b.slotAt x.1 x.2).map fun s => (t, s)) = some (t, s) := by rw [ht, hs']; rfl
    rw [List.filterMap_cons_some (f := fun x : List Nat × Pos => (b.pathOf [] x.1 x.2).bind fun t =>
            (b.slotAt x.1 x.2).map fun s => (t, s)) hx, List.map_cons, List.nodup_cons]
    refine ⟨?_, ih⟩
    intro hin
    obtain ⟨⟨t', s'⟩, hy, he⟩ := List.mem_map.1 hin
    have he : t' = t := he
    subst he
    obtain ⟨y, hyx, hy⟩ := List.mem_filterMap.1 hy
    have hys := (mem_positions b y.1 y.2).1 (hmem y (List.mem_cons_of_mem _ hyx))
    have hyt : b.pathOf [] y.1 y.2 = some t' := by
      cases h1 : b.pathOf [] y.1 y.2 with
      | none => rw [h1] at hy; cases hy
      | some u =>
        rw [h1] at hy
        cases h2 : b.slotAt y.1 y.2 with
        | none => rw [h2] at hy; cases hy
        | some v =>
          rw [h2] at hy
          simp only [Option.bind_some, Option.map_some, Option.some.injEq, Prod.mk.injEq] at hy
          rw [hy.1]
    obtain ⟨e1, e2⟩ := pathOf_inj hn hs hys ht hyt
    have : x = y := Prod.ext e1 e2
    exact hpos.1 (this ▸ hyx)

instance (n : Name) : Decidable n.Clean := inferInstanceAs (Decidable (_ ∧ _))

theorem demo_named : demoBundle.Named := by
  exact ⟨by decide, by decide, by decide, by decide, by decide,
    ⟨by decide, by decide, by decide, by decide, by decide, trivial⟩,
    ⟨by decide, by decide, by decide, by decide, by decide, trivial⟩, trivial⟩

example : (demoBundle.allSignals []).map Prod.fst =
    ["a".toList, "b".toList, "x[0]".toList, "x[1]".toList, "c.u".toList, "c.w".toList,
     "v[0].d".toList] := by decide

/-! ### C48 -/

/-- An enclosing bundle or an earlier sibling claims the name on the way to the slot. -/
inductive Blocked : Bundle → Name → List Nat → Prop
  | enclosing {b : Bundle} {n m : Name} {q : Pos} {i : Nat} {is : List Nat} :
      Turns b.rule n m → b.lvl.nameOf q = some m → Blocked b n (i :: is)
  | earlier {b k : Bundle} {n m : Name} {i j : Nat} {is : List Nat} :
      Turns b.rule n m → j < i → b.kids.get j = some k → Claims k m → Blocked b n (i :: is)
  | inside {b k : Bundle} {n m : Name} {i : Nat} {is : List Nat} :
      Turns b.rule n m → b.kids.get i = some k → Blocked k m is → Blocked b n (i :: is)

/-- The prefix of a rule. -/
def Rule.prefixText : Rule → Name
  | .pre p => p
  | _ => []

/-- The prefixes along the path followed by the name of the slot. -/
def Bundle.dutName (pre : Name) (b : Bundle) : List Nat → Pos → Option Name
  | [], p => (b.lvl.nameOf p).map fun n => pre ++ b.rule.prefixText ++ n
  | i :: is, p => (b.kids.get i).bind fun k => Bundle.dutName (pre ++ b.rule.prefixText) k is p

theorem dutName_pre (b : Bundle) (pre : Name) (is : List Nat) (p : Pos) :
    b.dutName pre is p = (b.dutName [] is p).map (pre ++ ·) := by
  induction is generalizing b pre with
  | nil =>
    simp only [Bundle.dutName]
    cases b.lvl.nameOf p <;> simp
  | cons i is ih =>
    simp only [Bundle.dutName]
    cases b.kids.get i with
    | none => rfl
    | some k =>
      simp only [Option.bind_some, List.nil_append]
      rw [ih k (pre ++ b.rule.prefixText), ih k b.rule.prefixText]
      cases k.dutName [] is p <;> simp

theorem Kids.prefixed_get {ks : Kids} (h : ks.Prefixed) {i : Nat} {k : Bundle}
    (hk : ks.get i = some k) : k.Prefixed := by
  induction i generalizing ks with
  | zero =>
    cases ks with
    | nil => cases hk
    | cons l b ks => cases hk; exact h.1
  | succ i ih =>
    cases ks with
    | nil => cases hk
    | cons l b ks => exact ih h.2 hk

/-- The DUT name of a slot denotes the slot unless it is claimed earlier. -/
theorem dutName_denotes {b : Bundle} (hp : b.Prefixed) (is : List Nat) (p : Pos) (n : Name)
    (h : b.dutName [] is p = some n) (hnb : ¬ Blocked b n is) : Denotes b n is p := by
  induction is generalizing b n with
  | nil =>
    obtain ⟨r, lv, c, ks⟩ := b
    obtain ⟨⟨q, rfl⟩, _⟩ := hp
    simp only [Bundle.dutName, Bundle.lvl, Bundle.rule, Rule.prefixText, List.nil_append] at h
    cases hn : lv.nameOf p with
    | none => rw [hn] at h; cases h
    | some m =>
      rw [hn] at h
      have h := Option.some.inj h
      subst h
      exact .here (b := .mk (.pre q) lv c ks) (.pre q m) hn
  | cons i is ih =>
    obtain ⟨r, lv, c, ks⟩ := b
    obtain ⟨⟨q, rfl⟩, hks⟩ := hp
    simp only [Bundle.dutName, Bundle.kids, Bundle.rule, Rule.prefixText, List.nil_append] at h
    cases hk : ks.get i with
    | none => rw [hk] at h; cases h
    | some k =>
      rw [hk] at h
      simp only [Option.bind_some] at h
      rw [dutName_pre] at h
      cases hm : k.dutName [] is p with
      | none => rw [hm] at h; cases h
      | some m =>
        rw [hm] at h
        have h := Option.some.inj h
        subst h
        have ht : Turns (Bundle.mk (.pre q) lv c ks).rule (q ++ m) m := .pre q m
        refine .inside ht ?_ hk ?_ (ih (Kids.prefixed_get hks hk) m hm ?_)
        · intro q' hq'
          exact hnb (.enclosing ht hq')
        · intro j k' hj hk' hcl
          exact hnb (.earlier ht hj hk' hcl)
        · intro hbl
          exact hnb (.inside ht hk hbl)

/-- The rule string of the slot at a path. -/
def Bundle.ruleAt (named : Bool) (st : Stack) (nm : Name) (b : Bundle) :
    List Nat → Pos → Option (Option Name)
  | [], p => (b.lvl.nameOf p).map (ruleText (st ++ [(b, nm)]))
  | i :: is, p => (b.kids.label i).bind fun l => (b.kids.get i).bind fun k =>
      Bundle.ruleAt named (st ++ [(b, nm)]) (kidName named (st ++ [(b, nm)]) l) k is p

mutual
theorem rules_eq (named : Bool) : ∀ (b : Bundle) (level : Name) (st : Stack) (nm : Name),
    b.Distinct → b.rules named level st nm = b.positions.filterMap fun x =>
      (b.pathOf level x.1 x.2).bind fun t => (b.ruleAt named st nm x.1 x.2).map fun s => (t, s)
  | .mk r lv c ks, level, st, nm, hb => by
    have hsig : (lv.signals.map Cell.name).Nodup := (List.nodup_append.1 hb.1).1
    rw [Bundle.rules, Bundle.positions, kidsRules_eq named ks level _ hb.2, List.filterMap_append,
      List.filterMap_map, List.filterMap_map, Level.positions, List.filterMap_append,
      List.filterMap_map, List.filterMap_map]
    congr 1
    congr 1
    · rw [signals_eq lv.signals hsig, List.filterMap_map]
      apply filterMap_congr'
      intro d hc
      simp only [Function.comp, Bundle.pathOf, Bundle.ruleAt, Bundle.lvl, Level.text, Level.nameOf,
        Option.map_some, Option.bind_some]
      have hin : d.name ∈ (Bundle.mk r lv c ks).lvl.signals.map Cell.name :=
        List.mem_map_of_mem hc
      have hif : (if d.name ∈ (Bundle.mk r lv c ks).lvl.signals.map Cell.name
        then some d.name else none) = some d.name := if_pos hin
      refine Eq.trans ?_ (congrArg (Option.map fun s => (appended level d.name, s))
        (congrArg (Option.map (ruleText (st ++ [(.mk r lv c ks, nm)]))) hif)).symm
      cases hf : lv.signals.find? (fun e => e.name = d.name) with
      | none => exact absurd (List.find?_eq_none.1 hf d hc) (by simp)
      | some e =>
        have := List.find?_some hf
        have : e.name = d.name := by simpa using this
        simp [this]
    · rw [lists_eq lv.lists _ (fun e j => (e.2[j]?).map fun x =>
        (appended level (indexed e.1 j), ruleText (st ++ [(.mk r lv c ks, nm)]) x.1))]
      · apply filterMap_congr'
        intro x _
        simp only [Function.comp, Bundle.pathOf, Bundle.ruleAt, Bundle.lvl, Level.text,
          Level.nameOf]
        cases lv.lists[x.1]? with
        | none => rfl
        | some e =>
          simp only [Option.map_some, Option.bind_some]
          cases e.2[x.2]? <;> rfl
      · intro e
        rw [listRules_eq]
        simp only [Nat.zero_add]
theorem kidsRules_eq (named : Bool) : ∀ (ks : Kids) (level : Name) (st : Stack), ks.Distinct →
    ks.rules named level st = ks.positions.filterMap fun x =>
      (ks.pathOf level x.1 x.2.1 x.2.2).bind fun t =>
        ((ks.label x.1).bind fun l => (ks.get x.1).bind fun k =>
          k.ruleAt named st (kidName named st l) x.2.1 x.2.2).map fun s => (t, s)
  | .nil, level, st, _ => by rw [Kids.rules, Kids.positions]; rfl
  | .cons l b ks, level, st, hb => by
    rw [Kids.rules, Kids.positions, List.filterMap_append, List.filterMap_map,
      List.filterMap_map, rules_eq named b _ _ _ hb.1, kidsRules_eq named ks level st hb.2]
    rfl
end

theorem label_isSome {ks : Kids} {i : Nat} {k : Bundle} (h : ks.get i = some k) :
    ∃ l, ks.label i = some l := by
  induction i generalizing ks with
  | zero =>
    cases ks with
    | nil => cases h
    | cons l b ks => exact ⟨l, rfl⟩
  | succ i ih =>
    cases ks with
    | nil => cases h
    | cons l b ks => exact ih h

theorem ruleAt_isSome {b : Bundle} (named : Bool) (is : List Nat) (p : Pos) (st : Stack) (nm : Name)
    (hs : (b.slotAt is p).isSome) : (b.ruleAt named st nm is p).isSome := by
  induction is generalizing b st nm with
  | nil =>
    obtain ⟨s, hs⟩ := Option.isSome_iff_exists.1 hs
    obtain ⟨n, hn⟩ := nameOf_of_slot hs
    simp only [Bundle.ruleAt, hn, Option.map_some, Option.isSome_some]
  | cons i is ih =>
    obtain ⟨r, lv, c, ks⟩ := b
    have hs : ((ks.get i).bind fun k => k.slotAt is p).isSome := hs
    simp only [Bundle.ruleAt, Bundle.kids]
    cases hk : ks.get i with
    | none => rw [hk] at hs; cases hs
    | some k =>
      rw [hk] at hs
      obtain ⟨l, hl⟩ := label_isSome hk
      rw [hl]
      exact ih _ _ hs

/-- With prefix rules only, the rule string is the concatenation of the prefixes and the name. -/
theorem ruleAt_prefixed {b : Bundle} (hp : b.Prefixed) (named : Bool) (is : List Nat) (p : Pos)
    (st : Stack) (nm pre : Name)
    (hst : ∀ st' sig, ruleText (st ++ st') sig = (ruleText st' sig).map fun t => pre ++ t) :
    b.ruleAt named st nm is p = (b.dutName pre is p).map some := by
  have step : ∀ (q : Name) lv c ks, b = .mk (.pre q) lv c ks → ∀ st' sig,
      ruleText ((st ++ [(b, nm)]) ++ st') sig = (ruleText st' sig).map fun t => (pre ++ q) ++ t := by
    rintro q lv c ks rfl st' sig
    rw [List.append_assoc, hst, List.singleton_append, ruleText]
    simp only [Bundle.rule]
    cases ruleText st' sig <;> simp
  induction is generalizing b st nm pre with
  | nil =>
    obtain ⟨r, lv, c, ks⟩ := b
    obtain ⟨⟨q, rfl⟩, _⟩ := hp
    simp only [Bundle.ruleAt, Bundle.dutName, Bundle.rule, Rule.prefixText]
    cases hn : (Bundle.mk (.pre q) lv c ks).lvl.nameOf p with
    | none => rfl
    | some n =>
      have := step q lv c ks rfl [] n
      rw [List.append_nil] at this
      simp [this, ruleText]
  | cons i is ih =>
    obtain ⟨r, lv, c, ks⟩ := b
    obtain ⟨⟨q, rfl⟩, hks⟩ := hp
    simp only [Bundle.ruleAt, Bundle.dutName, Bundle.rule, Rule.prefixText, Bundle.kids]
    cases hk : ks.get i with
    | none => cases ks.label i <;> rfl
    | some k =>
      obtain ⟨l, hl⟩ := label_isSome hk
      rw [hl]
      simp only [Option.bind_some]
      have hst' := step q lv c ks rfl
      refine ih (Kids.prefixed_get hks hk) _ _ _ hst' ?_
      rintro q' lv' c' ks' rfl st' sig
      rw [List.append_assoc, hst', List.singleton_append, ruleText]
      simp only [Bundle.rule]
      cases ruleText st' sig <;> simp

theorem dutName_isSome {b : Bundle} (is : List Nat) (p : Pos) (pre : Name)
    (hs : (b.slotAt is p).isSome) : (b.dutName pre is p).isSome := by
  induction is generalizing b pre with
  | nil =>
    obtain ⟨s, hs⟩ := Option.isSome_iff_exists.1 hs
    obtain ⟨n, hn⟩ := nameOf_of_slot hs
    simp only [Bundle.dutName, hn, Option.map_some, Option.isSome_some]
  | cons i is ih =>
    obtain ⟨r, lv, c, ks⟩ := b
    have hs : ((ks.get i).bind fun k => k.slotAt is p).isSome := hs
    simp only [Bundle.dutName, Bundle.kids]
    cases hk : ks.get i with
    | none => rw [hk] at hs; cases hs
    | some k =>
      rw [hk] at hs
      exact ih _ hs

/-- The loop of `all_signals_rule` visits every slot, in the order of `all_signals`. -/
theorem rules_paths (named : Bool) (b : Bundle) (hb : b.Distinct) (level : Name) (st : Stack)
    (nm : Name) :
    (b.rules named level st nm).map Prod.fst = (b.allSignals level).map Prod.fst := by
  rw [rules_eq named b level st nm hb, allSignals_eq b level hb]
  have : ∀ l : List (List Nat × Pos), (∀ x ∈ l, x ∈ b.positions) →
      (l.filterMap fun x => (b.pathOf level x.1 x.2).bind fun t =>
        (b.ruleAt named st nm x.1 x.2).map fun s => (t, s)).map Prod.fst =
      (l.filterMap fun x => (b.pathOf level x.1 x.2).bind fun t =>
        (b.slotAt x.1 x.2).map fun s => (t, s)).map Prod.fst := by
    intro l hl
    induction l with
    | nil => rfl
    | cons x xs ih =>
      have hs := (mem_positions b x.1 x.2).1 (hl x List.mem_cons_self)
      obtain ⟨s, hs'⟩ := Option.isSome_iff_exists.1 hs
      obtain ⟨t, ht⟩ := Option.isSome_iff_exists.1 (pathOf_isSome x.1 x.2 level hs)
      obtain ⟨n, hn⟩ := Option.isSome_iff_exists.1 (ruleAt_isSome named x.1 x.2 st nm hs)
      rw [List.filterMap_cons_some (b := (t, n)) (f := fun x : List Nat × Pos => (b.pathOf level x.1 x.2).bind fun t =>
            (b.ruleAt named st nm x.1 x.2).map fun s => (t, s)) (by simp only [ht, hn]; rfl),
        List.filterMap_cons_some (b := (t, s)) (f := fun x : List Nat × Pos => (b.pathOf level x.1 x.2).bind fun t =>
            (b.slotAt x.1 x.2).map fun s => (t, s)) (by simp only [ht, hs']; rfl), List.map_cons, List.map_cons,
        ih fun y hy => hl y (List.mem_cons_of_mem _ hy)]
  exact this _ fun x hx => hx

theorem mapM_rules {l : List (Name × Option Name)} {rs : List (Name × Name)}
    (h : l.mapM (fun x => x.2.map fun t => (x.1, t)) = some rs) :
    l = rs.map fun x => (x.1, some x.2) := by
  induction l generalizing rs with
  | nil =>
    have : rs = [] := by simpa using h.symm
    rw [this]; rfl
  | cons x xs ih =>
    rw [List.mapM_cons] at h
    obtain ⟨t, o⟩ := x
    cases o with
    | none => cases h
    | some o =>
      cases hx : xs.mapM (fun x : Name × Option Name => x.2.map fun t => (x.1, t)) with
      | none => rw [hx] at h; cases h
      | some ys =>
        rw [hx] at h
        have h : some ((t, o) :: ys) = some rs := h
        rw [← Option.some.inj h, ih hx]
        rfl

theorem mapM_rules_isSome {l : List (Name × Option Name)} (h : ∀ x ∈ l, x.2.isSome) :
    ∃ rs, l.mapM (fun x => x.2.map fun t => (x.1, t)) = some rs := by
  induction l with
  | nil => exact ⟨[], rfl⟩
  | cons x xs ih =>
    obtain ⟨rs, hr⟩ := ih fun y hy => h y (List.mem_cons_of_mem _ hy)
    obtain ⟨t, o⟩ := x
    have := h (t, o) List.mem_cons_self
    cases o with
    | none => cases this
    | some o => exact ⟨(t, o) :: rs, by rw [List.mapM_cons, hr]; rfl⟩

/-- **C48.** For a bundle built with prefix rules, `all_signals_rule()` returns, whether called before
or after `bind`, and has an entry for every slot, in the order of `all_signals`. -/
theorem C48_every_slot (named : Bool) (b : Bundle) (hb : b.Distinct) (hp : b.Prefixed) (name : Name) :
    ∃ rs, b.allSignalsRule named name = some rs ∧
      rs.map Prod.fst = (b.allSignals name).map Prod.fst := by
  have h : ∀ x ∈ b.rules named name [] name, x.2.isSome := by
    intro x hx
    rw [rules_eq named b name [] name hb] at hx
    obtain ⟨y, _, he⟩ := List.mem_filterMap.1 hx
    rw [ruleAt_prefixed hp named y.1 y.2 [] name [] (fun st' sig => by simp)] at he
    cases h1 : b.pathOf name y.1 y.2 with
    | none => rw [h1] at he; cases he
    | some t =>
      cases h2 : b.dutName [] y.1 y.2 with
      | none => rw [h1, h2] at he; cases he
      | some n =>
        rw [h1, h2] at he
        have he : some (t, some n) = some x := he
        rw [← Option.some.inj he]
        rfl
  obtain ⟨rs, hr⟩ := mapM_rules_isSome h
  refine ⟨rs, hr, ?_⟩
  have h1 := rules_paths named b hb name [] name
  rw [mapM_rules hr, List.map_map] at h1
  exact h1

/-- **C48.** The rule string reported for a slot is a DUT signal name which, when present in the DUT,
is connected to that slot unless an enclosing bundle or an earlier sibling claims the name. -/
theorem C48_rule_connects (named : Bool) (b : Bundle) (hb : b.Distinct) (hp : b.Prefixed)
    (name : Name) {rs : List (Name × Name)} (hr : b.allSignalsRule named name = some rs)
    {t n : Name} (h : (t, n) ∈ rs) :
    ∃ is p, b.pathOf name is p = some t ∧ (b.slotAt is p).isSome ∧
      (¬ Blocked b n is → Denotes b n is p ∧
        ∀ (access : Bool) (dut : List DutSig), (dut.map DutSig.name).Nodup →
          ∀ d ∈ dut, d.name = n → (b.bind access dut).1.slotAt is p = some (.pin d.pin)) := by
  have h : (t, some n) ∈ b.rules named name [] name := by
    rw [mapM_rules hr]
    exact List.mem_map_of_mem h
  rw [rules_eq named b name [] name hb] at h
  obtain ⟨x, hx, he⟩ := List.mem_filterMap.1 h
  have hs := (mem_positions b x.1 x.2).1 hx
  obtain ⟨t', ht⟩ := Option.isSome_iff_exists.1 (pathOf_isSome x.1 x.2 name hs)
  obtain ⟨n', hn⟩ := Option.isSome_iff_exists.1 (dutName_isSome x.1 x.2 [] hs)
  rw [ruleAt_prefixed hp named x.1 x.2 [] name [] (fun st' sig => by simp), ht, hn] at he
  simp only [Option.bind_some, Option.map_some, Option.some.injEq, Prod.mk.injEq] at he
  obtain ⟨rfl, rfl⟩ := he
  refine ⟨x.1, x.2, ht, hs, ?_⟩
  intro hnb
  have hden := dutName_denotes hp x.1 x.2 n' hn hnb
  refine ⟨hden, ?_⟩
  intro access dut hd d hdm hdn
  have hplain : b.Plain := by
    have key : (∀ b : Bundle, b.Prefixed → b.Plain) := by
      intro b
      refine Bundle.rec (motive_1 := fun b => b.Prefixed → b.Plain)
        (motive_2 := fun ks => ks.Prefixed → ks.Plain) ?_ ?_ ?_ b
      · intro r lv c ks ih h
        obtain ⟨⟨q, rfl⟩, h2⟩ := h
        exact ⟨trivial, ih h2⟩
      · intro _
        exact trivial
      · intro l b ks ih1 ih2 h
        exact ⟨ih1 h.1, ih2 h.2⟩
    exact key b hp
  rcases bind_slots access b dut hb hd x.1 x.2 with ⟨d', hdm', h1, h2⟩ | ⟨h1, h2⟩
  · have hn' := denotes_inj hplain h1 hden
    have : d' = d := nodup_map_inj DutSig.name hd hdm' hdm (hn'.trans hdn.symm)
    rw [h2, this]
  · exact absurd (hdn ▸ hden) (h1 d hdm)

/-- A concrete tree: the slot `c.u` has the rule string `io_c_u`, which is not claimed before. -/
def demoPrefixed : Bundle :=
  .mk (.pre "io_".toList)
    { signals := [⟨"a".toList, true, .unconnected⟩]
      lists := [("x".toList, [("x_0".toList, .unconnected), ("x_1".toList, .unconnected)])] }
    none
    (.cons (.sub "c".toList)
      (.mk (.pre "c_".toList) { signals := [⟨"u".toList, false, .absent⟩], lists := [] } none .nil)
      .nil)

example : demoPrefixed.Distinct ∧ demoPrefixed.Prefixed ∧
    demoPrefixed.allSignalsRule false [] =
      some [("a".toList, "io_a".toList), ("x[0]".toList, "io_x_0".toList),
       ("x[1]".toList, "io_x_1".toList), ("c.u".toList, "io_c_u".toList)] ∧
    ¬ Blocked demoPrefixed "io_c_u".toList [0] := by
  refine ⟨⟨by decide, ⟨by decide, trivial⟩, trivial⟩, ⟨⟨_, rfl⟩, ⟨⟨_, rfl⟩, trivial⟩, trivial⟩,
    by decide, ?_⟩
  have hd : demoPrefixed.lvl.names.Nodup := by decide
  intro h
  cases h with
  | enclosing ht hq =>
    rw [turns_iff] at ht
    have hm := Level.find_of_name hd hq
    have hs : demoPrefixed.rule.strip "io_c_u".toList = some "c_u".toList := by decide
    rw [hs] at ht
    cases ht
    revert hm
    have : demoPrefixed.lvl.find "c_u".toList = none := by decide
    rw [this]
    simp
  | earlier _ hj _ _ => omega
  | inside _ hk hb =>
    cases hk
    cases hb

end Toffee.Bundle
