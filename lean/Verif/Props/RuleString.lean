import Verif.Props.BundleWarn

/-!
`bind` and `all_signals_rule` with dictionary rules (`toffee/bundle.py` 1549-1641): C111.
-/

namespace Toffee.Bundle

/-! ### Specification -/

/-- No key of the dictionary is also one of its values. -/
def Rule.Apart : Rule → Prop
  | .dict d => ∀ kv ∈ d, kv.1 ∉ d.map Prod.snd
  | _ => True

mutual
/-- No key of a dictionary of the tree is also a value of it. -/
def Bundle.Apart : Bundle → Prop
  | .mk r _ _ ks => r.Apart ∧ Kids.Apart ks
def Kids.Apart : Kids → Prop
  | .nil => True
  | .cons _ b ks => Bundle.Apart b ∧ Kids.Apart ks
end

/-- The prefixes on the way to the bundle of the slot and its own prefix or dictionary turn the DUT
name `t` into the name of the slot. -/
inductive Leads : Bundle → List Nat → Pos → Name → Prop
  | here {b : Bundle} {t m : Name} {p : Pos} :
      b.rule.Plain → Turns b.rule t m → b.lvl.nameOf p = some m → Leads b [] p t
  | inside {b k : Bundle} {q m : Name} {i : Nat} {is : List Nat} {p : Pos} :
      b.rule = .pre q → b.kids.get i = some k → Leads k is p m → Leads b (i :: is) p (q ++ m)

/-! ### `detect_specific_connectivity` -/

theorem specific_unmatched {b : Bundle} {k : Name} (h : b.rule.strip k = none) (path : Name) :
    b.detectSpecific k path = some (decide (k = path)) := by
  obtain ⟨r, lv, c, ks⟩ := b
  have h : r.strip k = none := h
  rw [Bundle.detectSpecific, Bundle.detectSpecificList]
  simp only [detectLevel, List.foldl_cons, List.foldl_nil, detectOne, h, if_true, List.nil_append,
    kids_specific_nil, Option.map_some, revert, List.map_nil, pickSpecific, appended]
  by_cases hk : k = path
  · simp [hk]
  · simp [hk]

theorem strip_dict_none {d : List (Name × Name)} {k : Name} (h : k ∉ d.map Prod.snd) :
    (Rule.dict d).strip k = none := by
  simp only [Rule.strip]
  rw [List.find?_eq_none.2]
  · rfl
  · intro x hx
    simp only [beq_iff_eq]
    intro e
    exact h (e ▸ List.mem_map_of_mem hx)

theorem filterDict_apart {b : Bundle} {d : List (Name × Name)} (path : Name)
    (hr : ∀ kv ∈ d, b.rule.strip kv.1 = none) :
    b.filterDict path d = some ((d.filter fun kv => kv.1 = path).map Prod.snd) := by
  induction d with
  | nil => rfl
  | cons kv d ih =>
    rw [Bundle.filterDict, specific_unmatched (hr kv List.mem_cons_self) path,
      ih fun x hx => hr x (List.mem_cons_of_mem _ hx)]
    simp only [Option.bind_some, Option.map_some, List.filter_cons, decide_eq_true_eq]
    split <;> rfl

theorem ruleText_isSome {st : Stack} (h : ∀ x ∈ st, x.1.rule.Apart) (sig : Name) :
    (ruleText st sig).isSome := by
  induction st with
  | nil => rfl
  | cons x st ih =>
    have h1 := h x List.mem_cons_self
    have h2 := ih fun y hy => h y (List.mem_cons_of_mem _ hy)
    rw [ruleText]
    cases hr : x.1.rule with
    | pre p => simpa using h2
    | regex pat f => simpa using h2
    | dict d =>
      rw [hr] at h1
      have := filterDict_apart (b := x.1) (relPath st sig) (d := d)
        fun kv hkv => by rw [hr]; exact strip_dict_none (h1 kv hkv)
      simp only [this]
      rfl

theorem listRules_isSome {txt : Name → Option Name} (h : ∀ n, (txt n).isSome) (level name : Name)
    (i : Nat) (es : List (Name × Slot)) : ∀ x ∈ listRules level name txt i es, x.2.isSome := by
  induction es generalizing i with
  | nil => intro x hx; cases hx
  | cons e es ih =>
    intro x hx
    rw [listRules] at hx
    rcases List.mem_cons.1 hx with rfl | hx
    · exact h _
    · exact ih _ x hx

theorem listWarn_isSome {txt : Name → Option Name} (h : ∀ n, (txt n).isSome) (con : List Name)
    (name : Name) (i : Nat) (es : List (Name × Slot)) (level : Name) :
    ∀ x ∈ (listWarn con name txt i es level).1, x.2.isSome := by
  induction es generalizing i level with
  | nil => intro x hx; cases hx
  | cons e es ih =>
    rw [listWarn]
    split
    · exact ih _ _
    · intro x hx
      rcases List.mem_cons.1 hx with rfl | hx
      · exact h _
      · exact ih _ _ x hx

theorem listsWarn_isSome {txt : Name → Option Name} (h : ∀ n, (txt n).isSome) (con : List Name)
    (ls : List (Name × List (Name × Slot))) (level : Name) :
    ∀ x ∈ listsWarn con txt ls level, x.2.isSome := by
  induction ls generalizing level with
  | nil => intro x hx; cases hx
  | cons l ls ih =>
    intro x hx
    rw [listsWarn] at hx
    rcases List.mem_append.1 hx with hx | hx
    · exact listWarn_isSome h con _ _ _ _ x hx
    · exact ih _ x hx

mutual
theorem rules_isSome (named : Bool) : ∀ (b : Bundle) (level : Name) (st : Stack) (nm : Name),
    b.Apart → (∀ x ∈ st, x.1.rule.Apart) → ∀ x ∈ b.rules named level st nm, x.2.isSome
  | .mk r lv c ks, level, st, nm, hb, hst => by
    have hst' : ∀ x ∈ st ++ [(Bundle.mk r lv c ks, nm)], x.1.rule.Apart := by
      intro x hx
      rcases List.mem_append.1 hx with hx | hx
      · exact hst x hx
      · rw [List.mem_singleton.1 hx]; exact hb.1
    have ht := fun n => ruleText_isSome hst' n
    intro x hx
    rw [Bundle.rules] at hx
    rcases List.mem_append.1 hx with hx | hx
    · rcases List.mem_append.1 hx with hx | hx
      · obtain ⟨c, _, rfl⟩ := List.mem_map.1 hx
        exact ht _
      · obtain ⟨l, _, hx⟩ := List.mem_flatMap.1 hx
        exact listRules_isSome ht _ _ _ _ x hx
    · exact kidsRules_isSome named ks level _ hb.2 hst' x hx
theorem kidsRules_isSome (named : Bool) : ∀ (ks : Kids) (level : Name) (st : Stack),
    ks.Apart → (∀ x ∈ st, x.1.rule.Apart) → ∀ x ∈ ks.rules named level st, x.2.isSome
  | .nil, _, _, _, _ => by intro x hx; cases hx
  | .cons l b ks, level, st, hb, hst => by
    intro x hx
    rw [Kids.rules] at hx
    rcases List.mem_append.1 hx with hx | hx
    · exact rules_isSome named b _ st _ hb.1 hst x hx
    · exact kidsRules_isSome named ks level st hb.2 hst x hx
end

mutual
theorem warn_isSome : ∀ (b : Bundle) (level : Name) (st : Stack) (nm : Name) (sigs : List Sig),
    b.Apart → (∀ x ∈ st, x.1.rule.Apart) → ∀ x ∈ b.warn level st nm sigs, x.2.isSome
  | .mk r lv c ks, level, st, nm, sigs, hb, hst => by
    have hst' : ∀ x ∈ st ++ [(Bundle.mk r lv c ks, nm)], x.1.rule.Apart := by
      intro x hx
      rcases List.mem_append.1 hx with hx | hx
      · exact hst x hx
      · rw [List.mem_singleton.1 hx]; exact hb.1
    have ht := fun n => ruleText_isSome hst' n
    intro x hx
    rw [Bundle.warn, levelWarn] at hx
    rcases List.mem_append.1 hx with hx | hx
    · rcases List.mem_append.1 hx with hx | hx
      · obtain ⟨c, _, rfl⟩ := List.mem_map.1 hx
        exact ht _
      · exact listsWarn_isSome ht _ _ _ x hx
    · exact kidsWarn_isSome ks level _ _ hb.2 hst' x hx
theorem kidsWarn_isSome : ∀ (ks : Kids) (level : Name) (st : Stack) (sigs : List Sig),
    ks.Apart → (∀ x ∈ st, x.1.rule.Apart) → ∀ x ∈ ks.warn level st sigs, x.2.isSome
  | .nil, _, _, _, _, _ => by intro x hx; cases hx
  | .cons l b ks, level, st, sigs, hb, hst => by
    intro x hx
    rw [Kids.warn] at hx
    rcases List.mem_append.1 hx with hx | hx
    · exact warn_isSome b _ st _ sigs hb.1 hst x hx
    · exact kidsWarn_isSome ks level st _ hb.2 hst x hx
end

/-! ### C111 -/

/-- **C111 (partial).** If no key of a dictionary of the bundle tree is also one of its values (in
particular, with prefix and regex rules only), `bind` to any DUT returns, whatever signals the DUT
lacks, and `all_signals_rule` returns before and after.  Missing: dictionaries with a key that is also
a value, see `C111_raises_violated`. -/
theorem C111_returns_partial (access : Bool) (name : Name) (b : Bundle) (dut : List DutSig)
    (h : b.Apart) :
    (∃ ws, b.bindResult access name dut = some (b.bind access dut, ws)) ∧
    ∀ named, ∃ rs, b.allSignalsRule named name = some rs := by
  refine ⟨?_, fun named => mapM_rules_isSome
    (rules_isSome named b name [] name h (by intro x hx; cases hx))⟩
  obtain ⟨ws, hw⟩ := mapM_rules_isSome
    (warn_isSome b name [] name (dutSignals dut) h (by intro x hx; cases hx))
  refine ⟨ws, ?_⟩
  unfold Bundle.bindResult Bundle.warnings
  rw [hw]
  rfl

/-- `Bundle.from_dict({"a": "b", "b": "c"})` of a class with the signals `a` and `b`. -/
def crossed : Bundle :=
  .mk (.dict [("a".toList, "b".toList), ("b".toList, "c".toList)])
    { signals := [⟨"a".toList, true, .unconnected⟩, ⟨"b".toList, true, .unconnected⟩], lists := [] }
    none .nil

/-- **C111 (violated).** The bundle `crossed` connects its slots to the DUT signals `b` and `c` if both
are there; if the DUT lacks `c`, `bind` raises `TypeError`, and `all_signals_rule` always raises it. -/
theorem C111_raises_violated :
    (crossed.bindResult true [] [⟨"b".toList, 0, 0⟩, ⟨"c".toList, 1, 0⟩]).map
      (fun r => (r.1.1.allSignals [], r.2)) =
        some ([("a".toList, .pin 0), ("b".toList, .pin 1)], []) ∧
    (crossed.bindResult true [] [⟨"b".toList, 0, 0⟩]).isNone ∧
    ∀ named, crossed.allSignalsRule named [] = none := by
  refine ⟨by decide, by decide, by decide⟩

theorem filterDict_none {b : Bundle} {path : Name} {d : List (Name × Name)} :
    b.filterDict path d = none ↔ ∃ kv ∈ d, b.detectSpecific kv.1 path = none := by
  induction d with
  | nil => simp [Bundle.filterDict]
  | cons kv d ih =>
    rw [Bundle.filterDict]
    cases h1 : b.detectSpecific kv.1 path with
    | none => simp [h1]
    | some hit =>
      rw [Option.bind_some, Option.map_eq_none_iff, ih]
      simp [h1]

theorem specific_flat (d : List (Name × Name)) (lv : Level) (c : Option Nat) (k path : Name)
    (hd : lv.names.Nodup) :
    (Bundle.mk (.dict d) lv c .nil).detectSpecific k path = none ↔
      ∃ m p, Turns (.dict d) k m ∧ lv.nameOf p = some m := by
  cases hs : (Rule.dict d).strip k with
  | none =>
    rw [specific_unmatched (b := .mk (.dict d) lv c .nil) hs]
    constructor
    · intro h; cases h
    · rintro ⟨m, p, ht, _⟩
      rw [turns_iff, hs] at ht
      cases ht
  | some m =>
    rw [Bundle.detectSpecific, Bundle.detectSpecificList]
    simp only [detectLevel, List.foldl_cons, List.foldl_nil, detectOne, hs]
    cases hf : lv.find m with
    | some q =>
      simp only [List.nil_append, List.cons_ne_nil, if_false, Option.map_none, true_iff]
      exact ⟨m, q, (turns_iff _ _ _).2 hs, Level.find_name hf⟩
    | none =>
      simp only [List.nil_append, if_true, Kids.detectSpecificList, Option.map_some, reduceCtorEq,
        false_iff]
      rintro ⟨m', p, ht, hp⟩
      rw [turns_iff, hs] at ht
      obtain rfl := Option.some.inj ht
      rw [Level.find_of_name hd hp] at hf
      cases hf

/-- **C111.** Exactly when it fails, for a bundle made with `from_dict` that has no sub-bundles: `bind`
raises if and only if some slot stays without a pin and some key of the dictionary is also a value,
namely (the first one) of a key that is the name of a slot. -/
theorem C111_raises_iff (access : Bool) (name : Name) (d : List (Name × Name)) (lv : Level)
    (c : Option Nat) (dut : List DutSig) (hd : lv.names.Nodup)
    (hf : (Bundle.mk (.dict d) lv c .nil).Fresh) :
    (Bundle.mk (.dict d) lv c .nil).bindResult access name dut = none ↔
      (∃ x ∈ ((Bundle.mk (.dict d) lv c .nil).bind access dut).1.allSignals name, x.2.open) ∧
      ∃ k ∈ d.map Prod.fst, ∃ m p, Turns (.dict d) k m ∧ lv.nameOf p = some m := by
  have hw := warn_open access (.mk (.dict d) lv c .nil) name [] name (dutSignals dut)
    ⟨hd, trivial⟩ hf
  have htxt : ∀ sig, ruleText ([] ++ [(Bundle.mk (.dict d) lv c .nil, name)]) sig = none ↔
      ∃ k ∈ d.map Prod.fst, ∃ m p, Turns (.dict d) k m ∧ lv.nameOf p = some m := by
    intro sig
    rw [List.nil_append, ruleText]
    simp only [Bundle.rule, Option.map_eq_none_iff, filterDict_none, specific_flat d lv c _ _ hd,
      List.mem_map]
    constructor
    · rintro ⟨kv, h1, h2⟩
      exact ⟨kv.1, ⟨kv, h1, rfl⟩, h2⟩
    · rintro ⟨k, ⟨kv, h1, rfl⟩, h2⟩
      exact ⟨kv, h1, h2⟩
  have hnone : (Bundle.mk (.dict d) lv c .nil).bindResult access name dut = none ↔
      ∃ x ∈ (Bundle.mk (.dict d) lv c .nil).warnings name dut, x.2 = none := by
    unfold Bundle.bindResult
    rw [Option.map_eq_none_iff]
    constructor
    · intro h
      apply Classical.byContradiction
      intro hc
      obtain ⟨rs, hr⟩ := mapM_rules_isSome
        (l := (Bundle.mk (.dict d) lv c .nil).warnings name dut) (by
          intro x hx
          cases hx2 : x.2 with
          | some t => rfl
          | none => exact absurd ⟨x, hx, hx2⟩ hc)
      rw [hr] at h
      cases h
    · rintro ⟨x, hx, hx2⟩
      cases hm : ((Bundle.mk (.dict d) lv c .nil).warnings name dut).mapM
          (fun (x : Name × Option Name) => x.2.map fun t => (x.1, t)) with
      | none => rfl
      | some rs =>
        rw [mapM_rules hm] at hx
        obtain ⟨y, _, rfl⟩ := List.mem_map.1 hx
        cases hx2
  -- every warning carries the same failure
  have hall : ∀ x ∈ (Bundle.mk (.dict d) lv c .nil).warnings name dut,
      ∃ sig, x.2 = ruleText ([] ++ [(Bundle.mk (.dict d) lv c .nil, name)]) sig := by
    intro x hx
    have hx' : x.2 ∈ ((Bundle.mk (.dict d) lv c .nil).warnings name dut).map Prod.snd :=
      List.mem_map_of_mem hx
    have hx' := hw.2.1 ▸ hx'
    obtain ⟨y, hy, he⟩ := List.mem_map.1 hx'
    obtain ⟨z, hz, rfl⟩ := List.mem_map.1 hy
    have hz := (List.of_mem_zip (List.mem_filter.1 hz).1).1
    rw [← he]
    rw [Bundle.rules] at hz
    rcases List.mem_append.1 hz with hz | hz
    · rcases List.mem_append.1 hz with hz | hz
      · obtain ⟨e, _, hz⟩ := List.mem_map.1 hz
        exact ⟨e.name, by rw [← hz]⟩
      · obtain ⟨l, _, hz⟩ := List.mem_flatMap.1 hz
        rw [listRules_eq] at hz
        obtain ⟨j, _, hz⟩ := List.mem_filterMap.1 hz
        cases hl : l.2[j]? with
        | none => rw [hl] at hz; cases hz
        | some e =>
          rw [hl] at hz
          exact ⟨e.1, by rw [← Option.some.inj hz]⟩
    · cases hz
  have hlen : (∃ x, x ∈ (Bundle.mk (.dict d) lv c .nil).warnings name dut) ↔
      ∃ x ∈ ((Bundle.mk (.dict d) lv c .nil).bind access dut).1.allSignals name, x.2.open := by
    constructor
    · rintro ⟨x, hx⟩
      have hx' : x.2 ∈ ((Bundle.mk (.dict d) lv c .nil).warnings name dut).map Prod.snd :=
        List.mem_map_of_mem hx
      have hx' := hw.2.1 ▸ hx'
      obtain ⟨y, hy, _⟩ := List.mem_map.1 hx'
      obtain ⟨z, hz, rfl⟩ := List.mem_map.1 hy
      obtain ⟨h1, h2⟩ := List.mem_filter.1 hz
      exact ⟨z.2, (List.of_mem_zip h1).2, h2⟩
    · rintro ⟨x, hx, ho⟩
      have hl := length_of_paths hw.1
      obtain ⟨j, hj⟩ := List.getElem?_of_mem hx
      have hjl := (List.getElem?_eq_some_iff.1 hj).1
      have hjl' : j < ((Bundle.mk (.dict d) lv c .nil).rules true name [] name).length := by
        rw [hl]; exact hjl
      have hmem : (((Bundle.mk (.dict d) lv c .nil).rules true name [] name)[j], x) ∈
          ((Bundle.mk (.dict d) lv c .nil).rules true name [] name).zip
            (((Bundle.mk (.dict d) lv c .nil).bind access dut).1.allSignals name) := by
        refine List.mem_of_getElem? (i := j) ?_
        rw [List.getElem?_zip_eq_some]
        exact ⟨List.getElem?_eq_getElem hjl', hj⟩
      have h3 : ((((Bundle.mk (.dict d) lv c .nil).rules true name [] name)[j]).2) ∈
          ((Bundle.mk (.dict d) lv c .nil).warnings name dut).map Prod.snd := by
        refine hw.2.1 ▸ ?_
        exact List.mem_map_of_mem (List.mem_map.2 ⟨_, List.mem_filter.2 ⟨hmem, ho⟩, rfl⟩)
      obtain ⟨y, hy, _⟩ := List.mem_map.1 h3
      exact ⟨y, hy⟩
  rw [hnone, ← hlen]
  constructor
  · rintro ⟨x, hx, hx2⟩
    obtain ⟨sig, hsig⟩ := hall x hx
    exact ⟨⟨x, hx⟩, (htxt sig).1 (hsig ▸ hx2)⟩
  · rintro ⟨⟨x, hx⟩, h⟩
    obtain ⟨sig, hsig⟩ := hall x hx
    exact ⟨x, hx, hsig ▸ (htxt sig).2 h⟩

example : crossed.Distinct ∧ crossed.Fresh ∧
    (∃ k ∈ (["a".toList, "b".toList] : List Name), ∃ m p,
      Turns crossed.rule k m ∧ crossed.lvl.nameOf p = some m) := by
  refine ⟨⟨by decide, trivial⟩, ⟨level_fresh _ (by decide), trivial⟩, "b".toList, by decide,
    "a".toList, .sig "a".toList, ?_, by decide⟩
  exact (turns_iff _ _ _).2 (by decide)

/-! ### The rule of a slot -/

theorem leads_rule {b : Bundle} (hb : b.Apart) {is : List Nat} {p : Pos} {t : Name}
    (h : Leads b is p t) (named : Bool) (st : Stack) (nm pre : Name)
    (hst : ∀ st' sig, ruleText (st ++ st') sig = (ruleText st' sig).map fun t => pre ++ t) :
    b.ruleAt named st nm is p = some (some (pre ++ t)) := by
  induction h generalizing st nm pre with
  | @here b t m p hp ht hn =>
    rw [Bundle.ruleAt, hn, Option.map_some, hst]
    obtain ⟨r, lv, c, ks⟩ := b
    have ht : Turns r t m := ht
    have hp : r.Plain := hp
    have hb := hb.1
    rw [ruleText]
    simp only [Bundle.rule]
    cases ht with
    | pre q m => simp [ruleText]
    | regex pat f h => exact hp.elim
    | dict l₁ l₂ m hnot =>
      simp only []
      rw [filterDict_apart (b := .mk (.dict (l₁ ++ (m, t) :: l₂)) lv c ks) _
        fun kv hkv => strip_dict_none (hb kv hkv)]
      have hnd : ((l₁ ++ (m, t) :: l₂).map Prod.fst).Nodup := hp
      have hfil : (l₁ ++ (m, t) :: l₂).filter (fun kv => kv.1 = relPath [] m) = [(m, t)] := by
        rw [List.map_append, List.map_cons, List.nodup_append] at hnd
        obtain ⟨_, h2, h3⟩ := hnd
        rw [List.filter_append, List.filter_cons, relPath]
        have e1 : l₁.filter (fun kv => kv.1 = m) = [] := by
          rw [List.filter_eq_nil_iff]
          intro x hx
          simpa using h3 x.1 (List.mem_map_of_mem hx) m List.mem_cons_self
        have e2 : l₂.filter (fun kv => kv.1 = m) = [] := by
          rw [List.filter_eq_nil_iff]
          intro x hx
          have := (List.nodup_cons.1 h2).1
          simp only [decide_eq_true_eq]
          intro e
          exact this (List.mem_map.2 ⟨x, hx, e⟩)
        simp [e1, e2]
      rw [hfil]
      rfl
  | @inside b k q m i is p hr hk hl ih =>
    obtain ⟨r, lv, c, ks⟩ := b
    have hr : r = .pre q := hr
    subst hr
    have hk : ks.get i = some k := hk
    obtain ⟨l, hlab⟩ := label_isSome hk
    simp only [Bundle.ruleAt, Bundle.kids, hk, hlab, Option.bind_some]
    have hbk : ∀ {ks : Kids} {i : Nat}, ks.Apart → ks.get i = some k → k.Apart := by
      intro ks i
      induction i generalizing ks with
      | zero =>
        intro h1 h2
        cases ks with
        | nil => cases h2
        | cons => cases h2; exact h1.1
      | succ i ih =>
        intro h1 h2
        cases ks with
        | nil => cases h2
        | cons => exact ih h1.2 h2
    rw [ih (hbk hb.2 hk) _ _ (pre ++ q)]
    · rw [List.append_assoc]
    · intro st' sig
      rw [List.append_assoc, hst, List.singleton_append, ruleText]
      simp only [Bundle.rule]
      cases ruleText st' sig <;> simp

theorem leads_denotes {b : Bundle} {is : List Nat} {p : Pos} {t : Name} (h : Leads b is p t)
    (hnb : ¬ Blocked b t is) : Denotes b t is p := by
  induction h with
  | here _ ht hn => exact .here ht hn
  | @inside b k q m i is p hr hk hl ih =>
    have ht : Turns b.rule (q ++ m) m := hr ▸ .pre q m
    refine .inside ht ?_ hk ?_ (ih ?_)
    · intro q' hq'
      exact hnb (.enclosing ht hq')
    · intro j k' hj hk' hcl
      exact hnb (.earlier ht hj hk' hcl)
    · intro hbl
      exact hnb (.inside ht hk hbl)

theorem leads_slot {b : Bundle} {is : List Nat} {p : Pos} {t : Name} (h : Leads b is p t) :
    (b.slotAt is p).isSome := by
  induction h with
  | @here b t m p _ ht hn =>
    obtain ⟨s, hs⟩ := denotes_slot (b := b) (.here ht hn)
    rw [hs]; rfl
  | @inside b k q m i is p hr hk hl ih =>
    show ((b.kids.get i).bind _).isSome
    rw [hk]
    exact ih

/-- **C111 (partial).** In a tree of prefix and dictionary rules in which no key of a dictionary is
also a value of it, the rule that `all_signals_rule` states for a slot whose enclosing bundles have
prefix rules is the DUT name which these prefixes and the bundle's own prefix or dictionary turn into
the name of the slot; a DUT signal of that name is connected to the slot, unless an enclosing bundle or
an earlier sibling claims the name.  Missing: slots below a bundle with a dictionary
(`C111_nested_violated`). -/
theorem C111_rule_partial (access named : Bool) (name : Name) (b : Bundle) (hb : b.Distinct)
    (ha : b.Apart) (hp : b.Plain) {is : List Nat} {p : Pos} {path t : Name}
    (hpath : b.pathOf name is p = some path) (h : Leads b is p t) :
    (∃ rs, b.allSignalsRule named name = some rs ∧ (path, t) ∈ rs) ∧
    (¬ Blocked b t is → ∀ dut : List DutSig, (dut.map DutSig.name).Nodup →
      ∀ x ∈ dut, x.name = t → (b.bind access dut).1.slotAt is p = some (.pin x.pin)) := by
  constructor
  · obtain ⟨rs, hr⟩ := (C111_returns_partial access name b [] ha).2 named
    refine ⟨rs, hr, ?_⟩
    have hm : (path, some t) ∈ b.rules named name [] name := by
      rw [rules_eq named b name [] name hb]
      refine List.mem_filterMap.2 ⟨(is, p), (mem_positions b is p).2 (leads_slot h), ?_⟩
      rw [hpath, leads_rule ha h named [] name [] fun st' sig => by simp]
      rfl
    rw [mapM_rules hr] at hm
    obtain ⟨y, hy, he⟩ := List.mem_map.1 hm
    simp only [Prod.mk.injEq, Option.some.injEq] at he
    obtain ⟨h1, h2⟩ := he
    rw [← h1, ← h2]
    exact hy
  · intro hnb dut hd x hx hxn
    have hden := leads_denotes h hnb
    rcases bind_slots access b dut hb hd is p with ⟨d', hdm', h1, h2⟩ | ⟨h1, h2⟩
    · have hn' := denotes_inj hp h1 hden
      have : d' = x := nodup_map_inj DutSig.name hd hdm' hx (hn'.trans hxn.symm)
      rw [h2, this]
    · exact absurd (hxn ▸ hden) (h1 x hx)

/-- **C111.** A slot of a bundle made with `from_dict` whose name is not a key of the dictionary is
reported as `<No Matching Signal in Dict>`, and no DUT signal is connected to it. -/
theorem C111_no_key (access named : Bool) (name : Name) (d : List (Name × Name)) (lv : Level)
    (c : Option Nat) (ks : Kids) (hb : (Bundle.mk (.dict d) lv c ks).Distinct)
    (hf : (Bundle.mk (.dict d) lv c ks).Fresh)
    (ha : (Bundle.mk (.dict d) lv c ks).Apart) {p : Pos} {n path : Name}
    (hn : lv.nameOf p = some n) (hpath : lv.text p = some path) (hk : n ∉ d.map Prod.fst) :
    (∃ rs, (Bundle.mk (.dict d) lv c ks).allSignalsRule named name = some rs ∧
      (appended name path, "<No Matching Signal in Dict>".toList) ∈ rs) ∧
    ∀ dut : List DutSig, (dut.map DutSig.name).Nodup → ∀ q,
      ((Bundle.mk (.dict d) lv c ks).bind access dut).1.slotAt [] p ≠ some (.pin q) := by
  have hnd : ∀ t, ¬ Denotes (Bundle.mk (.dict d) lv c ks) t [] p := by
    intro t ht
    cases ht with
    | here ht hn' =>
      have hn' : lv.nameOf p = some _ := hn'
      rw [hn] at hn'
      obtain rfl := Option.some.inj hn'
      have ht : Turns (.dict d) t n := ht
      cases ht with
      | dict l₁ l₂ m _ => exact hk (by simp)
  constructor
  · obtain ⟨rs, hr⟩ := (C111_returns_partial access name _ [] ha).2 named
    refine ⟨rs, hr, ?_⟩
    have hpo : (Bundle.mk (.dict d) lv c ks).pathOf name [] p = some (appended name path) := by
      rw [Bundle.pathOf]
      show (lv.text p).map _ = _
      rw [hpath]
      rfl
    have hm : (appended name path, some "<No Matching Signal in Dict>".toList) ∈
        (Bundle.mk (.dict d) lv c ks).rules named name [] name := by
      rw [rules_eq named _ name [] name hb]
      refine List.mem_filterMap.2 ⟨([], p), (mem_positions _ [] p).2 ?_, ?_⟩
      · obtain ⟨s, hs⟩ := slot_of_nameOf hn
        show (lv.slot p).isSome
        rw [hs]
        rfl
      · rw [hpo]
        simp only [Bundle.ruleAt, Bundle.lvl, hn, Option.map_some, List.nil_append, ruleText,
          Bundle.rule, relPath, Option.bind_some]
        rw [filterDict_apart (b := .mk (.dict d) lv c ks) _
          fun kv hkv => strip_dict_none (ha.1 kv hkv)]
        have : d.filter (fun kv => kv.1 = n) = [] := by
          rw [List.filter_eq_nil_iff]
          intro x hx
          simp only [decide_eq_true_eq]
          intro e
          exact hk (e ▸ List.mem_map_of_mem hx)
        rw [this]
        rfl
    rw [mapM_rules hr] at hm
    obtain ⟨y, hy, he⟩ := List.mem_map.1 hm
    simp only [Prod.mk.injEq, Option.some.injEq] at he
    obtain ⟨h1, h2⟩ := he
    rw [← h1, ← h2]
    exact hy
  · intro dut hd q hq
    rcases bind_slots access _ dut hb hd [] p with ⟨d', _, h1, _⟩ | ⟨_, h2⟩
    · exact hnd _ h1
    · rw [h2] at hq
      unfold idle at hq
      cases hs : (Bundle.mk (.dict d) lv c ks).slotAt [] p with
      | none => rw [hs] at hq; split at hq <;> cases hq
      | some s =>
        rw [hs] at hq
        split at hq
        · cases hq
        · have hs : lv.slot p = some s := hs
          have hq : some s = some (.pin q) := hq
          rw [Option.some.inj hq] at hs
          exact hf.1 p q hs

/-- A bundle made with `from_dict({"a": "pa", "c_u": "pu"})` whose sub-bundle `c` has the prefix `c_`
and the signal `u`. -/
def below : Bundle :=
  .mk (.dict [("a".toList, "pa".toList), ("c_u".toList, "pu".toList)])
    { signals := [⟨"a".toList, true, .unconnected⟩], lists := [] } none
    (.cons (.sub "c".toList)
      (.mk (.pre "c_".toList) { signals := [⟨"u".toList, true, .unconnected⟩], lists := [] } none .nil)
      .nil)

/-- **C111 (violated).** For a slot of a sub-bundle below a dictionary the rule says that no signal
matches, although the DUT signal `pu` is connected to it. -/
theorem C111_nested_violated :
    below.allSignalsRule true [] =
      some [("a".toList, "pa".toList), ("c.u".toList, "<No Matching Signal in Dict>".toList)] ∧
    (below.bindResult true [] [⟨"pa".toList, 0, 0⟩]).map Prod.snd =
      some [("c.u".toList, "<No Matching Signal in Dict>".toList)] ∧
    (below.bind true [⟨"pa".toList, 0, 0⟩, ⟨"pu".toList, 1, 0⟩]).1.allSignals [] =
      [("a".toList, .pin 0), ("c.u".toList, .pin 1)] := by
  refine ⟨by decide +kernel, by decide +kernel, by decide +kernel⟩

theorem dot_mem_relPath {st : Stack} (h : st ≠ []) (sig : Name) : '.' ∈ relPath st sig := by
  cases st with
  | nil => exact absurd rfl h
  | cons x st => rw [relPath]; simp

theorem ruleAt_below (named : Bool) {root : Bundle} {d : List (Name × Name)} (rn : Name)
    (hr : root.rule = .dict d) (ha : root.rule.Apart) (hdot : ∀ k ∈ d.map Prod.fst, '.' ∉ k)
    (is : List Nat) (p : Pos) : ∀ (k : Bundle) (st : Stack) (nm : Name) (r : Option Name),
    k.ruleAt named ((root, rn) :: st) nm is p = some r →
      r = some "<No Matching Signal in Dict>".toList := by
  induction is with
  | nil =>
    intro k st nm r h
    rw [Bundle.ruleAt, Option.map_eq_some_iff] at h
    obtain ⟨n, _, rfl⟩ := h
    rw [List.cons_append, ruleText]
    simp only [hr]
    rw [hr] at ha
    rw [filterDict_apart (b := root) _ fun kv hkv => by rw [hr]; exact strip_dict_none (ha kv hkv)]
    have : d.filter (fun kv => kv.1 = relPath (st ++ [(k, nm)]) n) = [] := by
      rw [List.filter_eq_nil_iff]
      intro x hx
      simp only [decide_eq_true_eq]
      intro e
      exact hdot _ (List.mem_map_of_mem hx) (e ▸ dot_mem_relPath (by simp) n)
    rw [this]
    rfl
  | cons i is ih =>
    intro k st nm r h
    simp only [Bundle.ruleAt, Option.bind_eq_some_iff] at h
    obtain ⟨l, _, k', _, h⟩ := h
    exact ih k' _ _ r h

/-- **C111 (violated).** It is the same for all slots below: if the bundle on which the method is called
was made with `from_dict`, and no key is also a value or contains a dot (no DUT name and no prefix does),
the rule of every slot of every sub-bundle, at any depth, says that no signal matches. -/
theorem C111_below_violated (named : Bool) (name : Name) (d : List (Name × Name)) (lv : Level)
    (c : Option Nat) (ks : Kids) (hb : (Bundle.mk (.dict d) lv c ks).Distinct)
    (ha : (Bundle.mk (.dict d) lv c ks).Apart) (hdot : ∀ k ∈ d.map Prod.fst, '.' ∉ k)
    {i : Nat} {is : List Nat} {p : Pos} {path : Name}
    (hs : ((Bundle.mk (.dict d) lv c ks).slotAt (i :: is) p).isSome)
    (hpath : (Bundle.mk (.dict d) lv c ks).pathOf name (i :: is) p = some path) :
    ∃ rs, (Bundle.mk (.dict d) lv c ks).allSignalsRule named name = some rs ∧
      (path, "<No Matching Signal in Dict>".toList) ∈ rs := by
  obtain ⟨rs, hr⟩ := (C111_returns_partial true name _ [] ha).2 named
  refine ⟨rs, hr, ?_⟩
  have hra : ∃ r, (Bundle.mk (.dict d) lv c ks).ruleAt named [] name (i :: is) p = some r := by
    have : ∀ (is : List Nat) (k : Bundle) (nm : Name) (st : Stack),
        (k.slotAt is p).isSome → ∃ r, k.ruleAt named st nm is p = some r := by
      intro is
      induction is with
      | nil =>
        intro k nm st h
        obtain ⟨s, h⟩ := Option.isSome_iff_exists.1 h
        obtain ⟨n, hn⟩ := nameOf_of_slot h
        rw [Bundle.ruleAt, hn]
        exact ⟨_, rfl⟩
      | cons a is ih =>
        intro k nm st h
        obtain ⟨s, h⟩ := Option.isSome_iff_exists.1 h
        simp only [Bundle.slotAt, Option.bind_eq_some_iff] at h
        obtain ⟨k', hk, h⟩ := h
        obtain ⟨l, hl⟩ := label_isSome hk
        simp only [Bundle.ruleAt, hl, hk, Option.bind_some]
        exact ih k' _ _ (Option.isSome_iff_exists.2 ⟨_, h⟩)
    exact this _ _ _ _ hs
  obtain ⟨r, hra⟩ := hra
  have hre : r = some "<No Matching Signal in Dict>".toList := by
    simp only [Bundle.ruleAt, Option.bind_eq_some_iff, List.nil_append] at hra
    obtain ⟨l, _, k', _, h⟩ := hra
    exact ruleAt_below (root := .mk (.dict d) lv c ks) named name rfl ha.1 hdot is p k' [] _ r h
  have hm : (path, some "<No Matching Signal in Dict>".toList) ∈
      (Bundle.mk (.dict d) lv c ks).rules named name [] name := by
    rw [rules_eq named _ name [] name hb]
    refine List.mem_filterMap.2 ⟨(i :: is, p), (mem_positions _ _ p).2 hs, ?_⟩
    rw [hpath, hra, hre]
    rfl
  rw [mapM_rules hr] at hm
  obtain ⟨y, hy, he⟩ := List.mem_map.1 hm
  simp only [Prod.mk.injEq, Option.some.injEq] at he
  obtain ⟨h1, h2⟩ := he
  rw [← h1, ← h2]
  exact hy

example : below.Distinct ∧ below.Apart ∧
    (below.slotAt [0] (.sig "u".toList)).isSome ∧
    below.pathOf [] [0] (.sig "u".toList) = some "c.u".toList :=
  ⟨⟨by decide, ⟨by decide, trivial⟩, trivial⟩,
    ⟨show ∀ kv ∈ [("a".toList, "pa".toList), ("c_u".toList, "pu".toList)], _ by decide, ⟨trivial, trivial⟩, trivial⟩,
    by decide, by decide⟩

/-- A bundle made with `from_dict({"a": "x", "s_b": "c", "c": "y"})` with the signals `a` and `c` and a
sub-bundle `s` with the prefix `s_` and the signal `b`. -/
def spurious : Bundle :=
  .mk (.dict [("a".toList, "x".toList), ("s_b".toList, "c".toList), ("c".toList, "y".toList)])
    { signals := [⟨"a".toList, true, .unconnected⟩, ⟨"c".toList, true, .unconnected⟩], lists := [] } none
    (.cons (.sub "s".toList)
      (.mk (.pre "s_".toList) { signals := [⟨"b".toList, true, .unconnected⟩], lists := [] } none .nil)
      .nil)

/-- **C111 (violated).** If a key is also a value, and the signal of that name goes to a sub-bundle, the
rule of every slot names the value of that key as well: `spurious` says `(x|y)` for the slot `a`, although
the DUT signal `y` is connected to the slot `c` and never to `a`. -/
theorem C111_spurious_violated :
    spurious.allSignalsRule true [] =
      some [("a".toList, "(x|y)".toList), ("c".toList, "y".toList), ("s.b".toList, "y".toList)] ∧
    (spurious.bind true [⟨"y".toList, 0, 0⟩]).1.allSignals [] =
      [("a".toList, .dummy), ("c".toList, .pin 0), ("s.b".toList, .dummy)] ∧
    (spurious.bind true [⟨"x".toList, 1, 0⟩, ⟨"y".toList, 0, 0⟩, ⟨"c".toList, 2, 0⟩]).1.allSignals [] =
      [("a".toList, .pin 1), ("c".toList, .pin 0), ("s.b".toList, .pin 2)] := by
  refine ⟨by decide +kernel, by decide +kernel, by decide +kernel⟩

/-- A bundle made with `from_dict({"c.u": "pu", "c.d.v": "pv"})` with a sub-bundle `c` with the signal `u`
and a sub-bundle `d` with the signal `v`, both with the empty prefix. -/
def dotted : Bundle :=
  .mk (.dict [("c.u".toList, "pu".toList), ("c.d.v".toList, "pv".toList)])
    { signals := [], lists := [] } none
    (.cons (.sub "c".toList)
      (.mk (.pre []) { signals := [⟨"u".toList, true, .unconnected⟩], lists := [] } none
        (.cons (.sub "d".toList)
          (.mk (.pre []) { signals := [⟨"v".toList, true, .unconnected⟩], lists := [] } none .nil)
          .nil))
      .nil)

/-- **C111 (violated).** With slot paths as keys, the rule of a slot of a sub-bundle names the value of its
path once the bundle was bound, but nothing is connected to the slot; before that, and for slots two
levels below, it says that no signal matches. -/
theorem C111_dotted_violated :
    dotted.allSignalsRule true [] =
      some [("c.u".toList, "pu".toList), ("c.d.v".toList, "<No Matching Signal in Dict>".toList)] ∧
    dotted.allSignalsRule false [] =
      some [("c.u".toList, "<No Matching Signal in Dict>".toList),
        ("c.d.v".toList, "<No Matching Signal in Dict>".toList)] ∧
    (dotted.bindResult true [] [⟨"pu".toList, 0, 0⟩, ⟨"pv".toList, 1, 0⟩]).map
      (fun r => (r.1.1.allSignals [], r.2)) =
        some ([("c.u".toList, .dummy), ("c.d.v".toList, .dummy)],
          [("c.u".toList, "pu".toList), ("c.d.v".toList, "<No Matching Signal in Dict>".toList)]) := by
  refine ⟨by decide +kernel, by decide +kernel, by decide +kernel⟩

-- The hypotheses of the partial theorems are met by a tree with a dictionary below a prefix.
def mixed : Bundle :=
  .mk (.pre "io_".toList)
    { signals := [⟨"a".toList, true, .unconnected⟩], lists := [] } none
    (.cons (.sub "c".toList)
      (.mk (.dict [("u".toList, "valid".toList), ("w".toList, "bits".toList)])
        { signals := [⟨"u".toList, true, .unconnected⟩, ⟨"w".toList, true, .unconnected⟩,
            ⟨"z".toList, true, .unconnected⟩], lists := [] } none .nil)
      .nil)

example : mixed.Distinct ∧ mixed.Apart ∧ mixed.Plain ∧
    mixed.pathOf [] [0] (.sig "w".toList) = some "c.w".toList ∧
    Leads mixed [0] (.sig "w".toList) "io_bits".toList ∧
    ¬ Blocked mixed "io_bits".toList [0] ∧
    mixed.allSignalsRule true [] = some [("a".toList, "io_a".toList), ("c.u".toList, "io_valid".toList),
      ("c.w".toList, "io_bits".toList), ("c.z".toList, "io_<No Matching Signal in Dict>".toList)] := by
  refine ⟨⟨by decide, ⟨by decide, trivial⟩, trivial⟩, ⟨trivial, ⟨?_, trivial⟩, trivial⟩,
    ⟨trivial, ⟨(by show List.Nodup _; decide), trivial⟩, trivial⟩, by decide, ?_, ?_, by decide +kernel⟩
  · show ∀ kv ∈ _, _
    decide
  · refine .inside (q := "io_".toList) (m := "bits".toList) rfl rfl (.here (m := "w".toList) ?_ ?_ ?_)
    · show List.Nodup _
      decide
    · exact (turns_iff _ _ _).2 (by decide)
    · decide
  · intro h
    have hs : mixed.rule.strip "io_bits".toList = some "bits".toList := by decide
    cases h with
    | enclosing ht hq =>
      rw [turns_iff, hs] at ht
      obtain rfl := Option.some.inj ht
      have := Level.find_of_name (lv := mixed.lvl) (by decide) hq
      have h2 : mixed.lvl.find "bits".toList = none := by decide
      rw [h2] at this
      cases this
    | earlier _ hj => omega
    | inside _ _ hbl => cases hbl

end Toffee.Bundle
