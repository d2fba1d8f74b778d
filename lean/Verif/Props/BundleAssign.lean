import Verif.Lemmas.BundleMsg

/-! Properties of unconnected signals, `assign`, `set_all` and `randomize_all`
(`toffee/bundle.py`): C38, C41, C42, C43, C44. -/

namespace Toffee.Bundle

/-! ### C38 -/

/-- **C38.** After a first `bind`, a slot that no DUT signal denotes reads `None` and ignores writes
if unconnected signals may be accessed, and raises `AttributeError` both ways otherwise. -/
theorem C38_unconnected (access : Bool) (b : Bundle) (dut : List DutSig) (hb : b.Distinct)
    (hf : b.Fresh) (hi : ∀ is p, b.slotAt is p ≠ some .dummy) (hd : (dut.map DutSig.name).Nodup)
    (is : List Nat) (p : Pos)
    (hs : (b.slotAt is p).isSome) (hno : ¬ ∃ d ∈ dut, Denotes b d.name is p) :
    ∃ s, (b.bind access dut).1.slotAt is p = some s ∧ ∀ (pins : Nat → Int) (v : Val),
      if access then
        readSlot pins s = some .none ∧ (writeSlot s v).err = none ∧ (writeSlot s v).writes = []
      else
        readSlot pins s = none ∧ (writeSlot s v).err = some .attribute ∧
          (writeSlot s v).writes = [] := by
  have h := (C34_bind_connects access b dut hb hd is p).2 hno
  obtain ⟨s, hs⟩ := Option.isSome_iff_exists.1 hs
  rw [hs] at h
  cases access with
  | true => exact ⟨.dummy, h, fun _ _ => ⟨rfl, rfl, rfl⟩⟩
  | false =>
    refine ⟨s, h, fun _ _ => ?_⟩
    cases s with
    | absent => exact ⟨rfl, rfl, rfl⟩
    | unconnected => exact ⟨rfl, rfl, rfl⟩
    | dummy => exact absurd hs (hi is p)
    | pin q => exact absurd hs (fresh_slotAt hf is p q)

/-- **C38.** Which pin a slot is connected to does not depend on the flag, and a connected signal
reads and writes its pin. -/
theorem C38_connected (b : Bundle) (dut : List DutSig) (hb : b.Distinct) (hf : b.Fresh)
    (is : List Nat) (p : Pos) (q : Nat) :
    ((b.bind true dut).1.slotAt is p = some (.pin q) ↔
      (b.bind false dut).1.slotAt is p = some (.pin q)) ∧
    (∀ pins : Nat → Int, readSlot pins (.pin q) = some (.num (pins q))) ∧
    ∀ (dev : Dev) (pins : Nat → Int) (x : Int),
      (writeSlot (.pin q) (.num x)).err = none ∧
      dev.run pins (writeSlot (.pin q) (.num x)).writes q = dev.wr q (pins q) x ∧
      ∀ q', q' ≠ q → dev.run pins (writeSlot (.pin q) (.num x)).writes q' = pins q' := by
  refine ⟨?_, fun _ => rfl, fun dev pins x => ⟨rfl, ?_, ?_⟩⟩
  · exact bindList_flag b (dutSignals dut) hb hf is p q
  · simp [writeSlot, Dev.run]
  · intro q' hq
    simp [writeSlot, Dev.run, hq]

/-! ### C41 -/

/-- **C41.** `assign` of a message without `*` changes a pin only if the message names the slot of
the pin — whether or not an exception is raised on the way. -/
theorem C41_only_named (dev : Dev) (flat : Bool) (b : Bundle) (hb : b.Sound) (v : Val)
    (hv : v.Starless) (pins : Nat → Int) (q : Nat)
    (hq : ∀ is p st, b.slotAt is p = some (.pin q) → b.steps flat is p = some st → ¬ Named st v) :
    dev.run pins (assign dev flat [] b v).writes q = pins q := by
  apply run_untouched
  by_cases hf : Free q b
  · exact assign_free dev flat q v [] b hb.attr hb.distinct hf
  · have : ∃ is p, b.slotAt is p = some (.pin q) := by
      apply Classical.byContradiction
      intro hn
      exact hf fun is p h => hn ⟨is, p, h⟩
    obtain ⟨is, p, h⟩ := this
    have hsome : (b.slotAt is p).isSome := by rw [h]; rfl
    obtain ⟨k, ss, rest, hst⟩ := steps_key flat is p hsome
    have hp := assign_prefix dev flat q v [] b is p _ hb.attr hb.distinct (hb.only h) hst
    rw [given_nil _ (steps_ok flat hb.attr hsome hst) (fun _ => hv) (hq is p _ h hst)] at hp
    simpa using hp

/-- The key `k` names something in the bundle: a signal, a signal list, a bundle list or a
sub-bundle; in a flat dictionary instead of a sub-bundle `sub.*` or something inside it. -/
inductive Known (flat : Bool) : Bundle → Name → Prop
  | signal {b : Bundle} {k : Name} : k ∈ b.lvl.signals.map Cell.name → Known flat b k
  | list {b : Bundle} {k : Name} : k ∈ b.lvl.lists.map Prod.fst → Known flat b k
  | elems {b : Bundle} {k : Name} {i j : Nat} :
      b.kids.label i = some (.elem k j) → Known flat b k
  | sub {b : Bundle} {k : Name} {i : Nat} :
      flat = false → b.kids.label i = some (.sub k) → Known flat b k
  | all {b : Bundle} {n : Name} {i : Nat} :
      flat = true → b.kids.label i = some (.sub n) → Known flat b (n ++ '.' :: star)
  | inside {b c : Bundle} {n t : Name} {i : Nat} :
      flat = true → b.kids.label i = some (.sub n) → b.kids.get i = some c → Known flat c t →
      Known flat b (n ++ '.' :: t)

theorem known_elem {b : Bundle} (ha : b.Attr) (flat : Bool) {k : Name}
    (h : b.kids.elemTarget k ≠ .missing) : Known flat b k := by
  obtain ⟨r, lv, cl, ks⟩ := b
  unfold Kids.elemTarget at h
  split at h
  · exact absurd rfl h
  · rename_i bs hbs
    cases he : ks.elems k with
    | nil => exact absurd he hbs
    | cons c cs =>
      obtain ⟨i, h1, _⟩ := Kids.elems_get (t := 0) (c := c) ha.2.2.2.1 (n := k) (by rw [he]; rfl)
      exact .elems (b := .mk r lv cl ks) h1

theorem known_find {α : Type} {l : List α} {f : α → Name} {k : Name} {x : α}
    (h : l.find? (fun c => f c = k) = some x) : k ∈ l.map f := by
  have h2 : f x = k := by simpa using List.find?_some h
  exact h2 ▸ List.mem_map_of_mem (List.mem_of_find?_eq_some h)

theorem known_locate {b : Bundle} (ha : b.Attr) {k : Name} (h : b.locate k ≠ .missing) :
    Known false b k := by
  unfold Bundle.locate at h
  split at h
  · rename_i hf
    exact .signal (known_find hf)
  · split at h
    · rename_i hf
      exact .list (known_find hf)
    · split at h
      · rename_i hf
        obtain ⟨i, h1, _⟩ := Kids.sub?_get hf
        exact .sub rfl h1
      · exact known_elem ha false h

mutual
theorem known_locateFlat : ∀ (b : Bundle) (k : Name), b.Attr → b.locateFlat k ≠ .missing →
    Known true b k
  | .mk r lv cl ks, k, ha, h => by
    rw [Bundle.locateFlat] at h
    split at h
    · rename_i hf
      exact .signal (b := .mk r lv cl ks) (known_find hf)
    · split at h
      · rename_i hf
        exact .list (b := .mk r lv cl ks) (known_find hf)
      · split at h
        · exact known_elem ha true h
        · rename_i hsp
          split at h
          · rename_i hx
            obtain ⟨i, c, h1, h2, h3⟩ := known_kidsLocateFlat ks _ _ _ ha.2.2.2.2 hx h
            rw [splitDot_some hsp]
            rcases h3 with rfl | h3
            · exact .all (b := .mk r lv cl ks) rfl h1
            · exact .inside (b := .mk r lv cl ks) rfl h1 h2 h3
          · exact known_elem ha true h
theorem known_kidsLocateFlat : ∀ (ks : Kids) (h t : Name) (x : Target), ks.Attr →
    Kids.locateFlat ks h t = some x → x ≠ .missing →
    ∃ i c, ks.label i = some (.sub h) ∧ ks.get i = some c ∧ (t = star ∨ Known true c t)
  | .nil, _, _, _, _, hx, _ => by simp [Kids.locateFlat] at hx
  | .cons (.sub n) b ks, h, t, x, ha, hx, hm => by
    rw [Kids.locateFlat] at hx
    split at hx
    · rename_i hn
      subst hn
      refine ⟨0, b, rfl, rfl, ?_⟩
      split at hx
      · exact .inl ‹_›
      · cases hx
        exact .inr (known_locateFlat b t ha.1 hm)
    · obtain ⟨i, c, h1, h2, h3⟩ := known_kidsLocateFlat ks h t x ha.2 hx hm
      exact ⟨i + 1, c, h1, h2, h3⟩
  | .cons (.elem _ _) _ ks, h, t, x, ha, hx, hm => by
    rw [Kids.locateFlat] at hx
    obtain ⟨i, c, h1, h2, h3⟩ := known_kidsLocateFlat ks h t x ha.2 hx hm
    exact ⟨i + 1, c, h1, h2, h3⟩
end

theorem unknown_target (flat : Bool) {b : Bundle} (ha : b.Attr) {k : Name}
    (h : ¬ Known flat b k) : b.target flat k = .missing := by
  apply Classical.byContradiction
  intro hm
  cases flat with
  | false => exact h (known_locate ha hm)
  | true => exact h (known_locateFlat b k ha hm)

/-- The key `k` names the bundle list with these elements. -/
inductive Lists (flat : Bool) : Bundle → Name → List Bundle → Prop
  | here {b : Bundle} {k : Name} {bs : List Bundle} : bs ≠ [] →
      (∀ j c, bs[j]? = some c ↔ ∃ i, b.kids.label i = some (.elem k j) ∧ b.kids.get i = some c) →
      Lists flat b k bs
  | inside {b c : Bundle} {n t : Name} {i : Nat} {bs : List Bundle} :
      flat = true → b.kids.label i = some (.sub n) → b.kids.get i = some c → Lists flat c t bs →
      Lists flat b (n ++ '.' :: t) bs

mutual
/-- `Prunes flat level b v v' ns`: the message `v'` is `v` without some keys that name nothing; `ns`
are the paths of these keys. -/
inductive Prunes (flat : Bool) : Name → Bundle → Val → Val → List Name → Prop
  | same (level : Name) (b : Bundle) (v : Val) : Prunes flat level b v v []
  | dict {level : Name} {b : Bundle} {d d' : Items} {ns : List Name} :
      PrunesItems flat level b d d' ns → Prunes flat level b (.dict d) (.dict d') ns
inductive PrunesItems (flat : Bool) : Name → Bundle → Items → Items → List Name → Prop
  | nil (level : Name) (b : Bundle) : PrunesItems flat level b .nil .nil []
  | drop {level : Name} {b : Bundle} {k : Name} {rest rest' : Items} {ns : List Name} (v : Val) :
      k ≠ star → ¬ Known flat b k → PrunesItems flat level b rest rest' ns →
      PrunesItems flat level b (.cons k v rest) rest' (appended level k :: ns)
  | keep {level : Name} {b : Bundle} {rest rest' : Items} {ns : List Name} (k : Name) (v : Val) :
      PrunesItems flat level b rest rest' ns →
      PrunesItems flat level b (.cons k v rest) (.cons k v rest') ns
  | sub {level : Name} {b c : Bundle} {k : Name} {i : Nat} {v v' : Val} {rest rest' : Items}
      {ms ns : List Name} :
      flat = false → b.kids.label i = some (.sub k) → b.kids.get i = some c →
      Prunes flat (appended level k) c v v' ms → PrunesItems flat level b rest rest' ns →
      PrunesItems flat level b (.cons k v rest) (.cons k v' rest') (ms ++ ns)
  | elems {level : Name} {b : Bundle} {k : Name} {bs : List Bundle} {vs vs' : Vals}
      {rest rest' : Items} {ms ns : List Name} :
      Lists flat b k bs → PrunesVals flat bs vs vs' ms → PrunesItems flat level b rest rest' ns →
      PrunesItems flat level b (.cons k (.seq vs) rest) (.cons k (.seq vs') rest') (ms ++ ns)
inductive PrunesVals (flat : Bool) : List Bundle → Vals → Vals → List Name → Prop
  | same (bs : List Bundle) (vs : Vals) : PrunesVals flat bs vs vs []
  | cons {b : Bundle} {bs : List Bundle} {v v' : Val} {vs vs' : Vals} {ms ns : List Name} :
      Prunes flat [] b v v' ms → PrunesVals flat bs vs vs' ns →
      PrunesVals flat (b :: bs) (.cons v vs) (.cons v' vs') (ms ++ ns)
end

theorem locate_sub {b c : Bundle} (ha : b.Attr) {i : Nat} {k : Name}
    (hl : b.kids.label i = some (.sub k)) (hk : b.kids.get i = some c) :
    b.locate k = .sub c := by
  obtain ⟨r, lv, cl, ks⟩ := b
  have hn := Kids.mem_subNames hl
  have hno := attr_sub_notin ha.1 hn
  unfold Bundle.locate
  simp only [Bundle.lvl, Bundle.kids] at *
  rw [find_signal_none hno.1, find_list_none hno.2]
  simp only
  rw [Kids.sub?_of_get (List.nodup_append.1 ha.1).2.1 hl hk]

theorem lists_here {b : Bundle} (ha : b.Attr) (flat : Bool) {k : Name} {bs : List Bundle}
    (h0 : bs ≠ [])
    (h : ∀ j c, bs[j]? = some c ↔
      ∃ i, b.kids.label i = some (.elem k j) ∧ b.kids.get i = some c) :
    b.target flat k = .elems bs ∧ k ≠ star := by
  obtain ⟨r, lv, cl, ks⟩ := b
  obtain ⟨ha1, ha2, ha3, ha4, ha5⟩ := ha
  simp only [Bundle.kids] at h
  have hbs : ks.elems k = bs := by
    apply List.ext_getElem?
    intro j
    apply Option.ext
    intro c
    constructor
    · intro he
      obtain ⟨i, h1, h2⟩ := Kids.elems_get ha4 he
      rw [Nat.zero_add] at h1
      exact (h j c).2 ⟨i, h1, h2⟩
    · intro he
      obtain ⟨i, h1, h2⟩ := (h j c).1 he
      have := (Kids.elems_of_get ha4 h1).2
      rw [← h2]
      simpa using this
  cases bs with
  | nil => exact absurd rfl h0
  | cons c bs =>
    obtain ⟨i, hl, hk⟩ := (h 0 c).1 rfl
    have hn := Kids.mem_elemNames hl
    have hno := ha2 k hn
    unfold attrNames at hno
    rw [List.mem_append, List.mem_append, not_or, not_or] at hno
    have hdot := ha3 k (List.mem_append_right _ hn)
    have ht : ks.elemTarget k = .elems (c :: bs) := by
      unfold Kids.elemTarget
      rw [hbs]
    refine ⟨?_, hdot.2⟩
    cases flat with
    | false =>
      simp only [Bundle.target, Bool.false_eq_true, if_false]
      unfold Bundle.locate
      simp only [Bundle.lvl, Bundle.kids]
      rw [find_signal_none hno.1.1, find_list_none hno.1.2]
      simp only
      rw [Kids.sub?_none hno.2]
      exact ht
    | true =>
      simp only [Bundle.target, if_true]
      rw [Bundle.locateFlat, find_signal_none hno.1.1, find_list_none hno.1.2]
      simp only
      have hsp : splitDot k = none := by
        cases hsp : splitDot k with
        | none => rfl
        | some x =>
          have := splitDot_some (h := x.1) (t := x.2) hsp
          exact absurd (by rw [this]; simp) hdot.1
      rw [hsp]
      exact ht

theorem lists_target {flat : Bool} {b : Bundle} {k : Name} {bs : List Bundle} (ha : b.Attr)
    (h : Lists flat b k bs) : b.target flat k = .elems bs ∧ k ≠ star := by
  induction h with
  | here h0 h => exact lists_here ha flat h0 h
  | @inside b c n t i bs hf hl hk _ ih =>
    obtain ⟨r, lv, cl, ks⟩ := b
    obtain ⟨h1, h2⟩ := ih (Kids.attr_get ha.2.2.2.2 hk)
    subst hf
    simp only [Bundle.target, if_true] at h1 ⊢
    refine ⟨by rw [locateFlat_sub ha t hl hk, if_neg h2]; exact h1, ?_⟩
    intro h
    have hc : '.' ∈ star := by rw [← h]; simp
    simp [star] at hc

theorem prunes_star {flat : Bool} : ∀ {level : Name} {b : Bundle} {d d' : Items} {ns : List Name},
    b.Attr → PrunesItems flat level b d d' ns → d'.star? = d.star?
  | _, _, _, _, _, _, .nil _ _ => rfl
  | _, _, _, _, _, ha, .drop _ hk _ h => by
    rw [Items.star?, if_neg hk]
    exact prunes_star ha h
  | _, _, _, _, _, ha, .keep k v h => by
    rw [Items.star?, Items.star?, prunes_star ha h]
  | _, .mk r lv cl ks, _, _, _, ha, .sub hf hl hk _ h => by
    have hn := (ha.2.2.1 _ (List.mem_append_left _ (List.mem_append_right _
      (Kids.mem_subNames hl)))).2
    rw [Items.star?, Items.star?, if_neg hn, if_neg hn, prunes_star ha h]
  | _, _, _, _, _, ha, .elems hl _ h => by
    have hn := (lists_target ha hl).2
    rw [Items.star?, Items.star?, if_neg hn, if_neg hn, prunes_star ha h]

/-- The same outside effects; the names are reported if no exception is raised. -/
structure Agree {α : Type} (o o' : Out α) (ns : List Name) : Prop where
  writes : o.writes = o'.writes
  err : o.err = o'.err
  reports : o'.reports ⊆ o.reports
  names : o.err = none → ∀ n ∈ ns, n ∈ o.reports

theorem agree_next {α β : Type} {o o' : Out α} {stop stop' : α → β} {go go' : α → Out β}
    {ms ns : List Name} (h : Agree o o' ms) (hg : Agree (go o.item) (go' o'.item) ns) :
    Agree (o.next stop go) (o'.next stop' go') (ms ++ ns) := by
  unfold Out.next
  rw [← h.err]
  cases he : o.err with
  | some e => exact ⟨h.writes, rfl, h.reports, fun h => by cases h⟩
  | none =>
    refine ⟨by simp only [h.writes, hg.writes], hg.err, ?_, ?_⟩
    · intro n hn
      rcases List.mem_append.1 hn with hn | hn
      · exact List.mem_append_left _ (h.reports hn)
      · exact List.mem_append_right _ (hg.reports hn)
    · intro he' n hn
      rcases List.mem_append.1 hn with hn | hn
      · exact List.mem_append_left _ (h.names he n hn)
      · exact List.mem_append_right _ (hg.names he' n hn)

theorem Agree.refl {α : Type} (o : Out α) : Agree o o [] :=
  ⟨rfl, rfl, fun _ h => h, by simp⟩

mutual
theorem prunes_agree (dev : Dev) {flat : Bool} : ∀ {level : Name} {b : Bundle} {v v' : Val}
    {ns : List Name}, b.Attr → b.Distinct → Prunes flat level b v v' ns →
    Agree (assign dev flat level b v) (assign dev flat level b v') ns
  | _, _, _, _, _, _, _, .same level b v => Agree.refl _
  | level, b, _, _, ns, ha, hd, .dict (d := d) (d' := d') h => by
    have ih := prunesItems_agree dev ha hd h
    have hst := prunes_star ha h
    rw [assign, assign, hst]
    cases d.star? with
    | none => exact ⟨ih.writes, ih.err, ih.reports, ih.names⟩
    | some v =>
      rw [← List.nil_append ns]
      exact agree_next (Agree.refl _) ⟨ih.writes, ih.err, ih.reports, ih.names⟩
theorem prunesItems_agree (dev : Dev) {flat : Bool} : ∀ {level : Name} {b : Bundle} {d d' : Items}
    {ns : List Name}, b.Attr → b.Distinct → PrunesItems flat level b d d' ns →
    Agree (assignItems dev flat level b d) (assignItems dev flat level b d') ns
  | _, _, _, _, _, _, _, .nil _ _ => Agree.refl _
  | level, b, _, _, _, ha, hd, .drop v hk hn h => by
    have ih := prunesItems_agree dev ha hd h
    rw [assignItems_cons, if_neg hk, unknown_target flat ha hn]
    simp only [assignKey, Out.next]
    refine ⟨by simpa using ih.writes, ih.err, ?_, ?_⟩
    · intro n hn
      exact List.mem_append_right _ (ih.reports hn)
    · intro he n hn
      rcases List.mem_cons.1 hn with rfl | hn
      · simp
      · exact List.mem_append_right _ (ih.names he n hn)
  | level, b, _, _, ns, ha, hd, .keep k v h => by
    have ih := prunesItems_agree dev ha hd h
    rw [assignItems_cons, assignItems_cons]
    split
    · exact ih
    · rw [← List.nil_append ns]
      exact agree_next (Agree.refl _) ⟨ih.writes, ih.err, ih.reports, ih.names⟩
  | level, b, _, _, _, ha, hd, .sub (c := c) (k := k) (v := v) (v' := v') hf hl hk hv h => by
    have ih := prunesItems_agree dev ha hd h
    have hc : c.Attr ∧ c.Distinct := by
      obtain ⟨r, lv, cl, ks⟩ := b
      exact ⟨Kids.attr_get ha.2.2.2.2 hk, Kids.distinct_get' hd.2 hk⟩
    have ihv := prunes_agree dev hc.1 hc.2 hv
    have hn : k ≠ star := by
      obtain ⟨r, lv, cl, ks⟩ := b
      exact (ha.2.2.1 _ (List.mem_append_left _ (List.mem_append_right _ (Kids.mem_subNames hl)))).2
    have ht : b.target flat k = .sub c := by
      subst hf
      exact locate_sub ha hl hk
    rw [assignItems_cons, assignItems_cons, if_neg hn, if_neg hn, ht]
    exact agree_next ihv ⟨ih.writes, ih.err, ih.reports, ih.names⟩
  | level, b, _, _, _, ha, hd, .elems (k := k) (bs := bs) (vs := vs) (vs' := vs') hl hv h => by
    have ih := prunesItems_agree dev ha hd h
    obtain ⟨ht, hn⟩ := lists_target ha hl
    have hw := target_wf flat ha hd k
    rw [ht] at hw
    have ihv := prunesVals_agree dev hw hv
    rw [assignItems_cons, assignItems_cons, if_neg hn, if_neg hn, ht]
    refine agree_next ?_ ⟨ih.writes, ih.err, ih.reports, ih.names⟩
    simp only [assignKey]
    rw [assignElems, assignElems]
    exact ⟨ihv.writes, ihv.err, ihv.reports, ihv.names⟩
theorem prunesVals_agree (dev : Dev) {flat : Bool} : ∀ {bs : List Bundle} {vs vs' : Vals}
    {ns : List Name}, (∀ c ∈ bs, c.Attr ∧ c.Distinct) → PrunesVals flat bs vs vs' ns →
    Agree (assignVals dev flat bs vs) (assignVals dev flat bs vs') ns
  | _, _, _, _, _, .same _ _ => Agree.refl _
  | b :: bs, _, _, _, hw, .cons hv h => by
    have ihv := prunes_agree dev (hw b List.mem_cons_self).1 (hw b List.mem_cons_self).2 hv
    have ih := prunesVals_agree dev (fun c hc => hw c (List.mem_cons_of_mem _ hc)) h
    rw [assignVals, assignVals]
    exact agree_next ihv ⟨ih.writes, ih.err, ih.reports, ih.names⟩
end

/-- **C41.** Keys that name nothing, at any depth, change nothing and prevent nothing: the message
without them makes the same writes and raises the same exception, if any; and every one of them is
reported, unless an exception is raised. -/
theorem C41_unknown_keys (dev : Dev) (flat : Bool) (b : Bundle) (hb : b.Sound) {v v' : Val}
    {ns : List Name} (h : Prunes flat [] b v v' ns) :
    (∀ pins, dev.run pins (assign dev flat [] b v).writes =
      dev.run pins (assign dev flat [] b v').writes) ∧
    (assign dev flat [] b v).err = (assign dev flat [] b v').err ∧
    ((assign dev flat [] b v).err = none → ∀ n ∈ ns, n ∈ (assign dev flat [] b v).reports) := by
  have := prunes_agree dev hb.attr hb.distinct h
  exact ⟨fun pins => by rw [this.writes], this.err, this.names⟩

/-! ### C42 -/

/-- The entry of the message for the slot, without defaults. -/
def entry : List Step → Val → Option Val
  | [], v => some v
  | .key k _ :: rest, .dict d => (d.get k).bind (entry rest)
  | .idx i :: rest, .seq vs => (vs.toList[i]?).bind (entry rest)
  | _, _ => none

theorem chosen_entry (w : Bool) {st : List Step} {v u : Val} (h : entry st v = some u) :
    chosen w st v = some u := by
  induction st generalizing v with
  | nil => cases v <;> exact h
  | cons x st ih =>
    cases x with
    | key k ss =>
      cases v with
      | dict d =>
        rw [entry] at h
        rw [chosen]
        cases hg : d.get k with
        | none => rw [hg] at h; cases h
        | some v' =>
          rw [hg] at h
          simp only [Option.bind_some] at h ⊢
          rw [ih h]
      | _ => simp [entry] at h
    | idx i =>
      cases v with
      | seq vs =>
        rw [entry] at h
        rw [chosen]
        cases hg : vs.toList[i]? with
        | none => rw [hg] at h; cases h
        | some v' =>
          rw [hg] at h
          exact ih h
      | _ => simp [entry] at h

theorem getLast?_map {α β : Type} (f : α → β) (l : List α) :
    (l.map f).getLast? = l.getLast?.map f := by
  simp

/-- **C42**, in full generality for multilevel dictionaries and for flat ones without `"sub.*"`
keys: after an `assign` that raises nothing, every pin of the bundle has got the value of its own
entry in the message; failing that, if it is not an output, the value of the innermost `"*"` around
it; failing that, it is unchanged.  Missing for flat dictionaries with `"sub.*"` keys: see
`C42_flat_order_violated`. -/
theorem C42_final_partial (dev : Dev) (flat : Bool) (b : Bundle) (hb : b.Sound) (v : Val)
    (hk : v.Keys) (hstar : flat = true → v.TopStars) (he : (assign dev flat [] b v).err = none)
    (pins : Nat → Int) {is : List Nat} {p : Pos} {q : Nat} {st : List Step}
    (hq : b.slotAt is p = some (.pin q)) (hst : b.steps flat is p = some st) :
    match chosen (!dev.out q) st v with
    | some u => ∃ x, u = .num x ∧ ((∀ old, dev.wr q old x = x) →
        dev.run pins (assign dev flat [] b v).writes q = x)
    | none => dev.run pins (assign dev flat [] b v).writes q = pins q := by
  have hsome : (b.slotAt is p).isSome := by rw [hq]; rfl
  have h := assign_hit dev flat q v [] b is p st hb.attr hb.distinct (hb.only hq) hst he
  have hc := given_chosen (!dev.out q) (steps_ok flat hb.attr hsome hst) hk (fun _ => by
    cases flat with
    | false => exact .inl (steps_noCover hst)
    | true => exact .inr (hstar rfl))
  rw [← h, getLast?_map] at hc
  rw [← hc]
  cases hl : (onPin q (assign dev flat [] b v).writes).getLast? with
  | none => exact run_untouched dev pins (List.getLast?_eq_none_iff.1 hl)
  | some x => exact ⟨x, rfl, fun hx => run_last dev pins hl hx⟩

/-- **C42**, the named signals. -/
theorem C42_named_partial (dev : Dev) (flat : Bool) (b : Bundle) (hb : b.Sound) (v : Val)
    (hk : v.Keys) (hstar : flat = true → v.TopStars) (he : (assign dev flat [] b v).err = none)
    (pins : Nat → Int) {is : List Nat} {p : Pos} {q : Nat} {st : List Step} {x : Int}
    (hq : b.slotAt is p = some (.pin q)) (hst : b.steps flat is p = some st)
    (hx : entry st v = some (.num x)) (hw : ∀ old, dev.wr q old x = x) :
    dev.run pins (assign dev flat [] b v).writes q = x := by
  have h := C42_final_partial dev flat b hb v hk hstar he pins hq hst
  rw [chosen_entry _ hx] at h
  obtain ⟨y, hy, h⟩ := h
  cases hy
  exact h hw

/-- **C42**, the signals covered by `"*"`: a pin that is not an output and that the rest of the
message mentions in no way gets the value of `"*"`. -/
theorem C42_default (dev : Dev) (flat : Bool) (b : Bundle) (hb : b.Sound) (d : Items)
    (he : (assign dev flat [] b (.dict d)).err = none)
    (pins : Nat → Int) {is : List Nat} {p : Pos} {q : Nat} {k : Name} {ss : List Name}
    {rest : List Step} {x : Int}
    (hq : b.slotAt is p = some (.pin q)) (hst : b.steps flat is p = some (.key k ss :: rest))
    (hx : d.get star = some (.num x)) (hout : dev.out q = false)
    (hno : ∀ e ∈ d.toList, e.1 ∉ ss ∧ (e.1 = k → e.2.Starless ∧ ¬ Named rest e.2))
    (hw : ∀ old, dev.wr q old x = x) :
    dev.run pins (assign dev flat [] b (.dict d)).writes q = x := by
  have hsome : (b.slotAt is p).isSome := by rw [hq]; rfl
  have h := assign_hit dev flat q (.dict d) [] b is p _ hb.attr hb.distinct (hb.only hq) hst he
  rw [given_key, hout, star?_get, hx] at h
  have hnil : givenItems true k ss rest d = [] := by
    unfold givenItems
    rw [List.flatMap_eq_nil_iff]
    intro e hem
    split
    · rfl
    · split
      · rename_i hek
        exact given_nil true (steps_ok flat hb.attr hsome hst).tail
          (fun _ => ((hno e hem).2 hek).1) ((hno e hem).2 hek).2
      · split
        · rename_i h
          exact absurd h.2 (hno e hem).1
        · rfl
  simp only [Bool.not_false, hnil, if_true, Option.toList_some, List.append_nil] at h
  refine run_last dev pins (x := x) ?_ hw
  have h1 := getLast?_map Val.num (onPin q (assign dev flat [] b (.dict d)).writes)
  rw [h] at h1
  simp only [List.getLast?_singleton] at h1
  cases hl : (onPin q (assign dev flat [] b (.dict d)).writes).getLast? with
  | none => rw [hl] at h1; cases h1
  | some y =>
    rw [hl] at h1
    simp only [Option.map_some, Option.some.injEq, Val.num.injEq] at h1
    rw [h1]

/-- **C42**, outputs: whatever `*` keys the message has, an output pin that it does not name — or a
pin outside the bundle — is not changed. -/
theorem C42_output (dev : Dev) (flat : Bool) (b : Bundle) (hb : b.Sound) (v : Val)
    (pins : Nat → Int) (q : Nat)
    (hq : ∀ is p st, b.slotAt is p = some (.pin q) → b.steps flat is p = some st →
      dev.out q = true ∧ ¬ Named st v) :
    dev.run pins (assign dev flat [] b v).writes q = pins q := by
  apply run_untouched
  by_cases hf : Free q b
  · exact assign_free dev flat q v [] b hb.attr hb.distinct hf
  · have : ∃ is p, b.slotAt is p = some (.pin q) := by
      apply Classical.byContradiction
      intro hn
      exact hf fun is p h => hn ⟨is, p, h⟩
    obtain ⟨is, p, h⟩ := this
    have hsome : (b.slotAt is p).isSome := by rw [h]; rfl
    obtain ⟨k, ss, rest, hst⟩ := steps_key flat is p hsome
    have hp := assign_prefix dev flat q v [] b is p _ hb.attr hb.distinct (hb.only h) hst
    obtain ⟨h1, h2⟩ := hq is p _ h hst
    rw [given_nil _ (steps_ok flat hb.attr hsome hst) (fun h => by simp [h1] at h) h2] at hp
    simpa using hp

/-! ### C43 -/

mutual
/-- No dictionary of the message has the key `"*"`. -/
def Val.Unstarred : Val → Prop
  | .dict d => d.Unstarred
  | .seq vs => vs.Unstarred
  | _ => True
def Items.Unstarred : Items → Prop
  | .nil => True
  | .cons k v rest => k ≠ star ∧ v.Unstarred ∧ rest.Unstarred
def Vals.Unstarred : Vals → Prop
  | .nil => True
  | .cons v rest => v.Unstarred ∧ rest.Unstarred
end

theorem unstarred_star? : ∀ {d : Items}, d.Unstarred → d.star? = none
  | .nil, _ => rfl
  | .cons k v rest, h => by
    rw [Items.star?, if_neg h.1]
    exact unstarred_star? h.2.2

theorem next_item {α β : Type} {o : Out α} {stop : α → β} {go : α → Out β} {x : β}
    (h1 : stop o.item = x) (h2 : (go o.item).item = x) : (o.next stop go).item = x := by
  unfold Out.next
  cases o.err with
  | some e => exact h1
  | none => exact h2

theorem writeSlot_item (s : Slot) (v : Val) : (writeSlot s v).item = v := by
  cases s <;> try rfl
  cases v <;> rfl

theorem setAll_item (dev : Dev) (b : Bundle) (v : Val) : (b.setAll dev v).item = v := by
  unfold Bundle.setAll
  by_cases hv : ∃ x, v = .num x
  · obtain ⟨x, rfl⟩ := hv
    exact (setSlots_num dev x _).2.1
  · exact (setSlots_other dev v (fun x hx => hv ⟨x, hx⟩) _).2.2.1

theorem assignList_item (ss : List Slot) (v : Val) : (assignList ss v).item = v := by
  cases v with
  | seq vs =>
    simp only [assignList]
    split
    · exact next_item rfl rfl
    · rfl
  | _ => rfl

mutual
theorem assign_item (dev : Dev) (flat : Bool) : ∀ (v : Val) (level : Name) (b : Bundle),
    v.Unstarred → (assign dev flat level b v).item = v
  | .dict d, level, b, h => by
    rw [assign, unstarred_star? h]
    simp only
    rw [assignItems_item dev flat d level b h]
  | .none, level, b, _ => by rw [assign] <;> simp
  | .num _, level, b, _ => by rw [assign] <;> simp
  | .seq _, level, b, _ => by rw [assign] <;> simp
theorem assignItems_item (dev : Dev) (flat : Bool) : ∀ (d : Items) (level : Name) (b : Bundle),
    d.Unstarred → (assignItems dev flat level b d).item = d
  | .nil, level, b, _ => by rw [assignItems]; rfl
  | .cons k v rest, level, b, h => by
    have ih := assignItems_item dev flat rest level b h.2.2
    have hv := assignKey_item dev flat v level k (b.target flat k) h.2.1
    rw [assignItems_cons, if_neg h.1]
    exact next_item (by rw [hv]) (by simp only [hv, ih])
theorem assignKey_item (dev : Dev) (flat : Bool) : ∀ (v : Val) (level k : Name) (t : Target),
    v.Unstarred → (assignKey dev flat level k t v).item = v
  | v, level, k, .slot s, _ => writeSlot_item s v
  | v, level, k, .list ss, _ => assignList_item ss v
  | v, level, k, .sub c, h => assign_item dev flat v (appended level k) c h
  | v, level, k, .all c, _ => setAll_item dev c v
  | .seq vs, level, k, .elems bs, h => by
    simp only [assignKey]
    rw [assignElems]
    simp only
    rw [assignVals_item dev flat vs bs h]
  | .none, level, k, .elems bs, _ => by
    simp only [assignKey]
    rw [assignElems] <;> first | rfl | simp
  | .num _, level, k, .elems bs, _ => by
    simp only [assignKey]
    rw [assignElems] <;> first | rfl | simp
  | .dict _, level, k, .elems bs, _ => by
    simp only [assignKey]
    rw [assignElems] <;> first | rfl | simp
  | v, level, k, .missing, _ => rfl
theorem assignVals_item (dev : Dev) (flat : Bool) : ∀ (vs : Vals) (bs : List Bundle),
    vs.Unstarred → (assignVals dev flat bs vs).item = vs
  | vs, [], _ => by rw [assignVals]; rfl
  | .nil, _ :: _, _ => by rw [assignVals]; rfl
  | .cons v rest, b :: bs, h => by
    have hv := assign_item dev flat v [] b h.1
    have ih := assignVals_item dev flat rest bs h.2
    rw [assignVals]
    exact next_item (by rw [hv]) (by simp only [hv, ih])
end

/-- **C43**, for messages without the key `"*"`: `assign` leaves its argument unchanged, whether or
not it raises; so assigning it again has the same effect as assigning a copy.  Missing: messages with
`"*"`, for which it fails (`C43_argument_violated`). -/
theorem C43_argument_partial (dev : Dev) (flat : Bool) (b b' : Bundle) (v : Val)
    (hv : v.Unstarred) :
    (assign dev flat [] b v).item = v ∧
    assign dev flat [] b' (assign dev flat [] b v).item = assign dev flat [] b' v := by
  rw [assign_item dev flat v [] b hv]
  exact ⟨rfl, rfl⟩

theorem assignItems_star (dev : Dev) (flat : Bool) : ∀ (d : Items) (level : Name) (b : Bundle),
    (assignItems dev flat level b d).err = none →
    (assignItems dev flat level b d).item.star? = none
  | .nil, level, b, _ => by rw [assignItems]; rfl
  | .cons k v rest, level, b, he => by
    rw [assignItems_cons] at he ⊢
    split at he
    · rename_i hk
      rw [if_pos hk]
      exact assignItems_star dev flat rest level b he
    · rename_i hk
      rw [if_neg hk]
      obtain ⟨h1, h2, h3⟩ := next_none he
      rw [(next_reports he).2]
      simp only [Items.star?, if_neg hk]
      exact assignItems_star dev flat rest level b h2

/-- **C43 fails for every message with `"*"`** whose assignment succeeds: the argument loses the
key. -/
theorem C43_star_removed_violated (dev : Dev) (flat : Bool) (b : Bundle) (d : Items) {u : Val}
    (hs : d.get star = some u) (he : (assign dev flat [] b (.dict d)).err = none) :
    (assign dev flat [] b (.dict d)).item ≠ .dict d := by
  rw [← star?_get] at hs
  rw [assign, hs] at he ⊢
  obtain ⟨h1, h2, h3⟩ := next_none he
  rw [(next_reports he).2]
  intro h
  simp only [Val.dict.injEq] at h
  have := assignItems_star dev flat d [] b h2
  rw [h, hs] at this
  cases this

/-! ### C44 -/

/-- **C44**, `set_all` with an integer: nothing is raised, every connected pin of the bundle that is
not an output is written once, with the value, and no other pin is written. -/
theorem C44_set_all (dev : Dev) (b : Bundle) (hb : b.Sound) (x : Int) :
    (b.setAll dev (.num x)).err = none ∧
    (∀ is p q, b.slotAt is p = some (.pin q) →
      onPin q (b.setAll dev (.num x)).writes = if dev.out q then [] else [x]) ∧
    ∀ q, (∀ is p, b.slotAt is p ≠ some (.pin q)) →
      onPin q (b.setAll dev (.num x)).writes = [] := by
  have he := (setSlots_num dev x ((b.allSignals []).map Prod.snd)).1
  refine ⟨he, ?_, fun q hq => setAll_free dev hb.distinct hq _⟩
  intro is p q hq
  have h := setAll_hit dev hb.distinct (hb.only hq) he
  cases ho : dev.out q with
  | true =>
    simp only [ho, Bool.not_true, Bool.false_eq_true, if_false] at h
    simpa using h
  | false =>
    simp only [ho, Bool.not_false, if_true] at h
    rw [if_neg (by simp)]
    generalize onPin q (b.setAll dev (.num x)).writes = l at h
    cases l with
    | nil => cases h
    | cons y l =>
      simp only [List.map_cons, List.cons.injEq, Val.num.injEq, List.map_eq_nil_iff] at h
      rw [h.1, h.2]

/-- Which entries of `all_signals` hold the pin. -/
theorem allSignals_pin (b : Bundle) (hd : b.Distinct) {is : List Nat} {p : Pos} {q : Nat} {t : Name}
    (ho : Only q b is p) (ht : b.pathOf [] is p = some t) :
    (b.allSignals []).filter (fun e => e.2 = .pin q) = [(t, .pin q)] := by
  rw [allSignals_eq b [] hd]
  have hsome : (b.slotAt is p).isSome := by rw [ho.here]; rfl
  have hmem := (mem_positions b is p).2 hsome
  have hnd := positions_nodup b hd
  have key : ∀ x : List Nat × Pos, ∀ e, ((b.pathOf [] x.1 x.2).bind fun t =>
      (b.slotAt x.1 x.2).map fun s => (t, s)) = some e → e.2 = .pin q → x = (is, p) := by
    intro x e h he
    cases h1 : b.pathOf [] x.1 x.2 with
    | none => rw [h1] at h; cases h
    | some t =>
      cases h2 : b.slotAt x.1 x.2 with
      | none => rw [h1, h2] at h; cases h
      | some s =>
        rw [h1, h2] at h
        cases h
        have := ho.only x.1 x.2 (h2.trans (congrArg some he))
        exact Prod.ext this.1 this.2
  have hthis : ((b.pathOf [] is p).bind fun t => (b.slotAt is p).map fun s => (t, s)) =
      some (t, .pin q) := by
    rw [ht, ho.here]
    rfl
  generalize b.positions = l at hmem hnd
  induction l with
  | nil => cases hmem
  | cons x l ih =>
    obtain ⟨hx, hnd⟩ := List.nodup_cons.1 hnd
    have hnil : ∀ l : List (List Nat × Pos), (is, p) ∉ l →
        (l.filterMap fun x => (b.pathOf [] x.1 x.2).bind fun t =>
          (b.slotAt x.1 x.2).map fun s => (t, s)).filter (fun e => e.2 = .pin q) = [] := by
      intro l hl
      rw [List.filter_eq_nil_iff]
      intro e he
      obtain ⟨y, hy, h⟩ := List.mem_filterMap.1 he
      simp only [decide_eq_true_eq]
      intro heq
      exact hl (key y e h heq ▸ hy)
    rcases List.mem_cons.1 hmem with rfl | hmem'
    · rw [List.filterMap_cons_some (f := fun x : List Nat × Pos => (b.pathOf [] x.1 x.2).bind fun t =>
          (b.slotAt x.1 x.2).map fun s => (t, s)) hthis, List.filter_cons_of_pos (by simp), hnil l hx]
    · have hne : x ≠ (is, p) := by rintro rfl; exact hx hmem'
      have ih := ih hmem' hnd
      cases hf : ((b.pathOf [] x.1 x.2).bind fun t => (b.slotAt x.1 x.2).map fun s => (t, s)) with
      | none =>
        rw [List.filterMap_cons_none (f := fun x : List Nat × Pos =>
          (b.pathOf [] x.1 x.2).bind fun t => (b.slotAt x.1 x.2).map fun s => (t, s)) hf]
        exact ih
      | some e =>
        rw [List.filterMap_cons_some (f := fun x : List Nat × Pos =>
          (b.pathOf [] x.1 x.2).bind fun t => (b.slotAt x.1 x.2).map fun s => (t, s)) hf,
          List.filter_cons_of_neg]
        · exact ih
        · simp only [decide_eq_true_eq]
          intro h
          exact hne (key x e hf h)

theorem randSlots_none (dev : Dev) (range : Option (Int × Int)) (exclude : List Name)
    (rnd : Nat → Int → Int → Int) {q : Nat} (l : List (Name × Slot)) (i : Nat)
    (h : l.filter (fun e => e.2 = .pin q) = []) :
    onPin q (randSlots dev range exclude rnd i l) = [] := by
  induction l generalizing i with
  | nil => rfl
  | cons e l ih =>
    obtain ⟨n, s⟩ := e
    rw [List.filter_eq_nil_iff] at h
    have ih := fun i => ih i (List.filter_eq_nil_iff.2 fun a ha => h a (List.mem_cons_of_mem _ ha))
    cases s with
    | pin p =>
      have hp : p ≠ q := by
        have := h (n, .pin p) List.mem_cons_self
        simpa using this
      rw [randSlots]
      split
      · have := ih (i + 1)
        simp only [onPin] at this ⊢
        simp [hp, this]
      · exact ih i
    | _ =>
      rw [randSlots]
      · exact ih i
      · intro p h; cases h

theorem randSlots_one (dev : Dev) (range : Option (Int × Int)) (exclude : List Name)
    (rnd : Nat → Int → Int → Int) {q : Nat} {t : Name} (l : List (Name × Slot)) (i : Nat)
    (h : l.filter (fun e => e.2 = .pin q) = [(t, .pin q)]) :
    if t ∉ exclude ∧ dev.out q = false then
      ∃ j, onPin q (randSlots dev range exclude rnd i l) =
        [rnd j (randRange dev range q).1 (randRange dev range q).2]
    else onPin q (randSlots dev range exclude rnd i l) = [] := by
  induction l generalizing i with
  | nil => cases h
  | cons e l ih =>
    obtain ⟨n, s⟩ := e
    cases s with
    | pin p =>
      by_cases hp : p = q
      · subst hp
        rw [List.filter_cons_of_pos (by simp)] at h
        simp only [List.cons.injEq, Prod.mk.injEq, and_true] at h
        obtain ⟨rfl, h⟩ := h
        have hn := fun i => randSlots_none dev range exclude rnd l i h
        rw [randSlots]
        split
        · refine ⟨i, ?_⟩
          have hn := hn (i + 1)
          simp only [onPin] at hn ⊢
          simp [hn]
        · exact hn i
      · rw [List.filter_cons_of_neg (by simpa using hp)] at h
        rw [randSlots]
        by_cases hc : n ∉ exclude ∧ dev.out p = false
        · simp only [if_pos hc]
          have ih := ih (i + 1) h
          have hskip : ∀ x, onPin q ((p, x) :: randSlots dev range exclude rnd (i + 1) l) =
              onPin q (randSlots dev range exclude rnd (i + 1) l) := by
            intro x
            simp [onPin, hp]
          rw [hskip]
          exact ih
        · simp only [if_neg hc]
          exact ih i h
    | absent =>
      rw [randSlots]
      · exact ih i (by simpa using h)
      · intro p h; cases h
    | unconnected =>
      rw [randSlots]
      · exact ih i (by simpa using h)
      · intro p h; cases h
    | dummy =>
      rw [randSlots]
      · exact ih i (by simpa using h)
      · intro p h; cases h

/-- **C44**, `randomize_all`: with a random source that stays within the limits it is called with, a
connected pin of the bundle is written — once, with a value in the given range, or between `0` and
`2 ^ max(width, 1) - 1` — exactly if it is not an output and its path is not excluded; no other pin
is written. -/
theorem C44_randomize_all (dev : Dev) (b : Bundle) (hb : b.Sound) (range : Option (Int × Int))
    (exclude : List Name) (rnd : Nat → Int → Int → Int)
    (hrnd : ∀ i lo hi, lo ≤ hi → lo ≤ rnd i lo hi ∧ rnd i lo hi ≤ hi)
    (hrange : ∀ r, range = some r → r.1 ≤ r.2) :
    (∀ is p q t, b.slotAt is p = some (.pin q) → b.pathOf [] is p = some t →
      if t ∈ exclude ∨ dev.out q = true then
        onPin q (b.randomizeAll dev range exclude rnd) = []
      else ∃ x, onPin q (b.randomizeAll dev range exclude rnd) = [x] ∧
        match range with
        | some r => r.1 ≤ x ∧ x ≤ r.2
        | none => 0 ≤ x ∧ x ≤ 2 ^ (max (dev.width q) 1) - 1) ∧
    ∀ q, (∀ is p, b.slotAt is p ≠ some (.pin q)) →
      onPin q (b.randomizeAll dev range exclude rnd) = [] := by
  constructor
  · intro is p q t hq ht
    have h := randSlots_one dev range exclude rnd (b.allSignals []) 0
      (allSignals_pin b hb.distinct (hb.only hq) ht)
    by_cases hc : t ∈ exclude ∨ dev.out q = true
    · rw [if_pos hc]
      rw [if_neg] at h
      · exact h
      · rintro ⟨h1, h2⟩
        rcases hc with hc | hc
        · exact h1 hc
        · rw [h2] at hc; cases hc
    · rw [if_neg hc]
      rw [if_pos] at h
      · obtain ⟨j, h⟩ := h
        refine ⟨_, h, ?_⟩
        cases range with
        | some r => exact hrnd j r.1 r.2 (hrange r rfl)
        | none =>
          simp only [randRange]
          have hw : (if dev.width q = 0 then 1 else dev.width q) = max (dev.width q) 1 := by
            split <;> omega
          rw [hw]
          apply hrnd
          have : (0 : Int) < 2 ^ max (dev.width q) 1 := Int.pow_pos (by omega)
          omega
      · rw [not_or] at hc
        exact ⟨hc.1, by simpa using hc.2⟩
  · intro q hq
    apply randSlots_none
    rw [List.filter_eq_nil_iff]
    intro e he
    simp only [decide_eq_true_eq]
    intro h
    have : .pin q ∈ (b.allSignals []).map Prod.snd := h ▸ List.mem_map_of_mem he
    obtain ⟨is, p, h⟩ := (slots_of_pin hb.distinct []).1 this
    exact hq is p h

/-! ### Concrete cases -/

theorem demo_attr : demoBundle.Attr := by
  refine ⟨by decide, by decide, by decide, ⟨rfl, trivial⟩, ⟨?_, by decide, by decide, trivial, trivial⟩,
    ⟨?_, by decide, by decide, trivial, trivial⟩, trivial⟩ <;> decide

/-- The demo bundle, bound. -/
def demoBound : Bundle := (demoBundle.bind true demoDut).1

theorem demo_sound : demoBound.Sound :=
  bind_sound true demoBundle demoDut demo_attr demo_distinct demo_fresh (by decide) (by decide)

/-- Pins that keep what is written to them; pin 12 is an output. -/
def demoDev : Dev where
  wr := fun _ _ x => x
  out := fun q => q == 12
  width := fun q => if q = 11 then 0 else 8

/-- A message with a default, nested entries and an unknown key. -/
def demoMsg : Val :=
  .dict (.cons "nope".toList (.num 9)
    (.cons "a".toList (.num 1)
      (.cons "c".toList (.dict (.cons "bad".toList .none .nil))
        (.cons star (.num 7) .nil))))

/-- The hypotheses of C41 and C42 are met by the demo, which sets named and covered pins. -/
example : demoBound.Sound ∧ demoMsg.Keys ∧
    (assign demoDev false [] demoBound demoMsg).err = none ∧
    (assign demoDev false [] demoBound demoMsg).reports = ["nope".toList, "c.bad".toList] ∧
    demoDev.run (fun _ => 0) (assign demoDev false [] demoBound demoMsg).writes 11 = 1 ∧
    demoDev.run (fun _ => 0) (assign demoDev false [] demoBound demoMsg).writes 12 = 0 ∧
    demoDev.run (fun _ => 0) (assign demoDev false [] demoBound demoMsg).writes 13 = 7 ∧
    demoDev.run (fun _ => 0) (assign demoDev false [] demoBound demoMsg).writes 14 = 7 ∧
    demoBound.slotAt [1] (.sig "d".toList) = some (.pin 13) ∧
    chosen true [.key "v".toList [], .idx 0, .key "d".toList []] demoMsg = some (.num 7) :=
  ⟨demo_sound, ⟨by decide, trivial, trivial, ⟨by decide, trivial, trivial⟩, trivial, trivial⟩,
    by decide +kernel, by decide +kernel, by decide +kernel, by decide +kernel, by decide +kernel,
    by decide +kernel, by decide +kernel, rfl⟩

theorem not_known {b : Bundle} {k : Name} (h1 : k ∉ b.lvl.signals.map Cell.name)
    (h2 : k ∉ b.lvl.lists.map Prod.fst) (h3 : k ∉ b.kids.subNames) (h4 : k ∉ b.kids.elemNames) :
    ¬ Known false b k := by
  intro h
  cases h with
  | signal h => exact h1 h
  | list h => exact h2 h
  | elems h => exact h4 (Kids.mem_elemNames h)
  | sub _ h => exact h3 (Kids.mem_subNames h)
  | all h => cases h
  | inside h => cases h

/-- The demo message without its unknown keys. -/
example : Prunes false [] demoBound demoMsg
    (.dict (.cons "a".toList (.num 1) (.cons "c".toList (.dict .nil) (.cons star (.num 7) .nil))))
    ["nope".toList, "c.bad".toList] := by
  refine .dict (.drop (.num 9) (by decide) ?_ (.keep _ _ (.sub (i := 0) (ms := ["c.bad".toList])
    (ns := []) rfl rfl rfl (.dict (.drop .none (by decide) ?_ (.nil _ _))) (.keep _ _ (.nil _ _)))))
  · exact not_known (by decide +kernel) (by decide +kernel) (by decide +kernel) (by decide +kernel)
  · exact not_known (by decide +kernel) (by decide +kernel) (by decide +kernel) (by decide +kernel)

/-- **C42 fails** for flat dictionaries with `"sub.*"` keys: in the message `{"*": 0, "c.w": 1,
"c.*": 2}` the signal `c.w` is named with the value 1, and ends up as 2. -/
theorem C42_flat_order_violated :
    ∃ (dev : Dev) (b : Bundle) (v : Val) (is : List Nat) (p : Pos) (q : Nat) (st : List Step),
      b.Sound ∧ v.Keys ∧ (assign dev true [] b v).err = none ∧
      b.slotAt is p = some (.pin q) ∧ b.steps true is p = some st ∧
      entry st v = some (.num 1) ∧ (∀ old, dev.wr q old 1 = 1) ∧
      dev.run (fun _ => 0) (assign dev true [] b v).writes q = 2 :=
  ⟨{ demoDev with out := fun _ => false }, demoBound,
    .dict (.cons star (.num 0) (.cons "c.w".toList (.num 1) (.cons "c.*".toList (.num 2) .nil))),
    [0], .sig "w".toList, 12, _, demo_sound,
    ⟨by decide, trivial, trivial, trivial, trivial⟩, by decide +kernel, by decide +kernel, rfl, rfl,
    fun _ => rfl, by decide +kernel⟩

/-- **C43 fails**: `msg = {"*": 5}` assigned once and, after the pin has changed to 3, once more: the
second time nothing is assigned, while a fresh copy would set the pin to 5 again. -/
theorem C43_argument_violated :
    ∃ (dev : Dev) (b : Bundle) (v : Val) (q : Nat),
      b.Sound ∧ (assign dev false [] b v).err = none ∧
      dev.run (fun _ => 3) (assign dev false [] b v).writes q = 5 ∧
      dev.run (fun _ => 3) (assign dev false [] b (assign dev false [] b v).item).writes q = 3 :=
  ⟨demoDev, demoBound, .dict (.cons star (.num 5) .nil), 11, demo_sound, by decide +kernel,
    by decide +kernel, by decide +kernel⟩

/-- `set_all` and `randomize_all` on the demo. -/
example : onPin 11 (demoBound.setAll demoDev (.num 5)).writes = [5] ∧
    onPin 12 (demoBound.setAll demoDev (.num 5)).writes = [] ∧
    onPin 11 (demoBound.randomizeAll demoDev none ["x[1]".toList] fun _ _ hi => hi) = [1] ∧
    onPin 13 (demoBound.randomizeAll demoDev none ["x[1]".toList] fun _ _ hi => hi) = [255] ∧
    onPin 14 (demoBound.randomizeAll demoDev none ["x[1]".toList] fun _ _ hi => hi) = [] := by
  decide +kernel

end Toffee.Bundle
