import Verif.Lemmas.BundleData

/-! The writes of `assign` to one pin are exactly the values the message gives to its slot. -/

namespace Toffee.Bundle

/-- The values written to a pin, in order. -/
def onPin (q : Nat) (ws : List (Nat × Int)) : List Int := (ws.filter fun w => w.1 = q).map Prod.snd

theorem onPin_nil (q : Nat) : onPin q [] = [] := rfl

theorem onPin_append (q : Nat) (a b : List (Nat × Int)) :
    onPin q (a ++ b) = onPin q a ++ onPin q b := by
  simp [onPin]

theorem next_none {α β : Type} {o : Out α} {stop : α → β} {go : α → Out β}
    (h : (o.next stop go).err = none) :
    o.err = none ∧ (go o.item).err = none ∧
      (o.next stop go).writes = o.writes ++ (go o.item).writes := by
  unfold Out.next at h ⊢
  cases he : o.err with
  | some e => rw [he] at h; simp at h
  | none => rw [he] at h; exact ⟨rfl, h, rfl⟩

theorem next_onPin {α β : Type} {o : Out α} {stop : α → β} {go : α → Out β} {q : Nat}
    (h1 : onPin q o.writes = []) (h2 : onPin q (go o.item).writes = []) :
    onPin q (o.next stop go).writes = [] := by
  unfold Out.next
  cases he : o.err with
  | some e => exact h1
  | none => simp only [onPin_append, h1, h2, List.append_nil]

theorem next_reports {α β : Type} {o : Out α} {stop : α → β} {go : α → Out β}
    (h : (o.next stop go).err = none) :
    (o.next stop go).reports = o.reports ++ (go o.item).reports ∧
      (o.next stop go).item = (go o.item).item := by
  unfold Out.next at h ⊢
  cases he : o.err with
  | some e => rw [he] at h; simp at h
  | none => exact ⟨rfl, rfl⟩

/-! ### Single slots -/

theorem writeSlot_free {q : Nat} {s : Slot} (h : s ≠ .pin q) (v : Val) :
    onPin q (writeSlot s v).writes = [] := by
  cases s <;> try rfl
  rename_i p
  have : p ≠ q := fun e => h (by rw [e])
  cases v <;> simp [writeSlot, onPin, Out.fail, this]

theorem writeSlot_hit {q : Nat} {v : Val} (h : (writeSlot (.pin q) v).err = none) :
    (onPin q (writeSlot (.pin q) v).writes).map Val.num = [v] := by
  cases v <;> simp [writeSlot, Out.fail] at h
  simp [writeSlot, onPin]

/-! ### `set_all` -/

theorem setSlots_num (dev : Dev) (x : Int) (ss : List Slot) :
    (setSlots dev (.num x) ss).err = none ∧
    (setSlots dev (.num x) ss).item = .num x ∧
    (setSlots dev (.num x) ss).reports = [] ∧
    (setSlots dev (.num x) ss).writes =
      (ss.filterMap fun s => match s with
        | .pin p => if dev.out p then none else some (p, x)
        | _ => none) := by
  induction ss with
  | nil => exact ⟨rfl, rfl, rfl, rfl⟩
  | cons s ss ih =>
    rw [setSlots]
    cases s with
    | pin p =>
      by_cases ho : dev.out p
      · simp [writable, ho, ih]
      · simp only [writable, ho, Bool.not_false, if_true, Out.next, writeSlot]
        refine ⟨ih.1, ih.2.1, by simp [ih.2.2.1], ?_⟩
        simp [ih.2.2.2, ho]
    | _ => simpa [writable] using ih

theorem setSlots_other (dev : Dev) (v : Val) (hv : ∀ x, v ≠ .num x) (ss : List Slot) :
    (setSlots dev v ss).writes = [] ∧ (setSlots dev v ss).reports = [] ∧
    (setSlots dev v ss).item = v ∧
    ((setSlots dev v ss).err = none → ∀ p, .pin p ∈ ss → dev.out p = true) := by
  induction ss with
  | nil => exact ⟨rfl, rfl, rfl, by simp⟩
  | cons s ss ih =>
    rw [setSlots]
    cases s with
    | pin p =>
      by_cases ho : dev.out p
      · simp only [writable, ho, Bool.not_true, Bool.false_eq_true, if_false]
        refine ⟨ih.1, ih.2.1, ih.2.2.1, ?_⟩
        intro h p' hp'
        rcases List.mem_cons.1 hp' with hp' | hp'
        · cases hp'; exact ho
        · exact ih.2.2.2 h p' hp'
      · cases v with
        | num x => exact absurd rfl (hv x)
        | _ => simp [writable, ho, Out.next, writeSlot, Out.fail]
    | _ => simpa [writable] using ih

theorem slots_of_pin {q : Nat} {b : Bundle} (hb : b.Distinct) (level : Name) :
    .pin q ∈ (b.allSignals level).map Prod.snd ↔ ∃ is p, b.slotAt is p = some (.pin q) := by
  rw [allSignals_eq b level hb, List.mem_map]
  constructor
  · rintro ⟨y, hy, hs⟩
    obtain ⟨x, hx, hy⟩ := List.mem_filterMap.1 hy
    cases h1 : b.pathOf level x.1 x.2 with
    | none => rw [h1] at hy; cases hy
    | some t =>
      cases h2 : b.slotAt x.1 x.2 with
      | none => rw [h1, h2] at hy; cases hy
      | some s =>
        rw [h1, h2] at hy
        simp only [Option.bind_some, Option.map_some, Option.some.injEq] at hy
        subst hy
        exact ⟨x.1, x.2, by rw [h2, ← hs]⟩
  · rintro ⟨is, p, h⟩
    have hsome : (b.slotAt is p).isSome := by rw [h]; rfl
    obtain ⟨t, ht⟩ := Option.isSome_iff_exists.1 (pathOf_isSome is p level hsome)
    exact ⟨(t, .pin q), List.mem_filterMap.2 ⟨(is, p), (mem_positions b is p).2 hsome, by simp [ht, h]⟩,
      rfl⟩

theorem setAll_free (dev : Dev) {q : Nat} {b : Bundle} (hd : b.Distinct) (hf : Free q b) (v : Val) :
    onPin q (b.setAll dev v).writes = [] := by
  have hno : .pin q ∉ (b.allSignals []).map Prod.snd := by
    rw [slots_of_pin hd]
    rintro ⟨is, p, h⟩
    exact hf is p h
  unfold Bundle.setAll
  cases v with
  | num x =>
    rw [(setSlots_num dev x _).2.2.2]
    simp only [onPin, List.map_eq_nil_iff, List.filter_eq_nil_iff]
    intro w hw
    obtain ⟨s, hs, hw⟩ := List.mem_filterMap.1 hw
    cases s with
    | pin p =>
      simp only at hw
      split at hw
      · cases hw
      · cases hw
        simp only [decide_eq_true_eq]
        rintro rfl
        exact hno hs
    | _ => cases hw
  | _ => rw [(setSlots_other dev _ (by simp) _).1]; rfl

/-- In a list that holds the pin exactly once, the writes hold it exactly once. -/
theorem once_filterMap {α : Type} {l : List α} (hnd : l.Nodup) {a : α} (ha : a ∈ l)
    {f : α → Option (Nat × Int)} {q : Nat} {x : Int} (h1 : f a = some (q, x))
    (h2 : ∀ c ∈ l, ∀ w, f c = some w → w.1 = q → c = a) :
    onPin q (l.filterMap f) = [x] := by
  induction l with
  | nil => cases ha
  | cons c l ih =>
    obtain ⟨hc, hnd⟩ := List.nodup_cons.1 hnd
    rcases List.mem_cons.1 ha with rfl | ha
    · have : onPin q (l.filterMap f) = [] := by
        simp only [onPin, List.map_eq_nil_iff, List.filter_eq_nil_iff]
        intro w hw
        obtain ⟨c, hc', hw⟩ := List.mem_filterMap.1 hw
        simp only [decide_eq_true_eq]
        intro hq
        exact hc (h2 c (List.mem_cons_of_mem _ hc') w hw hq ▸ hc')
      rw [List.filterMap_cons_some h1]
      simp only [onPin] at this
      simp [onPin, this]
    · have hne : c ≠ a := by rintro rfl; exact hc ha
      have ih := ih hnd ha fun d hd => h2 d (List.mem_cons_of_mem _ hd)
      cases hf : f c with
      | none => rw [List.filterMap_cons_none hf]; exact ih
      | some w =>
        rw [List.filterMap_cons_some hf]
        have : w.1 ≠ q := fun e => hne (h2 c List.mem_cons_self w hf e)
        simp only [onPin] at ih
        simp [onPin, this, ih]

theorem none_filterMap {α : Type} {l : List α} {f : α → Option (Nat × Int)} {q : Nat}
    (h : ∀ c ∈ l, ∀ w, f c = some w → w.1 ≠ q) : onPin q (l.filterMap f) = [] := by
  simp only [onPin, List.map_eq_nil_iff, List.filter_eq_nil_iff]
  intro w hw
  obtain ⟨c, hc, hw⟩ := List.mem_filterMap.1 hw
  simpa using h c hc w hw

theorem setAll_hit (dev : Dev) {q : Nat} {b : Bundle} {is : List Nat} {p : Pos} (hd : b.Distinct)
    (ho : Only q b is p) {v : Val} (he : (b.setAll dev v).err = none) :
    (onPin q (b.setAll dev v).writes).map Val.num = if !dev.out q then [v] else [] := by
  unfold Bundle.setAll at he ⊢
  by_cases hv : ∃ x, v = .num x
  · obtain ⟨x, rfl⟩ := hv
    rw [(setSlots_num dev x _).2.2.2, allSignals_eq b [] hd, List.map_filterMap,
      List.filterMap_filterMap]
    by_cases hq : dev.out q
    · rw [none_filterMap]
      · simp [hq]
      · intro c _ w hw hwq
        cases h1 : b.pathOf [] c.1 c.2 with
        | none => rw [h1] at hw; cases hw
        | some t =>
          cases h2 : b.slotAt c.1 c.2 with
          | none => rw [h1, h2] at hw; cases hw
          | some s =>
            rw [h1, h2] at hw
            cases s with
            | pin p' =>
              simp only [Option.bind_some, Option.map_some] at hw
              split at hw
              · cases hw
              · rename_i h3
                cases hw
                rw [show p' = q from hwq] at h3
                exact h3 hq
            | _ => cases hw
    · have hsome : (b.slotAt is p).isSome := by rw [ho.here]; rfl
      obtain ⟨t, ht⟩ := Option.isSome_iff_exists.1 (pathOf_isSome is p [] hsome)
      rw [once_filterMap (positions_nodup b hd) ((mem_positions b is p).2 hsome) (q := q) (x := x)]
      · simp [hq]
      · simp [ht, ho.here, hq]
      · intro c _ w hw hwq
        cases h1 : b.pathOf [] c.1 c.2 with
        | none => rw [h1] at hw; cases hw
        | some t =>
          cases h2 : b.slotAt c.1 c.2 with
          | none => rw [h1, h2] at hw; cases hw
          | some s =>
            rw [h1, h2] at hw
            cases s with
            | pin p' =>
              simp only [Option.bind_some, Option.map_some] at hw
              split at hw
              · cases hw
              · cases hw
                have hwq : p' = q := hwq
                subst hwq
                obtain ⟨h3, h4⟩ := ho.only c.1 c.2 h2
                exact Prod.ext h3 h4
            | _ => cases hw
  · have h := setSlots_other dev v (fun x hx => hv ⟨x, hx⟩) ((b.allSignals []).map Prod.snd)
    have hq := h.2.2.2 he q ((slots_of_pin hd []).2 ⟨is, p, ho.here⟩)
    rw [h.1, hq]
    rfl

/-! ### Signal lists -/

theorem writeAll_free {q : Nat} {ss : List Slot} (h : .pin q ∉ ss) (vs : List Val) :
    onPin q (writeAll ss vs).writes = [] := by
  induction ss generalizing vs with
  | nil => cases vs <;> rfl
  | cons s ss ih =>
    rw [List.mem_cons, not_or] at h
    cases vs with
    | nil => rfl
    | cons v vs =>
      rw [writeAll]
      exact next_onPin (writeSlot_free (Ne.symm h.1) v) (ih h.2 vs)

theorem writeAll_hit {q : Nat} {ss : List Slot} {i : Nat} (h : ss[i]? = some (.pin q))
    (huniq : ∀ j, ss[j]? = some (.pin q) → j = i) {vs : List Val}
    (he : (writeAll ss vs).err = none) :
    (onPin q (writeAll ss vs).writes).map Val.num = (vs[i]?).toList := by
  induction ss generalizing vs i with
  | nil => simp at h
  | cons s ss ih =>
    cases vs with
    | nil => rfl
    | cons v vs =>
      rw [writeAll] at he ⊢
      obtain ⟨h1, h2, h3⟩ := next_none he
      rw [h3, onPin_append, List.map_append]
      cases i with
      | zero =>
        simp only [List.getElem?_cons_zero, Option.some.injEq] at h
        subst h
        rw [writeSlot_hit h1, writeAll_free]
        · rfl
        · intro hm
          obtain ⟨j, hj⟩ := List.getElem?_of_mem hm
          have := huniq (j + 1) (by simpa using hj)
          omega
      | succ i =>
        have hs : s ≠ .pin q := by
          rintro rfl
          have := huniq 0 rfl
          omega
        rw [writeSlot_free hs]
        simp only [List.map_nil, List.nil_append, List.getElem?_cons_succ]
        refine ih (by simpa using h) (fun j hj => ?_) h2
        have := huniq (j + 1) (by simpa using hj)
        omega

theorem assignList_free {q : Nat} {ss : List Slot} (h : .pin q ∉ ss) (v : Val) :
    onPin q (assignList ss v).writes = [] := by
  cases v with
  | seq vs =>
    simp only [assignList]
    split
    · exact next_onPin (writeAll_free h _) rfl
    · rfl
  | _ => rfl

theorem given_idx (w : Bool) (i : Nat) (rest : List Step) (vs : Vals) :
    given w (.idx i :: rest) (.seq vs) =
      match vs.toList[i]? with
      | some v => given w rest v
      | none => [] := by
  rw [given]
  rfl

theorem assignList_hit (w : Bool) {q : Nat} {ss : List Slot} {i : Nat} (h : ss[i]? = some (.pin q))
    (huniq : ∀ j, ss[j]? = some (.pin q) → j = i) {v : Val}
    (he : (assignList ss v).err = none) :
    (onPin q (assignList ss v).writes).map Val.num = given w [.idx i] v := by
  cases v with
  | seq vs =>
    simp only [assignList] at he ⊢
    split at he
    · rename_i hl
      rw [if_pos hl]
      obtain ⟨h1, h2, h3⟩ := next_none he
      rw [h3, onPin_append, List.map_append, writeAll_hit h huniq h1, given_idx]
      cases vs.toList[i]? with
      | none => rfl
      | some v => simp [given, Out.ok, onPin]
    · simp [Out.fail] at he
  | _ => simp [assignList, Out.fail] at he

/-! ### The targets of keys are parts of the tree -/

def TWf : Target → Prop
  | .sub c => c.Attr ∧ c.Distinct
  | .all c => c.Attr ∧ c.Distinct
  | .elems bs => ∀ c ∈ bs, c.Attr ∧ c.Distinct
  | _ => True

theorem elemTarget_wf {ks : Kids} (ha : ks.Attr) (hd : ks.Distinct)
    {cnt : Name → Nat} (ho : ks.Ordered cnt) (k : Name) : TWf (ks.elemTarget k) := by
  unfold Kids.elemTarget
  split
  · trivial
  · intro c hc
    obtain ⟨t, ht⟩ := List.getElem?_of_mem hc
    obtain ⟨i, _, h⟩ := Kids.elems_get ho ht
    exact ⟨Kids.attr_get ha h, Kids.distinct_get' hd h⟩

theorem locate_wf {b : Bundle} (ha : b.Attr) (hd : b.Distinct) (k : Name) : TWf (b.locate k) := by
  obtain ⟨r, lv, cl, ks⟩ := b
  unfold Bundle.locate
  split
  · trivial
  · split
    · trivial
    · split
      · rename_i h
        obtain ⟨i, _, h⟩ := Kids.sub?_get h
        exact ⟨Kids.attr_get ha.2.2.2.2 h, Kids.distinct_get' hd.2 h⟩
      · exact elemTarget_wf ha.2.2.2.2 hd.2 ha.2.2.2.1 k

mutual
theorem locateFlat_wf : ∀ (b : Bundle) (k : Name), b.Attr → b.Distinct → TWf (b.locateFlat k)
  | .mk r lv cl ks, k, ha, hd => by
    rw [Bundle.locateFlat]
    split
    · trivial
    · split
      · trivial
      · split
        · exact elemTarget_wf ha.2.2.2.2 hd.2 ha.2.2.2.1 k
        · split
          · rename_i h
            exact kidsLocateFlat_wf ks _ _ _ ha.2.2.2.2 hd.2 h
          · exact elemTarget_wf ha.2.2.2.2 hd.2 ha.2.2.2.1 k
theorem kidsLocateFlat_wf : ∀ (ks : Kids) (h t : Name) (x : Target), ks.Attr → ks.Distinct →
    Kids.locateFlat ks h t = some x → TWf x
  | .nil, _, _, _, _, _, hx => by simp [Kids.locateFlat] at hx
  | .cons (.sub n) b ks, h, t, x, ha, hd, hx => by
    rw [Kids.locateFlat] at hx
    split at hx
    · cases hx
      split
      · exact ⟨ha.1, hd.1⟩
      · exact locateFlat_wf b t ha.1 hd.1
    · exact kidsLocateFlat_wf ks h t x ha.2 hd.2 hx
  | .cons (.elem _ _) _ ks, h, t, x, ha, hd, hx => by
    rw [Kids.locateFlat] at hx
    exact kidsLocateFlat_wf ks h t x ha.2 hd.2 hx
end

theorem target_wf (flat : Bool) {b : Bundle} (ha : b.Attr) (hd : b.Distinct) (k : Name) :
    TWf (b.target flat k) := by
  cases flat with
  | false => exact locate_wf ha hd k
  | true => exact locateFlat_wf b k ha hd

/-- What a key that is not `"*"` does. -/
def assignKey (dev : Dev) (flat : Bool) (level k : Name) (t : Target) (v : Val) : Out Val :=
  match t with
  | .slot s => writeSlot s v
  | .list slots => assignList slots v
  | .sub c => assign dev flat (appended level k) c v
  | .all c => c.setAll dev v
  | .elems bs => assignElems dev flat bs v
  | .missing => { writes := [], reports := [appended level k], item := v, err := none }

theorem assignItems_cons (dev : Dev) (flat : Bool) (level : Name) (b : Bundle) (k : Name) (v : Val)
    (rest : Items) :
    assignItems dev flat level b (.cons k v rest) =
      if k = star then assignItems dev flat level b rest
      else
        (assignKey dev flat level k (b.target flat k) v).next (fun v' => .cons k v' rest) fun v' =>
          let r := assignItems dev flat level b rest
          { writes := r.writes, reports := r.reports, item := .cons k v' r.item, err := r.err } := by
  rw [assignItems]
  rfl

/-! ### The frame -/

mutual
theorem assign_free (dev : Dev) (flat : Bool) (q : Nat) : ∀ (v : Val) (level : Name) (b : Bundle),
    b.Attr → b.Distinct → Free q b → onPin q (assign dev flat level b v).writes = []
  | .dict d, level, b, ha, hd, hf => by
    rw [assign]
    split
    · exact assignItems_free dev flat q d level b ha hd hf
    · exact next_onPin (setAll_free dev hd hf _) (assignItems_free dev flat q d level b ha hd hf)
  | .none, level, b, _, _, _ => by rw [assign] <;> first | rfl | simp
  | .num _, level, b, _, _, _ => by rw [assign] <;> first | rfl | simp
  | .seq _, level, b, _, _, _ => by rw [assign] <;> first | rfl | simp
theorem assignItems_free (dev : Dev) (flat : Bool) (q : Nat) : ∀ (d : Items) (level : Name)
    (b : Bundle), b.Attr → b.Distinct → Free q b →
    onPin q (assignItems dev flat level b d).writes = []
  | .nil, level, b, _, _, _ => by rw [assignItems]; rfl
  | .cons k v rest, level, b, ha, hd, hf => by
    have ih := assignItems_free dev flat q rest level b ha hd hf
    rw [assignItems_cons]
    split
    · exact ih
    · exact next_onPin (assignKey_free dev flat q v level k (b.target flat k)
        (target_wf flat ha hd k) (target_free flat ha hf k)) ih
theorem assignKey_free (dev : Dev) (flat : Bool) (q : Nat) : ∀ (v : Val) (level k : Name)
    (t : Target), TWf t → TFree q t → onPin q (assignKey dev flat level k t v).writes = []
  | v, level, k, .slot s, _, hf => writeSlot_free hf v
  | v, level, k, .list ss, _, hf => assignList_free hf v
  | v, level, k, .sub c, hw, hf => assign_free dev flat q v (appended level k) c hw.1 hw.2 hf
  | v, level, k, .all c, hw, hf => setAll_free dev hw.2 hf v
  | .seq vs, level, k, .elems bs, hw, hf => by
    simp only [assignKey]
    rw [assignElems]
    exact assignVals_free dev flat q vs bs hw hf
  | .none, level, k, .elems bs, _, _ => by
    simp only [assignKey]
    rw [assignElems] <;> first | rfl | simp
  | .num _, level, k, .elems bs, _, _ => by
    simp only [assignKey]
    rw [assignElems] <;> first | rfl | simp
  | .dict _, level, k, .elems bs, _, _ => by
    simp only [assignKey]
    rw [assignElems] <;> first | rfl | simp
  | v, level, k, .missing, _, _ => rfl
theorem assignVals_free (dev : Dev) (flat : Bool) (q : Nat) : ∀ (vs : Vals) (bs : List Bundle),
    (∀ c ∈ bs, c.Attr ∧ c.Distinct) → (∀ c ∈ bs, Free q c) →
    onPin q (assignVals dev flat bs vs).writes = []
  | vs, [], _, _ => by rw [assignVals]; rfl
  | .nil, _ :: _, _, _ => by rw [assignVals]; rfl
  | .cons v rest, b :: bs, hw, hf => by
    rw [assignVals]
    exact next_onPin (assign_free dev flat q v [] b (hw b List.mem_cons_self).1
      (hw b List.mem_cons_self).2 (hf b List.mem_cons_self))
      (assignVals_free dev flat q rest bs (fun c hc => hw c (List.mem_cons_of_mem _ hc))
        (fun c hc => hf c (List.mem_cons_of_mem _ hc)))
end

/-! ### The slot itself -/

/-- The part of `given` for the entries of the dictionary. -/
def givenItems (w : Bool) (k : Name) (ss : List Name) (rest : List Step) (d : Items) : List Val :=
  d.toList.flatMap fun e =>
    if e.1 = star then []
    else if e.1 = k then given w rest e.2
    else if w ∧ e.1 ∈ ss then [e.2] else []

theorem given_key (w : Bool) (k : Name) (ss : List Name) (rest : List Step) (d : Items) :
    given w (.key k ss :: rest) (.dict d) =
      (if w then d.star?.toList else []) ++ givenItems w k ss rest d := by
  rw [given]
  rfl

mutual
theorem assign_hit (dev : Dev) (flat : Bool) (q : Nat) : ∀ (v : Val) (level : Name) (b : Bundle)
    (is : List Nat) (p : Pos) (st : List Step),
    b.Attr → b.Distinct → Only q b is p → b.steps flat is p = some st →
    (assign dev flat level b v).err = none →
    (onPin q (assign dev flat level b v).writes).map Val.num = given (!dev.out q) st v
  | .dict d, level, b, is, p, st, ha, hd, ho, hs, he => by
    obtain ⟨k0, ss, rest, hk⟩ := steps_key flat (b := b) is p (by rw [ho.here]; rfl)
    rw [hs] at hk
    cases hk
    have ih := assignItems_hit dev flat q d level b is p k0 ss rest ha hd ho hs
    rw [given_key]
    rw [assign] at he ⊢
    split at he
    · rename_i hst
      rw [hst]
      simp only [Option.toList_none, ite_self, List.nil_append]
      exact ih he
    · rename_i v hst
      rw [hst]
      simp only
      obtain ⟨h1, h2, h3⟩ := next_none he
      rw [h3, onPin_append, List.map_append, setAll_hit dev hd ho h1]
      congr 1
      exact ih h2
  | .none, level, b, is, p, st, _, _, ho, hs, _ => by
    obtain ⟨k0, ss, rest, hk⟩ := steps_key flat (b := b) is p (by rw [ho.here]; rfl)
    rw [hs] at hk
    cases hk
    rw [assign] <;> simp [given, onPin]
  | .num _, level, b, is, p, st, _, _, ho, hs, _ => by
    obtain ⟨k0, ss, rest, hk⟩ := steps_key flat (b := b) is p (by rw [ho.here]; rfl)
    rw [hs] at hk
    cases hk
    rw [assign] <;> simp [given, onPin]
  | .seq _, level, b, is, p, st, _, _, ho, hs, _ => by
    obtain ⟨k0, ss, rest, hk⟩ := steps_key flat (b := b) is p (by rw [ho.here]; rfl)
    rw [hs] at hk
    cases hk
    rw [assign] <;> simp [given, onPin]
theorem assignItems_hit (dev : Dev) (flat : Bool) (q : Nat) : ∀ (d : Items) (level : Name)
    (b : Bundle) (is : List Nat) (p : Pos) (k0 : Name) (ss : List Name) (rest : List Step),
    b.Attr → b.Distinct → Only q b is p → b.steps flat is p = some (.key k0 ss :: rest) →
    (assignItems dev flat level b d).err = none →
    (onPin q (assignItems dev flat level b d).writes).map Val.num =
      givenItems (!dev.out q) k0 ss rest d
  | .nil, level, b, is, p, k0, ss, rest, _, _, _, _, _ => by rw [assignItems]; rfl
  | .cons k v more, level, b, is, p, k0, ss, rest, ha, hd, ho, hs, he => by
    have ih := assignItems_hit dev flat q more level b is p k0 ss rest ha hd ho hs
    obtain ⟨t1, t2, t3, t4, t5⟩ := target_spec flat ha hd ho hs
    have hg : givenItems (!dev.out q) k0 ss rest (.cons k v more) =
        (if k = star then [] else if k = k0 then given (!dev.out q) rest v
          else if (!dev.out q) ∧ k ∈ ss then [v] else []) ++
        givenItems (!dev.out q) k0 ss rest more := by
      simp only [givenItems, Items.toList, List.flatMap_cons]
    rw [hg]
    rw [assignItems_cons] at he ⊢
    by_cases hk : k = star
    · rw [if_pos hk] at he ⊢
      rw [if_pos hk]
      exact ih he
    · rw [if_neg hk] at he ⊢
      rw [if_neg hk]
      obtain ⟨h1, h2, h3⟩ := next_none he
      rw [h3, onPin_append, List.map_append]
      congr 1
      · by_cases hk0 : k = k0
        · subst hk0
          rw [if_pos rfl]
          exact assignKey_hit dev flat q v level k (b.target flat k) rest (target_wf flat ha hd k) t3 h1
        · rw [if_neg hk0]
          by_cases hss : k ∈ ss
          · obtain ⟨c, is', p', e1, e2, e3⟩ := t4 k hss
            rw [e1] at h1 ⊢
            have := setAll_hit dev e3 e2 h1
            simp only [assignKey]
            rw [this]
            simp [hss]
          · rw [assignKey_free dev flat q v level k _ (target_wf flat ha hd k) (t5 k hk0 hss)]
            simp [hss]
      · exact ih h2
theorem assignKey_hit (dev : Dev) (flat : Bool) (q : Nat) : ∀ (v : Val) (level k : Name)
    (t : Target) (rest : List Step), TWf t → THit flat q t rest →
    (assignKey dev flat level k t v).err = none →
    (onPin q (assignKey dev flat level k t v).writes).map Val.num = given (!dev.out q) rest v
  | v, level, k, .slot s, rest, _, hh, he => by
    obtain ⟨rfl, rfl⟩ := hh
    rw [given]
    exact writeSlot_hit he
  | v, level, k, .list ss, rest, _, hh, he => by
    obtain ⟨i, rfl, h1, h2⟩ := hh
    exact assignList_hit (!dev.out q) h1 h2 he
  | v, level, k, .sub c, rest, hw, hh, he => by
    obtain ⟨is, p, h1, h2, h3, h4⟩ := hh
    exact assign_hit dev flat q v (appended level k) c is p rest h3 h4 h1 h2 he
  | .seq vs, level, k, .elems bs, rest, hw, hh, he => by
    obtain ⟨j, c, is, p, rest', rfl, h1, h2, h3, h4, h5, h6⟩ := hh
    simp only [assignKey] at he ⊢
    rw [assignElems] at he ⊢
    rw [given_idx]
    exact assignVals_hit dev flat q vs bs j c is p rest' hw h1 h2 h3 h6 he
  | .none, level, k, .elems bs, rest, _, _, he => by
    simp only [assignKey] at he
    rw [assignElems] at he <;> first | (simp [Out.fail] at he; done) | simp
  | .num _, level, k, .elems bs, rest, _, _, he => by
    simp only [assignKey] at he
    rw [assignElems] at he <;> first | (simp [Out.fail] at he; done) | simp
  | .dict _, level, k, .elems bs, rest, _, _, he => by
    simp only [assignKey] at he
    rw [assignElems] at he <;> first | (simp [Out.fail] at he; done) | simp
theorem assignVals_hit (dev : Dev) (flat : Bool) (q : Nat) : ∀ (vs : Vals) (bs : List Bundle)
    (j : Nat) (c : Bundle) (is : List Nat) (p : Pos) (st : List Step),
    (∀ c ∈ bs, c.Attr ∧ c.Distinct) → bs[j]? = some c → Only q c is p →
    c.steps flat is p = some st → (∀ j' c', bs[j']? = some c' → j' ≠ j → Free q c') →
    (assignVals dev flat bs vs).err = none →
    (onPin q (assignVals dev flat bs vs).writes).map Val.num =
      match vs.toList[j]? with
      | some v => given (!dev.out q) st v
      | none => []
  | vs, [], j, c, is, p, st, _, hj, _, _, _, _ => by simp at hj
  | .nil, _ :: _, j, c, is, p, st, _, _, _, _, _, he => by
    rw [assignVals] at he
    simp [Out.fail] at he
  | .cons v more, b :: bs, 0, c, is, p, st, hw, hj, ho, hs, hu, he => by
    simp only [List.getElem?_cons_zero, Option.some.injEq] at hj
    subst hj
    rw [assignVals] at he ⊢
    obtain ⟨h1, h2, h3⟩ := next_none he
    have hb := hw b List.mem_cons_self
    rw [h3, onPin_append, List.map_append, assign_hit dev flat q v [] b is p st hb.1 hb.2 ho hs h1]
    have := assignVals_free dev flat q more bs (fun c hc => hw c (List.mem_cons_of_mem _ hc))
      (fun c hc => by
        obtain ⟨i, hi⟩ := List.getElem?_of_mem hc
        exact hu (i + 1) c (by simpa using hi) (by omega))
    simp only [this, Vals.toList, List.getElem?_cons_zero, List.map_nil, List.append_nil]
  | .cons v more, b :: bs, j + 1, c, is, p, st, hw, hj, ho, hs, hu, he => by
    rw [assignVals] at he ⊢
    obtain ⟨h1, h2, h3⟩ := next_none he
    have hb := hw b List.mem_cons_self
    rw [h3, onPin_append, List.map_append,
      assign_free dev flat q v [] b hb.1 hb.2 (hu 0 b rfl (by omega))]
    have := assignVals_hit dev flat q more bs j c is p st
      (fun c hc => hw c (List.mem_cons_of_mem _ hc)) (by simpa using hj) ho hs
      (fun j' c' h h' => hu (j' + 1) c' (by simpa using h) (by omega)) h2
    simp only [this, Vals.toList, List.getElem?_cons_succ, List.map_nil, List.nil_append]
end

/-! ### When an exception is raised -/

theorem next_prefix {α β : Type} {o : Out α} {stop : α → β} {go : α → Out β} {q : Nat}
    {A B : List Val} (h0 : o.err = none → (onPin q o.writes).map Val.num = A)
    (h1 : (onPin q o.writes).map Val.num <+: A)
    (h2 : (onPin q (go o.item).writes).map Val.num <+: B) :
    (onPin q (o.next stop go).writes).map Val.num <+: A ++ B := by
  unfold Out.next
  cases he : o.err with
  | some e => exact h1.trans (List.prefix_append A B)
  | none =>
    simp only [onPin_append, List.map_append]
    rw [h0 he]
    exact (List.prefix_append_right_inj A).2 h2

theorem writeSlot_prefix {q : Nat} {v : Val} :
    (onPin q (writeSlot (.pin q) v).writes).map Val.num <+: [v] := by
  cases v <;> simp [writeSlot, onPin, Out.fail]

theorem setAll_prefix (dev : Dev) {q : Nat} {b : Bundle} {is : List Nat} {p : Pos} (hd : b.Distinct)
    (ho : Only q b is p) {v : Val} :
    (onPin q (b.setAll dev v).writes).map Val.num <+: if !dev.out q then [v] else [] := by
  cases v with
  | num x =>
    rw [setAll_hit dev hd ho (setSlots_num dev x _).1]
    exact List.prefix_rfl
  | _ =>
    unfold Bundle.setAll
    rw [(setSlots_other dev _ (by simp) _).1]
    exact List.nil_prefix

theorem writeAll_prefix {q : Nat} {ss : List Slot} {i : Nat} (h : ss[i]? = some (.pin q))
    (huniq : ∀ j, ss[j]? = some (.pin q) → j = i) (vs : List Val) :
    (onPin q (writeAll ss vs).writes).map Val.num <+: (vs[i]?).toList := by
  induction ss generalizing vs i with
  | nil => simp at h
  | cons s ss ih =>
    cases vs with
    | nil => exact List.nil_prefix
    | cons v vs =>
      rw [writeAll]
      cases i with
      | zero =>
        simp only [List.getElem?_cons_zero, Option.some.injEq] at h
        subst h
        have hno : .pin q ∉ ss := by
          intro hm
          obtain ⟨j, hj⟩ := List.getElem?_of_mem hm
          have := huniq (j + 1) (by simpa using hj)
          omega
        have := next_prefix (o := writeSlot (.pin q) v) (stop := fun _ => ())
          (go := fun _ => writeAll ss vs) (q := q) (A := [v]) (B := []) writeSlot_hit
          writeSlot_prefix (by rw [writeAll_free hno]; exact List.nil_prefix)
        simpa using this
      | succ i =>
        have hs : s ≠ .pin q := by
          rintro rfl
          have := huniq 0 rfl
          omega
        have ih := ih (i := i) (by simpa using h) (fun j hj => by
          have := huniq (j + 1) (by simpa using hj)
          omega) vs
        have := next_prefix (o := writeSlot s v) (stop := fun _ => ())
          (go := fun _ => writeAll ss vs) (q := q) (A := []) (B := (vs[i]?).toList)
          (fun _ => by rw [writeSlot_free hs]; rfl)
          (by rw [writeSlot_free hs]; exact List.nil_prefix) ih
        simpa using this

theorem assignList_prefix (w : Bool) {q : Nat} {ss : List Slot} {i : Nat}
    (h : ss[i]? = some (.pin q)) (huniq : ∀ j, ss[j]? = some (.pin q) → j = i) (v : Val) :
    (onPin q (assignList ss v).writes).map Val.num <+: given w [.idx i] v := by
  cases v with
  | seq vs =>
    simp only [assignList]
    split
    · have := next_prefix (o := writeAll ss vs.toList) (stop := fun _ => Val.seq vs)
        (go := fun _ => Out.ok (Val.seq vs)) (q := q) (A := (vs.toList[i]?).toList) (B := [])
        (fun he => writeAll_hit h huniq he) (writeAll_prefix h huniq _) (by simp [Out.ok, onPin])
      rw [given_idx]
      cases hv : vs.toList[i]? with
      | none => rw [hv] at this; simpa using this
      | some v => rw [hv] at this; simpa [given] using this
    · exact List.nil_prefix
  | _ => exact List.nil_prefix

mutual
theorem assign_prefix (dev : Dev) (flat : Bool) (q : Nat) : ∀ (v : Val) (level : Name) (b : Bundle)
    (is : List Nat) (p : Pos) (st : List Step),
    b.Attr → b.Distinct → Only q b is p → b.steps flat is p = some st →
    (onPin q (assign dev flat level b v).writes).map Val.num <+: given (!dev.out q) st v
  | .dict d, level, b, is, p, st, ha, hd, ho, hs => by
    obtain ⟨k0, ss, rest, hk⟩ := steps_key flat (b := b) is p (by rw [ho.here]; rfl)
    rw [hs] at hk
    cases hk
    have ih := assignItems_prefix dev flat q d level b is p k0 ss rest ha hd ho hs
    rw [given_key]
    rw [assign]
    split
    · rename_i hst
      rw [hst]
      simp only [Option.toList_none, ite_self, List.nil_append]
      exact ih
    · rename_i v hst
      rw [hst]
      exact next_prefix (fun he => setAll_hit dev hd ho he) (setAll_prefix dev hd ho) ih
  | .none, level, b, is, p, st, _, _, ho, hs => by
    rw [assign] <;> simp [onPin]
  | .num _, level, b, is, p, st, _, _, ho, hs => by
    rw [assign] <;> simp [onPin]
  | .seq _, level, b, is, p, st, _, _, ho, hs => by
    rw [assign] <;> simp [onPin]
theorem assignItems_prefix (dev : Dev) (flat : Bool) (q : Nat) : ∀ (d : Items) (level : Name)
    (b : Bundle) (is : List Nat) (p : Pos) (k0 : Name) (ss : List Name) (rest : List Step),
    b.Attr → b.Distinct → Only q b is p → b.steps flat is p = some (.key k0 ss :: rest) →
    (onPin q (assignItems dev flat level b d).writes).map Val.num <+:
      givenItems (!dev.out q) k0 ss rest d
  | .nil, level, b, is, p, k0, ss, rest, _, _, _, _ => by rw [assignItems]; exact List.nil_prefix
  | .cons k v more, level, b, is, p, k0, ss, rest, ha, hd, ho, hs => by
    have ih := assignItems_prefix dev flat q more level b is p k0 ss rest ha hd ho hs
    obtain ⟨t1, t2, t3, t4, t5⟩ := target_spec flat ha hd ho hs
    have hg : givenItems (!dev.out q) k0 ss rest (.cons k v more) =
        (if k = star then [] else if k = k0 then given (!dev.out q) rest v
          else if (!dev.out q) ∧ k ∈ ss then [v] else []) ++
        givenItems (!dev.out q) k0 ss rest more := by
      simp only [givenItems, Items.toList, List.flatMap_cons]
    rw [hg]
    rw [assignItems_cons]
    by_cases hk : k = star
    · rw [if_pos hk, if_pos hk]
      exact ih
    · rw [if_neg hk, if_neg hk]
      by_cases hk0 : k = k0
      · subst hk0
        rw [if_pos rfl]
        exact next_prefix
          (fun he => assignKey_hit dev flat q v level k _ rest (target_wf flat ha hd k) t3 he)
          (assignKey_prefix dev flat q v level k (b.target flat k) rest (target_wf flat ha hd k) t3) ih
      · rw [if_neg hk0]
        by_cases hss : k ∈ ss
        · obtain ⟨c, is', p', e1, e2, e3⟩ := t4 k hss
          rw [e1]
          refine next_prefix (fun he => ?_) ?_ ih
          · simp only [assignKey] at he ⊢
            rw [setAll_hit dev e3 e2 he]
            simp [hss]
          · simp only [assignKey]
            refine (setAll_prefix dev e3 e2).trans ?_
            simp [hss]
        · have h0 := assignKey_free dev flat q v level k _ (target_wf flat ha hd k) (t5 k hk0 hss)
          refine next_prefix (fun _ => ?_) ?_ ih
          · rw [h0]; simp [hss]
          · rw [h0]; exact List.nil_prefix
theorem assignKey_prefix (dev : Dev) (flat : Bool) (q : Nat) : ∀ (v : Val) (level k : Name)
    (t : Target) (rest : List Step), TWf t → THit flat q t rest →
    (onPin q (assignKey dev flat level k t v).writes).map Val.num <+: given (!dev.out q) rest v
  | v, level, k, .slot s, rest, _, hh => by
    obtain ⟨rfl, rfl⟩ := hh
    rw [given]
    exact writeSlot_prefix
  | v, level, k, .list ss, rest, _, hh => by
    obtain ⟨i, rfl, h1, h2⟩ := hh
    exact assignList_prefix (!dev.out q) h1 h2 v
  | v, level, k, .sub c, rest, hw, hh => by
    obtain ⟨is, p, h1, h2, h3, h4⟩ := hh
    exact assign_prefix dev flat q v (appended level k) c is p rest h3 h4 h1 h2
  | .seq vs, level, k, .elems bs, rest, hw, hh => by
    obtain ⟨j, c, is, p, rest', rfl, h1, h2, h3, h4, h5, h6⟩ := hh
    simp only [assignKey]
    rw [assignElems, given_idx]
    exact assignVals_prefix dev flat q vs bs j c is p rest' hw h1 h2 h3 h6
  | .none, level, k, .elems bs, rest, _, _ => by
    simp only [assignKey]
    rw [assignElems] <;> simp [Out.fail, onPin]
  | .num _, level, k, .elems bs, rest, _, _ => by
    simp only [assignKey]
    rw [assignElems] <;> simp [Out.fail, onPin]
  | .dict _, level, k, .elems bs, rest, _, _ => by
    simp only [assignKey]
    rw [assignElems] <;> simp [Out.fail, onPin]
theorem assignVals_prefix (dev : Dev) (flat : Bool) (q : Nat) : ∀ (vs : Vals) (bs : List Bundle)
    (j : Nat) (c : Bundle) (is : List Nat) (p : Pos) (st : List Step),
    (∀ c ∈ bs, c.Attr ∧ c.Distinct) → bs[j]? = some c → Only q c is p →
    c.steps flat is p = some st → (∀ j' c', bs[j']? = some c' → j' ≠ j → Free q c') →
    (onPin q (assignVals dev flat bs vs).writes).map Val.num <+:
      match vs.toList[j]? with
      | some v => given (!dev.out q) st v
      | none => []
  | vs, [], j, c, is, p, st, _, hj, _, _, _ => by simp at hj
  | .nil, _ :: _, j, c, is, p, st, _, _, _, _, _ => by
    rw [assignVals]
    exact List.nil_prefix
  | .cons v more, b :: bs, 0, c, is, p, st, hw, hj, ho, hs, hu => by
    simp only [List.getElem?_cons_zero, Option.some.injEq] at hj
    subst hj
    rw [assignVals]
    have hb := hw b List.mem_cons_self
    have := assignVals_free dev flat q more bs (fun c hc => hw c (List.mem_cons_of_mem _ hc))
      (fun c hc => by
        obtain ⟨i, hi⟩ := List.getElem?_of_mem hc
        exact hu (i + 1) c (by simpa using hi) (by omega))
    simp only [Vals.toList, List.getElem?_cons_zero]
    rw [← List.append_nil (given (!dev.out q) st v)]
    exact next_prefix (fun he => assign_hit dev flat q v [] b is p st hb.1 hb.2 ho hs he)
      (assign_prefix dev flat q v [] b is p st hb.1 hb.2 ho hs)
      (by simp only [this]; exact List.nil_prefix)
  | .cons v more, b :: bs, j + 1, c, is, p, st, hw, hj, ho, hs, hu => by
    rw [assignVals]
    have hb := hw b List.mem_cons_self
    have h0 := assign_free dev flat q v [] b hb.1 hb.2 (hu 0 b rfl (by omega))
    have := assignVals_prefix dev flat q more bs j c is p st
      (fun c hc => hw c (List.mem_cons_of_mem _ hc)) (by simpa using hj) ho hs
      (fun j' c' h h' => hu (j' + 1) c' (by simpa using h) (by omega))
    simp only [Vals.toList, List.getElem?_cons_succ]
    have := next_prefix (A := []) (stop := fun v' => Vals.cons v' more)
      (o := assign dev flat [] b v) (go := fun v' =>
        let r := assignVals dev flat bs more
        { writes := r.writes, reports := r.reports, item := Vals.cons v' r.item, err := r.err })
      (fun _ => by rw [h0]; rfl) (by rw [h0]; exact List.nil_prefix) this
    simpa using this
end

end Toffee.Bundle
