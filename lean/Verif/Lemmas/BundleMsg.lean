import Verif.Lemmas.BundleAssign
import Verif.Lemmas.BundleAgain

/-! Messages: which values they give, and bundles after `bind`. -/

namespace Toffee.Bundle

/-! ### The pins after writes -/

theorem run_eq (dev : Dev) (pins : Nat → Int) (ws : List (Nat × Int)) (q : Nat) :
    dev.run pins ws q = (onPin q ws).foldl (dev.wr q) (pins q) := by
  unfold Dev.run
  induction ws generalizing pins with
  | nil => rfl
  | cons w ws ih =>
    rw [List.foldl_cons, ih]
    by_cases h : q = w.1
    · subst h
      simp [onPin]
    · simp [onPin, h, Ne.symm h]

theorem run_untouched (dev : Dev) (pins : Nat → Int) {ws : List (Nat × Int)} {q : Nat}
    (h : onPin q ws = []) : dev.run pins ws q = pins q := by
  rw [run_eq, h]
  rfl

theorem run_last (dev : Dev) (pins : Nat → Int) {ws : List (Nat × Int)} {q : Nat} {x : Int}
    (h : (onPin q ws).getLast? = some x) (hx : ∀ old, dev.wr q old x = x) :
    dev.run pins ws q = x := by
  rw [run_eq]
  obtain ⟨l, hl⟩ : ∃ l, onPin q ws = l ++ [x] := by
    rw [List.getLast?_eq_some_iff] at h
    exact h
  rw [hl, List.foldl_append]
  exact hx _

/-! ### Specification of messages -/

/-- The entry of a dictionary. -/
def Items.get (d : Items) (k : Name) : Option Val := (d.toList.find? fun e => e.1 = k).map Prod.snd

/-- The message has an entry for the slot. -/
def Named : List Step → Val → Prop
  | [], _ => True
  | .key k _ :: rest, .dict d => ∃ v, (k, v) ∈ d.toList ∧ Named rest v
  | .idx i :: rest, .seq vs => ∃ v, vs.toList[i]? = some v ∧ Named rest v
  | _, _ => False

mutual
/-- No key of the message is `"*"` or ends in `*`. -/
def Val.Starless : Val → Prop
  | .dict d => d.Starless
  | .seq vs => vs.Starless
  | _ => True
def Items.Starless : Items → Prop
  | .nil => True
  | .cons k v rest => ¬ star <:+ k ∧ v.Starless ∧ rest.Starless
def Vals.Starless : Vals → Prop
  | .nil => True
  | .cons v rest => v.Starless ∧ rest.Starless
end

mutual
/-- The keys of every dictionary of the message are pairwise distinct, as in Python. -/
def Val.Keys : Val → Prop
  | .dict d => (d.toList.map Prod.fst).Nodup ∧ d.Keys
  | .seq vs => vs.Keys
  | _ => True
def Items.Keys : Items → Prop
  | .nil => True
  | .cons _ v rest => v.Keys ∧ rest.Keys
def Vals.Keys : Vals → Prop
  | .nil => True
  | .cons v rest => v.Keys ∧ rest.Keys
end

/-- The value a slot should get: its own entry; failing that, the `"*"` of the innermost dictionary
around it, if the slot is covered by `"*"`. -/
def chosen (w : Bool) : List Step → Val → Option Val
  | [], v => some v
  | .key k _ :: rest, .dict d =>
    match (d.get k).bind (chosen w rest) with
    | some v => some v
    | none => if w then d.get star else none
  | .idx i :: rest, .seq vs => (vs.toList[i]?).bind (chosen w rest)
  | _, _ => none

/-! ### `given` and the specification -/

theorem Items.starless_mem : ∀ {d : Items}, d.Starless → ∀ {k : Name} {v : Val},
    (k, v) ∈ d.toList → ¬ star <:+ k ∧ v.Starless
  | .nil, _, _, _, hm => by cases hm
  | .cons k' v' rest, h, k, v, hm => by
    rw [Items.toList] at hm
    rcases List.mem_cons.1 hm with hm | hm
    · cases hm
      exact ⟨h.1, h.2.1⟩
    · exact Items.starless_mem h.2.2 hm

theorem Vals.starless_mem : ∀ {vs : Vals}, vs.Starless → ∀ {v : Val}, v ∈ vs.toList → v.Starless
  | .nil, _, _, hm => by cases hm
  | .cons v' rest, h, v, hm => by
    rw [Vals.toList] at hm
    rcases List.mem_cons.1 hm with rfl | hm
    · exact h.1
    · exact Vals.starless_mem h.2 hm

theorem Items.keys_mem : ∀ {d : Items}, d.Keys → ∀ {k : Name} {v : Val},
    (k, v) ∈ d.toList → v.Keys
  | .nil, _, _, _, hm => by cases hm
  | .cons k' v' rest, h, k, v, hm => by
    rw [Items.toList] at hm
    rcases List.mem_cons.1 hm with hm | hm
    · cases hm
      exact h.1
    · exact Items.keys_mem h.2 hm

theorem Vals.keys_mem : ∀ {vs : Vals}, vs.Keys → ∀ {v : Val}, v ∈ vs.toList → v.Keys
  | .nil, _, _, hm => by cases hm
  | .cons v' rest, h, v, hm => by
    rw [Vals.toList] at hm
    rcases List.mem_cons.1 hm with rfl | hm
    · exact h.1
    · exact Vals.keys_mem h.2 hm

theorem star?_get : ∀ d : Items, d.star? = d.get star
  | .nil => rfl
  | .cons k v rest => by
    rw [Items.star?]
    unfold Items.get
    rw [Items.toList]
    by_cases h : k = star
    · simp [h]
    · rw [if_neg h, star?_get rest]
      simp [Items.get, h]

theorem get_mem {d : Items} {k : Name} {v : Val} (h : d.get k = some v) : (k, v) ∈ d.toList := by
  unfold Items.get at h
  cases hf : d.toList.find? (fun e => e.1 = k) with
  | none => rw [hf] at h; cases h
  | some e =>
    rw [hf] at h
    have h1 := List.mem_of_find?_eq_some hf
    have h2 : e.1 = k := by simpa using List.find?_some hf
    have h3 : e.2 = v := Option.some.inj h
    rw [← h2, ← h3]
    exact h1

theorem get_of_mem {d : Items} {k : Name} {v : Val} (hnd : (d.toList.map Prod.fst).Nodup)
    (h : (k, v) ∈ d.toList) : d.get k = some v := by
  cases hg : d.get k with
  | none =>
    unfold Items.get at hg
    rw [Option.map_eq_none_iff, List.find?_eq_none] at hg
    exact (hg (k, v) h (by simp)).elim
  | some v' =>
    have := nodup_map_inj Prod.fst hnd (get_mem hg) h rfl
    cases this
    rfl

theorem get_none {d : Items} {k : Name} : d.get k = none ↔ ∀ v, (k, v) ∉ d.toList := by
  constructor
  · intro h v hm
    unfold Items.get at h
    rw [Option.map_eq_none_iff, List.find?_eq_none] at h
    exact (h (k, v) hm (by simp)).elim
  · intro h
    cases hg : d.get k with
    | none => rfl
    | some v => exact absurd (get_mem hg) (h v)

/-- With distinct keys and no covering `"sub.*"`, only the entry itself counts. -/
theorem givenItems_eq (w : Bool) {k : Name} {ss : List Name} (rest : List Step) {d : Items}
    (hnd : (d.toList.map Prod.fst).Nodup) (hk : k ≠ star)
    (hss : w = true → ∀ s ∈ ss, s ∉ d.toList.map Prod.fst) :
    givenItems w k ss rest d =
      match d.get k with
      | some v => given w rest v
      | none => [] := by
  unfold givenItems Items.get
  generalize d.toList = l at hnd hss
  induction l with
  | nil => rfl
  | cons e l ih =>
    obtain ⟨h1, h2⟩ := List.nodup_cons.1 hnd
    have ih := ih h2 fun hw s hs hm => hss hw s hs (List.mem_cons_of_mem _ hm)
    rw [List.flatMap_cons]
    by_cases he : e.1 = k
    · have : (l.find? fun e => e.1 = k) = none := by
        rw [List.find?_eq_none]
        intro x hx
        simp only [decide_eq_true_eq]
        intro hxk
        exact h1 (he ▸ hxk ▸ List.mem_map_of_mem hx)
      rw [this] at ih
      simp only [Option.map_none] at ih
      rw [ih]
      simp [he, hk]
    · have h3 : (if e.1 = star then [] else if e.1 = k then given w rest e.2
          else if w ∧ e.1 ∈ ss then [e.2] else []) = [] := by
        by_cases hs : e.1 = star
        · rw [if_pos hs]
        · rw [if_neg hs, if_neg he, if_neg]
          rintro ⟨hw, hm⟩
          exact hss hw _ hm List.mem_cons_self
      rw [h3, List.nil_append, ih]
      simp [he]

/-- The keys of the steps are proper names, and the covering keys end in `.*`. -/
def StepsOk (st : List Step) : Prop :=
  ∀ k ss, Step.key k ss ∈ st → k ≠ star ∧ ∀ s ∈ ss, star <:+ s ∧ s ≠ star

theorem StepsOk.tail {x : Step} {st : List Step} (h : StepsOk (x :: st)) : StepsOk st :=
  fun k ss hm => h k ss (List.mem_cons_of_mem _ hm)

theorem steps_ok (flat : Bool) {b : Bundle} (ha : b.Attr) {is : List Nat} {p : Pos}
    {st : List Step} (hp : (b.slotAt is p).isSome) (hs : b.steps flat is p = some st) :
    StepsOk st := by
  induction is generalizing b st with
  | nil =>
    obtain ⟨r, lv, cl, ks⟩ := b
    cases p with
    | sig n =>
      simp only [Bundle.steps, Option.some.injEq] at hs
      subst hs
      intro k ss hm
      simp only [List.mem_singleton, Step.key.injEq] at hm
      obtain ⟨rfl, rfl⟩ := hm
      refine ⟨?_, by simp⟩
      simp only [Bundle.slotAt, Level.slot, Bundle.lvl] at hp
      cases hf : lv.signals.find? (fun c => c.name = k) with
      | none => rw [hf] at hp; cases hp
      | some c =>
        have h2 : c.name = k := by simpa using List.find?_some hf
        refine (ha.2.2.1 k (List.mem_append_left _ (List.mem_append_left _
          (List.mem_append_left _ ?_)))).2
        exact h2 ▸ List.mem_map_of_mem (List.mem_of_find?_eq_some hf)
    | elem l i =>
      simp only [Bundle.steps] at hs
      cases he : (Bundle.mk r lv cl ks).lvl.lists[l]? with
      | none => rw [he] at hs; cases hs
      | some e =>
        rw [he] at hs
        simp only [Option.map_some, Option.some.injEq] at hs
        subst hs
        intro k ss hm
        rcases List.mem_cons.1 hm with hm | hm
        · cases hm
          refine ⟨(ha.2.2.1 e.1 (List.mem_append_left _ (List.mem_append_left _
            (List.mem_append_right _ ?_)))).2, by simp⟩
          exact List.mem_map_of_mem (List.mem_of_getElem? he)
        · simp at hm
  | cons i is ih =>
    obtain ⟨r, lv, cl, ks⟩ := b
    simp only [Bundle.steps, Bundle.kids] at hs
    cases hl : ks.label i with
    | none => rw [hl] at hs; cases hs
    | some l =>
      rw [hl, Option.bind_some] at hs
      cases hk : ks.get i with
      | none => rw [hk] at hs; cases hs
      | some k =>
        rw [hk, Option.bind_some] at hs
        simp only [Bundle.slotAt, Bundle.kids, hk, Option.bind_some] at hp
        cases hst : k.steps flat is p with
        | none => rw [hst] at hs; cases hs
        | some st' =>
          rw [hst] at hs
          have hih := ih (Kids.attr_get ha.2.2.2.2 hk) hp hst
          cases l with
          | sub n =>
            have hn := (ha.2.2.1 n (List.mem_append_left _ (List.mem_append_right _
              (Kids.mem_subNames hl)))).2
            simp only [Option.map_some, Option.some.injEq] at hs
            subst hs
            cases flat with
            | false =>
              intro k0 ss hm
              simp only [subSteps, Bool.false_eq_true, if_false] at hm
              rcases List.mem_cons.1 hm with hm | hm
              · cases hm
                exact ⟨hn, by simp⟩
              · exact hih k0 ss hm
            | true =>
              obtain ⟨k1, s1, r1, h1⟩ := steps_key true is p (b := k) hp
              rw [hst] at h1
              cases h1
              intro k0 ss hm
              simp only [subSteps, if_true] at hm
              rcases List.mem_cons.1 hm with hm | hm
              · cases hm
                have hne : ∀ x, n ++ '.' :: x ≠ star := by
                  intro x h
                  have hc : '.' ∈ star := by rw [← h]; simp
                  simp [star] at hc
                refine ⟨hne _, ?_⟩
                intro s hs
                rcases List.mem_cons.1 hs with rfl | hs
                · exact ⟨⟨n ++ ['.'], by simp⟩, hne _⟩
                · obtain ⟨y, hy, rfl⟩ := List.mem_map.1 hs
                  obtain ⟨z, hz⟩ := ((hih k1 s1 List.mem_cons_self).2 y hy).1
                  exact ⟨⟨n ++ '.' :: z, by rw [← hz]; simp⟩, hne _⟩
              · exact hih k0 ss (List.mem_cons_of_mem _ hm)
          | elem n j =>
            simp only [Option.map_some, Option.some.injEq] at hs
            subst hs
            intro k0 ss hm
            rcases List.mem_cons.1 hm with hm | hm
            · cases hm
              exact ⟨(ha.2.2.1 n (List.mem_append_right _ (Kids.mem_elemNames hl))).2, by simp⟩
            · rcases List.mem_cons.1 hm with hm | hm
              · cases hm
              · exact hih k0 ss hm

mutual
/-- No key ends in `*` except `"*"` itself. -/
def Val.TopStars : Val → Prop
  | .dict d => d.TopStars
  | .seq vs => vs.TopStars
  | _ => True
def Items.TopStars : Items → Prop
  | .nil => True
  | .cons k v rest => (star <:+ k → k = star) ∧ v.TopStars ∧ rest.TopStars
def Vals.TopStars : Vals → Prop
  | .nil => True
  | .cons v rest => v.TopStars ∧ rest.TopStars
end

theorem Items.topStars_mem : ∀ {d : Items}, d.TopStars → ∀ {k : Name} {v : Val},
    (k, v) ∈ d.toList → (star <:+ k → k = star) ∧ v.TopStars
  | .nil, _, _, _, hm => by cases hm
  | .cons k' v' rest, h, k, v, hm => by
    rw [Items.toList] at hm
    rcases List.mem_cons.1 hm with hm | hm
    · cases hm
      exact ⟨h.1, h.2.1⟩
    · exact Items.topStars_mem h.2.2 hm

theorem Vals.topStars_mem : ∀ {vs : Vals}, vs.TopStars → ∀ {v : Val}, v ∈ vs.toList → v.TopStars
  | .nil, _, _, hm => by cases hm
  | .cons v' rest, h, v, hm => by
    rw [Vals.toList] at hm
    rcases List.mem_cons.1 hm with rfl | hm
    · exact h.1
    · exact Vals.topStars_mem h.2 hm

/-- Multilevel steps have no covering keys. -/
def NoCover (st : List Step) : Prop := ∀ k ss, Step.key k ss ∈ st → ss = []

theorem steps_noCover {b : Bundle} {is : List Nat} {p : Pos}
    {st : List Step} (hs : b.steps false is p = some st) : NoCover st := by
  induction is generalizing b st with
  | nil =>
    cases p with
    | sig n =>
      simp only [Bundle.steps, Option.some.injEq] at hs
      subst hs
      intro k ss hm
      simp only [List.mem_singleton, Step.key.injEq] at hm
      exact hm.2
    | elem l i =>
      simp only [Bundle.steps] at hs
      cases he : b.lvl.lists[l]? with
      | none => rw [he] at hs; cases hs
      | some e =>
        rw [he] at hs
        simp only [Option.map_some, Option.some.injEq] at hs
        subst hs
        intro k ss hm
        rcases List.mem_cons.1 hm with hm | hm
        · cases hm; rfl
        · simp at hm
  | cons i is ih =>
    simp only [Bundle.steps] at hs
    cases hl : b.kids.label i with
    | none => rw [hl] at hs; cases hs
    | some l =>
      rw [hl, Option.bind_some] at hs
      cases hk : b.kids.get i with
      | none => rw [hk] at hs; cases hs
      | some k =>
        rw [hk, Option.bind_some] at hs
        cases hst : k.steps false is p with
        | none => rw [hst] at hs; cases hs
        | some st' =>
          rw [hst] at hs
          have ih := ih hst
          cases l with
          | sub n =>
            simp only [Option.map_some, Option.some.injEq, subSteps, Bool.false_eq_true,
              if_false] at hs
            subst hs
            intro k0 ss hm
            rcases List.mem_cons.1 hm with hm | hm
            · cases hm; rfl
            · exact ih k0 ss hm
          | elem n j =>
            simp only [Option.map_some, Option.some.injEq] at hs
            subst hs
            intro k0 ss hm
            rcases List.mem_cons.1 hm with hm | hm
            · cases hm; rfl
            · rcases List.mem_cons.1 hm with hm | hm
              · cases hm
              · exact ih k0 ss hm

/-- The last value given is the chosen one. -/
theorem given_chosen (w : Bool) {st : List Step} (hok : StepsOk st) {v : Val} (hv : v.Keys)
    (hc : w = true → NoCover st ∨ v.TopStars) : (given w st v).getLast? = chosen w st v := by
  induction st generalizing v with
  | nil => cases v <;> simp [given, chosen]
  | cons x st ih =>
    cases x with
    | key k ss =>
      cases v with
      | dict d =>
        obtain ⟨hk, hss⟩ := hok k ss List.mem_cons_self
        rw [given_key, givenItems_eq w st hv.1 hk, chosen, List.getLast?_append, star?_get]
        · cases hg : d.get k with
          | none =>
            cases w with
            | true => cases d.get star <;> rfl
            | false => rfl
          | some v' =>
            simp only [Option.bind_some]
            rw [ih hok.tail (Items.keys_mem hv.2 (get_mem hg))]
            · cases chosen w st v' with
              | some v => rfl
              | none =>
                cases w with
                | true => cases d.get star <;> rfl
                | false => rfl
            · intro hw
              rcases hc hw with h | h
              · exact .inl fun k ss hm => h k ss (List.mem_cons_of_mem _ hm)
              · exact .inr (Items.topStars_mem h (get_mem hg)).2
        · intro hw s hs hm
          rcases hc hw with h | h
          · rw [h k ss List.mem_cons_self] at hs
            cases hs
          · obtain ⟨e, he, rfl⟩ := List.mem_map.1 hm
            exact (hss _ hs).2 ((Items.topStars_mem h (k := e.1) (v := e.2) he).1 (hss _ hs).1)
      | _ => simp [given, chosen]
    | idx i =>
      cases v with
      | seq vs =>
        rw [given_idx, chosen]
        cases hi : vs.toList[i]? with
        | none => rfl
        | some v' =>
          simp only [Option.bind_some]
          refine ih hok.tail (Vals.keys_mem hv (List.mem_of_getElem? hi)) fun hw => ?_
          rcases hc hw with h | h
          · exact .inl fun k ss hm => h k ss (List.mem_cons_of_mem _ hm)
          · exact .inr (Vals.topStars_mem h (List.mem_of_getElem? hi))
      | _ => simp [given, chosen]

/-- A message that names a slot neither directly nor by a `*` gives it nothing. -/
theorem given_nil (w : Bool) {st : List Step} (hok : StepsOk st) {v : Val}
    (hs : w = true → v.Starless) (hn : ¬ Named st v) : given w st v = [] := by
  induction st generalizing v with
  | nil => exact absurd (by cases v <;> trivial) hn
  | cons x st ih =>
    cases x with
    | key k ss =>
      cases v with
      | dict d =>
        obtain ⟨hk, hss⟩ := hok k ss List.mem_cons_self
        rw [given_key, List.append_eq_nil_iff]
        constructor
        · cases w with
          | false => rfl
          | true =>
            rw [star?_get, get_none.2]
            · rfl
            · intro v hm
              exact (Items.starless_mem (hs rfl) hm).1 (List.suffix_refl _)
        · unfold givenItems
          rw [List.flatMap_eq_nil_iff]
          intro e he
          split
          · rfl
          · split
            · rename_i hek
              refine ih hok.tail (fun hw => (Items.starless_mem (hs hw) (k := e.1) (v := e.2) he).2) ?_
              intro h
              exact hn ⟨e.2, hek ▸ he, h⟩
            · split
              · rename_i h
                exact absurd (hss _ h.2).1 (Items.starless_mem (hs h.1) (k := e.1) (v := e.2) he).1
              · rfl
      | _ => simp [given]
    | idx i =>
      cases v with
      | seq vs =>
        rw [given_idx]
        cases hi : vs.toList[i]? with
        | none => rfl
        | some v' =>
          refine ih hok.tail (fun hw => Vals.starless_mem (hs hw) (List.mem_of_getElem? hi)) ?_
          intro h
          exact hn ⟨v', hi, h⟩
      | _ => simp [given]

/-! ### Bundles after `bind` -/

/-- The names of the signals and of the signal lists. -/
def Level.heads (lv : Level) : List Name × List Name :=
  (lv.signals.map Cell.name, lv.lists.map Prod.fst)

theorem put_heads (lv : Level) (p : Pos) (s : Slot) : (lv.put p s).heads = lv.heads := by
  cases p with
  | sig n =>
    simp only [Level.put, Level.heads, setSig, List.map_map, Prod.mk.injEq, and_true]
    apply List.map_congr_left
    intro c _
    simp only [Function.comp_apply]
    split <;> rfl
  | elem l i =>
    simp only [Level.put, Level.heads, setElem, Prod.mk.injEq, true_and]
    apply List.ext_getElem?
    intro j
    simp only [List.getElem?_map, List.getElem?_modify]
    split
    · cases lv.lists[j]? <;> rfl
    · simp

theorem connect_heads (r : Rule) (lv : Level) (c : Option Nat) (sigs : List Sig) :
    (connect r lv c sigs).lvl.heads = lv.heads := by
  unfold connect
  have : ∀ a : Acc, (sigs.foldl (connectOne r) a).lvl.heads = a.lvl.heads := by
    induction sigs with
    | nil => intro a; rfl
    | cons s sigs ih =>
      intro a
      rw [List.foldl_cons, ih]
      unfold connectOne
      split
      · rfl
      · split
        · exact put_heads _ _ _
        · rfl
  exact this _

theorem missing_heads (access : Bool) (con : List Name) (lv : Level) :
    (missing access con lv).heads = lv.heads := by
  unfold missing
  split
  · simp only [Level.heads, List.map_map, Prod.mk.injEq]
    constructor
    · apply List.map_congr_left
      intro c _
      simp only [Function.comp_apply]
      split <;> rfl
    · rfl
  · rfl

theorem kidsBind_names (access : Bool) (ks : Kids) (sigs : List Sig) (c : Option Nat) :
    (ks.bindList access sigs c).1.subNames = ks.subNames ∧
    (ks.bindList access sigs c).1.elemNames = ks.elemNames ∧
    ∀ cnt, ks.Ordered cnt → (ks.bindList access sigs c).1.Ordered cnt := by
  induction ks using Kids.rec (motive_1 := fun _ => True) generalizing sigs c with
  | mk => trivial
  | nil => rw [Kids.bindList]; exact ⟨rfl, rfl, fun _ h => h⟩
  | cons l b ks _ ih =>
    rw [Kids.bindList]
    cases l with
    | sub n =>
      simp only [Kids.subNames, Kids.elemNames, Kids.Ordered]
      exact ⟨congrArg _ (ih _ _).1, (ih _ _).2.1, (ih _ _).2.2⟩
    | elem n j =>
      simp only [Kids.subNames, Kids.elemNames, Kids.Ordered]
      exact ⟨(ih _ _).1, congrArg _ (ih _ _).2.1, fun cnt h => ⟨h.1, (ih _ _).2.2 _ h.2⟩⟩

mutual
theorem bindList_attr (access : Bool) : ∀ (b : Bundle) (sigs : List Sig), b.Attr →
    (b.bindList access sigs).1.Attr
  | .mk r lv c ks, sigs, ha => by
    rw [Bundle.bindList]
    obtain ⟨h1, h2, h3⟩ := kidsBind_names access ks (connect r lv c sigs).matching
      (connect r lv c sigs).clock
    have hh := (missing_heads access (connect r lv c sigs).connected (connect r lv c sigs).lvl).trans
      (connect_heads r lv c sigs)
    simp only [Level.heads, Prod.mk.injEq] at hh
    have he : attrNames (missing access (connect r lv c sigs).connected (connect r lv c sigs).lvl)
        (ks.bindList access (connect r lv c sigs).matching (connect r lv c sigs).clock).1 =
        attrNames lv ks := by
      unfold attrNames
      rw [hh.1, hh.2, h1]
    show Bundle.Attr (Bundle.mk _ _ _ _)
    simp only [Bundle.Attr]
    rw [he, h2]
    exact ⟨ha.1, ha.2.1, ha.2.2.1, h3 _ ha.2.2.2.1, kidsBind_attr access ks _ _ ha.2.2.2.2⟩
theorem kidsBind_attr (access : Bool) : ∀ (ks : Kids) (sigs : List Sig) (c : Option Nat), ks.Attr →
    (ks.bindList access sigs c).1.Attr
  | .nil, _, _, _ => by rw [Kids.bindList]; trivial
  | .cons l b ks, sigs, c, ha => by
    rw [Kids.bindList]
    exact ⟨bindList_attr access b sigs ha.1, kidsBind_attr access ks _ _ ha.2⟩
end

theorem level_flag (r : Rule) (lv : Level)
    (hf : ∀ p q, lv.slot p ≠ some (.pin q)) (c : Option Nat) (sigs : List Sig) (p : Pos) (q : Nat) :
    (missing true (connect r lv c sigs).connected (connect r lv c sigs).lvl).slot p =
        some (.pin q) ↔
      (missing false (connect r lv c sigs).connected (connect r lv c sigs).lvl).slot p =
        some (.pin q) := by
  have hs := connect_same r (rfl : lv.shape = lv.shape) c c sigs
  have hc := connect_spec r lv sigs { lvl := lv, clock := c } rfl
  have hsl : (connect r lv c sigs).lvl.slot p = _ :=
    connect_slot r lv sigs { lvl := lv, clock := c } rfl p
  rw [missing_false]
  cases hn : lv.nameOf p with
  | none =>
    have key : ∀ (x : Level), x.shape = lv.shape → x.slot p = none := by
      intro x hx
      cases hsx : x.slot p with
      | none => rfl
      | some s =>
        obtain ⟨n, hn'⟩ := nameOf_of_slot hsx
        rw [nameOf_shape hx p, hn] at hn'
        cases hn'
    rw [key _ ((missing_shape _ _ _).trans hs.2.2.2.1), key _ hs.2.2.2.1]
  | some n =>
    rw [missing_slot _ _ p n ((nameOf_shape hs.2.2.2.1 p).trans hn)]
    split
    · exact Iff.rfl
    · rename_i hno
      constructor
      · intro h; cases h
      · intro h
        exfalso
        rw [hsl] at h
        cases hfd : sigs.reverse.find? (fun s => hit r lv s = some p) with
        | none =>
          rw [hfd] at h
          exact hf p q h
        | some s =>
          have h1 := List.mem_reverse.1 (List.mem_of_find?_eq_some hfd)
          have h2 : hit r lv s = some p := by simpa using List.find?_some hfd
          apply hno
          refine (hc.connected n).2 (.inr ⟨s, h1, ?_⟩)
          unfold hit at h2
          cases hm : r.strip s.name with
          | none => rw [hm] at h2; cases h2
          | some m =>
            rw [hm] at h2
            have h2 : lv.find m = some p := h2
            have h3 := Level.find_name h2
            rw [hn] at h3
            cases h3
            exact ⟨rfl, by rw [h2]; rfl⟩

mutual
/-- The flag decides about unconnected slots only. -/
theorem bindList_flag : ∀ (b : Bundle) (sigs : List Sig), b.Distinct → b.Fresh →
    ∀ (is : List Nat) (p : Pos) (q : Nat),
    (b.bindList true sigs).1.slotAt is p = some (.pin q) ↔
      (b.bindList false sigs).1.slotAt is p = some (.pin q)
  | .mk r lv c ks, sigs, hd, hf, is, p, q => by
    rw [Bundle.bindList, Bundle.bindList]
    cases is with
    | nil => exact level_flag r lv hf.1 c sigs p q
    | cons i is =>
      exact kidsBind_flag ks (connect r lv c sigs).matching (connect r lv c sigs).clock
        (connect r lv c sigs).clock hd.2 hf.2 i is p q
theorem kidsBind_flag : ∀ (ks : Kids) (sigs : List Sig) (c c' : Option Nat), ks.Distinct →
    ks.Fresh → ∀ (i : Nat) (is : List Nat) (p : Pos) (q : Nat),
    (((ks.bindList true sigs c).1.get i).bind fun k => k.slotAt is p) = some (.pin q) ↔
      (((ks.bindList false sigs c').1.get i).bind fun k => k.slotAt is p) = some (.pin q)
  | .nil, sigs, c, c', _, _, i, is, p, q => by rw [Kids.bindList, Kids.bindList]
  | .cons l b ks, sigs, c, c', hd, hf, i, is, p, q => by
    rw [Kids.bindList, Kids.bindList]
    cases i with
    | zero => exact bindList_flag b sigs hd.1 hf.1 is p q
    | succ i =>
      have h1 := bindList_same true false b b sigs (Bundle.Same.refl b)
      have := kidsBind_flag ks (b.bindList true sigs).2.1
        (parentClock l (b.bindList true sigs).1.clock c)
        (parentClock l (b.bindList false sigs).1.clock c') hd.2 hf.2 i is p q
      rw [h1] at this
      simp only [h1]
      exact this
end

/-- No pin is in two slots. -/
def Bundle.Once (b : Bundle) : Prop := ∀ is is' p p' q,
  b.slotAt is p = some (.pin q) → b.slotAt is' p' = some (.pin q) → is = is' ∧ p = p'

/-- A tree to which the theorems on data apply. -/
structure Bundle.Sound (b : Bundle) : Prop where
  attr : b.Attr
  distinct : b.Distinct
  once : b.Once

theorem bind_sound (access : Bool) (b : Bundle) (dut : List DutSig) (ha : b.Attr) (hb : b.Distinct)
    (hf : b.Fresh) (hd : (dut.map DutSig.name).Nodup) (hpin : (dut.map DutSig.pin).Nodup) :
    (b.bind access dut).1.Sound where
  attr := bindList_attr access b _ ha
  distinct := (bindList_self access b (dutSignals dut)).symm.distinct hb
  once := fun _ _ _ _ _ h h' => C35_pin_once access b dut hb hf hd hpin h h'

theorem Bundle.Sound.only {b : Bundle} (h : b.Sound) {is : List Nat} {p : Pos} {q : Nat}
    (hs : b.slotAt is p = some (.pin q)) : Only q b is p :=
  ⟨hs, fun is' p' h' => h.once is' is p' p q h' hs⟩

end Toffee.Bundle
