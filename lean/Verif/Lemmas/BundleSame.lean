import Verif.Lemmas.BundleRound

/-!
Assigning a message that is equal, in Python's sense, to the dictionary of `as_dict`: the keys may
come in another order at every level.
-/

namespace Toffee.Bundle

mutual
/-- Python's `==` on nested data: numbers and `None` are equal if they are the same, lists are equal
element by element, dictionaries if they have equally many keys and each key of the first is a key
of the second with an equal value.  A dictionary has no key twice. -/
inductive Val.Same : Val → Val → Prop
  | none : Val.Same .none .none
  | num (x : Int) : Val.Same (.num x) (.num x)
  | seq {vs vs' : Vals} (h : Vals.Same vs vs') : Val.Same (.seq vs) (.seq vs')
  | dict {d d' : Items} (hn : (d'.toList.map Prod.fst).Nodup)
      (hl : d.toList.length = d'.toList.length) (h : Items.Within d d') :
      Val.Same (.dict d) (.dict d')
inductive Vals.Same : Vals → Vals → Prop
  | nil : Vals.Same .nil .nil
  | cons {v v' : Val} {vs vs' : Vals} (h : Val.Same v v') (hs : Vals.Same vs vs') :
      Vals.Same (.cons v vs) (.cons v' vs')
inductive Items.Within : Items → Items → Prop
  | nil (d' : Items) : Items.Within .nil d'
  | cons {k : Name} {v v' : Val} {d d' : Items} (hk : (k, v') ∈ d'.toList) (hv : Val.Same v v')
      (h : Items.Within d d') : Items.Within (.cons k v d) d'
end

theorem Items.Within.get : ∀ {d d' : Items}, Items.Within d d' → ∀ e ∈ d.toList,
    ∃ v', (e.1, v') ∈ d'.toList ∧ Val.Same e.2 v'
  | .nil, _, _, e, he => by cases he
  | .cons k v d, d', h, e, he => by
    cases h with
    | cons hk hv h =>
      rcases List.mem_cons.1 he with rfl | he
      · exact ⟨_, hk, hv⟩
      · exact h.get e he

theorem Items.Within.of : ∀ {d d' : Items}, (∀ e ∈ d.toList,
    ∃ v', (e.1, v') ∈ d'.toList ∧ Val.Same e.2 v') → Items.Within d d'
  | .nil, _, _ => .nil _
  | .cons k v d, d', h => by
    obtain ⟨v', h1, h2⟩ := h (k, v) List.mem_cons_self
    exact .cons h1 h2 (Items.Within.of fun e he => h e (List.mem_cons_of_mem _ he))

/-- Two lists without repetition, one within the other and of the same length, have the same
members. -/
theorem subset_of_length {α : Type} [DecidableEq α] : ∀ {l l' : List α}, l.Nodup →
    (∀ a ∈ l, a ∈ l') → l'.length ≤ l.length → ∀ a ∈ l', a ∈ l := by
  intro l l' hn hs hl
  induction l generalizing l' with
  | nil =>
    intro a ha
    cases l' with
    | nil => cases ha
    | cons => simp at hl
  | cons x l ih =>
    intro a ha
    by_cases hx : a = x
    · subst hx; exact List.mem_cons_self
    · have hxl : x ∈ l' := hs x List.mem_cons_self
      have hn' := List.nodup_cons.1 hn
      refine List.mem_cons_of_mem _ (ih hn'.2 (l' := l'.erase x) (fun b hb => ?_) ?_ a
        ((List.mem_erase_of_ne hx).2 ha))
      · have hbx : b ≠ x := fun h => hn'.1 (h ▸ hb)
        exact (List.mem_erase_of_ne hbx).2 (hs b (List.mem_cons_of_mem _ hb))
      · rw [List.length_erase_of_mem hxl]
        simp only [List.length_cons] at hl
        omega

theorem entry_unique {l : List (Name × Val)} (hn : (l.map Prod.fst).Nodup) {k : Name} {v v' : Val}
    (h : (k, v) ∈ l) (h' : (k, v') ∈ l) : v = v' := by
  induction l with
  | nil => cases h
  | cons x l ih =>
    simp only [List.map_cons, List.nodup_cons] at hn
    rcases List.mem_cons.1 h with h1 | h1
    · subst h1
      rcases List.mem_cons.1 h' with h2 | h2
      · cases h2; rfl
      · exact absurd (List.mem_map.2 ⟨_, h2, rfl⟩) hn.1
    · rcases List.mem_cons.1 h' with h2 | h2
      · subst h2
        exact absurd (List.mem_map.2 ⟨_, h1, rfl⟩) hn.1
      · exact ih hn.2 h1 h2

/-- Equal dictionaries have the same keys, with equal values. -/
structure Match (l l' : List (Name × Val)) : Prop where
  nodup : (l'.map Prod.fst).Nodup
  to : ∀ k v, (k, v) ∈ l → ∃ v', (k, v') ∈ l' ∧ Val.Same v v'
  from' : ∀ k v', (k, v') ∈ l' → ∃ v, (k, v) ∈ l ∧ Val.Same v v'

theorem Match.keys {l l' : List (Name × Val)} (h : Match l l') {k : Name}
    (hk : k ∈ l'.map Prod.fst) : k ∈ l.map Prod.fst := by
  obtain ⟨e, he, rfl⟩ := List.mem_map.1 hk
  obtain ⟨v, hv, _⟩ := h.from' e.1 e.2 he
  exact List.mem_map.2 ⟨_, hv, rfl⟩

theorem match_of_same {d d' : Items} (hn : (d.toList.map Prod.fst).Nodup)
    (h : Val.Same (.dict d) (.dict d')) : Match d.toList d'.toList := by
  cases h with
  | dict hn' hl h =>
    refine ⟨hn', fun k v hk => h.get _ hk, fun k v' hk => ?_⟩
    have h1 : k ∈ d.toList.map Prod.fst := subset_of_length hn (fun a ha => by
      obtain ⟨e, he, rfl⟩ := List.mem_map.1 ha
      obtain ⟨v, hv, _⟩ := h.get e he
      exact List.mem_map.2 ⟨_, hv, rfl⟩) (by simp [hl]) k
        (List.mem_map_of_mem (f := Prod.fst) hk)
    obtain ⟨e, he, rfl⟩ := List.mem_map.1 h1
    obtain ⟨v, hv, hs⟩ := h.get e he
    rw [entry_unique hn' hk hv]
    exact ⟨e.2, he, hs⟩

/-! ### Values of signals and of signal lists are equal only to themselves -/

theorem same_read {pins : Nat → Int} {s : Slot} {v v' : Val} (h : readSlot pins s = some v)
    (hs : Val.Same v v') : v' = v := by
  cases s <;> cases h <;> cases hs <;> rfl

theorem same_reads {pins : Nat → Int} {es : List (Name × Slot)} {vs : List Val} {w : Vals}
    (h : collect (fun x => readSlot pins x.2) es = some vs) (hs : Vals.Same (Vals.ofList vs) w) :
    w = Vals.ofList vs := by
  induction es generalizing vs w with
  | nil => cases h; cases hs; rfl
  | cons e es ih =>
    rw [collect] at h
    cases hf : readSlot pins e.2 with
    | none => rw [hf] at h; cases h
    | some v =>
      rw [hf, Option.bind_some] at h
      cases hc : collect (fun x : Name × Slot => readSlot pins x.2) es with
      | none => rw [hc] at h; cases h
      | some vs' =>
        rw [hc] at h
        cases h
        rw [Vals.ofList] at hs ⊢
        cases hs with
        | cons h1 h2 => rw [same_read hf h1, ih hc h2]

theorem refl_read {pins : Nat → Int} {s : Slot} {v : Val} (h : readSlot pins s = some v) :
    Val.Same v v := by
  cases s <;> cases h
  · exact .none
  · exact .num _

theorem refl_vals {vs : List Val} (h : ∀ v ∈ vs, Val.Same v v) :
    Vals.Same (Vals.ofList vs) (Vals.ofList vs) := by
  induction vs with
  | nil => exact .nil
  | cons v vs ih =>
    exact .cons (h v List.mem_cons_self) (ih fun v hv => h v (List.mem_cons_of_mem _ hv))

/-- `as_dict()` is equal to itself. -/
theorem asDict_same (pins : Nat → Int) (b : Bundle) : b.Attr → ∀ d, b.asDict pins = some d →
    Val.Same (.dict d) (.dict d) := by
  induction b using Bundle.ind with
  | h b ih =>
    intro ha d hd
    obtain ⟨r, lv, cl, ks⟩ := b
    refine .dict (dict_nodup ha hd).1 rfl (.of fun e he => ⟨e.2, he, ?_⟩)
    rcases dict_mem hd he with ⟨c, hc, _, hv⟩ | ⟨l, hl, _, vs, hvs, h⟩ |
      ⟨i, c, d', h1, h2, h3, h⟩ | ⟨hn, L, hL, h⟩
    · exact refl_read hv
    · rw [h]
      refine .seq (refl_vals fun v hv => ?_)
      obtain ⟨x, _, hx⟩ := collect_mem hvs hv
      exact refl_read hx
    · rw [h]
      exact ih i c h2 (Kids.attr_get ha.2.2.2.2 h2) d' h3
    · rw [h]
      refine .seq (refl_vals fun v hv => ?_)
      obtain ⟨c, hc, hx⟩ := collect_mem hL hv
      obtain ⟨d', h4, rfl⟩ := Option.map_eq_some_iff.1 hx
      obtain ⟨t, ht⟩ := List.getElem?_of_mem hc
      obtain ⟨i, _, h2⟩ := Kids.elems_get ha.2.2.2.1 ht
      exact ih i c h2 (Kids.attr_get ha.2.2.2.2 h2) d' h4

/-! ### Assigning -/

theorem assignVals_same (dev : Dev) {pins : Nat → Int} : ∀ {bs : List Bundle} {L : List Val}
    {w : Vals},
    (∀ c ∈ bs, ∀ d d', c.asDict pins = some d → Val.Same (.dict d) (.dict d') →
      (assign dev false [] c (.dict d')).err = none ∧
        (assign dev false [] c (.dict d')).reports = []) →
    collect (fun c => (Bundle.asDict pins c).map Val.dict) bs = some L →
    Vals.Same (Vals.ofList L) w →
    (assignVals dev false bs w).err = none ∧ (assignVals dev false bs w).reports = []
  | [], L, w, _, h, hw => by
    cases h
    cases hw
    rw [assignVals]
    exact ⟨rfl, rfl⟩
  | c :: bs, L, w, hok, h, hw => by
    rw [collect] at h
    cases h1 : c.asDict pins with
    | none => rw [h1] at h; cases h
    | some d =>
      rw [h1, Option.map_some, Option.bind_some] at h
      cases h2 : collect (fun c => (Bundle.asDict pins c).map Val.dict) bs with
      | none => rw [h2] at h; cases h
      | some L' =>
        rw [h2] at h
        cases h
        rw [Vals.ofList] at hw
        cases hw with
        | @cons _ v' _ w' hv hw =>
          have h5 : ∃ d', v' = .dict d' := by cases hv; exact ⟨_, rfl⟩
          obtain ⟨d', rfl⟩ := h5
          have h3 := hok c List.mem_cons_self d d' h1 hv
          have h4 := assignVals_same dev (fun c hc => hok c (List.mem_cons_of_mem _ hc)) h2 hw
          rw [assignVals]
          simp only [Out.next, h3.1, h3.2, h4.1, h4.2]
          exact ⟨trivial, rfl⟩

theorem assign_same (dev : Dev) (pins : Nat → Int) (b : Bundle) : b.Attr →
    ∀ (level : Name) d d', b.asDict pins = some d → Val.Same (.dict d) (.dict d') →
    (assign dev false level b (.dict d')).err = none ∧
      (assign dev false level b (.dict d')).reports = [] := by
  induction b using Bundle.ind with
  | h b ih =>
    intro ha level d d' hd hs
    obtain ⟨r, lv, cl, ks⟩ := b
    have hm := match_of_same (dict_nodup ha hd).1 hs
    apply assign_ok
    rintro ⟨k, v'⟩ he
    refine ⟨(dict_nodup ha hd).2 k (hm.keys (List.mem_map_of_mem (f := Prod.fst) he)), ?_⟩
    obtain ⟨v, hv, hvv⟩ := hm.from' k v' he
    simp only [Bundle.target, Bool.false_eq_true, if_false]
    rcases dict_mem hd hv with ⟨c, hc, rfl, hv⟩ | ⟨l, hl, rfl, vs, hvs, rfl⟩ |
      ⟨i, c, d', h1, h2, h3, rfl⟩ | ⟨hn, L, hL, rfl⟩
    · rw [locate_signal ha hc]
      cases same_read hv hvv
      exact writeSlot_read hv
    · rw [locate_list ha hl]
      cases hvv with
      | seq h => rw [same_reads hvs h]; exact assignList_read hvs
    · rw [locate_child ha h1 h2]
      have h5 : ∃ d'', v' = .dict d'' := by cases hvv; exact ⟨_, rfl⟩
      obtain ⟨d'', rfl⟩ := h5
      exact ih i c h2 (Kids.attr_get ha.2.2.2.2 h2) _ d' d'' h3 hvv
    · simp only at hn hL ⊢
      rw [locate_elems ha hn]
      cases hvv with
      | seq h =>
        simp only [assignKey]
        rw [assignElems]
        refine assignVals_same dev (fun c hc d d' hd hs => ?_) hL h
        obtain ⟨t, ht⟩ := List.getElem?_of_mem hc
        obtain ⟨i, _, h2⟩ := Kids.elems_get ha.2.2.2.1 ht
        exact ih i c h2 (Kids.attr_get ha.2.2.2.2 h2) _ d d' hd hs

theorem vals_get : ∀ {vs w : Vals}, Vals.Same vs w → ∀ {i : Nat} {v : Val}, vs.toList[i]? = some v →
    ∃ v', w.toList[i]? = some v' ∧ Val.Same v v'
  | .nil, _, _, i, v, h => by simp [Vals.toList] at h
  | .cons x vs, w, hw, i, v, h => by
    cases hw with
    | cons h1 h2 =>
      cases i with
      | zero =>
        simp only [Vals.toList, List.getElem?_cons_zero, Option.some.injEq] at h ⊢
        subst h
        exact ⟨_, rfl, h1⟩
      | succ i =>
        simp only [Vals.toList, List.getElem?_cons_succ] at h ⊢
        exact vals_get h2 h

theorem given_same (w : Bool) (pins : Nat → Int) {is : List Nat} {p : Pos} {q : Nat} :
    ∀ {b : Bundle} {st : List Step} {d d' : Items}, b.Attr → b.slotAt is p = some (.pin q) →
    b.steps false is p = some st → b.asDict pins = some d → Val.Same (.dict d) (.dict d') →
    given w st (.dict d') = [.num (pins q)] := by
  induction is with
  | nil =>
    intro b st d d' ha hq hs hd hsame
    obtain ⟨r, lv, cl, ks⟩ := b
    obtain ⟨own, ds, h1, h2, h3⟩ := dictOf hd
    obtain ⟨hnd, hst⟩ := dict_nodup ha hd
    have hmt := match_of_same hnd hsame
    have hst' : ∀ k ∈ d'.toList.map Prod.fst, k ≠ star := fun k hk => hst k (hmt.keys hk)
    cases p with
    | sig n =>
      simp only [Bundle.steps, Option.some.injEq] at hs
      subst hs
      simp only [Bundle.slotAt, Level.slot, Bundle.lvl] at hq
      obtain ⟨c, hf, hc⟩ := Option.map_eq_some_iff.1 hq
      have h2 : c.name = n := by simpa using List.find?_some hf
      obtain ⟨v, hv, hm⟩ := h1.signal c (List.mem_of_find?_eq_some hf)
      rw [hc] at hv
      cases hv
      subst h2
      obtain ⟨v', hm', hvv⟩ := hmt.to _ _ (h3 ▸ List.mem_append_left _ hm)
      rw [given_entry hmt.nodup hst' (by simp) hm']
      cases hvv
      rfl
    | elem l i =>
      simp only [Bundle.slotAt, Level.slot, Bundle.lvl] at hq
      simp only [Bundle.steps, Bundle.lvl] at hs
      cases hl : lv.lists[l]? with
      | none => rw [hl] at hs; cases hs
      | some e =>
        rw [hl] at hs hq
        cases hs
        simp only [Option.bind_some] at hq
        obtain ⟨x, hx, hx2⟩ := Option.map_eq_some_iff.1 hq
        obtain ⟨vs, hvs, hm⟩ := h1.list e (List.mem_of_getElem? hl)
        obtain ⟨v', hm', hvv⟩ := hmt.to _ _ (h3 ▸ List.mem_append_left _ hm)
        rw [given_entry hmt.nodup hst' (by simp) hm']
        cases hvv with
        | seq h =>
          rw [same_reads hvs h, given_idx, Vals.toList_ofList]
          obtain ⟨v, hv, hr⟩ := collect_get hvs hx
          rw [hx2] at hv
          cases hv
          rw [hr]
          rfl
  | cons i is ih =>
    intro b st d d' ha hq hs hd hsame
    obtain ⟨r, lv, cl, ks⟩ := b
    obtain ⟨hnd, hst⟩ := dict_nodup ha hd
    have hmt := match_of_same hnd hsame
    have hst' : ∀ k ∈ d'.toList.map Prod.fst, k ≠ star := fun k hk => hst k (hmt.keys hk)
    simp only [Bundle.steps, Bundle.kids] at hs
    simp only [Bundle.slotAt, Bundle.kids] at hq
    cases hl : ks.label i with
    | none => rw [hl] at hs; cases hs
    | some l =>
      rw [hl, Option.bind_some] at hs
      cases hk : ks.get i with
      | none => rw [hk] at hs; cases hs
      | some c =>
        rw [hk, Option.bind_some] at hs hq
        cases hst2 : c.steps false is p with
        | none => rw [hst2] at hs; cases hs
        | some st' =>
          rw [hst2] at hs
          have ih := @ih c st'
          cases l with
          | sub n =>
            simp only [Option.map_some, subSteps, Bool.false_eq_true, if_false, Option.some.injEq] at hs
            subst hs
            obtain ⟨e, h4, hm⟩ := dict_sub hd hl hk
            obtain ⟨v', hm', hvv⟩ := hmt.to _ _ hm
            rw [given_entry hmt.nodup hst' (by simp) hm']
            have h5 : ∃ e', v' = .dict e' := by cases hvv; exact ⟨_, rfl⟩
            obtain ⟨e', rfl⟩ := h5
            exact ih (Kids.attr_get ha.2.2.2.2 hk) hq hst2 h4 hvv
          | elem n j =>
            simp only [Option.map_some, Option.some.injEq] at hs
            subst hs
            obtain ⟨L, hL, hm⟩ := dict_elem hd (Kids.mem_elemNames hl)
            obtain ⟨v', hm', hvv⟩ := hmt.to _ _ hm
            rw [given_entry hmt.nodup hst' (by simp) hm']
            have he := (Kids.elems_of_get ha.2.2.2.1 hl).2
            rw [hk, Nat.sub_zero] at he
            obtain ⟨v, hv, hr⟩ := collect_get hL he
            obtain ⟨e, h4, rfl⟩ := Option.map_eq_some_iff.1 hv
            cases hvv with
            | seq h =>
              obtain ⟨v', hg, hvv⟩ := vals_get h (by rw [Vals.toList_ofList]; exact hr)
              rw [given_idx, hg]
              have h5 : ∃ e', v' = .dict e' := by cases hvv; exact ⟨_, rfl⟩
              obtain ⟨e', rfl⟩ := h5
              exact ih (Kids.attr_get ha.2.2.2.2 hk) hq hst2 h4 hvv

/-! ### The flat form -/

theorem Reads.same {pins : Nat → Int} {t : Target} {v v' : Val} (h : Reads pins t v)
    (hs : Val.Same v v') : v' = v := by
  cases h with
  | slot h => exact same_read h hs
  | list h => cases hs with | seq hs => rw [same_reads h hs]

theorem Reads.refl {pins : Nat → Int} {t : Target} {v : Val} (h : Reads pins t v) :
    Val.Same v v := by
  cases h with
  | slot h => exact refl_read h
  | list h =>
    refine .seq (refl_vals fun v hv => ?_)
    obtain ⟨x, _, hx⟩ := collect_mem h hv
    exact refl_read hx

theorem flat_match (pins : Nat → Int) {b : Bundle} (ha : b.Attr) (hll : b.Listless)
    {l : List (Name × Val)} (hl : b.asFlat pins = some l) {d' : Items}
    (hs : Val.Same (.dict (Items.ofList l)) (.dict d')) : Match l d'.toList := by
  have h := match_of_same (by rw [Items.toList_ofList]; exact asFlat_nodup pins b l ha hll hl) hs
  rwa [Items.toList_ofList] at h

/-- `as_dict(multilevel=False)` is equal to itself. -/
theorem asFlat_same (pins : Nat → Int) {b : Bundle} (ha : b.Attr) (hll : b.Listless)
    {l : List (Name × Val)} (hl : b.asFlat pins = some l) :
    Val.Same (.dict (Items.ofList l)) (.dict (Items.ofList l)) := by
  refine .dict (by rw [Items.toList_ofList]; exact asFlat_nodup pins b l ha hll hl) rfl
    (.of fun e he => ⟨e.2, he, ?_⟩)
  rw [Items.toList_ofList] at he
  exact (locateFlat_asFlat pins b ha hll l hl e he).2.refl

theorem assign_same_flat (dev : Dev) (pins : Nat → Int) (b : Bundle) (ha : b.Attr)
    (hll : b.Listless) (level : Name) {l : List (Name × Val)} (hl : b.asFlat pins = some l)
    {d' : Items} (hs : Val.Same (.dict (Items.ofList l)) (.dict d')) :
    (assign dev true level b (.dict d')).err = none ∧
      (assign dev true level b (.dict d')).reports = [] := by
  have hm := flat_match pins ha hll hl hs
  apply assign_ok
  rintro ⟨k, v'⟩ he
  obtain ⟨v, hv, hvv⟩ := hm.from' k v' he
  obtain ⟨h1, h2⟩ := locateFlat_asFlat pins b ha hll l hl _ hv
  refine ⟨h1, ?_⟩
  simp only [Bundle.target, if_true]
  cases h2.same hvv
  simp only at h2
  generalize b.locateFlat k = t at h2
  cases h2 with
  | slot h => exact writeSlot_read h
  | list h => exact assignList_read h

theorem given_same_flat (w : Bool) (pins : Nat → Int) {b : Bundle} (hb : b.Sound)
    (hll : b.Listless) {is : List Nat} {p : Pos} {q : Nat} {st : List Step}
    {l : List (Name × Val)} (hq : b.slotAt is p = some (.pin q)) (hs : b.steps true is p = some st)
    (hl : b.asFlat pins = some l) {d' : Items}
    (hsame : Val.Same (.dict (Items.ofList l)) (.dict d')) :
    given w st (.dict d') = [.num (pins q)] := by
  have hm := flat_match pins hb.attr hll hl hsame
  obtain ⟨k, ss, rest, hk⟩ := steps_key true is p (b := b) (by rw [hq]; rfl)
  rw [hs] at hk
  cases hk
  obtain ⟨v, hv, hg⟩ := entry_asFlat w pins hll hq hs hl
  have hr := locateFlat_asFlat pins b hb.attr hll l hl
  obtain ⟨v', hv', hvv⟩ := hm.to k v hv
  cases (hr _ hv).2.same hvv
  rw [given_entry hm.nodup ?_ ?_ hv']
  · exact hg
  · intro k hk
    obtain ⟨e, he, rfl⟩ := List.mem_map.1 (hm.keys hk)
    exact (hr e he).1
  · intro s hs' hk
    obtain ⟨e, he, rfl⟩ := List.mem_map.1 (hm.keys hk)
    obtain ⟨c, _, _, h1, _⟩ := (target_spec true hb.attr hb.distinct (hb.only hq) hs).2.2.2.1 _ hs'
    have h2 := (hr e he).2
    simp only [Bundle.target, if_true] at h1
    rw [h1] at h2
    cases h2

end Toffee.Bundle
