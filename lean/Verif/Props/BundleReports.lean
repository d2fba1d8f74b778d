import Verif.Props.BundleAssign
import Verif.Props.BundleRound

/-!
C106: `assign` (`toffee/bundle.py` 814-908) reports exactly the entries of the message that it cannot use,
each with its full path.  The path is lost inside bundle lists.
-/

namespace Toffee.Bundle

/-! ### Specification -/

/-- `Faulty flat via level b v n`: the message `v` for the bundle `b` (which has the path `level`) has an
entry with the path `n` that cannot be used: a key that names nothing, or something that is not a
dictionary where the entries of a bundle are expected (the path is then that of the bundle).
`via level k j` is the path of the element `j` of the bundle list `k`. -/
inductive Faulty (flat : Bool) (via : Name → Name → Nat → Name) : Name → Bundle → Val → Name → Prop
  | notDict {level : Name} {b : Bundle} {v : Val} : (∀ d, v ≠ .dict d) → Faulty flat via level b v level
  | unknown {level : Name} {b : Bundle} {d : Items} {k : Name} {v : Val} : (k, v) ∈ d.toList → k ≠ star →
      ¬ Known flat b k → Faulty flat via level b (.dict d) (appended level k)
  | sub {level n : Name} {b c : Bundle} {d : Items} {k : Name} {v : Val} {i : Nat} : flat = false →
      (k, v) ∈ d.toList → b.kids.label i = some (.sub k) → b.kids.get i = some c →
      Faulty flat via (appended level k) c v n → Faulty flat via level b (.dict d) n
  | elem {level n : Name} {b c : Bundle} {d : Items} {k : Name} {vs : Vals} {v : Val} {bs : List Bundle}
      {j : Nat} : (k, .seq vs) ∈ d.toList → Lists flat b k bs → bs[j]? = some c →
      vs.toList[j]? = some v → Faulty flat via (via level k j) c v n → Faulty flat via level b (.dict d) n

/-- The path of an element of a bundle list, as `all_signals` has it: `path.list[j]`. -/
def fullPath (level k : Name) (j : Nat) : Name := appended level (indexed k j)

/-- What is left of it in the reports. -/
def lostPath (_ _ : Name) (_ : Nat) : Name := []

/-! ### Lemmas -/

theorem elemTarget_elems {ks : Kids} {k : Name} {bs : List Bundle} (h : ks.elemTarget k = .elems bs) :
    ks.elems k = bs ∧ bs ≠ [] := by
  unfold Kids.elemTarget at h
  split at h
  · cases h
  · rename_i hne
    cases h
    exact ⟨rfl, fun he => hne he⟩

theorem lists_of_elems {b : Bundle} (ha : b.Attr) (flat : Bool) {k : Name} {bs : List Bundle}
    (h : b.kids.elemTarget k = .elems bs) : Lists flat b k bs := by
  obtain ⟨r, lv, cl, ks⟩ := b
  obtain ⟨h1, h2⟩ := elemTarget_elems h
  refine .here (b := .mk r lv cl ks) h2 fun j c => ?_
  rw [← h1]
  constructor
  · intro hj
    obtain ⟨i, h3, h4⟩ := Kids.elems_get ha.2.2.2.1 hj
    rw [Nat.zero_add] at h3
    exact ⟨i, h3, h4⟩
  · rintro ⟨i, h3, h4⟩
    have := (Kids.elems_of_get ha.2.2.2.1 h3).2
    have h4 : ks.get i = some c := h4
    rw [h4] at this
    exact this

theorem elemTarget_ne_sub {ks : Kids} {k : Name} {c : Bundle} : ks.elemTarget k ≠ .sub c := by
  unfold Kids.elemTarget
  split <;> intro h <;> cases h

mutual
theorem locateFlat_elems : ∀ (b : Bundle) (k : Name) (bs : List Bundle), b.Attr →
    b.locateFlat k = .elems bs → Lists true b k bs
  | .mk r lv cl ks, k, bs, ha, h => by
    rw [Bundle.locateFlat] at h
    split at h
    · cases h
    · split at h
      · cases h
      · split at h
        · exact lists_of_elems (b := .mk r lv cl ks) ha true h
        · rename_i hsp
          split at h
          · rename_i hx
            obtain ⟨i, c, h1, h2, h3⟩ := kidsLocateFlat_elems ks _ _ bs ha.2.2.2.2 (h ▸ hx)
            rw [splitDot_some hsp]
            exact .inside (b := .mk r lv cl ks) rfl h1 h2 h3
          · exact lists_of_elems (b := .mk r lv cl ks) ha true h
theorem kidsLocateFlat_elems : ∀ (ks : Kids) (h t : Name) (bs : List Bundle), ks.Attr →
    Kids.locateFlat ks h t = some (.elems bs) →
    ∃ i c, ks.label i = some (.sub h) ∧ ks.get i = some c ∧ Lists true c t bs
  | .nil, _, _, _, _, hx => by simp [Kids.locateFlat] at hx
  | .cons (.sub n) b ks, h, t, bs, ha, hx => by
    rw [Kids.locateFlat] at hx
    split at hx
    · rename_i hn
      subst hn
      refine ⟨0, b, rfl, rfl, ?_⟩
      split at hx
      · cases hx
      · exact locateFlat_elems b t bs ha.1 (Option.some.inj hx)
    · obtain ⟨i, c, h1, h2, h3⟩ := kidsLocateFlat_elems ks h t bs ha.2 hx
      exact ⟨i + 1, c, h1, h2, h3⟩
  | .cons (.elem _ _) _ ks, h, t, bs, ha, hx => by
    rw [Kids.locateFlat] at hx
    obtain ⟨i, c, h1, h2, h3⟩ := kidsLocateFlat_elems ks h t bs ha.2 hx
    exact ⟨i + 1, c, h1, h2, h3⟩
end

mutual
theorem locateFlat_ne_sub : ∀ (b : Bundle) (k : Name) (c : Bundle), b.locateFlat k ≠ .sub c
  | .mk r lv cl ks, k, c => by
    intro h
    rw [Bundle.locateFlat] at h
    split at h
    · cases h
    · split at h
      · cases h
      · split at h
        · exact elemTarget_ne_sub h
        · split at h
          · rename_i hx
            exact kidsLocateFlat_ne_sub ks _ _ c (h ▸ hx)
          · exact elemTarget_ne_sub h
theorem kidsLocateFlat_ne_sub : ∀ (ks : Kids) (h t : Name) (c : Bundle),
    Kids.locateFlat ks h t ≠ some (.sub c)
  | .nil, _, _, _ => by simp [Kids.locateFlat]
  | .cons (.sub n) b ks, h, t, c => by
    intro hx
    rw [Kids.locateFlat] at hx
    split at hx
    · split at hx
      · cases hx
      · exact locateFlat_ne_sub b t c (Option.some.inj hx)
    · exact kidsLocateFlat_ne_sub ks h t c hx
  | .cons (.elem _ _) _ ks, h, t, c => by
    intro hx
    rw [Kids.locateFlat] at hx
    exact kidsLocateFlat_ne_sub ks h t c hx
end

theorem target_elems {flat : Bool} {b : Bundle} (ha : b.Attr) {k : Name} {bs : List Bundle}
    (h : b.target flat k = .elems bs) : Lists flat b k bs := by
  cases flat with
  | true => exact locateFlat_elems b k bs ha h
  | false =>
    have h : b.locate k = .elems bs := h
    unfold Bundle.locate at h
    split at h
    · cases h
    · split at h
      · cases h
      · split at h
        · cases h
        · exact lists_of_elems ha false h

theorem target_sub {flat : Bool} {b c : Bundle} {k : Name} (h : b.target flat k = .sub c) :
    flat = false ∧ ∃ i, b.kids.label i = some (.sub k) ∧ b.kids.get i = some c := by
  cases flat with
  | true => exact absurd h (locateFlat_ne_sub b k c)
  | false =>
    refine ⟨rfl, ?_⟩
    have h : b.locate k = .sub c := h
    unfold Bundle.locate at h
    split at h
    · cases h
    · split at h
      · cases h
      · split at h
        · rename_i hf
          cases h
          exact Kids.sub?_get hf
        · exact absurd h elemTarget_ne_sub

theorem Kids.get_of_label {ks : Kids} {i : Nat} {l : Label} (h : ks.label i = some l) :
    ∃ c, ks.get i = some c := by
  induction i generalizing ks with
  | zero =>
    cases ks with
    | nil => cases h
    | cons _ b _ => exact ⟨b, rfl⟩
  | succ i ih =>
    cases ks with
    | nil => cases h
    | cons _ _ ks => exact ih (ks := ks) h

theorem known_target {flat : Bool} {b : Bundle} {k : Name} (h : Known flat b k) (ha : b.Attr) :
    b.target flat k ≠ .missing := by
  have sig : ∀ {b : Bundle} {k : Name}, k ∈ b.lvl.signals.map Cell.name → b.target flat k ≠ .missing := by
    intro b k hk
    obtain ⟨r, lv, cl, ks⟩ := b
    have hf : ∃ x, lv.signals.find? (fun c => c.name = k) = some x := by
      cases hf : lv.signals.find? (fun c => c.name = k) with
      | some x => exact ⟨x, rfl⟩
      | none =>
        obtain ⟨c, hc, hck⟩ := List.mem_map.1 hk
        exact absurd hck (by simpa using List.find?_eq_none.1 hf c hc)
    obtain ⟨x, hx⟩ := hf
    intro h
    cases flat with
    | true =>
      have h : Bundle.locateFlat (.mk r lv cl ks) k = .missing := h
      rw [Bundle.locateFlat, hx] at h
      cases h
    | false =>
      have h : Bundle.locate (.mk r lv cl ks) k = .missing := h
      unfold Bundle.locate at h
      rw [show (Bundle.mk r lv cl ks).lvl = lv from rfl, hx] at h
      cases h
  have lst : ∀ {b : Bundle} {k : Name}, k ∈ b.lvl.lists.map Prod.fst → b.target flat k ≠ .missing := by
    intro b k hk
    by_cases hs : k ∈ b.lvl.signals.map Cell.name
    · exact sig hs
    obtain ⟨r, lv, cl, ks⟩ := b
    have hf : ∃ x, lv.lists.find? (fun l => l.1 = k) = some x := by
      cases hf : lv.lists.find? (fun l => l.1 = k) with
      | some x => exact ⟨x, rfl⟩
      | none =>
        obtain ⟨c, hc, hck⟩ := List.mem_map.1 hk
        exact absurd hck (by simpa using List.find?_eq_none.1 hf c hc)
    obtain ⟨x, hx⟩ := hf
    have hs := find_signal_none hs
    intro h
    cases flat with
    | true =>
      have h : Bundle.locateFlat (.mk r lv cl ks) k = .missing := h
      rw [Bundle.locateFlat, show lv.signals.find? (fun c => c.name = k) = none from hs, hx] at h
      cases h
    | false =>
      have h : Bundle.locate (.mk r lv cl ks) k = .missing := h
      unfold Bundle.locate at h
      rw [hs, show (Bundle.mk r lv cl ks).lvl = lv from rfl, hx] at h
      cases h
  induction h with
  | signal h => exact sig h
  | list h => exact lst h
  | @elems b k i j hl =>
    obtain ⟨r, lv, cl, ks⟩ := b
    have hl : ks.label i = some (.elem k j) := hl
    obtain ⟨c, hc⟩ : ∃ c, ks.get i = some c := by
      exact Kids.get_of_label hl
    have he := (Kids.elems_of_get ha.2.2.2.1 hl).2
    rw [hc] at he
    have hne : ks.elems k ≠ [] := fun h0 => by rw [h0] at he; simp at he
    have ht : ks.elemTarget k = .elems (ks.elems k) := by
      unfold Kids.elemTarget
      split
      · exact absurd ‹_› hne
      · rfl
    have hL : Lists flat (.mk r lv cl ks) k (ks.elems k) := lists_of_elems (b := .mk r lv cl ks) ha flat ht
    rw [(lists_target ha hL).1]
    intro h; cases h
  | @sub b k i hf hl =>
    subst hf
    obtain ⟨c, hc⟩ : ∃ c, b.kids.get i = some c := by
      exact Kids.get_of_label hl
    have := locate_sub ha hl hc
    intro h
    rw [show b.target false k = b.locate k from rfl, this] at h
    cases h
  | @all b n i hf hl =>
    subst hf
    obtain ⟨c, hc⟩ : ∃ c, b.kids.get i = some c := by
      exact Kids.get_of_label hl
    obtain ⟨r, lv, cl, ks⟩ := b
    have := locateFlat_sub ha star hl hc
    intro h
    rw [show (Bundle.mk r lv cl ks).target true (n ++ '.' :: star) =
      (Bundle.mk r lv cl ks).locateFlat (n ++ '.' :: star) from rfl, this, if_pos rfl] at h
    cases h
  | @inside b c n t i hf hl hk _ ih =>
    subst hf
    obtain ⟨r, lv, cl, ks⟩ := b
    have := locateFlat_sub ha t hl hk
    intro h
    rw [show (Bundle.mk r lv cl ks).target true (n ++ '.' :: t) =
      (Bundle.mk r lv cl ks).locateFlat (n ++ '.' :: t) from rfl, this] at h
    split at h
    · cases h
    · exact ih (Kids.attr_get ha.2.2.2.2 hk) h

theorem writeSlot_reports (s : Slot) (v : Val) : (writeSlot s v).reports = [] := by
  cases s with
  | pin p => cases v <;> rfl
  | _ => rfl

theorem mem_next {α β : Type} {o : Out α} {stop : α → β} {go : α → Out β} {n : Name}
    (h : n ∈ (o.next stop go).reports) : n ∈ o.reports ∨ n ∈ (go o.item).reports := by
  unfold Out.next at h
  split at h
  · exact .inl h
  · exact List.mem_append.1 h

theorem nil_of_mem {l : List Name} (h : ∀ n, n ∉ l) : l = [] := List.eq_nil_iff_forall_not_mem.2 h

theorem setSlots_reports (dev : Dev) (ss : List Slot) : ∀ v, (setSlots dev v ss).reports = [] := by
  induction ss with
  | nil => intro v; rfl
  | cons s ss ih =>
    intro v
    unfold setSlots
    split
    · apply nil_of_mem
      intro n hn
      rcases mem_next hn with hn | hn
      · rw [writeSlot_reports] at hn; cases hn
      · rw [ih] at hn; cases hn
    · exact ih v

theorem writeAll_reports (ss : List Slot) : ∀ vs, (writeAll ss vs).reports = [] := by
  induction ss with
  | nil => intro vs; rfl
  | cons s ss ih =>
    intro vs
    cases vs with
    | nil => rfl
    | cons v vs =>
      apply nil_of_mem
      intro n hn
      rcases mem_next hn with hn | hn
      · rw [writeSlot_reports] at hn; cases hn
      · rw [ih] at hn; cases hn

theorem assignList_reports (ss : List Slot) (v : Val) : (assignList ss v).reports = [] := by
  cases v with
  | seq vs =>
    unfold assignList
    dsimp only
    split
    · apply nil_of_mem
      intro n hn
      rcases mem_next hn with hn | hn
      · rw [writeAll_reports] at hn; cases hn
      · cases hn
    · rfl
  | _ => rfl

theorem next_err {α β : Type} {o : Out α} {stop : α → β} {go : α → Out β}
    (h : (o.next stop go).err = none) : o.err = none ∧ (go o.item).err = none := by
  unfold Out.next at h
  split at h
  · cases h
  · rename_i he
    exact ⟨he, h⟩

variable {flat : Bool}

theorem Faulty.cons {via : Name → Name → Nat → Name} {level n : Name} {b : Bundle} {k : Name} {v : Val}
    {d : Items} (h : Faulty flat via level b (.dict d) n) :
    Faulty flat via level b (.dict (.cons k v d)) n := by
  cases h with
  | notDict h => exact absurd rfl (h d)
  | unknown h1 h2 h3 => exact .unknown (List.mem_cons_of_mem _ h1) h2 h3
  | sub h1 h2 h3 h4 h5 => exact .sub h1 (List.mem_cons_of_mem _ h2) h3 h4 h5
  | elem h1 h2 h3 h4 h5 => exact .elem (List.mem_cons_of_mem _ h1) h2 h3 h4 h5

/-- The reports of a call are the faulty entries. -/
def Exact {α : Type} (o : Out α) (P : Name → Prop) : Prop :=
  (∀ n ∈ o.reports, P n) ∧ (o.err = none → ∀ n, P n → n ∈ o.reports)

/-- The faulty entries of one key. -/
def FaultyKey (flat : Bool) (level : Name) (b : Bundle) (k : Name) (v : Val) (n : Name) : Prop :=
  Faulty flat lostPath level b (.dict (.cons k v .nil)) n

theorem faultyKey_cons {level n : Name} {b : Bundle} {k : Name} {v : Val} {d : Items}
    (h : FaultyKey flat level b k v n) : Faulty flat lostPath level b (.dict (.cons k v d)) n := by
  have sing : ∀ {x : Name × Val}, x ∈ (Items.cons k v .nil).toList → x ∈ (Items.cons k v d).toList := by
    intro x hx
    rw [show x = (k, v) by simpa [Items.toList] using hx]
    exact List.mem_cons_self ..
  cases h with
  | notDict h => exact absurd rfl (h _)
  | unknown h1 h2 h3 => exact .unknown (sing h1) h2 h3
  | sub h1 h2 h3 h4 h5 => exact .sub h1 (sing h2) h3 h4 h5
  | elem h1 h2 h3 h4 h5 => exact .elem (sing h1) h2 h3 h4 h5

theorem cons_faulty {level n : Name} {b : Bundle} {k : Name} {v : Val} {d : Items}
    (h : Faulty flat lostPath level b (.dict (.cons k v d)) n) :
    FaultyKey flat level b k v n ∨ Faulty flat lostPath level b (.dict d) n := by
  have sing : ∀ {x : Name × Val}, x = (k, v) → x ∈ (Items.cons k v .nil).toList := by
    rintro x rfl
    exact List.mem_cons_self ..
  cases h with
  | notDict h => exact absurd rfl (h _)
  | unknown h1 h2 h3 =>
    rcases List.mem_cons.1 h1 with h1 | h1
    · exact .inl (.unknown (sing h1) h2 h3)
    · exact .inr (.unknown h1 h2 h3)
  | sub h1 h2 h3 h4 h5 =>
    rcases List.mem_cons.1 h2 with h2 | h2
    · exact .inl (.sub h1 (sing h2) h3 h4 h5)
    · exact .inr (.sub h1 h2 h3 h4 h5)
  | elem h1 h2 h3 h4 h5 =>
    rcases List.mem_cons.1 h1 with h1 | h1
    · exact .inl (.elem (sing h1) h2 h3 h4 h5)
    · exact .inr (.elem h1 h2 h3 h4 h5)

/-- The faulty entries of a list of messages for the elements of a bundle list. -/
def FaultyVals (flat : Bool) (bs : List Bundle) (vs : Vals) (n : Name) : Prop :=
  ∃ (j : Nat) (c : Bundle) (v : Val), bs[j]? = some c ∧ vs.toList[j]? = some v ∧ Faulty flat lostPath [] c v n

theorem key_star {level n : Name} {b : Bundle} (ha : b.Attr) {v : Val}
    (h : FaultyKey flat level b star v n) : False := by
  have sing : ∀ {x : Name × Val}, x ∈ (Items.cons star v .nil).toList → x = (star, v) := by
    intro x hx
    simpa [Items.toList] using hx
  cases h with
  | notDict h => exact absurd rfl (h _)
  | unknown h1 h2 h3 => cases sing h1; exact h2 rfl
  | sub h1 h2 h3 h4 h5 =>
    cases sing h2
    obtain ⟨r, lv, cl, ks⟩ := b
    exact (ha.2.2.1 _ (List.mem_append_left _ (List.mem_append_right _ (Kids.mem_subNames h3)))).2 rfl
  | elem h1 h2 h3 h4 h5 => cases sing h1; exact (lists_target ha h2).2 rfl

theorem notDict_exact (dev : Dev) (level : Name) (b : Bundle) (v : Val) (h : ∀ d, v ≠ .dict d)
    (hr : (assign dev flat level b v).reports = [level]) :
    Exact (assign dev flat level b v) (Faulty flat lostPath level b v) := by
  refine ⟨?_, ?_⟩
  · intro n hn
    rw [hr] at hn
    rw [List.mem_singleton.1 hn]
    exact .notDict h
  · intro _ n hn
    rw [hr]
    cases hn with
    | notDict _ => exact List.mem_singleton.2 rfl
    | unknown _ _ _ => exact absurd rfl (h _)
    | sub _ _ _ _ _ => exact absurd rfl (h _)
    | elem _ _ _ _ _ => exact absurd rfl (h _)

mutual
theorem assign_exact (dev : Dev) : ∀ (v : Val) (level : Name) (b : Bundle), b.Attr → b.Distinct →
    Exact (assign dev flat level b v) (Faulty flat lostPath level b v)
  | .dict d, level, b, ha, hd => by
    have ih := assignItems_exact dev d level b ha hd
    rw [assign]
    cases hs : d.star? with
    | none => exact ih
    | some u =>
      refine ⟨?_, ?_⟩
      · intro n hn
        rcases mem_next hn with hn | hn
        · unfold Bundle.setAll at hn
          rw [setSlots_reports] at hn; cases hn
        · exact ih.1 n hn
      · intro he n hn
        have he' := next_err he
        rw [(next_reports he).1]
        exact List.mem_append_right _ (ih.2 he'.2 n hn)
  | .none, level, b, _, _ => notDict_exact dev level b _ (by intro d h; cases h) (by rw [assign]; intro d h; cases h)
  | .num x, level, b, _, _ => notDict_exact dev level b _ (by intro d h; cases h) (by rw [assign]; intro d h; cases h)
  | .seq vs, level, b, _, _ => notDict_exact dev level b _ (by intro d h; cases h) (by rw [assign]; intro d h; cases h)
theorem assignItems_exact (dev : Dev) : ∀ (d : Items) (level : Name) (b : Bundle), b.Attr →
    b.Distinct → Exact (assignItems dev flat level b d) (Faulty flat lostPath level b (.dict d))
  | .nil, level, b, _, _ => by
    refine ⟨(by intro n hn; cases hn), ?_⟩
    intro _ n hn
    cases hn with
    | notDict h => exact absurd rfl (h _)
    | unknown h1 => cases h1
    | sub _ h2 => cases h2
    | elem h1 => cases h1
  | .cons k v rest, level, b, ha, hd => by
    have ih := assignItems_exact dev rest level b ha hd
    rw [assignItems_cons]
    by_cases hk : k = star
    · subst hk
      rw [if_pos rfl]
      refine ⟨fun n hn => (ih.1 n hn).cons, fun he n hn => ?_⟩
      rcases cons_faulty hn with hn | hn
      · exact (key_star ha hn).elim
      · exact ih.2 he n hn
    · rw [if_neg hk]
      have ihk := assignKey_exact dev v level b k ha hd hk
      refine ⟨?_, ?_⟩
      · intro n hn
        rcases mem_next hn with hn | hn
        · exact faultyKey_cons (ihk.1 n hn)
        · exact (ih.1 n hn).cons
      · intro he n hn
        have he' := next_err he
        rw [(next_reports he).1]
        rcases cons_faulty hn with hn | hn
        · exact List.mem_append_left _ (ihk.2 he'.1 n hn)
        · exact List.mem_append_right _ (ih.2 he'.2 n hn)
theorem assignKey_exact (dev : Dev) : ∀ (v : Val) (level : Name) (b : Bundle) (k : Name), b.Attr →
    b.Distinct → k ≠ star →
    Exact (assignKey dev flat level k (b.target flat k) v) (FaultyKey flat level b k v)
  | v, level, b, k, ha, hd, hk => by
    have sing : ∀ {x : Name × Val}, x ∈ (Items.cons k v .nil).toList → x = (k, v) := by
      intro x hx
      simpa [Items.toList] using hx
    have hin : (k, v) ∈ (Items.cons k v .nil).toList := List.mem_cons_self ..
    have hw := target_wf flat ha hd k
    have quiet : b.target flat k ≠ .missing → (∀ c, b.target flat k ≠ .sub c) →
        (∀ bs, b.target flat k ≠ .elems bs) → ∀ n, ¬ FaultyKey flat level b k v n := by
      intro h1 h2 h3 n hn
      cases hn with
      | notDict h => exact absurd rfl (h _)
      | unknown h4 h5 h6 => cases sing h4; exact h1 (unknown_target flat ha h6)
      | sub h4 h5 h6 h7 _ =>
        cases sing h5
        subst h4
        exact h2 _ (locate_sub ha h6 h7)
      | elem h4 h5 _ _ _ =>
        cases sing h4
        exact h3 _ (lists_target ha h5).1
    cases ht : b.target flat k with
    | slot s =>
      rw [ht] at quiet
      have q := quiet (by intro h; cases h) (by intro c h; cases h) (by intro c h; cases h)
      refine ⟨?_, fun _ n hn => absurd hn (q n)⟩
      intro n hn
      rw [show (assignKey dev flat level k (.slot s) v).reports = [] from writeSlot_reports s v] at hn
      cases hn
    | list ss =>
      rw [ht] at quiet
      have q := quiet (by intro h; cases h) (by intro c h; cases h) (by intro c h; cases h)
      refine ⟨?_, fun _ n hn => absurd hn (q n)⟩
      intro n hn
      rw [show (assignKey dev flat level k (.list ss) v).reports = [] from assignList_reports ss v] at hn
      cases hn
    | all c =>
      rw [ht] at quiet
      have q := quiet (by intro h; cases h) (by intro c h; cases h) (by intro c h; cases h)
      refine ⟨?_, fun _ n hn => absurd hn (q n)⟩
      intro n hn
      rw [show (assignKey dev flat level k (.all c) v).reports = [] from setSlots_reports dev _ v] at hn
      cases hn
    | missing =>
      have hu : ¬ Known flat b k := fun h => known_target h ha ht
      refine ⟨?_, ?_⟩
      · intro n hn
        rw [List.mem_singleton.1 hn]
        exact .unknown hin hk hu
      · intro _ n hn
        cases hn with
        | notDict h => exact absurd rfl (h _)
        | unknown h4 _ _ => cases sing h4; exact List.mem_singleton.2 rfl
        | sub h4 h5 h6 h7 _ =>
          cases sing h5
          subst h4
          rw [show b.target false k = b.locate k from rfl, locate_sub ha h6 h7] at ht
          cases ht
        | elem h4 h5 _ _ _ =>
          cases sing h4
          rw [(lists_target ha h5).1] at ht
          cases ht
    | sub c =>
      obtain ⟨hf, i, hl, hg⟩ := target_sub ht
      rw [ht] at hw
      have ih := assign_exact dev v (appended level k) c hw.1 hw.2
      refine ⟨fun n hn => .sub hf hin hl hg (ih.1 n hn), ?_⟩
      intro he n hn
      refine ih.2 he n ?_
      cases hn with
      | notDict h => exact absurd rfl (h _)
      | unknown h4 _ h6 => cases sing h4; rw [unknown_target flat ha h6] at ht; cases ht
      | sub h4 h5 h6 h7 h8 =>
        cases sing h5
        subst h4
        rw [show b.target false k = b.locate k from rfl, locate_sub ha h6 h7] at ht
        cases ht
        exact h8
      | elem h4 h5 _ _ _ =>
        cases sing h4
        rw [(lists_target ha h5).1] at ht
        cases ht
    | elems bs =>
      have hL := target_elems ha ht
      rw [ht] at hw
      have other : ∀ n, FaultyKey flat level b k v n → ∃ vs, v = .seq vs ∧ FaultyVals flat bs vs n := by
        intro n hn
        cases hn with
        | notDict h => exact absurd rfl (h _)
        | unknown h4 _ h6 => cases sing h4; rw [unknown_target flat ha h6] at ht; cases ht
        | sub h4 h5 h6 h7 h8 =>
          cases sing h5
          subst h4
          rw [show b.target false k = b.locate k from rfl, locate_sub ha h6 h7] at ht
          cases ht
        | elem h4 h5 h6 h7 h8 =>
          cases sing h4
          rw [(lists_target ha h5).1] at ht
          cases ht
          exact ⟨_, rfl, _, _, _, h6, h7, h8⟩
      exact assignElems_exact dev v level b k bs hin hL hw other
theorem assignElems_exact (dev : Dev) : ∀ (v : Val) (level : Name) (b : Bundle) (k : Name)
    (bs : List Bundle), (k, v) ∈ (Items.cons k v .nil).toList → Lists flat b k bs →
    (∀ c ∈ bs, c.Attr ∧ c.Distinct) →
    (∀ n, FaultyKey flat level b k v n → ∃ vs, v = .seq vs ∧ FaultyVals flat bs vs n) →
    Exact (assignElems dev flat bs v) (FaultyKey flat level b k v)
  | .seq vs, level, b, k, bs, hin, hL, hw, other => by
    have ih := assignVals_exact dev vs bs hw
    rw [assignElems]
    refine ⟨?_, ?_⟩
    · intro n hn
      obtain ⟨j, c, u, h1, h2, h3⟩ := ih.1 n hn
      exact .elem hin hL h1 h2 h3
    · intro he n hn
      obtain ⟨vs', hvs, h⟩ := other n hn
      cases hvs
      exact ih.2 he n h
  | .none, level, b, k, bs, _, _, _, _ => ⟨(by intro n hn; cases hn), (by intro he; cases he)⟩
  | .num x, level, b, k, bs, _, _, _, _ => ⟨(by intro n hn; cases hn), (by intro he; cases he)⟩
  | .dict d, level, b, k, bs, _, _, _, _ => ⟨(by intro n hn; cases hn), (by intro he; cases he)⟩
theorem assignVals_exact (dev : Dev) : ∀ (vs : Vals) (bs : List Bundle),
    (∀ c ∈ bs, c.Attr ∧ c.Distinct) → Exact (assignVals dev flat bs vs) (FaultyVals flat bs vs)
  | vs, [], _ => by
    cases vs <;>
    exact ⟨(by intro n hn; cases hn), (by rintro _ n ⟨j, c, v, h, _⟩; simp at h)⟩
  | .nil, c :: bs, _ => ⟨(by intro n hn; cases hn), (by intro he; cases he)⟩
  | .cons v vs, c :: bs, hw => by
    have ih1 := assign_exact dev v [] c (hw c (by simp)).1 (hw c (by simp)).2
    have ih2 := assignVals_exact dev vs bs (fun c' hc => hw c' (List.mem_cons_of_mem _ hc))
    rw [assignVals]
    refine ⟨?_, ?_⟩
    · intro n hn
      rcases mem_next hn with hn | hn
      · exact ⟨0, c, v, rfl, rfl, ih1.1 n hn⟩
      · obtain ⟨j, c', u, h1, h2, h3⟩ := ih2.1 n hn
        exact ⟨j + 1, c', u, h1, h2, h3⟩
    · intro he n hn
      have he' := next_err he
      rw [(next_reports he).1]
      obtain ⟨j, c', u, h1, h2, h3⟩ := hn
      cases j with
      | zero => cases h1; cases h2; exact List.mem_append_left _ (ih1.2 he'.1 n h3)
      | succ j => exact List.mem_append_right _ (ih2.2 he'.2 n ⟨j, c', u, h1, h2, h3⟩)
end

theorem lists_listful {b : Bundle} {k : Name} {bs : List Bundle} (h : Lists flat b k bs) :
    ¬ b.Listless := by
  induction h with
  | @here b k bs h0 h =>
    intro hl
    obtain ⟨r, lv, cl, ks⟩ := b
    cases bs with
    | nil => exact h0 rfl
    | cons c bs =>
      obtain ⟨i, h1, _⟩ := (h 0 c).1 rfl
      obtain ⟨n, hn⟩ := Kids.listless_label (ks := ks) hl h1
      cases hn
  | @inside b c n t i bs _ _ hk _ ih =>
    intro hl
    obtain ⟨r, lv, cl, ks⟩ := b
    exact ih (Kids.listless_get (ks := ks) hl hk)

theorem faulty_listless {via via' : Name → Name → Nat → Name} {level n : Name} {b : Bundle} {v : Val}
    (h : Faulty flat via level b v n) (hl : b.Listless) : Faulty flat via' level b v n := by
  induction h with
  | notDict h => exact .notDict h
  | unknown h1 h2 h3 => exact .unknown h1 h2 h3
  | @sub level n b c d k v i h1 h2 h3 h4 _ ih =>
    refine .sub h1 h2 h3 h4 (ih ?_)
    obtain ⟨r, lv, cl, ks⟩ := b
    exact Kids.listless_get (ks := ks) hl h4
  | elem _ h2 => exact absurd hl (lists_listful h2)

theorem faulty_somewhere {via : Name → Name → Nat → Name} {level n : Name} {b : Bundle} {v : Val}
    (h : Faulty flat via level b v n) : ∀ (via' : Name → Name → Nat → Name) (level' : Name),
    ∃ n', Faulty flat via' level' b v n' := by
  induction h with
  | notDict h => exact fun _ level' => ⟨level', .notDict h⟩
  | unknown h1 h2 h3 => exact fun _ _ => ⟨_, .unknown h1 h2 h3⟩
  | sub h1 h2 h3 h4 _ ih =>
    intro via' level'
    obtain ⟨n', h⟩ := ih via' _
    exact ⟨n', .sub h1 h2 h3 h4 h⟩
  | elem h1 h2 h3 h4 _ ih =>
    intro via' level'
    obtain ⟨n', h⟩ := ih via' _
    exact ⟨n', .elem h1 h2 h3 h4 h⟩

theorem appended_prefix {level k : Name} (h : level ≠ []) : level <+: appended level k ∧
    appended level k ≠ [] := by
  unfold appended
  rw [if_neg h]
  exact ⟨⟨_, rfl⟩, by simp⟩

theorem faulty_prefix {level n : Name} {b : Bundle} {v : Val} (h : Faulty flat fullPath level b v n)
    (hl : level ≠ []) : level <+: n := by
  induction h with
  | notDict _ => exact List.prefix_refl _
  | unknown _ _ _ => exact (appended_prefix hl).1
  | sub _ _ _ _ _ ih => exact (appended_prefix hl).1.trans (ih (appended_prefix hl).2)
  | elem _ _ _ _ _ ih => exact (appended_prefix hl).1.trans (ih (appended_prefix hl).2)

/-! ### The theorems -/

/-- **C106.** Without bundle lists: everything that `assign` reports is an entry that cannot be used,
with its full path, and unless an exception is raised every such entry is reported.  Missing: bundle lists,
see the next two theorems. -/
theorem C106_reports_partial (dev : Dev) (flat : Bool) (b : Bundle) (hb : b.Sound) (hl : b.Listless)
    (v : Val) :
    (∀ n ∈ (assign dev flat [] b v).reports, Faulty flat fullPath [] b v n) ∧
    ((assign dev flat [] b v).err = none →
      ∀ n, Faulty flat fullPath [] b v n → n ∈ (assign dev flat [] b v).reports) := by
  have h := assign_exact (flat := flat) dev v [] b hb.attr hb.distinct
  exact ⟨fun n hn => faulty_listless (h.1 n hn) hl, fun he n hn => h.2 he n (faulty_listless hn hl)⟩

/-- **C106.** With bundle lists the same entries are reported, but the paths of those inside an element of
a bundle list begin there. -/
theorem C106_lists_partial (dev : Dev) (flat : Bool) (b : Bundle) (hb : b.Sound) (v : Val) :
    (∀ n ∈ (assign dev flat [] b v).reports, Faulty flat lostPath [] b v n) ∧
    ((assign dev flat [] b v).err = none →
      ∀ n, Faulty flat lostPath [] b v n → n ∈ (assign dev flat [] b v).reports) :=
  assign_exact dev v [] b hb.attr hb.distinct

/-- **C106.** Nothing is reported if there is nothing to report, whether an exception is raised or not. -/
theorem C106_silent_partial (dev : Dev) (flat : Bool) (b : Bundle) (hb : b.Sound) (v : Val)
    (h : ∀ n, ¬ Faulty flat fullPath [] b v n) : (assign dev flat [] b v).reports = [] :=
  nil_of_mem fun n hn =>
    have ⟨n', hn'⟩ := faulty_somewhere ((C106_lists_partial dev flat b hb v).1 n hn) fullPath []
    h n' hn'

/-! ### Concrete cases -/

/-- A message with an unknown key in an element of the bundle list `v`. -/
def listMsg : Val :=
  .dict (.cons "v".toList (.seq (.cons (.dict (.cons "bad".toList (.num 1) .nil)) .nil)) .nil)

/-- **C106 fails** for bundle lists: `{"v": [{"bad": 1}]}` is reported as `bad`, not as `v[0].bad`. -/
theorem C106_list_violated : ∃ (dev : Dev) (b : Bundle) (v : Val) (n : Name), b.Sound ∧
    (assign dev false [] b v).err = none ∧ n ∈ (assign dev false [] b v).reports ∧
    ¬ Faulty false fullPath [] b v n := by
  refine ⟨demoDev, demoBound, listMsg, "bad".toList, demo_sound, by decide +kernel, by decide +kernel, ?_⟩
  have sing : ∀ {k : Name} {v : Val} {d : Items}, listMsg = .dict d → (k, v) ∈ d.toList →
      k = "v".toList := by
    intro k v d hd h
    cases hd
    have := congrArg Prod.fst (List.mem_singleton.1 h)
    exact this
  intro h
  generalize hm : listMsg = m at h
  generalize hn : "bad".toList = n at h
  generalize hlv : ([] : Name) = level at h
  cases h with
  | notDict h => exact h _ hm.symm
  | unknown h1 h2 h3 =>
    have := sing hm h1
    subst this hlv
    revert hn
    decide
  | sub h1 h2 h3 h4 h5 =>
    have := sing hm h2
    subst this hlv hn
    obtain ⟨t, ht⟩ := faulty_prefix h5 (by decide)
    cases ht
  | elem h1 h2 h3 h4 h5 =>
    have := sing hm h1
    subst this hlv hn
    obtain ⟨t, ht⟩ := faulty_prefix h5 (by
      intro h
      cases h)
    cases ht

/-- The hypotheses of the theorems: the demo message `{"nope": 9, "a": 1, "c": {"bad": None}, "*": 7}` has
two faulty entries. -/
example : demoBound.Sound ∧ Faulty false fullPath [] demoBound demoMsg "nope".toList ∧
    Faulty false fullPath [] demoBound demoMsg "c.bad".toList := by
  refine ⟨demo_sound, ?_, ?_⟩
  · exact .unknown (k := "nope".toList) (v := .num 9) (List.mem_cons_self ..) (by decide)
      (not_known (by decide +kernel) (by decide +kernel) (by decide +kernel) (by decide +kernel))
  · refine .sub (i := 0) (k := "c".toList) (v := .dict (.cons "bad".toList .none .nil)) rfl ?_ rfl rfl ?_
    · exact List.mem_cons_of_mem _ (List.mem_cons_of_mem _ (List.mem_cons_self ..))
    · exact .unknown (k := "bad".toList) (v := .none) (List.mem_cons_self ..) (by decide)
        (not_known (by decide +kernel) (by decide +kernel) (by decide +kernel) (by decide +kernel))

/-- A bundle without bundle lists, a flat message with an unknown key. -/
example : demoFlatBound.Sound ∧ demoFlatBound.Listless ∧
    (assign demoDev true [] demoFlatBound (.dict (.cons "c.no".toList (.num 1) .nil))).reports =
      ["c.no".toList] :=
  ⟨bind_sound true demoFlat demoDut ⟨by decide, by decide, by decide, trivial,
      ⟨by decide, by decide, by decide, trivial, trivial⟩, trivial⟩
      ⟨by decide, ⟨by decide, trivial⟩, trivial⟩
      ⟨level_fresh _ (by decide), ⟨level_fresh _ (by decide), trivial⟩, trivial⟩
      (by decide) (by decide),
    ⟨trivial, trivial⟩, by decide +kernel⟩

end Toffee.Bundle
