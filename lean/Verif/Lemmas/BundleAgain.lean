import Verif.Props.BundleBind
import Verif.Lemmas.BundlePaths

/-! Binding depends on the names of the slots, not on their contents. -/

namespace Toffee.Bundle

mutual
/-- The same rules, slot names and children; contents and clocks may differ. -/
def Bundle.Same : Bundle → Bundle → Prop
  | .mk r lv _ ks, .mk r' lv' _ ks' => r = r' ∧ lv.shape = lv'.shape ∧ Kids.Same ks ks'
def Kids.Same : Kids → Kids → Prop
  | .nil, .nil => True
  | .cons l b ks, .cons l' b' ks' => l = l' ∧ Bundle.Same b b' ∧ Kids.Same ks ks'
  | _, _ => False
end

mutual
theorem Bundle.Same.refl : ∀ b : Bundle, b.Same b
  | .mk _ _ _ ks => ⟨rfl, rfl, Kids.Same.refl ks⟩
theorem Kids.Same.refl : ∀ ks : Kids, ks.Same ks
  | .nil => trivial
  | .cons _ b ks => ⟨rfl, Bundle.Same.refl b, Kids.Same.refl ks⟩
end

mutual
theorem Bundle.Same.symm : ∀ {a b : Bundle}, a.Same b → b.Same a
  | .mk _ _ _ _, .mk _ _ _ _, h => ⟨h.1.symm, h.2.1.symm, Kids.Same.symm h.2.2⟩
theorem Kids.Same.symm : ∀ {a b : Kids}, a.Same b → b.Same a
  | .nil, .nil, _ => trivial
  | .cons _ _ _, .cons _ _ _, h => ⟨h.1.symm, Bundle.Same.symm h.2.1, Kids.Same.symm h.2.2⟩
  | .nil, .cons _ _ _, h => h.elim
  | .cons _ _ _, .nil, h => h.elim
end

mutual
theorem Bundle.Same.trans : ∀ {a b c : Bundle}, a.Same b → b.Same c → a.Same c
  | .mk _ _ _ _, .mk _ _ _ _, .mk _ _ _ _, h, h' =>
    ⟨h.1.trans h'.1, h.2.1.trans h'.2.1, Kids.Same.trans h.2.2 h'.2.2⟩
theorem Kids.Same.trans : ∀ {a b c : Kids}, a.Same b → b.Same c → a.Same c
  | .nil, .nil, .nil, _, _ => trivial
  | .cons _ _ _, .cons _ _ _, .cons _ _ _, h, h' =>
    ⟨h.1.trans h'.1, Bundle.Same.trans h.2.1 h'.2.1, Kids.Same.trans h.2.2 h'.2.2⟩
  | .nil, .cons _ _ _, _, h, _ => h.elim
  | .cons _ _ _, .nil, _, h, _ => h.elim
  | .nil, .nil, .cons _ _ _, _, h => h.elim
  | .cons _ _ _, .cons _ _ _, .nil, _, h => h.elim
end

theorem names_shape {a b : Level} (h : a.shape = b.shape) : a.names = b.names := by
  unfold Level.shape at h
  rw [Prod.mk.injEq] at h
  unfold Level.names
  rw [h.1]
  congr 1
  have key : ∀ l : List (Name × List (Name × Slot)),
      (l.flatMap fun l => l.2.map Prod.fst) = (l.map fun l => l.2.map Prod.fst).flatten :=
    fun l => rfl
  rw [key, key]
  exact congrArg List.flatten h.2

mutual
theorem Bundle.Same.distinct : ∀ {a b : Bundle}, a.Same b → a.Distinct → b.Distinct
  | .mk _ _ _ _, .mk _ _ _ _, h, hd => ⟨names_shape h.2.1 ▸ hd.1, Kids.Same.distinct h.2.2 hd.2⟩
theorem Kids.Same.distinct : ∀ {a b : Kids}, a.Same b → a.Distinct → b.Distinct
  | .nil, .nil, _, _ => trivial
  | .cons _ _ _, .cons _ _ _, h, hd => ⟨Bundle.Same.distinct h.2.1 hd.1, Kids.Same.distinct h.2.2 hd.2⟩
  | .nil, .cons _ _ _, h, _ => h.elim
  | .cons _ _ _, .nil, h, _ => h.elim
end

mutual
theorem Bundle.Same.plain : ∀ {a b : Bundle}, a.Same b → a.Plain → b.Plain
  | .mk _ _ _ _, .mk _ _ _ _, h, hd => ⟨h.1 ▸ hd.1, Kids.Same.plain h.2.2 hd.2⟩
theorem Kids.Same.plain : ∀ {a b : Kids}, a.Same b → a.Plain → b.Plain
  | .nil, .nil, _, _ => trivial
  | .cons _ _ _, .cons _ _ _, h, hd => ⟨Bundle.Same.plain h.2.1 hd.1, Kids.Same.plain h.2.2 hd.2⟩
  | .nil, .cons _ _ _, h, _ => h.elim
  | .cons _ _ _, .nil, h, _ => h.elim
end

/-- The last signal that hits a slot stays there. -/
theorem connect_slot (r : Rule) (lv : Level) (sigs : List Sig) (a : Acc)
    (hs : a.lvl.shape = lv.shape) (p : Pos) :
    (sigs.foldl (connectOne r) a).lvl.slot p =
      match sigs.reverse.find? (fun s => hit r lv s = some p) with
      | some s => some (.pin s.pin)
      | none => a.lvl.slot p := by
  induction sigs generalizing a with
  | nil => rfl
  | cons s ss ih =>
    rw [List.foldl_cons, List.reverse_cons, List.find?_append]
    have hsh : (connectOne r a s).lvl.shape = lv.shape :=
      (connect_spec r lv [s] a hs).shape
    rw [ih _ hsh]
    cases ss.reverse.find? (fun s => hit r lv s = some p) with
    | some t => rfl
    | none =>
      simp only [Option.none_or]
      rcases connectOne_cases r lv a s hs with ⟨hm, he⟩ | ⟨m, hm, hf, he⟩ | ⟨m, q, hm, hf, he⟩
      · have hh : hit r lv s = none := by simp [hit, hm]
        rw [he, List.find?_cons_of_neg (by simp [hh])]
        rfl
      · have hh : hit r lv s = none := by simp [hit, hm, hf]
        rw [he, List.find?_cons_of_neg (by simp [hh])]
        rfl
      · have hh : hit r lv s = some q := by simp [hit, hm, hf]
        rw [he]
        by_cases hq : q = p
        · subst hq
          rw [List.find?_cons_of_pos (by simp [hh])]
          exact Level.put_self ((nameOf_shape hs q).trans (Level.find_name hf))
        · rw [List.find?_cons_of_neg (by simp [hh, hq])]
          exact Level.put_ne (Ne.symm hq)

theorem hit_shape {a b : Level} (h : a.shape = b.shape) (r : Rule) (s : Sig) :
    hit r a s = hit r b s := by
  unfold hit
  cases r.strip s.name with
  | none => rfl
  | some m => exact Level.find_shape h m

theorem pass_shape {a b : Level} (h : a.shape = b.shape) (r : Rule) (s : Sig) :
    pass r a s = pass r b s := by
  unfold pass
  cases r.strip s.name with
  | none => rfl
  | some m => simp only [Option.bind_some, Level.find_shape h m]

/-- What `connect` returns besides the slots depends on the names only. -/
theorem connect_same (r : Rule) {lv lv' : Level} (h : lv.shape = lv'.shape) (c c' : Option Nat)
    (sigs : List Sig) :
    (connect r lv c sigs).matching = (connect r lv' c' sigs).matching ∧
    (connect r lv c sigs).remain = (connect r lv' c' sigs).remain ∧
    (connect r lv c sigs).log = (connect r lv' c' sigs).log ∧
    (connect r lv c sigs).lvl.shape = lv.shape ∧
    (∀ m, m ∈ (connect r lv c sigs).connected ↔ m ∈ (connect r lv' c' sigs).connected) := by
  have h1 := connect_spec r lv sigs { lvl := lv, clock := c } rfl
  have h2 := connect_spec r lv sigs { lvl := lv', clock := c' } h.symm
  exact ⟨h1.matching.trans h2.matching.symm, h1.remain.trans h2.remain.symm,
    h1.log.trans h2.log.symm, h1.shape, fun m => (h1.connected m).trans (h2.connected m).symm⟩

mutual
theorem bindList_self (access : Bool) : ∀ (b : Bundle) (sigs : List Sig),
    (b.bindList access sigs).1.Same b
  | .mk r lv c ks, sigs => by
    rw [Bundle.bindList]
    exact ⟨rfl, (missing_shape _ _ _).trans (connect_same r rfl c c sigs).2.2.2.1,
      kidsBind_self access ks _ _⟩
theorem kidsBind_self (access : Bool) : ∀ (ks : Kids) (sigs : List Sig) (c : Option Nat),
    (ks.bindList access sigs c).1.Same ks
  | .nil, sigs, c => by rw [Kids.bindList]; trivial
  | .cons l b ks, sigs, c => by
    rw [Kids.bindList]
    exact ⟨rfl, bindList_self access b sigs, kidsBind_self access ks _ _⟩
end

mutual
/-- The signals left over and the pins connected depend on the names only. -/
theorem bindList_same (access access' : Bool) : ∀ (b b' : Bundle) (sigs : List Sig), b.Same b' →
    (b.bindList access sigs).2 = (b'.bindList access' sigs).2
  | .mk r lv c ks, .mk r' lv' c' ks', sigs, h => by
    obtain ⟨rfl, hl, hk⟩ := h
    obtain ⟨h1, h2, h3, _, _⟩ := connect_same r hl c c' sigs
    rw [Bundle.bindList, Bundle.bindList]
    have h4 := kidsBind_same access access' ks ks' (connect r lv c sigs).matching
      (connect r lv c sigs).clock (connect r lv' c' sigs).clock hk
    simp only [← h1, ← h2, ← h3, h4.1, h4.2]
theorem kidsBind_same (access access' : Bool) : ∀ (ks ks' : Kids) (sigs : List Sig)
    (c c' : Option Nat), ks.Same ks' →
    (ks.bindList access sigs c).2.1 = (ks'.bindList access' sigs c').2.1 ∧
      (ks.bindList access sigs c).2.2.1 = (ks'.bindList access' sigs c').2.2.1
  | .nil, .nil, sigs, c, c', _ => by rw [Kids.bindList, Kids.bindList]; exact ⟨rfl, rfl⟩
  | .cons l b ks, .cons l' b' ks', sigs, c, c', h => by
    obtain ⟨rfl, hb, hk⟩ := h
    have h1 := bindList_same access access' b b' sigs hb
    have h2 := kidsBind_same access access' ks ks' (b.bindList access sigs).2.1
      (parentClock l (b.bindList access sigs).1.clock c)
      (parentClock l (b'.bindList access' sigs).1.clock c') hk
    rw [Kids.bindList, Kids.bindList]
    simp only [← h1, h2.1, h2.2, and_self]
  | .nil, .cons _ _ _, _, _, _, h => h.elim
  | .cons _ _ _, .nil, _, _, _, h => h.elim
end

/-- The slots of a level after binding. -/
theorem level_slots_same (access : Bool) (r : Rule) {lv lv' : Level} (h : lv.shape = lv'.shape)
    (hd : lv.names.Nodup) (c c' : Option Nat) (sigs : List Sig) (p : Pos)
    (hp : access = true ∨ lv.slot p = lv'.slot p) :
    (missing access (connect r lv c sigs).connected (connect r lv c sigs).lvl).slot p =
      (missing access (connect r lv' c' sigs).connected (connect r lv' c' sigs).lvl).slot p := by
  have s1 := connect_slot r lv sigs { lvl := lv, clock := c } rfl p
  have s2 := connect_slot r lv sigs { lvl := lv', clock := c' } h.symm p
  have s1 : (connect r lv c sigs).lvl.slot p = _ := s1
  have s2 : (connect r lv' c' sigs).lvl.slot p = _ := s2
  have hs := connect_same r h c c' sigs
  have hs' := connect_same r h.symm c' c sigs
  cases access with
  | false =>
    rw [missing_false, missing_false, s1, s2]
    have hp : lv.slot p = lv'.slot p := by simpa using hp
    cases sigs.reverse.find? (fun s => hit r lv s = some p) with
    | some t => rfl
    | none => exact hp
  | true =>
    cases hn : lv.nameOf p with
    | none =>
      have key : ∀ (x : Level), x.shape = lv.shape → x.slot p = none := by
        intro x hx
        cases hsx : x.slot p with
        | none => rfl
        | some s =>
          obtain ⟨n, hn'⟩ := nameOf_of_slot hsx
          rw [nameOf_shape hx p, hn] at hn'
          cases hn'
      rw [key _ ((missing_shape _ _ _).trans hs.2.2.2.1),
        key _ ((missing_shape _ _ _).trans (hs'.2.2.2.1.trans h.symm))]
    | some n =>
      rw [missing_slot _ _ p n ((nameOf_shape hs.2.2.2.1 p).trans hn),
        missing_slot _ _ p n ((nameOf_shape (hs'.2.2.2.1.trans h.symm) p).trans hn)]
      simp only [hs.2.2.2.2 n]
      split
      · rename_i hc
        rw [s1, s2]
        cases hf : sigs.reverse.find? (fun s => hit r lv s = some p) with
        | some t => rfl
        | none =>
          exfalso
          have h2 := connect_spec r lv sigs { lvl := lv', clock := c' } h.symm
          rcases (h2.connected n).1 hc with hc | ⟨s, hs, h1, _⟩
          · cases hc
          · have := List.find?_eq_none.1 hf s (List.mem_reverse.2 hs)
            apply this
            simp [hit, h1, Level.find_of_name hd hn]
      · rfl

mutual
/-- The slots after binding depend on the names only if unconnected signals become dummies, and
otherwise on the slots before. -/
theorem bindList_slots_same (access : Bool) : ∀ (b b' : Bundle) (sigs : List Sig), b.Same b' →
    b.Distinct → ∀ (is : List Nat) (p : Pos), (access = true ∨ b.slotAt is p = b'.slotAt is p) →
    (b.bindList access sigs).1.slotAt is p = (b'.bindList access sigs).1.slotAt is p
  | .mk r lv c ks, .mk r' lv' c' ks', sigs, h, hd, is, p, hp => by
    obtain ⟨rfl, hl, hk⟩ := h
    rw [Bundle.bindList, Bundle.bindList]
    cases is with
    | nil => exact level_slots_same access r hl hd.1 c c' sigs p hp
    | cons i is =>
      have h1 := (connect_same r hl c c' sigs).1
      have := kidsBind_slots_same access ks ks' (connect r lv c sigs).matching
        (connect r lv c sigs).clock (connect r lv' c' sigs).clock hk hd.2 i is p hp
      rw [h1] at this
      simpa only [Bundle.slotAt, Bundle.kids, h1] using this
theorem kidsBind_slots_same (access : Bool) : ∀ (ks ks' : Kids) (sigs : List Sig)
    (c c' : Option Nat), ks.Same ks' → ks.Distinct → ∀ (i : Nat) (is : List Nat) (p : Pos),
    (access = true ∨ ((ks.get i).bind fun k => k.slotAt is p) =
      ((ks'.get i).bind fun k => k.slotAt is p)) →
    (((ks.bindList access sigs c).1.get i).bind fun k => k.slotAt is p) =
      (((ks'.bindList access sigs c').1.get i).bind fun k => k.slotAt is p)
  | .nil, .nil, sigs, c, c', _, _, i, is, p, _ => by rw [Kids.bindList, Kids.bindList]
  | .cons l b ks, .cons l' b' ks', sigs, c, c', h, hd, i, is, p, hp => by
    obtain ⟨rfl, hb, hk⟩ := h
    rw [Kids.bindList, Kids.bindList]
    cases i with
    | zero => exact bindList_slots_same access b b' sigs hb hd.1 is p hp
    | succ i =>
      have h1 := bindList_same access access b b' sigs hb
      have := kidsBind_slots_same access ks ks' (b.bindList access sigs).2.1
        (parentClock l (b.bindList access sigs).1.clock c)
        (parentClock l (b'.bindList access sigs).1.clock c') hk hd.2 i is p hp
      simpa only [Kids.get, ← h1] using this
  | .nil, .cons _ _ _, _, _, _, h, _, _, _, _, _ => h.elim
  | .cons _ _ _, .nil, _, _, _, h, _, _, _, _, _ => h.elim
end

/-! ### Unbinding -/

theorem unbindCells_shape {cs : List Cell} {u : List Cell × List Nat} (h : unbindCells cs = some u) :
    u.1.map Cell.name = cs.map Cell.name := by
  induction cs generalizing u with
  | nil => cases h; rfl
  | cons c cs ih =>
    rw [unbindCells] at h
    cases hc : c.unbind with
    | none => rw [hc] at h; cases h
    | some r =>
      rw [hc, Option.bind_some] at h
      cases hr : unbindCells cs with
      | none => rw [hr] at h; cases h
      | some rs =>
        rw [hr] at h
        have h := Option.some.inj h
        subst h
        have hn : r.1.name = c.name := by
          unfold Cell.unbind at hc
          cases hs : c.slot <;> rw [hs] at hc <;> cases hc <;> rfl
        rw [List.map_cons, List.map_cons, hn, ih hr]

mutual
theorem unbindAll_same : ∀ (b : Bundle) (u : Bundle × List Nat), b.unbindAll = some u → u.1.Same b
  | .mk r lv c ks, u, h => by
    rw [Bundle.unbindAll] at h
    cases hs : unbindCells lv.signals with
    | none => rw [hs] at h; cases h
    | some s =>
      rw [hs, Option.bind_some] at h
      cases hk : ks.unbindAll with
      | none => rw [hk] at h; cases h
      | some k =>
        rw [hk] at h
        have h := Option.some.inj h
        subst h
        refine ⟨rfl, ?_, kidsUnbind_same ks k hk⟩
        simp only [Level.shape, unbindCells_shape hs]
theorem kidsUnbind_same : ∀ (ks : Kids) (u : Kids × List Nat), ks.unbindAll = some u → u.1.Same ks
  | .nil, u, h => by
    rw [Kids.unbindAll] at h
    cases h
    trivial
  | .cons (.sub n) b ks, u, h => by
    rw [Kids.unbindAll] at h
    cases hb : b.unbindAll with
    | none => rw [hb] at h; cases h
    | some rb =>
      rw [hb, Option.bind_some] at h
      cases hk : ks.unbindAll with
      | none => rw [hk] at h; cases h
      | some rk =>
        rw [hk] at h
        have h := Option.some.inj h
        subst h
        exact ⟨rfl, unbindAll_same b rb hb, kidsUnbind_same ks rk hk⟩
  | .cons (.elem n i) b ks, u, h => by
    rw [Kids.unbindAll] at h
    cases hk : ks.unbindAll with
    | none => rw [hk] at h; cases h
    | some rk =>
      rw [hk] at h
      have h := Option.some.inj h
      subst h
      exact ⟨rfl, Bundle.Same.refl b, kidsUnbind_same ks rk hk⟩
end

/-! ### When unbinding does not raise -/

mutual
/-- No signal of the bundle or of its (nested) sub-bundles is a `Signal()` placeholder. -/
def Bundle.Ready : Bundle → Prop
  | .mk _ lv _ ks => (∀ c ∈ lv.signals, c.slot ≠ .unconnected) ∧ Kids.Ready ks
def Kids.Ready : Kids → Prop
  | .nil => True
  | .cons (.sub _) b ks => Bundle.Ready b ∧ Kids.Ready ks
  | .cons (.elem _ _) _ ks => Kids.Ready ks
end

theorem unbindCells_some (cs : List Cell) :
    (unbindCells cs).isSome ↔ ∀ c ∈ cs, c.slot ≠ .unconnected := by
  induction cs with
  | nil => simp [unbindCells]
  | cons c cs ih =>
    rw [unbindCells]
    cases hs : c.slot with
    | unconnected => simp [Cell.unbind, hs]
    | _ =>
      simp only [Cell.unbind, hs, Option.bind_some, Option.isSome_map, ih, List.mem_cons,
        forall_eq_or_imp, ne_eq, reduceCtorEq, not_false_eq_true, true_and]

mutual
theorem unbindAll_isSome : ∀ b : Bundle, b.unbindAll.isSome ↔ b.Ready
  | .mk r lv c ks => by
    rw [Bundle.unbindAll, Bundle.Ready, ← kidsUnbind_isSome ks, ← unbindCells_some]
    cases unbindCells lv.signals <;> simp
theorem kidsUnbind_isSome : ∀ ks : Kids, ks.unbindAll.isSome ↔ ks.Ready
  | .nil => by rw [Kids.unbindAll, Kids.Ready]; simp
  | .cons (.sub n) b ks => by
    rw [Kids.unbindAll, Kids.Ready, ← unbindAll_isSome b, ← kidsUnbind_isSome ks]
    cases b.unbindAll <;> simp
  | .cons (.elem n i) b ks => by
    rw [Kids.unbindAll, Kids.Ready, ← kidsUnbind_isSome ks]
    simp
end

theorem slot_of_cell {lv : Level} (hd : lv.names.Nodup) {c : Cell} (hc : c ∈ lv.signals) :
    lv.slot (.sig c.name) = some c.slot := by
  have hsig : (lv.signals.map Cell.name).Nodup := (List.nodup_append.1 hd).1
  simp only [Level.slot]
  cases hf : lv.signals.find? (fun d => d.name = c.name) with
  | none => exact absurd (List.find?_eq_none.1 hf c hc) (by simp)
  | some d =>
    have h1 := List.mem_of_find?_eq_some hf
    have h2 : d.name = c.name := by simpa using List.find?_some hf
    rw [nodup_map_inj Cell.name hsig h1 hc h2]
    rfl

mutual
theorem ready_of_slots : ∀ b : Bundle, b.Distinct →
    (∀ is p, b.slotAt is p ≠ some .unconnected) → b.Ready
  | .mk r lv c ks, hd, h => by
    refine ⟨?_, kidsReady_of_slots ks hd.2 fun i is p => ?_⟩
    · intro x hx hs
      apply h [] (.sig x.name)
      exact (slot_of_cell hd.1 hx).trans (congrArg some hs)
    · exact h (i :: is) p
theorem kidsReady_of_slots : ∀ ks : Kids, ks.Distinct →
    (∀ i is p, ((ks.get i).bind fun k => k.slotAt is p) ≠ some .unconnected) → ks.Ready
  | .nil, _, _ => trivial
  | .cons (.sub n) b ks, hd, h =>
    ⟨ready_of_slots b hd.1 fun is p => h 0 is p,
      kidsReady_of_slots ks hd.2 fun i is p => h (i + 1) is p⟩
  | .cons (.elem n j) b ks, hd, h => by
    exact kidsReady_of_slots ks hd.2 fun i is p => h (i + 1) is p
end

/-! ### Trees without lists -/

mutual
/-- No signal lists and no bundle lists. -/
def Bundle.NoLists : Bundle → Prop
  | .mk _ lv _ ks => lv.lists = [] ∧ Kids.NoLists ks
def Kids.NoLists : Kids → Prop
  | .nil => True
  | .cons l b ks => (∃ n, l = .sub n) ∧ Bundle.NoLists b ∧ Kids.NoLists ks
end

mutual
theorem Bundle.Same.noLists : ∀ {a b : Bundle}, a.Same b → a.NoLists → b.NoLists
  | .mk _ lv _ _, .mk _ lv' _ _, h, hd => by
    refine ⟨?_, Kids.Same.noLists h.2.2 hd.2⟩
    have := h.2.1
    simp only [Level.shape, hd.1, List.map_nil, Prod.mk.injEq] at this
    exact List.map_eq_nil_iff.1 this.2.symm
theorem Kids.Same.noLists : ∀ {a b : Kids}, a.Same b → a.NoLists → b.NoLists
  | .nil, .nil, _, _ => trivial
  | .cons _ _ _, .cons _ _ _, h, hd =>
    ⟨h.1 ▸ hd.1, Bundle.Same.noLists h.2.1 hd.2.1, Kids.Same.noLists h.2.2 hd.2.2⟩
  | .nil, .cons _ _ _, h, _ => h.elim
  | .cons _ _ _, .nil, h, _ => h.elim
end

/-- The pin in a slot. -/
def Slot.pin? : Slot → Option Nat
  | .pin q => some q
  | _ => none

theorem unbindCells_dec {cs : List Cell} {u : List Cell × List Nat} (h : unbindCells cs = some u) :
    u.2 = cs.filterMap fun c => c.slot.pin? := by
  induction cs generalizing u with
  | nil => cases h; rfl
  | cons c cs ih =>
    rw [unbindCells] at h
    cases hc : c.unbind with
    | none => rw [hc] at h; cases h
    | some r =>
      rw [hc, Option.bind_some] at h
      cases hr : unbindCells cs with
      | none => rw [hr] at h; cases h
      | some rs =>
        rw [hr] at h
        have h := Option.some.inj h
        subst h
        show r.2 ++ rs.2 = _
        rw [ih hr]
        unfold Cell.unbind at hc
        cases hs : c.slot with
        | unconnected => rw [hs] at hc; cases hc
        | absent =>
          rw [hs] at hc
          cases hc
          rw [List.filterMap_cons_none (by rw [hs]; rfl)]; rfl
        | dummy =>
          rw [hs] at hc
          cases hc
          rw [List.filterMap_cons_none (by rw [hs]; rfl)]; rfl
        | pin q =>
          rw [hs] at hc
          cases hc
          rw [List.filterMap_cons_some (by rw [hs]; rfl)]; rfl

mutual
/-- Without lists, exactly the pins held by the slots are released. -/
theorem unbindAll_dec : ∀ (b : Bundle) (u : Bundle × List Nat) (level : Name), b.NoLists →
    b.unbindAll = some u → u.2 = (b.allSignals level).filterMap fun x => x.2.pin?
  | .mk r lv c ks, u, level, hn, h => by
    rw [Bundle.unbindAll] at h
    cases hs : unbindCells lv.signals with
    | none => rw [hs] at h; cases h
    | some s =>
      rw [hs, Option.bind_some] at h
      cases hk : ks.unbindAll with
      | none => rw [hk] at h; cases h
      | some k =>
        rw [hk] at h
        have h := Option.some.inj h
        subst h
        rw [Bundle.allSignals, hn.1, List.flatMap_nil, List.append_nil, List.filterMap_append,
          List.filterMap_map, ← kidsUnbind_dec ks k level hn.2 hk]
        show s.2 ++ k.2 = _
        rw [unbindCells_dec hs]
        rfl
theorem kidsUnbind_dec : ∀ (ks : Kids) (u : Kids × List Nat) (level : Name), ks.NoLists →
    ks.unbindAll = some u → u.2 = (ks.allSignals level).filterMap fun x => x.2.pin?
  | .nil, u, level, _, h => by
    rw [Kids.unbindAll] at h
    cases h
    rw [Kids.allSignals]; rfl
  | .cons (.elem n i) b ks, u, level, hn, h => by
    obtain ⟨⟨m, hm⟩, _⟩ := hn
    cases hm
  | .cons (.sub n) b ks, u, level, hn, h => by
    rw [Kids.unbindAll] at h
    cases hb : b.unbindAll with
    | none => rw [hb] at h; cases h
    | some rb =>
      rw [hb, Option.bind_some] at h
      cases hk : ks.unbindAll with
      | none => rw [hk] at h; cases h
      | some rk =>
        rw [hk] at h
        have h := Option.some.inj h
        subst h
        rw [Kids.allSignals, List.filterMap_append,
          ← unbindAll_dec b rb (appended level (Label.sub n).text) hn.2.1 hb,
          ← kidsUnbind_dec ks rk level hn.2.2 hk]
end

mutual
/-- Every signal slot holds what the class gives it (a bundle as constructed): `Signal()` of the class
body, or no attribute for a name of the list `signals`. -/
def Bundle.Initial : Bundle → Prop
  | .mk _ lv _ ks =>
    (∀ c ∈ lv.signals, (c.cls = true ∧ c.slot = .unconnected) ∨ (c.cls = false ∧ c.slot = .absent)) ∧
      Kids.Initial ks
def Kids.Initial : Kids → Prop
  | .nil => True
  | .cons _ b ks => Bundle.Initial b ∧ Kids.Initial ks
end

theorem initial_slot {cs : List Cell}
    (h : ∀ c ∈ cs, (c.cls = true ∧ c.slot = .unconnected) ∨ (c.cls = false ∧ c.slot = .absent)) :
    ∀ c ∈ cs, c.slot = c.base := by
  intro c hc
  unfold Cell.base
  rcases h c hc with ⟨h1, h2⟩ | ⟨h1, h2⟩ <;> simp [h1, h2]

/-- The signals of a level without their contents. -/
def Level.kinds (lv : Level) : List (Name × Bool) := lv.signals.map fun c => (c.name, c.cls)

theorem setSig_kinds (n : Name) (s : Slot) (cs : List Cell) :
    ((setSig n s cs).map fun c => (c.name, c.cls)) = cs.map fun c => (c.name, c.cls) := by
  unfold setSig
  rw [List.map_map]
  apply List.map_congr_left
  intro c _
  simp only [Function.comp]
  split <;> rfl

theorem connectOne_kinds (r : Rule) (a : Acc) (s : Sig) :
    (connectOne r a s).lvl.kinds = a.lvl.kinds := by
  unfold connectOne
  split
  · rfl
  · split
    · rename_i p _
      cases p with
      | sig n => exact setSig_kinds n _ _
      | elem l i => rfl
    · rfl

theorem connect_kinds (r : Rule) (lv : Level) (c : Option Nat) (sigs : List Sig) :
    (connect r lv c sigs).lvl.kinds = lv.kinds := by
  have : ∀ (sigs : List Sig) (a : Acc), (sigs.foldl (connectOne r) a).lvl.kinds = a.lvl.kinds := by
    intro sigs
    induction sigs with
    | nil => intro a; rfl
    | cons s ss ih => intro a; rw [List.foldl_cons, ih, connectOne_kinds]
  exact this sigs _

theorem missing_kinds (access : Bool) (con : List Name) (lv : Level) :
    (missing access con lv).kinds = lv.kinds := by
  unfold missing
  split
  · simp only [Level.kinds, List.map_map]
    apply List.map_congr_left
    intro c _
    simp only [Function.comp]
    split <;> rfl
  · rfl

theorem unbindCells_base {cs : List Cell} {u : List Cell × List Nat} (h : unbindCells cs = some u)
    (ok : ∀ c ∈ cs, c.slot = .absent → c.base = .absent) :
    u.1 = cs.map fun c => { c with slot := c.base } := by
  induction cs generalizing u with
  | nil => cases h; rfl
  | cons c cs ih =>
    rw [unbindCells] at h
    cases hc : c.unbind with
    | none => rw [hc] at h; cases h
    | some r =>
      rw [hc, Option.bind_some] at h
      cases hr : unbindCells cs with
      | none => rw [hr] at h; cases h
      | some rs =>
        rw [hr] at h
        have h := Option.some.inj h
        subst h
        show r.1 :: rs.1 = _
        rw [ih hr fun d hd => ok d (List.mem_cons_of_mem _ hd), List.map_cons]
        congr 1
        unfold Cell.unbind at hc
        cases hs : c.slot with
        | unconnected => rw [hs] at hc; cases hc
        | absent =>
          rw [hs] at hc
          cases hc
          have := ok c List.mem_cons_self hs
          cases c
          simp_all
        | dummy => rw [hs] at hc; cases hc; rfl
        | pin q => rw [hs] at hc; cases hc; rfl

theorem base_kinds {cs cs' : List Cell}
    (h : (cs.map fun c => (c.name, c.cls)) = cs'.map fun c => (c.name, c.cls)) :
    (cs.map fun c => { c with slot := c.base }) = cs'.map fun c => { c with slot := c.base } := by
  induction cs generalizing cs' with
  | nil =>
    cases cs' with
    | nil => rfl
    | cons c cs => cases h
  | cons c cs ih =>
    cases cs' with
    | nil => cases h
    | cons c' cs' =>
      rw [List.map_cons, List.map_cons] at h
      obtain ⟨h1, h2⟩ := List.cons.inj h
      rw [List.map_cons, List.map_cons, ih h2]
      congr 1
      obtain ⟨n, k, s⟩ := c
      obtain ⟨n', k', s'⟩ := c'
      cases h1
      rfl

theorem initial_base {cs : List Cell} (h : ∀ c ∈ cs, c.slot = c.base) :
    (cs.map fun c => { c with slot := c.base }) = cs := by
  induction cs with
  | nil => rfl
  | cons c cs ih =>
    rw [List.map_cons, ih fun d hd => h d (List.mem_cons_of_mem _ hd), ← h c List.mem_cons_self]

/-- An absent attribute stays one only if the class has none. -/
theorem connect_absent (r : Rule) (lv : Level) (c : Option Nat) (sigs : List Sig)
    (h : ∀ x ∈ lv.signals, x.slot = x.base) :
    ∀ x ∈ (connect r lv c sigs).lvl.signals, x.slot = .absent → x.base = .absent := by
  have : ∀ (sigs : List Sig) (a : Acc),
      (∀ x ∈ a.lvl.signals, x.slot = .absent → x.base = .absent) →
      ∀ x ∈ (sigs.foldl (connectOne r) a).lvl.signals, x.slot = .absent → x.base = .absent := by
    intro sigs
    induction sigs with
    | nil => intro a h; exact h
    | cons s ss ih =>
      intro a h
      rw [List.foldl_cons]
      apply ih
      unfold connectOne
      split
      · exact h
      · split
        · rename_i p _
          cases p with
          | sig n =>
            intro x hx hs
            obtain ⟨y, hy, rfl⟩ := List.mem_map.1 hx
            split at hs
            · cases hs
            · rename_i hne
              simp only [if_neg hne]
              exact h y hy hs
          | elem l i => exact h
        · exact h
  apply this
  intro x hx hs
  rw [← h x hx]
  exact hs

theorem missing_absent (access : Bool) (con : List Name) (lv : Level)
    (h : ∀ x ∈ lv.signals, x.slot = .absent → x.base = .absent) :
    ∀ x ∈ (missing access con lv).signals, x.slot = .absent → x.base = .absent := by
  unfold missing
  split
  · intro x hx hs
    obtain ⟨y, hy, rfl⟩ := List.mem_map.1 hx
    split at hs
    · rename_i hc
      simp only [if_pos hc]
      exact h y hy hs
    · cases hs
  · exact h

mutual
/-- Without lists, unbinding a bound bundle gives back the slots of the bundle as constructed. -/
theorem unbind_bind_slots (access : Bool) : ∀ (b : Bundle) (sigs : List Sig)
    (u : Bundle × List Nat), b.NoLists → b.Initial →
    (b.bindList access sigs).1.unbindAll = some u → ∀ is p, u.1.slotAt is p = b.slotAt is p
  | .mk r lv c ks, sigs, u, hn, hi, h => by
    rw [Bundle.bindList] at h
    simp only [Bundle.unbindAll] at h
    cases hs : unbindCells (missing access (connect r lv c sigs).connected
      (connect r lv c sigs).lvl).signals with
    | none => rw [hs] at h; cases h
    | some s =>
      rw [hs, Option.bind_some] at h
      cases hk : (Kids.bindList access ks (connect r lv c sigs).matching
        (connect r lv c sigs).clock).1.unbindAll with
      | none => rw [hk] at h; cases h
      | some k =>
        rw [hk] at h
        have h := Option.some.inj h
        subst h
        intro is p
        cases is with
        | nil =>
          show Level.slot { signals := s.1
                            lists := (missing access (connect r lv c sigs).connected
                              (connect r lv c sigs).lvl).lists } p = lv.slot p
          have h1 := unbindCells_base hs (missing_absent _ _ _ (connect_absent r lv c sigs (initial_slot hi.1)))
          rw [base_kinds ((missing_kinds _ _ _).trans (connect_kinds r lv c sigs)),
            initial_base (initial_slot hi.1)] at h1
          have h2 : (missing access (connect r lv c sigs).connected
              (connect r lv c sigs).lvl).lists = [] := by
            have := (missing_shape access (connect r lv c sigs).connected
              (connect r lv c sigs).lvl).trans (connect_same r rfl c c sigs).2.2.2.1
            simp only [Level.shape, hn.1, List.map_nil, Prod.mk.injEq] at this
            exact List.map_eq_nil_iff.1 this.2
          cases p with
          | sig n => simp only [Level.slot, h1]
          | elem l i => simp only [Level.slot, h2, hn.1]
        | cons i is => exact kidsUnbind_bind_slots access ks _ _ k hn.2 hi.2 hk i is p
theorem kidsUnbind_bind_slots (access : Bool) : ∀ (ks : Kids) (sigs : List Sig) (c : Option Nat)
    (u : Kids × List Nat), ks.NoLists → ks.Initial →
    (ks.bindList access sigs c).1.unbindAll = some u → ∀ i is p,
    ((u.1.get i).bind fun k => k.slotAt is p) = ((ks.get i).bind fun k => k.slotAt is p)
  | .nil, sigs, c, u, _, _, h => by
    rw [Kids.bindList, Kids.unbindAll] at h
    cases h
    intro i is p
    rfl
  | .cons (.elem n j) b ks, sigs, c, u, hn, _, h => by
    obtain ⟨⟨m, hm⟩, _⟩ := hn
    cases hm
  | .cons (.sub n) b ks, sigs, c, u, hn, hi, h => by
    rw [Kids.bindList] at h
    simp only [Kids.unbindAll] at h
    cases hb : (b.bindList access sigs).1.unbindAll with
    | none => rw [hb] at h; cases h
    | some rb =>
      rw [hb, Option.bind_some] at h
      cases hk : (Kids.bindList access ks (b.bindList access sigs).2.1
        (parentClock (.sub n) (b.bindList access sigs).1.clock c)).1.unbindAll with
      | none => rw [hk] at h; cases h
      | some rk =>
        rw [hk] at h
        have h := Option.some.inj h
        subst h
        intro i is p
        cases i with
        | zero => exact unbind_bind_slots access b sigs rb hn.2.1 hi.1 hb is p
        | succ i => exact kidsUnbind_bind_slots access ks _ _ rk hn.2.2 hi.2 hk i is p
end

end Toffee.Bundle
