import Verif.Lemmas.Bundle

/-!
Binding a bundle to a DUT (C34, C35, C36, C37, C46).

The naming rules are specified by `Turns`, the slot a name denotes by `Denotes`; neither refers to
the functions of the model.  Slots are addressed by the list of child indices from the root and a
position in the level found there.
-/

namespace Toffee.Bundle

/-! ### Specification -/

/-- The rule turns the name `n` into the name `m`: `n` is the prefix followed by `m`; the regular
expression yields `m`; `(m, n)` is the first entry of the dictionary with the value `n`. -/
inductive Turns : Rule → Name → Name → Prop
  | pre (p m : Name) : Turns (.pre p) (p ++ m) m
  | regex (pat : Name) (f : Name → Option Name) {n m : Name} : f n = some m → Turns (.regex pat f) n m
  | dict (l₁ l₂ : List (Name × Name)) {n : Name} (m : Name) :
      n ∉ l₁.map Prod.snd → Turns (.dict (l₁ ++ (m, n) :: l₂)) n m

/-- Some slot of the tree claims the name. -/
inductive Claims : Bundle → Name → Prop
  | here {b : Bundle} {n m : Name} {p : Pos} :
      Turns b.rule n m → b.lvl.nameOf p = some m → Claims b n
  | inside {b k : Bundle} {n m : Name} {i : Nat} :
      Turns b.rule n m → b.kids.get i = some k → Claims k m → Claims b n

/-- The name `n` denotes the slot `p` of the bundle reached by `is`: the rules along the path turn
`n` into the name of the slot, no enclosing level has a slot of its own for it and no earlier sibling
claims it. -/
inductive Denotes : Bundle → Name → List Nat → Pos → Prop
  | here {b : Bundle} {n m : Name} {p : Pos} :
      Turns b.rule n m → b.lvl.nameOf p = some m → Denotes b n [] p
  | inside {b k : Bundle} {n m : Name} {i : Nat} {is : List Nat} {p : Pos} :
      Turns b.rule n m → (∀ q, b.lvl.nameOf q ≠ some m) → b.kids.get i = some k →
      (∀ j k', j < i → b.kids.get j = some k' → ¬ Claims k' m) →
      Denotes k m is p → Denotes b n (i :: is) p

mutual
/-- No slot holds a pin (a bundle that has not been bound). -/
def Bundle.Fresh : Bundle → Prop
  | .mk _ lv _ ks => (∀ p q, lv.slot p ≠ some (.pin q)) ∧ Kids.Fresh ks
def Kids.Fresh : Kids → Prop
  | .nil => True
  | .cons _ b ks => Bundle.Fresh b ∧ Kids.Fresh ks
end

/-- A rule under which different names stay different: a prefix, or a dictionary (whose keys are
pairwise distinct, as in Python). -/
def Rule.Plain : Rule → Prop
  | .pre _ => True
  | .regex _ _ => False
  | .dict d => (d.map Prod.fst).Nodup

mutual
/-- All rules of the tree are prefixes or dictionaries. -/
def Bundle.Plain : Bundle → Prop
  | .mk r _ _ ks => r.Plain ∧ Kids.Plain ks
def Kids.Plain : Kids → Prop
  | .nil => True
  | .cons _ b ks => Bundle.Plain b ∧ Kids.Plain ks
end

theorem nodup_map_inj {α β : Type} (f : α → β) {l : List α} (hnd : (l.map f).Nodup) {x y : α}
    (hx : x ∈ l) (hy : y ∈ l) (h : f x = f y) : x = y := by
  induction l with
  | nil => cases hx
  | cons z zs ih =>
    rw [List.map_cons, List.nodup_cons] at hnd
    rcases List.mem_cons.1 hx with e1 | h1 <;> rcases List.mem_cons.1 hy with e2 | h2
    · exact e1.trans e2.symm
    · exact absurd (List.mem_map.2 ⟨_, h2, by rw [← h, e1]⟩) hnd.1
    · exact absurd (List.mem_map.2 ⟨_, h1, by rw [h, e2]⟩) hnd.1
    · exact ih hnd.2 h1 h2

/-! ### The specification agrees with the routes -/

theorem turns_iff (r : Rule) (n m : Name) : Turns r n m ↔ r.strip n = some m := by
  constructor
  · intro h
    cases h with
    | pre p m => simp [Rule.strip]
    | regex pat f h => exact h
    | dict l₁ l₂ m h =>
      simp only [Rule.strip, List.find?_append]
      rw [List.find?_eq_none.2]
      · simp
      · intro x hx
        simp only [beq_iff_eq]
        intro e
        exact h (e ▸ List.mem_map_of_mem hx)
  · intro h
    cases r with
    | pre p =>
      simp only [Rule.strip] at h
      split at h
      · rename_i hp
        have h := Option.some.inj h
        obtain ⟨t, rfl⟩ := List.isPrefixOf_iff_prefix.1 hp
        rw [List.drop_left] at h
        subst h
        exact .pre p t
      · cases h
    | regex pat f => exact .regex pat f h
    | dict d =>
      simp only [Rule.strip] at h
      cases hf : d.find? (fun kv => kv.2 == n) with
      | none => rw [hf] at h; cases h
      | some kv =>
        rw [hf] at h
        have h := Option.some.inj h
        obtain ⟨hkv, l₁, l₂, rfl, hl⟩ := List.find?_eq_some_iff_append.1 hf
        have hkv : kv.2 = n := by simpa using hkv
        obtain ⟨k, v⟩ := kv
        have h : k = m := h
        have hkv : v = n := hkv
        subst h
        subst hkv
        refine .dict l₁ l₂ k ?_
        intro hm
        obtain ⟨x, hx, he⟩ := List.mem_map.1 hm
        have := hl x hx
        simp [he] at this

theorem find_none_iff {lv : Level} (hd : lv.names.Nodup) (m : Name) :
    lv.find m = none ↔ ∀ q, lv.nameOf q ≠ some m := by
  constructor
  · intro h q hq
    rw [Level.find_of_name hd hq] at h
    cases h
  · intro h
    cases hf : lv.find m with
    | none => rfl
    | some q => exact absurd (Level.find_name hf) (h q)

theorem find_some_iff {lv : Level} (hd : lv.names.Nodup) (m : Name) (p : Pos) :
    lv.find m = some p ↔ lv.nameOf p = some m :=
  ⟨Level.find_name, Level.find_of_name hd⟩

theorem Kids.distinct_get {ks : Kids} (h : ks.Distinct) {i : Nat} {k : Bundle}
    (hk : ks.get i = some k) : k.Distinct := by
  induction i generalizing ks with
  | zero =>
    cases ks with
    | nil => cases hk
    | cons l b ks => cases hk; exact h.1
  | succ i ih =>
    cases ks with
    | nil => cases hk
    | cons l b ks => exact ih h.2 hk

theorem Kids.fresh_get {ks : Kids} (h : ks.Fresh) {i : Nat} {k : Bundle}
    (hk : ks.get i = some k) : k.Fresh := by
  induction i generalizing ks with
  | zero =>
    cases ks with
    | nil => cases hk
    | cons l b ks => cases hk; exact h.1
  | succ i ih =>
    cases ks with
    | nil => cases hk
    | cons l b ks => exact ih h.2 hk

theorem Kids.plain_get {ks : Kids} (h : ks.Plain) {i : Nat} {k : Bundle}
    (hk : ks.get i = some k) : k.Plain := by
  induction i generalizing ks with
  | zero =>
    cases ks with
    | nil => cases hk
    | cons l b ks => cases hk; exact h.1
  | succ i ih =>
    cases ks with
    | nil => cases hk
    | cons l b ks => exact ih h.2 hk

/-- The route through the children: the first child that accepts the name. -/
theorem kidsRoute_some_iff (ks : Kids) (n : Name) (i : Nat) (is : List Nat) (p : Pos) :
    ks.route n = some (i, is, p) ↔
      (∃ k, ks.get i = some k ∧ k.route n = some (is, p)) ∧
        ∀ j k', j < i → ks.get j = some k' → k'.route n = none := by
  induction i generalizing ks with
  | zero =>
    cases ks with
    | nil => simp [Kids.route, Kids.get]
    | cons l b ks =>
      rw [kidsRoute_cons]
      simp only [Kids.get, Option.some.injEq, exists_eq_left']
      cases b.route n with
      | some x => obtain ⟨x1, x2⟩ := x; simp
      | none => cases ks.route n <;> simp
  | succ i ih =>
    cases ks with
    | nil => simp [Kids.route, Kids.get]
    | cons l b ks =>
      rw [kidsRoute_cons]
      cases hb : b.route n with
      | some x =>
        simp only [Option.some.injEq, Prod.mk.injEq]
        constructor
        · rintro ⟨h, _⟩; cases h
        · rintro ⟨_, h⟩
          have := h 0 b (Nat.succ_pos _) rfl
          rw [hb] at this
          cases this
      | none =>
        have hs : (ks.route n).map (fun x => (x.1 + 1, x.2.1, x.2.2)) = some (i + 1, is, p) ↔
            ks.route n = some (i, is, p) := by
          cases ks.route n with
          | none => simp
          | some x => obtain ⟨x1, x2, x3⟩ := x; simp
        simp only [hs, ih]
        constructor
        · rintro ⟨h1, h2⟩
          refine ⟨h1, ?_⟩
          intro j k' hj hk
          cases j with
          | zero => cases hk; exact hb
          | succ j => exact h2 j k' (Nat.lt_of_succ_lt_succ hj) hk
        · rintro ⟨h1, h2⟩
          refine ⟨h1, ?_⟩
          intro j k' hj hk
          exact h2 (j + 1) k' (Nat.succ_lt_succ hj) hk

theorem kidsRoute_none_iff (ks : Kids) (n : Name) :
    ks.route n = none ↔ ∀ j k', ks.get j = some k' → k'.route n = none := by
  constructor
  · intro h j
    induction j generalizing ks with
    | zero =>
      intro k' hk
      cases ks with
      | nil => cases hk
      | cons l b ks =>
        cases hk
        rw [kidsRoute_cons] at h
        cases hb : k'.route n with
        | none => rfl
        | some x => rw [hb] at h; cases h
    | succ j ih =>
      intro k' hk
      cases ks with
      | nil => cases hk
      | cons l b ks =>
        rw [kidsRoute_cons] at h
        cases hb : b.route n with
        | none =>
          rw [hb] at h
          refine ih ks ?_ k' hk
          cases hr : ks.route n with
          | none => rfl
          | some x => rw [hr] at h; cases h
        | some x => rw [hb] at h; cases h
  · intro h
    cases hr : ks.route n with
    | none => rfl
    | some x =>
      obtain ⟨i, is, p⟩ := x
      obtain ⟨⟨k, hk, hk2⟩, _⟩ := (kidsRoute_some_iff ks n i is p).1 hr
      rw [h i k hk] at hk2
      cases hk2

theorem claims_iff_route : ∀ (is : List Nat) (b : Bundle), b.Distinct → ∀ n p,
    b.route n = some (is, p) → Claims b n := by
  intro is
  induction is with
  | nil =>
    intro b hb n p h
    obtain ⟨r, lv, c, ks⟩ := b
    rw [route_mk] at h
    cases hm : r.strip n with
    | none => rw [hm] at h; cases h
    | some m =>
      rw [hm] at h
      simp only [] at h
      cases hf : lv.find m with
      | some q =>
        exact .here (b := .mk r lv c ks) ((turns_iff r n m).2 hm) (Level.find_name hf)
      | none =>
        rw [hf] at h
        cases hr : ks.route m with
        | none => rw [hr] at h; cases h
        | some x => rw [hr] at h; simp at h
  | cons i is ih =>
    intro b hb n p h
    obtain ⟨r, lv, c, ks⟩ := b
    rw [route_mk] at h
    cases hm : r.strip n with
    | none => rw [hm] at h; cases h
    | some m =>
      rw [hm] at h
      simp only [] at h
      cases hf : lv.find m with
      | some q => rw [hf] at h; simp at h
      | none =>
        rw [hf] at h
        cases hr : ks.route m with
        | none => rw [hr] at h; cases h
        | some x =>
          obtain ⟨x1, x2, x3⟩ := x
          rw [hr] at h
          simp only [Option.map_some, Option.some.injEq, Prod.mk.injEq, List.cons.injEq] at h
          obtain ⟨⟨rfl, rfl⟩, rfl⟩ := h
          obtain ⟨⟨k, hk, hk2⟩, _⟩ := (kidsRoute_some_iff _ _ _ _ _).1 hr
          exact .inside (b := .mk r lv c ks) ((turns_iff r n m).2 hm) hk
            (ih k (Kids.distinct_get hb.2 hk) m x3 hk2)

theorem route_of_claims {b : Bundle} {n : Name} (h : Claims b n) (hb : b.Distinct) :
    b.route n ≠ none := by
  induction h with
  | @here b n m p ht hn =>
    obtain ⟨r, lv, c, ks⟩ := b
    have hm := (turns_iff _ _ _).1 ht
    have hf := Level.find_of_name hb.1 hn
    rw [route_mk]
    have hm : r.strip n = some m := hm
    have hf : lv.find m = some p := hf
    simp [hm, hf]
  | @inside b k n m i ht hk _ ih =>
    obtain ⟨r, lv, c, ks⟩ := b
    have hm : r.strip n = some m := (turns_iff _ _ _).1 ht
    have hk : ks.get i = some k := hk
    have ih := ih (Kids.distinct_get hb.2 hk)
    rw [route_mk]
    simp only [hm]
    cases hf : lv.find m with
    | some q => simp
    | none =>
      cases hr : ks.route m with
      | some x => simp
      | none => exact absurd ((kidsRoute_none_iff ks m).1 hr i k hk) ih

theorem claims_iff {b : Bundle} (hb : b.Distinct) (n : Name) : Claims b n ↔ (b.route n).isSome := by
  constructor
  · intro h
    have := route_of_claims h hb
    cases hr : b.route n with
    | none => exact absurd hr this
    | some x => rfl
  · intro h
    cases hr : b.route n with
    | none => rw [hr] at h; cases h
    | some x => exact claims_iff_route x.1 b hb n x.2 hr

theorem denotes_iff {b : Bundle} (hb : b.Distinct) (n : Name) (is : List Nat) (p : Pos) :
    Denotes b n is p ↔ b.route n = some (is, p) := by
  induction is generalizing b n with
  | nil =>
    obtain ⟨r, lv, c, ks⟩ := b
    constructor
    · rintro (⟨ht, hn⟩ | _)
      have hm : r.strip n = some _ := (turns_iff _ _ _).1 ht
      have hf : lv.find _ = some p := Level.find_of_name hb.1 hn
      rw [route_mk]
      simp [hm, hf]
    · intro h
      rw [route_mk] at h
      cases hm : r.strip n with
      | none => rw [hm] at h; cases h
      | some m =>
        rw [hm] at h
        simp only [] at h
        cases hf : lv.find m with
        | some q =>
          rw [hf] at h
          simp only [Option.some.injEq, Prod.mk.injEq, true_and] at h
          subst h
          exact .here (b := .mk r lv c ks) ((turns_iff r n m).2 hm) (Level.find_name hf)
        | none =>
          rw [hf] at h
          cases hr : ks.route m with
          | none => rw [hr] at h; cases h
          | some x => rw [hr] at h; simp at h
  | cons i is ih =>
    obtain ⟨r, lv, c, ks⟩ := b
    constructor
    · intro h
      cases h with
      | inside ht hq hk hj hd =>
        rename_i k m
        have hm : r.strip n = some m := (turns_iff _ _ _).1 ht
        have hf : lv.find m = none := (find_none_iff hb.1 m).2 hq
        have hk : ks.get i = some k := hk
        have hr : ks.route m = some (i, is, p) := by
          rw [kidsRoute_some_iff]
          refine ⟨⟨k, hk, (ih (Kids.distinct_get hb.2 hk) m).1 hd⟩, ?_⟩
          intro j k' hlt hk'
          cases hr : k'.route m with
          | none => rfl
          | some x =>
            refine absurd ?_ (hj j k' hlt hk')
            exact (claims_iff (Kids.distinct_get hb.2 hk') m).2 (by rw [hr]; rfl)
        rw [route_mk]
        simp [hm, hf, hr]
    · intro h
      rw [route_mk] at h
      cases hm : r.strip n with
      | none => rw [hm] at h; cases h
      | some m =>
        rw [hm] at h
        simp only [] at h
        cases hf : lv.find m with
        | some q => rw [hf] at h; simp at h
        | none =>
          rw [hf] at h
          cases hr : ks.route m with
          | none => rw [hr] at h; cases h
          | some x =>
            obtain ⟨x1, x2, x3⟩ := x
            rw [hr] at h
            simp only [Option.map_some, Option.some.injEq, Prod.mk.injEq, List.cons.injEq] at h
            obtain ⟨⟨rfl, rfl⟩, rfl⟩ := h
            obtain ⟨⟨k, hk, hk2⟩, hj⟩ := (kidsRoute_some_iff _ _ _ _ _).1 hr
            refine .inside (b := .mk r lv c ks) ((turns_iff r n m).2 hm)
              ((find_none_iff hb.1 m).1 hf) hk ?_ ((ih (Kids.distinct_get hb.2 hk) m).2 hk2)
            intro j k' hlt hk' hcl
            have := (claims_iff (Kids.distinct_get hb.2 hk') m).1 hcl
            rw [hj j k' hlt hk'] at this
            cases this

/-- A name denotes at most one slot. -/
theorem denotes_unique {b : Bundle} (hb : b.Distinct) {n : Name} {is is' : List Nat} {p p' : Pos}
    (h : Denotes b n is p) (h' : Denotes b n is' p') : is = is' ∧ p = p' := by
  have h1 := (denotes_iff hb n is p).1 h
  have h2 := (denotes_iff hb n is' p').1 h'
  rw [h1] at h2
  simpa using h2

theorem turns_inj {r : Rule} (hr : r.Plain) {n n' m : Name} (h : Turns r n m) (h' : Turns r n' m) :
    n = n' := by
  cases h with
  | pre p m => cases h'; rfl
  | regex pat f h => exact hr.elim
  | dict l₁ l₂ m h =>
    generalize hd : (l₁ ++ (m, n) :: l₂) = d at *
    cases h' with
    | dict l₃ l₄ _ h' =>
      have hnd : ((l₁ ++ (m, n) :: l₂).map Prod.fst).Nodup := by rw [hd]; exact hr
      have h1 : (m, n) ∈ l₁ ++ (m, n) :: l₂ := by simp
      have h2 : (m, n') ∈ l₁ ++ (m, n) :: l₂ := by rw [hd]; simp
      have key : ∀ (l : List (Name × Name)), (l.map Prod.fst).Nodup → (m, n) ∈ l → (m, n') ∈ l →
          n = n' := by
        intro l
        induction l with
        | nil => intro _ h; cases h
        | cons x xs ih =>
          intro hnd h1 h2
          rw [List.map_cons, List.nodup_cons] at hnd
          rcases List.mem_cons.1 h1 with h1 | h1 <;> rcases List.mem_cons.1 h2 with h2 | h2
          · have := h1.trans h2.symm
            simpa using this
          · exact absurd (List.mem_map.2 ⟨_, h2, by rw [← h1]⟩) hnd.1
          · exact absurd (List.mem_map.2 ⟨_, h1, by rw [← h2]⟩) hnd.1
          · exact ih hnd.2 h1 h2
      exact key _ hnd h1 h2

/-- With prefixes and dictionaries only, a slot is denoted by at most one name. -/
theorem denotes_inj {b : Bundle} (hp : b.Plain) {n n' : Name} {is : List Nat} {p : Pos}
    (h : Denotes b n is p) (h' : Denotes b n' is p) : n = n' := by
  induction is generalizing b n n' with
  | nil =>
    cases h with
    | here ht hn =>
      cases h' with
      | here ht' hn' =>
        rw [hn] at hn'
        cases hn'
        obtain ⟨r, lv, c, ks⟩ := b
        exact turns_inj hp.1 ht ht'
  | cons i is ih =>
    cases h with
    | inside ht _ hk _ hd =>
      cases h' with
      | inside ht' _ hk' _ hd' =>
        rw [hk] at hk'
        cases hk'
        obtain ⟨r, lv, c, ks⟩ := b
        have := ih (Kids.plain_get hp.2 hk) hd hd'
        subst this
        exact turns_inj hp.1 ht ht'

theorem fresh_slotAt {b : Bundle} (hf : b.Fresh) (is : List Nat) (p : Pos) (q : Nat) :
    b.slotAt is p ≠ some (.pin q) := by
  induction is generalizing b with
  | nil =>
    obtain ⟨r, lv, c, ks⟩ := b
    exact hf.1 p q
  | cons i is ih =>
    obtain ⟨r, lv, c, ks⟩ := b
    show (ks.get i).bind _ ≠ _
    cases hk : ks.get i with
    | none => simp
    | some k => exact ih (Kids.fresh_get hf.2 hk)

theorem denotes_slot {b : Bundle} {n : Name} {is : List Nat} {p : Pos} (h : Denotes b n is p) :
    ∃ s, b.slotAt is p = some s := by
  induction h with
  | here _ hn => exact slot_of_nameOf hn
  | @inside b k n m i is p _ _ hk _ _ ih =>
    obtain ⟨s, hs⟩ := ih
    refine ⟨s, ?_⟩
    show (b.kids.get i).bind _ = _
    rw [hk]
    exact hs

theorem dut_orgs (dut : List DutSig) (hd : (dut.map DutSig.name).Nodup) :
    ((dutSignals dut).map Sig.org).Nodup := by
  unfold dutSignals
  rw [List.map_map]
  exact hd

/-- `bind` in terms of the names, for the DUT signals themselves. -/
theorem bind_slots (access : Bool) (b : Bundle) (dut : List DutSig) (hb : b.Distinct)
    (hd : (dut.map DutSig.name).Nodup) (is : List Nat) (p : Pos) :
    (∃ d ∈ dut, Denotes b d.name is p ∧ (b.bind access dut).1.slotAt is p = some (.pin d.pin)) ∨
    ((∀ d ∈ dut, ¬ Denotes b d.name is p) ∧
      (b.bind access dut).1.slotAt is p = idle access (b.slotAt is p)) := by
  have h := (bindList_spec access b (dutSignals dut) hb (dut_orgs dut hd)).slot is p
  rcases h with ⟨s, hs, h1, h2⟩ | ⟨h1, h2⟩
  · obtain ⟨d, hd, rfl⟩ := List.mem_map.1 hs
    exact .inl ⟨d, hd, (denotes_iff hb _ _ _).2 h1, h2⟩
  · refine .inr ⟨?_, h2⟩
    intro d hd hden
    exact h1 _ (List.mem_map_of_mem hd) ((denotes_iff hb _ _ _).1 hden)

/-! ### C34 -/

/-- **C34.** After `bind`, a slot is connected to a pin exactly if some DUT signal's name denotes it
(prefix/dict/regex rules applied along the path, the first claimant winning): if one does, the slot
holds the pin of a DUT signal whose name denotes it; if none does, it is left unconnected — a dummy
signal, or whatever it was when unconnected signals may not be accessed. -/
theorem C34_bind_connects (access : Bool) (b : Bundle) (dut : List DutSig) (hb : b.Distinct)
    (hd : (dut.map DutSig.name).Nodup) (is : List Nat) (p : Pos) :
    ((∃ d ∈ dut, Denotes b d.name is p) →
      ∃ d ∈ dut, Denotes b d.name is p ∧
        (b.bind access dut).1.slotAt is p = some (.pin d.pin)) ∧
    ((¬ ∃ d ∈ dut, Denotes b d.name is p) →
      (b.bind access dut).1.slotAt is p =
        if access then (b.slotAt is p).map (fun _ => .dummy) else b.slotAt is p) := by
  rcases bind_slots access b dut hb hd is p with ⟨d, hd, h1, h2⟩ | ⟨h1, h2⟩
  · exact ⟨fun _ => ⟨d, hd, h1, h2⟩, fun h => absurd ⟨d, hd, h1⟩ h⟩
  · exact ⟨fun ⟨d, hd, h⟩ => absurd h (h1 d hd), fun _ => h2⟩

/-- **C34**, with prefix and dictionary rules: the slot holds the pin `q` if and only if `q` is the
pin of the DUT signal whose name denotes the slot. -/
theorem C34_bind_exact (access : Bool) (b : Bundle) (dut : List DutSig) (hb : b.Distinct)
    (hf : b.Fresh) (hp : b.Plain) (hd : (dut.map DutSig.name).Nodup) (is : List Nat) (p : Pos)
    (q : Nat) :
    (b.bind access dut).1.slotAt is p = some (.pin q) ↔
      ∃ d ∈ dut, d.pin = q ∧ Denotes b d.name is p := by
  rcases bind_slots access b dut hb hd is p with ⟨d, hdm, h1, h2⟩ | ⟨h1, h2⟩
  · rw [h2]
    constructor
    · intro h
      have h : Slot.pin d.pin = .pin q := Option.some.inj h
      exact ⟨d, hdm, by simpa using h, h1⟩
    · rintro ⟨d', hdm', rfl, h'⟩
      have hn := denotes_inj hp h1 h'
      have : d = d' := by
        exact nodup_map_inj DutSig.name hd hdm hdm' hn
      rw [this]
  · rw [h2]
    constructor
    · intro h
      exfalso
      unfold idle at h
      split at h
      · cases hs : b.slotAt is p with
        | none => rw [hs] at h; cases h
        | some x => rw [hs] at h; cases h
      · exact fresh_slotAt hf is p q h
    · rintro ⟨d, hdm, _, h⟩
      exact absurd h (h1 d hdm)

/-! ### C35 -/

/-- **C35.** After `bind`, no pin is in two different slots. -/
theorem C35_pin_once (access : Bool) (b : Bundle) (dut : List DutSig) (hb : b.Distinct)
    (hf : b.Fresh) (hd : (dut.map DutSig.name).Nodup) (hpin : (dut.map DutSig.pin).Nodup)
    {is is' : List Nat} {p p' : Pos} {q : Nat}
    (h : (b.bind access dut).1.slotAt is p = some (.pin q))
    (h' : (b.bind access dut).1.slotAt is' p' = some (.pin q)) : is = is' ∧ p = p' := by
  have key : ∀ is p, (b.bind access dut).1.slotAt is p = some (.pin q) →
      ∃ d ∈ dut, d.pin = q ∧ Denotes b d.name is p := by
    intro is p h
    rcases bind_slots access b dut hb hd is p with ⟨d, hdm, h1, h2⟩ | ⟨h1, h2⟩
    · rw [h2] at h
      have h : Slot.pin d.pin = .pin q := Option.some.inj h
      exact ⟨d, hdm, by simpa using h, h1⟩
    · exfalso
      rw [h2] at h
      unfold idle at h
      split at h
      · cases hs : b.slotAt is p with
        | none => rw [hs] at h; cases h
        | some x => rw [hs] at h; cases h
      · exact fresh_slotAt hf is p q h
  obtain ⟨d, hdm, e, hden⟩ := key is p h
  obtain ⟨d', hdm', e', hden'⟩ := key is' p' h'
  have hdd : d = d' := by
    exact nodup_map_inj DutSig.pin hpin hdm hdm' (e.trans e'.symm)
  subst hdd
  exact denotes_unique hb hden hden'

/-! ### C36 -/

theorem detectLevel_spec (r : Rule) (lv : Level) (sigs : List Sig)
    (a : List Name × List Sig × List Sig) :
    (sigs.foldl (detectOne r lv) a).2 =
      (a.2.1 ++ sigs.filterMap (pass r lv),
        a.2.2 ++ sigs.filter fun s => (r.strip s.name).isNone) := by
  induction sigs generalizing a with
  | nil => simp
  | cons s ss ih =>
    rw [List.foldl_cons, ih]
    unfold detectOne
    cases hm : r.strip s.name with
    | none => simp [pass, hm]
    | some m =>
      cases hf : lv.find m with
      | none => simp [pass, hm, hf]
      | some p => simp [pass, hm, hf]

mutual
/-- Detection leaves exactly the signals that `bind` leaves unmatched. -/
theorem detect_eq (access : Bool) : ∀ (b : Bundle) (sigs : List Sig),
    b.detect sigs = (b.bindList access sigs).2.1
  | .mk r lv c ks, sigs => by
    rw [Bundle.detect, Bundle.bindList]
    have h1 := detectLevel_spec r lv sigs ([], [], [])
    have h2 := connect_spec r lv sigs { lvl := lv, clock := c } rfl
    have hmat : (connect r lv c sigs).matching = sigs.filterMap (pass r lv) :=
      h2.matching.trans (List.nil_append _)
    have hrem : (connect r lv c sigs).remain = sigs.filter fun s => (r.strip s.name).isNone :=
      h2.remain.trans (List.nil_append _)
    have h1 : (detectLevel r lv sigs).2 = _ := h1
    simp only [hmat, hrem, h1, List.nil_append]
    rw [kidsDetect_eq access ks _ (connect r lv c sigs).clock]
theorem kidsDetect_eq (access : Bool) : ∀ (ks : Kids) (sigs : List Sig) (c : Option Nat),
    ks.detect sigs = (ks.bindList access sigs c).2.1
  | .nil, sigs, c => by rw [Kids.detect, Kids.bindList]
  | .cons l b ks, sigs, c => by
    rw [Kids.detect, Kids.bindList, detect_eq access b sigs]
    exact kidsDetect_eq access ks _ _
end

theorem detect_iff (b : Bundle) (hb : b.Distinct) (n : Name) :
    b.detectConnectivity n = true ↔ (b.route n).isSome := by
  unfold Bundle.detectConnectivity
  rw [detect_eq true]
  have h := (bindList_spec true b [{ name := n, org := n, pin := 0, event := 0 }] hb
    (by simp)).rest
  cases hr : b.route n with
  | none =>
    rw [List.filter_cons_of_pos (by simp [hr])] at h
    have := h.length_eq
    simp only [List.filter_nil, List.length_cons, List.length_nil] at this
    generalize (b.bindList true [{ name := n, org := n, pin := 0, event := 0 }]).2.1 = l at *
    cases l with
    | nil => cases this
    | cons x xs => simp
  | some x =>
    rw [List.filter_cons_of_neg (by simp [hr])] at h
    rw [h.eq_nil]
    simp

/-- **C36.** `detect_connectivity(name)` is `True` iff the name denotes some slot … -/
theorem C36_detect_iff_denotes (b : Bundle) (hb : b.Distinct) (n : Name) :
    b.detectConnectivity n = true ↔ ∃ is p, Denotes b n is p := by
  rw [detect_iff b hb]
  constructor
  · intro h
    cases hr : b.route n with
    | none => rw [hr] at h; cases h
    | some x => exact ⟨x.1, x.2, (denotes_iff hb _ _ _).2 hr⟩
  · rintro ⟨is, p, h⟩
    rw [(denotes_iff hb _ _ _).1 h]
    rfl

/-- … which is the case iff binding the bundle to a DUT with a signal of that name connects it,
whatever other signals the DUT has.  (With regular expressions a later signal denoting the same slot
may then take its place, C34.) -/
theorem C36_detect_iff_connected (access : Bool) (b : Bundle) (dut : List DutSig) (hb : b.Distinct)
    (hd : (dut.map DutSig.name).Nodup) (hpin : (dut.map DutSig.pin).Nodup) {d : DutSig}
    (hm : d ∈ dut) : b.detectConnectivity d.name = true ↔ d.pin ∈ (b.bind access dut).2 := by
  rw [detect_iff b hb]
  have h := (bindList_spec access b (dutSignals dut) hb (dut_orgs dut hd)).log
  show _ ↔ d.pin ∈ (b.bindList access (dutSignals dut)).2.2
  rw [h.mem_iff, List.mem_map]
  constructor
  · intro hr
    refine ⟨_, List.mem_filter.2 ⟨List.mem_map_of_mem hm, hr⟩, rfl⟩
  · rintro ⟨s, hs, he⟩
    obtain ⟨hs1, hs2⟩ := List.mem_filter.1 hs
    obtain ⟨d', hd', rfl⟩ := List.mem_map.1 hs1
    have he : d'.pin = d.pin := he
    rw [nodup_map_inj DutSig.pin hpin hm hd' he.symm]
    exact hs2

/-- **C36** with prefix and dictionary rules: `True` iff after `bind` the pin is in some slot. -/
theorem C36_detect_iff_slot (access : Bool) (b : Bundle) (dut : List DutSig) (hb : b.Distinct)
    (hf : b.Fresh) (hp : b.Plain)
    (hd : (dut.map DutSig.name).Nodup) (hpin : (dut.map DutSig.pin).Nodup) {d : DutSig}
    (hm : d ∈ dut) :
    b.detectConnectivity d.name = true ↔
      ∃ is p, (b.bind access dut).1.slotAt is p = some (.pin d.pin) := by
  rw [C36_detect_iff_denotes b hb]
  constructor
  · rintro ⟨is, p, h⟩
    exact ⟨is, p, (C34_bind_exact access b dut hb hf hp hd is p d.pin).2 ⟨d, hm, rfl, h⟩⟩
  · rintro ⟨is, p, h⟩
    obtain ⟨d', hd', he, h⟩ := (C34_bind_exact access b dut hb hf hp hd is p d.pin).1 h
    rw [nodup_map_inj DutSig.pin hpin hm hd' he.symm]
    exact ⟨is, p, h⟩

/-! ### C37 -/

mutual
/-- All rules of the tree are prefixes. -/
def Bundle.Prefixed : Bundle → Prop
  | .mk r _ _ ks => (∃ p, r = .pre p) ∧ Kids.Prefixed ks
def Kids.Prefixed : Kids → Prop
  | .nil => True
  | .cons _ b ks => Bundle.Prefixed b ∧ Kids.Prefixed ks
end

theorem detectLevel_pre (p : Name) (lv : Level) (sigs : List Sig)
    (a : List Name × List Sig × List Sig) :
    (sigs.foldl (detectOne (.pre p) lv) a).1 = a.1 := by
  induction sigs generalizing a with
  | nil => rfl
  | cons s ss ih =>
    rw [List.foldl_cons, ih]
    unfold detectOne
    cases Rule.strip (.pre p) s.name with
    | none => rfl
    | some m => simp only []; cases lv.find m <;> rfl

theorem pickSpecific_sub (level spec : Name) (sk : Bool) (l : List Sig) (h : l.length ≤ 1) :
    pickSpecific level spec sk l = [] ∨ pickSpecific level spec sk l = l := by
  match l, h with
  | [], _ => cases sk <;> exact .inl rfl
  | [s], _ =>
    cases sk
    · simp only [pickSpecific]
      split <;> simp
    · exact .inr rfl

mutual
/-- A single signal that the tree claims is not left over, whatever the specific slot is. -/
theorem specific_route (spec : Name) : ∀ (b : Bundle) (level : Name) (s : Sig), b.Prefixed →
    ∃ rest, b.detectSpecificList spec level [s] = some rest ∧
      (rest = [] ∨ (rest = [s] ∧ b.route s.name = none))
  | .mk r lv c ks, level, s, hb => by
    obtain ⟨⟨p, rfl⟩, hks⟩ := hb
    rw [Bundle.detectSpecificList]
    have h1 : (detectLevel (.pre p) lv [s]).1 = [] := detectLevel_pre p lv [s] ([], [], [])
    have h2 : (detectLevel (.pre p) lv [s]).2 = _ := detectLevel_spec (.pre p) lv [s] ([], [], [])
    simp only [h1, h2, if_true, List.nil_append]
    rw [route_mk]
    cases hm : Rule.strip (.pre p) s.name with
    | none =>
      have hp : pass (.pre p) lv s = none := by simp [pass, hm]
      rw [List.filterMap_cons_none hp, List.filter_cons_of_pos (by simp [hm]), List.filterMap_nil,
        List.filter_nil, kids_specific_nil spec ks level]
      rw [Option.map_some]
      refine ⟨_, rfl, ?_⟩
      rcases pickSpecific_sub level spec false [s] (by simp) with h | h
      · exact .inl (by rw [h]; rfl)
      · exact .inr ⟨by rw [h]; rfl, rfl⟩
    | some m =>
      rw [List.filter_cons_of_neg (by simp [hm]), List.filter_nil]
      cases hf : lv.find m with
      | some q =>
        have hp : pass (.pre p) lv s = none := by simp [pass, hm, hf]
        rw [List.filterMap_cons_none hp, List.filterMap_nil, kids_specific_nil spec ks level]
        exact ⟨_, rfl, .inl rfl⟩
      | none =>
        have hp : pass (.pre p) lv s = some { s with name := m } := by simp [pass, hm, hf]
        rw [List.filterMap_cons_some hp, List.filterMap_nil]
        obtain ⟨rest, he, hr⟩ := kids_specific_route spec ks level { s with name := m } hks
        rw [he, Option.map_some]
        refine ⟨_, rfl, ?_⟩
        rcases hr with rfl | ⟨rfl, hr⟩
        · exact .inl rfl
        · refine .inr ⟨?_, ?_⟩
          · simp [revert, pickSpecific]
          · have hr : ks.route m = none := hr
            simp only [hf, hr]
            rfl
theorem kids_specific_route (spec : Name) : ∀ (ks : Kids) (level : Name) (s : Sig), ks.Prefixed →
    ∃ rest, ks.detectSpecificList spec level [s] = some rest ∧
      (rest = [] ∨ (rest = [s] ∧ ks.route s.name = none))
  | .nil, level, s, _ => ⟨[s], by rw [Kids.detectSpecificList], .inr ⟨rfl, by rw [Kids.route]⟩⟩
  | .cons l b ks, level, s, hks => by
    rw [Kids.detectSpecificList]
    obtain ⟨rest, he, hr⟩ := specific_route spec b (appended level l.text) s hks.1
    rw [he, Option.bind_some]
    rcases hr with rfl | ⟨rfl, hr⟩
    · rw [kids_specific_nil spec ks level]
      exact ⟨_, rfl, .inl rfl⟩
    · obtain ⟨rest, he, hr'⟩ := kids_specific_route spec ks level s hks.2
      refine ⟨rest, he, ?_⟩
      rcases hr' with h | ⟨h1, h2⟩
      · exact .inl h
      · refine .inr ⟨h1, ?_⟩
        rw [kidsRoute_cons, hr, h2]
        rfl
theorem kids_specific_nil (spec : Name) : ∀ (ks : Kids) (level : Name),
    ks.detectSpecificList spec level [] = some []
  | .nil, level => by rw [Kids.detectSpecificList]
  | .cons l b ks, level => by
    rw [Kids.detectSpecificList, specific_nil spec b, Option.bind_some, kids_specific_nil spec ks]
theorem specific_nil (spec : Name) : ∀ (b : Bundle) (level : Name),
    b.detectSpecificList spec level [] = some []
  | .mk r lv c ks, level => by
    rw [Bundle.detectSpecificList]
    have : detectLevel r lv [] = ([], [], []) := rfl
    simp only [this, if_true]
    rw [kids_specific_nil spec ks level]
    rfl
end

/-- **C37**, the part that holds: with prefix rules, if a DUT signal of that name would be connected
to a slot, then `detect_specific_connectivity` for that slot is `True`.  Missing: the converse (see
`C37_specific_violated`), and the other rules, where the call fails. -/
theorem C37_specific_partial (b : Bundle) (hb : b.Distinct) (hp : b.Prefixed) {n : Name}
    {is : List Nat} {p : Pos} (h : Denotes b n is p) (spec : Name) :
    b.detectSpecific n spec = some true := by
  unfold Bundle.detectSpecific
  obtain ⟨rest, he, hr⟩ := specific_route spec b [] { name := n, org := n, pin := 0, event := 0 } hp
  rw [he]
  rcases hr with rfl | ⟨_, hr⟩
  · rfl
  · have hr : b.route n = none := hr
    rw [(denotes_iff hb _ _ _).1 h] at hr
    cases hr

/-! ### C46 -/

/-- The pin of `d` is in some slot of the bundle after its bind. -/
def InSlot (dut : List DutSig) (ab : Bool × Bundle) (d : DutSig) : Prop :=
  ∃ is p, (ab.2.bind ab.1 dut).1.slotAt is p = some (.pin d.pin)

theorem log_count (access : Bool) (b : Bundle) (dut : List DutSig) (hb : b.Distinct) (hf : b.Fresh)
    (hp : b.Plain) (hd : (dut.map DutSig.name).Nodup) (hpin : (dut.map DutSig.pin).Nodup)
    {d : DutSig} (hm : d ∈ dut) :
    (InSlot dut (access, b) d → (b.bind access dut).2.count d.pin = 1) ∧
      (¬ InSlot dut (access, b) d → (b.bind access dut).2.count d.pin = 0) := by
  have h1 := C36_detect_iff_connected access b dut hb hd hpin hm
  have h2 := C36_detect_iff_slot access b dut hb hf hp hd hpin hm
  have hnd : (b.bind access dut).2.Nodup := by
    have h := (bindList_spec access b (dutSignals dut) hb (dut_orgs dut hd)).log
    refine h.nodup_iff.2 ?_
    refine (List.filter_sublist.map Sig.pin).nodup ?_
    unfold dutSignals
    rw [List.map_map]
    exact hpin
  constructor
  · intro h
    have hmem := h1.1 (h2.2 h)
    have h3 := List.count_pos_iff.2 hmem
    have h4 := List.nodup_iff_count.1 hnd d.pin
    omega
  · intro h
    refine List.count_eq_zero.2 ?_
    intro hmem
    exact h (h2.1 (h1.2 hmem))

theorem counters_split (dut : List DutSig) (bs : List (Bool × Bundle))
    (hbs : ∀ ab ∈ bs, ab.2.Distinct ∧ ab.2.Fresh ∧ ab.2.Plain)
    (hd : (dut.map DutSig.name).Nodup) (hpin : (dut.map DutSig.pin).Nodup) {d : DutSig}
    (hm : d ∈ dut) :
    ((counters dut bs).count d.pin = 0 ↔ ∀ ab ∈ bs, ¬ InSlot dut ab d) ∧
      (1 < (counters dut bs).count d.pin ↔
        ∃ i j, ∃ hi : i < bs.length, ∃ hj : j < bs.length, i < j ∧
          InSlot dut bs[i] d ∧ InSlot dut bs[j] d) := by
  induction bs with
  | nil => simp [counters]
  | cons ab bs ih =>
    obtain ⟨h0, h1⟩ := ih fun x hx => hbs x (List.mem_cons_of_mem _ hx)
    obtain ⟨k1, k2, k3⟩ := hbs ab List.mem_cons_self
    have hc : (counters dut (ab :: bs)).count d.pin =
        (ab.2.bind ab.1 dut).2.count d.pin + (counters dut bs).count d.pin := by
      unfold counters
      rw [List.flatMap_cons, List.count_append]
    obtain ⟨ha, hn⟩ := log_count ab.1 ab.2 dut k1 k2 k3 hd hpin hm
    have hex : 0 < (counters dut bs).count d.pin ↔ ∃ j, ∃ hj : j < bs.length, InSlot dut bs[j] d := by
      constructor
      · intro h
        apply Classical.byContradiction
        intro hno
        have := h0.2 (fun ab hab hin => by
          obtain ⟨j, hj, rfl⟩ := List.mem_iff_getElem.1 hab
          exact hno ⟨j, hj, hin⟩)
        omega
      · rintro ⟨j, hj, hin⟩
        apply Nat.pos_of_ne_zero
        intro h
        exact h0.1 h _ (List.getElem_mem hj) hin
    by_cases hin : InSlot dut ab d
    · have h2 := ha hin
      rw [hc, h2]
      constructor
      · constructor
        · intro h; omega
        · intro h; exact absurd hin (h ab List.mem_cons_self)
      · constructor
        · intro h
          obtain ⟨j, hj, hj2⟩ := hex.1 (by omega)
          exact ⟨0, j + 1, by simp, by simpa using hj, Nat.succ_pos _, hin, by simpa using hj2⟩
        · rintro ⟨i, j, hi, hj, hlt, h3, h4⟩
          have : 0 < (counters dut bs).count d.pin := by
            cases j with
            | zero => omega
            | succ j => exact hex.2 ⟨j, by simpa using hj, by simpa using h4⟩
          omega
    · have h2 := hn hin
      rw [hc, h2, Nat.zero_add]
      constructor
      · rw [h0]
        simp [hin]
      · rw [h1]
        constructor
        · rintro ⟨i, j, hi, hj, hlt, h3, h4⟩
          exact ⟨i + 1, j + 1, by simpa using hi, by simpa using hj, by omega, by simpa using h3,
            by simpa using h4⟩
        · rintro ⟨i, j, hi, hj, hlt, h3, h4⟩
          cases i with
          | zero => exact absurd h3 hin
          | succ i =>
            cases j with
            | zero => omega
            | succ j =>
              exact ⟨i, j, by simpa using hi, by simpa using hj, by omega, by simpa using h3,
                by simpa using h4⟩

/-- **C46**, for prefix and dictionary rules: after any sequence of first binds to one DUT,
`detect_unconnected_signals` lists exactly the signals that are in no slot of any of the bundles.
Missing: regular expressions, see `C46_counting_violated`. -/
theorem C46_unconnected_partial (dut : List DutSig) (bs : List (Bool × Bundle))
    (hbs : ∀ ab ∈ bs, ab.2.Distinct ∧ ab.2.Fresh ∧ ab.2.Plain)
    (hd : (dut.map DutSig.name).Nodup) (hpin : (dut.map DutSig.pin).Nodup) {d : DutSig}
    (hm : d ∈ dut) :
    d.name ∈ detectUnconnected dut (counters dut bs) ↔ ∀ ab ∈ bs, ¬ InSlot dut ab d := by
  rw [← (counters_split dut bs hbs hd hpin hm).1]
  unfold detectUnconnected
  rw [List.mem_map]
  constructor
  · rintro ⟨d', hd', he⟩
    obtain ⟨h1, h2⟩ := List.mem_filter.1 hd'
    rw [← nodup_map_inj DutSig.name hd h1 hm he]
    simpa using h2
  · intro h
    exact ⟨d, List.mem_filter.2 ⟨hm, by simpa using h⟩, rfl⟩

/-- **C46**, for prefix and dictionary rules: `detect_multiple_connections` lists exactly the signals
in slots of at least two of the bundles (inside one bundle a signal is in at most one slot, C35).
Missing: regular expressions, see `C46_counting_violated`. -/
theorem C46_multiple_partial (dut : List DutSig) (bs : List (Bool × Bundle))
    (hbs : ∀ ab ∈ bs, ab.2.Distinct ∧ ab.2.Fresh ∧ ab.2.Plain)
    (hd : (dut.map DutSig.name).Nodup) (hpin : (dut.map DutSig.pin).Nodup) {d : DutSig}
    (hm : d ∈ dut) :
    d.name ∈ detectMultiple dut (counters dut bs) ↔
      ∃ i j, ∃ hi : i < bs.length, ∃ hj : j < bs.length, i < j ∧
        InSlot dut bs[i] d ∧ InSlot dut bs[j] d := by
  rw [← (counters_split dut bs hbs hd hpin hm).2]
  unfold detectMultiple
  rw [List.mem_map]
  constructor
  · rintro ⟨d', hd', he⟩
    obtain ⟨h1, h2⟩ := List.mem_filter.1 hd'
    rw [← nodup_map_inj DutSig.name hd h1 hm he]
    simpa using h2
  · intro h
    exact ⟨d, List.mem_filter.2 ⟨hm, by simpa using h⟩, rfl⟩

/-! ### Concrete cases -/

/-- A bundle with two signals, a signal list, a sub-bundle and one bundle-list element. -/
def demoBundle : Bundle :=
  .mk (.pre "io_".toList)
    { signals := [⟨"a".toList, true, .unconnected⟩, ⟨"b".toList, false, .absent⟩]
      lists := [("x".toList, [("x_0".toList, .unconnected), ("x_1".toList, .unconnected)])] }
    none
    (.cons (.sub "c".toList)
      (.mk (.dict [("u".toList, "c_p".toList), ("w".toList, "c_q".toList)])
        { signals := [⟨"u".toList, false, .absent⟩, ⟨"w".toList, false, .absent⟩], lists := [] }
        none .nil)
      (.cons (.elem "v".toList 0)
        (.mk (.pre "v_0_".toList)
          { signals := [⟨"d".toList, true, .unconnected⟩], lists := [] } none .nil)
        .nil))

/-- A DUT with one signal for most of the slots, and a clock. -/
def demoDut : List DutSig :=
  [⟨"clk".toList, 10, 0⟩, ⟨"io_a".toList, 11, 0⟩, ⟨"io_c_q".toList, 12, 0⟩,
   ⟨"io_v_0_d".toList, 13, 0⟩, ⟨"io_x_1".toList, 14, 0⟩]

theorem demo_distinct : demoBundle.Distinct := by
  refine ⟨by decide, ⟨?_, trivial⟩, ⟨?_, trivial⟩, trivial⟩ <;> decide

theorem demo_plain : demoBundle.Plain := by
  refine ⟨trivial, ⟨?_, trivial⟩, ⟨trivial, trivial⟩, trivial⟩
  show List.Nodup _
  decide

/-- The slot holds a pin. -/
def Slot.isPin : Slot → Bool
  | .pin _ => true
  | _ => false

theorem level_fresh (lv : Level)
    (h : (lv.signals.all fun c => !c.slot.isPin) = true ∧
      (lv.lists.all fun l => l.2.all fun e => !e.2.isPin) = true) (p : Pos) (q : Nat) :
    lv.slot p ≠ some (.pin q) := by
  have h1 : ∀ c ∈ lv.signals, ∀ q, c.slot ≠ .pin q := by
    intro c hc q he
    have := List.all_eq_true.1 h.1 c hc
    rw [he] at this
    cases this
  have h2 : ∀ l ∈ lv.lists, ∀ e ∈ l.2, ∀ q, e.2 ≠ .pin q := by
    intro l hl e hel q he
    have := List.all_eq_true.1 (List.all_eq_true.1 h.2 l hl) e hel
    rw [he] at this
    cases this
  intro h
  cases p with
  | sig n =>
    simp only [Level.slot] at h
    cases hf : lv.signals.find? (fun c => c.name = n) with
    | none => rw [hf] at h; cases h
    | some c =>
      rw [hf] at h
      exact h1 c (List.mem_of_find?_eq_some hf) q (Option.some.inj h)
  | elem l i =>
    simp only [Level.slot] at h
    cases hl : lv.lists[l]? with
    | none => rw [hl] at h; cases h
    | some e =>
      rw [hl] at h
      simp only [Option.bind_some] at h
      cases hi : e.2[i]? with
      | none => rw [hi] at h; cases h
      | some x =>
        rw [hi] at h
        exact h2 e (List.mem_of_getElem? hl) x (List.mem_of_getElem? hi) q (Option.some.inj h)

theorem demo_fresh : demoBundle.Fresh := by
  refine ⟨level_fresh _ ?_, ⟨level_fresh _ ?_, trivial⟩, ⟨level_fresh _ ?_, trivial⟩,
    trivial⟩ <;> decide

/-- The hypotheses of C34, C35, C36 and C46 are met by the demo, which connects slots at all
levels. -/
example : demoBundle.Distinct ∧ demoBundle.Fresh ∧ demoBundle.Plain ∧
    (demoDut.map DutSig.name).Nodup ∧ (demoDut.map DutSig.pin).Nodup ∧
    (demoBundle.bind true demoDut).1.slotAt [] (.sig "a".toList) = some (.pin 11) ∧
    (demoBundle.bind true demoDut).1.slotAt [] (.sig "b".toList) = some .dummy ∧
    (demoBundle.bind true demoDut).1.slotAt [] (.elem 0 1) = some (.pin 14) ∧
    (demoBundle.bind true demoDut).1.slotAt [0] (.sig "w".toList) = some (.pin 12) ∧
    (demoBundle.bind true demoDut).1.slotAt [1] (.sig "d".toList) = some (.pin 13) ∧
    demoBundle.detectConnectivity "io_c_q".toList = true ∧
    demoBundle.detectConnectivity "clk".toList = false ∧
    detectUnconnected demoDut (counters demoDut [(true, demoBundle)]) = ["clk".toList] :=
  ⟨demo_distinct, demo_fresh, demo_plain, by decide, by decide, by decide, by decide, by decide,
    by decide, by decide, by decide, by decide, by decide⟩

/-- The sub-bundle's slot is denoted by the name that two rules in turn translate. -/
example : Denotes demoBundle "io_c_q".toList [0] (.sig "w".toList) :=
  (denotes_iff demo_distinct _ _ _).2 (by decide)

/-- **C37 fails**: for a bundle with the prefix `io_` and the signals `a`, `b`,
`detect_specific_connectivity("io_a", "b")` is `True` although a DUT signal `io_a` is connected to
the slot `a`; and so is `detect_specific_connectivity("b", "b")` although a DUT signal `b` is
connected to no slot.  With a dictionary rule the call raises `TypeError`. -/
theorem C37_specific_violated :
    ∃ b : Bundle, b.Distinct ∧ b.Prefixed ∧
      b.detectSpecific "io_a".toList "b".toList = some true ∧
      Denotes b "io_a".toList [] (.sig "a".toList) ∧
      ¬ Denotes b "io_a".toList [] (.sig "b".toList) ∧
      b.detectSpecific "b".toList "b".toList = some true ∧
      (∀ is p, ¬ Denotes b "b".toList is p) ∧
      ∃ b' : Bundle, b'.Distinct ∧ Denotes b' "io_a".toList [] (.sig "a".toList) ∧
        b'.detectSpecific "io_a".toList "a".toList = none := by
  have hd : (Bundle.mk (.pre "io_".toList)
      ⟨[⟨"a".toList, true, .unconnected⟩, ⟨"b".toList, true, .unconnected⟩], []⟩ none
      .nil).Distinct := ⟨by decide, trivial⟩
  have hd' : (Bundle.mk (.dict [("a".toList, "io_a".toList)])
      ⟨[⟨"a".toList, true, .unconnected⟩], []⟩ none .nil).Distinct := ⟨by decide, trivial⟩
  refine ⟨_, hd, ⟨⟨_, rfl⟩, trivial⟩, by decide, (denotes_iff hd _ _ _).2 (by decide), ?_,
    by decide, ?_, _, hd', (denotes_iff hd' _ _ _).2 (by decide), by decide⟩
  · rw [denotes_iff hd]
    decide
  · intro is p
    rw [denotes_iff hd]
    have : (Bundle.mk (.pre "io_".toList)
      ⟨[⟨"a".toList, true, .unconnected⟩, ⟨"b".toList, true, .unconnected⟩], []⟩ none
      .nil).route "b".toList = none := by decide
    rw [this]
    simp

/-- **C46 fails** with regular expressions: when two DUT signals are turned into the same name, the
second replaces the first in the slot, but the first still counts as connected, so
`detect_unconnected_signals` misses it. -/
theorem C46_counting_violated :
    ∃ (b : Bundle) (dut : List DutSig), b.Distinct ∧ b.Fresh ∧ (dut.map DutSig.name).Nodup ∧
      (dut.map DutSig.pin).Nodup ∧
      ∃ d ∈ dut, ¬ InSlot dut (true, b) d ∧
        d.name ∉ detectUnconnected dut (counters dut [(true, b)]) := by
  have hd : (Bundle.mk (.regex "^.(.)$".toList fun n => if n.length = 2 then some (n.drop 1) else none)
      ⟨[⟨"a".toList, true, .unconnected⟩], []⟩ none .nil).Distinct := ⟨by decide, trivial⟩
  have hf : (Bundle.mk (.regex "^.(.)$".toList fun n => if n.length = 2 then some (n.drop 1) else none)
      ⟨[⟨"a".toList, true, .unconnected⟩], []⟩ none .nil).Fresh :=
    ⟨level_fresh _ (by decide), trivial⟩
  refine ⟨_, [⟨"xa".toList, 0, 0⟩, ⟨"ya".toList, 1, 0⟩], hd, hf, by decide, by decide,
    ⟨"xa".toList, 0, 0⟩, by simp, ?_, by decide⟩
  rintro ⟨is, p, h⟩
  have hnd : (([⟨"xa".toList, 0, 0⟩, ⟨"ya".toList, 1, 0⟩] : List DutSig).map DutSig.name).Nodup := by
    decide
  rcases bind_slots true _ _ hd hnd is p with ⟨d, hdm, h1, h2⟩ | ⟨h1, h2⟩
  · have hr := (denotes_iff hd _ _ _).1 h1
    have hroute : ∀ d ∈ ([⟨"xa".toList, 0, 0⟩, ⟨"ya".toList, 1, 0⟩] : List DutSig),
        (Bundle.mk (.regex "^.(.)$".toList fun n => if n.length = 2 then some (n.drop 1) else none)
          ⟨[⟨"a".toList, true, .unconnected⟩], []⟩ none .nil).route d.name =
          some ([], .sig "a".toList) := by
      intro d hd
      rcases List.mem_cons.1 hd with rfl | hd
      · decide
      · rcases List.mem_singleton.1 hd with rfl
        decide
    rw [hroute d hdm] at hr
    simp only [Option.some.injEq, Prod.mk.injEq] at hr
    obtain ⟨rfl, rfl⟩ := hr
    have : (Bundle.bind true (Bundle.mk
        (.regex "^.(.)$".toList fun n => if n.length = 2 then some (n.drop 1) else none)
        ⟨[⟨"a".toList, true, .unconnected⟩], []⟩ none .nil)
        [⟨"xa".toList, 0, 0⟩, ⟨"ya".toList, 1, 0⟩]).1.slotAt [] (.sig "a".toList) =
        some (.pin 1) := by decide
    have h' := this.symm.trans h
    simp at h'
  · have h' := h2.symm.trans h
    unfold idle at h'
    rw [if_pos rfl] at h'
    cases hs : (Bundle.mk (.regex "^.(.)$".toList fun n => if n.length = 2 then some (n.drop 1) else none)
          ⟨[⟨"a".toList, true, .unconnected⟩], []⟩ none .nil).slotAt is p with
    | none => rw [hs] at h'; cases h'
    | some x => rw [hs] at h'; cases h'

end Toffee.Bundle
