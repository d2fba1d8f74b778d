import Verif.Model.BundleData
import Verif.Lemmas.BundlePaths

/-! Which values of a dictionary reach a pin. -/

namespace Toffee.Bundle

/-! ### The specification: the place of a slot in a dictionary -/

/-- A step into a message: an entry of a dictionary (together with the `"sub.*"` keys of a flat
dictionary that cover it), or an index of a list. -/
inductive Step
  | key (k : Name) (stars : List Name)
  | idx (i : Nat)

/-- The steps to a slot of a sub-bundle `n`: multilevel dictionaries nest, flat ones join the names
with a dot. -/
def subSteps (flat : Bool) (n : Name) (st : List Step) : List Step :=
  if flat then
    match st with
    | .key k ss :: rest =>
      .key (n ++ '.' :: k) ((n ++ '.' :: star) :: ss.map fun s => n ++ '.' :: s) :: rest
    | st => st
  else .key n [] :: st

/-- Where the value of a slot stands in a message for the bundle. -/
def Bundle.steps (flat : Bool) (b : Bundle) : List Nat → Pos → Option (List Step)
  | [], .sig n => some [.key n []]
  | [], .elem l i => (b.lvl.lists[l]?).map fun e => [.key e.1 [], .idx i]
  | i :: is, p =>
    (b.kids.label i).bind fun l => (b.kids.get i).bind fun k =>
      (Bundle.steps flat k is p).map fun st =>
        match l with
        | .sub n => subSteps flat n st
        | .elem n j => .key n [] :: .idx j :: st

/-- The values a message gives to the slot at these steps, in the order in which they are given; `w`
says whether the slot is covered by `"*"`. -/
def given (w : Bool) : List Step → Val → List Val
  | [], v => [v]
  | .key k ss :: rest, .dict d =>
    (if w then d.star?.toList else []) ++ d.toList.flatMap fun e =>
      if e.1 = star then []
      else if e.1 = k then given w rest e.2
      else if w ∧ e.1 ∈ ss then [e.2] else []
  | .idx i :: rest, .seq vs =>
    match vs.toList[i]? with
    | some v => given w rest v
    | none => []
  | _, _ => []

/-! ### Well-formed trees -/

def Kids.subNames : Kids → List Name
  | .nil => []
  | .cons (.sub n) _ ks => n :: Kids.subNames ks
  | .cons (.elem _ _) _ ks => Kids.subNames ks

def Kids.elemNames : Kids → List Name
  | .nil => []
  | .cons (.sub _) _ ks => Kids.elemNames ks
  | .cons (.elem n _) _ ks => n :: Kids.elemNames ks

/-- The elements of every bundle list are numbered in order, from `cnt`. -/
def Kids.Ordered : (Name → Nat) → Kids → Prop
  | _, .nil => True
  | cnt, .cons (.sub _) _ ks => Kids.Ordered cnt ks
  | cnt, .cons (.elem n j) _ ks =>
    j = cnt n ∧ Kids.Ordered (fun m => if m = n then cnt n + 1 else cnt m) ks

/-- The attribute names of one bundle that hold signals, signal lists and sub-bundles. -/
def attrNames (lv : Level) (ks : Kids) : List Name :=
  lv.signals.map Cell.name ++ lv.lists.map Prod.fst ++ ks.subNames

mutual
/-- Attribute names are attribute names: pairwise distinct within a bundle, without dots, and none
is `"*"`; bundle lists are numbered in order. -/
def Bundle.Attr : Bundle → Prop
  | .mk _ lv _ ks =>
    (attrNames lv ks).Nodup ∧ (∀ n ∈ ks.elemNames, n ∉ attrNames lv ks) ∧
    (∀ n ∈ attrNames lv ks ++ ks.elemNames, '.' ∉ n ∧ n ≠ star) ∧
    Kids.Ordered (fun _ => 0) ks ∧ Kids.Attr ks
def Kids.Attr : Kids → Prop
  | .nil => True
  | .cons _ b ks => Bundle.Attr b ∧ Kids.Attr ks
end

theorem Kids.attr_get {ks : Kids} (h : ks.Attr) {i : Nat} {k : Bundle}
    (hk : ks.get i = some k) : k.Attr := by
  induction i generalizing ks with
  | zero =>
    cases ks with
    | nil => cases hk
    | cons l b ks => cases hk; exact h.1
  | succ i ih =>
    cases ks with
    | nil => cases hk
    | cons l b ks => exact ih h.2 hk

theorem Kids.distinct_get' {ks : Kids} (h : ks.Distinct) {i : Nat} {k : Bundle}
    (hk : ks.get i = some k) : k.Distinct := by
  induction i generalizing ks with
  | zero =>
    cases ks with
    | nil => cases hk
    | cons l b ks => cases hk; exact h.1
  | succ i ih =>
    cases ks with
    | nil => cases hk
    | cons l b ks => exact ih h.2 hk

/-! ### Children by name -/

theorem Kids.sub?_get {ks : Kids} {n : Name} {b : Bundle} (h : ks.sub? n = some b) :
    ∃ i, ks.label i = some (.sub n) ∧ ks.get i = some b := by
  induction ks using Kids.rec (motive_1 := fun _ => True) with
  | mk => trivial
  | nil => cases h
  | cons l c ks _ ih =>
    cases l with
    | sub m =>
      rw [Kids.sub?] at h
      split at h
      · rename_i hm
        subst hm
        exact ⟨0, rfl, h⟩
      · obtain ⟨i, h1, h2⟩ := ih h
        exact ⟨i + 1, h1, h2⟩
    | elem m j =>
      rw [Kids.sub?] at h
      obtain ⟨i, h1, h2⟩ := ih h
      exact ⟨i + 1, h1, h2⟩

theorem Kids.mem_subNames {ks : Kids} {i : Nat} {n : Name} (h : ks.label i = some (.sub n)) :
    n ∈ ks.subNames := by
  induction i generalizing ks with
  | zero =>
    cases ks with
    | nil => cases h
    | cons l b ks =>
      cases h
      exact List.mem_cons_self
  | succ i ih =>
    cases ks with
    | nil => cases h
    | cons l b ks =>
      cases l with
      | sub m => exact List.mem_cons_of_mem _ (ih h)
      | elem m j => exact ih (ks := ks) h

theorem Kids.mem_elemNames {ks : Kids} {i j : Nat} {n : Name} (h : ks.label i = some (.elem n j)) :
    n ∈ ks.elemNames := by
  induction i generalizing ks with
  | zero =>
    cases ks with
    | nil => cases h
    | cons l b ks =>
      cases h
      exact List.mem_cons_self
  | succ i ih =>
    cases ks with
    | nil => cases h
    | cons l b ks =>
      cases l with
      | sub m => exact ih (ks := ks) h
      | elem m j => exact List.mem_cons_of_mem _ (ih h)

theorem Kids.sub?_none {ks : Kids} {n : Name} (h : n ∉ ks.subNames) : ks.sub? n = none := by
  cases hs : ks.sub? n with
  | none => rfl
  | some b =>
    obtain ⟨i, h1, _⟩ := Kids.sub?_get hs
    exact absurd (Kids.mem_subNames h1) h

theorem Kids.sub?_of_get {ks : Kids} {i : Nat} {n : Name} {b : Bundle}
    (hnd : ks.subNames.Nodup) (hl : ks.label i = some (.sub n)) (hk : ks.get i = some b) :
    ks.sub? n = some b := by
  induction i generalizing ks with
  | zero =>
    cases ks with
    | nil => cases hl
    | cons l c ks =>
      cases hl
      cases hk
      rw [Kids.sub?, if_pos rfl]
  | succ i ih =>
    cases ks with
    | nil => cases hl
    | cons l c ks =>
      cases l with
      | sub m =>
        have hnd' := List.nodup_cons.1 hnd
        rw [Kids.sub?, if_neg]
        · exact ih hnd'.2 hl hk
        · rintro rfl
          exact hnd'.1 (Kids.mem_subNames hl)
      | elem m j => exact ih (ks := ks) hnd hl hk

theorem Kids.elems_get {cnt : Name → Nat} {ks : Kids} (ho : ks.Ordered cnt) {n : Name} {t : Nat}
    {c : Bundle} (h : (ks.elems n)[t]? = some c) :
    ∃ i, ks.label i = some (.elem n (cnt n + t)) ∧ ks.get i = some c := by
  induction ks using Kids.rec (motive_1 := fun _ => True) generalizing cnt t with
  | mk => trivial
  | nil => simp [Kids.elems] at h
  | cons l b ks _ ih =>
    cases l with
    | sub m =>
      obtain ⟨i, h1, h2⟩ := ih ho h
      exact ⟨i + 1, h1, h2⟩
    | elem m j =>
      obtain ⟨rfl, ho⟩ := ho
      rw [Kids.elems] at h
      split at h
      · rename_i hm
        subst hm
        cases t with
        | zero =>
          exact ⟨0, by simp [Kids.label], h⟩
        | succ t =>
          obtain ⟨i, h1, h2⟩ := ih ho (by simpa using h)
          refine ⟨i + 1, ?_, h2⟩
          have h1 : ks.label i = _ := h1
          rw [if_pos rfl] at h1
          show ks.label i = _
          rw [h1]
          congr 2
          omega
      · rename_i hm
        obtain ⟨i, h1, h2⟩ := ih ho h
        refine ⟨i + 1, ?_, h2⟩
        rw [if_neg (fun h => hm h.symm)] at h1
        exact h1

theorem Kids.elems_of_get {cnt : Name → Nat} {ks : Kids} (ho : ks.Ordered cnt) {n : Name}
    {i j : Nat} (hl : ks.label i = some (.elem n j)) :
    cnt n ≤ j ∧ (ks.elems n)[j - cnt n]? = ks.get i := by
  induction i generalizing ks cnt with
  | zero =>
    cases ks with
    | nil => cases hl
    | cons l b ks =>
      cases hl
      obtain ⟨rfl, ho⟩ := ho
      refine ⟨Nat.le_refl _, ?_⟩
      rw [Kids.elems, if_pos rfl, Nat.sub_self]
      rfl
  | succ i ih =>
    cases ks with
    | nil => cases hl
    | cons l b ks =>
      cases l with
      | sub m => exact ih (ks := ks) ho hl
      | elem m j' =>
        obtain ⟨rfl, ho⟩ := ho
        have h := ih ho hl
        rw [Kids.elems]
        by_cases hm : m = n
        · subst hm
          simp only [if_true] at h ⊢
          refine ⟨by omega, ?_⟩
          have : j - cnt m = (j - (cnt m + 1)) + 1 := by omega
          rw [this, List.getElem?_cons_succ]
          exact h.2
        · rw [if_neg hm]
          simp only [if_neg (fun h : n = m => hm h.symm)] at h
          exact h

/-! ### Pins in trees -/

/-- The pin is in no slot of the tree. -/
def Free (q : Nat) (b : Bundle) : Prop := ∀ is p, b.slotAt is p ≠ some (.pin q)

/-- The pin is in this slot of the tree and in no other. -/
structure Only (q : Nat) (b : Bundle) (is : List Nat) (p : Pos) : Prop where
  here : b.slotAt is p = some (.pin q)
  only : ∀ is' p', b.slotAt is' p' = some (.pin q) → is' = is ∧ p' = p

def TFree (q : Nat) : Target → Prop
  | .slot s => s ≠ .pin q
  | .list ss => .pin q ∉ ss
  | .sub c => Free q c
  | .all c => Free q c
  | .elems bs => ∀ c ∈ bs, Free q c
  | .missing => True

def THit (flat : Bool) (q : Nat) : Target → List Step → Prop
  | .slot s, rest => s = .pin q ∧ rest = []
  | .list ss, rest => ∃ i, rest = [.idx i] ∧ ss[i]? = some (.pin q) ∧
      ∀ j, ss[j]? = some (.pin q) → j = i
  | .sub c, rest => ∃ is p, Only q c is p ∧ c.steps flat is p = some rest ∧ c.Attr ∧ c.Distinct
  | .elems bs, rest => ∃ j c is p rest', rest = .idx j :: rest' ∧ bs[j]? = some c ∧ Only q c is p ∧
      c.steps flat is p = some rest' ∧ c.Attr ∧ c.Distinct ∧
      ∀ j' c', bs[j']? = some c' → j' ≠ j → Free q c'
  | _, _ => False

theorem Only.kid {q : Nat} {b k : Bundle} {i : Nat} {is : List Nat} {p : Pos}
    (h : Only q b (i :: is) p) (hk : b.kids.get i = some k) : Only q k is p := by
  constructor
  · have := h.here
    simp only [Bundle.slotAt, hk, Option.bind_some] at this
    exact this
  · intro is' p' h'
    obtain ⟨h1, h2⟩ := h.only (i :: is') p' (by simp only [Bundle.slotAt, hk, Option.bind_some, h'])
    cases h1
    exact ⟨rfl, h2⟩

theorem Only.other {q : Nat} {b k : Bundle} {i j : Nat} {is : List Nat} {p : Pos}
    (h : Only q b (i :: is) p) (hij : j ≠ i) (hk : b.kids.get j = some k) : Free q k := by
  intro is' p' h'
  obtain ⟨h1, _⟩ := h.only (j :: is') p' (by simp only [Bundle.slotAt, hk, Option.bind_some, h'])
  cases h1
  exact hij rfl

/-- The target contains the pin at these steps below the key. -/
inductive Holds (flat : Bool) (q : Nat) (b : Bundle) (k : Name) : Prop
  | intro (is : List Nat) (p : Pos) (k0 : Name) (ss : List Name) (rest : List Step) :
      b.slotAt is p = some (.pin q) → b.steps flat is p = some (.key k0 ss :: rest) →
      (k = k0 ∨ k ∈ ss) → Holds flat q b k

theorem level_target_free (flat : Bool) (q : Nat) (b : Bundle) (k : Name)
    (h : ¬ Holds flat q b k) :
    (∀ c, b.lvl.signals.find? (fun c => c.name = k) = some c → c.slot ≠ .pin q) ∧
    (∀ l, b.lvl.lists.find? (fun l => l.1 = k) = some l → .pin q ∉ l.2.map Prod.snd) := by
  constructor
  · intro c hc hs
    refine h ⟨[], .sig k, k, [], [], ?_, rfl, .inl rfl⟩
    simp only [Bundle.slotAt, Level.slot, hc, Option.map_some, hs]
  · intro l hl hm
    obtain ⟨e, he, hs⟩ := List.mem_map.1 hm
    obtain ⟨i, hi⟩ := List.getElem?_of_mem he
    obtain ⟨j, hj⟩ := List.getElem?_of_mem (List.mem_of_find?_eq_some hl)
    have hn : l.1 = k := by simpa using List.find?_some hl
    refine h ⟨[], .elem j i, l.1, [], [.idx i], ?_, ?_, .inl hn.symm⟩
    · simp only [Bundle.slotAt, Level.slot, hj, Option.bind_some, hi, Option.map_some, hs]
    · simp only [Bundle.steps, hj, Option.map_some]

theorem steps_key (flat : Bool) {b : Bundle} (is : List Nat) (p : Pos)
    (h : (b.slotAt is p).isSome) :
    ∃ k ss rest, b.steps flat is p = some (.key k ss :: rest) := by
  induction is generalizing b with
  | nil =>
    cases p with
    | sig n => exact ⟨n, [], [], rfl⟩
    | elem l i =>
      simp only [Bundle.slotAt, Level.slot] at h
      simp only [Bundle.steps]
      cases hl : b.lvl.lists[l]? with
      | none => rw [hl] at h; cases h
      | some e => exact ⟨e.1, [], [.idx i], rfl⟩
  | cons i is ih =>
    simp only [Bundle.slotAt] at h
    simp only [Bundle.steps]
    cases hk : b.kids.get i with
    | none => rw [hk] at h; cases h
    | some k =>
      rw [hk] at h
      obtain ⟨l, hl⟩ := Kids.label_of_get hk
      obtain ⟨k0, ss, rest, hs⟩ := ih h
      rw [hl]
      simp only [Option.bind_some, hs, Option.map_some]
      cases l with
      | elem n j => exact ⟨_, _, _, rfl⟩
      | sub n =>
        unfold subSteps
        cases flat
        · exact ⟨_, _, _, rfl⟩
        · exact ⟨_, _, _, rfl⟩

theorem elemTarget_free (flat : Bool) (q : Nat) (b : Bundle) (k : Name) {cnt : Name → Nat}
    (ho : b.kids.Ordered cnt) (h : ¬ Holds flat q b k) : TFree q (b.kids.elemTarget k) := by
  unfold Kids.elemTarget
  split
  · trivial
  · intro c hc is p hs
    obtain ⟨t, ht⟩ := List.getElem?_of_mem hc
    obtain ⟨i, h1, h2⟩ := Kids.elems_get ho ht
    obtain ⟨k0, ss, rest, hst⟩ := steps_key flat is p (b := c) (by rw [hs]; rfl)
    refine h ⟨i :: is, p, k, [], .idx (cnt k + t) :: .key k0 ss :: rest, ?_, ?_, .inl rfl⟩
    · simp only [Bundle.slotAt, h2, Option.bind_some, hs]
    · simp only [Bundle.steps, h1, h2, Option.bind_some, hst, Option.map_some]

theorem locate_free (q : Nat) (b : Bundle) (k : Name) {cnt : Name → Nat}
    (ho : b.kids.Ordered cnt) (h : ¬ Holds false q b k) : TFree q (b.locate k) := by
  have hl := level_target_free false q b k h
  unfold Bundle.locate
  cases h1 : b.lvl.signals.find? (fun c => c.name = k) with
  | some c => exact hl.1 c h1
  | none =>
    simp only
    cases h2 : b.lvl.lists.find? (fun l => l.1 = k) with
    | some l => exact hl.2 l h2
    | none =>
      simp only
      cases h3 : b.kids.sub? k with
      | some c =>
        intro is p hs
        obtain ⟨i, e1, e2⟩ := Kids.sub?_get h3
        obtain ⟨k0, ss, rest, hst⟩ := steps_key false is p (b := c) (by rw [hs]; rfl)
        refine h ⟨i :: is, p, k, [], .key k0 ss :: rest, ?_, ?_, .inl rfl⟩
        · simp only [Bundle.slotAt, e2, Option.bind_some, hs]
        · simp only [Bundle.steps, e1, e2, Option.bind_some, hst, Option.map_some, subSteps]
          rfl
      | none => exact elemTarget_free false q b k ho h

theorem splitDot_some {k h t : Name} (hs : splitDot k = some (h, t)) : k = h ++ '.' :: t := by
  induction k generalizing h with
  | nil => cases hs
  | cons c cs ih =>
    rw [splitDot] at hs
    split at hs
    · rename_i hc
      cases hs
      rw [hc]; rfl
    · cases hr : splitDot cs with
      | none => rw [hr] at hs; cases hs
      | some x =>
        rw [hr] at hs
        cases hs
        rw [ih hr]; rfl

theorem splitDot_append {n t : Name} (h : '.' ∉ n) : splitDot (n ++ '.' :: t) = some (n, t) := by
  induction n with
  | nil => rfl
  | cons c cs ih =>
    rw [List.mem_cons, not_or] at h
    rw [List.cons_append, splitDot, if_neg (Ne.symm h.1), ih h.2]
    rfl

mutual
theorem locateFlat_free (q : Nat) : ∀ (b : Bundle) (k : Name), b.Attr → ¬ Holds true q b k →
    TFree q (b.locateFlat k)
  | .mk r lv c ks, k, ha, h => by
    have hl := level_target_free true q (.mk r lv c ks) k h
    rw [Bundle.locateFlat]
    cases h1 : lv.signals.find? (fun c => c.name = k) with
    | some c => exact hl.1 c h1
    | none =>
      simp only
      cases h2 : lv.lists.find? (fun l => l.1 = k) with
      | some l => exact hl.2 l h2
      | none =>
        simp only
        cases h3 : splitDot k with
        | none => exact elemTarget_free true q (.mk r lv c ks) k ha.2.2.2.1 h
        | some x =>
          obtain ⟨hd, t⟩ := x
          simp only
          cases h4 : Kids.locateFlat ks hd t with
          | none => exact elemTarget_free true q (.mk r lv c ks) k ha.2.2.2.1 h
          | some x =>
            refine kidsLocateFlat_free q ks hd t x ha.2.2.2.2 ?_ h4
            intro i cc hli hgi is p k0 ss rest hs hst hk
            refine h ⟨i :: is, p, hd ++ '.' :: k0,
              (hd ++ '.' :: star) :: ss.map fun s => hd ++ '.' :: s, rest, ?_, ?_, ?_⟩
            · simp only [Bundle.slotAt, Bundle.kids, hgi, Option.bind_some]
              exact hs
            · simp only [Bundle.steps, Bundle.kids, hli, hgi, Option.bind_some, hst, Option.map_some,
                subSteps, if_true]
            · rw [splitDot_some h3]
              rcases hk with rfl | rfl | hk
              · exact .inr List.mem_cons_self
              · exact .inl rfl
              · exact .inr (List.mem_cons_of_mem _ (List.mem_map_of_mem hk))
theorem kidsLocateFlat_free (q : Nat) : ∀ (ks : Kids) (hd t : Name) (x : Target), ks.Attr →
    (∀ i c, ks.label i = some (.sub hd) → ks.get i = some c → ∀ is p k0 ss rest,
      c.slotAt is p = some (.pin q) → c.steps true is p = some (.key k0 ss :: rest) →
      ¬ (t = star ∨ t = k0 ∨ t ∈ ss)) →
    Kids.locateFlat ks hd t = some x → TFree q x
  | .nil, hd, t, x, _, _, hx => by rw [Kids.locateFlat] at hx; cases hx
  | .cons (.elem n j) b ks, hd, t, x, ha, h, hx => by
    rw [Kids.locateFlat] at hx
    exact kidsLocateFlat_free q ks hd t x ha.2 (fun i c hl hg => h (i + 1) c hl hg) hx
  | .cons (.sub n) b ks, hd, t, x, ha, h, hx => by
    rw [Kids.locateFlat] at hx
    split at hx
    · rename_i hn
      subst hn
      have hx := Option.some.inj hx
      subst hx
      split
      · rename_i ht
        intro is p hs
        obtain ⟨k0, ss, rest, hst⟩ := steps_key true is p (b := b) (by rw [hs]; rfl)
        exact h 0 b rfl rfl is p k0 ss rest hs hst (.inl ht)
      · refine locateFlat_free q b t ha.1 ?_
        rintro ⟨is, p, k0, ss, rest, hs, hst, hk⟩
        exact h 0 b rfl rfl is p k0 ss rest hs hst (.inr hk)
    · exact kidsLocateFlat_free q ks hd t x ha.2 (fun i c hl hg => h (i + 1) c hl hg) hx
end

/-! ### The key of a slot -/

/-- How a key is resolved in either mode. -/
def Bundle.target (flat : Bool) (b : Bundle) (k : Name) : Target :=
  if flat then b.locateFlat k else b.locate k

theorem attr_sub_notin {lv : Level} {ks : Kids} (h : (attrNames lv ks).Nodup) {n : Name}
    (hn : n ∈ ks.subNames) : n ∉ lv.signals.map Cell.name ∧ n ∉ lv.lists.map Prod.fst := by
  unfold attrNames at h
  have := List.nodup_append.1 h
  constructor
  · intro h1
    exact this.2.2 n (List.mem_append_left _ h1) n hn rfl
  · intro h1
    exact this.2.2 n (List.mem_append_right _ h1) n hn rfl

theorem find_signal_none {cs : List Cell} {k : Name} (h : k ∉ cs.map Cell.name) :
    cs.find? (fun c => c.name = k) = none := by
  rw [List.find?_eq_none]
  intro c hc
  simp only [decide_eq_true_eq]
  rintro rfl
  exact h (List.mem_map_of_mem hc)

theorem find_list_none {ls : List (Name × List (Name × Slot))} {k : Name}
    (h : k ∉ ls.map Prod.fst) : ls.find? (fun l => l.1 = k) = none := by
  rw [List.find?_eq_none]
  intro c hc
  simp only [decide_eq_true_eq]
  rintro rfl
  exact h (List.mem_map_of_mem hc)

theorem find_list_some {ls : List (Name × List (Name × Slot))} (hnd : (ls.map Prod.fst).Nodup)
    {l : Nat} {e : Name × List (Name × Slot)} (h : ls[l]? = some e) :
    ls.find? (fun l => l.1 = e.1) = some e := by
  have hm := List.mem_of_getElem? h
  cases hf : ls.find? (fun l => l.1 = e.1) with
  | none => exact absurd (List.find?_eq_none.1 hf e hm) (by simp)
  | some e' =>
    have h1 := List.mem_of_find?_eq_some hf
    have h2 : e'.1 = e.1 := by simpa using List.find?_some hf
    congr 1
    obtain ⟨i, hi, rfl⟩ := List.getElem_of_mem h1
    obtain ⟨j, hj, rfl⟩ := List.getElem_of_mem hm
    have h3 : (ls.map Prod.fst)[i]'(by simpa using hi) = (ls.map Prod.fst)[j]'(by simpa using hj) := by
      simpa using h2
    have := (List.getElem_inj hnd).1 h3
    subst this
    rfl

theorem elemTarget_hit (flat : Bool) {q : Nat} {b k : Bundle} (ha : b.Attr) (hd : b.Distinct)
    {i j : Nat} {is : List Nat} {p : Pos} {n : Name} {st : List Step} (ho : Only q b (i :: is) p)
    (hl : b.kids.label i = some (.elem n j)) (hk : b.kids.get i = some k)
    (hs : k.steps flat is p = some st) :
    THit flat q (b.kids.elemTarget n) (.idx j :: st) := by
  obtain ⟨r, lv, c, ks⟩ := b
  simp only [Bundle.kids] at hl hk ⊢
  have he := Kids.elems_of_get ha.2.2.2.1 hl
  rw [hk] at he
  unfold Kids.elemTarget
  split
  · rename_i h0
    rw [h0] at he
    simp at he
  · refine ⟨j, k, is, p, st, rfl, by simpa using he.2, ho.kid hk, hs,
      Kids.attr_get ha.2.2.2.2 hk, Kids.distinct_get' hd.2 hk, ?_⟩
    intro j' c' hj' hne
    obtain ⟨i', h1, h2⟩ := Kids.elems_get ha.2.2.2.1 hj'
    refine ho.other (j := i') ?_ h2
    rintro rfl
    rw [hl] at h1
    simp only [Option.some.injEq, Label.elem.injEq, true_and] at h1
    omega

theorem list_hit (flat : Bool) {q : Nat} {b : Bundle} {l i : Nat} (ho : Only q b [] (.elem l i))
    {e : Name × List (Name × Slot)} (he : b.lvl.lists[l]? = some e) :
    THit flat q (.list (e.2.map Prod.snd)) [.idx i] := by
  have h := ho.here
  simp only [Bundle.slotAt, Level.slot, he, Option.bind_some] at h
  refine ⟨i, rfl, by simpa using h, ?_⟩
  intro j hj
  have := (ho.only [] (.elem l j) (by
    simp only [Bundle.slotAt, Level.slot, he, Option.bind_some]
    simpa using hj)).2
  simpa using this

theorem sig_hit (flat : Bool) {q : Nat} {b : Bundle} {n : Name} (ho : Only q b [] (.sig n)) :
    ∃ c, b.lvl.signals.find? (fun c => c.name = n) = some c ∧ THit flat q (.slot c.slot) [] ∧
      n ∈ b.lvl.signals.map Cell.name := by
  have h := ho.here
  simp only [Bundle.slotAt, Level.slot] at h
  cases hf : b.lvl.signals.find? (fun c => c.name = n) with
  | none => rw [hf] at h; cases h
  | some c =>
    rw [hf] at h
    have h2 : c.name = n := by simpa using List.find?_some hf
    exact ⟨c, rfl, ⟨Option.some.inj h, rfl⟩, h2 ▸ List.mem_map_of_mem (List.mem_of_find?_eq_some hf)⟩

/-- In a multilevel dictionary, the key of a slot resolves to it. -/
theorem locate_hit {q : Nat} {b : Bundle} (ha : b.Attr) (hd : b.Distinct) {is : List Nat} {p : Pos}
    (ho : Only q b is p) {k0 : Name} {ss : List Name} {rest : List Step}
    (hs : b.steps false is p = some (.key k0 ss :: rest)) :
    ss = [] ∧ k0 ≠ star ∧ THit false q (b.locate k0) rest := by
  obtain ⟨r, lv, cl, ks⟩ := b
  obtain ⟨ha1, ha2, ha3, ha4, ha5⟩ := id ha
  have hlists : (lv.lists.map Prod.fst).Nodup :=
    (List.nodup_append.1 (List.nodup_append.1 ha1).1).2.1
  have hdisj : ∀ n ∈ lv.lists.map Prod.fst, n ∉ lv.signals.map Cell.name := by
    intro n h1 h2
    exact (List.nodup_append.1 (List.nodup_append.1 ha1).1).2.2 n h2 n h1 rfl
  cases is with
  | nil =>
    cases p with
    | sig n =>
      simp only [Bundle.steps, Option.some.injEq, List.cons.injEq, Step.key.injEq] at hs
      obtain ⟨⟨rfl, rfl⟩, rfl⟩ := hs
      obtain ⟨c, h1, h2, h3⟩ := sig_hit false ho
      refine ⟨rfl, (ha3 n (List.mem_append_left _ (List.mem_append_left _ (List.mem_append_left _ h3)))).2,
        ?_⟩
      unfold Bundle.locate
      rw [h1]
      exact h2
    | elem l i =>
      simp only [Bundle.steps] at hs
      cases he : (Bundle.mk r lv cl ks).lvl.lists[l]? with
      | none => rw [he] at hs; cases hs
      | some e =>
        rw [he] at hs
        simp only [Option.map_some, Option.some.injEq, List.cons.injEq, Step.key.injEq] at hs
        obtain ⟨⟨rfl, rfl⟩, rfl⟩ := hs
        have hm : e.1 ∈ lv.lists.map Prod.fst := List.mem_map_of_mem (List.mem_of_getElem? he)
        refine ⟨rfl, (ha3 e.1 (List.mem_append_left _ (List.mem_append_left _
          (List.mem_append_right _ hm)))).2, ?_⟩
        unfold Bundle.locate
        simp only [Bundle.lvl, Bundle.kids]
        rw [find_signal_none (hdisj _ hm), find_list_some hlists he]
        exact list_hit false ho he
  | cons i is =>
    simp only [Bundle.steps, Bundle.kids] at hs
    cases hl : ks.label i with
    | none => rw [hl] at hs; cases hs
    | some l =>
      rw [hl, Option.bind_some] at hs
      cases hk : ks.get i with
      | none => rw [hk] at hs; cases hs
      | some k =>
        rw [hk, Option.bind_some] at hs
        cases hst : k.steps false is p with
        | none => rw [hst] at hs; cases hs
        | some st =>
          rw [hst] at hs
          cases l with
          | sub n =>
            simp only [Option.map_some, subSteps, Bool.false_eq_true, if_false, Option.some.injEq,
              List.cons.injEq, Step.key.injEq] at hs
            obtain ⟨⟨rfl, rfl⟩, rfl⟩ := hs
            have hn := Kids.mem_subNames hl
            have hno := attr_sub_notin ha1 hn
            refine ⟨rfl, (ha3 n (List.mem_append_left _ (List.mem_append_right _ hn))).2, ?_⟩
            unfold Bundle.locate
            simp only [Bundle.lvl, Bundle.kids]
            rw [find_signal_none hno.1, find_list_none hno.2]
            simp only
            rw [Kids.sub?_of_get (List.nodup_append.1 ha1).2.1 hl hk]
            exact ⟨is, p, ho.kid hk, hst, Kids.attr_get ha5 hk, Kids.distinct_get' hd.2 hk⟩
          | elem n j =>
            simp only [Option.map_some, Option.some.injEq, List.cons.injEq, Step.key.injEq] at hs
            obtain ⟨⟨rfl, rfl⟩, rfl⟩ := hs
            have hn := Kids.mem_elemNames hl
            have hno := ha2 n hn
            unfold attrNames at hno
            rw [List.mem_append, List.mem_append, not_or, not_or] at hno
            refine ⟨rfl, (ha3 n (List.mem_append_right _ hn)).2, ?_⟩
            unfold Bundle.locate
            simp only [Bundle.lvl, Bundle.kids]
            rw [find_signal_none hno.1.1, find_list_none hno.1.2]
            simp only
            rw [Kids.sub?_none hno.2]
            exact elemTarget_hit false ha hd ho hl hk hst

theorem kidsLocateFlat_eq {ks : Kids} {i : Nat} {n : Name} {b : Bundle} {t : Name}
    (hnd : ks.subNames.Nodup) (hl : ks.label i = some (.sub n)) (hk : ks.get i = some b) :
    Kids.locateFlat ks n t = some (if t = star then .all b else b.locateFlat t) := by
  induction i generalizing ks with
  | zero =>
    cases ks with
    | nil => cases hl
    | cons l c ks =>
      cases hl
      cases hk
      rw [Kids.locateFlat, if_pos rfl]
  | succ i ih =>
    cases ks with
    | nil => cases hl
    | cons l c ks =>
      cases l with
      | sub m =>
        have hnd' := List.nodup_cons.1 hnd
        rw [Kids.locateFlat, if_neg]
        · exact ih hnd'.2 hl hk
        · rintro rfl
          exact hnd'.1 (Kids.mem_subNames hl)
      | elem m j =>
        rw [Kids.locateFlat]
        exact ih (ks := ks) hnd hl hk

theorem kidsLocateFlat_none {ks : Kids} {n t : Name} (h : n ∉ ks.subNames) :
    Kids.locateFlat ks n t = none := by
  induction ks using Kids.rec (motive_1 := fun _ => True) with
  | mk => trivial
  | nil => rw [Kids.locateFlat]
  | cons l c ks _ ih =>
    cases l with
    | sub m =>
      rw [Kids.subNames, List.mem_cons, not_or] at h
      rw [Kids.locateFlat, if_neg (Ne.symm h.1)]
      exact ih h.2
    | elem m j =>
      rw [Kids.locateFlat]
      exact ih h

/-- A dotted name resolves in the sub-bundle. -/
theorem locateFlat_sub {r : Rule} {lv : Level} {cl : Option Nat} {ks : Kids}
    (ha : (Bundle.mk r lv cl ks).Attr) {i : Nat} {n : Name} {b : Bundle} (t : Name)
    (hl : ks.label i = some (.sub n)) (hk : ks.get i = some b) :
    (Bundle.mk r lv cl ks).locateFlat (n ++ '.' :: t) =
      if t = star then .all b else b.locateFlat t := by
  obtain ⟨ha1, ha2, ha3, ha4, ha5⟩ := ha
  have hclean : ∀ m ∈ attrNames lv ks, m ≠ n ++ '.' :: t := by
    rintro m hm rfl
    exact (ha3 _ (List.mem_append_left _ hm)).1 (by simp)
  rw [Bundle.locateFlat, find_signal_none, find_list_none]
  · simp only
    rw [splitDot_append (ha3 n (List.mem_append_left _ (List.mem_append_right _
      (Kids.mem_subNames hl)))).1]
    simp only
    rw [kidsLocateFlat_eq (List.nodup_append.1 ha1).2.1 hl hk]
  · intro h
    exact hclean _ (List.mem_append_left _ (List.mem_append_right _ h)) rfl
  · intro h
    exact hclean _ (List.mem_append_left _ (List.mem_append_left _ h)) rfl

/-- In a flat dictionary, the key of a slot resolves to it, and its `*` keys to sub-bundles that
contain it. -/
theorem locateFlat_hit {q : Nat} {b : Bundle} (ha : b.Attr) (hd : b.Distinct) {is : List Nat}
    {p : Pos} (ho : Only q b is p) {k0 : Name} {ss : List Name} {rest : List Step}
    (hs : b.steps true is p = some (.key k0 ss :: rest)) :
    k0 ≠ star ∧ star ∉ ss ∧ k0 ∉ ss ∧ THit true q (b.locateFlat k0) rest ∧
      ∀ k ∈ ss, ∃ c is' p', b.locateFlat k = .all c ∧ Only q c is' p' ∧ c.Distinct := by
  induction is generalizing b k0 ss rest with
  | nil =>
    obtain ⟨r, lv, cl, ks⟩ := b
    obtain ⟨ha1, ha2, ha3, ha4, ha5⟩ := id ha
    have hlists : (lv.lists.map Prod.fst).Nodup :=
      (List.nodup_append.1 (List.nodup_append.1 ha1).1).2.1
    have hdisj : ∀ n ∈ lv.lists.map Prod.fst, n ∉ lv.signals.map Cell.name := by
      intro n h1 h2
      exact (List.nodup_append.1 (List.nodup_append.1 ha1).1).2.2 n h2 n h1 rfl
    cases p with
    | sig n =>
      simp only [Bundle.steps, Option.some.injEq, List.cons.injEq, Step.key.injEq] at hs
      obtain ⟨⟨rfl, rfl⟩, rfl⟩ := hs
      obtain ⟨c, h1, h2, h3⟩ := sig_hit true ho
      refine ⟨(ha3 n (List.mem_append_left _ (List.mem_append_left _ (List.mem_append_left _ h3)))).2,
        by simp, by simp, ?_, by simp⟩
      rw [Bundle.locateFlat]
      have h1 : lv.signals.find? (fun c => c.name = n) = some c := h1
      rw [h1]
      exact h2
    | elem l i =>
      simp only [Bundle.steps] at hs
      cases he : (Bundle.mk r lv cl ks).lvl.lists[l]? with
      | none => rw [he] at hs; cases hs
      | some e =>
        rw [he] at hs
        simp only [Option.map_some, Option.some.injEq, List.cons.injEq, Step.key.injEq] at hs
        obtain ⟨⟨rfl, rfl⟩, rfl⟩ := hs
        have hm : e.1 ∈ lv.lists.map Prod.fst := List.mem_map_of_mem (List.mem_of_getElem? he)
        refine ⟨(ha3 e.1 (List.mem_append_left _ (List.mem_append_left _
          (List.mem_append_right _ hm)))).2, by simp, by simp, ?_, by simp⟩
        rw [Bundle.locateFlat, find_signal_none (hdisj _ hm), find_list_some hlists he]
        exact list_hit true ho he
  | cons i is ih =>
    obtain ⟨r, lv, cl, ks⟩ := b
    obtain ⟨ha1, ha2, ha3, ha4, ha5⟩ := id ha
    simp only [Bundle.steps, Bundle.kids] at hs
    cases hl : ks.label i with
    | none => rw [hl] at hs; cases hs
    | some l =>
      rw [hl, Option.bind_some] at hs
      cases hk : ks.get i with
      | none => rw [hk] at hs; cases hs
      | some k =>
        rw [hk, Option.bind_some] at hs
        cases hst : k.steps true is p with
        | none => rw [hst] at hs; cases hs
        | some st =>
          rw [hst] at hs
          have hok := ho.kid (k := k) hk
          cases l with
          | sub n =>
            obtain ⟨k1, s1, r1, h1⟩ := steps_key true is p (b := k) (by rw [hok.here]; rfl)
            rw [hst] at h1
            have h1 := Option.some.inj h1
            subst h1
            simp only [Option.map_some, subSteps, if_true, Option.some.injEq,
              List.cons.injEq, Step.key.injEq] at hs
            obtain ⟨⟨rfl, rfl⟩, rfl⟩ := hs
            obtain ⟨i1, i2, i3, i4, i5⟩ := ih (Kids.attr_get ha5 hk) (Kids.distinct_get' hd.2 hk) hok hst
            refine ⟨?_, ?_, ?_, ?_, ?_⟩
            · intro h
              have := congrArg List.length h
              have hc : '.' ∈ star := by rw [← h]; simp
              simp [star] at hc
            · intro h
              have hc : '.' ∈ star := by
                rcases List.mem_cons.1 h with h | h
                · rw [h]; simp
                · obtain ⟨x, _, hx⟩ := List.mem_map.1 h
                  rw [← hx]; simp
              simp [star] at hc
            · intro h
              rcases List.mem_cons.1 h with h | h
              · have := List.append_cancel_left h
                simp only [List.cons.injEq, true_and] at this
                exact i1 this
              · obtain ⟨x, hx, he⟩ := List.mem_map.1 h
                have := List.append_cancel_left he
                simp only [List.cons.injEq, true_and] at this
                exact i3 (this ▸ hx)
            · rw [locateFlat_sub ha k1 hl hk, if_neg i1]
              exact i4
            · intro x hx
              rcases List.mem_cons.1 hx with rfl | hx
              · exact ⟨k, is, p, by rw [locateFlat_sub ha star hl hk, if_pos rfl], hok,
                  Kids.distinct_get' hd.2 hk⟩
              · obtain ⟨y, hy, rfl⟩ := List.mem_map.1 hx
                obtain ⟨c, is', p', e1, e2, e3⟩ := i5 y hy
                refine ⟨c, is', p', ?_, e2, e3⟩
                rw [locateFlat_sub ha y hl hk, if_neg]
                · exact e1
                · rintro rfl
                  exact i2 hy
          | elem n j =>
            simp only [Option.map_some, Option.some.injEq, List.cons.injEq, Step.key.injEq] at hs
            obtain ⟨⟨rfl, rfl⟩, rfl⟩ := hs
            have hn := Kids.mem_elemNames hl
            have hno := ha2 n hn
            unfold attrNames at hno
            rw [List.mem_append, List.mem_append, not_or, not_or] at hno
            have hdot := ha3 n (List.mem_append_right _ hn)
            refine ⟨hdot.2, by simp, by simp, ?_, by simp⟩
            rw [Bundle.locateFlat, find_signal_none hno.1.1, find_list_none hno.1.2]
            simp only
            have hsp : splitDot n = none := by
              cases hsp : splitDot n with
              | none => rfl
              | some x =>
                obtain ⟨a, b⟩ := x
                have := splitDot_some hsp
                exact absurd (by rw [this]; simp) hdot.1
            rw [hsp]
            exact elemTarget_hit true ha hd ho hl hk hst

/-- Both modes together. -/
theorem target_spec (flat : Bool) {q : Nat} {b : Bundle} (ha : b.Attr) (hd : b.Distinct)
    {is : List Nat} {p : Pos} (ho : Only q b is p) {k0 : Name} {ss : List Name} {rest : List Step}
    (hs : b.steps flat is p = some (.key k0 ss :: rest)) :
    k0 ≠ star ∧ k0 ∉ ss ∧ THit flat q (b.target flat k0) rest ∧
      (∀ k ∈ ss, ∃ c is' p', b.target flat k = .all c ∧ Only q c is' p' ∧ c.Distinct) ∧
      ∀ k, k ≠ k0 → k ∉ ss → TFree q (b.target flat k) := by
  have hfree : ∀ k, k ≠ k0 → k ∉ ss → ¬ Holds flat q b k := by
    rintro k h1 h2 ⟨is', p', k1, s1, r1, e1, e2, e3⟩
    obtain ⟨rfl, rfl⟩ := ho.only is' p' e1
    rw [hs] at e2
    simp only [Option.some.injEq, List.cons.injEq, Step.key.injEq] at e2
    obtain ⟨⟨rfl, rfl⟩, rfl⟩ := e2
    rcases e3 with h | h
    · exact h1 h
    · exact h2 h
  cases flat with
  | false =>
    obtain ⟨rfl, h2, h3⟩ := locate_hit ha hd ho hs
    refine ⟨h2, by simp, h3, by simp, ?_⟩
    intro k hk1 hk2
    have ho : b.kids.Ordered (fun _ => 0) := by cases b; exact ha.2.2.2.1
    exact locate_free q b k ho (hfree k hk1 hk2)
  | true =>
    obtain ⟨h1, _, h2, h3, h4⟩ := locateFlat_hit ha hd ho hs
    exact ⟨h1, h2, h3, h4, fun k hk1 hk2 => locateFlat_free q b k ha (hfree k hk1 hk2)⟩

theorem target_free (flat : Bool) {q : Nat} {b : Bundle} (ha : b.Attr) (hf : Free q b) (k : Name) :
    TFree q (b.target flat k) := by
  have h : ¬ Holds flat q b k := by
    rintro ⟨is, p, _, _, _, h, _, _⟩
    exact hf is p h
  cases flat with
  | false =>
    have ho : b.kids.Ordered (fun _ => 0) := by cases b; exact ha.2.2.2.1
    exact locate_free q b k ho h
  | true => exact locateFlat_free q b k ha h

end Toffee.Bundle
