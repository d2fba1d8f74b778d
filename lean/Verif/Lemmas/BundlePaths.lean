import Verif.Lemmas.Bundle

/-! The slots of a bundle tree in the order of `all_signals`, and their path names. -/

namespace Toffee.Bundle

/-! ### Enumerating the slots -/

def listsPos : List (Name × List (Name × Slot)) → List (Nat × Nat)
  | [] => []
  | e :: es => (List.range e.2.length).map (fun i => (0, i)) ++
      (listsPos es).map fun x => (x.1 + 1, x.2)

def Level.positions (lv : Level) : List Pos :=
  lv.signals.map (fun c => .sig c.name) ++ (listsPos lv.lists).map fun x => .elem x.1 x.2

mutual
/-- All slots, in the order of `all_signals`. -/
def Bundle.positions : Bundle → List (List Nat × Pos)
  | .mk _ lv _ ks => lv.positions.map (fun p => ([], p)) ++
      (Kids.positions ks).map fun x => (x.1 :: x.2.1, x.2.2)
def Kids.positions : Kids → List (Nat × List Nat × Pos)
  | .nil => []
  | .cons _ b ks => (Bundle.positions b).map (fun x => (0, x.1, x.2)) ++
      (Kids.positions ks).map fun x => (x.1 + 1, x.2.1, x.2.2)
end

/-- The slot of the `i`-th child at `is`, `p`. -/
def Kids.slotAt (ks : Kids) (i : Nat) (is : List Nat) (p : Pos) : Option Slot :=
  (ks.get i).bind fun k => k.slotAt is p

theorem mem_listsPos (ls : List (Name × List (Name × Slot))) (l i : Nat) :
    (l, i) ∈ listsPos ls ↔ ((ls[l]?).bind fun e => (e.2[i]?).map Prod.snd).isSome := by
  induction ls generalizing l with
  | nil => simp [listsPos]
  | cons e es ih =>
    simp only [listsPos, List.mem_append, List.mem_map, List.mem_range, Prod.mk.injEq]
    cases l with
    | zero =>
      simp only [List.getElem?_cons_zero, Option.bind_some]
      constructor
      · rintro (⟨j, hj, _, rfl⟩ | ⟨x, _, h, _⟩)
        · simpa using hj
        · omega
      · intro h
        exact .inl ⟨i, by simpa using h, trivial, rfl⟩
    | succ l =>
      simp only [List.getElem?_cons_succ]
      rw [← ih]
      constructor
      · rintro (⟨j, _, h, _⟩ | ⟨x, hx, h1, h2⟩)
        · omega
        · obtain ⟨x1, x2⟩ := x
          simp only [Nat.add_right_cancel_iff] at h1 h2
          subst h1
          subst h2
          exact hx
      · intro h
        exact .inr ⟨(l, i), h, rfl, rfl⟩

theorem Level.mem_positions (lv : Level) (p : Pos) : p ∈ lv.positions ↔ (lv.slot p).isSome := by
  unfold Level.positions
  rw [List.mem_append, List.mem_map, List.mem_map]
  cases p with
  | sig n =>
    simp only [Pos.sig.injEq, reduceCtorEq, and_false, exists_false, or_false, Level.slot,
      Option.isSome_map, List.find?_isSome, decide_eq_true_eq]
  | elem l i =>
    simp only [reduceCtorEq, and_false, exists_false, false_or, Level.slot]
    rw [← mem_listsPos]
    constructor
    · rintro ⟨x, hx, h⟩
      obtain ⟨x1, x2⟩ := x
      simp only [Pos.elem.injEq] at h
      rw [← h.1, ← h.2]
      exact hx
    · intro h
      exact ⟨(l, i), h, rfl⟩

mutual
theorem mem_positions : ∀ (b : Bundle) (is : List Nat) (p : Pos),
    (is, p) ∈ b.positions ↔ (b.slotAt is p).isSome
  | .mk r lv c ks, is, p => by
    rw [Bundle.positions, List.mem_append, List.mem_map, List.mem_map]
    cases is with
    | nil =>
      show _ ↔ (lv.slot p).isSome
      rw [← Level.mem_positions]
      simp
    | cons i is =>
      show _ ↔ (ks.slotAt i is p).isSome
      rw [← mem_kidsPositions ks]
      simp only [Prod.mk.injEq, List.cons.injEq, reduceCtorEq, false_and, and_false,
        exists_false, false_or]
      constructor
      · rintro ⟨x, hx, ⟨h1, h2⟩, h3⟩
        obtain ⟨x1, x2, x3⟩ := x
        simp only at h1 h2 h3
        subst h1 h2 h3
        exact hx
      · intro h
        exact ⟨_, h, ⟨rfl, rfl⟩, rfl⟩
theorem mem_kidsPositions : ∀ (ks : Kids) (i : Nat) (is : List Nat) (p : Pos),
    (i, is, p) ∈ ks.positions ↔ (ks.slotAt i is p).isSome
  | .nil, i, is, p => by simp [Kids.positions, Kids.slotAt, Kids.get]
  | .cons l b ks, i, is, p => by
    rw [Kids.positions, List.mem_append, List.mem_map, List.mem_map]
    cases i with
    | zero =>
      show _ ↔ (b.slotAt is p).isSome
      rw [← mem_positions b]
      constructor
      · rintro (⟨x, hx, h⟩ | ⟨x, hx, h⟩)
        · obtain ⟨x1, x2⟩ := x
          simp only [Prod.mk.injEq, true_and] at h
          rw [← h.1, ← h.2]
          exact hx
        · simp only [Prod.mk.injEq] at h
          omega
      · intro h
        exact .inl ⟨(is, p), h, rfl⟩
    | succ i =>
      show _ ↔ (ks.slotAt i is p).isSome
      rw [← mem_kidsPositions ks]
      constructor
      · rintro (⟨x, hx, h⟩ | ⟨x, hx, h⟩)
        · simp only [Prod.mk.injEq] at h
          omega
        · obtain ⟨x1, x2, x3⟩ := x
          simp only [Prod.mk.injEq, Nat.add_right_cancel_iff] at h
          rw [← h.1, ← h.2.1, ← h.2.2]
          exact hx
      · intro h
        exact .inr ⟨_, h, rfl⟩
end

theorem nodup_map {α β : Type} {f : α → β} (hf : ∀ x y, f x = f y → x = y) {l : List α}
    (h : l.Nodup) : (l.map f).Nodup := by
  unfold List.Nodup at *
  rw [List.pairwise_map]
  exact h.imp fun hne he => hne (hf _ _ he)

theorem listsPos_nodup (ls : List (Name × List (Name × Slot))) : (listsPos ls).Nodup := by
  induction ls with
  | nil => exact List.nodup_nil
  | cons e es ih =>
    rw [listsPos, List.nodup_append]
    refine ⟨nodup_map (fun x y h => by simpa using h) List.nodup_range,
      nodup_map (fun x y h => ?_) ih, ?_⟩
    · obtain ⟨x1, x2⟩ := x
      obtain ⟨y1, y2⟩ := y
      simp only [Prod.mk.injEq, Nat.add_right_cancel_iff] at h
      rw [h.1, h.2]
    · intro a ha b hb he
      obtain ⟨x, _, rfl⟩ := List.mem_map.1 ha
      obtain ⟨y, _, rfl⟩ := List.mem_map.1 hb
      simp only [Prod.mk.injEq] at he
      omega

theorem Level.positions_nodup (lv : Level) (h : lv.names.Nodup) : lv.positions.Nodup := by
  unfold Level.positions
  unfold Level.names at h
  rw [List.nodup_append] at h ⊢
  refine ⟨?_, nodup_map (fun x y he => ?_) (listsPos_nodup _), ?_⟩
  · have := nodup_map (f := Pos.sig) (fun x y h => Pos.sig.inj h) h.1
    rw [List.map_map] at this
    exact this
  · obtain ⟨x1, x2⟩ := x
    obtain ⟨y1, y2⟩ := y
    simp only [Pos.elem.injEq] at he
    rw [he.1, he.2]
  · intro a ha b hb he
    obtain ⟨x, _, rfl⟩ := List.mem_map.1 ha
    obtain ⟨y, _, rfl⟩ := List.mem_map.1 hb
    cases he

mutual
theorem positions_nodup : ∀ (b : Bundle), b.Distinct → b.positions.Nodup
  | .mk r lv c ks, hb => by
    rw [Bundle.positions, List.nodup_append]
    refine ⟨nodup_map (fun x y h => by simpa using h) (Level.positions_nodup lv hb.1),
      nodup_map (fun x y h => ?_) (kidsPositions_nodup ks hb.2), ?_⟩
    · obtain ⟨x1, x2, x3⟩ := x
      obtain ⟨y1, y2, y3⟩ := y
      simp only [Prod.mk.injEq, List.cons.injEq] at h
      rw [h.1.1, h.1.2, h.2]
    · intro a ha b hb he
      obtain ⟨x, _, rfl⟩ := List.mem_map.1 ha
      obtain ⟨y, _, rfl⟩ := List.mem_map.1 hb
      simp at he
theorem kidsPositions_nodup : ∀ (ks : Kids), ks.Distinct → ks.positions.Nodup
  | .nil, _ => by rw [Kids.positions]; exact List.nodup_nil
  | .cons l b ks, hb => by
    rw [Kids.positions, List.nodup_append]
    refine ⟨nodup_map (fun x y h => ?_) (positions_nodup b hb.1),
      nodup_map (fun x y h => ?_) (kidsPositions_nodup ks hb.2), ?_⟩
    · obtain ⟨x1, x2⟩ := x
      obtain ⟨y1, y2⟩ := y
      simp only [Prod.mk.injEq, true_and] at h
      rw [h.1, h.2]
    · obtain ⟨x1, x2, x3⟩ := x
      obtain ⟨y1, y2, y3⟩ := y
      simp only [Prod.mk.injEq, Nat.add_right_cancel_iff] at h
      rw [h.1, h.2.1, h.2.2]
    · intro a ha b hb he
      obtain ⟨x, _, rfl⟩ := List.mem_map.1 ha
      obtain ⟨y, _, rfl⟩ := List.mem_map.1 hb
      simp only [Prod.mk.injEq] at he
      omega
end

/-! ### Path names -/

/-- Label of the `i`-th child. -/
def Kids.label : Kids → Nat → Option Label
  | .nil, _ => none
  | .cons l _ _, 0 => some l
  | .cons _ _ ks, i + 1 => Kids.label ks i

/-- The text by which a slot is called inside its level: `name` or `list[i]`. -/
def Level.text (lv : Level) : Pos → Option Name
  | .sig n => some n
  | .elem l i => (lv.lists[l]?).map fun e => indexed e.1 i

/-- The path name of a slot: the child labels and the text of the slot, joined by dots. -/
def Bundle.pathOf (level : Name) (b : Bundle) : List Nat → Pos → Option Name
  | [], p => (b.lvl.text p).map (appended level)
  | i :: is, p =>
    (b.kids.label i).bind fun l => (b.kids.get i).bind fun k =>
      Bundle.pathOf (appended level l.text) k is p

def Kids.pathOf (level : Name) (ks : Kids) (i : Nat) (is : List Nat) (p : Pos) : Option Name :=
  (ks.label i).bind fun l => (ks.get i).bind fun k => Bundle.pathOf (appended level l.text) k is p

theorem filterMap_congr' {α β : Type} {f g : α → Option β} {l : List α}
    (h : ∀ x ∈ l, f x = g x) : l.filterMap f = l.filterMap g := by
  induction l with
  | nil => rfl
  | cons x xs ih =>
    have h1 := h x List.mem_cons_self
    have h2 := ih fun y hy => h y (List.mem_cons_of_mem _ hy)
    cases hg : g x with
    | none => rw [List.filterMap_cons_none (h1.trans hg), List.filterMap_cons_none hg, h2]
    | some y => rw [List.filterMap_cons_some (h1.trans hg), List.filterMap_cons_some hg, h2]

theorem listSlots_eq (level name : Name) (i : Nat) (es : List (Name × Slot)) :
    listSlots level name i es = (List.range es.length).filterMap fun j =>
      (es[j]?).map fun e => (appended level (indexed name (i + j)), e.2) := by
  induction es generalizing i with
  | nil => rfl
  | cons e es ih =>
    rw [listSlots, List.length_cons, List.range_succ_eq_map, List.filterMap_cons_some (b :=
      (appended level (indexed name i), e.2)) (by simp), List.filterMap_map, ih]
    congr 1
    apply filterMap_congr'
    intro j _
    simp only [Function.comp, List.getElem?_cons_succ]
    congr 1
    funext e
    rw [show i + 1 + j = i + j.succ by omega]

theorem listRules_eq (level name : Name) (txt : Name → Option Name) (i : Nat)
    (es : List (Name × Slot)) : listRules level name txt i es = (List.range es.length).filterMap fun j =>
      (es[j]?).map fun e => (appended level (indexed name (i + j)), txt e.1) := by
  induction es generalizing i with
  | nil => rfl
  | cons e es ih =>
    rw [listRules, List.length_cons, List.range_succ_eq_map, List.filterMap_cons_some (b :=
      (appended level (indexed name i), txt e.1)) (by simp), List.filterMap_map, ih]
    congr 1
    apply filterMap_congr'
    intro j _
    simp only [Function.comp, List.getElem?_cons_succ]
    congr 1
    funext e
    rw [show i + 1 + j = i + j.succ by omega]

theorem lists_eq {β : Type} (ls : List (Name × List (Name × Slot)))
    (f : Name × List (Name × Slot) → List (Name × β))
    (g : Name × List (Name × Slot) → Nat → Option (Name × β))
    (h : ∀ e, f e = (List.range e.2.length).filterMap fun j => g e j) :
    ls.flatMap f = (listsPos ls).filterMap fun x => (ls[x.1]?).bind fun e => g e x.2 := by
  induction ls with
  | nil => rfl
  | cons e es ih =>
    rw [List.flatMap_cons, listsPos, List.filterMap_append, List.filterMap_map, List.filterMap_map,
      ih, h]
    rfl

theorem signals_eq {β : Type} (cs : List Cell) (hd : (cs.map Cell.name).Nodup) (f : Cell → β) :
    cs.map f = (cs.map fun c => c.name).filterMap fun n =>
      (cs.find? fun c => c.name = n).map f := by
  rw [List.filterMap_map]
  have key : ∀ sub : List Cell, (∀ c ∈ sub, c ∈ cs) →
      sub.map f = sub.filterMap ((fun n => (cs.find? fun c => c.name = n).map f) ∘
        fun c => c.name) := by
    intro sub hsub
    induction sub with
    | nil => rfl
    | cons c sub ih =>
      have hf : (cs.find? fun d => d.name = c.name) = some c := by
        have hc := hsub c List.mem_cons_self
        clear ih hsub
        induction cs with
        | nil => cases hc
        | cons d cs ih =>
          rw [List.map_cons, List.nodup_cons] at hd
          rcases List.mem_cons.1 hc with rfl | hc
          · rw [List.find?_cons_of_pos (by simp)]
          · have hne : ¬ d.name = c.name := by
              intro he
              exact hd.1 (he ▸ List.mem_map_of_mem hc)
            rw [List.find?_cons_of_neg (by simpa using hne)]
            exact ih hd.2 hc
      rw [List.map_cons, List.filterMap_cons_some (b := f c) (by simp [hf]),
        ih fun d hd => hsub d (List.mem_cons_of_mem _ hd)]
  exact key cs fun c hc => hc

mutual
/-- `all_signals` lists every slot, with its path name and its content. -/
theorem allSignals_eq : ∀ (b : Bundle) (level : Name), b.Distinct →
    b.allSignals level = b.positions.filterMap fun x =>
      (b.pathOf level x.1 x.2).bind fun t => (b.slotAt x.1 x.2).map fun s => (t, s)
  | .mk r lv c ks, level, hb => by
    have hsig : (lv.signals.map Cell.name).Nodup := (List.nodup_append.1 hb.1).1
    rw [Bundle.allSignals, Bundle.positions, kidsAllSignals_eq ks level hb.2, List.filterMap_append,
      List.filterMap_map, List.filterMap_map, Level.positions, List.filterMap_append,
      List.filterMap_map, List.filterMap_map]
    congr 1
    congr 1
    · rw [signals_eq lv.signals hsig, List.filterMap_map]
      apply filterMap_congr'
      intro c _
      simp only [Function.comp, Bundle.pathOf, Bundle.slotAt, Bundle.lvl, Level.text, Level.slot,
        Option.map_some, Option.bind_some, Option.map_map]
      cases hf : lv.signals.find? (fun d => d.name = c.name) with
      | none => rfl
      | some d =>
        have := List.find?_some hf
        have : d.name = c.name := by simpa using this
        simp [this]
    · rw [lists_eq lv.lists _ (fun e j => (e.2[j]?).map fun x =>
        (appended level (indexed e.1 j), x.2))]
      · apply filterMap_congr'
        intro x _
        simp only [Function.comp, Bundle.pathOf, Bundle.slotAt, Bundle.lvl, Level.text, Level.slot]
        cases lv.lists[x.1]? with
        | none => rfl
        | some e =>
          simp only [Option.map_some, Option.bind_some]
          cases e.2[x.2]? <;> rfl
      · intro e
        rw [listSlots_eq]
        simp only [Nat.zero_add]
theorem kidsAllSignals_eq : ∀ (ks : Kids) (level : Name), ks.Distinct →
    ks.allSignals level = ks.positions.filterMap fun x =>
      (ks.pathOf level x.1 x.2.1 x.2.2).bind fun t =>
        (ks.slotAt x.1 x.2.1 x.2.2).map fun s => (t, s)
  | .nil, level, _ => by rw [Kids.allSignals, Kids.positions]; rfl
  | .cons l b ks, level, hb => by
    rw [Kids.allSignals, Kids.positions, List.filterMap_append, List.filterMap_map,
      List.filterMap_map, allSignals_eq b _ hb.1, kidsAllSignals_eq ks level hb.2]
    rfl
end

/-! ### Path names are unique -/

/-- A character list without `.` and `[`. -/
def Name.Clean (n : Name) : Prop := '.' ∉ n ∧ '[' ∉ n

def Label.name : Label → Name
  | .sub n => n
  | .elem n _ => n

/-- The labels of the children. -/
def Kids.labels : Kids → List Label
  | .nil => []
  | .cons l _ ks => l :: Kids.labels ks

mutual
/-- Sibling names are distinct and contain neither `.` nor `[`; no child has an empty name. -/
def Bundle.Named : Bundle → Prop
  | .mk _ lv _ ks =>
    (∀ c ∈ lv.signals, Name.Clean c.name) ∧ (∀ l ∈ lv.lists, Name.Clean l.1) ∧
    (lv.lists.map Prod.fst).Nodup ∧ ks.labels.Nodup ∧
    (∀ l ∈ ks.labels, Name.Clean l.name ∧ l.name ≠ []) ∧ Kids.Named ks
def Kids.Named : Kids → Prop
  | .nil => True
  | .cons _ b ks => Bundle.Named b ∧ Kids.Named ks
end

theorem toDigits_inj {i j : Nat} (h : Nat.toDigits 10 i = Nat.toDigits 10 j) : i = j := by
  have h1 := Nat.ofDigitChars_toDigits (b := 10) (n := i) (by decide) (by decide)
  have h2 := Nat.ofDigitChars_toDigits (b := 10) (n := j) (by decide) (by decide)
  rw [h] at h1
  exact h1.symm.trans h2

theorem dot_not_digit (i : Nat) : '.' ∉ Nat.toDigits 10 i := by
  intro h
  have := Nat.isDigit_of_mem_toDigits (by decide) (by decide) h
  revert this
  decide

theorem append_sep_inj {α : Type} {c : α} {a b x y : List α} (ha : c ∉ a) (hb : c ∉ b)
    (h : a ++ c :: x = b ++ c :: y) : a = b ∧ x = y := by
  induction a generalizing b with
  | nil =>
    cases b with
    | nil => simpa using h
    | cons d b =>
      simp only [List.nil_append, List.cons_append, List.cons.injEq] at h
      exact absurd (h.1 ▸ List.mem_cons_self) hb
  | cons d a ih =>
    cases b with
    | nil =>
      simp only [List.nil_append, List.cons_append, List.cons.injEq] at h
      exact absurd (h.1 ▸ List.mem_cons_self) ha
    | cons e b =>
      simp only [List.cons_append, List.cons.injEq] at h
      obtain ⟨h1, h2⟩ := ih (fun hm => ha (List.mem_cons_of_mem _ hm))
        (fun hm => hb (List.mem_cons_of_mem _ hm)) h.2
      exact ⟨by rw [h.1, h1], h2⟩

theorem indexed_inj {n m : Name} {i j : Nat} (hn : Name.Clean n) (hm : Name.Clean m)
    (h : indexed n i = indexed m j) : n = m ∧ i = j := by
  unfold indexed at h
  obtain ⟨h1, h2⟩ := append_sep_inj hn.2 hm.2 h
  exact ⟨h1, toDigits_inj (List.append_cancel_right h2)⟩

theorem indexed_dot {n : Name} (hn : Name.Clean n) (i : Nat) : '.' ∉ indexed n i := by
  unfold indexed
  simp only [List.mem_append, List.mem_cons, not_or]
  exact ⟨hn.1, by decide, dot_not_digit i, by decide, by simp⟩

theorem indexed_bracket (n : Name) (i : Nat) : '[' ∈ indexed n i := by
  unfold indexed
  simp

theorem Label.text_dot {l : Label} (h : Name.Clean l.name) : '.' ∉ l.text := by
  cases l with
  | sub n => exact h.1
  | elem n i => exact indexed_dot h i

theorem Label.text_ne {l : Label} (h : l.name ≠ []) : l.text ≠ [] := by
  cases l with
  | sub n => exact h
  | elem n i => simp [Label.text, indexed]

theorem Label.text_inj {l m : Label} (hl : Name.Clean l.name) (hm : Name.Clean m.name)
    (h : l.text = m.text) : l = m := by
  cases l with
  | sub n =>
    cases m with
    | sub k => exact congrArg Label.sub h
    | elem k j =>
      have h : n = indexed k j := h
      exact absurd (h ▸ indexed_bracket k j) hl.2
  | elem n i =>
    cases m with
    | sub k =>
      have h : indexed n i = k := h
      exact absurd (h ▸ indexed_bracket n i) hm.2
    | elem k j =>
      obtain ⟨h1, h2⟩ := indexed_inj hl hm h
      subst h1
      subst h2
      rfl

theorem Level.text_dot {lv : Level} (h1 : ∀ c ∈ lv.signals, Name.Clean c.name)
    (h2 : ∀ l ∈ lv.lists, Name.Clean l.1) {p : Pos} {t : Name} (hs : (lv.slot p).isSome)
    (h : lv.text p = some t) : '.' ∉ t := by
  cases p with
  | sig n =>
    simp only [Level.text, Option.some.injEq] at h
    subst h
    simp only [Level.slot, Option.isSome_map, List.find?_isSome, decide_eq_true_eq] at hs
    obtain ⟨c, hc, rfl⟩ := hs
    exact (h1 c hc).1
  | elem l i =>
    simp only [Level.text] at h
    cases hl : lv.lists[l]? with
    | none => rw [hl] at h; cases h
    | some e =>
      rw [hl] at h
      have h := Option.some.inj h
      subst h
      exact indexed_dot (h2 e (List.mem_of_getElem? hl)) i

theorem Level.text_inj {lv : Level} (h1 : ∀ c ∈ lv.signals, Name.Clean c.name)
    (h2 : ∀ l ∈ lv.lists, Name.Clean l.1) (h3 : (lv.lists.map Prod.fst).Nodup) {p q : Pos} {t : Name}
    (hp : (lv.slot p).isSome) (hq : (lv.slot q).isSome) (h : lv.text p = some t)
    (h' : lv.text q = some t) : p = q := by
  cases p with
  | sig n =>
    simp only [Level.text, Option.some.injEq] at h
    subst h
    simp only [Level.slot, Option.isSome_map, List.find?_isSome, decide_eq_true_eq] at hp
    obtain ⟨c, hc, rfl⟩ := hp
    cases q with
    | sig m =>
      simp only [Level.text, Option.some.injEq] at h'
      rw [h']
    | elem l i =>
      simp only [Level.text] at h'
      cases hl : lv.lists[l]? with
      | none => rw [hl] at h'; cases h'
      | some e =>
        rw [hl] at h'
        have h' := Option.some.inj h'
        exact absurd (h' ▸ indexed_bracket e.1 i) (h1 c hc).2
  | elem l i =>
    simp only [Level.text] at h
    cases hl : lv.lists[l]? with
    | none => rw [hl] at h; cases h
    | some e =>
      rw [hl] at h
      have h := Option.some.inj h
      subst h
      cases q with
      | sig m =>
        simp only [Level.text, Option.some.injEq] at h'
        subst h'
        simp only [Level.slot, Option.isSome_map, List.find?_isSome, decide_eq_true_eq] at hq
        obtain ⟨c, hc, he⟩ := hq
        exact absurd (he ▸ indexed_bracket e.1 i) (h1 c hc).2
      | elem l' i' =>
        simp only [Level.text] at h'
        cases hl' : lv.lists[l']? with
        | none => rw [hl'] at h'; cases h'
        | some e' =>
          rw [hl'] at h'
          have h' := Option.some.inj h'
          obtain ⟨he, hi⟩ := indexed_inj (h2 _ (List.mem_of_getElem? hl'))
            (h2 _ (List.mem_of_getElem? hl)) h'
          subst hi
          congr 1
          have hlt := (List.getElem?_eq_some_iff.1 hl).1
          refine (List.getElem?_inj (by rw [List.length_map]; exact hlt) h3).1 ?_
          rw [List.getElem?_map, List.getElem?_map, hl, hl', Option.map_some, Option.map_some, he]

theorem Kids.named_get {ks : Kids} (h : ks.Named) {i : Nat} {k : Bundle}
    (hk : ks.get i = some k) : k.Named := by
  induction i generalizing ks with
  | zero =>
    cases ks with
    | nil => cases hk
    | cons l b ks => cases hk; exact h.1
  | succ i ih =>
    cases ks with
    | nil => cases hk
    | cons l b ks => exact ih h.2 hk

theorem Kids.label_eq (ks : Kids) (i : Nat) : ks.label i = ks.labels[i]? := by
  induction i generalizing ks with
  | zero => cases ks <;> rfl
  | succ i ih =>
    cases ks with
    | nil => rfl
    | cons l b ks => simpa [Kids.label, Kids.labels] using ih ks

theorem pathOf_level (k : Bundle) (is : List Nat) (p : Pos) (a b : Name)
    (h : (k.pathOf a is p).isSome) : (k.pathOf b is p).isSome := by
  induction is generalizing k a b with
  | nil => simpa [Bundle.pathOf] using h
  | cons i is ih =>
    simp only [Bundle.pathOf] at h ⊢
    cases hl : k.kids.label i with
    | none => rw [hl] at h; cases h
    | some l =>
      rw [hl] at h
      cases hk : k.kids.get i with
      | none => rw [hk] at h; cases h
      | some k' =>
        rw [hk] at h
        exact ih k' _ _ h

theorem pathOf_gen (is : List Nat) (p : Pos) (k : Bundle) (u : Name) (hkn : k.Named)
    (hu : k.pathOf [] is p = some u) (lev : Name) (hlev : lev ≠ []) :
    k.pathOf lev is p = some (lev ++ '.' :: u) := by
  induction is generalizing k u lev with
  | nil =>
    simp only [Bundle.pathOf] at hu ⊢
    cases hx : k.lvl.text p with
    | none => rw [hx] at hu; cases hu
    | some x =>
      rw [hx] at hu
      have hu := Option.some.inj hu
      rw [Option.map_some]
      have : u = x := by rw [← hu]; simp [appended]
      rw [this]
      simp [appended, hlev]
  | cons i' is ih =>
    obtain ⟨r', lv', c', ks'⟩ := k
    simp only [Bundle.pathOf, Bundle.kids] at hu ⊢
    cases hl' : ks'.label i' with
    | none => rw [hl'] at hu; cases hu
    | some l' =>
      rw [hl'] at hu
      cases hk' : ks'.get i' with
      | none => rw [hk'] at hu; cases hu
      | some k' =>
        rw [hk'] at hu
        simp only [Option.bind_some] at hu ⊢
        have hlm' : l' ∈ ks'.labels := by
          rw [Kids.label_eq] at hl'
          exact List.mem_of_getElem? hl'
        have hne' : l'.text ≠ [] := Label.text_ne (hkn.2.2.2.2.1 l' hlm').2
        have hkn' := Kids.named_get hkn.2.2.2.2.2 hk'
        obtain ⟨w, hw⟩ := Option.isSome_iff_exists.1
          (pathOf_level k' is p _ [] (by rw [hu]; rfl))
        have e1 := ih k' w hkn' hw (appended [] l'.text) (by simpa [appended] using hne')
        rw [hu] at e1
        have e1 := Option.some.inj e1
        have e2 := ih k' w hkn' hw (appended lev l'.text) (by simp [appended, hlev])
        rw [e2, e1]
        simp [appended, hlev]

/-- The path name relative to the level of the bundle. -/
theorem pathOf_rel {b : Bundle} (hb : b.Named) (is : List Nat) (p : Pos) (level t : Name)
    (h : b.pathOf level is p = some t) : ∃ u, b.pathOf [] is p = some u ∧ t = appended level u := by
  obtain ⟨u, hu⟩ := Option.isSome_iff_exists.1 (pathOf_level b is p level [] (by rw [h]; rfl))
  refine ⟨u, hu, ?_⟩
  by_cases hl : level = []
  · subst hl
    rw [hu] at h
    simpa [appended] using h.symm
  · rw [pathOf_gen is p b u hb hu level hl] at h
    simpa [appended, hl] using h.symm

theorem pathOf_inj {b : Bundle} (hb : b.Named) {is is' : List Nat} {p p' : Pos} {t : Name}
    (hs : (b.slotAt is p).isSome) (hs' : (b.slotAt is' p').isSome)
    (h : b.pathOf [] is p = some t) (h' : b.pathOf [] is' p' = some t) : is = is' ∧ p = p' := by
  have inside : ∀ (b : Bundle), b.Named → ∀ i is p t, (b.slotAt (i :: is) p).isSome →
      b.pathOf [] (i :: is) p = some t →
      ∃ l k u, b.kids.label i = some l ∧ b.kids.get i = some k ∧ k.pathOf [] is p = some u ∧
        t = l.text ++ '.' :: u ∧ Name.Clean l.name ∧ k.Named ∧ (k.slotAt is p).isSome := by
    intro b hb i is p t hs h
    obtain ⟨r, lv, c, ks⟩ := b
    simp only [Bundle.pathOf, Bundle.kids] at h ⊢
    cases hl : ks.label i with
    | none => rw [hl] at h; cases h
    | some l =>
      rw [hl] at h
      cases hk : ks.get i with
      | none => rw [hk] at h; cases h
      | some k =>
        rw [hk] at h
        simp only [Option.bind_some] at h
        have hlm : l ∈ ks.labels := by
          rw [Kids.label_eq] at hl
          exact List.mem_of_getElem? hl
        have hne : l.text ≠ [] := Label.text_ne (hb.2.2.2.2.1 l hlm).2
        have hkn := Kids.named_get hb.2.2.2.2.2 hk
        obtain ⟨u, hu, he⟩ := pathOf_rel hkn is p _ t h
        refine ⟨l, k, u, rfl, rfl, hu, ?_, (hb.2.2.2.2.1 l hlm).1, hkn, ?_⟩
        · rw [he]
          simp [appended, hne]
        · have : (Bundle.mk r lv c ks).slotAt (i :: is) p = k.slotAt is p := by
            show (ks.get i).bind _ = _
            rw [hk]
            rfl
          rw [← this]
          exact hs
  have top : ∀ (b : Bundle), b.Named → ∀ p t, (b.slotAt [] p).isSome →
      b.pathOf [] [] p = some t → b.lvl.text p = some t ∧ '.' ∉ t := by
    intro b hb p t hs h
    obtain ⟨r, lv, c, ks⟩ := b
    simp only [Bundle.pathOf, Bundle.lvl] at h ⊢
    cases hx : lv.text p with
    | none => rw [hx] at h; cases h
    | some x =>
      rw [hx] at h
      have h : x = t := by simpa [appended] using h
      subst h
      exact ⟨rfl, Level.text_dot hb.1 hb.2.1 hs hx⟩
  induction is generalizing b is' t with
  | nil =>
    obtain ⟨h1, h2⟩ := top b hb p t hs h
    cases is' with
    | nil =>
      obtain ⟨h3, _⟩ := top b hb p' t hs' h'
      refine ⟨rfl, ?_⟩
      obtain ⟨r, lv, c, ks⟩ := b
      exact Level.text_inj hb.1 hb.2.1 hb.2.2.1 hs hs' h1 h3
    | cons i is' =>
      obtain ⟨l, k, u, _, _, _, he, _, _, _⟩ := inside b hb i is' p' t hs' h'
      exact absurd (he ▸ by simp) h2
  | cons i is ih =>
    obtain ⟨l, k, u, hl, hk, hu, he, hc, hkn, hks⟩ := inside b hb i is p t hs h
    cases is' with
    | nil =>
      obtain ⟨_, h2⟩ := top b hb p' t hs' h'
      exact absurd (he ▸ by simp) h2
    | cons j is' =>
      obtain ⟨l', k', u', hl', hk', hu', he', hc', hkn', hks'⟩ := inside b hb j is' p' t hs' h'
      obtain ⟨e1, e2⟩ := append_sep_inj (Label.text_dot hc) (Label.text_dot hc') (he.symm.trans he')
      have hll := Label.text_inj hc hc' e1
      subst hll
      subst e2
      obtain ⟨r, lv, c, ks⟩ := b
      have hij : i = j := by
        have hl : ks.label i = some l := hl
        have hl' : ks.label j = some l := hl'
        rw [Kids.label_eq] at hl hl'
        have hlt := (List.getElem?_eq_some_iff.1 hl).1
        exact (List.getElem?_inj hlt hb.2.2.2.1).1 (hl.trans hl'.symm)
      subst hij
      have hkk : k = k' := Option.some.inj (hk.symm.trans hk')
      subst hkk
      obtain ⟨e3, e4⟩ := ih hkn hks hks' hu hu'
      exact ⟨by rw [e3], e4⟩

theorem Kids.label_of_get {ks : Kids} {i : Nat} {k : Bundle} (hk : ks.get i = some k) :
    ∃ l, ks.label i = some l := by
  induction i generalizing ks with
  | zero => cases ks with
    | nil => cases hk
    | cons l b ks => exact ⟨l, rfl⟩
  | succ i ih => cases ks with
    | nil => cases hk
    | cons l b ks => exact ih hk

theorem pathOf_isSome {b : Bundle} (is : List Nat) (p : Pos) (level : Name)
    (hs : (b.slotAt is p).isSome) : (b.pathOf level is p).isSome := by
  induction is generalizing b level with
  | nil =>
    simp only [Bundle.pathOf, Option.isSome_map]
    cases p with
    | sig n => rfl
    | elem l i =>
      simp only [Bundle.slotAt, Level.slot, Level.text] at *
      cases hl : b.lvl.lists[l]? with
      | none => rw [hl] at hs; cases hs
      | some e => rfl
  | cons i is ih =>
    obtain ⟨r, lv, c, ks⟩ := b
    have hs : ((ks.get i).bind fun k => k.slotAt is p).isSome := hs
    simp only [Bundle.pathOf, Bundle.kids]
    cases hk : ks.get i with
    | none => rw [hk] at hs; cases hs
    | some k =>
      rw [hk] at hs
      obtain ⟨l, hl⟩ := Kids.label_of_get hk
      rw [hl]
      exact ih _ hs

end Toffee.Bundle
