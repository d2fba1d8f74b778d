import Verif.Model.BundleStr

/-! C123: the text of a bundle. -/

namespace Toffee.BundleStr

/-! ### Specification -/

mutual
/-- What `str` gives for every signal of the bundle, on all levels; `none` for a signal without attribute. -/
def Bun.slots : Bun → List (Option Text)
  | .mk _ signals lists subs blists =>
    signals.map Prod.snd ++ (lists.flatMap fun l => l.2.map some) ++ subs.slots ++ blists.slots
def Subs.slots : Subs → List (Option Text)
  | .nil => []
  | .cons _ b rest => b.slots ++ rest.slots
def BLists.slots : BLists → List (Option Text)
  | .nil => []
  | .cons _ bs rest => bs.slots ++ rest.slots
def Elems.slots : Elems → List (Option Text)
  | .nil => []
  | .cons b rest => b.slots ++ rest.slots
end

mutual
/-- The bundle without the values: the classes, the names, and the numbers of elements. -/
def Bun.shape : Bun → Bun
  | .mk cls signals lists subs blists =>
    .mk cls (signals.map fun q => (q.1, none)) (lists.map fun l => (l.1, l.2.map fun _ => [])) subs.shape blists.shape
def Subs.shape : Subs → Subs
  | .nil => .nil
  | .cons n b rest => .cons n b.shape rest.shape
def BLists.shape : BLists → BLists
  | .nil => .nil
  | .cons n bs rest => .cons n bs.shape rest.shape
def Elems.shape : Elems → Elems
  | .nil => .nil
  | .cons b rest => .cons b.shape rest.shape
end

/-- The parentheses of a text match, `d` of them being open, and commas are in parentheses only. -/
def plain : Nat → Text → Bool
  | d, [] => d == 0
  | d, c :: t =>
    if c = '(' then plain (d + 1) t
    else if c = ')' then d != 0 && plain (d - 1) t
    else if c = ',' then d != 0 && plain d t
    else plain d t

/-- `name: value` -/
def entry (n v : Text) : Text := n ++ ':' :: ' ' :: v

/-- `cls(a, b, c)` -/
def listing (cls : Text) (items : List Text) : Text := cls ++ '(' :: ([',', ' '].intercalate items ++ [')'])

mutual
/-- The text as it should be: all items, separated by commas; `none` stands for any text here. -/
def Bun.text : Bun → Text
  | .mk cls signals lists subs blists =>
    listing cls ((signals.map fun q => entry q.1 (q.2.getD [])) ++
      (lists.map fun l => entry l.1 (listing "SignalList".toList (l.2.zipIdx.map fun v => entry (toString v.2).toList v.1))) ++
      subs.texts ++ blists.texts)
def Subs.texts : Subs → List Text
  | .nil => []
  | .cons n b rest => entry n b.text :: rest.texts
def BLists.texts : BLists → List Text
  | .nil => []
  | .cons n bs rest => entry n (listing "BundleList".toList (bs.texts 0)) :: rest.texts
def Elems.texts (i : Nat) : Elems → List Text
  | .nil => []
  | .cons b rest => entry (toString i).toList b.text :: rest.texts (i + 1)
end

mutual
/-- Every bundle of the tree has a signal of its own, or nothing at all. -/
def Bun.Own : Bun → Prop
  | .mk _ signals lists subs blists => (signals = [] → lists = [] ∧ subs = .nil ∧ blists = .nil) ∧ subs.Own ∧ blists.Own
def Subs.Own : Subs → Prop
  | .nil => True
  | .cons _ b rest => b.Own ∧ rest.Own
def BLists.Own : BLists → Prop
  | .nil => True
  | .cons _ bs rest => bs.Own ∧ rest.Own
def Elems.Own : Elems → Prop
  | .nil => True
  | .cons b rest => b.Own ∧ rest.Own
end

theorem item_entry (n v : Text) : item n v = entry n v := by simp [item, entry]

theorem num_toString (i : Nat) : num i = (toString i).toList := by
  show _ = (Nat.repr i).toList
  simp [num, Nat.repr]

theorem join_intercalate : ∀ l : List Text, join l = [',', ' '].intercalate l
  | [] => rfl
  | [x] => by simp [join, List.intercalate]
  | x :: y :: l => by
    rw [join, join_intercalate (y :: l)]
    simp [List.intercalate, sep]

theorem paren_listing (cls : Text) (l : List Text) : paren cls (join l) = listing cls l := by
  rw [join_intercalate]
  simp [paren, listing]

/-! ### When `str` returns -/

theorem sigItems_some (l : List (Text × Option Text)) : (sigItems l).isSome = true ↔ none ∉ l.map Prod.snd := by
  induction l with
  | nil => simp [sigItems]
  | cons q l ih =>
    obtain ⟨n, v⟩ := q
    cases v with
    | none => simp [sigItems]
    | some v => simpa [sigItems] using ih

mutual
theorem Bun.str_some : ∀ b : Bun, b.str.isSome = true ↔ none ∉ b.slots
  | .mk cls signals lists subs blists => by
    have h1 := sigItems_some signals
    have h2 := Subs.str_some subs
    have h3 := BLists.str_some blists
    have h4 : (none : Option Text) ∉ lists.flatMap fun l => l.2.map some := by simp
    simp only [Bun.str, Bun.slots, List.mem_append, not_or, ← h1, ← h2, ← h3, h4, not_false_eq_true, and_true]
    cases sigItems signals <;> cases subs.items <;> cases blists.items <;> simp
theorem Subs.str_some : ∀ l : Subs, l.items.isSome = true ↔ none ∉ l.slots
  | .nil => by simp [Subs.items, Subs.slots]
  | .cons n b rest => by
    have h1 := Bun.str_some b
    have h2 := Subs.str_some rest
    simp only [Subs.items, Subs.slots, List.mem_append, not_or, ← h1, ← h2]
    cases b.str <;> cases rest.items <;> simp
theorem BLists.str_some : ∀ l : BLists, l.items.isSome = true ↔ none ∉ l.slots
  | .nil => by simp [BLists.items, BLists.slots]
  | .cons n bs rest => by
    have h1 := Elems.str_some bs 0
    have h2 := BLists.str_some rest
    simp only [BLists.items, BLists.slots, List.mem_append, not_or, ← h1, ← h2]
    cases bs.items 0 <;> cases rest.items <;> simp
theorem Elems.str_some : ∀ (l : Elems) (i : Nat), (l.items i).isSome = true ↔ none ∉ l.slots
  | .nil, _ => by simp [Elems.items, Elems.slots]
  | .cons b rest, i => by
    have h1 := Bun.str_some b
    have h2 := Elems.str_some rest (i + 1)
    simp only [Elems.items, Elems.slots, List.mem_append, not_or, ← h1, ← h2]
    cases b.str <;> cases rest.items (i + 1) <;> simp
end

/-- **C123.** `str(bundle)` returns if and only if every signal, on all levels, has its attribute. -/
theorem C123_returns (b : Bun) : (∃ t, b.str = some t) ↔ none ∉ b.slots := by
  rw [← Bun.str_some, Option.isSome_iff_exists]

/-- **C123** (violated): a bundle whose signals are given by the list `signals` can not be printed before it is bound, nor can
any bundle that contains it. -/
theorem C123_unbound_violated (cls n : Text) (l : List (Text × Option Text)) (lists : List (Text × List Text)) (subs : Subs)
    (blists : BLists) : (Bun.mk cls ((n, none) :: l) lists subs blists).str = none := by
  cases h : (Bun.mk cls ((n, none) :: l) lists subs blists).str with
  | none => rfl
  | some t => exact absurd ((C123_returns _).1 ⟨t, h⟩) (by simp [Bun.slots])

/-! ### The text determines the values -/

/-- What may follow a value. -/
def Delim (r : Text) : Prop := r = [] ∨ ∃ c t, r = c :: t ∧ (c = ',' ∨ c = ')')

/-- Where both texts end, and what they stand for, is determined by what they are part of. -/
def Uniq (x y : Text) (E : Prop) : Prop := ∀ r1 r2, Delim r1 → Delim r2 → x ++ r1 = y ++ r2 → E ∧ r1 = r2

theorem Uniq.imp {x y : Text} {E F : Prop} (h : Uniq x y E) (hf : E → F) : Uniq x y F :=
  fun r1 r2 h1 h2 he => ⟨hf (h r1 r2 h1 h2 he).1, (h r1 r2 h1 h2 he).2⟩

theorem plain_uniq (v : Text) : ∀ (w : Text) (d : Nat), plain d v = true → plain d w = true → ∀ r1 r2, Delim r1 →
    v ++ r1 = w ++ r2 → v.length ≤ w.length → v = w := by
  induction v with
  | nil =>
    intro w d h1 h2 r1 r2 hr he _
    have hd : d = 0 := by simpa [plain] using h1
    subst hd
    cases w with
    | nil => rfl
    | cons c w =>
      exfalso
      rw [List.nil_append] at he
      rcases hr with h | ⟨c', t, h, hc⟩
      · rw [h] at he; cases he
      · rw [h] at he
        cases he
        rcases hc with hc | hc <;> subst hc <;> simp [plain] at h2
  | cons c v ih =>
    intro w d h1 h2 r1 r2 hr he hl
    cases w with
    | nil => simp at hl
    | cons c' w =>
      simp only [List.cons_append, List.cons.injEq] at he
      obtain ⟨hc, he⟩ := he
      subst hc
      have hl' : v.length ≤ w.length := by simpa using hl
      simp only [plain] at h1 h2
      congr 1
      by_cases e1 : c = '('
      · rw [if_pos e1] at h1 h2
        exact ih w (d + 1) h1 h2 r1 r2 hr he hl'
      · rw [if_neg e1] at h1 h2
        by_cases e2 : c = ')'
        · rw [if_pos e2, Bool.and_eq_true] at h1 h2
          exact ih w (d - 1) h1.2 h2.2 r1 r2 hr he hl'
        · rw [if_neg e2] at h1 h2
          by_cases e3 : c = ','
          · rw [if_pos e3, Bool.and_eq_true] at h1 h2
            exact ih w d h1.2 h2.2 r1 r2 hr he hl'
          · rw [if_neg e3] at h1 h2
            exact ih w d h1 h2 r1 r2 hr he hl'

/-- Two values. -/
theorem uniq_plain {v w : Text} (hv : plain 0 v = true) (hw : plain 0 w = true) : Uniq v w (v = w) := by
  intro r1 r2 h1 h2 he
  have : v = w := by
    by_cases hl : v.length ≤ w.length
    · exact plain_uniq v w 0 hv hw r1 r2 h1 he hl
    · exact (plain_uniq w v 0 hw hv r2 r1 h2 he.symm (by omega)).symm
  subst this
  exact ⟨rfl, List.append_cancel_left he⟩

theorem uniq_item {n v w : Text} {E : Prop} (h : Uniq v w E) : Uniq (item n v) (item n w) E := by
  intro r1 r2 h1 h2 he
  simp only [item, List.append_assoc] at he
  exact h r1 r2 h1 h2 (List.append_cancel_left (List.append_cancel_left he))

theorem uniq_paren {c v w : Text} {E : Prop} (h : Uniq v w E) : Uniq (paren c v) (paren c w) E := by
  intro r1 r2 h1 h2 he
  simp only [paren, List.append_assoc] at he
  obtain ⟨h3, h4⟩ := h ([')'] ++ r1) ([')'] ++ r2) (.inr ⟨')', r1, rfl, .inr rfl⟩) (.inr ⟨')', r2, rfl, .inr rfl⟩)
    (List.append_cancel_left (List.append_cancel_left he))
  exact ⟨h3, List.append_cancel_left h4⟩

/-- Lists of items that stand for one another. -/
inductive U : List Text → List Text → Prop → Prop
  | nil : U [] [] True
  | cons {x y l l' E F} : x ≠ [] → y ≠ [] → Uniq x y E → U l l' F → U (x :: l) (y :: l') (E ∧ F)

theorem delim_sep (r : Text) : Delim (sep ++ r) := .inr ⟨',', ' ' :: r, rfl, .inl rfl⟩

theorem uniq_join {l l' : List Text} {E : Prop} (h : U l l' E) : Uniq (join l) (join l') E := by
  induction h with
  | nil => intro r1 r2 _ _ he; exact ⟨trivial, he⟩
  | @cons x y l l' E F _ _ hx hl ih =>
    intro r1 r2 h1 h2 he
    cases hl with
    | nil =>
      obtain ⟨h3, h4⟩ := hx r1 r2 h1 h2 he
      exact ⟨⟨h3, trivial⟩, h4⟩
    | cons _ _ _ _ =>
      simp only [join, List.append_assoc] at he
      obtain ⟨h3, h4⟩ := hx _ _ (delim_sep _) (delim_sep _) he
      obtain ⟨h5, h6⟩ := ih r1 r2 h1 h2 (List.append_cancel_left h4)
      exact ⟨⟨h3, h5⟩, h6⟩

theorem join_nil {l l' : List Text} {E : Prop} (h : U l l' E) : join l = [] ↔ join l' = [] := by
  cases h with
  | nil => exact Iff.rfl
  | cons hx hy _ hl =>
    cases hl with
    | nil => simp [join, hx, hy]
    | cons _ _ _ _ => simp [join, hx, hy]

theorem uniq_append {s t p q : Text} {E F : Prop} (h : Uniq s t E) (h' : Uniq p q F) (hpq : p = [] ↔ q = []) :
    Uniq (append s p) (append t q) (E ∧ F) := by
  intro r1 r2 h1 h2 he
  unfold append at he
  by_cases hp : p = []
  · have hq := hpq.1 hp
    rw [if_pos hp, if_pos hq] at he
    obtain ⟨h3, h4⟩ := h r1 r2 h1 h2 he
    exact ⟨⟨h3, (h' [] [] (.inl rfl) (.inl rfl) (by rw [hp, hq])).1⟩, h4⟩
  · have hq := fun e => hp (hpq.2 e)
    rw [if_neg hp, if_neg hq] at he
    simp only [List.append_assoc] at he
    obtain ⟨h3, h4⟩ := h _ _ (delim_sep _) (delim_sep _) he
    obtain ⟨h5, h6⟩ := h' r1 r2 h1 h2 (List.append_cancel_left h4)
    exact ⟨⟨h3, h5⟩, h6⟩

theorem item_ne (n v : Text) : item n v ≠ [] := by simp [item]

theorem U.imp {l l' : List Text} {E F : Prop} (h : U l l' E) (hf : E → F) : ∃ F', U l l' F' ∧ (F' → F) := ⟨E, h, hf⟩

theorem sig_u : ∀ (g1 g2 : List (Text × Option Text)) (l1 l2 : List Text),
    (g1.map fun q => (q.1, (none : Option Text))) = (g2.map fun q => (q.1, none)) →
    (∀ v, some v ∈ g1.map Prod.snd → plain 0 v = true) → (∀ v, some v ∈ g2.map Prod.snd → plain 0 v = true) →
    sigItems g1 = some l1 → sigItems g2 = some l2 → ∃ E, U l1 l2 E ∧ (E → g1 = g2) := by
  intro g1
  induction g1 with
  | nil =>
    intro g2 l1 l2 hs h1 h2 e1 e2
    cases g2 with
    | nil => cases e1; cases e2; exact ⟨_, .nil, fun _ => rfl⟩
    | cons _ _ => cases hs
  | cons q g1 ih =>
    intro g2 l1 l2 hs h1 h2 e1 e2
    cases g2 with
    | nil => cases hs
    | cons q' g2 =>
      obtain ⟨n, v⟩ := q
      obtain ⟨n', v'⟩ := q'
      simp only [List.map_cons, List.cons.injEq, Prod.mk.injEq, and_true] at hs
      obtain ⟨hn, hs⟩ := hs
      subst hn
      cases v with
      | none => cases e1
      | some v =>
        cases v' with
        | none => cases e2
        | some v' =>
          simp only [sigItems, Option.map_eq_some_iff] at e1 e2
          obtain ⟨k1, e1, rfl⟩ := e1
          obtain ⟨k2, e2, rfl⟩ := e2
          obtain ⟨E, hu, hE⟩ := ih g2 k1 k2 hs (fun v h => h1 v (by simp [h])) (fun v h => h2 v (by simp [h])) e1 e2
          refine ⟨_, .cons (item_ne _ _) (item_ne _ _) (uniq_item (uniq_plain (h1 v (by simp)) (h2 v' (by simp)))) hu, ?_⟩
          rintro ⟨hv, he⟩
          rw [hv, hE he]

theorem idx_u : ∀ (v1 v2 : List Text) (i : Nat), v1.length = v2.length → (∀ v ∈ v1, plain 0 v = true) → (∀ v ∈ v2, plain 0 v = true) →
    ∃ E, U (idxItems i v1) (idxItems i v2) E ∧ (E → v1 = v2) := by
  intro v1
  induction v1 with
  | nil =>
    intro v2 i hl _ _
    cases v2 with
    | nil => exact ⟨_, .nil, fun _ => rfl⟩
    | cons _ _ => simp at hl
  | cons v v1 ih =>
    intro v2 i hl h1 h2
    cases v2 with
    | nil => simp at hl
    | cons v' v2 =>
      obtain ⟨E, hu, hE⟩ := ih v2 (i + 1) (by simpa using hl) (fun v h => h1 v (by simp [h])) (fun v h => h2 v (by simp [h]))
      refine ⟨_, .cons (item_ne _ _) (item_ne _ _) (uniq_item (uniq_plain (h1 v (by simp)) (h2 v' (by simp)))) hu, ?_⟩
      rintro ⟨hv, he⟩
      rw [hv, hE he]

theorem list_u : ∀ (l1 l2 : List (Text × List Text)),
    (l1.map fun l => (l.1, l.2.map fun _ => ([] : Text))) = (l2.map fun l => (l.1, l.2.map fun _ => [])) →
    (∀ l ∈ l1, ∀ v ∈ l.2, plain 0 v = true) → (∀ l ∈ l2, ∀ v ∈ l.2, plain 0 v = true) →
    ∃ E, U (l1.map fun l => item l.1 (strList l.2)) (l2.map fun l => item l.1 (strList l.2)) E ∧ (E → l1 = l2) := by
  intro l1
  induction l1 with
  | nil =>
    intro l2 hs _ _
    cases l2 with
    | nil => exact ⟨_, .nil, fun _ => rfl⟩
    | cons _ _ => cases hs
  | cons q l1 ih =>
    intro l2 hs h1 h2
    cases l2 with
    | nil => cases hs
    | cons q' l2 =>
      obtain ⟨n, v⟩ := q
      obtain ⟨n', v'⟩ := q'
      simp only [List.map_cons, List.cons.injEq, Prod.mk.injEq] at hs
      obtain ⟨⟨hn, hl⟩, hs⟩ := hs
      subst hn
      obtain ⟨E, hu, hE⟩ := ih l2 hs (fun l h => h1 l (by simp [h])) (fun l h => h2 l (by simp [h]))
      obtain ⟨F, hv, hF⟩ := idx_u v v' 0 (by simpa using congrArg List.length hl) (h1 (n, v) (by simp)) (h2 (n, v') (by simp))
      refine ⟨_, .cons (item_ne _ _) (item_ne _ _) (uniq_item (uniq_paren (uniq_join hv))) hu, ?_⟩
      rintro ⟨hf, he⟩
      rw [hF hf, hE he]

/-- All values are plain. -/
def Good (l : List (Option Text)) : Prop := ∀ v, some v ∈ l → plain 0 v = true

theorem Good.left {l l' : List (Option Text)} (h : Good (l ++ l')) : Good l := fun v hv => h v (List.mem_append_left _ hv)
theorem Good.right {l l' : List (Option Text)} (h : Good (l ++ l')) : Good l' := fun v hv => h v (List.mem_append_right _ hv)

mutual
theorem Bun.uniq : ∀ (b1 b2 : Bun) (s1 s2 : Text), b1.shape = b2.shape → Good b1.slots → Good b2.slots → b1.str = some s1 →
    b2.str = some s2 → Uniq s1 s2 (b1 = b2)
  | .mk c1 g1 l1 u1 w1, .mk c2 g2 l2 u2 w2, s1, s2, h, k1, k2, e1, e2 => by
    simp only [Bun.shape, Bun.mk.injEq] at h
    obtain ⟨hc, hg, hl, hu, hw⟩ := h
    subst hc
    simp only [Bun.slots] at k1 k2
    simp only [Bun.str] at e1 e2
    cases a1 : sigItems g1 with
    | none => rw [a1] at e1; cases e1
    | some x1 =>
    cases a2 : sigItems g2 with
    | none => rw [a2] at e2; cases e2
    | some x2 =>
    cases b1 : u1.items with
    | none => rw [a1, b1] at e1; cases e1
    | some y1 =>
    cases b2 : u2.items with
    | none => rw [a2, b2] at e2; cases e2
    | some y2 =>
    cases d1 : w1.items with
    | none => rw [a1, b1, d1] at e1; cases e1
    | some z1 =>
    cases d2 : w2.items with
    | none => rw [a2, b2, d2] at e2; cases e2
    | some z2 =>
    rw [a1, b1, d1] at e1
    rw [a2, b2, d2] at e2
    cases e1
    cases e2
    obtain ⟨E, hE, fE⟩ := sig_u g1 g2 x1 x2 hg k1.left.left.left k2.left.left.left a1 a2
    obtain ⟨F, hF, fF⟩ := list_u l1 l2 hl
      (fun l h v hv => k1.left.left.right v (List.mem_flatMap.2 ⟨l, h, List.mem_map.2 ⟨v, hv, rfl⟩⟩))
      (fun l h v hv => k2.left.left.right v (List.mem_flatMap.2 ⟨l, h, List.mem_map.2 ⟨v, hv, rfl⟩⟩))
    obtain ⟨H, hH, fH⟩ := Subs.uniq u1 u2 y1 y2 hu k1.left.right k2.left.right b1 b2
    obtain ⟨K, hK, fK⟩ := BLists.uniq w1 w2 z1 z2 hw k1.right k2.right d1 d2
    refine (uniq_paren (uniq_append (uniq_append (uniq_append (uniq_join hE) (uniq_join hF) (join_nil hF)) (uniq_join hH)
      (join_nil hH)) (uniq_join hK) (join_nil hK))).imp ?_
    rintro ⟨⟨⟨h1, h2⟩, h3⟩, h4⟩
    rw [fE h1, fF h2, fH h3, fK h4]
theorem Subs.uniq : ∀ (l1 l2 : Subs) (s1 s2 : List Text), l1.shape = l2.shape → Good l1.slots → Good l2.slots → l1.items = some s1 →
    l2.items = some s2 → ∃ E, U s1 s2 E ∧ (E → l1 = l2)
  | .nil, .nil, s1, s2, _, _, _, e1, e2 => by cases e1; cases e2; exact ⟨_, .nil, fun _ => rfl⟩
  | .nil, .cons _ _ _, _, _, h, _, _, _, _ => by simp [Subs.shape] at h
  | .cons _ _ _, .nil, _, _, h, _, _, _, _ => by simp [Subs.shape] at h
  | .cons n b1 r1, .cons n' b2 r2, s1, s2, h, k1, k2, e1, e2 => by
    simp only [Subs.shape, Subs.cons.injEq] at h
    obtain ⟨hn, hb, hr⟩ := h
    subst hn
    simp only [Subs.slots] at k1 k2
    simp only [Subs.items] at e1 e2
    cases a1 : b1.str with
    | none => rw [a1] at e1; cases e1
    | some x1 =>
    cases a2 : b2.str with
    | none => rw [a2] at e2; cases e2
    | some x2 =>
    cases d1 : r1.items with
    | none => rw [a1, d1] at e1; cases e1
    | some y1 =>
    cases d2 : r2.items with
    | none => rw [a2, d2] at e2; cases e2
    | some y2 =>
    rw [a1, d1] at e1
    rw [a2, d2] at e2
    cases e1
    cases e2
    have hB := Bun.uniq b1 b2 x1 x2 hb k1.left k2.left a1 a2
    obtain ⟨E, hE, fE⟩ := Subs.uniq r1 r2 y1 y2 hr k1.right k2.right d1 d2
    refine ⟨_, .cons (item_ne _ _) (item_ne _ _) (uniq_item hB) hE, ?_⟩
    rintro ⟨h1, h2⟩
    rw [h1, fE h2]
theorem BLists.uniq : ∀ (l1 l2 : BLists) (s1 s2 : List Text), l1.shape = l2.shape → Good l1.slots → Good l2.slots →
    l1.items = some s1 → l2.items = some s2 → ∃ E, U s1 s2 E ∧ (E → l1 = l2)
  | .nil, .nil, s1, s2, _, _, _, e1, e2 => by cases e1; cases e2; exact ⟨_, .nil, fun _ => rfl⟩
  | .nil, .cons _ _ _, _, _, h, _, _, _, _ => by simp [BLists.shape] at h
  | .cons _ _ _, .nil, _, _, h, _, _, _, _ => by simp [BLists.shape] at h
  | .cons n b1 r1, .cons n' b2 r2, s1, s2, h, k1, k2, e1, e2 => by
    simp only [BLists.shape, BLists.cons.injEq] at h
    obtain ⟨hn, hb, hr⟩ := h
    subst hn
    simp only [BLists.slots] at k1 k2
    simp only [BLists.items] at e1 e2
    cases a1 : b1.items 0 with
    | none => rw [a1] at e1; cases e1
    | some x1 =>
    cases a2 : b2.items 0 with
    | none => rw [a2] at e2; cases e2
    | some x2 =>
    cases d1 : r1.items with
    | none => rw [a1, d1] at e1; cases e1
    | some y1 =>
    cases d2 : r2.items with
    | none => rw [a2, d2] at e2; cases e2
    | some y2 =>
    rw [a1, d1] at e1
    rw [a2, d2] at e2
    cases e1
    cases e2
    obtain ⟨F, hF, fF⟩ := Elems.uniq b1 b2 0 x1 x2 hb k1.left k2.left a1 a2
    obtain ⟨E, hE, fE⟩ := BLists.uniq r1 r2 y1 y2 hr k1.right k2.right d1 d2
    refine ⟨_, .cons (item_ne _ _) (item_ne _ _) (uniq_item (uniq_paren (uniq_join hF))) hE, ?_⟩
    rintro ⟨h1, h2⟩
    rw [fF h1, fE h2]
theorem Elems.uniq : ∀ (l1 l2 : Elems) (i : Nat) (s1 s2 : List Text), l1.shape = l2.shape → Good l1.slots → Good l2.slots →
    l1.items i = some s1 → l2.items i = some s2 → ∃ E, U s1 s2 E ∧ (E → l1 = l2)
  | .nil, .nil, i, s1, s2, _, _, _, e1, e2 => by cases e1; cases e2; exact ⟨_, .nil, fun _ => rfl⟩
  | .nil, .cons _ _, _, _, _, h, _, _, _, _ => by simp [Elems.shape] at h
  | .cons _ _, .nil, _, _, _, h, _, _, _, _ => by simp [Elems.shape] at h
  | .cons b1 r1, .cons b2 r2, i, s1, s2, h, k1, k2, e1, e2 => by
    simp only [Elems.shape, Elems.cons.injEq] at h
    obtain ⟨hb, hr⟩ := h
    simp only [Elems.slots] at k1 k2
    simp only [Elems.items] at e1 e2
    cases a1 : b1.str with
    | none => rw [a1] at e1; cases e1
    | some x1 =>
    cases a2 : b2.str with
    | none => rw [a2] at e2; cases e2
    | some x2 =>
    cases d1 : r1.items (i + 1) with
    | none => rw [a1, d1] at e1; cases e1
    | some y1 =>
    cases d2 : r2.items (i + 1) with
    | none => rw [a2, d2] at e2; cases e2
    | some y2 =>
    rw [a1, d1] at e1
    rw [a2, d2] at e2
    cases e1
    cases e2
    have hB := Bun.uniq b1 b2 x1 x2 hb k1.left k2.left a1 a2
    obtain ⟨E, hE, fE⟩ := Elems.uniq r1 r2 (i + 1) y1 y2 hr k1.right k2.right d1 d2
    refine ⟨_, .cons (item_ne _ _) (item_ne _ _) (uniq_item hB) hE, ?_⟩
    rintro ⟨h1, h2⟩
    rw [h1, fE h2]
end

/-- **C123.** The text shows all values: two bundles of one class (or one bundle at two times) with the same text have the
same value in every signal on every level, whatever the names are. -/
theorem C123_values (b1 b2 : Bun) (t : Text) (hs : b1.shape = b2.shape) (h1 : ∀ v, some v ∈ b1.slots → plain 0 v = true)
    (h2 : ∀ v, some v ∈ b2.slots → plain 0 v = true) (e1 : b1.str = some t) (e2 : b2.str = some t) : b1 = b2 :=
  (Bun.uniq b1 b2 t t hs h1 h2 e1 e2 [] [] (.inl rfl) (.inl rfl) rfl).1

/-! ### The format -/

theorem join_append (l l' : List Text) (hl : l ≠ []) (hl' : l' ≠ []) : join (l ++ l') = join l ++ sep ++ join l' := by
  induction l with
  | nil => exact absurd rfl hl
  | cons x l ih =>
    cases l with
    | nil =>
      cases l' with
      | nil => exact absurd rfl hl'
      | cons y l' => rfl
    | cons z l =>
      show x ++ sep ++ join ((z :: l) ++ l') = x ++ sep ++ join (z :: l) ++ sep ++ join l'
      rw [ih (by simp)]
      simp [List.append_assoc]

/-- No text of the list is empty. -/
def NE (l : List Text) : Prop := ∀ x ∈ l, x ≠ []

theorem join_eq_nil {l : List Text} (h : NE l) : join l = [] ↔ l = [] := by
  match l with
  | [] => simp [join]
  | [x] => simp [join, h x (by simp)]
  | x :: y :: l => simp [join, h x (by simp)]

theorem append_join (l l' : List Text) (hl : l = [] → l' = []) (h' : NE l') : append (join l) (join l') = join (l ++ l') := by
  unfold append
  by_cases e : l' = []
  · subst e; simp [join]
  · rw [if_neg (fun h => e ((join_eq_nil h').1 h)), join_append l l' (fun h => e (hl h)) e]

theorem sigItems_eq {l : List (Text × Option Text)} {k : List Text} : sigItems l = some k →
    k = l.map fun q => entry q.1 (q.2.getD []) := by
  induction l generalizing k with
  | nil => intro h; cases h; rfl
  | cons q l ih =>
    obtain ⟨n, v⟩ := q
    cases v with
    | none => intro h; cases h
    | some v =>
      intro h
      simp only [sigItems, Option.map_eq_some_iff] at h
      obtain ⟨k', h, rfl⟩ := h
      rw [ih h, item_entry]; rfl

theorem idxItems_eq (l : List Text) : ∀ i, idxItems i l = (l.zipIdx i).map fun v => entry (toString v.2).toList v.1 := by
  induction l with
  | nil => intro i; rfl
  | cons v l ih => intro i; simp [idxItems, ih, item_entry, num_toString]

theorem subs_ne : ∀ l : Subs, NE l.texts
  | .nil => by intro x hx; simp [Subs.texts] at hx
  | .cons n b rest => by
    intro x hx
    simp only [Subs.texts, List.mem_cons] at hx
    rcases hx with h | h
    · rw [h, ← item_entry]; exact item_ne _ _
    · exact subs_ne rest x h

theorem blists_ne : ∀ l : BLists, NE l.texts
  | .nil => by intro x hx; simp [BLists.texts] at hx
  | .cons n bs rest => by
    intro x hx
    simp only [BLists.texts, List.mem_cons] at hx
    rcases hx with h | h
    · rw [h, ← item_entry]; exact item_ne _ _
    · exact blists_ne rest x h

mutual
theorem Bun.text_eq : ∀ (b : Bun) (t : Text), b.Own → b.str = some t → t = b.text
  | .mk cls signals lists subs blists, t, ho, h => by
    simp only [Bun.Own] at ho
    obtain ⟨ho, hos, hob⟩ := ho
    simp only [Bun.str] at h
    cases a : sigItems signals with
    | none => rw [a] at h; cases h
    | some x =>
    cases b : subs.items with
    | none => rw [a, b] at h; cases h
    | some y =>
    cases c : blists.items with
    | none => rw [a, b, c] at h; cases h
    | some z =>
    rw [a, b, c] at h
    cases h
    have hx := sigItems_eq a
    have hy := Subs.text_eq subs y hos b
    have hz := BLists.text_eq blists z hob c
    have hl : NE (lists.map fun l => item l.1 (strList l.2)) := by
      intro v hv
      obtain ⟨l, _, rfl⟩ := List.mem_map.1 hv
      exact item_ne _ _
    have e1 : x = [] → lists = [] ∧ subs = .nil ∧ blists = .nil := by
      intro e
      rw [hx] at e
      exact ho (List.map_eq_nil_iff.1 e)
    rw [append_join _ _ (fun e => by rw [(e1 e).1]; rfl) hl, append_join _ _ ?_ (by rw [hy]; exact subs_ne subs),
      append_join _ _ ?_ (by rw [hz]; exact blists_ne blists)]
    · simp only [Bun.text, hx, hy, hz, strList, idxItems_eq, paren_listing, item_entry]
    · intro e
      simp only [List.append_eq_nil_iff] at e
      rw [hz, (e1 e.1.1).2.2]; rfl
    · intro e
      simp only [List.append_eq_nil_iff] at e
      rw [hy, (e1 e.1).2.1]; rfl
theorem Subs.text_eq : ∀ (l : Subs) (t : List Text), l.Own → l.items = some t → t = l.texts
  | .nil, t, _, h => by cases h; rfl
  | .cons n b rest, t, ho, h => by
    simp only [Subs.Own] at ho
    simp only [Subs.items] at h
    cases a : b.str with
    | none => rw [a] at h; cases h
    | some x =>
    cases c : rest.items with
    | none => rw [a, c] at h; cases h
    | some y =>
    rw [a, c] at h
    cases h
    rw [Subs.texts, item_entry, Bun.text_eq b x ho.1 a, Subs.text_eq rest y ho.2 c]
theorem BLists.text_eq : ∀ (l : BLists) (t : List Text), l.Own → l.items = some t → t = l.texts
  | .nil, t, _, h => by cases h; rfl
  | .cons n bs rest, t, ho, h => by
    simp only [BLists.Own] at ho
    simp only [BLists.items] at h
    cases a : bs.items 0 with
    | none => rw [a] at h; cases h
    | some x =>
    cases c : rest.items with
    | none => rw [a, c] at h; cases h
    | some y =>
    rw [a, c] at h
    cases h
    rw [BLists.texts, item_entry, paren_listing, Elems.text_eq bs 0 x ho.1 a, BLists.text_eq rest y ho.2 c]
theorem Elems.text_eq : ∀ (l : Elems) (i : Nat) (t : List Text), l.Own → l.items i = some t → t = l.texts i
  | .nil, i, t, _, h => by cases h; rfl
  | .cons b rest, i, t, ho, h => by
    simp only [Elems.Own] at ho
    simp only [Elems.items] at h
    cases a : b.str with
    | none => rw [a] at h; cases h
    | some x =>
    cases c : rest.items (i + 1) with
    | none => rw [a, c] at h; cases h
    | some y =>
    rw [a, c] at h
    cases h
    rw [Elems.texts, item_entry, num_toString, Bun.text_eq b x ho.1 a, Elems.text_eq rest (i + 1) y ho.2 c]
end

/-- **C123** (partial): the text is the class with all items, separated by commas, on all levels, if every bundle that has
something has a signal of its own.  Missing: bundles without signals of their own (`C123_comma_violated`). -/
theorem C123_format_partial (b : Bun) (h : none ∉ b.slots) (ho : b.Own) : b.str = some b.text := by
  obtain ⟨t, ht⟩ := (C123_returns b).2 h
  rw [ht, Bun.text_eq b t ho ht]

theorem append_sep {s p : Text} (h : s = [] ∨ ∃ r, s = sep ++ r) (h' : s ≠ [] ∨ p ≠ []) : ∃ r, append s p = sep ++ r := by
  unfold append
  by_cases hp : p = []
  · rw [if_pos hp]
    rcases h with h | h
    · rcases h' with h' | h'
      · exact absurd h h'
      · exact absurd hp h'
    · exact h
  · rw [if_neg hp]
    rcases h with h | ⟨r, h⟩
    · exact ⟨p, by rw [h]; rfl⟩
    · exact ⟨r ++ sep ++ p, by rw [h]; simp [List.append_assoc]⟩

theorem append_sep' {s p : Text} (h : s = [] ∨ ∃ r, s = sep ++ r) : append s p = [] ∨ ∃ r, append s p = sep ++ r := by
  by_cases hs : s = []
  · by_cases hp : p = []
    · exact .inl (by rw [hs, hp]; rfl)
    · exact .inr (append_sep h (.inr hp))
  · exact .inr (append_sep h (.inl hs))

theorem join_cons_ne {x : Text} (l : List Text) (h : x ≠ []) : join (x :: l) ≠ [] := by
  cases l <;> simp [join, h]

/-- **C123** (violated): the text of a bundle that has no signals of its own, but signal lists, sub-bundles or bundle lists,
begins with a comma: `Top(, sub: ...)`. -/
theorem C123_comma_violated (cls : Text) (lists : List (Text × List Text)) (subs : Subs) (blists : BLists) (t : Text)
    (h : lists ≠ [] ∨ subs ≠ .nil ∨ blists ≠ .nil) (ht : (Bun.mk cls [] lists subs blists).str = some t) :
    ∃ r, t = cls ++ "(, ".toList ++ r := by
  simp only [Bun.str, sigItems] at ht
  cases b : subs.items with
  | none => rw [b] at ht; cases ht
  | some y =>
  cases c : blists.items with
  | none => rw [b, c] at ht; cases ht
  | some z =>
  rw [b, c] at ht
  cases ht
  have key : ∃ r, append (append (append (join []) (join (lists.map fun l => item l.1 (strList l.2)))) (join y)) (join z) =
      sep ++ r := by
    have h0 : join [] = [] ∨ ∃ r, join [] = sep ++ r := .inl rfl
    by_cases hz : join z = []
    · have hbn : blists = .nil := by
        cases blists with
        | nil => rfl
        | cons n bs rest =>
          simp only [BLists.items] at c
          cases a1 : bs.items 0 with
          | none => rw [a1] at c; cases c
          | some x =>
          cases a2 : rest.items with
          | none => rw [a1, a2] at c; cases c
          | some w =>
          rw [a1, a2] at c
          cases c
          exact absurd hz (join_cons_ne _ (item_ne _ _))
      refine append_sep (append_sep' (append_sep' h0)) (.inl ?_)
      suffices ∃ r, append (append (join []) (join (lists.map fun l => item l.1 (strList l.2)))) (join y) = sep ++ r by
        obtain ⟨r, hr⟩ := this
        rw [hr]; simp [sep]
      by_cases hy : join y = []
      · have hsn : subs = .nil := by
          cases subs with
          | nil => rfl
          | cons n bs rest =>
            simp only [Subs.items] at b
            cases a1 : bs.str with
            | none => rw [a1] at b; cases b
            | some x =>
            cases a2 : rest.items with
            | none => rw [a1, a2] at b; cases b
            | some w =>
            rw [a1, a2] at b
            cases b
            exact absurd hy (join_cons_ne _ (item_ne _ _))
        refine append_sep (append_sep' h0) (.inl ?_)
        have hl : lists ≠ [] := by
          rcases h with h | h | h
          · exact h
          · exact absurd hsn h
          · exact absurd hbn h
        have hj : join (lists.map fun l => item l.1 (strList l.2)) ≠ [] := by
          cases lists with
          | nil => exact absurd rfl hl
          | cons l ls => exact join_cons_ne _ (item_ne _ _)
        obtain ⟨r, hr⟩ := append_sep h0 (.inr hj)
        rw [hr]; simp [sep]
      · exact append_sep (append_sep' h0) (.inr hy)
    · exact append_sep (append_sep' (append_sep' h0)) (.inr hz)
  obtain ⟨r, hr⟩ := key
  rw [hr]
  exact ⟨r ++ [')'], by simp [paren, sep, List.append_assoc]⟩

/-! ### Examples -/

/-- A bundle with two signals and a list, inside of one with a signal; `b` is not connected. -/
def exInner (v : Text) : Bun :=
  .mk "Inner".toList [("a".toList, some v), ("b".toList, some unconnected)] [("d".toList, ["7".toList, "8".toList])] .nil .nil

def exOuter (v : Text) : Bun :=
  .mk "Outer".toList [("clk".toList, some "0".toList)] [] (.cons "sub".toList (exInner v) .nil)
    (.cons "chans".toList (.cons (exInner "1".toList) .nil) .nil)

example : (exOuter "5".toList).str = some ("Outer(clk: 0, sub: Inner(a: 5, b: UnconnectedSignal(), d: SignalList(0: 7, 1: 8)), " ++
    "chans: BundleList(0: Inner(a: 1, b: UnconnectedSignal(), d: SignalList(0: 7, 1: 8))))").toList := by
  decide +kernel

example : none ∉ (exOuter "5".toList).slots := by decide +kernel

example : (exOuter "5".toList).Own := by
  simp [exOuter, exInner, Bun.Own, Subs.Own, BLists.Own, Elems.Own]

example : (exOuter "5".toList).slots.all (fun o => o.all (plain 0)) = true := by decide +kernel

/-- `Top(, sub: Inner(...))` -/
example : (Bun.mk "Top".toList [] [] (.cons "sub".toList (.mk "In".toList [("a".toList, some "1".toList)] [] .nil .nil) .nil) .nil).str =
    some "Top(, sub: In(a: 1))".toList := by decide +kernel

end Toffee.BundleStr
