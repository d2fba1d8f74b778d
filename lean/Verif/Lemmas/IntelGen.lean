import Mathlib.Data.List.Perm.Basic
import Mathlib.Data.List.Flatten
import Mathlib.Data.List.Nodup
import Verif.Model.IntelGen
import Verif.Lemmas.Dict

/-!
Lemmas about the generator of nested bundles: texts, hashes, and which nodes share a class.
-/

namespace Toffee.IntelGen

/-! ### Spec: what a tree contains -/

/-- The nodes on a path below `t`, for each of them whether it is a signal; `none` if there is no
such path. -/
def marks : List Text → Tree → Option (List Bool)
  | [], _ => some []
  | n :: p, t => (Dict.get? t.kids n).bind fun c => (marks p c).map (c.val :: ·)

/-- All of them are signals (and there is one). -/
def AllSig (fl : List Bool) : Prop := fl ≠ [] ∧ ∀ b ∈ fl, b = true

/-- After the first signal on the path there are only signals, and there is one. -/
def Mono : List Bool → Prop
  | [] => False
  | true :: r => ∀ b ∈ r, b = true
  | false :: r => Mono r

def Flat (t : Tree) (p : List Text) : Prop := ∃ fl, marks p t = some fl ∧ AllSig fl
def Kept (t : Tree) (p : List Text) : Prop := ∃ fl, marks p t = some fl ∧ Mono fl

/-- The interpreter: hashes do not collide and are not the numbers 0 to 3, iterating over a set visits
its elements in some order. -/
structure Ideal (py : Py) : Prop where
  inj : ∀ a b, py.hash a = py.hash b → a = b
  perm : ∀ l, (py.order l).Perm l
  big : ∀ a, ∀ k : Nat, k ≤ 3 → py.hash a ≠ k

/-- A name without underscore that is not the text of a hash. -/
def NameOk (py : Py) (n : Text) : Prop := '_' ∉ n ∧ ∀ a, str (py.hash a) ≠ n

/-- With `b`, no bundle called `2` is a signal as well; without, no bundle called `3` is not. -/
def Apart (b : Bool) (n : Text) (leaf : Nat) : Prop :=
  if b then leaf = 3 → n ≠ ['2'] else leaf = 2 → n ≠ ['3']

mutual
/-- A tree the generator is made for: every node is a signal or has children, the names of siblings
differ, names are `NameOk`, and there is no bundle called `2` that is also a signal or no bundle called
`3` that is not (`Apart`). -/
def Tree.Fine (py : Py) (b : Bool) : Tree → Prop
  | .mk v f => (v = true ∨ f.toList ≠ []) ∧ f.Fine py b
def Forest.Fine (py : Py) (b : Bool) : Forest → Prop
  | .nil => True
  | .cons n t rest => NameOk py n ∧ n ∉ rest.toList.map Prod.fst ∧
      Apart b n t.leaf ∧ t.Fine py b ∧ rest.Fine py b
end

/-! ### Trees -/

variable {b : Bool}

theorem leaf_le (t : Tree) : t.leaf ≤ 3 := by
  unfold Tree.leaf; split <;> split <;> decide

theorem leaf_sig (t : Tree) : t.leaf &&& 1 ≠ 0 ↔ t.val = true := by
  unfold Tree.leaf; split <;> split <;> simp_all

theorem leaf_bun (t : Tree) : t.leaf &&& 2 ≠ 0 ↔ t.kids ≠ [] := by
  unfold Tree.leaf; split <;> split <;> simp_all

theorem leaf_val {t u : Tree} (h : t.leaf = u.leaf) : t.val = u.val := by
  have h1 := leaf_sig t
  have h2 := leaf_sig u
  rw [h] at h1
  cases ht : t.val <;> cases hu : u.val <;> simp_all

theorem forest_fine {py : Py} {f : Forest} (h : f.Fine py b) :
    (f.toList.map Prod.fst).Nodup ∧ ∀ k ∈ f.toList, NameOk py k.1 ∧
      Apart b k.1 k.2.leaf ∧ k.2.Fine py b := by
  match f with
  | .nil => simp [Forest.toList]
  | .cons n t rest =>
    unfold Forest.Fine at h
    obtain ⟨h1, h2, h3, h4, h5⟩ := h
    have ih := forest_fine h5
    refine ⟨?_, ?_⟩
    · simp only [Forest.toList, List.map_cons, List.nodup_cons]
      exact ⟨h2, ih.1⟩
    · intro k hk
      simp only [Forest.toList, List.mem_cons] at hk
      rcases hk with rfl | hk
      · exact ⟨h1, h3, h4⟩
      · exact ih.2 k hk

theorem fine_kids {py : Py} {t : Tree} (h : t.Fine py b) :
    (t.kids.map Prod.fst).Nodup ∧ ∀ k ∈ t.kids, NameOk py k.1 ∧
      Apart b k.1 k.2.leaf ∧ k.2.Fine py b := by
  cases t with
  | mk v f => unfold Tree.Fine at h; exact forest_fine h.2

theorem fine_leaf {py : Py} {t : Tree} (h : t.Fine py b) : t.leaf ≠ 0 := by
  cases t with
  | mk v f =>
    unfold Tree.Fine at h
    unfold Tree.leaf Tree.val Tree.kids
    rcases h.1 with rfl | h
    · simp only [if_true]; split <;> decide
    · simp only [h, if_false]; split <;> decide

/-! ### Texts -/

/-- Texts put together with underscores in front. -/
def joined (l : List Text) : Text := l.flatMap ('_' :: ·)

/-- Empty or starting with an underscore. -/
def Tail (s : Text) : Prop := s = [] ∨ ∃ r, s = '_' :: r

theorem tail_joined (l : List Text) : Tail (joined l) := by
  cases l with
  | nil => exact .inl rfl
  | cons s l => exact .inr ⟨s ++ joined l, by simp [joined]⟩

theorem takeWhile_tail {n s : Text} (hn : '_' ∉ n) (hs : Tail s) :
    (n ++ s).takeWhile (· ≠ '_') = n := by
  rw [List.takeWhile_append_of_pos]
  · rcases hs with rfl | ⟨r, rfl⟩ <;> simp
  · intro a ha; simp; rintro rfl; exact hn ha

theorem head_inj {n n' s s' : Text} (hn : '_' ∉ n) (hn' : '_' ∉ n') (hs : Tail s) (hs' : Tail s')
    (h : n ++ s = n' ++ s') : n = n' ∧ s = s' := by
  have h1 := congrArg (List.takeWhile (· ≠ '_')) h
  rw [takeWhile_tail hn hs, takeWhile_tail hn' hs'] at h1
  subst h1
  exact ⟨rfl, List.append_cancel_left h⟩

theorem joined_inj {l l' : List Text} (h : ∀ s ∈ l, '_' ∉ s) (h' : ∀ s ∈ l', '_' ∉ s)
    (he : joined l = joined l') : l = l' := by
  induction l generalizing l' with
  | nil => cases l' with
    | nil => rfl
    | cons s l' => simp [joined] at he
  | cons s l ih => cases l' with
    | nil => simp [joined] at he
    | cons s' l' =>
      have he' : s ++ joined l = s' ++ joined l' := by simpa [joined] using he
      obtain ⟨h1, h2⟩ := head_inj (h s (by simp)) (h' s' (by simp)) (tail_joined l) (tail_joined l') he'
      rw [h1, ih (fun s hs => h s (by simp [hs])) (fun s hs => h' s (by simp [hs])) h2]

theorem str_us (i : Int) : '_' ∉ str i := by
  cases i with
  | ofNat n => exact Nat.underscore_not_in_toDigits
  | negSucc n =>
    unfold str
    intro h
    rcases List.mem_cons.1 h with h | h
    · exact absurd h (by decide)
    · exact Nat.underscore_not_in_toDigits h

theorem digits_inj {a b : Nat} (h : Nat.toDigits 10 a = Nat.toDigits 10 b) : a = b := by
  have := congrArg (Nat.ofDigitChars 10 · 0) h
  simpa [Nat.ofDigitChars_toDigits] using this

theorem digits_minus (a : Nat) (l : Text) : Nat.toDigits 10 a ≠ '-' :: l := by
  intro h
  have := Nat.isDigit_of_mem_toDigits (b := 10) (n := a) (c := '-') (by decide) (by decide) (by simp [h])
  exact absurd this (by decide)

theorem str_inj {i j : Int} (h : str i = str j) : i = j := by
  cases i <;> cases j <;> unfold str at h
  · rw [digits_inj h]
  · exact absurd h (digits_minus _ _)
  · exact absurd h.symm (digits_minus _ _)
  · have := digits_inj (List.cons.inj h).2
    congr 1; omega

/-! ### Hashes -/

theorem foldl_joined (l : List Elt) (r : Text) :
    l.foldl (fun r e => r ++ ('_' :: e.text)) r = r ++ joined (l.map Elt.text) := by
  induction l generalizing r with
  | nil => simp [joined]
  | cons e l ih => rw [List.foldl_cons, ih]; simp [joined]

/-- The names among the elements have no underscore. -/
def Clean (s : List Elt) : Prop := ∀ e ∈ s, '_' ∉ e.text

theorem setHash_perm {py : Py} (hp : Ideal py) {s s' : List Elt} (hs : Clean s) (hs' : Clean s')
    (h : setHash py s = setHash py s') : (s.map Elt.text).Perm (s'.map Elt.text) := by
  have h1 := hp.inj _ _ h
  rw [foldl_joined, foldl_joined] at h1
  have h2 := joined_inj (by
      intro x hx
      obtain ⟨e, he, rfl⟩ := List.mem_map.1 hx
      exact hs e ((hp.perm s).mem_iff.1 he)) (by
      intro x hx
      obtain ⟨e, he, rfl⟩ := List.mem_map.1 hx
      exact hs' e ((hp.perm s').mem_iff.1 he)) (List.append_cancel_left h1)
  exact (((hp.perm s).map _).symm.trans (by rw [h2])).trans ((hp.perm s').map _)

/-- The key of a son in `logs`. -/
def sonHash (py : Py) (n : Text) (leaf : Nat) (inside : Int) : Int :=
  setHash py (add (.num leaf) (add (.num inside) (add (.name n) [])))

mutual
/-- The set `sons` returned by the visit of a tree. -/
def sonsT (py : Py) : Tree → List Elt
  | .mk _ f => sonsF py f []
def sonsF (py : Py) : Forest → List Elt → List Elt
  | .nil, s => s
  | .cons n t rest, s => sonsF py rest (add (.num (sonHash py n t.leaf (setHash py (sonsT py t)))) s)
end

/-- The key of a tree in `insides`. -/
def ihash (py : Py) (t : Tree) : Int := setHash py (sonsT py t)

/-- The key of a child in `logs`. -/
def key (py : Py) (k : Text × Tree) : Elt := .num (sonHash py k.1 k.2.leaf (ihash py k.2))

theorem mem_add {e x : Elt} {s : List Elt} : x ∈ add e s ↔ x = e ∨ x ∈ s := by
  unfold add; split
  · constructor
    · exact .inr
    · rintro (rfl | h) <;> assumption
  · simp [or_comm]

theorem nodup_add {e : Elt} {s : List Elt} (h : s.Nodup) : (add e s).Nodup := by
  unfold add; split
  · exact h
  · rename_i hn
    rw [List.nodup_append]
    refine ⟨h, by simp, ?_⟩
    intro a ha b hb
    rw [List.mem_singleton] at hb
    rintro rfl
    exact hn (hb ▸ ha)

theorem mem_sonsF (py : Py) (f : Forest) (s : List Elt) (e : Elt) :
    e ∈ sonsF py f s ↔ e ∈ s ∨ ∃ k ∈ f.toList, e = key py k := by
  match f with
  | .nil => simp [sonsF, Forest.toList]
  | .cons n t rest =>
    unfold sonsF
    rw [mem_sonsF py rest, mem_add]
    simp only [Forest.toList, List.mem_cons, key, ihash]
    constructor
    · rintro ((h | h) | ⟨k, hk, h⟩)
      · exact .inr ⟨_, .inl rfl, h⟩
      · exact .inl h
      · exact .inr ⟨k, .inr hk, h⟩
    · rintro (h | ⟨k, rfl | hk, h⟩)
      · exact .inl (.inr h)
      · exact .inl (.inl h)
      · exact .inr ⟨k, hk, h⟩

theorem mem_sonsT (py : Py) (t : Tree) (e : Elt) : e ∈ sonsT py t ↔ ∃ k ∈ t.kids, e = key py k := by
  cases t with
  | mk v f => unfold sonsT; rw [mem_sonsF]; simp [Tree.kids]

theorem nodup_sonsF (py : Py) (f : Forest) (s : List Elt) (h : s.Nodup) : (sonsF py f s).Nodup := by
  match f with
  | .nil => exact h
  | .cons n t rest => unfold sonsF; exact nodup_sonsF py rest _ (nodup_add h)

theorem nodup_sonsT (py : Py) (t : Tree) : (sonsT py t).Nodup := by
  cases t with
  | mk v f => exact nodup_sonsF py f [] List.nodup_nil

theorem clean_sonsT (py : Py) (t : Tree) : Clean (sonsT py t) := by
  intro e he
  obtain ⟨k, _, rfl⟩ := (mem_sonsT py t e).1 he
  exact str_us _

/-- Two trees with the same key have children with the same keys. -/
theorem ihash_sons {py : Py} (hp : Ideal py) {t u : Tree} (h : ihash py t = ihash py u) (e : Elt) :
    e ∈ sonsT py t → e ∈ sonsT py u := by
  intro he
  have hperm := setHash_perm hp (clean_sonsT py t) (clean_sonsT py u) h
  have h1 : e.text ∈ (sonsT py u).map Elt.text := hperm.mem_iff.1 (List.mem_map_of_mem he)
  obtain ⟨e', he', h2⟩ := List.mem_map.1 h1
  obtain ⟨k, _, rfl⟩ := (mem_sonsT py t e).1 he
  obtain ⟨k', _, h3⟩ := (mem_sonsT py u e').1 he'
  subst h3
  have : key py k' = key py k := congrArg Elt.num (str_inj h2)
  rw [← this]; exact he'

theorem ihash_empty {py : Py} (hp : Ideal py) {t u : Tree} (h : ihash py t = ihash py u)
    (ht : t.kids ≠ []) : u.kids ≠ [] := by
  obtain ⟨k, hk⟩ := List.exists_mem_of_ne_nil _ ht
  obtain ⟨k', hk', _⟩ := (mem_sonsT py u _).1 (ihash_sons hp h _ ((mem_sonsT py t _).2 ⟨k, hk, rfl⟩))
  exact List.ne_nil_of_mem hk'

theorem cur_eq {py : Py} (hp : Ideal py) {n : Text} {l : Nat} (hl : l ≤ 3) (s : List Elt) :
    add (.num l) (add (.num (setHash py s)) (add (.name n) [])) =
      [.name n, .num (setHash py s), .num l] := by
  have h1 : (Elt.num l) ≠ .num (setHash py s) := by
    intro h; exact hp.big _ l hl (Elt.num.inj h).symm
  unfold add
  simp [h1]

theorem sonHash_inj {py : Py} (hp : Ideal py) {n n' : Text} {l l' : Nat} {s s' : List Elt}
    (hn : NameOk py n) (hn' : NameOk py n') (hl : l ≤ 3) (hl' : l' ≤ 3)
    (h : sonHash py n l (setHash py s) = sonHash py n' l' (setHash py s')) :
    setHash py s = setHash py s' ∧ ((n = n' ∧ l = l') ∨ (n = str l' ∧ n' = str l)) := by
  unfold sonHash at h
  rw [cur_eq hp hl, cur_eq hp hl'] at h
  have hc : ∀ (n : Text) (i : Int) (l : Nat), NameOk py n → Clean [.name n, .num i, .num l] := by
    intro n i l hn e he
    simp only [List.mem_cons, List.not_mem_nil, or_false] at he
    rcases he with rfl | rfl | rfl
    · exact hn.1
    · exact str_us i
    · exact str_us l
  have hperm := setHash_perm hp (hc n _ l hn) (hc n' _ l' hn') h
  simp only [List.map_cons, List.map_nil, Elt.text] at hperm
  have hi : setHash py s = setHash py s' := by
    have : str (setHash py s) ∈ [n', str (setHash py s'), str l'] := hperm.mem_iff.1 (by simp)
    simp only [List.mem_cons, List.not_mem_nil, or_false] at this
    rcases this with h | h | h
    · exact absurd h (hn'.2 _)
    · exact str_inj h
    · exact absurd (str_inj h) (hp.big _ l' hl')
  refine ⟨hi, ?_⟩
  rw [hi] at hperm
  have hswap : ∀ (a b c : Text), List.Perm [a, b, c] [b, a, c] := fun a b c => List.Perm.swap b a [c]
  have h2 := List.Perm.cons_inv (((hswap _ _ _).symm.trans hperm).trans (hswap _ _ _))
  have h3 : n ∈ [n', str l'] := h2.mem_iff.1 (by simp)
  simp only [List.mem_cons, List.not_mem_nil, or_false] at h3
  rcases h3 with rfl | h3
  · have := List.Perm.cons_inv h2
    have h4 := List.perm_singleton.1 this
    exact .inl ⟨rfl, Int.ofNat.inj (str_inj (List.cons.inj h4).1)⟩
  · right
    refine ⟨h3, ?_⟩
    subst h3
    have h4 := List.Perm.cons_inv (h2.trans (List.Perm.swap _ _ []))
    exact (List.cons.inj (List.perm_singleton.1 h4)).1.symm

/-- Two children with the same key have the same name, the same kind and the same content. -/
theorem key_inj {py : Py} (hp : Ideal py) {k k' : Text × Tree} (hn : NameOk py k.1)
    (hn' : NameOk py k'.1) (h2 : Apart b k.1 k.2.leaf) (h2' : Apart b k'.1 k'.2.leaf)
    (hf : k.2.Fine py b) (hf' : k'.2.Fine py b) (h : key py k = key py k') :
    k.1 = k'.1 ∧ k.2.leaf = k'.2.leaf ∧ ihash py k.2 = ihash py k'.2 := by
  obtain ⟨hi, h3⟩ := sonHash_inj hp hn hn' (leaf_le _) (leaf_le _) (Elt.num.inj h)
  rcases h3 with h3 | ⟨h3, h4⟩
  · exact ⟨h3.1, h3.2, hi⟩
  · have e1 := ihash_empty hp hi
    have e2 := ihash_empty hp hi.symm
    rw [← leaf_bun, ← leaf_bun] at e1 e2
    have l1 := leaf_le k.2
    have l2 := leaf_le k'.2
    have f1 := fine_leaf hf
    have f2 := fine_leaf hf'
    generalize hx : k.2.leaf = x at *
    generalize hy : k'.2.leaf = y at *
    have : x = 1 ∨ x = 2 ∨ x = 3 := by omega
    have : y = 1 ∨ y = 2 ∨ y = 3 := by omega
    rcases ‹x = 1 ∨ _› with rfl | rfl | rfl <;> rcases ‹y = 1 ∨ _› with rfl | rfl | rfl
    · exact ⟨h3.trans h4.symm, rfl, hi⟩
    · exact absurd (e2 (by decide)) (by decide)
    · exact absurd (e2 (by decide)) (by decide)
    · exact absurd (e1 (by decide)) (by decide)
    · exact ⟨h3.trans h4.symm, rfl, hi⟩
    · cases b
      · exact absurd h3 (h2 rfl)
      · exact absurd h4 (h2' rfl)
    · exact absurd (e1 (by decide)) (by decide)
    · cases b
      · exact absurd h4 (h2' rfl)
      · exact absurd h3 (h2 rfl)
    · exact ⟨h3.trans h4.symm, rfl, hi⟩

theorem get_kid {py : Py} {t : Tree} (ht : t.Fine py b) {n : Text} {c : Tree} :
    Dict.get? t.kids n = some c ↔ (n, c) ∈ t.kids :=
  ⟨Dict.mem_of_get?, Dict.get?_of_mem (fine_kids ht).1⟩

/-- Trees with the same key contain the same signals at the same paths. -/
theorem ihash_marks {py : Py} (hp : Ideal py) (p : List Text) {t u : Tree} (ht : t.Fine py b)
    (hu : u.Fine py b) (h : ihash py t = ihash py u) : marks p t = marks p u := by
  induction p generalizing t u with
  | nil => rfl
  | cons n p ih =>
    have side : ∀ {t u : Tree}, t.Fine py b → u.Fine py b → ihash py t = ihash py u →
        ∀ c, Dict.get? t.kids n = some c → ∃ c', Dict.get? u.kids n = some c' ∧ c.val = c'.val ∧
          ihash py c = ihash py c' ∧ c.Fine py b ∧ c'.Fine py b := by
      intro t u ht hu h c hc
      have hm := (get_kid ht).1 hc
      obtain ⟨k, hk, he⟩ := (mem_sonsT py u _).1 (ihash_sons hp h _ ((mem_sonsT py t _).2 ⟨_, hm, rfl⟩))
      have h1 := (fine_kids ht).2 _ hm
      have h2 := (fine_kids hu).2 _ hk
      obtain ⟨a, b, d⟩ := key_inj hp h1.1 h2.1 h1.2.1 h2.2.1 h1.2.2 h2.2.2 he
      refine ⟨k.2, (get_kid hu).2 ?_, leaf_val b, d, h1.2.2, h2.2.2⟩
      dsimp only at a
      rw [a]; exact hk
    unfold marks
    cases hc : Dict.get? t.kids n with
    | none =>
      cases hc' : Dict.get? u.kids n with
      | none => rfl
      | some c' =>
        obtain ⟨c, h1, _⟩ := side hu ht h.symm c' hc'
        rw [hc] at h1; exact absurd h1 (by simp)
    | some c =>
      obtain ⟨c', h1, h2, h3, h4, h5⟩ := side ht hu h c hc
      rw [h1]
      show Option.map _ (marks p c) = Option.map _ (marks p c')
      rw [ih h4 h5 h3, h2]

theorem flat_cons {t : Tree} {n : Text} {p : List Text} :
    Flat t (n :: p) ↔ ∃ c, Dict.get? t.kids n = some c ∧ c.val = true ∧ (p = [] ∨ Flat c p) := by
  unfold Flat AllSig
  constructor
  · rintro ⟨fl, h1, h2, h3⟩
    unfold marks at h1
    cases hc : Dict.get? t.kids n with
    | none => rw [hc] at h1; exact absurd h1 (by simp)
    | some c =>
      rw [hc] at h1
      cases hm : marks p c with
      | none => simp [hm] at h1
      | some r =>
        have h1' : c.val :: r = fl := by simpa [hm] using h1
        subst h1'
        refine ⟨c, rfl, h3 _ (by simp), ?_⟩
        cases p with
        | nil => exact .inl rfl
        | cons m q =>
          refine .inr ⟨r, hm, ?_, fun b hb => h3 b (by simp [hb])⟩
          rintro rfl
          unfold marks at hm
          cases hx : Dict.get? c.kids m with
          | none => rw [hx] at hm; exact absurd hm (by simp)
          | some d =>
            rw [hx] at hm
            cases hy : marks q d <;> simp [hy] at hm
  · rintro ⟨c, h1, h2, h3⟩
    have : ∃ r, marks p c = some r ∧ ∀ b ∈ r, b = true := by
      rcases h3 with rfl | ⟨r, h4, _, h5⟩
      · exact ⟨[], rfl, by simp⟩
      · exact ⟨r, h4, h5⟩
    obtain ⟨r, h4, h5⟩ := this
    refine ⟨c.val :: r, ?_, by simp, ?_⟩
    · unfold marks; rw [h1]; simp [h4]
    · intro b hb
      rcases List.mem_cons.1 hb with rfl | hb
      · exact h2
      · exact h5 b hb

theorem flat_nil (t : Tree) : ¬ Flat t [] := by
  rintro ⟨fl, h, h1, _⟩
  simp [marks] at h; exact h1 h

theorem kept_nil (t : Tree) : ¬ Kept t [] := by
  rintro ⟨fl, h, h1⟩
  have : fl = [] := by simpa [marks] using h.symm
  subst this; exact h1

theorem kept_cons {t : Tree} {n : Text} {p : List Text} :
    Kept t (n :: p) ↔ ∃ c, Dict.get? t.kids n = some c ∧
      ((c.val = true ∧ (p = [] ∨ Flat c p)) ∨ (c.val = false ∧ Kept c p)) := by
  constructor
  · rintro ⟨fl, h1, h2⟩
    have h1' := h1
    unfold marks at h1
    cases hc : Dict.get? t.kids n with
    | none => rw [hc] at h1; exact absurd h1 (by simp)
    | some c =>
      rw [hc] at h1
      cases hm : marks p c with
      | none => simp [hm] at h1
      | some r =>
        have h4 : c.val :: r = fl := by simpa [hm] using h1
        subst h4
        cases hv : c.val with
        | false =>
          rw [hv] at h2
          exact ⟨c, rfl, .inr ⟨hv, r, hm, h2⟩⟩
        | true =>
          rw [hv] at h2
          have : Flat t (n :: p) := ⟨_, h1', by simp, by
            intro b hb
            rcases List.mem_cons.1 hb with rfl | hb
            · exact hv
            · exact h2 b hb⟩
          obtain ⟨c', h5, h6⟩ := flat_cons.1 this
          rw [hc] at h5
          cases h5
          exact ⟨c, rfl, .inl h6⟩
  · rintro ⟨c, h1, h2 | ⟨h2, r, h3, h4⟩⟩
    · obtain ⟨fl, h3, h4, h5⟩ := flat_cons.2 ⟨c, h1, h2⟩
      refine ⟨fl, h3, ?_⟩
      cases fl with
      | nil => exact absurd rfl h4
      | cons b r =>
        have := h5 b (by simp)
        subst this
        exact fun b hb => h5 b (by simp [hb])
    · refine ⟨c.val :: r, ?_, ?_⟩
      · unfold marks; rw [h1]; simp [h3]
      · rw [h2]; exact h4

/-- The names on a path of a fine tree have no underscore. -/
theorem marks_names {py : Py} {p : List Text} {t : Tree} (ht : t.Fine py b) (h : marks p t ≠ none) :
    ∀ s ∈ p, '_' ∉ s := by
  induction p generalizing t with
  | nil => simp
  | cons n p ih =>
    unfold marks at h
    cases hc : Dict.get? t.kids n with
    | none => rw [hc] at h; exact absurd rfl h
    | some c =>
      rw [hc] at h
      have hk := (fine_kids ht).2 _ ((get_kid ht).1 hc)
      intro s hs
      rcases List.mem_cons.1 hs with rfl | hs
      · exact hk.1.1
      · refine ih hk.2.2 ?_ s hs
        intro hm; simp [hm] at h

/-! ### Height -/

mutual
def Tree.height : Tree → Nat
  | .mk _ f => f.height
def Forest.height : Forest → Nat
  | .nil => 0
  | .cons _ t rest => max (t.height + 1) rest.height
end

theorem forest_height (f : Forest) (k : Text × Tree) (h : k ∈ f.toList) : k.2.height < f.height := by
  match f with
  | .nil => simp [Forest.toList] at h
  | .cons n t rest =>
    unfold Forest.height
    simp only [Forest.toList, List.mem_cons] at h
    rcases h with rfl | h
    · dsimp only; omega
    · have := forest_height rest k h; omega

theorem kid_height {t : Tree} {k : Text × Tree} (h : k ∈ t.kids) : k.2.height < t.height := by
  cases t with
  | mk v f => exact forest_height f k h

theorem height_kid (f : Forest) (h : 0 < f.height) :
    ∃ k ∈ f.toList, k.2.height + 1 = f.height := by
  match f with
  | .nil => simp [Forest.height] at h
  | .cons n t rest =>
    unfold Forest.height at h ⊢
    by_cases hc : rest.height ≤ t.height + 1
    · exact ⟨(n, t), by simp [Forest.toList], by dsimp only; omega⟩
    · obtain ⟨k, hk, h1⟩ := height_kid rest (by omega)
      exact ⟨k, by simp [Forest.toList, hk], by omega⟩

theorem marks_len {p : List Text} {t : Tree} (h : marks p t ≠ none) : p.length ≤ t.height := by
  induction p generalizing t with
  | nil => simp
  | cons n p ih =>
    unfold marks at h
    cases hc : Dict.get? t.kids n with
    | none => rw [hc] at h; exact absurd rfl h
    | some c =>
      rw [hc] at h
      have h1 := kid_height (Dict.mem_of_get? hc)
      have h2 : marks p c ≠ none := by intro hm; simp [hm] at h
      have := ih h2
      simp only [List.length_cons]
      dsimp only at h1
      omega

theorem marks_long {py : Py} (m : Nat) {t : Tree} (ht : t.Fine py b) (h : t.height = m) :
    ∃ p, marks p t ≠ none ∧ p.length = m := by
  induction m generalizing t with
  | zero => exact ⟨[], by simp [marks], rfl⟩
  | succ m ih =>
    obtain ⟨v, f⟩ := t
    have hh : f.height = m + 1 := h
    obtain ⟨k, hk, h1⟩ := height_kid f (by omega)
    have hkf := (fine_kids ht).2 k hk
    obtain ⟨p, h2, h3⟩ := ih hkf.2.2 (by omega)
    refine ⟨k.1 :: p, ?_, by simp [h3]⟩
    unfold marks
    rw [(get_kid ht).2 (show (k.1, k.2) ∈ _ from hk)]
    cases hm : marks p k.2 with
    | none => exact absurd hm h2
    | some r => simp [hm]

theorem ihash_height {py : Py} (hp : Ideal py) {t u : Tree} (ht : t.Fine py b) (hu : u.Fine py b)
    (h : ihash py t = ihash py u) : t.height ≤ u.height := by
  obtain ⟨p, h1, h2⟩ := marks_long _ ht rfl
  rw [ihash_marks hp p ht hu h] at h1
  have := marks_len h1
  omega

end Toffee.IntelGen
