import Verif.Lemmas.IntelVisit

/-!
C83: the nested bundles printed by `scripts/bundle_code_intel_gen.py`.

The spec is `marks` (which nodes on a path are signals), `pinName` (the name of the pin at a path) and
`exec` (what Python makes of the printed classes: the pins an instance of each class connects to).
-/

namespace Toffee.IntelGen

/-- The pin at a path: the names with underscores between them. -/
def pinName (p : List Text) : Text := ['_'].intercalate p

/-- There is a signal at the path. -/
def SignalAt (t : Tree) (p : List Text) : Prop := ∃ fl, marks p t = some fl ∧ fl.getLast? = some true

/-- The pins the last of the printed classes connects to; `none` if a look-up of the generator fails,
nothing is printed, or Python rejects the classes. -/
def lastPins (st : St) : Option (List Text) :=
  if st.err then none
  else (exec st.out []).bind fun env => st.out.getLast?.bind fun c => env.get? c.id

/-- The printed classes are accepted and the last one connects to every signal of the tree, once, and
to nothing else. -/
def Covers (st : St) (data : Tree) : Prop :=
  ∃ ps, lastPins st = some ps ∧ ps.Nodup ∧ ∀ x, x ∈ ps ↔ ∃ p, SignalAt data p ∧ x = pinName p

theorem pinName_cons (n : Text) (p : List Text) : pinName (n :: p) = n ++ joined p := by
  unfold pinName joined
  induction p generalizing n with
  | nil => simp [List.intercalate]
  | cons m p ih =>
    have := ih m
    simp only [List.intercalate, List.intersperse_cons_cons, List.flatten_cons, List.flatMap_cons] at *
    rw [this]; simp

theorem mono_iff (fl : List Bool) :
    Mono fl ↔ ∃ k m, fl = List.replicate k false ++ List.replicate (m + 1) true := by
  induction fl with
  | nil =>
    constructor
    · exact False.elim
    · rintro ⟨k, m, h⟩
      have := congrArg List.length h
      simp at this
  | cons b r ih =>
    cases b with
    | true =>
      constructor
      · intro h
        refine ⟨0, r.length, ?_⟩
        simp only [List.replicate_zero, List.nil_append, List.replicate_succ]
        congr 1
        exact List.eq_replicate_iff.2 ⟨rfl, h⟩
      · rintro ⟨k, m, h⟩
        cases k with
        | zero =>
          simp only [List.replicate_zero, List.nil_append, List.replicate_succ] at h
          have := (List.cons.inj h).2
          subst this
          intro b hb
          exact (List.mem_replicate.1 hb).2
        | succ k => simp [List.replicate_succ] at h
    | false =>
      constructor
      · intro h
        obtain ⟨k, m, e⟩ := ih.1 h
        exact ⟨k + 1, m, by rw [e]; simp [List.replicate_succ]⟩
      · rintro ⟨k, m, h⟩
        cases k with
        | zero => simp [List.replicate_succ] at h
        | succ k =>
          simp only [List.replicate_succ, List.cons_append] at h
          exact ih.2 ⟨k, m, by simpa [List.replicate_succ] using (List.cons.inj h).2⟩

/-- The generator prints classes that Python accepts; an instance of the last one connects exactly to
the signals whose path is: bundles that are no signals, then only signals. -/
theorem C83_exact_partial {py : Py} (hp : Ideal py) {b : Bool} (module : Text) {data : Tree}
    (hd : data.Fine py b) (hk : data.kids ≠ []) (hm : NameOk py module)
    (hm2 : Apart b module data.leaf) :
    ∃ ps, lastPins (main py module data) = some ps ∧ ps.Nodup ∧
      ∀ x, x ∈ ps ↔ ∃ p k m, x = pinName p ∧
        marks p data = some (List.replicate k false ++ List.replicate (m + 1) true) := by
  obtain ⟨h1, env, c, ps, h2, h3, h4, h5, h6⟩ := main_ok hp module hd hk hm hm2
  refine ⟨ps, ?_, h5, ?_⟩
  · unfold lastPins
    rw [h1, h2, h3]
    simpa using h4
  · intro x
    rw [h6]
    constructor
    · rintro ⟨n, p, ⟨fl, ha, hb⟩, rfl⟩
      obtain ⟨k, m, rfl⟩ := (mono_iff fl).1 hb
      exact ⟨n :: p, k, m, (pinName_cons n p).symm, ha⟩
    · rintro ⟨p, k, m, rfl, h⟩
      have hkept : Kept data p := ⟨_, h, (mono_iff _).2 ⟨k, m, rfl⟩⟩
      cases p with
      | nil => exact absurd hkept (kept_nil data)
      | cons n p => exact ⟨n, p, hkept, pinName_cons n p⟩

/-- Nothing but signals of the tree is declared. -/
theorem C83_sound {py : Py} (hp : Ideal py) {b : Bool} (module : Text) {data : Tree}
    (hd : data.Fine py b) (hk : data.kids ≠ []) (hm : NameOk py module)
    (hm2 : Apart b module data.leaf) :
    ∃ ps, lastPins (main py module data) = some ps ∧ ∀ x ∈ ps, ∃ p, SignalAt data p ∧ x = pinName p := by
  obtain ⟨ps, h1, _, h2⟩ := C83_exact_partial hp module hd hk hm hm2
  refine ⟨ps, h1, ?_⟩
  intro x hx
  obtain ⟨p, k, m, h3, h4⟩ := (h2 x).1 hx
  refine ⟨p, ⟨_, h4, ?_⟩, h3⟩
  rw [List.getLast?_append, List.getLast?_replicate]
  simp

/-- If no signal has a bundle below it that is no signal itself, the printed classes cover the tree. -/
theorem C83_covers_partial {py : Py} (hp : Ideal py) {b : Bool} (module : Text) {data : Tree}
    (hd : data.Fine py b) (hk : data.kids ≠ []) (hm : NameOk py module)
    (hm2 : Apart b module data.leaf)
    (hmix : ∀ p fl, marks p data = some fl → fl.Pairwise fun a c => a = true → c = true) :
    Covers (main py module data) data := by
  obtain ⟨ps, h1, h2, h3⟩ := C83_exact_partial hp module hd hk hm hm2
  refine ⟨ps, h1, h2, ?_⟩
  intro x
  rw [h3]
  constructor
  · rintro ⟨p, k, m, rfl, h⟩
    refine ⟨p, ⟨_, h, ?_⟩, rfl⟩
    rw [List.getLast?_append, List.getLast?_replicate]
    simp
  · rintro ⟨p, ⟨fl, h4, h5⟩, rfl⟩
    have hpw := hmix p fl h4
    have : Mono fl := by
      clear h4 h3 h1
      induction fl with
      | nil => simp at h5
      | cons a r ih =>
        obtain ⟨g1, g2⟩ := List.pairwise_cons.1 hpw
        cases a with
        | true => exact fun c hc => g1 c hc rfl
        | false =>
          cases r with
          | nil => simp at h5
          | cons c r => exact ih (by simpa using h5) g2
    obtain ⟨k, m, rfl⟩ := (mono_iff fl).1 this
    exact ⟨p, k, m, rfl, h4⟩

/-! ### An interpreter without collisions -/

/-- A text as a number. -/
def code : Text → Nat
  | [] => 0
  | c :: l => code l * 2 ^ 33 + c.toNat + 1

theorem code_inj {a b : Text} (h : code a = code b) : a = b := by
  induction a generalizing b with
  | nil => cases b with
    | nil => rfl
    | cons d b => simp only [code] at h; omega
  | cons c a ih => cases b with
    | nil => simp only [code] at h; omega
    | cons d b =>
      simp only [code] at h
      have h1 : c.toNat < 2 ^ 32 := c.val.toNat_lt
      have h2 : d.toNat < 2 ^ 32 := d.val.toNat_lt
      have h3 : code a = code b ∧ c.toNat = d.toNat := by omega
      rw [ih h3.1, Char.toNat_inj.1 h3.2]

/-- Hashes are the codes of the texts, sets are visited in the order of insertion. -/
def plain : Py := ⟨fun t => (code t : Int) + 4, id⟩

theorem plain_ideal : Ideal plain where
  inj a b h := code_inj (by simp only [plain] at h; omega)
  perm l := List.Perm.refl l
  big a k hk h := by simp only [plain] at h; omega

theorem hash_digits (t : Text) : ∀ c ∈ str ((code t : Int) + 4), c.isDigit = true := by
  have : (code t : Int) + 4 = Int.ofNat (code t + 4) := rfl
  rw [this]
  intro c hc
  exact Nat.isDigit_of_mem_toDigits (by decide) (by decide) hc

theorem nameOk_plain {n : Text} (h1 : '_' ∉ n) (h2 : ∃ c ∈ n, c.isDigit = false) (py : Py)
    (hpy : py.hash = plain.hash) : NameOk py n := by
  refine ⟨h1, fun a h => ?_⟩
  obtain ⟨c, hc, hd⟩ := h2
  rw [hpy] at h
  rw [hash_digits a c (by rw [show (code a : Int) + 4 = plain.hash a from rfl, h]; exact hc)] at hd
  exact absurd hd (by decide)

/-- A signal without anything below. -/
def pin : Tree := .mk true .nil

/-- Two handshakes with the same content, and a signal `clock` with signals below. -/
def demo : Tree :=
  .mk false (.cons "in".toList (.mk false (.cons "valid".toList pin (.cons "bits".toList pin .nil)))
    (.cons "out".toList (.mk false (.cons "valid".toList pin (.cons "bits".toList pin .nil)))
      (.cons "clock".toList (.mk true (.cons "en".toList pin .nil)) .nil)))

theorem demo_fine : demo.Fine plain true := by
  have ok : ∀ n : Text, '_' ∉ n → (∃ c ∈ n, c.isDigit = false) → NameOk plain n :=
    fun n h1 h2 => nameOk_plain h1 h2 plain rfl
  have hpin : pin.Fine plain true := by simp [pin, Tree.Fine, Forest.Fine]
  have h2 : ∀ n l, n ≠ ['2'] → Apart true n l := fun n l h _ => h
  refine ⟨.inr (by simp [Forest.toList]), ok _ (by decide) ⟨'i', by decide, by decide⟩, by decide,
    h2 _ _ (by decide), ⟨.inr (by simp [Forest.toList]), ok _ (by decide) ⟨'v', by decide, by decide⟩,
      by decide, h2 _ _ (by decide), hpin, ok _ (by decide) ⟨'b', by decide, by decide⟩, by decide,
      h2 _ _ (by decide), hpin, trivial⟩,
    ok _ (by decide) ⟨'o', by decide, by decide⟩, by decide, h2 _ _ (by decide),
    ⟨.inr (by simp [Forest.toList]), ok _ (by decide) ⟨'v', by decide, by decide⟩,
      by decide, h2 _ _ (by decide), hpin, ok _ (by decide) ⟨'b', by decide, by decide⟩, by decide,
      h2 _ _ (by decide), hpin, trivial⟩,
    ok _ (by decide) ⟨'c', by decide, by decide⟩, by decide, h2 _ _ (by decide),
    ⟨.inl rfl, ok _ (by decide) ⟨'e', by decide, by decide⟩, by decide, h2 _ _ (by decide), hpin,
      trivial⟩, trivial⟩

/-- The hypotheses of `C83_exact_partial` hold of `demo`; e.g. `clock_en` is a pin. -/
example : ∃ ps, lastPins (main plain "Top".toList demo) = some ps ∧ "clock_en".toList ∈ ps ∧
    "in_valid".toList ∈ ps ∧ "in".toList ∉ ps := by
  obtain ⟨ps, h1, _, h2⟩ := C83_exact_partial plain_ideal "Top".toList demo_fine
    (by simp [demo, Tree.kids, Forest.toList])
    (nameOk_plain (by decide) ⟨'T', by decide, by decide⟩ plain rfl) (fun _ => by decide)
  refine ⟨ps, h1, (h2 _).2 ⟨["clock".toList, "en".toList], 0, 1, by decide, by decide⟩,
    (h2 _).2 ⟨["in".toList, "valid".toList], 1, 0, by decide, by decide⟩, ?_⟩
  intro h
  obtain ⟨ps', h3, h4⟩ := C83_sound plain_ideal "Top".toList demo_fine
    (by simp [demo, Tree.kids, Forest.toList])
    (nameOk_plain (by decide) ⟨'T', by decide, by decide⟩ plain rfl) (fun _ => by decide)
  rw [h1] at h3
  cases h3
  obtain ⟨p, ⟨fl, h5, h6⟩, h7⟩ := h4 _ h
  cases p with
  | nil => simp [marks] at h5; subst h5; simp at h6
  | cons n p =>
    rw [pinName_cons] at h7
    have hnu := marks_names demo_fine (p := n :: p) (by rw [h5]; simp)
    obtain ⟨e1, e2⟩ := head_inj (n := "in".toList) (s := []) (by decide) (hnu n (by simp)) (.inl rfl)
      (tail_joined p) (by simpa using h7)
    cases p with
    | nil =>
      subst e1
      have : marks ["in".toList] demo = some [false] := by decide
      rw [this] at h5; cases h5; simp at h6
    | cons m q => simp [joined] at e2

/-! ### Violations -/

/-- A signal `a` with a bundle `b` below it that is no signal, with a signal `c` in it. -/
def mixed : Tree :=
  .mk false (.cons "a".toList (.mk true (.cons "b".toList (.mk false (.cons "c".toList pin .nil)) .nil))
    .nil)

theorem mixed_fine : mixed.Fine plain true := by
  have ok : ∀ n : Text, '_' ∉ n → (∃ c ∈ n, c.isDigit = false) → NameOk plain n :=
    fun n h1 h2 => nameOk_plain h1 h2 plain rfl
  have hpin : pin.Fine plain true := by simp [pin, Tree.Fine, Forest.Fine]
  have h2 : ∀ n l, n ≠ ['2'] → Apart true n l := fun n l h _ => h
  exact ⟨.inr (by simp [Forest.toList]), ok _ (by decide) ⟨'a', by decide, by decide⟩, by decide,
    h2 _ _ (by decide), ⟨.inl rfl, ok _ (by decide) ⟨'b', by decide, by decide⟩, by decide,
      h2 _ _ (by decide), ⟨.inr (by simp [Forest.toList]), ok _ (by decide) ⟨'c', by decide, by decide⟩,
        by decide, h2 _ _ (by decide), hpin, trivial⟩, trivial⟩, trivial⟩

/-- Signals inside a bundle are lost when the bundle lies below a signal: with an interpreter without
collisions, the classes printed for `mixed` do not connect to `a_b_c`. -/
theorem C83_lost_violated :
    SignalAt mixed ["a".toList, "b".toList, "c".toList] ∧
    ∃ ps, lastPins (main plain "Top".toList mixed) = some ps ∧ "a_b_c".toList ∉ ps := by
  refine ⟨⟨_, (by decide : marks _ mixed = some [true, false, true]), rfl⟩, ?_⟩
  obtain ⟨ps, h1, _, h2⟩ := C83_exact_partial plain_ideal "Top".toList mixed_fine
    (by simp [mixed, Tree.kids, Forest.toList])
    (nameOk_plain (by decide) ⟨'T', by decide, by decide⟩ plain rfl) (fun _ => by decide)
  refine ⟨ps, h1, ?_⟩
  intro h
  obtain ⟨p, k, m, h3, h4⟩ := (h2 _).1 h
  have hnu := marks_names mixed_fine (p := p) (by rw [h4]; simp)
  have h5 : p = ["a".toList, "b".toList, "c".toList] := by
    have e : pinName p = pinName ["a".toList, "b".toList, "c".toList] := h3.symm
    cases p with
    | nil => exact absurd e (by decide)
    | cons n p =>
      rw [pinName_cons, pinName_cons] at e
      obtain ⟨e1, e2⟩ := head_inj (hnu n (by simp)) (by decide) (tail_joined p) (tail_joined _) e
      rw [e1, joined_inj (fun s hs => hnu s (by simp [hs])) (by decide) e2]
  subst h5
  rw [(by decide : marks _ mixed = some [true, false, true])] at h4
  have := (mono_iff _).2 ⟨k, m, Option.some.inj h4⟩
  exact absurd (this false (by simp)) (by decide)

/-- An iteration order: the set of the name `2` and the kind 3 starts with its numbers. -/
def swapOrder : List Elt → List Elt
  | [.name n, .num i, .num l] =>
    if n = ['2'] ∧ l = 3 then [.num i, .num l, .name n]
    else if n = ['3'] ∧ l = 2 then [.num i, .name n, .num l]
    else [.name n, .num i, .num l]
  | l => l

theorem swapOrder_perm (l : List Elt) : (swapOrder l).Perm l := by
  unfold swapOrder
  split
  · split
    · refine (List.Perm.trans ?_ (List.Perm.swap _ _ _))
      exact List.Perm.cons _ (List.Perm.swap _ _ _)
    · split
      · exact List.Perm.swap _ _ _
      · exact List.Perm.refl _
  · exact List.Perm.refl _

/-- Hashes without collisions, and that order. -/
def swapped : Py := ⟨plain.hash, swapOrder⟩

theorem swapped_ideal : Ideal swapped := ⟨plain_ideal.inj, swapOrder_perm, plain_ideal.big⟩

/-- A bundle with the signal `x`. -/
def withX : Forest := .cons "x".toList pin .nil

/-- A signal `2` with the signal `2_x` below, in a bundle `io`. -/
def one : Tree := .mk false (.cons "io".toList (.mk false (.cons ['2'] (.mk true withX) .nil)) .nil)

/-- The same with a bundle `3` that has a signal `3_x`. -/
def two : Tree :=
  .mk false (.cons "io".toList (.mk false
    (.cons ['2'] (.mk true withX) (.cons ['3'] (.mk false withX) .nil))) .nil)

theorem has_set {κ ν : Type} [DecidableEq κ] (d : Dict κ ν) (k j : κ) (v : ν) (h : d.has j = true) :
    (d.set k v).has j = true := by
  unfold Dict.has at h ⊢
  by_cases hk : k = j
  · subst hk; rw [Dict.get?_set_self]; rfl
  · rw [Dict.get?_set_ne _ hk]; exact h

theorem has_set_self {κ ν : Type} [DecidableEq κ] (d : Dict κ ν) (k : κ) (v : ν) :
    (d.set k v).has k = true := by
  unfold Dict.has; rw [Dict.get?_set_self]; rfl

theorem newInside_has (py : Py) (top : Bool) (l : Nat) (i : Int) (s : List Elt) (st : St) :
    (newInside py top l i s st).logs = st.logs ∧ (newInside py top l i s st).insides.has i = true ∧
    ∀ j, st.insides.has j = true → (newInside py top l i s st).insides.has j = true := by
  unfold newInside
  dsimp only
  split
  · exact ⟨rfl, has_set_self _ _ _, fun j h => has_set _ _ _ _ (has_set _ _ _ _ h)⟩
  · exact ⟨rfl, has_set_self _ _ _, fun j h => has_set _ _ _ _ h⟩

/-- After a child was entered it is known, and what was known stays known. -/
theorem enter_has (py : Py) (top : Bool) (n : Text) (l : Nat) (s : List Elt) (st : St) :
    (enter py top n l s st).2.logs.has (enter py top n l s st).1 = true ∧
    (enter py top n l s st).2.insides.has (setHash py s) = true ∧
    (∀ j, st.logs.has j = true → (enter py top n l s st).2.logs.has j = true) ∧
    ∀ j, st.insides.has j = true → (enter py top n l s st).2.insides.has j = true := by
  unfold enter
  dsimp only
  generalize Elt.num (setHash py (add (.num l) (add (.num (setHash py s)) (add (.name n) [])))) = son
  generalize hst : (if st.logs.has son then st
    else { st with logs := st.logs.set son ⟨l, setHash py s, n⟩ }) = st1
  have h1 : st1.logs.has son = true ∧ (∀ j, st.logs.has j = true → st1.logs.has j = true) ∧
      st1.insides = st.insides := by
    subst hst
    split
    · exact ⟨‹_›, fun _ h => h, rfl⟩
    · exact ⟨has_set_self _ _ _, fun j h => has_set _ _ _ _ h, rfl⟩
  split
  · rename_i hc
    exact ⟨h1.1, hc, h1.2.1, fun j h => by rw [h1.2.2]; exact h⟩
  · obtain ⟨a, b, c⟩ := newInside_has py top l (setHash py s) s st1
    rw [a]
    exact ⟨h1.1, b, h1.2.1, fun j h => c j (by rw [h1.2.2]; exact h)⟩

/-- A child that is known already changes nothing. -/
theorem enter_known (py : Py) (top : Bool) (n : Text) (l : Nat) (s : List Elt) (st : St)
    (h1 : st.logs.has (enter py top n l s st).1 = true) (h2 : st.insides.has (setHash py s) = true) :
    (enter py top n l s st).2 = st := by
  unfold enter at h1 ⊢
  dsimp only at h1 ⊢
  rw [if_pos h1, if_pos h2]

theorem same_son (i : Int) :
    setHash swapped [.name ['2'], .num i, .num 3] = setHash swapped [.name ['3'], .num i, .num 2] := by
  unfold setHash
  have e1 : swapped.order [.name ['2'], .num i, .num 3] = [.num i, .num 3, .name ['2']] := rfl
  have e2 : swapped.order [.name ['3'], .num i, .num 2] = [.num i, .name ['3'], .num 2] := rfl
  rw [e1, e2]
  rfl

/-- With hashes that do not collide and a possible iteration order of sets, the same classes are
printed for `one` and for `two`, although only `two` has the signal `io_3_x`. -/
theorem C83_confused_violated :
    Ideal swapped ∧ SignalAt two ["io".toList, ['3'], "x".toList] ∧
    ¬ SignalAt one ["io".toList, ['3'], "x".toList] ∧
    main swapped "Top".toList two = main swapped "Top".toList one := by
  refine ⟨swapped_ideal, ⟨_, (by decide : marks _ two = some [false, false, true]), rfl⟩, ?_, ?_⟩
  · rintro ⟨fl, h, _⟩
    exact absurd h (by rw [show marks ["io".toList, ['3'], "x".toList] one = none by decide]; simp)
  · -- the visit of `x`
    have hx : ∀ (v : Bool) (st : St), visitTree swapped false (.mk v withX) st =
        ([(enter swapped false "x".toList 1 [] st).1], (enter swapped false "x".toList 1 [] st).2) := by
      intro v st
      rfl
    have key0 : visitTree swapped false (.mk false (.cons ['2'] (.mk true withX)
          (.cons ['3'] (.mk false withX) .nil))) {} =
        visitTree swapped false (.mk false (.cons ['2'] (.mk true withX) .nil)) {} := by
      unfold visitTree
      simp only [visitKids, hx]
      generalize hs0 : ({} : St) = st0
      have g1 := enter_has swapped false "x".toList 1 [] st0
      generalize hsx : (enter swapped false "x".toList 1 [] st0).2 = st1 at g1 ⊢
      generalize hex : (enter swapped false "x".toList 1 [] st0).1 = ex at g1 ⊢
      have g2 := enter_has swapped false ['2'] (Tree.leaf (.mk true withX)) [ex] st1
      generalize hs2 : (enter swapped false ['2'] (Tree.leaf (.mk true withX)) [ex] st1).2 = st2 at g2 ⊢
      have hson : (enter swapped false ['2'] (Tree.leaf (.mk true withX)) [ex] st1).1 =
          (enter swapped false ['3'] (Tree.leaf (.mk false withX)) [ex] st2).1 := by
        show Elt.num (setHash swapped (add (.num ((3 : Nat) : Int)) (add _ (add _ [])))) =
          Elt.num (setHash swapped (add (.num ((2 : Nat) : Int)) (add _ (add _ []))))
        rw [cur_eq swapped_ideal (by decide), cur_eq swapped_ideal (by decide)]
        exact congrArg Elt.num (same_son _)
      have hex' : (enter swapped false "x".toList 1 [] st2).1 = ex := by rw [← hex]; rfl
      have hx2 : (enter swapped false "x".toList 1 [] st2).2 = st2 :=
        enter_known _ _ _ _ _ _ (by rw [hex']; exact g2.2.2.1 _ g1.1) (g2.2.2.2 _ g1.2.1)
      rw [hex', hx2]
      have h3 : (enter swapped false ['3'] (Tree.leaf (.mk false withX)) [ex] st2).2 = st2 :=
        enter_known _ _ _ _ _ _ (by rw [← hson]; exact g2.1) g2.2.1
      rw [h3, ← hson]
      congr 1
      unfold add
      simp
    unfold main two one
    have step : ∀ f g : Forest, visitTree swapped false (.mk false f) {} =
        visitTree swapped false (.mk false g) {} →
        Tree.leaf (.mk false f) = Tree.leaf (.mk false g) →
        (visitTree swapped true (.mk false (.cons "Top".toList (.mk false (.cons "io".toList
          (.mk false f) .nil)) .nil)) {}) = (visitTree swapped true (.mk false (.cons "Top".toList
          (.mk false (.cons "io".toList (.mk false g) .nil)) .nil)) {}) := by
      intro f g h hl
      simp only [visitTree, visitKids]
      have e : ∀ b, Tree.leaf (.mk b (.cons "io".toList (.mk false f) .nil)) =
          Tree.leaf (.mk b (.cons "io".toList (.mk false g) .nil)) := by
        intro b; cases b <;> simp [Tree.leaf, Tree.val, Tree.kids, Forest.toList]
      simp only [visitTree] at h
      rw [h, hl, e]
    rw [step _ _ key0 (by rfl)]

end Toffee.IntelGen
