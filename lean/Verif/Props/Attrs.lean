import Verif.Lemmas.Attrs

/-!
C119: every signal, part and method of a bundle stays usable after `bind`.

This holds when the names of the declared signals and parts are different from each other and from the names
that `Bundle` uses itself.  Nothing in the code checks that, and each kind of clash breaks something.
-/

namespace Toffee.Attrs

/-- The names that `Bundle` uses itself. -/
def reserved : List Name := nName :: nBound :: nMode :: nLevel :: nSignals :: methods

/-- No declared name is reserved, and no signal is named like a part. -/
structure Clean (c : Cls) : Prop where
  signals : ∀ n ∈ c.signals, n ∉ reserved
  body : ∀ n ∈ reserved, lookup n c.body = none
  parts : ∀ n ∈ c.signals, ∀ k, lookup n c.body ≠ some (.part k)

/-- The signals that a class declares. -/
def Declares (c : Cls) (n : Name) : Prop := n ∈ c.signals ∨ lookup n c.body = some .placeholder

instance (c : Cls) (n : Name) : Decidable (Declares c n) := inferInstanceAs (Decidable (_ ∨ _))

theorem init0_free {c : Cls} {n : Name} (h : n ∉ reserved) : (init0 c).get n = lookup n c.body := by
  simp only [reserved, List.mem_cons, not_or] at h
  obtain ⟨h1, h2, h3, h4, h5, h6⟩ := h
  have e : lookup n (init0 c).dict = none := by
    simp [init0, lookup, Ne.symm h1, Ne.symm h2, Ne.symm h3, Ne.symm h4]
  unfold Inst.get
  rw [e]
  show c.get n = _
  unfold Cls.get
  rw [if_neg h5, if_neg h6]
  cases lookup n c.body <;> rfl

theorem not_method : nName ∉ methods ∧ nBound ∉ methods ∧ nMode ∉ methods ∧ nLevel ∉ methods ∧
    nSignals ∉ methods := by decide +kernel

theorem init0_method {c : Cls} (hc : Clean c) {n : Name} (h : n ∈ methods) :
    (init0 c).get n = some .method := by
  obtain ⟨m1, m2, m3, m4, m5⟩ := not_method
  have ne : ∀ {a : Name}, a ∉ methods → ¬ a = n := fun ha e => ha (e ▸ h)
  have e : lookup n (init0 c).dict = none := by
    simp [init0, lookup, ne m1, ne m2, ne m3, ne m4]
  unfold Inst.get
  rw [e]
  show c.get n = _
  unfold Cls.get
  rw [hc.body n (by simp [reserved, h]), if_neg (fun e => ne m5 e.symm), if_pos h]

/-- The slots of a new bundle are the declared signals. -/
theorem level_clean {c : Cls} (hc : Clean c) {n : Name} : n ∈ level (init0 c) ↔ Declares c n := by
  rw [mem_level]
  refine or_congr Iff.rfl ?_
  by_cases h : n ∈ reserved
  · rw [hc.body n h]
    refine iff_of_false (fun e => ?_) (by simp)
    simp only [reserved, List.mem_cons] at h
    rcases h with h | h | h | h | h | h
    · subst h; cases e
    · subst h; cases e
    · subst h; cases e
    · subst h; cases e
    · subst h
      have : (init0 c).get nSignals = c.get nSignals := rfl
      rw [this] at e
      unfold Cls.get at e
      rw [hc.body nSignals (by simp [reserved])] at e
      cases e
    · rw [init0_method hc h] at e; cases e
  · rw [init0_free h]

theorem declares_free {c : Cls} (hc : Clean c) {n : Name} (h : Declares c n) : n ∉ reserved := by
  rcases h with h | h
  · exact hc.signals n h
  · intro e; rw [hc.body n e] at h; cases h

/-- C119, without clashes: `bind` returns, every connected signal is its pin, every other one is the dummy (or
still the placeholder, if unconnected signals may not be accessed), every part is still there and was
bound, and nothing else was; all methods are intact. -/
theorem C119_bind_partial (c : Cls) (hc : Clean c) (access : Bool) (found : List (Name × Nat))
    (inputs : List Nat) (hd : ∀ q ∈ found, Declares c q.1) (hu : (found.map (·.1)).Nodup) :
    ∃ i ps, bind access found inputs (init c) = .ok i ps ∧
      (∀ n p, (n, p) ∈ found → i.get n = some (.pin p)) ∧
      (∀ n, Declares c n → n ∉ found.map (·.1) →
        i.get n = if access then some .dummy else lookup n c.body) ∧
      (∀ n k, lookup n c.body = some (.part k) → i.get n = some (.part k)) ∧
      (∀ n k, (n, k) ∈ ps ↔ lookup n c.body = some (.part k)) ∧
      (∀ n ∈ methods, i.get n = some .method) ∧
      i.get nBound = some (.flag true) ∧ i.get nMode = some (.mode none) ∧ i.get nLevel = some .names := by
  have hf : ∀ n ∈ reserved, n ∉ found.map (·.1) := by
    intro n hn e
    obtain ⟨q, hq, rfl⟩ := List.mem_map.1 e
    exact declares_free hc (hd q hq) hn
  have lv : ∀ n, n ∈ (init c).current ↔ Declares c n := by
    intro n; rw [init_current]; exact level_clean hc
  have g0 : (init c).get nLevel = some .names := by rw [init_get]; rfl
  obtain ⟨i1, h1⟩ := connect_ok g0 (hf nLevel (by simp [reserved]))
  have g1 : ∀ n ∈ reserved, i1.get n = (init0 c).get n := by
    intro n hn; rw [connect_other h1 (hf n hn), init_get]
  have ex : ∃ i2, missing access (found.map (·.1)) i1 = some i2 := by
    unfold missing
    rw [if_pos (by rw [g1 nLevel (by simp [reserved])]; rfl)]
    exact ⟨_, rfl⟩
  obtain ⟨i2, h2⟩ := ex
  have g2 : ∀ n, i2.get n = if Declares c n ∧ n ∉ found.map (·.1) ∧ access = true then some .dummy
      else i1.get n := by
    intro n
    rw [missing_get h2, connect_current h1]
    by_cases x : Declares c n
    · have y := (lv n).2 x
      simp only [x, y]
    · have y : n ∉ (init c).current := fun y => x ((lv n).1 y)
      simp only [x, y]
  have gr : ∀ n ∈ reserved, i2.get n = (init0 c).get n := by
    intro n hn
    rw [g2, if_neg (fun x => declares_free hc x.1 hn), g1 n hn]
  have gm : ∀ n ∈ methods, i2.get n = some .method := by
    intro n hn; rw [gr n (by simp [reserved, hn]), init0_method hc hn]
  have gp : ∀ n k, i2.get n = some (.part k) ↔ lookup n c.body = some (.part k) := by
    intro n k
    by_cases r : n ∈ reserved
    · rw [hc.body n r, gr n r]
      refine iff_of_false (fun e => ?_) (by simp)
      simp only [reserved, List.mem_cons] at r
      rcases r with h | h | h | h | h | h
      · subst h; cases e
      · subst h; cases e
      · subst h; cases e
      · subst h; cases e
      · subst h
        have : (init0 c).get nSignals = c.get nSignals := rfl
        rw [this] at e
        unfold Cls.get at e
        rw [hc.body nSignals (by simp [reserved])] at e
        cases e
      · rw [init0_method hc h] at e; cases e
    · by_cases d : Declares c n
      · have np : lookup n c.body ≠ some (.part k) := by
          rcases d with d | d
          · exact hc.parts n d k
          · rw [d]; simp
        refine iff_of_false ?_ np
        rw [g2]
        split
        · simp
        · by_cases f : n ∈ found.map (·.1)
          · obtain ⟨p, _, e⟩ := connect_found h1 f
            rw [e]; simp
          · rw [connect_other h1 f, init_get, init0_free r]; exact np
      · have f : n ∉ found.map (·.1) := by
          intro e
          obtain ⟨q, hq, rfl⟩ := List.mem_map.1 e
          exact d (hd q hq)
        rw [g2, if_neg (fun x => d x.1), connect_other h1 f, init_get, init0_free r]
  have gb : ∀ n, n ≠ nBound → (i2.set nBound (.flag true)).get n = i2.get n := by
    intro n h; rw [get_set, if_neg (fun e => h e.symm)]
  have mb : ∀ n ∈ methods, n ≠ nBound := fun n h e => not_method.2.1 (e ▸ h)
  have call : ∀ n ∈ methods, ∀ (i : Inst) k, i.get n = some .method → i.call n k = k := by
    intro n _ i k h; unfold Inst.call; rw [if_pos h]
  have fin : finish inputs (i2.set nBound (.flag true)) i2.parts =
      .ok (i2.set nBound (.flag true)) i2.parts := by
    have em : (i2.set nBound (.flag true)).get nMode = some (.mode none) := by
      rw [gb _ (by decide), gr nMode (by simp [reserved])]; rfl
    unfold finish
    rw [em]
    have hs : nServe ∈ methods := by decide +kernel
    exact call _ hs _ _ (by rw [gb _ (mb _ hs), gm _ hs])
  have i0m : ∀ n ∈ methods, (init c).get n = some .method := fun n h => by
    rw [init_get, init0_method hc h]
  refine ⟨i2.set nBound (.flag true), i2.parts, ?_, ?_, ?_, ?_, ?_, ?_, ?_, ?_, ?_⟩
  · unfold bind
    have hb : nBind ∈ methods := by decide +kernel
    have hu : nDut ∈ methods := by decide +kernel
    rw [call _ hb _ _ (i0m _ hb), call _ hu _ _ (i0m _ hu), h1]
    show (match missing access (found.map (·.1)) i1 with
      | none => Res.raised
      | some i2 => finish inputs (i2.set nBound (.flag true)) i2.parts) = _
    rw [h2]
    exact fin
  · intro n p hp
    have r := declares_free hc (hd _ hp)
    have hm : n ∈ found.map (·.1) := List.mem_map.2 ⟨_, hp, rfl⟩
    rw [gb _ (fun e => r (by simp [reserved]; exact .inr (.inl e))), g2, if_neg (fun x => x.2.1 hm)]
    obtain ⟨p', hp', e⟩ := connect_found h1 hm
    rw [e]
    have : ∀ (l : List (Name × Nat)), (l.map (·.1)).Nodup → (n, p) ∈ l → (n, p') ∈ l → p = p' := by
      intro l
      induction l with
      | nil => intro _ h; cases h
      | cons q l ih =>
        intro hn a b
        rw [List.map_cons, List.nodup_cons] at hn
        rcases List.mem_cons.1 a with a | a <;> rcases List.mem_cons.1 b with b | b
        · rw [← a] at b; cases b; rfl
        · exact absurd (List.mem_map.2 ⟨_, b, by rw [← a]⟩) hn.1
        · exact absurd (List.mem_map.2 ⟨_, a, by rw [← b]⟩) hn.1
        · exact ih hn.2 a b
    rw [this found hu hp hp']
  · intro n dn nf
    have r := declares_free hc dn
    rw [gb _ (fun e => r (by simp [reserved]; exact .inr (.inl e))), g2]
    cases access
    · simp [connect_other h1 nf, init_get, init0_free r]
    · simp [dn, nf]
  · intro n k h
    have : n ≠ nBound := by
      intro e; subst e; rw [hc.body nBound (by simp [reserved])] at h; cases h
    rw [gb _ this]; exact (gp n k).2 h
  · intro n k; rw [mem_parts]; exact gp n k
  · intro n h; rw [gb _ (mb n h), gm n h]
  · rw [get_set, if_pos rfl]
  · rw [gb _ (by decide), gr nMode (by simp [reserved])]; rfl
  · rw [gb _ (by decide), gr nLevel (by simp [reserved])]; rfl

/-- A bundle that has not been bound says so, whatever its class declares. -/
theorem C119_unbound (c : Cls) : (init c).get nBound = some (.flag false) := by
  rw [init_get]; rfl

/-- A signal named like a method: after `bind` the method is gone. -/
theorem C119_method_violated (c : Cls) (access : Bool) (found : List (Name × Nat)) (inputs : List Nat)
    (m : Name) (hm : m ∈ methods) (hs : m ∈ c.signals) (hf : m ∈ found.map (·.1) ∨ access = true)
    (i : Inst) (ps : List (Name × Nat)) (h : bind access found inputs (init c) = .ok i ps) :
    i.get m ≠ some .method := by
  obtain ⟨i1, i2, h1, h2, rfl, _, _⟩ := bind_ok h
  have hne : ¬ nBound = m := fun e => not_method.2.1 (e ▸ hm)
  rw [get_set, if_neg hne]
  have hcur : m ∈ (init c).current := by rw [init_current]; exact mem_level.2 (.inl hs)
  rcases taken h1 h2 hcur hf with e | ⟨p, _, e⟩ <;> rw [e] <;> simp

/-- A signal named like a part: `bind` returns without having bound the part, and the part is no longer
there. -/
theorem C119_part_violated (c : Cls) (access : Bool) (found : List (Name × Nat)) (inputs : List Nat)
    (n : Name) (hs : n ∈ c.signals) (hf : n ∈ found.map (·.1) ∨ access = true)
    (i : Inst) (ps : List (Name × Nat)) (h : bind access found inputs (init c) = .ok i ps) (k : Nat) :
    (n, k) ∉ ps ∧ i.get n ≠ some (.part k) := by
  obtain ⟨i1, i2, h1, h2, rfl, rfl, _⟩ := bind_ok h
  have hcur : n ∈ (init c).current := by rw [init_current]; exact mem_level.2 (.inl hs)
  have key : i2.get n ≠ some (.part k) := by
    rcases taken h1 h2 hcur hf with e | ⟨p, _, e⟩ <;> rw [e] <;> simp
  refine ⟨fun x => key (mem_parts.1 x), ?_⟩
  rw [get_set]
  split
  · simp
  · exact key

/-- `name = Signal()` in the class body (or `bound`, `write_mode`, `current_level_signals`) declares nothing:
the bundle never has such a signal. -/
theorem C119_hidden_violated (c : Cls) (n : Name) (hn : n ∈ [nName, nBound, nMode, nLevel])
    (hs : n ∉ c.signals) : n ∉ (init c).current := by
  rw [init_current, mem_level]
  rintro (h | h)
  · exact hs h
  · simp only [List.mem_cons, List.not_mem_nil, or_false] at hn
    rcases hn with rfl | rfl | rfl | rfl <;> cases h

/-- A DUT signal that matches a slot `bound`: the attribute is `True` after `bind`, not the pin. -/
theorem C119_bound_violated (c : Cls) (access : Bool) (found : List (Name × Nat)) (inputs : List Nat)
    (i : Inst) (ps : List (Name × Nat)) (h : bind access found inputs (init c) = .ok i ps) (p : Nat)
    (_ : (nBound, p) ∈ found) : i.get nBound = some (.flag true) ∧ i.get nBound ≠ some (.pin p) := by
  obtain ⟨i1, i2, h1, h2, rfl, _, _⟩ := bind_ok h
  rw [get_set, if_pos rfl]
  simp

/-- A signal named `write_mode`: `bind` raises as soon as there is an input pin. -/
theorem C119_mode_violated (c : Cls) (access : Bool) (found : List (Name × Nat)) (inputs : List Nat)
    (hs : nMode ∈ c.signals) (hf : nMode ∈ found.map (·.1) ∨ access = true) (hi : inputs ≠ []) :
    bind access found inputs (init c) = .raised := by
  cases h : bind access found inputs (init c) with
  | raised => rfl
  | ok i ps =>
    obtain ⟨i1, i2, h1, h2, rfl, rfl, hfin⟩ := bind_ok h
    exfalso
    have hcur : nMode ∈ (init c).current := by rw [init_current]; exact mem_level.2 (.inl hs)
    have e : (i2.set nBound (.flag true)).get nMode = i2.get nMode := by
      rw [get_set, if_neg (by decide)]
    unfold finish at hfin
    rw [e] at hfin
    rcases taken h1 h2 hcur hf with x | ⟨p, _, x⟩ <;> rw [x] at hfin <;>
    · have := (call_ok hfin).2
      simp [hi] at this

/-- A DUT signal that matches a slot `current_level_signals`: `bind` raises. -/
theorem C119_level_violated (c : Cls) (access : Bool) (found : List (Name × Nat)) (inputs : List Nat)
    (hf : nLevel ∈ found.map (·.1)) : bind access found inputs (init c) = .raised := by
  cases h : bind access found inputs (init c) with
  | raised => rfl
  | ok i ps =>
    obtain ⟨i1, i2, h1, h2, _⟩ := bind_ok h
    obtain ⟨p, _, e⟩ := connect_found h1 hf
    unfold missing at h2
    rw [if_neg (by rw [e]; simp)] at h2
    cases h2

section Examples

def isOk : Res → Bool
  | .ok .. => true
  | .raised => false

/-- A handshake with a sub-bundle: `signals = ["valid"]`, `ready = Signal()`, `bits = Bits()`. -/
def hs : Cls := ⟨["valid".toList], [("ready".toList, .placeholder), ("bits".toList, .part 7)]⟩

theorem hs_clean : Clean hs := by
  refine ⟨by decide +kernel, by decide +kernel, ?_⟩
  intro n hn k
  simp only [hs, List.mem_singleton] at hn
  subst hn
  simp [hs, lookup]

/-- The hypotheses of `C119_bind_partial` hold for a bundle with a connected and an unconnected signal and a
part. -/
example : ∃ i ps, bind true [("valid".toList, 3)] [3] (init hs) = .ok i ps ∧
    i.get "valid".toList = some (.pin 3) ∧ i.get "ready".toList = some .dummy ∧
    ("bits".toList, 7) ∈ ps := by
  obtain ⟨i, ps, h, a, b, _, d, _⟩ := C119_bind_partial hs hs_clean true [("valid".toList, 3)] [3]
    (by intro q hq; simp only [List.mem_singleton] at hq; subst hq; exact .inl (by decide +kernel))
    (by decide +kernel)
  exact ⟨i, ps, h, a _ _ (by simp), b _ (.inr rfl) (by decide +kernel), (d _ _).2 rfl⟩

/-- A DUT with a pin `step`, e.g. through `new_class_from_xport`: `bind` returns and `step` is a pin. -/
example : isOk (bind true [("step".toList, 0)] [0] (init ⟨["step".toList], []⟩)) = true := by
  decide +kernel

/-- A signal `bits` beside a sub-bundle `bits`: `bind` returns. -/
example : isOk (bind true [("bits".toList, 0)] [0]
    (init ⟨["bits".toList], [("bits".toList, .part 7)]⟩)) = true := by decide +kernel

/-- A signal `bound`: `bind` returns. -/
example : isOk (bind true [(nBound, 0)] [0] (init ⟨[nBound], []⟩)) = true := by decide +kernel

end Examples

end Toffee.Attrs
