import Verif.Model.Args

/-! The payload of ports for driver calls (`toffee/_base_agent.py`, `toffee/agent.py`): C24. -/

namespace Toffee.Args

open Toffee.Driver (Info Name)

variable {V : Type}

/-! ### Specification -/

/-- The call fits the parameters: every positional argument has a parameter that can be given by
position and is not given by keyword as well, every keyword is the name of a parameter, and all other
parameters have defaults. -/
structure Fits (ps : List (Param V)) (args : List V) (kw : List (Name × V)) : Prop where
  positional : ∀ i, i < args.length → ∃ p, ps[i]? = some p ∧ p.kwOnly = false ∧ p.name ∉ keys kw
  keyword : ∀ n ∈ keys kw, ∃ p ∈ ps, p.name = n
  missing : ∀ (i : Nat) p, ps[i]? = some p → args.length ≤ i → p.name ∈ keys kw ∨ p.default ≠ none

/-- The value of a parameter: from its position, by its name, or its default. -/
def Value (args : List V) (kw : List (Name × V)) (i : Nat) (p : Param V) (v : V) : Prop :=
  args[i]? = some v ∨
    (args.length ≤ i ∧ ((p.name, v) ∈ kw ∨ (p.name ∉ keys kw ∧ p.default = some v)))

/-- One entry per parameter, in their order. -/
def Normalised (ps : List (Param V)) (args : List V) (kw d : List (Name × V)) : Prop :=
  d.length = ps.length ∧ ∀ (i : Nat) p, ps[i]? = some p →
    ∃ v, d[i]? = some (p.name, v) ∧ Value args kw i p v

/-- The signature of a method with the parameters `ps` after `self`. -/
def method (ps : List (Param V)) : List (Param V) := ⟨"self".toList, none, false⟩ :: ps

/-- The parameters of a signature have different names, none of which is `self`; and none of them is
called `agent` (see `C24_agent_violated`). -/
def Sig (ps : List (Param V)) : Prop :=
  (ps.map Param.name).Nodup ∧ "self".toList ∉ ps.map Param.name ∧ "agent".toList ∉ ps.map Param.name

/-- What a driver port receives. -/
def ForDriverPort (d : List (Name × V)) (y : Payload V) : Prop :=
  (∃ n v, d = [(n, v)] ∧ y = .bare v) ∨ (d.length ≠ 1 ∧ y = .dict d)

/-! ### Lemmas -/

theorem lookup_cons (n m : Name) (v : V) (kw : List (Name × V)) :
    lookup ((n, v) :: kw) m = if n = m then some v else lookup kw m := by
  unfold lookup
  rw [List.find?_cons]
  by_cases h : n = m <;> simp [h]

theorem lookup_none {kw : List (Name × V)} {n : Name} : lookup kw n = none ↔ n ∉ keys kw := by
  induction kw with
  | nil => simp [lookup, keys]
  | cons x kw ih =>
    obtain ⟨m, v⟩ := x
    rw [lookup_cons]
    by_cases h : m = n
    · simp [h, keys]
    · rw [if_neg h, ih]
      simp [keys, Ne.symm h]

theorem lookup_mem {kw : List (Name × V)} (hn : (keys kw).Nodup) {n : Name} {v : V} :
    lookup kw n = some v ↔ (n, v) ∈ kw := by
  induction kw with
  | nil => simp [lookup]
  | cons x kw ih =>
    obtain ⟨m, w⟩ := x
    have hn' : m ∉ keys kw ∧ (keys kw).Nodup := List.nodup_cons.1 hn
    rw [lookup_cons]
    by_cases h : m = n
    · subst h
      rw [if_pos rfl]
      constructor
      · intro h
        cases h
        exact List.mem_cons_self ..
      · intro h
        rcases List.mem_cons.1 h with h | h
        · cases h
          rfl
        · exact absurd (List.mem_map_of_mem (f := Prod.fst) h) hn'.1
    · rw [if_neg h, ih hn'.2]
      simp only [List.mem_cons, Prod.mk.injEq]
      constructor
      · exact .inr
      · rintro (⟨rfl, _⟩ | h')
        · exact absurd rfl h
        · exact h'

theorem lookup_append (a b : List (Name × V)) (n : Name) :
    lookup (a ++ b) n = (lookup a n).or (lookup b n) := by
  induction a with
  | nil => simp [lookup]
  | cons x a ih =>
    obtain ⟨m, v⟩ := x
    rw [List.cons_append, lookup_cons, lookup_cons, ih]
    by_cases h : m = n <;> simp [h]

theorem lookup_filter {kw : List (Name × V)} {n m : Name} (h : n ≠ m) :
    lookup (kw.filter fun x => decide (x.1 ≠ m)) n = lookup kw n := by
  induction kw with
  | nil => rfl
  | cons x kw ih =>
    obtain ⟨k, v⟩ := x
    rw [List.filter_cons]
    by_cases hk : k = m
    · subst hk
      simp only [ne_eq, not_true_eq_false, decide_false, Bool.false_eq_true, if_false]
      rw [lookup_cons, if_neg (Ne.symm h)]
      exact ih
    · simp only [ne_eq, hk, not_false_eq_true, decide_true, if_true]
      rw [lookup_cons, lookup_cons]
      simp only [ne_eq] at ih
      rw [ih]

theorem filterMap_congr' {α β : Type} {f g : α → Option β} {l : List α} (h : ∀ a ∈ l, f a = g a) :
    l.filterMap f = l.filterMap g := by
  induction l with
  | nil => rfl
  | cons a l ih =>
    rw [List.filterMap_cons, List.filterMap_cons, h a (List.mem_cons_self ..),
      ih fun b hb => h b (List.mem_cons_of_mem _ hb)]

/-- The value of a parameter that is not given by position. -/
def byName (kw : List (Name × V)) (p : Param V) : Option V := (lookup kw p.name).or p.default

/-- Binding and defaults in one pass, without the check that all keywords are used. -/
def full (kw : List (Name × V)) : List (Param V) → List V → Option (List (Name × V))
  | [], [] => some []
  | [], _ :: _ => none
  | p :: ps, [] =>
    match byName kw p, full kw ps [] with
    | some v, some d => some ((p.name, v) :: d)
    | _, _ => none
  | p :: ps, v :: vs =>
    if p.kwOnly ∨ p.name ∈ keys kw then none
    else (full kw ps vs).map fun d => (p.name, v) :: d

theorem bindKw_eq (ps : List (Param V)) (kw : List (Name × V)) (hp : (ps.map Param.name).Nodup) :
    (bindKw ps kw = none ∧ full kw ps [] = none) ∨
    ∃ b, bindKw ps kw = some (b, kw.filter fun x => decide (x.1 ∉ ps.map Param.name)) ∧
      (∀ n, lookup b n = if n ∈ ps.map Param.name then lookup kw n else none) ∧
      full kw ps [] = some (applyDefaults ps b) := by
  induction ps generalizing kw with
  | nil =>
    right
    exact ⟨[], by simp [bindKw, List.filter_eq_self.2], by simp [lookup], rfl⟩
  | cons p ps ih =>
    rw [List.map_cons, List.nodup_cons] at hp
    have hne : ∀ q ∈ ps, q.name ≠ p.name := by
      intro q hq he
      exact hp.1 (he ▸ List.mem_map_of_mem (f := Param.name) hq)
    have hfull : ∀ (kw' : List (Name × V)), (∀ q ∈ ps, lookup kw' q.name = lookup kw q.name) →
        full kw' ps [] = full kw ps [] := by
      intro kw'
      clear ih hne hp
      induction ps with
      | nil => intro _; rfl
      | cons q ps ih' =>
        intro h
        simp only [full]
        rw [ih' fun r hr => h r (List.mem_cons_of_mem _ hr)]
        unfold byName
        rw [h q (List.mem_cons_self ..)]
    have happ : ∀ (b b' : List (Name × V)), (∀ q ∈ ps, lookup b q.name = lookup b' q.name) →
        applyDefaults ps b = applyDefaults ps b' := by
      intro b b' h
      unfold applyDefaults
      refine filterMap_congr' fun q hq => ?_
      rw [h q hq]
    cases hl : lookup kw p.name with
    | some v =>
      have hf := hfull (kw.filter fun x => decide (x.1 ≠ p.name))
        (fun q hq => lookup_filter (hne q hq))
      rcases ih (kw.filter fun x => decide (x.1 ≠ p.name)) hp.2 with ⟨h1, h2⟩ | ⟨b, h1, h2, h3⟩
      · left
        rw [hf] at h2
        refine ⟨?_, ?_⟩
        · simp only [bindKw, hl, h1]
        · simp only [full, h2]
          cases byName kw p <;> rfl
      · right
        refine ⟨(p.name, v) :: b, ?_, ?_, ?_⟩
        · simp only [bindKw, hl, h1]
          rw [List.filter_filter]
          congr 2
          refine List.filter_congr fun x _ => ?_
          rw [Bool.eq_iff_iff]
          simp [and_comm]
        · intro n
          rw [lookup_cons, h2]
          by_cases hn : p.name = n
          · subst hn
            simp [hl]
          · rw [if_neg hn, lookup_filter (Ne.symm hn)]
            have : n ∈ List.map Param.name (p :: ps) ↔ n ∈ List.map Param.name ps := by
              rw [List.map_cons, List.mem_cons]
              exact or_iff_right (Ne.symm hn)
            by_cases hm : n ∈ List.map Param.name ps
            · rw [if_pos hm, if_pos (this.2 hm)]
            · rw [if_neg hm, if_neg (fun h => hm (this.1 h))]
        · rw [hf] at h3
          simp only [full, byName, hl, h3]
          unfold applyDefaults
          rw [List.filterMap_cons, lookup_cons, if_pos rfl]
          show some ((p.name, v) :: _) = some ((p.name, v) :: _)
          congr 2
          refine filterMap_congr' fun q hq => ?_
          rw [lookup_cons, if_neg (Ne.symm (hne q hq))]
    | none =>
      cases hd : p.default with
      | none =>
        left
        refine ⟨?_, ?_⟩
        · simp [bindKw, hl, hd]
        · simp [full, byName, hl, hd]
      | some v =>
        rcases ih kw hp.2 with ⟨h1, h2⟩ | ⟨b, h1, h2, h3⟩
        · left
          refine ⟨?_, ?_⟩
          · simp [bindKw, hl, hd, h1]
          · simp only [full, h2]
            cases byName kw p <;> rfl
        · right
          refine ⟨b, ?_, ?_, ?_⟩
          · simp only [bindKw, hl, hd, h1]
            simp only [Option.isNone_some, Bool.false_eq_true, if_false, Option.some.injEq,
              Prod.mk.injEq, true_and]
            refine List.filter_congr fun x hx => ?_
            have : x.1 ≠ p.name := by
              intro he
              exact lookup_none.1 hl (he ▸ List.mem_map_of_mem (f := Prod.fst) hx)
            simp [this]
          · intro n
            rw [h2]
            by_cases hn : n = p.name
            · subst hn
              simp [hl]
            · have : n ∈ List.map Param.name (p :: ps) ↔ n ∈ List.map Param.name ps := by
                rw [List.map_cons, List.mem_cons]
                exact or_iff_right hn
              by_cases hm : n ∈ List.map Param.name ps
              · rw [if_pos hm, if_pos (this.2 hm)]
              · rw [if_neg hm, if_neg (fun h => hm (this.1 h))]
          · have hb : lookup b p.name = none := by
              rw [h2, if_neg hp.1]
            simp only [full, byName, hl, hd, Option.none_or, h3]
            unfold applyDefaults
            rw [List.filterMap_cons, hb]
            simp [hd]

theorem filter_isEmpty {kw : List (Name × V)} {ns : List Name} :
    (kw.filter fun x => decide (x.1 ∉ ns)).isEmpty = true ↔ ∀ n ∈ keys kw, n ∈ ns := by
  rw [List.isEmpty_iff, List.filter_eq_nil_iff]
  unfold keys
  simp

/-- `bind` followed by `apply_defaults`. -/
theorem bind_eq (ps : List (Param V)) (args : List V) (kw : List (Name × V))
    (hp : (ps.map Param.name).Nodup) :
    (bind ps args kw).map (applyDefaults ps) =
      if ∀ n ∈ keys kw, n ∈ ps.map Param.name then full kw ps args else none := by
  -- the loop over the positional arguments
  suffices h : ∀ pre : List Name, (∀ n ∈ pre, n ∉ keys kw) →
      ((bindPos kw ps args = none ∨ ∃ b rest, bindPos kw ps args = some (b, rest) ∧
          bindKw rest kw = none) ∧ full kw ps args = none) ∨
      ∃ b rest b', bindPos kw ps args = some (b, rest) ∧
        bindKw rest kw = some (b', kw.filter fun x => decide (x.1 ∉ pre ++ ps.map Param.name)) ∧
        (∀ n, n ∉ ps.map Param.name → lookup (b ++ b') n = none) ∧
        full kw ps args = some (applyDefaults ps (b ++ b')) by
    rcases h [] (by simp) with ⟨h1, h2⟩ | ⟨b, rest, b', h1, h2, _, h4⟩
    · have : bind ps args kw = none := by
        unfold bind
        rcases h1 with h1 | ⟨b, rest, h1, h3⟩
        · rw [h1]
        · simp only [h1, h3]
      rw [this, h2]
      simp
    · unfold bind
      simp only [h1, h2, List.nil_append]
      by_cases hk : ∀ n ∈ keys kw, n ∈ ps.map Param.name
      · rw [if_pos hk, if_pos (filter_isEmpty.2 hk), h4]
        rfl
      · rw [if_neg hk, if_neg (fun h => hk (filter_isEmpty.1 h))]
        rfl
  induction ps generalizing args with
  | nil =>
    intro pre hpre
    cases args with
    | nil =>
      right
      refine ⟨[], [], [], rfl, ?_, ?_, rfl⟩
      · simp only [bindKw, List.map_nil, List.append_nil, Option.some.injEq, Prod.mk.injEq, true_and]
        symm
        rw [List.filter_eq_self]
        intro x hx
        simp only [decide_eq_true_eq]
        exact fun h => hpre _ h (List.mem_map_of_mem (f := Prod.fst) hx)
      · intro n _
        rfl
    | cons v vs =>
      left
      exact ⟨.inl rfl, rfl⟩
  | cons p ps ih =>
    intro pre hpre
    have hp0 := hp
    rw [List.map_cons, List.nodup_cons] at hp
    cases args with
    | nil =>
      by_cases hc : p.name ∈ keys kw ∨ p.default.isSome
      · have hpos : bindPos kw (p :: ps) [] = some ([], p :: ps) := by simp only [bindPos, if_pos hc]
        rcases bindKw_eq (p :: ps) kw hp0 with ⟨h1, h2⟩ | ⟨b, h1, h2, h3⟩
        · left
          exact ⟨.inr ⟨_, _, hpos, h1⟩, h2⟩
        · right
          refine ⟨[], p :: ps, b, hpos, ?_, ?_, h3⟩
          · rw [h1]
            congr 2
            refine List.filter_congr fun x hx => ?_
            have : x.1 ∉ pre := fun h => hpre _ h (List.mem_map_of_mem (f := Prod.fst) hx)
            rw [decide_eq_decide, List.mem_append]
            simp [this]
          · intro n hn
            rw [List.nil_append, h2, if_neg hn]
      · left
        refine ⟨.inl (by simp only [bindPos, if_neg hc]), ?_⟩
        rw [not_or] at hc
        have h1 : lookup kw p.name = none := lookup_none.2 hc.1
        have h2 : p.default = none := by simpa using hc.2
        simp [full, byName, h1, h2]
    | cons v vs =>
      by_cases hc : p.kwOnly = true ∨ p.name ∈ keys kw
      · left
        refine ⟨.inl ?_, by simp only [full, if_pos hc]⟩
        by_cases hk : p.kwOnly = true
        · simp only [bindPos, hk, if_true]
        · simp only [bindPos, hk, hc.resolve_left hk, if_true]
          simp
      · rw [not_or] at hc
        have hpos : ∀ r, bindPos kw ps vs = r → bindPos kw (p :: ps) (v :: vs) =
            match r with
            | some (b, r) => some ((p.name, v) :: b, r)
            | none => none := by
          rintro r rfl
          simp only [bindPos]
          rw [if_neg (by simpa using hc.1), if_neg hc.2]
          cases bindPos kw ps vs <;> rfl
        have hful : full kw (p :: ps) (v :: vs) = (full kw ps vs).map fun d => (p.name, v) :: d := by
          simp only [full]
          rw [if_neg (by rw [not_or]; exact hc)]
        rcases ih vs hp.2 (pre ++ [p.name]) (by
            intro n hn
            rcases List.mem_append.1 hn with hn | hn
            · exact hpre n hn
            · rw [List.mem_singleton.1 hn]
              exact hc.2) with ⟨h1, h2⟩ | ⟨b, rest, b', h1, h2, h3, h4⟩
        · left
          refine ⟨?_, by rw [hful, h2]; rfl⟩
          rcases h1 with h1 | ⟨b, rest, h1, h3⟩
          · exact .inl (hpos _ h1)
          · exact .inr ⟨_, _, hpos _ h1, h3⟩
        · right
          refine ⟨(p.name, v) :: b, rest, b', hpos _ h1, ?_, ?_, ?_⟩
          · rw [h2]
            simp
          · intro n hn
            rw [List.map_cons, List.mem_cons, not_or] at hn
            rw [List.cons_append, lookup_cons, if_neg (Ne.symm hn.1)]
            exact h3 n hn.2
          · rw [hful, h4]
            simp only [Option.map_some, Option.some.injEq]
            unfold applyDefaults
            rw [List.filterMap_cons, List.cons_append, lookup_cons, if_pos rfl]
            simp only [List.cons.injEq, true_and]
            refine filterMap_congr' fun q hq => ?_
            have : p.name ≠ q.name := fun he =>
              hp.1 (he ▸ List.mem_map_of_mem (f := Param.name) hq)
            rw [lookup_cons, if_neg this]

theorem full_some {kw : List (Name × V)} (hk : (keys kw).Nodup) :
    ∀ {ps : List (Param V)} {args : List V} {d : List (Name × V)}, full kw ps args = some d →
      (∀ i, i < args.length → ∃ p, ps[i]? = some p ∧ p.kwOnly = false ∧ p.name ∉ keys kw) ∧
      (∀ (i : Nat) p, ps[i]? = some p → args.length ≤ i → p.name ∈ keys kw ∨ p.default ≠ none) ∧
      Normalised ps args kw d
  | [], [], d, h => by
    cases h
    exact ⟨by simp, by simp, rfl, by simp⟩
  | [], _ :: _, d, h => by cases h
  | p :: ps, [], d, h => by
    simp only [full] at h
    cases hb : byName kw p with
    | none => rw [hb] at h; cases h
    | some v =>
      cases hf : full kw ps [] with
      | none => rw [hb, hf] at h; cases h
      | some d' =>
        rw [hb, hf] at h
        cases h
        obtain ⟨_, h2, h3, h4⟩ := full_some hk hf
        have hv : (p.name, v) ∈ kw ∨ (p.name ∉ keys kw ∧ p.default = some v) := by
          unfold byName at hb
          cases hl : lookup kw p.name with
          | some w =>
            rw [hl] at hb
            cases hb
            exact .inl ((lookup_mem hk).1 hl)
          | none =>
            rw [hl] at hb
            exact .inr ⟨lookup_none.1 hl, hb⟩
        refine ⟨by simp, ?_, by simp [h3], ?_⟩
        · intro i q hq hi
          cases i with
          | zero =>
            cases hq
            rcases hv with hv | hv
            · exact .inl (List.mem_map_of_mem (f := Prod.fst) hv)
            · exact .inr (by rw [hv.2]; exact Option.some_ne_none v)
          | succ i => exact h2 i q hq (Nat.zero_le i)
        · intro i q hq
          cases i with
          | zero =>
            cases hq
            exact ⟨v, rfl, .inr ⟨Nat.le_refl 0, hv⟩⟩
          | succ i =>
            obtain ⟨w, h5, h6⟩ := h4 i q hq
            refine ⟨w, h5, ?_⟩
            rcases h6 with h6 | h6
            · simp at h6
            · exact .inr ⟨Nat.zero_le _, h6.2⟩
  | p :: ps, v :: vs, d, h => by
    simp only [full] at h
    split at h
    · cases h
    · rename_i hc
      rw [not_or] at hc
      rw [Option.map_eq_some_iff] at h
      obtain ⟨d', hf, rfl⟩ := h
      obtain ⟨h1, h2, h3, h4⟩ := full_some hk hf
      refine ⟨?_, ?_, by simp [h3], ?_⟩
      · intro i hi
        cases i with
        | zero => exact ⟨p, rfl, by simpa using hc.1, hc.2⟩
        | succ i => exact h1 i (by simpa using hi)
      · intro i q hq hi
        cases i with
        | zero => cases hi
        | succ i => exact h2 i q hq (by simpa using hi)
      · intro i q hq
        cases i with
        | zero =>
          cases hq
          exact ⟨v, rfl, .inl rfl⟩
        | succ i =>
          obtain ⟨w, h5, h6⟩ := h4 i q hq
          refine ⟨w, h5, ?_⟩
          rcases h6 with h6 | h6
          · exact .inl h6
          · exact .inr ⟨by simpa using h6.1, h6.2⟩

theorem full_isSome {kw : List (Name × V)} :
    ∀ {ps : List (Param V)} {args : List V},
      (∀ i, i < args.length → ∃ p, ps[i]? = some p ∧ p.kwOnly = false ∧ p.name ∉ keys kw) →
      (∀ (i : Nat) p, ps[i]? = some p → args.length ≤ i → p.name ∈ keys kw ∨ p.default ≠ none) →
      ∃ d, full kw ps args = some d
  | [], [], _, _ => ⟨[], rfl⟩
  | [], _ :: _, h, _ => by
    obtain ⟨p, hp, _⟩ := h 0 (by simp)
    cases hp
  | p :: ps, [], _, h => by
    obtain ⟨d, hd⟩ := full_isSome (kw := kw) (ps := ps) (args := []) (by simp)
      (fun i q hq _ => h (i + 1) q hq (Nat.zero_le _))
    have hb : ∃ v, byName kw p = some v := by
      unfold byName
      rcases h 0 p rfl (Nat.le_refl 0) with h | h
      · cases hl : lookup kw p.name with
        | none => exact absurd h (lookup_none.1 hl)
        | some v => exact ⟨v, rfl⟩
      · obtain ⟨v, hv⟩ := Option.ne_none_iff_exists'.1 h
        rw [hv]
        cases lookup kw p.name with
        | none => exact ⟨v, rfl⟩
        | some w => exact ⟨w, rfl⟩
    obtain ⟨v, hv⟩ := hb
    exact ⟨(p.name, v) :: d, by simp only [full, hv, hd]⟩
  | p :: ps, v :: vs, h1, h2 => by
    obtain ⟨q, hq, h3, h4⟩ := h1 0 (by simp)
    cases hq
    obtain ⟨d, hd⟩ := full_isSome (kw := kw) (ps := ps) (args := vs)
      (fun i hi => h1 (i + 1) (by simpa using hi))
      (fun i q hq hi => h2 (i + 1) q hq (by simpa using hi))
    refine ⟨(p.name, v) :: d, ?_⟩
    simp only [full]
    rw [if_neg (by simp [h3, h4]), hd]
    rfl

theorem normalised_keys {ps : List (Param V)} {args : List V} {kw d : List (Name × V)}
    (h : Normalised ps args kw d) : keys d = ps.map Param.name := by
  unfold keys
  apply List.ext_getElem?
  intro i
  rw [List.getElem?_map, List.getElem?_map]
  cases hp : ps[i]? with
  | none =>
    rw [List.getElem?_eq_none_iff] at hp
    rw [List.getElem?_eq_none (by rw [h.1]; exact hp)]
    rfl
  | some p =>
    obtain ⟨v, h1, _⟩ := h.2 i p hp
    rw [h1]
    rfl

theorem value_unique {args : List V} {kw : List (Name × V)} (hk : (keys kw).Nodup) {i : Nat}
    {p : Param V} {v w : V} (hv : Value args kw i p v) (hw : Value args kw i p w) : v = w := by
  have hlt : ∀ u, args[i]? = some u → ¬ args.length ≤ i := by
    intro u hu
    rw [List.getElem?_eq_some_iff] at hu
    have := hu.1
    omega
  rcases hv with hv | ⟨hv, hv'⟩ <;> rcases hw with hw | ⟨hw, hw'⟩
  · rw [hv] at hw
    cases hw
    rfl
  · exact absurd hw (hlt _ hv)
  · exact absurd hv (hlt _ hw)
  · rcases hv' with hv' | hv' <;> rcases hw' with hw' | hw'
    · have := (lookup_mem hk).2 hv'
      rw [(lookup_mem hk).2 hw'] at this
      cases this
      rfl
    · exact absurd (List.mem_map_of_mem (f := Prod.fst) hv') hw'.1
    · exact absurd (List.mem_map_of_mem (f := Prod.fst) hw') hv'.1
    · have := hv'.2
      rw [hw'.2] at this
      cases this
      rfl

theorem normalised_unique {ps : List (Param V)} {args args' : List V} {kw kw' d d' : List (Name × V)}
    (hk : (keys kw').Nodup) (hd : Normalised ps args kw d) (hd' : Normalised ps args' kw' d')
    (h : ∀ (i : Nat) p v, ps[i]? = some p → Value args kw i p v → Value args' kw' i p v) : d = d' := by
  apply List.ext_getElem?
  intro i
  cases hp : ps[i]? with
  | none =>
    rw [List.getElem?_eq_none_iff] at hp
    rw [List.getElem?_eq_none (by rw [hd.1]; exact hp), List.getElem?_eq_none (by rw [hd'.1]; exact hp)]
  | some p =>
    obtain ⟨v, h1, h2⟩ := hd.2 i p hp
    obtain ⟨w, h3, h4⟩ := hd'.2 i p hp
    rw [h1, h3, value_unique hk (h i p v hp h2) h4]

/-- Methods whose first parameter is `self`. -/
theorem argsDict_method (pyNone : V) {ps : List (Param V)} (hs : Sig ps) (args : List V)
    {kw : List (Name × V)} (hk : (keys kw).Nodup) :
    argsDict pyNone (method ps) args kw =
      if ∀ n ∈ keys kw, n ∈ ps.map Param.name then
        match full kw ps args with
        | some d => .ok d
        | none => .error .typeError
      else .error .typeError := by
  have hb := bind_eq (method ps) (pyNone :: args) kw
    (by rw [method, List.map_cons, List.nodup_cons]; exact ⟨hs.2.1, hs.1⟩)
  unfold argsDict
  by_cases hc : ∀ n ∈ keys kw, n ∈ ps.map Param.name
  · have hself : "self".toList ∉ keys kw := fun h => hs.2.1 (hc _ h)
    rw [if_pos hc]
    rw [if_pos (by intro n hn; rw [method, List.map_cons]; exact List.mem_cons_of_mem _ (hc n hn))] at hb
    have hf : full kw (method ps) (pyNone :: args) =
        (full kw ps args).map fun d => ("self".toList, pyNone) :: d := by
      simp only [method, full]
      rw [if_neg (by rw [not_or]; exact ⟨by simp, hself⟩)]
    rw [hf] at hb
    cases hd : full kw ps args with
    | none =>
      rw [hd] at hb
      cases hbb : bind (method ps) (pyNone :: args) kw with
      | none => rfl
      | some b => rw [hbb] at hb; cases hb
    | some d =>
      rw [hd] at hb
      cases hbb : bind (method ps) (pyNone :: args) kw with
      | none => rw [hbb] at hb; cases hb
      | some b =>
        rw [hbb] at hb
        have hb' : applyDefaults (method ps) b = ("self".toList, pyNone) :: d := by
          simpa using hb
        simp only [hb']
        have hkd := normalised_keys (full_some hk hd).2.2
        rw [if_pos (by simp [keys])]
        congr 1
        rw [List.filter_cons_of_neg (by simp), List.filter_eq_self]
        intro x hx
        have : x.1 ∈ keys d := List.mem_map_of_mem (f := Prod.fst) hx
        rw [hkd] at this
        simp only [ne_eq, decide_eq_true_eq]
        intro he
        exact hs.2.1 (he ▸ this)
  · rw [if_neg hc]
    have : bind (method ps) (pyNone :: args) kw = none := by
      cases hbb : bind (method ps) (pyNone :: args) kw with
      | none => rfl
      | some b =>
        rw [hbb] at hb
        exfalso
        by_cases hself : "self".toList ∈ keys kw
        · have : full kw (method ps) (pyNone :: args) = none := by
            simp only [method, full]
            rw [if_pos (.inr hself)]
          rw [this] at hb
          simp at hb
        · rw [if_neg] at hb
          · cases hb
          · intro h
            apply hc
            intro n hn
            have := h n hn
            rw [method, List.map_cons, List.mem_cons] at this
            rcases this with rfl | this
            · exact absurd hn hself
            · exact this
    rw [this]

theorem fits_iff {ps : List (Param V)} {args : List V} {kw : List (Name × V)} (hk : (keys kw).Nodup) :
    Fits ps args kw ↔ (∀ n ∈ keys kw, n ∈ ps.map Param.name) ∧ ∃ d, full kw ps args = some d := by
  constructor
  · intro h
    refine ⟨?_, full_isSome h.positional h.missing⟩
    intro n hn
    obtain ⟨p, hp, rfl⟩ := h.keyword n hn
    exact List.mem_map_of_mem hp
  · rintro ⟨h1, d, hd⟩
    obtain ⟨h2, h3, _⟩ := full_some hk hd
    refine ⟨h2, ?_, h3⟩
    intro n hn
    obtain ⟨p, hp, he⟩ := List.mem_map.1 (h1 n hn)
    exact ⟨p, hp, he⟩

theorem deliver_ok (d : List (Name × V)) (l : List (Nat × (List (Name × V) → Payload V))) :
    deliver (.ok d) l = (l.map fun x => (x.1, x.2 d), none) := by
  induction l with
  | nil => rfl
  | cons x l ih => simp [deliver, ih]

theorem deliver_error (e : Err) (l : List (Nat × (List (Name × V) → Payload V))) :
    deliver (.error e) l = ([], if l.isEmpty then none else some e) := by
  cases l <;> rfl

/-- What the ports of all models receive, agent ports `a` and driver ports `y`. -/
def received (infos : List Info) (a y : Payload V) : List (Nat × Payload V) :=
  (infos.map fun i => i.agentPorts.map (fun p => (p, a)) ++
    match i.driverPort with
    | some p => [(p, y)]
    | none => []).flatten

theorem puts_eq (path : Name) (infos : List Info) (d : List (Name × V)) :
    (puts path infos).map (fun x => (x.1, x.2 d)) =
      received infos (.agent path d) (driverPayload d) := by
  unfold puts received
  rw [List.map_flatMap, ← List.flatMap_def]
  congr 1
  funext i
  unfold Info.hasPort
  cases i.driverPort <;> cases i.agentPorts <;> simp

theorem driverPayload_spec (d : List (Name × V)) : ForDriverPort d (driverPayload d) := by
  match d with
  | [] => exact .inr ⟨by simp, rfl⟩
  | [(n, v)] => exact .inl ⟨n, v, rfl, rfl⟩
  | _ :: _ :: _ => exact .inr ⟨by simp, rfl⟩

/-! ### C24 -/

/-- C24: a call that fits the signature delivers the arguments with the defaults applied to every port
of every model, exactly once: agent ports get the path and the mapping, driver ports the bare value if
there is one parameter and the mapping otherwise. Missing: methods with a parameter called `agent`, and
methods whose first parameter is not called `self` (the violations below). -/
theorem C24_delivers_partial (pyNone : V) (path : Name) {ps : List (Param V)} (hs : Sig ps)
    (infos : List Info) {args : List V} {kw : List (Name × V)} (hk : (keys kw).Nodup)
    (h : Fits ps args kw) :
    ∃ d y, Normalised ps args kw d ∧ ForDriverPort d y ∧
      call pyNone path (method ps) infos args kw = (received infos (.agent path d) y, none) := by
  obtain ⟨h1, d, hd⟩ := (fits_iff hk).1 h
  have ha : "agent".toList ∉ keys kw := fun hm => hs.2.2 (h1 _ hm)
  have hdict := argsDict_method pyNone hs args hk
  rw [if_pos h1, hd] at hdict
  refine ⟨d, driverPayload d, (full_some hk hd).2.2, driverPayload_spec d, ?_⟩
  unfold call
  rw [if_neg ha]
  unfold driverCall
  simp only [hdict, deliver_ok]
  rw [puts_eq]
  have : (bind (method ps) (pyNone :: args) kw).isNone = false := by
    cases hb : bind (method ps) (pyNone :: args) kw with
    | none => simp [argsDict, hb] at hdict
    | some b => rfl
  rw [this]
  rfl

/-- C24: a call that does not fit raises `TypeError`, and no port receives anything. Missing: as
above. -/
theorem C24_invalid_partial (pyNone : V) (path : Name) {ps : List (Param V)} (hs : Sig ps)
    (infos : List Info) {args : List V} {kw : List (Name × V)} (hk : (keys kw).Nodup)
    (h : ¬ Fits ps args kw) :
    call pyNone path (method ps) infos args kw = ([], some .typeError) := by
  have hdict : argsDict pyNone (method ps) args kw = .error .typeError := by
    rw [argsDict_method pyNone hs args hk]
    by_cases h1 : ∀ n ∈ keys kw, n ∈ ps.map Param.name
    · rw [if_pos h1]
      cases hf : full kw ps args with
      | none => rfl
      | some d => exact absurd ((fits_iff hk).2 ⟨h1, d, hf⟩) h
    · rw [if_neg h1]
  unfold call
  split
  · rfl
  · unfold driverCall
    simp only [hdict, deliver_error]
    cases (puts (V := V) path infos).isEmpty
    · rfl
    · have : (bind (method ps) (pyNone :: args) kw).isNone = true := by
        cases hb : bind (method ps) (pyNone :: args) kw with
        | none => rfl
        | some b =>
          unfold argsDict at hdict
          rw [hb] at hdict
          simp only at hdict
          split at hdict <;> cases hdict
      simp [this]

/-- C24: two calls that fit and give every parameter the same value deliver the same, whatever is given
by position and whatever by keyword. Missing: as above. -/
theorem C24_spelling_partial (pyNone : V) (path : Name) {ps : List (Param V)} (hs : Sig ps)
    (infos : List Info) {args args' : List V} {kw kw' : List (Name × V)} (hk : (keys kw).Nodup)
    (hk' : (keys kw').Nodup) (h : Fits ps args kw) (h' : Fits ps args' kw')
    (hv : ∀ (i : Nat) p v, ps[i]? = some p → Value args kw i p v → Value args' kw' i p v) :
    call pyNone path (method ps) infos args kw = call pyNone path (method ps) infos args' kw' := by
  obtain ⟨d, y, h1, h2, h3⟩ := C24_delivers_partial pyNone path hs infos hk h
  obtain ⟨d', y', h1', h2', h3'⟩ := C24_delivers_partial pyNone path hs infos hk' h'
  have : d = d' := normalised_unique hk' h1 h1' hv
  subst this
  have : y = y' := by
    rcases h2 with ⟨n, v, rfl, rfl⟩ | ⟨h2, rfl⟩ <;> rcases h2' with ⟨n', v', he, rfl⟩ | ⟨h2', rfl⟩
    · cases he
      rfl
    · simp at h2'
    · rw [he] at h2
      simp at h2
    · rfl
  rw [h3, h3', this]

/-- C24: in particular, the last positional argument can as well be given by keyword, and keyword
arguments can be given in any order. Missing: as above. -/
theorem C24_keyword_partial (pyNone : V) (path : Name) {ps : List (Param V)} (hs : Sig ps)
    (infos : List Info) {args : List V} {v : V} {kw kw' : List (Name × V)} (hk : (keys kw).Nodup)
    {p : Param V} (hp : ps[args.length]? = some p) (ho : p.kwOnly = false) (hn : p.name ∉ keys kw)
    (hperm : kw'.Perm ((p.name, v) :: kw)) :
    call pyNone path (method ps) infos (args ++ [v]) kw =
      call pyNone path (method ps) infos args kw' := by
  have hkp : (keys kw').Perm (p.name :: keys kw) := hperm.map Prod.fst
  have hk' : (keys kw').Nodup := hkp.nodup_iff.2 (List.nodup_cons.2 ⟨hn, hk⟩)
  have hmk : ∀ n, n ∈ keys kw' ↔ n = p.name ∨ n ∈ keys kw := by
    intro n
    rw [hkp.mem_iff, List.mem_cons]
  -- names are unique
  have hpos : ∀ (i : Nat) q, ps[i]? = some q → q.name = p.name → i = args.length := by
    intro i q hq he
    obtain ⟨hi, hqi⟩ := List.getElem?_eq_some_iff.1 hq
    obtain ⟨hj, hpj⟩ := List.getElem?_eq_some_iff.1 hp
    have := (List.nodup_iff_pairwise_ne.1 hs.1)
    rw [List.pairwise_iff_getElem] at this
    by_cases h1 : i < args.length
    · have h2 := this i args.length (by simpa using hi) (by simpa using hj) h1
      rw [List.getElem_map, List.getElem_map, hqi, hpj] at h2
      exact absurd he h2
    · by_cases h2 : args.length < i
      · have h3 := this args.length i (by simpa using hj) (by simpa using hi) h2
        rw [List.getElem_map, List.getElem_map, hqi, hpj] at h3
        exact absurd he.symm h3
      · omega
  have hfit : Fits ps (args ++ [v]) kw ↔ Fits ps args kw' := by
    constructor
    · intro h
      refine ⟨?_, ?_, ?_⟩
      · intro i hi
        obtain ⟨q, h1, h2, h3⟩ := h.positional i (by rw [List.length_append]; omega)
        refine ⟨q, h1, h2, ?_⟩
        rw [hmk, not_or]
        refine ⟨fun he => ?_, h3⟩
        have := hpos i q h1 he
        omega
      · intro n hm
        rcases (hmk n).1 hm with rfl | hm
        · exact ⟨p, List.mem_of_getElem? hp, rfl⟩
        · exact h.keyword n hm
      · intro i q hq hi
        rw [hmk]
        by_cases he : i = args.length
        · subst he
          rw [hp] at hq
          cases hq
          exact .inl (.inl rfl)
        · rcases h.missing i q hq (by simp; omega) with h1 | h1
          · exact .inl (.inr h1)
          · exact .inr h1
    · intro h
      refine ⟨?_, ?_, ?_⟩
      · intro i hi
        by_cases he : i = args.length
        · subst he
          exact ⟨p, hp, ho, hn⟩
        · obtain ⟨q, h1, h2, h3⟩ := h.positional i (by rw [List.length_append] at hi; simp at hi; omega)
          rw [hmk, not_or] at h3
          exact ⟨q, h1, h2, h3.2⟩
      · intro n hm
        exact h.keyword n ((hmk n).2 (.inr hm))
      · intro i q hq hi
        rw [List.length_append, List.length_singleton] at hi
        rcases h.missing i q hq (by omega) with h1 | h1
        · rcases (hmk _).1 h1 with h1 | h1
          · have := hpos i q hq h1
            omega
          · exact .inl h1
        · exact .inr h1
  by_cases hf : Fits ps (args ++ [v]) kw
  · refine C24_spelling_partial pyNone path hs infos hk hk' hf (hfit.1 hf) ?_
    intro i q w hq hval
    rcases hval with hval | ⟨hi, hval⟩
    · by_cases he : i = args.length
      · subst he
        rw [hp] at hq
        cases hq
        rw [List.getElem?_append_right (Nat.le_refl _), Nat.sub_self] at hval
        cases hval
        exact .inr ⟨Nat.le_refl _, .inl (hperm.mem_iff.2 (List.mem_cons_self ..))⟩
      · have hlt : i < args.length := by
          have := (List.getElem?_eq_some_iff.1 hval).1
          rw [List.length_append, List.length_singleton] at this
          omega
        rw [List.getElem?_append_left hlt] at hval
        exact .inl hval
    · rw [List.length_append, List.length_singleton] at hi
      refine .inr ⟨by omega, ?_⟩
      rcases hval with hval | ⟨hval, hd⟩
      · exact .inl (hperm.mem_iff.2 (List.mem_cons_of_mem _ hval))
      · refine .inr ⟨?_, hd⟩
        rw [hmk, not_or]
        refine ⟨fun he => ?_, hval⟩
        have := hpos i q hq he
        omega
  · rw [C24_invalid_partial pyNone path hs infos hk hf,
      C24_invalid_partial pyNone path hs infos hk' (fun h => hf (hfit.2 h))]

/-! ### Violations -/

namespace Witness

def port : List Info := [⟨none, [], some 0, [1]⟩]
def x : Param Nat := ⟨"x".toList, none, false⟩
def y : Param Nat := ⟨"y".toList, some 5, false⟩
def agent : Param Nat := ⟨"agent".toList, none, false⟩
def this : Param Nat := ⟨"this".toList, none, false⟩

end Witness

/-- C24 fails: a parameter called `agent` cannot be given by keyword, because the wrapper of the
decorator has a parameter of that name; `m(7)` is delivered, `m(agent=7)` raises `TypeError`. -/
theorem C24_agent_violated :
    call 0 "a.m".toList (method [Witness.agent]) Witness.port [7] [] =
      ([(1, .agent "a.m".toList [("agent".toList, 7)]), (0, .bare 7)], none) ∧
    Fits [Witness.agent] [] [("agent".toList, 7)] ∧
    call 0 "a.m".toList (method [Witness.agent]) Witness.port [] [("agent".toList, 7)] =
      ([], some .typeError) := by
  refine ⟨by decide +kernel, ⟨by simp, ?_, ?_⟩, by decide +kernel⟩
  · intro n hn
    have hn' : n = "agent".toList := by simpa [keys] using hn
    exact ⟨Witness.agent, by simp, hn'.symm⟩
  · intro i p hp _
    match i, hp with
    | 0, hp =>
      cases hp
      exact .inl (by simp [keys, Witness.agent])

/-- C24 fails: if the first parameter of the method is not called `self`, a valid call raises
`KeyError` and nothing is delivered. -/
theorem C24_self_violated :
    call 0 "a.m".toList [Witness.this, Witness.x] Witness.port [7] [] = ([], some .keyError) ∧
      bind [Witness.this, Witness.x] [0, 7] [] ≠ none := by decide +kernel

/-! ### The hypotheses can be met -/

example : Sig [Witness.x, Witness.y] := by unfold Sig; decide +kernel

/-- `m(1, y=2)`, `m(y=2, x=1)` and `m(1)`. -/
example : call 0 "a.m".toList (method [Witness.x, Witness.y]) Witness.port [1] [("y".toList, 2)] =
    ([(1, .agent "a.m".toList [("x".toList, 1), ("y".toList, 2)]),
      (0, .dict [("x".toList, 1), ("y".toList, 2)])], none) := by decide +kernel
example : call 0 "a.m".toList (method [Witness.x, Witness.y]) Witness.port []
    [("y".toList, 2), ("x".toList, 1)] =
    call 0 "a.m".toList (method [Witness.x, Witness.y]) Witness.port [1, 2] [] := by decide +kernel
example : call 0 "a.m".toList (method [Witness.x, Witness.y]) Witness.port [1] [] =
    ([(1, .agent "a.m".toList [("x".toList, 1), ("y".toList, 5)]),
      (0, .dict [("x".toList, 1), ("y".toList, 5)])], none) := by decide +kernel
/-- One parameter, and a call without the argument. -/
example : call 0 "a.m".toList (method [Witness.x]) Witness.port [1] [] =
    ([(1, .agent "a.m".toList [("x".toList, 1)]), (0, .bare 1)], none) := by decide +kernel
example : call 0 "a.m".toList (method [Witness.x]) Witness.port [] [] = ([], some .typeError) := by
  decide +kernel

example : Fits [Witness.x, Witness.y] [1] [] := by
  refine ⟨?_, by simp [keys], ?_⟩
  · intro i hi
    match i, hi with
    | 0, _ => exact ⟨Witness.x, rfl, rfl, by simp [keys]⟩
  · intro i p hp hi
    match i, hp, hi with
    | 1, hp, _ =>
      cases hp
      exact .inr (by simp [Witness.y])

end Toffee.Args
