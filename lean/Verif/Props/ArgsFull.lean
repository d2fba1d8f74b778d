import Verif.Model.ArgsFull
import Verif.Props.Args

/-! The payload of ports for driver calls with all kinds of parameters (`toffee/_base_agent.py`,
`toffee/agent.py`): C107. -/

namespace Toffee.Args.Full

open Toffee.Driver (Info Name)
open Toffee.Args (lookup keys Err Payload deliver puts received ForDriverPort)

variable {V : Type}

/-! ### Specification -/

/-- A parameter that can be given by position; before the `/` or after it. -/
structure Pos (V : Type) where
  name : Name
  default : Option V
  only : Bool

/-- A parameter after the `*`. -/
structure Kwo (V : Type) where
  name : Name
  default : Option V

/-- A signature `def m(pos, /, pos, *var, kwo, **varkw)`, without `self`. -/
structure Sig (V : Type) where
  pos : List (Pos V)
  var : Option Name
  kwo : List (Kwo V)
  varkw : Option Name

/-- The names of all parameters. -/
def Sig.names (s : Sig V) : List Name :=
  s.pos.map Pos.name ++ (s.var.toList ++ (s.kwo.map Kwo.name ++ s.varkw.toList))

/-- The names of the parameters that can be given by keyword. -/
def Sig.byKeyword (s : Sig V) : List Name :=
  (s.pos.filter fun p => !p.only).map Pos.name ++ s.kwo.map Kwo.name

/-- Python accepts the arguments: no positional argument too many, no parameter with two values, no
parameter without a value, no unexpected keyword. -/
structure Fits (s : Sig V) (args : List V) (kw : List (Name × V)) : Prop where
  many : args.length ≤ s.pos.length ∨ s.var ≠ none
  twice : ∀ (i : Nat) p, s.pos[i]? = some p → i < args.length → p.only = false → p.name ∉ keys kw
  missing : ∀ (i : Nat) p, s.pos[i]? = some p → args.length ≤ i →
    p.default ≠ none ∨ (p.only = false ∧ p.name ∈ keys kw)
  missingKw : ∀ p ∈ s.kwo, p.default ≠ none ∨ p.name ∈ keys kw
  keyword : ∀ n ∈ keys kw, n ∈ s.byKeyword ∨ s.varkw ≠ none

/-- The value of a parameter that can be given by position. -/
def PosValue (args : List V) (kw : List (Name × V)) (i : Nat) (p : Pos V) (v : V) : Prop :=
  args[i]? = some v ∨
    (args.length ≤ i ∧ ((p.only = false ∧ (p.name, v) ∈ kw) ∨
      ((p.only = true ∨ p.name ∉ keys kw) ∧ p.default = some v)))

/-- The value of a parameter after the `*`. -/
def KwValue (kw : List (Name × V)) (p : Kwo V) (v : V) : Prop :=
  (p.name, v) ∈ kw ∨ (p.name ∉ keys kw ∧ p.default = some v)

/-- The local variables that the method starts with, in the order of the parameters: the `*` parameter
has the positional arguments that are left, the `**` parameter the keywords that are left. -/
def Locals (s : Sig V) (args : List V) (kw : List (Name × V)) (d : List (Name × Arg V)) : Prop :=
  ∃ a c, d = a ++ (s.var.toList.map (fun n => (n, .tuple (args.drop s.pos.length))) ++ (c ++
      s.varkw.toList.map fun n => (n, .dict (kw.filter fun x => decide (x.1 ∉ s.byKeyword))))) ∧
    (a.length = s.pos.length ∧ ∀ (i : Nat) p, s.pos[i]? = some p →
      ∃ v, a[i]? = some (p.name, .one v) ∧ PosValue args kw i p v) ∧
    (c.length = s.kwo.length ∧ ∀ (i : Nat) p, s.kwo[i]? = some p →
      ∃ v, c[i]? = some (p.name, .one v) ∧ KwValue kw p v)

/-- The parameters as `inspect.signature` lists them. -/
def Pos.param (p : Pos V) : Param V := ⟨p.name, if p.only then .posOnly else .posOrKw, p.default⟩
def Kwo.param (p : Kwo V) : Param V := ⟨p.name, .kwOnly, p.default⟩
def Sig.params (s : Sig V) : List (Param V) :=
  s.pos.map Pos.param ++ (s.var.toList.map (⟨·, .varPos, none⟩) ++
    (s.kwo.map Kwo.param ++ s.varkw.toList.map (⟨·, .varKw, none⟩)))

/-- The signature with `self`, positional-only if what follows is. -/
def Sig.method (s : Sig V) (only : Bool) : Sig V :=
  { s with pos := ⟨"self".toList, none, only⟩ :: s.pos }

/-- The parameters have different names, none of which is `self`. -/
def Sig.Ok (s : Sig V) : Prop :=
  s.names.Nodup ∧ "self".toList ∉ s.names

/-! ### Lemmas -/

section Lemmas

/-- Parameters that take one value. -/
def Plain (p : Param V) : Prop := p.kind ≠ .varPos ∧ p.kind ≠ .varKw

def oks (kw : List (Name × V)) (l : List (Param V)) : Prop :=
  ∀ p ∈ l, if p.name ∈ keys kw then p.kind ≠ .posOnly else p.default ≠ none

def given (kw : List (Name × V)) (l : List (Param V)) : List (Name × Arg V) :=
  l.filterMap fun p => (lookup kw p.name).map fun v => (p.name, .one v)

def without (kw : List (Name × V)) (l : List Name) : List (Name × V) :=
  kw.filter fun x => decide (x.1 ∉ l)

theorem mem_keys_filter {kw : List (Name × V)} {n : Name} {q : Name → Bool} :
    n ∈ keys (kw.filter fun x => q x.1) ↔ n ∈ keys kw ∧ q n = true := by
  unfold keys
  simp only [List.mem_map, List.mem_filter]
  constructor
  · rintro ⟨x, ⟨h1, h2⟩, rfl⟩
    exact ⟨⟨x, h1, rfl⟩, h2⟩
  · rintro ⟨⟨x, h1, rfl⟩, h2⟩
    exact ⟨x, ⟨h1, h2⟩, rfl⟩

theorem lookup_without {kw : List (Name × V)} {n : Name} {l : List Name} (h : n ∉ l) :
    lookup (without kw l) n = lookup kw n := by
  unfold without
  induction kw with
  | nil => rfl
  | cons x kw ih =>
    obtain ⟨m, v⟩ := x
    rw [List.filter_cons]
    by_cases hm : m ∈ l
    · rw [if_neg (by simpa using hm), Args.lookup_cons, if_neg (fun he : m = n => h (he ▸ hm)), ih]
    · rw [if_pos (by simpa using hm), Args.lookup_cons, Args.lookup_cons, ih]

theorem keys_without {kw : List (Name × V)} {n : Name} {l : List Name} :
    n ∈ keys (without kw l) ↔ n ∈ keys kw ∧ n ∉ l := by
  unfold without
  rw [mem_keys_filter (q := fun m => decide (m ∉ l))]
  simp

theorem without_without (kw : List (Name × V)) (l m : List Name) :
    without (without kw l) m = without kw (l ++ m) := by
  unfold without
  rw [List.filter_filter]
  congr 1
  funext x
  simp [Bool.and_comm]

theorem oks_congr {kw kw' : List (Name × V)} {l : List (Param V)}
    (h : ∀ p ∈ l, (p.name ∈ keys kw ↔ p.name ∈ keys kw')) : oks kw l ↔ oks kw' l := by
  unfold oks
  constructor <;> intro hk p hp
  · have := hk p hp
    by_cases hm : p.name ∈ keys kw'
    · rw [if_pos hm]
      rwa [if_pos ((h p hp).2 hm)] at this
    · rw [if_neg hm]
      rwa [if_neg (fun hx => hm ((h p hp).1 hx))] at this
  · have := hk p hp
    by_cases hm : p.name ∈ keys kw
    · rw [if_pos hm]
      rwa [if_pos ((h p hp).1 hm)] at this
    · rw [if_neg hm]
      rwa [if_neg (fun hx => hm ((h p hp).2 hx))] at this

theorem given_congr {kw kw' : List (Name × V)} {l : List (Param V)}
    (h : ∀ p ∈ l, lookup kw p.name = lookup kw' p.name) : given kw l = given kw' l := by
  unfold given
  apply Args.filterMap_congr'
  intro p hp
  rw [h p hp]

open Classical in
/-- The second loop over parameters that take one value. -/
theorem bindKw_plain (l : List (Param V)) (t : List (Param V)) (kw : List (Name × V))
    (hl : ∀ p ∈ l, Plain p) (hn : (l.map Param.name).Nodup) :
    bindKw (l ++ t) kw =
      if oks kw l then (bindKw t (without kw (l.map Param.name))).map fun r => (given kw l ++ r.1, r.2)
      else none := by
  induction l generalizing kw with
  | nil =>
    rw [if_pos (by intro p hp; cases hp)]
    have : without kw (List.map Param.name ([] : List (Param V))) = kw := by
      unfold without
      rw [List.filter_eq_self]
      simp
    rw [this, List.nil_append]
    cases bindKw t kw <;> rfl
  | cons p l ih =>
    obtain ⟨hp1, hp2⟩ := hl p (List.mem_cons_self ..)
    have hl' : ∀ q ∈ l, Plain q := fun q hq => hl q (List.mem_cons_of_mem _ hq)
    rw [List.map_cons, List.nodup_cons] at hn
    rw [List.cons_append, bindKw, if_neg hp2, if_neg hp1]
    cases hk : lookup kw p.name with
    | none =>
      have hm : p.name ∉ keys kw := Args.lookup_none.1 hk
      simp only
      cases hd : p.default with
      | none =>
        rw [if_pos (show (none : Option V).isNone = true from rfl), if_neg]
        intro h
        have := h p (List.mem_cons_self ..)
        rw [if_neg hm] at this
        exact this hd
      | some v =>
        rw [if_neg (by simp), ih kw hl' hn.2]
        have ho : oks kw (p :: l) ↔ oks kw l := by
          constructor
          · intro h q hq
            exact h q (List.mem_cons_of_mem _ hq)
          · intro h q hq
            rcases List.mem_cons.1 hq with rfl | hq
            · rw [if_neg hm, hd]
              simp
            · exact h q hq
        have hg : given kw (p :: l) = given kw l := by
          unfold given
          rw [List.filterMap_cons, hk]
          rfl
        have hw : without kw ((p :: l).map Param.name) = without kw (l.map Param.name) := by
          unfold without
          apply List.filter_congr
          intro x hx
          have : x.1 ≠ p.name := fun he => hm (he ▸ List.mem_map_of_mem (f := Prod.fst) hx)
          simp [this]
        simp only [ho, hg, hw]
    | some v =>
      have hm : p.name ∈ keys kw := by
        apply Classical.byContradiction
        intro h
        rw [Args.lookup_none.2 h] at hk
        cases hk
      simp only
      by_cases hpo : p.kind = .posOnly
      · rw [if_pos hpo, if_neg]
        intro h
        have := h p (List.mem_cons_self ..)
        rw [if_pos hm] at this
        exact this hpo
      · rw [if_neg hpo]
        have hf : (kw.filter fun x => decide (x.1 ≠ p.name)) = without kw [p.name] := by
          unfold without
          congr 1
          funext x
          simp
        rw [hf, ih _ hl' hn.2]
        have hne : ∀ q ∈ l, q.name ∉ [p.name] := by
          intro q hq he
          rw [List.mem_singleton] at he
          exact hn.1 (he ▸ List.mem_map_of_mem hq)
        have ho : oks kw (p :: l) ↔ oks (without kw [p.name]) l := by
          rw [oks_congr (kw' := kw) (l := l)]
          · constructor
            · intro h q hq
              exact h q (List.mem_cons_of_mem _ hq)
            · intro h q hq
              rcases List.mem_cons.1 hq with rfl | hq
              · rw [if_pos hm]
                exact hpo
              · exact h q hq
          · intro q hq
            rw [keys_without]
            exact ⟨fun h => h.1, fun h => ⟨h, hne q hq⟩⟩
        have hg : given kw (p :: l) = (p.name, .one v) :: given (without kw [p.name]) l := by
          rw [given_congr (kw' := kw) (l := l) fun q hq => lookup_without (hne q hq)]
          unfold given
          rw [List.filterMap_cons, hk]
          rfl
        have hw : without (without kw [p.name]) (l.map Param.name) =
            without kw ((p :: l).map Param.name) := by
          rw [without_without]
          rfl
        simp only [ho, hg, hw]
        by_cases hx : oks (without kw [p.name]) l
        · simp only [if_pos hx]
          cases bindKw t (without kw ((p :: l).map Param.name)) <;> rfl
        · simp only [if_neg hx]

/-- The first loop without positional arguments changes nothing about the second one. -/
theorem bindPos_nil (kw : List (Name × V)) (t : List (Param V)) :
    (match bindPos kw t [] with
      | none => none
      | some (b, rest) => (bindKw rest kw).map fun r => (b ++ r.1, r.2)) = bindKw t kw := by
  cases t with
  | nil => rfl
  | cons p t =>
    rw [bindPos]
    by_cases h1 : p.kind = .varPos
    · rw [if_pos h1]
      have h2 : p.kind ≠ .varKw := by rw [h1]; decide
      rw [bindKw, if_neg h2, if_pos h1]
      simp only
      cases bindKw t kw <;> rfl
    · rw [if_neg h1]
      by_cases hm : p.name ∈ keys kw
      · rw [if_pos hm]
        by_cases h2 : p.kind = .posOnly
        · rw [if_pos h2, bindKw, if_neg (by rw [h2]; decide), if_neg h1]
          cases hk : lookup kw p.name with
          | none => exact absurd hm (Args.lookup_none.1 hk)
          | some v => simp only [if_pos h2]
        · rw [if_neg h2]
          simp only
          cases bindKw (p :: t) kw <;> rfl
      · rw [if_neg hm]
        by_cases h2 : p.kind = .varKw ∨ p.default.isSome
        · rw [if_pos h2]
          simp only
          cases bindKw (p :: t) kw <;> rfl
        · rw [if_neg h2]
          rw [not_or] at h2
          rw [bindKw, if_neg h2.1, if_neg h1, Args.lookup_none.2 hm]
          simp only
          rw [if_pos]
          simpa using h2.2

open Classical in
/-- The first loop over parameters that get a positional argument. -/
theorem bindPos_pairs (kw : List (Name × V)) (l : List (Pos V × V)) (t : List (Param V))
    (vs : List V) :
    bindPos kw (l.map (fun x => x.1.param) ++ t) (l.map Prod.snd ++ vs) =
      if ∀ x ∈ l, x.1.only = false → x.1.name ∉ keys kw then
        (bindPos kw t vs).map fun r => (l.map (fun x => (x.1.name, .one x.2)) ++ r.1, r.2)
      else none := by
  induction l with
  | nil =>
    rw [if_pos (by intro x hx; cases hx)]
    simp only [List.map_nil, List.nil_append]
    cases bindPos kw t vs <;> rfl
  | cons x l ih =>
    simp only [List.map_cons, List.cons_append]
    rw [bindPos]
    have h1 : ¬ (x.1.param.kind = .varKw ∨ x.1.param.kind = .kwOnly) := by
      unfold Pos.param
      cases x.1.only <;> simp
    have h2 : ¬ x.1.param.kind = .varPos := by
      unfold Pos.param
      cases x.1.only <;> simp
    rw [if_neg h1, if_neg h2, ih]
    have h3 : (x.1.param.name ∈ keys kw ∧ x.1.param.kind ≠ .posOnly) ↔
        (x.1.only = false ∧ x.1.name ∈ keys kw) := by
      unfold Pos.param
      cases x.1.only <;> simp
    by_cases h4 : x.1.only = false ∧ x.1.name ∈ keys kw
    · rw [if_pos (h3.2 h4), if_neg]
      intro h
      exact h x (List.mem_cons_self ..) h4.1 h4.2
    · rw [if_neg (fun h => h4 (h3.1 h))]
      by_cases h5 : ∀ y ∈ l, y.1.only = false → y.1.name ∉ keys kw
      · rw [if_pos h5, if_pos]
        · cases bindPos kw t vs <;> rfl
        · intro y hy
          rcases List.mem_cons.1 hy with rfl | hy
          · intro ha hb
            exact h4 ⟨ha, hb⟩
          · exact h5 y hy
      · rw [if_neg h5, if_neg]
        intro h
        exact h5 fun y hy => h y (List.mem_cons_of_mem _ hy)

/-- Both loops. -/
def stage (kw : List (Name × V)) (ps : List (Param V)) (args : List V) :
    Option (List (Name × Arg V) × List (Name × V) × Option Name) :=
  match bindPos kw ps args with
  | none => none
  | some (b, rest) => (bindKw rest kw).map fun r => (b ++ r.1, r.2)

/-- What follows the second loop. -/
def finish (r : List (Name × Arg V) × List (Name × V) × Option Name) : Option (List (Name × Arg V)) :=
  if r.2.1.isEmpty then some r.1 else r.2.2.map fun n => r.1 ++ [(n, .dict r.2.1)]

theorem bind_stage (kw : List (Name × V)) (ps : List (Param V)) (args : List V) :
    bind ps args kw = (stage kw ps args).bind finish := by
  unfold bind stage finish
  cases bindPos kw ps args with
  | none => rfl
  | some x =>
    obtain ⟨b, rest⟩ := x
    simp only
    cases bindKw rest kw with
    | none => rfl
    | some y =>
      obtain ⟨b', left, k⟩ := y
      cases k <;> rfl

def kwoP (s : Sig V) : List (Param V) := s.kwo.map Kwo.param
def varP (s : Sig V) : List (Param V) := s.var.toList.map (⟨·, .varPos, none⟩)
def varkwP (s : Sig V) : List (Param V) := s.varkw.toList.map (⟨·, .varKw, none⟩)

theorem kwoP_names (s : Sig V) : (kwoP s).map Param.name = s.kwo.map Kwo.name := by
  unfold kwoP
  rw [List.map_map]
  rfl

theorem posP_names (l : List (Pos V)) : (l.map Pos.param).map Param.name = l.map Pos.name := by
  rw [List.map_map]
  rfl

theorem kwoP_plain (s : Sig V) : ∀ p ∈ kwoP s, Plain p := by
  intro p hp
  obtain ⟨q, _, rfl⟩ := List.mem_map.1 hp
  constructor <;> simp [Kwo.param]

theorem posP_plain (l : List (Pos V)) : ∀ p ∈ l.map Pos.param, Plain p := by
  intro p hp
  obtain ⟨q, _, rfl⟩ := List.mem_map.1 hp
  unfold Pos.param Plain
  cases q.only <;> simp

open Classical in
theorem bindKw_kwo (s : Sig V) (kw : List (Name × V)) (hn : (s.kwo.map Kwo.name).Nodup) :
    bindKw (kwoP s ++ varkwP s) kw =
      if oks kw (kwoP s) then some (given kw (kwoP s), without kw (s.kwo.map Kwo.name), s.varkw)
      else none := by
  rw [bindKw_plain _ _ _ (kwoP_plain s) (by rw [kwoP_names]; exact hn), kwoP_names]
  have : ∀ kw' : List (Name × V), bindKw (varkwP s) kw' = some ([], kw', s.varkw) := by
    intro kw'
    unfold varkwP
    cases s.varkw with
    | none => rfl
    | some n => simp [bindKw]
  rw [this]
  simp

open Classical in
theorem bindKw_rest (s : Sig V) (l : List (Pos V)) (kw : List (Name × V))
    (hn : (l.map Pos.name ++ s.kwo.map Kwo.name).Nodup) :
    bindKw (l.map Pos.param ++ (varP s ++ (kwoP s ++ varkwP s))) kw =
      if oks kw (l.map Pos.param) ∧ oks kw (kwoP s) then
        some (given kw (l.map Pos.param) ++ given kw (kwoP s),
          without kw (l.map Pos.name ++ s.kwo.map Kwo.name), s.varkw)
      else none := by
  obtain ⟨hn1, hn2, hn3⟩ := List.nodup_append.1 hn
  rw [bindKw_plain _ _ _ (posP_plain l) (by rw [posP_names]; exact hn1), posP_names]
  have hv : ∀ kw' : List (Name × V),
      bindKw (varP s ++ (kwoP s ++ varkwP s)) kw' = bindKw (kwoP s ++ varkwP s) kw' := by
    intro kw'
    unfold varP
    cases s.var with
    | none => rfl
    | some n => simp [bindKw]
  rw [hv, bindKw_kwo _ _ hn2]
  have hne : ∀ p ∈ kwoP s, p.name ∉ l.map Pos.name := by
    intro p hp hm
    have : p.name ∈ s.kwo.map Kwo.name := by
      rw [← kwoP_names]
      exact List.mem_map_of_mem hp
    exact hn3 _ hm _ this rfl
  have h1 : oks (without kw (l.map Pos.name)) (kwoP s) ↔ oks kw (kwoP s) :=
    oks_congr fun p hp => by
      rw [keys_without]
      exact ⟨fun h => h.1, fun h => ⟨h, hne p hp⟩⟩
  have h2 : given (without kw (l.map Pos.name)) (kwoP s) = given kw (kwoP s) :=
    given_congr fun p hp => lookup_without (hne p hp)
  rw [h2, without_without]
  simp only [h1]
  by_cases ha : oks kw (l.map Pos.param) <;> by_cases hb : oks kw (kwoP s) <;> simp [ha, hb]

/-- What the `*` parameter gets from the call. -/
def varE (s : Sig V) (args : List V) : List (Name × Arg V) :=
  if args.length ≤ s.pos.length then []
  else s.var.toList.map fun n => (n, .tuple (args.drop s.pos.length))

/-- What the parameters get that have a positional argument. -/
def zipE (s : Sig V) (args : List V) : List (Name × Arg V) :=
  (s.pos.zip args).map fun x => (x.1.name, .one x.2)

def Good (s : Sig V) (args : List V) (kw : List (Name × V)) : Prop :=
  (∀ x ∈ s.pos.zip args, x.1.only = false → x.1.name ∉ keys kw) ∧
    oks kw ((s.pos.drop args.length).map Pos.param) ∧
    (args.length ≤ s.pos.length ∨ s.var ≠ none) ∧ oks kw (kwoP s)

def leftOver (s : Sig V) (args : List V) (kw : List (Name × V)) : List (Name × V) :=
  without kw ((s.pos.drop args.length).map Pos.name ++ s.kwo.map Kwo.name)

theorem drop_nodup {s : Sig V} (hs : s.names.Nodup) (n : Nat) :
    ((s.pos.drop n).map Pos.name ++ s.kwo.map Kwo.name).Nodup := by
  refine List.Nodup.sublist ?_ hs
  unfold Sig.names
  refine List.Sublist.append ?_ ?_
  · exact (List.drop_sublist n s.pos).map _
  · exact ((List.sublist_append_left _ _).trans (List.sublist_append_right _ _))

theorem zip_fst {α β : Type} (l : List α) (m : List β) :
    (l.zip m).map Prod.fst = l.take m.length := by
  induction l generalizing m with
  | nil => simp
  | cons a l ih =>
    cases m with
    | nil => rfl
    | cons b m => simp [ih]

theorem zip_snd {α β : Type} (l : List α) (m : List β) :
    (l.zip m).map Prod.snd = m.take l.length := by
  induction l generalizing m with
  | nil => simp
  | cons a l ih =>
    cases m with
    | nil => rfl
    | cons b m => simp [ih]

theorem zip_param (l : List (Pos V)) (m : List V) :
    (l.zip m).map (fun x => x.1.param) = (l.take m.length).map Pos.param := by
  rw [← zip_fst, List.map_map]
  rfl

theorem params_eq (s : Sig V) :
    s.params = s.pos.map Pos.param ++ (varP s ++ (kwoP s ++ varkwP s)) := rfl

open Classical in
theorem stage_eq (s : Sig V) (args : List V) (kw : List (Name × V)) (hs : s.names.Nodup) :
    stage kw s.params args =
      if Good s args kw then
        some (zipE s args ++ (given kw ((s.pos.drop args.length).map Pos.param) ++
            (varE s args ++ given kw (kwoP s))), leftOver s args kw, s.varkw)
      else none := by
  by_cases hlen : args.length ≤ s.pos.length
  · have hp : s.params = (s.pos.zip args).map (fun x => x.1.param) ++
        ((s.pos.drop args.length).map Pos.param ++ (varP s ++ (kwoP s ++ varkwP s))) := by
      rw [zip_param, ← List.append_assoc, ← List.map_append, List.take_append_drop, params_eq]
    have ha : (s.pos.zip args).map Prod.snd ++ [] = args := by
      rw [List.append_nil, zip_snd, List.take_of_length_le hlen]
    have hb := bindPos_pairs kw (s.pos.zip args)
      ((s.pos.drop args.length).map Pos.param ++ (varP s ++ (kwoP s ++ varkwP s))) []
    rw [← hp, ha] at hb
    have hst := bindPos_nil kw
      ((s.pos.drop args.length).map Pos.param ++ (varP s ++ (kwoP s ++ varkwP s)))
    rw [bindKw_rest _ _ _ (drop_nodup hs _)] at hst
    unfold stage
    rw [hb]
    by_cases h1 : ∀ x ∈ s.pos.zip args, x.1.only = false → x.1.name ∉ keys kw
    · rw [if_pos h1]
      generalize hq : bindPos kw
        ((s.pos.drop args.length).map Pos.param ++ (varP s ++ (kwoP s ++ varkwP s))) [] = q at hst
      by_cases h2 : oks kw ((s.pos.drop args.length).map Pos.param) ∧ oks kw (kwoP s)
      · rw [if_pos h2] at hst
        rw [if_pos ⟨h1, h2.1, .inl hlen, h2.2⟩]
        cases q with
        | none => cases hst
        | some y =>
          obtain ⟨b, rest⟩ := y
          simp only [Option.map_some] at hst ⊢
          cases hr : bindKw rest kw with
          | none => rw [hr] at hst; cases hst
          | some r =>
            rw [hr] at hst
            simp only [Option.map_some, Option.some.injEq, Prod.mk.injEq] at hst ⊢
            refine ⟨?_, hst.2⟩
            rw [List.append_assoc, hst.1]
            unfold varE zipE
            rw [if_pos hlen, List.nil_append]
      · rw [if_neg h2] at hst
        rw [if_neg (fun h => h2 ⟨h.2.1, h.2.2.2⟩)]
        cases q with
        | none => rfl
        | some y =>
          obtain ⟨b, rest⟩ := y
          simp only [Option.map_some] at hst ⊢
          cases hr : bindKw rest kw with
          | none => rfl
          | some r => rw [hr] at hst; cases hst
    · rw [if_neg h1, if_neg (fun h => h1 h.1)]
  · have hlt : s.pos.length < args.length := Nat.lt_of_not_le hlen
    have hp : s.params = (s.pos.zip args).map (fun x => x.1.param) ++
        (varP s ++ (kwoP s ++ varkwP s)) := by
      rw [zip_param, List.take_of_length_le (Nat.le_of_lt hlt), params_eq]
    have ha : (s.pos.zip args).map Prod.snd ++ args.drop s.pos.length = args := by
      rw [zip_snd, List.take_append_drop]
    have hb := bindPos_pairs kw (s.pos.zip args) (varP s ++ (kwoP s ++ varkwP s))
      (args.drop s.pos.length)
    rw [← hp, ha] at hb
    have hdrop : s.pos.drop args.length = [] := List.drop_of_length_le (Nat.le_of_lt hlt)
    unfold stage
    rw [hb]
    by_cases h1 : ∀ x ∈ s.pos.zip args, x.1.only = false → x.1.name ∉ keys kw
    · rw [if_pos h1]
      cases hd : args.drop s.pos.length with
      | nil =>
        have := List.length_drop (i := s.pos.length) (l := args)
        rw [hd] at this
        simp at this
        omega
      | cons v vs =>
        cases hv : s.var with
        | none =>
          rw [if_neg (fun h => h.2.2.1.elim hlen (· hv))]
          have : bindPos kw (varP s ++ (kwoP s ++ varkwP s)) (v :: vs) = none := by
            unfold varP kwoP varkwP
            rw [hv]
            cases s.kwo with
            | nil =>
              cases s.varkw <;> simp [bindPos]
            | cons p l => simp [bindPos, Kwo.param]
          rw [this]
          rfl
        | some n =>
          have : bindPos kw (varP s ++ (kwoP s ++ varkwP s)) (v :: vs) =
              some ([(n, .tuple (v :: vs))], kwoP s ++ varkwP s) := by
            unfold varP
            rw [hv]
            simp [bindPos]
          rw [this]
          have hn : (s.kwo.map Kwo.name).Nodup :=
            (List.nodup_append.1 (drop_nodup hs 0)).2.1
          simp only [Option.map_some]
          rw [bindKw_kwo _ _ hn]
          by_cases h2 : oks kw (kwoP s)
          · rw [if_pos h2, if_pos ⟨h1, (by rw [hdrop]; intro p hp; cases hp), .inr (by rw [hv]; simp), h2⟩]
            unfold varE leftOver zipE
            rw [if_neg hlen, hv, hd, hdrop]
            simp [given]
          · rw [if_neg h2, if_neg (fun h => h2 h.2.2.2)]
            rfl
    · rw [if_neg h1, if_neg (fun h => h1 h.1)]

/-! Defaults. -/

theorem applyDefaults_append {l1 l2 : List (Param V)} {b1 b2 : List (Name × Arg V)}
    (h1 : ∀ p ∈ l1, p.name ∉ keys b2) (h2 : ∀ p ∈ l2, p.name ∉ keys b1) :
    applyDefaults (l1 ++ l2) (b1 ++ b2) = applyDefaults l1 b1 ++ applyDefaults l2 b2 := by
  unfold applyDefaults
  rw [List.filterMap_append]
  congr 1
  · apply Args.filterMap_congr'
    intro p hp
    rw [Args.lookup_append, Args.lookup_none.2 (h1 p hp), Option.or_none]
  · apply Args.filterMap_congr'
    intro p hp
    rw [Args.lookup_append, Args.lookup_none.2 (h2 p hp), Option.none_or]

theorem applyDefaults_zip (l : List (Pos V × V)) (hn : (l.map fun x => x.1.name).Nodup) :
    applyDefaults (l.map fun x => x.1.param) (l.map fun x => (x.1.name, .one x.2)) =
      l.map fun x => (x.1.name, .one x.2) := by
  induction l with
  | nil => rfl
  | cons x l ih =>
    rw [List.map_cons, List.nodup_cons] at hn
    have := applyDefaults_append (l1 := [x.1.param]) (l2 := l.map fun x => x.1.param)
      (b1 := [(x.1.name, .one x.2)]) (b2 := l.map fun x => (x.1.name, .one x.2)) ?_ ?_
    · rw [ih hn.2] at this
      simp only [List.map_cons]
      rw [List.singleton_append, List.singleton_append] at this
      rw [this]
      simp [applyDefaults, Args.lookup_cons, Pos.param]
    · intro p hp
      rw [List.mem_singleton] at hp
      subst hp
      unfold keys
      rw [List.map_map]
      exact hn.1
    · intro p hp
      obtain ⟨y, hy, rfl⟩ := List.mem_map.1 hp
      unfold keys
      simp only [List.map_cons, List.map_nil, List.mem_singleton]
      intro he
      exact hn.1 (List.mem_map.2 ⟨y, hy, he⟩)

theorem keys_given {kw : List (Name × V)} {l : List (Param V)} {n : Name}
    (h : n ∈ keys (given kw l)) : n ∈ l.map Param.name := by
  unfold keys given at h
  obtain ⟨x, hx, rfl⟩ := List.mem_map.1 h
  obtain ⟨p, hp, he⟩ := List.mem_filterMap.1 hx
  cases hk : lookup kw p.name with
  | none => rw [hk] at he; cases he
  | some v =>
    rw [hk] at he
    cases he
    exact List.mem_map_of_mem hp

/-- The value of a parameter that has no positional argument. -/
def named (kw : List (Name × V)) (p : Param V) : Option (Name × Arg V) :=
  ((lookup kw p.name).or p.default).map fun v => (p.name, .one v)

theorem applyDefaults_given (kw : List (Name × V)) (l : List (Param V)) (hl : ∀ p ∈ l, Plain p)
    (hn : (l.map Param.name).Nodup) :
    applyDefaults l (given kw l) = l.filterMap (named kw) := by
  induction l with
  | nil => rfl
  | cons p l ih =>
    obtain ⟨hp1, hp2⟩ := hl p (List.mem_cons_self ..)
    rw [List.map_cons, List.nodup_cons] at hn
    have := applyDefaults_append (l1 := [p]) (l2 := l) (b1 := given kw [p]) (b2 := given kw l) ?_ ?_
    · rw [ih (fun q hq => hl q (List.mem_cons_of_mem _ hq)) hn.2] at this
      have hg : given kw (p :: l) = given kw [p] ++ given kw l := by
        unfold given
        rw [← List.filterMap_append]
        rfl
      have hc : (p :: l).filterMap (named kw) = [p].filterMap (named kw) ++ l.filterMap (named kw) := by
        rw [← List.filterMap_append]
        rfl
      rw [hg, hc, ← List.singleton_append, this]
      congr 1
      have hgp : given kw [p] = ((lookup kw p.name).map fun v => (p.name, Arg.one v)).toList := by
        unfold given
        cases hk : lookup kw p.name <;> simp [hk]
      rw [hgp]
      unfold named applyDefaults
      simp only [List.filterMap_cons, List.filterMap_nil]
      cases hk : lookup kw p.name with
      | none =>
        have : lookup ([] : List (Name × Arg V)) p.name = none := rfl
        cases hd : p.default with
        | none => simp [this, hp1, hp2]
        | some v => simp [this]
      | some v => simp [Args.lookup_cons]
    · intro q hq hm
      rw [List.mem_singleton] at hq
      subst hq
      exact hn.1 (keys_given hm)
    · intro q hq hm
      have := keys_given hm
      simp only [List.map_cons, List.map_nil, List.mem_singleton] at this
      exact hn.1 (this ▸ List.mem_map_of_mem hq)

/-- The local variables, as the code computes them. -/
def localsF (s : Sig V) (args : List V) (kw : List (Name × V)) : List (Name × Arg V) :=
  zipE s args ++ (((s.pos.drop args.length).map Pos.param).filterMap (named kw) ++
    (s.var.toList.map (fun n => (n, .tuple (args.drop s.pos.length))) ++
      ((kwoP s).filterMap (named kw) ++ s.varkw.toList.map fun n => (n, .dict (leftOver s args kw)))))

/-- What the `**` parameter gets from the call. -/
def varkwE (s : Sig V) (args : List V) (kw : List (Name × V)) : List (Name × Arg V) :=
  if (leftOver s args kw).isEmpty then []
  else s.varkw.toList.map fun n => (n, .dict (leftOver s args kw))

theorem applyDefaults_var (s : Sig V) (args : List V) :
    applyDefaults (varP s) (varE s args) =
      s.var.toList.map fun n => (n, .tuple (args.drop s.pos.length)) := by
  unfold varP varE
  cases s.var with
  | none =>
    by_cases h : args.length ≤ s.pos.length <;> simp [applyDefaults]
  | some n =>
    by_cases h : args.length ≤ s.pos.length
    · have : lookup ([] : List (Name × Arg V)) n = none := rfl
      simp [applyDefaults, h, this, List.drop_of_length_le]
    · simp [applyDefaults, h, Args.lookup_cons]

theorem applyDefaults_varkw (s : Sig V) (args : List V) (kw : List (Name × V)) :
    applyDefaults (varkwP s) (varkwE s args kw) =
      s.varkw.toList.map fun n => (n, .dict (leftOver s args kw)) := by
  unfold varkwP varkwE
  cases s.varkw with
  | none => by_cases h : (leftOver s args kw).isEmpty <;> simp [applyDefaults]
  | some n =>
    cases h : leftOver s args kw with
    | nil =>
      have : lookup ([] : List (Name × Arg V)) n = none := rfl
      simp [applyDefaults, this]
    | cons x l => simp [applyDefaults, Args.lookup_cons]

theorem keys_append (a b : List (Name × V)) : keys (a ++ b) = keys a ++ keys b := List.map_append

theorem bind_good {s : Sig V} {args : List V} {kw : List (Name × V)} (hs : s.names.Nodup)
    (hg : Good s args kw) (hl : leftOver s args kw = [] ∨ s.varkw ≠ none) :
    ∃ b, bind s.params args kw = some b ∧ applyDefaults s.params b = localsF s args kw := by
  refine ⟨zipE s args ++ (given kw ((s.pos.drop args.length).map Pos.param) ++
    (varE s args ++ (given kw (kwoP s) ++ varkwE s args kw))), ?_, ?_⟩
  · rw [bind_stage, stage_eq _ _ _ hs, if_pos hg]
    simp only [Option.bind_some, finish, varkwE]
    by_cases he : (leftOver s args kw).isEmpty
    · rw [if_pos he, if_pos he, List.append_nil]
    · rw [if_neg he, if_neg he]
      cases hv : s.varkw with
      | none =>
        rcases hl with hl | hl
        · rw [hl] at he
          simp at he
        · exact absurd hv hl
      | some n => simp
  · have hn := hs
    unfold Sig.names at hn
    rw [← List.take_append_drop args.length s.pos, List.map_append, List.append_assoc] at hn
    have hp : s.params = (s.pos.zip args).map (fun x => x.1.param) ++
        ((s.pos.drop args.length).map Pos.param ++ (varP s ++ (kwoP s ++ varkwP s))) := by
      rw [zip_param, ← List.append_assoc, ← List.map_append, List.take_append_drop, params_eq]
    have hz : (s.pos.zip args).map (fun x => x.1.name) = (s.pos.take args.length).map Pos.name := by
      rw [← zip_fst, List.map_map]
      rfl
    have k1 : ∀ n ∈ keys (zipE s args), n ∈ (s.pos.take args.length).map Pos.name := by
      intro n hm
      rw [← hz]
      unfold keys zipE at hm
      rw [List.map_map] at hm
      exact hm
    have k2 : ∀ n ∈ keys (given kw ((s.pos.drop args.length).map Pos.param)),
        n ∈ (s.pos.drop args.length).map Pos.name := by
      intro n hm
      rw [← posP_names]
      exact keys_given hm
    have k3 : ∀ n ∈ keys (varE s args), n ∈ s.var.toList := by
      intro n hm
      unfold keys varE at hm
      split at hm
      · cases hm
      · simpa using hm
    have k4 : ∀ n ∈ keys (given kw (kwoP s)), n ∈ s.kwo.map Kwo.name := by
      intro n hm
      rw [← kwoP_names]
      exact keys_given hm
    have k5 : ∀ n ∈ keys (varkwE s args kw), n ∈ s.varkw.toList := by
      intro n hm
      unfold keys varkwE at hm
      split at hm
      · cases hm
      · simpa using hm
    have p1 : ∀ p ∈ (s.pos.zip args).map (fun x => x.1.param),
        p.name ∈ (s.pos.take args.length).map Pos.name := by
      intro p hp
      rw [zip_param] at hp
      rw [← posP_names]
      exact List.mem_map_of_mem hp
    have p2 : ∀ p ∈ (s.pos.drop args.length).map Pos.param,
        p.name ∈ (s.pos.drop args.length).map Pos.name := by
      intro p hp
      rw [← posP_names]
      exact List.mem_map_of_mem hp
    have p3 : ∀ p ∈ varP s, p.name ∈ s.var.toList := by
      intro p hp
      obtain ⟨n, hn, rfl⟩ := List.mem_map.1 hp
      exact hn
    have p4 : ∀ p ∈ kwoP s, p.name ∈ s.kwo.map Kwo.name := by
      intro p hp
      rw [← kwoP_names]
      exact List.mem_map_of_mem hp
    have p5 : ∀ p ∈ varkwP s, p.name ∈ s.varkw.toList := by
      intro p hp
      obtain ⟨n, hn, rfl⟩ := List.mem_map.1 hp
      exact hn
    obtain ⟨n1, m1, d1⟩ := List.nodup_append.1 hn
    obtain ⟨n2, m2, d2⟩ := List.nodup_append.1 m1
    obtain ⟨n3, m3, d3⟩ := List.nodup_append.1 m2
    obtain ⟨n4, n5, d4⟩ := List.nodup_append.1 m3
    rw [hp, applyDefaults_append, applyDefaults_append, applyDefaults_append, applyDefaults_append]
    · rw [applyDefaults_given _ _ (posP_plain _) (by rw [posP_names]; exact n2),
        applyDefaults_given _ _ (kwoP_plain s) (by rw [kwoP_names]; exact n4),
        applyDefaults_var, applyDefaults_varkw]
      unfold zipE localsF
      rw [applyDefaults_zip _ (by rw [hz]; exact n1)]
      rfl
    · intro p hp hm
      exact d4 _ (p4 p hp) _ (k5 _ hm) rfl
    · intro p hp hm
      exact d4 _ (k4 _ hm) _ (p5 p hp) rfl
    · intro p hp hm
      rw [keys_append, List.mem_append] at hm
      exact d3 _ (p3 p hp) _ (List.mem_append.2 (hm.imp (k4 _) (k5 _))) rfl
    · intro p hp hm
      exact d3 _ (k3 _ hm) _ (List.mem_append.2 ((List.mem_append.1 hp).imp (p4 p) (p5 p))) rfl
    · intro p hp hm
      rw [keys_append, keys_append, List.mem_append, List.mem_append] at hm
      exact d2 _ (p2 p hp) _ (List.mem_append.2 (hm.imp (k3 _) fun h =>
        List.mem_append.2 (h.imp (k4 _) (k5 _)))) rfl
    · intro p hp hm
      exact d2 _ (k2 _ hm) _ (List.mem_append.2 ((List.mem_append.1 hp).imp (p3 p) fun h =>
        List.mem_append.2 ((List.mem_append.1 h).imp (p4 p) (p5 p)))) rfl
    · intro p hp hm
      rw [keys_append, keys_append, keys_append, List.mem_append, List.mem_append,
        List.mem_append] at hm
      exact d1 _ (p1 p hp) _ (List.mem_append.2 (hm.imp (k2 _) fun h =>
        List.mem_append.2 (h.imp (k3 _) fun h => List.mem_append.2 (h.imp (k4 _) (k5 _))))) rfl
    · intro p hp hm
      exact d1 _ (k1 _ hm) _ (List.mem_append.2 ((List.mem_append.1 hp).imp (p2 p) fun h =>
        List.mem_append.2 ((List.mem_append.1 h).imp (p3 p) fun h =>
          List.mem_append.2 ((List.mem_append.1 h).imp (p4 p) (p5 p))))) rfl

theorem bind_bad {s : Sig V} {args : List V} {kw : List (Name × V)} (hs : s.names.Nodup)
    (h : ¬ (Good s args kw ∧ (leftOver s args kw = [] ∨ s.varkw ≠ none))) :
    bind s.params args kw = none := by
  rw [bind_stage, stage_eq _ _ _ hs]
  by_cases hg : Good s args kw
  · rw [if_pos hg]
    simp only [Option.bind_some, finish]
    rw [if_neg]
    · cases hv : s.varkw with
      | none => rfl
      | some n => exact absurd ⟨hg, .inr (by rw [hv]; simp)⟩ h
    · intro he
      exact h ⟨hg, .inl (List.isEmpty_iff.1 he)⟩
  · rw [if_neg hg]
    rfl

/-- No keyword is named like a positional-only parameter that is not given by position. -/
def NoClash (s : Sig V) (args : List V) (kw : List (Name × V)) : Prop :=
  ∀ (i : Nat) p, s.pos[i]? = some p → args.length ≤ i → p.only = true → p.name ∉ keys kw

theorem forall_zip {α β : Type} {l : List α} {m : List β} {P : α → Prop} :
    (∀ x ∈ l.zip m, P x.1) ↔ ∀ (i : Nat) a, l[i]? = some a → i < m.length → P a := by
  constructor
  · intro h i a ha hi
    have hb : m[i]? = some m[i] := List.getElem?_eq_getElem hi
    have : (l.zip m)[i]? = some (a, m[i]) := List.getElem?_zip_eq_some.2 ⟨ha, hb⟩
    exact h _ (List.mem_of_getElem? this)
  · intro h x hx
    obtain ⟨i, hi⟩ := List.mem_iff_getElem?.1 hx
    obtain ⟨h1, h2⟩ := List.getElem?_zip_eq_some.1 hi
    exact h i _ h1 (List.getElem?_eq_some_iff.1 h2).1

theorem forall_drop {α : Type} {l : List α} {n : Nat} {P : α → Prop} :
    (∀ x ∈ l.drop n, P x) ↔ ∀ (i : Nat) a, l[i]? = some a → n ≤ i → P a := by
  constructor
  · intro h i a ha hi
    apply h
    apply List.mem_of_getElem? (i := i - n)
    rw [List.getElem?_drop, Nat.add_sub_cancel' hi]
    exact ha
  · intro h x hx
    obtain ⟨i, hi⟩ := List.mem_iff_getElem?.1 hx
    rw [List.getElem?_drop] at hi
    exact h _ x hi (Nat.le_add_right ..)

theorem oks_pos {l : List (Pos V)} {kw : List (Name × V)} :
    oks kw (l.map Pos.param) ↔
      ∀ p ∈ l, if p.name ∈ keys kw then p.only = false else p.default ≠ none := by
  unfold oks
  simp only [List.forall_mem_map]
  have : ∀ p : Pos V, (p.param.kind ≠ .posOnly ↔ p.only = false) := by
    intro p
    unfold Pos.param
    cases p.only <;> simp
  simp only [this]
  rfl

theorem oks_kwo {s : Sig V} {kw : List (Name × V)} :
    oks kw (kwoP s) ↔ ∀ p ∈ s.kwo, p.default ≠ none ∨ p.name ∈ keys kw := by
  unfold oks kwoP
  simp only [List.forall_mem_map]
  constructor
  · intro h p hp
    have := h p hp
    by_cases hm : p.name ∈ keys kw
    · exact .inr hm
    · have hm' : p.param.name ∉ keys kw := hm
      rw [if_neg hm'] at this
      exact .inl this
  · intro h p hp
    by_cases hm : p.param.name ∈ keys kw
    · rw [if_pos hm]
      simp [Kwo.param]
    · rw [if_neg hm]
      exact (h p hp).resolve_right hm

/-- Names of keywords: those of the parameters that have no value yet, and those that can be given by
keyword. -/
theorem keyword_iff {s : Sig V} {args : List V} {kw : List (Name × V)} (hc : NoClash s args kw)
    (ht : ∀ (i : Nat) p, s.pos[i]? = some p → i < args.length → p.only = false → p.name ∉ keys kw)
    {n : Name} (hn : n ∈ keys kw) :
    n ∈ (s.pos.drop args.length).map Pos.name ++ s.kwo.map Kwo.name ↔ n ∈ s.byKeyword := by
  unfold Sig.byKeyword
  rw [List.mem_append, List.mem_append]
  apply or_congr_left
  simp only [List.mem_map, List.mem_filter]
  constructor
  · rintro ⟨p, hp, rfl⟩
    have hall := forall_drop (l := s.pos) (n := args.length) (P := fun p => p ∈ s.pos ∧
      (p.name ∈ keys kw → p.only = false))
    have := hall.2 (fun i a ha hi => ⟨List.mem_of_getElem? ha, fun hm => by
      cases ho : a.only with
      | false => rfl
      | true => exact absurd hm (hc i a ha hi ho)⟩) p hp
    exact ⟨p, ⟨this.1, by simp [this.2 hn]⟩, rfl⟩
  · rintro ⟨p, ⟨hp, ho⟩, rfl⟩
    obtain ⟨i, hi⟩ := List.mem_iff_getElem?.1 hp
    have hle : args.length ≤ i := by
      apply Nat.le_of_not_lt
      intro hlt
      exact ht i p hi hlt (by simpa using ho) hn
    refine ⟨p, ?_, rfl⟩
    apply List.mem_of_getElem? (i := i - args.length)
    rw [List.getElem?_drop, Nat.add_sub_cancel' hle]
    exact hi

theorem good_clash {s : Sig V} {args : List V} {kw : List (Name × V)} (h : Good s args kw) :
    NoClash s args kw := by
  intro i p hp hi ho hm
  have := (forall_drop (l := s.pos) (n := args.length)
    (P := fun p => if p.name ∈ keys kw then p.only = false else p.default ≠ none)).1
      (oks_pos.1 h.2.1) i p hp hi
  rw [if_pos hm, ho] at this
  cases this

theorem fits_good {s : Sig V} {args : List V} {kw : List (Name × V)} (hc : NoClash s args kw) :
    Fits s args kw ↔ Good s args kw ∧ (leftOver s args kw = [] ∨ s.varkw ≠ none) := by
  have hz : (∀ x ∈ s.pos.zip args, x.1.only = false → x.1.name ∉ keys kw) ↔
      ∀ (i : Nat) p, s.pos[i]? = some p → i < args.length → p.only = false → p.name ∉ keys kw :=
    forall_zip (P := fun p : Pos V => p.only = false → p.name ∉ keys kw)
  have hd := forall_drop (l := s.pos) (n := args.length)
    (P := fun p => if p.name ∈ keys kw then p.only = false else p.default ≠ none)
  have hleft : leftOver s args kw = [] ↔
      ∀ n ∈ keys kw, n ∈ (s.pos.drop args.length).map Pos.name ++ s.kwo.map Kwo.name := by
    unfold leftOver without
    rw [List.filter_eq_nil_iff]
    unfold keys
    simp only [List.forall_mem_map, decide_eq_true_eq, Classical.not_not]
  unfold Good
  rw [hz, oks_pos, hd, oks_kwo, hleft]
  constructor
  · intro h
    refine ⟨⟨h.twice, ?_, h.many, h.missingKw⟩, ?_⟩
    · intro i p hp hi
      by_cases hm : p.name ∈ keys kw
      · rw [if_pos hm]
        cases ho : p.only with
        | false => rfl
        | true => exact absurd hm (hc i p hp hi ho)
      · rw [if_neg hm]
        exact (h.missing i p hp hi).resolve_right fun hx => hm hx.2
    · cases hv : s.varkw with
      | some k => exact .inr (by simp)
      | none =>
        refine .inl fun n hn => ?_
        rw [keyword_iff hc h.twice hn]
        exact (h.keyword n hn).resolve_right fun hx => hx hv
  · rintro ⟨⟨h1, h2, h3, h4⟩, h5⟩
    refine ⟨h3, h1, ?_, h4, ?_⟩
    · intro i p hp hi
      have := h2 i p hp hi
      by_cases hm : p.name ∈ keys kw
      · rw [if_pos hm] at this
        exact .inr ⟨this, hm⟩
      · rw [if_neg hm] at this
        exact .inl this
    · intro n hn
      rcases h5 with h5 | h5
      · exact .inl ((keyword_iff hc h1 hn).1 (h5 n hn))
      · exact .inr h5

theorem filterMap_total {α β : Type} {f : α → Option β} {l : List α} (h : ∀ a ∈ l, f a ≠ none) :
    (l.filterMap f).length = l.length ∧
      ∀ (i : Nat) a, l[i]? = some a → (l.filterMap f)[i]? = f a := by
  induction l with
  | nil =>
    refine ⟨rfl, ?_⟩
    intro i a ha
    cases ha
  | cons x l ih =>
    obtain ⟨h1, h2⟩ := ih fun a ha => h a (List.mem_cons_of_mem _ ha)
    cases hf : f x with
    | none => exact absurd hf (h x (List.mem_cons_self ..))
    | some y =>
      rw [List.filterMap_cons, hf]
      refine ⟨by simp [h1], ?_⟩
      intro i a ha
      cases i with
      | zero =>
        cases ha
        exact hf.symm
      | succ i => exact h2 i a ha

theorem named_ne {kw : List (Name × V)} {p : Param V}
    (h : if p.name ∈ keys kw then p.kind ≠ .posOnly else p.default ≠ none) : named kw p ≠ none := by
  unfold named
  intro hx
  rw [Option.map_eq_none_iff, Option.or_eq_none_iff] at hx
  rw [if_neg (Args.lookup_none.1 hx.1)] at h
  exact h hx.2

theorem named_some {kw : List (Name × V)} (hk : (keys kw).Nodup) {p : Param V} {y : Name × Arg V}
    (h : named kw p = some y) :
    ∃ v, y = (p.name, .one v) ∧ ((p.name, v) ∈ kw ∨ (p.name ∉ keys kw ∧ p.default = some v)) := by
  unfold named at h
  cases hl : lookup kw p.name with
  | some v =>
    rw [hl] at h
    simp at h
    exact ⟨v, h.symm, .inl ((Args.lookup_mem hk).1 hl)⟩
  | none =>
    rw [hl] at h
    cases hd : p.default with
    | none => rw [hd] at h; cases h
    | some v =>
      rw [hd] at h
      simp at h
      exact ⟨v, h.symm, .inr ⟨Args.lookup_none.1 hl, rfl⟩⟩

theorem locals_spec {s : Sig V} {args : List V} {kw : List (Name × V)} (hk : (keys kw).Nodup)
    (hc : NoClash s args kw) (hg : Good s args kw) :
    Locals s args kw (localsF s args kw) := by
  obtain ⟨g1, g2, g3, g4⟩ := hg
  have ht := (forall_zip (P := fun p : Pos V => p.only = false → p.name ∉ keys kw)).1 g1
  have hleft : leftOver s args kw = kw.filter fun x => decide (x.1 ∉ s.byKeyword) := by
    unfold leftOver without
    apply List.filter_congr
    intro x hx
    rw [decide_eq_decide, keyword_iff hc ht (List.mem_map_of_mem (f := Prod.fst) hx)]
  have t2 := filterMap_total fun p hp => named_ne (g2 p hp)
  have t4 := filterMap_total fun p hp => named_ne (g4 p hp)
  refine ⟨zipE s args ++ ((s.pos.drop args.length).map Pos.param).filterMap (named kw),
    (kwoP s).filterMap (named kw), ?_, ⟨?_, ?_⟩, ⟨?_, ?_⟩⟩
  · unfold localsF
    rw [hleft, List.append_assoc]
  · rw [List.length_append, t2.1]
    unfold zipE
    simp only [List.length_map, List.length_zip, List.length_drop]
    omega
  · intro i p hp
    have hzl : (zipE s args).length = min s.pos.length args.length := by
      unfold zipE
      simp
    have hil : i < s.pos.length := (List.getElem?_eq_some_iff.1 hp).1
    by_cases hi : i < args.length
    · have hb : args[i]? = some args[i] := List.getElem?_eq_getElem hi
      refine ⟨args[i], ?_, .inl hb⟩
      rw [List.getElem?_append_left (by rw [hzl]; omega)]
      unfold zipE
      rw [List.getElem?_map, (List.getElem?_zip_eq_some (z := (p, args[i]))).2 ⟨hp, hb⟩]
      rfl
    · have hz : (zipE s args).length = args.length := by rw [hzl]; omega
      rw [List.getElem?_append_right (by rw [hz]; omega), hz]
      have hq : ((s.pos.drop args.length).map Pos.param)[i - args.length]? = some p.param := by
        rw [List.getElem?_map, List.getElem?_drop, Nat.add_sub_cancel' (Nat.le_of_not_lt hi), hp]
        rfl
      rw [t2.2 _ _ hq]
      cases hy : named kw p.param with
      | none => exact absurd hy (named_ne (g2 _ (List.mem_of_getElem? hq)))
      | some y =>
        obtain ⟨v, rfl, hv⟩ := named_some hk hy
        refine ⟨v, rfl, .inr ⟨Nat.le_of_not_lt hi, ?_⟩⟩
        rcases hv with hv | ⟨hv, hd⟩
        · have hm : p.name ∈ keys kw := List.mem_map_of_mem (f := Prod.fst) hv
          refine .inl ⟨?_, hv⟩
          cases ho : p.only with
          | false => rfl
          | true => exact absurd hm (hc i p hp (Nat.le_of_not_lt hi) ho)
        · exact .inr ⟨.inr hv, hd⟩
  · rw [t4.1]
    unfold kwoP
    rw [List.length_map]
  · intro i p hp
    have hq : (kwoP s)[i]? = some p.param := by
      unfold kwoP
      rw [List.getElem?_map, hp]
      rfl
    rw [t4.2 _ _ hq]
    cases hy : named kw p.param with
    | none => exact absurd hy (named_ne (g4 _ (List.mem_of_getElem? hq)))
    | some y =>
      obtain ⟨v, rfl, hv⟩ := named_some hk hy
      exact ⟨v, rfl, hv⟩

/-- `self`. -/
theorem method_fits {s : Sig V} {only : Bool} (w : V) {args : List V} {kw : List (Name × V)} :
    Fits (s.method only) (w :: args) kw ↔
      Fits s args kw ∧ (only = false → "self".toList ∉ keys kw) := by
  have hb : ∀ n, n ∈ (s.method only).byKeyword ↔
      n ∈ s.byKeyword ∨ (only = false ∧ n = "self".toList) := by
    intro n
    unfold Sig.byKeyword Sig.method
    cases only
    · simp [or_comm]
    · simp
  constructor
  · intro h
    have hsf : only = false → "self".toList ∉ keys kw := fun ho =>
      h.twice 0 ⟨"self".toList, none, only⟩ rfl (Nat.succ_pos _) ho
    refine ⟨⟨?_, ?_, ?_, h.missingKw, ?_⟩, hsf⟩
    · exact h.many.imp (fun hx => Nat.le_of_succ_le_succ hx) id
    · intro i p hp hi
      exact h.twice (i + 1) p hp (Nat.succ_lt_succ hi)
    · intro i p hp hi
      exact h.missing (i + 1) p hp (Nat.succ_le_succ hi)
    · intro n hn
      rcases h.keyword n hn with hx | hx
      · rcases (hb n).1 hx with hx | ⟨ho, rfl⟩
        · exact .inl hx
        · exact absurd hn (hsf ho)
      · exact .inr hx
  · rintro ⟨h, hsf⟩
    refine ⟨?_, ?_, ?_, h.missingKw, ?_⟩
    · exact h.many.imp (fun hx => Nat.succ_le_succ hx) id
    · intro i p hp hi
      cases i with
      | zero =>
        cases hp
        exact hsf
      | succ i => exact h.twice i p hp (Nat.lt_of_succ_lt_succ hi)
    · intro i p hp hi
      cases i with
      | zero => cases hi
      | succ i => exact h.missing i p hp (Nat.le_of_succ_le_succ hi)
    · intro n hn
      rcases h.keyword n hn with hx | hx
      · exact .inl ((hb n).2 (.inl hx))
      · exact .inr hx

theorem method_locals {s : Sig V} {only : Bool} {w : V} {args : List V} {kw : List (Name × V)}
    {d : List (Name × Arg V)} (hsf : only = false → "self".toList ∉ keys kw)
    (h : Locals (s.method only) (w :: args) kw d) :
    ∃ d', d = ("self".toList, .one w) :: d' ∧ Locals s args kw d' := by
  obtain ⟨a, c, rfl, ⟨h1, h2⟩, h3⟩ := h
  cases a with
  | nil => cases h1
  | cons x a =>
    obtain ⟨v, hv1, hv2⟩ := h2 0 ⟨"self".toList, none, only⟩ rfl
    cases hv1
    have : v = w := by
      rcases hv2 with hv2 | ⟨hv2, _⟩
      · cases hv2
        rfl
      · cases hv2
    subst this
    refine ⟨_, rfl, a, c, ?_, ⟨Nat.succ.inj h1, ?_⟩, h3⟩
    · have hf : (kw.filter fun x => decide (x.1 ∉ (s.method only).byKeyword)) =
          kw.filter fun x => decide (x.1 ∉ s.byKeyword) := by
        apply List.filter_congr
        intro x hx
        have hb : x.1 ∈ (s.method only).byKeyword ↔
            x.1 ∈ s.byKeyword ∨ (only = false ∧ x.1 = "self".toList) := by
          unfold Sig.byKeyword Sig.method
          cases only
          · simp [or_comm]
          · simp
        rw [decide_eq_decide, hb]
        constructor
        · intro h hx
          exact h (.inl hx)
        · rintro h (hx' | ⟨ho, he⟩)
          · exact h hx'
          · exact hsf ho (he ▸ List.mem_map_of_mem (f := Prod.fst) hx)
      rw [hf]
      rfl
    · intro i p hp
      obtain ⟨u, hu1, hu2⟩ := h2 (i + 1) p hp
      refine ⟨u, hu1, ?_⟩
      rcases hu2 with hu2 | ⟨hu2, hu3⟩
      · exact .inl hu2
      · exact .inr ⟨Nat.le_of_succ_le_succ hu2, hu3⟩

theorem posValue_unique {args : List V} {kw : List (Name × V)} (hk : (keys kw).Nodup) {i : Nat}
    {p : Pos V} {v w : V} (h1 : PosValue args kw i p v) (h2 : PosValue args kw i p w) : v = w := by
  have hin : ∀ {u : V}, (p.name, u) ∈ kw → p.name ∈ keys kw := fun h =>
    List.mem_map_of_mem (f := Prod.fst) h
  rcases h1 with h1 | ⟨l1, h1⟩ <;> rcases h2 with h2 | ⟨l2, h2⟩
  · rw [h1] at h2
    cases h2
    rfl
  · have := (List.getElem?_eq_some_iff.1 h1).1
    omega
  · have := (List.getElem?_eq_some_iff.1 h2).1
    omega
  · rcases h1 with ⟨o1, h1⟩ | ⟨o1, h1⟩ <;> rcases h2 with ⟨o2, h2⟩ | ⟨o2, h2⟩
    · have := (Args.lookup_mem hk).2 h1
      rw [(Args.lookup_mem hk).2 h2] at this
      cases this
      rfl
    · rcases o2 with o2 | o2
      · rw [o1] at o2
        cases o2
      · exact absurd (hin h1) o2
    · rcases o1 with o1 | o1
      · rw [o2] at o1
        cases o1
      · exact absurd (hin h2) o1
    · rw [h1] at h2
      cases h2
      rfl

theorem kwValue_unique {kw : List (Name × V)} (hk : (keys kw).Nodup) {p : Kwo V} {v w : V}
    (h1 : KwValue kw p v) (h2 : KwValue kw p w) : v = w := by
  have hin : ∀ {u : V}, (p.name, u) ∈ kw → p.name ∈ keys kw := fun h =>
    List.mem_map_of_mem (f := Prod.fst) h
  rcases h1 with h1 | ⟨o1, h1⟩ <;> rcases h2 with h2 | ⟨o2, h2⟩
  · have := (Args.lookup_mem hk).2 h1
    rw [(Args.lookup_mem hk).2 h2] at this
    cases this
    rfl
  · exact absurd (hin h1) o2
  · exact absurd (hin h2) o1
  · rw [h1] at h2
    cases h2
    rfl

theorem ext_indexed {α β : Type} {l : List α} {a b : List β} (ha : a.length = l.length)
    (hb : b.length = l.length)
    (h : ∀ (i : Nat) x, l[i]? = some x → ∃ y, a[i]? = some y ∧ b[i]? = some y) : a = b := by
  apply List.ext_getElem? 
  intro i
  by_cases hi : i < l.length
  · obtain ⟨y, h1, h2⟩ := h i l[i] (List.getElem?_eq_getElem hi)
    rw [h1, h2]
  · rw [List.getElem?_eq_none (by omega), List.getElem?_eq_none (by omega)]

/-- Python's call of the method with `agent` for `self`. -/
def Accepts (s : Sig V) (only : Bool) (args : List V) (kw : List (Name × V)) : Prop :=
  Fits s args kw ∧ (only = false → "self".toList ∉ keys kw)

theorem method_names (s : Sig V) (only : Bool) :
    (s.method only).names = "self".toList :: s.names := rfl

theorem method_noClash {s : Sig V} {only : Bool} (w : V) {args : List V} {kw : List (Name × V)}
    (h : NoClash s args kw) : NoClash (s.method only) (w :: args) kw := by
  intro i p hp hi ho
  cases i with
  | zero => cases hi
  | succ i => exact h i p hp (Nat.le_of_succ_le_succ hi) ho

theorem argsDict_ok {s : Sig V} {only : Bool} (pyNone : V) {args : List V} {kw : List (Name × V)}
    (hs : s.Ok) (hk : (keys kw).Nodup) (hc : NoClash s args kw) (h : Accepts s only args kw) :
    ∃ d, argsDict pyNone (s.method only).params args kw = .ok d ∧ Locals s args kw d := by
  have hn : (s.method only).names.Nodup := by
    rw [method_names, List.nodup_cons]
    exact ⟨hs.2, hs.1⟩
  have hc' := method_noClash (only := only) pyNone hc
  obtain ⟨hg, hl⟩ := (fits_good hc').1 ((method_fits pyNone).2 h)
  obtain ⟨b, hb, hd⟩ := bind_good hn hg hl
  have hloc := locals_spec hk hc' hg
  rw [← hd] at hloc
  obtain ⟨d, hd', hloc'⟩ := method_locals h.2 hloc
  refine ⟨d, ?_, hloc'⟩
  unfold argsDict
  simp only [hb, hd']
  rw [if_pos (by simp [keys])]
  congr 1
  rw [List.filter_cons_of_neg (by simp), List.filter_eq_self]
  intro x hx
  have hx' : x.1 ∈ s.names := by
    obtain ⟨a, c, rfl, ⟨h1, h2⟩, h3, h4⟩ := hloc'
    unfold Sig.names
    rcases List.mem_append.1 hx with hx | hx
    · obtain ⟨i, hi⟩ := List.mem_iff_getElem?.1 hx
      have hil : i < s.pos.length := h1 ▸ (List.getElem?_eq_some_iff.1 hi).1
      obtain ⟨v, hv, _⟩ := h2 i s.pos[i] (List.getElem?_eq_getElem hil)
      rw [hi] at hv
      cases hv
      exact List.mem_append_left _ (List.mem_map_of_mem (List.getElem_mem hil))
    · apply List.mem_append_right
      rcases List.mem_append.1 hx with hx | hx
      · obtain ⟨n, hn, rfl⟩ := List.mem_map.1 hx
        exact List.mem_append_left _ hn
      · apply List.mem_append_right
        rcases List.mem_append.1 hx with hx | hx
        · obtain ⟨i, hi⟩ := List.mem_iff_getElem?.1 hx
          have hil : i < s.kwo.length := h3 ▸ (List.getElem?_eq_some_iff.1 hi).1
          obtain ⟨v, hv, _⟩ := h4 i s.kwo[i] (List.getElem?_eq_getElem hil)
          rw [hi] at hv
          cases hv
          exact List.mem_append_left _ (List.mem_map_of_mem (List.getElem_mem hil))
        · obtain ⟨n, hn, rfl⟩ := List.mem_map.1 hx
          exact List.mem_append_right _ hn
  simp only [ne_eq, decide_eq_true_eq]
  intro he
  exact hs.2 (he ▸ hx')

theorem argsDict_bad {s : Sig V} {only : Bool} (pyNone : V) {args : List V} {kw : List (Name × V)}
    (hs : s.Ok) (h : ¬ Accepts s only args kw) :
    argsDict pyNone (s.method only).params args kw = .error .typeError := by
  have hn : (s.method only).names.Nodup := by
    rw [method_names, List.nodup_cons]
    exact ⟨hs.2, hs.1⟩
  have : bind (s.method only).params (pyNone :: args) kw = none := by
    apply bind_bad hn
    rintro ⟨hg, hl⟩
    exact h ((method_fits pyNone).1 ((fits_good (good_clash hg)).2 ⟨hg, hl⟩))
  unfold argsDict
  rw [this]

end Lemmas

/-! ### C107 -/

/-- C107: a call that Python accepts delivers the local variables that the method starts with to every
port of every model, exactly once; agent ports get them with the path, a driver port the bare value
(the tuple or the dictionary, for a `*` or a `**` parameter) if there is one parameter. This is for
all signatures that Python has. Missing: a keyword `agent`, and a keyword named like a positional-only
parameter that is left to its default (the violations below). -/
theorem C107_delivers_partial (pyNone : V) (path : Name) {s : Sig V} (hs : s.Ok) (only : Bool)
    (infos : List Info) {args : List V} {kw : List (Name × V)} (hk : (keys kw).Nodup)
    (ha : "agent".toList ∉ keys kw) (hc : NoClash s args kw) (h : Accepts s only args kw)
    {fits : Bool} (hf : fits = true ↔ Accepts s only args kw) :
    ∃ d y, Locals s args kw d ∧ ForDriverPort d y ∧
      call fits pyNone path (s.method only).params infos args kw =
        (received infos (.agent path d) y, none) := by
  obtain ⟨d, hd, hloc⟩ := argsDict_ok pyNone hs hk hc h
  refine ⟨d, Args.driverPayload d, hloc, Args.driverPayload_spec d, ?_⟩
  unfold call driverCall
  rw [if_neg ha, hd, Args.deliver_ok, Args.puts_eq, hf.2 h]
  rfl

/-- C107: a call that Python does not accept raises `TypeError`, and no port receives anything. -/
theorem C107_invalid (pyNone : V) (path : Name) {s : Sig V} (hs : s.Ok) (only : Bool)
    (infos : List Info) {args : List V} {kw : List (Name × V)} (h : ¬ Accepts s only args kw)
    {fits : Bool} (hf : fits = true ↔ Accepts s only args kw) :
    call fits pyNone path (s.method only).params infos args kw = ([], some .typeError) := by
  have hff : fits = false := by
    cases fits with
    | false => rfl
    | true => exact absurd (hf.1 rfl) h
  unfold call
  split
  · rfl
  · unfold driverCall
    rw [argsDict_bad pyNone hs h, Args.deliver_error, hff]
    cases (puts (V := Arg V) path infos).isEmpty <;> rfl

/-- C107: there is only one way to be the local variables, so the first theorem says what is
delivered. -/
theorem C107_unique {s : Sig V} {args : List V} {kw : List (Name × V)} (hk : (keys kw).Nodup)
    {d d' : List (Name × Arg V)} (h : Locals s args kw d) (h' : Locals s args kw d') : d = d' := by
  obtain ⟨a, c, rfl, ⟨h1, h2⟩, h3, h4⟩ := h
  obtain ⟨a', c', rfl, ⟨h1', h2'⟩, h3', h4'⟩ := h'
  have : a = a' := ext_indexed h1 h1' fun i p hp => by
    obtain ⟨v, hv, hx⟩ := h2 i p hp
    obtain ⟨v', hv', hx'⟩ := h2' i p hp
    cases posValue_unique hk hx hx'
    exact ⟨_, hv, hv'⟩
  subst this
  have : c = c' := ext_indexed h3 h3' fun i p hp => by
    obtain ⟨v, hv, hx⟩ := h4 i p hp
    obtain ⟨v', hv', hx'⟩ := h4' i p hp
    cases kwValue_unique hk hx hx'
    exact ⟨_, hv, hv'⟩
  subst this
  rfl

/-! ### Violations -/

namespace Witness

/-- `def m(self, a=1, /, **k)`. -/
def clash : Sig Nat := ⟨[⟨"a".toList, some 1, true⟩], none, [], some "k".toList⟩

/-- `def m(self, x, *rest, y=5, **k)`. -/
def all : Sig Nat := ⟨[⟨"x".toList, none, false⟩], some "rest".toList, [⟨"y".toList, some 5⟩],
  some "k".toList⟩

end Witness

theorem clash_fits : Accepts Witness.clash true [] [("a".toList, 2)] := by
  refine ⟨⟨.inl (Nat.zero_le _), ?_, ?_, ?_, ?_⟩, by simp⟩
  · intro i p _ hi
    cases hi
  · intro i p hp _
    match i, hp with
    | 0, hp =>
      cases hp
      exact .inl (by simp)
  · intro p hp
    cases hp
  · intro n _
    exact .inr (by simp [Witness.clash])

/-- C107 fails: with `def m(self, a=1, /, **k)`, Python accepts `m(a=2)` (`a` is 1 and `k` is
`{"a": 2}`), but if a model has a port for `m` the call raises `TypeError`; without a port it goes
through. (`Signature.bind` of CPython 3.11.) -/
theorem C107_clash_violated :
    Accepts Witness.clash true [] [("a".toList, 2)] ∧
    call true 0 "a.m".toList (Witness.clash.method true).params [⟨none, [], some 0, []⟩] []
      [("a".toList, 2)] = ([], some .typeError) ∧
    call true 0 "a.m".toList (Witness.clash.method true).params [⟨none, [], none, []⟩] []
      [("a".toList, 2)] = ([], none) :=
  ⟨clash_fits, by decide +kernel, by decide +kernel⟩

theorem all_fits {args : List Nat} {kw : List (Name × Nat)} (h1 : args ≠ [])
    (h2 : "x".toList ∉ keys kw) (h3 : "self".toList ∉ keys kw) : Accepts Witness.all false args kw := by
  refine ⟨⟨.inr (by simp [Witness.all]), ?_, ?_, ?_, ?_⟩, fun _ => h3⟩
  · intro i p hp _ _
    match i, hp with
    | 0, hp =>
      cases hp
      exact h2
  · intro i p hp hi
    match i, hp with
    | 0, hp =>
      cases args with
      | nil => exact absurd rfl h1
      | cons _ _ => cases hi
  · intro p hp
    refine .inl ?_
    have : p = ⟨"y".toList, some 5⟩ := by simpa [Witness.all] using hp
    rw [this]
    simp
  · intro n _
    exact .inr (by simp [Witness.all])

/-- C107 fails: a method with a `**` parameter takes any keyword, but not `agent`, which is the name of
the parameter of the wrapper. -/
theorem C107_agent_violated :
    Accepts Witness.all false [1] [("agent".toList, 2)] ∧
    call true 0 "a.m".toList (Witness.all.method false).params [⟨none, [], some 0, []⟩] [1]
      [("agent".toList, 2)] = ([], some .typeError) :=
  ⟨all_fits (by simp) (by decide +kernel) (by decide +kernel), by decide +kernel⟩

/-! ### The hypotheses can be met -/

example : Witness.all.Ok := by unfold Sig.Ok; decide +kernel
example : Accepts Witness.all false [1, 2, 3] [("z".toList, 4), ("y".toList, 6)] :=
  all_fits (by simp) (by decide +kernel) (by decide +kernel)
example : NoClash Witness.all [1, 2, 3] [("z".toList, 4), ("y".toList, 6)] := by
  intro i p hp hi
  match i, hp, hi with
  | 0, _, hi => cases hi

/-- `m(1, 2, 3, z=4, y=6)` and `m(1)`. -/
example : call true 0 "a.m".toList (Witness.all.method false).params [⟨none, [], some 0, []⟩] [1, 2, 3]
    [("z".toList, 4), ("y".toList, 6)] =
    ([(0, .dict [("x".toList, .one 1), ("rest".toList, .tuple [2, 3]), ("y".toList, .one 6),
      ("k".toList, .dict [("z".toList, 4)])])], none) := by decide +kernel
example : call true 0 "a.m".toList (Witness.all.method false).params [⟨none, [], some 0, []⟩] [1] [] =
    ([(0, .dict [("x".toList, .one 1), ("rest".toList, .tuple []), ("y".toList, .one 5),
      ("k".toList, .dict [])])], none) := by decide +kernel
/-- A single `*` parameter: the driver port gets the tuple. -/
example : call true 0 "a.m".toList ((⟨[], some "rest".toList, [], none⟩ : Sig Nat).method false).params
    [⟨none, [], some 0, []⟩] [7] [] = ([(0, .bare (.tuple [7]))], none) := by decide +kernel
/-- `m()` lacks `x`. -/
example : ¬ Accepts Witness.all false [] [] := by
  intro h
  have := h.1.missing 0 ⟨"x".toList, none, false⟩ rfl (Nat.le_refl _)
  simp [keys] at this

end Toffee.Args.Full
