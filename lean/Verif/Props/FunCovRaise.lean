import Verif.Model.FunCovRaise
import Verif.Lemmas.FunCov
/-!
C94: `sample()` when a bin condition raises.
-/

namespace Toffee.Props.FunCovRaise

open Toffee.FunCovRaise

variable {Obs : Type}

/-! ## Specification vocabulary -/

/-- The evaluation of the bins of one point, in order, gets to bin `k` and finds that it holds. -/
def HitIn (o : Obs) (bins : Dict String (Bin Obs)) (k : String) : Prop :=
  ∃ pre b post, bins = pre ++ (k, b) :: post ∧ (∀ e ∈ pre, e.2.eval o ≠ none) ∧ b.eval o = some true

/-- A sample of the group, point by point, gets to bin `k` of the point and finds that it holds. -/
def Hit (g : Group Obs) (o : Obs) (name k : String) : Prop :=
  ∃ pre p post, g.points = pre ++ (name, p) :: post ∧
    (∀ e ∈ pre, ∀ b ∈ e.2.bins, b.2.eval o ≠ none) ∧ HitIn o p.bins k

/-- Some bin condition of the group raises for this observation. -/
def Raises (g : Group Obs) (o : Obs) : Prop := ∃ e ∈ g.points, ∃ b ∈ e.2.bins, b.2.eval o = none

open Classical in
/-- The hits of bin `k` of point `name` since the point was last added or reset: the `sample()` calls
made while `sample_stoped()` was `False` that got to the bin and found that it holds. -/
noncomputable def hits (name k : String) : Group Obs → List (Op Obs) → Nat → Nat
  | _, [], n => n
  | g, op :: ops, n =>
    hits name k (g.step op) ops <|
      match op with
      | .sample o => if g.sampleStoped = false ∧ Hit g o name k then n + 1 else n
      | .add key _ _ => if key = name ∧ name ∉ Dict.keys g.points then 0 else n
      | .reset key => if key = name then 0 else n
      | _ => n

/-- The counter of a bin. -/
def count (g : Group Obs) (name k : String) : Option Nat :=
  (Dict.get? g.points name).bind fun p => Dict.get? p.hints k

/-! ## Lemmas -/

structure PWf (p : Point Obs) : Prop where
  nodup : (Dict.keys p.bins).Nodup
  keys : Dict.keys p.hints = Dict.keys p.bins
  hinted : p.hinted = true → ∀ e ∈ p.hints, e.2 ≠ 0

structure Wf (g : Group Obs) : Prop where
  nodup : (Dict.keys g.points).Nodup
  points : ∀ e ∈ g.points, PWf e.2
  hinted : g.hinted = true → ∀ e ∈ g.points, e.2.hinted = true

theorem hitIn_cons {o : Obs} {k0 k : String} {b : Bin Obs} {rest : Dict String (Bin Obs)}
    (hk : k0 ∉ Dict.keys rest) :
    HitIn o ((k0, b) :: rest) k ↔ (k0 = k ∧ b.eval o = some true) ∨
      (k0 ≠ k ∧ b.eval o ≠ none ∧ HitIn o rest k) := by
  constructor
  · rintro ⟨pre, b', post, h1, h2, h3⟩
    cases pre with
    | nil =>
      simp only [List.nil_append, List.cons.injEq, Prod.mk.injEq] at h1
      obtain ⟨⟨rfl, rfl⟩, _⟩ := h1
      exact .inl ⟨rfl, h3⟩
    | cons e pre =>
      simp only [List.cons_append, List.cons.injEq] at h1
      obtain ⟨rfl, rfl⟩ := h1
      refine .inr ⟨?_, h2 (k0, b) (by simp), pre, b', post, rfl, fun e he => h2 e (by simp [he]), h3⟩
      rintro rfl
      exact hk (by simp [Dict.keys])
  · rintro (⟨rfl, h⟩ | ⟨_, h1, pre, b', post, rfl, h2, h3⟩)
    · exact ⟨[], b, rest, rfl, by simp, h⟩
    · refine ⟨(k0, b) :: pre, b', post, rfl, ?_, h3⟩
      intro e he
      rcases List.mem_cons.1 he with rfl | he
      · exact h1
      · exact h2 e he

theorem not_hitIn_nil {o : Obs} {k : String} : ¬ HitIn o [] k := by
  rintro ⟨pre, b, post, h, _⟩
  cases pre <;> cases h

theorem hitIn_mem {o : Obs} {k : String} {bins : Dict String (Bin Obs)} (h : HitIn o bins k) :
    k ∈ Dict.keys bins := by
  obtain ⟨pre, b, post, rfl, _⟩ := h
  simp [Dict.keys]

open Classical in
theorem checkLoop_count (o : Obs) (once : Bool) (bins : Dict String (Bin Obs)) (k : String) :
    ∀ (hints : Dict String Nat) (a b : Bool), (Dict.keys bins).Nodup →
      (∀ j ∈ Dict.keys bins, j ∈ Dict.keys hints) →
      Dict.keys (checkLoop o once bins hints a b).1 = Dict.keys hints ∧
      Dict.get? (checkLoop o once bins hints a b).1 k =
        (Dict.get? hints k).map fun n => if HitIn o bins k then n + 1 else n := by
  induction bins with
  | nil =>
    intro hints a b _ _
    simp [checkLoop, not_hitIn_nil]
  | cons e rest ih =>
    obtain ⟨k0, bn⟩ := e
    intro hints a b hn hm
    have hn' : k0 ∉ Dict.keys rest ∧ (Dict.keys rest).Nodup := by
      simpa [Dict.keys] using hn
    have hk0 : k0 ∈ Dict.keys hints := hm k0 (by simp [Dict.keys])
    simp only [hitIn_cons hn'.1]
    unfold checkLoop
    cases hb : bn.eval o with
    | none => simp
    | some c =>
      dsimp only
      have hks : ∀ v, Dict.keys (Dict.set hints k0 v) = Dict.keys hints :=
        fun v => Dict.keys_set_of_mem hk0
      obtain ⟨h1, h2⟩ := ih (Dict.set hints k0 ((Dict.get? hints k0).getD 0 + if c = true then 1 else 0))
        _ _ hn'.2 (fun j hj => by rw [hks]; exact hm j (List.mem_cons_of_mem _ hj))
      refine ⟨h1.trans (hks _), h2.trans ?_⟩
      by_cases hk : k0 = k
      · subst hk
        have hnh : ¬ HitIn o rest k0 := fun h => hn'.1 (hitIn_mem h)
        rw [Dict.get?_set_self]
        cases hg : Dict.get? hints k0 with
        | none => exact absurd hk0 (Dict.get?_eq_none.1 hg)
        | some n => cases c <;> simp [hnh]
      · rw [Dict.get?_set_ne _ hk]
        simp [hk]

/-- `hinted` after a check that did not raise. -/
theorem checkLoop_hinted (o : Obs) (once : Bool) (bins : Dict String (Bin Obs)) :
    ∀ (hints : Dict String Nat) (a b : Bool) (r : Bool × Bool), (Dict.keys bins).Nodup →
      (∀ j ∈ Dict.keys bins, j ∈ Dict.keys hints) →
      (checkLoop o once bins hints a b).2 = some r →
      (r.1 = true ↔ a = true ∧
        ∀ k ∈ Dict.keys bins, ∀ n, Dict.get? (checkLoop o once bins hints a b).1 k = some n → n ≠ 0) := by
  induction bins with
  | nil =>
    intro hints a b r _ _ h
    simp [checkLoop] at h
    subst h
    simp [Dict.keys]
  | cons e rest ih =>
    obtain ⟨k0, bn⟩ := e
    intro hints a b r hn hm h
    have hn' : k0 ∉ Dict.keys rest ∧ (Dict.keys rest).Nodup := by
      simpa [Dict.keys] using hn
    have hk0 : k0 ∈ Dict.keys hints := hm k0 (by simp [Dict.keys])
    unfold checkLoop at h ⊢
    cases hb : bn.eval o with
    | none => rw [hb] at h; simp at h
    | some c =>
      rw [hb] at h
      dsimp only at h ⊢
      generalize hv : (Dict.get? hints k0).getD 0 + (if c = true then 1 else 0) = v at h ⊢
      have hks : Dict.keys (Dict.set hints k0 v) = Dict.keys hints := Dict.keys_set_of_mem hk0
      have hm' : ∀ j ∈ Dict.keys rest, j ∈ Dict.keys (Dict.set hints k0 v) := fun j hj => by
        rw [hks]; exact hm j (List.mem_cons_of_mem _ hj)
      rw [ih _ _ _ r hn'.2 hm' h]
      obtain ⟨_, hc⟩ := checkLoop_count o once rest k0 (Dict.set hints k0 v)
        (if v = 0 then false else a)
        (if (!((if v = 0 then false else a) && once)) = true then false else b) hn'.2 hm'
      have hnh : ¬ HitIn o rest k0 := fun h => hn'.1 (hitIn_mem h)
      rw [Dict.get?_set_self] at hc
      simp only [Option.map_some, if_neg hnh] at hc
      constructor
      · rintro ⟨h1, h2⟩
        have hv0 : v ≠ 0 := by rintro rfl; simp at h1
        refine ⟨by simpa [hv0] using h1, ?_⟩
        intro k hk n hkn
        have hk : k = k0 ∨ k ∈ Dict.keys rest := by simpa [Dict.keys] using hk
        rcases hk with rfl | hk
        · rw [hc] at hkn; cases hkn; exact hv0
        · exact h2 k hk n hkn
      · rintro ⟨h1, h2⟩
        have hv0 : v ≠ 0 := h2 k0 (by simp [Dict.keys]) v hc
        exact ⟨by simpa [hv0] using h1, fun k hk n hkn => h2 k (List.mem_cons_of_mem _ hk) n hkn⟩

theorem checkLoop_raises (o : Obs) (once : Bool) (bins : Dict String (Bin Obs)) :
    ∀ (hints : Dict String Nat) (a b : Bool),
      ((checkLoop o once bins hints a b).2 = none ↔ ∃ e ∈ bins, e.2.eval o = none) := by
  induction bins with
  | nil => intro hints a b; simp [checkLoop]
  | cons e rest ih =>
    obtain ⟨k0, bn⟩ := e
    intro hints a b
    unfold checkLoop
    cases hb : bn.eval o with
    | none => simp [hb]
    | some c => dsimp only; rw [ih]; simp [hb]

theorem check_fst (p : Point Obs) (o : Obs) :
    (p.check o).1.bins = p.bins ∧ (p.check o).1.once = p.once ∧
    (p.check o).1.hints = (checkLoop o p.once p.bins p.hints true true).1 ∧
    ((p.check o).2 = none → (p.check o).1.hinted = p.hinted) ∧
    (∀ r, (p.check o).2 = some r → (p.check o).1.hinted = r.1) ∧
    (p.check o).2 = (checkLoop o p.once p.bins p.hints true true).2 := by
  unfold Point.check
  split
  · rename_i h; simp [h]
  · rename_i h; simp [h]

theorem check_wf {p : Point Obs} (h : PWf p) (o : Obs) :
    PWf (p.check o).1 ∧ (p.hinted = true → (p.check o).1.hinted = true) := by
  obtain ⟨h1, h2, h3, h4, h5, h6⟩ := check_fst p o
  have hm : ∀ j ∈ Dict.keys p.bins, j ∈ Dict.keys p.hints := fun j hj => by rw [h.keys]; exact hj
  have hkeys : Dict.keys (p.check o).1.hints = Dict.keys p.bins := by
    rw [h3, (checkLoop_count o p.once p.bins "" p.hints true true h.nodup hm).1, h.keys]
  have hgrow : ∀ e ∈ (p.check o).1.hints, (∀ e ∈ p.hints, e.2 ≠ 0) → e.2 ≠ 0 := by
    intro e he hall
    have hg := Dict.get?_of_mem (by rw [hkeys]; exact h.nodup) he
    rw [h3, (checkLoop_count o p.once p.bins e.1 p.hints true true h.nodup hm).2] at hg
    cases hq : Dict.get? p.hints e.1 with
    | none => rw [hq] at hg; cases hg
    | some n =>
      rw [hq] at hg
      have hn := hall _ (Dict.mem_of_get? hq)
      simp only [Option.map_some, Option.some.injEq] at hg
      rw [← hg]
      split <;> omega
  cases hc : (p.check o).2 with
  | none =>
    refine ⟨⟨h1 ▸ h.nodup, by rw [hkeys, h1], ?_⟩, fun hh => by rw [h4 hc, hh]⟩
    intro hh e he
    rw [h4 hc] at hh
    exact hgrow e he (h.hinted hh)
  | some r =>
    have hr := checkLoop_hinted o p.once p.bins p.hints true true r h.nodup hm (h6 ▸ hc)
    rw [← h3] at hr
    refine ⟨⟨h1 ▸ h.nodup, by rw [hkeys, h1], ?_⟩, ?_⟩
    · intro hh e he
      rw [h5 r hc] at hh
      have hk : e.1 ∈ Dict.keys p.bins := by rw [← hkeys]; exact List.mem_map.2 ⟨e, he, rfl⟩
      exact (hr.1 hh).2 e.1 hk e.2 (Dict.get?_of_mem (by rw [hkeys]; exact h.nodup) he)
    · intro hh
      rw [h5 r hc, hr]
      refine ⟨rfl, fun k _ n hn => hgrow (k, n) (Dict.mem_of_get? hn) (h.hinted hh)⟩

/-- The sample gets to the point. -/
def Gets (o : Obs) (ps : Dict String (Point Obs)) (name : String) : Prop :=
  ∃ pre p post, ps = pre ++ (name, p) :: post ∧ ∀ e ∈ pre, ∀ b ∈ e.2.bins, b.2.eval o ≠ none

theorem gets_cons {o : Obs} {k0 k : String} {p : Point Obs} {rest : Dict String (Point Obs)}
    (hk : k0 ∉ Dict.keys rest) :
    Gets o ((k0, p) :: rest) k ↔ k0 = k ∨
      (k0 ≠ k ∧ (∀ b ∈ p.bins, b.2.eval o ≠ none) ∧ Gets o rest k) := by
  constructor
  · rintro ⟨pre, b', post, h1, h2⟩
    cases pre with
    | nil =>
      simp only [List.nil_append, List.cons.injEq, Prod.mk.injEq] at h1
      obtain ⟨⟨rfl, rfl⟩, _⟩ := h1
      exact .inl rfl
    | cons e pre =>
      simp only [List.cons_append, List.cons.injEq] at h1
      obtain ⟨rfl, rfl⟩ := h1
      refine .inr ⟨?_, h2 (k0, p) (by simp), pre, b', post, rfl, fun e he => h2 e (by simp [he])⟩
      rintro rfl
      exact hk (by simp [Dict.keys])
  · rintro (rfl | ⟨_, h1, pre, b', post, rfl, h2⟩)
    · exact ⟨[], p, rest, rfl, by simp⟩
    · refine ⟨(k0, p) :: pre, b', post, rfl, ?_⟩
      intro e he
      rcases List.mem_cons.1 he with rfl | he
      · exact h1
      · exact h2 e he

open Classical in
theorem sampleLoop_get (o : Obs) (ps : Dict String (Point Obs)) (name : String) :
    ∀ (a b : Bool), (Dict.keys ps).Nodup →
      Dict.keys (sampleLoop o ps a b).1 = Dict.keys ps ∧
      Dict.get? (sampleLoop o ps a b).1 name =
        (Dict.get? ps name).map fun p => if Gets o ps name then (p.check o).1 else p := by
  induction ps with
  | nil => intro a b _; simp [sampleLoop, Dict.get?]
  | cons e rest ih =>
    obtain ⟨k0, p⟩ := e
    intro a b hn
    have hn' : k0 ∉ Dict.keys rest ∧ (Dict.keys rest).Nodup := by simpa [Dict.keys] using hn
    have hr := checkLoop_raises o p.once p.bins p.hints true true
    rw [← (check_fst p o).2.2.2.2.2] at hr
    have hG := gets_cons (o := o) (k := name) (p := p) hn'.1
    unfold sampleLoop
    cases hc : p.check o with
    | mk p' r =>
      rw [hc] at hr
      cases r with
      | none =>
        obtain ⟨e, he, hev⟩ := hr.1 rfl
        refine ⟨rfl, ?_⟩
        by_cases hk : k0 = name
        · have : Gets o ((k0, p) :: rest) name := hG.2 (.inl hk)
          simp only [Dict.get?, hk, if_true, Option.map_some] at this ⊢
          rw [if_pos this, hc]
        · have : ¬ Gets o ((k0, p) :: rest) name := by
            rw [hG]
            rintro (h | ⟨_, h, _⟩)
            · exact hk h
            · exact h e he hev
          simp only [Dict.get?, hk, if_false, if_neg this]
          simp
      | some r =>
        have hok : ∀ b ∈ p.bins, b.2.eval o ≠ none := by
          intro e he hev
          have := hr.2 ⟨e, he, hev⟩
          cases this
        dsimp only
        obtain ⟨h1, h2⟩ := ih (if (!r.1) = true then false else a) (if (!r.2) = true then false else b)
          hn'.2
        refine ⟨by simp only [Dict.keys, List.map_cons] at h1 ⊢; rw [h1], ?_⟩
        by_cases hk : k0 = name
        · have : Gets o ((k0, p) :: rest) name := hG.2 (.inl hk)
          simp only [Dict.get?, hk, if_true, Option.map_some] at this ⊢
          rw [if_pos this, hc]
        · simp only [Dict.get?, hk, if_false]
          rw [h2]
          have : Gets o ((k0, p) :: rest) name ↔ Gets o rest name := by
            rw [hG]
            exact ⟨fun h => (h.resolve_left hk).2.2, fun h => .inr ⟨hk, hok, h⟩⟩
          simp only [this]

theorem sampleLoop_raises (o : Obs) (ps : Dict String (Point Obs)) :
    ∀ (a b : Bool), (sampleLoop o ps a b).2.2 = none ↔ ∃ e ∈ ps, ∃ b ∈ e.2.bins, b.2.eval o = none := by
  induction ps with
  | nil => intro a b; simp [sampleLoop]
  | cons e rest ih =>
    obtain ⟨k0, p⟩ := e
    intro a b
    have hr := checkLoop_raises o p.once p.bins p.hints true true
    rw [← (check_fst p o).2.2.2.2.2] at hr
    unfold sampleLoop
    cases hc : p.check o with
    | mk p' r =>
      rw [hc] at hr
      cases r with
      | none =>
        simp only [true_iff] at hr ⊢
        exact ⟨_, List.mem_cons_self, hr⟩
      | some r =>
        dsimp only
        rw [ih]
        constructor
        · rintro ⟨e, he, h⟩; exact ⟨e, List.mem_cons_of_mem _ he, h⟩
        · rintro ⟨e, he, h⟩
          rcases List.mem_cons.1 he with rfl | he
          · have := hr.2 h; cases this
          · exact ⟨e, he, h⟩

theorem sampleLoop_hinted (o : Obs) (ps : Dict String (Point Obs)) :
    ∀ (a b r : Bool), (sampleLoop o ps a b).2.2 = some r → r = true →
      a = true ∧ ∀ e ∈ (sampleLoop o ps a b).1, e.2.hinted = true := by
  induction ps with
  | nil => intro a b r h hr; simp [sampleLoop] at h ⊢; rw [h, hr]
  | cons e rest ih =>
    obtain ⟨k0, p⟩ := e
    intro a b r h hr
    have hf := (check_fst p o).2.2.2.2.1
    unfold sampleLoop at h ⊢
    cases hc : p.check o with
    | mk p' x =>
      rw [hc] at h hf
      cases x with
      | none => cases h
      | some x =>
        dsimp only at h ⊢
        obtain ⟨h1, h2⟩ := ih _ _ r h hr
        have hx : x.1 = true := by cases hx : x.1 <;> simp_all
        refine ⟨by simpa [hx] using h1, ?_⟩
        intro e he
        rcases List.mem_cons.1 he with rfl | he
        · exact (hf x rfl).trans hx
        · exact h2 e he

theorem sample_stopped {g : Group Obs} (h : g.sampleStoped = true) (o : Obs) :
    g.sample o = ({ g with sampleCalln := g.sampleCalln + 1 }, false) := by
  unfold Group.sampleStoped at h
  unfold Group.sample
  by_cases hs : g.stopSample = true
  · simp [hs]
  · have h2 : (g.hinted && g.allOnce) = true := by simpa [hs] using h
    simp [hs, h2]

theorem sample_live {g : Group Obs} (h : g.sampleStoped = false) (o : Obs) :
    g.sample o = ({ g with
      sampleCalln := g.sampleCalln + 1
      sampleCount := g.sampleCount + 1
      points := (sampleLoop o g.points true true).1
      allOnce := (sampleLoop o g.points true true).2.1
      hinted := (sampleLoop o g.points true true).2.2.getD g.hinted },
      (sampleLoop o g.points true true).2.2.isNone) := by
  unfold Group.sampleStoped at h
  unfold Group.sample
  by_cases hs : g.stopSample = true
  · simp [hs] at h
  · have h2 : (g.hinted && g.allOnce) = false := by simpa [hs] using h
    simp only [hs, h2, Bool.false_eq_true, if_false]
    cases hl : sampleLoop o g.points true true with
    | mk ps r =>
      obtain ⟨ao, r⟩ := r
      cases r <;> rfl

theorem step_wf {g : Group Obs} (h : Wf g) (op : Op Obs) : Wf (g.step op) := by
  cases op with
  | add key bins once =>
    unfold Group.step
    dsimp only
    split
    · exact h
    · rename_i hk
      have hk : key ∉ Dict.keys g.points := fun hm => hk (Dict.has_iff.2 hm)
      refine ⟨Dict.nodup_set h.nodup _ _, ?_, by simp⟩
      dsimp only
      rw [Dict.set_of_not_mem hk]
      intro e he
      rcases List.mem_append.1 he with he | he
      · exact h.points e he
      · simp at he; subst he
        exact ⟨FunCov.ofList_nodup _, by simp [Dict.keys], by simp⟩
  | del name =>
    unfold Group.step
    dsimp only
    split
    · exact ⟨Dict.nodup_del h.nodup _, fun e he => h.points e (FunCov.mem_del he),
        fun hh e he => h.hinted hh e (FunCov.mem_del he)⟩
    · exact h
  | reset name =>
    unfold Group.step
    dsimp only
    split
    · refine ⟨by rw [Dict.keys_modify]; exact h.nodup, ?_, by simp⟩
      intro e he
      rcases FunCov.mem_modify he with he | ⟨v, hv, rfl⟩
      · exact h.points e he
      · exact ⟨(h.points _ hv).nodup, by simp [Dict.keys], by simp⟩
    · exact h
  | sample o =>
    show Wf (g.sample o).1
    cases hs : g.sampleStoped with
    | true => rw [sample_stopped hs]; exact ⟨h.nodup, h.points, h.hinted⟩
    | false =>
      rw [sample_live hs]
      have hk := (sampleLoop_get o g.points "" true true h.nodup).1
      have hn : (Dict.keys (sampleLoop o g.points true true).1).Nodup := by rw [hk]; exact h.nodup
      have hp : ∀ e ∈ (sampleLoop o g.points true true).1, ∃ p, (e.1, p) ∈ g.points ∧
          (e.2 = (p.check o).1 ∨ e.2 = p) := by
        intro e he
        have hg := Dict.get?_of_mem hn he
        rw [(sampleLoop_get o g.points e.1 true true h.nodup).2] at hg
        cases hq : Dict.get? g.points e.1 with
        | none => rw [hq] at hg; cases hg
        | some p =>
          rw [hq] at hg
          simp only [Option.map_some, Option.some.injEq] at hg
          refine ⟨p, Dict.mem_of_get? hq, ?_⟩
          by_cases hgt : Gets o g.points e.1
          · left; rw [← hg, if_pos hgt]
          · right; rw [← hg, if_neg hgt]
      refine ⟨hn, ?_, ?_⟩
      · intro e he
        obtain ⟨p, hpm, hpe⟩ := hp e he
        rcases hpe with hpe | hpe
        · rw [hpe]; exact (check_wf (h.points _ hpm) o).1
        · rw [hpe]; exact h.points _ hpm
      · intro hh e he
        dsimp only at hh he
        cases hl : (sampleLoop o g.points true true).2.2 with
        | none =>
          rw [hl] at hh
          obtain ⟨p, hpm, hpe⟩ := hp e he
          have hph := h.hinted hh _ hpm
          rcases hpe with hpe | hpe
          · rw [hpe]; exact (check_wf (h.points _ hpm) o).2 hph
          · rw [hpe]; exact hph
        | some r =>
          rw [hl] at hh
          exact (sampleLoop_hinted o g.points true true r hl hh).2 e he
  | setStop b => exact ⟨h.nodup, h.points, h.hinted⟩
  | resume => exact ⟨h.nodup, h.points, h.hinted⟩
  | clear => exact ⟨by simp [Group.step, Group.new, Dict.keys], by simp [Group.step, Group.new],
      by simp [Group.step, Group.new]⟩

theorem new_wf (d : Bool) : Wf (Group.new Obs d) :=
  ⟨by simp [Group.new, Dict.keys], by simp [Group.new], by simp [Group.new]⟩

theorem run_wf {g : Group Obs} (h : Wf g) (ops : List (Op Obs)) : Wf (g.run ops) := by
  induction ops generalizing g with
  | nil => exact h
  | cons op ops ih => exact ih (step_wf h op)

theorem hit_iff {g : Group Obs} (hn : (Dict.keys g.points).Nodup) {o : Obs} {name k : String}
    {p : Point Obs} (hp : Dict.get? g.points name = some p) :
    Hit g o name k ↔ Gets o g.points name ∧ HitIn o p.bins k := by
  constructor
  · rintro ⟨pre, q, post, h1, h2, h3⟩
    have : Dict.get? g.points name = some q := Dict.get?_of_mem hn (by rw [h1]; simp)
    rw [hp] at this; cases this
    exact ⟨⟨pre, p, post, h1, h2⟩, h3⟩
  · rintro ⟨⟨pre, q, post, h1, h2⟩, h3⟩
    have : Dict.get? g.points name = some q := Dict.get?_of_mem hn (by rw [h1]; simp)
    rw [hp] at this; cases this
    exact ⟨pre, p, post, h1, h2, h3⟩

/-- The counter of the bin is `n`, if the point exists. -/
structure Tracks (name k : String) (g : Group Obs) (n : Nat) : Prop where
  wf : Wf g
  count : ∀ p, Dict.get? g.points name = some p → k ∈ Dict.keys p.bins → Dict.get? p.hints k = some n

theorem get?_zero {bins : Dict String (Bin Obs)} {k : String} (h : k ∈ Dict.keys bins) :
    Dict.get? (bins.map fun e => (e.1, 0)) k = some 0 := by
  induction bins with
  | nil => cases h
  | cons e bins ih =>
    simp only [List.map_cons, Dict.get?]
    by_cases hk : e.1 = k
    · simp [hk]
    · simp only [hk, if_false]
      exact ih ((List.mem_cons.1 h).resolve_left (fun h => hk h.symm))

open Classical in
theorem tracks_step {name k : String} {g : Group Obs} {n : Nat} (h : Tracks name k g n) (op : Op Obs) :
    Tracks name k (g.step op) (match op with
      | .sample o => if g.sampleStoped = false ∧ Hit g o name k then n + 1 else n
      | .add key _ _ => if key = name ∧ name ∉ Dict.keys g.points then 0 else n
      | .reset key => if key = name then 0 else n
      | _ => n) := by
  have hwf := step_wf h.wf op
  cases op with
  | sample o =>
    dsimp only
    refine ⟨hwf, ?_⟩
    show ∀ p, Dict.get? (g.sample o).1.points name = some p → _
    cases hs : g.sampleStoped with
    | true =>
      rw [sample_stopped hs]
      simpa using h.count
    | false =>
      rw [sample_live hs]
      dsimp only
      intro p' hp' hk
      rw [(sampleLoop_get o g.points name true true h.wf.nodup).2] at hp'
      cases hg : Dict.get? g.points name with
      | none => rw [hg] at hp'; cases hp'
      | some p =>
        rw [hg] at hp'
        simp only [Option.map_some, Option.some.injEq] at hp'
        have hpw := h.wf.points _ (Dict.mem_of_get? hg)
        simp only [true_and, hit_iff h.wf.nodup hg]
        by_cases hgt : Gets o g.points name
        · rw [if_pos hgt] at hp'
          obtain ⟨h1, _, h3, _⟩ := check_fst p o
          have hkb : k ∈ Dict.keys p.bins := by rw [← h1, hp']; exact hk
          rw [← hp', h3, (checkLoop_count o p.once p.bins k p.hints true true hpw.nodup
            (fun j hj => by rw [hpw.keys]; exact hj)).2, h.count p hg hkb]
          by_cases hh : HitIn o p.bins k <;> simp [hgt, hh]
        · rw [if_neg hgt] at hp'
          subst hp'
          rw [h.count p hg hk]
          simp [hgt]
  | add key bins once =>
    dsimp only
    refine ⟨hwf, ?_⟩
    unfold Group.step
    dsimp only
    by_cases hk : key ∈ Dict.keys g.points
    · rw [if_pos (Dict.has_iff.2 hk)]
      have : ¬ (key = name ∧ name ∉ Dict.keys g.points) := by rintro ⟨rfl, h⟩; exact h hk
      rw [if_neg this]
      exact h.count
    · rw [if_neg (fun h => hk (Dict.has_iff.1 h))]
      by_cases hn : key = name
      · subst hn
        rw [if_pos ⟨rfl, hk⟩]
        intro p hp hkb
        rw [Dict.get?_set_self] at hp
        cases hp
        exact get?_zero hkb
      · rw [if_neg (fun h => hn h.1)]
        intro p hp
        rw [Dict.get?_set_ne _ hn] at hp
        exact h.count p hp
  | reset key =>
    dsimp only
    refine ⟨hwf, ?_⟩
    unfold Group.step
    dsimp only
    by_cases hk : key ∈ Dict.keys g.points
    · rw [if_pos (Dict.has_iff.2 hk)]
      intro p hp hkb
      rw [Dict.get?_modify] at hp
      by_cases hn : key = name
      · rw [if_pos hn] at hp ⊢
        cases hg : Dict.get? g.points name with
        | none => rw [hg] at hp; cases hp
        | some q =>
          rw [hg] at hp
          simp only [Option.map_some, Option.some.injEq] at hp
          subst hp
          exact get?_zero hkb
      · rw [if_neg hn] at hp ⊢
        exact h.count p hp hkb
    · rw [if_neg (fun h => hk (Dict.has_iff.1 h))]
      by_cases hn : key = name
      · intro p hp
        rw [← hn, Dict.get?_eq_none.2 hk] at hp
        cases hp
      · rw [if_neg hn]
        exact h.count
  | del key =>
    dsimp only
    refine ⟨hwf, ?_⟩
    unfold Group.step
    dsimp only
    split
    · intro p hp
      by_cases hn : key = name
      · subst hn
        rw [Dict.get?_del_self h.wf.nodup] at hp; cases hp
      · rw [Dict.get?_del_ne _ hn] at hp
        exact h.count p hp
    · exact h.count
  | setStop b => exact ⟨hwf, h.count⟩
  | resume => exact ⟨hwf, h.count⟩
  | clear => exact ⟨hwf, fun p hp => by cases hp⟩

theorem tracks_run {name k : String} {g : Group Obs} {n : Nat} (h : Tracks name k g n)
    (ops : List (Op Obs)) : Tracks name k (g.run ops) (hits name k g ops n) := by
  induction ops generalizing g n with
  | nil => exact h
  | cons op ops ih => exact ih (tracks_step h op)

/-! ## C94 -/

/-- C94: after any history the counter of every bin is the number of effective `sample()` calls since
the point was added or reset in which the evaluation got to the bin and found that it holds, whether or
not the calls raised in the end. -/
theorem C94_counts_exact (disable : Bool) (ops : List (Op Obs)) (name k : String) (p : Point Obs)
    (hp : Dict.get? ((Group.new Obs disable).run ops).points name = some p)
    (hk : k ∈ Dict.keys p.bins) :
    count ((Group.new Obs disable).run ops) name k =
      some (hits name k (Group.new Obs disable) ops 0) := by
  have ht : Tracks name k ((Group.new Obs disable).run ops) _ :=
    tracks_run (n := 0) ⟨new_wf disable, fun p hp => by cases hp⟩ ops
  unfold count
  rw [hp]
  exact ht.count p hp hk

/-- C94: `sample()` raises iff it is effective and some bin condition raises. -/
theorem C94_raises_iff (g : Group Obs) (o : Obs) :
    (g.sample o).2 = true ↔ g.sampleStoped = false ∧ Raises g o := by
  cases hs : g.sampleStoped with
  | true => rw [sample_stopped hs]; simp
  | false =>
    rw [sample_live hs]
    simp only [Option.isNone_iff_eq_none, true_and]
    exact sampleLoop_raises o g.points true true

/-- C94: no `sample()` un-covers a point, not even one that raises. -/
theorem C94_keeps_covered (disable : Bool) (ops : List (Op Obs)) (o : Obs) (name : String)
    (h : ((Group.new Obs disable).run ops).covered name = some true) :
    (((Group.new Obs disable).run ops).sample o).1.covered name = some true := by
  have hw := run_wf (new_wf (Obs := Obs) disable) ops
  generalize (Group.new Obs disable).run ops = g at hw h ⊢
  cases hs : g.sampleStoped with
  | true => rw [sample_stopped hs]; exact h
  | false =>
    rw [sample_live hs]
    unfold Group.covered at h ⊢
    dsimp only
    rw [(sampleLoop_get o g.points name true true hw.nodup).2]
    cases hg : Dict.get? g.points name with
    | none => rw [hg] at h; cases h
    | some p =>
      rw [hg] at h
      simp only [Option.map_some, Option.some.injEq] at h ⊢
      split
      · exact (check_wf (hw.points _ (Dict.mem_of_get? hg)) o).2 h
      · exact h

/-- C94 (partial): a group in which some point is not covered goes on sampling after a `sample()` that
raised.  Missing with respect to the full statement: groups whose points are all covered; for those it
is false, see `C94_stops_violated`. -/
theorem C94_goes_on_partial (g : Group Obs) (o : Obs) (hr : (g.sample o).2 = true)
    (hh : g.hinted = false) : (g.sample o).1.sampleStoped = false := by
  obtain ⟨hs, hra⟩ := (C94_raises_iff g o).1 hr
  rw [sample_live hs]
  have hn := (sampleLoop_raises o g.points true true).2 hra
  unfold Group.sampleStoped at hs ⊢
  rw [hn]
  by_cases h : g.stopSample = true
  · simp [h] at hs
  · simp [h, hh]

/-! ### Conditions that do not raise: the model without exceptions -/

/-- A bin of `Model/FunCov`. -/
def Bin.total : Bin Obs → FunCov.Bin Obs
  | .single c => .single fun o => (c o).getD false
  | .many cs => .many (cs.map fun c o => (c o).getD false)

def Point.total (p : Point Obs) : FunCov.Point Obs :=
  ⟨p.bins.map fun e => (e.1, Bin.total e.2), p.hints, p.hinted, p.once, []⟩

def Group.total (g : Group Obs) : FunCov.Group Obs :=
  ⟨g.points.map fun e => (e.1, Point.total e.2), g.hinted, g.allOnce, g.stopSample, g.sampleCount,
    g.sampleCalln, g.disable⟩

theorem evalAll_total {o : Obs} {cs : List (Obs → Option Bool)} {c : Bool} (h : evalAll o cs = some c) :
    (cs.map fun c o => (c o).getD false).all (fun c => c o) = c := by
  induction cs with
  | nil => simp [evalAll] at h; simp [h]
  | cons d cs ih =>
    unfold evalAll at h
    cases hd : d o with
    | none => rw [hd] at h; cases h
    | some b =>
      rw [hd] at h
      cases b with
      | true => simp only [List.map_cons, List.all_cons, hd]; simpa using ih h
      | false => simp at h; simp [hd, h]

theorem eval_total {o : Obs} {b : Bin Obs} {c : Bool} (h : b.eval o = some c) :
    (Bin.total b).holds o = c := by
  cases b with
  | single d =>
    have h : d o = some c := h
    simp [Bin.total, FunCov.Bin.holds, h]
  | many cs => exact evalAll_total h

theorem checkLoop_total (o : Obs) (once : Bool) (bins : Dict String (Bin Obs)) :
    ∀ (hints : Dict String Nat) (a b : Bool), (∀ e ∈ bins, e.2.eval o ≠ none) →
      checkLoop o once bins hints a b =
        ((FunCov.checkLoop o once (bins.map fun e => (e.1, Bin.total e.2)) hints a b).1,
          some (FunCov.checkLoop o once (bins.map fun e => (e.1, Bin.total e.2)) hints a b).2) := by
  induction bins with
  | nil => intro hints a b _; rfl
  | cons e bins ih =>
    obtain ⟨k, bn⟩ := e
    intro hints a b h
    cases hb : bn.eval o with
    | none => exact absurd hb (h (k, bn) (by simp))
    | some c =>
      unfold checkLoop
      rw [hb]
      simp only [List.map_cons, FunCov.checkLoop, eval_total hb]
      exact ih _ _ _ (fun e he => h e (by simp [he]))

theorem check_total {p : Point Obs} {o : Obs} (h : ∀ e ∈ p.bins, e.2.eval o ≠ none) :
    (Point.total (p.check o).1, (p.check o).2) =
      (((Point.total p).check o).1, some ((Point.total p).check o).2) := by
  unfold Point.check FunCov.Point.check
  rw [checkLoop_total o p.once p.bins p.hints true true h]
  rfl

theorem sampleLoop_total (o : Obs) (ps : Dict String (Point Obs)) :
    ∀ (a b : Bool), (∀ e ∈ ps, ∀ b ∈ e.2.bins, b.2.eval o ≠ none) →
      ((sampleLoop o ps a b).1.map (fun e => (e.1, Point.total e.2)) =
        (FunCov.sampleLoop o (ps.map fun e => (e.1, Point.total e.2)) a b).1) ∧
      (sampleLoop o ps a b).2.2 =
        some (FunCov.sampleLoop o (ps.map fun e => (e.1, Point.total e.2)) a b).2.1 ∧
      (sampleLoop o ps a b).2.1 =
        (FunCov.sampleLoop o (ps.map fun e => (e.1, Point.total e.2)) a b).2.2 := by
  induction ps with
  | nil => intro a b _; exact ⟨rfl, rfl, rfl⟩
  | cons e ps ih =>
    obtain ⟨k, p⟩ := e
    intro a b h
    have hc := check_total (o := o) (h (k, p) (by simp))
    simp only [Prod.mk.injEq] at hc
    unfold sampleLoop
    cases hp : p.check o with
    | mk p' r =>
      rw [hp] at hc
      obtain ⟨h1, h2⟩ := hc
      subst h2
      simp only [List.map_cons, FunCov.sampleLoop]
      obtain ⟨i1, i2, i3⟩ := ih (if (!((Point.total p).check o).2.1) = true then false else a)
        (if (!((Point.total p).check o).2.2) = true then false else b)
        (fun e he => h e (by simp [he]))
      exact ⟨by rw [i1, h1], i2, i3⟩

/-- C94: if no bin condition raises, `sample()` is what C52 to C61 say it is. -/
theorem C94_without_exceptions (g : Group Obs) (o : Obs) (h : ¬ Raises g o) :
    (g.sample o).2 = false ∧ Group.total (g.sample o).1 = (Group.total g).sample o := by
  have hn : ∀ e ∈ g.points, ∀ b ∈ e.2.bins, b.2.eval o ≠ none :=
    fun e he b hb hev => h ⟨e, he, b, hb, hev⟩
  obtain ⟨h1, h2, h3⟩ := sampleLoop_total o g.points true true hn
  have hst : (Group.total g).sampleStoped = g.sampleStoped := rfl
  cases hs : g.sampleStoped with
  | true =>
    rw [sample_stopped hs, FunCov.sample_stopped (hst.trans hs)]
    exact ⟨rfl, rfl⟩
  | false =>
    rw [sample_live hs, FunCov.sample_live (hst.trans hs)]
    refine ⟨by rw [h2]; rfl, ?_⟩
    unfold Group.total
    dsimp only
    rw [h1, h2, h3]
    rfl

/-! ### Violations -/

/-- Bins of a point that is observed through a number; number 2 makes the last one raise. -/
def demoBins : List (String × Bin Nat) :=
  [("a", .single fun o => some (o == 1)), ("b", .single fun o => some (o == 2)),
    ("c", .many [fun _ => some true, fun o => if o = 2 then none else some (o == 1)])]

/-- A history with a sample that raises. -/
def demoOps : List (Op Nat) := [.add "p" demoBins (some false), .sample 1]

/-- C94 is false: a `sample()` that raises has counted the bins before the one that raised. -/
theorem C94_atomic_violated : ∃ (ops : List (Op Nat)) (o : Nat),
    (((Group.new Nat true).run ops).sample o).2 = true ∧
    count ((Group.new Nat true).run ops) "p" "b" = some 0 ∧
    count (((Group.new Nat true).run ops).sample o).1 "p" "b" = some 1 :=
  ⟨demoOps, 2, by decide⟩

/-- C94 is false: after a `sample()` that raised every bin of the point has been hit, but the point is
not covered. -/
theorem C94_covered_violated : ∃ (ops : List (Op Nat)),
    count ((Group.new Nat true).run ops) "p" "a" = some 1 ∧
    count ((Group.new Nat true).run ops) "p" "b" = some 1 ∧
    count ((Group.new Nat true).run ops) "p" "c" = some 1 ∧
    ((Group.new Nat true).run ops).covered "p" = some false :=
  ⟨demoOps ++ [.sample 2], by decide⟩

/-- C94 is false: one `sample()` that raises stops a covered group that is not `once` for good; the
following samples are not counted. -/
theorem C94_stops_violated : ∃ (ops : List (Op Nat)) (o : Nat),
    (∀ e ∈ ((Group.new Nat true).run ops).points, e.2.once = false) ∧
    ((Group.new Nat true).run ops).sampleStoped = false ∧
    (((Group.new Nat true).run ops).sample o).2 = true ∧
    (((Group.new Nat true).run ops).sample o).1.sampleStoped = true ∧
    ∀ l : List Nat, count ((((Group.new Nat true).run ops).sample o).1.run (l.map .sample)) "p" "a" =
      some 1 := by
  refine ⟨[.add "p" [("c", .single fun o => if o = 2 then none else some true),
    ("a", .single fun o => some (o == 1))] (some false), .sample 1], 2, by decide, by decide,
    by decide, by decide, ?_⟩
  have key : ∀ (l : List Nat) (g : Group Nat), g.sampleStoped = true → count g "p" "a" = some 1 →
      count (g.run (l.map .sample)) "p" "a" = some 1 := by
    intro l
    induction l with
    | nil => intro g _ h; exact h
    | cons x l ih =>
      intro g hs h
      refine ih (g.sample x).1 ?_ ?_
      · rw [sample_stopped hs]; exact hs
      · rw [sample_stopped hs]; exact h
  exact fun l => key l _ (by decide) (by decide)

/-- The hypotheses of `C94_goes_on_partial` are met. -/
example : (((Group.new Nat true).run demoOps).sample 2).2 = true ∧
    ((Group.new Nat true).run demoOps).hinted = false := by decide

end Toffee.Props.FunCovRaise
