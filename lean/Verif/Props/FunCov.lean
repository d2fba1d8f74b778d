import Verif.Lemmas.FunCov

/-!
Properties C52-C61 of `toffee/funcov.py`.
-/

namespace Toffee.FunCov
variable {Obs : Type}

/-! ## Specification vocabulary -/

/-- Results of queries can be compared. -/
instance : DecidableEq (Except Err Bool)
  | .ok a, .ok b => if h : a = b then isTrue (h ▸ rfl) else isFalse (fun e => h (by cases e; rfl))
  | .error a, .error b =>
    if h : a = b then isTrue (h ▸ rfl) else isFalse (fun e => h (by cases e; rfl))
  | .ok _, .error _ => isFalse nofun
  | .error _, .ok _ => isFalse nofun

/-- The observations that count for point `name`: those of the `sample()` calls made while
`sample_stoped()` was `False`, since the point was last successfully added or reset.  Defined by
walking through the history `ops` from group `g`; `acc` are the observations that counted so far. -/
def since (name : String) : Group Obs → List (Op Obs) → List Obs → List Obs
  | _, [], acc => acc
  | g, op :: ops, acc =>
    since name (g.step op).1 ops <|
      match op with
      | .sample o => if g.sampleStoped then acc else acc ++ [o]
      | .add n _ _ => if n = name ∧ (g.step op).2 = none then [] else acc
      | .reset n => if n = name ∧ (g.step op).2 = none then [] else acc
      | _ => acc

/-- All `sample()` calls since the last `clear()`. -/
def calls : List (Op Obs) → Nat → Nat
  | [], n => n
  | .sample _ :: ops, n => calls ops (n + 1)
  | .clear :: ops, _ => calls ops 0
  | _ :: ops, n => calls ops n

/-- The `sample()` calls made while `sample_stoped()` was `False`, since the last `clear()`. -/
def effective : Group Obs → List (Op Obs) → Nat → Nat
  | _, [], n => n
  | g, .sample o :: ops, n =>
    effective (g.step (.sample o)).1 ops (if g.sampleStoped then n else n + 1)
  | g, .clear :: ops, _ => effective (g.step .clear).1 ops 0
  | g, op :: ops, n => effective (g.step op).1 ops n

/-! ## Invariant linking a point to its history -/

/-- The relation between a point and the observations that counted for it. -/
structure Tracks (name : String) (g : Group Obs) (acc : List Obs) : Prop where
  wf : g.Wf
  count : ∀ p, Dict.get? g.points name = some p → ∀ k b, (k, b) ∈ p.bins →
    Dict.get? p.hints k = some (acc.countP b.holds)
  covered : ∀ p, Dict.get? g.points name = some p →
    (p.hinted = true ↔ acc ≠ [] ∧ ∀ e ∈ p.bins, ∃ o ∈ acc, e.2.holds o = true)

theorem tracks_step {name : String} {g : Group Obs} {acc : List Obs} (h : Tracks name g acc)
    (op : Op Obs) :
    Tracks name (g.step op).1 (match op with
      | .sample o => if g.sampleStoped then acc else acc ++ [o]
      | .add n _ _ => if n = name ∧ (g.step op).2 = none then [] else acc
      | .reset n => if n = name ∧ (g.step op).2 = none then [] else acc
      | _ => acc) := by
  have hwf := step_wf h.wf op
  cases op with
  | sample o =>
    dsimp only
    simp only [Group.step] at hwf ⊢
    cases hs : g.sampleStoped with
    | true =>
      rw [sample_stopped hs] at hwf ⊢
      exact ⟨hwf, h.count, h.covered⟩
    | false =>
      rw [sample_live hs] at hwf ⊢
      obtain ⟨h1, -, -⟩ := sampleLoop_spec o g.points true true
      have hp : ∀ p', Dict.get? (sampleLoop o g.points true true).1 name = some p' →
          ∃ p, Dict.get? g.points name = some p ∧ p' = (p.check o).1 := by
        intro p' hp'
        rw [get?_sampleLoop] at hp'
        cases hg : Dict.get? g.points name with
        | none => simp [hg] at hp'
        | some p => simp [hg] at hp'; exact ⟨p, rfl, hp'.symm⟩
      refine ⟨hwf, ?_, ?_⟩
      · intro p' hp' k b hb
        obtain ⟨p, hg, rfl⟩ := hp p' hp'
        have pwf := h.wf.points _ (Dict.mem_of_get? hg)
        rw [check_bins] at hb
        rw [check_hint pwf o (Dict.get?_of_mem pwf.nodup hb), h.count p hg k b hb]
        simp [List.countP_append, List.countP_cons]
      · intro p' hp'
        obtain ⟨p, hg, rfl⟩ := hp p' hp'
        have pwf := h.wf.points _ (Dict.mem_of_get? hg)
        rw [check_hinted_iff pwf, check_bins]
        have : acc ++ [o] ≠ [] := by simp
        simp only [if_neg Bool.false_ne_true, ne_eq, this, not_false_eq_true, true_and]
        apply forall_congr'; intro e
        apply imp_congr_right; intro he
        rw [h.count p hg e.1 e.2 he]
        constructor
        · intro hpos
          by_cases ho : e.2.holds o = true
          · exact ⟨o, by simp, ho⟩
          · simp [ho] at hpos
            obtain ⟨a, ha, hh⟩ := hpos
            exact ⟨a, by simp [ha], hh⟩
        · rintro ⟨a, ha, hh⟩
          rcases List.mem_append.1 ha with ha | ha
          · have : 0 < acc.countP e.2.holds := List.countP_pos_iff.2 ⟨a, ha, hh⟩
            simp only [Option.getD_some]; omega
          · simp at ha; subst ha
            simp [hh]
  | add n bins once =>
    dsimp only
    rcases step_cases g (.add n bins once) with ⟨he, hx⟩ | hn
    · have : (g.step (.add n bins once)).2 ≠ none := by
        intro h0; rw [h0] at hx; cases hx
      rw [he]; simp only [this, and_false, if_false]; exact h
    · obtain ⟨hk, bs, hbs, he⟩ := step_add hn
      simp only [hn, and_true]
      rw [he] at hwf ⊢
      by_cases hname : n = name
      · subst hname
        simp only [if_true]
        have hget : Dict.get? (g.points ++ [(n, (⟨bs, zeroHints bs, false,
            once.getD g.disable, []⟩ : Point Obs))]) n
            = some ⟨bs, zeroHints bs, false, once.getD g.disable, []⟩ := by
          rw [← Dict.set_of_not_mem hk]; exact Dict.get?_set_self _ _ _
        refine ⟨hwf, ?_, ?_⟩
        · intro p hp k b hb
          rw [hget] at hp; cases hp
          exact get?_zeroHints (List.mem_map.2 ⟨(k, b), hb, rfl⟩)
        · intro p hp
          rw [hget] at hp; cases hp
          simp
      · simp only [hname, if_false]
        have hget : Dict.get? (g.points ++ [(n, (⟨bs, zeroHints bs, false,
            once.getD g.disable, []⟩ : Point Obs))]) name = Dict.get? g.points name := by
          rw [← Dict.set_of_not_mem hk]; exact Dict.get?_set_ne _ hname _
        exact ⟨hwf, fun p hp => h.count p (hget ▸ hp), fun p hp => h.covered p (hget ▸ hp)⟩
  | reset n =>
    dsimp only
    rcases step_cases g (.reset n) with ⟨he, hx⟩ | hn
    · have : (g.step (.reset n)).2 ≠ none := by
        intro h0; rw [h0] at hx; cases hx
      rw [he]; simp only [this, and_false, if_false]; exact h
    · obtain ⟨hk, he⟩ := step_reset hn
      simp only [hn, and_true]
      rw [he] at hwf ⊢
      by_cases hname : n = name
      · subst hname
        simp only [if_true]
        have hp' : ∀ p', Dict.get? (Dict.modify g.points n
            fun p => { p with hints := zeroHints p.bins, hinted := false }) n = some p' →
            ∃ p : Point Obs, p' = { p with hints := zeroHints p.bins, hinted := false } := by
          intro p' hp'
          rw [Dict.get?_modify, if_pos rfl] at hp'
          cases hg : Dict.get? g.points n with
          | none => simp [hg] at hp'
          | some p => simp [hg] at hp'; exact ⟨p, hp'.symm⟩
        refine ⟨hwf, ?_, ?_⟩
        · intro p hp k b hb
          obtain ⟨q, rfl⟩ := hp' p hp
          exact get?_zeroHints (List.mem_map.2 ⟨(k, b), hb, rfl⟩)
        · intro p hp
          obtain ⟨q, rfl⟩ := hp' p hp
          simp
      · simp only [hname, if_false]
        have hget : Dict.get? (Dict.modify g.points n
            fun p => { p with hints := zeroHints p.bins, hinted := false }) name
            = Dict.get? g.points name := by
          rw [Dict.get?_modify, if_neg hname]
        exact ⟨hwf, fun p hp => h.count p (hget ▸ hp), fun p hp => h.covered p (hget ▸ hp)⟩
  | del n =>
    dsimp only
    rcases step_cases g (.del n) with ⟨he, hx⟩ | hn
    · rw [he]; exact h
    · obtain ⟨hk, he⟩ := step_del hn
      rw [he] at hwf ⊢
      by_cases hname : n = name
      · subst hname
        have hget := Dict.get?_del_self h.wf.nodup n
        exact ⟨hwf, fun p hp => (by rw [hget] at hp; cases hp),
          fun p hp => (by rw [hget] at hp; cases hp)⟩
      · have hget := Dict.get?_del_ne g.points hname
        exact ⟨hwf, fun p hp => h.count p (hget ▸ hp), fun p hp => h.covered p (hget ▸ hp)⟩
  | setStop b => exact ⟨hwf, h.count, h.covered⟩
  | callStop => exact ⟨hwf, h.count, h.covered⟩
  | resume => exact ⟨hwf, h.count, h.covered⟩
  | clear =>
    exact ⟨hwf, fun p hp => (by cases hp), fun p hp => (by cases hp)⟩
  | mark m n fs ps r =>
    dsimp only
    obtain ⟨f, he⟩ := step_mark g m n fs ps r
    rw [he] at hwf ⊢
    have hp' : ∀ p', Dict.get? (Dict.modify g.points n
        fun p => { p with functions := f p.functions }) name = some p' →
        ∃ p, Dict.get? g.points name = some p ∧ p'.bins = p.bins ∧ p'.hints = p.hints ∧
          p'.hinted = p.hinted := by
      intro p' hp'
      rw [Dict.get?_modify] at hp'
      by_cases hname : n = name
      · rw [if_pos hname] at hp'
        cases hg : Dict.get? g.points name with
        | none => simp [hg] at hp'
        | some p => simp [hg] at hp'; subst hp'; exact ⟨p, rfl, rfl, rfl, rfl⟩
      · rw [if_neg hname] at hp'
        exact ⟨p', hp', rfl, rfl, rfl⟩
    refine ⟨hwf, ?_, ?_⟩
    · intro p' hpp k b hb
      obtain ⟨p, hg, h1, h2, h3⟩ := hp' p' hpp
      rw [h2]; rw [h1] at hb; exact h.count p hg k b hb
    · intro p' hpp
      obtain ⟨p, hg, h1, h2, h3⟩ := hp' p' hpp
      rw [h3, h1]; exact h.covered p hg

theorem tracks_run {name : String} {g : Group Obs} {acc : List Obs} (h : Tracks name g acc)
    (ops : List (Op Obs)) : Tracks name (g.run ops) (since name g ops acc) := by
  induction ops generalizing g acc with
  | nil => exact h
  | cons op ops ih => exact ih (tracks_step h op)

theorem tracks_new (name : String) (d : Bool) : Tracks name (Group.new Obs d) [] :=
  ⟨new_wf d, fun p hp => (by cases hp), fun p hp => (by cases hp)⟩

/-! ## C52 -/

/-- C52: after any history of operations on a new group, the counter of every bin of every point is
the number of counted observations (effective samples since the point was added/reset) in which
the bin held. -/
theorem C52_bin_counts_exact (disable : Bool) (ops : List (Op Obs)) (name : String) (p : Point Obs)
    (hp : Dict.get? ((Group.new Obs disable).run ops).points name = some p)
    (k : String) (b : Bin Obs) (hb : (k, b) ∈ p.bins) :
    Dict.get? p.hints k =
      some ((since name (Group.new Obs disable) ops []).countP fun o => b.holds o) :=
  (tracks_run (tracks_new name disable) ops).count p hp k b hb

/-- C52: the counters are exactly those of the bins the point was added with, in order. -/
theorem C52_one_counter_per_bin (disable : Bool) (ops : List (Op Obs)) (name : String)
    (p : Point Obs) (hp : Dict.get? ((Group.new Obs disable).run ops).points name = some p) :
    Dict.keys p.hints = Dict.keys p.bins ∧ (Dict.keys p.bins).Nodup :=
  let w := (run_wf (new_wf disable) ops).points _ (Dict.mem_of_get? hp)
  ⟨w.keys, w.nodup⟩

/-- C52: a new point has the bins it was given (for a dict argument: one per key), all at zero. -/
theorem C52_new_point (g : Group Obs) (name : String) (bins : RawBins Obs) (once : Option Bool)
    (h : (g.step (.add name bins once)).2 = none) :
    ∃ p bs, bins.validate = some bs ∧
      Dict.get? (g.step (.add name bins once)).1.points name = some p ∧ p.bins = bs ∧
      p.hinted = false ∧ p.once = once.getD g.disable ∧
      ∀ k ∈ Dict.keys bs, Dict.get? p.hints k = some 0 := by
  obtain ⟨hk, bs, hbs, he⟩ := step_add h
  refine ⟨⟨bs, zeroHints bs, false, once.getD g.disable, []⟩, bs, hbs, ?_, rfl, rfl, rfl,
    fun k hk => get?_zeroHints hk⟩
  rw [he]
  show Dict.get? (g.points ++ [_]) name = _
  rw [← Dict.set_of_not_mem hk]; exact Dict.get?_set_self _ _ _

/-- Non-vacuity: a point with two bins, sampled three times (once while stopped). -/
example :
    let ops : List (Op Nat) := [.add "p" (.dict [("a", .callable (· == 1)), ("b", .list [some (· > 0), some (· < 9)])]) none,
      .sample 1, .setStop true, .sample 1, .setStop false, .sample 0]
    since "p" (Group.new Nat false) ops [] = [1, 0] ∧
      (Dict.get? ((Group.new Nat false).run ops).points "p").map (·.hints) = some [("a", 1), ("b", 1)] := by
  decide

/-! ## C53 -/

/-- C53: a point is covered iff it has been effectively sampled since it was added/reset and each of
its bins has been hit since then. -/
theorem C53_point_covered_iff (disable : Bool) (ops : List (Op Obs)) (name : String)
    (p : Point Obs) (hp : Dict.get? ((Group.new Obs disable).run ops).points name = some p) :
    ((Group.new Obs disable).run ops).isPointCovered name = .ok true ↔
      since name (Group.new Obs disable) ops [] ≠ [] ∧
      ∀ e ∈ p.bins, ∃ o ∈ since name (Group.new Obs disable) ops [], e.2.holds o = true := by
  rw [← (tracks_run (tracks_new name disable) ops).covered p hp]
  simp [Group.isPointCovered, hp]

/-- C53: `is_all_covered()` is `True` iff every point is covered. -/
theorem C53_all_covered_iff (disable : Bool) (ops : List (Op Obs)) :
    ((Group.new Obs disable).run ops).isAllCovered = true ↔
      ∀ name ∈ Dict.keys ((Group.new Obs disable).run ops).points,
        ((Group.new Obs disable).run ops).isPointCovered name = .ok true := by
  have wf := run_wf (new_wf (Obs := Obs) disable) ops
  generalize (Group.new Obs disable).run ops = g at wf ⊢
  have h1 : g.isAllCovered = true ↔ ∀ e ∈ g.points, e.2.hinted = true := by
    unfold Group.isAllCovered
    by_cases hh : g.hinted = true
    · simp only [hh, if_true, true_iff]; exact wf.hinted hh
    · simp only [hh, Bool.false_eq_true, if_false, List.all_eq_true]
  rw [h1]
  constructor
  · intro h name hn
    obtain ⟨e, he, rfl⟩ := List.mem_map.1 hn
    have := Dict.get?_of_mem wf.nodup (k := e.1) (v := e.2) he
    simp [Group.isPointCovered, this, h e he]
  · intro h e he
    have := h e.1 (List.mem_map.2 ⟨e, he, rfl⟩)
    have hg := Dict.get?_of_mem wf.nodup (k := e.1) (v := e.2) he
    simpa [Group.isPointCovered, hg] using this

/-- C53: a `sample()` never un-covers a point. -/
theorem C53_sample_keeps_covered (disable : Bool) (ops : List (Op Obs)) (o : Obs) (name : String)
    (h : ((Group.new Obs disable).run ops).isPointCovered name = .ok true) :
    (((Group.new Obs disable).run ops).sample o).isPointCovered name = .ok true := by
  have t := tracks_run (tracks_new (Obs := Obs) name disable) ops
  generalize (Group.new Obs disable).run ops = g at t h ⊢
  generalize since name (Group.new Obs disable) ops [] = acc at t
  have t' := tracks_step t (.sample o)
  simp only [Group.step] at t'
  cases hs : g.sampleStoped with
  | true =>
    rw [sample_stopped hs]; exact h
  | false =>
    cases hg : Dict.get? g.points name with
    | none => simp [Group.isPointCovered, hg] at h
    | some p =>
      have hh : p.hinted = true := by simpa [Group.isPointCovered, hg] using h
      obtain ⟨-, hb⟩ := (t.covered p hg).1 hh
      have hget : Dict.get? (g.sample o).points name = some (p.check o).1 := by
        rw [sample_live hs]; show Dict.get? (sampleLoop o g.points true true).1 name = _
        rw [get?_sampleLoop, hg]; rfl
      have := (t'.covered _ hget).2 (by
        rw [if_neg (by simp [hs])]
        refine ⟨by simp, fun e he => ?_⟩
        obtain ⟨a, ha, hae⟩ := hb e he
        exact ⟨a, by simp [ha], hae⟩)
      simp [Group.isPointCovered, hget, this]

/-- Non-vacuity: a history after which one of two points is covered. -/
example :
    let ops : List (Op Nat) := [.add "p" (.dict [("a", .callable (· == 1)), ("b", .callable (· == 2))]) none,
      .add "q" (.callable (· == 7)) none, .sample 1, .sample 2]
    let g := (Group.new Nat true).run ops
    g.isPointCovered "p" = .ok true ∧ g.isPointCovered "q" = .ok false ∧ g.isAllCovered = false := by
  decide

/-! ## C54 -/

/-- C54: a `sample()` call made while `sample_stoped()` is `True` only counts the call. -/
theorem C54_stopped_sample_is_void (g : Group Obs) (o : Obs) (h : g.sampleStoped = true) :
    g.sample o = { g with sampleCalln := g.sampleCalln + 1 } :=
  sample_stopped h o

/-- C54: a `sample()` call made while `sample_stoped()` is `False` adds exactly one to the counter of
each bin that holds, and nothing to the others. -/
theorem C54_live_sample_counts (disable : Bool) (ops : List (Op Obs)) (o : Obs) (name : String)
    (h : ((Group.new Obs disable).run ops).sampleStoped = false) (p : Point Obs)
    (hp : Dict.get? ((Group.new Obs disable).run ops).points name = some p)
    (k : String) (b : Bin Obs) (hb : (k, b) ∈ p.bins) (n : Nat)
    (hn : Dict.get? p.hints k = some n) :
    ∃ p', Dict.get? (((Group.new Obs disable).run ops).sample o).points name = some p' ∧
      p'.bins = p.bins ∧
      Dict.get? p'.hints k = some (if b.holds o then n + 1 else n) := by
  have wf := run_wf (new_wf (Obs := Obs) disable) ops
  generalize (Group.new Obs disable).run ops = g at *
  refine ⟨(p.check o).1, ?_, rfl, ?_⟩
  · rw [sample_live h]; show Dict.get? (sampleLoop o g.points true true).1 name = _
    rw [get?_sampleLoop, hp]; rfl
  · have pwf := wf.points _ (Dict.mem_of_get? hp)
    rw [check_hint pwf o (Dict.get?_of_mem pwf.nodup hb), hn]
    by_cases ho : b.holds o = true <;> simp [ho]

theorem step_counters (g : Group Obs) (op : Op Obs) (hs : ∀ o, op ≠ .sample o) (hc : op ≠ .clear) :
    (g.step op).1.sampleCalln = g.sampleCalln ∧ (g.step op).1.sampleCount = g.sampleCount ∧
    (g.step op).1.disable = g.disable := by
  rcases step_cases g op with ⟨he, -⟩ | hn
  · rw [he]; exact ⟨rfl, rfl, rfl⟩
  cases op with
  | sample o => exact absurd rfl (hs o)
  | clear => exact absurd rfl hc
  | add n bins once => obtain ⟨_, _, _, he⟩ := step_add hn; rw [he]; exact ⟨rfl, rfl, rfl⟩
  | del n => obtain ⟨_, he⟩ := step_del hn; rw [he]; exact ⟨rfl, rfl, rfl⟩
  | reset n => obtain ⟨_, he⟩ := step_reset hn; rw [he]; exact ⟨rfl, rfl, rfl⟩
  | setStop b => exact ⟨rfl, rfl, rfl⟩
  | callStop => exact ⟨rfl, rfl, rfl⟩
  | resume => exact ⟨rfl, rfl, rfl⟩
  | mark m n fs ps r => obtain ⟨_, he⟩ := step_mark g m n fs ps r; rw [he]; exact ⟨rfl, rfl, rfl⟩

/-- C54: as_dict's call counter counts every `sample()` call, its sample counter exactly the
effective ones (both since the last `clear()`). -/
theorem C54_counters (disable : Bool) (ops : List (Op Obs)) :
    ((Group.new Obs disable).run ops).asDict.sampleCalln = calls ops 0 ∧
    ((Group.new Obs disable).run ops).asDict.sampleCount = effective (Group.new Obs disable) ops 0 := by
  suffices H : ∀ (g : Group Obs), (g.run ops).sampleCalln = calls ops g.sampleCalln ∧
      (g.run ops).sampleCount = effective g ops g.sampleCount from H (Group.new Obs disable)
  induction ops with
  | nil => intro g; exact ⟨rfl, rfl⟩
  | cons op ops ih =>
    intro g
    have hrun : g.run (op :: ops) = (g.step op).1.run ops := rfl
    rw [hrun]
    obtain ⟨h1, h2⟩ := ih (g.step op).1
    rw [h1, h2]
    by_cases hs : ∃ o, op = .sample o
    · obtain ⟨o, rfl⟩ := hs
      simp only [calls, effective, Group.step]
      cases hst : g.sampleStoped with
      | true => rw [sample_stopped hst]; simp
      | false => rw [sample_live hst]; simp
    · by_cases hc : op = .clear
      · subst hc; exact ⟨rfl, rfl⟩
      · have hs' : ∀ o, op ≠ .sample o := fun o ho => hs ⟨o, ho⟩
        obtain ⟨h3, h4, -⟩ := step_counters g op hs' hc
        rw [h3, h4]
        cases op with
        | sample o => exact absurd rfl (hs' o)
        | clear => exact absurd rfl hc
        | _ => exact ⟨rfl, rfl⟩

/-- C54: right after an effective sample, the group is stopped iff every point is covered and every
point with at least one bin is a `once` point. -/
theorem C54_stops_iff (disable : Bool) (ops : List (Op Obs)) (o : Obs)
    (h : ((Group.new Obs disable).run ops).sampleStoped = false) :
    (((Group.new Obs disable).run ops).sample o).sampleStoped = true ↔
      ∀ e ∈ (((Group.new Obs disable).run ops).sample o).points,
        e.2.hinted = true ∧ (e.2.bins ≠ [] → e.2.once = true) := by
  have wf := run_wf (new_wf (Obs := Obs) disable) ops
  generalize (Group.new Obs disable).run ops = g at *
  have hstop : g.stopSample = false := by
    cases hs : g.stopSample with
    | true => simp [Group.sampleStoped, hs] at h
    | false => rfl
  rw [sample_live h]
  obtain ⟨h1, h2, h3⟩ := sampleLoop_spec o g.points true true
  simp only [Group.sampleStoped, hstop, Bool.false_eq_true, if_false, Bool.and_eq_true]
  rw [h2, h3, h1]
  simp only [true_and, List.mem_map, forall_exists_index, and_imp, forall_apply_eq_imp_iff₂]
  constructor
  · rintro ⟨ha, hb⟩ e he
    refine ⟨ha e he, fun hne => ?_⟩
    rcases (check_onece_iff (wf.points e he) o).1 (hb e he) with h | h
    · exact absurd h hne
    · exact h.2
  · intro hall
    refine ⟨fun e he => (hall e he).1, fun e he => ?_⟩
    rw [check_onece_iff (wf.points e he) o]
    by_cases hb : e.2.bins = []
    · exact Or.inl hb
    · exact Or.inr ⟨(hall e he).1, (hall e he).2 hb⟩

/-- C54: after a point is added or reset, the group samples again (unless its `stop_sample`
attribute is set). -/
theorem C54_resumes (g : Group Obs) (op : Op Obs)
    (hop : (∃ n b c, op = .add n b c) ∨ (∃ n, op = .reset n))
    (hok : (g.step op).2 = none) (hattr : g.stopSample = false) :
    (g.step op).1.sampleStoped = false := by
  rcases hop with ⟨n, b, c, rfl⟩ | ⟨n, rfl⟩
  · obtain ⟨_, _, _, he⟩ := step_add hok
    rw [he]; simp [Group.sampleStoped, hattr]
  · obtain ⟨_, he⟩ := step_reset hok
    rw [he]; simp [Group.sampleStoped, hattr]

/-- C54: after `resume_sample()` the next `sample()` call counts, whatever had stopped the group. -/
theorem C54_resume_sample (g : Group Obs) (o : Obs) :
    g.resumeSample.sampleStoped = false ∧
    (g.resumeSample.sample o).asDict.sampleCount = g.asDict.sampleCount + 1 := by
  have h : g.resumeSample.sampleStoped = false := by
    simp [Group.sampleStoped, Group.resumeSample]
  refine ⟨h, ?_⟩
  rw [sample_live h]
  rfl

/-- Non-vacuity: a `once` group stops after its only point is covered and resumes after reset. -/
example :
    let ops : List (Op Nat) := [.add "p" (.callable (· == 1)) none]
    let g := (Group.new Nat true).run ops
    g.sampleStoped = false ∧ (g.sample 1).sampleStoped = true ∧
      ((g.sample 1).step (.reset "p")).1.sampleStoped = false ∧
      calls [.sample 1, .sample 1, Op.sample 2] 0 = 3 ∧
      effective g [.sample 1, .sample 1, .sample 2] 0 = 1 := by
  decide

/-! ## C55, C56 -/

/-- C55: the totals reported by `as_dict()`: all points and bins, the covered points, the bins hit at
least once. -/
theorem C55_totals (disable : Bool) (ops : List (Op Obs)) :
    let g := (Group.new Obs disable).run ops
    g.asDict.pointTotal = g.points.length ∧
    g.asDict.binTotal = (g.points.map fun e => e.2.bins.length).sum ∧
    g.asDict.pointHints = g.points.countP (fun e => decide (g.isPointCovered e.1 = .ok true)) ∧
    g.asDict.binHints = (g.points.map fun e => e.2.bins.countP fun b =>
      (since e.1 (Group.new Obs disable) ops []).any fun o => b.2.holds o).sum := by
  have wf := run_wf (new_wf (Obs := Obs) disable) ops
  have tr := fun name => tracks_run (tracks_new (Obs := Obs) name disable) ops
  generalize (Group.new Obs disable).run ops = g at wf tr
  refine ⟨rfl, ?_, ?_, ?_⟩
  · simp only [Group.asDict]
    congr 1
    apply List.map_congr_left
    intro e he
    have := congrArg List.length (wf.points e he).keys
    simpa [Dict.keys] using this
  · simp only [Group.asDict, ← List.countP_eq_length_filter]
    apply List.countP_congr
    intro e he
    have hg := Dict.get?_of_mem wf.nodup (k := e.1) (v := e.2) he
    simp [Group.isPointCovered, hg]
  · simp only [Group.asDict]
    congr 1
    apply List.map_congr_left
    intro e he
    have hg := Dict.get?_of_mem wf.nodup (k := e.1) (v := e.2) he
    have pwf := wf.points e he
    have hcount := (tr e.1).count e.2 hg
    generalize since e.1 (Group.new Obs disable) ops [] = acc at hcount
    -- the hint list is the image of the bin list
    have himg : e.2.hints = e.2.bins.map fun b => (b.1, acc.countP b.2.holds) := by
      apply Dict.ext_keys
      · rw [pwf.keys]; simp [Dict.keys, Function.comp_def]
      · rw [pwf.keys]; exact pwf.nodup
      · intro k hk
        rw [pwf.keys] at hk
        obtain ⟨b, hb, rfl⟩ := List.mem_map.1 hk
        rw [hcount b.1 b.2 hb]
        rw [Dict.get?_map (f := fun b : Bin Obs => acc.countP b.holds)]
        rw [Dict.get?_of_mem pwf.nodup (k := b.1) (v := b.2) hb]; rfl
    rw [himg, List.filter_map, List.length_map, ← List.countP_eq_length_filter]
    apply List.countP_congr
    intro b hb
    simp [List.countP_pos_iff]

/-- C55: all points are covered iff `point_num_hints == point_num_total` iff `is_all_covered()`. -/
theorem C55_all_covered (disable : Bool) (ops : List (Op Obs)) :
    let g := (Group.new Obs disable).run ops
    g.asDict.pointHints = g.asDict.pointTotal ↔ g.isAllCovered = true := by
  have wf := run_wf (new_wf (Obs := Obs) disable) ops
  generalize (Group.new Obs disable).run ops = g at wf
  have h1 : g.isAllCovered = true ↔ ∀ e ∈ g.points, e.2.hinted = true := by
    unfold Group.isAllCovered
    by_cases hh : g.hinted = true
    · simp only [hh, if_true, true_iff]; exact wf.hinted hh
    · simp only [hh, Bool.false_eq_true, if_false, List.all_eq_true]
  dsimp only
  rw [h1]
  simp only [Group.asDict, ← List.countP_eq_length_filter]
  rw [List.countP_eq_length]

/-- Non-vacuity. -/
example :
    let ops : List (Op Nat) := [.add "p" (.dict [("a", .callable (· == 1)), ("b", .callable (· == 2))]) none,
      .add "q" (.callable (· == 2)) none, .sample 2]
    ((Group.new Nat true).run ops).asDict = ⟨false, 3, 2, 2, 1, true, 1, 1, false⟩ := by
  decide

/-- C56 (violated): `as_dict()['hinted']` and `is_all_covered()` disagree after the only uncovered
point is deleted. -/
theorem C56_hinted_agrees_violated :
    ∃ ops : List (Op Nat), let g := (Group.new Nat true).run ops
      g.isAllCovered = true ∧ g.asDict.hinted = false ∧ g.points ≠ [] :=
  ⟨[.add "p" (.callable (· == 1)) none, .add "q" (.callable (· == 2)) none, .sample 1, .del "q"],
    by decide⟩

/-- C56 (partial): a reported `hinted` is never wrong in the positive direction, and it agrees with
`is_all_covered()` right after every effective sample.  Missing: agreement after `del_point` and on a
group without samples. -/
theorem C56_hinted_agrees_partial (disable : Bool) (ops : List (Op Obs)) :
    (((Group.new Obs disable).run ops).asDict.hinted = true →
      ((Group.new Obs disable).run ops).isAllCovered = true) ∧
    ∀ o, ((Group.new Obs disable).run ops).sampleStoped = false →
      (((Group.new Obs disable).run ops).sample o).asDict.hinted =
        (((Group.new Obs disable).run ops).sample o).isAllCovered := by
  generalize (Group.new Obs disable).run ops = g
  refine ⟨fun h => by simp only [Group.asDict] at h; simp [Group.isAllCovered, h], fun o hs => ?_⟩
  rw [sample_live hs]
  obtain ⟨h1, h2, -⟩ := sampleLoop_spec o g.points true true
  simp only [Group.asDict, Group.isAllCovered]
  cases hh : (sampleLoop o g.points true true).2.1 with
  | true => simp
  | false =>
    simp only [Bool.false_eq_true, if_false]
    symm
    rw [← Bool.not_eq_true, List.all_eq_true, h1]
    intro hall
    have : (sampleLoop o g.points true true).2.1 = true := h2.2 ⟨rfl, fun e he =>
      hall (e.1, (e.2.check o).1) (List.mem_map.2 ⟨e, he, rfl⟩)⟩
    rw [hh] at this; cases this

/-- Non-vacuity of `C56_hinted_agrees_partial`. -/
example : let g := (Group.new Nat true).run [.add "p" (.callable (· == 1)) none]
    g.sampleStoped = false ∧ (g.sample 1).asDict.hinted = true := by decide

/-! ## C57 -/

/-- C57: an operation that raises leaves the group as it was. -/
theorem C57_rejected_unchanged (g : Group Obs) (op : Op Obs) (e : Err) (h : (g.step op).2 = some e) :
    (g.step op).1 = g := by
  rcases step_cases g op with ⟨he, -⟩ | hn
  · exact he
  · rw [hn] at h; cases h

/-- The bins of an argument are all callable. -/
def AllCallable : RawBins Obs → Prop
  | .invalid => False
  | .callable _ => True
  | .dict es => ∀ e ∈ ofList es, match e.2 with
    | .callable _ => True
    | .list cs => ∀ c ∈ cs, c ≠ none
    | .invalid => False

theorem mapM_id_isSome {α : Type} (cs : List (Option α)) :
    (cs.mapM id).isSome = true ↔ ∀ c ∈ cs, c ≠ none := by
  induction cs with
  | nil => simp
  | cons c cs ih =>
    cases c with
    | none => simp
    | some a =>
      simp only [List.mapM_cons, List.mem_cons, forall_eq_or_imp, ne_eq, reduceCtorEq,
        not_false_eq_true, true_and, id]
      rw [← ih]
      cases cs.mapM id <;> simp

theorem mapM_isSome {α β : Type} (f : α → Option β) (l : List α) :
    (l.mapM f).isSome = true ↔ ∀ a ∈ l, (f a).isSome = true := by
  induction l with
  | nil => simp
  | cons a l ih =>
    simp only [List.mapM_cons, List.mem_cons, forall_eq_or_imp]
    rw [← ih]
    cases f a <;> cases l.mapM f <;> simp

theorem validate_isSome (r : RawBins Obs) : r.validate.isSome = true ↔ AllCallable r := by
  cases r with
  | invalid => simp [RawBins.validate, AllCallable]
  | callable c => simp [RawBins.validate, AllCallable]
  | dict es =>
    simp only [RawBins.validate, AllCallable]
    rw [mapM_isSome]
    apply forall_congr'; intro e
    apply imp_congr_right; intro _
    obtain ⟨k, b⟩ := e
    cases b with
    | callable c => simp [RawBin.validate]
    | invalid => simp [RawBin.validate]
    | list cs => simp [RawBin.validate, mapM_id_isSome]

/-- C57: `add_watch_point` is rejected exactly for a duplicate name or a non-callable bin. -/
theorem C57_add_rejected_iff (g : Group Obs) (key : String) (bins : RawBins Obs)
    (once : Option Bool) :
    (g.step (.add key bins once)).2 ≠ none ↔
      key ∈ Dict.keys g.points ∨ ¬ AllCallable bins := by
  rw [← validate_isSome]
  simp only [Group.step, Group.add]
  by_cases hk : Dict.has g.points key = true
  · have := Dict.has_iff.1 hk
    simp [hk, Group.step.lift, this]
  · have hk' : Dict.has g.points key = false := by simpa using hk
    have : key ∉ Dict.keys g.points := fun hm => hk (Dict.has_iff.2 hm)
    cases hv : bins.validate <;> simp [hk', Group.step.lift, this]

/-- C57: deleting, resetting or querying is rejected exactly for an unknown name. -/
theorem C57_unknown_name_rejected (g : Group Obs) (name : String) :
    ((g.step (.del name)).2 ≠ none ↔ name ∉ Dict.keys g.points) ∧
    ((g.step (.reset name)).2 ≠ none ↔ name ∉ Dict.keys g.points) ∧
    (g.isPointCovered name = .error .valueError ↔ name ∉ Dict.keys g.points) := by
  by_cases hk : Dict.has g.points name = true
  · have := Dict.has_iff.1 hk
    have hs : ∃ p, Dict.get? g.points name = some p := Option.isSome_iff_exists.1 hk
    obtain ⟨p, hp⟩ := hs
    simp [Group.step, Group.delPoint, Group.resetPoint, Group.isPointCovered, Group.step.lift, hk,
      this, hp]
  · have hk' : Dict.has g.points name = false := by simpa using hk
    have hm : name ∉ Dict.keys g.points := fun hm => hk (Dict.has_iff.2 hm)
    have hp := Dict.get?_eq_none.2 hm
    simp [Group.step, Group.delPoint, Group.resetPoint, Group.isPointCovered, Group.step.lift, hk',
      hm, hp]

/-- C57: adding, deleting or resetting one point leaves the other points as they are. -/
theorem C57_other_points_unchanged (g : Group Obs) (name other : String) (hne : name ≠ other)
    (op : Op Obs)
    (hop : (∃ b c, op = .add name b c) ∨ op = .reset name ∨ op = .del name) :
    Dict.get? (g.step op).1.points other = Dict.get? g.points other := by
  rcases step_cases g op with ⟨he, -⟩ | hn
  · rw [he]
  rcases hop with ⟨b, c, rfl⟩ | rfl | rfl
  · obtain ⟨hk, bs, -, he⟩ := step_add hn
    rw [he]
    show Dict.get? (g.points ++ [_]) other = _
    rw [← Dict.set_of_not_mem hk]; exact Dict.get?_set_ne _ hne _
  · obtain ⟨-, he⟩ := step_reset hn
    rw [he]; show Dict.get? (Dict.modify _ _ _) _ = _; rw [Dict.get?_modify, if_neg hne]
  · obtain ⟨-, he⟩ := step_del hn
    rw [he]; exact Dict.get?_del_ne _ hne

/-- Non-vacuity: a duplicate name, a bad bin and an unknown name are all rejected. -/
example : let g := (Group.new Nat true).run [.add "p" (.callable (· == 1)) none]
    (g.step (.add "p" (.callable (· == 2)) none)).2 = some .valueError ∧
    (g.step (.add "q" (.dict [("a", .list [some (· == 2), none])]) none)).2 = some .valueError ∧
    (g.step (.reset "q")).2 = some .valueError := by decide

/-! ## C58 -/

/-- C58 (violated): calling `stop_sample()` raises on every group and does not stop sampling. -/
theorem C58_stop_sample_violated :
    (∀ (Obs : Type) (g : Group Obs), g.step .callStop = (g, some .typeError)) ∧
    ∃ ops : List (Op Nat), let g := (Group.new Nat true).run (ops ++ [.callStop])
      g.sampleStoped = false ∧
      (Dict.get? (g.sample 1).points "p").map (·.hints) ≠ (Dict.get? g.points "p").map (·.hints) :=
  ⟨fun _ _ => rfl, [.add "p" (.callable (· == 1)) none], by decide⟩

/-- C58 (partial): *assigning* `stop_sample = True` does stop sampling until `resume_sample()`, a
new assignment or `clear()`: whatever else is done, `sample()` changes no point.  Missing: the
method call itself (see `C58_stop_sample_violated`). -/
theorem C58_stop_attribute_partial (g : Group Obs) (ops : List (Op Obs))
    (h : ∀ op ∈ ops, op ≠ .resume ∧ op ≠ .clear ∧ ∀ b, op ≠ .setStop b) (o : Obs) :
    let g' := (g.step (.setStop true)).1.run ops
    g'.sampleStoped = true ∧ (g'.sample o).points = g'.points := by
  have key : ∀ (ops : List (Op Obs)) (g : Group Obs), g.stopSample = true →
      (∀ op ∈ ops, op ≠ .resume ∧ op ≠ .clear ∧ ∀ b, op ≠ .setStop b) →
      (g.run ops).stopSample = true := by
    intro ops
    induction ops with
    | nil => intro g hg _; exact hg
    | cons op ops ih =>
      intro g hg hall
      apply ih (g.step op).1 _ (fun o ho => hall o (List.mem_cons_of_mem _ ho))
      obtain ⟨h1, h2, h3⟩ := hall op List.mem_cons_self
      rcases step_cases g op with ⟨he, -⟩ | hn
      · rw [he]; exact hg
      cases op with
      | sample o =>
        have : g.sampleStoped = true := by simp [Group.sampleStoped, hg]
        simp only [Group.step]; rw [sample_stopped this]; exact hg
      | clear => exact absurd rfl h2
      | resume => exact absurd rfl h1
      | setStop b => exact absurd rfl (h3 b)
      | callStop => exact hg
      | add n bins once => obtain ⟨_, _, _, he⟩ := step_add hn; rw [he]; exact hg
      | del n => obtain ⟨_, he⟩ := step_del hn; rw [he]; exact hg
      | reset n => obtain ⟨_, he⟩ := step_reset hn; rw [he]; exact hg
      | mark m n fs ps r => obtain ⟨_, he⟩ := step_mark g m n fs ps r; rw [he]; exact hg
  have hs := key ops (g.step (.setStop true)).1 rfl h
  have hst : ((g.step (.setStop true)).1.run ops).sampleStoped = true := by
    simp [Group.sampleStoped, hs]
  exact ⟨hst, by rw [sample_stopped hst]⟩

/-- Non-vacuity: `resume_sample()` ends the stop. -/
example : let g := (Group.new Nat true).run [.add "p" (.callable (· == 1)) none, .setStop true, .sample 1]
    g.sampleStoped = true ∧ (g.step .resume).1.sampleStoped = false := by decide

/-! ## C59 -/

/-- C59 (violated): a covered `once` point is checked again as long as another point is not covered,
and its counters go on rising. -/
theorem C59_once_violated :
    ∃ (ops : List (Op Nat)) (o : Nat), let g := (Group.new Nat true).run ops
      ∃ p p', Dict.get? g.points "p" = some p ∧ p.once = true ∧ g.isPointCovered "p" = .ok true ∧
        Dict.get? (g.sample o).points "p" = some p' ∧ p'.hints ≠ p.hints := by
  refine ⟨[.add "p" (.callable (· == 1)) (some true), .add "q" (.callable (· == 2)) (some true),
    .sample 1], 1, ?_⟩
  exact ⟨_, _, rfl, rfl, rfl, rfl, by decide⟩

/-- C59 (partial): once *every* point of the group is covered by an effective sample and every point
is `once`, no point changes any more under any number of further samples.  Missing: the claim for a
single point while others are uncovered (false, see `C59_once_violated`). -/
theorem C59_once_partial (disable : Bool) (ops : List (Op Obs)) (o : Obs)
    (hlive : ((Group.new Obs disable).run ops).sampleStoped = false)
    (hall : ∀ e ∈ (((Group.new Obs disable).run ops).sample o).points,
      e.2.hinted = true ∧ e.2.once = true) (os : List Obs) :
    ((((Group.new Obs disable).run ops).sample o).run (os.map .sample)).points =
      (((Group.new Obs disable).run ops).sample o).points := by
  have hst := (C54_stops_iff disable ops o hlive).2 fun e he => ⟨(hall e he).1, fun _ => (hall e he).2⟩
  generalize ((Group.new Obs disable).run ops).sample o = g at hst
  clear hall hlive
  induction os generalizing g with
  | nil => rfl
  | cons a os ih =>
    have : g.run ((a :: os).map .sample) = (g.sample a).run (os.map .sample) := rfl
    rw [this, ih (g.sample a) (by rw [sample_stopped hst]; exact hst), sample_stopped hst]

/-- Non-vacuity of `C59_once_partial`. -/
example : let g := (Group.new Nat true).run [.add "p" (.callable (· == 1)) none]
    g.sampleStoped = false ∧ ∀ e ∈ (g.sample 1).points, e.2.hinted = true ∧ e.2.once = true := by
  decide

/-! ## C60 -/

/-- The functions marked for bin `b` of point `name`. -/
def marks (g : Group Obs) (name b : String) : List String :=
  match Dict.get? g.points name with
  | none => []
  | some p => (Dict.get? p.functions b).getD []

/-- Pattern `pat` selects bin `b` among `available`: by exact name if there is such a bin, else as a
wildcard if it contains one, else as a regular expression. -/
def Selects (m : Matchers) (available : List String) (pat b : String) : Prop :=
  b ∈ available ∧
    ((pat ∈ available ∧ b = pat) ∨
     (pat ∉ available ∧ m.isWild pat = true ∧ m.fnmatch pat b = true) ∨
     (pat ∉ available ∧ m.isWild pat = false ∧ m.rematch pat b = true))

theorem mem_select (m : Matchers) (av : List String) (pat b : String) :
    b ∈ m.select av pat ↔ Selects m av pat b := by
  unfold Matchers.select Selects
  by_cases h : pat ∈ av
  · simp only [List.contains_iff_mem, h, if_true, List.mem_singleton, true_and, not_true_eq_false,
      false_and, or_false]
    exact ⟨fun hb => ⟨hb ▸ h, hb⟩, fun hb => hb.2⟩
  · simp only [List.contains_iff_mem, h, if_false, false_and, not_false_eq_true, true_and, false_or]
    cases m.isWild pat <;> simp [List.mem_filter]

theorem mem_foldl_setAdd (fs : List String) (s : List String) (x : String) :
    x ∈ fs.foldl setAdd s ↔ x ∈ s ∨ x ∈ fs := by
  induction fs generalizing s with
  | nil => simp
  | cons f fs ih =>
    rw [List.foldl_cons, ih]
    unfold setAdd
    by_cases h : s.contains f = true
    · simp only [h, if_true, List.mem_cons]
      have hm : f ∈ s := List.contains_iff_mem.1 h
      constructor
      · rintro (h | h)
        · exact Or.inl h
        · exact Or.inr (Or.inr h)
      · rintro (h | h | h)
        · exact Or.inl h
        · exact Or.inl (h ▸ hm)
        · exact Or.inr h
    · simp only [h, Bool.false_eq_true, if_false, List.mem_append, List.mem_cons, List.not_mem_nil,
        or_false]
      exact or_assoc

theorem mem_foldl_markBin (fs : List String) (sel : List String) (d : Dict String (List String))
    (b x : String) :
    x ∈ (Dict.get? (sel.foldl (markBin fs) d) b).getD [] ↔
      x ∈ (Dict.get? d b).getD [] ∨ (b ∈ sel ∧ x ∈ fs) := by
  induction sel generalizing d with
  | nil => simp
  | cons c sel ih =>
    rw [List.foldl_cons, ih]
    unfold markBin
    by_cases hc : c = b
    · subst hc
      rw [Dict.get?_set_self]
      simp only [Option.getD_some, mem_foldl_setAdd, List.mem_cons]
      constructor
      · rintro ((h | h) | h)
        · exact Or.inl h
        · exact Or.inr ⟨Or.inl trivial, h⟩
        · exact Or.inr ⟨Or.inr h.1, h.2⟩
      · rintro (h | ⟨-, h⟩)
        · exact Or.inl (Or.inl h)
        · exact Or.inl (Or.inr h)
    · rw [Dict.get?_set_ne _ hc]
      simp only [List.mem_cons, Ne.symm hc, false_or]

/-- C60: a successful `mark_function` adds the functions to exactly the selected bins and keeps all
earlier marks (of this and of every other point). -/
theorem C60_mark_exact (m : Matchers) (g : Group Obs) (name : String) (funcs pats : List String)
    (r : Bool) (p : Point Obs) (hp : Dict.get? g.points name = some p)
    (hok : (g.step (.mark m name funcs pats r)).2 = none) (other b f : String) :
    f ∈ marks (g.step (.mark m name funcs pats r)).1 other b ↔
      f ∈ marks g other b ∨
      (other = name ∧ f ∈ funcs ∧ ∃ pat ∈ pats, Selects m (Dict.keys p.bins) pat b) := by
  simp only [Group.step, Group.mark, hp] at hok ⊢
  by_cases h1 : pats = []
  · simp [h1, Group.step.lift] at hok
  rw [if_neg h1] at hok ⊢
  split at hok
  · simp [Group.step.lift] at hok
  · rename_i h2
    rw [if_neg h2]
    simp only [Group.step.lift, marks, Dict.get?_modify]
    by_cases ho : name = other
    · subst ho
      rw [if_pos rfl, hp]
      simp only [Option.map_some, true_and]
      rw [mem_foldl_markBin]
      apply or_congr_right
      rw [List.mem_eraseDups, List.mem_flatten, and_comm]
      apply and_congr_right; intro _
      constructor
      · rintro ⟨l, hl, hb⟩
        obtain ⟨pat, hpat, rfl⟩ := List.mem_map.1 hl
        exact ⟨pat, hpat, (mem_select m _ pat b).1 hb⟩
      · rintro ⟨pat, hpat, hb⟩
        exact ⟨_, List.mem_map.2 ⟨pat, hpat, rfl⟩, (mem_select m _ pat b).2 hb⟩
    · rw [if_neg ho]
      simp [Ne.symm ho]

/-- C60: `mark_function` on an existing point raises iff there is no pattern or some pattern selects
no bin; then nothing is recorded. -/
theorem C60_mark_rejected (m : Matchers) (g : Group Obs) (name : String) (funcs pats : List String)
    (r : Bool) (p : Point Obs) (hp : Dict.get? g.points name = some p) :
    ((g.step (.mark m name funcs pats r)).2 ≠ none ↔
      pats = [] ∨ ∃ pat ∈ pats, ∀ b, ¬ Selects m (Dict.keys p.bins) pat b) ∧
    ((g.step (.mark m name funcs pats r)).2 ≠ none → (g.step (.mark m name funcs pats r)).1 = g) := by
  constructor
  · simp only [Group.step, Group.mark, hp]
    by_cases h1 : pats = []
    · simp [h1, Group.step.lift]
    · rw [if_neg h1]
      have key : ((pats.map (m.select (Dict.keys p.bins))).any (·.isEmpty)) = true ↔
          ∃ pat ∈ pats, ∀ b, ¬ Selects m (Dict.keys p.bins) pat b := by
        rw [List.any_eq_true]
        constructor
        · rintro ⟨l, hl, he⟩
          obtain ⟨pat, hpat, rfl⟩ := List.mem_map.1 hl
          refine ⟨pat, hpat, fun b hb => ?_⟩
          rw [← mem_select, List.isEmpty_iff.1 he] at hb
          cases hb
        · rintro ⟨pat, hpat, hb⟩
          refine ⟨_, List.mem_map.2 ⟨pat, hpat, rfl⟩, ?_⟩
          rw [List.isEmpty_iff, List.eq_nil_iff_forall_not_mem]
          exact fun b h => hb b ((mem_select m _ pat b).1 h)
      by_cases h2 : ((pats.map (m.select (Dict.keys p.bins))).any (·.isEmpty)) = true
      · rw [if_pos h2]
        simp only [Group.step.lift, ne_eq, reduceCtorEq, not_false_eq_true, true_iff]
        exact Or.inr (key.1 h2)
      · rw [if_neg h2]
        simp only [Group.step.lift, ne_eq, not_true_eq_false, false_iff, not_or]
        exact ⟨h1, fun h => h2 (key.2 h)⟩
  · intro h
    rcases step_cases g (.mark m name funcs pats r) with ⟨he, -⟩ | hn
    · exact he
    · exact absurd hn h

/-- C60: `mark_function` of a point the group does not have raises ValueError if `raise_error` is set,
and otherwise does nothing; either way nothing is recorded. -/
theorem C60_mark_unknown (m : Matchers) (g : Group Obs) (name : String) (funcs pats : List String)
    (r : Bool) (hp : Dict.get? g.points name = none) :
    g.step (.mark m name funcs pats r) = (g, if r then some .valueError else none) := by
  simp only [Group.step, Group.mark, hp]
  cases r <;> rfl

/-- C60: marking is idempotent, in effect on every mark. -/
theorem C60_mark_idempotent (m : Matchers) (g : Group Obs) (name : String) (funcs pats : List String)
    (r : Bool) (other b f : String) :
    let g' := (g.step (.mark m name funcs pats r)).1
    f ∈ marks (g'.step (.mark m name funcs pats r)).1 other b ↔ f ∈ marks g' other b := by
  dsimp only
  rcases step_cases g (.mark m name funcs pats r) with ⟨he, hx⟩ | hn
  · rw [he, he]
  · cases hp : Dict.get? g.points name with
    | none =>
      have : (g.step (.mark m name funcs pats r)).1 = g := by
        simp only [Group.step, Group.mark, hp]; cases r <;> rfl
      rw [this, this]
    | some p =>
      generalize hg' : (g.step (.mark m name funcs pats r)).1 = g'
      have hg := hg'
      have : ∃ fn, Dict.get? g'.points name = some { p with functions := fn } := by
        obtain ⟨fn, he⟩ := step_mark g m name funcs pats r
        rw [hg'] at he
        refine ⟨fn p.functions, ?_⟩
        rw [he]; show Dict.get? (Dict.modify _ _ _) _ = _
        rw [Dict.get?_modify, if_pos rfl, hp]; rfl
      obtain ⟨fn, hp'⟩ := this
      rcases step_cases g' (.mark m name funcs pats r) with ⟨he, hx⟩ | hn'
      · rw [he]
      · rw [C60_mark_exact m g' name funcs pats r _ hp' hn' other b f, ← hg']
        rw [C60_mark_exact m g name funcs pats r p hp hn other b f]
        constructor
        · rintro (h | h)
          · exact h
          · exact Or.inr h
        · exact Or.inl

/-- Non-vacuity: a wildcard pattern marks two bins of three. -/
example :
    let m : Matchers := ⟨fun p => p == "a*", fun _ b => b.startsWith "a", fun _ _ => false⟩
    let g := (Group.new Nat true).run [.add "p" (.dict [("a1", .callable (· == 1)),
      ("a2", .callable (· == 2)), ("b", .callable (· == 3))]) none, .mark m "p" ["f"] ["a*"] true]
    Selects m ["a1", "a2", "b"] "a*" "a2" ∧ ¬ Selects m ["a1", "a2", "b"] "a*" "b" ∧
      marks g "p" "a1" = ["f"] := by
  refine ⟨?_, ?_, ?_⟩
  · exact ⟨by decide, Or.inr (Or.inl ⟨by decide, by decide, by decide +kernel⟩)⟩
  · rintro ⟨-, ⟨h, -⟩ | ⟨-, -, h⟩ | ⟨-, h, -⟩⟩
    · revert h; decide
    · revert h; decide +kernel
    · revert h; decide
  · decide +kernel

/-! ## C61 -/

/-- C61: each condition holds exactly for the values in its relation. -/
theorem C61_conditions_decide (v lo hi t : Int) (vs : List Int) :
    ((Cond.eq v).check t = true ↔ t = v) ∧ ((Cond.ne v).check t = true ↔ t ≠ v) ∧
    ((Cond.gt v).check t = true ↔ v < t) ∧ ((Cond.lt v).check t = true ↔ t < v) ∧
    ((Cond.ge v).check t = true ↔ v ≤ t) ∧ ((Cond.le v).check t = true ↔ t ≤ v) ∧
    ((Cond.isIn vs).check t = true ↔ t ∈ vs) ∧ ((Cond.notIn vs).check t = true ↔ t ∉ vs) ∧
    ((Cond.inRange lo hi).check t = true ↔ lo ≤ t ∧ t ≤ hi) := by
  simp [Cond.check]

/-- C61: complements, and the range as a conjunction. -/
theorem C61_complements (v lo hi t : Int) (vs : List Int) :
    (Cond.ne v).check t = !(Cond.eq v).check t ∧ (Cond.le v).check t = !(Cond.gt v).check t ∧
    (Cond.ge v).check t = !(Cond.lt v).check t ∧ (Cond.notIn vs).check t = !(Cond.isIn vs).check t ∧
    (Cond.inRange lo hi).check t = ((Cond.ge lo).check t && (Cond.le hi).check t) := by
  refine ⟨?_, ?_, ?_, ?_, ?_⟩
  · simp [Cond.check]
  · rw [Bool.eq_iff_iff]; simp [Cond.check]
  · rw [Bool.eq_iff_iff]; simp [Cond.check]
  · simp [Cond.check]
  · rw [Bool.eq_iff_iff]; simp [Cond.check]

/-- C61: a list of conditions in a bin is their conjunction. -/
theorem C61_list_is_conjunction (cs : List (Obs → Bool)) (o : Obs) :
    (Bin.many cs).holds o = true ↔ ∀ c ∈ cs, c o = true := by
  simp [Bin.holds]

end Toffee.FunCov
