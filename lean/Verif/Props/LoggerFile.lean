import Verif.Props.Logger

/-! The statistics by id and the log file (`toffee/logger.py` 30-42, 139-143): C71, C72. -/

namespace Toffee.Logger

/-! ## C71 -/

/-- The name under which the id of a record is counted: the id; `default` for an empty id and
`default_id` for a missing one. -/
def CountsAs (r : Record) (x : String) : Prop :=
  (r.logId = some x ∧ x ≠ "") ∨ (r.logId = some "" ∧ x = "default") ∨
    (r.logId = none ∧ x = "default_id")

instance (r : Record) (x : String) : Decidable (CountsAs r x) := by
  unfold CountsAs
  exact inferInstance

theorem idKey_iff (r : Record) (x : String) : idKey r.logId = x ↔ CountsAs r x := by
  unfold CountsAs idKey
  cases h : r.logId with
  | none => simp [eq_comm]
  | some y =>
    by_cases hy : y = ""
    · subst hy
      simp [eq_comm]
    · simp only [Option.some.injEq, hy, false_and, or_false, reduceCtorEq]
      exact ⟨fun h => ⟨h, h ▸ hy⟩, fun h => h.1⟩

/-- Handlers other than the statistics do not count ids. -/
theorem emit_ids (ln : Nat → String) (s : State) (c : Config) (h : Agrees s c) (r : Record) :
    (emit ln s r).ids = if c.level ≤ r.levelno then bump s.ids (idKey r.logId) else s.ids := by
  obtain ⟨lvl, sl, con, file⟩ := c
  obtain ⟨h1, -, h2, h3⟩ := h
  dsimp only at h1 h3
  unfold emit
  rw [h1]
  by_cases hl : lvl ≤ r.levelno
  · rw [if_pos hl, h2]
    cases con with
    | true =>
      have hsl := h3 rfl
      by_cases hs : sl ≤ r.levelno <;> cases file <;>
        simp [handlersOf, handle, List.foldl, hsl, hs, hl, format]
    | false =>
      by_cases hs : sl ≤ r.levelno <;> cases file <;>
        simp [handlersOf, handle, List.foldl, hs, hl, format]
  · rw [if_neg hl, if_neg hl]

/-- C71: the count of every id is the number of records with this id logged at or above the level in
force, over every history of logging and reconfiguration. -/
theorem C71_ids_exact (levelName : Nat → String) (ops : List Op) (x : String) :
    (Dict.get? (run levelName init ops).ids x).getD 0 =
      (accepted defaultConfig ops).countP fun r => CountsAs r x := by
  suffices H : ∀ (ops : List Op) (s : State) (c : Config), Agrees s c →
      (Dict.get? (run levelName s ops).ids x).getD 0 =
        (Dict.get? s.ids x).getD 0 + (accepted c ops).countP fun r => decide (CountsAs r x) by
    rw [H ops init defaultConfig init_agrees]; simp [init, setup, Dict.get?]
  intro ops
  induction ops with
  | nil => intro s c _; simp [run, accepted]
  | cons op ops ih =>
    intro s c h
    have hr : run levelName s (op :: ops) = run levelName (step levelName s op) ops := rfl
    rw [hr, ih _ _ (step_agrees levelName s c h op)]
    cases op with
    | setup l con f =>
      simp only [step, config, accepted]
      have : (setup s l con f).ids = s.ids := by cases con <;> cases f <;> rfl
      rw [this]
    | setLevel n => rfl
    | log r =>
      simp only [step, config, accepted]
      rw [emit_ids levelName s c h r]
      by_cases hl : c.level ≤ r.levelno
      · simp only [hl, if_true, bump_get, List.countP_cons, decide_eq_true_eq, idKey_iff]; omega
      · simp [hl]

/-- Non-vacuity: three records, one below the level. -/
example :
    let ops := [Op.log ⟨40, none, "a"⟩, .log ⟨20, some "x", "b"⟩, .log ⟨40, some "x", "c"⟩, .log ⟨40, some "", "d"⟩]
    (run (fun _ => "E") init ops).ids = [("default_id", 1), ("x", 1), ("default", 1)] := by decide

/-! ## C72 -/

/-- No `setup_logging` call. -/
def NoSetup (ops : List Op) : Prop := ∀ l c f, Op.setup l c f ∉ ops

/-- What an output tells of a record besides the id. -/
def shown (l : Line) : Nat × String := (l.levelno, l.msg)

/-- C72: after `setup_logging(l, con, log_file=f)`, whatever happened before, and until the next such
call, the file `f` holds exactly the records that passed the level, once each and in order, and no other
file changes. -/
theorem C72_file (levelName : Nat → String) (before after : List Op) (l : Nat) (con : Bool) (f : String)
    (hn : NoSetup after) :
    let s := run levelName init before
    let s' := run levelName init (before ++ .setup l con (some f) :: after)
    ((Dict.get? s'.files f).map fun ls => ls.map shown) =
      some (((accepted ⟨l, l, con, some f⟩ after).filter fun r => decide (l ≤ r.levelno)).map
        fun r => (r.levelno, r.msg)) ∧
    ∀ g, g ≠ f → Dict.get? s'.files g = Dict.get? s.files g := by
  have hrun : run levelName init (before ++ .setup l con (some f) :: after) =
      run levelName (setup (run levelName init before) l con (some f)) after := by
    simp [run, step]
  simp only [hrun]
  generalize run levelName init before = s0
  have key : ∀ (ops : List Op) (s : State) (lvl : Nat) (ls : List Line), NoSetup ops →
      Agrees s ⟨lvl, l, con, some f⟩ → Dict.get? s.files f = some ls →
      ((Dict.get? (run levelName s ops).files f).map fun ls => ls.map shown) =
        some (ls.map shown ++ ((accepted ⟨lvl, l, con, some f⟩ ops).filter
          fun r => decide (l ≤ r.levelno)).map fun r => (r.levelno, r.msg)) ∧
      ∀ g, g ≠ f → Dict.get? (run levelName s ops).files g = Dict.get? s.files g := by
    intro ops
    induction ops with
    | nil => intro s lvl ls _ _ hf; simp [run, accepted, hf]
    | cons op ops ih =>
      intro s lvl ls hn h hf
      have hn' : NoSetup ops := fun a b c hm => hn a b c (List.mem_cons_of_mem _ hm)
      have hr : run levelName s (op :: ops) = run levelName (step levelName s op) ops := rfl
      rw [hr]
      have hst := step_agrees levelName s _ h op
      cases op with
      | setup a b c => exact absurd List.mem_cons_self (hn a b c)
      | setLevel n => exact ih _ (if n = 0 then l else n) ls hn' hst hf
      | log r =>
        obtain ⟨_, _, _, h4⟩ := emit_spec levelName s _ h r
        dsimp only at h4
        have hshow : ∀ r' : Record, r'.levelno = r.levelno → r'.msg = r.msg →
            shown (format r').1 = (r.levelno, r.msg) := by
          intro r' e1 e2
          simp [shown, format, e1, e2]
        by_cases hp : lvl ≤ r.levelno ∧ l ≤ r.levelno
        · rw [if_pos hp] at h4
          have hfr : shown (format (if con = true then (format r).2 else r)).1 = (r.levelno, r.msg) := by
            apply hshow
            · split <;> rfl
            · split <;> rfl
          have hf' : Dict.get? (step levelName s (.log r)).files f =
              some (ls ++ [(format (if con = true then (format r).2 else r)).1]) := by
            show Dict.get? (emit levelName s r).files f = _
            rw [h4, Dict.get?_set_self, hf]
            rfl
          obtain ⟨h5, h6⟩ := ih _ lvl _ hn' hst hf'
          refine ⟨?_, fun g hg => ?_⟩
          · rw [h5]
            simp [accepted, hp.1, hp.2, hfr]
          · rw [h6 g hg]
            show Dict.get? (emit levelName s r).files g = _
            rw [h4, Dict.get?_set_ne _ (Ne.symm hg)]
        · rw [if_neg hp] at h4
          have hf' : Dict.get? (step levelName s (.log r)).files f = some ls := by
            show Dict.get? (emit levelName s r).files f = _
            rw [h4, hf]
          obtain ⟨h5, h6⟩ := ih _ lvl _ hn' hst hf'
          refine ⟨?_, fun g hg => ?_⟩
          · rw [h5]
            by_cases hl : lvl ≤ r.levelno
            · have : ¬ l ≤ r.levelno := fun h => hp ⟨hl, h⟩
              simp [accepted, hl, this]
            · simp [accepted, hl]
          · rw [h6 g hg]
            show Dict.get? (emit levelName s r).files g = _
            rw [h4]
  have hf0 : Dict.get? (setup s0 l con (some f)).files f = some [] := by
    cases con <;> simp [setup, Dict.get?_set_self]
  obtain ⟨h1, h2⟩ := key after _ l [] hn (setup_agrees s0 l con (some f)) hf0
  refine ⟨by simpa using h1, fun g hg => ?_⟩
  rw [h2 g hg]
  cases con <;> simp [setup, Dict.get?_set_ne _ (Ne.symm hg)]

/-- Non-vacuity: the file is used a second time. -/
example :
    let ops := [Op.setup 20 true (some "f"), .log ⟨20, none, "a"⟩, .setup 30 true (some "f"),
      .log ⟨20, none, "b"⟩, .log ⟨30, none, "c"⟩]
    (Dict.get? (run (fun _ => "W") init ops).files "f").map (·.map shown) = some [(30, "c")] := by decide

end Toffee.Logger
