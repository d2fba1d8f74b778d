import Verif.Props.Logger

/-! `summary()` (`toffee/logger.py` 164-176): C113. -/

namespace Toffee.Logger

/-! ## Specification -/

/-- The severities of some records in the order in which they first occur. -/
def severities (levelName : Nat → String) : List Record → List String
  | [] => []
  | r :: rs => levelName r.levelno :: (severities levelName rs).filter (· ≠ levelName r.levelno)

/-- The report on some records: one line for every severity with the number of records. -/
def report (levelName : Nat → String) (rs : List Record) : String :=
  "Log Summary\n============\n* Report counts by severity\n" ++
    String.join ((severities levelName rs).map fun n =>
      n ++ ":\t" ++ toString (rs.countP fun r => levelName r.levelno = n) ++ "\n")

/-! ## Lemmas -/

theorem mem_severities {ln : Nat → String} {rs : List Record} {n : String} :
    n ∈ severities ln rs ↔ ∃ r ∈ rs, ln r.levelno = n := by
  induction rs with
  | nil => simp [severities]
  | cons r rs ih =>
    simp only [severities, List.mem_cons, List.mem_filter, decide_eq_true_eq, ih, exists_eq_or_imp]
    constructor
    · rintro (h | ⟨h, _⟩)
      · exact .inl h.symm
      · exact .inr h
    · rintro (h | h)
      · exact .inl h.symm
      · by_cases e : n = ln r.levelno
        · exact .inl e
        · exact .inr ⟨h, e⟩

theorem severities_nodup (ln : Nat → String) (rs : List Record) : (severities ln rs).Nodup := by
  induction rs with
  | nil => exact List.nodup_nil
  | cons r rs ih =>
    refine List.nodup_cons.2 ⟨?_, ih.filter _⟩
    simp [List.mem_filter]

theorem severities_snoc (ln : Nat → String) (rs : List Record) (r : Record) :
    severities ln (rs ++ [r]) =
      if ln r.levelno ∈ severities ln rs then severities ln rs
      else severities ln rs ++ [ln r.levelno] := by
  induction rs with
  | nil => simp [severities]
  | cons a rs ih =>
    rw [List.cons_append, severities, ih, severities]
    by_cases h1 : ln r.levelno = ln a.levelno
    · have hm : ln r.levelno ∈ ln a.levelno :: (severities ln rs).filter (· ≠ ln a.levelno) := by
        rw [h1]; exact List.mem_cons_self
      rw [if_pos hm]
      by_cases h2 : ln r.levelno ∈ severities ln rs
      · rw [if_pos h2]
      · rw [if_neg h2, List.filter_append]
        simp [h1]
    · by_cases h2 : ln r.levelno ∈ severities ln rs
      · rw [if_pos h2, if_pos]
        exact List.mem_cons_of_mem _ (List.mem_filter.2 ⟨h2, by simpa using h1⟩)
      · rw [if_neg h2, if_neg]
        · simp [List.filter_append, h1]
        · rw [List.mem_cons, List.mem_filter]
          rintro (h | h)
          · exact h1 h
          · exact h2 h.1

/-- The keys of the statistics. -/
theorem severity_keys (ln : Nat → String) (ops : List Op) :
    Dict.keys (run ln init ops).severity = severities ln (accepted defaultConfig ops) := by
  suffices H : ∀ (ops : List Op) (s : State) (c : Config) (rs : List Record), Agrees s c →
      Dict.keys s.severity = severities ln rs →
      Dict.keys (run ln s ops).severity = severities ln (rs ++ accepted c ops) by
    simpa using H ops init defaultConfig [] init_agrees rfl
  intro ops
  induction ops with
  | nil => intro s c rs _ h; simpa [run, accepted] using h
  | cons op ops ih =>
    intro s c rs h hk
    have hr : run ln s (op :: ops) = run ln (step ln s op) ops := rfl
    have hst := step_agrees ln s c h op
    rw [hr]
    cases op with
    | setup l con f =>
      have : (setup s l con f).severity = s.severity := by cases con <;> cases f <;> rfl
      exact ih _ _ rs hst (this ▸ hk)
    | setLevel n => exact ih _ _ rs hst hk
    | log r =>
      rw [accepted]
      by_cases hl : c.level ≤ r.levelno
      · rw [if_pos hl, ← List.singleton_append, ← List.append_assoc]
        refine ih _ _ (rs ++ [r]) hst ?_
        show Dict.keys (emit ln s r).severity = _
        rw [(emit_spec ln s c h r).2.1, if_pos hl, severities_snoc]
        unfold bump
        rw [Dict.keys_set, hk]
      · rw [if_neg hl]
        refine ih _ _ rs hst ?_
        show Dict.keys (emit ln s r).severity = _
        rw [(emit_spec ln s c h r).2.1, if_neg hl, hk]

theorem summaryText_eq (ln : Nat → String) (ops : List Op) :
    summaryText (run ln init ops).severity = report ln (accepted defaultConfig ops) := by
  have hk := severity_keys ln ops
  have hn : (Dict.keys (run ln init ops).severity).Nodup := (C62_severity_keys ln ops).1
  unfold summaryText report
  rw [← hk]
  congr 2
  unfold Dict.keys
  rw [List.map_map]
  refine List.map_congr_left fun e he => ?_
  have h1 := C62_severity_exact ln ops e.1
  rw [Dict.get?_of_mem hn (k := e.1) (v := e.2) he] at h1
  simp only [Function.comp_apply, ← h1, Option.getD_some]

/-! ## C113 -/

/-- **C113 (partial).** After any history of logging and reconfiguration, if INFO records pass the level
in force and the level of the last `setup_logging` call, `summary()` writes to the screen (if the
console is on) and to the log file (if there is one) a report which lists every severity of the records
that passed so far exactly once, in the order of their first occurrence, with their number.  Missing:
levels above INFO, among them the default level (`C113_silent_violated`). -/
theorem C113_shown_partial (levelName : Nat → String) (ops : List Op) :
    let s := run levelName init ops
    let c := config defaultConfig ops
    let rep := report levelName (accepted defaultConfig ops)
    c.level ≤ 20 → c.setupLevel ≤ 20 →
    (c.console = true → (summary levelName s).screen = s.screen ++ [⟨20, "", rep⟩]) ∧
    (c.console = false → (summary levelName s).screen = s.screen) ∧
    ∀ f, c.file = some f →
      Dict.get? (summary levelName s).files f =
        some ((Dict.get? s.files f).getD [] ++ [⟨20, "", rep⟩]) := by
  intro s c rep h1 h2
  have h := run_agrees levelName init defaultConfig init_agrees ops
  have ht : summaryText s.severity = rep := summaryText_eq levelName ops
  unfold summary
  rw [ht]
  obtain ⟨-, -, e2, e3⟩ := emit_spec levelName s c h ⟨20, none, rep⟩
  refine ⟨fun hc => ?_, fun hc => ?_, fun f hf => ?_⟩
  · rw [e2, if_pos ⟨h1, hc, h2⟩]
    rfl
  · rw [e2, if_neg (by simp [hc]), List.append_nil]
  · rw [e3, hf]
    simp only []
    rw [if_pos ⟨h1, h2⟩, Dict.get?_set_self]
    cases c.console <;> rfl

/-- **C113 (violated).** At a level above INFO, for instance after the import of toffee whatever is logged,
`summary()` does nothing. -/
theorem C113_silent_violated (levelName : Nat → String) :
    (∀ ops : List Op, 20 < (config defaultConfig ops).level →
      summary levelName (run levelName init ops) = run levelName init ops) ∧
    ∀ rs : List Record, 20 < (config defaultConfig (rs.map .log)).level := by
  constructor
  · intro ops hl
    have h := run_agrees levelName init defaultConfig init_agrees ops
    unfold summary emit
    rw [h.level, if_neg]
    show ¬ (config defaultConfig ops).level ≤ 20
    omega
  · intro rs
    have : ∀ c, config c (rs.map .log) = c := by
      intro c
      induction rs with
      | nil => rfl
      | cons r rs ih => exact ih
    rw [this]
    decide

/-- The case of `C113_shown_partial`. -/
example :
    let ln := fun n => if n = 40 then "ERROR" else if n = 30 then "WARNING" else "INFO"
    let ops := [Op.log ⟨40, none, "a"⟩, .log ⟨20, none, "lost"⟩, .setup 20 true (some "f"),
      .log ⟨30, some "x", "b"⟩, .log ⟨40, none, "c"⟩, .setLevel 40, .log ⟨30, none, "lost"⟩, .setLevel 0]
    (config defaultConfig ops).level = 20 ∧ (config defaultConfig ops).setupLevel = 20 ∧
    (summary ln (run ln init ops)).screen.getLast? = some ⟨20, "",
      "Log Summary\n============\n* Report counts by severity\nERROR:\t2\nWARNING:\t1\n"⟩ := by
  decide +kernel

end Toffee.Logger
