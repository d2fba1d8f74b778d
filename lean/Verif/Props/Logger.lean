import Verif.Model.Logger
import Verif.Lemmas.Dict

/-! Properties C62-C64 of `toffee/logger.py`. -/

namespace Toffee.Logger

/-! ## Specification -/

/-- The configuration in force, from the history alone: the level, and the arguments of the last
`setup_logging` call.  `setLevel(0)` goes back to the level of that call. -/
structure Config where
  level : Nat
  setupLevel : Nat
  console : Bool
  file : Option String

def config (c : Config) : List Op → Config
  | [] => c
  | .setup l con f :: ops => config ⟨l, l, con, f⟩ ops
  | .setLevel n :: ops => config { c with level := if n = 0 then c.setupLevel else n } ops
  | .log _ :: ops => config c ops

/-- The configuration after import: `setup_logging()` with its defaults. -/
def defaultConfig : Config := ⟨30, 30, true, none⟩

/-- The records of a history that were logged at or above the level in force. -/
def accepted (c : Config) : List Op → List Record
  | [] => []
  | .log r :: ops => if c.level ≤ r.levelno then r :: accepted c ops else accepted c ops
  | .setup l con f :: ops => accepted ⟨l, l, con, f⟩ ops
  | .setLevel n :: ops => accepted { c with level := if n = 0 then c.setupLevel else n } ops

/-- The handlers that a configuration stands for. -/
def handlersOf (c : Config) : List Handler :=
  [.stats] ++ (if c.console then [.screen] else []) ++
    (match c.file with | none => [] | some f => [.file f c.setupLevel])

/-- The model state agrees with the configuration. -/
structure Agrees (s : State) (c : Config) : Prop where
  level : s.effective = c.level
  root : s.root = c.setupLevel
  handlers : s.handlers = handlersOf c
  screenLevel : c.console = true → s.screenLevel = c.setupLevel

theorem setup_agrees (s : State) (l : Nat) (con : Bool) (f : Option String) :
    Agrees (setup s l con f) ⟨l, l, con, f⟩ := by
  have he : ∀ s : State, s.level = l → s.root = l → s.effective = l := by
    intro s h1 h2
    unfold State.effective
    split
    · exact h2
    · exact h1
  cases con <;> cases f <;> exact ⟨he _ rfl rfl, rfl, rfl, by simp [setup]⟩

theorem init_agrees : Agrees init defaultConfig := setup_agrees _ _ _ _

/-- What one accepted record does, by configuration. -/
theorem emit_spec (ln : Nat → String) (s : State) (c : Config) (h : Agrees s c) (r : Record) :
    Agrees (emit ln s r) c ∧
    (emit ln s r).severity = (if c.level ≤ r.levelno then bump s.severity (ln r.levelno) else s.severity) ∧
    (emit ln s r).screen = s.screen ++
      (if c.level ≤ r.levelno ∧ c.console = true ∧ c.setupLevel ≤ r.levelno then [(format r).1] else []) ∧
    (emit ln s r).files =
      (match c.file with
       | none => s.files
       | some f =>
         if c.level ≤ r.levelno ∧ c.setupLevel ≤ r.levelno then
           Dict.set s.files f ((Dict.get? s.files f).getD [] ++
             [(format (if c.console then (format r).2 else r)).1])
         else s.files) := by
  obtain ⟨lvl, sl, con, file⟩ := c
  obtain ⟨h1, h0, h2, h3⟩ := h
  dsimp only at h0 h1 h3
  have h1' := h1
  unfold emit
  rw [h1]
  by_cases hl : lvl ≤ r.levelno
  · rw [if_pos hl, h2]
    unfold State.effective at h1'
    rw [h0] at h1'
    cases con with
    | true =>
      have hsl := h3 rfl
      by_cases hs : sl ≤ r.levelno <;> cases file <;>
        refine ⟨⟨?_, ?_, ?_, ?_⟩, ?_, ?_, ?_⟩ <;>
        simp [handlersOf, handle, List.foldl, hsl, hs, hl, format, h1', h0, h2, State.effective]
    | false =>
      by_cases hs : sl ≤ r.levelno <;> cases file <;>
        refine ⟨⟨?_, ?_, ?_, ?_⟩, ?_, ?_, ?_⟩ <;>
        simp [handlersOf, handle, List.foldl, hs, hl, format, h1', h0, h2, State.effective]
  · rw [if_neg hl]
    refine ⟨⟨h1, h0, h2, h3⟩, by simp [hl], by simp [hl], ?_⟩
    cases file <;> simp [hl]

theorem step_agrees (ln : Nat → String) (s : State) (c : Config) (h : Agrees s c) (op : Op) :
    Agrees (step ln s op) (config c [op]) := by
  cases op with
  | setup l con f => exact setup_agrees s l con f
  | log r => exact (emit_spec ln s c h r).1
  | setLevel n =>
    refine ⟨?_, h.root, h.handlers, h.screenLevel⟩
    show (if n = 0 then s.root else n) = if n = 0 then c.setupLevel else n
    rw [h.root]

theorem config_append (c : Config) (a b : List Op) : config c (a ++ b) = config (config c a) b := by
  induction a generalizing c with
  | nil => rfl
  | cons op a ih => cases op <;> simp only [List.cons_append, config] <;> exact ih _

theorem run_agrees (ln : Nat → String) (s : State) (c : Config) (h : Agrees s c) (ops : List Op) :
    Agrees (run ln s ops) (config c ops) := by
  induction ops generalizing s c with
  | nil => exact h
  | cons op ops ih =>
    have := ih (step ln s op) (config c [op]) (step_agrees ln s c h op)
    rwa [← config_append] at this

/-! ## C62 -/

theorem bump_get (d : Dict String Nat) (k j : String) :
    (Dict.get? (bump d k) j).getD 0 = (Dict.get? d j).getD 0 + (if k = j then 1 else 0) := by
  unfold bump
  by_cases h : k = j
  · subst h; simp [Dict.get?_set_self]
  · simp [Dict.get?_set_ne d h, h]

/-- C62: the reported count of every severity is the number of records of that severity logged at or
above the level in force, over every history of logging and reconfiguration. -/
theorem C62_severity_exact (levelName : Nat → String) (ops : List Op) (name : String) :
    (Dict.get? (run levelName init ops).severity name).getD 0 =
      (accepted defaultConfig ops).countP fun r => levelName r.levelno = name := by
  suffices H : ∀ (ops : List Op) (s : State) (c : Config), Agrees s c →
      (Dict.get? (run levelName s ops).severity name).getD 0 =
        (Dict.get? s.severity name).getD 0 +
        (accepted c ops).countP fun r => decide (levelName r.levelno = name) by
    rw [H ops init defaultConfig init_agrees]; simp [init, setup, Dict.get?]
  intro ops
  induction ops with
  | nil => intro s c _; simp [run, accepted]
  | cons op ops ih =>
    intro s c h
    have hr : run levelName s (op :: ops) = run levelName (step levelName s op) ops := rfl
    rw [hr, ih _ _ (step_agrees levelName s c h op)]
    cases op with
    | setup l con f =>
      simp only [step, config, accepted]
      have : (setup s l con f).severity = s.severity := by cases con <;> cases f <;> rfl
      rw [this]
    | setLevel n => rfl
    | log r =>
      simp only [step, config, accepted]
      rw [(emit_spec levelName s c h r).2.1]
      by_cases hl : c.level ≤ r.levelno
      · simp only [hl, if_true, bump_get, List.countP_cons, decide_eq_true_eq]; omega
      · simp [hl]

/-- C62: only severities that occurred are reported, and each is reported once. -/
theorem C62_severity_keys (levelName : Nat → String) (ops : List Op) :
    (Dict.keys (run levelName init ops).severity).Nodup ∧
    ∀ name, name ∈ Dict.keys (run levelName init ops).severity ↔
      ∃ r ∈ accepted defaultConfig ops, levelName r.levelno = name := by
  suffices H : ∀ (ops : List Op) (s : State) (c : Config), Agrees s c →
      (Dict.keys s.severity).Nodup →
      (Dict.keys (run levelName s ops).severity).Nodup ∧
      ∀ name, name ∈ Dict.keys (run levelName s ops).severity ↔
        (name ∈ Dict.keys s.severity ∨ ∃ r ∈ accepted c ops, levelName r.levelno = name) by
    have := H ops init defaultConfig init_agrees (by simp [init, setup, Dict.keys])
    refine ⟨this.1, fun name => (this.2 name).trans ?_⟩
    simp [init, setup, Dict.keys]
  intro ops
  induction ops with
  | nil => intro s c _ hn; simp [run, accepted, hn]
  | cons op ops ih =>
    intro s c h hn
    have hr : run levelName s (op :: ops) = run levelName (step levelName s op) ops := rfl
    rw [hr]
    have hstep := ih (step levelName s op) _ (step_agrees levelName s c h op)
    cases op with
    | setup l con f =>
      have : (setup s l con f).severity = s.severity := by cases con <;> cases f <;> rfl
      simp only [step, this] at hstep
      exact hstep hn
    | setLevel n => exact hstep hn
    | log r =>
      simp only [step, config, (emit_spec levelName s c h r).2.1] at hstep
      by_cases hl : c.level ≤ r.levelno
      · simp only [hl, if_true] at hstep
        obtain ⟨ha, hb⟩ := hstep (Dict.nodup_set hn _ _)
        refine ⟨ha, fun name => (hb name).trans ?_⟩
        simp only [accepted, hl, if_true, List.mem_cons, exists_eq_or_imp]
        unfold bump
        rw [Dict.keys_set]
        split
        · rename_i hm
          constructor
          · rintro (h | h)
            · exact Or.inl h
            · exact Or.inr (Or.inr h)
          · rintro (h | h | h)
            · exact Or.inl h
            · exact Or.inl (h ▸ hm)
            · exact Or.inr h
        · simp only [List.mem_append, List.mem_singleton, or_assoc, eq_comm]
      · simp only [hl, if_false] at hstep
        simpa only [accepted, hl, if_false, step] using hstep hn

/-- Non-vacuity: three records, one below the level; a reconfiguration in between. -/
example :
    let ops := [Op.log ⟨40, none, "a"⟩, .log ⟨20, none, "b"⟩, .setup 10 false (some "f"), .log ⟨20, some "x", "c"⟩]
    accepted defaultConfig ops = [⟨40, none, "a"⟩, ⟨20, some "x", "c"⟩] ∧
    (run (fun n => if n = 40 then "ERROR" else "INFO") init ops).severity = [("ERROR", 1), ("INFO", 1)] := by
  decide

/-! ## C63 -/

/-- C63: after any history, logging one record adds exactly one to the statistics if its level is
enabled, shows it exactly once on screen iff the last `setup_logging` call asked for the console (and
the level passes), adds exactly one line to the file of the last call, and changes no other file. -/
theorem C63_each_record_once (levelName : Nat → String) (ops : List Op) (r : Record) :
    let s := run levelName init ops
    let c := config defaultConfig ops
    let s' := step levelName s (.log r)
    (∀ name, (Dict.get? s'.severity name).getD 0 = (Dict.get? s.severity name).getD 0 +
      (if c.level ≤ r.levelno ∧ levelName r.levelno = name then 1 else 0)) ∧
    s'.screen.length = s.screen.length +
      (if c.level ≤ r.levelno ∧ c.console = true ∧ c.setupLevel ≤ r.levelno then 1 else 0) ∧
    (∀ f, ((Dict.get? s'.files f).getD []).length = ((Dict.get? s.files f).getD []).length +
      (if c.level ≤ r.levelno ∧ c.file = some f ∧ c.setupLevel ≤ r.levelno then 1 else 0)) := by
  have h := run_agrees levelName init defaultConfig init_agrees ops
  generalize run levelName init ops = s at h
  generalize config defaultConfig ops = c at h
  obtain ⟨-, h1, h2, h3⟩ := emit_spec levelName s c h r
  dsimp only [step]
  refine ⟨fun name => ?_, ?_, fun f => ?_⟩
  · rw [h1]
    by_cases hl : c.level ≤ r.levelno
    · simp [hl, bump_get]
    · simp [hl]
  · rw [h2]; split <;> simp
  · rw [h3]
    cases hf : c.file with
    | none => simp
    | some g =>
      dsimp only
      by_cases hc : c.level ≤ r.levelno ∧ c.setupLevel ≤ r.levelno
      · rw [if_pos hc]
        by_cases hg : g = f
        · subst hg; simp [Dict.get?_set_self, hc]
        · simp [Dict.get?_set_ne _ hg, hg]
      · rw [if_neg hc]
        have : ¬(c.level ≤ r.levelno ∧ some g = some f ∧ c.setupLevel ≤ r.levelno) :=
          fun h => hc ⟨h.1, h.2.2⟩
        rw [if_neg this]; rfl

/-- C63: the configuration in force only depends on the last `setup_logging` call. -/
theorem C63_last_setup_wins (c : Config) (ops : List Op) (l : Nat) (con : Bool) (f : Option String)
    (rs : List Record) :
    config c (ops ++ [.setup l con f] ++ rs.map .log) = ⟨l, l, con, f⟩ := by
  rw [config_append, config_append]
  simp only [config]
  induction rs with
  | nil => rfl
  | cons r rs ih => exact ih

/-- Non-vacuity: two setups with console and file, then one record: counted once, shown once. -/
example :
    let ops := [Op.setup 20 true (some "a"), .setup 20 true (some "a"), .log ⟨20, none, "m"⟩]
    let s := run (fun _ => "INFO") init ops
    s.severity = [("INFO", 1)] ∧ s.screen.length = 1 ∧ (Dict.get? s.files "a").map List.length = some 1 := by
  decide

/-! ## C64 -/

/-- C64 (violated): with console and file output, the file shows the id wrapped twice. -/
theorem C64_id_display_violated :
    ∃ (ops : List Op) (r : Record),
      r.logId = some "x" ∧
      let s := step (fun _ => "INFO") (run (fun _ => "INFO") init ops) (.log r)
      (s.screen.getLast?.map (·.idText)) = some "(id: x)" ∧
      ((Dict.get? s.files "f").bind (·.getLast?)).map (·.idText) = some "(id: (id: x))" :=
  ⟨[.setup 20 true (some "f")], ⟨20, some "x", "m"⟩, rfl, by decide +kernel⟩

/-- C64 (partial): the screen always shows the id as given, and so does the file when there is no
console output.  Missing: the file when both outputs are on (false, see `C64_id_display_violated`). -/
theorem C64_id_display_partial (levelName : Nat → String) (ops : List Op) (r : Record) (x : String)
    (hx : r.logId = some x) (hne : x ≠ "") :
    let s := run levelName init ops
    let c := config defaultConfig ops
    let s' := step levelName s (.log r)
    (c.level ≤ r.levelno → c.console = true → c.setupLevel ≤ r.levelno →
      s'.screen = s.screen ++ [⟨r.levelno, "(id: " ++ x ++ ")", r.msg⟩]) ∧
    (∀ f, c.level ≤ r.levelno → c.console = false → c.file = some f → c.setupLevel ≤ r.levelno →
      Dict.get? s'.files f =
        some ((Dict.get? s.files f).getD [] ++ [⟨r.levelno, "(id: " ++ x ++ ")", r.msg⟩])) := by
  have h := run_agrees levelName init defaultConfig init_agrees ops
  generalize run levelName init ops = s at h
  generalize config defaultConfig ops = c at h
  obtain ⟨-, h1, h2, h3⟩ := emit_spec levelName s c h r
  have hfmt : (format r).1 = ⟨r.levelno, "(id: " ++ x ++ ")", r.msg⟩ := by
    simp [format, hx, hne]
  dsimp only [step]
  refine ⟨fun a b d => ?_, fun f a b d e => ?_⟩
  · rw [h2, if_pos ⟨a, b, d⟩, hfmt]
  · rw [h3, d]
    dsimp only
    rw [if_pos ⟨a, e⟩, Dict.get?_set_self, b]
    simp only [Bool.false_eq_true, if_false, hfmt]

/-- C64: a record without id shows no id text, on every output. -/
theorem C64_no_id (levelName : Nat → String) (ops : List Op) (r : Record)
    (hx : r.logId = none ∨ r.logId = some "") :
    let s := run levelName init ops
    let s' := step levelName s (.log r)
    (∀ l ∈ s'.screen, l ∈ s.screen ∨ l = ⟨r.levelno, "", r.msg⟩) ∧
    (∀ f, ∀ l ∈ (Dict.get? s'.files f).getD [],
      l ∈ (Dict.get? s.files f).getD [] ∨ l = ⟨r.levelno, "", r.msg⟩) := by
  have h := run_agrees levelName init defaultConfig init_agrees ops
  generalize run levelName init ops = s at h
  generalize config defaultConfig ops = c at h
  obtain ⟨-, h1, h2, h3⟩ := emit_spec levelName s c h r
  have hfmt : (format r).1 = ⟨r.levelno, "", r.msg⟩ := by
    rcases hx with hx | hx <;> simp [format, hx]
  have hfmt2 : (format (if c.console then (format r).2 else r)).1 = ⟨r.levelno, "", r.msg⟩ := by
    cases c.console
    · exact hfmt
    · rcases hx with hx | hx <;> simp [format, hx]
  dsimp only [step]
  refine ⟨fun l hl => ?_, fun f l hl => ?_⟩
  · rw [h2] at hl
    rcases List.mem_append.1 hl with hl | hl
    · exact Or.inl hl
    · split at hl
      · right; rw [List.mem_singleton.1 hl, hfmt]
      · cases hl
  · rw [h3] at hl
    cases hf : c.file with
    | none => rw [hf] at hl; exact Or.inl hl
    | some g =>
      rw [hf] at hl
      dsimp only at hl
      split at hl
      · by_cases hg : g = f
        · subst hg
          rw [Dict.get?_set_self] at hl
          rcases List.mem_append.1 hl with hl | hl
          · exact Or.inl hl
          · right; rw [List.mem_singleton.1 hl, hfmt2]
        · rw [Dict.get?_set_ne _ hg] at hl; exact Or.inl hl
      · exact Or.inl hl

end Toffee.Logger
