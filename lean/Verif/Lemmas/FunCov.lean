import Verif.Model.FunCov
import Verif.Lemmas.Dict

namespace Toffee.FunCov
variable {Obs : Type}

/-! ### Bins -/

theorem ofList_nodup {ν : Type} (l : List (String × ν)) : (Dict.keys (ofList l)).Nodup := by
  suffices h : ∀ d : Dict String ν, (Dict.keys d).Nodup →
      (Dict.keys (l.foldl (fun d e => Dict.set d e.1 e.2) d)).Nodup from h [] (by simp [Dict.keys])
  induction l with
  | nil => intro d h; exact h
  | cons e l ih => intro d h; exact ih _ (Dict.nodup_set h _ _)

theorem mapM_keys {ν μ : Type} {f : ν → Option μ} {d : Dict String ν} {d' : Dict String μ}
    (h : d.mapM (fun e => (f e.2).map fun b => (e.1, b)) = some d') : Dict.keys d' = Dict.keys d := by
  induction d generalizing d' with
  | nil => simp at h; subst h; rfl
  | cons e d ih =>
    simp only [List.mapM_cons, Option.bind_eq_bind, Option.pure_def] at h
    cases hf : f e.2 with
    | none => simp [hf] at h
    | some b =>
      cases hd : d.mapM (fun e => (f e.2).map fun b => (e.1, b)) with
      | none => simp [hf, hd] at h
      | some d'' =>
        simp [hf, hd] at h
        subst h
        simp only [Dict.keys, List.map_cons]
        exact congrArg _ (ih hd)

theorem validate_nodup {r : RawBins Obs} {bs : Dict String (Bin Obs)} (h : r.validate = some bs) :
    (Dict.keys bs).Nodup := by
  cases r with
  | invalid => simp [RawBins.validate] at h
  | callable c => simp [RawBins.validate] at h; subst h; simp [Dict.keys]
  | dict es =>
    simp only [RawBins.validate] at h
    rw [mapM_keys (f := RawBin.validate) h]
    exact ofList_nodup es

theorem keys_zeroHints (bs : Dict String (Bin Obs)) : Dict.keys (zeroHints bs) = Dict.keys bs := by
  simp [zeroHints, Dict.keys, Function.comp_def]

theorem get?_zeroHints {bs : Dict String (Bin Obs)} {k : String} (h : k ∈ Dict.keys bs) :
    Dict.get? (zeroHints bs) k = some 0 := by
  rw [zeroHints, Dict.get?_map (f := fun _ => 0)]
  cases hg : Dict.get? bs k with
  | none => exact absurd h (Dict.get?_eq_none.1 hg)
  | some b => rfl

/-! ### The check of one point -/

theorem checkLoop_spec (o : Obs) (once : Bool) (bins : Dict String (Bin Obs))
    (hb : (Dict.keys bins).Nodup) (hints : Dict String Nat)
    (hs : ∀ k ∈ Dict.keys bins, k ∈ Dict.keys hints) (hd on : Bool) :
    Dict.keys (checkLoop o once bins hints hd on).1 = Dict.keys hints ∧
    (∀ k, Dict.get? (checkLoop o once bins hints hd on).1 k =
      match Dict.get? bins k with
      | some b => some ((Dict.get? hints k).getD 0 + if b.holds o then 1 else 0)
      | none => Dict.get? hints k) ∧
    ((checkLoop o once bins hints hd on).2.1 = true ↔ hd = true ∧ ∀ e ∈ bins,
      0 < (Dict.get? hints e.1).getD 0 + if e.2.holds o then 1 else 0) ∧
    ((checkLoop o once bins hints hd on).2.2 = true ↔
      on = true ∧ (bins = [] ∨ ((checkLoop o once bins hints hd on).2.1 = true ∧ once = true))) := by
  induction bins generalizing hints hd on with
  | nil => simp [checkLoop, Dict.get?]
  | cons e rest ih =>
    obtain ⟨k, b⟩ := e
    have hb' := hb
    simp only [Dict.keys, List.map_cons, List.nodup_cons] at hb
    have hk : k ∈ Dict.keys hints := hs k (by simp [Dict.keys])
    have key : ∀ v, Dict.keys (Dict.set hints k v) = Dict.keys hints :=
      fun v => Dict.keys_set_of_mem hk
    simp only [checkLoop]
    generalize hh : (Dict.get? hints k).getD 0 + (if b.holds o then 1 else 0) = h
    have := ih hb.2 (Dict.set hints k h)
      (by intro j hj; rw [key]; exact hs j (List.mem_cons_of_mem _ hj))
      (if h = 0 then false else hd)
      (if !((if h = 0 then false else hd) && once) then false else on)
    obtain ⟨h1, h2, h3, h4⟩ := this
    have hrest : ∀ e ∈ rest, Dict.get? (Dict.set hints k h) e.1 = Dict.get? hints e.1 := by
      intro e he
      apply Dict.get?_set_ne
      rintro rfl
      exact hb.1 (List.mem_map.2 ⟨e, he, rfl⟩)
    refine ⟨by rw [h1, key], ?_, ?_, ?_⟩
    · intro j
      rw [h2 j]
      by_cases hj : k = j
      · subst hj
        rw [Dict.get?_eq_none.2 hb.1]
        simp [Dict.get?, Dict.get?_set_self, hh]
      · simp only [Dict.get?, hj, if_false, Dict.get?_set_ne hints hj]
    · rw [h3]
      simp only [List.mem_cons, forall_eq_or_imp, hh]
      constructor
      · rintro ⟨ha, hc⟩
        by_cases h0 : h = 0
        · simp [h0] at ha
        · simp [h0] at ha
          exact ⟨ha, by omega, fun e he => by rw [← hrest e he]; exact hc e he⟩
      · rintro ⟨ha, hp, hc⟩
        have h0 : h ≠ 0 := by omega
        simp only [h0, if_false]
        exact ⟨ha, fun e he => by rw [hrest e he]; exact hc e he⟩
    · rw [h4]
      simp only [List.cons_ne_nil, false_or]
      generalize hhd : (if h = 0 then false else hd) = hd1 at h3 h4 ⊢
      generalize hr : (checkLoop o once rest (Dict.set hints k h) hd1
        (if !(hd1 && once) then false else on)).2.1 = r at h3 h4 ⊢
      cases rest with
      | nil =>
        simp [checkLoop] at hr
        subst hr
        cases hd1 <;> cases once <;> cases on <;> simp
      | cons e' rest' =>
        cases hd1 <;> cases once <;> cases on <;> cases r <;> simp at h3 ⊢

/-- A point record that can occur: distinct bins, and one counter per bin. -/
structure Point.Wf (p : Point Obs) : Prop where
  nodup : (Dict.keys p.bins).Nodup
  keys : Dict.keys p.hints = Dict.keys p.bins

theorem check_bins (p : Point Obs) (o : Obs) : (p.check o).1.bins = p.bins := rfl
theorem check_once (p : Point Obs) (o : Obs) : (p.check o).1.once = p.once := rfl
theorem check_functions (p : Point Obs) (o : Obs) : (p.check o).1.functions = p.functions := rfl
theorem check_hinted (p : Point Obs) (o : Obs) : (p.check o).2.1 = (p.check o).1.hinted := rfl

theorem check_wf {p : Point Obs} (h : p.Wf) (o : Obs) : (p.check o).1.Wf := by
  refine ⟨h.nodup, ?_⟩
  have := (checkLoop_spec o p.once p.bins h.nodup p.hints (by rw [h.keys]; simp) true true).1
  show Dict.keys (checkLoop o p.once p.bins p.hints true true).1 = _
  rw [this, h.keys]; rfl

theorem check_hint {p : Point Obs} (h : p.Wf) (o : Obs) {k : String} {b : Bin Obs}
    (hb : Dict.get? p.bins k = some b) :
    Dict.get? (p.check o).1.hints k =
      some ((Dict.get? p.hints k).getD 0 + if b.holds o then 1 else 0) := by
  have := (checkLoop_spec o p.once p.bins h.nodup p.hints (by rw [h.keys]; simp) true true).2.1 k
  rw [hb] at this
  exact this

theorem check_hinted_iff {p : Point Obs} (h : p.Wf) (o : Obs) :
    (p.check o).1.hinted = true ↔ ∀ e ∈ p.bins,
      0 < (Dict.get? p.hints e.1).getD 0 + if e.2.holds o then 1 else 0 := by
  have := (checkLoop_spec o p.once p.bins h.nodup p.hints (by rw [h.keys]; simp) true true).2.2.1
  exact this.trans (by simp)

theorem check_onece_iff {p : Point Obs} (h : p.Wf) (o : Obs) :
    (p.check o).2.2 = true ↔ (p.bins = [] ∨ ((p.check o).1.hinted = true ∧ p.once = true)) := by
  have := (checkLoop_spec o p.once p.bins h.nodup p.hints (by rw [h.keys]; simp) true true).2.2.2
  exact this.trans (by simp; rfl)

/-! ### The sample loop -/

theorem sampleLoop_spec (o : Obs) (ps : Dict String (Point Obs)) (ah ao : Bool) :
    (sampleLoop o ps ah ao).1 = ps.map (fun e => (e.1, (e.2.check o).1)) ∧
    ((sampleLoop o ps ah ao).2.1 = true ↔ ah = true ∧ ∀ e ∈ ps, (e.2.check o).1.hinted = true) ∧
    ((sampleLoop o ps ah ao).2.2 = true ↔ ao = true ∧ ∀ e ∈ ps, (e.2.check o).2.2 = true) := by
  induction ps generalizing ah ao with
  | nil => simp [sampleLoop]
  | cons e rest ih =>
    obtain ⟨k, p⟩ := e
    simp only [sampleLoop]
    obtain ⟨h1, h2, h3⟩ := ih (if !(p.check o).2.1 then false else ah)
      (if !(p.check o).2.2 then false else ao)
    refine ⟨by rw [h1]; rfl, ?_, ?_⟩
    · rw [h2]
      simp only [List.mem_cons, forall_eq_or_imp, ← check_hinted p o]
      cases (p.check o).2.1 <;> simp
    · rw [h3]
      simp only [List.mem_cons, forall_eq_or_imp]
      cases (p.check o).2.2 <;> simp

theorem get?_sampleLoop (o : Obs) (ps : Dict String (Point Obs)) (name : String) :
    Dict.get? (sampleLoop o ps true true).1 name =
      (Dict.get? ps name).map fun p => (p.check o).1 := by
  rw [(sampleLoop_spec o ps true true).1]
  exact Dict.get?_map ps (fun p : Point Obs => (p.check o).1) name

theorem sample_stopped {g : Group Obs} (h : g.sampleStoped = true) (o : Obs) :
    g.sample o = { g with sampleCalln := g.sampleCalln + 1 } := by
  simp only [Group.sampleStoped] at h
  unfold Group.sample
  by_cases hs : g.stopSample = true
  · simp [hs]
  · simp [hs] at h
    simp [hs, h]

theorem sample_live {g : Group Obs} (h : g.sampleStoped = false) (o : Obs) :
    g.sample o = { g with
      points := (sampleLoop o g.points true true).1
      hinted := (sampleLoop o g.points true true).2.1
      allOnce := (sampleLoop o g.points true true).2.2
      sampleCount := g.sampleCount + 1
      sampleCalln := g.sampleCalln + 1 } := by
  simp only [Group.sampleStoped] at h
  unfold Group.sample
  by_cases hs : g.stopSample = true
  · simp [hs] at h
  · have hs' : g.stopSample = false := by simpa using hs
    have h2 : (g.hinted && g.allOnce) = false := by simpa [hs'] using h
    simp only [hs', h2, Bool.false_eq_true, if_false]

/-! ### Group invariant -/

/-- Invariant of every reachable group. -/
structure Group.Wf (g : Group Obs) : Prop where
  nodup : (Dict.keys g.points).Nodup
  points : ∀ e ∈ g.points, e.2.Wf
  hinted : g.hinted = true → ∀ e ∈ g.points, e.2.hinted = true

theorem new_wf (d : Bool) : (Group.new Obs d).Wf :=
  ⟨by simp [Group.new, Dict.keys], by simp [Group.new], by simp [Group.new]⟩

theorem mem_modify {ν : Type} {d : Dict String ν} {k : String} {f : ν → ν} {e : String × ν}
    (h : e ∈ Dict.modify d k f) : e ∈ d ∨ ∃ v, (k, v) ∈ d ∧ e = (k, f v) := by
  induction d with
  | nil => cases h
  | cons a d ih =>
    obtain ⟨k', v'⟩ := a
    simp only [Dict.modify] at h
    by_cases hk : k' = k
    · simp only [hk, if_true] at h
      rcases List.mem_cons.1 h with h | h
      · right; exact ⟨v', by simp [hk], h⟩
      · left; exact List.mem_cons_of_mem _ h
    · simp only [hk, if_false] at h
      rcases List.mem_cons.1 h with h | h
      · left; rw [h]; exact List.mem_cons_self
      · rcases ih h with h | ⟨v, hv, he⟩
        · left; exact List.mem_cons_of_mem _ h
        · right; exact ⟨v, List.mem_cons_of_mem _ hv, he⟩

theorem mem_del {ν : Type} {d : Dict String ν} {k : String} {e : String × ν}
    (h : e ∈ Dict.del d k) : e ∈ d := by
  induction d with
  | nil => cases h
  | cons a d ih =>
    obtain ⟨k', v'⟩ := a
    simp only [Dict.del] at h
    by_cases hk : k' = k
    · simp only [hk, if_true] at h; exact List.mem_cons_of_mem _ h
    · simp only [hk, if_false] at h
      rcases List.mem_cons.1 h with h | h
      · rw [h]; exact List.mem_cons_self
      · exact List.mem_cons_of_mem _ (ih h)

theorem step_cases (g : Group Obs) (op : Op Obs) :
    ((g.step op).1 = g ∧ (g.step op).2.isSome) ∨ (g.step op).2 = none := by
  cases op <;> simp only [Group.step]
  all_goals first
    | (right; trivial)
    | (unfold Group.step.lift; split <;> simp)

/-- The accepted `add_watch_point`. -/
theorem step_add {g : Group Obs} {key : String} {bins : RawBins Obs} {once : Option Bool}
    (h : (g.step (.add key bins once)).2 = none) :
    key ∉ Dict.keys g.points ∧ ∃ bs, bins.validate = some bs ∧
      (g.step (.add key bins once)).1 = { g with
        points := g.points ++ [(key, ⟨bs, zeroHints bs, false, once.getD g.disable, []⟩)]
        hinted := false } := by
  simp only [Group.step, Group.add] at h ⊢
  by_cases hk : Dict.has g.points key = true
  · simp [hk, Group.step.lift] at h
  · have hk' : Dict.has g.points key = false := by simpa using hk
    have hkm : key ∉ Dict.keys g.points := fun hm => hk (Dict.has_iff.2 hm)
    cases hv : bins.validate with
    | none => simp [hk', hv, Group.step.lift] at h
    | some bs =>
      refine ⟨hkm, bs, rfl, ?_⟩
      simp [hk', Group.step.lift, Dict.set_of_not_mem hkm]

theorem step_del {g : Group Obs} {name : String} (h : (g.step (.del name)).2 = none) :
    name ∈ Dict.keys g.points ∧
      (g.step (.del name)).1 = { g with points := Dict.del g.points name } := by
  simp only [Group.step, Group.delPoint] at h ⊢
  by_cases hk : Dict.has g.points name = true
  · exact ⟨Dict.has_iff.1 hk, by simp [hk, Group.step.lift]⟩
  · have hk' : Dict.has g.points name = false := by simpa using hk
    simp [hk', Group.step.lift] at h

theorem step_reset {g : Group Obs} {name : String} (h : (g.step (.reset name)).2 = none) :
    name ∈ Dict.keys g.points ∧ (g.step (.reset name)).1 = { g with
      points := Dict.modify g.points name
        fun p => { p with hints := zeroHints p.bins, hinted := false }
      hinted := false } := by
  simp only [Group.step, Group.resetPoint] at h ⊢
  by_cases hk : Dict.has g.points name = true
  · exact ⟨Dict.has_iff.1 hk, by simp [hk, Group.step.lift]⟩
  · have hk' : Dict.has g.points name = false := by simpa using hk
    simp [hk', Group.step.lift] at h

/-- `mark_function` only touches the function marks of one point. -/
theorem step_mark (g : Group Obs) (m : Matchers) (name : String) (fs ps : List String) (r : Bool) :
    ∃ f : Dict String (List String) → Dict String (List String),
      (g.step (.mark m name fs ps r)).1 = { g with
        points := Dict.modify g.points name fun p => { p with functions := f p.functions } } := by
  have hid : g = { g with
      points := Dict.modify g.points name fun p => { p with functions := id p.functions } } := by
    have : Dict.modify g.points name (fun p => { p with functions := id p.functions }) = g.points := by
      generalize g.points = d
      induction d with
      | nil => rfl
      | cons e d ih =>
        obtain ⟨k, v⟩ := e
        by_cases hk : k = name
        · simp [Dict.modify, hk]
        · simp only [Dict.modify, hk, if_false]; exact congrArg _ ih
    rw [this]
  simp only [Group.step, Group.mark]
  cases hp : Dict.get? g.points name with
  | none => cases r <;> exact ⟨id, by simpa [Group.step.lift] using hid⟩
  | some p =>
    dsimp only
    split
    · exact ⟨id, by simpa [Group.step.lift] using hid⟩
    · split
      · exact ⟨id, by simpa [Group.step.lift] using hid⟩
      · exact ⟨fun d => List.foldl (markBin fs) d
          (List.map (m.select (Dict.keys p.bins)) ps).flatten.eraseDups, rfl⟩

theorem step_wf {g : Group Obs} (h : g.Wf) (op : Op Obs) : (g.step op).1.Wf := by
  rcases step_cases g op with ⟨he, -⟩ | hn
  · rw [he]; exact h
  cases op with
  | add key bins once =>
    obtain ⟨hk, bs, hbs, he⟩ := step_add hn
    rw [he]
    refine ⟨?_, ?_, by simp⟩
    · simp only [Dict.keys, List.map_append, List.map_cons, List.map_nil]
      rw [List.nodup_append]
      refine ⟨h.nodup, by simp, ?_⟩
      intro a ha b hb
      simp at hb; subst hb
      rintro rfl; exact hk ha
    · intro e he
      rcases List.mem_append.1 he with he | he
      · exact h.points e he
      · simp at he; subst he
        exact ⟨validate_nodup hbs, keys_zeroHints bs⟩
  | del name =>
    obtain ⟨-, he⟩ := step_del hn
    rw [he]
    exact ⟨Dict.nodup_del h.nodup _, fun e he => h.points e (mem_del he),
      fun hh e he => h.hinted hh e (mem_del he)⟩
  | reset name =>
    obtain ⟨-, he⟩ := step_reset hn
    rw [he]
    refine ⟨by rw [Dict.keys_modify]; exact h.nodup, ?_, by simp⟩
    intro e he
    rcases mem_modify he with he | ⟨v, hv, rfl⟩
    · exact h.points e he
    · exact ⟨(h.points _ hv).nodup, keys_zeroHints _⟩
  | sample o =>
    simp only [Group.step]
    cases hs : g.sampleStoped with
    | true =>
      rw [sample_stopped hs]; exact ⟨h.nodup, h.points, h.hinted⟩
    | false =>
      rw [sample_live hs]
      obtain ⟨h1, h2, -⟩ := sampleLoop_spec o g.points true true
      refine ⟨?_, ?_, ?_⟩
      · rw [h1]; simpa [Dict.keys, Function.comp_def] using h.nodup
      · rw [h1]
        intro e he
        obtain ⟨e', he', rfl⟩ := List.mem_map.1 he
        exact check_wf (h.points e' he') o
      · intro hh e he
        dsimp only at hh he
        rw [h1] at he
        obtain ⟨e', he', rfl⟩ := List.mem_map.1 he
        exact (h2.1 hh).2 e' he'
  | setStop b => exact ⟨h.nodup, h.points, h.hinted⟩
  | callStop => exact ⟨h.nodup, h.points, h.hinted⟩
  | resume => exact ⟨h.nodup, h.points, h.hinted⟩
  | clear => exact new_wf g.disable
  | mark m name fs ps r =>
    obtain ⟨f, he⟩ := step_mark g m name fs ps r
    rw [he]
    refine ⟨by rw [Dict.keys_modify]; exact h.nodup, ?_, ?_⟩
    · intro e he
      rcases mem_modify he with he | ⟨v, hv, rfl⟩
      · exact h.points e he
      · exact ⟨(h.points _ hv).nodup, (h.points _ hv).keys⟩
    · intro hh e he
      rcases mem_modify he with he | ⟨v, hv, rfl⟩
      · exact h.hinted hh e he
      · exact h.hinted hh (name, v) hv

theorem run_wf {g : Group Obs} (h : g.Wf) (ops : List (Op Obs)) : (g.run ops).Wf := by
  induction ops generalizing g with
  | nil => exact h
  | cons op ops ih => exact ih (step_wf h op)

end Toffee.FunCov
