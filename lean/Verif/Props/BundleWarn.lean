import Verif.Model.BundleWarn
import Verif.Props.BundleTree
import Verif.Lemmas.BundleAgain

/-!
What `bind` reports (C90), what `from_dict` reports (C91) and `from_prefix` with a DUT (C92).
-/

namespace Toffee.Bundle

/-! ### Specification -/

/-- The slot holds no pin. -/
def Slot.open : Slot → Bool
  | .pin _ => false
  | _ => true

/-- The slots of the bound bundle `b` without a pin, in the order of `all_signals`, with the path
and the rule string that `all_signals_rule` of the bundle computes for them (`none` if it raises). -/
def openSlots (name : Name) (b : Bundle) : List (Name × Option Name) :=
  (((b.rules true name [] name).zip (b.allSignals name)).filter fun x => x.2.2.open).map Prod.fst

mutual
/-- In every level at most one element of the signal lists has no pin. -/
def Bundle.OneOpen : Bundle → Prop
  | .mk _ lv _ ks => (lv.lists.flatMap Prod.snd).countP (fun e => e.2.open) ≤ 1 ∧ Kids.OneOpen ks
def Kids.OneOpen : Kids → Prop
  | .nil => True
  | .cons _ b ks => Bundle.OneOpen b ∧ Kids.OneOpen ks
end

/-! ### One level -/

/-- `name` and element names of the signal lists. -/
def Level.listHeads (lv : Level) : List (Name × List Name) := lv.lists.map fun l => (l.1, l.2.map Prod.fst)

theorem setElem_listHeads (ls : List (Name × List (Name × Slot))) (l i : Nat) (s : Slot) :
    (setElem ls l i s).map (fun l => (l.1, l.2.map Prod.fst)) =
      ls.map fun l => (l.1, l.2.map Prod.fst) := by
  unfold setElem
  apply List.ext_getElem?
  intro j
  simp only [List.getElem?_map, List.getElem?_modify]
  split
  · cases hj : ls[j]? with
    | none => rfl
    | some e => simp only [Option.map_eq_map, Option.map_some, modify_map_fst]
  · cases ls[j]? <;> rfl

theorem connectOne_listHeads (r : Rule) (a : Acc) (s : Sig) :
    (connectOne r a s).lvl.listHeads = a.lvl.listHeads := by
  unfold connectOne
  cases r.strip s.name with
  | none => rfl
  | some m =>
    simp only
    cases a.lvl.find m with
    | none => rfl
    | some p =>
      cases p with
      | sig n => rfl
      | elem l i => exact setElem_listHeads _ _ _ _

theorem connect_listHeads (r : Rule) (lv : Level) (c : Option Nat) (sigs : List Sig) :
    (connect r lv c sigs).lvl.listHeads = lv.listHeads := by
  unfold connect
  suffices h : ∀ a : Acc, (sigs.foldl (connectOne r) a).lvl.listHeads = a.lvl.listHeads from h _
  intro a
  induction sigs generalizing a with
  | nil => rfl
  | cons s ss ih => exact (ih _).trans (connectOne_listHeads r a s)

theorem missing_listHeads (access : Bool) (con : List Name) (lv : Level) :
    (missing access con lv).listHeads = lv.listHeads := by
  unfold missing
  split
  · simp only [Level.listHeads, List.map_map]
    apply List.map_congr_left
    intro l _
    simp only [Function.comp, List.map_map, Prod.mk.injEq, true_and]
    apply List.map_congr_left
    intro e _
    simp only [Function.comp]
    split <;> rfl
  · rfl

/-- After the level has been bound a slot holds a pin iff its name was recorded as connected. -/
theorem level_open (access : Bool) (r : Rule) (lv : Level) (c : Option Nat) (sigs : List Sig)
    (hd : lv.names.Nodup) (hf : ∀ p q, lv.slot p ≠ some (.pin q)) (p : Pos) (n : Name) (s : Slot)
    (hn : lv.nameOf p = some n)
    (hs : (missing access (connect r lv c sigs).connected (connect r lv c sigs).lvl).slot p = some s) :
    s.open = true ↔ n ∉ (connect r lv c sigs).connected := by
  have hc := connect_spec r lv sigs { lvl := lv, clock := c } rfl
  have hcon : n ∈ (connect r lv c sigs).connected ↔
      ∃ t ∈ sigs, hit r lv t = some p := by
    have h1 : n ∈ (connect r lv c sigs).connected ↔
        n ∈ [] ∨ ∃ t ∈ sigs, r.strip t.name = some n ∧ (lv.find n).isSome := hc.connected n
    rw [h1]
    have hfind := Level.find_of_name hd hn
    constructor
    · rintro (h | ⟨t, ht, h2, _⟩)
      · cases h
      · exact ⟨t, ht, by simp [hit, h2, hfind]⟩
    · rintro ⟨t, ht, h2⟩
      refine .inr ⟨t, ht, ?_, by rw [hfind]; rfl⟩
      unfold hit at h2
      cases hr : r.strip t.name with
      | none => rw [hr] at h2; cases h2
      | some m =>
        rw [hr] at h2
        have h3 := Level.find_name (show lv.find m = some p from h2)
        rw [hn] at h3
        exact h3.symm
  have hname : (connect r lv c sigs).lvl.nameOf p = some n := (nameOf_shape hc.shape p).trans hn
  have hslot := hc.slot p
  by_cases hm : n ∈ (connect r lv c sigs).connected
  · have h4 : (missing access (connect r lv c sigs).connected (connect r lv c sigs).lvl).slot p =
        (connect r lv c sigs).lvl.slot p := by
      cases access with
      | false => rw [missing_false]
      | true => rw [missing_slot _ _ _ _ hname, if_pos hm]
    rw [h4] at hs
    rcases hslot with ⟨t, ht, h5, h6⟩ | ⟨h5, _⟩
    · have h6 : (connect r lv c sigs).lvl.slot p = some (.pin t.pin) := h6
      rw [h6] at hs
      cases hs
      simp [Slot.open, hm]
    · obtain ⟨t, ht, h6⟩ := hcon.1 hm
      exact absurd h6 (h5 t ht)
  · have h5 : s.open = true := by
      cases access with
      | true =>
        rw [missing_slot _ _ _ _ hname, if_neg hm] at hs
        cases hs
        rfl
      | false =>
        rw [missing_false] at hs
        rcases hslot with ⟨t, ht, h5, _⟩ | ⟨_, h6⟩
        · exact absurd (hcon.2 ⟨t, ht, h5⟩) hm
        · have h6 : (connect r lv c sigs).lvl.slot p = lv.slot p := h6
          rw [h6] at hs
          cases s with
          | pin q => exact absurd hs (hf p q)
          | _ => rfl
    simp [h5, hm]

theorem nameOf_elem {lv : Level} {l i : Nat} {e : Name × List (Name × Slot)} {x : Name × Slot}
    (hl : lv.lists[l]? = some e) (hi : e.2[i]? = some x) :
    lv.nameOf (.elem l i) = some x.1 ∧ lv.slot (.elem l i) = some x.2 := by
  simp [Level.nameOf, Level.slot, hl, hi]

/-- The part of `openSlots` for one signal list. -/
def listOpen (con : List Name) (level name : Name) (txt : Name → Option Name) :
    Nat → List (Name × Slot) → List (Name × Option Name)
  | _, [] => []
  | i, e :: es =>
    if e.1 ∈ con then listOpen con level name txt (i + 1) es
    else (appended level (indexed name i), txt e.1) :: listOpen con level name txt (i + 1) es

theorem listOpen_zip (con : List Name) (level name : Name) (txt : Name → Option Name) (i : Nat) (es es' : List (Name × Slot))
    (hn : es.map Prod.fst = es'.map Prod.fst)
    (ho : ∀ e ∈ es', (e.2.open = true ↔ e.1 ∉ con)) :
    (((listRules level name txt i es).zip (listSlots level name i es')).filter
      fun x => x.2.2.open).map Prod.fst = listOpen con level name txt i es := by
  induction es generalizing i es' with
  | nil => cases es' <;> simp [listRules, listOpen]
  | cons e es ih =>
    cases es' with
    | nil => simp at hn
    | cons e' es' =>
      rw [List.map_cons, List.map_cons, List.cons.injEq] at hn
      have h1 := ho e' List.mem_cons_self
      have h2 := ih (i + 1) es' hn.2 fun x hx => ho x (List.mem_cons_of_mem _ hx)
      rw [listRules, listSlots, listOpen, List.zip_cons_cons, List.filter_cons]
      rw [hn.1]
      by_cases hc : e'.1 ∈ con
      · have : e'.2.open = false := by
          cases h : e'.2.open with
          | false => rfl
          | true => exact absurd hc (h1.1 h)
        simp only [this, if_pos hc]
        exact h2
      · rw [if_neg hc]
        simp only [h1.2 hc, if_true, List.map_cons, h2]

theorem listRules_length (level name : Name) (txt : Name → Option Name) (i : Nat) (es : List (Name × Slot)) :
    (listRules level name txt i es).length = es.length := by
  induction es generalizing i with
  | nil => rfl
  | cons e es ih => simp [listRules, ih]

theorem listSlots_length (level name : Name) (i : Nat) (es : List (Name × Slot)) :
    (listSlots level name i es).length = es.length := by
  induction es generalizing i with
  | nil => rfl
  | cons e es ih => simp [listSlots, ih]

theorem listRules_paths (level name : Name) (txt : Name → Option Name) (i : Nat) (es es' : List (Name × Slot))
    (h : es.length = es'.length) :
    (listRules level name txt i es).map Prod.fst = (listSlots level name i es').map Prod.fst := by
  induction es generalizing i es' with
  | nil => cases es' with
    | nil => rfl
    | cons => simp at h
  | cons e es ih =>
    cases es' with
    | nil => simp at h
    | cons e' es' =>
      rw [listRules, listSlots, List.map_cons, List.map_cons, ih _ es' (by simpa using h)]

theorem lists_zip (con : List Name) (level : Name) (txt : Name → Option Name) (ls ls' : List (Name × List (Name × Slot)))
    (hn : ls.map (fun l => (l.1, l.2.map Prod.fst)) = ls'.map fun l => (l.1, l.2.map Prod.fst))
    (ho : ∀ l ∈ ls', ∀ e ∈ l.2, (e.2.open = true ↔ e.1 ∉ con)) :
    (ls.flatMap fun l => listRules level l.1 txt 0 l.2).map Prod.fst =
      (ls'.flatMap fun l => listSlots level l.1 0 l.2).map Prod.fst ∧
    (((ls.flatMap fun l => listRules level l.1 txt 0 l.2).zip
        (ls'.flatMap fun l => listSlots level l.1 0 l.2)).filter
      fun x => x.2.2.open).map Prod.fst = ls.flatMap fun l => listOpen con level l.1 txt 0 l.2 := by
  induction ls generalizing ls' with
  | nil => cases ls' with
    | nil => simp
    | cons => simp at hn
  | cons l ls ih =>
    cases ls' with
    | nil => simp at hn
    | cons l' ls' =>
      rw [List.map_cons, List.map_cons, List.cons.injEq, Prod.mk.injEq] at hn
      obtain ⟨i1, i2⟩ := ih ls' hn.2 fun x hx => ho x (List.mem_cons_of_mem _ hx)
      have hlen : l.2.length = l'.2.length := by
        have := congrArg List.length hn.1.2
        simpa using this
      simp only [List.flatMap_cons, List.map_append]
      refine ⟨by rw [i1, ← hn.1.1, listRules_paths level l.1 txt 0 l.2 l'.2 hlen], ?_⟩
      rw [List.zip_append (by rw [listRules_length, listSlots_length, hlen]), List.filter_append,
        List.map_append, i2, ← hn.1.1,
        listOpen_zip con level l.1 txt 0 l.2 l'.2 hn.1.2 (ho l' List.mem_cons_self)]

theorem signals_zip (con : List Name) (level : Name) (txt : Name → Option Name) (cs cs' : List Cell)
    (hn : cs.map Cell.name = cs'.map Cell.name)
    (ho : ∀ c ∈ cs', (c.slot.open = true ↔ c.name ∉ con)) :
    (((cs.map fun c => (appended level c.name, txt c.name)).zip
        (cs'.map fun c => (appended level c.name, c.slot))).filter
      fun x => x.2.2.open).map Prod.fst =
    (cs.filter fun c => c.name ∉ con).map fun c => (appended level c.name, txt c.name) := by
  induction cs generalizing cs' with
  | nil => simp
  | cons c cs ih =>
    cases cs' with
    | nil => simp at hn
    | cons c' cs' =>
      rw [List.map_cons, List.map_cons, List.cons.injEq] at hn
      have h1 := ho c' List.mem_cons_self
      have h2 := ih cs' hn.2 fun x hx => ho x (List.mem_cons_of_mem _ hx)
      rw [List.map_cons, List.map_cons, List.zip_cons_cons, List.filter_cons, List.filter_cons, hn.1]
      by_cases hc : c'.name ∈ con
      · have : c'.slot.open = false := by
          cases h : c'.slot.open with
          | false => rfl
          | true => exact absurd hc (h1.1 h)
        simp only [this, hc, not_true_eq_false, decide_false, Bool.false_eq_true, if_false]
        exact h2
      · simp only [h1.2 hc, hc, not_false_eq_true, decide_true, if_true, List.map_cons, hn.1]
        rw [← h2]

/-- The list warnings name the right rules … -/
theorem listWarn_rules (con : List Name) (name : Name) (txt : Name → Option Name) (i : Nat) (es : List (Name × Slot))
    (level level' : Name) : (listWarn con name txt i es level).1.map Prod.snd =
      (listOpen con level' name txt i es).map Prod.snd := by
  induction es generalizing i level with
  | nil => rfl
  | cons e es ih =>
    rw [listWarn, listOpen]
    split
    · exact ih _ _
    · simp only [List.map_cons, ih]

theorem listsWarn_rules (con : List Name) (txt : Name → Option Name) (ls : List (Name × List (Name × Slot)))
    (level level' : Name) : (listsWarn con txt ls level).map Prod.snd =
      (ls.flatMap fun l => listOpen con level' l.1 txt 0 l.2).map Prod.snd := by
  induction ls generalizing level with
  | nil => rfl
  | cons l ls ih =>
    rw [listsWarn, List.flatMap_cons, List.map_append, List.map_append,
      listWarn_rules con l.1 txt 0 l.2 level level', ih]

/-- … and the right paths, as long as only one element is missing. -/
theorem listWarn_paths (con : List Name) (name : Name) (txt : Name → Option Name) (i : Nat) (es : List (Name × Slot))
    (level : Name) (h : es.countP (fun e => e.1 ∉ con) ≤ 1) :
    (listWarn con name txt i es level).1 = listOpen con level name txt i es ∧
    (es.countP (fun e => e.1 ∉ con) = 0 →
      listWarn con name txt i es level = ([], level)) := by
  induction es generalizing i with
  | nil => exact ⟨rfl, fun _ => rfl⟩
  | cons e es ih =>
    rw [listWarn, listOpen]
    by_cases hc : e.1 ∈ con
    · rw [if_pos hc, if_pos hc]
      have he : (e :: es).countP (fun e => e.1 ∉ con) = es.countP (fun e => e.1 ∉ con) := by
        rw [List.countP_cons_of_neg (by simpa using hc)]
      rw [he] at h ⊢
      exact ih _ h
    · rw [if_neg hc, if_neg hc]
      have he : (e :: es).countP (fun e => e.1 ∉ con) = es.countP (fun e => e.1 ∉ con) + 1 := by
        rw [List.countP_cons_of_pos (by simpa using hc)]
      rw [he] at h ⊢
      have h0 : es.countP (fun e => e.1 ∉ con) = 0 := by omega
      refine ⟨?_, by omega⟩
      have key : ∀ (es : List (Name × Slot)) (j : Nat) (lev : Name),
          es.countP (fun e => e.1 ∉ con) = 0 → listWarn con name txt j es lev = ([], lev) ∧
            listOpen con level name txt j es = [] := by
        intro es
        induction es with
        | nil => exact fun _ _ _ => ⟨rfl, rfl⟩
        | cons x xs ihx =>
          intro j lev hx
          have hx1 : x.1 ∈ con := by
            have := List.countP_eq_zero.1 hx x List.mem_cons_self
            simpa using this
          rw [List.countP_cons_of_neg (by simpa using hx1)] at hx
          rw [listWarn, listOpen, if_pos hx1, if_pos hx1]
          exact ihx _ _ hx
      simp only [(key es (i + 1) _ h0).1, (key es (i + 1) level h0).2]

theorem listsWarn_paths (con : List Name) (txt : Name → Option Name) (ls : List (Name × List (Name × Slot)))
    (level : Name) (h : (ls.flatMap Prod.snd).countP (fun e => e.1 ∉ con) ≤ 1) :
    listsWarn con txt ls level = ls.flatMap fun l => listOpen con level l.1 txt 0 l.2 := by
  have zero : ∀ (ls : List (Name × List (Name × Slot))) (lev : Name),
      (ls.flatMap Prod.snd).countP (fun e => e.1 ∉ con) = 0 →
      listsWarn con txt ls lev = [] ∧ (ls.flatMap fun l => listOpen con level l.1 txt 0 l.2) = [] := by
    intro ls
    induction ls with
    | nil => exact fun _ _ => ⟨rfl, rfl⟩
    | cons l ls ih =>
      intro lev hz
      rw [List.flatMap_cons, List.countP_append] at hz
      have h1 := (listWarn_paths con l.1 txt 0 l.2 lev (by omega)).2 (by omega)
      have h2 := listWarn_paths con l.1 txt 0 l.2 level (by omega)
      have h3 := ih lev (by omega)
      rw [listsWarn, h1, List.flatMap_cons, h3.2, ← h2.1, h2.2 (by omega)]
      exact ⟨by simp [h3.1], rfl⟩
  induction ls with
  | nil => rfl
  | cons l ls ih =>
    rw [List.flatMap_cons, List.countP_append] at h
    have h1 := listWarn_paths con l.1 txt 0 l.2 level (by omega)
    rw [listsWarn, List.flatMap_cons]
    by_cases hz : l.2.countP (fun e => e.1 ∉ con) = 0
    · rw [← h1.1, h1.2 hz]
      exact ih (by omega)
    · have hz' : (ls.flatMap Prod.snd).countP (fun e => e.1 ∉ con) = 0 := by omega
      simp only [h1.1, (zero ls _ hz').1, (zero ls level hz').2]

/-! ### The tree -/

theorem openSlots_append {a a' : List (Name × Option Name)} {c c' : List (Name × Slot)}
    (h : a.length = c.length) :
    (((a ++ a').zip (c ++ c')).filter fun x => x.2.2.open).map Prod.fst =
      ((a.zip c).filter fun x => x.2.2.open).map Prod.fst ++
        ((a'.zip c').filter fun x => x.2.2.open).map Prod.fst := by
  rw [List.zip_append h, List.filter_append, List.map_append]

theorem length_of_paths {a : List (Name × Option Name)} {c : List (Name × Slot)}
    (h : a.map Prod.fst = c.map Prod.fst) : a.length = c.length := by
  have := congrArg List.length h
  simpa using this

/-- What is known about one level after the bind. -/
structure LevelBound (con : List Name) (lv lv' : Level) : Prop where
  names : lv.signals.map Cell.name = lv'.signals.map Cell.name
  heads : lv.lists.map (fun l => (l.1, l.2.map Prod.fst)) =
    lv'.lists.map fun l => (l.1, l.2.map Prod.fst)
  cells : ∀ c ∈ lv'.signals, (c.slot.open = true ↔ c.name ∉ con)
  elems : ∀ l ∈ lv'.lists, ∀ e ∈ l.2, (e.2.open = true ↔ e.1 ∉ con)

theorem level_bound (access : Bool) (r : Rule) (lv : Level) (c : Option Nat) (sigs : List Sig)
    (hd : lv.names.Nodup) (hf : ∀ p q, lv.slot p ≠ some (.pin q)) :
    LevelBound (connect r lv c sigs).connected lv
      (missing access (connect r lv c sigs).connected (connect r lv c sigs).lvl) := by
  have hsh : (missing access (connect r lv c sigs).connected (connect r lv c sigs).lvl).shape =
      lv.shape := (missing_shape _ _ _).trans (connect_same r rfl c c sigs).2.2.2.1
  have hop := level_open access r lv c sigs hd hf
  have hhd : (missing access (connect r lv c sigs).connected (connect r lv c sigs).lvl).listHeads =
      lv.listHeads := (missing_listHeads _ _ _).trans (connect_listHeads _ _ _ _)
  generalize hg : missing access (connect r lv c sigs).connected (connect r lv c sigs).lvl = lv'
    at hsh hop hhd
  have hd' : lv'.names.Nodup := names_shape hsh ▸ hd
  refine ⟨(congrArg Prod.fst hsh).symm, hhd.symm, ?_, ?_⟩
  · intro x hx
    refine hop (.sig x.name) x.name x.slot ?_ (slot_of_cell hd' hx)
    rw [← nameOf_shape hsh]
    simp only [Level.nameOf]
    rw [if_pos (List.mem_map_of_mem hx)]
  · intro l hl e he
    obtain ⟨j, hj⟩ := List.getElem?_of_mem hl
    obtain ⟨i, hi⟩ := List.getElem?_of_mem he
    obtain ⟨h1, h2⟩ := nameOf_elem hj hi
    exact hop (.elem j i) e.1 e.2 ((nameOf_shape hsh _).symm.trans h1) h2

theorem countP_heads {con : List Name} {lv lv' : Level} (h : LevelBound con lv lv') :
    (lv.lists.flatMap Prod.snd).countP (fun e => e.1 ∉ con) =
      (lv'.lists.flatMap Prod.snd).countP fun e => e.2.open := by
  have h1 : (lv'.lists.flatMap Prod.snd).countP (fun e => e.2.open) =
      (lv'.lists.flatMap Prod.snd).countP fun e => e.1 ∉ con := by
    apply List.countP_congr
    intro e he
    obtain ⟨l, hl, he⟩ := List.mem_flatMap.1 he
    rw [h.elems l hl e he]
    simp
  rw [h1]
  have h2 : ∀ ls : List (Name × List (Name × Slot)),
      (ls.flatMap Prod.snd).countP (fun e => e.1 ∉ con) =
        ((ls.map fun l => (l.1, l.2.map Prod.fst)).flatMap Prod.snd).countP fun n => n ∉ con := by
    intro ls
    induction ls with
    | nil => rfl
    | cons l ls ih =>
      simp only [List.map_cons, List.flatMap_cons, List.countP_append, List.countP_map, ih]
      rfl
  rw [h2, h2, h.heads]

mutual
theorem warn_open (access : Bool) : ∀ (b : Bundle) (level : Name) (st : Stack) (nm : Name) (sigs : List Sig),
    b.Distinct → b.Fresh →
    (b.rules true level st nm).map Prod.fst = ((b.bindList access sigs).1.allSignals level).map Prod.fst ∧
    (b.warn level st nm sigs).map Prod.snd = ((((b.rules true level st nm).zip
      ((b.bindList access sigs).1.allSignals level)).filter fun x => x.2.2.open).map
        Prod.fst).map Prod.snd ∧
    ((b.bindList access sigs).1.OneOpen → b.warn level st nm sigs = (((b.rules true level st nm).zip
      ((b.bindList access sigs).1.allSignals level)).filter fun x => x.2.2.open).map Prod.fst)
  | .mk r lv c ks, level, st, nm, sigs, hd, hf => by
    obtain ⟨hd, hdk⟩ := hd
    obtain ⟨hf, hfk⟩ := hf
    have hb := level_bound access r lv c sigs hd hf
    have hk := kidsWarn_open access ks level (st ++ [(.mk r lv c ks, nm)]) (connect r lv c sigs).matching
      (connect r lv c sigs).clock hdk hfk
    rw [Bundle.rules, Bundle.warn, Bundle.bindList, levelWarn]
    simp only [Bundle.allSignals]
    have hcount := countP_heads hb
    generalize missing access (connect r lv c sigs).connected (connect r lv c sigs).lvl = lv'
      at hb hcount ⊢
    generalize (connect r lv c sigs).connected = con at hb hcount ⊢
    generalize st ++ [(Bundle.mk r lv c ks, nm)] = st' at hk ⊢
    generalize ruleText st' = txt
    have hl := lists_zip con level txt lv.lists lv'.lists hb.heads hb.elems
    have hs := signals_zip con level txt lv.signals lv'.signals hb.names hb.cells
    have hlen : lv.signals.length = lv'.signals.length := by
      have := congrArg List.length hb.names
      simpa using this
    have hmap1 : ((lv.signals.map fun c => (appended level c.name, txt c.name)) ++
        lv.lists.flatMap fun l => listRules level l.1 txt 0 l.2).map Prod.fst =
        ((lv'.signals.map fun c => (appended level c.name, c.slot)) ++
          lv'.lists.flatMap fun l => listSlots level l.1 0 l.2).map Prod.fst := by
      rw [List.map_append, List.map_append, hl.1, List.map_map, List.map_map]
      have h0 : ∀ cs : List Cell, cs.map (fun c => appended level c.name) =
          (cs.map Cell.name).map (appended level) := fun cs => by rw [List.map_map]; rfl
      have h1 := (h0 lv.signals).trans ((congrArg _ hb.names).trans (h0 lv'.signals).symm)
      exact congrArg (· ++ _) h1
    have hlen1 := length_of_paths hmap1
    refine ⟨by rw [List.map_append, hmap1, hk.1, ← List.map_append], ?_, ?_⟩
    · rw [openSlots_append hlen1, openSlots_append (by simp [hlen]), hl.2, hs]
      simp only [List.map_append]
      rw [hk.2.1, listsWarn_rules con txt lv.lists level level]
    · intro ho
      rw [openSlots_append hlen1, openSlots_append (by simp [hlen]), hl.2, hs, hk.2.2 ho.2,
        listsWarn_paths con txt lv.lists level (by rw [hcount]; exact ho.1)]
theorem kidsWarn_open (access : Bool) : ∀ (ks : Kids) (level : Name) (st : Stack) (sigs : List Sig)
    (c : Option Nat), ks.Distinct → ks.Fresh →
    (ks.rules true level st).map Prod.fst =
      ((ks.bindList access sigs c).1.allSignals level).map Prod.fst ∧
    (ks.warn level st sigs).map Prod.snd = ((((ks.rules true level st).zip
      ((ks.bindList access sigs c).1.allSignals level)).filter fun x => x.2.2.open).map
        Prod.fst).map Prod.snd ∧
    ((ks.bindList access sigs c).1.OneOpen → ks.warn level st sigs = (((ks.rules true level st).zip
      ((ks.bindList access sigs c).1.allSignals level)).filter fun x => x.2.2.open).map Prod.fst)
  | .nil, level, st, sigs, c, _, _ => by
    simp [Kids.rules, Kids.warn, Kids.bindList, Kids.allSignals]
  | .cons l b ks, level, st, sigs, c, hd, hf => by
    have h1 := warn_open access b (appended level l.text) st (kidName true st l) sigs hd.1 hf.1
    have h2 := kidsWarn_open access ks level st (b.bindList access sigs).2.1
      (parentClock l (b.bindList access sigs).1.clock c) hd.2 hf.2
    have h3 : (b.bindList true sigs).2.1 = (b.bindList access sigs).2.1 :=
      (detect_eq true b sigs).symm.trans (detect_eq access b sigs)
    rw [Kids.rules, Kids.warn, Kids.bindList]
    simp only [Kids.allSignals, h3]
    refine ⟨by rw [List.map_append, List.map_append, h1.1, h2.1], ?_, ?_⟩
    · rw [openSlots_append (length_of_paths h1.1), List.map_append, List.map_append, h1.2.1, h2.2.1]
    · intro ho
      rw [openSlots_append (length_of_paths h1.1), h1.2.2 ho.1, h2.2.2 ho.2]
end

/-! ### Rule strings do not depend on the content of the slots -/

theorem detectOne_same (r : Rule) {lv lv' : Level} (h : lv.shape = lv'.shape)
    (a : List Name × List Sig × List Sig) (s : Sig) : detectOne r lv a s = detectOne r lv' a s := by
  unfold detectOne
  cases r.strip s.name with
  | none => rfl
  | some m => simp only [Level.find_shape h m]

theorem detectLevel_same (r : Rule) {lv lv' : Level} (h : lv.shape = lv'.shape) (sigs : List Sig) :
    detectLevel r lv sigs = detectLevel r lv' sigs := by
  unfold detectLevel
  congr 1
  funext a s
  exact detectOne_same r h a s

mutual
theorem detectSpecificList_same (spec : Name) : ∀ (b b' : Bundle) (level : Name) (sigs : List Sig),
    b.Same b' → b.detectSpecificList spec level sigs = b'.detectSpecificList spec level sigs
  | .mk r lv c ks, .mk r' lv' c' ks', level, sigs, h => by
    obtain ⟨rfl, h1, h2⟩ := h
    rw [Bundle.detectSpecificList, Bundle.detectSpecificList]
    simp only [detectLevel_same r h1, kidsSpecific_same spec ks ks' _ _ h2]
theorem kidsSpecific_same (spec : Name) : ∀ (ks ks' : Kids) (level : Name) (sigs : List Sig),
    ks.Same ks' → ks.detectSpecificList spec level sigs = ks'.detectSpecificList spec level sigs
  | .nil, .nil, _, _, _ => rfl
  | .cons l b ks, .cons l' b' ks', level, sigs, h => by
    obtain ⟨rfl, h1, h2⟩ := h
    rw [Kids.detectSpecificList, Kids.detectSpecificList, detectSpecificList_same spec b b' _ _ h1]
    congr 1
    funext rest
    exact kidsSpecific_same spec ks ks' _ _ h2
  | .nil, .cons _ _ _, _, _, h => h.elim
  | .cons _ _ _, .nil, _, _, h => h.elim
end

theorem filterDict_same {b b' : Bundle} (h : b.Same b') (path : Name) (d : List (Name × Name)) :
    b.filterDict path d = b'.filterDict path d := by
  induction d with
  | nil => rfl
  | cons kv d ih =>
    rw [Bundle.filterDict, Bundle.filterDict, ih, Bundle.detectSpecific, Bundle.detectSpecific,
      detectSpecificList_same path b b' _ _ h]

/-- Two stacks of the same bundles, with other slot contents. -/
def StackSame : Stack → Stack → Prop
  | [], [] => True
  | x :: st, y :: st' => x.1.Same y.1 ∧ x.2 = y.2 ∧ StackSame st st'
  | _, _ => False

theorem StackSame.snoc {st st' : Stack} (h : StackSame st st') {b b' : Bundle} (hb : b.Same b')
    (nm : Name) : StackSame (st ++ [(b, nm)]) (st' ++ [(b', nm)]) := by
  induction st generalizing st' with
  | nil =>
    cases st' with
    | nil => exact ⟨hb, rfl, trivial⟩
    | cons => exact h.elim
  | cons x st ih =>
    cases st' with
    | nil => exact h.elim
    | cons y st' => exact ⟨h.1, h.2.1, ih h.2.2⟩

theorem StackSame.length {st st' : Stack} (h : StackSame st st') : st.length = st'.length := by
  induction st generalizing st' with
  | nil =>
    cases st' with
    | nil => rfl
    | cons => exact h.elim
  | cons x st ih =>
    cases st' with
    | nil => exact h.elim
    | cons y st' => simp [ih h.2.2]

theorem relPath_same {st st' : Stack} (h : StackSame st st') (sig : Name) :
    relPath st sig = relPath st' sig := by
  induction st generalizing st' with
  | nil =>
    cases st' with
    | nil => rfl
    | cons => exact h.elim
  | cons x st ih =>
    cases st' with
    | nil => exact h.elim
    | cons y st' => rw [relPath, relPath, h.2.1, ih h.2.2]

theorem ruleText_same {st st' : Stack} (h : StackSame st st') (sig : Name) :
    ruleText st sig = ruleText st' sig := by
  induction st generalizing st' with
  | nil =>
    cases st' with
    | nil => rfl
    | cons => exact h.elim
  | cons x st ih =>
    cases st' with
    | nil => exact h.elim
    | cons y st' =>
      have hr : x.1.rule = y.1.rule := by
        have := h.1
        cases hx : x.1
        cases hy : y.1
        rw [hx, hy] at this
        exact this.1
      rw [ruleText, ruleText, hr, ih h.2.2]
      cases y.1.rule with
      | pre p => rfl
      | regex pat f => rfl
      | dict d => simp only [relPath_same h.2.2, filterDict_same h.1]

theorem kidName_same {st st' : Stack} (h : StackSame st st') (named : Bool) (l : Label) :
    kidName named st l = kidName named st' l := by
  cases l <;> simp [kidName, h.length]

theorem listRules_names (level name : Name) (txt : Name → Option Name) (i : Nat)
    (es es' : List (Name × Slot)) (h : es.map Prod.fst = es'.map Prod.fst) :
    listRules level name txt i es = listRules level name txt i es' := by
  induction es generalizing i es' with
  | nil => cases es' with
    | nil => rfl
    | cons => simp at h
  | cons e es ih =>
    cases es' with
    | nil => simp at h
    | cons e' es' =>
      rw [List.map_cons, List.map_cons, List.cons.injEq] at h
      rw [listRules, listRules, h.1, ih _ es' h.2]

theorem listsRules_names (level : Name) (txt : Name → Option Name)
    (ls ls' : List (Name × List (Name × Slot)))
    (h : ls.map (fun l => (l.1, l.2.map Prod.fst)) = ls'.map fun l => (l.1, l.2.map Prod.fst)) :
    (ls.flatMap fun l => listRules level l.1 txt 0 l.2) =
      ls'.flatMap fun l => listRules level l.1 txt 0 l.2 := by
  induction ls generalizing ls' with
  | nil => cases ls' with
    | nil => rfl
    | cons => simp at h
  | cons l ls ih =>
    cases ls' with
    | nil => simp at h
    | cons l' ls' =>
      rw [List.map_cons, List.map_cons, List.cons.injEq, Prod.mk.injEq] at h
      rw [List.flatMap_cons, List.flatMap_cons, ih ls' h.2, h.1.1,
        listRules_names _ _ _ _ _ _ h.1.2]

mutual
/-- Binding does not change what `all_signals_rule` computes. -/
theorem rules_bind (access named : Bool) : ∀ (b : Bundle) (level : Name) (st st' : Stack) (nm : Name)
    (sigs : List Sig), StackSame st st' →
    (b.bindList access sigs).1.rules named level st nm = b.rules named level st' nm
  | .mk r lv c ks, level, st, st', nm, sigs, h => by
    have hs := bindList_self access (.mk r lv c ks) sigs
    rw [Bundle.bindList] at hs ⊢
    have hst := h.snoc hs nm
    simp only [Bundle.rules] at hst ⊢
    have hh := (missing_listHeads access (connect r lv c sigs).connected
      (connect r lv c sigs).lvl).trans (connect_listHeads r lv c sigs)
    have hn : (missing access (connect r lv c sigs).connected
        (connect r lv c sigs).lvl).signals.map Cell.name = lv.signals.map Cell.name :=
      congrArg Prod.fst hs.2.1
    rw [rulesKids_bind access named ks level _ _ _ _ hst,
      listsRules_names level _ _ lv.lists hh]
    have ht : ruleText _ = ruleText _ := funext fun sig => ruleText_same hst sig
    rw [ht]
    have h0 : ∀ (f : Name → Name × Option Name) (cs : List Cell),
        cs.map (fun c => f c.name) = (cs.map Cell.name).map f := fun f cs => by
      rw [List.map_map]; rfl
    rw [h0 (fun n => (appended level n, ruleText _ n)) _, hn,
      h0 (fun n => (appended level n, ruleText _ n)) lv.signals]
theorem rulesKids_bind (access named : Bool) : ∀ (ks : Kids) (level : Name) (st st' : Stack)
    (sigs : List Sig) (c : Option Nat), StackSame st st' →
    (ks.bindList access sigs c).1.rules named level st = ks.rules named level st'
  | .nil, level, st, st', sigs, c, h => by rw [Kids.bindList]; rfl
  | .cons l b ks, level, st, st', sigs, c, h => by
    rw [Kids.bindList]
    simp only [Kids.rules]
    rw [kidName_same h, rules_bind access named b _ st st' _ sigs h,
      rulesKids_bind access named ks level st st' _ _ h]
end

theorem openSlots_eq (access : Bool) (name : Name) (b : Bundle) (dut : List DutSig) :
    openSlots name (b.bind access dut).1 =
      (((b.rules true name [] name).zip ((b.bind access dut).1.allSignals name)).filter
        fun x => x.2.2.open).map Prod.fst := by
  unfold openSlots
  have := rules_bind access true b name [] [] name (dutSignals dut) trivial
  have h : (b.bind access dut).1.rules true name [] name = b.rules true name [] name := this
  rw [h]

theorem bindResult_some {access : Bool} {name : Name} {b : Bundle} {dut : List DutSig}
    {b' : Bundle} {pins : List Nat} {ws : List (Name × Name)}
    (h : b.bindResult access name dut = some ((b', pins), ws)) :
    (b', pins) = b.bind access dut ∧ b.warnings name dut = ws.map fun w => (w.1, some w.2) := by
  unfold Bundle.bindResult at h
  cases hw : (b.warnings name dut).mapM
      (fun (x : Name × Option Name) => x.2.map fun t => (x.1, t)) with
  | none => rw [hw] at h; cases h
  | some ws' =>
    rw [hw] at h
    simp only [Option.map_some, Option.some.injEq, Prod.mk.injEq] at h
    obtain ⟨h1, rfl⟩ := h
    exact ⟨h1.symm, mapM_rules hw⟩

/-! ### C90 -/

/-- **C90.** When the first `bind` of a bundle returns (see C111), it has written exactly one warning
for every slot that it leaves without a pin, in the order of `all_signals`, and the rule it states is
the one that `all_signals_rule` gives for the slot afterwards. -/
theorem C90_one_per_slot (access : Bool) (name : Name) (b : Bundle) (dut : List DutSig)
    (hd : b.Distinct) (hf : b.Fresh) {b' : Bundle} {pins : List Nat} {ws : List (Name × Name)}
    (hr : b.bindResult access name dut = some ((b', pins), ws)) :
    ws.map (fun w => some w.2) = (openSlots name b').map Prod.snd ∧
    ws.length = (b'.allSignals name).countP fun x => x.2.open := by
  obtain ⟨he, hw⟩ := bindResult_some hr
  have hb' : b' = (b.bind access dut).1 := congrArg Prod.fst he
  have h := warn_open access b name [] name (dutSignals dut) hd hf
  have h2 : (b.warnings name dut).map Prod.snd = (openSlots name b').map Prod.snd := by
    rw [hb', openSlots_eq]
    exact h.2.1
  have h3 : ws.map (fun w => some w.2) = (openSlots name b').map Prod.snd := by
    rw [← h2, hw, List.map_map]
    rfl
  refine ⟨h3, ?_⟩
  have h1 : ws.length = (openSlots name b').length := by
    have := congrArg List.length h3
    simpa using this
  rw [h1, hb', openSlots_eq]
  rw [List.length_map, ← List.countP_eq_length_filter]
  have key : ∀ (r : List (Name × Option Name)) (s : List (Name × Slot)), r.length = s.length →
      (r.zip s).countP (fun x => x.2.2.open) = s.countP fun x => x.2.open := by
    intro r
    induction r with
    | nil => intro s hs; cases s with
      | nil => rfl
      | cons => simp at hs
    | cons x xs ih =>
      intro s hs
      cases s with
      | nil => simp at hs
      | cons y ys =>
        rw [List.zip_cons_cons, List.countP_cons, List.countP_cons, ih ys (by simpa using hs)]
  exact key _ _ (length_of_paths h.1)

/-- **C90 (partial).** If at most one element of the signal lists of each level is left without a
pin, the warnings name exactly the slots without a pin, by their paths in `all_signals`.  Missing:
several missing elements in the signal lists of one bundle, see `C90_path_violated`. -/
theorem C90_paths_partial (access : Bool) (name : Name) (b : Bundle) (dut : List DutSig)
    (hd : b.Distinct) (hf : b.Fresh) {b' : Bundle} {pins : List Nat} {ws : List (Name × Name)}
    (hr : b.bindResult access name dut = some ((b', pins), ws)) (ho : b'.OneOpen) :
    ws.map (fun w => (w.1, some w.2)) = openSlots name b' ∧
    ws.map Prod.fst = ((b'.allSignals name).filter fun x => x.2.open).map Prod.fst := by
  obtain ⟨he, hw⟩ := bindResult_some hr
  have hb' : b' = (b.bind access dut).1 := congrArg Prod.fst he
  subst hb'
  have h := warn_open access b name [] name (dutSignals dut) hd hf
  have h1 : ws.map (fun w => (w.1, some w.2)) = openSlots name (b.bind access dut).1 := by
    rw [← hw, openSlots_eq]
    exact h.2.2 ho
  refine ⟨h1, ?_⟩
  have h0 : ws.map Prod.fst = (openSlots name (b.bind access dut).1).map Prod.fst := by
    rw [← h1, List.map_map]
    rfl
  rw [h0, openSlots_eq]
  have key : ∀ (r : List (Name × Option Name)) (s : List (Name × Slot)),
      r.map Prod.fst = s.map Prod.fst →
      (((r.zip s).filter fun x => x.2.2.open).map Prod.fst).map Prod.fst =
        (s.filter fun x => x.2.open).map Prod.fst := by
    intro r
    induction r with
    | nil => intro s hs; cases s with
      | nil => rfl
      | cons => simp at hs
    | cons x xs ih =>
      intro s hs
      cases s with
      | nil => simp at hs
      | cons y ys =>
        rw [List.map_cons, List.map_cons, List.cons.injEq] at hs
        have := ih ys hs.2
        rw [List.zip_cons_cons, List.filter_cons, List.filter_cons]
        cases hy : y.2.open with
        | true => simp [this, hs.1]
        | false => exact this
  exact key _ _ h.1

/-- A bundle with a signal list none of whose signals is in the DUT. -/
def emptyList : Bundle :=
  .mk (.pre "io_".toList)
    { signals := [⟨"a".toList, true, .unconnected⟩]
      lists := [("x".toList, [("x_0".toList, .unconnected), ("x_1".toList, .unconnected)])] }
    none .nil

/-- **C90 (violated).** With two missing elements in a signal list the second warning names a slot
that does not exist: `x[0].x[1]`. -/
theorem C90_path_violated :
    (emptyList.bindResult true "top".toList [⟨"io_a".toList, 0, 0⟩]).map Prod.snd =
      some [("top.x[0]".toList, "io_x_0".toList), ("top.x[0].x[1]".toList, "io_x_1".toList)] ∧
    (((emptyList.bind true [⟨"io_a".toList, 0, 0⟩]).1.allSignals "top".toList).filter
      fun x => x.2.open).map Prod.fst = ["top.x[0]".toList, "top.x[1]".toList] ∧
    "top.x[0].x[1]".toList ∉
      ((emptyList.bind true [⟨"io_a".toList, 0, 0⟩]).1.allSignals "top".toList).map Prod.fst := by
  refine ⟨by decide, by decide, by decide⟩

-- The hypotheses are met by the demonstration bundle with its sub-bundle and lists; a signal and an
-- element of the list are missing.
example : demoBundle.Distinct ∧ demoBundle.Fresh ∧ (demoBundle.bind true demoDut).1.OneOpen ∧
    (demoBundle.bindResult true [] demoDut).map (fun r => r.2.map Prod.fst) =
      some ["b".toList, "x[0]".toList, "c.u".toList] := by
  refine ⟨demo_distinct, demo_fresh, ⟨by decide, ⟨by decide, trivial⟩, ⟨by decide, trivial⟩, trivial⟩,
    by decide⟩

/-! ### C91 -/

/-- The name is that of a slot of the bundle's own level, or a sub-bundle (or an element of a bundle
list) claims it. -/
def Wanted (b : Bundle) (k : Name) : Prop :=
  (∃ q, b.lvl.nameOf q = some k) ∨ ∃ i c, b.kids.get i = some c ∧ Claims c k

theorem dictReport_iff (b : Bundle) (d : List (Name × Name)) (hb : b.Distinct)
    (hk : (d.map Prod.fst).Nodup) (k : Name) :
    k ∈ b.dictReport d ↔ ∃ v, (k, v) ∈ d ∧ ¬ Claims b v := by
  have horg : ((d.map fun kv => ({ name := kv.2, org := kv.1, pin := 0, event := 0 } : Sig)).map
      Sig.org).Nodup := by
    rw [List.map_map]
    exact hk
  have h := (bindList_spec true b _ hb horg).rest
  unfold Bundle.dictReport
  rw [detect_eq true, (h.map Sig.org).mem_iff, List.mem_map]
  constructor
  · rintro ⟨s, hs, rfl⟩
    obtain ⟨h1, h2⟩ := List.mem_filter.1 hs
    obtain ⟨kv, hkv, rfl⟩ := List.mem_map.1 h1
    refine ⟨kv.2, hkv, fun hc => ?_⟩
    have := (claims_iff hb kv.2).1 hc
    cases hr : b.route kv.2 with
    | none => rw [hr] at this; cases this
    | some x => simp [hr] at h2
  · rintro ⟨v, hv, hc⟩
    refine ⟨{ name := v, org := k, pin := 0, event := 0 }, List.mem_filter.2
      ⟨List.mem_map.2 ⟨(k, v), hv, rfl⟩, ?_⟩, rfl⟩
    cases hr : b.route v with
    | none => rfl
    | some x => exact absurd ((claims_iff hb v).2 (by rw [hr]; rfl)) hc

/-- **C91.** `from_dict(d)` and `set_dict(d)` name in their warning exactly the keys whose DUT signal
would not be connected to any slot of the bundle: a key is left out iff the DUT signal of its entry is
connected by `bind` whenever the DUT has it. -/
theorem C91_unreported_iff (b : Bundle) (d : List (Name × Name)) (hb : b.Distinct)
    (hk : (d.map Prod.fst).Nodup) {k v : Name} (hkv : (k, v) ∈ d) :
    k ∉ b.dictReport d ↔ ∀ (access : Bool) (dut : List DutSig), (dut.map DutSig.name).Nodup →
      (dut.map DutSig.pin).Nodup → ∀ x ∈ dut, x.name = v → x.pin ∈ (b.bind access dut).2 := by
  rw [dictReport_iff b d hb hk]
  have huniq : ∀ v', (k, v') ∈ d → v' = v := by
    intro v' hv'
    have := nodup_map_inj Prod.fst hk hv' hkv rfl
    exact congrArg Prod.snd this
  constructor
  · intro h access dut hd hp x hx hn
    rw [← C36_detect_iff_connected access b dut hb hd hp hx, hn, detect_iff b hb,
      ← claims_iff hb]
    exact Classical.byContradiction fun hc => h ⟨v, hkv, hc⟩
  · rintro h ⟨v', hv', hc⟩
    rw [huniq v' hv'] at hc
    have h1 := h true [⟨v, 0, 0⟩] (by simp) (by simp) ⟨v, 0, 0⟩ List.mem_cons_self rfl
    rw [← C36_detect_iff_connected true b [⟨v, 0, 0⟩] hb (by simp) (by simp) List.mem_cons_self,
      detect_iff b hb, ← claims_iff hb] at h1
    exact hc h1

/-- **C91 (partial).** If no DUT signal occurs twice in the dictionary, the warning names exactly the
keys that are not names of slots of the bundle (with its sub-bundles).  Missing: dictionaries with
repeated values, see `C91_repeated_violated`. -/
theorem C91_keys_partial (lv : Level) (c : Option Nat) (ks : Kids) (d : List (Name × Name))
    (hb : (Bundle.mk (.dict d) lv c ks).Distinct) (hk : (d.map Prod.fst).Nodup)
    (hv : (d.map Prod.snd).Nodup) (k : Name) :
    k ∈ (Bundle.mk (.dict d) lv c ks).dictReport d ↔
      k ∈ d.map Prod.fst ∧ ¬ Wanted (.mk (.dict d) lv c ks) k := by
  rw [dictReport_iff _ d hb hk]
  have turns : ∀ v, (k, v) ∈ d → ∀ m, Turns (.dict d) v m ↔ m = k := by
    intro v hkv m
    rw [turns_iff]
    simp only [Rule.strip]
    have hf : d.find? (fun kv => kv.2 == v) = some (k, v) := by
      cases hf : d.find? (fun kv => kv.2 == v) with
      | none => exact absurd (List.find?_eq_none.1 hf (k, v) hkv) (by simp)
      | some y =>
        have h1 : y.2 = v := by simpa using List.find?_some hf
        rw [nodup_map_inj Prod.snd hv (List.mem_of_find?_eq_some hf) hkv h1]
    rw [hf]
    simp [eq_comm]
  have hcl : ∀ v, (k, v) ∈ d → (Claims (.mk (.dict d) lv c ks) v ↔
      Wanted (.mk (.dict d) lv c ks) k) := by
    intro v hkv
    constructor
    · intro h
      cases h with
      | here ht hn => rw [(turns v hkv _).1 ht] at hn; exact .inl ⟨_, hn⟩
      | inside ht hg hc => rw [(turns v hkv _).1 ht] at hc; exact .inr ⟨_, _, hg, hc⟩
    · rintro (⟨q, hq⟩ | ⟨i, x, hg, hc⟩)
      · exact .here ((turns v hkv k).2 rfl) hq
      · exact .inside ((turns v hkv k).2 rfl) hg hc
  constructor
  · rintro ⟨v, hkv, hc⟩
    exact ⟨List.mem_map.2 ⟨_, hkv, rfl⟩, fun hw => hc ((hcl v hkv).2 hw)⟩
  · rintro ⟨hm, hw⟩
    obtain ⟨⟨k', v⟩, hkv, rfl⟩ := List.mem_map.1 hm
    exact ⟨v, hkv, fun hc => hw ((hcl v hkv).1 hc)⟩

/-- A bundle with the signals `a` and `b`, made by `from_dict(d)`. -/
def abDict (d : List (Name × Name)) : Bundle :=
  .mk (.dict d) { signals := [⟨"a".toList, false, .absent⟩, ⟨"b".toList, false, .absent⟩]
                  lists := [] } none .nil

/-- **C91 (violated).** A DUT signal that occurs twice in the dictionary hides a wrong key
(`{"a": "x", "zz": "x"}`: nothing is reported) or makes a right one look wrong
(`{"zz": "x", "a": "x"}`: both are reported); and with `{"a": "x", "b": "x"}` nothing is reported,
but `b` is never connected. -/
theorem C91_repeated_violated :
    (abDict [("a".toList, "x".toList), ("zz".toList, "x".toList)]).dictReport
      [("a".toList, "x".toList), ("zz".toList, "x".toList)] = [] ∧
    (abDict [("zz".toList, "x".toList), ("a".toList, "x".toList)]).dictReport
      [("zz".toList, "x".toList), ("a".toList, "x".toList)] = ["zz".toList, "a".toList] ∧
    (abDict [("a".toList, "x".toList), ("b".toList, "x".toList)]).dictReport
      [("a".toList, "x".toList), ("b".toList, "x".toList)] = [] ∧
    ((abDict [("a".toList, "x".toList), ("b".toList, "x".toList)]).bind true
      [⟨"x".toList, 5, 0⟩]).1.slotAt [] (.sig "b".toList) = some .dummy := by
  refine ⟨by decide, by decide, by decide, by decide⟩

-- A dictionary with one wrong key.
example : (abDict [("a".toList, "x".toList), ("zz".toList, "y".toList)]).Distinct ∧
    (abDict [("a".toList, "x".toList), ("zz".toList, "y".toList)]).dictReport
      [("a".toList, "x".toList), ("zz".toList, "y".toList)] = ["zz".toList] := by
  refine ⟨⟨by decide, trivial⟩, by decide⟩

/-! ### C92 -/

/-- **C92 (partial).** A bundle made by `from_prefix(prefix, dut)` and bound to the DUT has a slot,
connected to the pin, for every pin of the DUT whose name starts with the prefix, if the name of the
class of the pins contains `XData`.  Missing: pins of another class, see `C92_xpin_violated`. -/
theorem C92_every_pin_partial (access : Bool) (own : List Cell) (pre : Name) (dut : List Attr)
    (hd : (fromPrefix own pre dut).Distinct) (hn : (dut.map Attr.name).Nodup)
    {a : Attr} (ha : a ∈ dut) {p e : Nat} (hp : a.pin = some (p, e)) (hx : a.xdata = true)
    {n : Name} (hpre : a.name = pre ++ n) :
    ((fromPrefix own pre dut).bind access (attrSignals dut)).1.slotAt [] (.sig n) =
      some (.pin p) := by
  have hmem : (⟨a.name, p, e⟩ : DutSig) ∈ attrSignals dut :=
    List.mem_filterMap.2 ⟨a, ha, by rw [hp]; rfl⟩
  have hnd : ((attrSignals dut).map DutSig.name).Nodup := by
    have hsub : ((attrSignals dut).map DutSig.name).Sublist (dut.map Attr.name) := by
      unfold attrSignals
      clear hd hn ha hmem
      induction dut with
      | nil => exact .slnil
      | cons x xs ih =>
        rw [List.filterMap_cons]
        cases hxp : x.pin with
        | none => exact .cons _ ih
        | some y => exact .cons_cons _ ih
    exact hsub.nodup hn
  have hden : Denotes (fromPrefix own pre dut) a.name [] (.sig n) := by
    refine .here (m := n) (hpre ▸ .pre pre n) ?_
    show (if n ∈ _ then some n else none) = some n
    rw [if_pos]
    refine List.mem_map.2 ⟨⟨a.name.drop pre.length, false, .absent⟩, List.mem_append_right _
      (List.mem_map.2 ⟨a, List.mem_filter.2 ⟨ha, ?_⟩, rfl⟩), ?_⟩
    · rw [hx, Bool.and_true, hpre]
      exact List.isPrefixOf_iff_prefix.2 ⟨n, rfl⟩
    · show a.name.drop pre.length = n
      rw [hpre, List.drop_left]
  obtain ⟨d, hdm, h1, h2⟩ := (C34_bind_connects access _ _ hd hnd [] (.sig n)).1 ⟨_, hmem, hden⟩
  have hname : d.name = a.name := by
    cases h1 with
    | here ht hq =>
      have hq : (if n ∈ _ then some n else none) = some _ := hq
      split at hq
      · cases hq
        have ht := (turns_iff _ _ _).1 ht
        have ht : (if pre.isPrefixOf d.name then some (d.name.drop pre.length) else none) = some n := ht
        split at ht
        · rename_i hpd
          obtain ⟨u, hu⟩ := List.isPrefixOf_iff_prefix.1 hpd
          have ht := Option.some.inj ht
          rw [← hu, List.drop_left] at ht
          rw [← hu, ht, hpre]
        · cases ht
      · cases hq
  rw [h2, nodup_map_inj DutSig.name hnd hdm hmem hname]

/-- A DUT with one pin `io_a`, whose class is called `XPin`, and the same DUT with a pin of a class
called `XData`. -/
def xpinDut (xdata : Bool) : List Attr := [⟨"io_a".toList, xdata, some (3, 0)⟩]

/-- **C92 (violated).** `from_prefix("io_", dut)` looks for attributes whose class name contains
`XData`; for a pin of a class `XPin` (a pin for `bind`: it has `xdata` and `event`) no slot is made,
and `bind` leaves the pin unconnected. -/
theorem C92_xpin_violated :
    (attrSignals (xpinDut false)).map DutSig.name = ["io_a".toList] ∧
    ((fromPrefix [] "io_".toList (xpinDut false)).bind true
      (attrSignals (xpinDut false))).1.allSignals [] = [] ∧
    ((fromPrefix [] "io_".toList (xpinDut false)).bind true
      (attrSignals (xpinDut false))).2 = [] := by
  refine ⟨by decide, by decide, by decide⟩

-- The hypotheses of `C92_every_pin_partial` are met.
example : (fromPrefix [⟨"b".toList, true, .unconnected⟩] "io_".toList (xpinDut true)).Distinct ∧
    ((xpinDut true).map Attr.name).Nodup ∧
    ((fromPrefix [⟨"b".toList, true, .unconnected⟩] "io_".toList (xpinDut true)).bind true
      (attrSignals (xpinDut true))).1.slotAt [] (.sig "a".toList) = some (.pin 3) := by
  refine ⟨⟨by decide, trivial⟩, by decide, by decide⟩

end Toffee.Bundle
