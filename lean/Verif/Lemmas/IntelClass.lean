import Verif.Lemmas.IntelGen

/-!
Lemmas about the generator of nested bundles: the members of one class.
-/

namespace Toffee.IntelGen

/-! ### Spec: what the printed classes mean -/

/-- The device signals an instance of a class connects to, given the classes defined before it: a
signal connects to the pin of its name, a member `from_prefix(q)` to the pins of its class with `q` in
front.  `none` if Python rejects the definition (empty body, wrong number of names for `Signals`,
unknown class) or two members have the same name. -/
def classPins (env : Dict Nat (List Text)) (c : Cls) : Option (List Text) :=
  if c.sigs = [] ∧ c.subs = [] then none
  else if c.sigs ≠ [] ∧ c.count ≠ c.sigs.length then none
  else if ¬ (c.sigs ++ c.subs.map (·.1)).Nodup then none
  else if ¬ c.subs.all (fun s => env.has s.2.1) then none
  else some (c.sigs ++ c.subs.flatMap fun s => ((env.get? s.2.1).getD []).map (s.2.2 ++ ·))

/-- The classes one after the other. -/
def exec : List Cls → Dict Nat (List Text) → Option (Dict Nat (List Text))
  | [], env => some env
  | c :: r, env => (classPins env c).bind fun ps => exec r (env.set c.id ps)

theorem exec_snoc (l : List Cls) (c : Cls) (env : Dict Nat (List Text)) :
    exec (l ++ [c]) env =
      (exec l env).bind fun e => (classPins e c).map fun ps => e.set c.id ps := by
  induction l generalizing env with
  | nil =>
    simp only [List.nil_append, exec, Option.bind_some]
    cases classPins env c <;> rfl
  | cons d l ih =>
    simp only [List.cons_append, exec]
    cases classPins env d with
    | none => rfl
    | some ps => simp only [Option.bind_some]; exact ih _

/-! ### The loops over the members -/

/-- The groups as a flat list. -/
def flatGroups (g : Dict Int (List Text)) : List (Int × Text) :=
  g.flatMap fun e => e.2.map fun n => (e.1, n)

theorem flatGroups_set (d : Dict Int (List Text)) (i : Int) (h : d.has i = false) :
    flatGroups (d.set i []) = flatGroups d := by
  have hn : i ∉ Dict.keys d := by rw [← Dict.has_iff, h]; simp
  rw [Dict.set_of_not_mem hn]
  simp [flatGroups]

theorem flatGroups_modify (d : Dict Int (List Text)) (i : Int) (n : Text) (h : d.has i = true) :
    (flatGroups (d.modify i (· ++ [n]))).Perm ((i, n) :: flatGroups d) := by
  induction d with
  | nil => simp [Dict.has, Dict.get?] at h
  | cons e d ih =>
    obtain ⟨j, ns⟩ := e
    by_cases hj : j = i
    · subst hj
      simp only [Dict.modify, if_true, flatGroups, List.flatMap_cons, List.map_append, List.map_cons,
        List.map_nil]
      rw [List.append_assoc]
      exact List.perm_middle
    · have h' : Dict.has d i = true := by
        simpa [Dict.has, Dict.get?, hj] using h
      simp only [Dict.modify, hj, if_false, flatGroups, List.flatMap_cons]
      refine (List.Perm.append_left _ (ih h')).trans ?_
      exact List.perm_middle

theorem has_modify (d : Dict Int (List Text)) (i : Int) (f : List Text → List Text) (j : Int) :
    (d.modify i f).has j = d.has j := by
  have := Dict.keys_modify d i f
  by_cases h : d.has j = true
  · rw [h, Dict.has_iff, this, ← Dict.has_iff]; exact h
  · have h1 : ¬ (d.modify i f).has j = true := by rw [Dict.has_iff, this, ← Dict.has_iff]; exact h
    simp only [Bool.not_eq_true] at h h1
    rw [h, h1]

theorem groups_perm (ls : List Log) (d : Dict Int (List Text)) :
    (flatGroups (ls.foldl groupStep d)).Perm
      (flatGroups d ++ (ls.filter fun l => l.leaf &&& 2 ≠ 0).map fun l => (l.inside, l.name)) := by
  induction ls generalizing d with
  | nil => simp
  | cons l ls ih =>
    rw [List.foldl_cons]
    refine (ih _).trans ?_
    unfold groupStep
    by_cases hl : l.leaf &&& 2 ≠ 0
    · rw [if_pos hl]
      rw [List.filter_cons_of_pos (by simpa using hl)]
      simp only [List.map_cons]
      refine List.Perm.trans (List.Perm.append_right (l₂ := (l.inside, l.name) :: flatGroups d) _ ?_)
        List.perm_middle.symm
      split
      · rename_i hh; exact flatGroups_modify d _ _ hh
      · rename_i hh
        simp only [Bool.not_eq_true] at hh
        rw [← flatGroups_set d l.inside hh]
        refine flatGroups_modify _ _ _ ?_
        simp [Dict.has, Dict.get?_set_self]
    · rw [if_neg hl, List.filter_cons_of_neg (by simpa using hl)]

theorem groups_keys (ls : List Log) (d : Dict Int (List Text)) (i : Int)
    (h : i ∈ Dict.keys (ls.foldl groupStep d)) :
    i ∈ Dict.keys d ∨ ∃ l ∈ ls, l.leaf &&& 2 ≠ 0 ∧ i = l.inside := by
  induction ls generalizing d with
  | nil => exact .inl h
  | cons l ls ih =>
    rw [List.foldl_cons] at h
    rcases ih _ h with h1 | ⟨l', h1, h2⟩
    · unfold groupStep at h1
      split at h1
      · rename_i hl
        rw [Dict.keys_modify] at h1
        split at h1
        · exact .inl h1
        · rw [Dict.keys_set] at h1
          split at h1
          · exact .inl h1
          · rcases List.mem_append.1 h1 with h1 | h1
            · exact .inl h1
            · exact .inr ⟨l, by simp, hl, by simpa using h1⟩
      · exact .inl h1
    · exact .inr ⟨l', by simp [h1], h2⟩

/-- What one bundle adds to the signals and to the `from_prefix` lines. -/
def addSigs (top both : Bool) (i : Inside) (n : Text) : List Text :=
  if both then i.sigs.map (mark top n ++ ·) else []
def addSubs (top both : Bool) (i : Inside) (n : Text) : List (Text × Nat × Text) :=
  if both then [] else [(mark top n, i.cls.getD 0, mark top n)]

theorem memberStep_eq (top both : Bool) (i : Inside) (n : Text)
    (r : List Text × List (Text × Nat × Text)) :
    memberStep top both i n r = (r.1 ++ addSigs top both i n, r.2 ++ addSubs top both i n) := by
  unfold memberStep addSigs addSubs
  cases both <;> simp

theorem members_eq (top : Bool) (ins : Dict Int Inside) (bo : Dict Text Bool)
    (g : Dict Int (List Text)) (own : List Text) :
    members top ins bo g own =
      (own ++ (flatGroups g).flatMap (fun e => addSigs top ((bo.get? e.2).getD false)
          ((ins.get? e.1).getD ⟨none, []⟩) e.2),
        (flatGroups g).flatMap (fun e => addSubs top ((bo.get? e.2).getD false)
          ((ins.get? e.1).getD ⟨none, []⟩) e.2)) := by
  unfold members
  have inner : ∀ (i : Inside) (ns : List Text) (r : List Text × List (Text × Nat × Text)),
      ns.foldl (fun r n => memberStep top ((bo.get? n).getD false) i n r) r =
        (r.1 ++ ns.flatMap (fun n => addSigs top ((bo.get? n).getD false) i n),
          r.2 ++ ns.flatMap (fun n => addSubs top ((bo.get? n).getD false) i n)) := by
    intro i ns
    induction ns with
    | nil => intro r; simp
    | cons n ns ih => intro r; rw [List.foldl_cons, ih, memberStep_eq]; simp
  have outer : ∀ (g : Dict Int (List Text)) (r : List Text × List (Text × Nat × Text)),
      g.foldl (fun r g => g.2.foldl (fun r n =>
        memberStep top ((bo.get? n).getD false) ((ins.get? g.1).getD ⟨none, []⟩) n r) r) r =
      (r.1 ++ (flatGroups g).flatMap (fun e => addSigs top ((bo.get? e.2).getD false)
          ((ins.get? e.1).getD ⟨none, []⟩) e.2),
        r.2 ++ (flatGroups g).flatMap (fun e => addSubs top ((bo.get? e.2).getD false)
          ((ins.get? e.1).getD ⟨none, []⟩) e.2)) := by
    intro g
    induction g with
    | nil => intro r; simp [flatGroups]
    | cons e g ih =>
      intro r
      rw [List.foldl_cons, ih, inner]
      simp [flatGroups, List.flatMap_append, List.flatMap_map, List.append_assoc]
  rw [outer]
  simp

/-- `boths` knows every son, by its name. -/
theorem boths_get (ls : List Log) (d : Dict Text Bool) (hn : (ls.map Log.name).Nodup) (l : Log)
    (hl : l ∈ ls) : (ls.foldl bothStep d).get? l.name =
      some (decide (l.leaf &&& 1 ≠ 0 ∧ l.leaf &&& 2 ≠ 0)) := by
  have keep : ∀ (ls : List Log) (d : Dict Text Bool) (n : Text), n ∉ ls.map Log.name →
      (ls.foldl bothStep d).get? n = d.get? n := by
    intro ls
    induction ls with
    | nil => intro d n _; rfl
    | cons l ls ih =>
      intro d n h
      simp only [List.map_cons, List.mem_cons, not_or] at h
      rw [List.foldl_cons, ih _ _ h.2]
      unfold bothStep
      dsimp only
      split
      · rw [Dict.get?_set_ne _ (Ne.symm h.1), Dict.get?_set_ne _ (Ne.symm h.1)]
      · rw [Dict.get?_set_ne _ (Ne.symm h.1)]
  induction ls generalizing d with
  | nil => simp at hl
  | cons l0 ls ih =>
    simp only [List.map_cons, List.nodup_cons] at hn
    rw [List.foldl_cons]
    rcases List.mem_cons.1 hl with rfl | hl
    · rw [keep _ _ _ hn.1]
      unfold bothStep
      dsimp only
      split
      · rename_i hc; rw [Dict.get?_set_self, decide_eq_true hc]
      · rename_i hc; rw [Dict.get?_set_self, decide_eq_false hc]
    · exact ih _ hn.2 hl

/-- What `logs` says about a child. -/
def logOf (py : Py) (k : Text × Tree) : Log := ⟨k.2.leaf, ihash py k.2, k.1⟩

/-- The entry of `insides` for a child. -/
def insOf (py : Py) (ins : Dict Int Inside) (c : Tree) : Inside := (ins.get? (ihash py c)).getD ⟨none, []⟩

/-- What a child adds to the names of the signals, without its own name. -/
def sufSigs (py : Py) (ins : Dict Int Inside) (c : Tree) : List Text :=
  (if c.val then [[]] else []) ++ (if c.val = true ∧ c.kids ≠ [] then (insOf py ins c).sigs else [])

theorem members_perm {py : Py} (top : Bool) (ins : Dict Int Inside) {kids : List (Text × Tree)}
    {ls : List Log} (hls : ls.Perm (kids.map (logOf py))) (hn : (kids.map Prod.fst).Nodup) :
    (members top ins (ls.foldl bothStep []) (ls.foldl groupStep []) (ownSigs top ls)).1.Perm
      (kids.flatMap fun k => (sufSigs py ins k.2).map (mark top k.1 ++ ·)) ∧
    (members top ins (ls.foldl bothStep []) (ls.foldl groupStep []) (ownSigs top ls)).2.Perm
      ((kids.filter fun k => k.2.val = false ∧ k.2.kids ≠ []).map fun k =>
        (mark top k.1, (insOf py ins k.2).cls.getD 0, mark top k.1)) := by
  have hnl : (ls.map Log.name).Nodup := by
    have := (hls.map Log.name).nodup_iff
    rw [this, List.map_map]
    exact hn
  have hg := groups_perm ls []
  have hg' : (flatGroups (ls.foldl groupStep [])).Perm
      ((kids.filter fun k => k.2.kids ≠ []).map fun k => (ihash py k.2, k.1)) := by
    refine hg.trans ?_
    have h1 := ((hls.filter (fun l => decide (l.leaf &&& 2 ≠ 0))).map fun l => (l.inside, l.name))
    simp only [flatGroups, List.flatMap_nil, List.nil_append]
    refine h1.trans (List.Perm.of_eq ?_)
    rw [List.filter_map, List.map_map]
    congr 1
    apply List.filter_congr
    intro k _
    simp only [Function.comp, logOf]
    exact decide_eq_decide.2 (leaf_bun k.2)
  have hb : ∀ k ∈ kids, ((ls.foldl bothStep []).get? k.1).getD false =
      decide (k.2.val = true ∧ k.2.kids ≠ []) := by
    intro k hk
    have hm : logOf py k ∈ ls := hls.mem_iff.2 (List.mem_map_of_mem hk)
    have := boths_get ls [] hnl _ hm
    have hname : (logOf py k).name = k.1 := rfl
    rw [hname] at this
    rw [this]
    show decide _ = decide _
    apply decide_eq_decide.2
    show (k.2.leaf &&& 1 ≠ 0 ∧ k.2.leaf &&& 2 ≠ 0) ↔ _
    rw [leaf_sig, leaf_bun]
  rw [members_eq]
  constructor
  · have hown : (ownSigs top ls).Perm (kids.flatMap fun k =>
        (if k.2.val then [mark top k.1] else [])) := by
      unfold ownSigs
      refine ((hls.filter _).map _).trans (List.Perm.of_eq ?_)
      rw [List.filter_map, List.map_map]
      clear hls hg hg' hb hnl hn
      induction kids with
      | nil => rfl
      | cons k kids ih =>
        rw [List.flatMap_cons, List.filter_cons, ← ih]
        have hv := leaf_sig k.2
        cases hkv : k.2.val with
        | true =>
          have h1 : ((fun l : Log => decide (l.leaf &&& 1 ≠ 0)) ∘ logOf py) k = true :=
            decide_eq_true (hv.2 hkv)
          rw [if_pos h1]; rfl
        | false =>
          have h1 : ¬ ((fun l : Log => decide (l.leaf &&& 1 ≠ 0)) ∘ logOf py) k = true := by
            intro h
            rw [hv.1 (of_decide_eq_true h)] at hkv
            exact absurd hkv (by decide)
          rw [if_neg h1]; rfl
    have hsig := (hg'.flatMap_right (f := fun e => addSigs top
      (((ls.foldl bothStep []).get? e.2).getD false) ((ins.get? e.1).getD ⟨none, []⟩) e.2))
    refine (hown.append hsig).trans ?_
    have e2 : (((kids.filter fun k => k.2.kids ≠ []).map fun k => (ihash py k.2, k.1)).flatMap
        fun e => addSigs top (((ls.foldl bothStep []).get? e.2).getD false)
          ((ins.get? e.1).getD ⟨none, []⟩) e.2) =
        kids.flatMap fun k => if k.2.val = true ∧ k.2.kids ≠ [] then
          (insOf py ins k.2).sigs.map (mark top k.1 ++ ·) else [] := by
      rw [List.flatMap_map]
      clear hls hg hg' hnl hn hown hsig
      induction kids with
      | nil => rfl
      | cons k kids ih =>
        have ih := ih (fun k hk => hb k (by simp [hk]))
        rw [List.filter_cons, List.flatMap_cons]
        by_cases hk : k.2.kids ≠ []
        · rw [if_pos (by simpa using hk), List.flatMap_cons, ih]
          congr 1
          dsimp only
          rw [hb k (by simp)]
          unfold addSigs insOf
          by_cases hv : k.2.val = true
          · simp [hv, hk]
          · simp [hv]
        · rw [if_neg (by simpa using hk), ih]
          simp [hk]
    rw [e2]
    refine (List.flatMap_append_perm _ _ _).trans (List.Perm.of_eq ?_)
    congr 1
    funext k
    unfold sufSigs
    rw [List.map_append]
    congr 1
    · split <;> simp
    · split <;> simp
  · have hsub := (hg'.flatMap_right (f := fun e => addSubs top
      (((ls.foldl bothStep []).get? e.2).getD false) ((ins.get? e.1).getD ⟨none, []⟩) e.2))
    refine hsub.trans (List.Perm.of_eq ?_)
    rw [List.flatMap_map]
    clear hls hg hg' hnl hn hsub
    induction kids with
    | nil => rfl
    | cons k kids ih =>
      have ih := ih (fun k hk => hb k (by simp [hk]))
      rw [List.filter_cons, List.filter_cons]
      by_cases hk : k.2.kids ≠ []
      · rw [if_pos (by simpa using hk), List.flatMap_cons, ih]
        dsimp only
        rw [hb k (by simp)]
        unfold addSubs
        cases hv : k.2.val with
        | true => simp [hk]
        | false => simp [hk, insOf]
      · rw [if_neg (by simpa using hk), if_neg (by simpa using fun _ => hk), ih]

end Toffee.IntelGen
