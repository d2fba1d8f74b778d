import Verif.Lemmas.IntelClass

/-!
Lemmas about the generator of nested bundles: the classes printed so far mean the trees visited so far.
-/

namespace Toffee.IntelGen

variable {b : Bool}

theorem mark_inj {top : Bool} {n n' s s' : Text} (hn : '_' ∉ n) (hn' : '_' ∉ n') (hs : Tail s)
    (hs' : Tail s') (h : mark top n ++ s = mark top n' ++ s') : n = n' ∧ s = s' := by
  unfold mark at h
  cases top with
  | true => exact head_inj hn hn' hs hs' h
  | false => exact head_inj hn hn' hs hs' (List.cons.inj h).2

theorem nodup_members (top : Bool) {kids : List (Text × Tree)} (suf : Tree → List Text)
    (hn : (kids.map Prod.fst).Nodup) (hu : ∀ k ∈ kids, '_' ∉ k.1)
    (hs : ∀ k ∈ kids, (suf k.2).Nodup ∧ ∀ s ∈ suf k.2, Tail s) :
    (kids.flatMap fun k => (suf k.2).map (mark top k.1 ++ ·)).Nodup := by
  rw [List.nodup_flatMap]
  refine ⟨?_, ?_⟩
  · intro k hk
    refine (List.nodup_map_iff_inj_on (hs k hk).1).2 ?_
    intro a _ b _ h
    exact List.append_cancel_left h
  · have : kids.Pairwise (fun a b => a.1 ≠ b.1) := List.pairwise_map.1 hn
    refine List.Pairwise.imp_of_mem ?_ this
    intro a b ha hb hab
    show List.Disjoint _ _
    intro x hx hy
    obtain ⟨s, h1, rfl⟩ := List.mem_map.1 hx
    obtain ⟨s', h2, h3⟩ := List.mem_map.1 hy
    exact hab (mark_inj (hu b hb) (hu a ha) ((hs b hb).2 _ h2) ((hs a ha).2 _ h1) h3).1.symm

/-- The entry `e` of `insides` and its class describe the tree `c`. -/
structure Good (top : Bool) (env : Dict Nat (List Text)) (c : Tree) (e : Inside) : Prop where
  sigs : ∀ x, x ∈ e.sigs ↔ ∃ n p, Flat c (n :: p) ∧ x = mark top n ++ joined p
  nodup : e.sigs.Nodup
  cls : c.kids ≠ [] → ∃ k ps, e.cls = some k ∧ env.get? k = some ps ∧ ps.Nodup ∧
    ∀ x, x ∈ ps ↔ ∃ n p, Kept c (n :: p) ∧ x = mark top n ++ joined p

theorem Good.trans {top : Bool} {env : Dict Nat (List Text)} {py : Py} (hp : Ideal py) {c c' : Tree}
    {e : Inside} (h : Good top env c e) (hc : c.Fine py b) (hc' : c'.Fine py b)
    (he : ihash py c = ihash py c') : Good top env c' e := by
  have hm : ∀ p, marks p c = marks p c' := fun p => ihash_marks hp p hc hc' he
  have h1 : ∀ p, Flat c p ↔ Flat c' p := fun p => by unfold Flat; rw [hm]
  have h2 : ∀ p, Kept c p ↔ Kept c' p := fun p => by unfold Kept; rw [hm]
  refine ⟨?_, h.nodup, ?_⟩
  · intro x; rw [h.sigs]; simp only [h1]
  · intro hk
    obtain ⟨k, ps, a, b, d, f⟩ := h.cls (ihash_empty hp he.symm hk)
    refine ⟨k, ps, a, b, d, ?_⟩
    intro x; rw [f]; simp only [h2]

theorem Good.mono {top : Bool} {env env' : Dict Nat (List Text)} {c : Tree} {e : Inside}
    (h : Good top env c e) (he : ∀ k ps, env.get? k = some ps → env'.get? k = some ps) :
    Good top env' c e := by
  refine ⟨h.sigs, h.nodup, ?_⟩
  intro hk
  obtain ⟨k, ps, a, b, d⟩ := h.cls hk
  exact ⟨k, ps, a, he _ _ b, d⟩

/-- A child the generator is made for. -/
def KidFine (py : Py) (b : Bool) (k : Text × Tree) : Prop :=
  NameOk py k.1 ∧ Apart b k.1 k.2.leaf ∧ k.2.Fine py b

/-- The classes printed so far can be executed and describe the trees in `insides`, all of which are
lower than `H`. -/
structure InsInv (py : Py) (b : Bool) (H : Nat) (st : St) (env : Dict Nat (List Text)) : Prop where
  noerr : st.err = false
  run : exec st.out [] = some env
  ids : ∀ k ∈ Dict.keys env, k < st.count
  ins : ∀ h e, st.insides.get? h = some e → ∃ c, c.Fine py b ∧ c.height < H ∧ ihash py c = h ∧
    Good false env c e

/-- The entries of `logs` describe children whose content is in `insides`. -/
def LogInv (py : Py) (b : Bool) (st : St) : Prop :=
  ∀ s l, st.logs.get? s = some l → ∃ k, KidFine py b k ∧ s = key py k ∧ l = logOf py k ∧
    st.insides.has (ihash py k.2) = true

/-- What a child adds to the members, and to the pins. -/
def sufAttrs (py : Py) (ins : Dict Int Inside) (c : Tree) : List Text :=
  sufSigs py ins c ++ (if c.val = false ∧ c.kids ≠ [] then [[]] else [])
def sufPins (py : Py) (ins : Dict Int Inside) (env : Dict Nat (List Text)) (c : Tree) : List Text :=
  sufSigs py ins c ++ (if c.val = false ∧ c.kids ≠ [] then
    (env.get? ((insOf py ins c).cls.getD 0)).getD [] else [])

theorem filter_flatMap {α β : Type} (l : List α) (q : α → Bool) (f : α → List β) :
    (l.filter q).flatMap f = l.flatMap fun a => if q a then f a else [] := by
  induction l with
  | nil => rfl
  | cons a l ih =>
    rw [List.filter_cons, List.flatMap_cons, ← ih]
    cases q a <;> simp

theorem suf_tail {py : Py} {ins : Dict Int Inside} {env : Dict Nat (List Text)} {c : Tree}
    (hg : Good false env c (insOf py ins c)) :
    (sufSigs py ins c).Nodup ∧ (∀ s ∈ sufSigs py ins c, Tail s) ∧ (sufAttrs py ins c).Nodup ∧
    (∀ s ∈ sufAttrs py ins c, Tail s) ∧ (sufPins py ins env c).Nodup ∧
    ∀ s ∈ sufPins py ins env c, Tail s := by
  have hne : ∀ s ∈ (insOf py ins c).sigs, s ≠ [] ∧ Tail s := by
    intro s hs
    obtain ⟨n, p, _, rfl⟩ := (hg.sigs s).1 hs
    exact ⟨by simp [mark], .inr ⟨n ++ joined p, by simp [mark]⟩⟩
  have h1 : (sufSigs py ins c).Nodup ∧ ∀ s ∈ sufSigs py ins c, Tail s := by
    unfold sufSigs
    refine ⟨?_, ?_⟩
    · rw [List.nodup_append]
      refine ⟨by split <;> simp, ?_, ?_⟩
      · split
        · exact hg.nodup
        · exact List.nodup_nil
      · intro a ha b hb hab
        split at ha
        · split at hb
          · have := (hne b hb).1
            simp at ha
            exact this (hab ▸ ha)
          · simp at hb
        · simp at ha
    · intro s hs
      rcases List.mem_append.1 hs with hs | hs
      · split at hs
        · simp at hs; exact .inl hs
        · simp at hs
      · split at hs
        · exact (hne s hs).2
        · simp at hs
  refine ⟨h1.1, h1.2, ?_⟩
  by_cases hv : c.val = false ∧ c.kids ≠ []
  · have h0 : sufSigs py ins c = [] := by simp [sufSigs, hv.1]
    obtain ⟨k, ps, a, b, d, f⟩ := hg.cls hv.2
    unfold sufAttrs sufPins
    rw [h0, if_pos hv, if_pos hv, a]
    simp only [List.nil_append, Option.getD_some, b]
    refine ⟨by simp, ?_, d, ?_⟩
    · intro s hs; simp at hs; exact .inl hs
    · intro s hs
      obtain ⟨n, p, _, rfl⟩ := (f s).1 hs
      exact .inr ⟨n ++ joined p, by simp [mark]⟩
  · unfold sufAttrs sufPins
    rw [if_neg hv, if_neg hv, List.append_nil]
    exact ⟨h1.1, h1.2, h1.1, h1.2⟩

theorem mem_sufSigs {py : Py} {ins : Dict Int Inside} {env : Dict Nat (List Text)} {c : Tree}
    (hg : Good false env c (insOf py ins c)) (s : Text) :
    s ∈ sufSigs py ins c ↔ ∃ p, c.val = true ∧ (p = [] ∨ Flat c p) ∧ s = joined p := by
  unfold sufSigs
  rw [List.mem_append]
  constructor
  · rintro (h | h)
    · split at h
      · simp at h; exact ⟨[], ‹_›, .inl rfl, h⟩
      · simp at h
    · split at h
      · rename_i hc
        obtain ⟨n, p, h1, h2⟩ := (hg.sigs s).1 h
        exact ⟨n :: p, hc.1, .inr h1, by simpa [mark, joined] using h2⟩
      · simp at h
  · rintro ⟨p, h1, h2, rfl⟩
    rw [h1]
    rcases h2 with rfl | h2
    · left; simp [joined]
    · right
      cases p with
      | nil => exact absurd h2 (flat_nil c)
      | cons n p =>
        have : c.kids ≠ [] := by
          obtain ⟨d, hd, _⟩ := flat_cons.1 h2
          exact List.ne_nil_of_mem (Dict.mem_of_get? hd)
        rw [if_pos ⟨rfl, this⟩]
        exact (hg.sigs _).2 ⟨n, p, h2, by simp [mark, joined]⟩

theorem mem_sufPins {py : Py} {ins : Dict Int Inside} {env : Dict Nat (List Text)} {c : Tree}
    (hg : Good false env c (insOf py ins c)) (s : Text) :
    s ∈ sufPins py ins env c ↔ ∃ p, ((c.val = true ∧ (p = [] ∨ Flat c p)) ∨
      (c.val = false ∧ Kept c p)) ∧ s = joined p := by
  unfold sufPins
  rw [List.mem_append, mem_sufSigs hg]
  constructor
  · rintro (⟨p, h1, h2, h3⟩ | h)
    · exact ⟨p, .inl ⟨h1, h2⟩, h3⟩
    · split at h
      · rename_i hc
        obtain ⟨k, ps, a, b, d, f⟩ := hg.cls hc.2
        rw [a] at h
        simp only [Option.getD_some, b] at h
        obtain ⟨n, p, h1, h2⟩ := (f s).1 h
        exact ⟨n :: p, .inr ⟨hc.1, h1⟩, by simpa [mark, joined] using h2⟩
      · simp at h
  · rintro ⟨p, h1 | h1, rfl⟩
    · exact .inl ⟨p, h1.1, h1.2, rfl⟩
    · right
      cases p with
      | nil => exact absurd h1.2 (kept_nil c)
      | cons n p =>
        have : c.kids ≠ [] := by
          obtain ⟨d, hd, _⟩ := kept_cons.1 h1.2
          exact List.ne_nil_of_mem (Dict.mem_of_get? hd)
        rw [if_pos ⟨h1.1, this⟩]
        obtain ⟨k, ps, a, b, d, f⟩ := hg.cls this
        rw [a]
        simp only [Option.getD_some, b]
        exact (f _).2 ⟨n, p, h1.2, by simp [mark, joined]⟩

/-- The class made from `m` describes the tree `t`. -/
theorem class_ok {py : Py} (top : Bool) {t : Tree} (ht : t.Fine py b) (hk : t.kids ≠ [])
    {ins : Dict Int Inside} {env : Dict Nat (List Text)}
    (hg : ∀ k ∈ t.kids, Good false env k.2 (insOf py ins k.2))
    {m : List Text × List (Text × Nat × Text)}
    (h1 : m.1.Perm (t.kids.flatMap fun k => (sufSigs py ins k.2).map (mark top k.1 ++ ·)))
    (h2 : m.2.Perm ((t.kids.filter fun k => k.2.val = false ∧ k.2.kids ≠ []).map fun k =>
        (mark top k.1, (insOf py ins k.2).cls.getD 0, mark top k.1))) (i : Nat) :
    (∀ x, x ∈ m.1 ↔ ∃ n p, Flat t (n :: p) ∧ x = mark top n ++ joined p) ∧ m.1.Nodup ∧
    ∃ ps, classPins env ⟨i, m.2, m.1, if m.1.length > 1 then m.1.length else 1⟩ = some ps ∧
      ps.Nodup ∧ ∀ x, x ∈ ps ↔ ∃ n p, Kept t (n :: p) ∧ x = mark top n ++ joined p := by
  have hfk := fine_kids ht
  have hus : ∀ k ∈ t.kids, '_' ∉ k.1 := fun k h => (hfk.2 k h).1.1
  have hsuf := fun k (h : k ∈ t.kids) => suf_tail (hg k h)
  have hn1 : m.1.Nodup := h1.nodup_iff.2 (nodup_members top _ hfk.1 hus fun k h =>
    ⟨(hsuf k h).1, (hsuf k h).2.1⟩)
  -- the attributes
  have hattr : (m.1 ++ m.2.map (·.1)).Perm
      (t.kids.flatMap fun k => (sufAttrs py ins k.2).map (mark top k.1 ++ ·)) := by
    refine (h1.append (h2.map _)).trans ?_
    have e : (List.map (fun x : Text × Nat × Text => x.1)
        ((t.kids.filter fun k => k.2.val = false ∧ k.2.kids ≠ []).map fun k =>
          (mark top k.1, (insOf py ins k.2).cls.getD 0, mark top k.1))) =
        t.kids.flatMap fun k => (if k.2.val = false ∧ k.2.kids ≠ [] then [[]] else []).map
          (mark top k.1 ++ ·) := by
      rw [List.map_map, List.map_eq_flatMap, filter_flatMap]
      congr 1
      funext k
      by_cases hc : k.2.val = false ∧ k.2.kids ≠ []
      · rw [if_pos (decide_eq_true hc), if_pos hc]; simp
      · rw [if_neg (by simpa using hc), if_neg hc]; simp
    rw [e]
    refine (List.flatMap_append_perm _ _ _).trans (List.Perm.of_eq ?_)
    congr 1
    funext k
    unfold sufAttrs
    rw [List.map_append]
  have hnattr : (m.1 ++ m.2.map (·.1)).Nodup := hattr.nodup_iff.2 (nodup_members top _ hfk.1 hus
    fun k h => ⟨(hsuf k h).2.2.1, (hsuf k h).2.2.2.1⟩)
  -- the pins
  have hpins : (m.1 ++ m.2.flatMap fun s => ((env.get? s.2.1).getD []).map (s.2.2 ++ ·)).Perm
      (t.kids.flatMap fun k => (sufPins py ins env k.2).map (mark top k.1 ++ ·)) := by
    refine (h1.append (h2.flatMap_right _)).trans ?_
    have e : (((t.kids.filter fun k => k.2.val = false ∧ k.2.kids ≠ []).map fun k =>
          (mark top k.1, (insOf py ins k.2).cls.getD 0, mark top k.1)).flatMap
            fun s => ((env.get? s.2.1).getD []).map (s.2.2 ++ ·)) =
        t.kids.flatMap fun k => (if k.2.val = false ∧ k.2.kids ≠ [] then
          (env.get? ((insOf py ins k.2).cls.getD 0)).getD [] else []).map (mark top k.1 ++ ·) := by
      rw [List.flatMap_map, filter_flatMap]
      congr 1
      funext k
      by_cases hc : k.2.val = false ∧ k.2.kids ≠ []
      · rw [if_pos (decide_eq_true hc), if_pos hc]
      · rw [if_neg (by simpa using hc), if_neg hc]; simp
    rw [e]
    refine (List.flatMap_append_perm _ _ _).trans (List.Perm.of_eq ?_)
    congr 1
    funext k
    unfold sufPins
    rw [List.map_append]
  refine ⟨?_, hn1, _, ?_, hpins.nodup_iff.2 (nodup_members top _ hfk.1 hus
    fun k h => ⟨(hsuf k h).2.2.2.2.1, (hsuf k h).2.2.2.2.2⟩), ?_⟩
  · intro x
    rw [h1.mem_iff]
    simp only [List.mem_flatMap, List.mem_map]
    constructor
    · rintro ⟨k, hk, s, hs, rfl⟩
      obtain ⟨p, a, b, rfl⟩ := (mem_sufSigs (hg k hk) s).1 hs
      exact ⟨k.1, p, flat_cons.2 ⟨k.2, (get_kid ht).2 hk, a, b⟩, rfl⟩
    · rintro ⟨n, p, h, rfl⟩
      obtain ⟨c, hc, a, b⟩ := flat_cons.1 h
      have hm := (get_kid ht).1 hc
      exact ⟨(n, c), hm, joined p, (mem_sufSigs (hg _ hm) _).2 ⟨p, a, b, rfl⟩, rfl⟩
  · unfold classPins
    rw [if_neg, if_neg, if_neg, if_neg]
    · refine not_not_intro (List.all_eq_true.2 ?_)
      intro s hs
      obtain ⟨k, hk', rfl⟩ := List.mem_map.1 (h2.mem_iff.1 hs)
      obtain ⟨hk1, hk2⟩ := List.mem_filter.1 hk'
      obtain ⟨j, ps, a, b, _⟩ := (hg k hk1).cls (of_decide_eq_true hk2).2
      show Dict.has env ((insOf py ins k.2).cls.getD 0) = true
      rw [a]
      simp [Dict.has, b]
    · simpa using hnattr
    · rintro ⟨ha, hb⟩
      apply hb
      dsimp only at ha ⊢
      have : m.1.length ≠ 0 := by simpa using ha
      split <;> omega
    · rintro ⟨ha, hb⟩
      dsimp only at ha hb
      rw [ha, hb] at hattr
      have := hattr.symm.eq_nil
      rw [List.flatMap_eq_nil_iff] at this
      obtain ⟨k, hk1⟩ := List.exists_mem_of_ne_nil _ hk
      have h3 := this k hk1
      rw [List.map_eq_nil_iff] at h3
      unfold sufAttrs sufSigs at h3
      have hl := fine_leaf (hfk.2 k hk1).2.2
      cases hv : k.2.val with
      | true => simp [hv] at h3
      | false =>
        by_cases hkk : k.2.kids = []
        · unfold Tree.leaf at hl; simp [hv, hkk] at hl
        · simp [hv, hkk] at h3
  · intro x
    rw [hpins.mem_iff]
    simp only [List.mem_flatMap, List.mem_map]
    constructor
    · rintro ⟨k, hk, s, hs, rfl⟩
      obtain ⟨p, a, rfl⟩ := (mem_sufPins (hg k hk) s).1 hs
      exact ⟨k.1, p, kept_cons.2 ⟨k.2, (get_kid ht).2 hk, a⟩, rfl⟩
    · rintro ⟨n, p, h, rfl⟩
      obtain ⟨c, hc, a⟩ := kept_cons.1 h
      have hm := (get_kid ht).1 hc
      exact ⟨(n, c), hm, joined p, (mem_sufPins (hg _ hm) _).2 ⟨p, a, rfl⟩, rfl⟩

theorem kids_key_nodup {py : Py} (hp : Ideal py) {t : Tree} (ht : t.Fine py b) :
    (t.kids.map (key py)).Nodup := by
  have hf := fine_kids ht
  refine (List.nodup_map_iff_inj_on (List.Nodup.of_map _ hf.1)).2 ?_
  intro a ha b hb h
  have h1 := hf.2 a ha
  have h2 := hf.2 b hb
  exact List.inj_on_of_nodup_map hf.1 ha hb
    (key_inj hp h1.1 h2.1 h1.2.1 h2.2.1 h1.2.2 h2.2.2 h).1

theorem logs_perm {py : Py} (hp : Ideal py) {t : Tree} (ht : t.Fine py b) {logs : Dict Elt Log}
    (hl : ∀ k ∈ t.kids, logs.get? (key py k) = some (logOf py k)) :
    ((py.order (sonsT py t)).filterMap logs.get?).Perm (t.kids.map (logOf py)) := by
  have h1 : (sonsT py t).Perm (t.kids.map (key py)) := by
    rw [List.perm_ext_iff_of_nodup (nodup_sonsT py t) (kids_key_nodup hp ht)]
    intro e
    rw [mem_sonsT, List.mem_map]
    constructor
    · rintro ⟨k, hk, rfl⟩; exact ⟨k, hk, rfl⟩
    · rintro ⟨k, hk, rfl⟩; exact ⟨k, hk, rfl⟩
  refine (((hp.perm _).trans h1).filterMap _).trans (List.Perm.of_eq ?_)
  rw [List.filterMap_map]
  generalize t.kids = ks at hl
  induction ks with
  | nil => rfl
  | cons k ks ih =>
    rw [List.filterMap_cons, List.map_cons, ← ih fun k hk => hl k (by simp [hk])]
    have e : (logs.get? ∘ key py) k = some (logOf py k) := hl k (by simp)
    rw [e]

/-- A new entry of `insides`. -/
theorem newInside_ok {py : Py} (hp : Ideal py) (top : Bool) {H : Nat} {st : St}
    {env : Dict Nat (List Text)} (hi : InsInv py b H st env) {t : Tree} (ht : t.Fine py b)
    (hl : ∀ k ∈ t.kids, st.logs.get? (key py k) = some (logOf py k))
    (hin : ∀ k ∈ t.kids, st.insides.has (ihash py k.2) = true) :
    ∃ env' e, (newInside py top t.leaf (ihash py t) (sonsT py t) st).err = false ∧
      exec (newInside py top t.leaf (ihash py t) (sonsT py t) st).out [] = some env' ∧
      (∀ k ∈ Dict.keys env', k < (newInside py top t.leaf (ihash py t) (sonsT py t) st).count) ∧
      (∀ k ps, env.get? k = some ps → env'.get? k = some ps) ∧
      (newInside py top t.leaf (ihash py t) (sonsT py t) st).logs = st.logs ∧
      (newInside py top t.leaf (ihash py t) (sonsT py t) st).insides.get? (ihash py t) = some e ∧
      (∀ h, h ≠ ihash py t → (newInside py top t.leaf (ihash py t) (sonsT py t) st).insides.get? h =
        st.insides.get? h) ∧
      Good top env' t e ∧
      (t.kids ≠ [] → ∃ c, (newInside py top t.leaf (ihash py t) (sonsT py t) st).out = st.out ++ [c] ∧
        e.cls = some c.id) := by
  by_cases hb : t.leaf &&& 2 ≠ 0
  · have hk := (leaf_bun t).1 hb
    have hkid : ∀ k ∈ t.kids, ∀ v, (Dict.get? (st.insides.set (ihash py t) v) (ihash py k.2)) =
        st.insides.get? (ihash py k.2) := by
      intro k hk v
      refine Dict.get?_set_ne _ ?_ v
      intro he
      have := ihash_height hp ht ((fine_kids ht).2 k hk).2.2 he
      have := kid_height hk
      omega
    have hg : ∀ k ∈ t.kids, Good false env k.2
        (insOf py (st.insides.set (ihash py t) ⟨none, []⟩) k.2) := by
      intro k hk
      unfold insOf
      rw [hkid k hk]
      have h1 := hin k hk
      unfold Dict.has at h1
      obtain ⟨e, he⟩ := Option.isSome_iff_exists.1 h1
      rw [he]
      obtain ⟨c, a, _, b, d⟩ := hi.ins _ _ he
      exact d.trans hp a ((fine_kids ht).2 k hk).2.2 b
    have hls := logs_perm hp ht hl
    have hm := members_perm (py := py) top (st.insides.set (ihash py t) ⟨none, []⟩) hls
      (fine_kids ht).1
    obtain ⟨c1, c2, ps, c3, c4, c5⟩ := class_ok top ht hk hg hm.1 hm.2 st.count
    unfold newInside
    simp only [if_pos hb]
    refine ⟨env.set st.count ps, _, ?_, ?_, ?_, ?_, trivial, Dict.get?_set_self _ _ _, ?_, ⟨c1, c2, ?_⟩, ?_⟩
    · rw [hi.noerr]
      have e1 : (py.order (sonsT py t)).all st.logs.has = true := by
        rw [List.all_eq_true]
        intro e he
        obtain ⟨k, hk, rfl⟩ := (mem_sonsT py t e).1 ((hp.perm _).mem_iff.1 he)
        unfold Dict.has; rw [hl k hk]; rfl
      have e2 : (List.foldl groupStep [] ((py.order (sonsT py t)).filterMap st.logs.get?)).all
          (fun g => (st.insides.set (ihash py t) ⟨none, []⟩).has g.1) = true := by
        rw [List.all_eq_true]
        intro g hg'
        rcases groups_keys _ [] g.1 (List.mem_map_of_mem hg') with h | ⟨l, h1, _, h2⟩
        · simp [Dict.keys] at h
        · obtain ⟨k, hk, rfl⟩ := List.mem_map.1 (hls.mem_iff.1 h1)
          rw [h2]
          unfold Dict.has
          rw [show (logOf py k).inside = ihash py k.2 from rfl, hkid k hk]
          exact hin k hk
      rw [e1, e2]; rfl
    · rw [exec_snoc, hi.run, Option.bind_some, c3, Option.map_some]
    · intro k hk
      rw [Dict.keys_set] at hk
      split at hk
      · have := hi.ids k hk; omega
      · rcases List.mem_append.1 hk with hk | hk
        · have := hi.ids k hk; omega
        · simp at hk; omega
    · intro k ps' h
      rw [Dict.get?_set_ne _ ?_]
      · exact h
      · rintro rfl
        have hmem : st.count ∈ Dict.keys env := by
          rw [← Dict.has_iff]; unfold Dict.has; rw [h]; rfl
        have := hi.ids _ hmem
        omega
    · intro h hne
      rw [Dict.get?_set_ne _ (Ne.symm hne), Dict.get?_set_ne _ (Ne.symm hne)]
    · intro _
      exact ⟨st.count, ps, rfl, Dict.get?_set_self _ _ _, c4, c5⟩
    · intro _
      exact ⟨_, rfl, rfl⟩
  · have hk : t.kids = [] := by
      by_contra hk; exact hb ((leaf_bun t).2 hk)
    unfold newInside
    simp only [if_neg hb]
    refine ⟨env, ⟨none, []⟩, hi.noerr, hi.run, hi.ids, fun _ _ h => h, trivial, ?_, ?_, ⟨?_, ?_, ?_⟩, ?_⟩
    · exact Dict.get?_set_self _ _ _
    · intro h hne
      exact Dict.get?_set_ne _ (Ne.symm hne) _
    · intro x
      constructor
      · intro h; simp at h
      · rintro ⟨n, p, h, _⟩
        obtain ⟨c, hc, _⟩ := flat_cons.1 h
        rw [hk] at hc
        simp [Dict.get?] at hc
    · exact List.nodup_nil
    · intro h; exact absurd hk h
    · intro h; exact absurd hk h

theorem log_get {py : Py} (hp : Ideal py) {st : St} (hl : LogInv py b st) {k : Text × Tree}
    (hk : KidFine py b k) (h : st.logs.has (key py k) = true) :
    st.logs.get? (key py k) = some (logOf py k) ∧ st.insides.has (ihash py k.2) = true := by
  unfold Dict.has at h
  obtain ⟨l, he⟩ := Option.isSome_iff_exists.1 h
  obtain ⟨k', a, b, c, d⟩ := hl _ _ he
  obtain ⟨e1, e2, e3⟩ := key_inj hp hk.1 a.1 hk.2.1 a.2.1 hk.2.2 a.2.2 b
  refine ⟨?_, ?_⟩
  · rw [he, c]; unfold logOf; rw [e1, e2, e3]
  · rw [e3]; exact d

theorem enter_fst (py : Py) (top : Bool) (k : Text × Tree) (st : St) :
    (enter py top k.1 k.2.leaf (sonsT py k.2) st).1 = key py k := rfl

/-- One more child. -/
theorem enter_ok {py : Py} (hp : Ideal py) {H : Nat} {st : St} {env : Dict Nat (List Text)}
    (hi : InsInv py b H st env) (hl : LogInv py b st) {k : Text × Tree} (hk : KidFine py b k)
    (hh : k.2.height < H) (hkids : ∀ j ∈ k.2.kids, st.logs.has (key py j) = true) :
    ∃ env', InsInv py b H (enter py false k.1 k.2.leaf (sonsT py k.2) st).2 env' ∧
      LogInv py b (enter py false k.1 k.2.leaf (sonsT py k.2) st).2 ∧
      (∀ s, st.logs.has s = true →
        (enter py false k.1 k.2.leaf (sonsT py k.2) st).2.logs.has s = true) ∧
      (enter py false k.1 k.2.leaf (sonsT py k.2) st).2.logs.has (key py k) = true := by
  have hkf : ∀ j ∈ k.2.kids, KidFine py b j := fun j hj => (fine_kids hk.2.2).2 j hj
  -- the state after the first part
  generalize hst1 : (if st.logs.has (key py k) then st
    else { st with logs := st.logs.set (key py k) ⟨k.2.leaf, ihash py k.2, k.1⟩ }) = st1
  have hmono : ∀ s l, st.logs.get? s = some l → st1.logs.get? s = some l := by
    intro s l h
    subst hst1
    split
    · exact h
    · rename_i hn
      rw [Dict.get?_set_ne]
      · exact h
      · rintro rfl; apply hn; unfold Dict.has; rw [h]; rfl
  have hself : st1.logs.get? (key py k) = some (logOf py k) := by
    subst hst1
    split
    · rename_i h; exact (log_get hp hl hk h).1
    · exact Dict.get?_set_self _ _ _
  have hins1 : st1.insides = st.insides := by subst hst1; split <;> rfl
  have hi1 : InsInv py b H st1 env := by
    subst hst1
    split
    · exact hi
    · exact ⟨hi.noerr, hi.run, hi.ids, hi.ins⟩
  have hback : ∀ s l, st1.logs.get? s = some l → st.logs.get? s = some l ∨
      (s = key py k ∧ l = logOf py k) := by
    intro s l h
    subst hst1
    split at h
    · exact .inl h
    · by_cases hs : s = key py k
      · subst hs
        rw [Dict.get?_set_self] at h
        exact .inr ⟨rfl, (Option.some.inj h).symm⟩
      · rw [Dict.get?_set_ne _ (Ne.symm hs)] at h
        exact .inl h
  have hmono' : ∀ s, st.logs.has s = true → st1.logs.has s = true := by
    intro s h
    unfold Dict.has at h ⊢
    obtain ⟨l, he⟩ := Option.isSome_iff_exists.1 h
    rw [hmono s l he]; rfl
  have hres : (enter py false k.1 k.2.leaf (sonsT py k.2) st).2 =
      if st1.insides.has (ihash py k.2) then st1
      else newInside py false k.2.leaf (ihash py k.2) (sonsT py k.2) st1 := by
    subst hst1; rfl
  rw [hres]
  by_cases hh1 : st1.insides.has (ihash py k.2) = true
  · rw [if_pos hh1]
    refine ⟨env, hi1, ?_, hmono', ?_⟩
    · intro s l h
      rcases hback s l h with h | ⟨rfl, rfl⟩
      · obtain ⟨k', a, b, c, d⟩ := hl s l h
        exact ⟨k', a, b, c, by rw [hins1]; exact d⟩
      · exact ⟨k, hk, rfl, rfl, hh1⟩
    · unfold Dict.has; rw [hself]; rfl
  · rw [if_neg hh1]
    simp only [Bool.not_eq_true] at hh1
    obtain ⟨env', e, a1, a2, a3, a4, a5, a6, a7, a8, _⟩ := newInside_ok hp false hi1 hk.2.2
      (fun j hj => hmono _ _ (log_get hp hl (hkf j hj) (hkids j hj)).1)
      (fun j hj => by rw [hins1]; exact (log_get hp hl (hkf j hj) (hkids j hj)).2)
    have hhas : ∀ h, st.insides.has h = true → (newInside py false k.2.leaf (ihash py k.2)
        (sonsT py k.2) st1).insides.has h = true := by
      intro h hx
      by_cases he : h = ihash py k.2
      · subst he; unfold Dict.has; rw [a6]; rfl
      · unfold Dict.has; rw [a7 h he, hins1]; exact hx
    refine ⟨env', ⟨a1, a2, a3, ?_⟩, ?_, ?_, ?_⟩
    · intro h e' he
      by_cases hx : h = ihash py k.2
      · subst hx
        rw [a6] at he
        cases he
        exact ⟨k.2, hk.2.2, hh, rfl, a8⟩
      · rw [a7 h hx] at he
        obtain ⟨c, b1, b2, b3, b4⟩ := hi1.ins h e' he
        exact ⟨c, b1, b2, b3, b4.mono a4⟩
    · intro s l h
      rw [a5] at h
      rcases hback s l h with h | ⟨rfl, rfl⟩
      · obtain ⟨k', a, b, c, d⟩ := hl s l h
        exact ⟨k', a, b, c, hhas _ d⟩
      · exact ⟨k, hk, rfl, rfl, by unfold Dict.has; rw [a6]; rfl⟩
    · rw [a5]; exact hmono'
    · rw [a5]; unfold Dict.has; rw [hself]; rfl

mutual
/-- The visit of a tree below the top level. -/
theorem visitTree_ok {py : Py} (hp : Ideal py) {H : Nat} (t : Tree) (ht : t.Fine py b)
    (hh : t.height ≤ H) {st : St} {env : Dict Nat (List Text)} (hi : InsInv py b H st env)
    (hl : LogInv py b st) :
    (visitTree py false t st).1 = sonsT py t ∧ ∃ env', InsInv py b H (visitTree py false t st).2 env' ∧
      LogInv py b (visitTree py false t st).2 ∧
      (∀ s, st.logs.has s = true → (visitTree py false t st).2.logs.has s = true) ∧
      ∀ k ∈ t.kids, (visitTree py false t st).2.logs.has (key py k) = true := by
  match t with
  | .mk v f =>
    unfold visitTree sonsT
    unfold Tree.Fine at ht
    exact visitKids_ok hp f ht.2 hh [] hi hl
theorem visitKids_ok {py : Py} (hp : Ideal py) {H : Nat} (f : Forest) (hf : f.Fine py b)
    (hh : f.height ≤ H) (sons : List Elt) {st : St} {env : Dict Nat (List Text)}
    (hi : InsInv py b H st env) (hl : LogInv py b st) :
    (visitKids py false f sons st).1 = sonsF py f sons ∧
      ∃ env', InsInv py b H (visitKids py false f sons st).2 env' ∧
      LogInv py b (visitKids py false f sons st).2 ∧
      (∀ s, st.logs.has s = true → (visitKids py false f sons st).2.logs.has s = true) ∧
      ∀ k ∈ f.toList, (visitKids py false f sons st).2.logs.has (key py k) = true := by
  match f with
  | .nil => exact ⟨rfl, env, hi, hl, fun _ h => h, by simp [Forest.toList]⟩
  | .cons n t rest =>
    have hfk := (forest_fine hf).2 (n, t) (by simp [Forest.toList])
    have hth := forest_height (.cons n t rest) (n, t) (by simp [Forest.toList])
    have hf' := hf
    unfold Forest.Fine at hf'
    have hrest : rest.height ≤ H := by
      unfold Forest.height at hh; omega
    obtain ⟨h1, env1, h2, h3, h4, h5⟩ := visitTree_ok hp t hf'.2.2.2.1
      (by dsimp only at hth; omega) hi hl
    obtain ⟨env2, g1, g2, g3, g4⟩ := enter_ok hp h2 h3 (k := (n, t)) hfk (by omega) h5
    obtain ⟨k1, env3, k2, k3, k4, k5⟩ := visitKids_ok hp rest hf'.2.2.2.2 hrest
      (add (key py (n, t)) sons) g1 g2
    unfold visitKids sonsF
    dsimp only
    rw [h1]
    refine ⟨k1, env3, k2, k3, fun s hs => k4 s (g3 s (h4 s hs)), ?_⟩
    intro k hk
    simp only [Forest.toList, List.mem_cons] at hk
    rcases hk with rfl | hk
    · exact k4 _ g4
    · exact k5 k hk
end

/-- The whole program. -/
theorem main_ok {py : Py} (hp : Ideal py) (module : Text) {data : Tree} (hd : data.Fine py b)
    (hk : data.kids ≠ []) (hm : NameOk py module) (hm2 : Apart b module data.leaf) :
    (main py module data).err = false ∧ ∃ env c ps, exec (main py module data).out [] = some env ∧
      (main py module data).out.getLast? = some c ∧ env.get? c.id = some ps ∧ ps.Nodup ∧
      ∀ x, x ∈ ps ↔ ∃ n p, Kept data (n :: p) ∧ x = n ++ joined p := by
  have hi0 : InsInv py b data.height {} [] := ⟨rfl, rfl, by simp [Dict.keys], by simp [Dict.get?]⟩
  have hl0 : LogInv py b {} := by intro s l h; simp [Dict.get?] at h
  obtain ⟨h1, env, h2, h3, h4, h5⟩ := visitTree_ok hp data hd (Nat.le_refl _) hi0 hl0
  generalize hst : (visitTree py false data {}).2 = st at h2 h3 h4 h5
  have hmain : main py module data = (enter py true module data.leaf (sonsT py data) st).2 := by
    unfold main visitTree visitKids visitKids
    dsimp only
    rw [h1, hst]
  have hkf : ∀ j ∈ data.kids, KidFine py b j := fun j hj => (fine_kids hd).2 j hj
  have hnew : st.insides.has (ihash py data) = false := by
    cases hc : st.insides.get? (ihash py data) with
    | none => unfold Dict.has; rw [hc]; rfl
    | some e =>
      obtain ⟨c, a, b, d, _⟩ := h2.ins _ _ hc
      have := ihash_height hp hd a d.symm
      omega
  have hnk : st.logs.has (key py (module, data)) = false := by
    cases hc : st.logs.has (key py (module, data)) with
    | false => rfl
    | true =>
      have := (log_get hp h3 (k := (module, data)) ⟨hm, hm2, hd⟩ hc).2
      rw [hnew] at this; exact absurd this (by decide)
  generalize hst1 : ({ st with
      logs := st.logs.set (key py (module, data)) (logOf py (module, data)) } : St) = st1
  have hres : main py module data =
      newInside py true data.leaf (ihash py data) (sonsT py data) st1 := by
    have e : (enter py true module data.leaf (sonsT py data) st).2 =
        if (if st.logs.has (key py (module, data)) then st
          else { st with
            logs := st.logs.set (key py (module, data)) (logOf py (module, data)) }).insides.has (ihash py data) then
          (if st.logs.has (key py (module, data)) then st
          else { st with
            logs := st.logs.set (key py (module, data)) (logOf py (module, data)) })
        else newInside py true data.leaf (ihash py data) (sonsT py data)
          (if st.logs.has (key py (module, data)) then st
          else { st with
            logs := st.logs.set (key py (module, data)) (logOf py (module, data)) }) := rfl
    rw [hmain, e, hnk]
    simp only [Bool.false_eq_true, if_false, hst1]
    have : st1.insides = st.insides := by subst hst1; rfl
    rw [this, hnew]
    rfl
  have hi1 : InsInv py b data.height st1 env := by
    subst hst1; exact ⟨h2.noerr, h2.run, h2.ids, h2.ins⟩
  obtain ⟨env', e, a1, a2, a3, a4, a5, a6, a7, a8, a9⟩ := newInside_ok hp true hi1 hd
    (fun j hj => by
      subst hst1
      dsimp only
      rw [Dict.get?_set_ne]
      · exact (log_get hp h3 (hkf j hj) (h5 j hj)).1
      · intro he
        rw [he, h5 j hj] at hnk
        exact absurd hnk (by decide))
    (fun j hj => by subst hst1; exact (log_get hp h3 (hkf j hj) (h5 j hj)).2)
  rw [hres]
  obtain ⟨c, b1, b2⟩ := a9 hk
  obtain ⟨i, ps, c1, c2, c3, c4⟩ := a8.cls hk
  rw [b2] at c1
  cases c1
  exact ⟨a1, env', c, ps, a2, by rw [b1]; simp, c2, c3, by simpa [mark] using c4⟩

end Toffee.IntelGen
