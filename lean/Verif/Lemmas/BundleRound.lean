import Verif.Props.BundleAssign
import Verif.Lemmas.BundleAgain

/-! Dictionaries made by `as_dict`. -/

namespace Toffee.Bundle

/-! ### Lists and dictionaries -/

theorem Items.toList_ofList (l : List (Name × Val)) : (Items.ofList l).toList = l := by
  induction l with
  | nil => rfl
  | cons e l ih => simp [Items.ofList, Items.toList, ih]

theorem Vals.toList_ofList (l : List Val) : (Vals.ofList l).toList = l := by
  induction l with
  | nil => rfl
  | cons e l ih => simp [Vals.ofList, Vals.toList, ih]

theorem collect_get {α β : Type} {f : α → Option β} {l : List α} {r : List β}
    (h : collect f l = some r) {i : Nat} {a : α} (ha : l[i]? = some a) :
    ∃ b, f a = some b ∧ r[i]? = some b := by
  induction l generalizing r i with
  | nil => simp at ha
  | cons x l ih =>
    rw [collect] at h
    cases hf : f x with
    | none => rw [hf] at h; cases h
    | some y =>
      rw [hf, Option.bind_some] at h
      cases hc : collect f l with
      | none => rw [hc] at h; cases h
      | some r' =>
        rw [hc] at h
        cases h
        cases i with
        | zero => cases ha; exact ⟨y, hf, rfl⟩
        | succ i => exact ih hc (by simpa using ha)

theorem collect_mem {α β : Type} {f : α → Option β} {l : List α} {r : List β}
    (h : collect f l = some r) {b : β} (hb : b ∈ r) : ∃ a ∈ l, f a = some b := by
  induction l generalizing r with
  | nil => cases h; cases hb
  | cons x l ih =>
    rw [collect] at h
    cases hf : f x with
    | none => rw [hf] at h; cases h
    | some y =>
      rw [hf, Option.bind_some] at h
      cases hc : collect f l with
      | none => rw [hc] at h; cases h
      | some r' =>
        rw [hc] at h
        cases h
        rcases List.mem_cons.1 hb with rfl | hb
        · exact ⟨x, List.mem_cons_self, hf⟩
        · obtain ⟨a, ha, h⟩ := ih hc hb
          exact ⟨a, List.mem_cons_of_mem _ ha, h⟩

theorem collect_length {α β : Type} {f : α → Option β} {l : List α} {r : List β}
    (h : collect f l = some r) : r.length = l.length := by
  induction l generalizing r with
  | nil => cases h; rfl
  | cons x l ih =>
    rw [collect] at h
    cases hf : f x with
    | none => rw [hf] at h; cases h
    | some y =>
      rw [hf, Option.bind_some] at h
      cases hc : collect f l with
      | none => rw [hc] at h; cases h
      | some r' =>
        rw [hc] at h
        cases h
        simp [ih hc]

theorem collect_congr {α β : Type} {f g : α → Option β} {l : List α}
    (h : ∀ a ∈ l, f a = g a) : collect f l = collect g l := by
  induction l with
  | nil => rfl
  | cons x l ih =>
    rw [collect, collect, h x List.mem_cons_self,
      ih fun a ha => h a (List.mem_cons_of_mem _ ha)]

theorem collect_isSome {α β : Type} {f : α → Option β} {l : List α}
    (h : ∀ a ∈ l, (f a).isSome) : (collect f l).isSome := by
  induction l with
  | nil => rfl
  | cons x l ih =>
    rw [collect]
    obtain ⟨y, hy⟩ := Option.isSome_iff_exists.1 (h x List.mem_cons_self)
    obtain ⟨r, hr⟩ := Option.isSome_iff_exists.1 (ih fun a ha => h a (List.mem_cons_of_mem _ ha))
    rw [hy, hr]
    rfl

/-- The keys of a collected list. -/
theorem collect_keys {α : Type} {f : α → Option (Name × Val)} {k : α → Name} {l : List α}
    {r : List (Name × Val)} (h : collect f l = some r) (hk : ∀ a e, f a = some e → e.1 = k a) :
    r.map Prod.fst = l.map k := by
  induction l generalizing r with
  | nil => cases h; rfl
  | cons x l ih =>
    rw [collect] at h
    cases hf : f x with
    | none => rw [hf] at h; cases h
    | some y =>
      rw [hf, Option.bind_some] at h
      cases hc : collect f l with
      | none => rw [hc] at h; cases h
      | some r' =>
        rw [hc] at h
        cases h
        simp [ih hc, hk x y hf]

/-! ### Induction over bundle trees -/

mutual
theorem Bundle.ind {P : Bundle → Prop}
    (h : ∀ b, (∀ i c, b.kids.get i = some c → P c) → P b) : ∀ b, P b
  | .mk _ _ _ ks => h _ (Kids.ind h ks)
theorem Kids.ind {P : Bundle → Prop}
    (h : ∀ b, (∀ i c, b.kids.get i = some c → P c) → P b) :
    ∀ ks : Kids, ∀ i c, ks.get i = some c → P c
  | .nil, i, c, hc => by cases hc
  | .cons l b ks, 0, c, hc => by
    cases hc
    exact Bundle.ind h b
  | .cons l b ks, i + 1, c, hc => Kids.ind h ks i c hc
end

/-! ### The level -/

/-- The entries of one level. -/
structure LevelDict (pins : Nat → Int) (lv : Level) (own : List (Name × Val)) : Prop where
  keys : own.map Prod.fst = lv.signals.map Cell.name ++ lv.lists.map Prod.fst
  mem : ∀ e ∈ own, (∃ c ∈ lv.signals, e.1 = c.name ∧ readSlot pins c.slot = some e.2) ∨
    ∃ l ∈ lv.lists, e.1 = l.1 ∧ ∃ vs, collect (fun x => readSlot pins x.2) l.2 = some vs ∧
      e.2 = .seq (Vals.ofList vs)
  signal : ∀ c ∈ lv.signals, ∃ v, readSlot pins c.slot = some v ∧ (c.name, v) ∈ own
  list : ∀ l ∈ lv.lists, ∃ vs, collect (fun x => readSlot pins x.2) l.2 = some vs ∧
    (l.1, .seq (Vals.ofList vs)) ∈ own

theorem levelDict {pins : Nat → Int} {lv : Level} {own : List (Name × Val)}
    (h : lv.dict pins = some own) : LevelDict pins lv own := by
  unfold Level.dict at h
  cases h1 : collect (fun c : Cell => (readSlot pins c.slot).map fun v => (c.name, v)) lv.signals with
  | none => rw [h1] at h; cases h
  | some s =>
    rw [h1, Option.bind_some] at h
    cases h2 : collect (fun l : Name × List (Name × Slot) =>
        (collect (fun e => readSlot pins e.2) l.2).map fun vs =>
          (l.1, Val.seq (Vals.ofList vs))) lv.lists with
    | none => rw [h2] at h; cases h
    | some l =>
      rw [h2] at h
      cases h
      refine ⟨?_, ?_, ?_, ?_⟩
      · rw [List.map_append, collect_keys (k := Cell.name) h1, collect_keys (k := Prod.fst) h2]
        · intro a e he
          obtain ⟨vs, _, rfl⟩ := Option.map_eq_some_iff.1 he
          rfl
        · intro a e he
          obtain ⟨vs, _, rfl⟩ := Option.map_eq_some_iff.1 he
          rfl
      · intro e he
        rcases List.mem_append.1 he with he | he
        · obtain ⟨c, hc, h⟩ := collect_mem h1 he
          obtain ⟨v, hv, rfl⟩ := Option.map_eq_some_iff.1 h
          exact .inl ⟨c, hc, rfl, hv⟩
        · obtain ⟨c, hc, h⟩ := collect_mem h2 he
          obtain ⟨v, hv, rfl⟩ := Option.map_eq_some_iff.1 h
          exact .inr ⟨c, hc, rfl, v, hv, rfl⟩
      · intro c hc
        obtain ⟨i, hi⟩ := List.getElem?_of_mem hc
        obtain ⟨e, he, hr⟩ := collect_get h1 hi
        obtain ⟨v, hv, rfl⟩ := Option.map_eq_some_iff.1 he
        exact ⟨v, hv, List.mem_append_left _ (List.mem_of_getElem? hr)⟩
      · intro c hc
        obtain ⟨i, hi⟩ := List.getElem?_of_mem hc
        obtain ⟨e, he, hr⟩ := collect_get h2 hi
        obtain ⟨v, hv, rfl⟩ := Option.map_eq_some_iff.1 he
        exact ⟨v, hv, List.mem_append_right _ (List.mem_of_getElem? hr)⟩

theorem writeSlot_read {pins : Nat → Int} {s : Slot} {v : Val} (h : readSlot pins s = some v) :
    (writeSlot s v).err = none ∧ (writeSlot s v).reports = [] := by
  cases s <;> cases h <;> exact ⟨rfl, rfl⟩

theorem writeAll_read {pins : Nat → Int} {es : List (Name × Slot)} {vs : List Val}
    (h : collect (fun x => readSlot pins x.2) es = some vs) :
    (writeAll (es.map Prod.snd) vs).err = none ∧ (writeAll (es.map Prod.snd) vs).reports = [] := by
  induction es generalizing vs with
  | nil => cases h; exact ⟨rfl, rfl⟩
  | cons e es ih =>
    rw [collect] at h
    cases hf : readSlot pins e.2 with
    | none => rw [hf] at h; cases h
    | some v =>
      rw [hf, Option.bind_some] at h
      cases hc : collect (fun x : Name × Slot => readSlot pins x.2) es with
      | none => rw [hc] at h; cases h
      | some vs' =>
        rw [hc] at h
        cases h
        have h1 := writeSlot_read hf
        have h2 := ih hc
        simp only [List.map_cons, writeAll, Out.next, h1.1, h1.2, h2.1, h2.2]
        exact ⟨trivial, rfl⟩

theorem assignList_read {pins : Nat → Int} {es : List (Name × Slot)} {vs : List Val}
    (h : collect (fun x => readSlot pins x.2) es = some vs) :
    (assignList (es.map Prod.snd) (.seq (Vals.ofList vs))).err = none ∧
      (assignList (es.map Prod.snd) (.seq (Vals.ofList vs))).reports = [] := by
  have h1 := writeAll_read h
  have h2 := collect_length h
  simp only [assignList, Vals.toList_ofList, List.length_map, h2, if_true, Out.next, h1.1, h1.2]
  exact ⟨rfl, rfl⟩

theorem assignItems_ok (dev : Dev) (flat : Bool) (level : Name) (b : Bundle) : ∀ d : Items,
    (∀ e ∈ d.toList, e.1 ≠ star ∧
      (assignKey dev flat level e.1 (b.target flat e.1) e.2).err = none ∧
      (assignKey dev flat level e.1 (b.target flat e.1) e.2).reports = []) →
    (assignItems dev flat level b d).err = none ∧ (assignItems dev flat level b d).reports = []
  | .nil, _ => by rw [assignItems]; exact ⟨rfl, rfl⟩
  | .cons k v rest, h => by
    obtain ⟨h1, h2, h3⟩ := h (k, v) (by rw [Items.toList]; exact List.mem_cons_self)
    have ih := assignItems_ok dev flat level b rest fun e he =>
      h e (by rw [Items.toList]; exact List.mem_cons_of_mem _ he)
    rw [assignItems_cons, if_neg h1]
    simp only [Out.next, h2, h3, ih.1, ih.2]
    exact ⟨trivial, rfl⟩

theorem assign_ok (dev : Dev) (flat : Bool) (level : Name) (b : Bundle) (d : Items)
    (h : ∀ e ∈ d.toList, e.1 ≠ star ∧
      (assignKey dev flat level e.1 (b.target flat e.1) e.2).err = none ∧
      (assignKey dev flat level e.1 (b.target flat e.1) e.2).reports = []) :
    (assign dev flat level b (.dict d)).err = none ∧
      (assign dev flat level b (.dict d)).reports = [] := by
  have hs : d.star? = none := by
    rw [star?_get, get_none]
    intro v hm
    exact (h _ hm).1 rfl
  rw [assign, hs]
  exact assignItems_ok dev flat level b d h

/-! ### The children -/

theorem kids_asDict_get {pins : Nat → Int} : ∀ {ks : Kids} {ds : List (Label × Items)},
    ks.asDict pins = some ds → ∀ {i : Nat} {l : Label} {c : Bundle}, ks.label i = some l →
    ks.get i = some c → ∃ d, c.asDict pins = some d ∧ ds[i]? = some (l, d)
  | .nil, _, _, _, _, _, hl, _ => by cases hl
  | .cons l' b ks, ds, h, i, l, c, hl, hk => by
    rw [Kids.asDict] at h
    cases h1 : b.asDict pins with
    | none => rw [h1] at h; cases h
    | some d =>
      rw [h1, Option.bind_some] at h
      cases h2 : ks.asDict pins with
      | none => rw [h2] at h; cases h
      | some ds' =>
        rw [h2] at h
        cases h
        cases i with
        | zero => cases hl; cases hk; exact ⟨d, h1, rfl⟩
        | succ i => exact kids_asDict_get h2 hl hk

theorem kids_asDict_mem {pins : Nat → Int} : ∀ {ks : Kids} {ds : List (Label × Items)},
    ks.asDict pins = some ds → ∀ {l : Label} {d : Items}, (l, d) ∈ ds →
    ∃ i c, ks.label i = some l ∧ ks.get i = some c ∧ c.asDict pins = some d
  | .nil, _, h, _, _, hm => by
    rw [Kids.asDict] at h
    cases h
    cases hm
  | .cons l' b ks, ds, h, l, d, hm => by
    rw [Kids.asDict] at h
    cases h1 : b.asDict pins with
    | none => rw [h1] at h; cases h
    | some d' =>
      rw [h1, Option.bind_some] at h
      cases h2 : ks.asDict pins with
      | none => rw [h2] at h; cases h
      | some ds' =>
        rw [h2] at h
        cases h
        rcases List.mem_cons.1 hm with hm | hm
        · cases hm
          exact ⟨0, b, rfl, rfl, h1⟩
        · obtain ⟨i, c, h3, h4, h5⟩ := kids_asDict_mem h2 hm
          exact ⟨i + 1, c, h3, h4, h5⟩

/-- The dictionaries of the elements of one bundle list. -/
def elemDicts (n : Name) (ds : List (Label × Items)) : List Val :=
  ds.filterMap fun d =>
    match d.1 with
    | .sub _ => none
    | .elem m _ => if m = n then some (.dict d.2) else none

theorem kids_elemDicts {pins : Nat → Int} (n : Name) : ∀ {ks : Kids} {ds : List (Label × Items)},
    ks.asDict pins = some ds →
    collect (fun c => (Bundle.asDict pins c).map Val.dict) (ks.elems n) = some (elemDicts n ds)
  | .nil, _, h => by
    rw [Kids.asDict] at h
    cases h
    rfl
  | .cons l b ks, ds, h => by
    rw [Kids.asDict] at h
    cases h1 : b.asDict pins with
    | none => rw [h1] at h; cases h
    | some d' =>
      rw [h1, Option.bind_some] at h
      cases h2 : ks.asDict pins with
      | none => rw [h2] at h; cases h
      | some ds' =>
        rw [h2] at h
        cases h
        have ih := kids_elemDicts n h2
        cases l with
        | sub m =>
          rw [Kids.elems]
          exact ih
        | elem m j =>
          rw [Kids.elems]
          by_cases hm : m = n
          · rw [if_pos hm, collect, h1, ih]
            simp [elemDicts, hm]
          · rw [if_neg hm, ih]
            simp [elemDicts, hm]

/-- The dictionaries of the sub-bundles. -/
def subDicts (ds : List (Label × Items)) : List (Name × Val) :=
  ds.filterMap fun d =>
    match d.1 with
    | .sub n => some (n, .dict d.2)
    | .elem _ _ => none

/-- The names of the bundle lists. -/
def elemHeads (ds : List (Label × Items)) : List Name :=
  ds.filterMap fun d =>
    match d.1 with
    | .sub _ => none
    | .elem n _ => some n

theorem kidItems_eq (ds : List (Label × Items)) :
    kidItems ds = subDicts ds ++
      (elemHeads ds).eraseDups.map fun n => (n, .seq (Vals.ofList (elemDicts n ds))) := rfl

theorem kids_names {pins : Nat → Int} : ∀ {ks : Kids} {ds : List (Label × Items)},
    ks.asDict pins = some ds →
    (subDicts ds).map Prod.fst = ks.subNames ∧ elemHeads ds = ks.elemNames
  | .nil, _, h => by
    rw [Kids.asDict] at h
    cases h
    exact ⟨rfl, rfl⟩
  | .cons l b ks, ds, h => by
    rw [Kids.asDict] at h
    cases h1 : b.asDict pins with
    | none => rw [h1] at h; cases h
    | some d' =>
      rw [h1, Option.bind_some] at h
      cases h2 : ks.asDict pins with
      | none => rw [h2] at h; cases h
      | some ds' =>
        rw [h2] at h
        cases h
        have ih := kids_names h2
        cases l with
        | sub m => exact ⟨by simpa [Kids.subNames, subDicts] using ih.1, by
            simpa [Kids.elemNames, elemHeads] using ih.2⟩
        | elem m j => exact ⟨by simpa [Kids.subNames, subDicts] using ih.1, by
            simpa [Kids.elemNames, elemHeads] using ih.2⟩

theorem nodup_eraseDups (l : List Name) : l.eraseDups.Nodup := by
  induction hn : l.length using Nat.strongRecOn generalizing l with
  | ind n ih =>
    cases l with
    | nil => simp
    | cons a l =>
      rw [List.eraseDups_cons, List.nodup_cons]
      have hlt : (l.filter fun b => !b == a).length < n := by
        have := List.length_filter_le (fun b => !b == a) l
        simp only [List.length_cons] at hn
        omega
      refine ⟨?_, ih _ hlt _ rfl⟩
      rw [List.mem_eraseDups]
      simp

theorem dictOf {pins : Nat → Int} {r : Rule} {lv : Level} {cl : Option Nat} {ks : Kids} {d : Items}
    (h : (Bundle.mk r lv cl ks).asDict pins = some d) :
    ∃ own ds, LevelDict pins lv own ∧ ks.asDict pins = some ds ∧
      d.toList = own ++ kidItems ds := by
  rw [Bundle.asDict] at h
  cases h1 : lv.dict pins with
  | none => rw [h1] at h; cases h
  | some own =>
    rw [h1, Option.bind_some] at h
    cases h2 : ks.asDict pins with
    | none => rw [h2] at h; cases h
    | some ds =>
      rw [h2] at h
      cases h
      exact ⟨own, ds, levelDict h1, rfl, Items.toList_ofList _⟩

theorem dict_keys {pins : Nat → Int} {r : Rule} {lv : Level} {cl : Option Nat} {ks : Kids}
    {d : Items} (h : (Bundle.mk r lv cl ks).asDict pins = some d) :
    d.toList.map Prod.fst = attrNames lv ks ++ ks.elemNames.eraseDups := by
  obtain ⟨own, ds, h1, h2, h3⟩ := dictOf h
  obtain ⟨h4, h5⟩ := kids_names h2
  rw [h3, kidItems_eq, List.map_append, List.map_append, h1.keys, h4, h5, List.map_map]
  simp only [attrNames, List.append_assoc]
  congr 3
  exact List.map_id _

theorem dict_nodup {pins : Nat → Int} {r : Rule} {lv : Level} {cl : Option Nat} {ks : Kids}
    {d : Items} (ha : (Bundle.mk r lv cl ks).Attr)
    (h : (Bundle.mk r lv cl ks).asDict pins = some d) :
    (d.toList.map Prod.fst).Nodup ∧ ∀ k ∈ d.toList.map Prod.fst, k ≠ star := by
  rw [dict_keys h]
  constructor
  · rw [List.nodup_append]
    refine ⟨ha.1, nodup_eraseDups _, ?_⟩
    rintro a h1 b h2 rfl
    exact ha.2.1 a (List.mem_eraseDups.1 h2) h1
  · intro k hk
    rcases List.mem_append.1 hk with hk | hk
    · exact (ha.2.2.1 k (List.mem_append_left _ hk)).2
    · exact (ha.2.2.1 k (List.mem_append_right _ (List.mem_eraseDups.1 hk))).2

theorem dict_sub {pins : Nat → Int} {r : Rule} {lv : Level} {cl : Option Nat} {ks : Kids}
    {d : Items} (h : (Bundle.mk r lv cl ks).asDict pins = some d) {i : Nat} {n : Name} {c : Bundle}
    (hl : ks.label i = some (.sub n)) (hk : ks.get i = some c) :
    ∃ d', c.asDict pins = some d' ∧ (n, .dict d') ∈ d.toList := by
  obtain ⟨own, ds, h1, h2, h3⟩ := dictOf h
  obtain ⟨d', h4, h5⟩ := kids_asDict_get h2 hl hk
  refine ⟨d', h4, ?_⟩
  rw [h3, kidItems_eq]
  refine List.mem_append_right _ (List.mem_append_left _ (List.mem_filterMap.2 ?_))
  exact ⟨_, List.mem_of_getElem? h5, rfl⟩

theorem dict_elem {pins : Nat → Int} {r : Rule} {lv : Level} {cl : Option Nat} {ks : Kids}
    {d : Items} (h : (Bundle.mk r lv cl ks).asDict pins = some d) {n : Name}
    (hn : n ∈ ks.elemNames) :
    ∃ L, collect (fun c => (Bundle.asDict pins c).map Val.dict) (ks.elems n) = some L ∧
      (n, .seq (Vals.ofList L)) ∈ d.toList := by
  obtain ⟨own, ds, h1, h2, h3⟩ := dictOf h
  refine ⟨elemDicts n ds, kids_elemDicts n h2, ?_⟩
  rw [h3, kidItems_eq]
  refine List.mem_append_right _ (List.mem_append_right _ (List.mem_map.2 ?_))
  refine ⟨n, ?_, rfl⟩
  rw [(kids_names h2).2, List.mem_eraseDups]
  exact hn

/-- What the entries of the dictionary are. -/
theorem dict_mem {pins : Nat → Int} {r : Rule} {lv : Level} {cl : Option Nat} {ks : Kids}
    {d : Items} (h : (Bundle.mk r lv cl ks).asDict pins = some d) {e : Name × Val}
    (he : e ∈ d.toList) :
    (∃ c ∈ lv.signals, e.1 = c.name ∧ readSlot pins c.slot = some e.2) ∨
    (∃ l ∈ lv.lists, e.1 = l.1 ∧ ∃ vs, collect (fun x => readSlot pins x.2) l.2 = some vs ∧
      e.2 = .seq (Vals.ofList vs)) ∨
    (∃ i c d', ks.label i = some (.sub e.1) ∧ ks.get i = some c ∧ c.asDict pins = some d' ∧
      e.2 = .dict d') ∨
    (e.1 ∈ ks.elemNames ∧
      ∃ L, collect (fun c => (Bundle.asDict pins c).map Val.dict) (ks.elems e.1) = some L ∧
        e.2 = .seq (Vals.ofList L)) := by
  obtain ⟨own, ds, h1, h2, h3⟩ := dictOf h
  rw [h3, kidItems_eq] at he
  rcases List.mem_append.1 he with he | he
  · rcases h1.mem e he with h | h
    · exact .inl h
    · exact .inr (.inl h)
  · rcases List.mem_append.1 he with he | he
    · obtain ⟨x, hx, he⟩ := List.mem_filterMap.1 he
      obtain ⟨l, d'⟩ := x
      cases l with
      | sub n =>
        cases he
        obtain ⟨i, c, h4, h5, h6⟩ := kids_asDict_mem h2 hx
        exact .inr (.inr (.inl ⟨i, c, d', h4, h5, h6, rfl⟩))
      | elem n j => cases he
    · obtain ⟨n, hn, he⟩ := List.mem_map.1 he
      cases he
      rw [(kids_names h2).2, List.mem_eraseDups] at hn
      exact .inr (.inr (.inr ⟨hn, elemDicts n ds, kids_elemDicts n h2, rfl⟩))


/-! ### Resolving the keys of `as_dict` -/

theorem find_signal_some {lv : Level} (hnd : (lv.signals.map Cell.name).Nodup) {c : Cell}
    (hc : c ∈ lv.signals) : lv.signals.find? (fun d => d.name = c.name) = some c := by
  cases hf : lv.signals.find? (fun d => d.name = c.name) with
  | none => exact absurd (List.find?_eq_none.1 hf c hc) (by simp)
  | some d =>
    have h1 := List.mem_of_find?_eq_some hf
    have h2 : d.name = c.name := by simpa using List.find?_some hf
    obtain ⟨i, hi, rfl⟩ := List.getElem_of_mem h1
    obtain ⟨j, hj, rfl⟩ := List.getElem_of_mem hc
    have h3 : (lv.signals.map Cell.name)[i]'(by simpa using hi) =
        (lv.signals.map Cell.name)[j]'(by simpa using hj) := by simpa using h2
    have := (List.getElem_inj hnd).1 h3
    subst this
    rfl

structure AttrParts (lv : Level) (ks : Kids) : Prop where
  signals : (lv.signals.map Cell.name).Nodup
  lists : (lv.lists.map Prod.fst).Nodup
  disj : ∀ n ∈ lv.lists.map Prod.fst, n ∉ lv.signals.map Cell.name
  subs : ks.subNames.Nodup

theorem attrParts {lv : Level} {ks : Kids} (h : (attrNames lv ks).Nodup) : AttrParts lv ks :=
  have h1 := List.nodup_append.1 h
  have h2 := List.nodup_append.1 h1.1
  ⟨h2.1, h2.2.1, fun n h3 h4 => h2.2.2 n h4 n h3 rfl, h1.2.1⟩

theorem locate_signal {r : Rule} {lv : Level} {cl : Option Nat} {ks : Kids}
    (ha : (Bundle.mk r lv cl ks).Attr) {c : Cell} (hc : c ∈ lv.signals) :
    (Bundle.mk r lv cl ks).locate c.name = .slot c.slot := by
  unfold Bundle.locate
  simp only [Bundle.lvl]
  rw [find_signal_some (attrParts ha.1).signals hc]

theorem locate_list {r : Rule} {lv : Level} {cl : Option Nat} {ks : Kids}
    (ha : (Bundle.mk r lv cl ks).Attr) {l : Name × List (Name × Slot)} (hl : l ∈ lv.lists) :
    (Bundle.mk r lv cl ks).locate l.1 = .list (l.2.map Prod.snd) := by
  obtain ⟨i, hi⟩ := List.getElem?_of_mem hl
  unfold Bundle.locate
  simp only [Bundle.lvl]
  rw [find_signal_none ((attrParts ha.1).disj _ (List.mem_map_of_mem hl)),
    find_list_some (attrParts ha.1).lists hi]

theorem locate_child {r : Rule} {lv : Level} {cl : Option Nat} {ks : Kids}
    (ha : (Bundle.mk r lv cl ks).Attr) {i : Nat} {n : Name} {c : Bundle}
    (hl : ks.label i = some (.sub n)) (hk : ks.get i = some c) :
    (Bundle.mk r lv cl ks).locate n = .sub c := by
  have hno := attr_sub_notin ha.1 (Kids.mem_subNames hl)
  unfold Bundle.locate
  simp only [Bundle.lvl, Bundle.kids]
  rw [find_signal_none hno.1, find_list_none hno.2]
  simp only
  rw [Kids.sub?_of_get (attrParts ha.1).subs hl hk]

theorem elems_ne {ks : Kids} {n : Name} (hn : n ∈ ks.elemNames) : ks.elems n ≠ [] := by
  induction ks using Kids.rec (motive_1 := fun _ => True) with
  | mk => trivial
  | nil => cases hn
  | cons l b ks _ ih =>
    cases l with
    | sub m => exact ih hn
    | elem m j =>
      rw [Kids.elems]
      split
      · simp
      · rename_i hm
        rcases List.mem_cons.1 hn with h | h
        · exact absurd h.symm hm
        · exact ih h

theorem locate_elems {r : Rule} {lv : Level} {cl : Option Nat} {ks : Kids}
    (ha : (Bundle.mk r lv cl ks).Attr) {n : Name} (hn : n ∈ ks.elemNames) :
    (Bundle.mk r lv cl ks).locate n = .elems (ks.elems n) := by
  have hno := ha.2.1 n hn
  unfold attrNames at hno
  rw [List.mem_append, List.mem_append, not_or, not_or] at hno
  unfold Bundle.locate
  simp only [Bundle.lvl, Bundle.kids]
  rw [find_signal_none hno.1.1, find_list_none hno.1.2]
  simp only
  rw [Kids.sub?_none hno.2]
  simp only [Kids.elemTarget]
  split
  · rename_i h
    exact absurd h (elems_ne hn)
  · rfl

/-! ### What such a dictionary gives to a pin -/

theorem given_entry {w : Bool} {k : Name} {ss : List Name} {rest : List Step} {d : Items} {v : Val}
    (hnd : (d.toList.map Prod.fst).Nodup) (hst : ∀ k ∈ d.toList.map Prod.fst, k ≠ star)
    (hss : ∀ s ∈ ss, s ∉ d.toList.map Prod.fst) (hm : (k, v) ∈ d.toList) :
    given w (.key k ss :: rest) (.dict d) = given w rest v := by
  have h0 : d.star? = none := by
    rw [star?_get, get_none]
    intro v hm
    exact hst _ (List.mem_map_of_mem (f := Prod.fst) hm) rfl
  rw [given_key, h0, givenItems_eq w rest hnd (hst _ (List.mem_map_of_mem (f := Prod.fst) hm))
    (fun _ => hss), get_of_mem hnd hm]
  simp

/-! ### `as_dict` depends on the pins of the tree -/

theorem levelDict_congr {σ τ : Nat → Int} {lv : Level} (hd : lv.names.Nodup)
    (h : ∀ p q, lv.slot p = some (.pin q) → σ q = τ q) : lv.dict σ = lv.dict τ := by
  have hr : ∀ s, (∀ q, s = .pin q → σ q = τ q) → readSlot σ s = readSlot τ s := by
    intro s hs
    cases s with
    | pin q => simp only [readSlot]; rw [hs q rfl]
    | _ => rfl
  unfold Level.dict
  have h1 : collect (fun c : Cell => (readSlot σ c.slot).map fun v => (c.name, v)) lv.signals =
      collect (fun c : Cell => (readSlot τ c.slot).map fun v => (c.name, v)) lv.signals :=
    collect_congr fun c hc => by
      rw [hr c.slot fun q hq => h (.sig c.name) q (by rw [slot_of_cell hd hc, hq])]
  have h2 : collect (fun l : Name × List (Name × Slot) =>
        (collect (fun e => readSlot σ e.2) l.2).map fun vs =>
          (l.1, Val.seq (Vals.ofList vs))) lv.lists =
      collect (fun l : Name × List (Name × Slot) =>
        (collect (fun e => readSlot τ e.2) l.2).map fun vs =>
          (l.1, Val.seq (Vals.ofList vs))) lv.lists :=
    collect_congr fun l hl => by
      have : collect (fun e : Name × Slot => readSlot σ e.2) l.2 =
          collect (fun e : Name × Slot => readSlot τ e.2) l.2 :=
        collect_congr fun e he => hr e.2 fun q hq => by
          obtain ⟨i, hi⟩ := List.getElem?_of_mem hl
          obtain ⟨j, hj⟩ := List.getElem?_of_mem he
          refine h (.elem i j) q ?_
          simp only [Level.slot, hi, Option.bind_some, hj, Option.map_some, hq]
      rw [this]
  rw [h1, h2]

mutual
theorem asDict_congr {σ τ : Nat → Int} : ∀ (b : Bundle), b.Distinct →
    (∀ is p q, b.slotAt is p = some (.pin q) → σ q = τ q) → b.asDict σ = b.asDict τ
  | .mk r lv cl ks, hd, h => by
    rw [Bundle.asDict, Bundle.asDict, levelDict_congr hd.1 fun p q hq => h [] p q hq,
      kidsAsDict_congr ks hd.2 fun i c hc is p q hq => h (i :: is) p q (by
        simp only [Bundle.slotAt, Bundle.kids, hc, Option.bind_some]
        exact hq)]
theorem kidsAsDict_congr {σ τ : Nat → Int} : ∀ (ks : Kids), ks.Distinct →
    (∀ i c, ks.get i = some c → ∀ is p q, c.slotAt is p = some (.pin q) → σ q = τ q) →
    ks.asDict σ = ks.asDict τ
  | .nil, _, _ => by rw [Kids.asDict, Kids.asDict]
  | .cons l b ks, hd, h => by
    rw [Kids.asDict, Kids.asDict, asDict_congr b hd.1 (h 0 b rfl),
      kidsAsDict_congr ks hd.2 fun i c hc => h (i + 1) c hc]
end

mutual
theorem asFlat_congr {σ τ : Nat → Int} : ∀ (b : Bundle), b.Distinct →
    (∀ is p q, b.slotAt is p = some (.pin q) → σ q = τ q) → b.asFlat σ = b.asFlat τ
  | .mk r lv cl ks, hd, h => by
    rw [Bundle.asFlat, Bundle.asFlat, levelDict_congr hd.1 fun p q hq => h [] p q hq,
      kidsAsFlat_congr ks hd.2 fun i c hc is p q hq => h (i :: is) p q (by
        simp only [Bundle.slotAt, Bundle.kids, hc, Option.bind_some]
        exact hq)]
theorem kidsAsFlat_congr {σ τ : Nat → Int} : ∀ (ks : Kids), ks.Distinct →
    (∀ i c, ks.get i = some c → ∀ is p q, c.slotAt is p = some (.pin q) → σ q = τ q) →
    ks.asFlat σ = ks.asFlat τ
  | .nil, _, _ => by rw [Kids.asFlat, Kids.asFlat]
  | .cons l b ks, hd, h => by
    rw [Kids.asFlat, Kids.asFlat, asFlat_congr b hd.1 (h 0 b rfl),
      kidsAsFlat_congr ks hd.2 fun i c hc => h (i + 1) c hc]
end

/-! ### Flat dictionaries -/

mutual
/-- No bundle list in the tree. -/
def Bundle.Listless : Bundle → Prop
  | .mk _ _ _ ks => Kids.Listless ks
def Kids.Listless : Kids → Prop
  | .nil => True
  | .cons (.sub _) b ks => Bundle.Listless b ∧ Kids.Listless ks
  | .cons (.elem _ _) _ _ => False
end

theorem Kids.listless_label {ks : Kids} (h : ks.Listless) {i : Nat} {l : Label}
    (hl : ks.label i = some l) : ∃ n, l = .sub n := by
  induction i generalizing ks with
  | zero =>
    cases ks with
    | nil => cases hl
    | cons l b ks =>
      cases hl
      cases l with
      | sub n => exact ⟨n, rfl⟩
      | elem n j => exact h.elim
  | succ i ih =>
    cases ks with
    | nil => cases hl
    | cons l b ks =>
      cases l with
      | sub n => exact ih h.2 hl
      | elem n j => exact h.elim

theorem Kids.listless_get {ks : Kids} (h : ks.Listless) {i : Nat} {c : Bundle}
    (hk : ks.get i = some c) : c.Listless := by
  induction i generalizing ks with
  | zero =>
    cases ks with
    | nil => cases hk
    | cons l b ks =>
      cases hk
      cases l with
      | sub n => exact h.1
      | elem n j => exact h.elim
  | succ i ih =>
    cases ks with
    | nil => cases hk
    | cons l b ks =>
      cases l with
      | sub n => exact ih h.2 hk
      | elem n j => exact h.elim

theorem Kids.listless_cons {l : Label} {b : Bundle} {ks : Kids} (h : (Kids.cons l b ks).Listless) :
    ∃ n, l = .sub n ∧ b.Listless ∧ ks.Listless := by
  cases l with
  | sub n => exact ⟨n, rfl, h.1, h.2⟩
  | elem n j => exact h.elim

/-- The entries that one sub-bundle contributes. -/
def under (n : Name) (l : List (Name × Val)) : List (Name × Val) :=
  l.map fun e => (n ++ '.' :: e.1, e.2)

theorem kids_asFlat_get {pins : Nat → Int} : ∀ {ks : Kids} {ds : List (Name × Val)},
    ks.asFlat pins = some ds → ∀ {i : Nat} {n : Name} {c : Bundle}, ks.label i = some (.sub n) →
    ks.get i = some c → ∃ d, c.asFlat pins = some d ∧ ∀ e ∈ under n d, e ∈ ds
  | .nil, _, _, _, _, _, hl, _ => by cases hl
  | .cons l' b ks, ds, h, i, n, c, hl, hk => by
    rw [Kids.asFlat] at h
    cases h1 : b.asFlat pins with
    | none => rw [h1] at h; cases h
    | some d =>
      rw [h1, Option.bind_some] at h
      cases h2 : ks.asFlat pins with
      | none => rw [h2] at h; cases h
      | some ds' =>
        rw [h2] at h
        cases h
        cases i with
        | zero =>
          cases hl
          cases hk
          exact ⟨d, h1, fun e he => List.mem_append_left _ he⟩
        | succ i =>
          obtain ⟨d, h3, h4⟩ := kids_asFlat_get h2 hl hk
          exact ⟨d, h3, fun e he => List.mem_append_right _ (h4 e he)⟩

theorem kids_asFlat_mem {pins : Nat → Int} : ∀ {ks : Kids} {ds : List (Name × Val)},
    ks.Listless → ks.asFlat pins = some ds → ∀ {e : Name × Val}, e ∈ ds →
    ∃ i n c d, ks.label i = some (.sub n) ∧ ks.get i = some c ∧ c.asFlat pins = some d ∧
      e ∈ under n d
  | .nil, _, _, h, _, hm => by
    rw [Kids.asFlat] at h
    cases h
    cases hm
  | .cons l b ks, ds, hll, h, e, hm => by
    obtain ⟨n, rfl, hb, hks⟩ := Kids.listless_cons hll
    rw [Kids.asFlat] at h
    cases h1 : b.asFlat pins with
    | none => rw [h1] at h; cases h
    | some d =>
      rw [h1, Option.bind_some] at h
      cases h2 : ks.asFlat pins with
      | none => rw [h2] at h; cases h
      | some ds' =>
        rw [h2] at h
        cases h
        rcases List.mem_append.1 hm with hm | hm
        · exact ⟨0, n, b, d, rfl, rfl, h1, hm⟩
        · obtain ⟨i, n, c, d, h3, h4, h5⟩ := kids_asFlat_mem hks h2 hm
          exact ⟨i + 1, n, c, d, h3, h4, h5⟩

theorem flatOf {pins : Nat → Int} {r : Rule} {lv : Level} {cl : Option Nat} {ks : Kids}
    {l : List (Name × Val)} (h : (Bundle.mk r lv cl ks).asFlat pins = some l) :
    ∃ own ds, LevelDict pins lv own ∧ ks.asFlat pins = some ds ∧ l = own ++ ds := by
  rw [Bundle.asFlat] at h
  cases h1 : lv.dict pins with
  | none => rw [h1] at h; cases h
  | some own =>
    rw [h1, Option.bind_some] at h
    cases h2 : ks.asFlat pins with
    | none => rw [h2] at h; cases h
    | some ds =>
      rw [h2] at h
      cases h
      exact ⟨own, ds, levelDict h1, rfl, rfl⟩

/-- A target whose current value is `v`. -/
inductive Reads (pins : Nat → Int) : Target → Val → Prop
  | slot {s : Slot} {v : Val} (h : readSlot pins s = some v) : Reads pins (.slot s) v
  | list {es : List (Name × Slot)} {vs : List Val}
      (h : collect (fun x => readSlot pins x.2) es = some vs) :
      Reads pins (.list (es.map Prod.snd)) (.seq (Vals.ofList vs))

theorem locateFlat_level {r : Rule} {lv : Level} {cl : Option Nat} {ks : Kids}
    (ha : (Bundle.mk r lv cl ks).Attr) {pins : Nat → Int} {own : List (Name × Val)}
    (h : LevelDict pins lv own) {e : Name × Val} (he : e ∈ own) :
    e.1 ∈ attrNames lv ks ∧ Reads pins ((Bundle.mk r lv cl ks).locateFlat e.1) e.2 := by
  rcases h.mem e he with ⟨c, hc, h1, hv⟩ | ⟨l, hl, h1, vs, hvs, h2⟩
  · rw [h1]
    refine ⟨List.mem_append_left _ (List.mem_append_left _ (List.mem_map_of_mem hc)), ?_⟩
    rw [Bundle.locateFlat, find_signal_some (attrParts ha.1).signals hc]
    exact .slot hv
  · rw [h1, h2]
    refine ⟨List.mem_append_left _ (List.mem_append_right _ (List.mem_map_of_mem hl)), ?_⟩
    obtain ⟨i, hi⟩ := List.getElem?_of_mem hl
    rw [Bundle.locateFlat, find_signal_none ((attrParts ha.1).disj _ (List.mem_map_of_mem hl)),
      find_list_some (attrParts ha.1).lists hi]
    exact .list hvs

/-- Every key of a flat `as_dict` resolves to the slot it was read from. -/
theorem locateFlat_asFlat (pins : Nat → Int) (b : Bundle) : b.Attr → b.Listless → ∀ l,
    b.asFlat pins = some l → ∀ e ∈ l, e.1 ≠ star ∧ Reads pins (b.locateFlat e.1) e.2 := by
  induction b using Bundle.ind with
  | h b ih =>
    intro ha hll l hl e he
    obtain ⟨r, lv, cl, ks⟩ := b
    obtain ⟨own, ds, h1, h2, rfl⟩ := flatOf hl
    rcases List.mem_append.1 he with he | he
    · obtain ⟨h3, h4⟩ := locateFlat_level ha h1 he
      exact ⟨(ha.2.2.1 _ (List.mem_append_left _ h3)).2, h4⟩
    · obtain ⟨i, n, c, d, h3, h4, h5, h6⟩ := kids_asFlat_mem hll h2 he
      obtain ⟨e', he', rfl⟩ := List.mem_map.1 h6
      have := ih i c h4 (Kids.attr_get ha.2.2.2.2 h4) (Kids.listless_get hll h4) d h5 e' he'
      constructor
      · show n ++ '.' :: e'.1 ≠ ['*']
        intro h
        cases n with
        | nil => cases h
        | cons x xs => simp at h
      · simp only
        rw [locateFlat_sub ha e'.1 h3 h4, if_neg this.1]
        exact this.2

theorem under_keys (n : Name) (l : List (Name × Val)) :
    (under n l).map Prod.fst = (l.map Prod.fst).map fun k => n ++ '.' :: k := by
  simp [under, Function.comp_def]

theorem append_dot_inj {n m a b : Name} (hn : '.' ∉ n) (hm : '.' ∉ m)
    (h : n ++ '.' :: a = m ++ '.' :: b) : n = m ∧ a = b := by
  have h1 := splitDot_append (t := a) hn
  rw [h, splitDot_append hm] at h1
  cases h1
  exact ⟨rfl, rfl⟩

mutual
theorem asFlat_nodup (pins : Nat → Int) : ∀ (b : Bundle) (l : List (Name × Val)), b.Attr →
    b.Listless → b.asFlat pins = some l → (l.map Prod.fst).Nodup
  | .mk r lv cl ks, l, ha, hll, h => by
    obtain ⟨own, ds, h1, h2, rfl⟩ := flatOf h
    rw [List.map_append, List.nodup_append]
    refine ⟨?_, (kidsAsFlat_nodup pins ks ds ha.2.2.2.2 hll (attrParts ha.1).subs
      (fun n hn => (ha.2.2.1 n (List.mem_append_left _ (List.mem_append_right _ hn))).1) h2), ?_⟩
    · rw [h1.keys]
      exact (List.nodup_append.1 ha.1).1
    · rintro k hk _ hk' rfl
      obtain ⟨e, he, rfl⟩ := List.mem_map.1 hk
      obtain ⟨h3, _⟩ := locateFlat_level ha h1 he
      obtain ⟨e', he', h4⟩ := List.mem_map.1 hk'
      obtain ⟨i, n, c, d, _, _, _, h6⟩ := kids_asFlat_mem hll h2 he'
      obtain ⟨e'', he'', rfl⟩ := List.mem_map.1 h6
      refine (ha.2.2.1 _ (List.mem_append_left _ h3)).1 ?_
      rw [← h4]
      simp
theorem kidsAsFlat_nodup (pins : Nat → Int) : ∀ (ks : Kids) (l : List (Name × Val)), ks.Attr →
    ks.Listless → ks.subNames.Nodup → (∀ n ∈ ks.subNames, '.' ∉ n) →
    ks.asFlat pins = some l → (l.map Prod.fst).Nodup
  | .nil, l, _, _, _, _, h => by
    rw [Kids.asFlat] at h
    cases h
    simp
  | .cons (.elem n j) b ks, l, _, hll, _, _, _ => hll.elim
  | .cons (.sub n) b ks, l, ha, hll, hnd, hdot, h => by
    rw [Kids.asFlat] at h
    cases h1 : b.asFlat pins with
    | none => rw [h1] at h; cases h
    | some d =>
      rw [h1, Option.bind_some] at h
      cases h2 : ks.asFlat pins with
      | none => rw [h2] at h; cases h
      | some ds =>
        rw [h2] at h
        cases h
        have hnd' := List.nodup_cons.1 hnd
        have hdn := hdot n List.mem_cons_self
        show ((under n d ++ ds).map Prod.fst).Nodup
        rw [List.map_append, List.nodup_append, under_keys]
        refine ⟨?_, kidsAsFlat_nodup pins ks ds ha.2 hll.2 hnd'.2
          (fun m hm => hdot m (List.mem_cons_of_mem _ hm)) h2, ?_⟩
        · rw [List.nodup_iff_pairwise_ne, List.pairwise_map]
          refine (asFlat_nodup pins b d ha.1 hll.1 h1).imp fun hne h => ?_
          exact hne (append_dot_inj hdn hdn h).2
        · rintro k hk _ hk' rfl
          obtain ⟨k', _, rfl⟩ := List.mem_map.1 hk
          obtain ⟨e', he', h4⟩ := List.mem_map.1 hk'
          obtain ⟨i, m, c, d', h5, _, _, h6⟩ := kids_asFlat_mem hll.2 h2 he'
          obtain ⟨e'', he'', rfl⟩ := List.mem_map.1 h6
          have hm := Kids.mem_subNames h5
          have := append_dot_inj (hdot m (List.mem_cons_of_mem _ hm)) hdn h4
          exact hnd'.1 (this.1 ▸ hm)
end

/-- The entry of a slot in a flat `as_dict`. -/
theorem entry_asFlat (w : Bool) (pins : Nat → Int) {is : List Nat} {p : Pos} {q : Nat} :
    ∀ {b : Bundle} {k : Name} {ss : List Name} {rest : List Step} {l : List (Name × Val)},
    b.Listless → b.slotAt is p = some (.pin q) →
    b.steps true is p = some (.key k ss :: rest) → b.asFlat pins = some l →
    ∃ v, (k, v) ∈ l ∧ given w rest v = [.num (pins q)] := by
  induction is with
  | nil =>
    intro b k ss rest l _ hq hs hl
    obtain ⟨r, lv, cl, ks⟩ := b
    obtain ⟨own, ds, h1, h2, rfl⟩ := flatOf hl
    cases p with
    | sig n =>
      simp only [Bundle.steps, Option.some.injEq] at hs
      cases hs
      simp only [Bundle.slotAt, Level.slot, Bundle.lvl] at hq
      obtain ⟨c, hf, hc⟩ := Option.map_eq_some_iff.1 hq
      have h2 : c.name = k := by simpa using List.find?_some hf
      obtain ⟨v, hv, hm⟩ := h1.signal c (List.mem_of_find?_eq_some hf)
      rw [hc] at hv
      cases hv
      subst h2
      exact ⟨_, List.mem_append_left _ hm, rfl⟩
    | elem l i =>
      simp only [Bundle.slotAt, Level.slot, Bundle.lvl] at hq
      simp only [Bundle.steps, Bundle.lvl] at hs
      cases hl : lv.lists[l]? with
      | none => rw [hl] at hs; cases hs
      | some e =>
        rw [hl] at hs hq
        cases hs
        simp only [Option.bind_some] at hq
        obtain ⟨x, hx, hx2⟩ := Option.map_eq_some_iff.1 hq
        obtain ⟨vs, hvs, hm⟩ := h1.list e (List.mem_of_getElem? hl)
        refine ⟨_, List.mem_append_left _ hm, ?_⟩
        rw [given_idx, Vals.toList_ofList]
        obtain ⟨v, hv, hr⟩ := collect_get hvs hx
        rw [hx2] at hv
        cases hv
        rw [hr]
        rfl
  | cons i is ih =>
    intro b k ss rest l hll hq hs hd
    obtain ⟨r, lv, cl, ks⟩ := b
    obtain ⟨own, ds, h1, h2, rfl⟩ := flatOf hd
    simp only [Bundle.steps, Bundle.kids] at hs
    simp only [Bundle.slotAt, Bundle.kids] at hq
    cases hl : ks.label i with
    | none => rw [hl] at hs; cases hs
    | some lab =>
      obtain ⟨n, rfl⟩ := Kids.listless_label hll hl
      rw [hl, Option.bind_some] at hs
      cases hk : ks.get i with
      | none => rw [hk] at hs; cases hs
      | some c =>
        rw [hk, Option.bind_some] at hs hq
        obtain ⟨k', ss', rest', hst'⟩ := steps_key true is p (b := c) (by rw [hq]; rfl)
        rw [hst'] at hs
        simp only [Option.map_some, subSteps, if_true, Option.some.injEq, List.cons.injEq,
          Step.key.injEq] at hs
        obtain ⟨⟨rfl, rfl⟩, rfl⟩ := hs
        obtain ⟨d, h3, h4⟩ := kids_asFlat_get h2 hl hk
        obtain ⟨v, hv, hg⟩ := ih (Kids.listless_get hll hk) hq hst' h3
        exact ⟨v, List.mem_append_right _
          (h4 _ (List.mem_map_of_mem (f := fun e : Name × Val => (n ++ '.' :: e.1, e.2)) hv)), hg⟩

/-! ### Readable bundles -/

mutual
theorem asDict_isSome (pins : Nat → Int) : ∀ b : Bundle, b.Distinct →
    (∀ is p s, b.slotAt is p = some s → (readSlot pins s).isSome) →
    (b.asDict pins).isSome ∧ (b.asFlat pins).isSome
  | .mk r lv cl ks, hd, h => by
    obtain ⟨own, ho⟩ := Option.isSome_iff_exists.1 (levelDict_isSome pins lv hd.1 fun p s hs =>
      h [] p s hs)
    obtain ⟨h1, h2⟩ := kidsAsDict_isSome pins ks hd.2 fun i c hc is p s hs => h (i :: is) p s (by
      simp only [Bundle.slotAt, Bundle.kids, hc, Option.bind_some]
      exact hs)
    obtain ⟨a, h1⟩ := Option.isSome_iff_exists.1 h1
    obtain ⟨a', h2⟩ := Option.isSome_iff_exists.1 h2
    rw [Bundle.asDict, Bundle.asFlat, ho, h1, h2]
    exact ⟨rfl, rfl⟩
theorem kidsAsDict_isSome (pins : Nat → Int) : ∀ ks : Kids, ks.Distinct →
    (∀ i c, ks.get i = some c → ∀ is p s, c.slotAt is p = some s → (readSlot pins s).isSome) →
    (ks.asDict pins).isSome ∧ (ks.asFlat pins).isSome
  | .nil, _, _ => by rw [Kids.asDict, Kids.asFlat]; exact ⟨rfl, rfl⟩
  | .cons l b ks, hd, h => by
    obtain ⟨h1, h2⟩ := asDict_isSome pins b hd.1 (h 0 b rfl)
    obtain ⟨h3, h4⟩ := kidsAsDict_isSome pins ks hd.2 fun i c hc => h (i + 1) c hc
    obtain ⟨a, h1⟩ := Option.isSome_iff_exists.1 h1
    obtain ⟨a', h2⟩ := Option.isSome_iff_exists.1 h2
    obtain ⟨b, h3⟩ := Option.isSome_iff_exists.1 h3
    obtain ⟨b', h4⟩ := Option.isSome_iff_exists.1 h4
    rw [Kids.asDict, Kids.asFlat, h1, h2, h3, h4]
    exact ⟨rfl, rfl⟩
theorem levelDict_isSome (pins : Nat → Int) (lv : Level) (hd : lv.names.Nodup)
    (h : ∀ p s, lv.slot p = some s → (readSlot pins s).isSome) : (lv.dict pins).isSome := by
  unfold Level.dict
  obtain ⟨a, h1⟩ := Option.isSome_iff_exists.1 (collect_isSome (l := lv.signals)
    (f := fun c : Cell => (readSlot pins c.slot).map fun v => (c.name, v)) fun c hc => by
      rw [Option.isSome_map]
      exact h (.sig c.name) _ (slot_of_cell hd hc))
  obtain ⟨a', h2⟩ := Option.isSome_iff_exists.1 (collect_isSome (l := lv.lists)
    (f := fun l : Name × List (Name × Slot) =>
        (collect (fun e => readSlot pins e.2) l.2).map fun vs =>
          (l.1, Val.seq (Vals.ofList vs))) fun l hl => by
      rw [Option.isSome_map]
      refine collect_isSome fun e he => ?_
      obtain ⟨i, hi⟩ := List.getElem?_of_mem hl
      obtain ⟨j, hj⟩ := List.getElem?_of_mem he
      refine h (.elem i j) _ ?_
      simp only [Level.slot, hi, Option.bind_some, hj, Option.map_some])
  rw [h1, h2]
  rfl
end

end Toffee.Bundle
