import Verif.Model.FuncName

/-!
C120: the text recorded by `mark_function` for a function.
-/

namespace Toffee.FuncName

/-! ## Specification -/

/-- What a reader takes from a recorded text. -/
structure Entry where
  file : Text
  first : Nat
  last : Nat
  cls : Option Text
  name : Text
deriving DecidableEq, Repr

/-- The documented form, `toffee/funcov.py:199-206::CovGroup::init` (43). -/
def Entry.text (e : Entry) : Text :=
  e.file ++ ':' :: (dec e.first ++ '-' :: (dec e.last ++ ':' :: ':' ::
    match e.cls with
    | none => e.name
    | some c => c ++ ':' :: ':' :: e.name))

/-- Names of functions and classes contain no colon, and names of classes do not begin with a digit. -/
structure Entry.Ok (e : Entry) : Prop where
  name : ':' ∉ e.name
  cls : ∀ c, e.cls = some c → ':' ∉ c
  digit : ∀ c d r, e.cls = some c → c = d :: r → d.isDigit = false

def Ref.fn : Ref → Fn
  | .func f | .bound _ f | .classMethod _ f => f

/-- The class that belongs to a reference: that of the instance, the class itself, or what stands before
the last dot of the qualified name. -/
inductive ClassOf : Ref → Option Text → Prop
  | bound (c : Text) (f : Fn) : ClassOf (.bound c f) (some c)
  | classMethod (c : Text) (f : Fn) : ClassOf (.classMethod c f) (some c)
  | method (c n : Text) (f : Fn) : f.qual = c ++ '.' :: n → '.' ∉ n → ClassOf (.func f) (some c)
  | plain (f : Fn) : '.' ∉ f.qual → ClassOf (.func f) none

/-- The code somebody wrote for the function: the innermost of the decorated functions. -/
def Fn.written (f : Fn) : Code := f.inner.getLastD f.code

/-! ## Unambiguity -/

theorem last_colon {x : Char} {a b n m : Text} (h : a ++ x :: n = b ++ x :: m) (hn : x ∉ n) (hm : x ∉ m) :
    a = b ∧ n = m := by
  induction a generalizing b with
  | nil =>
    cases b with
    | nil => simp only [List.nil_append, List.cons.injEq] at h; exact ⟨rfl, h.2⟩
    | cons c b =>
      simp only [List.nil_append, List.cons_append, List.cons.injEq] at h
      exact absurd (by rw [h.2]; simp) hn
  | cons c a ih =>
    cases b with
    | nil =>
      simp only [List.nil_append, List.cons_append, List.cons.injEq] at h
      exact absurd (by rw [← h.2]; simp) hm
    | cons c' b =>
      simp only [List.cons_append, List.cons.injEq] at h
      obtain ⟨h1, h2⟩ := ih h.2
      exact ⟨by rw [h.1, h1], h2⟩

theorem dec_inj {i j : Nat} (h : dec i = dec j) : i = j := by
  have h1 := Nat.ofDigitChars_toDigits (b := 10) (n := i) (by decide) (by decide)
  have h2 := Nat.ofDigitChars_toDigits (b := 10) (n := j) (by decide) (by decide)
  unfold dec at h
  rw [h, h2] at h1
  exact h1.symm

theorem dec_digit {i : Nat} {c : Char} (h : c ∈ dec i) : c.isDigit = true :=
  Nat.isDigit_of_mem_toDigits (by decide) (by decide) h

theorem dec_ne_nil (i : Nat) : dec i ≠ [] := Nat.toDigits_ne_nil

/-- The lines, as text. -/
def span (a b : Nat) : Text := dec a ++ '-' :: dec b

theorem colon_span (a b : Nat) : ':' ∉ span a b := by
  intro h
  simp only [span, List.mem_append, List.mem_cons] at h
  rcases h with h | h | h
  · exact absurd (dec_digit h) (by decide)
  · exact absurd h (by decide)
  · exact absurd (dec_digit h) (by decide)

theorem minus_dec (a : Nat) : '-' ∉ dec a := fun h => absurd (dec_digit h) (by decide)

theorem span_inj {a b c d : Nat} (h : span a b = span c d) : a = c ∧ b = d := by
  obtain ⟨h1, h2⟩ := last_colon h (minus_dec b) (minus_dec d)
  exact ⟨dec_inj h1, dec_inj h2⟩

theorem span_cons (a b : Nat) : ∃ d r, span a b = d :: r ∧ d.isDigit = true := by
  cases h : dec a with
  | nil => exact absurd h (dec_ne_nil a)
  | cons d r => exact ⟨d, r ++ '-' :: dec b, by simp [span, h], dec_digit (by rw [h]; simp)⟩

theorem text_none (e : Entry) (h : e.cls = none) :
    e.text = (e.file ++ ':' :: span e.first e.last ++ [':']) ++ ':' :: e.name := by
  simp [Entry.text, h, span]

theorem text_some (e : Entry) {c : Text} (h : e.cls = some c) :
    e.text = ((e.file ++ ':' :: span e.first e.last ++ [':']) ++ ':' :: c ++ [':']) ++ ':' :: e.name := by
  simp [Entry.text, h, span]

/-- **C120.** A text is the form of at most one entry. -/
theorem C120_unambiguous (e e' : Entry) (h : e.Ok) (h' : e'.Ok) (he : e.text = e'.text) : e = e' := by
  have key : ∀ e e' : Entry, e.Ok → e'.Ok → e.text = e'.text → e.cls = none → e'.cls ≠ none → False := by
    intro e e' h h' he hc hc'
    cases hx : e'.cls with
    | none => exact hc' hx
    | some c =>
      rw [text_none e hc, text_some e' hx] at he
      obtain ⟨h1, _⟩ := last_colon he h.name h'.name
      obtain ⟨_, h3⟩ := last_colon (List.append_cancel_right h1) (colon_span _ _) (h'.cls c hx)
      obtain ⟨d, r, hd, hdig⟩ := span_cons e.first e.last
      rw [← h3] at hx
      have := h'.digit _ d r hx hd
      rw [hdig] at this
      cases this
  cases hc : e.cls with
  | none =>
    cases hc' : e'.cls with
    | none =>
      rw [text_none e hc, text_none e' hc'] at he
      obtain ⟨h1, h2⟩ := last_colon he h.name h'.name
      obtain ⟨h3, h4⟩ := last_colon (List.append_cancel_right h1) (colon_span _ _) (colon_span _ _)
      obtain ⟨h5, h6⟩ := span_inj h4
      cases e; cases e'
      simp_all
    | some c => exact (key e e' h h' he hc (by rw [hc']; simp)).elim
  | some c =>
    cases hc' : e'.cls with
    | none => exact (key e' e h' h he.symm hc' (by rw [hc]; simp)).elim
    | some c' =>
      rw [text_some e hc, text_some e' hc'] at he
      obtain ⟨h1, h2⟩ := last_colon he h.name h'.name
      obtain ⟨h3, h4⟩ := last_colon (List.append_cancel_right h1) (h.cls c hc) (h'.cls c' hc')
      obtain ⟨h5, h6⟩ := last_colon (List.append_cancel_right h3) (colon_span _ _) (colon_span _ _)
      obtain ⟨h7, h8⟩ := span_inj h6
      cases e; cases e'
      simp_all

/-! ## The text of a reference -/

theorem split_ne_nil (t : Text) : split t ≠ [] := by
  cases t with
  | nil => simp [split]
  | cons c t =>
    unfold split
    split
    · simp
    · split <;> simp

theorem split_plain {t : Text} (h : '.' ∉ t) : split t = [t] := by
  induction t with
  | nil => rfl
  | cons c t ih =>
    simp only [List.mem_cons, not_or] at h
    unfold split
    rw [if_neg (fun e => h.1 e.symm), ih h.2]

theorem join_cons {p : Text} {ps : List Text} (h : ps ≠ []) : join (p :: ps) = p ++ '.' :: join ps := by
  cases ps with
  | nil => exact absurd rfl h
  | cons q ps => rfl

theorem split_last (c : Text) {n : Text} (h : '.' ∉ n) :
    ∃ ps, ps ≠ [] ∧ split (c ++ '.' :: n) = ps ++ [n] ∧ join ps = c := by
  induction c with
  | nil =>
    refine ⟨[[]], by simp, ?_, rfl⟩
    show split ('.' :: n) = _
    unfold split
    rw [if_pos rfl, split_plain h]
    rfl
  | cons x c ih =>
    obtain ⟨ps, h0, h1, h2⟩ := ih
    rw [List.cons_append]
    unfold split
    by_cases hx : x = '.'
    · rw [if_pos hx, h1]
      refine ⟨[] :: ps, by simp, rfl, ?_⟩
      rw [join_cons h0, h2, hx]
      rfl
    · rw [if_neg hx, h1]
      cases ps with
      | nil => exact absurd rfl h0
      | cons p ps =>
        refine ⟨(x :: p) :: ps, by simp, rfl, ?_⟩
        rw [← h2]
        cases ps with
        | nil => rfl
        | cons q ps => rfl

theorem sourceLines_eq (f : Fn) : sourceLines f = (f.written.start, f.written.len) := by
  unfold sourceLines Fn.written
  cases h : f.inner.getLast? with
  | none =>
    rw [List.getLast?_eq_none_iff] at h
    simp [h]
  | some c => simp [List.getLastD_eq_getLast?, h]

/-- The entry whose form is recorded. -/
def entry (r : Ref) (cls : Option Text) : Entry :=
  ⟨r.fn.code.file, r.fn.written.start, r.fn.written.start + r.fn.written.len - 1, cls, r.fn.name⟩

theorem withClass_eq (c : Text) (f : Fn) : withClass c f = (entry (.bound c f) (some c)).text := by
  simp [withClass, entry, Entry.text, Ref.fn, sourceLines_eq, sourceFile]

theorem withoutClass_eq (f : Fn) : withoutClass f = (entry (.func f) none).text := by
  simp [withoutClass, entry, Entry.text, Ref.fn, sourceLines_eq, sourceFile]

theorem fullName_eq (r : Ref) (cls : Option Text) (h : ClassOf r cls) : fullName r = (entry r cls).text := by
  cases h with
  | bound c f => exact withClass_eq c f
  | classMethod c f => exact withClass_eq c f
  | plain f hf =>
    show (if '.' ∈ f.qual then _ else _) = _
    rw [if_neg hf]
    exact withoutClass_eq f
  | method c n f hq hn =>
    obtain ⟨ps, h0, h1, h2⟩ := split_last c hn
    show (if '.' ∈ f.qual then _ else _) = _
    rw [if_pos (by rw [hq]; simp)]
    show (if (split f.qual).length > 1 then _ else _) = _
    rw [hq, h1]
    have hl : (ps ++ [n]).length > 1 := by
      cases ps with
      | nil => exact absurd rfl h0
      | cons p ps => simp
    rw [if_pos hl, List.dropLast_concat, h2]
    exact withClass_eq c f

/-- Every reference has a class or none. -/
theorem classOf_total (r : Ref) : ∃ cls, ClassOf r cls := by
  cases r with
  | bound c f => exact ⟨_, .bound c f⟩
  | classMethod c f => exact ⟨_, .classMethod c f⟩
  | func f =>
    by_cases h : '.' ∈ f.qual
    · have key : ∀ t : Text, '.' ∈ t → ∃ c n, t = c ++ '.' :: n ∧ '.' ∉ n := by
        intro t
        induction t with
        | nil => intro h; cases h
        | cons x t ih =>
          intro ht
          by_cases h2 : '.' ∈ t
          · obtain ⟨c, n, h3, h4⟩ := ih h2
            exact ⟨x :: c, n, by rw [h3]; rfl, h4⟩
          · rcases List.mem_cons.1 ht with h3 | h3
            · exact ⟨[], t, by rw [← h3]; rfl, h2⟩
            · exact absurd h3 h2
      obtain ⟨c, n, h1, h2⟩ := key f.qual h
      exact ⟨_, .method c n f h1 h2⟩
    · exact ⟨_, .plain f h⟩

theorem classOf_unique {r : Ref} {a b : Option Text} (ha : ClassOf r a) (hb : ClassOf r b) : a = b := by
  cases ha with
  | bound c f => cases hb; rfl
  | classMethod c f => cases hb; rfl
  | plain f hf =>
    cases hb with
    | plain => rfl
    | method c n _ hq _ => exact absurd (by rw [hq]; simp) hf
  | method c n f hq hn =>
    cases hb with
    | plain _ hf => exact absurd (by rw [hq]; simp) hf
    | method c' n' _ hq' hn' => rw [hq] at hq'; rw [(last_colon hq' hn hn').1]

/-- The names in a reference are names. -/
structure Ref.Ok (r : Ref) : Prop where
  name : ':' ∉ r.fn.name
  cls : ∀ c, ClassOf r (some c) → ':' ∉ c
  digit : ∀ c d t, ClassOf r (some c) → c = d :: t → d.isDigit = false

theorem Ref.Ok.entry {r : Ref} (h : r.Ok) {cls : Option Text} (hc : ClassOf r cls) : (entry r cls).Ok :=
  ⟨h.name, fun c he => h.cls c (he ▸ hc), fun c d t he => h.digit c d t (he ▸ hc)⟩

/-! ## C120 -/

/-- **C120.** A function that is not decorated (with `functools.wraps`) is recorded under a text from which
its file, its first and last line, its class and its name can be read, and in one way only. -/
theorem C120_readable_partial (r : Ref) (cls : Option Text) (hc : ClassOf r cls) (hr : r.Ok)
    (hd : r.fn.inner = []) (e : Entry) (he : e.Ok) :
    e.text = fullName r ↔
      e = ⟨r.fn.code.file, r.fn.code.start, r.fn.code.start + r.fn.code.len - 1, cls, r.fn.name⟩ := by
  have hw : r.fn.written = r.fn.code := by unfold Fn.written; rw [hd]; rfl
  have hE : FuncName.entry r cls =
      ⟨r.fn.code.file, r.fn.code.start, r.fn.code.start + r.fn.code.len - 1, cls, r.fn.name⟩ := by
    unfold FuncName.entry; rw [hw]
  rw [fullName_eq r cls hc, ← hE]
  exact ⟨fun h => C120_unambiguous _ _ he (hr.entry hc) h, fun h => by rw [h]⟩

/-- **C120 is false for decorated functions**: the text of a function whose decorator (which uses
`functools.wraps`) stands in another file names the file of the decorator, with the line numbers that the
function has in its own file. -/
theorem C120_decorated_violated (r : Ref) (hr : r.Ok) (hf : r.fn.written.file ≠ r.fn.code.file)
    (e : Entry) (he : e.Ok) (h : e.text = fullName r) :
    e.file = r.fn.code.file ∧ e.file ≠ r.fn.written.file ∧ e.first = r.fn.written.start := by
  obtain ⟨cls, hc⟩ := classOf_total r
  rw [fullName_eq r cls hc] at h
  have := C120_unambiguous _ _ he (hr.entry hc) h
  subst this
  exact ⟨rfl, fun hx => hf hx.symm, rfl⟩

/-- **C120.** Two references are recorded under one text iff file, lines, class and name are the same. -/
theorem C120_apart_partial (r r' : Ref) (c c' : Option Text) (hc : ClassOf r c) (hc' : ClassOf r' c')
    (h : r.Ok) (h' : r'.Ok) :
    fullName r = fullName r' ↔
      r.fn.code.file = r'.fn.code.file ∧ r.fn.written.start = r'.fn.written.start ∧
      r.fn.written.start + r.fn.written.len - 1 = r'.fn.written.start + r'.fn.written.len - 1 ∧
      c = c' ∧ r.fn.name = r'.fn.name := by
  rw [fullName_eq r c hc, fullName_eq r' c' hc']
  constructor
  · intro he
    have := C120_unambiguous _ _ (h.entry hc) (h'.entry hc') he
    unfold FuncName.entry at this
    injection this with h1 h2 h3 h4 h5
    exact ⟨h1, h2, h3, h4, h5⟩
  · rintro ⟨h1, h2, h3, h4, h5⟩
    have : FuncName.entry r c = FuncName.entry r' c' := by
      unfold FuncName.entry
      rw [h3, h1, h2, h4, h5]
    rw [this]

/-- **C120 is false for functions made by one function**: two different functions that differ in nothing
but their identity (closures of one `def`, lambdas of one line) are recorded as one. -/
theorem C120_factory_violated (marks : List Text) (f f' : Fn) (_hne : f.id ≠ f'.id)
    (hsame : f' = { f with id := f'.id }) :
    record marks [.func f, .func f'] = record marks [.func f] ∧
      (record [] [.func f, .func f']).length = 1 := by
  have he : fullName (.func f') = fullName (.func f) := by
    rw [hsame]
    rfl
  constructor
  · show (if fullName (.func f') ∈ (if _ then _ else _) then _ else _) = (if _ then _ else _)
    rw [he]
    by_cases h : fullName (.func f) ∈ marks
    · simp [h]
    · simp [h]
  · simp [record, he]

/-- **C120.** When a method taken from an instance is recorded like the same method taken from the class:
iff the class of the instance is, under its full name, the one in which the method is defined. -/
theorem C120_method_iff (cls : Text) (f : Fn) (h : (Ref.bound cls f).Ok) (h' : (Ref.func f).Ok) :
    fullName (.bound cls f) = fullName (.func f) ↔ ∃ n, f.qual = cls ++ '.' :: n ∧ '.' ∉ n := by
  obtain ⟨c', hc'⟩ := classOf_total (.func f)
  rw [C120_apart_partial _ _ _ _ (.bound cls f) hc' h h']
  constructor
  · rintro ⟨_, _, _, h4, _⟩
    cases hc' with
    | plain => cases h4
    | method c n _ hq hn => injection h4 with h4; subst h4; exact ⟨n, hq, hn⟩
  · rintro ⟨n, hq, hn⟩
    exact ⟨rfl, rfl, rfl, (classOf_unique hc' (.method cls n f hq hn)).symm, rfl⟩

/-- **C120 is false for methods**: a method that an instance inherits, or one of a class that is defined
inside of a class or function, counts as two functions when it is marked once from an instance and once from
the class. -/
theorem C120_method_violated (cls d n : Text) (f : Fn) (h : (Ref.bound cls f).Ok) (h' : (Ref.func f).Ok)
    (hq : f.qual = d ++ '.' :: n) (hn : '.' ∉ n) (hne : cls ≠ d) :
    (record [] [.bound cls f, .func f]).length = 2 := by
  have : fullName (.func f) ≠ fullName (.bound cls f) := by
    intro he
    obtain ⟨m, h1, h2⟩ := (C120_method_iff cls f h h').1 he.symm
    rw [hq] at h1
    exact hne (last_colon h1 hn h2).1.symm
  simp [record, this]

/-! ## Examples -/

/-- `Outer.Inner.run`, lines 5 to 7 of `/t/a.py`. -/
def exRun : Fn := ⟨0, ⟨"/t/a.py".toList, 5, 3⟩, [], "run".toList, "Outer.Inner.run".toList⟩

example : fullName (.func exRun) = "/t/a.py:5-7::Outer.Inner::run".toList := by decide +kernel
example : fullName (.bound "Inner".toList exRun) = "/t/a.py:5-7::Inner::run".toList := by decide +kernel

theorem exRun_class : ClassOf (.func exRun) (some "Outer.Inner".toList) :=
  .method _ "run".toList _ (by decide) (by decide)

theorem exRun_ok : (Ref.func exRun).Ok where
  name := by decide
  cls c h := by injection classOf_unique h exRun_class with h; subst h; decide
  digit c d t h he := by
    injection classOf_unique h exRun_class with h; subst h
    injection he with he; subst he; decide

theorem exBound_ok : (Ref.bound "Inner".toList exRun).Ok where
  name := by decide
  cls c h := by cases h; decide
  digit c d t h he := by cases h; injection he with he; subst he; decide

example : (record [] [.bound "Inner".toList exRun, .func exRun]).length = 2 :=
  C120_method_violated _ "Outer.Inner".toList "run".toList exRun exBound_ok exRun_ok (by decide) (by decide)
    (by decide)

example (e : Entry) (he : e.Ok) : e.text = fullName (.func exRun) ↔
    e = ⟨"/t/a.py".toList, 5, 7, some "Outer.Inner".toList, "run".toList⟩ :=
  C120_readable_partial _ _ exRun_class exRun_ok rfl e he

/-- A test function in `/t/a.py`, decorated with a decorator from `/lib/d.py`. -/
def exDeco : Fn :=
  ⟨1, ⟨"/lib/d.py".toList, 3, 2⟩, [⟨"/t/a.py".toList, 16, 4⟩], "test".toList, "test".toList⟩

example : fullName (.func exDeco) = "/lib/d.py:16-19::test".toList := by decide +kernel

theorem exDeco_ok : (Ref.func exDeco).Ok where
  name := by decide
  cls c h := by have := classOf_unique h (.plain exDeco (by decide)); cases this
  digit c d t h := by have := classOf_unique h (.plain exDeco (by decide)); cases this

example (e : Entry) (he : e.Ok) (h : e.text = fullName (.func exDeco)) : e.file ≠ "/t/a.py".toList :=
  (C120_decorated_violated _ exDeco_ok (by decide) e he h).2.1

example : record [] [.func exRun, .func { exRun with id := 7 }] = record [] [.func exRun] :=
  (C120_factory_violated [] exRun { exRun with id := 7 } (by decide) rfl).1

end Toffee.FuncName
