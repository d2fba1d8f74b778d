import Verif.Model.CodeRun
import Verif.Props.CodeGen
import Verif.Props.BundleBind

/-! Generated bundle code, read by Python, bound to the device (`scripts/bundle_code_gen.py`): C109. -/

namespace Toffee.CodeRun

open Toffee.CodeGen Toffee.Bundle

/-! ### Specification: what Python makes of a text -/

/-- A token; `str` and `rstr` are string literals and raw string literals, with the characters between
the quotes. -/
inductive Tok
  | word (s : Text)
  | str (s : Text)
  | rstr (s : Text)
  | op (c : Char)
  | blank
  | tab
  | newline
  deriving DecidableEq

/-- The characters of names and numbers. -/
def isWord (c : Char) : Bool :=
  (65 ≤ c.toNat && c.toNat ≤ 90) || (97 ≤ c.toNat && c.toNat ≤ 122) || (48 ≤ c.toNat && c.toNat ≤ 57) ||
    c == '_'

/-- Put a character in front of the tokens of what follows it. -/
def glue (c : Char) : List Tok → List Tok
  | .word w :: ts => .word (c :: w) :: ts
  | .str s :: ts => if c = 'r' then .rstr s :: ts else .word [c] :: .str s :: ts
  | ts => .word [c] :: ts

/-- Put characters into a string literal. -/
def quote (cs : Text) : List Tok → Option (List Tok)
  | .str s :: ts => some (.str (cs ++ s) :: ts)
  | _ => none

/-- The tokens of a text; with `some q`, of a text that begins inside a string literal that `q` ends. A
backslash in a literal keeps the next character from ending it. -/
def lex : Option Char → Text → Option (List Tok)
  | none, [] => some []
  | some _, [] => none
  | none, '\\' :: '\n' :: t => (lex none t).map (.blank :: ·)
  | none, c :: t =>
    if c = ' ' then (lex none t).map (.blank :: ·)
    else if c = '\t' then (lex none t).map (.tab :: ·)
    else if c = '\n' then (lex none t).map (.newline :: ·)
    else if isWord c then (lex none t).map (glue c)
    else if c = '"' ∨ c = '\'' then lex (some c) t
    else if c ∈ "(),=.:{}".toList then (lex none t).map (.op c :: ·)
    else none
  | some q, '\\' :: c :: t => (lex (some q) t).bind (quote ['\\', c])
  | some q, c :: t =>
    if c = '\n' then none
    else if c = q then (lex none t).map (.str [] :: ·)
    else (lex (some q) t).bind (quote [c])

/-- Cut at the line ends. -/
def cut : List Tok → List (List Tok)
  | [] => [[]]
  | .newline :: ts => [] :: cut ts
  | x :: ts =>
    match cut ts with
    | [] => [[x]]
    | l :: ls => (x :: l) :: ls

/-- A line: whether it is indented, and its tokens without blanks. -/
def line (l : List Tok) : Bool × List Tok :=
  (l.head? == some .tab || l.head? == some .blank, l.filter fun x => x ≠ .blank ∧ x ≠ .tab)

def keywords : List Text :=
  ["False", "None", "True", "and", "as", "assert", "async", "await", "break", "class", "continue", "def",
   "del", "elif", "else", "except", "finally", "for", "from", "global", "if", "import", "in", "is",
   "lambda", "nonlocal", "not", "or", "pass", "raise", "return", "try", "while", "with",
   "yield"].map String.toList

/-- A name that can be assigned to. -/
def isIdent (s : Text) : Bool :=
  match s with
  | [] => false
  | c :: _ => !(48 ≤ c.toNat && c.toNat ≤ 57) && s.all isWord && !keywords.contains s

/-- The argument of `from_prefix`, `from_regex` and `from_dict`. -/
inductive Arg
  | pre (p : Text)
  | regex (r : Text)
  | dict (d : List (Text × Text))
  deriving DecidableEq

/-- The value of a string literal without backslashes. -/
def literal (s : Text) : Option Text := if '\\' ∈ s then none else some s

/-- The entries of a dictionary of strings, up to the brace. -/
def entries : List Tok → Option (List (Text × Text) × List Tok)
  | .str k :: .op ':' :: .str v :: .op ',' :: ts =>
    match literal k, literal v, entries ts with
    | some k, some v, some (d, r) => some ((k, v) :: d, r)
    | _, _, _ => none
  | .str k :: .op ':' :: .str v :: .op '}' :: ts =>
    match literal k, literal v with
    | some k, some v => some ([(k, v)], ts)
    | _, _ => none
  | _ => none

/-- The names on the left of `=`, separated by commas. -/
def targets : List Tok → Option (List Text × List Tok)
  | .word w :: .op ',' :: ts =>
    match targets ts with
    | some (ws, r) => if isIdent w then some (w :: ws, r) else none
    | none => none
  | .word w :: .op '=' :: ts => if isIdent w then some ([w], ts) else none
  | _ => none

/-- What the statements have done so far: the names imported, and the class, its attributes and whether
its body has begun. -/
structure Env where
  imports : List Text := []
  cls : Option (Text × List Text × Bool) := none
  made : Option (Text × Arg) := none

/-- The names of an `import`. -/
def imported : List Tok → Option (List Text)
  | [.word w] => some [w]
  | .word w :: .op ',' :: ts => (imported ts).map (w :: ·)
  | _ => none

/-- `self.__x` and `__x = …` inside a class mean `_Class__x`. -/
def mangle (cls n : Text) : Text :=
  if "__".toList.isPrefixOf n && !"__".toList.isSuffixOf n then
    match cls.dropWhile (· = '_') with
    | [] => n
    | c => '_' :: c ++ n
  else n

/-- A statement of the module: `from toffee import …`, `class C(Bundle):`, `bundle = C.from_…(…)`. A
class without a body is an error. -/
def outside (e : Env) (ts : List Tok) : Option Env :=
  if (match e.cls with | some (_, _, false) => true | _ => false) then none else
  match ts with
  | [] => some e
  | .word a :: .word b :: .word c :: ns =>
    if a = "from".toList ∧ b = "toffee".toList ∧ c = "import".toList then
      (imported ns).map fun l => { e with imports := e.imports ++ l }
    else none
  | [.word a, .word n, .op '(', .word b, .op ')', .op ':'] =>
    if a = "class".toList ∧ isIdent n ∧ b = "Bundle".toList ∧ b ∈ e.imports then
      some { e with cls := some (n, [], false) }
    else none
  | .word v :: .op '=' :: .word n :: .op '.' :: .word m :: .op '(' :: arg =>
    if v = "bundle".toList ∧ e.cls.map Prod.fst = some n then
      match arg with
      | [.str p, .op ')'] =>
        if m = "from_prefix".toList then
          (literal p).map fun p => { e with made := some (n, .pre p) }
        else none
      | [.rstr r, .op ')'] =>
        if m = "from_regex".toList then some { e with made := some (n, .regex r) } else none
      | .op '{' :: ts =>
        match entries ts with
        | some (d, [.op ')']) =>
          if m = "from_dict".toList then some { e with made := some (n, .dict d) } else none
        | _ => none
      | _ => none
    else none
  | _ => none

/-- A statement of the class: `a, b, … = Signals(n)`. `Signals(n)` has `n` signals, `Signals(1)` is one
signal: the numbers must agree. -/
def inside (e : Env) (ts : List Tok) : Option Env :=
  match e.cls, targets ts with
  | some (n, attrs, _), some (ws, [.word f, .op '(', .word k, .op ')']) =>
    if f = "Signals".toList ∧ f ∈ e.imports ∧ k = Nat.toDigits 10 ws.length then
      some { e with cls := some (n, attrs ++ ws.map (mangle n), true) }
    else none
  | _, _ => none

def exec : List (Bool × List Tok) → Env → Option Env
  | [], e => some e
  | (ind, ts) :: ls, e =>
    if ts = [] then exec ls e
    else (if ind then inside e ts else outside e ts).bind (exec ls)

/-- What the text makes: the class, its attributes that are signals, and the argument that makes `bundle`
of it. -/
structure Made where
  cls : Text
  attrs : List Text
  arg : Arg
  deriving DecidableEq

def run (code : Text) : Option Made :=
  match lex none code with
  | none => none
  | some ts =>
    match exec ((cut ts).map line) {} with
    | some ⟨_, some (_, attrs, true), some (c, a)⟩ => some ⟨c, attrs, a⟩
    | _ => none

/-- Attributes that `Bundle.__init__` sets before it looks for the signals (`toffee/bundle.py` 395-404):
a signal of the class of that name is hidden. -/
def hidden : List Text := ["name", "bound", "write_mode", "current_level_signals"].map String.toList

/-- Attributes that the class needs to make and bind a bundle. -/
def needed : List Text :=
  ["signals", "bind", "from_prefix", "from_regex", "from_dict", "dut_all_signals",
   "make_requset_response_for"].map String.toList

/-- A name that is in nobody's way when a bundle is made and bound. -/
def Free (s : Text) : Prop :=
  s ∉ hidden ∧ s ∉ needed ∧ ¬ "__".toList <+: s ∧ ¬ "_Bundle__".toList <+: s

/-- Each element once. -/
def once : List Text → List Text
  | [] => []
  | x :: l => if x ∈ l then once l else x :: once l

/-- The bundle: the signals of the class in the order of `dir`. `none` if the class cannot be used. -/
def object (re : Text → Text → Option Text) (m : Made) : Option Bundle :=
  if m.attrs.all fun s => !(needed.contains s || "__".toList.isPrefixOf s || "_Bundle__".toList.isPrefixOf s)
  then some (.mk
    (match m.arg with
      | .pre p => .pre p
      | .regex r => .regex r (re r)
      | .dict d => .dict d)
    { signals := (sort (once (m.attrs.filter fun s => !hidden.contains s))).map fun s =>
        ⟨s, true, .unconnected⟩
      lists := [] } none .nil)
  else none


/-! ### Reading pieces of text -/

/-- The next token does not begin with a letter or a quote. -/
def NoGlue : List Tok → Prop
  | .word _ :: _ => False
  | .str _ :: _ => False
  | _ => True

theorem lex_char {c : Char} (hc : c ≠ '\\') (t : Text) :
    lex none (c :: t) =
      if c = ' ' then (lex none t).map (.blank :: ·)
      else if c = '\t' then (lex none t).map (.tab :: ·)
      else if c = '\n' then (lex none t).map (.newline :: ·)
      else if isWord c then (lex none t).map (glue c)
      else if c = '"' ∨ c = '\'' then lex (some c) t
      else if c ∈ "(),=.:{}".toList then (lex none t).map (.op c :: ·)
      else none := by
  rw [lex]
  intro _ h _
  exact hc h

theorem lex_wordChar {c : Char} (hc : isWord c = true) (t : Text) :
    lex none (c :: t) = (lex none t).map (glue c) := by
  have h : ∀ d, isWord d = false → c ≠ d := fun d hd he => by rw [he, hd] at hc; cases hc
  rw [lex_char (h _ (by decide)), if_neg (h _ (by decide)), if_neg (h _ (by decide)),
    if_neg (h _ (by decide)), if_pos hc]

theorem glue_noGlue (c : Char) {ts : List Tok} (h : NoGlue ts) : glue c ts = .word [c] :: ts := by
  match ts with
  | [] => rfl
  | .word _ :: _ => exact h.elim
  | .str _ :: _ => exact h.elim
  | .rstr _ :: _ => rfl
  | .op _ :: _ => rfl
  | .blank :: _ => rfl
  | .tab :: _ => rfl
  | .newline :: _ => rfl

theorem lex_word (w : Text) (hne : w ≠ []) (hw : ∀ c ∈ w, isWord c = true) {t : Text} {ts : List Tok}
    (h : lex none t = some ts) (hg : NoGlue ts) : lex none (w ++ t) = some (.word w :: ts) := by
  induction w with
  | nil => exact absurd rfl hne
  | cons c w ih =>
    rw [List.cons_append, lex_wordChar (hw c List.mem_cons_self)]
    cases w with
    | nil =>
      rw [List.nil_append, h]
      exact congrArg some (glue_noGlue c hg)
    | cons d w =>
      rw [ih (by simp) fun x hx => hw x (List.mem_cons_of_mem _ hx)]
      rfl

/-- The last token is not open to what follows. -/
def Closed (ts : List Tok) : Prop :=
  ∃ x, ts.getLast? = some x ∧ (x = .blank ∨ x = .tab ∨ x = .newline ∨ ∃ c, x = .op c)

theorem closed_cons {x : Tok} {ts : List Tok} (h : Closed (x :: ts))
    (hx : (∃ s, x = .word s) ∨ (∃ s, x = .str s) ∨ ∃ s, x = .rstr s) : Closed ts := by
  cases ts with
  | nil =>
    obtain ⟨y, hy, hc⟩ := h
    have : x = y := by simpa using hy
    subst this
    rcases hx with ⟨s, rfl⟩ | ⟨s, rfl⟩ | ⟨s, rfl⟩ <;> rcases hc with h | h | h | ⟨c, h⟩ <;> cases h
  | cons y ts => exact h

theorem closed_cons_iff {x y : Tok} {ts : List Tok} : Closed (x :: y :: ts) ↔ Closed (y :: ts) := Iff.rfl

theorem glue_append (c : Char) {ts : List Tok} (h : Closed (glue c ts)) (us : List Tok) :
    Closed ts ∧ glue c (ts ++ us) = glue c ts ++ us := by
  match ts, h with
  | [], h => exact absurd (closed_cons h (.inl ⟨_, rfl⟩)) (by rintro ⟨x, hx, _⟩; cases hx)
  | .word w :: ts, h =>
    have h1 : Closed ts := closed_cons h (.inl ⟨_, rfl⟩)
    refine ⟨?_, rfl⟩
    cases ts with
    | nil => obtain ⟨x, hx, _⟩ := h1; cases hx
    | cons y ts => exact h1
  | .str s :: ts, h =>
    simp only [glue] at h ⊢
    split at h
    · have h1 : Closed ts := closed_cons h (.inr (.inr ⟨_, rfl⟩))
      rename_i hc
      refine ⟨?_, by simp [hc]⟩
      cases ts with
      | nil => obtain ⟨x, hx, _⟩ := h1; cases hx
      | cons y ts => exact h1
    · rename_i hc
      exact ⟨closed_cons h (.inl ⟨_, rfl⟩), by simp [hc]⟩
  | .rstr _ :: ts, h => exact ⟨closed_cons h (.inl ⟨_, rfl⟩), rfl⟩
  | .op _ :: ts, h => exact ⟨closed_cons h (.inl ⟨_, rfl⟩), rfl⟩
  | .blank :: ts, h => exact ⟨closed_cons h (.inl ⟨_, rfl⟩), rfl⟩
  | .tab :: ts, h => exact ⟨closed_cons h (.inl ⟨_, rfl⟩), rfl⟩
  | .newline :: ts, h => exact ⟨closed_cons h (.inl ⟨_, rfl⟩), rfl⟩

theorem quote_append {cs : Text} {ts us : List Tok} (h : quote cs ts = some us) (hc : Closed us) :
    Closed ts ∧ ∀ vs, quote cs (ts ++ vs) = some (us ++ vs) := by
  match ts, h with
  | .str s :: ts, h =>
    have h := Option.some.inj h
    subst h
    have h1 := closed_cons hc (.inr (.inl ⟨_, rfl⟩))
    refine ⟨?_, fun _ => rfl⟩
    cases ts with
    | nil => obtain ⟨x, hx, _⟩ := h1; cases hx
    | cons y ts => exact h1

theorem map_cons_append (o : Option (List Tok)) (x : Tok) (ta : List Tok) :
    (o.map (ta ++ ·)).map (x :: ·) = o.map (x :: ta ++ ·) := by
  cases o <;> rfl

theorem quote_ne_nil (cs : Text) (o : Option (List Tok)) : o.bind (quote cs) ≠ some [] := by
  intro h
  obtain ⟨ts, _, h2⟩ := Option.bind_eq_some_iff.1 h
  match ts, h2 with
  | .str _ :: _, h2 => cases h2

theorem lex_quoted {q c : Char} {a : Text} (h : ∀ d t, c = '\\' → a ≠ d :: t) :
    lex (some q) (c :: a) = if c = '\n' then none
      else if c = q then (lex none a).map (.str [] :: ·)
      else (lex (some q) a).bind (quote [c]) := by
  rw [lex]
  intro d t hc ha
  exact h d t hc ha

theorem map_cons_ne_nil (x : Tok) (o : Option (List Tok)) : o.map (x :: ·) ≠ some [] := by
  intro h
  obtain ⟨_, _, h2⟩ := Option.map_eq_some_iff.1 h
  cases h2

theorem lex_quoted_ne_nil (q : Char) (a : Text) : lex (some q) a ≠ some [] := by
  match a with
  | [] => simp [lex]
  | '\\' :: c :: t => rw [lex]; exact quote_ne_nil _ _
  | ['\\'] =>
    rw [lex_quoted (by intro d t _ h; cases h)]
    split
    · simp
    · split
      · exact map_cons_ne_nil _ _
      · exact quote_ne_nil _ _
  | c :: t =>
    by_cases hc : c = '\\' ∧ t ≠ []
    · obtain ⟨rfl, ht⟩ := hc
      cases t with
      | nil => exact absurd rfl ht
      | cons d t => rw [lex]; exact quote_ne_nil _ _
    · rw [lex_quoted (by rintro d t' h1 rfl; exact hc ⟨h1, by simp⟩)]
      split
      · simp
      · split
        · exact map_cons_ne_nil _ _
        · exact quote_ne_nil _ _

theorem glue_ne_nil (c : Char) (ts : List Tok) : glue c ts ≠ [] := by
  fun_cases glue c ts <;> simp_all

theorem lex_top {c : Char} {a : Text} (h : ∀ t, c = '\\' → a ≠ '\n' :: t) :
    lex none (c :: a) =
      if c = ' ' then (lex none a).map (.blank :: ·)
      else if c = '\t' then (lex none a).map (.tab :: ·)
      else if c = '\n' then (lex none a).map (.newline :: ·)
      else if isWord c then (lex none a).map (glue c)
      else if c = '"' ∨ c = '\'' then lex (some c) a
      else if c ∈ "(),=.:{}".toList then (lex none a).map (.op c :: ·)
      else none := by
  rw [lex]
  exact h

theorem lex_nil {a : Text} (h : lex none a = some []) : a = [] := by
  cases a with
  | nil => rfl
  | cons c a =>
    exfalso
    by_cases hc : c = '\\' ∧ ∃ t, a = '\n' :: t
    · obtain ⟨rfl, t, rfl⟩ := hc
      rw [lex] at h
      exact map_cons_ne_nil _ _ h
    · rw [lex_top (fun t h1 h2 => hc ⟨h1, t, h2⟩)] at h
      repeat' split at h
      all_goals first
        | exact map_cons_ne_nil _ _ h
        | exact lex_quoted_ne_nil _ _ h
        | cases h; done
        | (obtain ⟨_, _, h2⟩ := Option.map_eq_some_iff.1 h
           exact glue_ne_nil _ _ h2)

/-- A piece of text that ends with a blank or an operator can be read by itself. -/
theorem lex_append (m : Option Char) (a : Text) (ta : List Tok) (h : lex m a = some ta)
    (hc : Closed ta) (t : Text) : lex m (a ++ t) = (lex none t).map (ta ++ ·) := by
  have sep : ∀ (x : Tok) (a' : Text) (ta : List Tok), Closed ta →
      (∀ ta', lex none a' = some ta' → Closed ta' →
      lex none (a' ++ t) = (lex none t).map (ta' ++ ·)) → (lex none a').map (x :: ·) = some ta →
      (lex none (a' ++ t)).map (x :: ·) = (lex none t).map (ta ++ ·) := by
    intro x a' ta hc ih h
    obtain ⟨ta', h1, rfl⟩ := Option.map_eq_some_iff.1 h
    cases ta' with
    | nil => rw [lex_nil h1]; rfl
    | cons y ys => rw [ih _ h1 hc, map_cons_append]
  induction hk : a.length using Nat.strongRecOn generalizing m a ta with
  | _ k ih =>
  match m, a with
  | none, [] =>
    cases h
    obtain ⟨x, hx, _⟩ := hc
    cases hx
  | some q, [] => cases h
  | none, '\\' :: '\n' :: a' =>
    rw [lex] at h
    show lex none ('\\' :: '\n' :: (a' ++ t)) = _
    rw [lex]
    exact sep _ _ _ hc (fun ta' h1 h2 => ih a'.length (by simp at hk; omega) none a' ta' h1 h2 rfl) h
  | some q, '\\' :: c :: a' =>
    rw [lex] at h
    show lex (some q) ('\\' :: c :: (a' ++ t)) = _
    rw [lex]
    obtain ⟨ts, h1, h2⟩ := Option.bind_eq_some_iff.1 h
    obtain ⟨h3, h4⟩ := quote_append h2 hc
    rw [ih a'.length (by simp at hk; omega) (some q) a' ts h1 h3 rfl]
    cases lex none t with
    | none => rfl
    | some us => exact h4 us
  | none, c :: a' =>
    have ih' := fun ta' h1 h2 => ih a'.length (by simp at hk; omega) none a' ta' h1 h2 rfl
    by_cases hb : c = '\\' ∧ ∃ t, a' = '\n' :: t
    · obtain ⟨rfl, a'', rfl⟩ := hb
      rw [lex] at h
      show lex none ('\\' :: '\n' :: (a'' ++ t)) = _
      rw [lex]
      exact sep _ _ _ hc (fun ta' h1 h2 => ih a''.length (by simp at hk; omega) none a'' ta' h1 h2 rfl) h
    · rw [lex_top (fun t h1 h2 => hb ⟨h1, t, h2⟩)] at h
      have hb2 : c ≠ '\\' := by
        rintro rfl
        simp [isWord] at h
      rw [List.cons_append, lex_char hb2]
      repeat' split at h
      · rw [if_pos ‹_›]; exact sep _ _ _ hc ih' h
      · rw [if_neg ‹_›, if_pos ‹_›]; exact sep _ _ _ hc ih' h
      · rw [if_neg ‹_›, if_neg ‹_›, if_pos ‹_›]; exact sep _ _ _ hc ih' h
      · rw [if_neg ‹_›, if_neg ‹_›, if_neg ‹_›, if_pos ‹_›]
        obtain ⟨ts, h1, rfl⟩ := Option.map_eq_some_iff.1 h
        obtain ⟨h3, _⟩ := glue_append c hc []
        rw [ih' ts h1 h3]
        cases lex none t with
        | none => rfl
        | some us => exact congrArg some (glue_append c hc us).2
      · rw [if_neg ‹_›, if_neg ‹_›, if_neg ‹_›, if_neg ‹_›, if_pos ‹_›]
        exact ih a'.length (by simp at hk; omega) (some c) a' ta h hc rfl
      · rw [if_neg ‹_›, if_neg ‹_›, if_neg ‹_›, if_neg ‹_›, if_neg ‹_›, if_pos ‹_›]
        exact sep _ _ _ hc ih' h
      · cases h
  | some q, c :: a' =>
    by_cases hb : c = '\\' ∧ a' ≠ []
    · obtain ⟨rfl, ha⟩ := hb
      cases a' with
      | nil => exact absurd rfl ha
      | cons c a' =>
        rw [lex] at h
        show lex (some q) ('\\' :: c :: (a' ++ t)) = _
        rw [lex]
        obtain ⟨ts, h1, h2⟩ := Option.bind_eq_some_iff.1 h
        obtain ⟨h3, h4⟩ := quote_append h2 hc
        rw [ih a'.length (by simp at hk; omega) (some q) a' ts h1 h3 rfl]
        cases lex none t with
        | none => rfl
        | some us => exact h4 us
    · rw [lex_quoted (by rintro d t' h1 rfl; exact hb ⟨h1, by simp⟩)] at h
      have hb2 : c ≠ '\\' ∨ (c = q ∧ a' = []) := by
        by_cases h0 : c = '\\'
        · refine .inr ?_
          have ha : a' = [] := Classical.byContradiction fun h1 => hb ⟨h0, h1⟩
          subst ha
          refine ⟨?_, rfl⟩
          split at h
          · cases h
          · split at h
            · assumption
            · cases h
        · exact .inl h0
      rcases hb2 with hb2 | ⟨rfl, rfl⟩
      · rw [List.cons_append, lex_quoted (fun d t h1 _ => hb2 h1)]
        repeat' split at h
        · cases h
        · rw [if_neg ‹_›, if_pos ‹_›]
          exact sep _ _ _ hc (fun ta' h1 h2 => ih a'.length (by simp at hk; omega) none a' ta' h1 h2 rfl) h
        · rw [if_neg ‹_›, if_neg ‹_›]
          obtain ⟨ts, h1, h2⟩ := Option.bind_eq_some_iff.1 h
          obtain ⟨h3, h4⟩ := quote_append h2 hc
          rw [ih a'.length (by simp at hk; omega) (some q) a' ts h1 h3 rfl]
          cases lex none t with
          | none => rfl
          | some us => exact h4 us
      · split at h
        · cases h
        · rw [if_pos rfl] at h
          cases h
          obtain ⟨x, hx, hc⟩ := hc
          cases hx
          rcases hc with h | h | h | ⟨c, h⟩ <;> cases h

/-- A string literal. -/
theorem lex_str (q : Char) (s : Text) (hs : ∀ c ∈ s, c ≠ q ∧ c ≠ '\n' ∧ c ≠ '\\')
    (hq : q ≠ '\n' ∧ q ≠ '\\') {t : Text} {ts : List Tok} (h : lex none t = some ts) :
    lex (some q) (s ++ q :: t) = some (.str s :: ts) := by
  induction s with
  | nil =>
    rw [List.nil_append, lex_quoted (fun d t h1 _ => hq.2 h1), if_neg hq.1, if_pos rfl, h]
    rfl
  | cons c s ih =>
    obtain ⟨h1, h2, h3⟩ := hs c List.mem_cons_self
    rw [List.cons_append, lex_quoted (fun d t h _ => h3 h), if_neg h2, if_neg h1,
      ih fun c hc => hs c (List.mem_cons_of_mem _ hc)]
    rfl

/-- A text that can stand between the quotes of a raw string literal. -/
inductive RawOk : Text → Prop
  | nil : RawOk []
  | char {c s} : c ≠ '"' → c ≠ '\n' → c ≠ '\\' → RawOk s → RawOk (c :: s)
  | escape (c : Char) {s} : RawOk s → RawOk ('\\' :: c :: s)

theorem lex_raw {s : Text} (hs : RawOk s) {t : Text} {ts : List Tok} (h : lex none t = some ts) :
    lex (some '"') (s ++ '"' :: t) = some (.str s :: ts) := by
  induction hs with
  | nil =>
    rw [List.nil_append, lex_quoted (fun d t h1 _ => absurd h1 (by decide)), if_neg (by decide),
      if_pos rfl, h]
    rfl
  | char h1 h2 h3 _ ih =>
    rw [List.cons_append, lex_quoted (fun d t h _ => h3 h), if_neg h2, if_neg h1, ih]
    rfl
  | escape c _ ih =>
    rw [List.cons_append, List.cons_append, lex, ih]
    rfl

/-- A name: letters, digits and underscores. -/
def Words (s : Text) : Prop := s ≠ [] ∧ ∀ c ∈ s, isWord c = true

theorem words_of_ident {s : Text} (h : isIdent s = true) : Words s := by
  cases s with
  | nil => cases h
  | cons c s =>
    simp only [isIdent, Bool.and_eq_true] at h
    exact ⟨by simp, fun x hx => List.all_eq_true.1 h.1.2 x hx⟩

theorem digit_word : ∀ d, d < 10 → isWord (Nat.digitChar d) = true := by decide

theorem mem_digits (c : Char) (fuel n : Nat) (acc : Text)
    (h : c ∈ Nat.toDigitsCore 10 fuel n acc) : c ∈ acc ∨ ∃ d, d < 10 ∧ c = Nat.digitChar d := by
  induction fuel generalizing n acc with
  | zero => exact Or.inl h
  | succ fuel ih =>
    have hd : n % 10 < 10 := Nat.mod_lt _ (by omega)
    simp only [Nat.toDigitsCore] at h
    split at h
    · rcases List.mem_cons.1 h with h | h
      · exact Or.inr ⟨_, hd, h⟩
      · exact Or.inl h
    · rcases ih _ _ h with h | h
      · rcases List.mem_cons.1 h with h | h
        · exact Or.inr ⟨_, hd, h⟩
        · exact Or.inl h
      · exact Or.inr h

theorem digits_ne (fuel n : Nat) (acc : Text) (h : acc ≠ [] ∨ fuel ≠ 0) :
    Nat.toDigitsCore 10 fuel n acc ≠ [] := by
  induction fuel generalizing n acc with
  | zero => exact h.resolve_right (by simp)
  | succ fuel ih =>
    simp only [Nat.toDigitsCore]
    split
    · simp
    · exact ih _ _ (.inl (by simp))

theorem str_words (n : Nat) : Words (CodeGen.str n) := by
  refine ⟨digits_ne _ _ _ (.inr (by simp)), fun c hc => ?_⟩
  rcases mem_digits c _ _ _ hc with h | ⟨d, hd, rfl⟩
  · cases h
  · exact digit_word d hd

/-- The tokens of names with a comma after each. -/
def listToks (l : List Text) : List Tok := l.flatMap fun s => [.word s, .op ',', .blank]

theorem lex_listed {l : List Text} (hl : ∀ s ∈ l, Words s) {t : Text} {ts : List Tok}
    (h : lex none t = some ts) : lex none (listed l ++ t) = some (listToks l ++ ts) := by
  induction l with
  | nil => exact h
  | cons s l ih =>
    have e : listed (s :: l) ++ t = s ++ (", ".toList ++ (listed l ++ t)) := by simp [listed]
    have h1 := lex_append none ", ".toList [.op ',', .blank] rfl ⟨.blank, rfl, .inl rfl⟩ (listed l ++ t)
    rw [ih fun u hu => hl u (List.mem_cons_of_mem _ hu)] at h1
    obtain ⟨hne, hw⟩ := hl s List.mem_cons_self
    rw [e, lex_word s hne hw h1 (by trivial)]
    rfl

/-- The names with commas between them. -/
def joined : List Text → Text
  | [] => []
  | [s] => s
  | s :: l => s ++ ", ".toList ++ joined l

theorem listed_joined (s : Text) (l : List Text) : listed (s :: l) = joined (s :: l) ++ ", ".toList := by
  induction l generalizing s with
  | nil => simp [listed, joined]
  | cons u l ih =>
    have : listed (s :: u :: l) = s ++ ", ".toList ++ listed (u :: l) := by simp [listed]
    rw [this, ih u]
    simp [joined]

/-- Their tokens, without blanks. -/
def commaToks : List Text → List Tok
  | [] => []
  | [s] => [.word s]
  | s :: l => .word s :: .op ',' :: commaToks l

/-- Tokens of one line, and what remains of them without the blanks. -/
def Body (raw : List Tok) (ts : List Tok) : Prop :=
  Tok.newline ∉ raw ∧ (raw.filter fun x => x ≠ .blank ∧ x ≠ .tab) = ts

theorem Body.append {a b ta tb : List Tok} (ha : Body a ta) (hb : Body b tb) : Body (a ++ b) (ta ++ tb) :=
  ⟨by rw [List.mem_append]; exact fun h => h.elim ha.1 hb.1, by rw [List.filter_append, ha.2, hb.2]⟩

theorem lex_joined (s : Text) (l : List Text) (hl : ∀ u ∈ s :: l, Words u) {t : Text} {ts : List Tok}
    (h : lex none t = some ts) (hg : NoGlue ts) :
    ∃ raw, lex none (joined (s :: l) ++ t) = some (raw ++ ts) ∧ Body raw (commaToks (s :: l)) := by
  induction l generalizing s with
  | nil =>
    obtain ⟨hne, hw⟩ := hl s List.mem_cons_self
    exact ⟨[.word s], lex_word s hne hw h hg, by simp, rfl⟩
  | cons u l ih =>
    obtain ⟨raw, h1, h2⟩ := ih u fun v hv => hl v (List.mem_cons_of_mem _ hv)
    have e : joined (s :: u :: l) ++ t = s ++ (", ".toList ++ (joined (u :: l) ++ t)) := by
      simp [joined]
    have h3 := lex_append none ", ".toList [.op ',', .blank] rfl ⟨.blank, rfl, .inl rfl⟩
      (joined (u :: l) ++ t)
    rw [h1] at h3
    obtain ⟨hne, hw⟩ := hl s List.mem_cons_self
    refine ⟨[.word s, .op ',', .blank] ++ raw, ?_, ?_⟩
    · rw [e, lex_word s hne hw h3 (by trivial)]
      rfl
    · exact Body.append (ta := [.word s, .op ',']) ⟨by simp, rfl⟩ h2

theorem listToks_body (s : Text) (l : List Text) (m : List Text) (hm : m ≠ []) :
    ∃ ts, Body (listToks (s :: l)) ts ∧ ts ++ commaToks m = commaToks (s :: l ++ m) := by
  induction l generalizing s with
  | nil =>
    refine ⟨[.word s, .op ','], ⟨by simp [listToks], rfl⟩, ?_⟩
    cases m with
    | nil => exact absurd rfl hm
    | cons u m => rfl
  | cons u l ih =>
    obtain ⟨ts, h1, h2⟩ := ih u
    refine ⟨[.word s, .op ','] ++ ts, ?_, ?_⟩
    · exact Body.append (a := [.word s, .op ',', .blank]) ⟨by simp, rfl⟩ h1
    · show .word s :: .op ',' :: (ts ++ commaToks m) = _
      rw [h2]
      rfl

/-- The tokens after the names. -/
def endToks (n : Nat) : List Tok :=
  [.op '=', .word "Signals".toList, .op '(', .word (CodeGen.str n), .op ')']

theorem lex_end (n : Nat) (t : Text) {ts : List Tok} (h : lex none t = some ts) :
    lex none (("= Signals(".toList ++ CodeGen.str n ++ ")".toList) ++ '\n' :: t) =
      some ([.op '=', .blank, .word "Signals".toList, .op '(', .word (CodeGen.str n), .op ')', .newline] ++ ts) := by
  have h1 := lex_append none ")\n".toList [.op ')', .newline] rfl ⟨.newline, rfl, .inr (.inr (.inl rfl))⟩ t
  rw [h] at h1
  have h2 := lex_word _ (str_words n).1 (str_words n).2 h1 (by trivial)
  have h3 := lex_append none "= Signals(".toList [.op '=', .blank, .word "Signals".toList, .op '('] rfl
    ⟨.op '(', rfl, .inr (.inr (.inr ⟨_, rfl⟩))⟩ (CodeGen.str n ++ (")\n".toList ++ t))
  rw [h2] at h3
  have e : ("= Signals(".toList ++ CodeGen.str n ++ ")".toList) ++ '\n' :: t =
      "= Signals(".toList ++ (CodeGen.str n ++ (")\n".toList ++ t)) := by simp
  rw [e, h3]
  rfl

theorem endCode_eq (n : Nat) (hn : n ≠ 0) :
    endCode n = ' ' :: ("= Signals(".toList ++ CodeGen.str n ++ ")".toList) := by
  simp only [endCode, if_neg hn]
  rfl

/-- The declaration is one line. -/
theorem lex_outer (m : Int) (n : Nat) (hn : n ≠ 0) (ss : List Text) (hne : ss ≠ [])
    (hs : ∀ s ∈ ss, Words s) (t : Text) {ts : List Tok} (h : lex none t = some ts) :
    ∃ raw, lex none (outer m (endCode n) ss ++ t) = some (.tab :: raw ++ .newline :: ts) ∧
      Body raw (commaToks ss ++ endToks n) := by
  induction hk : ss.length using Nat.strongRecOn generalizing ss with
  | _ k ih =>
  cases ss with
  | nil => exact absurd rfl hne
  | cons s rest =>
    have hlen := inner_length m rest ("\t".toList ++ (s ++ ", ".toList)) (tabSize + s.length + 2 + 1)
    obtain ⟨taken, h1, h2, -, -⟩ :=
      inner_spec m rest ("\t".toList ++ (s ++ ", ".toList)) (tabSize + s.length + 2 + 1)
    rw [outer]
    generalize inner m rest ("\t".toList ++ (s ++ ", ".toList)) (tabSize + s.length + 2 + 1) = r at *
    obtain ⟨line, width, left⟩ := r
    dsimp only at *
    have hline : line = "\t".toList ++ listed (s :: taken) := by rw [h2]; simp [listed]
    have htn : ∀ u ∈ s :: taken, Words u := by
      intro u hu
      rcases List.mem_cons.1 hu with hu | hu
      · rw [hu]; exact hs s List.mem_cons_self
      · exact hs u (List.mem_cons_of_mem _ (by rw [h1]; exact List.mem_append_left _ hu))
    split
    · rename_i hleft
      rw [hleft, List.append_nil] at h1
      subst h1
      rw [hline, listed_joined, dropLast2, endCode_eq n hn]
      have hend := lex_end n t h
      split
      · have h3 := lex_append none " ".toList [.blank] rfl ⟨.blank, rfl, .inl rfl⟩
          (("= Signals(".toList ++ CodeGen.str n ++ ")".toList) ++ '\n' :: t)
        rw [hend] at h3
        obtain ⟨raw, h4, h5⟩ := lex_joined s rest htn h3 (by trivial)
        have h6 := lex_append none "\t".toList [.tab] rfl ⟨.tab, rfl, .inr (.inl rfl)⟩
          (joined (s :: rest) ++ (" ".toList ++ (("= Signals(".toList ++ CodeGen.str n ++ ")".toList) ++ '\n' :: t)))
        rw [h4] at h6
        refine ⟨raw ++ [.blank, .op '=', .blank, .word "Signals".toList, .op '(', .word (CodeGen.str n), .op ')'],
          ?_, ?_⟩
        · have e : "\t".toList ++ joined (s :: rest) ++ (' ' :: ("= Signals(".toList ++ CodeGen.str n ++ ")".toList) ++ "\n".toList) ++ t =
            "\t".toList ++ (joined (s :: rest) ++ (" ".toList ++ (("= Signals(".toList ++ CodeGen.str n ++ ")".toList) ++ '\n' :: t))) := by
            simp
          rw [e, h6]
          simp [Option.map]
        · exact h5.append ⟨by simp, by rfl⟩
      · have h3 := lex_append none " \\\n\t".toList [.blank, .blank, .tab] rfl ⟨.tab, rfl, .inr (.inl rfl)⟩
          (("= Signals(".toList ++ CodeGen.str n ++ ")".toList) ++ '\n' :: t)
        rw [hend] at h3
        obtain ⟨raw, h4, h5⟩ := lex_joined s rest htn h3 (by trivial)
        have h6 := lex_append none "\t".toList [.tab] rfl ⟨.tab, rfl, .inr (.inl rfl)⟩
          (joined (s :: rest) ++ (" \\\n\t".toList ++ (("= Signals(".toList ++ CodeGen.str n ++ ")".toList) ++ '\n' :: t)))
        rw [h4] at h6
        refine ⟨raw ++ [.blank, .blank, .tab, .op '=', .blank, .word "Signals".toList, .op '(', .word (CodeGen.str n), .op ')'],
          ?_, ?_⟩
        · have e : "\t".toList ++ joined (s :: rest) ++ (" \\\n\t".toList ++ List.drop 1 (' ' :: ("= Signals(".toList ++ CodeGen.str n ++ ")".toList)) ++ "\n".toList) ++ t =
            "\t".toList ++ (joined (s :: rest) ++ (" \\\n\t".toList ++ (("= Signals(".toList ++ CodeGen.str n ++ ")".toList) ++ '\n' :: t))) := by
            simp
          rw [e, h6]
          simp [Option.map]
        · exact h5.append ⟨by simp, by rfl⟩
    · rename_i hleft
      obtain ⟨raw, h3, h4⟩ := ih left.length (by simp only [List.length_cons] at hk; omega) left hleft
        (fun u hu => hs u (List.mem_cons_of_mem _ (by rw [h1]; exact List.mem_append_right _ hu))) rfl
      have h5 := lex_append none "\\\n".toList [.blank] rfl ⟨.blank, rfl, .inl rfl⟩
        (outer m (endCode n) left ++ t)
      rw [h3] at h5
      have h6 := lex_listed htn h5
      have h7 := lex_append none "\t".toList [.tab] rfl ⟨.tab, rfl, .inr (.inl rfl)⟩
        (listed (s :: taken) ++ ("\\\n".toList ++ (outer m (endCode n) left ++ t)))
      rw [h6] at h7
      obtain ⟨ts', h8, h9⟩ := listToks_body s taken left hleft
      refine ⟨listToks (s :: taken) ++ ([.blank, .tab] ++ raw), ?_, ?_⟩
      · have e : line ++ "\\\n".toList ++ outer m (endCode n) left ++ t =
            "\t".toList ++ (listed (s :: taken) ++ ("\\\n".toList ++ (outer m (endCode n) left ++ t))) := by
          rw [hline]; simp
        rw [e, h7]
        simp
      · have : s :: rest = s :: taken ++ left := by rw [List.cons_append, ← h1]
        rw [this, ← h9, List.append_assoc]
        exact h8.append (Body.append (ta := []) ⟨by simp, by rfl⟩ h4)

/-! ### Reading the whole text -/

theorem cut_line {a : List Tok} (h : Tok.newline ∉ a) (b : List Tok) :
    cut (a ++ .newline :: b) = a :: cut b := by
  induction a with
  | nil => rfl
  | cons x a ih =>
    have hx : x ≠ .newline := fun he => h (he ▸ List.mem_cons_self)
    have := ih fun hm => h (List.mem_cons_of_mem _ hm)
    rw [List.cons_append, cut, this]
    exact hx

theorem targets_comma {l : List Text} (hne : l ≠ []) (hl : ∀ s ∈ l, isIdent s = true) (r : List Tok) :
    targets (commaToks l ++ .op '=' :: r) = some (l, r) := by
  induction l with
  | nil => exact absurd rfl hne
  | cons s l ih =>
    have hs := hl s List.mem_cons_self
    cases l with
    | nil => simp [commaToks, targets, hs]
    | cons u l =>
      show targets (.word s :: .op ',' :: (commaToks (u :: l) ++ .op '=' :: r)) = _
      rw [targets, ih (by simp) fun x hx => hl x (List.mem_cons_of_mem _ hx)]
      simp [hs]

/-- What the class leaves behind. -/
def classEnv (name : Text) (l : List Text) : Env :=
  { imports := ["Bundle".toList, "Signals".toList, "Signal".toList]
    cls := some (name, l.map (mangle name), true) }

/-- The lines of the text, as tokens. -/
def impToks1 : List Tok :=
  [.word "from".toList, .blank, .word "toffee".toList, .blank, .word "import".toList, .blank,
   .word "Bundle".toList]

def impToks2 : List Tok :=
  [.word "from".toList, .blank, .word "toffee".toList, .blank, .word "import".toList, .blank,
   .word "Signals".toList, .op ',', .blank, .word "Signal".toList]

def clsToks (name : Text) : List Tok :=
  [.word "class".toList, .blank, .word name, .op '(', .word "Bundle".toList, .op ')', .op ':']

theorem exec_class {name : Text} (hname : isIdent name = true) {l : List Text} (hne : l ≠ [])
    (hl : ∀ s ∈ l, isIdent s = true) {ts : List Tok} {a : Arg} (hts : ts ≠ [])
    (ho : outside (classEnv name l) ts = some { classEnv name l with made := some (name, a) }) :
    exec [line impToks1, line impToks2, line [], line (clsToks name),
      (true, commaToks l ++ endToks l.length), line [], (false, ts), line []] {} =
      some { classEnv name l with made := some (name, a) } := by
  have l1 : line impToks1 = (false, [.word "from".toList, .word "toffee".toList, .word "import".toList,
    .word "Bundle".toList]) := rfl
  have l2 : line impToks2 = (false, [.word "from".toList, .word "toffee".toList, .word "import".toList,
    .word "Signals".toList, .op ',', .word "Signal".toList]) := rfl
  have l3 : line (clsToks name) = (false, [.word "class".toList, .word name, .op '(',
    .word "Bundle".toList, .op ')', .op ':']) := rfl
  have l4 : line [] = (false, []) := rfl
  have o1 : outside {} [.word "from".toList, .word "toffee".toList, .word "import".toList,
    .word "Bundle".toList] = some { imports := ["Bundle".toList] } := rfl
  have o2 : outside { imports := ["Bundle".toList] } [.word "from".toList, .word "toffee".toList,
    .word "import".toList, .word "Signals".toList, .op ',', .word "Signal".toList] =
    some { imports := ["Bundle".toList, "Signals".toList, "Signal".toList] } := rfl
  have o3 : outside { imports := ["Bundle".toList, "Signals".toList, "Signal".toList] }
    [.word "class".toList, .word name, .op '(', .word "Bundle".toList, .op ')', .op ':'] =
    some { imports := ["Bundle".toList, "Signals".toList, "Signal".toList], cls := some (name, [], false) } := by
    simp only [outside, hname]
    rfl
  have o4 : inside { imports := ["Bundle".toList, "Signals".toList, "Signal".toList], cls := some (name, [], false) }
    (commaToks l ++ endToks l.length) = some (classEnv name l) := by
    unfold inside
    rw [show commaToks l ++ endToks l.length = commaToks l ++ .op '=' ::
      [.word "Signals".toList, .op '(', .word (CodeGen.str l.length), .op ')'] from rfl, targets_comma hne hl]
    simp only
    rw [if_pos ⟨trivial, List.mem_cons_of_mem _ List.mem_cons_self, rfl⟩]
    rfl
  have hc : commaToks l ++ endToks l.length ≠ [] := by simp [endToks]
  rw [l1, l2, l3, l4]
  simp only [exec, if_neg hts, if_neg hc, o1, o2, o3, o4, ho, Option.bind_some, if_true, if_false,
    reduceCtorEq, Bool.false_eq_true]

theorem run_class {name : Text} (hname : isIdent name = true) {l : List Text} (hne : l ≠ [])
    (hl : ∀ s ∈ l, isIdent s = true) (width : Int) {tail : Text} {raw ts : List Tok} {v : Text}
    (ht : lex none tail = some (raw ++ [.newline])) (hb : Body raw ts) (hv : raw.head? = some (.word v))
    {a : Arg} (ho : outside (classEnv name l) ts =
      some { classEnv name l with made := some (name, a) }) :
    run (genBundleCode name l width ++ "\n".toList ++ tail) = some ⟨name, l.map (mangle name), a⟩ := by
  have hts : ts ≠ [] := by
    rintro rfl
    cases raw with
    | nil => cases hv
    | cons x xs =>
      have : x = .word v := by simpa using hv
      subst this
      have := hb.2
      simp at this
  have hw := words_of_ident hname
  have h0 := lex_append none "\n".toList [.newline] rfl ⟨.newline, rfl, .inr (.inr (.inl rfl))⟩ tail
  rw [ht] at h0
  have hlen : l.length ≠ 0 := by simpa using hne
  obtain ⟨rd, h1, hd⟩ := lex_outer width l.length hlen l hne (fun s hs => words_of_ident (hl s hs)) _ h0
  have h2 := lex_append none "(Bundle):\n".toList
    [.op '(', .word "Bundle".toList, .op ')', .op ':', .newline] (by decide +kernel)
    ⟨.newline, rfl, .inr (.inr (.inl rfl))⟩ (outer width (endCode l.length) l ++ ("\n".toList ++ tail))
  rw [h1] at h2
  have h3 := lex_word name hw.1 hw.2 h2 (by trivial)
  have h4 := lex_append none "class ".toList [.word "class".toList, .blank] (by decide +kernel)
    ⟨.blank, rfl, .inl rfl⟩
    (name ++ ("(Bundle):\n".toList ++ (outer width (endCode l.length) l ++ ("\n".toList ++ tail))))
  rw [h3] at h4
  have h5 := lex_append none "from toffee import Bundle\nfrom toffee import Signals, Signal\n\n".toList
    [.word "from".toList, .blank, .word "toffee".toList, .blank, .word "import".toList, .blank,
     .word "Bundle".toList, .newline,
     .word "from".toList, .blank, .word "toffee".toList, .blank, .word "import".toList, .blank,
     .word "Signals".toList, .op ',', .blank, .word "Signal".toList, .newline, .newline] (by decide +kernel)
    ⟨.newline, rfl, .inr (.inr (.inl rfl))⟩ ("class ".toList ++
    (name ++ ("(Bundle):\n".toList ++ (outer width (endCode l.length) l ++ ("\n".toList ++ tail)))))
  rw [h4] at h5
  have e : genBundleCode name l width ++ "\n".toList ++ tail =
      "from toffee import Bundle\nfrom toffee import Signals, Signal\n\n".toList ++ ("class ".toList ++
      (name ++ ("(Bundle):\n".toList ++ (outer width (endCode l.length) l ++ ("\n".toList ++ tail))))) := by
    have hh : "from toffee import Bundle\nfrom toffee import Signals, Signal\n\nclass ".toList =
        "from toffee import Bundle\nfrom toffee import Signals, Signal\n\n".toList ++ "class ".toList := by
      decide +kernel
    unfold genBundleCode declaration
    rw [hh]
    simp only [List.append_assoc]
  have hcut : cut (impToks1 ++ .newline :: (impToks2 ++ .newline :: (.newline :: (clsToks name ++ .newline ::
      (.tab :: rd ++ .newline :: (.newline :: (raw ++ [.newline]))))))) =
      [impToks1, impToks2, [], clsToks name, .tab :: rd, [], raw, []] := by
    rw [cut_line (by simp [impToks1]), cut_line (by simp [impToks2]), cut, cut_line (by simp [clsToks]),
      cut_line (by simpa using hd.1), cut, cut_line hb.1]
    rfl
  unfold run
  rw [e, h5]
  show (match exec ((cut (impToks1 ++ .newline :: (impToks2 ++ .newline :: (.newline :: (clsToks name ++ .newline ::
      (.tab :: rd ++ .newline :: (.newline :: (raw ++ [.newline])))))))).map line) {} with
    | some ⟨_, some (_, attrs, true), some (c, a)⟩ => some (⟨c, attrs, a⟩ : Made)
    | _ => none) = _
  rw [hcut]
  have l1 : line (.tab :: rd) = (true, commaToks l ++ endToks l.length) := by
    simp only [line]
    rw [show (Tok.tab :: rd).filter (fun x => decide (x ≠ .blank ∧ x ≠ .tab)) =
      rd.filter (fun x => decide (x ≠ .blank ∧ x ≠ .tab)) from rfl, hd.2]
    rfl
  have l2 : line raw = (false, ts) := by
    simp only [line, hv, hb.2]
    rfl
  simp only [List.map_cons, List.map_nil, l1, l2]
  rw [exec_class hname hne hl hts ho]
  rfl

/-- The line that makes the bundle, up to the argument. -/
theorem lex_make {name m : Text} (hname : isIdent name = true) (hm : Words m) {t : Text} {ts : List Tok}
    (h : lex none t = some ts) :
    lex none ("bundle = ".toList ++ (name ++ (".".toList ++ (m ++ ("(".toList ++ t))))) =
      some ([.word "bundle".toList, .blank, .op '=', .blank, .word name, .op '.', .word m, .op '('] ++ ts) := by
  have hw := words_of_ident hname
  have h1 := lex_append none "(".toList [.op '('] rfl ⟨_, rfl, .inr (.inr (.inr ⟨_, rfl⟩))⟩ t
  rw [h] at h1
  have h2 := lex_word m hm.1 hm.2 h1 (by trivial)
  have h3 := lex_append none ".".toList [.op '.'] rfl ⟨_, rfl, .inr (.inr (.inr ⟨_, rfl⟩))⟩
    (m ++ ("(".toList ++ t))
  rw [h2] at h3
  have h4 := lex_word name hw.1 hw.2 h3 (by trivial)
  have h5 := lex_append none "bundle = ".toList [.word "bundle".toList, .blank, .op '=', .blank]
    (by decide +kernel) ⟨_, rfl, .inl rfl⟩ (name ++ (".".toList ++ (m ++ ("(".toList ++ t))))
  rw [h4] at h5
  rw [h5]
  rfl

theorem lex_close : lex none ")\n".toList = some [.op ')', .newline] := rfl

theorem run_prefix {name : Text} (hname : isIdent name = true) {l : List Text} (hne : l ≠ [])
    (hl : ∀ s ∈ l, isIdent s = true) (width : Int) {pre : Text}
    (hp : ∀ c ∈ pre, c ≠ '"' ∧ c ≠ '\n' ∧ c ≠ '\\') :
    run (genBundleCode name l width ++ "\n".toList ++ "bundle = ".toList ++ name ++
      ".from_prefix(\"".toList ++ pre ++ "\")\n".toList) = some ⟨name, l.map (mangle name), .pre pre⟩ := by
  have h1 := lex_str '"' pre hp (by decide) lex_close
  have h2 : lex none ('"' :: (pre ++ '"' :: ")\n".toList)) = some (.str pre :: [.op ')', .newline]) := by
    rw [lex_char (by decide), if_neg (by decide), if_neg (by decide), if_neg (by decide),
      if_neg (by decide), if_pos (by decide)]
    exact h1
  have h3 := lex_make hname (m := "from_prefix".toList) ⟨by decide, by decide⟩ h2
  have e : genBundleCode name l width ++ "\n".toList ++ "bundle = ".toList ++ name ++
      ".from_prefix(\"".toList ++ pre ++ "\")\n".toList = genBundleCode name l width ++ "\n".toList ++
      ("bundle = ".toList ++ (name ++ (".".toList ++ ("from_prefix".toList ++ ("(".toList ++
        ('"' :: (pre ++ '"' :: ")\n".toList))))))) := by
    have e1 : ".from_prefix(\"".toList = ".".toList ++ ("from_prefix".toList ++ ("(".toList ++ ['"'])) := by
      decide +kernel
    have e2 : "\")\n".toList = '"' :: ")\n".toList := by decide +kernel
    rw [e1, e2]
    simp only [List.append_assoc, List.cons_append, List.nil_append]
  rw [e]
  refine run_class hname hne hl width (raw := [.word "bundle".toList, .blank, .op '=', .blank, .word name,
    .op '.', .word "from_prefix".toList, .op '(', .str pre, .op ')'])
    (ts := [.word "bundle".toList, .op '=', .word name,
    .op '.', .word "from_prefix".toList, .op '(', .str pre, .op ')']) h3 ⟨by simp, rfl⟩ rfl ?_
  have hlit : literal pre = some pre := by
    unfold literal
    rw [if_neg fun h => (hp _ h).2.2 rfl]
  simp [outside, classEnv, hlit]

theorem run_regex {name : Text} (hname : isIdent name = true) {l : List Text} (hne : l ≠ [])
    (hl : ∀ s ∈ l, isIdent s = true) (width : Int) {rx : Text} (hr : RawOk rx) :
    run (genBundleCode name l width ++ "\n".toList ++ "bundle = ".toList ++ name ++
      ".from_regex(r\"".toList ++ rx ++ "\")\n".toList) = some ⟨name, l.map (mangle name), .regex rx⟩ := by
  have h1 := lex_raw hr lex_close
  have h2 : lex none ('r' :: '"' :: (rx ++ '"' :: ")\n".toList)) = some (.rstr rx :: [.op ')', .newline]) := by
    rw [lex_wordChar (by decide), lex_char (by decide), if_neg (by decide), if_neg (by decide),
      if_neg (by decide), if_neg (by decide), if_pos (by decide), h1]
    rfl
  have h3 := lex_make hname (m := "from_regex".toList) ⟨by decide, by decide⟩ h2
  have e : genBundleCode name l width ++ "\n".toList ++ "bundle = ".toList ++ name ++
      ".from_regex(r\"".toList ++ rx ++ "\")\n".toList = genBundleCode name l width ++ "\n".toList ++
      ("bundle = ".toList ++ (name ++ (".".toList ++ ("from_regex".toList ++ ("(".toList ++
        ('r' :: '"' :: (rx ++ '"' :: ")\n".toList))))))) := by
    have e1 : ".from_regex(r\"".toList =
        ".".toList ++ ("from_regex".toList ++ ("(".toList ++ ['r', '"'])) := by decide +kernel
    have e2 : "\")\n".toList = '"' :: ")\n".toList := by decide +kernel
    rw [e1, e2]
    simp only [List.append_assoc, List.cons_append, List.nil_append]
  rw [e]
  refine run_class hname hne hl width (raw := [.word "bundle".toList, .blank, .op '=', .blank, .word name,
    .op '.', .word "from_regex".toList, .op '(', .rstr rx, .op ')'])
    (ts := [.word "bundle".toList, .op '=', .word name,
    .op '.', .word "from_regex".toList, .op '(', .rstr rx, .op ')']) h3 ⟨by simp, rfl⟩ rfl ?_
  simp [outside, classEnv]

/-- A text without special characters. -/
def Plainly (s : Text) : Prop := ∀ c ∈ s, isWord c = true

theorem plainly_ok {s : Text} (h : Plainly s) {q : Char} (hq : isWord q = false) :
    (∀ c ∈ s, c ≠ q ∧ c ≠ '\n' ∧ c ≠ '\\') ∧ literal s = some s := by
  have hn : ∀ c ∈ s, ∀ d, isWord d = false → c ≠ d := by
    rintro c hc d hd rfl
    rw [h c hc] at hd
    cases hd
  refine ⟨fun c hc => ⟨hn c hc q hq, hn c hc _ (by decide), hn c hc _ (by decide)⟩, ?_⟩
  unfold literal
  rw [if_neg fun hm => hn _ hm '\\' (by decide) rfl]

theorem lex_repr {s : Text} (h : Plainly s) {t : Text} {ts : List Tok} (ht : lex none t = some ts) :
    lex none (reprStr s ++ t) = some (.str s :: ts) := by
  have e : reprStr s ++ t = '\'' :: (s ++ '\'' :: t) := by simp [reprStr]
  rw [e, lex_char (by decide), if_neg (by decide), if_neg (by decide), if_neg (by decide),
    if_neg (by decide), if_pos (by decide)]
  exact lex_str '\'' s (plainly_ok h (by decide)).1 (by decide) ht

/-- The tokens of the entries of a dictionary. -/
def dictToks : List (Text × Text) → List Tok
  | [] => []
  | [e] => [.str e.1, .op ':', .str e.2]
  | e :: l => .str e.1 :: .op ':' :: .str e.2 :: .op ',' :: dictToks l

theorem lex_items {d : List (Text × Text)} (hne : d ≠ []) (hd : ∀ e ∈ d, Plainly e.1 ∧ Plainly e.2)
    {t : Text} {ts : List Tok} (ht : lex none t = some ts) :
    ∃ raw, lex none (reprItems d ++ t) = some (raw ++ ts) ∧ Body raw (dictToks d) := by
  induction d with
  | nil => exact absurd rfl hne
  | cons e d ih =>
    obtain ⟨hk, hv⟩ := hd e List.mem_cons_self
    cases d with
    | nil =>
      refine ⟨[.str e.1, .op ':', .blank, .str e.2], ?_, ⟨by simp, rfl⟩⟩
      have h1 := lex_append none ": ".toList [.op ':', .blank] rfl ⟨_, rfl, .inl rfl⟩ (reprStr e.2 ++ t)
      rw [lex_repr hv ht] at h1
      have e1 : reprItems [e] ++ t = reprStr e.1 ++ (": ".toList ++ (reprStr e.2 ++ t)) := by
        simp only [reprItems, List.append_assoc]
      rw [e1, lex_repr hk h1]
      rfl
    | cons f d =>
      obtain ⟨raw, h0, hb⟩ := ih (by simp) fun x hx => hd x (List.mem_cons_of_mem _ hx)
      refine ⟨[.str e.1, .op ':', .blank, .str e.2, .op ',', .blank] ++ raw, ?_,
        Body.append (ta := [.str e.1, .op ':', .str e.2, .op ',']) ⟨by simp, rfl⟩ hb⟩
      have h2 := lex_append none ", ".toList [.op ',', .blank] rfl ⟨_, rfl, .inl rfl⟩
        (reprItems (f :: d) ++ t)
      rw [h0] at h2
      have h1 := lex_append none ": ".toList [.op ':', .blank] rfl ⟨_, rfl, .inl rfl⟩
        (reprStr e.2 ++ (", ".toList ++ (reprItems (f :: d) ++ t)))
      rw [lex_repr hv h2] at h1
      have e1 : reprItems (e :: f :: d) ++ t =
          reprStr e.1 ++ (": ".toList ++ (reprStr e.2 ++ (", ".toList ++ (reprItems (f :: d) ++ t)))) := by
        simp only [reprItems, List.append_assoc]
      rw [e1, lex_repr hk h1]
      simp

theorem entries_dict {d : List (Text × Text)} (hne : d ≠ []) (hd : ∀ e ∈ d, Plainly e.1 ∧ Plainly e.2)
    (r : List Tok) : entries (dictToks d ++ .op '}' :: r) = some (d, r) := by
  induction d with
  | nil => exact absurd rfl hne
  | cons e d ih =>
    obtain ⟨hk, hv⟩ := hd e List.mem_cons_self
    have h1 := (plainly_ok hk (q := '"') (by decide)).2
    have h2 := (plainly_ok hv (q := '"') (by decide)).2
    cases d with
    | nil => simp [dictToks, entries, h1, h2]
    | cons f d =>
      show entries (.str e.1 :: .op ':' :: .str e.2 :: .op ',' :: (dictToks (f :: d) ++ .op '}' :: r)) = _
      rw [entries, h1, h2, ih (by simp) fun x hx => hd x (List.mem_cons_of_mem _ hx)]

theorem run_dict {name : Text} (hname : isIdent name = true) {l : List Text} (hne : l ≠ [])
    (hl : ∀ s ∈ l, isIdent s = true) (width : Int) {d : List (Text × Text)} (hd0 : d ≠ [])
    (hd : ∀ e ∈ d, Plainly e.1 ∧ Plainly e.2) :
    run (genBundleCode name l width ++ "\n".toList ++ "bundle = ".toList ++ name ++
      ".from_dict({".toList ++ reprItems d ++ "})\n".toList) = some ⟨name, l.map (mangle name), .dict d⟩ := by
  have h1 : lex none "})\n".toList = some [.op '}', .op ')', .newline] := rfl
  obtain ⟨raw, h2, hb⟩ := lex_items hd0 hd h1
  have h2' := lex_append none "{".toList [.op '{'] rfl ⟨_, rfl, .inr (.inr (.inr ⟨_, rfl⟩))⟩
    (reprItems d ++ "})\n".toList)
  rw [h2] at h2'
  have h3 := lex_make hname (m := "from_dict".toList) ⟨by decide, by decide⟩ h2'
  have e : genBundleCode name l width ++ "\n".toList ++ "bundle = ".toList ++ name ++
      ".from_dict({".toList ++ reprItems d ++ "})\n".toList = genBundleCode name l width ++ "\n".toList ++
      ("bundle = ".toList ++ (name ++ (".".toList ++ ("from_dict".toList ++ ("(".toList ++
        ("{".toList ++ (reprItems d ++ "})\n".toList))))))) := by
    have e1 : ".from_dict({".toList =
        ".".toList ++ ("from_dict".toList ++ ("(".toList ++ "{".toList)) := by decide +kernel
    rw [e1]
    simp only [List.append_assoc]
  rw [e]
  refine run_class hname hne hl width (raw := [.word "bundle".toList, .blank, .op '=', .blank, .word name,
    .op '.', .word "from_dict".toList, .op '(', .op '{'] ++ raw ++ [.op '}', .op ')'])
    (ts := [.word "bundle".toList, .op '=', .word name,
    .op '.', .word "from_dict".toList, .op '(', .op '{'] ++ dictToks d ++ [.op '}', .op ')'])
    (by rw [h3]; simp) ((Body.append ⟨by simp, rfl⟩ hb).append ⟨by simp, rfl⟩) rfl ?_
  have he := entries_dict hd0 hd [.op ')']
  have h4 : ([.word "bundle".toList, .op '=', .word name,
    .op '.', .word "from_dict".toList, .op '(', .op '{'] ++ dictToks d ++ [.op '}', .op ')'] : List Tok) =
    .word "bundle".toList :: .op '=' :: .word name :: .op '.' :: .word "from_dict".toList :: .op '(' ::
      .op '{' :: (dictToks d ++ .op '}' :: [.op ')']) := by simp
  rw [h4]
  simp only [outside, classEnv, he]
  simp

/-! ### Binding a flat bundle -/

theorem mem_once {x : Text} {l : List Text} : x ∈ once l ↔ x ∈ l := by
  induction l with
  | nil => rfl
  | cons y l ih =>
    simp only [once]
    split
    · rename_i hy
      rw [ih, List.mem_cons]
      exact ⟨.inr, fun h => h.elim (fun h => h ▸ hy) id⟩
    · rw [List.mem_cons, List.mem_cons, ih]

theorem nodup_once (l : List Text) : (once l).Nodup := by
  induction l with
  | nil => exact .nil
  | cons y l ih =>
    simp only [once]
    split
    · exact ih
    · rename_i hy
      exact List.nodup_cons.2 ⟨fun h => hy (mem_once.1 h), ih⟩

/-- The rule of an argument. -/
def ruleOf (re : Text → Text → Option Text) : Arg → Rule
  | .pre p => .pre p
  | .regex r => .regex r (re r)
  | .dict d => .dict d

/-- The names of the signals of a bundle without sub-bundles. -/
def signalsOf (b : Bundle) : List Text := b.lvl.signals.map Cell.name

theorem object_free (re : Text → Text → Option Text) (m : Made) (hf : ∀ s ∈ m.attrs, Free s) :
    ∃ b, object re m = some b ∧ b.rule = ruleOf re m.arg ∧ b.kids = .nil ∧ b.lvl.lists = [] ∧
      (signalsOf b).Nodup ∧ ∀ s, s ∈ signalsOf b ↔ s ∈ m.attrs := by
  unfold object
  rw [if_pos]
  · refine ⟨_, rfl, ?_, rfl, rfl, ?_, ?_⟩
    · cases m.arg <;> rfl
    · show (List.map Cell.name (List.map _ _)).Nodup
      rw [List.map_map]
      show (List.map (fun s => s) _).Nodup
      rw [List.map_id']
      exact (sort_perm _).nodup_iff.2 (nodup_once _)
    · intro s
      show s ∈ List.map Cell.name (List.map _ _) ↔ _
      rw [List.map_map]
      show s ∈ List.map (fun s => s) _ ↔ _
      rw [List.map_id', (sort_perm _).mem_iff, mem_once, List.mem_filter]
      refine ⟨fun h => h.1, fun h => ⟨h, ?_⟩⟩
      have := (hf s h).1
      simpa using this
  · rw [List.all_eq_true]
    intro s hs
    obtain ⟨_, h2, h3, h4⟩ := hf s hs
    have e3 : "__".toList.isPrefixOf s = false := by
      rw [Bool.eq_false_iff]; exact fun h => h3 (List.isPrefixOf_iff_prefix.1 h)
    have e4 : "_Bundle__".toList.isPrefixOf s = false := by
      rw [Bool.eq_false_iff]; exact fun h => h4 (List.isPrefixOf_iff_prefix.1 h)
    have e2 : needed.contains s = false := by
      rw [Bool.eq_false_iff]; exact fun h => h2 (by simpa using h)
    rw [e2, e3, e4]
    rfl

theorem bind_flat (access : Bool) (b : Bundle) (hk : b.kids = .nil) (hl : b.lvl.lists = [])
    (hn : (signalsOf b).Nodup) (dut : List DutSig) (hd : (dut.map DutSig.name).Nodup) {d : DutSig}
    (hm : d ∈ dut) {s : Text} (hs : b.rule.strip d.name = some s) (hsb : s ∈ signalsOf b)
    (hu : ∀ d' ∈ dut, b.rule.strip d'.name = some s → d'.name = d.name) :
    (b.bind access dut).1.slotAt [] (.sig s) = some (.pin d.pin) := by
  obtain ⟨r, lv, c, ks⟩ := b
  have hk : ks = .nil := hk
  have hl' : lv.lists = [] := hl
  subst hk
  have hdist : (Bundle.mk r lv c .nil).Distinct := by
    refine ⟨?_, trivial⟩
    unfold Level.names
    rw [hl', List.flatMap_nil, List.append_nil]
    exact hn
  have hden : Denotes (Bundle.mk r lv c .nil) d.name [] (.sig s) := by
    refine .here (m := s) ((turns_iff _ _ _).2 hs) ?_
    show (if s ∈ _ then some s else none) = some s
    rw [if_pos]
    exact hsb
  obtain ⟨d', hdm, h1, h2⟩ := (C34_bind_connects access _ _ hdist hd [] (.sig s)).1 ⟨_, hm, hden⟩
  have hname : d'.name = d.name := by
    cases h1 with
    | here ht hq =>
      have hq : (if s ∈ _ then some s else none) = some _ := hq
      split at hq
      · cases hq
        exact hu d' hdm ((turns_iff _ _ _).1 ht)
      · cases hq
  rw [h2, nodup_map_inj DutSig.name hd hdm hm hname]

theorem mangle_free (name : Text) {l : List Text} (hf : ∀ s ∈ l, Free s) : l.map (mangle name) = l := by
  have : l.map (mangle name) = l.map id := by
    apply List.map_congr_left
    intro s hs
    unfold mangle
    rw [if_neg]
    · rfl
    · intro h
      rw [Bool.and_eq_true] at h
      exact (hf s hs).2.2.1 (List.isPrefixOf_iff_prefix.1 h.1)
  rw [this, List.map_id]

/-! ### C109 -/

/-- C109: the code that `gen_bundle_code_from_prefix` prints is accepted by Python; its `bundle` has one
signal for each pin whose name begins with the prefix, and none other; and `bind` connects each of them to
its pin. Missing: rests of names that are no Python names or that `Bundle` uses itself, see
`C109_keyword_violated`, `C109_digit_violated`, `C109_hidden_violated` and `C109_mangled_violated`. -/
theorem C109_prefix_partial (re : Text → Text → Option Text) (name : Text) (dut : List DutSig)
    (hd : (dut.map DutSig.name).Nodup) (hw : ∀ d ∈ dut, Words d.name) (pre : Text) (width : Int)
    (hname : isIdent name = true)
    (hs : ∀ s, pre ++ s ∈ dut.map DutSig.name → isIdent s = true ∧ Free s)
    {code : Text} (hc : genPrefix name (dut.map DutSig.name) pre width = some code) :
    ∃ m b, run code = some m ∧ m.cls = name ∧ object re m = some b ∧
      (∀ s, s ∈ signalsOf b ↔ pre ++ s ∈ dut.map DutSig.name) ∧
      ∀ access, ∀ d ∈ dut, ∀ s, d.name = pre ++ s →
        (b.bind access dut).1.slotAt [] (.sig s) = some (.pin d.pin) := by
  unfold genPrefix at hc
  cases hsel : selectPrefix (dut.map DutSig.name) pre with
  | none => rw [hsel] at hc; cases hc
  | some l =>
    rw [hsel] at hc
    have hc := Option.some.inj hc
    subst hc
    have hmem := (C66_selected (dut.map DutSig.name) pre []).2.1 l hsel
    have hne : l ≠ [] := by
      rintro rfl
      simp only [selectPrefix] at hsel
      split at hsel
      · cases hsel
      · rename_i h; exact h (Option.some.inj hsel)
    have hid : ∀ s ∈ l, isIdent s = true := fun s h => (hs s ((hmem s).1 h)).1
    have hfree : ∀ s ∈ l, Free s := fun s h => (hs s ((hmem s).1 h)).2
    have hp : Plainly pre := by
      obtain ⟨s, hsl⟩ : ∃ s, s ∈ l := by
        cases l with
        | nil => exact absurd rfl hne
        | cons s l => exact ⟨s, List.mem_cons_self⟩
      obtain ⟨d, hdm, hdn⟩ := List.mem_map.1 ((hmem s).1 hsl)
      intro c hcm
      exact (hw d hdm).2 c (by rw [hdn]; exact List.mem_append_left _ hcm)
    have hrun := run_prefix hname hne hid width (plainly_ok hp (q := '"') (by decide)).1
    rw [mangle_free name hfree] at hrun
    obtain ⟨b, hb, h1, h2, h3, h4, h5⟩ := object_free re ⟨name, l, .pre pre⟩ hfree
    refine ⟨_, b, hrun, rfl, hb, fun s => (h5 s).trans (hmem s), ?_⟩
    intro access d hdm s hds
    have hstrip : ∀ n t, (Rule.pre pre).strip n = some t ↔ n = pre ++ t := by
      intro n t
      rw [← turns_iff]
      exact ⟨fun h => by cases h; rfl, fun h => h ▸ .pre pre t⟩
    refine bind_flat access b h2 h3 h4 dut hd hdm (by rw [h1]; exact (hstrip _ _).2 hds)
      ((h5 s).2 ((hmem s).2 (hds ▸ List.mem_map_of_mem hdm))) ?_
    intro d' _ hd'
    rw [h1] at hd'
    rw [(hstrip _ _).1 hd', hds]

/-- C109: the same for `gen_bundle_code_from_regex`, if no two pins get the same name (see
`C109_same_violated`). -/
theorem C109_regex_partial (re : Text → Text → Option Text) (name : Text) (dut : List DutSig)
    (hd : (dut.map DutSig.name).Nodup) (rx : Text) (hr : RawOk rx) (width : Int)
    (hname : isIdent name = true)
    (hs : ∀ d ∈ dut, ∀ s, re rx d.name = some s → isIdent s = true ∧ Free s)
    (hu : ∀ d ∈ dut, ∀ d' ∈ dut, ∀ s, re rx d.name = some s → re rx d'.name = some s → d.name = d'.name)
    {code : Text} (hc : genRegex re name (dut.map DutSig.name) rx width = some code) :
    ∃ m b, run code = some m ∧ m.cls = name ∧ object re m = some b ∧
      (∀ s, s ∈ signalsOf b ↔ ∃ d ∈ dut, re rx d.name = some s) ∧
      ∀ access, ∀ d ∈ dut, ∀ s, re rx d.name = some s →
        (b.bind access dut).1.slotAt [] (.sig s) = some (.pin d.pin) := by
  unfold genRegex at hc
  cases hsel : selectRegex re (dut.map DutSig.name) rx with
  | none => rw [hsel] at hc; cases hc
  | some l =>
    rw [hsel] at hc
    have hc := Option.some.inj hc
    subst hc
    simp only [selectRegex] at hsel
    split at hsel
    · cases hsel
    · rename_i hne
      have hsel := Option.some.inj hsel
      have hmem : ∀ s, s ∈ l ↔ ∃ d ∈ dut, re rx d.name = some s := by
        intro s
        rw [← hsel, (sort_perm _).mem_iff, List.mem_filterMap]
        constructor
        · rintro ⟨n, hn, he⟩
          obtain ⟨d, hd, rfl⟩ := List.mem_map.1 hn
          exact ⟨d, hd, he⟩
        · rintro ⟨d, hd, he⟩
          exact ⟨_, List.mem_map_of_mem hd, he⟩
      rw [hsel] at hne
      have hid : ∀ s ∈ l, isIdent s = true := fun s h => by
        obtain ⟨d, hd, he⟩ := (hmem s).1 h
        exact (hs d hd s he).1
      have hfree : ∀ s ∈ l, Free s := fun s h => by
        obtain ⟨d, hd, he⟩ := (hmem s).1 h
        exact (hs d hd s he).2
      have hrun := run_regex hname hne hid width hr
      rw [mangle_free name hfree] at hrun
      obtain ⟨b, hb, h1, h2, h3, h4, h5⟩ := object_free re ⟨name, l, .regex rx⟩ hfree
      refine ⟨_, b, hrun, rfl, hb, fun s => (h5 s).trans (hmem s), ?_⟩
      intro access d hdm s hds
      refine bind_flat access b h2 h3 h4 dut hd hdm (by rw [h1]; exact hds)
        ((h5 s).2 ((hmem s).2 ⟨d, hdm, hds⟩)) ?_
      intro d' hd'm hd'
      rw [h1] at hd'
      exact hu d' hd'm d hdm s hd' hds

/-- C109: the same for `gen_bundle_code_from_dict`, if no pin is the value of two keys (see
`C91_repeated_violated`). -/
theorem C109_dict_partial (re : Text → Text → Option Text) (name : Text) (dut : List DutSig)
    (hd : (dut.map DutSig.name).Nodup) (dict : List (Text × Text))
    (hp : ∀ e ∈ dict, Plainly e.1 ∧ Plainly e.2) (hk : (dict.map Prod.fst).Nodup)
    (hv : (dict.map Prod.snd).Nodup) (width : Int) (hname : isIdent name = true)
    (hs : ∀ e ∈ dict, e.2 ∈ dut.map DutSig.name → isIdent e.1 = true ∧ Free e.1)
    {code : Text} (hc : genDict name (dut.map DutSig.name) dict width = some code) :
    ∃ m b, run code = some m ∧ m.cls = name ∧ object re m = some b ∧
      (∀ s, s ∈ signalsOf b ↔ ∃ d ∈ dut, (s, d.name) ∈ dict) ∧
      ∀ access, ∀ d ∈ dut, ∀ s, (s, d.name) ∈ dict →
        (b.bind access dut).1.slotAt [] (.sig s) = some (.pin d.pin) := by
  unfold genDict at hc
  cases hsel : selectDict (dut.map DutSig.name) dict with
  | none => rw [hsel] at hc; cases hc
  | some l =>
    rw [hsel] at hc
    have hc := Option.some.inj hc
    subst hc
    have hmem : ∀ s, s ∈ l ↔ ∃ d ∈ dut, (s, d.name) ∈ dict := by
      intro s
      rw [(C66_selected (dut.map DutSig.name) [] dict).2.2.2 l hsel s]
      constructor
      · rintro ⟨pin, h1, h2⟩
        obtain ⟨d, h3, rfl⟩ := List.mem_map.1 h1
        exact ⟨d, h3, h2⟩
      · rintro ⟨d, h1, h2⟩
        exact ⟨_, List.mem_map_of_mem h1, h2⟩
    have hne : l ≠ [] := by
      rintro rfl
      simp only [selectDict] at hsel
      split at hsel
      · cases hsel
      · rename_i h; exact h (Option.some.inj hsel)
    have hd0 : dict ≠ [] := by
      rintro rfl
      cases l with
      | nil => exact hne rfl
      | cons s l =>
        obtain ⟨_, _, h⟩ := (hmem s).1 List.mem_cons_self
        cases h
    have hboth : ∀ s ∈ l, isIdent s = true ∧ Free s := fun s h => by
      obtain ⟨d, h1, h2⟩ := (hmem s).1 h
      exact hs _ h2 (List.mem_map_of_mem h1)
    have hfree : ∀ s ∈ l, Free s := fun s h => (hboth s h).2
    have hrun := run_dict hname hne (fun s h => (hboth s h).1) width hd0 hp
    rw [mangle_free name hfree] at hrun
    obtain ⟨b, hb, h1, h2, h3, h4, h5⟩ := object_free re ⟨name, l, .dict dict⟩ hfree
    refine ⟨_, b, hrun, rfl, hb, fun s => (h5 s).trans (hmem s), ?_⟩
    intro access d hdm s hds
    have hstrip : ∀ n t, (Rule.dict dict).strip n = some t ↔ (t, n) ∈ dict := by
      intro n t
      simp only [Rule.strip, Option.map_eq_some_iff]
      constructor
      · rintro ⟨⟨k, v⟩, hf, rfl⟩
        have h6 : v = n := by simpa using List.find?_some hf
        rw [← h6]
        exact List.mem_of_find?_eq_some hf
      · intro h
        cases hf : dict.find? (fun kv => kv.2 == n) with
        | none => exact absurd (List.find?_eq_none.1 hf (t, n) h) (by simp)
        | some y =>
          have h6 : y.2 = n := by simpa using List.find?_some hf
          rw [nodup_map_inj Prod.snd hv (List.mem_of_find?_eq_some hf) h h6]
          exact ⟨_, rfl, rfl⟩
    refine bind_flat access b h2 h3 h4 dut hd hdm (by rw [h1]; exact (hstrip _ _).2 hds)
      ((h5 s).2 ((hmem s).2 ⟨d, hdm, hds⟩)) ?_
    intro d' _ hd'
    rw [h1] at hd'
    have := (hstrip _ _).1 hd'
    have h7 := nodup_map_inj Prod.fst hk this hds rfl
    exact (Prod.mk.inj h7).2

/-- C109: the generators raise only if there is nothing to declare. -/
theorem C109_raises (re : Text → Text → Option Text) (name : Text) (pins : List Text) (pre rx : Text)
    (d : List (Text × Text)) (width : Int) :
    (genPrefix name pins pre width = none ↔ ∀ s, pre ++ s ∉ pins) ∧
    (genRegex re name pins rx width = none ↔ ∀ p ∈ pins, re rx p = none) ∧
    (genDict name pins d width = none ↔ ∀ e ∈ d, e.2 ∉ pins) := by
  have hnil : ∀ l, sort l = [] ↔ l = [] := by
    intro l
    constructor
    · intro h
      have := sort_perm l
      rw [h] at this
      exact List.nil_perm.1 this
    · rintro rfl; rfl
  refine ⟨?_, ?_, ?_⟩
  · rw [← (C66_selected pins pre []).2.2.1]
    unfold genPrefix
    cases selectPrefix pins pre <;> simp
  · unfold genRegex
    have : selectRegex re pins rx = none ↔ ∀ p ∈ pins, re rx p = none := by
      simp only [selectRegex, hnil]
      split
      · rename_i h; simpa using h
      · rename_i h
        refine ⟨fun h0 => (by cases h0), fun h0 => absurd (List.filterMap_eq_nil_iff.2 h0) h⟩
    rw [← this]
    cases selectRegex re pins rx <;> simp
  · unfold genDict
    have : selectDict pins d = none ↔ ∀ e ∈ d, e.2 ∉ pins := by
      simp only [selectDict, hnil]
      split
      · rename_i h
        simp only [List.map_eq_nil_iff, List.filter_eq_nil_iff, List.contains_iff_mem] at h
        exact ⟨fun _ => h, fun _ => rfl⟩
      · rename_i h
        simp only [List.map_eq_nil_iff, List.filter_eq_nil_iff, List.contains_iff_mem] at h
        exact ⟨fun h0 => (by cases h0), fun h0 => absurd h0 h⟩
    rw [← this]
    cases selectDict pins d <;> simp

/-! ### Names that do not work -/

/-- A device with the pins `names`, numbered from 0. -/
def dutOf (names : List String) : List DutSig := names.mapIdx fun i n => ⟨n.toList, i, 0⟩

/-- C109 fails: the rest of the name of the pin `io_in` is a keyword; Python rejects the code. -/
theorem C109_keyword_violated :
    ∃ code, genPrefix "B".toList ["io_in".toList, "io_out".toList] "io_".toList 120 = some code ∧
      run code = none := by
  refine ⟨_, rfl, by decide +kernel⟩

/-- C109 fails: the rest of the name of the pin `io_0` begins with a digit; Python rejects the code. -/
theorem C109_digit_violated :
    ∃ code, genPrefix "B".toList ["io_0".toList, "io_1".toList] "io_".toList 120 = some code ∧
      run code = none := by
  refine ⟨_, rfl, by decide +kernel⟩

/-- The signals of the bundle that the code makes, and the pins that `bind` connects to it. -/
def connects (re : Text → Text → Option Text) (code : Option Text) (dut : List DutSig) :
    Option (List Text × List Nat) :=
  (code.bind run).bind fun m => (object re m).map fun b => (signalsOf b, (b.bind true dut).2)

/-- C109 fails: `Bundle.__init__` sets an attribute `name` of its own, the signal for the pin `io_name`
is not found, and the pin is not connected. -/
theorem C109_hidden_violated :
    connects (fun _ _ => none) (genPrefix "B".toList ["io_a".toList, "io_name".toList] "io_".toList 120)
      (dutOf ["io_a", "io_name"]) = some (["a".toList], [0]) := by
  decide +kernel

/-- C109 fails: two underscores at the beginning of a name in a class make it another name. -/
theorem C109_mangled_violated :
    connects (fun _ _ => none) (genPrefix "B".toList ["io___x".toList, "io_a".toList] "io_".toList 120)
      (dutOf ["io___x", "io_a"]) = some (["_B__x".toList, "a".toList], [1]) := by
  decide +kernel

/-- C109 fails: a regular expression that gives two pins the same name (`re` stands for one that takes
the first letter). The code is accepted, has one signal `a`, and both pins are connected to it, the second
one for good. -/
theorem C109_same_violated :
    ∃ m b, ((genRegex (fun _ n => some (n.take 1)) "B".toList ["a0".toList, "a1".toList] "(.)".toList 120).bind
        run) = some m ∧ m.attrs = ["a".toList, "a".toList] ∧
      object (fun _ n => some (n.take 1)) m = some b ∧ signalsOf b = ["a".toList] ∧
      (b.bind true (dutOf ["a0", "a1"])).1.slotAt [] (.sig "a".toList) = some (.pin 1) := by
  refine ⟨⟨"B".toList, ["a".toList, "a".toList], .regex "(.)".toList⟩, _, by decide +kernel, rfl, rfl,
    by decide +kernel, by decide +kernel⟩

/-! ### The hypotheses can be met -/

/-- Three pins with the prefix and one without; a line too short for the names. -/
example : (∀ d ∈ dutOf ["clk", "io_a", "io_b", "io_valid"], Words d.name) ∧
    ((dutOf ["clk", "io_a", "io_b", "io_valid"]).map DutSig.name).Nodup ∧ isIdent "B".toList = true ∧
    connects (fun _ _ => none)
      (genPrefix "B".toList ((dutOf ["clk", "io_a", "io_b", "io_valid"]).map DutSig.name) "io_".toList 14)
      (dutOf ["clk", "io_a", "io_b", "io_valid"]) =
      some (["a".toList, "b".toList, "valid".toList], [1, 2, 3]) := by
  refine ⟨?_, by decide, by decide, by decide +kernel⟩
  intro d hd
  have : d.name ∈ (dutOf ["clk", "io_a", "io_b", "io_valid"]).map DutSig.name := List.mem_map_of_mem hd
  simp only [dutOf, List.mapIdx_cons, List.mapIdx_nil, List.map_cons, List.map_nil, List.mem_cons,
    List.not_mem_nil, or_false] at this
  rcases this with h | h | h | h <;> rw [h] <;> exact ⟨by decide, by decide⟩

/-- The names of the signals are fine. -/
example : ∀ s ∈ ["a".toList, "b".toList, "valid".toList], isIdent s = true ∧ Free s := by
  unfold Free
  decide +kernel

/-- A regular expression with an escaped quote, and a dictionary. -/
example : RawOk "io_(\\w+)\\\"".toList ∧
    connects (fun _ n => if n = "io_a".toList then some "a".toList else none)
      (genRegex (fun _ n => if n = "io_a".toList then some "a".toList else none) "B".toList
        ["io_a".toList, "x".toList] "io_(\\w+)\\\"".toList 120) (dutOf ["io_a", "x"]) =
      some (["a".toList], [0]) ∧
    connects (fun _ _ => none)
      (genDict "B".toList ["p".toList, "q".toList] [("a".toList, "q".toList), ("z".toList, "no".toList)] 120)
      (dutOf ["p", "q"]) = some (["a".toList], [1]) := by
  refine ⟨?_, by decide +kernel, by decide +kernel⟩
  repeat' first
    | exact .nil
    | refine .escape _ ?_
    | refine .char (by decide) (by decide) (by decide) ?_

end Toffee.CodeRun
