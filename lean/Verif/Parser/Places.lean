import Verif.Parser.OutlineTypes
/-!
# The places of a file where something is declared (C101)

What a text declares, read off the braces and words alone: `places` runs over the tokens of a file once and knows nothing of the grammar.
-/
namespace KPhp.Outline
set_option linter.unusedVariables false
open KPhp (Tok)
open KPhp.Grammar (headIn words)
open KPhp.Stmt
open KPhp.Scopes (TypeKind)

/-! ### Specification -/

/-- A place of a text: the names around it (of classes and namespaces, by their tokens, innermost first), and whether it stands directly in the braces of a class. -/
structure Place where
  path : List Nat
  inClass : Bool
deriving DecidableEq, Repr

/-- Where the reader of a text is. -/
structure At where
  here : Place
  /-- outside of the braces that are open, innermost first -/
  outer : List Place
  /-- behind `class A` and behind `namespace A`: where the reader is behind the next brace -/
  next : Option Place
  /-- directly behind `::`, where every word is a name -/
  colons : Bool
deriving DecidableEq, Repr

/-- The name of the function that follows the word `function`, by its token: a word in front of `(`, perhaps behind `&`.  A closure has none. -/
def fnName (o : Nat) : List Tok → Option Nat
  | .BIT_AND :: n :: .LPAREN :: _ => if n ∈ words then some (o + 1) else none
  | n :: .LPAREN :: _ => if n ∈ words then some o else none
  | _ => none

/-- The parts of the name that follows the word `namespace`, by their tokens. -/
def nsNames : Nat → List Tok → List Nat
  | o, .STRING :: r => o :: nsNames (o + 1) r
  | o, .BACKSLASH :: r => nsNames (o + 1) r
  | _, _ => []

/-- What the token `t` declares, `r` follows: `class A`, `interface A`, `trait A`, `function f (`. -/
def declares (s : At) (o : Nat) (t : Tok) (r : List Tok) : Option (What × Nat) :=
  if s.colons then none
  else if t = .FUNCTION then (fnName (o + 1) r).map fun i => (if s.here.inClass then .method else .function, i)
  else (kindOf t).bind fun k => if headIn [.STRING] r then some (.type k, o + 1) else none

/-- Behind most tokens the reader is where it was; behind `class A` the next brace is that of the class. -/
def stay (s : At) (o : Nat) (t : Tok) (r : List Tok) : At :=
  { s with
    colons := false
    next := match declares s o t r with
      | some (.type _, i) => some ⟨i :: s.here.path, true⟩
      | _ => s.next }

/-- Where the reader is behind the token `t`.  `namespace` is only read outside of all braces; what follows it is outside of all namespaces until `;` or a brace. -/
def step (s : At) (o : Nat) (t : Tok) (r : List Tok) : At :=
  match t with
  | .LBRACE | .CURLY_OPEN | .DOLLAR_OPEN_CURLY_BRACES => ⟨s.next.getD ⟨s.here.path, false⟩, s.here :: s.outer, none, false⟩
  | .RBRACE =>
    match s.outer with
    | p :: q => ⟨p, q, none, false⟩
    | [] => { s with colons := false }
  | .SEMICOLON => ⟨s.next.getD s.here, s.outer, none, false⟩
  | .PAAMAYIM_NEKUDOTAYIM => { s with colons := true }
  | .NAMESPACE => if s.outer.isEmpty && !s.colons then ⟨⟨[], false⟩, [], some ⟨(nsNames (o + 1) r).reverse, false⟩, false⟩ else { s with colons := false }
  | t => stay s o t r

/-- The word `namespace` that begins the declaration of a namespace. -/
def opensNs (s : At) (t : Tok) : Bool := t == .NAMESPACE && s.outer.isEmpty && !s.colons

/-- `namespace A\B`: `A` is declared in the file, `B` in `A`. -/
def spaces : List Nat → List Nat → List Mark
  | _, [] => []
  | w, i :: l => (.namespace, i, w) :: spaces (i :: w) l

/-- All that a text declares from `s` on; `o` is the index of the first token. -/
def run : At → Nat → List Tok → List Mark
  | _, _, [] => []
  | s, o, t :: r => ((declares s o t r).map fun x => (x.1, x.2, s.here.path)).toList ++ ((if opensNs s t then spaces [] (nsNames (o + 1) r) else []) ++ run (step s o t r) (o + 1) r)

/-- All classes, functions, methods and namespaces of a text, each with the classes and namespaces around it. -/
def places (ts : List Tok) : List Mark := run ⟨⟨[], false⟩, [], none, false⟩ 0 ts

/-! ### Running over the parts of a text -/

/-- how many braces are open: whether directly in a class, and what is outside -/
abbrev Lv := Bool × List Place
def lv (w : List Nat) (a : Lv) : At := ⟨⟨w, a.1⟩, a.2, none, false⟩
/-- one brace further in -/
def inside (w : List Nat) (a : Lv) : Lv := (false, ⟨w, a.1⟩ :: a.2)

/-- What the text of `u` declares is what `u` does; the reader gets from `a` to `b`. -/
def Go (w : List Nat) (a b : Lv) (u : U) : Prop := ∀ o r, run (lv w a) o (u.toks ++ r) = u.marks w o ++ run (lv w b) (o + u.toks.length) r

theorem go_app {w : List Nat} {a b c : Lv} {x y : U} (hx : Go w a b x) (hy : Go w b c y) : Go w a c (x ++ y) := fun o r => by
  show run _ _ ((x.toks ++ y.toks) ++ r) = (x.marks w o ++ y.marks w _) ++ run _ (o + (x.toks ++ y.toks).length) _
  rw [List.append_assoc, hx, hy, List.append_assoc, List.length_append, Nat.add_assoc]
theorem go_lost {w : List Nat} {a b : Lv} {x : U} (h : Go w a b x) : Go w a b (.lost x) := h
theorem go_late {w : List Nat} {a b : Lv} {x : U} (h : Go w a b x) : Go w a b (.late x) := h

/-- says nothing about what is declared where -/
def plain : Tok → Bool
  | .LBRACE | .CURLY_OPEN | .DOLLAR_OPEN_CURLY_BRACES | .RBRACE | .SEMICOLON | .PAAMAYIM_NEKUDOTAYIM | .NAMESPACE | .FUNCTION | .CLASS | .INTERFACE | .TRAIT => false
  | _ => true

theorem declares_plain {s : At} {o : Nat} {t : Tok} {r : List Tok} (h : plain t = true) : declares s o t r = none := by
  have h1 : t ≠ .FUNCTION := by rintro rfl; cases h
  have h2 : kindOf t = none := by cases t <;> first | rfl | exact absurd h (by decide)
  simp [declares, h1, h2]
theorem step_plain {s : At} {o : Nat} {t : Tok} {r : List Tok} (h : plain t = true) : step s o t r = { s with colons := false } := by
  have := declares_plain (s := s) (o := o) (r := r) h
  cases t <;> first | exact absurd h (by decide) | (show stay s o _ r = _; simp only [stay, this])
theorem run_plain {s : At} {o : Nat} {t : Tok} {r : List Tok} (h : plain t = true) : run s o (t :: r) = run { s with colons := false } (o + 1) r := by
  have h3 : opensNs s t = false := by cases t <;> first | rfl | exact absurd h (by decide)
  simp only [run, declares_plain h, step_plain h, h3, Option.map_none, Option.toList_none, List.nil_append, Bool.false_eq_true, if_false]

/-- only such tokens -/
def Plain (ts : List Tok) : Bool := ts.all plain
theorem run_txt {s : At} (hs : s.colons = false) {ts : List Tok} (h : Plain ts = true) : ∀ o r, run s o (ts ++ r) = run s (o + ts.length) r := by
  induction ts with
  | nil => exact fun _ _ => rfl
  | cons t ts ih =>
    simp only [Plain, List.all_cons, Bool.and_eq_true] at h
    intro o r
    have e : ({ s with colons := false } : At) = s := by cases s; cases hs; rfl
    rw [List.cons_append, run_plain h.1, e, ih h.2]
    congr 1
    simp only [List.length_cons]; omega
theorem run_semi {w : List Nat} {a : Lv} {o : Nat} {r : List Tok} : run (lv w a) o (.SEMICOLON :: r) = run (lv w a) (o + 1) r := rfl
theorem run_open {w : List Nat} {a : Lv} {t : Tok} {o : Nat} {r : List Tok} (h : t = .LBRACE ∨ t = .CURLY_OPEN ∨ t = .DOLLAR_OPEN_CURLY_BRACES) :
    run (lv w a) o (t :: r) = run (lv w (inside w a)) (o + 1) r := by rcases h with rfl | rfl | rfl <;> rfl
theorem run_close {w w' : List Nat} {a : Lv} {d : Bool} {o : Nat} {r : List Tok} : run (lv w' (d, ⟨w, a.1⟩ :: a.2)) o (.RBRACE :: r) = run (lv w a) (o + 1) r := rfl

/-- a statement's text: such tokens, and semicolons -/
def calm (t : Tok) : Bool := plain t || t == .SEMICOLON
def Calm (ts : List Tok) : Bool := ts.all calm
theorem go_txt {w : List Nat} {a : Lv} {ts : List Tok} (h : Calm ts = true) : Go w a a (T ts) := by
  show ∀ o r, run (lv w a) o (ts ++ r) = [] ++ run (lv w a) (o + ts.length) r
  induction ts with
  | nil => exact fun _ _ => rfl
  | cons t ts ih =>
    simp only [Calm, List.all_cons, Bool.and_eq_true, calm, Bool.or_eq_true, beq_iff_eq] at h
    intro o r
    have : run (lv w a) o (t :: (ts ++ r)) = run (lv w a) (o + 1) (ts ++ r) := by
      rcases h.1 with h | rfl
      · exact run_plain h
      · exact run_semi
    rw [List.cons_append, this, ih h.2, List.nil_append, List.nil_append]
    congr 1
    simp only [List.length_cons]; omega
theorem go_open {w : List Nat} {a : Lv} {t : Tok} (h : t = .LBRACE ∨ t = .CURLY_OPEN ∨ t = .DOLLAR_OPEN_CURLY_BRACES) : Go w a (inside w a) (T [t]) :=
  fun o r => run_open h
theorem go_close {w : List Nat} {a : Lv} : Go w (inside w a) a (T [.RBRACE]) := fun o r => run_close (w := w)

/-- two texts -/
theorem go_join {w : List Nat} {a b : Lv} {x y : List Tok} (h : Go w a b (T x ++ T y)) : Go w a b (T (x ++ y)) := h
/-- a text that ends with a brace -/
theorem go_pre {w : List Nat} {a : Lv} {x : List Tok} (h : Calm x = true) : Go w a (inside w a) (T (x ++ [.LBRACE])) := go_join (go_app (go_txt h) (go_open (.inl rfl)))
theorem go_brace {w : List Nat} {a : Lv} {x : U} (h : Go w (inside w a) (inside w a) x) : Go w a a (T [.LBRACE] ++ (x ++ T [.RBRACE])) :=
  go_app (go_open (.inl rfl)) (go_app h go_close)

/-! ### Words behind `::` -/

/-- tokens that may be a name behind `::` -/
def wordy : Tok → Bool
  | .LBRACE | .CURLY_OPEN | .DOLLAR_OPEN_CURLY_BRACES | .RBRACE | .SEMICOLON | .PAAMAYIM_NEKUDOTAYIM => false
  | _ => true
theorem wordy_of {k : Tok} (h : k ∈ words) : wordy k = true := by
  have hs : words.all wordy = true := by decide
  exact List.all_eq_true.1 hs k h
theorem run_word {w : List Nat} {a : Lv} {k : Tok} {o : Nat} {r : List Tok} (h : wordy k = true) :
    run { lv w a with colons := true } o (k :: r) = run (lv w a) (o + 1) r := by
  have h1 : declares { lv w a with colons := true } o k r = none := rfl
  have h2 : step { lv w a with colons := true } o k r = lv w a := by
    cases k <;> first | exact absurd h (by decide) | simp [step, stay, declares, lv]
  have h3 : opensNs { lv w a with colons := true } k = false := by simp [opensNs]
  simp only [run, h1, h2, h3, Option.map_none, Option.toList_none, List.nil_append, Bool.false_eq_true, if_false]
theorem go_const {w : List Nat} {a : Lv} {x : List Tok} {k : Tok} (hx : Calm x = true) (hk : wordy k = true) : Go w a a (T (x ++ [.PAAMAYIM_NEKUDOTAYIM, k])) := by
  refine go_join (go_app (go_txt hx) ?_)
  intro o r
  exact run_word hk
/-- begins with a token that means the same behind `::` -/
def Neutral (u : U) : Prop := ∃ t r, u.toks = t :: r ∧ (plain t = true ∨ t = .LBRACE)
theorem go_colons {w : List Nat} {a b : Lv} {x : List Tok} {u : U} (hx : Calm x = true) (hn : Neutral u) (hu : Go w a b u) :
    Go w a b (T (x ++ [.PAAMAYIM_NEKUDOTAYIM]) ++ u) := by
  intro o r
  have h0 := go_txt (w := w) (a := a) hx o (.PAAMAYIM_NEKUDOTAYIM :: (u.toks ++ r))
  obtain ⟨t, l, hl, ht⟩ := hn
  have h1 : run { lv w a with colons := true } (o + x.length + 1) (u.toks ++ r) = run (lv w a) (o + x.length + 1) (u.toks ++ r) := by
    rw [hl, List.cons_append]
    rcases ht with h | rfl
    · rw [run_plain h, run_plain h]
    · rfl
  have h2 := hu (o + x.length + 1) r
  show run (lv w a) o ((x ++ [.PAAMAYIM_NEKUDOTAYIM] ++ u.toks) ++ r) = u.marks w (o + (x ++ [Tok.PAAMAYIM_NEKUDOTAYIM]).length) ++ run (lv w b) (o + (x ++ [Tok.PAAMAYIM_NEKUDOTAYIM] ++ u.toks).length) r
  have e1 : (x ++ [.PAAMAYIM_NEKUDOTAYIM] ++ u.toks) ++ r = x ++ (.PAAMAYIM_NEKUDOTAYIM :: (u.toks ++ r)) := by simp
  have e2 : o + (x ++ [Tok.PAAMAYIM_NEKUDOTAYIM]).length = o + x.length + 1 := by simp; omega
  have e3 : o + (x ++ [Tok.PAAMAYIM_NEKUDOTAYIM] ++ u.toks).length = o + x.length + 1 + u.toks.length := by simp; omega
  rw [e1, e2, e3, ← h2, ← h1]
  exact h0

/-! ### Functions and classes -/

theorem run_function {w : List Nat} {a : Lv} {o : Nat} {r : List Tok} {i : Nat} (h : fnName (o + 1) r = some i) :
    run (lv w a) o (.FUNCTION :: r) = (if a.1 then .method else .function, i, w) :: run (lv w a) (o + 1) r := by
  obtain ⟨d, k⟩ := a
  cases d <;> simp [run, declares, step, stay, lv, h, opensNs]
theorem run_closure {w : List Nat} {a : Lv} {o : Nat} {r : List Tok} (h : fnName (o + 1) r = none) :
    run (lv w a) o (.FUNCTION :: r) = run (lv w a) (o + 1) r := by
  obtain ⟨d, k⟩ := a
  cases d <;> simp [run, declares, step, stay, lv, h, opensNs]
theorem run_class {w : List Nat} {a : Lv} {o : Nat} {r : List Tok} (k : TypeKind) :
    run (lv w a) o (wordOf k :: .STRING :: r) = (.type k, o + 1, w) :: run { lv w a with next := some ⟨(o + 1) :: w, true⟩ } (o + 2) r := by
  cases k <;> rfl

theorem fnName_paren {o : Nat} {r : List Tok} : fnName o (.LPAREN :: r) = none := by
  unfold fnName
  split
  · rename_i e; cases e
  · rename_i e; cases e; rfl
  · rfl
/-- the name of a method, in front of its parameters -/
theorem run_mname {w : List Nat} {d : Bool} {p : Place} {q : List Place} {o : Nat} {t : Tok} {r : List Tok} (h : wordy t = true) :
    run (lv w (d, p :: q)) o (t :: .LPAREN :: r) = run (lv w (d, p :: q)) (o + 1) (.LPAREN :: r) := by
  have h1 : declares (lv w (d, p :: q)) o t (.LPAREN :: r) = none := by
    cases t <;> first | rfl | simp [declares, lv, fnName_paren]
  have h2 : step (lv w (d, p :: q)) o t (.LPAREN :: r) = lv w (d, p :: q) := by
    have e : stay (lv w (d, p :: q)) o t (.LPAREN :: r) = lv w (d, p :: q) := by unfold stay; rw [h1]; rfl
    cases t <;> first | exact absurd h (by decide) | exact e | simp [step, lv]
  have h3 : opensNs (lv w (d, p :: q)) t = false := by simp [opensNs, lv]
  rw [run, h1, h2, h3]; rfl
/-- the name of a function -/
theorem run_fname {w : List Nat} {a : Lv} {o : Nat} {r : List Tok} : run (lv w a) o (.STRING :: r) = run (lv w a) (o + 1) r := run_plain rfl

theorem fnName_front {o : Nat} {b : Bool} {n : Tok} {r : List Tok} (h : n ∈ words) :
    fnName o (flagTxt .BIT_AND b ++ n :: .LPAREN :: r) = some (o + (flagTxt .BIT_AND b).length) := by
  cases b
  · have hn : n ≠ .BIT_AND := by rintro rfl; exact absurd h (by decide)
    show fnName o (n :: .LPAREN :: r) = _
    unfold fnName
    split
    · rename_i e; cases e; exact absurd rfl hn
    · rename_i e; cases e; rw [if_pos h]; rfl
    · rename_i e; exact absurd rfl (e _ _)
  · show (if n ∈ words then some (o + 1) else none) = _
    rw [if_pos h]; rfl

theorem go_func {w : List Nat} {a : Lv} {b : Bool} {p x : U} (hp : Go w a a p) (hl : ∃ l, p.toks = .LPAREN :: l) (hx : Go w a a x) (ha : a.1 = false) :
    Go w a a (.func (.FUNCTION :: flagTxt .BIT_AND b) .STRING p x) := by
  intro o r
  obtain ⟨l, hl⟩ := hl
  have h1 := fnName_front (o := o + 1) (b := b) (n := .STRING) (r := l ++ (x.toks ++ r)) (by decide)
  have h2 := go_txt (w := w) (a := a) (ts := flagTxt .BIT_AND b) (by cases b <;> rfl) (o + 1) (.STRING :: (p.toks ++ (x.toks ++ r)))
  have h3 := hp (o + 1 + (flagTxt .BIT_AND b).length + 1) (x.toks ++ r)
  have h4 := hx (o + 1 + (flagTxt .BIT_AND b).length + 1 + p.toks.length) r
  have e : (U.func (.FUNCTION :: flagTxt .BIT_AND b) .STRING p x).toks ++ r = .FUNCTION :: (flagTxt .BIT_AND b ++ .STRING :: (p.toks ++ (x.toks ++ r))) := by simp [U.toks]
  rw [e, run_function (i := o + 1 + (flagTxt .BIT_AND b).length) (by rw [hl]; exact h1), ha]
  have h2 : run (lv w a) (o + 1) (flagTxt .BIT_AND b ++ .STRING :: (p.toks ++ (x.toks ++ r))) = run (lv w a) (o + 1 + (flagTxt .BIT_AND b).length) (.STRING :: (p.toks ++ (x.toks ++ r))) := h2
  rw [h2, run_fname, h3, h4]
  simp only [U.marks, U.toks, List.length_append, List.length_cons, List.cons_append, List.append_assoc, Bool.false_eq_true, if_false]
  have q1 : o + ((flagTxt .BIT_AND b).length + 1) = o + 1 + (flagTxt .BIT_AND b).length := by omega
  have q2 : o + 1 + (flagTxt .BIT_AND b).length + 1 + p.toks.length + x.toks.length = o + ((flagTxt .BIT_AND b).length + (p.toks.length + x.toks.length + 1) + 1) := by omega
  rw [q1, q2]

theorem go_meth {w : List Nat} {q : Place} {k : List Place} {b hb : Bool} {n : Tok} {m : List Tok} {p x : U} (hm : Calm m = true) (hn : n ∈ words)
    (hp : Go w (true, q :: k) (true, q :: k) p) (hl : ∃ l, p.toks = .LPAREN :: l) (hx : Go w (true, q :: k) (true, q :: k) x) :
    Go w (true, q :: k) (true, q :: k) (.meth (m ++ .FUNCTION :: flagTxt .BIT_AND b) n p hb x) := by
  intro o r
  obtain ⟨l, hl⟩ := hl
  have h0 := go_txt (w := w) (a := (true, q :: k)) hm o (.FUNCTION :: (flagTxt .BIT_AND b ++ n :: (p.toks ++ (x.toks ++ r))))
  have h1 := fnName_front (o := o + m.length + 1) (b := b) (n := n) (r := l ++ (x.toks ++ r)) hn
  have h2 := go_txt (w := w) (a := (true, q :: k)) (ts := flagTxt .BIT_AND b) (by cases b <;> rfl) (o + m.length + 1) (n :: (p.toks ++ (x.toks ++ r)))
  have h3 := hp (o + m.length + 1 + (flagTxt .BIT_AND b).length + 1) (x.toks ++ r)
  have h4 := hx (o + m.length + 1 + (flagTxt .BIT_AND b).length + 1 + p.toks.length) r
  have e : (U.meth (m ++ .FUNCTION :: flagTxt .BIT_AND b) n p hb x).toks ++ r = m ++ .FUNCTION :: (flagTxt .BIT_AND b ++ n :: (p.toks ++ (x.toks ++ r))) := by simp [U.toks]
  have h0 : run (lv w (true, q :: k)) o (m ++ .FUNCTION :: (flagTxt .BIT_AND b ++ n :: (p.toks ++ (x.toks ++ r)))) = run (lv w (true, q :: k)) (o + m.length) _ := h0
  rw [e, h0, run_function (i := o + m.length + 1 + (flagTxt .BIT_AND b).length) (by rw [hl]; exact h1)]
  have h2 : run (lv w (true, q :: k)) (o + m.length + 1) (flagTxt .BIT_AND b ++ n :: (p.toks ++ (x.toks ++ r))) =
      run (lv w (true, q :: k)) (o + m.length + 1 + (flagTxt .BIT_AND b).length) (n :: (p.toks ++ (x.toks ++ r))) := h2
  have h5 : run (lv w (true, q :: k)) (o + m.length + 1 + (flagTxt .BIT_AND b).length) (n :: (p.toks ++ (x.toks ++ r))) =
      run (lv w (true, q :: k)) (o + m.length + 1 + (flagTxt .BIT_AND b).length + 1) (p.toks ++ (x.toks ++ r)) := by
    rw [hl]; exact run_mname (wordy_of hn)
  rw [h2, h5, h3, h4]
  simp only [U.marks, U.toks, List.length_append, List.length_cons, List.cons_append, List.append_assoc, if_true]
  have q1 : o + (m.length + ((flagTxt .BIT_AND b).length + 1)) = o + m.length + 1 + (flagTxt .BIT_AND b).length := by omega
  have q2 : o + m.length + 1 + (flagTxt .BIT_AND b).length + 1 + p.toks.length + x.toks.length = o + (m.length + ((flagTxt .BIT_AND b).length + (p.toks.length + x.toks.length + 1) + 1)) := by omega
  rw [q1, q2]

theorem go_type {w : List Nat} {a : Lv} {front head : List Tok} {k : TypeKind} {x : U} (hf : Calm front = true) (hh : Plain head = true)
    (hx : ∀ i, Go (i :: w) (true, ⟨w, a.1⟩ :: a.2) (true, ⟨w, a.1⟩ :: a.2) x) : Go w a a (.type front k (T head ++ (T [.LBRACE] ++ (x ++ T [.RBRACE])))) := by
  intro o r
  have h0 := go_txt (w := w) (a := a) hf o (wordOf k :: .STRING :: (head ++ (.LBRACE :: (x.toks ++ (.RBRACE :: r)))))
  have h1 := run_txt (s := { lv w a with next := some ⟨(o + front.length + 1) :: w, true⟩ }) rfl hh (o + front.length + 2) (.LBRACE :: (x.toks ++ (.RBRACE :: r)))
  have h2 := hx (o + front.length + 1) (o + front.length + 2 + head.length + 1) (.RBRACE :: r)
  have e : (U.type front k (T head ++ (T [.LBRACE] ++ (x ++ T [.RBRACE])))).toks ++ r = front ++ (wordOf k :: .STRING :: (head ++ (.LBRACE :: (x.toks ++ (.RBRACE :: r))))) := by
    show front ++ wordOf k :: .STRING :: (head ++ ([.LBRACE] ++ (x.toks ++ [.RBRACE]))) ++ r = _
    simp
  have h0 : run (lv w a) o (front ++ (wordOf k :: .STRING :: (head ++ (.LBRACE :: (x.toks ++ (.RBRACE :: r)))))) = run (lv w a) (o + front.length) _ := h0
  rw [e, h0, run_class, h1]
  have h3 : run { lv w a with next := some ⟨(o + front.length + 1) :: w, true⟩ } (o + front.length + 2 + head.length) (.LBRACE :: (x.toks ++ (.RBRACE :: r))) =
      run (lv ((o + front.length + 1) :: w) (true, ⟨w, a.1⟩ :: a.2)) (o + front.length + 2 + head.length + 1) (x.toks ++ (.RBRACE :: r)) := rfl
  rw [h3, h2, run_close (w := w) (a := a)]
  show _ = (.type k, o + front.length + 1, w) :: ([] ++ ([] ++ (x.marks _ (o + front.length + 2 + head.length + 1) ++ []))) ++ run _ (o + (front ++ wordOf k :: .STRING :: (head ++ ([.LBRACE] ++ (x.toks ++ [.RBRACE])))).length) r
  have q : o + (front ++ wordOf k :: .STRING :: (head ++ ([.LBRACE] ++ (x.toks ++ [.RBRACE])))).length = o + front.length + 2 + head.length + 1 + x.toks.length + 1 := by
    simp only [List.length_append, List.length_cons, List.length_nil]; omega
  rw [q]; simp

end KPhp.Outline
