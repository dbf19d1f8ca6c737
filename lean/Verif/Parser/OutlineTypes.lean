import Verif.Parser.OutlineToks
/-!
# Where a file says `class A` (C100)

An outline declares a class wherever its text has one of the words `class`, `interface`, `trait` directly in front of a name, and nowhere else.
-/
namespace KPhp.Outline
set_option linter.unusedVariables false
open KPhp (Tok)
open KPhp.Grammar (E Closures headIn Fits semiReserved modifierWords)
open KPhp.Stmt
open KPhp.Scopes (TypeKind)

/-! ### Specification -/

/-- What the word in front of a name says. -/
def kindOf : Tok → Option TypeKind
  | .CLASS => some .klass
  | .INTERFACE => some .interface
  | .TRAIT => some .trait
  | _ => none

/-- All places of a text with `class`, `interface` or `trait` directly in front of a name: the kind, and the index of the name; `o` is the index of the first token. -/
def scan : Nat → List Tok → List (TypeKind × Nat)
  | o, t :: n :: r =>
    match kindOf t with
    | some k => if n = .STRING then (k, o + 1) :: scan (o + 1) (n :: r) else scan (o + 1) (n :: r)
    | none => scan (o + 1) (n :: r)
  | _, _ => []

/-- The text contains something that hides declarations: `if (…): … endif`, `declare`, two indices in a row, an index behind a string. -/
def hides : List Tok → Bool
  | [] => false
  | t :: r => t == .ENDIF || t == .DECLARE || ((t == .RBRACKET || t == .CONSTANT_ENCAPSED_STRING) && headIn [.LBRACKET] r) || hides r

/-! ### The classes of an outline -/

/-- All classes, whether visited or not. -/
def U.types : Nat → U → List (TypeKind × Nat)
  | _, .txt _ => []
  | o, .app a b => a.types o ++ b.types (o + a.toks.length)
  | o, .lost a => a.types o
  | o, .late a => a.types o
  | o, .type front k rest => (k, o + front.length + 1) :: rest.types (o + front.length + 2)
  | o, .func front _ params body => params.types (o + front.length + 1) ++ body.types (o + front.length + 1 + params.toks.length)
  | o, .meth front _ params _ body => params.types (o + front.length + 1) ++ body.types (o + front.length + 1 + params.toks.length)
  | o, .clo params _ uses body =>
    params.types (o + 1) ++ (uses.types (o + 1 + params.toks.length) ++ body.types (o + 1 + params.toks.length + uses.toks.length))
/-- The classes that the first walk visits. -/
def U.kept : Nat → U → List (TypeKind × Nat)
  | _, .txt _ => []
  | o, .app a b => a.kept o ++ b.kept (o + a.toks.length)
  | _, .lost _ => []
  | _, .late _ => []
  | o, .type front k rest => (k, o + front.length + 1) :: rest.kept (o + front.length + 2)
  | o, .func front _ params body => params.kept (o + front.length + 1) ++ body.kept (o + front.length + 1 + params.toks.length)
  | o, .meth front _ params hasBody body =>
    params.kept (o + front.length + 1) ++ (if hasBody then body.kept (o + front.length + 1 + params.toks.length) else [])
  | o, .clo params hasUses uses body =>
    params.kept (o + 1) ++ ((if hasUses then uses.kept (o + 1 + params.toks.length) else []) ++ body.kept (o + 1 + params.toks.length + uses.toks.length))

/-- What is declared. -/
inductive What
  | type (k : TypeKind)
  | function
  | method
  | namespace
deriving DecidableEq, Repr
/-- A class, function, method or namespace: what it is, the index of its name, the names around it (of classes and namespaces), innermost first. -/
abbrev Mark := What × Nat × List Nat
/-- All classes, functions and methods, whether visited or not; `w` is around them. -/
def U.marks : List Nat → Nat → U → List Mark
  | _, _, .txt _ => []
  | w, o, .app a b => a.marks w o ++ b.marks w (o + a.toks.length)
  | w, o, .lost a => a.marks w o
  | w, o, .late a => a.marks w o
  | w, o, .type front k rest => (.type k, o + front.length + 1, w) :: rest.marks ((o + front.length + 1) :: w) (o + front.length + 2)
  | w, o, .func front _ params body => (.function, o + front.length, w) :: (params.marks w (o + front.length + 1) ++ body.marks w (o + front.length + 1 + params.toks.length))
  | w, o, .meth front _ params _ body => (.method, o + front.length, w) :: (params.marks w (o + front.length + 1) ++ body.marks w (o + front.length + 1 + params.toks.length))
  | w, o, .clo params _ uses body =>
    params.marks w (o + 1) ++ (uses.marks w (o + 1 + params.toks.length) ++ body.marks w (o + 1 + params.toks.length + uses.toks.length))
/-- Those that the first walk visits. -/
def U.seen : List Nat → Nat → U → List Mark
  | _, _, .txt _ => []
  | w, o, .app a b => a.seen w o ++ b.seen w (o + a.toks.length)
  | _, _, .lost _ => []
  | _, _, .late _ => []
  | w, o, .type front k rest => (.type k, o + front.length + 1, w) :: rest.seen ((o + front.length + 1) :: w) (o + front.length + 2)
  | w, o, .func front _ params body => (.function, o + front.length, w) :: (params.seen w (o + front.length + 1) ++ body.seen w (o + front.length + 1 + params.toks.length))
  | w, o, .meth front _ params hasBody body =>
    (.method, o + front.length, w) :: (params.seen w (o + front.length + 1) ++ (if hasBody then body.seen w (o + front.length + 1 + params.toks.length) else []))
  | w, o, .clo params hasUses uses body =>
    params.seen w (o + 1) ++ ((if hasUses then uses.seen w (o + 1 + params.toks.length) else []) ++ body.seen w (o + 1 + params.toks.length + uses.toks.length))

theorem seen_sublist (u : U) : ∀ w o, (u.seen w o).Sublist (u.marks w o) := by
  induction u with
  | txt ts => exact fun _ _ => .refl _
  | app a b iha ihb => exact fun w o => (iha _ _).append (ihb _ _)
  | lost a ih => exact fun w o => List.nil_sublist _
  | late a ih => exact fun w o => List.nil_sublist _
  | type f k r ih => exact fun w o => (ih _ _).cons_cons _
  | func f n p b ihp ihb => exact fun w o => ((ihp _ _).append (ihb _ _)).cons_cons _
  | meth f n p h b ihp ihb =>
    intro w o
    cases h
    · exact ((ihp _ _).append (List.nil_sublist _)).cons_cons _
    · exact ((ihp _ _).append (ihb _ _)).cons_cons _
  | clo p h us b ihp ihu ihb =>
    intro w o
    cases h
    · exact (ihp _ _).append ((List.nil_sublist _).append (ihb _ _))
    · exact (ihp _ _).append ((ihu _ _).append (ihb _ _))

theorem kept_sublist (u : U) : ∀ o, (u.kept o).Sublist (u.types o) := by
  induction u with
  | txt ts => exact fun _ => .refl _
  | app a b iha ihb => exact fun o => (iha _).append (ihb _)
  | lost a ih => exact fun o => List.nil_sublist _
  | late a ih => exact fun o => List.nil_sublist _
  | type f k r ih => exact fun o => (ih _).cons_cons _
  | func f n p b ihp ihb => exact fun o => (ihp _).append (ihb _)
  | meth f n p h b ihp ihb =>
    intro o
    cases h
    · exact (ihp _).append (List.nil_sublist _)
    · exact (ihp _).append (ihb _)
  | clo p h us b ihp ihu ihb =>
    intro o
    cases h
    · exact (ihp _).append ((List.nil_sublist _).append (ihb _))
    · exact (ihp _).append ((ihu _).append (ihb _))

/-! ### Texts -/

theorem hides_right (a b : List Tok) (h : hides b = true) : hides (a ++ b) = true := by
  induction a with
  | nil => exact h
  | cons t a ih => simp [hides, ih]
theorem hides_left (a b : List Tok) (h : hides a = true) : hides (a ++ b) = true := by
  induction a with
  | nil => cases h
  | cons t a ih =>
    simp only [hides, Bool.or_eq_true, Bool.and_eq_true, List.cons_append] at h ⊢
    rcases h with (h | ⟨h1, h2⟩) | h
    · exact .inl (.inl h)
    · refine .inl (.inr ⟨h1, ?_⟩)
      cases a with
      | nil => cases h2
      | cons x a => exact h2
    · exact .inr (ih h)

/-- the next token is no name -/
def Free (r : List Tok) : Prop := headIn [.STRING] r = false

theorem scan_free {o : Nat} {t : Tok} {r : List Tok} (h : kindOf t = none ∨ Free r) : scan o (t :: r) = scan (o + 1) r := by
  cases r with
  | nil => rfl
  | cons n r =>
    simp only [scan]
    rcases h with h | h
    · rw [h]
    · cases hk : kindOf t with
      | none => rfl
      | some k =>
        have : n ≠ .STRING := by rintro rfl; cases h
        simp [this]
theorem scan_type {o : Nat} (k : TypeKind) {r : List Tok} : scan o (wordOf k :: .STRING :: r) = (k, o + 1) :: scan (o + 2) r := by
  have h1 : kindOf (wordOf k) = some k := by cases k <;> rfl
  simp only [scan, h1, if_true]
  rw [scan_free (.inl rfl)]

/-- no `class`, `interface`, `trait` -/
def noKind (ts : List Tok) : Bool := ts.all fun t => (kindOf t).isNone

theorem scan_noKind {ts : List Tok} (h : noKind ts = true) : ∀ o r, scan o (ts ++ r) = scan (o + ts.length) r := by
  induction ts with
  | nil => exact fun _ _ => rfl
  | cons t ts ih =>
    simp only [noKind, List.all_cons, Bool.and_eq_true, Option.isNone_iff_eq_none] at h
    intro o r
    rw [List.cons_append, scan_free (.inl h.1), ih h.2]
    congr 1
    simp only [List.length_cons]; omega

/-! ### Parts that fit together -/

/-- the walks cannot tell the trees apart -/
def Same (c c' : Scopes.Code) : Prop := ∀ v p s, Scopes.walk v p c s = Scopes.walk v p c' s
theorem Same.refl (c : Scopes.Code) : Same c c := fun _ _ _ => rfl
theorem Same.seq {a b a' b' : Scopes.Code} (ha : Same a a') (hb : Same b b') : Same (.seq a b) (.seq a' b') := fun v p s => by
  have : Scopes.walk v p b = Scopes.walk v p b' := funext fun s => hb v p s
  simp only [Scopes.walk, ha v p s, this]
theorem Same.closure {i : Nat} {h : Bool} {a b c a' b' c' : Scopes.Code} (ha : Same a a') (hb : Same b b') (hc : Same c c') :
    Same (.closure i a h b c) (.closure i a' h b' c') := fun v p s => by
  have h1 : Scopes.walk v p a = Scopes.walk v p a' := funext fun s => ha v p s
  have h2 : Scopes.walk v p b = Scopes.walk v p b' := funext fun s => hb v p s
  have h3 : Scopes.walk v p c = Scopes.walk v p c' := funext fun s => hc v p s
  simp only [Scopes.walk, h1, h2, h3]
theorem Same.function {i : Nat} {n : QString} {a b a' b' : Scopes.Code} (ha : Same a a') (hb : Same b b') : Same (.function i n a b) (.function i n a' b') := fun v p s => by
  have h1 : Scopes.walk v p a = Scopes.walk v p a' := funext fun s => ha v p s
  have h2 : Scopes.walk v p b = Scopes.walk v p b' := funext fun s => hb v p s
  simp only [Scopes.walk, h1, h2]
theorem Same.method {i : Nat} {n : QString} {h : Bool} {a b a' b' : Scopes.Code} (ha : Same a a') (hb : Same b b') : Same (.method i n a h b) (.method i n a' h b') := fun v p s => by
  have h1 : Scopes.walk v p a = Scopes.walk v p a' := funext fun s => ha v p s
  have h2 : Scopes.walk v p b = Scopes.walk v p b' := funext fun s => hb v p s
  simp only [Scopes.walk, h1, h2]
theorem Same.type {i : Nat} {k : TypeKind} {n : QString} {a a' : Scopes.Code} (ha : Same a a') : Same (.type i k n a) (.type i k n a') := fun v p s => by
  have h1 : Scopes.walk v p a = Scopes.walk v p a' := funext fun s => ha v p s
  simp only [Scopes.walk, h1]
theorem Same.empty {a b : Scopes.Code} (ha : Same a .empty) (hb : Same b .empty) : Same (.seq a b) .empty := fun v p s => by
  have : Scopes.walk v p b = some := funext fun s => hb v p s
  simp [Scopes.walk, ha v p s, this]

/-- nothing of `u` is left out, and both walks see the same -/
structure Whole (u : U) : Prop where
  kept : ∀ o, u.kept o = u.types o
  seen : ∀ w o, u.seen w o = u.marks w o
  same : ∀ nm o, Same (u.code true nm o) (u.code false nm o)
/-- there is nothing to see -/
structure Void (u : U) : Prop where
  types : ∀ o, u.types o = []
  marks : ∀ w o, u.marks w o = []
  code : ∀ nm o, Same (u.code true nm o) .empty

theorem whole_txt (ts : List Tok) : Whole (.txt ts) := ⟨fun _ => rfl, fun _ _ => rfl, fun _ _ => .refl _⟩
theorem whole_app {x y : U} (hx : Whole x) (hy : Whole y) : Whole (x ++ y) := by
  refine ⟨fun o => ?_, fun w o => ?_, fun nm o => (hx.same nm o).seq (hy.same nm _)⟩
  · show x.kept o ++ y.kept _ = x.types o ++ y.types _
    rw [hx.kept, hy.kept]
  · show x.seen w o ++ y.seen w _ = x.marks w o ++ y.marks w _
    rw [hx.seen, hy.seen]
theorem whole_late {x : U} (h : Void x) : Whole (.late x) := ⟨fun o => (h.types o).symm, fun w o => (h.marks w o).symm, fun nm o => h.code nm o⟩
theorem whole_type {f : List Tok} {k : TypeKind} {x : U} (h : Whole x) : Whole (.type f k x) :=
  ⟨fun o => by simp only [U.kept, U.types, h.kept], fun w o => by simp only [U.seen, U.marks, h.seen], fun nm o => .type (h.same _ _)⟩
theorem whole_func {f : List Tok} {n : Tok} {p x : U} (hp : Whole p) (hx : Whole x) : Whole (.func f n p x) :=
  ⟨fun o => by simp only [U.kept, U.types, hp.kept, hx.kept], fun w o => by simp only [U.seen, U.marks, hp.seen, hx.seen], fun nm o => .function (hp.same _ _) (hx.same _ _)⟩
theorem whole_meth {f : List Tok} {n : Tok} {h : Bool} {p x : U} (hp : Whole p) (hx : Whole x) (hh : h = true ∨ Void x) : Whole (.meth f n p h x) := by
  refine ⟨fun o => ?_, fun w o => ?_, fun nm o => .method (hp.same _ _) (hx.same _ _)⟩
  · cases h with
    | true => simp only [U.kept, U.types, hp.kept, hx.kept, if_true]
    | false =>
      have h0 := (hh.resolve_left (by simp)).types
      simp only [U.kept, U.types, hp.kept, h0, Bool.false_eq_true, if_false]
  · cases h with
    | true => simp only [U.seen, U.marks, hp.seen, hx.seen, if_true]
    | false =>
      have h0 := (hh.resolve_left (by simp)).marks
      simp only [U.seen, U.marks, hp.seen, h0, Bool.false_eq_true, if_false]
theorem whole_clo {h : Bool} {p b : U} {us : List Tok} (hp : Whole p) (hb : Whole b) : Whole (.clo p h (.txt us) b) :=
  ⟨fun o => by cases h <;> simp [U.kept, U.types, hp.kept, hb.kept], fun w o => by cases h <;> simp [U.seen, U.marks, hp.seen, hb.seen],
    fun nm o => .closure (hp.same _ _) (.refl _) (hb.same _ _)⟩
theorem void_txt (ts : List Tok) : Void (.txt ts) := ⟨fun _ => rfl, fun _ _ => rfl, fun _ _ => .refl _⟩

/-- an index follows -/
def ext (b : Bool) : List Tok := if b then [.LBRACKET] else []

/-- in braces -/
def Braced (b : U) : Prop := ∃ x, b = T [.LBRACE] ++ (x ++ T [.RBRACE])
/-- Every class begins with its modifier, if it has one, and ends with a brace; functions and methods have bodies in braces or `;`. -/
def Shut : U → Prop
  | .txt _ => True
  | .app a b => Shut a ∧ Shut b
  | .lost a | .late a => Shut a
  | .type front _ rest => (∀ t ∈ front, t = .ABSTRACT ∨ t = .FINAL) ∧ rest.toks.getLast? = some .RBRACE ∧ Shut rest
  | .func _ _ p b => Shut p ∧ Shut b ∧ Braced b
  | .meth _ _ p h b => Shut p ∧ Shut b ∧ h = true ∧ (Braced b ∨ b = T [.SEMICOLON])
  | .clo p _ us b => Shut p ∧ Shut us ∧ Shut b

/-- The classes of `u` are those its text says; whatever follows (`c`), or if what follows is no name; and all of them are visited unless the text hides something. -/
structure Fine (c b : Bool) (u : U) : Prop where
  scan : ∀ o r, c = true ∨ Free r → scan o (u.toks ++ r) = u.types o ++ scan (o + u.toks.length) r
  kept : hides (u.toks ++ ext b) = true ∨ Whole u
  shut : Shut u

theorem Fine.weak {c b : Bool} {u : U} (h : Fine true b u) : Fine c b u := ⟨fun o r _ => h.scan o r (.inl rfl), h.kept, h.shut⟩
theorem Fine.more {c b : Bool} {u : U} (h : Fine c false u) : Fine c b u :=
  ⟨h.scan, h.kept.imp (fun h => hides_left _ _ (by simpa [ext] using h)) id, h.shut⟩

theorem fine_txt {c b : Bool} {ts : List Tok} (h : noKind ts = true) : Fine c b (T ts) :=
  ⟨fun o r _ => scan_noKind h o r, .inr (whole_txt _), trivial⟩
/-- a text that may end with such a word -/
theorem fine_snoc {b : Bool} {ts : List Tok} {t : Tok} (h : noKind ts = true) : Fine false b (T (ts ++ [t])) := by
  refine ⟨fun o r hr => ?_, .inr (whole_txt _), trivial⟩
  have hr : Free r := by simpa using hr
  show scan o (ts ++ [t] ++ r) = scan (o + (ts ++ [t]).length) r
  rw [List.append_assoc, scan_noKind h, List.singleton_append, scan_free (.inr hr)]
  congr 1
  simp only [List.length_append, List.length_cons, List.length_nil]; omega

theorem kept_app {b : Bool} {x y : U} (hx : hides (x.toks ++ []) = true ∨ Whole x) (hy : hides (y.toks ++ ext b) = true ∨ Whole y) :
    hides ((x ++ y).toks ++ ext b) = true ∨ Whole (x ++ y) := by
  rw [toks_append, List.append_assoc]
  rcases hx with hx | hx
  · exact .inl (hides_left _ _ (by simpa using hx))
  rcases hy with hy | hy
  · exact .inl (hides_right _ _ hy)
  · exact .inr (whole_app hx hy)

theorem scan_app {c c' : Bool} {x y : U} (hx : ∀ o r, c = true ∨ Free r → scan o (x.toks ++ r) = x.types o ++ scan (o + x.toks.length) r)
    (hy : ∀ o r, c' = true ∨ Free r → scan o (y.toks ++ r) = y.types o ++ scan (o + y.toks.length) r) (o : Nat) (r : List Tok)
    (h1 : c = true ∨ Free (y.toks ++ r)) (h2 : c' = true ∨ Free r) :
    scan o ((x ++ y).toks ++ r) = (x ++ y).types o ++ scan (o + (x ++ y).toks.length) r := by
  rw [toks_append, List.append_assoc, hx _ _ h1, hy _ _ h2]
  show _ = (x.types o ++ y.types _) ++ _
  simp [List.append_assoc, Nat.add_assoc]

theorem fine_app {c b : Bool} {x y : U} (hx : Fine true false x) (hy : Fine c b y) : Fine c b (x ++ y) :=
  ⟨fun o r h => scan_app hx.scan hy.scan o r (.inl rfl) h, kept_app hx.kept hy.kept, hx.shut, hy.shut⟩

/-- begins with a token that is no name -/
def Begins (ts : List Tok) : Prop := ∃ t r, ts = t :: r ∧ t ≠ .STRING
theorem Begins.free {ts : List Tok} (h : Begins ts) (r : List Tok) : Free (ts ++ r) := by
  obtain ⟨t, ts, rfl, ht⟩ := h
  simpa [Free, headIn] using ht

theorem fine_then {c b : Bool} {x y : U} (hx : Fine false false x) (hy : Fine c b y) (h : Begins y.toks) : Fine c b (x ++ y) :=
  ⟨fun o r hr => scan_app hx.scan hy.scan o r (.inr (h.free r)) hr, kept_app hx.kept hy.kept, hx.shut, hy.shut⟩
theorem fine_mid {c b : Bool} {x y : U} {t : Tok} {ts : List Tok} (hx : Fine false false x) (ht : t ≠ .STRING) (hy : Fine c b (T (t :: ts) ++ y)) :
    Fine c b (x ++ (T (t :: ts) ++ y)) := fine_then hx hy ⟨t, ts ++ y.toks, rfl, ht⟩
theorem fine_end {c b : Bool} {x : U} {t : Tok} {ts : List Tok} (hx : Fine false false x) (ht : t ≠ .STRING) (h : noKind (t :: ts) = true) :
    Fine c b (x ++ T (t :: ts)) := fine_then hx (fine_txt h) ⟨t, ts, rfl, ht⟩
/-- what follows may be empty -/
theorem fine_maybe {b : Bool} {x y : U} (hx : Fine false false x) (hy : Fine false b y) (h : y.toks = [] ∨ Begins y.toks) : Fine false b (x ++ y) := by
  refine ⟨fun o r hr => scan_app hx.scan hy.scan o r (.inr ?_) hr, kept_app hx.kept hy.kept, hx.shut, hy.shut⟩
  rcases h with h | h
  · rw [h]; simpa using hr
  · exact h.free r

theorem fine_late {c b : Bool} {u : U} (hu : Fine c false u) (h : hides (u.toks ++ ext b) = true ∨ Void u) : Fine c b (.late u) :=
  ⟨hu.scan, h.imp id whole_late, hu.shut⟩

theorem fine_func {c b : Bool} {front : List Tok} {name : Tok} {p x : U} (hf : noKind front = true) (hp : Fine true false p) (hb : Begins p.toks)
    (hx : Fine c b x) : (Braced x → Fine c b (.func front name p x)) ∧ ∀ h, (h = true ∧ (Braced x ∨ x = T [.SEMICOLON])) → Fine c b (.meth front name p h x) := by
  have key : ∀ o r, c = true ∨ Free r → scan o (front ++ name :: (p.toks ++ x.toks) ++ r) =
      p.types (o + front.length + 1) ++ x.types (o + front.length + 1 + p.toks.length) ++ scan (o + (front ++ name :: (p.toks ++ x.toks)).length) r := by
    intro o r hr
    rw [List.append_assoc, scan_noKind hf, List.cons_append, scan_free (.inr (by rw [List.append_assoc]; exact hb.free _)), List.append_assoc, hp.scan _ _ (.inl rfl), hx.scan _ _ hr, ← List.append_assoc]
    congr 2
    simp only [List.length_append, List.length_cons]; omega
  have kk : hides ((front ++ name :: (p.toks ++ x.toks)) ++ ext b) = true ∨ Whole p ∧ Whole x := by
    have e : (front ++ name :: (p.toks ++ x.toks)) ++ ext b = (front ++ [name]) ++ (p.toks ++ (x.toks ++ ext b)) := by simp
    rw [e]
    rcases hp.kept with h1 | h1
    · exact .inl (hides_right _ _ (hides_left _ _ (by simpa [ext] using h1)))
    rcases hx.kept with h2 | h2
    · exact .inl (hides_right _ _ (hides_right _ _ h2))
    · exact .inr ⟨h1, h2⟩
  exact ⟨fun hbr => ⟨key, kk.imp id fun h => whole_func h.1 h.2, hp.shut, hx.shut, hbr⟩, fun h hh => ⟨key, kk.imp id fun h => whole_meth h.1 h.2 (.inl hh.1), hp.shut, hx.shut, hh⟩⟩

theorem fine_type {c b : Bool} {front : List Tok} {k : TypeKind} {x : U} (hm : ∀ t ∈ front, t = .ABSTRACT ∨ t = .FINAL)
    (hl : x.toks.getLast? = some .RBRACE) (hx : Fine c b x) : Fine c b (.type front k x) := by
  have hf : noKind front = true := List.all_eq_true.2 fun t ht => by rcases hm t ht with rfl | rfl <;> rfl
  refine ⟨fun o r hr => ?_, ?_, hm, hl, hx.shut⟩
  · show scan o (front ++ wordOf k :: .STRING :: x.toks ++ r) = (k, o + front.length + 1) :: x.types (o + front.length + 2) ++ _
    rw [List.append_assoc, scan_noKind hf, List.cons_append, List.cons_append, scan_type, hx.scan _ _ hr]
    simp only [U.toks, List.length_append, List.length_cons, List.cons_append]
    congr 3
    omega
  · rcases hx.kept with h | h
    · refine .inl ?_
      have := hides_right (front ++ [wordOf k, .STRING]) _ h
      simpa [U.toks] using this
    · exact .inr (whole_type h)

theorem fine_clo {params body : U} {us : List Tok} {h : Bool} (hp : Fine true false params) (hu : noKind us = true) (hb : Fine true false body) :
    Fine true false (.clo params h (T us) body) := by
  have := fine_app (fine_txt (c := true) (b := false) (ts := [.FUNCTION]) rfl) (fine_app hp (fine_app (fine_txt hu) hb))
  refine ⟨fun o r hr => this.scan o r hr, ?_, hp.shut, trivial, hb.shut⟩
  have e : ∀ b, (U.clo params h (T us) body).toks ++ ext b = [.FUNCTION] ++ (params.toks ++ (us ++ (body.toks ++ ext b))) := by simp [U.toks]
  rw [e]
  rcases hp.kept with h1 | h1
  · exact .inl (hides_right _ _ (hides_left _ _ (by simpa [ext] using h1)))
  rcases hb.kept with h2 | h2
  · exact .inl (hides_right _ _ (hides_right _ _ (hides_right _ _ h2)))
  · exact .inr (whole_clo h1 h2)

end KPhp.Outline
