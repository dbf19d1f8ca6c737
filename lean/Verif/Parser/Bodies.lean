import Verif.Parser.Spans
/-!
# Where the bodies of functions and methods are (C105)

The context of a body has the range of its node: the statements between the braces of a function (`openContext(node->functionBody, DUContext::Other, …)`, contextbuilder.cpp:317-319, php.g:938-940), the
braces and what is between them, or `;`, for a method (`openContext(node->methodBody, …)`, contextbuilder.cpp:287-289, php.g:1145-1147).
-/
namespace KPhp.Outline
set_option linter.unusedVariables false
open KPhp (Tok)
open KPhp.Grammar (headIn words)
open KPhp.Stmt
open KPhp.Scopes (TypeKind Code Outer visitFile start)

/-- The contexts of classes and of bodies of functions and methods that the first walk opens, in its order (contextbuilder.cpp:244-328, the cases of `Scopes.walk`).  A function whose body is empty is
left out: that node matches no token, its range is reversed (`emptyNode`).  Simplification: contexts of parameter lists, of closures and of namespaces are left out. -/
def U.bodies : Nat → U → List Span
  | _, .txt _ => []
  | o, .app a b => a.bodies o ++ b.bodies (o + a.toks.length)
  | _, .lost _ => []
  | _, .late _ => []
  | o, .type front k rest => ⟨o + front.length + 1, o, o + (U.type front k rest).toks.length - 1⟩ :: rest.bodies (o + front.length + 2)
  | o, .func front _ params body =>
    params.bodies (o + front.length + 1) ++
      ((if 2 < body.toks.length then [⟨o + front.length, o + front.length + 1 + params.toks.length + 1, o + front.length + 1 + params.toks.length + body.toks.length - 2⟩] else []) ++
        body.bodies (o + front.length + 1 + params.toks.length))
  | o, .meth front _ params hasBody body =>
    params.bodies (o + front.length + 1) ++
      (if hasBody then ⟨o + front.length, o + front.length + 1 + params.toks.length, o + front.length + 1 + params.toks.length + body.toks.length - 1⟩ ::
        body.bodies (o + front.length + 1 + params.toks.length) else [])
  | o, .clo params hasUses uses body =>
    params.bodies (o + 1) ++ ((if hasUses then uses.bodies (o + 1 + params.toks.length) else []) ++ body.bodies (o + 1 + params.toks.length + uses.toks.length))

/-- The same for a file (`fileCode`). -/
def fileBodies (n : Nat) : Nat → S → List Span
  | o, .cons (.nsLine p) l => fileBodies n (o + (S.nsLine p).toks.length) l
  | o, .cons (.nsBlock p b) l => (outline n b).bodies (o + 2 + (sepTxt .BACKSLASH tokTxt p).length) ++ fileBodies n (o + (S.nsBlock p b).toks.length) l
  | o, .cons a l => (outline n a).bodies o ++ fileBodies n (o + a.toks.length) l
  | _, _ => []

/-- The scopes of classes, functions and methods in a text. -/
def bodiesOf (ts : List Tok) : Option (List Span) := (parseFile ts).map (fileBodies ts.length 0)

/-! ### Specification: where a scope is in a text -/

/-- Token `i` is `x`, when the first of `ts` is number `o`. -/
def IsAt (ts : List Tok) (o i : Nat) (x : Tok) : Prop := o ≤ i ∧ ts[i - o]? = some x

/-- from a modifier or the word in front of the name to a brace -/
def ClassScope (ts : List Tok) (o : Nat) (t : Span) : Prop :=
  t.first < t.name ∧ t.name < t.last ∧ (∀ i, t.first ≤ i → i < t.name → ∃ x, IsAt ts o i x ∧ x ∈ [Tok.ABSTRACT, .FINAL, .CLASS, .INTERFACE, .TRAIT]) ∧ IsAt ts o t.last .RBRACE
/-- behind the name; from brace to brace, or only `;` -/
def MethodScope (ts : List Tok) (o : Nat) (t : Span) : Prop :=
  t.name < t.first ∧ ((t.first < t.last ∧ IsAt ts o t.first .LBRACE ∧ IsAt ts o t.last .RBRACE) ∨ (t.first = t.last ∧ IsAt ts o t.first .SEMICOLON))
/-- behind the name and between braces -/
def FunctionScope (ts : List Tok) (o : Nat) (t : Span) : Prop :=
  t.name + 1 < t.first ∧ t.first ≤ t.last ∧ IsAt ts o (t.first - 1) .LBRACE ∧ IsAt ts o (t.last + 1) .RBRACE

/-- The range of tokens `t` is the scope of declaration `m`. -/
def ScopeOf (ts : List Tok) (o : Nat) (t : Span) (m : Mark) : Prop := t.name = m.2.1 ∧ match m.1 with
  | .type _ => ClassScope ts o t
  | .method => MethodScope ts o t
  | .function => FunctionScope ts o t
  | .namespace => False

/-- The scope of a declaration is one of `R`; a function may have an empty body. -/
def HasScope (ts : List Tok) (o : Nat) (R : List Span) (m : Mark) : Prop :=
  m.1 = .namespace ∨ (∃ t ∈ R, ScopeOf ts o t m) ∨ (m.1 = .function ∧ ∃ i, m.2.1 < i ∧ IsAt ts o i .LBRACE ∧ IsAt ts o (i + 1) .RBRACE)

/-- one behind the other, or the second inside of the first -/
def ApartOr (t t' : Span) : Prop := t.last < t'.first ∨ (t.first ≤ t'.first ∧ t'.last ≤ t.last)

structure Scoped (o : Nat) (ts : List Tok) (K : List Mark) (R : List Span) : Prop where
  spans : ∀ t ∈ R, o ≤ t.first ∧ t.first ≤ t.last ∧ t.last < o + ts.length
  apart : R.Pairwise ApartOr
  each : ∀ m ∈ K, HasScope ts o R m
  only : ∀ t ∈ R, ∃ m ∈ K, ScopeOf ts o t m

/-! ### Proofs -/

theorem IsAt.left {a b : List Tok} {o i : Nat} {x : Tok} (h : IsAt a o i x) : IsAt (a ++ b) o i x :=
  ⟨h.1, by rw [List.getElem?_append_left (List.getElem?_eq_some_iff.1 h.2).1]; exact h.2⟩
theorem IsAt.right {a b : List Tok} {o i : Nat} {x : Tok} (h : IsAt b (o + a.length) i x) : IsAt (a ++ b) o i x := by
  have := h.1
  exact ⟨by omega, by rw [List.getElem?_append_right (by omega), show i - o - a.length = i - (o + a.length) by omega]; exact h.2⟩

theorem ScopeOf.mono {ts ts' : List Tok} {o o' : Nat} {t : Span} {m : Mark} (h : ScopeOf ts o t m) (ht : ∀ i x, IsAt ts o i x → IsAt ts' o' i x) : ScopeOf ts' o' t m := by
  refine ⟨h.1, ?_⟩
  have h := h.2
  split at h
  · obtain ⟨h3, h4, h5, h6⟩ := h
    exact ⟨h3, h4, fun i hi hj => (h5 i hi hj).imp fun x hx => ⟨ht _ _ hx.1, hx.2⟩, ht _ _ h6⟩
  · obtain ⟨h3, h4⟩ := h
    exact ⟨h3, h4.imp (fun q => ⟨q.1, ht _ _ q.2.1, ht _ _ q.2.2⟩) fun q => ⟨q.1, ht _ _ q.2⟩⟩
  · obtain ⟨h3, h4, h5, h6⟩ := h
    exact ⟨h3, h4, ht _ _ h5, ht _ _ h6⟩
  · cases h

theorem HasScope.mono {ts ts' : List Tok} {o o' : Nat} {R R' : List Span} {m : Mark} (h : HasScope ts o R m) (ht : ∀ i x, IsAt ts o i x → IsAt ts' o' i x) (hR : ∀ t ∈ R, t ∈ R') :
    HasScope ts' o' R' m := by
  rcases h with h | ⟨t, h1, h2⟩ | ⟨h0, i, h1, h2, h3⟩
  · exact .inl h
  · exact .inr (.inl ⟨t, hR t h1, h2.mono ht⟩)
  · exact .inr (.inr ⟨h0, i, h1, ht _ _ h2, ht _ _ h3⟩)

theorem Scoped.none {o : Nat} {ts : List Tok} : Scoped o ts [] [] := ⟨by simp, .nil, by simp, by simp⟩

theorem Scoped.app {o : Nat} {a b : List Tok} {K K' : List Mark} {R R' : List Span} (h : Scoped o a K R) (h' : Scoped (o + a.length) b K' R') : Scoped o (a ++ b) (K ++ K') (R ++ R') where
  spans := by
    intro m hm
    rw [List.length_append]
    rcases List.mem_append.1 hm with hm | hm
    · have := h.spans m hm; omega
    · have := h'.spans m hm; omega
  apart := by
    refine List.pairwise_append.2 ⟨h.apart, h'.apart, fun t ht t' ht' => .inl ?_⟩
    have := h.spans t ht; have := h'.spans t' ht'; omega
  each := by
    intro m hm
    rcases List.mem_append.1 hm with hm | hm
    · exact (h.each m hm).mono (fun i x hx => hx.left) fun t ht => List.mem_append_left _ ht
    · exact (h'.each m hm).mono (fun i x hx => hx.right) fun t ht => List.mem_append_right _ ht
  only := by
    intro t ht
    rcases List.mem_append.1 ht with ht | ht
    · exact (h.only t ht).imp fun m q => ⟨List.mem_append_left _ q.1, q.2.mono fun i x hx => hx.left⟩
    · exact (h'.only t ht).imp fun m q => ⟨List.mem_append_right _ q.1, q.2.mono fun i x hx => hx.right⟩

/-- a declaration and its scope around the others -/
theorem Scoped.around {o p : Nat} {ts a b : List Tok} {K : List Mark} {R : List Span} {m : Mark} {t : Span} (h : Scoped p b K R)
    (hb : o ≤ t.first ∧ t.first ≤ t.last ∧ t.last < o + ts.length) (hi : t.first ≤ p ∧ p + b.length ≤ t.last + 1) (ht : ∀ i x, IsAt b p i x → IsAt ts o i x)
    (hs : ScopeOf ts o t m) : Scoped o ts (m :: K) (t :: R) where
  spans := by
    intro t' ht'
    rcases List.mem_cons.1 ht' with rfl | ht'
    · exact hb
    · have := h.spans t' ht'; omega
  apart := List.pairwise_cons.2 ⟨fun t' ht' => .inr (by have := h.spans t' ht'; omega), h.apart⟩
  each := by
    intro m' hm'
    rcases List.mem_cons.1 hm' with rfl | hm'
    · exact .inr (.inl ⟨t, by simp, hs⟩)
    · exact (h.each m' hm').mono ht fun t' ht' => List.mem_cons_of_mem _ ht'
  only := by
    intro t' ht'
    rcases List.mem_cons.1 ht' with rfl | ht'
    · exact ⟨m, by simp, hs⟩
    · exact (h.only t' ht').imp fun m q => ⟨List.mem_cons_of_mem _ q.1, q.2.mono ht⟩

/-- the same, if other scopes (of classes in default values) are in between -/
theorem Scoped.perm {o : Nat} {ts : List Tok} {K K' : List Mark} {R : List Span} (h : Scoped o ts K R) (hK : ∀ m, m ∈ K ↔ m ∈ K') : Scoped o ts K' R :=
  ⟨h.spans, h.apart, fun m hm => h.each m ((hK m).2 hm), fun t ht => (h.only t ht).imp fun m q => ⟨(hK m).1 q.1, q.2⟩⟩

theorem isAt_mid {a b : List Tok} {o i : Nat} {x : Tok} (h : i = o + a.length) : IsAt (a ++ x :: b) o i x := by
  subst h
  exact ⟨by omega, by rw [show o + a.length - o = a.length by omega, List.getElem?_append_right (Nat.le_refl _)]; simp⟩

theorem bodies_in (u : U) : Shut u → ∀ o, ∀ t ∈ u.bodies o, o ≤ t.first ∧ t.last < o + u.toks.length := by
  induction u with
  | txt ts => exact fun _ o t h => by simp [U.bodies] at h
  | lost a ih => exact fun _ o t h => by simp [U.bodies] at h
  | late a ih => exact fun _ o t h => by simp [U.bodies] at h
  | app a b iha ihb =>
    intro h o t ht
    simp only [U.bodies, List.mem_append] at ht
    simp only [U.toks, List.length_append]
    rcases ht with ht | ht
    · have := iha h.1 o t ht; omega
    · have := ihb h.2 _ t ht; omega
  | type f k r ih =>
    intro h o t ht
    simp only [U.bodies, List.mem_cons] at ht
    rcases ht with rfl | ht
    · simp only [U.toks, List.length_append, List.length_cons]; omega
    · have := ih h.2.2 _ t ht
      simp only [U.toks, List.length_append, List.length_cons]; omega
  | func f n p b ihp ihb =>
    intro h o t ht
    simp only [U.bodies, List.mem_append] at ht
    simp only [U.toks, List.length_append, List.length_cons]
    rcases ht with ht | ht | ht
    · have := ihp h.1 _ t ht; omega
    · split at ht
      · rw [List.mem_singleton] at ht; subst ht; simp only; omega
      · cases ht
    · have := ihb h.2.1 _ t ht; omega
  | meth f n p hb b ihp ihb =>
    intro h o t ht
    have hl : 0 < b.toks.length := by
      rcases h.2.2.2 with ⟨x, rfl⟩ | rfl
      · show 0 < ([Tok.LBRACE] ++ _).length; simp
      · show 0 < [Tok.SEMICOLON].length; simp
    simp only [U.bodies, List.mem_append] at ht
    simp only [U.toks, List.length_append, List.length_cons]
    rcases ht with ht | ht
    · have := ihp h.1 _ t ht; omega
    · split at ht
      · rcases List.mem_cons.1 ht with rfl | ht
        · simp only; omega
        · have := ihb h.2.1 _ t ht; omega
      · cases ht
  | clo p hu us b ihp ihu ihb =>
    intro h o t ht
    simp only [U.bodies, List.mem_append] at ht
    simp only [U.toks, List.length_append, List.length_cons]
    rcases ht with ht | ht | ht
    · have := ihp h.1 _ t ht; omega
    · split at ht
      · have := ihu h.2.1 _ t ht; omega
      · cases ht
    · have := ihb h.2.2 _ t ht; omega

theorem seen_scoped (u : U) : Shut u → ∀ w o, Scoped o u.toks (u.seen w o) (u.bodies o) := by
  induction u with
  | txt ts => exact fun _ w o => .none
  | app a b iha ihb => exact fun h w o => (iha h.1 w o).app (ihb h.2 w _)
  | lost a ih => exact fun _ w o => .none
  | late a ih => exact fun _ w o => .none
  | type f k r ih =>
    rintro ⟨hm, hl, h⟩ w o
    have hi := ih h ((o + f.length + 1) :: w) (o + f.length + 2)
    have hlen : (U.type f k r).toks.length = f.length + 2 + r.toks.length := by simp only [U.toks, List.length_append, List.length_cons]; omega
    have hr : 0 < r.toks.length := by
      cases hx : r.toks with
      | nil => rw [hx] at hl; cases hl
      | cons => simp
    have e2 : (U.type f k r).toks = (f ++ [wordOf k, .STRING]) ++ r.toks := by simp [U.toks]
    simp only [U.seen, U.bodies, hlen]
    have up : ∀ i x, IsAt r.toks (o + f.length + 2) i x → IsAt (U.type f k r).toks o i x := fun i x hx => by
      rw [e2]; exact IsAt.right (by rw [show o + (f ++ [wordOf k, .STRING]).length = o + f.length + 2 by simp [Nat.add_assoc]]; exact hx)
    refine Scoped.around (a := []) hi ?_ ?_ up ?_
    · simp only [hlen]; omega
    · simp only; omega
    · refine ⟨rfl, by simp only; omega, by simp only; omega, fun i hi hj => ?_, up _ _ ⟨by simp only; omega, ?_⟩⟩
      · simp only at hi hj
        by_cases hf : i - o < f.length
        · refine ⟨f[i - o], ⟨hi, ?_⟩, ?_⟩
          · show (f ++ _)[i - o]? = _
            rw [List.getElem?_append_left hf, List.getElem?_eq_getElem hf]
          · rcases hm _ (List.getElem_mem hf) with h | h <;> rw [h] <;> decide
        · exact ⟨wordOf k, isAt_mid (by omega), by cases k <;> decide⟩
      · rw [List.getLast?_eq_getElem?] at hl
        rw [← hl]; congr 1; simp only; omega
  | func f n p b ihp ihb =>
    rintro ⟨h1, h2, x, rfl⟩ w o
    have hp := ihp h1 w (o + f.length + 1)
    have hb := ihb h2 w (o + f.length + 1 + p.toks.length)
    have hlen : (T [.LBRACE] ++ (x ++ T [.RBRACE])).toks.length = x.toks.length + 2 := by
      show ([Tok.LBRACE] ++ (x.toks ++ [Tok.RBRACE])).length = _; simp
    have e : (U.func f n p (T [.LBRACE] ++ (x ++ T [.RBRACE]))).toks = (f ++ [n] ++ p.toks) ++ .LBRACE :: (x.toks ++ [.RBRACE]) := by
      show f ++ n :: (p.toks ++ ([Tok.LBRACE] ++ (x.toks ++ [Tok.RBRACE]))) = _; simp
    have hin : ∀ t ∈ x.bodies (o + f.length + 1 + p.toks.length + 1), o + f.length + 1 + p.toks.length + 1 ≤ t.first ∧ t.last < o + f.length + 1 + p.toks.length + 1 + x.toks.length :=
      bodies_in x h2.2.1 _
    have hbo : (T [.LBRACE] ++ (x ++ T [.RBRACE])).bodies (o + f.length + 1 + p.toks.length) = x.bodies (o + f.length + 1 + p.toks.length + 1) := by
      show [] ++ (x.bodies _ ++ []) = _; simp only [List.nil_append, List.append_nil]; rfl
    have e1 : (U.func f n p (T [.LBRACE] ++ (x ++ T [.RBRACE]))).toks = (f ++ [n] ++ p.toks ++ [.LBRACE] ++ x.toks) ++ .RBRACE :: [] := by rw [e]; simp
    have h0 := (Scoped.app (o := o) (a := f ++ [n]) (K := []) (R := []) .none (by
      rw [show o + (f ++ [n]).length = o + f.length + 1 by simp [Nat.add_assoc]]; exact hp.app hb))
    rw [show (f ++ [n]) ++ (p.toks ++ (T [.LBRACE] ++ (x ++ T [.RBRACE])).toks) = (U.func f n p (T [.LBRACE] ++ (x ++ T [.RBRACE]))).toks by simp [U.toks]] at h0
    simp only [List.nil_append] at h0
    rw [hbo] at h0
    simp only [U.seen, U.bodies]
    rw [hbo, hlen]
    by_cases hx : x.toks.length = 0
    · rw [if_neg (by omega)]
      refine ⟨h0.spans, h0.apart, fun m hm => ?_, fun t ht => (h0.only t ht).imp fun m q => ⟨List.mem_cons_of_mem _ q.1, q.2⟩⟩
      rcases List.mem_cons.1 hm with rfl | hm
      · exact .inr (.inr ⟨rfl, o + f.length + 1 + p.toks.length, by simp only; omega, by rw [e]; exact isAt_mid (by simp; omega), by rw [e1]; exact isAt_mid (by simp; omega)⟩)
      · exact h0.each m hm
    · rw [if_pos (by omega)]
      have hap := List.pairwise_append.1 h0.apart
      have hsc : ScopeOf (U.func f n p (T [.LBRACE] ++ (x ++ T [.RBRACE]))).toks o
          ⟨o + f.length, o + f.length + 1 + p.toks.length + 1, o + f.length + 1 + p.toks.length + (x.toks.length + 2) - 2⟩ (.function, o + f.length, w) :=
        ⟨rfl, by simp only; omega, by simp only; omega, by rw [e]; exact isAt_mid (by simp; omega), by rw [e1]; exact isAt_mid (by simp; omega)⟩
      refine ⟨?_, ?_, fun m hm => ?_, ?_⟩
      · intro t ht
        simp only [List.mem_append, List.mem_singleton] at ht
        rcases ht with ht | rfl | ht
        · exact h0.spans t (List.mem_append_left _ ht)
        · have : (U.func f n p (T [.LBRACE] ++ (x ++ T [.RBRACE]))).toks.length = f.length + 1 + p.toks.length + 1 + x.toks.length + 1 := by
            rw [e1]; simp only [List.length_append, List.length_cons, List.length_nil]
          rw [this]; simp only; omega
        · exact h0.spans t (List.mem_append_right _ ht)
      · refine List.pairwise_append.2 ⟨hap.1, List.pairwise_cons.2 ⟨fun t ht => .inr ?_, hap.2.1⟩, fun t ht t' ht' => ?_⟩
        · have := hin t ht; simp only; omega
        · rcases List.mem_cons.1 ht' with rfl | ht'
          · have := hp.spans t ht; exact .inl (by simp only; omega)
          · exact hap.2.2 t ht t' ht'
      · rcases List.mem_cons.1 hm with rfl | hm
        · exact .inr (.inl ⟨_, List.mem_append_right _ (List.mem_cons_self ..), hsc⟩)
        · exact (h0.each m hm).mono (fun _ _ h => h) fun t ht => by
            rcases List.mem_append.1 ht with ht | ht
            · exact List.mem_append_left _ ht
            · exact List.mem_append_right _ (List.mem_append_right _ ht)
      · intro t ht
        simp only [List.mem_append, List.mem_singleton] at ht
        rcases ht with ht | rfl | ht
        · exact (h0.only t (List.mem_append_left _ ht)).imp fun m q => ⟨List.mem_cons_of_mem _ q.1, q.2⟩
        · exact ⟨_, List.mem_cons_self .., hsc⟩
        · exact (h0.only t (List.mem_append_right _ ht)).imp fun m q => ⟨List.mem_cons_of_mem _ q.1, q.2⟩
  | meth f n p hb b ihp ihb =>
    rintro ⟨h1, h2, rfl, h3⟩ w o
    have hp := ihp h1 w (o + f.length + 1)
    have hb := ihb h2 w (o + f.length + 1 + p.toks.length)
    have hl : 0 < b.toks.length := by
      rcases h3 with ⟨x, rfl⟩ | rfl
      · show 0 < ([Tok.LBRACE] ++ _).length; simp
      · show 0 < [Tok.SEMICOLON].length; simp
    have hs : Scoped (o + f.length + 1 + p.toks.length) b.toks ((.method, o + f.length, w) :: b.seen w (o + f.length + 1 + p.toks.length))
        (⟨o + f.length, o + f.length + 1 + p.toks.length, o + f.length + 1 + p.toks.length + b.toks.length - 1⟩ :: b.bodies (o + f.length + 1 + p.toks.length)) := by
      refine Scoped.around (a := []) hb ?_ ?_ (fun _ _ h => h) ?_
      · simp only; omega
      · simp only; omega
      · refine ⟨rfl, by simp only; omega, ?_⟩
        rcases h3 with ⟨x, rfl⟩ | rfl
        · have e : (T [.LBRACE] ++ (x ++ T [.RBRACE])).toks = .LBRACE :: (x.toks ++ [.RBRACE]) := rfl
          have e1 : (T [.LBRACE] ++ (x ++ T [.RBRACE])).toks = (.LBRACE :: x.toks) ++ .RBRACE :: [] := rfl
          have hlen : (T [.LBRACE] ++ (x ++ T [.RBRACE])).toks.length = x.toks.length + 2 := by rw [e]; simp
          simp only [hlen]
          exact .inl ⟨by omega, by rw [e]; exact isAt_mid (a := []) rfl, by rw [e1]; exact isAt_mid (by simp)⟩
        · have hlen : (T [.SEMICOLON]).toks.length = 1 := rfl
          simp only [hlen]
          exact .inr ⟨by omega, isAt_mid (a := []) (b := []) (by simp)⟩
    have h0 := (Scoped.app (o := o) (a := f ++ [n]) (K := []) (R := []) .none (by
      rw [show o + (f ++ [n]).length = o + f.length + 1 by simp [Nat.add_assoc]]; exact hp.app hs))
    rw [show (f ++ [n]) ++ (p.toks ++ b.toks) = (U.meth f n p true b).toks by simp [U.toks]] at h0
    simp only [U.seen, U.bodies, if_true]
    refine h0.perm fun m => ?_
    simp only [List.nil_append, List.mem_append, List.mem_cons]
    constructor
    · rintro (h | h | h)
      · exact .inr (.inl h)
      · exact .inl h
      · exact .inr (.inr h)
    · rintro (h | h | h)
      · exact .inr (.inl h)
      · exact .inl h
      · exact .inr (.inr h)
  | clo p hu us b ihp ihu ihb =>
    intro h w o
    have h2 : Scoped (o + 1 + p.toks.length) (us.toks ++ b.toks) _ _ := Scoped.app
      (K := if hu then us.seen w (o + 1 + p.toks.length) else []) (R := if hu then us.bodies (o + 1 + p.toks.length) else []) (by
        cases hu
        · exact .none
        · exact ihu h.2.1 w (o + 1 + p.toks.length)) (ihb h.2.2 w (o + 1 + p.toks.length + us.toks.length))
    have h1 := (ihp h.1 w (o + 1)).app h2
    have h0 := Scoped.app (o := o) (a := [.FUNCTION]) .none h1
    exact h0

theorem fileBodies_other {n o : Nat} {a l : S} (h1 : ∀ p, a ≠ .nsLine p) (h2 : ∀ p b, a ≠ .nsBlock p b) :
    fileBodies n o (.cons a l) = (outline n a).bodies o ++ fileBodies n (o + a.toks.length) l := by
  cases a with
  | nsLine p => exact absurd rfl (h1 p)
  | nsBlock p b => exact absurd rfl (h2 p b)
  | _ => rfl

theorem spaces_scoped {o : Nat} {ts : List Tok} (l : List Nat) : Scoped o ts (spaces [] l) [] :=
  ⟨by simp, .nil, fun m hm => .inl (spaces_mem l [] m hm).1, by simp⟩

theorem file_scoped {n : Nat} (nm : Nat → QString) (s : S) (h : s.Fits .file) : ∀ w o, s.toks.length ≤ n → Scoped o s.toks (fileMarks n nm w o s) (fileBodies n o s) := by
  refine file_rec (P := fun s => ∀ w o, s.toks.length ≤ n → Scoped o s.toks (fileMarks n nm w o s) (fileBodies n o s)) ?_ ?_ ?_ ?_ s h
  · exact fun w o _ => .none
  · intro p l hp _ ih w o hn
    have h2 := ih ((nsName nm o p).map (·.1)).reverse (o + (S.nsLine p).toks.length) (by simp only [S.toks, List.length_append] at hn ⊢; omega)
    simp only [fileMarks, fileBodies]
    exact Scoped.app (a := (S.nsLine p).toks) (R := []) (spaces_scoped _) h2
  · intro p b l hp hb _ ih w o hn
    have hnb : b.toks.length ≤ n := by simp only [S.toks, List.length_append, List.length_cons] at hn; omega
    have hf := fine_outline (N := n) (fun w => by simp) hb hnb
    have h3 := seen_scoped _ hf.shut ((nsName nm o p).map (·.1)).reverse (o + 2 + (sepTxt .BACKSLASH tokTxt p).length)
    rw [outline_toks] at h3
    have e0 : o + 2 + (sepTxt .BACKSLASH tokTxt p).length = o + (.NAMESPACE :: (sepTxt .BACKSLASH tokTxt p ++ [.LBRACE])).length := by
      simp only [List.length_append, List.length_cons, List.length_nil]; omega
    have h5 := Scoped.app (o := o) (a := .NAMESPACE :: (sepTxt .BACKSLASH tokTxt p ++ [.LBRACE])) (R := []) (spaces_scoped ((nsName nm o p).map (·.1))) (by rw [← e0]; exact h3)
    have h6 := Scoped.app (b := [.RBRACE]) h5 .none
    have h2 := ih [] (o + (S.nsBlock p b).toks.length) (by simp only [S.toks, List.length_append] at hn ⊢; omega)
    have e : (S.nsBlock p b).toks = (.NAMESPACE :: (sepTxt .BACKSLASH tokTxt p ++ [.LBRACE])) ++ b.toks ++ [.RBRACE] := by simp [S.toks]
    have h7 := Scoped.app h6 (by rw [← e]; exact h2)
    rw [← e] at h7
    simp only [fileMarks, fileBodies]
    show Scoped o ((S.nsBlock p b).toks ++ l.toks) _ _
    simpa using h7
  · intro a l ha1 ha2 ha _ ih w o hn
    rw [fileMarks_other ha1 ha2, fileBodies_other ha1 ha2]
    have hna : a.toks.length ≤ n := by simp only [S.toks, List.length_append] at hn; omega
    have hf := fine_outline (N := n) (fun w => by simp) ha hna
    have h3 := seen_scoped _ hf.shut w o
    rw [outline_toks] at h3
    exact h3.app (ih w _ (by simp only [S.toks, List.length_append] at hn ⊢; omega))

/-! ### No two scopes for one declaration -/

/-- the tokens that scopes are named after are in the text, and are different ones -/
structure Own (o n : Nat) (R : List Span) : Prop where
  ins : ∀ t ∈ R, o ≤ t.name ∧ t.name < o + n
  ne : R.Pairwise fun t t' => t.name ≠ t'.name

theorem Own.none {o n : Nat} : Own o n [] := ⟨by simp, .nil⟩
theorem Own.app {o n o' n' p m : Nat} {R R' : List Span} (h : Own o n R) (h' : Own o' n' R') (h1 : p ≤ o) (h2 : o + n ≤ o') (h3 : o' + n' ≤ p + m) : Own p m (R ++ R') where
  ins := fun t ht => by
    rcases List.mem_append.1 ht with ht | ht
    · have := h.ins t ht; omega
    · have := h'.ins t ht; omega
  ne := List.pairwise_append.2 ⟨h.ne, h'.ne, fun t ht t' ht' => by have := h.ins t ht; have := h'.ins t' ht'; omega⟩
theorem Own.cons {o n p m : Nat} {R : List Span} {t : Span} (h : Own o n R) (h1 : p ≤ t.name) (h2 : t.name < o) (h3 : o + n ≤ p + m) : Own p m (t :: R) where
  ins := fun t' ht => by
    rcases List.mem_cons.1 ht with rfl | ht
    · omega
    · have := h.ins t' ht; omega
  ne := List.pairwise_cons.2 ⟨fun t' ht => by have := h.ins t' ht; omega, h.ne⟩
theorem Own.wide {o n p m : Nat} {R : List Span} (h : Own o n R) (h1 : p ≤ o) (h2 : o + n ≤ p + m) : Own p m R := ⟨fun t ht => by have := h.ins t ht; omega, h.ne⟩
/-- a scope behind those of default values -/
theorem Own.mid {o n o' n' p m : Nat} {R R' : List Span} {t : Span} (h : Own o n R) (h' : Own o' n' R') (h1 : p ≤ t.name) (h0 : t.name < o) (h2 : o + n ≤ o') (h3 : o' + n' ≤ p + m) :
    Own p m (R ++ (t :: R')) where
  ins := fun t' ht => by
    rcases List.mem_append.1 ht with ht | ht
    · have := h.ins t' ht; omega
    · rcases List.mem_cons.1 ht with rfl | ht
      · omega
      · have := h'.ins t' ht; omega
  ne := List.pairwise_append.2 ⟨h.ne, List.pairwise_cons.2 ⟨fun t' ht => by have := h'.ins t' ht; omega, h'.ne⟩, fun t ht t' ht' => by
    have := h.ins t ht
    rcases List.mem_cons.1 ht' with rfl | ht'
    · omega
    · have := h'.ins t' ht'; omega⟩

theorem bodies_own (u : U) : ∀ o, Own o u.toks.length (u.bodies o) := by
  induction u with
  | txt ts => exact fun o => .none
  | lost a ih => exact fun o => .none
  | late a ih => exact fun o => .none
  | app a b iha ihb =>
    intro o
    simp only [U.toks, U.bodies, List.length_append]
    exact (iha o).app (ihb _) (Nat.le_refl _) (Nat.le_refl _) (by omega)
  | type f k r ih =>
    intro o
    have e : (U.type f k r).toks.length = f.length + 2 + r.toks.length := by simp only [U.toks, List.length_append, List.length_cons]; omega
    simp only [U.bodies]
    rw [e]
    exact (ih (o + f.length + 2)).cons (by simp only; omega) (by simp only; omega) (by omega)
  | func f n p b ihp ihb =>
    intro o
    simp only [U.toks, U.bodies, List.length_append, List.length_cons]
    split
    · exact (ihp (o + f.length + 1)).mid (ihb (o + f.length + 1 + p.toks.length)) (by simp only; omega) (by simp only; omega) (Nat.le_refl _) (by omega)
    · exact (ihp (o + f.length + 1)).app (ihb (o + f.length + 1 + p.toks.length)) (by omega) (Nat.le_refl _) (by omega)
  | meth f n p hb b ihp ihb =>
    intro o
    simp only [U.toks, U.bodies, List.length_append, List.length_cons]
    split
    · exact (ihp (o + f.length + 1)).mid (ihb (o + f.length + 1 + p.toks.length)) (by simp only; omega) (by simp only; omega) (Nat.le_refl _) (by omega)
    · rw [List.append_nil]; exact (ihp (o + f.length + 1)).wide (by omega) (by omega)
  | clo p hu us b ihp ihu ihb =>
    intro o
    simp only [U.toks, U.bodies, List.length_append, List.length_cons]
    refine (ihp (o + 1)).app (o' := o + 1 + p.toks.length) (n' := us.toks.length + b.toks.length) ?_ (by omega) (Nat.le_refl _) (by omega)
    split
    · exact (ihu (o + 1 + p.toks.length)).app (ihb (o + 1 + p.toks.length + us.toks.length)) (Nat.le_refl _) (Nat.le_refl _) (by omega)
    · exact (ihb (o + 1 + p.toks.length + us.toks.length)).wide (by omega) (by omega)

theorem file_own {n : Nat} (s : S) (h : s.Fits .file) : ∀ o, Own o s.toks.length (fileBodies n o s) := by
  refine file_rec (P := fun s => ∀ o, Own o s.toks.length (fileBodies n o s)) ?_ ?_ ?_ ?_ s h
  · exact fun o => .none
  · intro p l hp _ ih o
    simp only [fileBodies]
    exact (ih (o + (S.nsLine p).toks.length)).wide (by omega) (by show _ ≤ o + ((S.nsLine p).toks ++ l.toks).length; rw [List.length_append]; omega)
  · intro p b l hp hb _ ih o
    have h1 := bodies_own (outline n b) (o + 2 + (sepTxt .BACKSLASH tokTxt p).length)
    rw [outline_toks] at h1
    have e : (S.nsBlock p b).toks.length = (sepTxt .BACKSLASH tokTxt p).length + 2 + b.toks.length + 1 := by
      simp only [S.toks, List.length_append, List.length_cons, List.length_nil]; omega
    simp only [fileBodies]
    exact h1.app (ih (o + (S.nsBlock p b).toks.length)) (by omega) (by omega) (by show _ ≤ o + ((S.nsBlock p b).toks ++ l.toks).length; rw [List.length_append]; omega)
  · intro a l ha1 ha2 ha _ ih o
    rw [fileBodies_other ha1 ha2]
    have h1 := bodies_own (outline n a) o
    rw [outline_toks] at h1
    exact h1.app (ih _) (Nat.le_refl _) (Nat.le_refl _) (by show _ ≤ o + (a.toks ++ l.toks).length; rw [List.length_append]; omega)

/-! ### The ranges -/

section
variable {v : CharClass} (hv : v.Lawful) {c : QString} {php : Bool} {stream : List PTok} {lines : List Nat} (h : Tokenised v c php stream lines)
include hv h

theorem entry_bounds {i : Nat} {ent : PTok} {t : Tok} (hi : stream[i]? = some ent) (ht : ent.kind = some t) :
    ent.first ≤ ent.last + 1 ∧ (t = .RBRACE ∨ t = .SEMICOLON → ent.last < c.length) := by
  obtain ⟨toks, z, _, hc, hf, _, hk, hd⟩ := tokenised_facts hv h
  obtain ⟨x, hx, hxt, h1, h2⟩ := entry_token hk hd hi ht
  have hm := List.mem_of_getElem? hx
  unfold significantToks at hm
  rw [List.mem_filter] at hm
  have hb := (contiguous_bounds hc).1 x hm.1
  have h3 := hf x hm.1
  refine ⟨by omega, fun ht => ?_⟩
  rcases h3.2 with h4 | h4 | h4
  · omega
  · rcases ht with rfl | rfl <;> rw [hxt] at h4 <;> cases h4
  · rcases ht with rfl | rfl <;> rw [hxt] at h4 <;> cases h4

theorem index_entry {i : Nat} (hi : i < (kindsOf stream).length) : ∃ ent x, stream[i]? = some ent ∧ ent.kind = some x ∧ (kindsOf stream)[i]? = some x := by
  have e := List.getElem?_eq_getElem hi
  obtain ⟨ent, h1, h2⟩ := kind_entry hv h e
  exact ⟨ent, _, h1, h2, e⟩

/-- a scope ends before the end of the text -/
theorem scope_entries {K : List Mark} {R : List Span} (hP : Scoped 0 (kindsOf stream) K R) {t : Span} (ht : t ∈ R) :
    ∃ a b x y, stream[t.first]? = some a ∧ stream[t.last]? = some b ∧ a.kind = some x ∧ b.kind = some y ∧ a.last < c.length ∧ b.last < c.length := by
  have hb := hP.spans t ht
  obtain ⟨a, x, ha, hx, hax⟩ := index_entry hv h (i := t.first) (by omega)
  obtain ⟨b, y, hb', hy, hby⟩ := index_entry hv h (i := t.last) (by omega)
  obtain ⟨m, hm, hs⟩ := hP.only t ht
  have hB := entry_bounds hv h hb' hy
  have key : b.last < c.length := by
    have close : ∀ z, IsAt (kindsOf stream) 0 t.last z → z = .RBRACE ∨ z = .SEMICOLON → b.last < c.length := fun z hz hz2 => by
      have := hz.2
      rw [Nat.sub_zero, hby] at this
      cases this
      exact hB.2 hz2
    have hs := hs.2
    split at hs
    · exact close _ hs.2.2.2 (.inl rfl)
    · rcases hs.2 with q | q
      · exact close _ q.2.2 (.inl rfl)
      · exact close _ (q.1 ▸ q.2) (.inr rfl)
    · obtain ⟨d, hd, hd2⟩ := kind_entry hv h (show (kindsOf stream)[t.last + 1]? = some .RBRACE from hs.2.2.2.2)
      have := tokens_ordered hv h (Nat.lt_succ_self _) hb' hy hd hd2
      have := entry_nonempty hv h hd hd2 (by decide)
      have := (entry_bounds hv h hd hd2).2 (.inl rfl)
      omega
    · cases hs
  refine ⟨a, b, x, y, ha, hb', hx, hy, ?_, key⟩
  rcases Nat.lt_or_ge t.first t.last with hlt | hge
  · have := tokens_ordered hv h hlt ha hx hb' hy
    omega
  · have e : t.first = t.last := by omega
    rw [e, hb'] at ha; cases ha; exact key

end

/-- **C105 (partial).** Whatever the source is: if it is read to its end without syntax error, then the classes, functions and methods declared by the first walk (with the names and ranges that are
shown) are those of tokens `K`, and the scopes opened for them, `R`, are ranges of tokens such that (1) each is in the text and not reversed; (2) of two scopes, one is behind the other or the second
is inside of the first; (3) each of these declarations has one, where its language construct says: between the braces behind the name; only a function whose body is empty may have none; (4) each of the
scopes belongs to one of the declarations, and no two to the same.  (5) If no cast, `yield from` or unterminated literal contains a line break, a cursor is in the range of a scope exactly if it is in the text from its first to
its last token, and of two such ranges either no cursor is in both, or the second is inside of the first.  Missing: the scopes of parameter lists, closures and namespaces; functions with an empty body
and, in (5), the other sources, for which it is false (C98, C104). -/
theorem bodies_partial (v : CharClass) (hv : v.Lawful) {c : QString} {php : Bool} {stream : List PTok} {lines : List Nat} (h : Tokenised v c php stream lines)
    (hf : (parseFile (kindsOf stream)).isSome = true) :
    ∃ K R, shown v c stream lines = some (K.map fun m => (named v (nameIn c stream) m, nodeRange lines stream m.2.1)) ∧ bodiesOf (kindsOf stream) = some R ∧ Scoped 0 (kindsOf stream) K R ∧
      (R.Pairwise fun t t' => t.name ≠ t'.name) ∧ (K.Pairwise fun m m' => m.2.1 < m'.2.1) ∧
      (PlainBreaks v c php → (∀ t ∈ R, ∃ a b, stream[t.first]? = some a ∧ stream[t.last]? = some b ∧
          ∀ p i, cursorOffset c p.line p.col = some i → ((scopeRange lines stream t).Contains p ↔ a.first ≤ i ∧ i ≤ b.last)) ∧
        R.Pairwise fun t t' => Nested c (scopeRange lines stream t) (scopeRange lines stream t')) := by
  obtain ⟨f, s1, K, h1, h2, h3, h4, h5, S0, hs, hF, hts, hK⟩ := first_shown v (nameIn c stream) hf
  have hl : shown v c stream lines = some (K.map fun m => (named v (nameIn c stream) m, nodeRange lines stream m.2.1)) := by
    have : (declarationsOf s1).zip ((fileNodes f).map (nodeRange lines stream)) = K.map fun m => (named v (nameIn c stream) m, nodeRange lines stream m.2.1) := by
      rw [h3, h4, List.map_map]
      clear h3 h4 h5 hK
      induction K with
      | nil => rfl
      | cons m K ih => simp only [List.map_cons, List.zip_cons_cons, ih]; rfl
    simp [shown, h1, h2, this]
  have hP := file_scoped (n := (kindsOf stream).length) (nameIn c stream) S0 hF [] 0 (by rw [← hts]; exact Nat.le_refl _)
  rw [← hK, ← hts] at hP
  refine ⟨K, _, hl, by simp [bodiesOf, hs], hP, (file_own S0 hF 0).ne, (List.pairwise_map.1 (run_sorted (kindsOf stream) _ 0)).sublist h5, fun hp => ?_⟩
  have hcont : ∀ t ∈ fileBodies (kindsOf stream).length 0 S0, ∃ a b, stream[t.first]? = some a ∧ stream[t.last]? = some b ∧
      ∀ p i, cursorOffset c p.line p.col = some i → ((scopeRange lines stream t).Contains p ↔ a.first ≤ i ∧ i ≤ b.last) := by
    intro t ht
    obtain ⟨a, b, x, y, ha, hb, hx, hy, h1, h2⟩ := scope_entries hv h hP ht
    refine ⟨a, b, ha, hb, fun p i hi => ?_⟩
    simp only [scopeRange, ha, hb]
    exact range_contains_partial hv h hp ha hx hb hy (fun _ => h1) (fun _ => h2) hi
  refine ⟨hcont, List.Pairwise.imp_of_mem (fun {t t'} ht ht' hab => ?_) hP.apart⟩
  obtain ⟨a, b, ha, hb, c1⟩ := hcont t ht
  obtain ⟨a', b', ha', hb', c2⟩ := hcont t' ht'
  obtain ⟨_, _, x, y, g1, g2, hx, hy, _, _⟩ := scope_entries hv h hP ht
  obtain ⟨_, _, x', y', g3, g4, hx', hy', _, _⟩ := scope_entries hv h hP ht'
  rw [ha] at g1; cases g1; rw [hb] at g2; cases g2; rw [ha'] at g3; cases g3; rw [hb'] at g4; cases g4
  rcases hab with hab | ⟨hab1, hab2⟩
  · refine .inl fun p o ho ⟨p1, p2⟩ => ?_
    have q1 := (c1 p o ho).1 p1
    have q2 := (c2 p o ho).1 p2
    have := tokens_ordered hv h hab hb hy ha' hx'
    omega
  · refine .inr fun p o ho p2 => (c1 p o ho).2 ?_
    have q2 := (c2 p o ho).1 p2
    have e1 : a.first ≤ a'.first := by
      rcases Nat.lt_or_ge t.first t'.first with hlt | hge
      · have := tokens_ordered hv h hlt ha hx ha' hx'
        have := (entry_bounds hv h ha hx).1
        omega
      · have e : t.first = t'.first := by omega
        rw [e, ha'] at ha; cases ha; exact Nat.le_refl _
    have e2 : b'.last ≤ b.last := by
      rcases Nat.lt_or_ge t'.last t.last with hlt | hge
      · have := tokens_ordered hv h hlt hb' hy' hb hy
        have := (entry_bounds hv h hb hy).1
        omega
      · have e : t'.last = t.last := by omega
        rw [e, hb] at hb'; cases hb'; exact Nat.le_refl _
    omega

/-! ### Examples -/
namespace BodyDemo

/-- The hypotheses of `bodies_partial` hold for `class B{⏎function c(){}}`. -/
example := bodies_partial asciiClass asciiClass_lawful ShownDemo.text_tokenised (by decide +kernel)

/-- `class A { function f($a) { return function() { function g() { $b; } }; } abstract function h(); } function k() { }`: the scopes of the class, `f`, `g` and `h`; `k` has none. -/
theorem body_scopes : bodiesOf [.CLASS, .STRING, .LBRACE, .FUNCTION, .STRING, .LPAREN, .VARIABLE, .RPAREN, .LBRACE, .RETURN, .FUNCTION, .LPAREN, .RPAREN, .LBRACE, .FUNCTION, .STRING, .LPAREN, .RPAREN,
    .LBRACE, .VARIABLE, .SEMICOLON, .RBRACE, .RBRACE, .SEMICOLON, .RBRACE, .ABSTRACT, .FUNCTION, .STRING, .LPAREN, .RPAREN, .SEMICOLON, .RBRACE,
    .FUNCTION, .STRING, .LPAREN, .RPAREN, .LBRACE, .RBRACE] = some [⟨1, 0, 31⟩, ⟨4, 8, 24⟩, ⟨15, 19, 20⟩, ⟨27, 30, 30⟩] := by decide +kernel

/-- the scope of `c` in `class B{⏎function c(){}}` is between its braces -/
example : (bodiesOf (kindsOf ShownDemo.stream)).map (·.map (scopeRange [8, 24] ShownDemo.stream)) = some [⟨⟨0, 0⟩, ⟨1, 15⟩⟩, ⟨⟨1, 12⟩, ⟨1, 14⟩⟩] := by decide +kernel

end BodyDemo

end KPhp.Outline
