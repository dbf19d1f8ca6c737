import Verif.Parser.Ranges
/-!
# Where the scope of a class is (C104)

The context of a class, interface or trait has the range of its declaration statement, `openContext(node, editorFindRange(node, node), DUContext::Class, …)` (contextbuilder.cpp:244-270): from its first
token to its last.
-/
namespace KPhp.Outline
set_option linter.unusedVariables false
open KPhp (Tok)
open KPhp.Grammar (headIn words)
open KPhp.Stmt
open KPhp.Scopes (TypeKind Code Outer visitFile start)

/-- A class, interface or trait: the tokens of its name, its start and its end. -/
structure Span where
  name : Nat
  first : Nat
  last : Nat
deriving DecidableEq, Repr

/-- The declaration statements of the classes that the first walk visits, in its order (the cases of `Scopes.walk`; contextbuilder.cpp:244-270).  `startToken` of the statement is the first token of its
rule, a modifier if there is one, and `endToken` the last it reads (php.g:1080-1098). -/
def U.spans : Nat → U → List Span
  | _, .txt _ => []
  | o, .app a b => a.spans o ++ b.spans (o + a.toks.length)
  | _, .lost _ => []
  | _, .late _ => []
  | o, .type front k rest => ⟨o + front.length + 1, o, o + (U.type front k rest).toks.length - 1⟩ :: rest.spans (o + front.length + 2)
  | o, .func front _ params body => params.spans (o + front.length + 1) ++ body.spans (o + front.length + 1 + params.toks.length)
  | o, .meth front _ params hasBody body => params.spans (o + front.length + 1) ++ (if hasBody then body.spans (o + front.length + 1 + params.toks.length) else [])
  | o, .clo params hasUses uses body =>
    params.spans (o + 1) ++ ((if hasUses then uses.spans (o + 1 + params.toks.length) else []) ++ body.spans (o + 1 + params.toks.length + uses.toks.length))

/-- The same for a file (`fileCode`). -/
def fileSpans (n : Nat) : Nat → S → List Span
  | o, .cons (.nsLine p) l => fileSpans n (o + (S.nsLine p).toks.length) l
  | o, .cons (.nsBlock p b) l => (outline n b).spans (o + 2 + (sepTxt .BACKSLASH tokTxt p).length) ++ fileSpans n (o + (S.nsBlock p b).toks.length) l
  | o, .cons a l => (outline n a).spans o ++ fileSpans n (o + a.toks.length) l
  | _, _ => []

/-- The scopes of classes in a text, outer ones first. -/
def spansOf (ts : List Tok) : Option (List Span) := (parseFile ts).map (fileSpans ts.length 0)

/-! ### Scopes and paths -/

/-- a word inside of a class, its own name excepted -/
def covers (i : Nat) (t : Span) : Bool := decide (t.first ≤ i) && decide (i ≤ t.last) && i != t.name

def typeAt (m : Mark) : Option Nat := match m.1 with
  | .type _ => some m.2.1
  | _ => none

/-- the classes around a word, innermost first -/
def around (R : List Span) (i : Nat) : List Nat := ((R.filter (covers i)).reverse).map (·.name)

theorem around_append (R S : List Span) (i : Nat) : around (R ++ S) i = around S i ++ around R i := by simp [around]
theorem around_out {R : List Span} {i : Nat} (h : ∀ t ∈ R, i < t.first ∨ t.last < i) : around R i = [] := by
  have : R.filter (covers i) = [] := List.filter_eq_nil_iff.2 fun t ht => by
    have := h t ht
    simp only [covers, Bool.and_eq_true, decide_eq_true_eq]; omega
  simp [around, this]

/-- Two scopes: one behind the other, or the second inside of the first. -/
def Apart (t t' : Span) : Prop := t.last < t'.first ∨ (t.first < t'.first ∧ t'.last ≤ t.last)

/-- The tokens of a scope: from a modifier or the word in front of the name to a brace. -/
def Edges (ts : List Tok) (o : Nat) (t : Span) : Prop :=
  (∀ i, t.first ≤ i → i < t.name → ∃ x, ts[i - o]? = some x ∧ x ∈ [Tok.ABSTRACT, .FINAL, .CLASS, .INTERFACE, .TRAIT]) ∧ ts[t.last - o]? = some .RBRACE

/-- Everything about the scopes `R` and the declarations `K` of the tokens `ts`, that begin at `o`; `Q`: what is around them. -/
structure Placed (Q : List Nat → Prop) (o : Nat) (ts : List Tok) (K : List Mark) (R : List Span) : Prop where
  marks : ∀ m ∈ K, o ≤ m.2.1 ∧ m.2.1 < o + ts.length
  spans : ∀ t ∈ R, o ≤ t.first ∧ t.first < t.name ∧ t.name < t.last ∧ t.last < o + ts.length
  names : R.map (·.name) = K.filterMap typeAt
  paths : ∀ m ∈ K, ∃ ns, m.2.2 = around R m.2.1 ++ ns ∧ Q ns
  apart : R.Pairwise Apart
  edges : ∀ t ∈ R, Edges ts o t

theorem Edges.left {a b : List Tok} {o : Nat} {t : Span} (h : Edges a o t) (h1 : t.last < o + a.length) (h2 : t.name < t.last) (h0 : o ≤ t.first) : Edges (a ++ b) o t := by
  refine ⟨fun i hi hj => ?_, ?_⟩
  · rw [List.getElem?_append_left (by omega)]; exact h.1 i hi hj
  · by_cases hn : t.last - o < a.length
    · rw [List.getElem?_append_left hn]; exact h.2
    · have := (List.getElem?_eq_some_iff.1 h.2).1; omega
theorem Edges.right {a b : List Tok} {o : Nat} {t : Span} (h : Edges b (o + a.length) t) (h0 : o + a.length ≤ t.first) (h2 : t.first < t.last) : Edges (a ++ b) o t := by
  refine ⟨fun i hi hj => ?_, ?_⟩
  · rw [List.getElem?_append_right (by omega), show i - o - a.length = i - (o + a.length) by omega]; exact h.1 i hi hj
  · rw [List.getElem?_append_right (by omega), show t.last - o - a.length = t.last - (o + a.length) by omega]; exact h.2

theorem Placed.none {Q : List Nat → Prop} {o : Nat} {ts : List Tok} : Placed Q o ts [] [] :=
  ⟨by simp, by simp, rfl, by simp, .nil, by simp⟩

theorem Placed.app {Q : List Nat → Prop} {o : Nat} {a b : List Tok} {K K' : List Mark} {R R' : List Span} (h : Placed Q o a K R) (h' : Placed Q (o + a.length) b K' R') :
    Placed Q o (a ++ b) (K ++ K') (R ++ R') where
  marks := by
    intro m hm
    rw [List.length_append]
    rcases List.mem_append.1 hm with hm | hm
    · have := h.marks m hm; omega
    · have := h'.marks m hm; omega
  spans := by
    intro m hm
    rw [List.length_append]
    rcases List.mem_append.1 hm with hm | hm
    · have := h.spans m hm; omega
    · have := h'.spans m hm; omega
  names := by rw [List.map_append, List.filterMap_append, h.names, h'.names]
  paths := by
    intro m hm
    rcases List.mem_append.1 hm with hm | hm
    · obtain ⟨ns, h1, h2⟩ := h.paths m hm
      refine ⟨ns, ?_, h2⟩
      rw [around_append, around_out (R := R'), List.nil_append, h1]
      intro t ht
      have := h.marks m hm; have := h'.spans t ht; omega
    · obtain ⟨ns, h1, h2⟩ := h'.paths m hm
      refine ⟨ns, ?_, h2⟩
      rw [around_append, around_out (R := R), List.append_nil, h1]
      intro t ht
      have := h'.marks m hm; have := h.spans t ht; omega
  apart := by
    refine List.pairwise_append.2 ⟨h.apart, h'.apart, fun t ht t' ht' => .inl ?_⟩
    have := h.spans t ht; have := h'.spans t' ht'; omega
  edges := by
    intro t ht
    rcases List.mem_append.1 ht with ht | ht
    · have := h.spans t ht
      exact (h.edges t ht).left (by omega) (by omega) (by omega)
    · have := h'.spans t ht
      exact (h'.edges t ht).right (by omega) (by omega)

/-- more tokens around -/
theorem Placed.wide {Q : List Nat → Prop} {o : Nat} {a b c : List Tok} {K : List Mark} {R : List Span} (h : Placed Q (o + a.length) b K R) : Placed Q o (a ++ (b ++ c)) K R := by
  have h1 := Placed.app (a := b) (b := c) h .none
  have h2 := Placed.app (a := a) .none h1
  simpa using h2
theorem Placed.imp {Q Q' : List Nat → Prop} {o : Nat} {ts : List Tok} {K : List Mark} {R : List Span} (h : Placed Q o ts K R) (hq : ∀ l, Q l → Q' l) : Placed Q' o ts K R :=
  { h with paths := fun m hm => (h.paths m hm).imp fun ns x => ⟨x.1, hq _ x.2⟩ }
/-- a declaration that is no class, in front of others -/
theorem Placed.cons {Q : List Nat → Prop} {o : Nat} {a b : List Tok} {K : List Mark} {R : List Span} (h : Placed Q (o + a.length) b K R) {m : Mark} (h1 : typeAt m = Option.none)
    (h2 : o ≤ m.2.1 ∧ m.2.1 < o + a.length) (hq : Q m.2.2) : Placed Q o (a ++ b) (m :: K) R := by
  have h0 : Placed Q o a [m] [] := ⟨by simpa using h2, by simp, by simp [h1], (fun m' hm => by cases List.mem_singleton.1 hm; exact ⟨_, rfl, hq⟩), .nil, by simp⟩
  simpa using h0.app h

theorem seen_placed (u : U) : Shut u → ∀ w o, Placed (· = w) o u.toks (u.seen w o) (u.spans o) := by
  induction u with
  | txt ts => exact fun _ w o => .none
  | app a b iha ihb => exact fun h w o => (iha h.1 w o).app (ihb h.2 w _)
  | lost a ih => exact fun _ w o => .none
  | late a ih => exact fun _ w o => .none
  | type f k r ih =>
    rintro ⟨hm, hl, h⟩ w o
    have hi := ih h ((o + f.length + 1) :: w) (o + f.length + 2)
    have hlen : (U.type f k r).toks.length = f.length + 2 + r.toks.length := by simp only [U.toks, List.length_append, List.length_cons]; omega
    have hr : 0 < r.toks.length := by
      cases hx : r.toks with
      | nil => rw [hx] at hl; cases hl
      | cons => simp
    simp only [U.seen, U.spans, hlen]
    refine ⟨?_, ?_, ?_, ?_, ?_, ?_⟩
    · intro m hm
      rw [hlen]
      rcases List.mem_cons.1 hm with rfl | hm
      · simp only; omega
      · have := hi.marks m hm; omega
    · intro t ht
      rw [hlen]
      rcases List.mem_cons.1 ht with rfl | ht
      · simp only; omega
      · have := hi.spans t ht; omega
    · simp only [List.map_cons, hi.names, List.filterMap_cons, typeAt]
    · intro m hm
      refine ⟨w, ?_, rfl⟩
      rw [← List.singleton_append, around_append]
      rcases List.mem_cons.1 hm with rfl | hm
      · show w = _
        rw [around_out (R := r.spans _)]
        · simp [around, covers]
        · intro t ht
          have := hi.spans t ht; simp only; omega
      · obtain ⟨ns, h1, rfl⟩ := hi.paths m hm
        have hb := hi.marks m hm
        have hc : around [⟨o + f.length + 1, o, o + (f.length + 2 + r.toks.length) - 1⟩] m.2.1 = [o + f.length + 1] := by
          have : covers m.2.1 ⟨o + f.length + 1, o, o + (f.length + 2 + r.toks.length) - 1⟩ = true := by
            simp only [covers, Bool.and_eq_true, decide_eq_true_eq, bne_iff_ne]; omega
          simp [around, this]
        rw [hc, h1]; simp
    · refine List.pairwise_cons.2 ⟨fun t ht => .inr ?_, hi.apart⟩
      have := hi.spans t ht; simp only; omega
    · intro t ht
      rcases List.mem_cons.1 ht with rfl | ht
      · refine ⟨fun i hi hj => ?_, ?_⟩
        · simp only at hi hj
          by_cases hf : i - o < f.length
          · refine ⟨f[i - o], ?_, ?_⟩
            · show (f ++ _)[i - o]? = _
              rw [List.getElem?_append_left hf, List.getElem?_eq_getElem hf]
            · rcases hm _ (List.getElem_mem hf) with h | h <;> rw [h] <;> decide
          · refine ⟨wordOf k, ?_, by cases k <;> decide⟩
            show (f ++ wordOf k :: _)[i - o]? = _
            rw [show i - o = f.length by omega, List.getElem?_append_right (Nat.le_refl _)]; simp
        · show (f ++ wordOf k :: .STRING :: r.toks)[o + (f.length + 2 + r.toks.length) - 1 - o]? = _
          rw [List.getLast?_eq_getElem?] at hl
          rw [show o + (f.length + 2 + r.toks.length) - 1 - o = f.length + (r.toks.length - 1 + 2) by omega, List.getElem?_append_right (by omega)]
          simpa using hl
      · have := hi.spans t ht
        have e := (hi.edges t ht)
        have e2 : (U.type f k r).toks = (f ++ [wordOf k, .STRING]) ++ r.toks := by simp [U.toks]
        rw [e2]
        refine Edges.right (o := o) ?_ (by simp only [List.length_append, List.length_cons, List.length_nil]; omega) (by omega)
        rw [show o + (f ++ [wordOf k, .STRING]).length = o + f.length + 2 by simp [Nat.add_assoc]]
        exact e
  | func f n p b ihp ihb =>
    intro h w o
    have h1 := (ihp h.1 w (o + f.length + 1)).app (ihb h.2.1 w (o + f.length + 1 + p.toks.length))
    have e : (U.func f n p b).toks = (f ++ [n]) ++ (p.toks ++ b.toks) := by simp [U.toks]
    rw [e]
    refine Placed.cons (a := f ++ [n]) ?_ rfl ?_ rfl
    · rw [show o + (f ++ [n]).length = o + f.length + 1 by simp [Nat.add_assoc]]; exact h1
    · simp only [List.length_append, List.length_cons, List.length_nil]; omega
  | meth f n p hb b ihp ihb =>
    intro h w o
    have h1 : Placed (· = w) (o + f.length + 1) (p.toks ++ b.toks) _ _ := (ihp h.1 w (o + f.length + 1)).app
      (K' := if hb then b.seen w (o + f.length + 1 + p.toks.length) else []) (R' := if hb then b.spans (o + f.length + 1 + p.toks.length) else []) (by
        cases hb
        · exact .none
        · exact ihb h.2.1 w (o + f.length + 1 + p.toks.length))
    have e : (U.meth f n p hb b).toks = (f ++ [n]) ++ (p.toks ++ b.toks) := by simp [U.toks]
    rw [e]
    refine Placed.cons (a := f ++ [n]) ?_ rfl ?_ rfl
    · rw [show o + (f ++ [n]).length = o + f.length + 1 by simp [Nat.add_assoc]]; exact h1
    · simp only [List.length_append, List.length_cons, List.length_nil]; omega
  | clo p hu us b ihp ihu ihb =>
    intro h w o
    have h2 : Placed (· = w) (o + 1 + p.toks.length) (us.toks ++ b.toks) _ _ := Placed.app
      (K := if hu then us.seen w (o + 1 + p.toks.length) else []) (R := if hu then us.spans (o + 1 + p.toks.length) else []) (by
        cases hu
        · exact .none
        · exact ihu h.2.1 w (o + 1 + p.toks.length)) (ihb h.2.2 w (o + 1 + p.toks.length + us.toks.length))
    have h1 := (ihp h.1 w (o + 1)).app h2
    have h0 := Placed.app (Q := (· = w)) (o := o) (a := [.FUNCTION]) .none h1
    exact h0

/-! ### Files -/

theorem fileSpans_other {n o : Nat} {a l : S} (h1 : ∀ p, a ≠ .nsLine p) (h2 : ∀ p b, a ≠ .nsBlock p b) :
    fileSpans n o (.cons a l) = (outline n a).spans o ++ fileSpans n (o + a.toks.length) l := by
  cases a with
  | nsLine p => exact absurd rfl (h1 p)
  | nsBlock p b => exact absurd rfl (h2 p b)
  | _ => rfl

theorem nsName_bounds (nm : Nat → QString) : ∀ (p : List Tok) (o : Nat), ∀ i ∈ (nsName nm o p).map (·.1), o < i ∧ i < o + 1 + (sepTxt .BACKSLASH tokTxt p).length
  | [], o, i, h => by simp [nsName] at h
  | [a], o, i, h => by
    simp [nsName] at h; subst h
    show o < o + 1 ∧ o + 1 < o + 1 + 1
    omega
  | a :: b :: p, o, i, h => by
    have e : (sepTxt .BACKSLASH tokTxt (a :: b :: p)).length = (sepTxt .BACKSLASH tokTxt (b :: p)).length + 2 := by
      show (tokTxt a ++ .BACKSLASH :: sepTxt .BACKSLASH tokTxt (b :: p)).length = _
      simp [tokTxt]
    rw [e]
    rcases List.mem_cons.1 h with rfl | h
    · simp only; omega
    · have := nsName_bounds nm (b :: p) (o + 2) i h; omega

theorem spaces_mem : ∀ (l w : List Nat), ∀ m ∈ spaces w l, m.1 = .namespace ∧ m.2.1 ∈ l ∧ ∀ i ∈ m.2.2, i ∈ w ∨ i ∈ l
  | [], w, m, h => by simp [spaces] at h
  | i :: l, w, m, h => by
    rcases List.mem_cons.1 h with rfl | h
    · exact ⟨rfl, by simp, fun j hj => .inl hj⟩
    · obtain ⟨h1, h2, h3⟩ := spaces_mem l _ m h
      refine ⟨h1, List.mem_cons_of_mem _ h2, fun j hj => ?_⟩
      rcases h3 j hj with h | h
      · rcases List.mem_cons.1 h with rfl | h
        · exact .inr (by simp)
        · exact .inl h
      · exact .inr (List.mem_cons_of_mem _ h)

theorem spaces_placed {N : Nat → Prop} {o : Nat} {ts : List Tok} {l : List Nat} (hN : ∀ i ∈ l, N i) (hb : ∀ i ∈ l, o ≤ i ∧ i < o + ts.length) :
    Placed (fun ns => ∀ i ∈ ns, N i) o ts (spaces [] l) [] where
  marks m hm := hb _ (spaces_mem _ _ m hm).2.1
  spans := by simp
  names := by
    symm
    refine List.filterMap_eq_nil_iff.2 fun m hm => ?_
    simp only [typeAt, (spaces_mem _ _ m hm).1]
  paths m hm := ⟨m.2.2, rfl, fun i hi => hN i (((spaces_mem _ _ m hm).2.2 i hi).resolve_left (by simp))⟩
  apart := .nil
  edges := by simp

theorem file_placed {n : Nat} (nm : Nat → QString) (N : Nat → Prop) (s : S) (h : s.Fits .file) : ∀ w o, s.toks.length ≤ n → (∀ i ∈ w, N i) →
    (∀ m ∈ fileMarks n nm w o s, m.1 = .namespace → N m.2.1) → Placed (fun ns => ∀ i ∈ ns, N i) o s.toks (fileMarks n nm w o s) (fileSpans n o s) := by
  have hsp : ∀ l : List Nat, ∀ i ∈ l, ∃ m ∈ spaces [] l, m.1 = .namespace ∧ m.2.1 = i := fun l i hi => by
    rw [← spaces_nodes l []] at hi
    obtain ⟨m, hm, rfl⟩ := List.mem_map.1 hi
    exact ⟨m, hm, (spaces_mem _ _ m hm).1, rfl⟩
  refine file_rec (P := fun s => ∀ w o, s.toks.length ≤ n → (∀ i ∈ w, N i) →
    (∀ m ∈ fileMarks n nm w o s, m.1 = .namespace → N m.2.1) → Placed (fun ns => ∀ i ∈ ns, N i) o s.toks (fileMarks n nm w o s) (fileSpans n o s)) ?_ ?_ ?_ ?_ s h
  · exact fun w o _ _ _ => .none
  · intro p l hp _ ih w o hn hw hN
    simp only [fileMarks] at hN
    have h1 : ∀ i ∈ (nsName nm o p).map (·.1), N i := fun i hi => by
      obtain ⟨m, hm, h2, rfl⟩ := hsp _ i hi
      exact hN m (List.mem_append_left _ hm) h2
    have e : (S.nsLine p).toks.length = (sepTxt .BACKSLASH tokTxt p).length + 2 := by simp only [S.toks, List.length_append, List.length_cons, List.length_nil]
    have h2 := ih ((nsName nm o p).map (·.1)).reverse (o + (S.nsLine p).toks.length) (by simp only [S.toks, List.length_append] at hn ⊢; omega)
      (fun i hi => h1 i (List.mem_reverse.1 hi)) fun m hm => hN m (List.mem_append_right _ hm)
    simp only [fileMarks, fileSpans]
    refine Placed.app (a := (S.nsLine p).toks) (R := []) (spaces_placed h1 fun i hi => ?_) h2
    have := nsName_bounds nm p o i hi
    omega
  · intro p b l hp hb _ ih w o hn hw hN
    simp only [fileMarks] at hN
    have h1 : ∀ i ∈ (nsName nm o p).map (·.1), N i := fun i hi => by
      obtain ⟨m, hm, h2, rfl⟩ := hsp _ i hi
      exact hN m (List.mem_append_left _ hm) h2
    have hnb : b.toks.length ≤ n := by simp only [S.toks, List.length_append, List.length_cons] at hn; omega
    have hf := fine_outline (N := n) (fun w => by simp) hb hnb
    have h3 := (seen_placed _ hf.shut ((nsName nm o p).map (·.1)).reverse (o + 2 + (sepTxt .BACKSLASH tokTxt p).length)).imp
      (Q' := fun ns => ∀ i ∈ ns, N i) (by rintro _ rfl i hi; exact h1 i (List.mem_reverse.1 hi))
    rw [outline_toks] at h3
    have e0 : o + 2 + (sepTxt .BACKSLASH tokTxt p).length = o + (.NAMESPACE :: (sepTxt .BACKSLASH tokTxt p ++ [.LBRACE])).length := by
      simp only [List.length_append, List.length_cons, List.length_nil]; omega
    have h5 := Placed.app (o := o) (Q := fun ns => ∀ i ∈ ns, N i) (a := .NAMESPACE :: (sepTxt .BACKSLASH tokTxt p ++ [.LBRACE])) (R := []) (spaces_placed h1 fun i hi => by
      have := nsName_bounds nm p o i hi
      simp only [List.length_append, List.length_cons, List.length_nil]; omega) (by rw [← e0]; exact h3)
    have h6 := Placed.app (b := [.RBRACE]) h5 .none
    have h2 := ih [] (o + (S.nsBlock p b).toks.length) (by simp only [S.toks, List.length_append] at hn ⊢; omega) (by simp)
      fun m hm => hN m (List.mem_append_right _ (List.mem_append_right _ hm))
    have e : (S.nsBlock p b).toks = (.NAMESPACE :: (sepTxt .BACKSLASH tokTxt p ++ [.LBRACE])) ++ b.toks ++ [.RBRACE] := by simp [S.toks]
    have h7 := Placed.app h6 (by rw [← e]; exact h2)
    rw [← e] at h7
    simp only [fileMarks, fileSpans]
    show Placed _ o ((S.nsBlock p b).toks ++ l.toks) _ _
    simpa using h7
  · intro a l ha1 ha2 ha _ ih w o hn hw hN
    rw [fileMarks_other ha1 ha2] at hN ⊢
    rw [fileSpans_other ha1 ha2]
    have hna : a.toks.length ≤ n := by simp only [S.toks, List.length_append] at hn; omega
    have hf := fine_outline (N := n) (fun w => by simp) ha hna
    have h3 := (seen_placed _ hf.shut w o).imp (Q' := fun ns => ∀ i ∈ ns, N i) (by rintro _ rfl i hi; exact hw i hi)
    rw [outline_toks] at h3
    exact h3.app (ih w _ (by simp only [S.toks, List.length_append] at hn ⊢; omega) hw fun m hm => hN m (List.mem_append_right _ hm))

/-! ### The ranges -/

instance (r : Range) (p : Cursor) : Decidable (r.Contains p) := by unfold Range.Contains Cursor.before; infer_instance

/-- `editorFindRange(node, node)` of a statement (contextbuilder.cpp:246, 259, 267; 204-207). -/
def scopeRange (lines : List Nat) (stream : List PTok) (t : Span) : Range :=
  match stream[t.first]?, stream[t.last]? with
  | some a, some b => findRange lines a b
  | _, _ => ⟨⟨0, 0⟩, ⟨0, 0⟩⟩

/-- The contexts of classes: the name, where the name is, and the range of the context. -/
def scopes (v : CharClass) (c : QString) (stream : List PTok) (lines : List Nat) : Option (List (QString × Range × Range)) :=
  (spansOf (kindsOf stream)).map fun R => R.map fun t => (lowerStr v (nameIn c stream t.name), nodeRange lines stream t.name, scopeRange lines stream t)

def isType (x : (What × QString × List QString) × Range) : Bool := match x.1.1 with
  | .type _ => true
  | _ => false

/-- Two contexts: no cursor is in both, or all cursors in the second are in the first. -/
def Nested (c : QString) (r r' : Range) : Prop :=
  (∀ p i, cursorOffset c p.line p.col = some i → ¬ (r.Contains p ∧ r'.Contains p)) ∨ ∀ p i, cursorOffset c p.line p.col = some i → r'.Contains p → r.Contains p

section
variable {v : CharClass} (hv : v.Lawful) {c : QString} {php : Bool} {stream : List PTok} {lines : List Nat} (h : Tokenised v c php stream lines)
include hv h

theorem kind_entry {i : Nat} {t : Tok} (hi : (kindsOf stream)[i]? = some t) : ∃ ent, stream[i]? = some ent ∧ ent.kind = some t := by
  obtain ⟨n, ht, _⟩ := id h
  have hlt := (List.getElem?_eq_some_iff.1 hi).1
  have hb := stream_kinds hv ht i (by simpa using hlt)
  rw [hi] at hb
  exact Option.bind_eq_some_iff.1 hb

/-- tokens are in order -/
theorem entries_order {i j : Nat} {a b : PTok} {t t' : Tok} (hi : stream[i]? = some a) (ha : a.kind = some t) (hj : stream[j]? = some b) (hb : b.kind = some t') (h1 : a.first ≤ a.last)
    (h2 : b.first ≤ b.last) : (i ≤ j ↔ a.first ≤ b.first) ∧ (i ≤ j ↔ a.first ≤ b.last) ∧ (i = j ↔ a.first = b.first) := by
  rcases Nat.lt_trichotomy i j with hlt | rfl | hlt
  · have := tokens_ordered hv h hlt hi ha hj hb
    omega
  · rw [hi] at hj; cases hj; omega
  · have := tokens_ordered hv h hlt hj hb hi ha
    omega
end

/-- **C104 (partial).** Whatever the source is: if it is read to its end without syntax error and no cast, `yield from` or unterminated literal contains a line break, then the classes, interfaces and
traits declared by the first walk have ranges such that (1) they are those of the declarations, in their order; (2) each goes from a modifier or the word in front of the name to a brace; (3) of two
ranges either no cursor is in both or the second is inside of the first; (4) what a declaration is said to be inside of are exactly the classes in whose range its name is shown, innermost first, and
then namespaces.  Missing: the other sources, for which it is false. -/
theorem class_scopes_partial (v : CharClass) (hv : v.Lawful) {c : QString} {php : Bool} {stream : List PTok} {lines : List Nat} (h : Tokenised v c php stream lines) (hp : PlainBreaks v c php)
    (hf : (parseFile (kindsOf stream)).isSome = true) :
    ∃ l R, shown v c stream lines = some l ∧ scopes v c stream lines = some R ∧ R.map (fun r => (r.1, r.2.1)) = (l.filter isType).map (fun x => (x.1.2.1, x.2)) ∧
      (∀ r ∈ R, ∃ a ∈ stream, ∃ b ∈ stream, r.2.2 = findRange lines a b ∧ b.kind = some .RBRACE ∧ ∃ t, a.kind = some t ∧ t ∈ [Tok.ABSTRACT, .FINAL, .CLASS, .INTERFACE, .TRAIT]) ∧
      (R.Pairwise fun r r' => Nested c r.2.2 r'.2.2) ∧
      ∀ x ∈ l, ∃ ns, x.1.2.2 = ((R.filter fun r => decide (r.2.2.Contains x.2.start) && decide (r.2.1 ≠ x.2)).reverse.map (·.1)) ++ ns ∧
        ∀ n ∈ ns, ∃ y ∈ l, y.1.1 = .namespace ∧ y.1.2.1 = n := by
  obtain ⟨f, s1, K, h1, h2, h3, h4, h5, S0, hs, hF, hts, hK⟩ := first_shown v (nameIn c stream) hf
  have hl : shown v c stream lines = some (K.map fun m => (named v (nameIn c stream) m, nodeRange lines stream m.2.1)) := by
    have : (declarationsOf s1).zip ((fileNodes f).map (nodeRange lines stream)) = K.map fun m => (named v (nameIn c stream) m, nodeRange lines stream m.2.1) := by
      rw [h3, h4, List.map_map]
      clear h3 h4 h5 hK
      induction K with
      | nil => rfl
      | cons m K ih => simp only [List.map_cons, List.zip_cons_cons, ih]; rfl
    simp [shown, h1, h2, this]
  have hP := file_placed (n := (kindsOf stream).length) (nameIn c stream) (fun i => ∃ m ∈ K, m.1 = .namespace ∧ m.2.1 = i) S0 hF [] 0 (by rw [← hts]; exact Nat.le_refl _) (by simp)
    (fun m hm hn => ⟨m, by rw [hK]; exact hm, hn, rfl⟩)
  rw [← hK, ← hts] at hP
  generalize hR : fileSpans (kindsOf stream).length 0 S0 = R0 at hP
  have hsc : scopes v c stream lines = some (R0.map fun t => (lowerStr v (nameIn c stream t.name), nodeRange lines stream t.name, scopeRange lines stream t)) := by
    simp [scopes, spansOf, hs, hR]
  -- the tokens
  have plain : ∀ {t : Tok}, t = .RBRACE ∨ t ∈ [Tok.ABSTRACT, .FINAL, .CLASS, .INTERFACE, .TRAIT] → t ≠ .INLINE_HTML ∧ t ≠ .ENCAPSED_AND_WHITESPACE := by
    intro t ht
    constructor <;> rintro rfl <;> simp at ht
  have hspan : ∀ t ∈ R0, ∃ a b x, stream[t.first]? = some a ∧ stream[t.last]? = some b ∧ a.kind = some x ∧ x ∈ [Tok.ABSTRACT, .FINAL, .CLASS, .INTERFACE, .TRAIT] ∧ b.kind = some .RBRACE ∧
      a.first ≤ a.last ∧ b.first ≤ b.last := by
    intro t ht
    have hb := hP.spans t ht
    obtain ⟨e1, e2⟩ := hP.edges t ht
    obtain ⟨x, hx, hx2⟩ := e1 t.first (Nat.le_refl _) (by omega)
    obtain ⟨a, ha, hak⟩ := kind_entry hv h hx
    obtain ⟨b, hb, hbk⟩ := kind_entry hv h e2
    exact ⟨a, b, x, ha, hb, hak, hx2, hbk, entry_nonempty hv h ha hak (plain (.inr hx2)).2, entry_nonempty hv h hb hbk (plain (.inl rfl)).2⟩
  have hcont : ∀ t ∈ R0, ∃ i j, (∀ p o, cursorOffset c p.line p.col = some o → ((scopeRange lines stream t).Contains p ↔ i ≤ o ∧ o ≤ j)) ∧
      (∃ a b, stream[t.first]? = some a ∧ stream[t.last]? = some b ∧ a.first = i ∧ b.last = j) := by
    intro t ht
    obtain ⟨a, b, x, ha, hb, hak, hx, hbk, _, _⟩ := hspan t ht
    refine ⟨a.first, b.last, fun p o ho => ?_, a, b, ha, hb, rfl, rfl⟩
    simp only [scopeRange, ha, hb]
    exact range_contains_partial hv h hp ha hak hb hbk (fun e => absurd e (plain (.inr hx)).1) (fun e => absurd e (plain (.inl rfl)).1) ho
  refine ⟨_, _, hl, hsc, ?_, ?_, ?_, ?_⟩
  · have hn : R0.map (fun t => t.name) = (K.filter fun m => (typeAt m).isSome).map (·.2.1) := by
      rw [hP.names]
      clear hP h3 h4 h5 hK hl
      induction K with
      | nil => rfl
      | cons m K ih =>
        rw [List.filterMap_cons, List.filter_cons]
        rcases hm : m.1 with k | _ | _ | _ <;> simp [typeAt, hm, ih] <;> rfl
    have e : ∀ R : List Span, R.map (fun t => (lowerStr v (nameIn c stream t.name), nodeRange lines stream t.name)) = (R.map (·.name)).map fun i => (lowerStr v (nameIn c stream i), nodeRange lines stream i) :=
      fun R => by rw [List.map_map]; rfl
    rw [List.map_map]
    show R0.map (fun t => (lowerStr v (nameIn c stream t.name), nodeRange lines stream t.name)) = _
    rw [e, hn, List.filter_map, List.map_map, List.map_map]
    have e2 : (fun m : Mark => (typeAt m).isSome) = isType ∘ fun m => (named v (nameIn c stream) m, nodeRange lines stream m.2.1) := by
      funext m
      rcases hm : m.1 with k | _ | _ | _ <;> simp [typeAt, isType, named, hm]
    rw [← e2]; rfl
  · intro r hr
    obtain ⟨t, ht, rfl⟩ := List.mem_map.1 hr
    obtain ⟨a, b, x, ha, hb, hak, hx, hbk, _, _⟩ := hspan t ht
    exact ⟨a, List.mem_of_getElem? ha, b, List.mem_of_getElem? hb, by simp only [scopeRange, ha, hb], hbk, x, hak, hx⟩
  · rw [List.pairwise_map]
    refine List.Pairwise.imp_of_mem (fun {t t'} ht ht' hab => ?_) hP.apart
    obtain ⟨a, b, x, ha, hb, hak, hx, hbk, na, nb⟩ := hspan t ht
    obtain ⟨a', b', x', ha', hb', hak', hx', hbk', na', nb'⟩ := hspan t' ht'
    obtain ⟨_, _, c1, a1, b1, g1, g2, rfl, rfl⟩ := hcont t ht
    obtain ⟨_, _, c2, a2, b2, g3, g4, rfl, rfl⟩ := hcont t' ht'
    rw [ha] at g1; cases g1; rw [hb] at g2; cases g2; rw [ha'] at g3; cases g3; rw [hb'] at g4; cases g4
    rcases hab with hab | ⟨hab1, hab2⟩
    · refine .inl fun p o ho ⟨p1, p2⟩ => ?_
      have q1 := (c1 p o ho).1 p1
      have q2 := (c2 p o ho).1 p2
      have := tokens_ordered hv h hab hb hbk ha' hak'
      omega
    · refine .inr fun p o ho p2 => (c1 p o ho).2 ?_
      have q2 := (c2 p o ho).1 p2
      have e1 := (entries_order hv h ha hak ha' hak' na na').1.1 (by omega)
      have e2 : b'.last ≤ b.last := by
        rcases Nat.lt_or_ge t'.last t.last with hlt | hge
        · have := tokens_ordered hv h hlt hb' hbk' hb hbk; omega
        · have : t'.last = t.last := by omega
          rw [this, hb] at hb'; cases hb'; omega
      omega
  · intro x hx
    obtain ⟨m, hm, rfl⟩ := List.mem_map.1 hx
    obtain ⟨ns, e1, e2⟩ := hP.paths m hm
    refine ⟨ns.map fun i => lowerStr v (nameIn c stream i), ?_, ?_⟩
    · show m.2.2.map _ = _
      rw [e1, List.map_append]
      refine congrArg (· ++ _) ?_
      rw [around, List.filter_map, ← List.map_reverse, List.map_map, List.map_map]
      refine congrArg (fun q => (List.reverse q).map _) (List.filter_congr fun t ht => ?_)
      obtain ⟨ent, k, he, hk, ho, hne⟩ := place_token hv h hp (h5.subset hm)
      obtain ⟨a, b, x, ha, hb, hak, hx, hbk, na, nb⟩ := hspan t ht
      obtain ⟨_, _, c1, a1, b1, g1, g2, rfl, rfl⟩ := hcont t ht
      rw [ha] at g1; cases g1; rw [hb] at g2; cases g2
      have hoff : cursorOffset c (frontEdge lines ent).line (frontEdge lines ent).col = some ent.first := ((edges_partial hv h hp he hk (fun e => absurd e ho) (frontEdge lines ent)).1).1 rfl
      have hcc := c1 (frontEdge lines ent) ent.first hoff
      have o1 := entries_order hv h ha hak he hk na hne
      have o2 := entries_order hv h he hk hb hbk hne nb
      have hmt : t.name ∈ K.filterMap typeAt := by rw [← hP.names]; exact List.mem_map_of_mem ht
      obtain ⟨m', hm', hmn⟩ := List.mem_filterMap.1 hmt
      have hmn : m'.2.1 = t.name := by
        unfold typeAt at hmn
        split at hmn
        · exact Option.some.inj hmn
        · cases hmn
      obtain ⟨ent', k', he', hk', ho', hne'⟩ := place_token hv h hp (h5.subset hm')
      rw [hmn] at he'
      have o3 := entries_order hv h he hk he' hk' hne hne'
      have hoff' : cursorOffset c (frontEdge lines ent').line (frontEdge lines ent').col = some ent'.first := ((edges_partial hv h hp he' hk' (fun e => absurd e ho') (frontEdge lines ent')).1).1 rfl
      have hstart : (nodeRange lines stream m.2.1).start = frontEdge lines ent := by simp only [nodeRange, he]; rfl
      have hne2 : nodeRange lines stream t.name = nodeRange lines stream m.2.1 ↔ m.2.1 = t.name := by
        refine ⟨fun e => o3.2.2.2 ?_, fun e => by rw [e]⟩
        have e : frontEdge lines ent' = frontEdge lines ent := by
          have := congrArg Range.start e
          simp only [nodeRange, he, he'] at this
          exact this
        rw [e, hoff] at hoff'
        exact Option.some.inj hoff'
      rw [Bool.eq_iff_iff]
      simp only [covers, Function.comp, hstart, Bool.and_eq_true, decide_eq_true_eq, bne_iff_ne, ne_eq, hne2]
      rw [hcc]
      omega
    · intro n hn
      obtain ⟨i, hi, rfl⟩ := List.mem_map.1 hn
      obtain ⟨m', hm', q1, rfl⟩ := e2 i hi
      exact ⟨_, List.mem_map_of_mem hm', q1, rfl⟩

/-! ### Examples -/
namespace ScopeDemo
open ShownDemo

/-- The hypotheses of `class_scopes_partial` hold for `class B{⏎function c(){}}`. -/
example := class_scopes_partial asciiClass asciiClass_lawful text_tokenised text_plain (by decide +kernel)

instance : DecidableEq (QString × Range × Range) := fun _ _ => instDecidableEqProd _ _
/-- its class reaches from line 0, column 0 to line 1, column 15 -/
example : scopes asciiClass ShownDemo.text ShownDemo.stream [8, 24] = some [(q! "b", ⟨⟨0, 6⟩, ⟨0, 7⟩⟩, ⟨⟨0, 0⟩, ⟨1, 15⟩⟩)] := by decide +kernel

/-- `abstract class A { function f() { final class B { } } } interface I { }`: the scope of a class begins with its modifier. -/
theorem modifier_scope : spansOf [.ABSTRACT, .CLASS, .STRING, .LBRACE, .FUNCTION, .STRING, .LPAREN, .RPAREN, .LBRACE, .FINAL, .CLASS, .STRING, .LBRACE, .RBRACE, .RBRACE, .RBRACE, .INTERFACE, .STRING,
    .LBRACE, .RBRACE] = some [⟨2, 0, 15⟩, ⟨11, 9, 13⟩, ⟨17, 16, 19⟩] := by decide +kernel

/-- `(⏎int)$a;class A{}` -/
def castText : QString := [40, 10] ++ q! "int)$a;class A{}"

/-- **C104 (finding).** Behind a cast with a line break inside, the scope of a class is in columns that its line does not have; the text of the class, in line 1 from column 7 to 16, is outside of it. -/
theorem cast_moves_scope : ∃ stream, Tokenised asciiClass castText true stream [18] ∧
    scopes asciiClass castText stream [18] = some [(q! "a", ⟨⟨0, 15⟩, ⟨0, 16⟩⟩, ⟨⟨0, 9⟩, ⟨0, 18⟩⟩)] ∧
    textIn castText ⟨⟨0, 9⟩, ⟨0, 18⟩⟩ = none ∧ textIn castText ⟨⟨1, 7⟩, ⟨1, 16⟩⟩ = some (q! "class A{}") ∧ ¬ Range.Contains ⟨⟨0, 9⟩, ⟨0, 18⟩⟩ ⟨1, 13⟩ :=
  ⟨[⟨some .INT_CAST, 0, 5, 0, 0⟩, ⟨some .VARIABLE, 6, 7, 0, 0⟩, ⟨some .SEMICOLON, 8, 8, 0, 0⟩, ⟨some .CLASS, 9, 13, 0, 0⟩, ⟨some .STRING, 15, 15, 0, 0⟩,
    ⟨some .LBRACE, 16, 16, 0, 0⟩, ⟨some .RBRACE, 17, 17, 0, 0⟩, ⟨none, 0, 0, 0, 0⟩],
    ⟨9, by decide +kernel, by decide +kernel⟩, by decide +kernel, by decide +kernel, by decide +kernel, by decide⟩

end ScopeDemo
end KPhp.Outline
