import Verif.Parser.PlacesProps
import Verif.Parser.PositionProps
import Verif.Parser.PositionExamples
/-!
# Where the editor shows a declaration (C103)

Every declaration gets the range of the node of its name: `editorFindRange(node->className, node->className)` and the same for interfaces, traits, functions, methods and the parts of a
namespace (predeclarationbuilder.cpp:41, 82, 112, 140, 165, declarationbuilder.cpp:324).
-/
namespace KPhp.Outline
set_option linter.unusedVariables false
open KPhp (Tok)
open KPhp.Grammar (headIn words)
open KPhp.Stmt
open KPhp.Scopes (TypeKind Code Outer visitFile start)

/-- The range of a node that is the `i`-th token. -/
def nodeRange (lines : List Nat) (stream : List PTok) (i : Nat) : Range :=
  match stream[i]? with
  | some t => tokenRange lines t
  | none => ⟨⟨0, 0⟩, ⟨0, 0⟩⟩

/-- The declarations of the first walk over a file with their ranges. -/
def shown (v : CharClass) (c : QString) (stream : List PTok) (lines : List Nat) : Option (List ((What × QString × List QString) × Range)) :=
  (codeOf false (nameIn c stream) (kindsOf stream)).bind fun f => (visitFile v ⟨true, false⟩ f start).map fun s =>
    (declarationsOf s).zip ((fileNodes f).map (nodeRange lines stream))

/-! ### The places of a text are different words in its order -/

/-- what is declared at one token -/
def now (s : At) (o : Nat) (t : Tok) (r : List Tok) : List Mark :=
  ((declares s o t r).map fun x => (x.1, x.2, s.here.path)).toList ++ (if opensNs s t then spaces [] (nsNames (o + 1) r) else [])
theorem run_now {s : At} {o : Nat} {t : Tok} {r : List Tok} : run s o (t :: r) = now s o t r ++ run (step s o t r) (o + 1) r := by simp only [run, now, List.append_assoc]

theorem nsNames_at : ∀ (r : List Tok) (o : Nat), ∀ i ∈ nsNames o r, o ≤ i ∧ r[i - o]? = some .STRING
  | [], o, i, h => by simp [nsNames] at h
  | t :: r, o, i, h => by
    have ih := nsNames_at r (o + 1) i
    have up : i ∈ nsNames (o + 1) r → o ≤ i ∧ (t :: r)[i - o]? = some .STRING := fun h => by
      obtain ⟨h1, h2⟩ := ih h
      obtain ⟨k, rfl⟩ : ∃ k, i = o + 1 + k := ⟨i - (o + 1), by omega⟩
      refine ⟨by omega, ?_⟩
      rw [show o + 1 + k - o = k + 1 by omega, List.getElem?_cons_succ, ← h2]
      congr 1; omega
    unfold nsNames at h
    split at h
    · rename_i e; cases e
      rcases List.mem_cons.1 h with rfl | h
      · exact ⟨Nat.le_refl _, by simp⟩
      · exact up h
    · rename_i e; cases e; exact up h
    · simp at h

theorem fnName_cases {o : Nat} {r : List Tok} {i : Nat} (h : fnName o r = some i) :
    (∃ n q, r = .BIT_AND :: n :: .LPAREN :: q ∧ n ∈ words ∧ i = o + 1) ∨ (∃ n q, r = n :: .LPAREN :: q ∧ n ∈ words ∧ i = o) := by
  unfold fnName at h
  split at h
  · rename_i n q; split at h
    · rename_i hn; cases h; exact .inl ⟨n, q, rfl, hn, rfl⟩
    · cases h
  · rename_i n q _; split at h
    · rename_i hn; cases h; exact .inr ⟨n, q, rfl, hn, rfl⟩
    · cases h
  · cases h

/-- one of three: a function, a type, the parts of a namespace -/
theorem now_cases (s : At) (o : Nat) (t : Tok) (r : List Tok) :
    now s o t r = [] ∨ (∃ k i, fnName (o + 1) r = some i ∧ now s o t r = [(k, i, s.here.path)]) ∨ (∃ k q, r = .STRING :: q ∧ now s o t r = [(.type k, o + 1, s.here.path)]) ∨
      now s o t r = spaces [] (nsNames (o + 1) r) := by
  by_cases hn : t = .NAMESPACE
  · subst hn
    have hd : declares s o .NAMESPACE r = none := by unfold declares; split <;> rfl
    unfold now
    rw [hd]
    split
    · exact .inr (.inr (.inr rfl))
    · exact .inl rfl
  · have ho : opensNs s t = false := by simp [opensNs, hn]
    unfold now
    rw [ho]
    unfold declares
    split
    · exact .inl rfl
    split
    · cases h : fnName (o + 1) r with
      | none => exact .inl rfl
      | some i => exact .inr (.inl ⟨_, i, rfl, rfl⟩)
    · cases hk : kindOf t with
      | none => exact .inl rfl
      | some k =>
        by_cases hs : headIn [.STRING] r = true
        · refine .inr (.inr (.inl ⟨k, r.tail, ?_, by simp [hs]⟩))
          cases r with
          | nil => cases hs
          | cons a q =>
            have : a = .STRING := by simpa [headIn] using hs
            rw [this]; rfl
        · exact .inl (by simp [hs])

theorem now_at {s : At} {o : Nat} {t : Tok} {r : List Tok} : ∀ m ∈ now s o t r, o < m.2.1 ∧ ∃ x ∈ words, (t :: r)[m.2.1 - o]? = some x := by
  intro m hm
  rcases now_cases s o t r with h | ⟨k, i, hf, h⟩ | ⟨k, q, rfl, h⟩ | h
  · rw [h] at hm; cases hm
  · rw [h] at hm
    cases List.mem_singleton.1 hm
    rcases fnName_cases hf with ⟨n, q, rfl, hn, rfl⟩ | ⟨n, q, rfl, hn, rfl⟩
    · exact ⟨by show o < o + 1 + 1; omega, n, hn, by show (t :: Tok.BIT_AND :: n :: Tok.LPAREN :: q)[o + 1 + 1 - o]? = _; rw [show o + 1 + 1 - o = 2 by omega]; rfl⟩
    · exact ⟨by show o < o + 1; omega, n, hn, by show (t :: n :: Tok.LPAREN :: q)[o + 1 - o]? = _; rw [show o + 1 - o = 1 by omega]; rfl⟩
  · rw [h] at hm
    cases List.mem_singleton.1 hm
    exact ⟨by show o < o + 1; omega, .STRING, by decide, by show (t :: Tok.STRING :: q)[o + 1 - o]? = _; rw [show o + 1 - o = 1 by omega]; rfl⟩
  · rw [h] at hm
    have : m.2.1 ∈ nsNames (o + 1) r := by rw [← spaces_nodes (nsNames (o + 1) r) []]; exact List.mem_map_of_mem (f := fun m : Mark => m.2.1) hm
    obtain ⟨h1, h2⟩ := nsNames_at r (o + 1) _ this
    refine ⟨by omega, .STRING, by decide, ?_⟩
    rw [show m.2.1 - o = (m.2.1 - (o + 1)) + 1 by omega, List.getElem?_cons_succ, h2]

theorem run_at : ∀ (ts : List Tok) (s : At) (o : Nat), ∀ m ∈ run s o ts, o < m.2.1 ∧ ∃ x ∈ words, ts[m.2.1 - o]? = some x
  | [], s, o, m, hm => by cases hm
  | t :: r, s, o, m, hm => by
    rw [run_now] at hm
    rcases List.mem_append.1 hm with hm | hm
    · exact now_at m hm
    · obtain ⟨h1, x, hx, h2⟩ := run_at r _ _ m hm
      refine ⟨by omega, x, hx, ?_⟩
      rw [show m.2.1 - o = (m.2.1 - (o + 1)) + 1 by omega, List.getElem?_cons_succ, h2]

theorem now_paren {s : At} {o : Nat} {t : Tok} {q : List Tok} : now s o t (.LPAREN :: q) = [] := by
  rcases now_cases s o t (.LPAREN :: q) with h | ⟨k, i, hf, h⟩ | ⟨k, q', h', h⟩ | h
  · exact h
  · rw [fnName_paren] at hf; cases hf
  · cases h'
  · exact h

/-- behind the parts of a namespace everything is declared behind them -/
theorem ns_after : ∀ (r : List Tok) (s : At) (o : Nat), ∀ i ∈ nsNames o r, ∀ m ∈ run s o r, i < m.2.1
  | [], s, o, i, h => by simp [nsNames] at h
  | t :: r, s, o, i, h => by
    intro m hm
    unfold nsNames at h
    split at h
    · rename_i e; cases e
      rw [run_plain rfl] at hm
      rcases List.mem_cons.1 h with rfl | h
      · have := (run_at _ _ _ m hm).1; omega
      · exact ns_after r _ _ i h m hm
    · rename_i e; cases e
      rw [run_plain rfl] at hm
      exact ns_after r _ _ i h m hm
    · simp at h

theorem now_after {s s' : At} {o : Nat} {t : Tok} {r : List Tok} : ∀ m ∈ now s o t r, ∀ m' ∈ run s' (o + 1) r, m.2.1 < m'.2.1 := by
  intro m hm m' hm'
  rcases now_cases s o t r with h | ⟨k, i, hf, h⟩ | ⟨k, q, rfl, h⟩ | h
  · rw [h] at hm; cases hm
  · rw [h] at hm
    cases List.mem_singleton.1 hm
    rcases fnName_cases hf with ⟨n, q, rfl, hn, rfl⟩ | ⟨n, q, rfl, hn, rfl⟩
    · rw [run_plain rfl, run_now, now_paren] at hm'
      have := (run_at _ _ _ m' hm').1
      show o + 1 + 1 < _; omega
    · rw [run_now, now_paren] at hm'
      have := (run_at _ _ _ m' hm').1
      show o + 1 < _; omega
  · rw [h] at hm
    cases List.mem_singleton.1 hm
    rw [run_plain rfl] at hm'
    have := (run_at _ _ _ m' hm').1
    show o + 1 < _; omega
  · rw [h] at hm
    have : m.2.1 ∈ nsNames (o + 1) r := by rw [← spaces_nodes (nsNames (o + 1) r) []]; exact List.mem_map_of_mem (f := fun m : Mark => m.2.1) hm
    exact ns_after r _ _ _ this m' hm'

theorem nsNames_sorted : ∀ (r : List Tok) (o : Nat), (nsNames o r).Pairwise (· < ·)
  | [], o => by simp [nsNames]
  | t :: r, o => by
    unfold nsNames
    split
    · rename_i e; cases e
      refine List.Pairwise.cons (fun i hi => ?_) (nsNames_sorted _ _)
      have := (nsNames_at _ _ i hi).1; omega
    · rename_i e; cases e; exact nsNames_sorted _ _
    · exact .nil

/-- Names are declared in the order of the text, no two at the same token. -/
theorem run_sorted : ∀ (ts : List Tok) (s : At) (o : Nat), ((run s o ts).map (·.2.1)).Pairwise (· < ·)
  | [], s, o => .nil
  | t :: r, s, o => by
    rw [run_now, List.map_append, List.pairwise_append]
    refine ⟨?_, run_sorted r _ _, fun i hi j hj => ?_⟩
    · rcases now_cases s o t r with h | ⟨k, i, hf, h⟩ | ⟨k, q, rfl, h⟩ | h
      · rw [h]; exact .nil
      · rw [h]; simp
      · rw [h]; simp
      · rw [h, spaces_nodes]; exact nsNames_sorted _ _
    · obtain ⟨m, hm, rfl⟩ := List.mem_map.1 hi
      obtain ⟨m', hm', rfl⟩ := List.mem_map.1 hj
      exact now_after m hm m' hm'

/-! ### The ranges -/

theorem first_shown (v : CharClass) (nm : Nat → QString) {ts : List Tok} (h : (parseFile ts).isSome = true) :
    ∃ f s1, ∃ K : List Mark, codeOf false nm ts = some f ∧ visitFile v ⟨true, false⟩ f start = some s1 ∧ declarationsOf s1 = K.map (named v nm) ∧ fileNodes f = K.map (·.2.1) ∧
      K.Sublist (places ts) ∧ ∃ s, parseFile ts = some s ∧ s.Fits .file ∧ ts = s.toks ∧ K = fileMarks ts.length nm [] 0 s := by
  obtain ⟨s, hs⟩ := Option.isSome_iff_exists.1 h
  obtain ⟨hf, rfl⟩ := parsed_fits hs
  have hn := nodes_distinct (again := false) (nm := nm) (f := fileCode s.toks.length false nm 0 s) (by rw [codeOf, hs]; rfl)
  obtain ⟨s1, s2, h1, _, _, _, _, _, h4, _, _⟩ := Scopes.build_good v false _ hn.1 hn.2
  obtain ⟨K, L, k1, k5, k6, k2, k3, _⟩ := file_places v nm s hf [] [] 0 rfl (Nat.le_refl _)
  obtain ⟨t, ht, h5⟩ := Option.bind_eq_some_iff.1 h1
  obtain ⟨t2, _, h6⟩ := Option.map_eq_some_iff.1 h5
  cases h6
  have eL : places s.toks = L := k3
  exact ⟨_, s1, K, by rw [codeOf, hs]; rfl, ht, (agrees_decl h4).trans k1, k5, by rw [eL]; exact k2, s, hs, hf, rfl, k6⟩

/-- tokens are not empty, except for parts of interpolated strings -/
theorem entry_nonempty {v : CharClass} (hv : v.Lawful) {c : QString} {php : Bool} {stream : List PTok} {lines : List Nat} (h : Tokenised v c php stream lines) {i : Nat} {ent : PTok} {t : Tok}
    (hi : stream[i]? = some ent) (ht : ent.kind = some t) (hne : t ≠ .ENCAPSED_AND_WHITESPACE) : ent.first ≤ ent.last := by
  obtain ⟨toks, z, hl, _, _, _, hk, hd⟩ := tokenised_facts hv h
  obtain ⟨x, hx, hxt, h1, h2⟩ := entry_token hk hd hi ht
  have hm := List.mem_of_getElem? hx
  unfold significantToks at hm
  rw [List.mem_filter] at hm
  obtain ⟨m, s, s', r1, _⟩ := hl
  obtain ⟨_, _, hret⟩ := run_returned r1 x hm.1
  obtain ⟨_, _, hb, _, nls, _, hg, _⟩ := hret.good hv
  have := hg.progress.resolve_right fun h => hne (hxt ▸ h.1)
  simp only at this
  omega

theorem place_token {v : CharClass} (hv : v.Lawful) {c : QString} {php : Bool} {stream : List PTok} {lines : List Nat} (h : Tokenised v c php stream lines) (hp : PlainBreaks v c php)
    {m : Mark} (hm : m ∈ places (kindsOf stream)) : ∃ ent t, stream[m.2.1]? = some ent ∧ ent.kind = some t ∧ t ≠ .INLINE_HTML ∧ ent.first ≤ ent.last := by
  obtain ⟨_, x, hx, h2⟩ := run_at _ _ _ m hm
  obtain ⟨n, ht, _⟩ := id h
  have hlt : m.2.1 < (kindsOf stream).length := by
    have := (List.getElem?_eq_some_iff.1 h2).1
    simpa using this
  have hb := stream_kinds hv ht m.2.1 hlt
  rw [show m.2.1 - 0 = m.2.1 from rfl] at h2
  rw [h2] at hb
  obtain ⟨ent, he, hk⟩ := Option.bind_eq_some_iff.1 hb
  exact ⟨ent, x, he, hk, (by rintro rfl; exact absurd hx (by decide)), entry_nonempty hv h he hk (by rintro rfl; exact absurd hx (by decide))⟩

/-- **C103 (partial).** Whatever the source is: if it is read to its end without syntax error and no cast, `yield from` or unterminated literal contains a line break, every declaration of the first
walk has a range in which the editor shows its name; and of two declarations all cursors in the range of the first are in front of all cursors in the range of the second, so that a cursor is in the
range of at most one.  Missing: the other sources, for which it is false. -/
theorem declarations_shown_partial (v : CharClass) (hv : v.Lawful) {c : QString} {php : Bool} {stream : List PTok} {lines : List Nat} (h : Tokenised v c php stream lines) (hp : PlainBreaks v c php)
    (hf : (parseFile (kindsOf stream)).isSome = true) :
    ∃ f s1 l, codeOf false (nameIn c stream) (kindsOf stream) = some f ∧ visitFile v ⟨true, false⟩ f start = some s1 ∧ shown v c stream lines = some l ∧ l.map (·.1) = declarationsOf s1 ∧
      (∀ x ∈ l, ∃ name, textIn c x.2 = some name ∧ x.1.2.1 = lowerStr v name) ∧
      l.Pairwise fun x y => ∀ p q i j, cursorOffset c p.line p.col = some i → cursorOffset c q.line q.col = some j → x.2.Contains p → y.2.Contains q → p.before q := by
  obtain ⟨f, s1, K, h1, h2, h3, h4, h5, h6⟩ := first_shown v (nameIn c stream) hf
  have hl : (declarationsOf s1).zip ((fileNodes f).map (nodeRange lines stream)) = K.map fun m => (named v (nameIn c stream) m, nodeRange lines stream m.2.1) := by
    rw [h3, h4, List.map_map]
    clear h3 h4 h5 h6
    induction K with
    | nil => rfl
    | cons m K ih => simp only [List.map_cons, List.zip_cons_cons, ih]; rfl
  refine ⟨f, s1, (declarationsOf s1).zip ((fileNodes f).map (nodeRange lines stream)), h1, h2, by simp [shown, h1, h2], ?_, ?_, ?_⟩
  · rw [hl, h3, List.map_map]; rfl
  · rw [hl]
    intro x hx
    obtain ⟨m, hm, rfl⟩ := List.mem_map.1 hx
    obtain ⟨ent, t, he, hk, ho, hne⟩ := place_token hv h hp (h5.subset hm)
    refine ⟨symbolText c ent, ?_, ?_⟩
    · simp only [nodeRange, he]
      exact token_text_partial hv h hp he hk hne fun e => absurd e ho
    · simp only [named, nameIn, he]
  · rw [hl, List.pairwise_map]
    have hs : (places (kindsOf stream)).Pairwise fun a b => a.2.1 < b.2.1 := List.pairwise_map.1 (run_sorted (kindsOf stream) _ 0)
    refine List.Pairwise.imp_of_mem (fun {a b} ha hb hlt p q i j hi hj hx hy => ?_) (hs.sublist h5)
    obtain ⟨e1, t1, g1, k1, n1, m1⟩ := place_token hv h hp (h5.subset ha)
    obtain ⟨e2, t2, g2, k2, n2, m2⟩ := place_token hv h hp (h5.subset hb)
    simp only [nodeRange, g1] at hx
    simp only [nodeRange, g2] at hy
    have r1 := (range_contains_partial hv h hp g1 k1 g1 k1 (fun e => absurd e n1) (fun e => absurd e n1) hi).1 hx
    have r2 := (range_contains_partial hv h hp g2 k2 g2 k2 (fun e => absurd e n2) (fun e => absurd e n2) hj).1 hy
    have := tokens_ordered hv h hlt g1 k1 g2 k2
    exact (cursor_order hi hj).2 (by omega)

/-! ### Examples -/
namespace ShownDemo
instance : DecidableEq ((What × QString × List QString) × Range) := fun _ _ => instDecidableEqProd _ _

/-- `class B{⏎function c(){}}` -/
def text : QString := q! "class B{" ++ [10] ++ q! "function c(){}}"

def stream : List PTok :=
  [⟨some .CLASS, 0, 4, 0, 0⟩, ⟨some .STRING, 6, 6, 0, 0⟩, ⟨some .LBRACE, 7, 7, 0, 0⟩, ⟨some .FUNCTION, 9, 16, 0, 0⟩, ⟨some .STRING, 18, 18, 0, 0⟩, ⟨some .LPAREN, 19, 19, 0, 0⟩,
    ⟨some .RPAREN, 20, 20, 0, 0⟩, ⟨some .LBRACE, 21, 21, 0, 0⟩, ⟨some .RBRACE, 22, 22, 0, 0⟩, ⟨some .RBRACE, 23, 23, 0, 0⟩, ⟨none, 0, 0, 0, 0⟩]

theorem text_tokenised : Tokenised asciiClass text true stream [8, 24] := ⟨14, by decide +kernel, by decide +kernel⟩

theorem text_plain : PlainBreaks asciiClass text true := by
  have h : ∃ s s', runN asciiClass text 13 (LState.init true) =
      some (([(.CLASS, 0, 5), (.WHITESPACE, 5, 6), (.STRING, 6, 7), (.LBRACE, 7, 8), (.WHITESPACE, 8, 9), (.FUNCTION, 9, 17), (.WHITESPACE, 17, 18), (.STRING, 18, 19), (.LPAREN, 19, 20),
        (.RPAREN, 20, 21), (.LBRACE, 21, 22), (.RBRACE, 22, 23), (.RBRACE, 23, 24)] : List (Tok × Nat × Nat)).map Out.ofTok, s) ∧
      KPhp.step asciiClass text s = some (s', .eof) := ⟨_, _, rfl, rfl⟩
  obtain ⟨s, s', h1, h2⟩ := h
  exact PosDemo.plainBreaks_of h1 h2 (by decide)

/-- The class is shown in line 0 from column 6 to 7, its method in line 1 from column 9 to 10. -/
theorem text_shown : shown asciiClass text stream [8, 24] = some
    [((.type .klass, q! "b", []), ⟨⟨0, 6⟩, ⟨0, 7⟩⟩), ((.method, q! "c", [q! "b"]), ⟨⟨1, 9⟩, ⟨1, 10⟩⟩)] := by decide +kernel

/-- The hypotheses of `declarations_shown_partial` hold for it. -/
example := declarations_shown_partial asciiClass asciiClass_lawful text_tokenised text_plain (by decide +kernel)

/-- `(⏎int)$a;function f(){}` -/
def castText : QString := [40, 10] ++ q! "int)$a;function f(){}"

/-- **C103 (finding).** Behind a cast with a line break inside, a function is shown in line 0 at a column this line does not have: the editor has its name in line 1. -/
theorem cast_moves_declaration : ∃ stream, Tokenised asciiClass castText true stream [23] ∧
    shown asciiClass castText stream [23] = some [((.function, q! "f", []), ⟨⟨0, 18⟩, ⟨0, 19⟩⟩)] ∧
    textIn castText ⟨⟨0, 18⟩, ⟨0, 19⟩⟩ = none ∧ textIn castText ⟨⟨1, 16⟩, ⟨1, 17⟩⟩ = some (q! "f") :=
  ⟨[⟨some .INT_CAST, 0, 5, 0, 0⟩, ⟨some .VARIABLE, 6, 7, 0, 0⟩, ⟨some .SEMICOLON, 8, 8, 0, 0⟩, ⟨some .FUNCTION, 9, 16, 0, 0⟩, ⟨some .STRING, 18, 18, 0, 0⟩, ⟨some .LPAREN, 19, 19, 0, 0⟩,
    ⟨some .RPAREN, 20, 20, 0, 0⟩, ⟨some .LBRACE, 21, 21, 0, 0⟩, ⟨some .RBRACE, 22, 22, 0, 0⟩, ⟨none, 0, 0, 0, 0⟩],
    ⟨11, by decide +kernel, by decide +kernel⟩, by decide +kernel, by decide +kernel, by decide +kernel⟩

end ShownDemo
end KPhp.Outline
