import Verif.Lexer.Props1
import Verif.Lexer.Props2
/-!
# Filling the parser's token stream (parser/php.g, `Parser::tokenize`; parser/parsesession.cpp)
-/
namespace KPhp

/-- An entry of the parser's token stream, `Php::Token` (parser/tokenstream.h:15-20, `KDevPG::Token`).
`kind = none` is `Token_EOF`.  `last` is `Token::end`, the offset of the last character (inclusive).
Simplified: the offsets of the end-of-file entry are not modelled (0). -/
structure PTok where
  kind : Option Tok
  first : Nat
  last : Nat
  docBegin : Nat
  docEnd : Nat
  deriving DecidableEq, Repr

/-- How the fill loop ends after a number of lexer calls: finished with this stream, or still running. -/
inductive Fill where
  | done (stream : List PTok)
  | running
  deriving DecidableEq, Repr

/-- The two nested loops of `Parser::tokenize` (parser/php.g:1205-1242) flattened into one: each
unit of fuel is one call of `lexer.nextTokenKind()`.  `doc` is `(lastDocCommentBegin,
lastDocCommentEnd)`, reset after each pushed token; `acc` the stream so far.  Not modelled:
`extractTodosFromComment` (it only adds problems) and the final `yylex()`. -/
def fill (u : CharClass) (c : QString) : Nat → LState → Nat × Nat → List PTok → Option Fill
  | 0, _, _, _ => some .running
  | n + 1, s, doc, acc =>
    match step u c s with
    | none => none
    | some (_, .eof) => some (.done (acc ++ [⟨none, 0, 0, doc.1, doc.2⟩]))
    | some (s', .tok t b e) =>
      if t.isTrivia then fill u c n s' (if t = .DOC_COMMENT then (b, e - 1) else doc) acc
      else fill u c n s' (0, 0) (acc ++ [⟨some t, b, e - 1, doc.1, doc.2⟩])

/-- `Parser::tokenize`, observed after `n` lexer calls. -/
def tokenize (u : CharClass) (c : QString) (php : Bool) (n : Nat) : Option Fill :=
  fill u c n (LState.init php) (0, 0) []

/-- `ParseSession::docComment` (parser/parsesession.cpp:154-159). -/
def docText (c : QString) (t : PTok) : QString :=
  if t.docEnd = 0 then [] else slice c t.docBegin (t.docBegin + (t.docEnd - t.docBegin + 1))

/-- `ParseSession::symbol(qint64)` (parser/parsesession.cpp:141-145). -/
def symbolText (c : QString) (t : PTok) : QString := slice c t.first (t.first + (t.last - t.first + 1))

/-! ## Specification -/

/-- The last doc comment among these lexer tokens. -/
def lastDoc (toks : List (Tok × Nat × Nat)) : Option (Tok × Nat × Nat) :=
  (toks.filter (fun x => x.1 == .DOC_COMMENT)).getLast?

/-- The text of an optional comment token, empty if there is none. -/
def commentText (c : QString) : Option (Tok × Nat × Nat) → QString
  | some d => slice c d.2.1 d.2.2
  | none => []

/-- The lexer tokens that are not white space or comments. -/
def significantToks (toks : List (Tok × Nat × Nat)) : List (Tok × Nat × Nat) :=
  toks.filter (fun x => !x.1.isTrivia)

/-- The lexer tokens of a complete run: the tokens before the first end-of-file report. -/
def LexerTokens (u : CharClass) (c : QString) (php : Bool) (toks : List (Tok × Nat × Nat)) : Prop :=
  ∃ n s s', runN u c n (LState.init php) = some (toks.map Out.ofTok, s) ∧ step u c s = some (s', .eof)

variable {u : CharClass} {c : QString} {php : Bool}

/-- The pair stored for a doc comment. -/
def docPair (d : Option (Tok × Nat × Nat)) : Nat × Nat :=
  match d with
  | some x => (x.2.1, x.2.2 - 1)
  | none => (0, 0)

/-- The part of the tokens after the last non-trivia one. -/
def trailing (toks : List (Tok × Nat × Nat)) : List (Tok × Nat × Nat) :=
  (toks.reverse.takeWhile (fun x => x.1.isTrivia)).reverse

theorem trailing_snoc_trivia {toks : List (Tok × Nat × Nat)} {x : Tok × Nat × Nat}
    (h : x.1.isTrivia = true) : trailing (toks ++ [x]) = trailing toks ++ [x] := by
  unfold trailing; simp [h]

theorem trailing_snoc {toks : List (Tok × Nat × Nat)} {x : Tok × Nat × Nat}
    (h : x.1.isTrivia = false) : trailing (toks ++ [x]) = [] := by
  unfold trailing; simp [h]

theorem trailing_eq {pre triv : List (Tok × Nat × Nat)} (ht : ∀ x ∈ triv, x.1.isTrivia = true)
    (hp : pre = [] ∨ ∃ p x, pre = p ++ [x] ∧ x.1.isTrivia = false) : trailing (pre ++ triv) = triv := by
  unfold trailing
  rw [List.reverse_append, List.takeWhile_append_of_pos (by simpa using ht)]
  have : pre.reverse.takeWhile (fun x => x.1.isTrivia) = [] := by
    rcases hp with rfl | ⟨p, x, rfl, h⟩
    · rfl
    · simp [h]
  rw [this]; simp

theorem lastDoc_snoc (l : List (Tok × Nat × Nat)) (x : Tok × Nat × Nat) :
    docPair (lastDoc (l ++ [x])) = if x.1 = .DOC_COMMENT then (x.2.1, x.2.2 - 1) else docPair (lastDoc l) := by
  unfold lastDoc
  rw [List.filter_append]
  by_cases h : x.1 = .DOC_COMMENT
  · simp [h, docPair]
  · simp [h]

/-- The entries pushed for a list of lexer tokens, in the words of the specification. -/
def entries : List (Tok × Nat × Nat) → List (Tok × Nat × Nat) → List PTok
  | _, [] => []
  | pre, x :: r =>
    if x.1.isTrivia then entries (pre ++ [x]) r
    else ⟨some x.1, x.2.1, x.2.2 - 1, (docPair (lastDoc (trailing pre))).1,
      (docPair (lastDoc (trailing pre))).2⟩ :: entries (pre ++ [x]) r

theorem fill_spec (hu : u.Lawful) : ∀ {n : Nat} {s : LState} {pre : List (Tok × Nat × Nat)}
    {acc stream : List PTok}, LInv u c s →
    fill u c n s (docPair (lastDoc (trailing pre))) acc = some (.done stream) →
    ∃ (post : List (Tok × Nat × Nat)) (m : Nat) (sf sf' : LState),
      runN u c m s = some (post.map Out.ofTok, sf) ∧
      step u c sf = some (sf', .eof) ∧ m < n ∧
      stream = acc ++ entries pre post ++ [⟨none, 0, 0, (docPair (lastDoc (trailing (pre ++ post)))).1,
        (docPair (lastDoc (trailing (pre ++ post)))).2⟩]
  | 0, s, pre, acc, stream, _, h => by simp [fill] at h
  | n + 1, s, pre, acc, stream, hi, h => by
    unfold fill at h
    cases hs : step u c s with
    | none => rw [hs] at h; simp at h
    | some p =>
      obtain ⟨s', o⟩ := p
      rw [hs] at h
      obtain ⟨hi', hr⟩ := step_rel hu hi hs
      cases o with
      | eof =>
        simp at h
        exact ⟨[], 0, s, s', rfl, hs, by omega, by simp [entries, ← h]⟩
      | tok t b e =>
        simp only at h
        cases ht : t.isTrivia with
        | true =>
          rw [ht, if_pos rfl] at h
          have hd : (if t = .DOC_COMMENT then (b, e - 1) else docPair (lastDoc (trailing pre))) =
              docPair (lastDoc (trailing (pre ++ [(t, b, e)]))) := by
            rw [trailing_snoc_trivia ht, lastDoc_snoc]
          rw [hd] at h
          obtain ⟨post, m, sf, sf', h1, h2, h3, h4⟩ := fill_spec hu hi' h
          refine ⟨(t, b, e) :: post, m + 1, sf, sf', runN_cons hs h1, h2, by omega, ?_⟩
          rw [h4]
          have : entries pre ((t, b, e) :: post) = entries (pre ++ [(t, b, e)]) post := by
            rw [entries, if_pos ht]
          rw [this]; simp
        | false =>
          rw [ht, if_neg (by decide)] at h
          have hd : (0, 0) = docPair (lastDoc (trailing (pre ++ [(t, b, e)]))) := by
            rw [trailing_snoc ht]; rfl
          rw [hd] at h
          obtain ⟨post, m, sf, sf', h1, h2, h3, h4⟩ := fill_spec hu hi' h
          refine ⟨(t, b, e) :: post, m + 1, sf, sf', runN_cons hs h1, h2, by omega, ?_⟩
          rw [h4]
          have : entries pre ((t, b, e) :: post) = ⟨some t, b, e - 1,
            (docPair (lastDoc (trailing pre))).1, (docPair (lastDoc (trailing pre))).2⟩ ::
              entries (pre ++ [(t, b, e)]) post := by
            rw [entries, if_neg (by rw [ht]; decide)]
          rw [this]; simp

theorem entries_kinds : ∀ (post pre : List (Tok × Nat × Nat)),
    (entries pre post).map (fun x => (x.kind, x.first, x.last)) =
      (post.filter (fun x => !x.1.isTrivia)).map (fun x => (some x.1, x.2.1, x.2.2 - 1))
  | [], _ => rfl
  | x :: r, pre => by
    rw [entries]
    cases h : x.1.isTrivia with
    | true => rw [if_pos rfl, entries_kinds r]; simp [h]
    | false => rw [if_neg (by decide)]; simp [h, entries_kinds r]

theorem entries_append : ∀ (a b pre : List (Tok × Nat × Nat)),
    entries pre (a ++ b) = entries pre a ++ entries (pre ++ a) b
  | [], b, pre => by simp [entries]
  | x :: r, b, pre => by
    rw [List.cons_append, entries, entries, entries_append r b]
    split <;> simp

theorem entries_length (post pre : List (Tok × Nat × Nat)) :
    (entries pre post).length = (post.filter (fun x => !x.1.isTrivia)).length := by
  have := congrArg List.length (entries_kinds post pre)
  simpa using this

/-- **C19.** When tokenising finishes, the stream consists of the lexer's tokens without white space and
comments, in order and with their offsets, followed by exactly one end-of-file entry. -/
theorem stream_is_significant_tokens (hu : u.Lawful) {n : Nat} {stream : List PTok}
    (h : tokenize u c php n = some (.done stream)) :
    ∃ toks, LexerTokens u c php toks ∧
      stream.map (·.kind) = (significantToks toks).map (fun x => some x.1) ++ [none] ∧
      stream.dropLast.map (fun x => (x.kind, x.first, x.last)) =
        (significantToks toks).map (fun x => (some x.1, x.2.1, x.2.2 - 1)) := by
  obtain ⟨post, m, sf, sf', h1, h2, h3, h4⟩ := fill_spec hu (pre := []) (LInv.init u c php) h
  refine ⟨post, ⟨m, sf, sf', h1, h2⟩, ?_, ?_⟩
  · have := congrArg (List.map (fun (x : Option Tok × Nat × Nat) => x.1)) (entries_kinds post [])
    rw [List.map_map, List.map_map] at this
    rw [h4]
    simp only [List.nil_append, List.map_append, List.map_cons, List.map_nil]
    congr 1
  · rw [h4]
    simp only [List.nil_append, List.dropLast_concat]
    exact entries_kinds post []

/-- **C19 (no trivia).** The stream contains no white space and no comment, and its only end-of-file
entry is the last one. -/
theorem stream_no_trivia (hu : u.Lawful) {n : Nat} {stream : List PTok}
    (h : tokenize u c php n = some (.done stream)) :
    (∀ x ∈ stream, ∀ t, x.kind = some t → t.isTrivia = false) ∧
    (∃ pre x, stream = pre ++ [x] ∧ x.kind = none ∧ ∀ y ∈ pre, y.kind ≠ none) := by
  obtain ⟨post, m, sf, sf', h1, h2, h3, h4⟩ := fill_spec hu (pre := []) (LInv.init u c php) h
  have key : ∀ y ∈ entries [] post, ∃ t, y.kind = some t ∧ t.isTrivia = false := by
    intro y hy
    have : (y.kind, y.first, y.last) ∈
        (entries [] post).map (fun x => (x.kind, x.first, x.last)) := List.mem_map_of_mem hy
    rw [entries_kinds, List.mem_map] at this
    obtain ⟨z, hz, he⟩ := this
    have := (List.mem_filter.1 hz).2
    simp at he this
    exact ⟨z.1, he.1.symm, this⟩
  rw [List.nil_append] at h4
  constructor
  · intro x hx t ht
    rw [h4, List.mem_append] at hx
    rcases hx with hx | hx
    · obtain ⟨t', h', h''⟩ := key x hx
      rw [ht] at h'; cases h'; exact h''
    · simp at hx; rw [hx] at ht; simp at ht
  · refine ⟨_, _, h4, rfl, ?_⟩
    intro y hy
    obtain ⟨t', h', h''⟩ := key y hy
    rw [h']; simp

/-- The range of a doc comment token is never the pair `(0, 0)` that stands for "none". -/
theorem doc_end_pos (hu : u.Lawful) {s s' : LState} {b e : Nat}
    (h : Returned u c php s s' .DOC_COMMENT b e) : 2 < e ∧ b + 2 < e := by
  obtain ⟨_, _, hb, _⟩ := h.good hu
  rcases doc_comment_extent hu h with hd | ⟨hd, _⟩
  · obtain ⟨h0, h1, h2⟩ := hd.open_
    have hne := hd.nonempty
    have l2 := lt_of_chr_eq h2 (by decide)
    rcases hd.stop with ⟨_, hs⟩ | ⟨_, hs, _⟩ | hs
    · have : e ≠ b + 1 := by rintro rfl; simp at hs; omega
      have : e ≠ b + 2 := by rintro rfl; simp at hs; omega
      omega
    · have : e ≠ b + 1 := by rintro rfl; omega
      have : e ≠ b + 2 := by rintro rfl; omega
      omega
    · omega
  · have := hd.long; omega

/-- Each token of a run was returned by the lexer. -/
theorem run_returned {toks : List (Tok × Nat × Nat)} {n : Nat} {s : LState}
    (h : runN u c n (LState.init php) = some (toks.map Out.ofTok, s)) :
    ∀ x ∈ toks, ∃ s s', Returned u c php s s' x.1 x.2.1 x.2.2 := by
  have key : ∀ (toks : List (Tok × Nat × Nat)) n s sf, Reach u c php s →
      runN u c n s = some (toks.map Out.ofTok, sf) →
      ∀ x ∈ toks, ∃ s s', Returned u c php s s' x.1 x.2.1 x.2.2 := by
    intro toks
    induction toks with
    | nil => intro _ _ _ _ _ x hx; simp at hx
    | cons y r ih =>
      intro n s sf hr h x hx
      cases n with
      | zero => simp [runN] at h
      | succ n =>
        obtain ⟨s1, o, os', h1, h2, h3⟩ := runN_succ h
        simp at h3
        obtain ⟨rfl, rfl⟩ := h3
        rcases List.mem_cons.1 hx with rfl | hx
        · exact ⟨s, s1, hr, h1⟩
        · exact ih n s1 sf (hr.step h1) h2 x hx
  exact key toks n _ s ⟨0, [], rfl⟩ h

/-- The text an entry with the doc comment `d` (or none) reports. -/
theorem docText_of {d : Option (Tok × Nat × Nat)} {t : PTok}
    (h : (t.docBegin, t.docEnd) = docPair d) (hd : ∀ x, d = some x → 2 < x.2.2 ∧ x.2.1 + 2 < x.2.2) :
    docText c t = commentText c d := by
  unfold docText commentText
  cases d with
  | none => simp [docPair] at h; simp [h.2]
  | some x =>
    simp [docPair] at h
    have := hd x rfl
    rw [if_neg (by omega)]
    simp only
    rw [h.1, h.2]
    congr 1
    omega

/-- **C20.** Split the lexer's tokens as `pre ++ triv ++ x :: post`, where `x` is a token of the stream,
`triv` only white space and comments, and `pre` is empty or ends in a token of the stream: `triv` is
exactly what lies between `x` and the previous stream token.  Then the stream entry of `x` reports as
its doc comment the text of the last doc comment of `triv`, and nothing if `triv` has none. -/
theorem doc_comment_attached (hu : u.Lawful) {n : Nat} {stream : List PTok}
    (h : tokenize u c php n = some (.done stream)) :
    ∃ toks, LexerTokens u c php toks ∧
      ∀ pre triv x post, toks = pre ++ triv ++ x :: post → x.1.isTrivia = false →
        (∀ y ∈ triv, y.1.isTrivia = true) →
        (pre = [] ∨ ∃ p y, pre = p ++ [y] ∧ y.1.isTrivia = false) →
        ∃ ent, stream[(pre.filter (fun y => !y.1.isTrivia)).length]? = some ent ∧
          ent.kind = some x.1 ∧ ent.first = x.2.1 ∧ ent.last = x.2.2 - 1 ∧
          docText c ent = commentText c (lastDoc triv) := by
  obtain ⟨toks, m, sf, sf', h1, h2, h3, h4⟩ := fill_spec hu (pre := []) (LInv.init u c php) h
  refine ⟨toks, ⟨m, sf, sf', h1, h2⟩, ?_⟩
  intro pre triv x post hsplit hx htriv hpre
  have hent : entries [] toks = entries [] pre ++ ⟨some x.1, x.2.1, x.2.2 - 1,
      (docPair (lastDoc triv)).1, (docPair (lastDoc triv)).2⟩ :: entries (pre ++ triv ++ [x]) post := by
    rw [hsplit, List.append_assoc, entries_append, List.nil_append, entries_append]
    have ht : entries pre triv = [] := by
      have := entries_length triv pre
      rw [List.filter_eq_nil_iff.2 (by intro a ha; simp [htriv a ha])] at this
      exact List.length_eq_zero_iff.1 this
    rw [ht, List.nil_append]
    congr 1
    rw [entries, if_neg (by rw [hx]; decide), trailing_eq htriv hpre]
  refine ⟨⟨some x.1, x.2.1, x.2.2 - 1, (docPair (lastDoc triv)).1, (docPair (lastDoc triv)).2⟩,
    ?_, rfl, rfl, rfl, ?_⟩
  · rw [h4, List.nil_append, hent, List.append_assoc]
    rw [List.getElem?_append_right (by rw [entries_length]; exact Nat.le_refl _), entries_length]
    simp
  · refine docText_of (d := lastDoc triv) (t := ⟨some x.1, x.2.1, x.2.2 - 1,
      (docPair (lastDoc triv)).1, (docPair (lastDoc triv)).2⟩) rfl ?_
    intro d hd
    have hmem : d ∈ triv ∧ d.1 = .DOC_COMMENT := by
      unfold lastDoc at hd
      have := List.mem_of_getLast? hd
      rw [List.mem_filter] at this
      exact ⟨this.1, by simpa using this.2⟩
    obtain ⟨s, s', hret⟩ := run_returned h1 d (by rw [hsplit]; simp [hmem.1])
    rw [hmem.2] at hret
    exact doc_end_pos hu hret

/-- **C19 (text).** The text reported for a stream entry (`symbol`) is the text of its lexer token. -/
theorem symbol_text (hu : u.Lawful) {n : Nat} {stream : List PTok}
    (h : tokenize u c php n = some (.done stream)) :
    ∃ toks, LexerTokens u c php toks ∧ ∀ (i : Nat) (x : Tok × Nat × Nat),
      (significantToks toks)[i]? = some x → x.2.1 < x.2.2 →
      ∃ ent, stream[i]? = some ent ∧ ent.kind = some x.1 ∧ symbolText c ent = slice c x.2.1 x.2.2 := by
  obtain ⟨toks, hl, _, hd⟩ := stream_is_significant_tokens hu h
  refine ⟨toks, hl, fun i x hx hlt => ?_⟩
  have h1 : (stream.dropLast.map (fun x => (x.kind, x.first, x.last)))[i]? =
      some (some x.1, x.2.1, x.2.2 - 1) := by rw [hd, List.getElem?_map, hx]; rfl
  rw [List.getElem?_map, Option.map_eq_some_iff] at h1
  obtain ⟨ent, h2, h3⟩ := h1
  have h4 : stream[i]? = some ent := by
    rw [List.getElem?_dropLast] at h2
    split at h2
    · exact h2
    · simp at h2
  simp at h3
  refine ⟨ent, h4, h3.1, ?_⟩
  unfold symbolText
  rw [h3.2.1, h3.2.2]
  congr 1; omega

/-- Tokenising finishes within `2 * length + 2` lexer calls on the texts covered by C03. -/
theorem tokenize_terminates_partial (hu : u.Lawful) (hy : ¬ YieldHazard u c) (hd : ¬ CurlyDigit u c) :
    ∃ stream, tokenize u c php (2 * c.length + 1) = some (.done stream) := by
  have key : ∀ n s doc acc, LInv u c s → lexMeasure c s < n →
      ∃ stream, fill u c n s doc acc = some (.done stream) := by
    intro n
    induction n with
    | zero => intro s _ _ _ h; omega
    | succ n ih =>
      intro s doc acc hi hm
      rcases step_spec hu hi with ⟨_, h⟩ | ⟨s1, o, h1, h2, h3⟩
      · exact absurd h hy
      · unfold fill
        rw [h1]
        cases o with
        | eof => exact ⟨_, rfl⟩
        | tok t b e =>
          have := measure_step hd h3
          simp only
          split
          · exact ih s1 _ _ h2 (by omega)
          · exact ih s1 _ _ h2 (by omega)
  refine key _ _ _ _ (LInv.init u c php) ?_
  unfold lexMeasure
  cases php <;> simp [LState.init]

/-- A concrete stream: two doc comments before `$a`, the second wins; none before `;`. -/
example : ∃ stream, tokenize asciiClass (q! "/** x */ /** y */ $a ;") true 9 = some (.done stream) ∧
    stream.map (·.kind) = [some .VARIABLE, some .SEMICOLON, none] ∧
    stream.map (docText (q! "/** x */ /** y */ $a ;")) = [q! "/** y */", [], []] :=
  ⟨_, rfl, by decide, by decide⟩

end KPhp
