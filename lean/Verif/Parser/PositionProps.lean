import Verif.Parser.Position
/-!
# Positions in the editor: theorems (C98)
-/
namespace KPhp

variable {u : CharClass} {c : QString} {php : Bool}

/-- The text has been tokenised into this stream and this line table. -/
def Tokenised (u : CharClass) (c : QString) (php : Bool) (stream : List PTok) (lines : List Nat) : Prop :=
  ∃ n, tokenize u c php n = some (.done stream) ∧ lineTable u c php n = some lines

/-- No cast, `yield from` or unterminated double-quoted literal of the text has a line break inside. -/
def PlainBreaks (u : CharClass) (c : QString) (php : Bool) : Prop :=
  ∀ toks, LexerTokens u c php toks → ∀ x ∈ toks, ¬ NlExempt c x.2.1 x.2.2 x.1

/-! ### Runs -/

theorem run_unique : ∀ {m m' : Nat} {s sf sf' s1 s1' : LState} {post post' : List (Tok × Nat × Nat)},
    runN u c m s = some (post.map Out.ofTok, sf) → step u c sf = some (s1, .eof) →
    runN u c m' s = some (post'.map Out.ofTok, sf') → step u c sf' = some (s1', .eof) →
    post = post' ∧ sf = sf'
  | 0, 0, s, sf, sf', _, _, post, post', h1, _, h2, _ => by
    simp [runN] at h1 h2
    exact ⟨by rw [h1.1, h2.1], h1.2.symm.trans h2.2⟩
  | 0, m' + 1, s, sf, sf', s1, s1', post, post', h1, e1, h2, _ => by
    simp [runN] at h1
    obtain ⟨_, rfl⟩ := h1
    obtain ⟨s2, o, os', g1, g2, g3⟩ := runN_succ h2
    rw [e1] at g1
    cases post' with
    | nil => simp at g3
    | cons x r =>
      simp [Out.ofTok] at g3
      simp at g1
      rw [← g3.1] at g1
      simp at g1
  | m + 1, 0, s, sf, sf', s1, s1', post, post', h2, _, h1, e1 => by
    simp [runN] at h1
    obtain ⟨_, rfl⟩ := h1
    obtain ⟨s2, o, os', g1, g2, g3⟩ := runN_succ h2
    rw [e1] at g1
    cases post with
    | nil => simp at g3
    | cons x r =>
      simp [Out.ofTok] at g3
      simp at g1
      rw [← g3.1] at g1
      simp at g1
  | m + 1, m' + 1, s, sf, sf', _, _, post, post', h1, e1, h2, e2 => by
    obtain ⟨s2, o, os, g1, g2, g3⟩ := runN_succ h1
    obtain ⟨s2', o', os', g1', g2', g3'⟩ := runN_succ h2
    rw [g1] at g1'
    simp at g1'
    obtain ⟨rfl, rfl⟩ := g1'
    cases post with
    | nil => simp at g3
    | cons x r =>
      cases post' with
      | nil => simp at g3'
      | cons x' r' =>
        simp only [List.map_cons, List.cons.injEq] at g3 g3'
        obtain ⟨rfl, rfl⟩ := g3
        obtain ⟨hx, rfl⟩ := g3'
        obtain ⟨i1, i2⟩ := run_unique g2 e1 g2' e2
        refine ⟨?_, i2⟩
        rw [i1]
        congr 1
        obtain ⟨a, b, d⟩ := x
        obtain ⟨a', b', d'⟩ := x'
        simp [Out.ofTok] at hx
        simp [hx]

theorem fillTable_spec : ∀ {n : Nat} {s : LState} {lines : List Nat}, fillTable u c n s = some lines →
    ∃ (post : List (Tok × Nat × Nat)) (m : Nat) (sf sf' : LState),
      runN u c m s = some (post.map Out.ofTok, sf) ∧ step u c sf = some (sf', .eof) ∧ lines = sf'.lines
  | 0, s, lines, h => by simp [fillTable] at h
  | n + 1, s, lines, h => by
    unfold fillTable at h
    cases hs : step u c s with
    | none => rw [hs] at h; simp at h
    | some p =>
      obtain ⟨s', o⟩ := p
      rw [hs] at h
      cases o with
      | eof =>
        simp at h
        exact ⟨[], 0, s, s', rfl, hs, h.symm⟩
      | tok t b e =>
        simp only at h
        obtain ⟨post, m, sf, sf', h1, h2, h3⟩ := fillTable_spec h
        exact ⟨(t, b, e) :: post, m + 1, sf, sf', runN_cons hs h1, h2, h3⟩

theorem nlRecorded_ge {b e : Nat} {t : Tok} {l : List Nat} (h : NlRecorded c b e t l) : ∀ a ∈ l, b ≤ a := by
  intro a ha
  by_cases h1 : t.isCast = true ∨ t = .YIELD_FROM
  · rw [h.lost h1] at ha; simp at ha
  · by_cases h2 : t = .CONSTANT_ENCAPSED_STRING ∧ UnclosedLiteral c (c! '"') b e
    · rw [h.shifted h2.1 h2.2, List.mem_map] at ha
      obtain ⟨k, hk, rfl⟩ := ha
      obtain ⟨g1, g2, g3⟩ := mem_nlsIn.1 hk
      have : k ≠ b := by
        rintro rfl
        rw [h2.2.open_] at g3
        simp at g3
      omega
    · rw [h.exact_ h1 h2] at ha
      exact (mem_nlsIn.1 ha).1

/-- What the last call adds to the table lies behind the tokens. -/
theorem eof_lines (hu : u.Lawful) {s s' : LState} (hi : LInv u c s) (h : step u c s = some (s', .eof)) {o : Nat}
    (ho : o ≤ s.pos) : s'.lines.filter (· < o) = s.lines.filter (· < o) := by
  obtain ⟨hi1, hr⟩ := step_rel hu hi h
  have key : ∀ l : List Nat, (∀ a ∈ l, s.pos ≤ a) → (s.lines ++ l).filter (· < o) = s.lines.filter (· < o) := by
    intro l hl
    rw [List.filter_append]
    have : l.filter (· < o) = [] := by
      rw [List.filter_eq_nil_iff]
      intro a ha
      have := hl a ha
      simp
      omega
    rw [this]; simp
  generalize ho' : Out.eof = x at hr
  cases hr with
  | eof h => exact key [s.pos] (by simp)
  | over r h hg => exact key r.nls (nlRecorded_ge hg.nls)
  | halted r h hg => exact key r.nls (nlRecorded_ge hg.nls)
  | tok r h => simp at ho'

theorem nlsIn_filter {z o : Nat} (h : o ≤ z) : (nlsIn c 0 z).filter (· < o) = nlsIn c 0 o := by
  rw [nlsIn_append (Nat.zero_le o) h, List.filter_append]
  have h1 : (nlsIn c 0 o).filter (· < o) = nlsIn c 0 o := by
    rw [List.filter_eq_self]
    intro a ha
    simpa using (mem_nlsIn.1 ha).2.1
  have h2 : (nlsIn c o z).filter (· < o) = [] := by
    rw [List.filter_eq_nil_iff]
    intro a ha
    have := (mem_nlsIn.1 ha).1
    simp
    omega
  rw [h1, h2]; simp

theorem contiguous_bounds : ∀ {toks : List (Tok × Nat × Nat)} {a z : Nat}, Contiguous a toks z →
    (∀ x ∈ toks, a ≤ x.2.1 ∧ x.2.1 ≤ x.2.2 ∧ x.2.2 ≤ z) ∧ toks.Pairwise (fun x y => x.2.2 ≤ y.2.1)
  | [], _, _, _ => by simp
  | (t, b, e) :: r, a, z, h => by
    obtain ⟨rfl, h2, h3⟩ := h
    obtain ⟨i1, i2⟩ := contiguous_bounds h3
    have hz := contiguous_le h3
    refine ⟨?_, ?_⟩
    · intro x hx
      rcases List.mem_cons.1 hx with rfl | hx
      · exact ⟨Nat.le_refl _, h2, hz⟩
      · have := i1 x hx
        exact ⟨by omega, this.2⟩
    · rw [List.pairwise_cons]
      exact ⟨fun y hy => (i1 y hy).1, i2⟩

/-- The facts about a tokenised text used below. -/
theorem tokenised_facts (hu : u.Lawful) {stream : List PTok} {lines : List Nat}
    (h : Tokenised u c php stream lines) : ∃ toks z, LexerTokens u c php toks ∧ Contiguous 0 toks z ∧
      (∀ x ∈ toks, 0 < x.2.2 ∧ (x.2.2 ≤ c.length ∨ x.1.isTrivia = true ∨ x.1 = .INLINE_HTML)) ∧
      (PlainBreaks u c php → ∀ o, o ≤ z → lines.filter (· < o) = nlsIn c 0 o) ∧
      stream.map (·.kind) = (significantToks toks).map (fun x => some x.1) ++ [none] ∧
      stream.dropLast.map (fun x => (x.kind, x.first, x.last)) =
        (significantToks toks).map (fun x => (some x.1, x.2.1, x.2.2 - 1)) := by
  obtain ⟨n, h1, h2⟩ := h
  obtain ⟨toks, hl, hk, hd⟩ := stream_is_significant_tokens hu h1
  obtain ⟨post, m, sf, sf', r1, r2, r3⟩ := fillTable_spec h2
  obtain ⟨m0, s0, s0', q1, q2⟩ := id hl
  obtain ⟨rfl, rfl⟩ := run_unique r1 r2 q1 q2
  have hc := run_contiguous hu (LInv.init u c php) r1
  have hpos : (LState.init php).pos = 0 := by cases php <;> rfl
  rw [hpos] at hc
  refine ⟨post, sf.pos, hl, hc, ?_, ?_, hk, hd⟩
  · intro x hx
    obtain ⟨s, s', hret⟩ := run_returned r1 x hx
    obtain ⟨_, _, hb, _, nls, _, hg, _⟩ := hret.good hu
    refine ⟨hg.pos, ?_⟩
    rcases hg.bound with hb | hb
    · exact hb.2
    · exact Or.inr (Or.inl hb.2.1)
  · intro hp o ho
    rw [r3, eof_lines hu (runN_inv hu (LInv.init u c php) r1) r2 ho, (line_table_partial hu r1 (hp _ hl)).2,
      nlsIn_filter ho]

/-- A stream entry that is no end-of-file entry belongs to a token of the lexer. -/
theorem entry_token {stream : List PTok} {toks : List (Tok × Nat × Nat)}
    (hk : stream.map (·.kind) = (significantToks toks).map (fun x => some x.1) ++ [none])
    (hd : stream.dropLast.map (fun x => (x.kind, x.first, x.last)) =
        (significantToks toks).map (fun x => (some x.1, x.2.1, x.2.2 - 1)))
    {i : Nat} {ent : PTok} {t : Tok} (hi : stream[i]? = some ent) (ht : ent.kind = some t) :
    ∃ x, (significantToks toks)[i]? = some x ∧ x.1 = t ∧ ent.first = x.2.1 ∧ ent.last = x.2.2 - 1 := by
  have h1 : (stream.map (·.kind))[i]? = some (some t) := by rw [List.getElem?_map, hi, ← ht]; rfl
  rw [hk] at h1
  have hlt : i < (significantToks toks).length := by
    rcases Nat.lt_or_ge i (significantToks toks).length with h | h
    · exact h
    · rw [List.getElem?_append_right (by simpa using h)] at h1
      simp only [List.length_map] at h1
      cases hj : i - (significantToks toks).length with
      | zero => rw [hj] at h1; simp at h1
      | succ j => rw [hj] at h1; simp at h1
  have hlen : stream.length = (significantToks toks).length + 1 := by
    have := congrArg List.length hk
    simpa using this
  have h2 : stream.dropLast[i]? = some ent := by
    rw [List.getElem?_dropLast, if_pos (by omega)]; exact hi
  have h3 : ((significantToks toks).map (fun x => (some x.1, x.2.1, x.2.2 - 1)))[i]? =
      some (ent.kind, ent.first, ent.last) := by
    rw [← hd, List.getElem?_map, h2]; rfl
  rw [List.getElem?_map, Option.map_eq_some_iff] at h3
  obtain ⟨x, hx, he⟩ := h3
  simp at he
  rw [ht] at he
  simp at he
  exact ⟨x, hx, he.1, he.2.1.symm, he.2.2.symm⟩

/-! ### The ranges -/

/-- **C98 (the end of a token).** Every token lies inside of the text, except for HTML at its end. -/
theorem token_inside (hu : u.Lawful) {stream : List PTok} {lines : List Nat}
    (h : Tokenised u c php stream lines) {i : Nat} {ent : PTok} {t : Tok} (hi : stream[i]? = some ent)
    (ht : ent.kind = some t) (hh : t ≠ .INLINE_HTML) : ent.last < c.length := by
  obtain ⟨toks, z, hl, hc, hf, hp, hk, hd⟩ := tokenised_facts hu h
  obtain ⟨x, hx, hxt, h1, h2⟩ := entry_token hk hd hi ht
  have hm := List.mem_of_getElem? hx
  unfold significantToks at hm
  rw [List.mem_filter] at hm
  obtain ⟨g1, g2⟩ := hf x hm.1
  rw [hxt] at g2
  have g3 : x.1.isTrivia = false := by simpa using hm.2
  rw [hxt] at g3
  rcases g2 with g | g | g
  · omega
  · rw [g3] at g; simp at g
  · exact absurd g hh

/-- **C98 (edges, partial).** Full property: the position the editor is given for the front of a token is
the position of its first character, and the one for its back the position after its last character.
False if a cast, `yield from` or unterminated double-quoted literal contains a line break
(`cast_shifts_finding`) and for HTML at the end of the text (`html_end_finding`); proved otherwise. -/
theorem edges_partial (hu : u.Lawful) {stream : List PTok} {lines : List Nat}
    (h : Tokenised u c php stream lines) (hp : PlainBreaks u c php) {i : Nat} {ent : PTok} {t : Tok}
    (hi : stream[i]? = some ent) (ht : ent.kind = some t) (hh : t = .INLINE_HTML → ent.last < c.length) (p : Cursor) :
    (frontEdge lines ent = p ↔ cursorOffset c p.line p.col = some ent.first) ∧
    (backEdge lines ent = p ↔ cursorOffset c p.line p.col = some (ent.last + 1)) := by
  have hin : ent.last < c.length := by
    by_cases hx : t = .INLINE_HTML
    · exact hh hx
    · exact token_inside hu h hi ht hx
  obtain ⟨toks, z, hl, hc, hf, hp', hk, hd⟩ := tokenised_facts hu h
  obtain ⟨x, hx, hxt, h1, h2⟩ := entry_token hk hd hi ht
  have hm := List.mem_of_getElem? hx
  unfold significantToks at hm
  rw [List.mem_filter] at hm
  have g1 := (hf x hm.1).1
  have g2 := (contiguous_bounds hc).1 x hm.1
  unfold frontEdge backEdge
  exact ⟨position_correct (by omega) (hp' hp _ (by omega)) p, position_correct (by omega) (hp' hp _ (by omega)) p⟩

/-- The order of the tokens in the stream is the order in the text. -/
theorem tokens_ordered (hu : u.Lawful) {stream : List PTok} {lines : List Nat}
    (h : Tokenised u c php stream lines) {i j : Nat} {a b : PTok} {t t' : Tok} (hij : i < j)
    (hi : stream[i]? = some a) (ha : a.kind = some t) (hj : stream[j]? = some b) (hb : b.kind = some t') :
    a.last < b.first := by
  obtain ⟨toks, z, hl, hc, hf, hp', hk, hd⟩ := tokenised_facts hu h
  obtain ⟨x, hx, hxt, h1, h2⟩ := entry_token hk hd hi ha
  obtain ⟨y, hy, hyt, h3, h4⟩ := entry_token hk hd hj hb
  have hpw : (significantToks toks).Pairwise (fun x y => x.2.2 ≤ y.2.1) := (contiguous_bounds hc).2.filter _
  obtain ⟨li, hxe⟩ := List.getElem?_eq_some_iff.1 hx
  obtain ⟨lj, hye⟩ := List.getElem?_eq_some_iff.1 hy
  have := List.pairwise_iff_getElem.1 hpw i j li lj hij
  rw [hxe, hye] at this
  have hm := List.mem_of_getElem? hx
  unfold significantToks at hm
  rw [List.mem_filter] at hm
  have g1 := (hf x hm.1).1
  omega

/-- **C98 (the text of a node, partial).** Under the same conditions the editor shows, inside of the range
computed for a node from its first and last token, exactly the text `symbol` reports for the node. -/
theorem range_text_partial (hu : u.Lawful) {stream : List PTok} {lines : List Nat}
    (h : Tokenised u c php stream lines) (hp : PlainBreaks u c php) {i j : Nat} {a b : PTok} {t t' : Tok}
    (hij : i ≤ j) (hi : stream[i]? = some a) (ha : a.kind = some t) (hj : stream[j]? = some b)
    (hb : b.kind = some t') (hne : a.first ≤ a.last) (hne' : b.first ≤ b.last)
    (hh : t' = .INLINE_HTML → b.last < c.length) :
    textIn c (findRange lines a b) = some (nodeText c a b) := by
  have hba : b.last < c.length := by
    by_cases hx : t' = .INLINE_HTML
    · exact hh hx
    · exact token_inside hu h hj hb hx
  have hab : a.last ≤ b.last := by
    rcases Nat.lt_or_ge i j with h' | h'
    · have := tokens_ordered hu h h' hi ha hj hb
      omega
    · have : i = j := by omega
      subst this
      rw [hi] at hj
      cases hj
      exact Nat.le_refl _
  have e1 := ((edges_partial hu h hp hi ha (fun _ => by omega) (frontEdge lines a)).1).1 rfl
  have e2 := ((edges_partial hu h hp hj hb (fun _ => hba) (backEdge lines b)).2).1 rfl
  unfold textIn findRange nodeText
  simp only [e1, e2]
  congr 2
  omega

/-- **C98 (the text of a token, partial).** -/
theorem token_text_partial (hu : u.Lawful) {stream : List PTok} {lines : List Nat}
    (h : Tokenised u c php stream lines) (hp : PlainBreaks u c php) {i : Nat} {ent : PTok} {t : Tok}
    (hi : stream[i]? = some ent) (ht : ent.kind = some t) (hne : ent.first ≤ ent.last)
    (hh : t = .INLINE_HTML → ent.last < c.length) :
    textIn c (tokenRange lines ent) = some (symbolText c ent) :=
  range_text_partial hu h hp (Nat.le_refl i) hi ht hi ht hne hne hh

/-- **C98 (cursors, partial).** Under the same conditions a cursor is inside of the range of a node exactly
if the character at the cursor is one of the characters from the first one of the node's first token to
the last one of its last token. -/
theorem range_contains_partial (hu : u.Lawful) {stream : List PTok} {lines : List Nat}
    (h : Tokenised u c php stream lines) (hp : PlainBreaks u c php) {i j : Nat} {a b : PTok} {t t' : Tok}
    (hi : stream[i]? = some a) (ha : a.kind = some t) (hj : stream[j]? = some b)
    (hb : b.kind = some t') (hh : t = .INLINE_HTML → a.last < c.length)
    (hh' : t' = .INLINE_HTML → b.last < c.length) {p : Cursor} {o : Nat}
    (ho : cursorOffset c p.line p.col = some o) :
    (findRange lines a b).Contains p ↔ a.first ≤ o ∧ o ≤ b.last := by
  have e1 := ((edges_partial hu h hp hi ha hh (frontEdge lines a)).1).1 rfl
  have e2 := ((edges_partial hu h hp hj hb hh' (backEdge lines b)).2).1 rfl
  unfold Range.Contains findRange
  simp only
  rw [cursor_order ho e1, cursor_order ho e2]
  omega

/-- **C98 (one token at a cursor, partial).** Under the same conditions a cursor is inside of the range of at
most one token. -/
theorem one_token_partial (hu : u.Lawful) {stream : List PTok} {lines : List Nat}
    (h : Tokenised u c php stream lines) (hp : PlainBreaks u c php) {i j : Nat} {a b : PTok} {t t' : Tok}
    (hi : stream[i]? = some a) (ha : a.kind = some t) (hj : stream[j]? = some b)
    (hb : b.kind = some t') (hh : t = .INLINE_HTML → a.last < c.length)
    (hh' : t' = .INLINE_HTML → b.last < c.length) {p : Cursor} {o : Nat}
    (ho : cursorOffset c p.line p.col = some o) (h1 : (tokenRange lines a).Contains p)
    (h2 : (tokenRange lines b).Contains p) : i = j := by
  have r1 := (range_contains_partial hu h hp hi ha hi ha hh hh ho).1 h1
  have r2 := (range_contains_partial hu h hp hj hb hj hb hh' hh' ho).1 h2
  rcases Nat.lt_trichotomy i j with h' | h' | h'
  · have := tokens_ordered hu h h' hi ha hj hb
    omega
  · exact h'
  · have := tokens_ordered hu h h' hj hb hi ha
    omega

/-- **C98 (empty nodes).** Whatever the text: if a node matched nothing, its range ends before the next
token begins, so no character is inside, and it ends before it starts unless the two tokens touch. -/
theorem empty_node (hu : u.Lawful) {stream : List PTok} {lines : List Nat}
    (h : Tokenised u c php stream lines) (hp : PlainBreaks u c php) {i : Nat} {a b : PTok} {t t' : Tok}
    (hi0 : 0 < i) (hi : stream[(emptyNode i).1]? = some b) (ha : a.kind = some t)
    (hj : stream[(emptyNode i).2]? = some a)
    (hb : b.kind = some t') (hh : t = .INLINE_HTML → a.last < c.length)
    (hh' : t' = .INLINE_HTML → b.last < c.length) :
    (∀ p o, cursorOffset c p.line p.col = some o → ¬ (findRange lines b a).Contains p) ∧
    ((findRange lines b a).stop.before (findRange lines b a).start ↔ a.last + 1 < b.first) := by
  have ho := tokens_ordered hu h (i := i - 1) (j := i) (by omega) hj ha hi hb
  refine ⟨fun p o hpo hc => ?_, ?_⟩
  · have := (range_contains_partial hu h hp hi hb hj ha hh' hh hpo).1 hc
    omega
  · have e1 := ((edges_partial hu h hp hi hb hh' (frontEdge lines b)).1).1 rfl
    have e2 := ((edges_partial hu h hp hj ha hh (backEdge lines a)).2).1 rfl
    unfold findRange
    simp only
    rw [cursor_order e2 e1]
end KPhp
