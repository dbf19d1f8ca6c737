import Verif.Lexer.CodeMode
/-!
# Lexer properties C09–C18, C45: single tokens

`Returned u c php s s' t b e`: some run of the lexer on the text `c` reaches the state `s`, and the next
call returns the token `t` covering `[b, e)` and leaves the lexer in the state `s'`.
-/
namespace KPhp
variable {u : CharClass} {c : QString} {php : Bool} {s s' : LState} {t : Tok} {b e : Nat}

/-- A token returned by the lexer at some point of some run. -/
def Returned (u : CharClass) (c : QString) (php : Bool) (s s' : LState) (t : Tok) (b e : Nat) : Prop :=
  Reach u c php s ∧ step u c s = some (s', .tok t b e)

theorem Returned.good (hu : u.Lawful) (h : Returned u c php s s' t b e) :
    b = s.pos ∧ s'.pos = e ∧ b < c.length ∧ dispatch u c b s.stack s.ident ≠ none ∧
    ∃ nls, dispatch u c b s.stack s.ident = some ⟨t, e, s'.stack, s'.ident, nls⟩ ∧
      Good u c b s.stack s.ident ⟨t, e, s'.stack, s'.ident, nls⟩ ∧
      StartOk u c b s.stack ⟨t, e, s'.stack, s'.ident, nls⟩ := by
  obtain ⟨hr, hs⟩ := h
  have hi := hr.inv hu
  unfold step at hs
  by_cases hp : s.pos ≥ c.length
  · rw [if_pos hp] at hs; simp at hs
  · rw [if_neg hp] at hs
    have hlt : s.pos < c.length := by omega
    cases hd : dispatch u c s.pos s.stack s.ident with
    | none => rw [hd] at hs; simp at hs
    | some r =>
      rw [hd] at hs
      simp only [Option.bind_eq_bind, Option.bind_some] at hs
      split at hs
      · simp at hs
      · split at hs
        · simp at hs
        · simp at hs
          obtain ⟨rfl, rfl, rfl, rfl⟩ := hs
          have hg : Good u c s.pos s.stack s.ident r := by
            rcases dispatch_good hu hlt (hi.inv hlt) with ⟨h, _⟩ | ⟨r', h, hg⟩
            · rw [hd] at h; simp at h
            · rw [hd] at h; cases h; exact hg
          have hst := dispatch_start (stack := s.stack) (ident := s.ident) hu hlt r hd
          exact ⟨rfl, rfl, hlt, by rw [hd]; simp, r.nls, hd, hg, hst⟩

/-- The specification of the token's text. -/
theorem Returned.spec (hu : u.Lawful) (h : Returned u c php s s' t b e) :
    TokSpec u c s.stack s.ident b e t := by
  obtain ⟨_, _, _, _, nls, _, hg, _⟩ := h.good hu
  exact hg.spec

/-! ### C09 keywords -/

/-- **C09 (no false keywords).** A keyword token is a maximal word equal, ignoring case, to a keyword of
the list with that token kind. -/
theorem keyword_is_word (hu : u.Lawful) (h : Returned u c php s s' t b e) (hk : isKeywordTok t) :
    WordSpec u c b e ∧ ∃ k, k ∈ keywordNames t ∧ ciEq u (slice c b e) k = true := by
  obtain ⟨_, _, _, _, nls, _, hg, _⟩ := h.good hu
  exact hg.kw hk

theorem keywordTable_ascii : ∀ x ∈ keywordTable, ∀ ch ∈ x.1, ch < 128 := by decide +kernel
theorem keywordTable_inj : ∀ x ∈ keywordTable, ∀ y ∈ keywordTable,
    x.1.map asciiLower = y.1.map asciiLower → x.2 = y.2 := by decide +kernel
theorem keywordTable_no_static : ∀ x ∈ keywordTable, x.1.map asciiLower ≠ q! "static" ∧
    x.1.map asciiLower ≠ q! "yield" := by decide +kernel

/-- **C09 (recognition).** In PHP code, at a maximal word: if it equals a listed keyword ignoring case,
that keyword's token covering exactly the word is returned; if it equals neither a listed keyword nor
`static` nor `yield`, a plain identifier token covering exactly the word is returned. -/
theorem word_token (hu : u.Lawful) (h : Returned u c php s s' t b e) (hc : isCode s.stack) {w : Nat}
    (hw : WordSpec u c b w) (hs : u.isSpace (chr c b) = false) :
    (∀ k kt, k ∈ keywordNames kt → ciEq u (slice c b w) k = true → t = kt ∧ e = w) ∧
    ((∀ k kt, k ∈ keywordNames kt → ciEq u (slice c b w) k = false) →
      ciEq u (slice c b w) (q! "static") = false → ciEq u (slice c b w) (q! "yield") = false →
      t = .STRING ∧ e = w) := by
  obtain ⟨_, _, _, _, nls, hd, hg, _⟩ := h.good hu
  rw [dispatch_code hc, code_word hu hc hw hs] at hd
  constructor
  · intro k kt hm hce
    rw [keywordNames_iff] at hm
    have hns : ciEq u (slice c b w) (q! "static") = false ∧ ciEq u (slice c b w) (q! "yield") = false := by
      have hno := keywordTable_no_static _ hm
      have hf := fold_ascii_str hu (keywordTable_ascii _ hm)
      rw [ciEq_fold, hf] at hce
      constructor
      · cases hx : ciEq u (slice c b w) (q! "static")
        · rfl
        · rw [ciEq_fold, fold_ascii_str hu (s := q! "static") (by decide), hce] at hx
          exact absurd hx hno.1
      · cases hx : ciEq u (slice c b w) (q! "yield")
        · rfl
        · rw [ciEq_fold, fold_ascii_str hu (s := q! "yield") (by decide), hce] at hx
          exact absurd hx hno.2
    rw [wordBranch_eq hw hns.1 hns.2,
      lookupCI_of_mem hu keywordTable_ascii keywordTable_inj hm hce] at hd
    simp at hd
    exact ⟨hd.1.symm, hd.2.1.symm⟩
  · intro hno h1 h2
    rw [wordBranch_eq hw h1 h2] at hd
    have : lookupCI u keywordTable (slice c b w) = none := by
      cases hl : lookupCI u keywordTable (slice c b w) with
      | none => rfl
      | some tk =>
        obtain ⟨nm, hm, hce⟩ := lookupCI_mem hl
        rw [hno nm tk (keywordNames_iff.2 hm)] at hce; exact absurd hce (by decide)
    rw [this] at hd
    simp at hd
    exact ⟨hd.1.symm, hd.2.1.symm⟩

/-- **C09 (`static`, `yield`).** The word `static` in any case gives `static` or (before `::`) an
identifier; `yield` in any case gives `yield` or `yield from`. -/
theorem static_yield_token (hu : u.Lawful) (h : Returned u c php s s' t b e) (hc : isCode s.stack)
    {w : Nat} (hw : WordSpec u c b w) (hs : u.isSpace (chr c b) = false) :
    (ciEq u (slice c b w) (q! "static") = true → (t = .STATIC ∨ t = .STRING) ∧ e = w) ∧
    (ciEq u (slice c b w) (q! "yield") = true → (t = .YIELD ∧ e = w) ∨ t = .YIELD_FROM) := by
  obtain ⟨_, _, _, _, nls, hd, hg, _⟩ := h.good hu
  rw [dispatch_code hc, code_word hu hc hw hs] at hd
  constructor
  · intro h1; exact wordBranch_static hw h1 hd
  · intro h2
    refine wordBranch_yield hw ?_ h2 hd
    cases hx : ciEq u (slice c b w) (q! "static")
    · rfl
    · rw [ciEq_fold] at hx h2
      rw [hx, fold_ascii_str hu (by decide), fold_ascii_str hu (by decide)] at h2
      exact absurd h2 (by decide)

/-- **C09 (case independence).** Two texts with, at the lexer's position in PHP code, words that differ
only in letter case yield the same token kind (for every word but `static` and `yield`, whose token
also depends on what follows). -/
theorem keyword_case_insensitive (hu : u.Lawful) {c₁ c₂ : QString} {s₁ s₁' s₂ s₂' : LState}
    {t₁ t₂ : Tok} {b₁ e₁ b₂ e₂ w₁ w₂ : Nat}
    (h₁ : Returned u c₁ php s₁ s₁' t₁ b₁ e₁) (h₂ : Returned u c₂ php s₂ s₂' t₂ b₂ e₂)
    (hc₁ : isCode s₁.stack) (hc₂ : isCode s₂.stack)
    (hw₁ : WordSpec u c₁ b₁ w₁) (hw₂ : WordSpec u c₂ b₂ w₂)
    (hs₁ : u.isSpace (chr c₁ b₁) = false) (hs₂ : u.isSpace (chr c₂ b₂) = false)
    (hcase : ciEq u (slice c₁ b₁ w₁) (slice c₂ b₂ w₂) = true)
    (hst : ciEq u (slice c₁ b₁ w₁) (q! "static") = false)
    (hy : ciEq u (slice c₁ b₁ w₁) (q! "yield") = false) : t₁ = t₂ := by
  obtain ⟨_, _, _, _, n₁, hd₁, _, _⟩ := h₁.good hu
  obtain ⟨_, _, _, _, n₂, hd₂, _, _⟩ := h₂.good hu
  have tr : ∀ k, ciEq u (slice c₂ b₂ w₂) k = ciEq u (slice c₁ b₁ w₁) k := by
    intro k; rw [ciEq_fold] at hcase; unfold ciEq; rw [hcase]
  rw [dispatch_code hc₁, code_word hu hc₁ hw₁ hs₁, wordBranch_eq hw₁ hst hy] at hd₁
  rw [dispatch_code hc₂, code_word hu hc₂ hw₂ hs₂,
    wordBranch_eq hw₂ (by rw [tr]; exact hst) (by rw [tr]; exact hy)] at hd₂
  simp at hd₁ hd₂
  rw [← hd₁.1, ← hd₂.1, lookupCI_congr hcase]

/-! ### C10, C11 HTML -/

/-- **C10.** In HTML mode the token is inline HTML, `<?`/`<?php` or `<?=`. -/
theorem html_tokens (hu : u.Lawful) (h : Returned u c php s s' t b e) (hh : s.stack.head? = some .Html) :
    t = .INLINE_HTML ∨ t = .OPEN_TAG ∨ t = .OPEN_TAG_WITH_ECHO := by
  obtain ⟨_, _, _, _, nls, _, hg, _⟩ := h.good hu
  exact hg.html hh

/-- **C10 (extent).** Inline HTML runs to the next `<?` or the end of the text, contains no `<?` after its
first character, and starts with `<?` only when that is `<?xml`. -/
theorem inline_html (hu : u.Lawful) (h : Returned u c php s s' .INLINE_HTML b e) :
    s.stack.head? = some .Html ∧ InlineHtmlSpec c b e ∧
      (chr c b = c! '<' ∧ chr c (b + 1) = c! '?' → XmlAt u c b) := h.spec hu

/-- **C10 (open tags).** Open tags occur in HTML mode only and are never `<?xml`. -/
theorem open_tags (hu : u.Lawful) (h : Returned u c php s s' t b e) :
    (t = .OPEN_TAG → s.stack.head? = some .Html ∧ OpenTagSpec u c b e) ∧
    (t = .OPEN_TAG_WITH_ECHO → s.stack.head? = some .Html ∧ OpenTagEchoSpec c b e) := by
  have := h.spec hu
  constructor
  · rintro rfl; exact this
  · rintro rfl; exact this

/-- **C11.** After a close tag `?>` the lexer is in HTML mode and nothing else is open. -/
theorem close_tag_to_html (hu : u.Lawful) (h : Returned u c php s s' .CLOSE_TAG b e) :
    s'.stack = [.Html, .Error] ∧ chr c b = c! '?' ∧ chr c (b + 1) = c! '>' ∧ e = b + 2 := by
  obtain ⟨_, _, _, _, nls, _, hg, _⟩ := h.good hu
  exact ⟨hg.close rfl, hg.spec⟩

/-! ### C12–C15 -/

/-- **C12.** A string literal returned as one token ends at the first unescaped quote, or at the end of
the text when there is none; a double-quoted one contains no interpolated variable. -/
theorem string_literal (hu : u.Lawful)
    (h : Returned u c php s s' .CONSTANT_ENCAPSED_STRING b e) : StringLiteralSpec u c b e := h.spec hu

/-- **C13.** Comments are one-line comments or block comments up to the first `*/` (a block comment that
is never closed is not returned). -/
theorem comment_extent (hu : u.Lawful) (h : Returned u c php s s' .COMMENT b e) :
    LineCommentSpec c b e ∨ (BlockCommentSpec c b e ∧ ¬ DocOpen u c b) := by
  have hs := h.spec hu
  obtain ⟨_, _, _, _, nls, _, hg, _⟩ := h.good hu
  rcases hs with h1 | h1 | ⟨_, h2⟩
  · exact Or.inl h1
  · exact Or.inr h1
  · have := returned_end h; omega
where
  /-- a returned token ends at the latest with the terminator -/
  returned_end {t : Tok} (h : Returned u c php s s' t b e) : e ≤ c.length + 1 := by
    obtain ⟨_, hs⟩ := h
    unfold step at hs
    split at hs
    · simp at hs
    · cases hd : dispatch u c s.pos s.stack s.ident with
      | none => rw [hd] at hs; simp at hs
      | some r =>
        rw [hd] at hs
        simp only [Option.bind_eq_bind, Option.bind_some] at hs
        split at hs
        · simp at hs
        · split at hs
          · simp at hs
          · simp at hs; omega

/-- **C13 (doc comments).** Doc comments are `///` comments (each further line starting with `///`) or
block comments opening with `/**` and white space. -/
theorem doc_comment_extent (hu : u.Lawful) (h : Returned u c php s s' .DOC_COMMENT b e) :
    LineDocSpec u c b e ∨ (BlockCommentSpec c b e ∧ DocOpen u c b) := by
  have hs := h.spec hu
  rcases hs with h1 | h1 | ⟨_, h2⟩
  · exact Or.inl h1
  · exact Or.inr h1
  · have := comment_extent.returned_end h; omega

/-- **C14.** White space tokens are maximal runs of white space. -/
theorem whitespace_maximal (hu : u.Lawful) (h : Returned u c php s s' .WHITESPACE b e) :
    WhitespaceSpec u c b e := h.spec hu

/-- **C14 (never adjacent).** After a white space token the next token is not white space. -/
theorem whitespace_not_adjacent (hu : u.Lawful) {s'' : LState} {b' e' : Nat}
    (h : Returned u c php s s' .WHITESPACE b e) : ¬ Returned u c php s' s'' .WHITESPACE b' e' := by
  intro h'
  obtain ⟨_, hp, _⟩ := h.good hu
  obtain ⟨hb', _, hlt, _⟩ := h'.good hu
  have h1 := whitespace_maximal hu h
  have h2 := whitespace_maximal hu h'
  have : b' = e := by omega
  subst this
  have h3 := h1.maximal hlt
  have h4 : u.isSpace (chr c b') = true := h2.all b' (Nat.le_refl _) h2.nonempty
  rw [h3] at h4; exact absurd h4 (by decide)

/-- **C15.** Variable tokens are `$` and a maximal name not starting with a digit. -/
theorem variable_token (hu : u.Lawful) (h : Returned u c php s s' .VARIABLE b e) :
    VariableSpec u c b e := h.spec hu

/-! ### C16 numbers -/

/-- Value of a string of decimal digits. -/
def decimalValue (x : QString) : Nat := x.foldl (fun a ch => 10 * a + (ch - 48)) 0

/-- `[b, e)` is a maximal run of ASCII digits that is not the beginning of a longer number (no further
digit, point, exponent or `0x`/`0b` prefix follows). -/
structure DecimalSpec (u : CharClass) (c : QString) (b e : Nat) : Prop where
  nonempty : b < e
  inText : e ≤ c.length
  all : AllChr c b e (fun ch => asciiDigit ch = true)
  stop : u.isDigit (chr c e) = false ∧ chr c e ≠ c! '.' ∧
    u.toLower (chr c e) ≠ c! 'e' ∧ u.toLower (chr c e) ≠ c! 'x' ∧ u.toLower (chr c e) ≠ c! 'b'

theorem digitsVal_decimal {x : QString} : ∀ acc, (∀ ch ∈ x, asciiDigit ch = true) →
    digitsVal 10 x acc = some (x.foldl (fun a ch => 10 * a + (ch - 48)) acc) := by
  induction x with
  | nil => intro acc _; rfl
  | cons ch r ih =>
    intro acc h
    have hd := h ch (by simp)
    have hlt : ch - 48 < 10 := by unfold asciiDigit at hd; simp at hd; omega
    unfold digitsVal digitVal
    rw [if_pos hd]
    simp only [hlt, if_true]
    rw [ih _ (fun y hy => h y (by simp [hy])), List.foldl_cons, Nat.mul_comm]

theorem numLoop_digits (hu : u.Lawful) : ∀ (k i : Nat), i + k = c.length →
    ∀ e, i ≤ e → e ≤ c.length → AllChr c i e (fun ch => asciiDigit ch = true) →
    u.isDigit (chr c e) = false → chr c e ≠ 46 → numLoop u c false false k i false = some (e, false)
  | 0, i, h, e, h1, h2, _, _, _ => by
    have : i = e := by omega
    subst this; rfl
  | k + 1, i, h, e, h1, h2, hall, hd, hp => by
    unfold numLoop
    rw [rd_some (by omega), Option.bind_eq_bind, Option.bind_some]
    by_cases hie : i = e
    · subst hie
      rw [if_neg]
      unfold numChar; simp [hd, hp]
    · have hdig : asciiDigit (chr c i) = true := hall i (Nat.le_refl _) (by omega)
      have hlt : chr c i < 128 := by unfold asciiDigit at hdig; simp at hdig; omega
      have hne : chr c i ≠ 46 := by intro h; rw [h] at hdig; exact absurd hdig (by decide)
      rw [if_pos (by unfold numChar; rw [hu.digit_ascii _ hlt, hdig]; rfl)]
      have : (false || chr c i == 46) = false := by simpa using hne
      rw [this]
      exact numLoop_digits hu k (i + 1) (by omega) e (by omega) h2
        (fun j hj1 hj2 => hall j (by omega) hj2) hd hp

/-- **C16 (only integers).** An integer literal token has no point, is decimal, `0x` hexadecimal or `0b`
digits, and its value fits a signed 64-bit integer. -/
theorem integer_literal (hu : u.Lawful) (h : Returned u c php s s' .LNUMBER b e) :
    IntLiteralSpec u c b e := h.spec hu

/-- **C16 (decimal literals).** At a decimal literal in PHP code the token is exactly the literal: an
integer iff its value is below `2 ^ 63`, a float otherwise. -/
theorem decimal_literal (hu : u.Lawful) (h : Returned u c php s s' t b e) (hc : isCode s.stack)
    {w : Nat} (hw : DecimalSpec u c b w) :
    e = w ∧ t = (if decimalValue (slice c b w) < 2 ^ 63 then .LNUMBER else .DNUMBER) := by
  obtain ⟨_, _, hb, _, nls, hd, hg, _⟩ := h.good hu
  have hbw := hw.nonempty
  have hwl := hw.inText
  have hdig : asciiDigit (chr c b) = true := hw.all b (Nat.le_refl _) hbw
  have hlt : chr c b < 128 := by unfold asciiDigit at hdig; simp at hdig; omega
  rw [dispatch_code hc, code_digit hu hb hc (by rw [hu.digit_ascii _ hlt]; exact hdig)] at hd
  have low : ∀ x, x = 120 ∨ x = 98 ∨ x = 101 → u.toLower (chr c (b + 1)) ≠ x := by
    intro x hx
    by_cases h1 : b + 1 = w
    · rw [h1]; rcases hx with rfl | rfl | rfl
      · exact hw.stop.2.2.2.1
      · exact hw.stop.2.2.2.2
      · exact hw.stop.2.2.1
    · have hd1 : asciiDigit (chr c (b + 1)) = true := hw.all _ (by omega) (by omega)
      have hl1 : 48 ≤ chr c (b + 1) ∧ chr c (b + 1) ≤ 57 := by
        unfold asciiDigit at hd1; simpa using hd1
      rw [hu.lower_ascii _ (by omega)]
      unfold asciiLower; rw [if_neg (by omega)]; omega
  unfold numBranch at hd
  have hhex : (isAt c b (c! '0') &&? testAt c (b + 1) (fun x => u.toLower x == c! 'x')) = some false := by
    rw [show (isAt c b (c! '0') &&? testAt c (b + 1) (fun x => u.toLower x == c! 'x')) =
      some (chr c b == 48 && u.toLower (chr c (b + 1)) == 120) from
      andO_some (isAt_some (by omega)) fun _ => testAt_some (by omega)]
    have : (u.toLower (chr c (b + 1)) == 120) = false := by simpa using low 120 (by simp)
    rw [this, Bool.and_false]
  have hbin : (isAt c b (c! '0') &&? testAt c (b + 1) (fun x => u.toLower x == c! 'b')) = some false := by
    rw [show (isAt c b (c! '0') &&? testAt c (b + 1) (fun x => u.toLower x == c! 'b')) =
      some (chr c b == 48 && u.toLower (chr c (b + 1)) == 98) from
      andO_some (isAt_some (by omega)) fun _ => testAt_some (by omega)]
    have : (u.toLower (chr c (b + 1)) == 98) = false := by simpa using low 98 (by simp)
    rw [this, Bool.and_false]
  rw [hhex] at hd
  simp only [Option.bind_eq_bind, Option.bind_some, Bool.false_eq_true, if_false] at hd
  rw [hbin] at hd
  simp only [Option.bind_some, Bool.false_eq_true, if_false] at hd
  rw [numLoop_digits hu (c.length - b) b (by omega) w (by omega) hwl hw.all hw.stop.1 hw.stop.2.1] at hd
  simp only [Option.bind_some] at hd
  have hexp : ((some (!false && !false)) &&? isExponent u c w) = some false := by
    rw [isExponent_eq hu hwl]
    have : (u.toLower (chr c w) == 101) = false := by simpa using hw.stop.2.2.1
    rw [this]; rfl
  rw [hexp] at hd
  simp only [Option.bind_some, Bool.false_eq_true, if_false] at hd
  have hsl : ∀ ch ∈ slice c b w, asciiDigit ch = true := by
    intro ch hch
    obtain ⟨k, hk, rfl⟩ := mem_slice hwl hch
    exact hw.all _ (by omega) (by omega)
  have hlong : toLongOk (slice c b w) 10 = decide (decimalValue (slice c b w) < 2 ^ 63) := by
    have hne : slice c b w ≠ [] := by
      intro h0
      have := slice_length (i := b) hwl
      rw [h0] at this; simp at this; omega
    unfold toLongOk
    split
    · rename_i h0; exact absurd h0 hne
    · rw [digitsVal_decimal 0 hsl]; rfl
  rw [hlong] at hd
  by_cases hv : decimalValue (slice c b w) < 2 ^ 63
  · rw [if_pos hv]
    simp only [hv, decide_true, if_true] at hd
    simp at hd
    exact ⟨hd.2.1.symm, hd.1.symm⟩
  · rw [if_neg hv]
    simp only [hv, decide_false, Bool.false_eq_true, if_false] at hd
    simp at hd
    exact ⟨hd.2.1.symm, hd.1.symm⟩

/-! ### C17 heredocs -/

/-- **C17 (end).** A heredoc or nowdoc end token is exactly the remembered identifier, followed by a line
break or `;` and a line break. -/
theorem heredoc_end (hu : u.Lawful) (h : Returned u c php s s' t b e)
    (ht : t = .END_HEREDOC ∨ t = .END_NOWDOC) : HereEndSpec c s.ident b e := by
  have := h.spec hu
  rcases ht with rfl | rfl <;> exact this

/-- **C17 (start).** A heredoc or nowdoc start token is `<<<`, an optionally quoted identifier and a line
break; it enters the heredoc (nowdoc) mode and remembers exactly this identifier. -/
theorem heredoc_start (hu : u.Lawful) (h : Returned u c php s s' t b e) (ht : t.isDocStart = true) :
    ∃ nd : Bool, HereStartSpec u c s'.ident nd b e ∧
      t = (if nd then .START_NOWDOC else .START_HEREDOC) ∧
      s'.stack = (if nd then St.Nowdoc else .Heredoc) :: s.stack := by
  obtain ⟨_, _, _, _, nls, _, _, hst⟩ := h.good hu
  exact hst ht

/-- **C17 (unchanged).** While a heredoc or nowdoc is open, the remembered identifier does not change. -/
theorem heredoc_ident_kept (hu : u.Lawful) : ∀ {n : Nat} {s sf : LState} {os : List Out}, LInv u c s →
    runN u c n s = some (os, sf) →
    (∀ m < n, ∀ os' sm, runN u c m s = some (os', sm) → HasDoc sm.stack) → sf.ident = s.ident
  | 0, s, sf, os, _, h, _ => by simp [runN] at h; rw [h.2]
  | n + 1, s, sf, os, hi, h, hd => by
    obtain ⟨s1, o, os', h1, h2, rfl⟩ := runN_succ h
    obtain ⟨hi1, hr⟩ := step_rel hu hi h1
    have hdoc := hd 0 (by omega) _ _ rfl
    have hid : s1.ident = s.ident := by
      cases hr with
      | eof => rfl
      | over r _ hg => exact hg.keep hdoc
      | halted r _ hg => exact hg.keep hdoc
      | tok r _ hg => exact hg.keep hdoc
    rw [heredoc_ident_kept hu hi1 h2 (fun m hm os'' sm hrun =>
      hd (m + 1) (by omega) _ _ (runN_cons h1 hrun)), hid]

/-- **C17.** If a heredoc or nowdoc started by a token stays open during `n` calls and the next call
returns an end token, then that end token's text is the identifier written at the start. -/
theorem heredoc_matches (hu : u.Lawful) {s₀ s₁ s₂ s₃ : LState} {t₀ t₁ : Tok} {b₀ e₀ b₁ e₁ n : Nat}
    {os : List Out} (h₀ : Returned u c php s₀ s₁ t₀ b₀ e₀) (ht₀ : t₀.isDocStart = true)
    (hn : runN u c n s₁ = some (os, s₂))
    (hopen : ∀ m < n, ∀ os' sm, runN u c m s₁ = some (os', sm) → HasDoc sm.stack)
    (h₁ : step u c s₂ = some (s₃, .tok t₁ b₁ e₁)) (ht₁ : t₁ = .END_HEREDOC ∨ t₁ = .END_NOWDOC) :
    ∃ nd id, HereStartSpec u c id nd b₀ e₀ ∧ HereEndSpec c id b₁ e₁ := by
  obtain ⟨nd, hs, _, _⟩ := heredoc_start hu h₀ ht₀
  have hr₁ := h₀.1.step h₀.2
  have hid := heredoc_ident_kept hu (hr₁.inv hu) hn hopen
  have hr₂ : Reach u c php s₂ := by
    obtain ⟨m, os', h⟩ := hr₁; exact ⟨m + n, os' ++ os, runN_append h hn⟩
  have := heredoc_end hu ⟨hr₂, h₁⟩ ht₁
  rw [hid] at this
  exact ⟨nd, s₁.ident, hs, this⟩

/-! ### C18 casts -/

theorem castTable_ascii : ∀ x ∈ castTable, ∀ ch ∈ x.1, ch < 128 := by decide
theorem castTable_inj : ∀ x ∈ castTable, ∀ y ∈ castTable,
    x.1.map asciiLower = y.1.map asciiLower → x.2 = y.2 := by decide

/-- A cast token is a parenthesised cast name. -/
theorem cast_token (hu : u.Lawful) (h : Returned u c php s s' t b e) (ht : t.isCast = true) :
    CastSpec u c b e t := by
  have := h.spec hu
  revert this ht
  cases t <;> simp [Tok.isCast, TokSpec]

theorem CastSpec.unique (hu : u.Lawful) {e e' : Nat} {t t' : Tok} (h : CastSpec u c b e t)
    (h' : CastSpec u c b e' t') : e = e' ∧ t = t' := by
  obtain ⟨p, q, nm, hw, hm, hce⟩ := h
  obtain ⟨p', q', nm', hw', hm', hce'⟩ := h'
  have nsp : u.isSpace 41 = false := by rw [hu.space_ascii _ (by omega)]; rfl
  have nle : u.isLetter 41 = false := by rw [hu.letter_ascii _ (by omega)]; rfl
  have endp : ∀ {p q e}, ParenWord u c b p q e → u.isSpace (chr c p) = false ∧
      u.isLetter (chr c q) = false ∧ u.isSpace (chr c (e - 1)) = false := by
    intro p q e hw
    obtain ⟨o1, o2, o3⟩ := hw.order
    refine ⟨hu.letter_not_space _ (hw.word p (by omega) o2), ?_, by rw [hw.close]; exact nsp⟩
    by_cases hq : q = e - 1
    · rw [hq, hw.close]; exact nle
    · have : u.isSpace (chr c q) = true := hw.ws2 q (by omega) (by omega)
      cases h : u.isLetter (chr c q)
      · rfl
      · rw [hu.letter_not_space _ h] at this; exact absurd this (by decide)
  obtain ⟨o1, o2, o3⟩ := hw.order
  obtain ⟨o1', o2', o3'⟩ := hw'.order
  obtain ⟨a1, a2, a3⟩ := endp hw
  obtain ⟨a1', a2', a3'⟩ := endp hw'
  have hlen := lt_of_chr_eq hw.close (by decide)
  have hp : p = p' := scan_unique (bound := c.length) (f := fun i => u.isSpace (chr c i)) o1 hw.ws1
    (by omega) a1 o1' hw'.ws1 (fun _ => a1')
  subst hp
  have hq : q = q' := scan_unique (bound := c.length) (f := fun i => u.isLetter (chr c i)) (by omega)
    hw.word (by omega) a2 (by omega) hw'.word (fun _ => a2')
  subst hq
  have he : e - 1 = e' - 1 := scan_unique (bound := c.length) (f := fun i => u.isSpace (chr c i))
    (by omega) hw.ws2 (by omega) a3 (by omega) hw'.ws2 (fun _ => a3')
  refine ⟨by omega, ?_⟩
  rw [ciEq_fold] at hce hce'
  have := hce.symm.trans hce'
  rw [castNames_iff] at hm hm'
  rw [fold_ascii_str hu (castTable_ascii _ hm), fold_ascii_str hu (castTable_ascii _ hm')] at this
  exact castTable_inj _ hm _ hm' this

/-- **C18.** At `(` in PHP code: if a parenthesised cast name starts there, the token is that cast,
covering the whole of it; otherwise the token is the parenthesis alone. -/
theorem paren_token (hu : u.Lawful) (h : Returned u c php s s' t b e) (hc : isCode s.stack)
    (hp : chr c b = c! '(') :
    (∀ e' t', CastSpec u c b e' t' → t = t' ∧ e = e') ∧
    ((∀ e' t', ¬ CastSpec u c b e' t') → t = .LPAREN ∧ e = b + 1) := by
  obtain ⟨_, _, hb, _, nls, hd, hg, _⟩ := h.good hu
  have hs := h.spec hu
  rw [dispatch_code hc, code_paren hu hb hc hp] at hd
  have kinds : t = .LPAREN ∨ t.isCast = true := by
    have : Yields (fun r => r.tok = .LPAREN ∨ r.tok.isCast = true)
        (parenBranch u c b s.stack s.ident) := by
      unfold parenBranch; simp only [Option.bind_eq_bind]; explore
      · split
        · rename_i t ht
          obtain ⟨nm, hm, _⟩ := lookupCI_mem ht
          have : ∀ x ∈ castTable, x.2.isCast = true := by decide
          exact Yields.res (Or.inr (this _ hm))
        · exact Yields.res (Or.inl rfl)
      · exact Or.inl rfl
    exact this _ hd
  constructor
  · intro e' t' hcs
    rcases kinds with rfl | hk
    · exact absurd hcs (hs.2.2 e' t')
    · have := (cast_token hu h hk).unique hu hcs
      exact ⟨this.2, this.1⟩
  · intro hno
    rcases kinds with rfl | hk
    · exact ⟨rfl, hs.1⟩
    · exact absurd (cast_token hu h hk) (hno e t)

/-! ### C45 text inside interpolated strings -/

/-- **C45.** A piece of plain text of an interpolated string contains the closing quote of that string
and the beginning of an interpolation only escaped by a backslash. -/
theorem encapsed_text (hu : u.Lawful) (h : Returned u c php s s' .ENCAPSED_AND_WHITESPACE b e) :
    EncapsedSpec u c (strQuote s.stack) b e := h.spec hu

/-! ### Concrete runs meeting the hypotheses -/

/-- Decide a `Returned` fact for a concrete text: run `n` calls, then one more. -/
theorem Returned.ofRun {n : Nat} {os : List Out} (h1 : runN u c n (LState.init php) = some (os, s))
    (h2 : step u c s = some (s', .tok t b e)) : Returned u c php s s' t b e := ⟨⟨n, os, h1⟩, h2⟩

-- C09: `FUNCTION` in code
example : ∃ s s', Returned asciiClass (q! "FuncTION f") true s s' .FUNCTION 0 8 ∧ isCode s.stack :=
  ⟨_, _, Returned.ofRun (n := 0) rfl rfl, ⟨_, _, rfl, Or.inl rfl⟩⟩
-- C10, C11: inline HTML, open tag, close tag
example : ∃ s s', Returned asciiClass (q! "a<?xml?><?php ?>b") false s s' .INLINE_HTML 1 8 :=
  ⟨_, _, Returned.ofRun (n := 1) rfl rfl⟩
example : ∃ s s', Returned asciiClass (q! "\"{$a?>b") true s s' .CLOSE_TAG 4 6 ∧
    s.stack = [.StrVarCurly, .Str, .Default, .Html, .Error] :=
  ⟨_, _, Returned.ofRun (n := 3) rfl rfl, rfl⟩
-- C12, C13, C14, C15
example : ∃ s s', Returned asciiClass (q! "'a\\'b' c") true s s' .CONSTANT_ENCAPSED_STRING 0 6 :=
  ⟨_, _, Returned.ofRun (n := 0) rfl rfl⟩
example : ∃ s s', Returned asciiClass (q! "/* a */ b */") true s s' .COMMENT 0 7 :=
  ⟨_, _, Returned.ofRun (n := 0) rfl rfl⟩
example : ∃ s s', Returned asciiClass (q! "/** a */ b */") true s s' .DOC_COMMENT 0 8 :=
  ⟨_, _, Returned.ofRun (n := 0) rfl rfl⟩
example : ∃ s s', Returned asciiClass (q! "  $a_1;") true s s' .WHITESPACE 0 2 :=
  ⟨_, _, Returned.ofRun (n := 0) rfl rfl⟩
example : ∃ s s', Returned asciiClass (q! "  $a_1;") true s s' .VARIABLE 2 6 :=
  ⟨_, _, Returned.ofRun (n := 1) rfl rfl⟩
-- C16
example : ∃ s s', Returned asciiClass (q! "9223372036854775808;") true s s' .DNUMBER 0 19 ∧
    DecimalSpec asciiClass (q! "9223372036854775808;") 0 19 ∧ isCode s.stack := by
  refine ⟨_, _, Returned.ofRun (n := 0) rfl rfl, ⟨by decide, by decide, ?_, by decide⟩,
    ⟨_, _, rfl, Or.inl rfl⟩⟩
  have : ∀ k < 19, asciiDigit (chr (q! "9223372036854775808;") k) = true := by decide
  exact fun k _ hk => this k hk
-- C17: start, text with an interpolated variable, end
example : ∃ s₀ s₁ s₂ s₃ os, Returned asciiClass (q! "<<<A" ++ [10] ++ q! "$x" ++ [10] ++ q! "A;" ++ [10])
      true s₀ s₁ .START_HEREDOC 0 5 ∧
    runN asciiClass (q! "<<<A" ++ [10] ++ q! "$x" ++ [10] ++ q! "A;" ++ [10]) 2 s₁ = some (os, s₂) ∧
    HasDoc s₁.stack ∧ HasDoc s₂.stack ∧
    step asciiClass (q! "<<<A" ++ [10] ++ q! "$x" ++ [10] ++ q! "A;" ++ [10]) s₂ =
      some (s₃, .tok .END_HEREDOC 8 9) :=
  ⟨_, _, _, _, _, Returned.ofRun (n := 0) rfl rfl, rfl, Or.inl (by decide), Or.inl (by decide), rfl⟩
-- C18
example : ∃ s s', Returned asciiClass (q! "( Int ) 1") true s s' .INT_CAST 0 7 ∧ isCode s.stack :=
  ⟨_, _, Returned.ofRun (n := 0) rfl rfl, ⟨_, _, rfl, Or.inl rfl⟩⟩
example : ∃ s s', Returned asciiClass (q! "(foo)") true s s' .LPAREN 0 1 ∧ isCode s.stack :=
  ⟨_, _, Returned.ofRun (n := 0) rfl rfl, ⟨_, _, rfl, Or.inl rfl⟩⟩
-- C45
example : ∃ s s', Returned asciiClass (q! "\"a\\\"b $c\"") true s s' .ENCAPSED_AND_WHITESPACE 1 6 :=
  ⟨_, _, Returned.ofRun (n := 1) rfl rfl⟩

end KPhp
