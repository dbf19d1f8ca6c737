import Verif.Lexer.Operators
/-!
# Which lexical element begins where

Completeness of the recognition of heredocs, and the kinds of token by the first characters in code.
Together with `operator_token` and `word_token` this covers every position in PHP code.
-/
namespace KPhp

/-- A heredoc (`nd = false`) or nowdoc (`nd = true`) with identifier `id` is opened by `[b, e)`: `<<<`,
blanks, the identifier — bare, or in double quotes; in single quotes for a nowdoc — and a line break. -/
structure HereOpen (u : CharClass) (c : QString) (id : QString) (nd : Bool) (b e : Nat) : Prop where
  arrows : TextAt c b (q! "<<<")
  body : ∃ s p q, b + 3 ≤ s ∧ AllChr c (b + 3) s (fun ch => ch = c! ' ' ∨ ch = 9) ∧
    p < q ∧ AllChr c p q (fun ch => u.isDigit ch = true ∨ u.isLetter ch = true ∨ ch = c! '_') ∧
    u.isDigit (chr c p) = false ∧ id = slice c p q ∧
    ((p = s ∧ nd = false ∧ e = q + 1) ∨
     (p = s + 1 ∧ e = q + 2 ∧ chr c s = (if nd then c! '\'' else c! '"') ∧
       chr c q = (if nd then c! '\'' else c! '"'))) ∧
    chr c (e - 1) = 10

section
variable {u : CharClass} {c : QString} {b : Nat} {stack : List St} {ident : QString}

theorem scan_to {bound i r : Nat} {f : QChar → Bool} (hb : bound ≤ c.length) (h1 : i ≤ r)
    (h2 : ∀ j, i ≤ j → j < r → f (chr c j) = true) (h3 : r < bound) (h4 : f (chr c r) = false) :
    scan bound (fun j => testAt c j f) i = some r := by
  obtain ⟨r', s1, s2, _, _, s4, s5⟩ := scan_chr (c := c) (bound := bound) (i := i) f hb
  rw [s1, scan_unique (f := fun j => f (chr c j)) h1 h2 h3 h4 s2 s4 s5]

theorem heredocStart_of_open (hu : u.Lawful) {id : QString} {nd : Bool} {e : Nat}
    (h : HereOpen u c id nd b e) (he : e < c.length) :
    heredocStart u c b ident = some (id, some (nd, e - 1)) := by
  obtain ⟨s, p, q, hs, hbl, hpq, hid, hnd, rfl, hq, hnl⟩ := h.body
  have idc : ∀ x, x < 128 → (asciiLetter x || asciiDigit x || x == 95) = false →
      (u.isDigit x || u.isLetter x || x == 95) = false := by
    intro x hx h
    rw [hu.digit_ascii _ hx, hu.letter_ascii _ hx]
    revert h; cases asciiLetter x <;> cases asciiDigit x <;> cases (x == 95) <;> decide
  have hlet : (u.isLetter (chr c p) || chr c p == 95) = true := by
    have := hid p (Nat.le_refl _) hpq
    simp only [hnd, Bool.false_eq_true, false_or] at this; simpa using this
  have hpc : (u.isDigit (chr c p) || u.isLetter (chr c p) || chr c p == 95) = true := by
    rw [hnd]; simpa using hlet
  have pne : ∀ x, x < 128 → (asciiLetter x || asciiDigit x || x == 95) = false → chr c p ≠ x := by
    rintro x hx h' rfl
    rw [idc _ hx h'] at hpc; exact absurd hpc (by decide)
  have hidb : ∀ j, p ≤ j → j < q →
      (u.isDigit (chr c j) || u.isLetter (chr c j) || chr c j == 95) = true := by
    intro j h1 h2
    have := hid j h1 h2
    simpa [or_assoc] using this
  unfold heredocStart
  simp only [Option.bind_eq_bind]
  rcases hq with ⟨rfl, rfl, rfl⟩ | ⟨rfl, rfl, hsq, hqq⟩
  · simp only [Nat.add_sub_cancel] at hnl ⊢
    rw [scan_to (r := p) (by omega) hs (fun j h1 h2 => by simpa using hbl j h1 h2) (by omega)
      (by simp [pne 32 (by decide) (by decide), pne 9 (by decide) (by decide)]), Option.bind_some,
      isAt_some (by omega), Option.bind_some]
    have h39 : (chr c p == 39) = false := by simpa using pne 39 (by decide) (by decide)
    have h34 : (chr c p == 34) = false := by simpa using pne 34 (by decide) (by decide)
    have hfq : (some (chr c p == 39) ||? isAt c p (c! '"')) = some false := by
      rw [orO_some rfl fun _ => isAt_some (by omega), h39, h34]; rfl
    rw [hfq, Option.bind_some]
    simp only [Bool.false_eq_true, if_false]
    rw [testAt_some (by omega), Option.bind_some, if_pos hlet,
      scan_to (r := q) (by omega) (by omega) hidb (by omega)
        (by rw [hnl]; exact idc 10 (by decide) (by decide)), Option.bind_some]
    have hcq : ∀ (x : Option Bool), ((some (false && decide (q + 1 < c.length))) &&? x) = some false := by
      intro x; rfl
    rw [hcq, Option.bind_some]
    simp only [Bool.false_eq_true, if_false]
    have hok : ((some (decide (q + 1 < c.length))) &&? isAt c q 10) = some true := by
      rw [andO_some rfl fun _ => isAt_some (by omega), hnl]; simp [he]
    rw [hok, Option.bind_some, h39]
    rfl
  · have e1 : q + 2 - 1 = q + 1 := by omega
    rw [e1] at hnl ⊢
    have hsne : (chr c s == 32 || chr c s == 9) = false := by rw [hsq]; cases nd <;> rfl
    rw [scan_to (r := s) (by omega) hs (fun j h1 h2 => by simpa using hbl j h1 h2) (by omega) hsne,
      Option.bind_some, isAt_some (by omega), Option.bind_some]
    have hfq : (some (chr c s == 39) ||? isAt c s (c! '"')) = some true := by
      rw [orO_some rfl fun _ => isAt_some (by omega), hsq]; cases nd <;> rfl
    rw [hfq, Option.bind_some]
    simp only [if_true]
    rw [testAt_some (by omega), Option.bind_some, if_pos hlet,
      scan_to (r := q) (by omega) (by omega) hidb (by omega)
        (by rw [hqq]; cases nd <;> exact idc _ (by decide) (by decide)), Option.bind_some]
    have hcq : ((some (true && decide (q + 1 < c.length))) &&?
        testAt c q (fun ch => (chr c s == 39 && ch == c! '\'') || ch == c! '"')) = some true := by
      rw [andO_some rfl fun _ => testAt_some (by omega), hsq, hqq]
      simp [show q + 1 < c.length by omega]
    rw [hcq, Option.bind_some]
    simp only [if_true]
    have hok : ((some (decide (q + 1 + 1 < c.length))) &&? isAt c (q + 1) 10) = some true := by
      rw [andO_some rfl fun _ => isAt_some (by omega), hnl]; simp; omega
    rw [hok, Option.bind_some, hsq]
    cases nd <;> rfl

/-- **C17 (completeness).** In PHP code outside `{$…}` interpolation, a well-formed heredoc or nowdoc
opening that is not the last thing in the text is recognised, with exactly its identifier. -/
theorem heredoc_recognized {php : Bool} {s s' : LState} {t : Tok} {e e' : Nat} (hu : u.Lawful)
    (h : Returned u c php s s' t b e) (hc : s.stack.head? = some .Default) {id : QString} {nd : Bool}
    (ho : HereOpen u c id nd b e') (he : e' < c.length) :
    t = (if nd then .START_NOWDOC else .START_HEREDOC) ∧ e = e' ∧ s'.ident = id ∧
      s'.stack = (if nd then St.Nowdoc else .Heredoc) :: s.stack := by
  obtain ⟨_, _, hb, _, nls, hd, _, _⟩ := h.good hu
  obtain ⟨rest, hst⟩ : ∃ rest, s.stack = .Default :: rest := by
    cases hs : s.stack with
    | nil => rw [hs] at hc; simp at hc
    | cons a r => rw [hs] at hc; simp at hc; subst hc; exact ⟨r, rfl⟩
  rw [dispatch_code ⟨_, _, hst, Or.inl rfl⟩] at hd
  rw [hst] at hd
  obtain ⟨h0, h1, h2, _⟩ := ho.arrows
  have hb2 := lt_of_chr_eq h2 (by decide)
  have hv : processVariable u c b = some none := by
    rcases processVariable_spec hu (c := c) hb with ⟨h, _⟩ | ⟨e, h, h'⟩
    · exact h
    · have := h'.dollar; rw [h0] at this; simp at this
  unfold codeBranch at hd
  simp only [Option.bind_eq_bind] at hd
  rw [rd_some (by omega), Option.bind_some] at hd
  simp only [List.getElem?_cons_zero, Option.bind_some] at hd
  rw [if_neg (by rw [h0, hu.space_ascii _ (by omega)]; decide), numTest_eq hb, Option.bind_some,
    if_neg (by rw [h0, hu.digit_ascii _ (by omega)]; simp [asciiDigit]), hv, Option.bind_some] at hd
  simp only [h0] at hd
  simp only [Nat.reduceEqDiff, if_false, if_true] at hd
  unfold ltBranch at hd
  simp only [Option.bind_eq_bind] at hd
  rw [rd_some (by omega), Option.bind_some, if_pos h1, rd_some (by omega), Option.bind_some] at hd
  simp only [List.getElem?_cons_zero, Option.bind_some] at hd
  rw [h2] at hd
  have : heredocOpt u c b s.ident ((60 : Nat) == c! '<' && St.Default != .StrVarCurly) =
      some (id, some (nd, e' - 1)) := heredocStart_of_open hu ho he
  rw [this, Option.bind_some] at hd
  have hep : 0 < e' := by
    rcases ho.body with ⟨_, _, q, _, _, _, _, _, _, h | h, _⟩ <;> omega
  cases nd
  · simp only [Option.some.injEq, Res.mk.injEq] at hd
    obtain ⟨rfl, h3, h4, h5, _⟩ := hd
    exact ⟨rfl, by omega, h5.symm, by rw [← h4, hst]; rfl⟩
  · simp only [Option.some.injEq, Res.mk.injEq] at hd
    obtain ⟨rfl, h3, h4, h5, _⟩ := hd
    exact ⟨rfl, by omega, h5.symm, by rw [← h4, hst]; rfl⟩

example : ∃ s s', Returned asciiClass (q! "f(<<<'A1'\nx\nA1\n);") true s s' .START_NOWDOC 2 10 ∧
    s.stack.head? = some .Default :=
  ⟨_, _, Returned.ofRun (n := 2) rfl rfl, rfl⟩
example : HereOpen asciiClass (q! "f(<<<'A1'\nx\nA1\n);") (q! "A1") true 2 10 where
  arrows := ⟨rfl, rfl, rfl, trivial⟩
  body := ⟨5, 6, 8, by decide, by intro k h1 h2; omega, by decide, by
    intro k h1 h2
    have : k = 6 ∨ k = 7 := by omega
    rcases this with rfl | rfl <;> decide, by decide, by decide, Or.inr (by decide), by decide⟩

/-- The kinds of token that can begin with given characters in PHP code. -/
structure ElementKinds (u : CharClass) (c : QString) (b : Nat) (t : Tok) : Prop where
  space : u.isSpace (chr c b) = true → t = .WHITESPACE
  number : u.isSpace (chr c b) = false → u.isDigit (chr c b) = true ∨
    (chr c b = c! '.' ∧ u.isDigit (chr c (b + 1)) = true) → t = .LNUMBER ∨ t = .DNUMBER
  var : chr c b = c! '$' → nameStart u (chr c (b + 1)) = true → t = .VARIABLE
  squote : chr c b = c! '\'' → t = .CONSTANT_ENCAPSED_STRING
  dquote : chr c b = c! '"' → t = .CONSTANT_ENCAPSED_STRING ∨ t = .DOUBLE_QUOTE
  hash : chr c b = c! '#' → t = .COMMENT
  line : TextAt c b (q! "//") →
    t = if chr c (b + 2) = c! '/' then .DOC_COMMENT else .COMMENT
  block : TextAt c b (q! "/*") →
    t = if chr c (b + 2) = c! '*' ∧ u.isSpace (chr c (b + 3)) = true then .DOC_COMMENT else .COMMENT

/-- A branch can only return the token `t`. -/
def Only (t : Tok) (x : Option Res) : Prop := ∀ r, x = some r → r.tok = t

theorem wsBranch_only : Only .WHITESPACE (wsBranch u c b stack ident) := by
  intro r h
  unfold wsBranch at h
  simp only [Option.bind_eq_bind, Option.bind_eq_some_iff] at h
  obtain ⟨_, _, h⟩ := h
  simp at h; rw [← h]

theorem numBranch_only {r : Res} (h : numBranch u c b stack ident = some r) :
    r.tok = .LNUMBER ∨ r.tok = .DNUMBER := by
  unfold numBranch at h
  simp only [Option.bind_eq_bind, Option.bind_eq_some_iff] at h
  obtain ⟨_, _, _, _, ⟨e, hp⟩, _, _, _, h⟩ := h
  split at h
  · simp only [Option.bind_eq_some_iff] at h
    obtain ⟨_, _, _, _, h⟩ := h
    simp at h; rw [← h]; exact Or.inr rfl
  · split at h
    · simp at h; rw [← h]; exact Or.inr rfl
    · generalize toLongOk _ _ = x at h
      cases x <;> simp at h <;> rw [← h]
      · exact Or.inr rfl
      · exact Or.inl rfl

theorem squoteBranch_only : Only .CONSTANT_ENCAPSED_STRING (squoteBranch c b stack ident) := by
  intro r h
  unfold squoteBranch at h
  simp only [Option.bind_eq_bind, Option.bind_eq_some_iff] at h
  obtain ⟨_, _, h⟩ := h
  simp at h; rw [← h]

theorem dquoteBranch_only {r : Res} (h : dquoteBranch u c b stack ident = some r) :
    r.tok = .CONSTANT_ENCAPSED_STRING ∨ r.tok = .DOUBLE_QUOTE := by
  unfold dquoteBranch at h
  simp only [Option.bind_eq_bind, Option.bind_eq_some_iff] at h
  obtain ⟨_, _, h⟩ := h
  split at h
  · simp at h; rw [← h]; exact Or.inr rfl
  · split at h <;> simp at h <;> rw [← h] <;> exact Or.inl rfl

theorem hashBranch_only : Only .COMMENT (hashBranch u c b stack ident) := by
  intro r h
  unfold hashBranch at h
  simp only [Option.bind_eq_bind, Option.bind_eq_some_iff] at h
  obtain ⟨_, _, h⟩ := h
  simp at h; rw [← h]

/-- The branches for the quotes, `#` and `/`. -/
theorem code_quote (hu : u.Lawful) (hb : b < c.length) (hc : isCode stack)
    (h : chr c b = 39 ∨ chr c b = 34 ∨ chr c b = 35 ∨ chr c b = 47) :
    codeBranch u c b stack ident =
      if chr c b = 39 then squoteBranch c b stack ident
      else if chr c b = 34 then dquoteBranch u c b stack ident
      else if chr c b = 35 then hashBranch u c b stack ident
      else slashBranch u c b stack ident := by
  obtain ⟨top, rest, rfl, htop⟩ := id hc
  have hv : processVariable u c b = some none := by
    rcases processVariable_spec hu (c := c) hb with ⟨h, _⟩ | ⟨e, h, h'⟩
    · exact h
    · have := h'.dollar; omega
  unfold codeBranch
  simp only [Option.bind_eq_bind]
  rw [rd_some (by omega), Option.bind_some]
  simp only [List.getElem?_cons_zero, Option.bind_some]
  have harr : (isAt c b (c! '-') &&? isAt c (b + 1) (c! '>')) = some false := by
    rw [isAt_some (by omega)]
    have : (chr c b == 45) = false := by simp; omega
    rw [this]; rfl
  have hs : u.isSpace (chr c b) = false := by
    rw [hu.space_ascii _ (by omega)]
    rcases h with h | h | h | h <;> rw [h] <;> decide
  have hd : u.isDigit (chr c b) = false := by
    rw [hu.digit_ascii _ (by omega)]
    rcases h with h | h | h | h <;> rw [h] <;> decide
  rw [if_neg (by rw [hs]; decide), numTest_eq hb, Option.bind_some,
    if_neg (by rw [hd]; simp; omega), hv, Option.bind_some, harr, Option.bind_some]
  rcases h with h | h | h | h <;> simp [h]

/-- **C53 (elements).** In PHP code the first characters determine the kind of the other tokens: white
space, numbers, variables, string literals and comments. -/
theorem element_token {php : Bool} {s s' : LState} {t : Tok} {e : Nat} (hu : u.Lawful)
    (h : Returned u c php s s' t b e) (hc : isCode s.stack) : ElementKinds u c b t := by
  obtain ⟨_, _, hb, _, nls, hd, _, _⟩ := h.good hu
  rw [dispatch_code hc] at hd
  obtain ⟨top, rest, hst, htop⟩ := id hc
  have hd0 := hd
  unfold codeBranch at hd
  rw [hst] at hd
  simp only [Option.bind_eq_bind] at hd
  rw [rd_some (by omega), Option.bind_some] at hd
  simp only [List.getElem?_cons_zero, Option.bind_some] at hd
  refine ⟨?_, ?_, ?_, ?_, ?_, ?_, ?_, ?_⟩
  · intro hs
    rw [if_pos hs] at hd
    exact wsBranch_only _ hd
  · intro hs hn
    rw [if_neg (by rw [hs]; decide), numTest_eq hb, Option.bind_some,
      if_pos (by rcases hn with h | h <;> simp [h])] at hd
    exact numBranch_only hd
  · intro h36 hn
    rcases processVariable_spec hu (c := c) hb with ⟨hv, hno⟩ | ⟨e', hv, h'⟩
    · exact absurd ⟨h36, hn⟩ hno
    · rw [if_neg (by rw [h36, hu.space_ascii _ (by omega)]; decide), numTest_eq hb, Option.bind_some,
        if_neg (by rw [h36, hu.digit_ascii _ (by omega)]; simp [asciiDigit]), hv,
        Option.bind_some] at hd
      simp at hd
      exact hd.1.symm
  · intro h0
    rw [code_quote hu hb hc (Or.inl h0), if_pos h0] at hd0
    exact squoteBranch_only _ hd0
  · intro h0
    rw [code_quote hu hb hc (Or.inr (Or.inl h0)), if_neg (by omega), if_pos h0] at hd0
    exact dquoteBranch_only hd0
  · intro h0
    rw [code_quote hu hb hc (Or.inr (Or.inr (Or.inl h0))), if_neg (by omega), if_neg (by omega),
      if_pos h0] at hd0
    exact hashBranch_only _ hd0
  · rintro ⟨h0, h1, _⟩
    rw [code_quote hu hb hc (Or.inr (Or.inr (Or.inr h0))), if_neg (by omega), if_neg (by omega),
      if_neg (by omega)] at hd0
    have hb1 := lt_of_chr_eq h1 (by decide)
    unfold slashBranch at hd0
    simp only [Option.bind_eq_bind] at hd0
    rw [rd_some (by omega), Option.bind_some, if_neg (by omega), if_pos h1, isAt_some (by omega),
      Option.bind_some] at hd0
    simp only [Option.bind_eq_some_iff] at hd0
    obtain ⟨_, _, hd0⟩ := hd0
    simp at hd0
    exact hd0.1.symm
  · rintro ⟨h0, h1, _⟩
    rw [code_quote hu hb hc (Or.inr (Or.inr (Or.inr h0))), if_neg (by omega), if_neg (by omega),
      if_neg (by omega)] at hd0
    have hb1 := lt_of_chr_eq h1 (by decide)
    have hdoc : (isAt c (b + 2) (c! '*') &&? testAt c (b + 3) u.isSpace) =
        some (chr c (b + 2) == 42 && u.isSpace (chr c (b + 3))) :=
      andO_some (isAt_some (by omega)) fun h =>
        testAt_some (by have := lt_of_beq h (by decide); omega)
    unfold slashBranch at hd0
    simp only [Option.bind_eq_bind] at hd0
    rw [rd_some (by omega), Option.bind_some, if_neg (by omega), if_neg (by omega), if_pos h1, hdoc,
      Option.bind_some] at hd0
    simp only [Option.bind_eq_some_iff] at hd0
    obtain ⟨_, _, hd0⟩ := hd0
    simp at hd0
    exact hd0.1.symm

example : ∃ s s', Returned asciiClass (q! "1 /** x */") true s s' .DOC_COMMENT 2 10 ∧ isCode s.stack :=
  ⟨_, _, Returned.ofRun (n := 2) rfl rfl, ⟨_, _, rfl, Or.inl rfl⟩⟩
end
end KPhp
