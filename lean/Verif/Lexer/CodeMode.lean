import Verif.Lexer.Run
/-! Which branch a character in a code mode selects. -/
namespace KPhp
section
variable {u : CharClass} (hu : u.Lawful) {c : QString} {b : Nat} {stack : List St} {ident : QString}

theorem dispatch_code (hc : isCode stack) :
    dispatch u c b stack ident = codeBranch u c b stack ident := by
  obtain ⟨t, r, rfl, h⟩ := hc
  rcases h with rfl | rfl <;> rfl

theorem numTest_eq (hb : b < c.length) :
    (testAt c b u.isDigit ||? (isAt c b (c! '.') &&? testAt c (b + 1) u.isDigit)) =
      some (u.isDigit (chr c b) || (chr c b == 46 && u.isDigit (chr c (b + 1)))) :=
    orO_some (testAt_some (by omega)) fun _ => andO_some (isAt_some (by omega)) fun _ =>
      testAt_some (by omega)

include hu in
theorem code_digit (hb : b < c.length) (hc : isCode stack) (hd : u.isDigit (chr c b) = true) :
    codeBranch u c b stack ident = numBranch u c b stack ident := by
  obtain ⟨top, rest, rfl, htop⟩ := id hc
  unfold codeBranch
  simp only [Option.bind_eq_bind]
  rw [rd_some (by omega), Option.bind_some]
  simp only [List.getElem?_cons_zero, Option.bind_some]
  rw [if_neg (by rw [hu.digit_not_space _ hd]; decide), numTest_eq hb, Option.bind_some,
    if_pos (by rw [hd]; rfl)]

include hu in
theorem code_paren (hb : b < c.length) (hc : isCode stack) (hd : chr c b = c! '(') :
    codeBranch u c b stack ident = parenBranch u c b stack ident := by
  obtain ⟨top, rest, rfl, htop⟩ := id hc
  unfold codeBranch
  simp only [Option.bind_eq_bind]
  rw [rd_some (by omega), Option.bind_some]
  simp only [List.getElem?_cons_zero, Option.bind_some]
  have hv : processVariable u c b = some none := by
    rcases processVariable_spec hu (c := c) hb with ⟨h, _⟩ | ⟨e, h, h'⟩
    · exact h
    · have := h'.dollar; omega
  rw [if_neg (by rw [hd, hu.space_ascii _ (by omega)]; decide), numTest_eq hb, Option.bind_some,
    if_neg (by rw [hd, hu.digit_ascii _ (by omega)]; simp [asciiDigit]), hv, Option.bind_some]
  simp [hd]

include hu in
theorem code_word {e : Nat} (hc : isCode stack) (hw : WordSpec u c b e)
    (hs : u.isSpace (chr c b) = false) :
    codeBranch u c b stack ident = wordBranch u c b stack ident := by
  obtain ⟨top, rest, rfl, htop⟩ := id hc
  have hbe := hw.nonempty
  have hb : b < c.length := by have := hw.inText; omega
  have hval : validIdent u (chr c b) = true := hw.all b (Nat.le_refl _) hbe
  have hd := hw.noDigit
  have hst : identStart u (chr c b) = true := by unfold identStart; rw [hval, hd]; rfl
  have ne : ∀ x, x < 128 → (asciiLetter x || asciiDigit x || x == 95) = false → chr c b ≠ x := by
    rintro x hx h rfl
    rw [valid_ascii hu hx, h] at hval; exact absurd hval (by decide)
  have hv : processVariable u c b = some none := by
    rcases processVariable_spec hu (c := c) hb with ⟨h, _⟩ | ⟨e, h, h'⟩
    · exact h
    · exact absurd h'.dollar (ne 36 (by decide) (by decide))
  unfold codeBranch
  simp only [Option.bind_eq_bind]
  rw [rd_some (by omega), Option.bind_some]
  simp only [List.getElem?_cons_zero, Option.bind_some]
  rw [if_neg (by rw [hs]; decide), numTest_eq hb, Option.bind_some,
    if_neg (by rw [hd]; simp [ne 46 (by decide) (by decide)]), hv, Option.bind_some]
  simp only
  have harr : (isAt c b (c! '-') &&? isAt c (b + 1) (c! '>')) = some false := by
    rw [isAt_some (by omega)]
    have : (chr c b == 45) = false := by simpa using ne 45 (by decide) (by decide)
    rw [this]; rfl
  rw [if_neg (ne 36 (by decide) (by decide)), if_neg (ne 125 (by decide) (by decide)),
    if_neg (ne 123 (by decide) (by decide)), if_neg (ne 40 (by decide) (by decide)),
    if_neg (ne 60 (by decide) (by decide)), if_neg (ne 63 (by decide) (by decide)), harr,
    Option.bind_some, if_neg (by decide), if_neg (ne 47 (by decide) (by decide)),
    if_neg (ne 35 (by decide) (by decide)), if_neg (ne 39 (by decide) (by decide)),
    if_neg (ne 34 (by decide) (by decide)), if_neg (ne 96 (by decide) (by decide)),
    punct_valid hu hval, Option.bind_some]
  simp only
  rw [if_pos hst]

/-- A maximal word is unique. -/
theorem WordSpec.unique {e e' : Nat} (h : WordSpec u c b e) (h' : WordSpec u c b e') : e = e' := by
  have a := h.nonempty; have a' := h'.nonempty
  have b1 := h.inText; have b' := h'.inText
  rcases Nat.lt_trichotomy e e' with hlt | heq | hlt
  · have := h.maximal (by omega)
    rw [h'.all e (by omega) hlt] at this; exact absurd this (by decide)
  · exact heq
  · have := h'.maximal (by omega)
    rw [h.all e' (by omega) hlt] at this; exact absurd this (by decide)

/-- Every result of the word branch on a word that is not `static` or `yield`. -/
theorem wordBranch_eq {e : Nat} (hw : WordSpec u c b e)
    (h1 : ciEq u (slice c b e) (q! "static") = false) (h2 : ciEq u (slice c b e) (q! "yield") = false) :
    wordBranch u c b stack ident =
      some ⟨(lookupCI u keywordTable (slice c b e)).getD .STRING, e, stack, ident, []⟩ := by
  have hbe := hw.nonempty
  have hb : b < c.length := by have := hw.inText; omega
  have hst : identStart u (chr c b) = true := by
    unfold identStart; rw [validIdent_eq, hw.all b (Nat.le_refl _) hbe, hw.noDigit]; rfl
  obtain ⟨e', s1, hw'⟩ := word_scan hb hst
  obtain rfl := hw.unique hw'
  unfold wordBranch
  simp only [Option.bind_eq_bind]
  rw [s1, Option.bind_some, if_neg (by rw [h1]; decide), if_neg (by rw [h2]; decide)]
  cases lookupCI u keywordTable (slice c b e) <;> rfl

/-- Results of the word branch on `static`. -/
theorem wordBranch_static {e : Nat} (hw : WordSpec u c b e)
    (h1 : ciEq u (slice c b e) (q! "static") = true) {r : Res}
    (h : wordBranch u c b stack ident = some r) :
    (r.tok = .STATIC ∨ r.tok = .STRING) ∧ r.nxt = e := by
  have hbe := hw.nonempty
  have hb : b < c.length := by have := hw.inText; omega
  have hst : identStart u (chr c b) = true := by
    unfold identStart; rw [validIdent_eq, hw.all b (Nat.le_refl _) hbe, hw.noDigit]; rfl
  obtain ⟨e', s1, hw'⟩ := word_scan hb hst
  obtain rfl := hw.unique hw'
  unfold wordBranch at h
  simp only [Option.bind_eq_bind] at h
  rw [s1, Option.bind_some, if_pos h1] at h
  simp only [Option.bind_eq_some_iff] at h
  obtain ⟨_, _, l, _, h⟩ := h
  simp at h
  subst h
  cases l <;> simp

/-- Results of the word branch on `yield`. -/
theorem wordBranch_yield {e : Nat} (hw : WordSpec u c b e)
    (h1 : ciEq u (slice c b e) (q! "static") = false)
    (h2 : ciEq u (slice c b e) (q! "yield") = true) {r : Res}
    (h : wordBranch u c b stack ident = some r) :
    (r.tok = .YIELD ∧ r.nxt = e) ∨ r.tok = .YIELD_FROM := by
  have hbe := hw.nonempty
  have hb : b < c.length := by have := hw.inText; omega
  have hst : identStart u (chr c b) = true := by
    unfold identStart; rw [validIdent_eq, hw.all b (Nat.le_refl _) hbe, hw.noDigit]; rfl
  obtain ⟨e', s1, hw'⟩ := word_scan hb hst
  obtain rfl := hw.unique hw'
  unfold wordBranch at h
  simp only [Option.bind_eq_bind] at h
  rw [s1, Option.bind_some, if_neg (by rw [h1]; decide), if_pos h2] at h
  simp only [Option.bind_eq_some_iff] at h
  obtain ⟨_, _, _, _, _, _, _, _, _, _, h⟩ := h
  split at h <;> simp at h <;> subst h <;> simp

/-- The table entry found is determined by the word, ignoring case. -/
theorem ciEq_fold {u : CharClass} {a b : QString} : ciEq u a b = true ↔ a.map u.fold = b.map u.fold := by
  unfold ciEq; simp

theorem lookupCI_congr {u : CharClass} {t : List (QString × Tok)} {a b : QString}
    (h : ciEq u a b = true) : lookupCI u t a = lookupCI u t b := by
  unfold lookupCI
  congr 2
  funext x
  rw [ciEq_fold] at h
  unfold ciEq; rw [h]

/-- ASCII words fold to themselves lower-cased. -/
theorem fold_ascii_str {u : CharClass} (hu : u.Lawful) {s : QString} (h : ∀ x ∈ s, x < 128) :
    s.map u.fold = s.map asciiLower :=
  List.map_congr_left fun x hx => hu.fold_ascii x (h x hx)

include hu in
/-- A table with distinct lower-case ASCII names is a function on words up to case. -/
theorem lookupCI_of_mem {t : List (QString × Tok)} (hascii : ∀ x ∈ t, ∀ ch ∈ x.1, ch < 128)
    (hinj : ∀ x ∈ t, ∀ y ∈ t, x.1.map asciiLower = y.1.map asciiLower → x.2 = y.2)
    {name k : QString} {tk : Tok} (hm : (k, tk) ∈ t) (h : ciEq u name k = true) :
    lookupCI u t name = some tk := by
  unfold lookupCI
  cases hf : t.find? (fun e => ciEq u name e.1) with
  | none =>
    rw [List.find?_eq_none] at hf
    exact absurd h (hf _ hm)
  | some y =>
    have hy := List.mem_of_find?_eq_some hf
    have hce : ciEq u name y.1 = true := by simpa using List.find?_some hf
    rw [ciEq_fold] at hce h
    have : k.map u.fold = y.1.map u.fold := h.symm.trans hce
    rw [fold_ascii_str hu (hascii _ hm), fold_ascii_str hu (hascii _ hy)] at this
    exact congrArg some (hinj _ hm _ hy this).symm

end
end KPhp
