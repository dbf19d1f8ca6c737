import Verif.Lexer.Branch4
/-! Words, punctuation, and the whole code mode. -/
namespace KPhp

/-- At `b`: `yield`, white space, and then fewer than three further characters: here the lexer's
unconditional four-character look-ahead leaves the text. -/
def YieldHazardAt (u : CharClass) (c : QString) (b : Nat) : Prop :=
  ∃ e p, WordSpec u c b e ∧ ciEq u (slice c b e) (q! "yield") = true ∧ e ≤ p ∧ p ≤ c.length ∧
    AllChr c e p (fun ch => u.isSpace ch = true) ∧ c.length < p + 3

/-- Somewhere in the text. -/
def YieldHazard (u : CharClass) (c : QString) : Prop := ∃ b, YieldHazardAt u c b

section
variable {u : CharClass} (hu : u.Lawful) {c : QString} {b : Nat} {stack : List St} {ident : QString}

include hu in
theorem lookAheadWs_spec {e : Nat} (he : 0 < e) (hel : e ≤ c.length) :
    ∃ pos, lookAheadWs u c e = some pos ∧ e ≤ pos + 1 ∧ pos + 1 ≤ c.length ∧
      AllChr c e (pos + 1) (fun ch => u.isSpace ch = true) ∧ u.isSpace (chr c (pos + 1)) = false := by
  obtain ⟨p, s1, s2, s3, _, s4, s5⟩ := scan_spec (bound := c.length) (i := e - 1)
    (p := fun pos => testAt c (pos + 1) u.isSpace) (fun pos => u.isSpace (chr c (pos + 1)))
    (fun j hj1 hj2 _ => testAt_some (by omega))
  have s3' := s3 (by omega)
  have hlt : p < c.length := by
    by_cases h : p = c.length
    · have := s4 (c.length - 1) (by omega) (by omega)
      have := lt_of_space hu this
      omega
    · omega
  refine ⟨p, s1, by omega, by omega, ?_, s5 hlt⟩
  intro k hk1 hk2
  have := s4 (k - 1) (by omega) (by omega)
  rwa [show k - 1 + 1 = k by omega] at this

theorem tokSpec_keyword {e : Nat} {t : Tok} (h : t.isKeyword = true) :
    TokSpec u c stack ident b e t := by
  cases t <;> first | trivial | exact absurd h (by decide)

/-- The identifier scan at an identifier start. -/
theorem word_scan (hb : b < c.length) (h0 : identStart u (chr c b) = true) :
    ∃ e, scan c.length (fun i => testAt c i (validIdent u)) b = some e ∧ WordSpec u c b e := by
  obtain ⟨e, s1, s2, s3, _, s4, s5⟩ := scan_chr (c := c) (bound := c.length) (i := b) (validIdent u)
    (Nat.le_refl _)
  have hbe : b < e := by
    by_cases h : e = b
    · subst h; have := s5 hb; rw [valid_of_start h0] at this; exact absurd this (by decide)
    · omega
  refine ⟨e, s1, hbe, s3 (by omega), s4, ?_, s5⟩
  unfold identStart at h0; simp at h0; exact h0.2

include hu in
theorem WordSpec.noNl {e : Nat} (h : WordSpec u c b e) : ∀ k, b ≤ k → k < e → chr c k ≠ 10 :=
  fun k h1 h2 => valid_ne_nl hu (h.all k h1 h2)

include hu in
theorem wordBranch_good (hb : b < c.length) (hi : SInv u c b stack ident) (hc : isCode stack)
    (h0 : identStart u (chr c b) = true) :
    (wordBranch u c b stack ident = none ∧ YieldHazardAt u c b) ∨
    ∃ r, wordBranch u c b stack ident = some r ∧ Good u c b stack ident r := by
  obtain ⟨e, s1, hw⟩ := word_scan hb h0
  have hbe := hw.nonempty
  have hel := hw.inText
  unfold wordBranch
  simp only [Option.bind_eq_bind]
  rw [s1, Option.bind_some]
  obtain ⟨pos, p1, p2, p3, p4, p5⟩ := lookAheadWs_spec hu (c := c) (e := e) (by omega) hel
  have simple : ∀ t, t.isKeyword = false → t ≠ .CLOSE_TAG ∧ t.plainNl = true → TokSpec u c stack ident b e t →
      Good u c b stack ident ⟨t, e, stack, ident, []⟩ := fun t h1 h2 h3 =>
    Good.simple hi hc hbe (by omega) h3 (notKw h1) (Or.inr (nlsIn_short (hw.noNl hu))) h2.1 (Or.inl h2.2)
  split
  · rename_i hst
    right
    rw [p1, Option.bind_some]
    have hl : ∃ x, ((some (decide (pos + 1 < c.length))) &&?
        isAt c (pos + 1) (c! ':') &&? isAt c (pos + 2) (c! ':')) = some x :=
      ⟨_, andO_some rfl fun h => andO_some (isAt_some (by simp at h; omega)) fun _ =>
        isAt_some (by simp at h; omega)⟩
    obtain ⟨x, hx⟩ := hl
    rw [hx, Option.bind_some]
    refine ⟨_, rfl, ?_⟩
    cases x
    · exact simple _ (by decide) (by decide) ⟨hw, hst⟩
    · exact simple _ (by decide) (by decide) trivial
  · split
    · rename_i hy
      rw [p1, Option.bind_some, rd_some p3, Option.bind_some]
      by_cases hlen : pos + 4 ≤ c.length
      · right
        rw [rd_some (by omega), Option.bind_some, rd_some (by omega), Option.bind_some,
          rd_some (by omega), Option.bind_some]
        split
        · rename_i hcond
          refine ⟨_, rfl, Good.simple hi hc (by omega) (by omega) ?_ (notKw (by decide))
            (Or.inl (NlRecorded.none (Or.inr rfl))) (by decide)
            (Or.inr (NlRecorded.none (Or.inr rfl)))⟩
          refine ⟨e, pos + 1, hw, hy, p2, p4, by omega, by omega, ?_⟩
          rw [← hcond.2]
          rw [show pos + 5 = pos + 1 + 1 + 1 + 1 + 1 by omega,
            ← slice_append (j := pos + 1 + 1 + 1 + 1) (by omega) (by omega),
            ← slice_append (i := pos + 1) (j := pos + 1 + 1 + 1) (k := pos + 1 + 1 + 1 + 1) (by omega) (by omega),
            ← slice_append (i := pos + 1) (j := pos + 1 + 1) (k := pos + 1 + 1 + 1) (by omega) (by omega),
            slice_chr (by omega), slice_chr (by omega), slice_chr (by omega), slice_chr (by omega)]
          rfl
        · exact ⟨_, rfl, simple _ (by decide) (by decide) ⟨hw, hy⟩⟩
      · left
        refine ⟨?_, e, pos + 1, hw, hy, p2, p3, p4, by omega⟩
        rw [rd_none (i := pos + 4) (by omega)]
        cases rd c (pos + 2) <;> cases rd c (pos + 3) <;> rfl
    · right
      cases hl : lookupCI u keywordTable (slice c b e) with
      | none => exact ⟨_, rfl, simple _ (by decide) (by decide) trivial⟩
      | some t =>
        unfold lookupCI at hl
        rw [Option.map_eq_some_iff] at hl
        obtain ⟨⟨nm, t'⟩, hf, ht⟩ := hl
        simp only at ht
        subst ht
        have hmem := List.mem_of_find?_eq_some hf
        have hce : ciEq u (slice c b e) nm = true := by simpa using List.find?_some hf
        have hk : t'.isKeyword = true := (isKeywordTok_iff _).1 ⟨nm, keywordNames_iff.2 hmem⟩
        refine ⟨_, rfl, Good.simple hi hc hbe (by omega) (tokSpec_keyword hk)
          (fun _ => ⟨hw, nm, keywordNames_iff.2 hmem, hce⟩) (Or.inr (nlsIn_short (hw.noNl hu))) ?_
          (Or.inl (by have : ∀ x ∈ keywordTable, x.2.plainNl = true := by decide
                      exact this _ hmem))⟩
        rintro rfl; exact absurd hk (by decide)

theorem nlsOf3 {k : Nat} (hk : k ≤ 3) (n0 : chr c b ≠ 10) (n1 : 1 < k → chr c (b + 1) ≠ 10)
    (n2 : 2 < k → chr c (b + 2) ≠ 10) : ∀ j, j < k → chr c (b + j) ≠ 10 := by
  intro j hj
  have : j = 0 ∨ j = 1 ∨ j = 2 := by omega
  rcases this with rfl | rfl | rfl
  · simpa using n0
  · exact n1 (by omega)
  · exact n2 (by omega)

/-- The facts about a punctuation token needed below. -/
def PunctOk (c : QString) (b : Nat) (t : Tok) (k : Nat) : Prop :=
  0 < k ∧ b + k ≤ c.length ∧ (∀ j, j < k → chr c (b + j) ≠ 10) ∧ t.isKeyword = false ∧
    t ≠ .CLOSE_TAG ∧ (t.isDocStart = false ∧ t.plainNl = true) ∧ ∀ u stack ident e, TokSpec u c stack ident b e t

theorem punctOk1 {t : Tok} (hb : b < c.length) (n0 : chr c b ≠ 10)
    (h1 : t.isKeyword = false ∧ t ≠ .CLOSE_TAG ∧ (t.isDocStart = false ∧ t.plainNl = true)) (h2 : ∀ u stack ident e, TokSpec u c stack ident b e t) :
    PunctOk c b t 1 :=
  ⟨by omega, by omega, nlsOf3 (by omega) n0 (by omega) (by omega), h1.1, h1.2.1, h1.2.2, h2⟩

theorem punctOk2 {t : Tok} {x : Nat} (n0 : chr c b ≠ 10) (hx : chr c (b + 1) = x) (hx0 : x ≠ 0 ∧ x ≠ 10)
    (h1 : t.isKeyword = false ∧ t ≠ .CLOSE_TAG ∧ (t.isDocStart = false ∧ t.plainNl = true)) (h2 : ∀ u stack ident e, TokSpec u c stack ident b e t) :
    PunctOk c b t 2 :=
  have := lt_of_chr_eq hx hx0.1
  ⟨by omega, by omega, nlsOf3 (by omega) n0 (fun _ => by rw [hx]; exact hx0.2) (by omega), h1.1, h1.2.1, h1.2.2, h2⟩

theorem punctOk3 {t : Tok} {x y : Nat} (n0 : chr c b ≠ 10) (hx : chr c (b + 1) = x) (hx0 : x ≠ 10)
    (hy : chr c (b + 2) = y) (hy0 : y ≠ 0 ∧ y ≠ 10)
    (h1 : t.isKeyword = false ∧ t ≠ .CLOSE_TAG ∧ (t.isDocStart = false ∧ t.plainNl = true)) (h2 : ∀ u stack ident e, TokSpec u c stack ident b e t) :
    PunctOk c b t 3 :=
  have := lt_of_chr_eq hy hy0.1
  ⟨by omega, by omega, nlsOf3 (by omega) n0 (fun _ => by rw [hx]; exact hx0)
    (fun _ => by rw [hy]; exact hy0.2), h1.1, h1.2.1, h1.2.2, h2⟩

/-- Outcome of `punct`. -/
def PGood (c : QString) (b : Nat) (x : Option (Option (Tok × Nat))) : Prop :=
  ∃ o, x = some o ∧ ∀ t k, o = some (t, k) → PunctOk c b t k

theorem PGood.ite {p : Prop} [Decidable p] {x y : Option (Option (Tok × Nat))}
    (h1 : p → PGood c b x) (h2 : ¬ p → PGood c b y) : PGood c b (if p then x else y) := by
  by_cases h : p
  · rw [if_pos h]; exact h1 h
  · rw [if_neg h]; exact h2 h

theorem PGood.tok {t : Tok} {k : Nat} (h : PunctOk c b t k) : PGood c b (some (some (t, k))) :=
  ⟨_, rfl, by rintro _ _ ⟨⟩; exact h⟩

theorem PGood.none : PGood c b (some none) := ⟨_, rfl, by simp⟩

theorem PGood.look2 {x y : Nat} {f : Bool → Option (Option (Tok × Nat))} (hy : y ≠ 0)
    (h : chr c (b + 1) = y) (hf : PGood c b (f (chr c (b + 2) == x))) :
    PGood c b ((isAt c (b + 2) x).bind f) := by
  have := lt_of_chr_eq h hy
  rw [isAt_some (by omega), Option.bind_some]; exact hf

theorem punct_spec (hb : b < c.length) : PGood c b (punct c b (chr c b)) := by
  have i1 : ∀ x, isAt c (b + 1) x = some (chr c (b + 1) == x) := fun x => isAt_some (by omega)
  unfold punct
  simp only [Option.bind_eq_bind, i1, Option.bind_some, beq_iff_eq]
  repeat' first
    | exact PGood.none
    | refine PGood.tok ?_
    | refine PGood.ite (fun h => ?_) (fun h => ?_)
    | (refine PGood.look2 (y := 61) (by decide) (by assumption) ?_; simp only [beq_iff_eq])
    | (refine PGood.look2 (y := 62) (by decide) (by assumption) ?_; simp only [beq_iff_eq])
    | (refine PGood.look2 (y := 42) (by decide) (by assumption) ?_; simp only [beq_iff_eq])
    | (refine PGood.look2 (y := 46) (by decide) (by assumption) ?_; simp only [beq_iff_eq])
    | fail
  all_goals first
    | exact punctOk3 (by omega) (by assumption) (by decide) (by assumption) (by decide) (by decide)
        (fun _ _ _ _ => trivial)
    | exact punctOk2 (by omega) (by assumption) (by decide) (by decide) (fun _ _ _ _ => trivial)
    | exact punctOk1 hb (by omega) (by decide) (fun _ _ _ _ => trivial)

/-- No punctuation token starts with an identifier character. -/
theorem punct_valid (hu : u.Lawful) {ch : QChar} (h : validIdent u ch = true) :
    punct c b ch = some none := by
  have key : ∀ x, x < 128 → validIdent u x = false → ch ≠ x := by
    rintro x _ hx rfl; rw [hx] at h; exact absurd h (by decide)
  have v : ∀ x, x < 128 → (asciiLetter x || asciiDigit x || x == 95) = false → ¬ ch = x :=
    fun x hx h' => key x hx (by rw [valid_ascii hu hx]; exact h')
  unfold punct
  simp only [v 41 (by decide) (by decide), v 93 (by decide) (by decide), v 91 (by decide) (by decide),
    v 44 (by decide) (by decide), v 64 (by decide) (by decide), v 33 (by decide) (by decide),
    v 62 (by decide) (by decide), v 126 (by decide) (by decide), v 58 (by decide) (by decide),
    v 37 (by decide) (by decide), v 94 (by decide) (by decide), v 42 (by decide) (by decide),
    v 124 (by decide) (by decide), v 38 (by decide) (by decide), v 43 (by decide) (by decide),
    v 45 (by decide) (by decide), v 46 (by decide) (by decide), v 92 (by decide) (by decide),
    v 59 (by decide) (by decide), v 61 (by decide) (by decide), if_false]
end
end KPhp
