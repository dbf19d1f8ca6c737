import Verif.Lexer.Branch1
/-! Branch lemmas: numbers, `<`, `?`, comments. -/
namespace KPhp
section
variable {u : CharClass} (hu : u.Lawful) {c : QString} {b : Nat} {stack : List St} {ident : QString}

/-- The digit loop. -/
theorem numLoop_spec (hex bin : Bool) : ∀ (k i : Nat) (hp : Bool), i + k = c.length →
    ∃ e hp', numLoop u c hex bin k i hp = some (e, hp') ∧ i ≤ e ∧ e ≤ c.length ∧
      (hp' = false → hp = false ∧ ∀ j, i ≤ j → j < e → chr c j ≠ 46) ∧
      (∀ j, i ≤ j → j < e → ∃ h, numChar u hex bin h (chr c j) = true) ∧
      (i < c.length → numChar u hex bin hp (chr c i) = true → i < e)
  | 0, i, hp, h => ⟨i, hp, rfl, by omega, by omega, fun h' => ⟨h', by intros; omega⟩,
      by intros; omega, by intros; omega⟩
  | k + 1, i, hp, h => by
    unfold numLoop
    rw [rd_some (by omega), Option.bind_eq_bind, Option.bind_some]
    by_cases hc : numChar u hex bin hp (chr c i) = true
    · rw [if_pos hc]
      obtain ⟨e, hp', h1, h2, h3, h4, h5, _⟩ :=
        numLoop_spec hex bin k (i + 1) (hp || chr c i == 46) (by omega)
      refine ⟨e, hp', h1, by omega, h3, ?_, ?_, by omega⟩
      · intro h'
        obtain ⟨g1, g2⟩ := h4 h'
        simp at g1
        refine ⟨g1.1, fun j hj1 hj2 => ?_⟩
        by_cases hji : j = i
        · subst hji; exact g1.2
        · exact g2 j (by omega) hj2
      · intro j hj1 hj2
        by_cases hji : j = i
        · subst hji; exact ⟨hp, hc⟩
        · exact h5 j (by omega) hj2
    · rw [if_neg hc]
      exact ⟨i, hp, rfl, by omega, by omega, fun h' => ⟨h', by intros; omega⟩, by intros; omega,
        fun _ h => absurd h hc⟩

include hu in
theorem numChar_ne_nl {hex bin h : Bool} {ch : QChar} (hn : numChar u hex bin h ch = true) :
    ch ≠ 10 := by
  rintro rfl
  unfold numChar at hn
  rw [digit_nl hu, hu.lower_ascii _ (by omega)] at hn
  simp [asciiLower] at hn

include hu in
theorem isExponent_eq {e : Nat} (he : e ≤ c.length) : isExponent u c e =
    some (u.toLower (chr c e) == 101 && (u.isDigit (chr c (e + 1)) ||
      ((chr c (e + 1) == 45 || chr c (e + 1) == 43) && u.isDigit (chr c (e + 2))))) := by
  unfold isExponent
  refine andO_some (testAt_some (by omega)) fun h => ?_
  have hb1 := lt_of_lower hu (by simpa using h) (by decide)
  refine orO_some (testAt_some (by omega)) fun h => ?_
  refine andO_some (orO_some (isAt_some (by omega)) fun _ => isAt_some (by omega)) fun h => ?_
  have hb2 : e + 1 < c.length := by
    simp at h
    rcases h with h | h
    · exact lt_of_chr_eq h (by decide)
    · exact lt_of_chr_eq h (by decide)
  exact testAt_some (by omega)

include hu in
theorem numBranch_good (hb : b < c.length) (hi : SInv u c b stack ident) (hc : isCode stack)
    (h0 : u.isDigit (chr c b) = true ∨ (chr c b = c! '.' ∧ u.isDigit (chr c (b + 1)) = true)) :
    ∃ r, numBranch u c b stack ident = some r ∧ Good u c b stack ident r := by
  unfold numBranch
  -- hexadecimal prefix
  have hhex : (isAt c b (c! '0') &&? testAt c (b + 1) (fun x => u.toLower x == c! 'x')) =
      some (chr c b == 48 && u.toLower (chr c (b + 1)) == 120) :=
    andO_some (isAt_some (by omega)) fun _ => testAt_some (by omega)
  rw [hhex, Option.bind_eq_bind, Option.bind_some]
  generalize hhx : (chr c b == 48 && u.toLower (chr c (b + 1)) == 120) = hex
  have hi1 : (if hex = true then b + 2 else b) ≤ c.length := by
    split
    · rename_i h; rw [h] at hhx; simp at hhx
      have := lt_of_lower hu hhx.2 (by decide); omega
    · omega
  generalize hi1e : (if hex = true then b + 2 else b) = i1 at hi1
  simp only
  have hbin : (isAt c i1 (c! '0') &&? testAt c (i1 + 1) (fun x => u.toLower x == c! 'b')) =
      some (chr c i1 == 48 && u.toLower (chr c (i1 + 1)) == 98) :=
    andO_some (isAt_some (by omega)) fun h => testAt_some (by
      have := lt_of_beq h (by decide); omega)
  rw [hbin, Option.bind_eq_bind, Option.bind_some]
  generalize hbn : (chr c i1 == 48 && u.toLower (chr c (i1 + 1)) == 98) = bin
  have hi2 : (if bin = true then i1 + 2 else i1) ≤ c.length := by
    split
    · rename_i h; rw [h] at hbn; simp at hbn
      have := lt_of_lower hu hbn.2 (by decide); omega
    · omega
  generalize hi2e : (if bin = true then i1 + 2 else i1) = i2 at hi2
  obtain ⟨e, hp, l1, l2, l3, l4, l5, l6⟩ := numLoop_spec (u := u) (c := c) hex bin (c.length - i2) i2
    false (by omega)
  rw [l1, Option.bind_eq_bind, Option.bind_some]
  simp only
  have hbi2 : b ≤ i2 := by
    subst hi2e hi1e; split <;> split <;> omega
  -- at least one character
  have hbe : b < e := by
    by_cases hh : i2 = b
    · have : hex = false ∧ bin = false := by
        subst hi2e hi1e
        cases hex <;> cases bin <;> simp at hh ⊢ <;> omega
      obtain ⟨rfl, rfl⟩ := this
      subst hh
      apply l6 hb
      unfold numChar
      rcases h0 with h0 | h0
      · simp [h0]
      · simp [h0.1]
    · omega
  -- no line breaks
  have hnl1 : ∀ k, b ≤ k → k < e → chr c k ≠ 10 := by
    intro k hk1 hk2
    by_cases hk : i2 ≤ k
    · obtain ⟨h, hh⟩ := l5 k hk hk2; exact numChar_ne_nl hu hh
    · -- inside a prefix
      by_cases hki1 : i1 ≤ k
      · have : bin = true := by
          cases bin
          · simp at hi2e; omega
          · rfl
        subst this
        simp at hbn hi2e
        have : k = i1 ∨ k = i1 + 1 := by omega
        rcases this with rfl | rfl
        · rw [hbn.1]; decide
        · exact lower_ne_ten hu hbn.2 (by decide)
      · have : hex = true := by
          cases hex
          · simp at hi1e; omega
          · rfl
        subst this
        simp at hhx hi1e
        have : k = b ∨ k = b + 1 := by omega
        rcases this with rfl | rfl
        · rw [hhx.1]; decide
        · exact lower_ne_ten hu hhx.2 (by decide)
  have simple : ∀ t e', t = Tok.DNUMBER → b < e' → e' ≤ c.length →
      (∀ k, b ≤ k → k < e' → chr c k ≠ 10) →
      Good u c b stack ident ⟨t, e', stack, ident, []⟩ := by
    rintro t e' rfl h1 h2 h3
    exact Good.simple hi hc h1 (by omega) trivial (notKw (by decide)) (Or.inr (nlsIn_short h3))
      (by decide)
  have hexp : ∃ x, ((some (!hex && !bin)) &&? isExponent u c e) = some x ∧
      (x = true → u.toLower (chr c e) = 101 ∧ (u.isDigit (chr c (e + 1)) = true ∨
        ((chr c (e + 1) = 45 ∨ chr c (e + 1) = 43) ∧ u.isDigit (chr c (e + 2)) = true))) := by
    rw [isExponent_eq hu l3]
    cases hex <;> cases bin <;> exact ⟨_, rfl, by simp⟩
  obtain ⟨x, hx1, hx2⟩ := hexp
  rw [hx1, Option.bind_some]
  cases x with
  | true =>
    simp only [if_true]
    obtain ⟨g1, g2⟩ := hx2 rfl
    have he1 : e < c.length := lt_of_lower hu g1 (by decide)
    have he2 : e + 1 < c.length := by
      rcases g2 with g2 | ⟨g2 | g2, _⟩
      · exact lt_of_digit hu g2
      · exact lt_of_chr_eq g2 (by decide)
      · exact lt_of_chr_eq g2 (by decide)
    have hsign : (isAt c (e + 1) (c! '-') ||? isAt c (e + 1) (c! '+')) =
        some (chr c (e + 1) == 45 || chr c (e + 1) == 43) :=
      orO_some (isAt_some (by omega)) fun _ => isAt_some (by omega)
    rw [hsign, Option.bind_some]
    generalize hsg : (if (chr c (e + 1) == 45 || chr c (e + 1) == 43) = true then e + 2 else e + 1) = i3
    have hi3 : i3 ≤ c.length := by subst hsg; split <;> omega
    obtain ⟨e', s1, s2, s3, _, s4, s5⟩ := scan_chr (c := c) (bound := c.length) (i := i3) u.isDigit
      (Nat.le_refl _)
    rw [s1, Option.bind_some]
    have hei3 : e < i3 := by subst hsg; split <;> omega
    refine ⟨_, rfl, simple _ e' rfl (by omega) (s3 hi3) ?_⟩
    intro k hk1 hk2
    by_cases hke : k < e
    · exact hnl1 k hk1 hke
    · by_cases hki : i3 ≤ k
      · intro h10
        have := s4 k hki hk2
        rw [h10, digit_nl hu] at this; exact absurd this (by decide)
      · have : k = e ∨ (k = e + 1 ∧ i3 = e + 2) := by
          subst hsg; split at hki <;> (try split) <;> simp_all <;> omega
        rcases this with rfl | ⟨rfl, h3⟩
        · exact lower_ne_ten hu g1 (by decide)
        · intro h10
          rw [h10] at hsg; simp at hsg; omega
  | false =>
    simp only [Bool.false_eq_true, if_false]
    cases hp with
    | true => exact ⟨_, rfl, simple _ e rfl hbe l3 hnl1⟩
    | false =>
      simp only [Bool.false_eq_true, if_false]
      by_cases hl : toLongOk (slice c i2 e) (if hex = true then 16 else 10) = true
      · rw [if_pos hl]
        refine ⟨_, rfl, ?_⟩
        refine Good.simple hi hc hbe (by omega) ?_ (notKw (by decide)) (Or.inr (nlsIn_short hnl1))
          (by decide)
        have hi2e' : i2 < e := by
          by_cases h : i2 < e
          · exact h
          · have : i2 = e := by omega
            subst this
            rw [slice_self] at hl; simp [toLongOk] at hl
        refine ⟨hbe, l3, ?_, i2, (if hex = true then 16 else 10), hbi2, hi2e', by split <;> simp, ?_,
          ?_, ?_⟩
        · intro k hk1 hk2
          by_cases hk : i2 ≤ k
          · exact (l4 rfl).2 k hk hk2
          · by_cases hki1 : i1 ≤ k
            · have : bin = true := by
                cases bin
                · simp at hi2e; omega
                · rfl
              subst this
              simp at hbn hi2e
              have : k = i1 ∨ k = i1 + 1 := by omega
              rcases this with rfl | rfl
              · rw [hbn.1]; decide
              · intro h46
                have := hbn.2
                rw [h46, hu.lower_ascii _ (by omega)] at this
                simp [asciiLower] at this
            · have : hex = true := by
                cases hex
                · simp at hi1e; omega
                · rfl
              subst this
              simp at hhx hi1e
              have : k = b ∨ k = b + 1 := by omega
              rcases this with rfl | rfl
              · rw [hhx.1]; decide
              · intro h46
                have := hhx.2
                rw [h46, hu.lower_ascii _ (by omega)] at this
                simp [asciiLower] at this
        · unfold toLongOk at hl
          split at hl
          · exact absurd hl (by decide)
          · split at hl
            · rename_i v hv
              exact ⟨v, by simpa using numeral_of_digitsVal .nil hv, by simpa using hl⟩
            · exact absurd hl (by decide)
        · intro h10
          cases hex
          · simp at hi1e
            subst hi1e
            cases bin
            · simp at hi2e; exact Or.inl hi2e.symm
            · simp at hi2e hbn
              exact Or.inr ⟨hi2e.symm, hbn.1, hbn.2⟩
          · simp at h10
        · intro h16
          cases hex
          · simp at h16
          · simp at hhx hi1e
            refine ⟨hhx.1, hhx.2, ?_⟩
            cases bin <;> simp at hi2e <;> omega
      · rw [if_neg hl]
        exact ⟨_, rfl, simple _ e rfl hbe l3 hnl1⟩

end
end KPhp
