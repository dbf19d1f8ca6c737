import Verif.Lexer.Good
/-! Branch lemmas: HTML, white space, variables, casts. -/
namespace KPhp
section
variable {u : CharClass} (hu : u.Lawful) {c : QString} {b : Nat} {stack : List St} {ident : QString}

theorem SInv.push_default {e : Nat} (hi : SInv u c b (.Html :: stack) ident) (hbe : b ≤ e) :
    SInv u c e (.Default :: .Html :: stack) ident where
  wf := .push rfl hi.wf
  doc h := hi.doc (by simpa [HasDoc] using h)
  anchor h := by
    obtain ⟨j, hj, hne⟩ := hi.anchor (by simpa [HasStr] using h)
    exact ⟨j, by omega, hne⟩
  top t r h hw := by cases h; exact absurd hw (by decide)

include hu in
theorem isOpenTag_eq (hb : b < c.length) : isOpenTag u c b =
    some (chr c b == 60 && (chr c (b + 1) == 63 && !(u.toLower (chr c (b + 2)) == 120 &&
      (u.toLower (chr c (b + 3)) == 109 && u.toLower (chr c (b + 4)) == 108)))) := by
  unfold isOpenTag
  refine andO_some (isAt_some (by omega)) fun h0 => ?_
  refine andO_some (isAt_some (by omega)) fun h1 => ?_
  have hb1 := lt_of_beq h1 (by decide)
  refine notO_some ?_
  refine andO_some (testAt_some (by omega)) fun h2 => ?_
  have hb2 := lt_of_lower hu (by simpa using h2) (by decide)
  refine andO_some (testAt_some (by omega)) fun h3 => ?_
  have hb3 := lt_of_lower hu (by simpa using h3) (by decide)
  exact testAt_some (by omega)

include hu in
theorem isPhpTag_eq (hb : b + 2 ≤ c.length) : isPhpTag u c b =
    some (u.toLower (chr c (b + 2)) == 112 && (u.toLower (chr c (b + 3)) == 104 &&
      (u.toLower (chr c (b + 4)) == 112 && u.isSpace (chr c (b + 5))))) := by
  unfold isPhpTag
  refine andO_some (testAt_some (by omega)) fun h2 => ?_
  have hb2 := lt_of_lower hu (by simpa using h2) (by decide)
  refine andO_some (testAt_some (by omega)) fun h3 => ?_
  have hb3 := lt_of_lower hu (by simpa using h3) (by decide)
  refine andO_some (testAt_some (by omega)) fun h4 => ?_
  have hb4 := lt_of_lower hu (by simpa using h4) (by decide)
  exact testAt_some (by omega)

include hu in
theorem lower_ne_ten {ch k : QChar} (h : u.toLower ch = k) (hk : k ≠ 10) : ch ≠ 10 := by
  rintro rfl
  rw [hu.lower_ascii _ (by omega)] at h
  exact hk (by rw [← h]; rfl)

include hu in
theorem htmlBranch_good (hb : b < c.length) (hi : SInv u c b (.Html :: stack) ident) :
    ∃ r, htmlBranch u c b (.Html :: stack) ident = some r ∧
      Good u c b (.Html :: stack) ident r := by
  have hpush := fun e (h : b ≤ e) => hi.push_default (e := e) h
  unfold htmlBranch
  rw [isOpenTag_eq hu hb]
  simp only [Option.bind_eq_bind, Option.bind_some]
  split
  · rename_i htag
    simp at htag
    obtain ⟨h0, h1, h2⟩ := htag
    have hb1 := lt_of_chr_eq h1 (by decide)
    have hxml : ¬ XmlAt u c b := by
      rintro ⟨a1, a2, a3⟩
      rcases h2 with h | h | h
      · exact h a1
      · exact h a2
      · exact h a3
    rw [isAt_some (by omega)]
    simp only [Option.bind_some]
    split
    · rename_i he
      have he' : chr c (b + 2) = 61 := by simpa using he
      have hb2 := lt_of_chr_eq he' (by decide)
      refine ⟨_, rfl, ?_⟩
      refine Good.intro (by omega) (by omega) (hpush _ (by omega)) ⟨rfl, ⟨h0, h1, he'⟩, rfl⟩
        (by decide) (Or.inr (nlsIn_short ?_)) (fun _ => rfl) (by simp) (by simp)
      intro k hk1 hk2
      have : k = b ∨ k = b + 1 ∨ k = b + 2 := by omega
      rcases this with rfl | rfl | rfl <;> omega
    · rename_i he
      have he' : chr c (b + 2) ≠ 61 := by simpa using he
      rw [isPhpTag_eq hu (by omega)]
      simp only [Option.bind_some]
      split
      · rename_i hp
        simp at hp
        obtain ⟨p2, p3, p4, p5⟩ := hp
        have hb5 := lt_of_space hu p5
        rw [isAt_some (by omega)]
        simp only [Option.bind_some]
        refine ⟨_, rfl, ?_⟩
        refine Good.intro (by omega) (by omega) (hpush _ (by omega))
          ⟨rfl, ⟨h0, h1⟩, hxml, he', Or.inl ⟨rfl, p2, p3, p4, p5⟩⟩
          (by decide) (Or.inr ?_) (fun _ => rfl) (by simp) (by simp)
        show _ = nlsIn c b (b + 5 + 1)
        rw [nlsIn_append (j := b + 5) (by omega) (by omega), nlsIn_nil (j := b + 5)]
        · by_cases h10 : chr c (b + 5) = 10
          · simp [h10, nlsIn_single h10]
          · rw [nlsIn_nil (i := b + 5)]
            · simp [h10]
            · intro k hk1 hk2
              have : k = b + 5 := by omega
              subst this; exact h10
        · intro k hk1 hk2
          have : k = b ∨ k = b + 1 ∨ k = b + 2 ∨ k = b + 3 ∨ k = b + 4 := by omega
          rcases this with rfl | rfl | rfl | rfl | rfl
          · omega
          · omega
          · exact lower_ne_ten hu p2 (by decide)
          · exact lower_ne_ten hu p3 (by decide)
          · exact lower_ne_ten hu p4 (by decide)
      · refine ⟨_, rfl, ?_⟩
        refine Good.intro (by omega) (by omega) (hpush _ (by omega))
          ⟨rfl, ⟨h0, h1⟩, hxml, he', Or.inr rfl⟩
          (by decide) (Or.inr (nlsIn_short ?_)) (fun _ => rfl) (by simp) (by simp)
        intro k hk1 hk2
        have : k = b ∨ k = b + 1 := by omega
        rcases this with rfl | rfl <;> omega
  · rename_i htag
    obtain ⟨r, h1, h2, h3, _, h4, h5⟩ := scan_spec (bound := c.length) (i := b)
      (p := fun i => notO (isAt c (i + 1) (c! '<') &&? isAt c (i + 2) (c! '?')))
      (fun i => !(chr c (i + 1) == 60 && chr c (i + 2) == 63)) (by
        intro j hj1 hj2 _
        refine notO_some (andO_some (isAt_some (by omega)) fun h => ?_)
        have := lt_of_beq h (by decide)
        exact isAt_some (by omega))
    rw [h1]
    simp only [Option.bind_some]
    refine ⟨_, rfl, ?_⟩
    have hspec : InlineHtmlSpec c b (r + 1) := by
      refine ⟨by omega, ?_, ?_⟩
      · rintro k hk1 hk2 ⟨hk3, hk4⟩
        have := h4 (k - 1) (by omega) (by omega)
        rw [show k - 1 + 1 = k by omega, show k - 1 + 2 = k + 1 by omega, hk3, hk4] at this
        simp at this
      · by_cases hr : r < c.length
        · have := h5 hr
          simp at this
          exact Or.inl ⟨this.1, this.2, lt_of_chr_eq this.1 (by decide)⟩
        · exact Or.inr (by have := h3 (by omega); omega)
    refine Good.intro (by omega) (by have := h3 (by omega); omega)
      (hi.mono (by omega) (by intro t r h; cases h; rfl)) ⟨rfl, hspec, ?_⟩ (by decide) (Or.inr rfl)
      (fun _ => rfl) (by simp) (by simp)
    rintro ⟨e0, e1⟩
    simp [e0, e1] at htag
    exact htag

theorem wsBranch_good (hb : b < c.length) (hi : SInv u c b stack ident) (hc : isCode stack)
    (hs : u.isSpace (chr c b) = true) :
    ∃ r, wsBranch u c b stack ident = some r ∧ Good u c b stack ident r := by
  obtain ⟨e, h1, h2, h3, _, h4, h5⟩ := scan_chr (c := c) (bound := c.length) (i := b) u.isSpace
    (Nat.le_refl _)
  unfold wsBranch
  rw [h1]
  simp only [Option.bind_eq_bind, Option.bind_some]
  refine ⟨_, rfl, ?_⟩
  have hbe : b < e := by
    by_cases h : e = b
    · subst h; rw [h5 hb] at hs; exact absurd hs (by decide)
    · omega
  have he := h3 (by omega)
  exact Good.simple hi hc hbe (by omega) ⟨hbe, he, h4, h5⟩ (notKw (by decide)) (Or.inr rfl)
    (by decide)

/-- Identifier characters are not line breaks. -/
theorem valid_ne_nl (hu : u.Lawful) {ch : QChar} (h : validIdent u ch = true) : ch ≠ 10 := by
  rintro rfl; rw [valid_nl hu] at h; exact absurd h (by decide)

/-- `processVariable` decides `VariableSpec`. -/
theorem processVariable_spec (hu : u.Lawful) (hb : b < c.length) :
    (processVariable u c b = some none ∧
      ¬ (chr c b = c! '$' ∧ identStart u (chr c (b + 1)) = true)) ∨
    (∃ e, processVariable u c b = some (some e) ∧ VariableSpec u c b e) := by
  unfold processVariable
  have ht : (isAt c b (c! '$') &&? testAt c (b + 1) (identStart u)) =
      some (chr c b == 36 && identStart u (chr c (b + 1))) :=
    andO_some (isAt_some (by omega)) fun _ => testAt_some (by omega)
  rw [ht]
  simp only [Option.bind_eq_bind, Option.bind_some]
  split
  · rename_i h
    simp at h
    obtain ⟨h0, h1⟩ := h
    have hb1 := lt_of_start hu h1
    obtain ⟨e, e1, e2, e3, _, e4, e5⟩ := scan_chr (c := c) (bound := c.length) (i := b + 1)
      (validIdent u) (Nat.le_refl _)
    rw [e1]
    simp only [Option.bind_some]
    refine Or.inr ⟨e, rfl, h0, ?_, e3 (by omega), e4, ?_, e5⟩
    · by_cases h : e = b + 1
      · subst h
        have := e5 hb1
        rw [valid_of_start h1] at this; exact absurd this (by decide)
      · omega
    · unfold identStart at h1; simp at h1; exact h1.2
  · rename_i h
    refine Or.inl ⟨rfl, ?_⟩
    rintro ⟨h0, h1⟩
    simp [h0, h1] at h

theorem VariableSpec.nls (hu : u.Lawful) {e : Nat} (h : VariableSpec u c b e) : nlsIn c b e = [] := by
  apply nlsIn_nil
  intro k hk1 hk2
  by_cases hkb : k = b
  · subst hkb; rw [h.dollar]; decide
  · exact valid_ne_nl hu (h.all k (by omega) hk2)

include hu in
theorem parenBranch_good (hb : b < c.length) (hi : SInv u c b stack ident) (hc : isCode stack)
    (h0 : chr c b = c! '(') :
    ∃ r, parenBranch u c b stack ident = some r ∧ Good u c b stack ident r := by
  unfold parenBranch
  obtain ⟨p1, a1, a2, a3, _, a4, a5⟩ := scan_chr (c := c) (bound := c.length) (i := b + 1) u.isSpace
    (Nat.le_refl _)
  obtain ⟨p2, b1, b2, b3, _, b4, b5⟩ := scan_chr (c := c) (bound := c.length) (i := p1) u.isLetter
    (Nat.le_refl _)
  obtain ⟨p3, c1, c2, c3, _, c4, c5⟩ := scan_chr (c := c) (bound := c.length) (i := p2) u.isSpace
    (Nat.le_refl _)
  have hp1 := a3 (by omega)
  have hp2 := b3 (by omega)
  have hp3 := c3 (by omega)
  simp only [a1, b1, c1, isAt_some (by omega : p3 ≤ c.length), Option.bind_eq_bind, Option.bind_some]
  -- any parenthesised word at `b` is the one found by the three scans
  have uniq : ∀ p q e, ParenWord u c b p q e → p = p1 ∧ q = p2 ∧ e = p3 + 1 := by
    intro p q e hw
    have hel := lt_of_chr_eq hw.close (by decide)
    obtain ⟨o1, o2, o3⟩ := hw.order
    have ce : chr c (e - 1) = 41 := hw.close
    have nsp : u.isSpace 41 = false := by rw [hu.space_ascii _ (by omega)]; rfl
    have nle : u.isLetter 41 = false := by rw [hu.letter_ascii _ (by omega)]; rfl
    have hp : p = p1 := scan_unique (f := fun i => u.isSpace (chr c i)) o1 hw.ws1 (by omega)
      (hu.letter_not_space _ (hw.word p (by omega) o2)) a2 a4 a5
    subst hp
    have hqf : u.isLetter (chr c q) = false := by
      by_cases hq : q = e - 1
      · rw [hq, ce]; exact nle
      · have : u.isSpace (chr c q) = true := hw.ws2 q (by omega) (by omega)
        cases h : u.isLetter (chr c q)
        · rfl
        · rw [hu.letter_not_space _ h] at this; exact absurd this (by decide)
    have hq : q = p2 := scan_unique (f := fun i => u.isLetter (chr c i)) (by omega) hw.word
      (by omega) hqf b2 b4 b5
    subst hq
    have he : e - 1 = p3 := scan_unique (f := fun i => u.isSpace (chr c i)) (by omega) hw.ws2
      (by omega) (by rw [ce]; exact nsp) c2 c4 c5
    exact ⟨rfl, rfl, by omega⟩
  have notCast : (∀ t, lookupCI u castTable (slice c p1 p2) ≠ some t) ∨ chr c p3 ≠ 41 →
      Good u c b stack ident ⟨.LPAREN, b + 1, stack, ident, []⟩ := by
    intro h
    refine Good.simple hi hc (by omega) (by omega) ⟨rfl, h0, ?_⟩ (notKw (by decide))
      (Or.inr ?_) (by decide)
    · rintro e' t ⟨p, q, name, hw, hm, hce⟩
      obtain ⟨rfl, rfl, rfl⟩ := uniq p q e' hw
      rcases h with h | h
      · unfold lookupCI at h
        cases hf : castTable.find? (fun e => ciEq u (slice c p q) e.1) with
        | some x => exact h x.2 (by rw [hf]; rfl)
        | none =>
          rw [List.find?_eq_none] at hf
          exact hf _ (castNames_iff.1 hm) hce
      · exact h (by simpa using hw.close)
    · symm; apply nlsIn_nil
      intro k hk1 hk2
      have : k = b := by omega
      subst this; omega
  by_cases hcl : chr c p3 = 41
  · simp only [hcl, beq_self_eq_true, if_true]
    cases hl : lookupCI u castTable (slice c p1 p2) with
    | none =>
      refine ⟨_, rfl, notCast (Or.inl (by rw [hl]; simp))⟩
    | some t =>
      refine ⟨_, rfl, ?_⟩
      have hlt := lt_of_chr_eq hcl (by decide)
      unfold lookupCI at hl
      rw [Option.map_eq_some_iff] at hl
      obtain ⟨⟨nm, t'⟩, hf, ht⟩ := hl
      simp only at ht
      subst ht
      have hmem := List.mem_of_find?_eq_some hf
      have hce : ciEq u (slice c p1 p2) nm = true := by simpa using List.find?_some hf
      have hne : p1 < p2 := by
        by_cases h : p1 = p2
        · subst h
          rw [slice_self] at hce
          have : ∀ x ∈ castTable, x.1 ≠ [] := by decide
          have hnm := this _ hmem
          unfold ciEq at hce
          simp at hce
          exact absurd hce.symm (by simpa using hnm)
        · omega
      have hpw : ParenWord u c b p1 p2 (p3 + 1) :=
        ⟨h0, ⟨a2, hne, by omega⟩, a4, b4, by simpa [AllChr] using c4, by simpa using hcl⟩
      have hcs : CastSpec u c b (p3 + 1) t' := ⟨p1, p2, nm, hpw, castNames_iff.2 hmem, hce⟩
      have hcast : t'.isCast = true := by
        have : ∀ x ∈ castTable, x.2.isCast = true := by decide
        exact this _ hmem
      refine Good.simple hi hc (by omega) (by omega) ?_ ?_ (Or.inl (NlRecorded.none (Or.inl hcast))) ?_
        (Or.inr (NlRecorded.none (Or.inl hcast)))
      · revert hcs hcast; cases t' <;> simp [TokSpec, Tok.isCast]
      · have : ∀ x ∈ castTable, x.2.isKeyword = false := by decide
        exact notKw (this _ hmem)
      · rintro rfl; simp [Tok.isCast] at hcast
  · have : (chr c p3 == 41) = false := by simpa using hcl
    simp only [this]
    exact ⟨_, rfl, notCast (Or.inr hcl)⟩
end
end KPhp
