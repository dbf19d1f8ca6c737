import Verif.Lexer.Branch3
/-! Comments and quoted literals. -/
namespace KPhp
section
variable {u : CharClass} (hu : u.Lawful) {c : QString} {b : Nat} {stack : List St} {ident : QString}

theorem closeTagAt_eq {i : Nat} (hi : i < c.length) :
    closeTagAt c i = some (chr c i == 63 && chr c (i + 1) == 62) := by
  unfold closeTagAt
  split
  · exact andO_some (isAt_some (by omega)) fun _ => isAt_some (by omega)
  · have : c.length = i + 1 := by omega
    rw [← this, chr_length]; simp

theorem tripleSlash_eq {p : Nat} (hp : p ≤ c.length) : tripleSlash c p =
    some (chr c p == 47 && (chr c (p + 1) == 47 && chr c (p + 2) == 47)) := by
  unfold tripleSlash
  refine andO_some (isAt_some hp) fun h => ?_
  have := lt_of_beq h (by decide)
  refine andO_some (isAt_some (by omega)) fun h => ?_
  have := lt_of_beq h (by decide)
  exact isAt_some (by omega)

include hu in
theorem lineComment_spec (doc : Bool) : ∀ (k i : Nat), c.length - i ≤ k → i ≤ c.length → 0 < i ∨ chr c i ≠ 63 →
    ∃ m nls, lineComment u c doc k i = some (m, nls) ∧ i ≤ m + 1 ∧ (chr c i ≠ 63 → i < m + 1) ∧
      LineCommentEnd c (m + 1) ∧
      (∀ k, i ≤ k → k < m + 1 → ¬ (chr c k = 63 ∧ chr c (k + 1) = 62)) ∧
      (∀ k, i ≤ k → k + 1 < m + 1 → chr c k = 10 → doc = true ∧ ContinuesAt u c k (m + 1)) ∧
      nls = nlsIn c i (m + 1) := by
  have atEnd : ∀ i, i ≤ c.length → ¬ i < c.length → 
    i ≤ i + 1 ∧ (chr c i ≠ 63 → i < i + 1) ∧ LineCommentEnd c (i + 1) ∧
      (∀ k, i ≤ k → k < i + 1 → ¬ (chr c k = 63 ∧ chr c (k + 1) = 62)) ∧
      (∀ k, i ≤ k → k + 1 < i + 1 → chr c k = 10 → doc = true ∧ ContinuesAt u c k (i + 1)) ∧
      ([] : List Nat) = nlsIn c i (i + 1) := by
    intro i h1 h2
    have : i = c.length := by omega
    subst this
    refine ⟨by omega, fun _ => by omega, Or.inr (Or.inr rfl), ?_, by intros; omega, ?_⟩
    · rintro k hk1 hk2 ⟨h, _⟩
      have := lt_of_chr_eq h (by decide); omega
    · symm; apply nlsIn_nil
      intro k hk1 hk2 h
      have := lt_of_chr_eq h (by decide); omega
  have single : ∀ i, i < c.length → chr c i = 10 →
    i ≤ i + 1 ∧ (chr c i ≠ 63 → i < i + 1) ∧ LineCommentEnd c (i + 1) ∧
      (∀ k, i ≤ k → k < i + 1 → ¬ (chr c k = 63 ∧ chr c (k + 1) = 62)) ∧
      (∀ k, i ≤ k → k + 1 < i + 1 → chr c k = 10 → doc = true ∧ ContinuesAt u c k (i + 1)) ∧
      [i] = nlsIn c i (i + 1) := by
    intro i h1 h2
    refine ⟨by omega, fun _ => by omega, Or.inl ⟨by omega, by simpa using h2⟩, ?_, by intros; omega, ?_⟩
    · rintro k hk1 hk2 ⟨h, _⟩
      have : k = i := by omega
      subst this; omega
    · rw [nlsIn_single h2]
  intro k
  induction k with
  | zero =>
    intro i h1 h2 h3
    have hn : ¬ i < c.length := by omega
    unfold lineComment
    rw [if_neg hn]
    exact ⟨i, [], rfl, atEnd i h2 hn⟩
  | succ k ih =>
    intro i h1 h2 h3
    unfold lineComment
    by_cases hn : i < c.length
    · rw [if_pos hn, closeTagAt_eq hn]
      simp only [Option.bind_eq_bind, Option.bind_some]
      split
      · rename_i hct
        simp at hct
        have hi0 : 0 < i := h3.resolve_right fun h => h hct.1
        have e1 : i - 1 + 1 = i := by omega
        refine ⟨i - 1, [], rfl, by omega, fun h => absurd hct.1 h, ?_⟩
        rw [e1]
        refine ⟨Or.inr (Or.inl ⟨hn, hct⟩), by intros; omega, by intros; omega, ?_⟩
        exact (nlsIn_nil (by intros; omega)).symm
      · rename_i hct
        rw [isAt_some (by omega), Option.bind_some]
        have hnct : ¬ (chr c i = 63 ∧ chr c (i + 1) = 62) := by
          rintro ⟨a, b⟩; simp [a, b] at hct
        split
        · rename_i h10
          have h10' : chr c i = 10 := by simpa using h10
          split
          · rename_i hdoc
            obtain ⟨p, s1, s2, s3, _, s4, s5⟩ := scan_chr (c := c) (bound := c.length) (i := i + 1)
              (fun x => u.isSpace x && !(x == 10)) (Nat.le_refl _)
            have hp := s3 (by omega)
            rw [s1, Option.bind_some, tripleSlash_eq hp, Option.bind_some]
            split
            · rename_i htr
              simp at htr
              obtain ⟨t0, t1, t2⟩ := htr
              have hp2 := lt_of_chr_eq t2 (by decide)
              obtain ⟨m, nls, r1, r2, r3, r4, r5, r6, r7⟩ := ih (p + 2) (by omega) (by omega)
                (Or.inl (by omega))
              have r3' := r3 (by omega)
              have ws : ∀ j, i + 1 ≤ j → j < p → u.isSpace (chr c j) = true ∧ chr c j ≠ 10 := by
                intro j hj1 hj2
                have := s4 j hj1 hj2
                simpa using this
              have ns63 : u.isSpace 63 = false := by rw [hu.space_ascii _ (by omega)]; rfl
              rw [r1, Option.bind_some]
              refine ⟨m, _, rfl, by omega, fun _ => by omega, r4, ?_, ?_, ?_⟩
              · rintro j hj1 hj2 ⟨g1, g2⟩
                by_cases hj : p + 2 ≤ j
                · exact r5 j hj hj2 ⟨g1, g2⟩
                · have : j = i ∨ (i + 1 ≤ j ∧ j < p) ∨ j = p ∨ j = p + 1 := by omega
                  rcases this with rfl | ⟨ha, hb⟩ | rfl | rfl
                  · omega
                  · have := (ws j ha hb).1
                    rw [g1, ns63] at this; exact absurd this (by decide)
                  · omega
                  · omega
              · intro j hj1 hj2 hj10
                by_cases hj : p + 2 ≤ j
                · exact r6 j hj hj2 hj10
                · have : j = i ∨ (i + 1 ≤ j ∧ j < p) ∨ j = p ∨ j = p + 1 := by omega
                  rcases this with rfl | ⟨ha, hb⟩ | rfl | rfl
                  · exact ⟨hdoc, p, by omega, by omega, ws, t0, t1, t2⟩
                  · exact absurd hj10 (ws j ha hb).2
                  · omega
                  · omega
              · simp only
                rw [nlsIn_append (i := i) (j := i + 1) (by omega) (by omega), nlsIn_single h10',
                  nlsIn_append (i := i + 1) (j := p + 2) (by omega) (by omega),
                  nlsIn_nil (i := i + 1) (j := p + 2), r7]
                · rfl
                · intro j hj1 hj2
                  have : (i + 1 ≤ j ∧ j < p) ∨ j = p ∨ j = p + 1 := by omega
                  rcases this with ⟨ha, hb⟩ | rfl | rfl
                  · exact (ws j ha hb).2
                  · omega
                  · omega
            · exact ⟨i, [i], rfl, single i hn h10'⟩
          · exact ⟨i, [i], rfl, single i hn h10'⟩
        · rename_i h10
          have h10' : chr c i ≠ 10 := by simpa using h10
          obtain ⟨m, nls, r1, r2, r3, r4, r5, r6, r7⟩ := ih (i + 1) (by omega) (by omega)
            (Or.inl (by omega))
          rw [r1]
          refine ⟨m, nls, rfl, by omega, fun _ => by omega, r4, ?_, ?_, ?_⟩
          · intro j hj1 hj2
            by_cases hj : j = i
            · subst hj; exact hnct
            · exact r5 j (by omega) hj2
          · intro j hj1 hj2 hj10
            by_cases hj : j = i
            · subst hj; exact absurd hj10 h10'
            · exact r6 j (by omega) hj2 hj10
          · rw [r7, nlsIn_append (i := i) (j := i + 1) (by omega) (by omega),
              nlsIn_nil (i := i) (j := i + 1)]
            · rfl
            · intro j hj1 hj2
              have : j = i := by omega
              subst this; exact h10'
    · rw [if_neg hn]
      exact ⟨i, [], rfl, atEnd i h2 hn⟩

theorem LineCommentEnd.le {e : Nat} (h : LineCommentEnd c e) : e ≤ c.length + 1 := by
  rcases h with h | h | h <;> omega

include hu in
theorem hashBranch_good (hb : b < c.length) (hi : SInv u c b stack ident) (hc : isCode stack)
    (h0 : chr c b = c! '#') :
    ∃ r, hashBranch u c b stack ident = some r ∧ Good u c b stack ident r := by
  obtain ⟨m, nls, r1, r2, r3, r4, r5, r6, r7⟩ := lineComment_spec hu (c := c) false (c.length - b) b
    (Nat.le_refl _) (by omega) (Or.inr (by omega))
  have r3' := r3 (by omega)
  unfold hashBranch
  rw [r1]
  simp only [Option.bind_eq_bind, Option.bind_some]
  refine ⟨_, rfl, Good.simple hi hc r3' r4.le ?_ (notKw (by decide)) (Or.inr r7) (by decide)⟩
  exact Or.inl ⟨Or.inl h0, r3', fun k h1 h2 h3 => absurd (r6 k h1 h2 h3).1 (by decide), r5, r4⟩

include hu in
theorem slashBranch_good (hb : b < c.length) (hi : SInv u c b stack ident) (hc : isCode stack)
    (h0 : chr c b = c! '/') :
    ∃ r, slashBranch u c b stack ident = some r ∧ Good u c b stack ident r := by
  unfold slashBranch
  simp only [Option.bind_eq_bind]
  rw [rd_some (by omega), Option.bind_some]
  split
  · rename_i h1
    have hb1 := lt_of_chr_eq h1 (by decide)
    refine ⟨_, rfl, Good.fixed hi hc (by omega) (by omega) ?_ trivial (by decide) (by decide)⟩
    intro j hj
    have : j = 0 ∨ j = 1 := by omega
    rcases this with rfl | rfl <;> simp_all
  · split
    · rename_i h1
      have hb1 := lt_of_chr_eq h1 (by decide)
      rw [isAt_some (by omega), Option.bind_some]
      generalize hd : (chr c (b + 2) == 47) = doc
      obtain ⟨m, nls, r1, r2, r3, r4, r5, r6, r7⟩ := lineComment_spec hu (c := c) doc (c.length - b) b
        (Nat.le_refl _) (by omega) (Or.inr (by omega))
      have r3' := r3 (by omega)
      rw [r1, Option.bind_some]
      refine ⟨_, rfl, Good.simple hi hc r3' r4.le ?_ (by cases doc <;> exact notKw (by decide))
        (Or.inr r7) (by cases doc <;> decide) (Or.inl (by cases doc <;> rfl))
        (Or.inr (Or.inl (by cases doc <;> rfl)))⟩
      cases doc with
      | true =>
        have hd' : chr c (b + 2) = 47 := by simpa using hd
        exact Or.inl ⟨⟨h0, h1, hd'⟩, r3', fun k h1 h2 h3 => (r6 k h1 h2 h3).2, r5, r4⟩
      | false =>
        exact Or.inl ⟨Or.inr ⟨h0, h1⟩, r3', fun k h1 h2 h3 => absurd (r6 k h1 h2 h3).1 (by decide),
          r5, r4⟩
    · split
      · rename_i h1
        have hb1 := lt_of_chr_eq h1 (by decide)
        have hdoc : (isAt c (b + 2) (c! '*') &&? testAt c (b + 3) u.isSpace) =
            some (chr c (b + 2) == 42 && u.isSpace (chr c (b + 3))) :=
          andO_some (isAt_some (by omega)) fun h =>
            testAt_some (by have := lt_of_beq h (by decide); omega)
        rw [hdoc, Option.bind_some]
        generalize hd : (chr c (b + 2) == 42 && u.isSpace (chr c (b + 3))) = doc
        have hdo : DocOpen u c b ↔ doc = true := by
          subst hd; unfold DocOpen; simp
        obtain ⟨e, s1, s2, s3, _, s4, s5⟩ := scan_spec (bound := c.length) (i := b + 2)
          (p := fun i => notO (isAt c i (c! '*') &&? isAt c (i + 1) (c! '/')))
          (fun i => !(chr c i == 42 && chr c (i + 1) == 47)) (by
            intro j hj1 hj2 _
            exact notO_some (andO_some (isAt_some (by omega)) fun h => isAt_some (by omega)))
        have he := s3 (by omega)
        rw [s1, Option.bind_some]
        have s4' : ∀ k, b + 2 ≤ k → k < e → ¬ (chr c k = 42 ∧ chr c (k + 1) = 47) := by
          rintro k hk1 hk2 ⟨g1, g2⟩
          have := s4 k hk1 hk2
          rw [g1, g2] at this; simp at this
        have hnl : nlsIn c (b + 2) e = nlsIn c b e := by
          rw [nlsIn_append (i := b) (j := b + 2) (by omega) s2, nlsIn_nil (i := b) (j := b + 2)]
          · rfl
          · intro k hk1 hk2
            have : k = b ∨ k = b + 1 := by omega
            rcases this with rfl | rfl <;> omega
        refine ⟨_, rfl, ?_⟩
        by_cases hel : e < c.length
        · have s5' := s5 hel
          simp at s5'
          have he1 := lt_of_chr_eq s5'.2 (by decide)
          have hbc : BlockCommentSpec c b (e + 2) := by
            refine ⟨⟨h0, h1⟩, by omega, by omega, ?_, ?_⟩
            · rw [show e + 2 - 2 = e by omega, show e + 2 - 1 = e + 1 by omega]; exact s5'
            · intro k hk1 hk2; exact s4' k hk1 (by omega)
          refine Good.simple hi hc (by omega) (by omega) ?_ (by cases doc <;> exact notKw (by decide))
            (Or.inr ?_) (by cases doc <;> decide) (Or.inl (by cases doc <;> rfl))
          · cases doc with
            | true => exact Or.inr (Or.inl ⟨hbc, hdo.2 rfl⟩)
            | false => exact Or.inr (Or.inl ⟨hbc, fun h => absurd (hdo.1 h) (by decide)⟩)
          · rw [hnl, nlsIn_append (i := b) (j := e) (k := e + 2) (by omega) (by omega), nlsIn_nil (i := e)]
            · simp
            · intro k hk1 hk2
              have : k = e ∨ k = e + 1 := by omega
              rcases this with rfl | rfl <;> omega
        · have hee : e = c.length := by omega
          have hob : OpenBlockComment c b := by
            refine ⟨⟨h0, h1⟩, ?_⟩
            rintro k hk1 ⟨g1, g2⟩
            have := lt_of_chr_eq g1 (by decide)
            exact s4' k hk1 (by omega) ⟨g1, g2⟩
          exact {
            le := by show b ≤ e + 2; omega
            bound := Or.inr ⟨by show e + 2 = _; omega, by cases doc <;> rfl, hob⟩
            progress := Or.inl (by show b < e + 2; omega)
            inv := hi.mono (by show b ≤ e + 2; omega) hc.noWant
            spec := by
              cases doc <;> exact Or.inr (Or.inr ⟨hob, by show e + 2 = _; omega⟩)
            kw := by cases doc <;> exact notKw (t := _) rfl
            nls := NlRecorded.of (Or.inr (by
              show nlsIn c (b + 2) e = nlsIn c b (e + 2)
              rw [hnl, nlsIn_clip (j := e + 2) (by omega) (by omega), hee])) (Or.inl (by cases doc <;> rfl))
            keep := fun _ => rfl
            close := by cases doc <;> simp
            html := fun h => absurd h hc.notHtml
            pos := by show 0 < e + 2; omega }
      · refine ⟨_, rfl, Good.fixed hi hc (by omega) (by omega) ?_ trivial (by decide) (by decide)⟩
        intro j hj
        have : j = 0 := by omega
        subst this; simp [h0]

theorem bs_decide (k : Nat) : (bsBefore c k % 2 == 1) = decide (Escaped c k) := by
  unfold Escaped; by_cases h : bsBefore c k % 2 = 1 <;> simp [h]

theorem squoteBranch_good (hb : b < c.length) (hi : SInv u c b stack ident) (hc : isCode stack)
    (h0 : chr c b = c! '\'') :
    ∃ r, squoteBranch c b stack ident = some r ∧ Good u c b stack ident r := by
  unfold squoteBranch
  simp only [Option.bind_eq_bind]
  obtain ⟨e, s1, s2, s3, _, s4, s5⟩ := scan_spec (bound := c.length) (i := b + 1)
    (p := fun i => notO (isAt c i (c! '\'')) ||? escaped c i (b + 1))
    (fun i => !(chr c i == 39) || decide (Escaped c i)) (by
      intro j hj1 hj2 _
      refine orO_some (notO_some (isAt_some (by omega))) fun h => ?_
      rw [escaped_eq' (by omega) hj1 (by omega) (by simp; omega), bs_decide])
  have he := s3 (by omega)
  rw [s1, Option.bind_some]
  have first : ∀ k, b < k → k < e → chr c k = 39 → Escaped c k := by
    intro k hk1 hk2 h
    have := s4 k hk1 hk2
    simpa [h] using this
  have hnl : ∀ e', (e' = e ∨ (e' = e + 1 ∧ chr c e = 39)) → nlsIn c (b + 1) e = nlsIn c b e' := by
    intro e' he'
    have hbe : nlsIn c b e = nlsIn c (b + 1) e := by
      rw [nlsIn_append (i := b) (j := b + 1) (by omega) s2, nlsIn_nil (i := b) (j := b + 1)]
      · rfl
      · intro k hk1 hk2
        have : k = b := by omega
        subst this; omega
    rcases he' with rfl | ⟨rfl, h39⟩
    · exact hbe.symm
    · rw [nlsIn_append (i := b) (j := e) (by omega) (by omega), nlsIn_nil (i := e), hbe]
      · simp
      · intro k hk1 hk2
        have : k = e := by omega
        subst this; omega
  refine ⟨_, rfl, ?_⟩
  have hnq : ∀ {e' : Nat}, ¬ UnclosedLiteral c (c! '"') b e' := fun h => by
    have := h.open_
    rw [h0] at this; simp at this
  by_cases hel : e = c.length
  · rw [if_pos hel]
    refine Good.simple hi hc (by omega) (by omega) ?_ (notKw (by decide)) (Or.inr (hnl _ (Or.inl rfl)))
      (by decide) (Or.inr (.lit (hnl _ (Or.inl rfl)) hnq))
    exact Or.inl (Or.inr ⟨h0, hel, fun k h1 h2 h3 => first k h1 (by omega) h3⟩)
  · rw [if_neg hel]
    have s5' := s5 (by omega)
    simp at s5'
    refine Good.simple hi hc (by omega) (by omega) ?_ (notKw (by decide))
      (Or.inr (hnl _ (Or.inr ⟨rfl, s5'.1⟩))) (by decide)
      (Or.inr (.lit (hnl _ (Or.inr ⟨rfl, s5'.1⟩)) hnq))
    refine Or.inl (Or.inl ⟨h0, by omega, by omega, ?_, ?_⟩)
    · simpa using s5'
    · intro k h1 h2 h3; exact first k h1 (by omega) h3

theorem varStartAt_eq {i s : Nat} (hi : i < c.length) (hsi : s ≤ i) (hs : 0 < s)
    (ha : chr c (s - 1) ≠ 92) :
    ∃ x, varStartAt u c i s = some x ∧ (x = true ↔ VarAt u c i) := by
  refine ⟨_, andO_some (isAt_some (by omega)) fun h => andO_some (notO_some
    (escaped_eq' (by omega) hsi hs ha)) fun _ => orO_some (isAt_some (by omega)) fun _ =>
      testAt_some (by omega), ?_⟩
  rw [bs_decide]
  unfold VarAt
  simp [identStart_eq]

theorem dquoteLoop_spec {s : Nat} (hs : 0 < s) (ha : chr c (s - 1) ≠ 92) : ∀ (k i : Nat),
    i + k = c.length → s ≤ i →
    ∃ e fv, dquoteLoop u c s k i = some (e, fv) ∧ i ≤ e ∧ e ≤ c.length ∧
      (fv = true → VarAt u c e ∧ e < c.length) ∧
      (fv = false → (∀ j, i ≤ j → j < e → ¬ VarAt u c j) ∧
        (∀ j, i ≤ j → j < e → chr c j = 34 → Escaped c j) ∧
        (e < c.length → chr c e = 34 ∧ ¬ Escaped c e)) := by
  intro k
  induction k with
  | zero =>
    intro i h1 h2
    exact ⟨i, false, rfl, by omega, by omega, by simp, fun _ =>
      ⟨by intros; omega, by intros; omega, by intros; omega⟩⟩
  | succ k ih =>
    intro i h1 h2
    unfold dquoteLoop
    simp only [Option.bind_eq_bind]
    have hc : (notO (isAt c i (c! '"')) ||? escaped c i s) =
        some (!(chr c i == 34) || decide (Escaped c i)) := by
      refine orO_some (notO_some (isAt_some (by omega))) fun h => ?_
      rw [escaped_eq' (by omega) h2 hs ha, bs_decide]
    rw [hc, Option.bind_some]
    split
    · rename_i hcond
      obtain ⟨x, hx1, hx2⟩ := varStartAt_eq (u := u) (c := c) (i := i) (by omega) h2 hs ha
      rw [hx1, Option.bind_some]
      split
      · rename_i hx
        exact ⟨i, true, rfl, by omega, by omega, fun _ => ⟨hx2.1 hx, by omega⟩, by simp⟩
      · rename_i hx
        obtain ⟨e, fv, r1, r2, r3, r4, r5⟩ := ih (i + 1) (by omega) (by omega)
        refine ⟨e, fv, r1, by omega, r3, r4, fun h => ?_⟩
        obtain ⟨q1, q2, q3⟩ := r5 h
        refine ⟨?_, ?_, q3⟩
        · intro j hj1 hj2
          by_cases hj : j = i
          · subst hj; exact fun hv => hx (hx2.2 hv)
          · exact q1 j (by omega) hj2
        · intro j hj1 hj2 hj3
          by_cases hj : j = i
          · subst hj; simpa [hj3] using hcond
          · exact q2 j (by omega) hj2 hj3
    · rename_i hcond
      simp at hcond
      exact ⟨i, false, rfl, by omega, by omega, by simp, fun _ =>
        ⟨by intros; omega, by intros; omega, fun _ => hcond⟩⟩

theorem dquoteBranch_good (hb : b < c.length) (hi : SInv u c b stack ident) (hc : isCode stack)
    (h0 : chr c b = c! '"') :
    ∃ r, dquoteBranch u c b stack ident = some r ∧ Good u c b stack ident r := by
  unfold dquoteBranch
  simp only [Option.bind_eq_bind]
  obtain ⟨e, fv, r1, r2, r3, r4, r5⟩ := dquoteLoop_spec (u := u) (c := c) (s := b + 1) (by omega)
    (by simp; omega) (c.length - (b + 1)) (b + 1) (by omega) (by omega)
  rw [r1, Option.bind_some]
  cases fv with
  | true =>
    simp only [if_true]
    refine ⟨_, rfl, Good.intro (by omega) (by omega) ⟨?_, ?_, ?_, ?_⟩ trivial (by decide)
      (Or.inr (nlsIn_short ?_)) (fun _ => rfl) (by simp) (fun h => absurd h hc.notHtml)⟩
    · obtain ⟨t, r, rfl, ht⟩ := hc
      exact Wf.push (by rcases ht with rfl | rfl <;> rfl) hi.wf
    · intro h
      apply hi.doc
      simpa [HasDoc] using h
    · intro _; exact ⟨b, by omega, by omega⟩
    · intro t r h hw
      cases h; simp [wantsIdent] at hw
    · intro k hk1 hk2
      have : k = b := by omega
      subst this; omega
  | false =>
    simp only [Bool.false_eq_true, if_false]
    obtain ⟨q1, q2, q3⟩ := r5 rfl
    split
    · rename_i hel
      have hul : UnclosedLiteral c (c! '"') b e :=
        ⟨h0, hel, fun k h1 h2 h3 => q2 k h1 (by omega) h3⟩
      have hrec : NlRecorded c b e .CONSTANT_ENCAPSED_STRING ((nlsIn c (b + 1) e).map (· - 1)) := by
        refine ⟨fun h => ?_, fun _ _ => ?_, fun _ h => absurd ⟨rfl, hul⟩ h⟩
        · rcases h with h | h <;> simp [Tok.isCast] at h
        · rw [nlsIn_append (i := b) (j := b + 1) (by omega) (by omega), nlsIn_nil (i := b) (j := b + 1)]
          · rfl
          · intro k hk1 hk2
            have : k = b := by omega
            subst this; omega
      refine ⟨_, rfl, Good.simple hi hc (by show b < e; omega) (by show e ≤ _; omega) ?_
        (notKw (by decide)) (Or.inl hrec) (by decide) (Or.inr hrec)⟩
      exact Or.inr ⟨Or.inr hul, fun k h1 h2 => q1 k h1 h2⟩
    · rename_i hel
      obtain ⟨g1, g2⟩ := q3 (by omega)
      have hnu : ¬ UnclosedLiteral c (c! '"') b (e + 1) := fun h =>
        g2 (h.never e (by omega) (by have := h.stop; omega) g1)
      have hnls : nlsIn c (b + 1) e = nlsIn c b (e + 1) := by
        rw [nlsIn_append (i := b) (j := b + 1) (k := e + 1) (by omega) (by omega),
          nlsIn_append (i := b + 1) (j := e) (k := e + 1) (by omega) (by omega), nlsIn_nil (i := b),
          nlsIn_nil (i := e)]
        · simp
        · intro k hk1 hk2
          have : k = e := by omega
          subst this; omega
        · intro k hk1 hk2
          have : k = b := by omega
          subst this; omega
      refine ⟨_, rfl, Good.simple hi hc (by show b < e + 1; omega) (by show e + 1 ≤ _; omega) ?_
        (notKw (by decide)) (Or.inr hnls) (by decide) (Or.inr (.lit hnls hnu))⟩
      · refine Or.inr ⟨Or.inl ⟨h0, by omega, by omega, by simpa using ⟨g1, g2⟩, ?_⟩, ?_⟩
        · intro k h1 h2 h3; exact q2 k h1 (by simp at h2; exact h2) h3
        · rintro k h1 h2 hv
          by_cases hk : k = e
          · subst hk; have := hv.1; omega
          · exact q1 k h1 (by omega) hv
end
end KPhp
