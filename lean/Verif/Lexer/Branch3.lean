import Verif.Lexer.Branch2
/-! `<`, `?`, comments and quoted literals. -/
namespace KPhp
section
variable {u : CharClass} (hu : u.Lawful) {c : QString} {b : Nat} {stack : List St} {ident : QString}

include hu in
theorem heredocStart_spec (hb : b + 2 < c.length)
    (h3 : chr c b = c! '<' ∧ chr c (b + 1) = c! '<' ∧ chr c (b + 2) = c! '<') :
    ∃ id' o, heredocStart u c b ident = some (id', o) ∧ ∀ nd q, o = some (nd, q) →
      DocIdent u id' ∧ b + 3 ≤ q ∧ q + 1 < c.length ∧ chr c q = 10 ∧
        (∀ k, b + 3 ≤ k → k < q → chr c k ≠ 10) ∧ HereStartSpec u c id' nd b (q + 1) := by
  unfold heredocStart
  simp only [Option.bind_eq_bind]
  obtain ⟨q0, a1, a2, a3, a3', a4, _⟩ := scan_chr (c := c) (bound := c.length - 1) (i := b + 3)
    (fun ch => ch == 32 || ch == 9) (by omega)
  have hq0 : q0 ≤ c.length := by
    by_cases h : b + 3 ≤ c.length - 1
    · have := a3 h; omega
    · have := a3' (by omega); omega
  rw [a1, Option.bind_some, isAt_some hq0, Option.bind_some]
  have hfq : (some (chr c q0 == 39) ||? isAt c q0 (c! '"')) =
      some (chr c q0 == 39 || chr c q0 == 34) := orO_some rfl fun _ => isAt_some hq0
  rw [hfq, Option.bind_some]
  generalize hfqb : (chr c q0 == 39 || chr c q0 == 34) = fq
  generalize hq1 : (if fq = true then q0 + 1 else q0) = q1
  have hq1l : q1 ≤ c.length := by
    subst hq1
    split
    · rename_i h; subst h; simp at hfqb
      rcases hfqb with h | h <;> have := lt_of_chr_eq h (by decide) <;> omega
    · exact hq0
  have hq01 : q0 ≤ q1 := by subst hq1; split <;> omega
  have hnl0 : ∀ k, b + 3 ≤ k → k < q1 → chr c k ≠ 10 := by
    intro k hk1 hk2
    by_cases hk : k < q0
    · have := a4 k hk1 hk
      simp at this; omega
    · subst hq1
      split at hk2
      · rename_i h; subst h; simp at hfqb
        have : k = q0 := by omega
        subst this; omega
      · omega
  rw [testAt_some hq1l, Option.bind_some]
  split
  · rename_i hlet
    have hq1lt : q1 < c.length := by
      simp at hlet
      rcases hlet with h | h
      · exact lt_of_letter hu h
      · exact lt_of_chr_eq h (by decide)
    obtain ⟨q2, b1, b2, b3, b3', b4, b5⟩ := scan_chr (c := c) (bound := c.length - 1) (i := q1)
      (fun ch => u.isDigit ch || u.isLetter ch || ch == 95) (by omega)
    have hq2 : q2 < c.length := by
      by_cases h : q1 ≤ c.length - 1
      · have := b3 h; omega
      · have := b3' (by omega); omega
    rw [b1, Option.bind_some]
    have hcq : ∃ x, ((some (fq && decide (q2 + 1 < c.length))) &&?
        testAt c q2 (fun ch => ((chr c q0 == 39) && ch == c! '\'') || ch == c! '"')) = some x ∧
        (x = true → fq = true ∧ (((chr c q0 == 39) = true ∧ chr c q2 = 39) ∨ chr c q2 = 34)) := by
      refine ⟨_, andO_some rfl fun _ => testAt_some (by omega), ?_⟩
      intro h; simp at h
      refine ⟨h.1.1, ?_⟩
      rcases h.2 with h | h
      · exact Or.inl ⟨by simpa using h.1, h.2⟩
      · exact Or.inr h
    obtain ⟨x, hx1, hx2⟩ := hcq
    rw [hx1, Option.bind_some]
    generalize hq3 : (if x = true then q2 + 1 else q2) = q3
    have hq23 : q2 ≤ q3 := by subst hq3; split <;> omega
    have hok : ((some (decide (q3 + 1 < c.length))) &&? isAt c q3 10) =
        some (decide (q3 + 1 < c.length) && chr c q3 == 10) :=
      andO_some rfl fun h => isAt_some (by simp at h; omega)
    simp only [hok, Option.bind_some]
    refine ⟨_, _, rfl, ?_⟩
    intro nd q ho
    split at ho
    · rename_i hcond
      simp at hcond
      simp at ho
      obtain ⟨rfl, rfl⟩ := ho
      have hlt : q1 < q2 := by
        by_cases h : q1 = q2
        · subst h
          have := b5 (by omega)
          simp at this hlet
          rcases hlet with h | h
          · rw [h] at this; simp at this
          · exact absurd h this.2
        · omega
      refine ⟨?_, by omega, hcond.1, hcond.2, ?_, h3.1, h3.2.1, h3.2.2, q0, q1, q2, a2, hlt, by omega,
        by omega, ?_, ?_, by simp, rfl, b4, ?_, ?_, by simpa using hcond.2⟩
      · refine ⟨?_, ?_⟩
        · intro hnil
          have := slice_length (c := c) (i := q1) (j := q2) (by omega)
          rw [hnil] at this; simp at this; omega
        · intro x hx
          obtain ⟨k, hk1, hk2⟩ := mem_slice (by omega) hx
          rw [hk2]; exact b4 (q1 + k) (by omega) (by omega)
      · intro k hk1 hk2
        by_cases h1 : k < q1
        · exact hnl0 k hk1 h1
        · by_cases h2 : k < q2
          · have := b4 k (by omega) h2
            intro h10
            rw [h10, digit_nl hu, letter_nl hu] at this; exact absurd this (by decide)
          · have : x = true ∧ k = q2 := by
              subst hq3
              split at hk2
              · rename_i h; exact ⟨h, by omega⟩
              · omega
            obtain ⟨h, rfl⟩ := this
            rcases (hx2 h).2 with h | h <;> omega
      · intro k hk1 hk2
        simpa using a4 k hk1 hk2
      · cases fq
        · simp at hq1; exact Or.inl hq1.symm
        · simp at hq1 hfqb; exact Or.inr ⟨hq1.symm, hfqb⟩
      · simp at hlet
        rcases hlet with h | h
        · exact hu.letter_not_digit _ h
        · rw [h, hu.digit_ascii _ (by omega)]; rfl
      · cases x
        · simp at hq3; left; omega
        · obtain ⟨hf, hxx⟩ := hx2 rfl
          subst hf
          simp at hq3 hq1; right; exact ⟨by omega, by omega, hxx⟩
    · simp at ho
  · exact ⟨_, _, rfl, by simp⟩

theorem hasDoc_default (h : Wf (.Default :: stack)) : ¬ HasDoc (.Default :: stack) := by
  rw [h.default]; simp [HasDoc]

/-- Fixed tokens described by their length. -/
theorem Good.fixed {t : Tok} {k : Nat} (hi : SInv u c b stack ident) (hc : isCode stack)
    (hk : 0 < k) (hl : b + k ≤ c.length) (hnl : ∀ j, j < k → chr c (b + j) ≠ 10)
    (hs : TokSpec u c stack ident b (b + k) t) (hkw : t.isKeyword = false) (hct : t ≠ .CLOSE_TAG)
    (hx : t.plainNl = true ∨ NlRecorded c b (b + k) t [] := by exact Or.inl (by decide)) :
    Good u c b stack ident ⟨t, b + k, stack, ident, []⟩ := by
  refine Good.simple hi hc (by omega) (by omega) hs (notKw hkw) (Or.inr (nlsIn_short ?_)) hct hx
  intro j h1 h2
  have := hnl (j - b) (by omega)
  rwa [show b + (j - b) = j by omega] at this

include hu in
theorem ltBranch_good (hb : b < c.length) (hi : SInv u c b stack ident) (hc : isCode stack)
    (h0 : chr c b = c! '<') :
    ∃ r, ltBranch u c b stack ident = some r ∧ Good u c b stack ident r := by
  obtain ⟨top, rest, rfl, htop⟩ := id hc
  unfold ltBranch
  simp only [Option.bind_eq_bind]
  rw [rd_some (by omega), Option.bind_some]
  have n0 : chr c b ≠ 10 := by omega
  split
  · rename_i h1
    have hb1 := lt_of_chr_eq h1 (by decide)
    rw [rd_some (by omega), Option.bind_some]
    simp only [List.getElem?_cons_zero, Option.bind_some]
    -- the common tail when no heredoc starts
    have tail : ∀ id', (HasDoc (top :: rest) → id' = ident) →
        ∃ r, (if chr c (b + 2) = 61 then
          some (⟨.SL_ASSIGN, b + 3, top :: rest, id', []⟩ : Res)
          else some ⟨.SL, b + 2, top :: rest, id', []⟩) = some r ∧
          Good u c b (top :: rest) ident r := by
      intro id' hid
      have hi' : SInv u c b (top :: rest) id' :=
        ⟨hi.wf, fun h => by rw [hid h]; exact hi.doc h, hi.anchor, hi.top⟩
      split
      · rename_i h2
        have := lt_of_chr_eq h2 (by decide)
        refine ⟨_, rfl, Good.intro (by omega) (by omega) (hi'.mono (by omega) hc.noWant) trivial
          (by decide) (Or.inr (nlsIn_short ?_)) hid (by simp) (fun h => absurd h hc.notHtml)⟩
        intro k hk1 hk2
        have : k = b ∨ k = b + 1 ∨ k = b + 2 := by omega
        rcases this with rfl | rfl | rfl <;> omega
      · refine ⟨_, rfl, Good.intro (by omega) (by omega) (hi'.mono (by omega) hc.noWant) trivial
          (by decide) (Or.inr (nlsIn_short ?_)) hid (by simp) (fun h => absurd h hc.notHtml)⟩
        intro k hk1 hk2
        have : k = b ∨ k = b + 1 := by omega
        rcases this with rfl | rfl <;> omega
    unfold heredocOpt
    split
    · rename_i htry
      simp at htry
      obtain ⟨h2, htc⟩ := htry
      have hb2 := lt_of_chr_eq h2 (by decide)
      have htd : top = .Default := by rcases htop with h | h <;> simp_all
      subst htd
      have hnd := hasDoc_default hi.wf
      obtain ⟨id', o, e1, e2⟩ := heredocStart_spec hu (ident := ident) hb2 ⟨h0, h1, h2⟩
      rw [e1, Option.bind_some]
      have hrest := hi.wf.default
      have push : ∀ (nd : Bool) (q : Nat), o = some (nd, q) →
          Good u c b (.Default :: rest) ident
            ⟨if nd then .START_NOWDOC else .START_HEREDOC, q + 1,
              (if nd then St.Nowdoc else .Heredoc) :: .Default :: rest, id', [q]⟩ := by
        intro nd q ho
        obtain ⟨g1, g2, g3, g4, g5, _⟩ := e2 nd q ho
        refine Good.intro (by omega) (by omega) ⟨?_, fun _ => g1, ?_, ?_⟩ (by cases nd <;> trivial)
          (by cases nd <;> decide) (Or.inr ?_) (fun h => absurd h hnd) (by cases nd <;> simp)
          (by simp) (Or.inl (by cases nd <;> rfl))
        · exact Wf.push (by cases nd <;> rfl) hi.wf
        · intro _; exact ⟨b, by omega, by omega⟩
        · intro t r h hw
          simp at h
          cases nd <;> simp at h <;> rw [← h.1] at hw <;> simp [wantsIdent] at hw
        · rw [nlsIn_append (j := q) (by omega) (by omega), nlsIn_single g4, nlsIn_nil]
          · rfl
          · intro k hk1 hk2
            by_cases hk : b + 3 ≤ k
            · exact g5 k hk hk2
            · have : k = b ∨ k = b + 1 ∨ k = b + 2 := by omega
              rcases this with rfl | rfl | rfl <;> omega
      match o, push with
      | some (true, q), push => exact ⟨_, rfl, push true q rfl⟩
      | some (false, q), push => exact ⟨_, rfl, push false q rfl⟩
      | none, _ => exact tail id' (fun h => absurd h hnd)
    · rw [Option.bind_some]
      exact tail ident (fun _ => rfl)
  · split
    · rename_i h1
      have hb1 := lt_of_chr_eq h1 (by decide)
      rw [isAt_some (by omega), Option.bind_some]
      split
      · rename_i h2
        have h2' : chr c (b + 2) = 62 := by simpa using h2
        have hb2 := lt_of_chr_eq h2' (by decide)
        refine ⟨_, rfl, Good.fixed hi hc (by omega) (by omega) ?_ trivial (by decide) (by decide)⟩
        intro j hj
        have : j = 0 ∨ j = 1 ∨ j = 2 := by omega
        rcases this with rfl | rfl | rfl <;> simp_all
      · refine ⟨_, rfl, Good.fixed hi hc (by omega) (by omega) ?_ trivial (by decide) (by decide)⟩
        intro j hj
        have : j = 0 ∨ j = 1 := by omega
        rcases this with rfl | rfl <;> simp_all
    · split
      · rename_i h1
        have hb1 := lt_of_chr_eq h1 (by decide)
        refine ⟨_, rfl, Good.fixed hi hc (by omega) (by omega) ?_ trivial (by decide) (by decide)⟩
        intro j hj
        have : j = 0 ∨ j = 1 := by omega
        rcases this with rfl | rfl <;> simp_all
      · refine ⟨_, rfl, Good.fixed hi hc (by omega) (by omega) ?_ trivial (by decide) (by decide)⟩
        intro j hj
        have : j = 0 := by omega
        subst this; simpa using n0

theorem questionBranch_good (hb : b < c.length) (hi : SInv u c b stack ident) (hc : isCode stack)
    (h0 : chr c b = c! '?') :
    ∃ r, questionBranch c b stack ident = some r ∧ Good u c b stack ident r := by
  unfold questionBranch
  simp only [Option.bind_eq_bind]
  rw [rd_some (by omega), Option.bind_some]
  split
  · rename_i h1
    have hb1 := lt_of_chr_eq h1 (by decide)
    rw [hi.wf.dropToHtml, Option.bind_some]
    refine ⟨_, rfl, Good.intro (by omega) (by omega) ⟨Wf.base, ?_, ?_, ?_⟩ ⟨h0, h1, rfl⟩
      (by decide) (Or.inr (nlsIn_short ?_)) (fun _ => rfl) (fun _ => rfl)
      (fun h => absurd h hc.notHtml)⟩
    · simp [HasDoc]
    · simp [HasStr]
    · intro t r h hw
      cases h; simp [wantsIdent] at hw
    · intro k hk1 hk2
      have : k = b ∨ k = b + 1 := by omega
      rcases this with rfl | rfl <;> omega
  · split
    · rename_i h1
      have hb1 := lt_of_chr_eq h1 (by decide)
      refine ⟨_, rfl, Good.fixed hi hc (by omega) (by omega) ?_ trivial (by decide) (by decide)⟩
      intro j hj
      have : j = 0 ∨ j = 1 := by omega
      rcases this with rfl | rfl <;> simp_all
    · refine ⟨_, rfl, Good.fixed hi hc (by omega) (by omega) ?_ trivial (by decide) (by decide)⟩
      intro j hj
      have : j = 0 := by omega
      subst this; simp [h0]
end
end KPhp
