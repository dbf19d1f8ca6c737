import Verif.Lexer.Branch6
/-! String modes, and the dispatch on the mode. -/
namespace KPhp
section
variable {u : CharClass} (hu : u.Lawful) {c : QString} {b : Nat} {stack : List St} {ident : QString}

/-- The three interpolating string modes. -/
def isStrMode : St → Bool
  | .Str | .Heredoc | .Backtick => true
  | _ => false

theorem hereEnd_eq (hid : ident ≠ []) (i : Nat) :
    ∃ x, hereEnd c ident i = some x ∧ (x = true ↔ HereEndSpec c ident i (i + ident.length)) := by
  unfold hereEnd
  split
  · rename_i h
    have hl := ((slice_eq_iff hid).1 h).1
    refine ⟨_, orO_some (isAt_some hl) fun _ => andO_some (y := chr c (i + ident.length + 1) == 10)
      (isAt_some hl) fun h1 => ?_, ?_⟩
    · have := lt_of_beq h1 (by decide)
      exact isAt_some (by omega)
    · constructor
      · intro hx; simp at hx; exact ⟨h, rfl, hl, hx⟩
      · intro hs; simpa using hs.after
  · rename_i h
    exact ⟨false, rfl, by simp; exact fun hs => h hs.text⟩

/-- Decomposition of a stack in string mode. -/
theorem strBase {t : St} {r : List St} (hi : SInv u c b (t :: r) ident)
    (ht : t = .StrVar ∨ isStrMode t = true) :
    ∃ m s r', isStrMode m = true ∧ popStrVar (t :: r) = some (m :: s :: r') ∧
      leaveStr (t :: r) = some (s :: r') ∧
      (∀ x, isStrMode x = true → inMode (t :: r) x = some (m == x)) ∧
      (∀ e, b ≤ e → SInv u c e (m :: s :: r') ident) ∧
      (∀ e, b ≤ e → SInv u c e (s :: r') ident) ∧
      m ∈ (t :: r) ∧ (t = .StrVar ∨ (t = m ∧ r = s :: r')) := by
  rcases ht with rfl | ht
  · obtain ⟨m, r1, rfl, hu1, hw1⟩ := hi.wf.cons_inv (by decide)
    have hm : isStrMode m = true := by revert hu1; cases m <;> simp [under, isStrMode]
    have hmh : m ≠ .Html := by rintro rfl; exact absurd hm (by decide)
    obtain ⟨s, r', rfl, hu2, hw2⟩ := hw1.cons_inv hmh
    have hi1 : ∀ e, b ≤ e → SInv u c e (m :: s :: r') ident := fun e he =>
      hi.pop he (by decide) (by
        intro s' r'' h; cases h
        revert hm; cases m <;> simp [isStrMode, wantsIdent])
    refine ⟨m, s, r', hm, rfl, rfl, ?_, hi1, ?_, by simp, Or.inl rfl⟩
    · intro x hx
      have : (St.StrVar == x) = false := by revert hx; cases x <;> simp [isStrMode]
      simp [inMode, this, orO]
    · intro e he
      refine (hi1 b (Nat.le_refl _)).pop he hmh ?_
      intro s' r'' h; cases h
      revert hu2 hm; cases m <;> cases s <;> simp [isStrMode, wantsIdent, under]
  · have hmh : t ≠ .Html := by rintro rfl; exact absurd ht (by decide)
    obtain ⟨s, r', rfl, hu2, hw2⟩ := hi.wf.cons_inv hmh
    have htv : t ≠ .StrVar := by rintro rfl; exact absurd ht (by decide)
    have hnw : ∀ s' r'', s :: r' = s' :: r'' → wantsIdent s' = false := by
      intro s' r'' h; cases h
      revert hu2 ht; cases t <;> cases s <;> simp [isStrMode, wantsIdent, under]
    refine ⟨t, s, r', ht, ?_, ?_, ?_, ?_, fun e he => hi.pop he hmh hnw, by simp, Or.inr ⟨rfl, rfl⟩⟩
    · simp [popStrVar, htv]
    · simp [leaveStr, popStrVar, htv, popSt]
    · intro x hx
      have : (s == x) = false := by
        revert hu2 ht hx; cases t <;> cases s <;> cases x <;> simp [isStrMode, under]
      simp [inMode, this, orO]
      cases (t == x) <;> rfl
    · intro e he
      refine hi.mono he ?_
      intro s' r'' h; cases h
      revert ht; cases t <;> simp [isStrMode, wantsIdent]

theorem encBreak_eq {i : Nat} (hi : i < c.length) : encBreak u c i =
    some ((chr c i == 36 && chr c (i + 1) == 123) ||
      ((chr c i == 123 && (chr c (i + 1) == 36 && validIdent u (chr c (i + 2)))) ||
       (chr c i == 36 && identStart u (chr c (i + 1))))) := by
  unfold encBreak
  refine orO_some (andO_some (isAt_some (by omega)) fun _ => isAt_some (by omega)) fun _ =>
    orO_some (andO_some (isAt_some (by omega)) fun _ => andO_some (isAt_some (by omega)) fun h => ?_)
      fun _ => andO_some (isAt_some (by omega)) fun _ => testAt_some (by omega)
  have := lt_of_beq h (by decide)
  exact testAt_some (by omega)

/-- The `ENCAPSED_AND_WHITESPACE` loop terminates inside the text; it stops immediately only at a
break or closing quote. -/
theorem encLoop_spec {top : St} (hid : top = .Heredoc → ident ≠ []) (ha : ∃ j, j < b ∧ chr c j ≠ 92) :
    ∀ (k i : Nat), i + k = c.length → b ≤ i →
      ∃ e, encLoop u c top ident b k i = some e ∧ i ≤ e ∧ e ≤ c.length ∧
        (e = i → i < c.length →
          ((chr c i = 36 ∧ chr c (i + 1) = 123) ∨
           (chr c i = 123 ∧ chr c (i + 1) = 36 ∧ validIdent u (chr c (i + 2)) = true) ∨
           (chr c i = 36 ∧ identStart u (chr c (i + 1)) = true) ∨
           (top = .Str ∧ chr c i = 34) ∨ (top = .Backtick ∧ chr c i = 96))) ∧
        (∀ j, i ≤ j → j < e → strQuote [top] = some (chr c j) → b < j ∧ Escaped c j) ∧
        (∀ j, i ≤ j → j < e → InterpolAt u c j → b < j ∧ Escaped c j) := by
  intro k
  induction k with
  | zero =>
    intro i h1 h2
    refine ⟨i, ?_, by omega, by omega, by intros; omega, by intros; omega, by intros; omega⟩
    unfold encLoop; rw [if_neg (by omega)]
  | succ k ih =>
    intro i h1 h2
    unfold encLoop
    rw [if_pos (by omega)]
    simp only [Option.bind_eq_bind]
    have hesc : ∃ x, escaped c i b = some x ∧ (x = true → b < i ∧ Escaped c i) :=
      ⟨_, escaped_eq (by omega) ha, by rw [bs_decide]; simp⟩
    obtain ⟨x, hx, hxe⟩ := hesc
    have t1 : (notO (escaped c i b) &&? encBreak u c i) =
        some (!x && ((chr c i == 36 && chr c (i + 1) == 123) ||
      ((chr c i == 123 && (chr c (i + 1) == 36 && validIdent u (chr c (i + 2)))) ||
       (chr c i == 36 && identStart u (chr c (i + 1)))))) :=
      andO_some (notO_some hx) fun _ => encBreak_eq (by omega)
    rw [t1, Option.bind_some]
    split
    · rename_i h
      simp at h
      refine ⟨i, rfl, by omega, by omega, fun _ _ => ?_, by intros; omega, by intros; omega⟩
      rcases h.2 with h | h | h
      · exact Or.inl h
      · exact Or.inr (Or.inl h)
      · exact Or.inr (Or.inr (Or.inl h))
    · rename_i hnb
      have hvar : InterpolAt u c i → b < i ∧ Escaped c i := by
        intro hv
        apply hxe
        cases x
        · exfalso; apply hnb
          rcases hv with ⟨h1, h2⟩ | ⟨h1, h2, h3⟩
          · rcases h2 with h2 | h2 <;> simp [identStart_eq, validIdent_eq, h1, h2]
          · simp [identStart_eq, validIdent_eq, h1, h2, h3]
        · rfl
      have t2 : ((some (top == .Str)) &&? isAt c i (c! '"') &&? notO (escaped c i b)) =
          some ((top == .Str) && (chr c i == 34 && !x)) :=
        andO_some rfl fun _ => andO_some (isAt_some (by omega)) fun _ => notO_some hx
      rw [t2, Option.bind_some]
      split
      · rename_i h
        simp at h
        exact ⟨i, rfl, by omega, by omega, fun _ _ => Or.inr (Or.inr (Or.inr (Or.inl ⟨h.1, h.2.1⟩))),
          by intros; omega, by intros; omega⟩
      · rename_i hns
        have t3 : ((some (top == .Backtick)) &&? isAt c i (c! '`') &&? notO (escaped c i b)) =
          some ((top == .Backtick) && (chr c i == 96 && !x)) :=
          andO_some rfl fun _ => andO_some (isAt_some (by omega)) fun _ => notO_some hx
        rw [t3, Option.bind_some]
        split
        · rename_i h
          simp at h
          exact ⟨i, rfl, by omega, by omega,
            fun _ _ => Or.inr (Or.inr (Or.inr (Or.inr ⟨h.1, h.2.1⟩))),
            by intros; omega, by intros; omega⟩
        · rename_i hnt
          have hquote : strQuote [top] = some (chr c i) → b < i ∧ Escaped c i := by
            intro hq
            apply hxe
            cases x
            · exfalso
              cases top <;> simp [strQuote] at hq <;> simp [← hq] at hns hnt
            · rfl
          have one : ∀ j, i ≤ j → j < i + 1 → j = i := by intros; omega
          have t4 : ∃ y, ((some (top == .Heredoc)) &&? isAt c i 10 &&? hereEnd c ident (i + 1)) =
              some y ∧ (y = true → chr c i = 10) := by
            by_cases hh : top = .Heredoc
            · obtain ⟨y, hy, _⟩ := hereEnd_eq (c := c) (hid hh) (i + 1)
              exact ⟨_, andO_some rfl fun _ => andO_some (isAt_some (by omega)) fun _ => hy,
                by simp; intro _ h _; exact h⟩
            · refine ⟨false, ?_, by simp⟩
              have : (top == St.Heredoc) = false := by simpa using hh
              simp [andO, this]
          obtain ⟨y, hy, hy2⟩ := t4
          rw [hy, Option.bind_some]
          split
          · refine ⟨i + 1, rfl, by omega, by omega, by intros; omega, ?_, ?_⟩
            · intro j h1 h2; rw [one j h1 h2]; exact hquote
            · intro j h1 h2; rw [one j h1 h2]; exact hvar
          · obtain ⟨e, r1, r2, r3, r4, r5, r6⟩ := ih (i + 1) (by omega) (by omega)
            refine ⟨e, r1, by omega, r3, by intros; omega, ?_, ?_⟩
            · intro j h1 h2
              by_cases hj : j = i
              · rw [hj]; exact hquote
              · exact r5 j (by omega) h2
            · intro j h1 h2
              by_cases hj : j = i
              · rw [hj]; exact hvar
              · exact r6 j (by omega) h2

/-- A token in string mode. -/
theorem Good.str {t : Tok} {e : Nat} {st' : List St} {nls : List Nat}
    (h1 : b < e) (h2 : e ≤ c.length) (hi : SInv u c e st' ident)
    (hs : TokSpec u c stack ident b e t) (hk : t.isKeyword = false)
    (hn : nls = nlsIn c b e) (hcl : t ≠ .CLOSE_TAG) (hh : stack.head? ≠ some .Html)
    (hx : t.plainNl = true ∨ NlRecorded c b e t nls := by exact Or.inl (by decide)) :
    Good u c b stack ident ⟨t, e, st', ident, nls⟩ :=
  Good.intro h1 (by omega) hi hs hk (Or.inr hn) (fun _ => rfl) (fun h => absurd h hcl)
    (fun h => absurd h hh) hx

theorem nls1 (h : chr c b ≠ 10) : ([] : List Nat) = nlsIn c b (b + 1) := nlsIn_short (by
  intro k h1 h2
  have : k = b := by omega
  subst this; exact h)

theorem nls2 (h : chr c b ≠ 10) (h' : chr c (b + 1) ≠ 10) : ([] : List Nat) = nlsIn c b (b + 2) :=
  nlsIn_short (by
    intro k h1 h2
    have : k = b ∨ k = b + 1 := by omega
    rcases this with rfl | rfl <;> assumption)

include hu in
theorem HereEndSpec.nls {e : Nat} (h : HereEndSpec c ident b e) (hid : DocIdent u ident) :
    ([] : List Nat) = nlsIn c b e := by
  apply nlsIn_short
  intro k h1 h2
  have h3 := h.stop
  subst h3
  have := ((slice_eq_iff hid.1).1 h.text).2 (k - b) (by omega)
  rw [show b + (k - b) = k by omega] at this
  intro h10
  rw [this] at h10
  have hm : ident.getD (k - b) 0 ∈ ident := by
    have hlt : k - b < ident.length := by omega
    simp [List.getD, hlt]
  rw [h10] at hm
  have := hid.2 _ hm
  rw [digit_nl hu, letter_nl hu] at this; exact absurd this (by decide)
end
end KPhp
