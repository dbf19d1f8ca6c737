import Verif.Lexer.Branch7
/-! String modes, and the dispatch on the mode. -/
namespace KPhp
section
variable {u : CharClass} (hu : u.Lawful) {c : QString} {b : Nat} {stack : List St} {ident : QString}

/-- Some string branch keeps its contract. -/
def SGood (u : CharClass) (c : QString) (b : Nat) (stack : List St) (ident : QString)
    (x : Option Res) : Prop := ∃ r, x = some r ∧ Good u c b stack ident r

theorem SGood.ite {p : Prop} [Decidable p] {x y : Option Res}
    (h1 : p → SGood u c b stack ident x) (h2 : ¬ p → SGood u c b stack ident y) :
    SGood u c b stack ident (if p then x else y) := by
  by_cases h : p
  · rw [if_pos h]; exact h1 h
  · rw [if_neg h]; exact h2 h

theorem SGood.res {r : Res} (h : Good u c b stack ident r) : SGood u c b stack ident (some r) :=
  ⟨r, rfl, h⟩

include hu in
theorem strBranch_good {t : St} {r : List St} (hb : b < c.length) (hi : SInv u c b (t :: r) ident)
    (ht : t = .StrVar ∨ isStrMode t = true) :
    SGood u c b (t :: r) ident (strBranch u c b (t :: r) ident) := by
  obtain ⟨m, s, r', hm, hpop, hleave, hmode, hinvm, hinvs, hmem, hdec⟩ := strBase hi ht
  have hne : (t :: r).head? ≠ some .Html := by
    rcases ht with rfl | h
    · simp
    · revert h; cases t <;> simp [isStrMode]
  have hnw : wantsIdent t = false := by
    rcases ht with rfl | h
    · rfl
    · revert h; cases t <;> simp [isStrMode, wantsIdent]
  have hself : ∀ e, b ≤ e → SInv u c e (t :: r) ident := fun e he =>
    hi.mono he (by intro t' r' h; cases h; exact hnw)
  have hst : HasStr (t :: r) := by
    revert hm hmem; cases m <;> simp [isStrMode, HasStr] <;> intro h <;> simp [h]
  have hanchor := hi.anchor hst
  have hdocid : m = .Heredoc → DocIdent u ident := by
    rintro rfl; exact hi.doc (Or.inl hmem)
  unfold strBranch
  simp only [Option.bind_eq_bind, List.getElem?_cons_zero, Option.bind_some]
  have t1 : (inMode (t :: r) .Str &&? isAt c b (c! '"')) = some ((m == .Str) && chr c b == 34) :=
    andO_some (hmode _ rfl) fun _ => isAt_some (by omega)
  rw [t1, Option.bind_some]
  refine SGood.ite (fun h => ?_) fun hq => ?_
  · simp at h
    rw [hleave, Option.bind_some]
    exact SGood.res (Good.str (by omega) (by omega) (hinvs _ (by omega)) trivial (by decide)
      (nls1 (by omega)) (by decide) hne)
  have t2 : (inMode (t :: r) .Backtick &&? isAt c b (c! '`')) =
      some ((m == .Backtick) && chr c b == 96) :=
    andO_some (hmode _ rfl) fun _ => isAt_some (by omega)
  rw [t2, Option.bind_some]
  refine SGood.ite (fun h => ?_) fun hbt => ?_
  · simp at h
    rw [hleave, Option.bind_some]
    exact SGood.res (Good.str (by omega) (by omega) (hinvs _ (by omega)) trivial (by decide)
      (nls1 (by omega)) (by decide) hne)
  have t3 : ∃ x, (inMode (t :: r) .Heredoc &&? hereEnd c ident b) = some x ∧
      (x = true → m = .Heredoc ∧ HereEndSpec c ident b (b + ident.length)) := by
    by_cases hh : m = .Heredoc
    · obtain ⟨y, hy, hy2⟩ := hereEnd_eq (c := c) (hdocid hh).1 b
      exact ⟨_, andO_some (hmode _ rfl) fun _ => hy, by simp; intro h1 h2; exact ⟨h1, hy2.1 h2⟩⟩
    · refine ⟨false, ?_, by simp⟩
      have : (m == St.Heredoc) = false := by simpa using hh
      rw [hmode _ rfl, this]; rfl
  obtain ⟨x3, hx3, hx3'⟩ := t3
  rw [hx3, Option.bind_some]
  refine SGood.ite (fun h => ?_) fun hhe => ?_
  · obtain ⟨hmh, hsp⟩ := hx3' h
    have hlen : 0 < ident.length := List.length_pos_iff.2 (hdocid hmh).1
    have := hsp.inText
    rw [hleave, Option.bind_some]
    exact SGood.res (Good.str (by omega) (by omega) (hinvs _ (by omega)) hsp (by decide)
      (hsp.nls hu (hdocid hmh)) (by decide) hne)
  rcases (processVariable_spec hu (c := c) hb).symm with ⟨e, hv1, hv2⟩ | ⟨hv1, hv2⟩
  · rw [hv1, Option.bind_some]
    have h1 := hv2.nonempty
    have h2 := hv2.inText
    refine SGood.res (Good.str (by omega) (by omega) ?_ hv2 (by decide) (hv2.nls hu).symm
      (by decide) hne)
    split
    · exact hself _ (by omega)
    · rename_i htv
      refine hi.push (by omega) ?_ (by decide) (by simp) (by simp [wantsIdent])
      have := ht.resolve_left htv
      revert this; cases t <;> simp [isStrMode, under]
  rw [hv1, Option.bind_some]
  simp only
  have t4 : ((some (t != .StrVar)) &&? isAt c b (c! '$') &&? isAt c (b + 1) (c! '{')) =
      some ((t != .StrVar) && (chr c b == 36 && chr c (b + 1) == 123)) :=
    andO_some rfl fun _ => andO_some (isAt_some (by omega)) fun _ => isAt_some (by omega)
  rw [t4, Option.bind_some]
  refine SGood.ite (fun h => ?_) fun hdc => ?_
  · simp at h
    have hb1 := lt_of_chr_eq h.2.2 (by decide)
    rw [testAt_some (by omega), Option.bind_some]
    refine SGood.res (Good.str (by omega) (by omega) ?_ trivial (by decide)
      (nls2 (by omega) (by omega)) (by decide) hne)
    split
    · rename_i hn
      refine hi.push (by omega) ?_ (by decide) (by simp) (fun _ => valid_of_start hn)
      have := ht.resolve_left h.1
      revert this; cases t <;> simp [isStrMode, under]
    · exact hself _ (by omega)
  have t5 : ((some (t == .StrVar)) &&? isAt c b (c! '[')) = some ((t == .StrVar) && chr c b == 91) :=
    andO_some rfl fun _ => isAt_some (by omega)
  rw [t5, Option.bind_some]
  refine SGood.ite (fun h => ?_) fun hbr => ?_
  · simp at h
    refine SGood.res (Good.str (by omega) (by omega) ?_ trivial (by decide) (nls1 (by omega))
      (by decide) hne)
    obtain ⟨rfl, _⟩ := h
    exact hi.push (by omega) rfl (by decide) (by simp) (by simp [wantsIdent])
  have t6 : ((some (t != .StrVar)) &&? curlyOpenAt u c b) = some ((t != .StrVar) && (chr c b == 123 &&
      (chr c (b + 1) == 36 && (identStart u (chr c (b + 2)) || chr c (b + 2) == 123)))) := by
    refine andO_some rfl fun _ => andO_some (isAt_some (by omega)) fun _ =>
      andO_some (isAt_some (by omega)) fun h => ?_
    have := lt_of_beq h (by decide)
    exact testAt_some (by omega)
  rw [t6, Option.bind_some]
  refine SGood.ite (fun h => ?_) fun hco => ?_
  · simp at h
    refine SGood.res (Good.str (by omega) (by omega) ?_ trivial (by decide) (nls1 (by omega))
      (by decide) hne)
    refine hi.push (by omega) ?_ (by decide) (by simp) (by simp [wantsIdent])
    have := ht.resolve_left h.1
    revert this; cases t <;> simp [isStrMode, under]
  have t7 : ((some (t == .StrVar)) &&? arrowAt u c b) = some ((t == .StrVar) && (chr c b == 45 &&
      (chr c (b + 1) == 62 && identStart u (chr c (b + 2))))) := by
    refine andO_some rfl fun _ => andO_some (isAt_some (by omega)) fun _ =>
      andO_some (isAt_some (by omega)) fun h => ?_
    have := lt_of_beq h (by decide)
    exact testAt_some (by omega)
  rw [t7, Option.bind_some]
  refine SGood.ite (fun h => ?_) fun hao => ?_
  · simp at h
    have hb1 := lt_of_chr_eq h.2.2.1 (by decide)
    refine SGood.res (Good.str (by omega) (by omega) ?_ trivial (by decide)
      (nls2 (by omega) (by omega)) (by decide) hne)
    obtain ⟨rfl, _, _, h3⟩ := h
    exact hi.push (by omega) rfl (by decide) (by simp) (fun _ => valid_of_start h3)
  rw [hpop, Option.bind_some]
  simp only [List.getElem?_cons_zero, Option.bind_some]
  obtain ⟨e, e1, e2, e3, e4, e5, e6⟩ := encLoop_spec (u := u) (c := c) (b := b) (ident := ident) (top := m)
    (fun h => (hdocid h).1) hanchor (c.length - b) b (by omega) (Nat.le_refl _)
  rw [e1, Option.bind_some]
  refine SGood.res ⟨e2, Or.inl ⟨by show e ≤ _; omega, Or.inl (by show e ≤ _; omega)⟩, ?_, hinvm _ e2, ⟨⟨e2, e3⟩, ?_, e6⟩, notKw rfl, NlRecorded.of (Or.inr rfl) (Or.inl rfl),
    fun _ => rfl, by simp, fun h => absurd h hne, by obtain ⟨j, hj, _⟩ := hanchor; show 0 < e; omega⟩
  rotate_left
  · intro k h1 h2 h3
    refine e5 k h1 h2 ?_
    rw [← h3]
    rcases hdec with rfl | ⟨rfl, rfl⟩
    · obtain ⟨m', r1, rfl, hu1, _⟩ := hi.wf.cons_inv (by decide)
      have : m' :: r1 = m :: s :: r' := by simpa [popStrVar, popSt] using hpop
      cases this
      revert hm; cases m <;> simp [isStrMode, strQuote]
    · revert hm; cases t <;> simp [isStrMode, strQuote]
  show b < e ∨ _
  by_cases hbe : b < e
  · exact Or.inl hbe
  · have heb : e = b := by omega
    refine Or.inr ⟨rfl, heb, ?_⟩
    by_cases htv : t = .StrVar
    · left
      subst htv
      refine ⟨rfl, ?_⟩
      show some m ≠ some .StrVar
      intro h; cases h; exact absurd hm (by decide)
    · right
      rcases hdec with h | ⟨h1, h2⟩
      · exact absurd h htv
      · subst h1 h2
        refine ⟨rfl, rfl, ?_⟩
        rcases e4 heb hb with h | h | h | h | h
        · simp [h.1, h.2, htv] at hdc
        · refine ⟨h.1, h.2.1, ?_⟩
          simp [h.1, h.2.1, htv] at hco
          have hv := h.2.2
          cases hd : u.isDigit (chr c (b + 2))
          · exfalso
            have : identStart u (chr c (b + 2)) = true := by unfold identStart; rw [hv, hd]; rfl
            rw [this] at hco; exact absurd hco.1 (by decide)
          · rfl
        · exact absurd ⟨h.1, h.2⟩ hv2
        · simp [h.1, h.2] at hq
        · simp [h.1, h.2] at hbt

theorem nowdocLoop_spec (hid : ident ≠ []) : ∀ (k i : Nat), i + k = c.length →
      ∃ e, nowdocLoop c ident k i = some e ∧ i ≤ e ∧ e ≤ c.length ∧ (i < c.length → i < e) := by
  intro k
  induction k with
  | zero =>
    intro i h1
    refine ⟨i, ?_, by omega, by omega, by intros; omega⟩
    unfold nowdocLoop; rw [if_neg (by omega)]
  | succ k ih =>
    intro i h1
    unfold nowdocLoop
    rw [if_pos (by omega)]
    simp only [Option.bind_eq_bind]
    obtain ⟨y, hy, _⟩ := hereEnd_eq (c := c) hid (i + 1)
    have t4 : (isAt c i 10 &&? hereEnd c ident (i + 1)) = some (chr c i == 10 && y) :=
      andO_some (isAt_some (by omega)) fun _ => hy
    rw [t4, Option.bind_some]
    split
    · exact ⟨i + 1, rfl, by omega, by omega, by intros; omega⟩
    · obtain ⟨e, r1, r2, r3, r4⟩ := ih (i + 1) (by omega)
      exact ⟨e, r1, by omega, r3, by intros; omega⟩

include hu in
theorem nowdocBranch_good {r : List St} (hb : b < c.length) (hi : SInv u c b (.Nowdoc :: r) ident) :
    SGood u c b (.Nowdoc :: r) ident (nowdocBranch c b (.Nowdoc :: r) ident) := by
  have hid : DocIdent u ident := hi.doc (Or.inr (by simp))
  obtain ⟨s, r', rfl, hu1, hw1⟩ := hi.wf.cons_inv (by decide)
  unfold nowdocBranch
  simp only [Option.bind_eq_bind]
  obtain ⟨y, hy, hy2⟩ := hereEnd_eq (c := c) hid.1 b
  rw [hy, Option.bind_some]
  refine SGood.ite (fun h => ?_) fun _ => ?_
  · have hsp := hy2.1 h
    have hlen : 0 < ident.length := List.length_pos_iff.2 hid.1
    have := hsp.inText
    simp only [popSt, Option.bind_some]
    refine SGood.res (Good.str (by omega) (by omega) (hi.pop (by omega) (by decide) ?_) hsp (by decide)
      (hsp.nls hu hid) (by decide) (by simp))
    intro s' r'' h; cases h
    revert hu1; cases s <;> simp [under, wantsIdent]
  · obtain ⟨e, e1, e2, e3, e4⟩ := nowdocLoop_spec (c := c) hid.1 (c.length - b) b (by omega)
    rw [e1, Option.bind_some]
    exact SGood.res (Good.str (e4 hb) (by omega) (hi.mono (by omega)
      (by intro t r h; cases h; rfl)) trivial (by decide) rfl (by decide) (by simp))

theorem bracketBranch_good {r : List St} (hu : u.Lawful) (hb : b < c.length)
    (hi : SInv u c b (.StrVarBracket :: r) ident) :
    SGood u c b (.StrVarBracket :: r) ident (bracketBranch u c b (.StrVarBracket :: r) ident) := by
  obtain ⟨s, r', rfl, hu1, hw1⟩ := hi.wf.cons_inv (by decide)
  have hs : s = .StrVar := by revert hu1; cases s <;> simp [under]
  subst hs
  obtain ⟨m, r1, rfl, hu2, hw2⟩ := hw1.cons_inv (by decide)
  unfold bracketBranch
  simp only [Option.bind_eq_bind]
  rw [rd_some (by omega), Option.bind_some]
  refine SGood.ite (fun h => ?_) fun hnb => ?_
  · simp only [popSt, Option.bind_some]
    refine SGood.res (Good.str (by omega) (by omega) ((hi.pop (Nat.le_refl _) (by decide) ?_).pop
      (by omega) (by decide) ?_) trivial (by decide) (nls1 (by omega)) (by decide) (by simp))
    · intro s' r'' h; cases h; rfl
    · intro s' r'' h; cases h
      revert hu2; cases m <;> simp [under, wantsIdent]
  refine SGood.ite (fun h => ?_) fun hnd => ?_
  · obtain ⟨e, s1, s2, s3, _, s4, s5⟩ := scan_chr (c := c) (bound := c.length) (i := b) u.isDigit
      (Nat.le_refl _)
    have hbe : b < e := by
      by_cases h' : e = b
      · subst h'; rw [s5 hb] at h; exact absurd h (by decide)
      · omega
    rw [s1, Option.bind_some]
    refine SGood.res (Good.str hbe (by have := s3 (by omega); omega) (hi.mono (by omega)
      (by intro t r h; cases h; rfl)) trivial (by decide) (nlsIn_short ?_) (by decide) (by simp))
    intro k hk1 hk2 h10
    have := s4 k hk1 hk2
    rw [h10, digit_nl hu] at this; exact absurd this (by decide)
  · obtain ⟨e, s1, s2, s3, _, s4, s5⟩ := scan_spec (bound := c.length) (i := b)
      (p := fun i => notO (isAt c i (c! ']'))) (fun i => !(chr c i == 93))
      (fun j _ hj _ => notO_some (isAt_some (by omega)))
    have hbe : b < e := by
      by_cases h' : e = b
      · subst h'; have := s5 hb; simp at this; exact absurd this hnb
      · omega
    rw [s1, Option.bind_some]
    exact SGood.res (Good.str hbe (by have := s3 (by omega); omega) (hi.mono (by omega)
      (by intro t r h; cases h; rfl)) trivial (by decide) rfl (by decide) (by simp))

theorem objOpBranch_good {r : List St} (hu : u.Lawful) (hb : b < c.length)
    (hi : SInv u c b (.StrVarObjOp :: r) ident) :
    SGood u c b (.StrVarObjOp :: r) ident (objOpBranch u c b (.StrVarObjOp :: r) ident) := by
  obtain ⟨s, r', rfl, hu1, hw1⟩ := hi.wf.cons_inv (by decide)
  have hv := hi.top _ _ rfl rfl
  unfold objOpBranch
  simp only [Option.bind_eq_bind]
  obtain ⟨e, s1, s2, s3, _, s4, s5⟩ := scan_chr (c := c) (bound := c.length) (i := b) (validIdent u)
    (Nat.le_refl _)
  have hbe : b < e := by
    by_cases h' : e = b
    · subst h'; rw [← validIdent_eq, s5 hb] at hv; exact absurd hv (by decide)
    · omega
  have hsnw : ∀ s' r'', s :: r' = s' :: r'' → wantsIdent s' = false := by
    intro s' r'' h; cases h
    revert hu1; cases s <;> simp [under, wantsIdent]
  have hi1 : ∀ e, b ≤ e → SInv u c e (s :: r') ident := fun e he => hi.pop he (by decide) hsnw
  have hpop : ∃ st, popStrVar (s :: r') = some st ∧ SInv u c e st ident := by
    by_cases hsv : s = .StrVar
    · subst hsv
      obtain ⟨m, r1, rfl, hu2, hw2⟩ := hw1.cons_inv (by decide)
      refine ⟨m :: r1, rfl, (hi1 b (Nat.le_refl _)).pop (by omega) (by decide) ?_⟩
      intro s' r'' h; cases h
      revert hu2; cases m <;> simp [under, wantsIdent]
    · exact ⟨s :: r', by simp [popStrVar, hsv], hi1 _ (by omega)⟩
  obtain ⟨st, hp1, hp2⟩ := hpop
  rw [s1, Option.bind_some]
  simp only [popSt, Option.bind_some]
  rw [hp1, Option.bind_some]
  refine SGood.res (Good.str hbe (by have := s3 (by omega); omega) hp2 trivial (by decide)
    (nlsIn_short ?_) (by decide) (by simp))
  intro k hk1 hk2
  exact valid_ne_nl hu (s4 k hk1 hk2)

theorem varnameBranch_good {r : List St} (hu : u.Lawful) (hb : b < c.length)
    (hi : SInv u c b (.StrVarname :: r) ident) :
    SGood u c b (.StrVarname :: r) ident (varnameBranch u c b (.StrVarname :: r) ident) := by
  obtain ⟨s, r', rfl, hu1, hw1⟩ := hi.wf.cons_inv (by decide)
  have hv := hi.top _ _ rfl rfl
  unfold varnameBranch
  simp only [Option.bind_eq_bind, popSt, Option.bind_some]
  obtain ⟨e, s1, s2, s3, _, s4, s5⟩ := scan_chr (c := c) (bound := c.length) (i := b) (validIdent u)
    (Nat.le_refl _)
  have hbe : b < e := by
    by_cases h' : e = b
    · subst h'; rw [← validIdent_eq, s5 hb] at hv; exact absurd hv (by decide)
    · omega
  have hi1 : SInv u c b (s :: r') ident := hi.pop (Nat.le_refl _) (by decide) (by
    intro s' r'' h; cases h
    revert hu1; cases s <;> simp [under, wantsIdent])
  rw [s1, Option.bind_some]
  refine SGood.res (Good.str hbe (by have := s3 (by omega); omega) (hi1.push (by omega) ?_
    (by decide) (by simp) (by simp [wantsIdent])) trivial (by decide)
    (nlsIn_short ?_) (by decide) (by simp))
  · revert hu1; cases s <;> simp [under]
  · intro k hk1 hk2
    exact valid_ne_nl hu (s4 k hk1 hk2)

include hu in
/-- One token: the contract holds, or the `yield` hazard is hit. -/
theorem dispatch_good (hb : b < c.length) (hi : SInv u c b stack ident) :
    BGood u c b stack ident (dispatch u c b stack ident) := by
  unfold dispatch
  simp only [Option.bind_eq_bind]
  obtain ⟨t, r, rfl⟩ : ∃ t r, stack = t :: r := by
    cases stack with
    | nil => exact absurd rfl hi.wf.ne_nil
    | cons t r => exact ⟨t, r, rfl⟩
  simp only [List.getElem?_cons_zero, Option.bind_some]
  cases t with
  | Error =>
    exfalso
    have := hi.wf
    cases this with
    | push a b => simp [under] at a
  | Html => exact Or.inr (htmlBranch_good hu hb hi)
  | Default => exact codeBranch_good hu hb hi ⟨_, _, rfl, Or.inl rfl⟩
  | StrVarCurly => exact codeBranch_good hu hb hi ⟨_, _, rfl, Or.inr rfl⟩
  | StrVar => exact Or.inr (strBranch_good hu hb hi (Or.inl rfl))
  | Str => exact Or.inr (strBranch_good hu hb hi (Or.inr rfl))
  | Heredoc => exact Or.inr (strBranch_good hu hb hi (Or.inr rfl))
  | Backtick => exact Or.inr (strBranch_good hu hb hi (Or.inr rfl))
  | Nowdoc => exact Or.inr (nowdocBranch_good hu hb hi)
  | StrVarBracket => exact Or.inr (bracketBranch_good hu hb hi)
  | StrVarObjOp => exact Or.inr (objOpBranch_good hu hb hi)
  | StrVarname => exact Or.inr (varnameBranch_good hu hb hi)
end
end KPhp
