import Verif.Lexer.Branch5
/-! The whole code mode. -/
namespace KPhp
section
variable {u : CharClass} (hu : u.Lawful) {c : QString} {b : Nat} {stack : List St} {ident : QString}

/-- A branch keeps its contract, or hits the `yield` look-ahead hazard. -/
def BGood (u : CharClass) (c : QString) (b : Nat) (stack : List St) (ident : QString)
    (x : Option Res) : Prop :=
  (x = none ∧ YieldHazardAt u c b) ∨ ∃ r, x = some r ∧ Good u c b stack ident r

theorem BGood.ite {p : Prop} [Decidable p] {x y : Option Res}
    (h1 : p → BGood u c b stack ident x) (h2 : ¬ p → BGood u c b stack ident y) :
    BGood u c b stack ident (if p then x else y) := by
  by_cases h : p
  · rw [if_pos h]; exact h1 h
  · rw [if_neg h]; exact h2 h

theorem BGood.res {r : Res} (h : Good u c b stack ident r) : BGood u c b stack ident (some r) :=
  Or.inr ⟨r, rfl, h⟩

/-- One-character token that replaces the mode stack. -/
theorem Good.one {t : Tok} {st' : List St} (hb : b < c.length) (hc : isCode stack)
    (hn : chr c b ≠ 10) (hi : SInv u c (b + 1) st' ident)
    (hs : TokSpec u c stack ident b (b + 1) t) (hk : t.isKeyword = false) (hct : t ≠ .CLOSE_TAG)
    (hx : t.plainNl = true ∨ NlRecorded c b (b + 1) t [] := by exact Or.inl (by decide)) :
    Good u c b stack ident ⟨t, b + 1, st', ident, []⟩ := by
  refine Good.intro (by omega) (by omega) hi hs hk (Or.inr (nlsIn_short ?_)) (fun _ => rfl)
    (fun h => absurd h hct) (fun h => absurd h hc.notHtml) hx
  intro k hk1 hk2
  have : k = b := by omega
  subst this; exact hn

theorem SInv.push {t s : St} {r : List St} {e : Nat} (hi : SInv u c b (s :: r) ident) (hbe : b ≤ e)
    (hu : under t s = true) (hd : t ≠ .Heredoc ∧ t ≠ .Nowdoc)
    (ha : (t = .Str ∨ t = .Backtick) → ∃ j, j < e ∧ chr c j ≠ 92)
    (hw : wantsIdent t = true → validIdent u (chr c e) = true) :
    SInv u c e (t :: s :: r) ident where
  wf := Wf.push hu hi.wf
  doc h := by
    apply hi.doc
    simp only [HasDoc, List.mem_cons] at h ⊢
    rcases h with (h | h) | (h | h)
    · exact absurd h.symm hd.1
    · exact Or.inl h
    · exact absurd h.symm hd.2
    · exact Or.inr h
  anchor h := by
    by_cases ht : t = .Str ∨ t = .Backtick
    · exact ha ht
    · have : HasStr (s :: r) := by
        simp only [HasStr, List.mem_cons] at h ⊢
        rcases h with (h | h) | (h | h) | (h | h)
        · exact absurd (Or.inl h.symm) ht
        · exact Or.inl h
        · exact absurd h.symm hd.1
        · exact Or.inr (Or.inl h)
        · exact absurd (Or.inr h.symm) ht
        · exact Or.inr (Or.inr h)
      obtain ⟨j, hj, hne⟩ := hi.anchor this
      exact ⟨j, by omega, hne⟩
  top t' r' h hw' := by
    simp at h
    rw [← h.1] at hw'
    exact hw hw'

theorem SInv.pop {t : St} {r : List St} {e : Nat} (hi : SInv u c b (t :: r) ident) (hbe : b ≤ e)
    (ht : t ≠ .Html) (hw : ∀ s r', r = s :: r' → wantsIdent s = false) : SInv u c e r ident where
  wf := by obtain ⟨s, r', rfl, _, h⟩ := hi.wf.cons_inv ht; exact h
  doc h := by
    apply hi.doc
    simp only [HasDoc, List.mem_cons] at h ⊢
    rcases h with h | h
    · exact Or.inl (Or.inr h)
    · exact Or.inr (Or.inr h)
  anchor h := by
    have : HasStr (t :: r) := by
      simp only [HasStr, List.mem_cons] at h ⊢
      rcases h with h | h | h
      · exact Or.inl (Or.inr h)
      · exact Or.inr (Or.inl (Or.inr h))
      · exact Or.inr (Or.inr (Or.inr h))
    obtain ⟨j, hj, hne⟩ := hi.anchor this
    exact ⟨j, by omega, hne⟩
  top s r' h hw' := by rw [hw s r' h] at hw'; exact absurd hw' (by decide)

include hu in
theorem codeBranch_good (hb : b < c.length) (hi : SInv u c b stack ident) (hc : isCode stack) :
    BGood u c b stack ident (codeBranch u c b stack ident) := by
  obtain ⟨top, rest, rfl, htop⟩ := id hc
  have hnw := hc.noWant
  unfold codeBranch
  simp only [Option.bind_eq_bind]
  rw [rd_some (by omega), Option.bind_some]
  simp only [List.getElem?_cons_zero, Option.bind_some]
  refine BGood.ite (fun hsp => Or.inr (wsBranch_good hb hi hc hsp)) fun hsp => ?_
  have hnum : (testAt c b u.isDigit ||? (isAt c b (c! '.') &&? testAt c (b + 1) u.isDigit)) =
      some (u.isDigit (chr c b) || (chr c b == 46 && u.isDigit (chr c (b + 1)))) :=
    orO_some (testAt_some (by omega)) fun _ => andO_some (isAt_some (by omega)) fun _ =>
      testAt_some (by omega)
  rw [hnum, Option.bind_some]
  refine BGood.ite (fun hd => Or.inr (numBranch_good hu hb hi hc (by simpa using hd))) fun hd => ?_
  have hn10 : chr c b ≠ 10 := by
    intro h; rw [h, hu.space_ascii _ (by omega)] at hsp; exact hsp (by decide)
  rcases processVariable_spec hu (c := c) hb with ⟨hv1, hv2⟩ | ⟨e, hv1, hv2⟩
  · rw [hv1, Option.bind_some]
    simp only
    have mono := fun e (h : b ≤ e) => hi.mono h hnw
    refine BGood.ite (fun h => BGood.res (Good.one hb hc hn10 (mono _ (by omega)) trivial (by decide)
      (by decide))) fun _ => ?_
    refine BGood.ite (fun h => BGood.res (Good.one hb hc hn10 ?_ trivial (by decide) (by decide)))
      fun _ => ?_
    · split
      · rename_i ht
        subst ht
        refine hi.pop (by omega) (by decide) ?_
        rintro s r' rfl
        have := (hi.wf.tail_of_push (by decide)).1
        revert this; cases s <;> simp [under, wantsIdent]
      · exact mono _ (by omega)
    refine BGood.ite (fun h => BGood.res (Good.one hb hc hn10 ?_ trivial (by decide) (by decide)))
      fun _ => ?_
    · split
      · rename_i ht
        subst ht
        exact hi.push (by omega) rfl (by decide) (by simp) (by simp [wantsIdent])
      · exact mono _ (by omega)
    refine BGood.ite (fun h => Or.inr (parenBranch_good hu hb hi hc h)) fun _ => ?_
    refine BGood.ite (fun h => Or.inr (ltBranch_good hu hb hi hc h)) fun _ => ?_
    refine BGood.ite (fun h => Or.inr (questionBranch_good hb hi hc h)) fun _ => ?_
    have harr : (isAt c b (c! '-') &&? isAt c (b + 1) (c! '>')) =
        some (chr c b == 45 && chr c (b + 1) == 62) :=
      andO_some (isAt_some (by omega)) fun _ => isAt_some (by omega)
    rw [harr, Option.bind_some]
    refine BGood.ite (fun h => ?_) fun _ => ?_
    · simp at h
      have hb1 := lt_of_chr_eq h.2 (by decide)
      rw [testAt_some (by omega), Option.bind_some]
      refine BGood.res (Good.intro (by omega) (by omega) ?_ trivial (by decide)
        (Or.inr (nlsIn_short ?_)) (fun _ => rfl) (by simp) (fun h => absurd h hc.notHtml))
      · split
        · rename_i hv
          refine hi.push (by omega) ?_ (by decide) (by simp) (fun _ => hv)
          rcases htop with rfl | rfl <;> rfl
        · exact mono _ (by omega)
      · intro k hk1 hk2
        have : k = b ∨ k = b + 1 := by omega
        rcases this with rfl | rfl <;> omega
    refine BGood.ite (fun h => Or.inr (slashBranch_good hu hb hi hc h)) fun _ => ?_
    refine BGood.ite (fun h => Or.inr (hashBranch_good hu hb hi hc h)) fun _ => ?_
    refine BGood.ite (fun h => Or.inr (squoteBranch_good hb hi hc h)) fun _ => ?_
    refine BGood.ite (fun h => Or.inr (dquoteBranch_good hb hi hc h)) fun _ => ?_
    refine BGood.ite (fun h => BGood.res (Good.one hb hc hn10 ?_ trivial (by decide) (by decide)))
      fun _ => ?_
    · refine hi.push (by omega) ?_ (by decide) (fun _ => ⟨b, by omega, by omega⟩) (by simp [wantsIdent])
      rcases htop with rfl | rfl <;> rfl
    obtain ⟨o, ho, hok⟩ := punct_spec (c := c) hb
    rw [ho, Option.bind_some]
    cases o with
    | some tk =>
      obtain ⟨t, k⟩ := tk
      obtain ⟨p1, p2, p3, p4, p5, p7, p6⟩ := hok t k rfl
      exact BGood.res (Good.fixed hi hc p1 (by omega) p3 (p6 _ _ _ _) p4 p5 (Or.inl p7.2))
    | none =>
      simp only
      refine BGood.ite (fun h => wordBranch_good hu hb hi hc h) fun _ => ?_
      exact BGood.res (Good.one hb hc hn10 (mono _ (by omega)) trivial (by decide) (by decide))
  · rw [hv1, Option.bind_some]
    have h1 := hv2.nonempty
    have h2 := hv2.inText
    exact BGood.res (Good.simple hi hc (by omega) (by omega) hv2 (notKw (by decide))
      (Or.inr (hv2.nls hu).symm) (by decide))
end
end KPhp
