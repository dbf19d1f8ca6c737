import Verif.Lexer.Branch8
/-! Facts that hold for every result of a branch, independent of the invariant: how the mode stack
moves, and which branch may produce which token. -/
namespace KPhp

/-- How one token may change the mode stack: leave some of the innermost modes, enter one, or turn
`${name` into an expression. -/
inductive StackMove : List St → List St → Prop
  | leave (pre l : List St) : StackMove (pre ++ l) l
  | enter (t : St) (l : List St) : StackMove l (t :: l)
  | varname (l : List St) : StackMove (.StrVarname :: l) (.StrVarCurly :: l)

theorem StackMove.refl (l : List St) : StackMove l l := StackMove.leave [] l

/-- Every result of the computation satisfies `P`. -/
def Yields (P : Res → Prop) (x : Option Res) : Prop := ∀ r, x = some r → P r

namespace Yields
variable {P : Res → Prop} {α : Type}
theorem res {r : Res} (h : P r) : Yields P (some r) := by rintro _ ⟨⟩; exact h
theorem bind {x : Option α} {f : α → Option Res} (h : ∀ a, x = some a → Yields P (f a)) :
    Yields P (x.bind f) := by
  intro r hr
  obtain ⟨a, ha, hf⟩ := Option.bind_eq_some_iff.1 hr
  exact h a ha r hf
theorem ite {p : Prop} [Decidable p] {x y : Option Res} (h1 : p → Yields P x)
    (h2 : ¬ p → Yields P y) : Yields P (if p then x else y) := by
  by_cases h : p
  · rw [if_pos h]; exact h1 h
  · rw [if_neg h]; exact h2 h
end Yields

/-- Explore a branch function down to its results. -/
syntax "explore" : tactic
macro_rules
  | `(tactic| explore) => `(tactic|
      repeat' first
        | refine Yields.bind fun _ _ => ?_
        | refine Yields.ite (fun _ => ?_) (fun _ => ?_)
        | refine Yields.res ?_
        | fail)

section
variable {u : CharClass} {c : QString} {b : Nat} {stack : List St} {ident : QString}

theorem popSt_move {l l' : List St} (h : popSt l = some l') : ∃ t, l = t :: l' := by
  cases l with
  | nil => simp [popSt] at h
  | cons t r => simp [popSt] at h; exact ⟨t, by rw [h]⟩

theorem popStrVar_move {l l' : List St} (h : popStrVar l = some l') : ∃ pre, l = pre ++ l' := by
  cases l with
  | nil => simp [popStrVar] at h
  | cons t r =>
    simp [popStrVar] at h
    split at h
    · obtain ⟨t', ht⟩ := popSt_move h; exact ⟨[t'], ht⟩
    · simp at h; exact ⟨[], h⟩

theorem leaveStr_move {l l' : List St} (h : leaveStr l = some l') : ∃ pre, l = pre ++ l' := by
  unfold leaveStr at h
  rw [Option.bind_eq_bind, Option.bind_eq_some_iff] at h
  obtain ⟨a, ha, hf⟩ := h
  obtain ⟨pre, rfl⟩ := popStrVar_move ha
  obtain ⟨t, rfl⟩ := popSt_move hf
  exact ⟨pre ++ [t], by simp⟩

theorem dropToHtml_move : ∀ {l l' : List St}, dropToHtml l = some l' → ∃ pre, l = pre ++ l'
  | [], _, h => by simp [dropToHtml] at h
  | t :: r, l', h => by
    by_cases ht : t = .Html
    · subst ht; simp [dropToHtml] at h; exact ⟨[], h⟩
    · have : dropToHtml r = some l' := by
        revert h ht; cases t <;> simp [dropToHtml]
      obtain ⟨pre, rfl⟩ := dropToHtml_move this
      exact ⟨t :: pre, rfl⟩

theorem move_of_pre {l l' : List St} (h : ∃ pre, l = pre ++ l') : StackMove l l' := by
  obtain ⟨pre, rfl⟩ := h; exact StackMove.leave pre l'

/-- The stack discipline of the state switch. -/
theorem dispatch_move : Yields (fun r => StackMove stack r.stack) (dispatch u c b stack ident) := by
  unfold dispatch
  simp only [Option.bind_eq_bind]
  refine Yields.bind fun st hst => ?_
  have hcons : ∃ r, stack = st :: r := by
    cases stack with
    | nil => simp at hst
    | cons t r => simp at hst; exact ⟨r, by rw [hst]⟩
  obtain ⟨rst, rfl⟩ := hcons
  have code : Yields (fun r => StackMove (st :: rst) r.stack) (codeBranch u c b (st :: rst) ident) := by
    unfold codeBranch
    simp only [Option.bind_eq_bind]
    refine Yields.bind fun ch _ => Yields.bind fun top ht => ?_
    simp at ht; subst ht
    refine Yields.ite (fun _ => ?_) (fun _ => ?_)
    · unfold wsBranch; simp only [Option.bind_eq_bind]; explore; exact StackMove.refl _
    refine Yields.bind fun _ _ => Yields.ite (fun _ => ?_) (fun _ => ?_)
    · unfold numBranch; simp only [Option.bind_eq_bind]; explore <;> exact StackMove.refl _
    refine Yields.bind fun v _ => ?_
    cases v with
    | some e => exact Yields.res (StackMove.refl _)
    | none =>
      simp only
      refine Yields.ite (fun _ => Yields.res (StackMove.refl _)) (fun _ => ?_)
      refine Yields.ite (fun _ => Yields.res ?_) (fun _ => ?_)
      · show StackMove _ (if _ then _ else _)
        split
        · exact StackMove.leave [st] rst
        · exact StackMove.refl _
      refine Yields.ite (fun _ => Yields.res ?_) (fun _ => ?_)
      · show StackMove _ (if _ then _ else _)
        split
        · exact StackMove.enter _ _
        · exact StackMove.refl _
      refine Yields.ite (fun _ => ?_) (fun _ => ?_)
      · unfold parenBranch; simp only [Option.bind_eq_bind]; explore
        · split <;> exact Yields.res (StackMove.refl _)
        · exact StackMove.refl _
      refine Yields.ite (fun _ => ?_) (fun _ => ?_)
      · unfold ltBranch; simp only [Option.bind_eq_bind]; explore
        · split
          · exact Yields.res (StackMove.enter _ _)
          · exact Yields.res (StackMove.enter _ _)
          · explore <;> exact StackMove.refl _
        all_goals exact StackMove.refl _
      refine Yields.ite (fun _ => ?_) (fun _ => ?_)
      · unfold questionBranch; simp only [Option.bind_eq_bind]
        refine Yields.bind fun _ _ => Yields.ite (fun _ => Yields.bind fun l hl => Yields.res ?_)
          (fun _ => ?_)
        · exact move_of_pre (dropToHtml_move hl)
        · explore <;> exact StackMove.refl _
      refine Yields.bind fun _ _ => Yields.ite (fun _ => Yields.bind fun m _ => Yields.res ?_)
        (fun _ => ?_)
      · show StackMove _ (if _ then _ else _)
        split
        · exact StackMove.enter _ _
        · exact StackMove.refl _
      refine Yields.ite (fun _ => ?_) (fun _ => ?_)
      · unfold slashBranch; simp only [Option.bind_eq_bind]; explore <;> exact StackMove.refl _
      refine Yields.ite (fun _ => ?_) (fun _ => ?_)
      · unfold hashBranch; simp only [Option.bind_eq_bind]; explore; exact StackMove.refl _
      refine Yields.ite (fun _ => ?_) (fun _ => ?_)
      · unfold squoteBranch; simp only [Option.bind_eq_bind]; explore; exact StackMove.refl _
      refine Yields.ite (fun _ => ?_) (fun _ => ?_)
      · unfold dquoteBranch; simp only [Option.bind_eq_bind]; explore
        · exact StackMove.enter _ _
        all_goals exact StackMove.refl _
      refine Yields.ite (fun _ => Yields.res (StackMove.enter _ _)) (fun _ => ?_)
      refine Yields.bind fun pt _ => ?_
      cases pt with
      | some tk => exact Yields.res (StackMove.refl _)
      | none =>
        simp only
        refine Yields.ite (fun _ => ?_) (fun _ => Yields.res (StackMove.refl _))
        unfold wordBranch; simp only [Option.bind_eq_bind]; explore
        all_goals first | exact StackMove.refl _ | (split <;> exact Yields.res (StackMove.refl _))
  have str : Yields (fun r => StackMove (st :: rst) r.stack) (strBranch u c b (st :: rst) ident) := by
    unfold strBranch
    simp only [Option.bind_eq_bind]
    refine Yields.bind fun top ht => ?_
    simp at ht; subst ht
    refine Yields.bind fun _ _ => Yields.ite (fun _ => Yields.bind fun l hl => Yields.res
      (move_of_pre (leaveStr_move hl))) (fun _ => ?_)
    refine Yields.bind fun _ _ => Yields.ite (fun _ => Yields.bind fun l hl => Yields.res
      (move_of_pre (leaveStr_move hl))) (fun _ => ?_)
    refine Yields.bind fun _ _ => Yields.ite (fun _ => Yields.bind fun l hl => Yields.res
      (move_of_pre (leaveStr_move hl))) (fun _ => ?_)
    refine Yields.bind fun v _ => ?_
    cases v with
    | some e =>
      refine Yields.res ?_
      show StackMove _ (if _ then _ else _)
      split
      · exact StackMove.refl _
      · exact StackMove.enter _ _
    | none =>
      simp only
      refine Yields.bind fun _ _ => Yields.ite (fun _ => Yields.bind fun _ _ => Yields.res ?_)
        (fun _ => ?_)
      · show StackMove _ (if _ then _ else _)
        split
        · exact StackMove.enter _ _
        · exact StackMove.refl _
      refine Yields.bind fun _ _ => Yields.ite (fun _ => Yields.res (StackMove.enter _ _)) (fun _ => ?_)
      refine Yields.bind fun _ _ => Yields.ite (fun _ => Yields.res (StackMove.enter _ _)) (fun _ => ?_)
      refine Yields.bind fun _ _ => Yields.ite (fun _ => Yields.res (StackMove.enter _ _)) (fun _ => ?_)
      refine Yields.bind fun l hl => Yields.bind fun _ _ => Yields.bind fun _ _ => Yields.res ?_
      exact move_of_pre (popStrVar_move hl)
  cases st with
  | Html =>
    unfold htmlBranch; simp only [Option.bind_eq_bind]; explore
    all_goals first | exact StackMove.refl _ | exact StackMove.enter _ _
  | Default => exact code
  | StrVarCurly => exact code
  | StrVar => exact str
  | Str => exact str
  | Heredoc => exact str
  | Backtick => exact str
  | Nowdoc =>
    unfold nowdocBranch; simp only [Option.bind_eq_bind]
    refine Yields.bind fun _ _ => Yields.ite (fun _ => Yields.bind fun l hl => Yields.res ?_) (fun _ => ?_)
    · obtain ⟨t, h⟩ := popSt_move hl; exact move_of_pre ⟨[t], h⟩
    · explore; exact StackMove.refl _
  | StrVarBracket =>
    unfold bracketBranch; simp only [Option.bind_eq_bind]
    refine Yields.bind fun _ _ => Yields.ite (fun _ => Yields.bind fun l hl => Yields.bind fun l2 hl2 =>
      Yields.res ?_) (fun _ => ?_)
    · obtain ⟨t, h⟩ := popSt_move hl
      obtain ⟨t2, h2⟩ := popSt_move hl2
      exact move_of_pre ⟨[t, t2], by rw [h, h2]; rfl⟩
    · explore <;> exact StackMove.refl _
  | StrVarObjOp =>
    unfold objOpBranch; simp only [Option.bind_eq_bind]
    refine Yields.bind fun _ _ => Yields.bind fun l hl => Yields.bind fun l2 hl2 => Yields.res ?_
    obtain ⟨t, h⟩ := popSt_move hl
    obtain ⟨pre, h2⟩ := popStrVar_move hl2
    exact move_of_pre ⟨t :: pre, by rw [h, h2]; rfl⟩
  | StrVarname =>
    unfold varnameBranch; simp only [Option.bind_eq_bind]
    refine Yields.bind fun l hl => Yields.bind fun _ _ => Yields.res ?_
    simp [popSt] at hl
    subst hl
    exact StackMove.varname _
  | Error => exact Yields.res (StackMove.refl _)



/-- What a heredoc or nowdoc start token promises. -/
def StartOk (u : CharClass) (c : QString) (b : Nat) (stack : List St) (r : Res) : Prop :=
  r.tok.isDocStart = true → ∃ nd : Bool, HereStartSpec u c r.ident nd b r.nxt ∧
    r.tok = (if nd then .START_NOWDOC else .START_HEREDOC) ∧
    r.stack = (if nd then St.Nowdoc else .Heredoc) :: stack

theorem startOk_of {r : Res} (h : r.tok.isDocStart = false) : StartOk u c b stack r := by
  intro h'; rw [h] at h'; exact absurd h' (by decide)

theorem lookupCI_mem {t : List (QString × Tok)} {name : QString} {k : Tok}
    (h : lookupCI u t name = some k) : ∃ nm, (nm, k) ∈ t ∧ ciEq u name nm = true := by
  unfold lookupCI at h
  rw [Option.map_eq_some_iff] at h
  obtain ⟨⟨nm, t'⟩, hf, ht⟩ := h
  simp only at ht
  subst ht
  exact ⟨nm, List.mem_of_find?_eq_some hf, by simpa using List.find?_some hf⟩

/-- Only `<<<` starts heredocs, and it remembers the identifier written there. -/
theorem dispatch_start (hu : u.Lawful) (hb : b < c.length) :
    Yields (StartOk u c b stack) (dispatch u c b stack ident) := by
  have no : ∀ {r : Res}, r.tok.isDocStart = false → StartOk u c b stack r := startOk_of
  unfold dispatch
  simp only [Option.bind_eq_bind]
  refine Yields.bind fun st hst => ?_
  have code : Yields (StartOk u c b stack) (codeBranch u c b stack ident) := by
    unfold codeBranch
    simp only [Option.bind_eq_bind]
    rw [rd_some (by omega), Option.bind_some]
    refine Yields.bind fun top ht => ?_
    refine Yields.ite (fun _ => ?_) (fun _ => ?_)
    · unfold wsBranch; simp only [Option.bind_eq_bind]; explore; exact no rfl
    refine Yields.bind fun _ _ => Yields.ite (fun _ => ?_) (fun _ => ?_)
    · unfold numBranch; simp only [Option.bind_eq_bind]; explore <;> exact no rfl
    refine Yields.bind fun v _ => ?_
    cases v with
    | some e => exact Yields.res (no rfl)
    | none =>
      simp only
      refine Yields.ite (fun _ => Yields.res (no rfl)) (fun _ => ?_)
      refine Yields.ite (fun _ => Yields.res (no rfl)) (fun _ => ?_)
      refine Yields.ite (fun _ => Yields.res (no rfl)) (fun _ => ?_)
      refine Yields.ite (fun _ => ?_) (fun _ => ?_)
      · unfold parenBranch; simp only [Option.bind_eq_bind]; explore
        · split
          · rename_i t ht
            refine Yields.res (no ?_)
            obtain ⟨nm, hm, _⟩ := lookupCI_mem ht
            have : ∀ x ∈ castTable, x.2.isDocStart = false := by decide
            exact this _ hm
          · exact Yields.res (no rfl)
        · exact no rfl
      refine Yields.ite (fun h0 => ?_) (fun _ => ?_)
      · unfold ltBranch
        simp only [Option.bind_eq_bind]
        rw [rd_some (by omega), Option.bind_some]
        refine Yields.ite (fun h1 => ?_) (fun _ => by explore <;> exact no rfl)
        have hb1 := lt_of_chr_eq h1 (by decide)
        rw [rd_some (by omega), Option.bind_some]
        refine Yields.bind fun top _ => Yields.bind fun hd hhd => ?_
        have tail : ∀ id', Yields (StartOk u c b stack) (if chr c (b + 2) = 61 then
          some (⟨.SL_ASSIGN, b + 3, stack, id', []⟩ : Res)
          else some ⟨.SL, b + 2, stack, id', []⟩) := by
          intro id'; explore <;> exact no rfl
        unfold heredocOpt at hhd
        split at hhd
        · rename_i htry
          simp at htry
          have hb2 := lt_of_chr_eq htry.1 (by decide)
          obtain ⟨id', o, e1, e2⟩ := heredocStart_spec hu (ident := ident) hb2 ⟨h0, h1, htry.1⟩
          rw [e1] at hhd
          cases hhd
          match o, e2 with
          | some (true, q), e2 =>
            exact Yields.res fun _ => ⟨true, (e2 true q rfl).2.2.2.2.2, rfl, rfl⟩
          | some (false, q), e2 =>
            exact Yields.res fun _ => ⟨false, (e2 false q rfl).2.2.2.2.2, rfl, rfl⟩
          | none, _ => exact tail id'
        · cases hhd
          exact tail ident
      refine Yields.ite (fun _ => ?_) (fun _ => ?_)
      · unfold questionBranch; simp only [Option.bind_eq_bind]; explore <;> exact no rfl
      refine Yields.bind fun _ _ => Yields.ite (fun _ => Yields.bind fun m _ => Yields.res (no rfl))
        (fun _ => ?_)
      refine Yields.ite (fun _ => ?_) (fun _ => ?_)
      · unfold slashBranch; simp only [Option.bind_eq_bind]; explore
        all_goals first | exact no rfl | (refine no ?_; show Tok.isDocStart (if _ then _ else _) = false; split <;> rfl)
      refine Yields.ite (fun _ => ?_) (fun _ => ?_)
      · unfold hashBranch; simp only [Option.bind_eq_bind]; explore; exact no rfl
      refine Yields.ite (fun _ => ?_) (fun _ => ?_)
      · unfold squoteBranch; simp only [Option.bind_eq_bind]; explore; exact no rfl
      refine Yields.ite (fun _ => ?_) (fun _ => ?_)
      · unfold dquoteBranch; simp only [Option.bind_eq_bind]; explore <;> exact no rfl
      refine Yields.ite (fun _ => Yields.res (no rfl)) (fun _ => ?_)
      refine Yields.bind fun pt hpt => ?_
      cases pt with
      | some tk =>
        refine Yields.res (no ?_)
        obtain ⟨o, ho, hok⟩ := punct_spec (c := c) hb
        rw [ho] at hpt
        cases hpt
        exact (hok tk.1 tk.2 rfl).2.2.2.2.2.1.1
      | none =>
        simp only
        refine Yields.ite (fun _ => ?_) (fun _ => Yields.res (no rfl))
        unfold wordBranch; simp only [Option.bind_eq_bind]; explore
        · refine no ?_; show Tok.isDocStart (if _ then _ else _) = false; split <;> rfl
        · exact no rfl
        · exact no rfl
        · split
          · rename_i t ht
            refine Yields.res (no ?_)
            obtain ⟨nm, hm, _⟩ := lookupCI_mem ht
            have : ∀ x ∈ keywordTable, x.2.isDocStart = false := by decide
            exact this _ hm
          · exact Yields.res (no rfl)
  have str : Yields (StartOk u c b stack) (strBranch u c b stack ident) := by
    unfold strBranch
    simp only [Option.bind_eq_bind]
    refine Yields.bind fun top ht => ?_
    refine Yields.bind fun _ _ => Yields.ite (fun _ => Yields.bind fun l hl => Yields.res
      (no rfl)) (fun _ => ?_)
    refine Yields.bind fun _ _ => Yields.ite (fun _ => Yields.bind fun l hl => Yields.res
      (no rfl)) (fun _ => ?_)
    refine Yields.bind fun _ _ => Yields.ite (fun _ => Yields.bind fun l hl => Yields.res
      (no rfl)) (fun _ => ?_)
    refine Yields.bind fun v _ => ?_
    cases v with
    | some e => exact Yields.res (no rfl)
    | none =>
      simp only
      explore <;> exact no rfl
  cases st with
  | Html => unfold htmlBranch; simp only [Option.bind_eq_bind]; explore <;> exact no rfl
  | Default => exact code
  | StrVarCurly => exact code
  | StrVar => exact str
  | Str => exact str
  | Heredoc => exact str
  | Backtick => exact str
  | Nowdoc => unfold nowdocBranch; simp only [Option.bind_eq_bind]; explore <;> exact no rfl
  | StrVarBracket => unfold bracketBranch; simp only [Option.bind_eq_bind]; explore <;> exact no rfl
  | StrVarObjOp => unfold objOpBranch; simp only [Option.bind_eq_bind]; explore <;> exact no rfl
  | StrVarname => unfold varnameBranch; simp only [Option.bind_eq_bind]; explore <;> exact no rfl
  | Error => exact Yields.res (no rfl)
end
end KPhp
