import Verif.Parser.ExprComplete
/-
# Expressions: what is accepted, and how it is grouped (C59, C60)
-/
namespace KPhp.Grammar
open KPhp (Tok)

section
variable [Closures]

/-- C59: what is returned is a tree of the tokens read, grouped as the table says. -/
theorem parse_sound {ts r : List Tok} {e : E} {f : Bool} (h : parse ts = .ok e r f) :
    ts = e.toks ++ r ∧ Fits (.lev 0) e ∧ f = e.mark false := by
  obtain ⟨h1, h2, h3, -⟩ := run_good _ _ _ _ _ _ _ h (by omega)
  exact ⟨h1, h2, h3⟩

theorem parse_ev {ts : List Tok} {res : R} (h : Ev (.lev 0) ts false res) : parse ts = res := by
  obtain ⟨N, hN⟩ := h
  rw [← parse_bound _ _ (Nat.le_max_right N (40 * ts.length + 30))]
  exact hN _ (Nat.le_max_left _ _)

/-- The text of every tree that is grouped as the table says is read as this tree, also in front of a token that cannot
continue an expression.  `=>` would continue a tree that ends with `yield x`. -/
theorem parse_complete {e : E} (h : Fits (.lev 0) e) (rest : List Tok)
    (hr : rest = [] ∨ ∃ t r, rest = t :: r ∧ (t = .COLON ∨ t = .COMMA ∨ t = .RPAREN ∨ t = .RBRACKET ∨ t = .RBRACE ∨
      t = .DOUBLE_ARROW ∧ e.endsYield = false ∨ t = .SEMICOLON ∨ t = .CLOSE_TAG ∨ t = .AS)) :
    parse (e.toks ++ rest) = .ok e rest (e.mark false) := by
  have hs : Stop 0 rest ∧ NoArrow e rest := by
    rcases hr with rfl | ⟨t, r, rfl, hr⟩
    · exact ⟨stop_nil 0, by intro h; cases h⟩
    · rcases hr with rfl | rfl | rfl | rfl | rfl | ⟨rfl, hy⟩ | rfl | rfl | rfl
      all_goals refine ⟨stop_other (by decide) _ _, ?_⟩
      all_goals first | (exact fun _ => hy) | (intro h; cases h)
  exact parse_ev ((fits_comp h).1 rest false hs.1 hs.2)

/-- C59: an expression is accepted as a whole exactly when it is the text of a tree grouped as the table says; and then this is
the tree returned. -/
theorem parse_iff (ts : List Tok) (e : E) : (∃ f, parse ts = .ok e [] f) ↔ Fits (.lev 0) e ∧ ts = e.toks := by
  constructor
  · rintro ⟨f, h⟩
    obtain ⟨h1, h2, -⟩ := parse_sound h
    exact ⟨h2, by simpa using h1⟩
  · rintro ⟨h, rfl⟩
    have := parse_complete h [] (.inl rfl)
    rw [List.append_nil] at this
    exact ⟨_, this⟩

/-- C59: the table is unambiguous. -/
theorem grouping_unique {e e' : E} (h : Fits (.lev 0) e) (h' : Fits (.lev 0) e') (ht : e.toks = e'.toks) : e = e' := by
  obtain ⟨f, h1⟩ := (parse_iff _ e).2 ⟨h, rfl⟩
  obtain ⟨f', h2⟩ := (parse_iff _ e').2 ⟨h', rfl⟩
  rw [ht, h2] at h1
  cases h1; rfl

/-- whether a variable, a call or a closure occurs in the tree -/
def E.hasVar : E → Bool
  | .scalar _ | .nowdoc | .name _ _ | .cconst _ _ _ | .stat | .id | .nil | .ptext | .pvname0 | .exit0 | .exitP | .yield0 => false
  | .var | .vvar _ | .dyn _ _ | .svar _ _ _ | .sdyn _ _ _ | .call _ _ | .closure _ | .iife _ _ | .pprop | .poff _ => true
  | .paren e | .empty e | .isset e | .new_ e | .clone e | .str _ e | .arr _ e | .index0 e | .curly e | .spread e | .byRef e | .last e
  | .lastComma e | .vlast e | .lists e | .pvname e | .pexpr _ e | .un _ e | .pre _ e | .post e _ | .print e | .exitE e | .eval e
  | .yield e | .yieldFrom e => e.hasVar
  | .newArgs a b | .index a b | .cindex a b | .prop _ a b | .pair a b | .more a b | .vmore a b | .part a b | .bin _ a b | .inst a b
  | .elvis a b | .assign _ a b | .assignRef a b | .list a b | .yieldPair a b => a.hasVar || b.hasVar
  | .cond a b c => a.hasVar || b.hasVar || c.hasVar

omit [Closures] in
theorem isVar_hasVar {e : E} (h : e.isVar = true) : e.hasVar = true := by
  induction e with
  | index0 b ih => exact ih h
  | index b i ih _ | cindex b i ih _ | prop _ b i ih _ => simp only [E.hasVar, ih h, Bool.true_or]
  | _ => first | rfl | simp [E.isVar] at h

omit [Closures] in
theorem raw_hasVar {e : E} {f : Bool} (h : e.raw f = true) : f = true ∨ e.hasVar = true := by
  have F : ∀ {p : Prop}, (false = true ∨ p) → p := fun h => h.resolve_left (by decide)
  have V : ∀ (e : E) {f : Bool}, (∀ {f : Bool}, e.raw f = true → f = true ∨ e.hasVar = true) → (e.isVar || e.raw f) = true →
      f = true ∨ e.hasVar = true := by
    intro e f ih h
    rcases Bool.or_eq_true _ _ ▸ h with h | h
    · exact .inr (isVar_hasVar h)
    · exact ih h
  induction e generalizing f with
  | scalar | nowdoc | name | cconst | stat | id | nil | ptext | pvname0 | exit0 | exitP | yield0 => exact .inl h
  | var | vvar | dyn | svar | sdyn | call | closure | iife | pprop | poff => exact .inr rfl
  | empty e ih | curly e ih | pexpr _ e ih | pvname e ih | exitE e ih | eval e ih | print e ih | yield e ih | yieldFrom e ih
  | spread e ih => exact .inr (F (V e @ih h))
  | index a b iha ihb | cindex a b iha ihb | assign _ a b iha ihb | yieldPair a b iha ihb =>
    right; simp only [E.hasVar, F (V b @ihb h), Bool.or_true]
  | isset e ih | new_ e ih | str _ e ih | arr _ e ih | index0 e ih | byRef e ih | vlast e ih | lists e ih => exact ih h
  | clone e ih | un _ e ih | pre _ e ih | post e _ ih => exact V e @ih h
  | newArgs a b iha ihb | prop _ a b iha ihb | vmore a b iha ihb | part a b iha ihb =>
    rcases ihb h with h | h
    · rcases iha h with h | h
      · exact .inl h
      · right; simp only [E.hasVar, h, Bool.true_or]
    · right; simp only [E.hasVar, h, Bool.or_true]
  | paren e ih | last e ih | lastComma e ih =>
    simp only [E.raw] at h
    split at h
    · exact ih h
    · exact .inr (F (V e @ih h))
  | pair k v ihk ihv =>
    simp only [E.raw] at h
    right
    split at h
    · rcases ihv h with h | h
      · simp only [E.hasVar, F (V k @ihk h), Bool.true_or]
      · simp only [E.hasVar, h, Bool.or_true]
    · simp only [E.hasVar, F (V v @ihv h), Bool.or_true]
  | more i l ihi ihl =>
    simp only [E.raw] at h
    rcases ihl h with h | h
    · split at h
      · rcases ihi h with h | h
        · exact .inl h
        · right; simp only [E.hasVar, h, Bool.true_or]
      · right; simp only [E.hasVar, F (V i @ihi h), Bool.true_or]
    · right; simp only [E.hasVar, h, Bool.or_true]
  | bin k a b iha ihb =>
    simp only [E.raw] at h
    rcases V b @ihb h with h | h
    · split at h
      · cases h
      · rcases V a @iha h with h | h
        · exact .inl h
        · right; simp only [E.hasVar, h, Bool.true_or]
    · right; simp only [E.hasVar, h, Bool.or_true]
  | inst a b iha ihb =>
    rcases ihb h with h | h
    · rcases V a @iha h with h | h
      · exact .inl h
      · right; simp only [E.hasVar, h, Bool.true_or]
    · right; simp only [E.hasVar, h, Bool.or_true]
  | elvis a b iha ihb =>
    rcases V b @ihb h with h | h
    · rcases V a @iha h with h | h
      · exact .inl h
      · right; simp only [E.hasVar, h, Bool.true_or]
    · right; simp only [E.hasVar, h, Bool.or_true]
  | cond c a b ihc iha ihb =>
    right
    rcases V b @ihb h with h | h
    · simp only [E.hasVar, F (V a @iha h), Bool.or_true, Bool.true_or]
    · simp only [E.hasVar, h, Bool.or_true]
  | assignRef a v iha ihv => right; simp only [E.hasVar, F (ihv h), Bool.or_true]
  | list l e ihl ihe =>
    rcases V e @ihe h with h | h
    · rcases ihl h with h | h
      · exact .inl h
      · right; simp only [E.hasVar, h, Bool.true_or]
    · right; simp only [E.hasVar, h, Bool.or_true]

omit [Closures] in
theorem mark_hasVar {e : E} {f : Bool} (h : e.mark f = true) : f = true ∨ e.hasVar = true := by
  rcases Bool.or_eq_true _ _ ▸ h with h | h
  · exact .inr (isVar_hasVar h)
  · exact raw_hasVar h

theorem Fits.to {l m : Nat} {e : E} (h : Fits (.lev m) e) (hl : l ≤ m) : Fits (.lev l) e := by
  have hm : m ≤ 20 := (fits_first h).1
  induction m generalizing e with
  | zero => cases Nat.le_zero.1 hl; exact h
  | succ m ih =>
    rcases Nat.lt_or_ge m l with h' | h'
    · have : l = m + 1 := by omega
      rw [this]; exact h
    · exact ih (.up _ _ (by omega) h) h' (by omega)

/-- a tree of an operand of level 5 or stronger does not begin with these words -/
theorem strong_head {l : Nat} {e : E} (h : Fits (.lev l) e) (hl : 5 ≤ l) (r : List Tok) :
    headIn [.PRINT] (e.toks ++ r) = false ∧ headIn [.YIELD] (e.toks ++ r) = false ∧ headIn [.YIELD_FROM] (e.toks ++ r) = false := by
  obtain ⟨-, t, r', ht, hst, -⟩ := fits_first h
  have h1 := hst.not.2.1 (by omega)
  have h2 := hst.not.2.2.1 (by omega)
  rw [ht]
  simp [headIn, h1, h2]

theorem err_up {l : Nat} {ts : List Tok} (hl : l ≤ 4) (hp : headIn [.PRINT] ts = false) (h : ∀ f, Ev (.lev l) ts f .err) :
    ∀ f, Ev (.lev 0) ts f .err := by
  induction l with
  | zero => exact h
  | succ l ih =>
    refine ih (by omega) fun f => .step ?_
    match l, hl with
    | 0, _ | 1, _ | 2, _ => exact .bindErr (h f)
    | 3, _ => exact .eatNo hp (h f)

/-- C60: an assignment to an expression without any variable, call or closure is an error, whatever follows. -/
theorem assign_without_variable {a : E} (ha : Fits (.lev 5) a) (hv : a.hasVar = false) {k : Tok} (hk : IsAssign k) (rest : List Tok) :
    parse (a.toks ++ k :: rest) = .err := by
  have hm : a.mark false = false := by
    cases h : a.mark false
    · rfl
    · rcases mark_hasVar h with h | h
      · cases h
      · rw [hv] at h; cases h
  obtain ⟨hp, hy, hyf⟩ := strong_head ha (Nat.le_refl _) (k :: rest)
  refine parse_ev (err_up (l := 4) (by omega) hp (fun f => ?_) false)
  have h1 := (fits_comp ha).1 (k :: rest) false (stop_cons (.assign _ hk) (by omega) _) (by intro h; cases hk <;> cases h)
  rw [show entry 5 a false = false from hm] at h1
  refine .step (.eatNo hy (.eatNo hyf (.bind h1 ?_)))
  exact .yes (assign_iff.2 hk) .const

/-- C60: conversely, the left side of an accepted assignment contains a variable, call or closure. -/
theorem assign_has_variable {ts : List Tok} {k : Tok} {a b : E} {f : Bool} (h : parse ts = .ok (.assign k a b) [] f) :
    a.hasVar = true := by
  have h := (parse_sound h).2.1
  generalize hc : Cat.lev 0 = c at h
  have : ∀ {c} {e : E}, Fits c e → (∃ l, c = .lev l) → e = .assign k a b → a.hasVar = true := by
    intro c e h
    induction h with
    | assign k a b hk ha hm hb _ _ =>
      intro _ he; cases he
      rcases mark_hasVar hm with h | h
      · cases h
      · exact h
    | up l e hl he ih => intro _ h; exact ih ⟨_, rfl⟩ h
    | array e he ih => intro _ h; subst h; cases he
    | normal e he ih =>
      intro _ h; subst h
      cases he with
      | new _ h => cases h
      | const _ h => cases h
      | string _ h => cases h
      | created _ h => cases h
      | «variable» _ h => cases h with | simple _ h => cases h
    | _ => intro hl he; first | (cases he; done) | (obtain ⟨_, hl⟩ := hl; cases hl; done)
  exact this h ⟨0, hc.symm⟩ rfl

/-- A token that continues no rule of this level lets its result pass. -/
theorem pass_up {l : Nat} {ts : List Tok} {e : E} {k : Tok} {rest : List Tok} (hl : l ≤ 12) (hk : Cont k 12)
    (hp : headIn [.PRINT] ts = false ∧ headIn [.YIELD] ts = false ∧ headIn [.YIELD_FROM] ts = false)
    (h : ∀ f, ∃ f', Ev (.lev l) ts f (.ok e (k :: rest) f')) :
    ∀ f, ∃ f', Ev (.lev 0) ts f (.ok e (k :: rest) f') := by
  induction l with
  | zero => exact h
  | succ l ih =>
    refine ih (by omega) fun f => ?_
    have hloop : lk l = .chain → ∀ f, Ev (.loop l e) (k :: rest) f (.ok e (k :: rest) f) := by
      intro hc f
      have h19 : l ≠ 19 := by omega
      have ho : (opsAt l).contains k = false := by
        cases hh : (opsAt l).contains k
        · rfl
        · rcases opsAt_prec.1 hh with hh | hh <;> exact absurd (cont_unique hk (.bin _ _ _ hh)) (by omega)
      exact .step (.no h19 (.no (by rw [ho]; decide) .const))
    rcases lk_cases l with ⟨hk', hb⟩ | ⟨hk', hb⟩ | ⟨hk', hb⟩ | ⟨hk', hb⟩ | ⟨hk', hb⟩ | ⟨hk', hb⟩ | ⟨hk', hb⟩ | ⟨hk', hb⟩ | ⟨hk', hb⟩
    · obtain ⟨f', h1⟩ := h f
      refine ⟨f', .step ?_⟩
      show Evt (fun n => levStep (run n) l ts f) _
      unfold levStep
      rw [hk']
      exact .bind h1 (hloop hk' f')
    · omega
    · subst hb
      obtain ⟨f', h1⟩ := h f
      exact ⟨f', .step (.eatNo hp.1 h1)⟩
    · subst hb
      obtain ⟨f', h1⟩ := h false
      refine ⟨f', .step (.eatNo hp.2.1 (.eatNo hp.2.2 (.bind h1 (.no ?_ .const))))⟩
      intro hc
      exact absurd (cont_unique hk (.assign _ (assign_iff.1 hc))) (by omega)
    · subst hb
      obtain ⟨f', h1⟩ := h f
      refine ⟨f', .step (.bind h1 (.eatNo ?_ .const))⟩
      have : k ≠ .QUESTION := by rintro rfl; exact absurd (cont_unique hk .cond) (by omega)
      simp [headIn, this]
    all_goals omega

/-- C59: comparisons for equality cannot be chained: the parser stops in front of the second operator. -/
theorem equality_not_chained {a b : E} {k k' : Tok} (ha : Fits (.lev 13) a) (hb : Fits (.lev 13) b) (hk : Prec k 12 false)
    (hk' : Prec k' 12 false) (rest : List Tok) :
    ∃ f, parse (a.toks ++ k :: b.toks ++ k' :: rest) = .ok (.bin k a b) (k' :: rest) f := by
  have na : ∀ {k : Tok} {e : E} {r}, Prec k 12 false → NoArrow e (k :: r) := by intro k e r h h'; cases h <;> cases h'
  have h12 : ∀ f, ∃ f', Ev (.lev 12) (a.toks ++ (k :: b.toks ++ k' :: rest)) f (.ok (.bin k a b) (k' :: rest) f') := by
    intro f
    have h1 := (fits_comp ha).1 (k :: (b.toks ++ k' :: rest)) f (stop_cons (.bin _ _ _ hk) (by omega) _) (na hk)
    have h2 := (fits_comp hb).1 (k' :: rest) (entry 13 a f) (stop_cons (.bin _ _ _ hk') (by omega) _) (na hk')
    exact ⟨_, .step (.bind h1 (.yes (opsAt_prec.2 (.inr hk)) (.map h2)))⟩
  obtain ⟨f', h⟩ := pass_up (l := 12) (by omega) (.bin _ _ _ hk') (strong_head ha (by omega) _) h12 false
  refine ⟨f', parse_ev ?_⟩
  simpa using h

/-! ### What the table says about some texts

The first ones agree with PHP; the others are differences to PHP (`limit_…`). -/

/-- reads the whole text as this tree -/
def Reads (ts : List Tok) (e : E) : Prop := ∃ f, parse ts = .ok e [] f

theorem reads_of {ts : List Tok} {e : E} (h : Fits (.lev 0) e) (ht : ts = e.toks) : Reads ts e := (parse_iff ts e).2 ⟨h, ht⟩

/-- Two operators: the stronger one takes the operand between them; with equal strength the left one does. -/
theorem two_operators {a b c : E} {k1 k2 : Tok} {l1 l2 : Nat} (h1 : Prec k1 l1 true) (h2 : Prec k2 l2 true)
    (ha : Fits (.lev 17) a) (hb : Fits (.lev 17) b) (hc : Fits (.lev 17) c) :
    Reads (a.toks ++ k1 :: b.toks ++ k2 :: c.toks) (if l1 < l2 then .bin k1 a (.bin k2 b c) else .bin k2 (.bin k1 a b) c) := by
  have hl : ∀ {k l a}, Prec k l a → l ≤ 16 := by intro k l a h; cases h <;> omega
  have := hl h1
  have := hl h2
  split
  · refine reads_of (Fits.to (l := 0) (.left _ _ _ _ h1 (ha.to (by omega)) ?_) (by omega)) (by simp [E.toks])
    exact Fits.to (.left _ _ _ _ h2 (hb.to (by omega)) (hc.to (by omega))) (by omega)
  · refine reads_of (Fits.to (l := 0) (.left _ _ _ _ h2 ?_ (hc.to (by omega))) (by omega)) (by simp [E.toks])
    exact Fits.to (.left _ _ _ _ h1 (ha.to (by omega)) (hb.to (by omega))) (by omega)

/-- Assignments group to the right. -/
theorem assign_right {a b c : E} {k1 k2 : Tok} (h1 : IsAssign k1) (h2 : IsAssign k2) (ha : Fits (.path .vari) a) (hb : Fits (.path .vari) b)
    (hc : Fits (.lev 5) c) : Reads (a.toks ++ k1 :: b.toks ++ k2 :: c.toks) (.assign k1 a (.assign k2 b c)) := by
  have up : ∀ {e}, Fits (.path .vari) e → Fits (.lev 5) e := fun h => (Fits.normal _ (.variable _ h)).to (by omega)
  refine reads_of (Fits.to (l := 0) (.assign _ _ _ h1 (up ha) (isVar_mark (vari_isVar ha) _) ?_) (by omega)) (by simp [E.toks])
  exact .assign _ _ _ h2 (up hb) (isVar_mark (vari_isVar hb) _) (hc.to (by omega))

/-- PHP: `a ** (b ** c)` -/
theorem limit_pow_groups_left {a b c : E} (ha : Fits (.lev 17) a) (hb : Fits (.lev 17) b) (hc : Fits (.lev 17) c) :
    Reads (a.toks ++ .EXP :: b.toks ++ .EXP :: c.toks) (.bin .EXP (.bin .EXP a b) c) :=
  two_operators .exp .exp ha hb hc
/-- PHP: `a * (b ** c)` -/
theorem limit_pow_as_mul {a b c : E} (ha : Fits (.lev 17) a) (hb : Fits (.lev 17) b) (hc : Fits (.lev 17) c) :
    Reads (a.toks ++ .MUL :: b.toks ++ .EXP :: c.toks) (.bin .EXP (.bin .MUL a b) c) :=
  two_operators .mul .exp ha hb hc
/-- PHP: `-(a ** b)` -/
theorem limit_minus_pow {a b : E} (ha : Fits (.lev 17) a) (hb : Fits (.lev 17) b) :
    Reads (.MINUS :: a.toks ++ .EXP :: b.toks) (.bin .EXP (.un .MINUS a) b) :=
  reads_of (Fits.to (l := 0) (.left _ 16 _ _ .exp (Fits.to (.unary _ _ .minus ha) (by omega)) hb) (by omega)) (by simp [E.toks])
/-- PHP: `a ?? (b ?? c)`, as the comment in php.g:341 says -/
theorem limit_coalesce_left {a b c : E} (ha : Fits (.lev 17) a) (hb : Fits (.lev 17) b) (hc : Fits (.lev 17) c) :
    Reads (a.toks ++ .NULL_COALESCE :: b.toks ++ .NULL_COALESCE :: c.toks) (.bin .NULL_COALESCE (.bin .NULL_COALESCE a b) c) :=
  two_operators .coalesce .coalesce ha hb hc
/-- PHP 7: `(a ? b : c) ? d : e`, as the comment in php.g:340 says -/
theorem limit_ternary_right {a b c d e : E} (ha : Fits (.lev 6) a) (hb : Fits (.lev 0) b) (hc : Fits (.lev 6) c)
    (hd : Fits (.lev 0) d) (he : Fits (.lev 6) e) :
    Reads (a.toks ++ .QUESTION :: b.toks ++ .COLON :: c.toks ++ .QUESTION :: d.toks ++ .COLON :: e.toks) (.cond a b (.cond c d e)) :=
  reads_of (Fits.to (l := 0) (.cond _ _ _ ha hb (.cond _ _ _ hc hd (he.to (by omega)))) (by omega)) (by simp [E.toks])
/-- PHP: `a + (b instanceof C)` and `!(a instanceof C)` -/
theorem limit_instanceof {a b c : E} (ha : Fits (.lev 17) a) (hb : Fits (.lev 17) b) (hc : Fits (.path .cls) c) :
    Reads (a.toks ++ .PLUS :: b.toks ++ .INSTANCEOF :: c.toks) (.inst (.bin .PLUS a b) c) ∧
    Reads (.BANG :: a.toks ++ .INSTANCEOF :: c.toks) (.inst (.un .BANG a) c) :=
  ⟨reads_of (Fits.to (l := 0) (.inst _ _ (Fits.to (.left _ 15 _ _ .plus (ha.to (by omega)) (hb.to (by omega))) (by omega)) hc) (by omega))
    (by simp [E.toks]),
   reads_of (Fits.to (l := 0) (.inst _ _ (Fits.to (.unary _ _ .bang ha) (by omega)) hc) (by omega)) (by simp [E.toks])⟩
/-- PHP: `include (a . b)` -/
theorem limit_include {a b : E} (ha : Fits (.lev 17) a) (hb : Fits (.lev 17) b) :
    Reads (.INCLUDE :: a.toks ++ .CONCAT :: b.toks) (.bin .CONCAT (.un .INCLUDE a) b) :=
  reads_of (Fits.to (l := 0) (.left _ 15 _ _ .concat (Fits.to (.unary _ _ .incl ha) (by omega)) (hb.to (by omega))) (by omega))
    (by simp [E.toks])
/-- PHP: `a && ($v = b)` and `!($v = b)` -/
theorem limit_assign_in_operand {a v b : E} (ha : Fits (.lev 8) a) (hv : Fits (.path .vari) v) (hb : Fits (.lev 5) b) :
    Reads (a.toks ++ .BOOLEAN_AND :: v.toks ++ .ASSIGN :: b.toks) (.assign .ASSIGN (.bin .BOOLEAN_AND a v) b) ∧
    Reads (.BANG :: v.toks ++ .ASSIGN :: b.toks) (.assign .ASSIGN (.un .BANG v) b) := by
  have hm := vari_isVar hv
  have h20 : Fits (.lev 20) v := .normal _ (.variable _ hv)
  constructor
  · refine reads_of (Fits.to (l := 0) (.assign _ _ _ .eq ?_ (by simp [E.mark, E.isVar, E.raw, hm]) (hb.to (by omega))) (by omega)) (by simp [E.toks])
    exact Fits.to (.left _ 8 _ _ .boolAnd ha (h20.to (by omega))) (by omega)
  · refine reads_of (Fits.to (l := 0) (.assign _ _ _ .eq ?_ (by simp [E.mark, E.isVar, E.raw, hm]) (hb.to (by omega))) (by omega)) (by simp [E.toks])
    exact Fits.to (.unary _ _ .bang (h20.to (by omega))) (by omega)
/-- An assignment to a sum is accepted when one of its terms is a variable: PHP rejects it. -/
theorem limit_assign_to_sum {v b : E} {s : Tok} (hs : IsScalar s) (hv : Fits (.path .vari) v) (hb : Fits (.lev 5) b) :
    Reads (v.toks ++ .PLUS :: s :: .ASSIGN :: b.toks) (.assign .ASSIGN (.bin .PLUS v (.scalar s)) b) ∧
    Reads (s :: .PLUS :: v.toks ++ .ASSIGN :: b.toks) (.assign .ASSIGN (.bin .PLUS (.scalar s) v) b) := by
  have hm := vari_isVar hv
  have h20 : Fits (.lev 20) v := .normal _ (.variable _ hv)
  have hs20 : Fits (.lev 20) (.scalar s) := .normal _ (.scalar _ hs)
  constructor
  · refine reads_of (Fits.to (l := 0) (.assign _ _ _ .eq ?_ (by simp [E.mark, E.isVar, E.raw, hm]) (hb.to (by omega))) (by omega)) (by simp [E.toks])
    exact Fits.to (.left _ 15 _ _ .plus (h20.to (by omega)) (hs20.to (by omega))) (by omega)
  · refine reads_of (Fits.to (l := 0) (.assign _ _ _ .eq ?_ (by simp [E.mark, E.isVar, E.raw, hm]) (hb.to (by omega))) (by omega)) (by simp [E.toks])
    exact Fits.to (.left _ 15 _ _ .plus (hs20.to (by omega)) (h20.to (by omega))) (by omega)

/-- PHP: `list(…) = (a + b)` -/
theorem limit_list_takes_one_operand {l a b : E} (hl : Fits (.vars true) l) (ha : Fits (.lev 17) a) (hb : Fits (.lev 17) b) :
    Reads (.LIST :: .LPAREN :: l.toks ++ .RPAREN :: .ASSIGN :: a.toks ++ .PLUS :: b.toks) (.bin .PLUS (.list l a) b) :=
  reads_of (Fits.to (l := 0) (.left _ 15 _ _ .plus (Fits.to (.list _ _ hl ha) (by omega)) (hb.to (by omega))) (by omega)) (by simp [E.toks])
/-- `(new A)->b = 1` and `(new A(1))->b[2] = 1` are rejected, PHP accepts them: only an access path that begins with a variable or a
function counts as a variable (php.g:564 in contrast to :569). -/
theorem limit_assign_to_member_of_new {c p : E} {k : Tok} (hc : Fits .newo c) (hp : Fits .pname p) (hv : c.hasVar = false)
    (hpv : p.hasVar = false) (hk : IsAssign k) (rest : List Tok) :
    parse (.LPAREN :: c.toks ++ .RPAREN :: .OBJECT_OPERATOR :: p.toks ++ k :: rest) = .err := by
  have h : Fits (.lev 5) (.prop .OBJECT_OPERATOR (.paren c) p) :=
    Fits.to (.normal _ (.created _ (.arrow _ _ _ (.parenNew _ hc) (.inr (.inl rfl)) hp))) (by omega)
  have := assign_without_variable h (by simp [E.hasVar, hv, hpv]) hk rest
  simpa [E.toks] using this

end

/-- a grammar without closures -/
@[instance_reducible] def noClosures : Closures where
  read _ := none
  Ok _ := False
  sound h := by cases h
  complete h := h.elim
  head h := h.elim

/-! ### Examples -/
section
attribute [local instance] noClosures

/-- a name of one part -/
abbrev A : E := .name false 0

-- `$a = $b += f($x[1], ...$y)->p * 2 - -$c . 'd'`
example : parse [.VARIABLE, .ASSIGN, .VARIABLE, .PLUS_ASSIGN, .STRING, .LPAREN, .VARIABLE, .LBRACKET, .LNUMBER, .RBRACKET, .COMMA,
      .ELLIPSIS, .VARIABLE, .RPAREN, .OBJECT_OPERATOR, .STRING, .MUL, .LNUMBER, .MINUS, .MINUS, .VARIABLE, .CONCAT,
      .CONSTANT_ENCAPSED_STRING] =
    .ok (.assign .ASSIGN .var (.assign .PLUS_ASSIGN .var
      (.bin .CONCAT
        (.bin .MINUS
          (.bin .MUL (.prop .OBJECT_OPERATOR (.call A (.more (.index .var (.scalar .LNUMBER)) (.last (.spread .var)))) .id) (.scalar .LNUMBER))
          (.un .MINUS .var))
        (.scalar .CONSTANT_ENCAPSED_STRING)))) [] true := by decide +kernel
-- `"a$b[0]{$c->d}" . $$e{'x'} . new \A\B(1) . A::{$x}() . $o->{'p'}[] =& new $c->d`
example : parse [.DOUBLE_QUOTE, .ENCAPSED_AND_WHITESPACE, .VARIABLE, .LBRACKET, .NUM_STRING, .RBRACKET, .CURLY_OPEN, .VARIABLE, .OBJECT_OPERATOR,
      .STRING, .RBRACE, .DOUBLE_QUOTE, .CONCAT, .DOLLAR, .VARIABLE, .LBRACE, .CONSTANT_ENCAPSED_STRING, .RBRACE, .CONCAT, .NEW, .BACKSLASH,
      .STRING, .BACKSLASH, .STRING, .LPAREN, .LNUMBER, .RPAREN, .CONCAT, .STRING, .PAAMAYIM_NEKUDOTAYIM, .LBRACE, .VARIABLE, .RBRACE, .LPAREN,
      .RPAREN, .CONCAT, .VARIABLE, .OBJECT_OPERATOR, .LBRACE, .CONSTANT_ENCAPSED_STRING, .RBRACE, .LBRACKET, .RBRACKET, .ASSIGN, .BIT_AND,
      .NEW, .VARIABLE, .OBJECT_OPERATOR, .STRING] =
    .ok (.assignRef
      (.bin .CONCAT (.bin .CONCAT (.bin .CONCAT (.bin .CONCAT
        (.str .DOUBLE_QUOTE (.part .ptext (.part (.poff .NUM_STRING) (.part (.pexpr .CURLY_OPEN (.prop .OBJECT_OPERATOR .var .id)) .nil))))
        (.cindex (.vvar 0) (.scalar .CONSTANT_ENCAPSED_STRING)))
        (.newArgs (.name true 1) (.last (.scalar .LNUMBER))))
        (.call (.sdyn false 0 .var) .nil))
        (.index0 (.prop .OBJECT_OPERATOR .var (.curly (.scalar .CONSTANT_ENCAPSED_STRING)))))
      (.new_ (.prop .OBJECT_OPERATOR .var .id))) [] false := by decide +kernel
-- `list($a, list(, $b)) = yield` is an error, since `yield` is no operand; `$x = yield $k => $v` is not
example : parse [.LIST, .LPAREN, .VARIABLE, .COMMA, .LIST, .LPAREN, .COMMA, .VARIABLE, .RPAREN, .RPAREN, .ASSIGN, .YIELD] = .err ∧
    parse [.LIST, .LPAREN, .VARIABLE, .COMMA, .LIST, .LPAREN, .COMMA, .VARIABLE, .RPAREN, .RPAREN, .ASSIGN, .VARIABLE] =
      .ok (.list (.vmore .var (.vlast (.lists (.vmore .nil (.vlast .var))))) .var) [] true ∧
    parse [.VARIABLE, .ASSIGN, .YIELD, .VARIABLE, .DOUBLE_ARROW, .VARIABLE] = .ok (.assign .ASSIGN .var (.yieldPair .var .var)) [] true := by
  refine ⟨?_, ?_, ?_⟩ <;> decide +kernel
-- `1 = $a`, `A::B[0] .= 2`, `(1 + 2) = 3`, `(new A)->b = 1` are errors; `f() = 1` is not
example : parse [.LNUMBER, .ASSIGN, .VARIABLE] = .err ∧
    parse [.STRING, .PAAMAYIM_NEKUDOTAYIM, .STRING, .LBRACKET, .LNUMBER, .RBRACKET, .CONCAT_ASSIGN, .LNUMBER] = .err ∧
    parse [.LPAREN, .LNUMBER, .PLUS, .LNUMBER, .RPAREN, .ASSIGN, .LNUMBER] = .err ∧
    parse [.LPAREN, .NEW, .STRING, .RPAREN, .OBJECT_OPERATOR, .STRING, .ASSIGN, .LNUMBER] = .err ∧
    parse [.STRING, .LPAREN, .RPAREN, .ASSIGN, .LNUMBER] = .ok (.assign .ASSIGN (.call A .nil) (.scalar .LNUMBER)) [] false := by
  refine ⟨?_, ?_, ?_, ?_, ?_⟩ <;> decide +kernel
-- the hypotheses of `assign_without_variable`: `[1, A => 2][0]`
example : Fits (.lev 5) (.index (.arr true (.more (.scalar .LNUMBER) (.last (.pair A (.scalar .LNUMBER))))) (.scalar .LNUMBER)) ∧
    E.hasVar (.index (.arr true (.more (.scalar .LNUMBER) (.last (.pair A (.scalar .LNUMBER))))) (.scalar .LNUMBER)) = false := by
  have i : Fits (.lev 0) (.scalar .LNUMBER) := (Fits.normal _ (.scalar _ .int)).to (by omega)
  have n : Fits (.lev 0) A := (Fits.normal _ (.const _ (.constName _ _))).to (by omega)
  refine ⟨(Fits.array _ (.index _ _ _ (.arr _ _ (.some _ _ (.more _ _ _ (.item _ _ i) (.last _ _ (.pair _ _ n rfl i))))) ?_ i)).to (by omega), rfl⟩
  intro h; cases h
-- the hypotheses of `limit_…`: `-$x` and `A::$y->z()` are operands
example : Fits (.lev 17) (.un .MINUS .var) ∧ Fits (.path .vari) (.call (.prop .OBJECT_OPERATOR (.svar false 0 .var) .id) .nil) :=
  ⟨.unary _ _ .minus ((Fits.normal _ (.variable _ (.simple _ .var))).to (by omega)),
   .call _ _ _ (.arrow _ _ _ (.staticVar _ _ _ .var) (.inl rfl) .id) (by intro h; cases h) (by intro h; cases h) (.inl rfl) (.nil _)⟩
-- the hypotheses of `limit_assign_to_member_of_new`: `(new A(1))->b`
example : Fits .newo (.newArgs A (.last (.scalar .LNUMBER))) ∧ Fits .pname .id ∧ E.hasVar (.newArgs A (.last (.scalar .LNUMBER))) = false :=
  ⟨.newArgs _ _ (.className _ _) (.some _ _ (.last _ _ (.item _ _ ((Fits.normal _ (.scalar _ .int)).to (by omega))))), .id, rfl⟩
-- `$a == $b == $c`: stops in front of the second `==`
example : parse [.VARIABLE, .IS_EQUAL, .VARIABLE, .IS_EQUAL, .VARIABLE] = .ok (.bin .IS_EQUAL .var .var) [.IS_EQUAL, .VARIABLE] true := by
  decide +kernel
end

end KPhp.Grammar
