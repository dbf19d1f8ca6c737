import Verif.Parser.ExprGrammar
/-
# The parser of expressions ends, and the bound on its calls does not matter (C59)
-/
namespace KPhp.Grammar
open KPhp (Tok)

theorem closure_head [Closures] {t : List Tok} (h : Closures.Ok t) : ∃ r, t = .FUNCTION :: r := by
  rcases Closures.head h with ⟨r, h⟩ | ⟨r, h⟩ <;> exact ⟨_, h.symm⟩
set_option linter.unusedSectionVars false

/-! ## The rules in a row -/

theorem lk_cases (l : Nat) :
    (lk l = .chain ∧ (l ≤ 2 ∨ 6 ≤ l ∧ l ≤ 11 ∨ 14 ≤ l ∧ l ≤ 16)) ∨ (lk l = .non ∧ (l = 12 ∨ l = 13)) ∨
    (lk l = .print ∧ l = 3) ∨ (lk l = .assign ∧ l = 4) ∨ (lk l = .cond ∧ l = 5) ∨ (lk l = .unary ∧ l = 17) ∨
    (lk l = .prefix ∧ l = 18) ∨ (lk l = .postfix ∧ l = 19) ∨ (lk l = .primary ∧ 20 ≤ l) := by
  match l with
  | 0 | 1 | 2 | 3 | 4 | 5 | 6 | 7 | 8 | 9 | 10 | 11 | 12 | 13 | 14 | 15 | 16 | 17 | 18 | 19 => simp [lk]
  | n + 20 => simp [lk]

/-! ## More calls give the same result -/

/-- `b` is what `a` becomes with more calls allowed -/
def R.le (a b : R) : Prop := a = .fuel ∨ a = b

theorem R.le_refl (a : R) : a.le a := .inr rfl
theorem R.le_bind {a b : R} {k k'} (h : a.le b) (hk : ∀ e r f, (k e r f).le (k' e r f)) : (a.bind k).le (b.bind k') := by
  rcases h with rfl | rfl
  · exact .inl rfl
  · cases a with
    | ok e r f => exact hk e r f
    | fuel => exact .inl rfl
    | err => exact .inr rfl
theorem R.le_map {a b : R} {g} (h : a.le b) : (a.map g).le (b.map g) := R.le_bind h fun _ _ _ => .inr rfl
theorem R.le_setVar {a b : R} (h : a.le b) : a.setVar.le b.setVar := by
  rcases h with rfl | rfl
  · exact .inl rfl
  · exact .inr rfl
theorem R.le_orElse {a b c d : R} (h : a.le b) (h' : c.le d) : (a.orElse c).le (b.orElse d) := by
  rcases h with rfl | rfl
  · exact .inl rfl
  · cases a with
    | err => exact h'
    | _ => exact .inr rfl
theorem expect_le {k ts} {c c' : List Tok → R} (h : ∀ r, (c r).le (c' r)) : (expect k ts c).le (expect k ts c') := by
  cases ts with
  | nil => exact .inr rfl
  | cons t r =>
    simp only [expect]
    split
    · exact h r
    · exact .inr rfl
theorem eat_le {k ts} {c c' : List Tok → R} {d d' : R} (h : ∀ r, (c r).le (c' r)) (h' : d.le d') : (eat k ts c d).le (eat k ts c' d') := by
  cases ts with
  | nil => exact h'
  | cons t r =>
    simp only [eat]
    split
    · exact h r
    · exact h'
theorem uncons_le {ts} {c c' : Tok → List Tok → R} (h : ∀ k r, (c k r).le (c' k r)) : (uncons ts c).le (uncons ts c') := by
  cases ts with
  | nil => exact .inr rfl
  | cons t r => exact h t r
theorem onName_le {ts} {c c' : Bool → Nat → List Tok → R} {d d' : R} (h : ∀ g n r, (c g n r).le (c' g n r)) (h' : d.le d') :
    (onName ts c d).le (onName ts c' d') := by
  unfold onName
  split
  · exact h _ _ _
  · exact h'
theorem onTok_le {ts} {c c' : Tok → List Tok → R} {d d' : R} (h' : d.le d') (h : ∀ k r, (c k r).le (c' k r)) :
    (onTok ts d c).le (onTok ts d' c') := by
  cases ts with
  | nil => exact h'
  | cons t r => exact h t r
theorem R.le_ite {p : Prop} [Decidable p] {a b a' b' : R} (h : a.le a') (h' : b.le b') : (if p then a else b).le (if p then a' else b') := by
  split
  · exact h
  · exact h'

/-- goes through a function of the parser -/
macro "le_tac" ih:ident args:ident quot:ident : tactic => `(tactic|
  repeat first
    | exact R.le_refl _
    | exact $ih _ _ _
    | (intro _)
    | apply $args
    | apply $quot
    | apply R.le_orElse
    | apply R.le_setVar
    | apply R.le_bind
    | apply R.le_map
    | apply expect_le
    | apply eat_le
    | apply uncons_le
    | apply onTok_le
    | apply onName_le
    | apply R.le_ite)

section
variable [Closures]

/-- one function of the parser: more calls allowed to the functions it calls -/
theorem step_le {p q : Job → List Tok → Bool → R} (ih : ∀ j ts f, (p j ts f).le (q j ts f)) (j : Job) (ts : List Tok) (f : Bool) :
    (step p j ts f).le (step q j ts f) := by
  have args : ∀ {r f} {c c' : E → List Tok → Bool → R}, (∀ e r f, (c e r f).le (c' e r f)) → (argsStep p r f c).le (argsStep q r f c') :=
    fun h => R.le_bind (ih _ _ _) fun _ _ _ => expect_le fun _ => h _ _ _
  have quot : ∀ {k r f} {c c' : E → List Tok → Bool → R}, (∀ e r f, (c e r f).le (c' e r f)) → (quoted p k r f c).le (quoted q k r f c') :=
    fun h => R.le_bind (ih _ _ _) fun _ _ _ => expect_le fun _ => h _ _ _
  cases j with
  | lev l =>
    simp only [step, levStep]
    cases lk l <;> simp only [nonRest, assignRest, condRest, yieldRest, unaryStep] <;> le_tac ih args quot
  | norm =>
    simp only [step, normStep, constStep, parenStep]
    le_tac ih args quot
  | _ =>
    simp only [step, loopStep, tailStep, primStep, variStep, cvarStep, pnameStep, crefStep, newoStep, itemStep, items1Step, velemStep,
      partStep, pexprStep]
    le_tac ih args quot

theorem run_le (n : Nat) : ∀ j ts f, (run n j ts f).le (run (n + 1) j ts f) := by
  induction n with
  | zero => intro j ts f; left; simp [run]
  | succ n ih => intro j ts f; exact step_le ih j ts f

theorem run_mono {n m : Nat} (h : n ≤ m) {j ts f} (hf : run n j ts f ≠ .fuel) : run m j ts f = run n j ts f := by
  induction m with
  | zero => cases Nat.le_zero.1 h; rfl
  | succ m ih =>
    rcases Nat.lt_or_ge m n with h' | h'
    · have : n = m + 1 := by omega
      rw [this]
    · have := ih h'
      rcases run_le m j ts f with h1 | h1
      · rw [this] at h1; exact absurd h1 hf
      · rw [← h1, this]
end

/-! ## A bound on the number of nested calls -/

/-- how many nested calls a job makes at most -/
def need : Job → List Tok → Nat
  | .lev l, ts => 40 * ts.length + 10 + (20 - l)
  | .loop _ _, ts => 40 * ts.length + 1
  | .prim, ts => 40 * ts.length + 9
  | .norm, ts => 40 * ts.length + 8
  | .vari, ts => 40 * ts.length + 7
  | .newo, ts => 40 * ts.length + 7
  | .cref, ts => 40 * ts.length + 6
  | .pname, ts => 40 * ts.length + 6
  | .cvar, ts => 40 * ts.length + 5
  | .tail _ _, ts => 40 * ts.length + 3
  | .item _, ts => 40 * ts.length + 33
  | .items1 _ _, ts => 40 * ts.length + 35
  | .items _ _, ts => 40 * ts.length + 36
  | .vars _, ts => 40 * ts.length + 10
  | .velem _, ts => 40 * ts.length + 9
  | .parts, ts => 40 * ts.length + 5
  | .part, ts => 40 * ts.length + 4

/-- fewer tokens than this are left; some jobs may read nothing -/
def Job.bound : Job → List Tok → Nat
  | .loop _ _, ts | .tail _ _, ts | .items _ _, ts | .vars _, ts | .velem _, ts | .parts, ts => ts.length + 1
  | _, ts => ts.length

/-- a result of the code, and fewer than `m` tokens are left -/
def R.fine (m : Nat) (a : R) : Prop := a ≠ .fuel ∧ ∀ e r f, a = .ok e r f → r.length < m

theorem fine_ok {m e r f} (h : r.length < m) : (R.ok e r f).fine m := ⟨(by intro h; cases h), (by intro e r f h'; cases h'; exact h)⟩
theorem fine_err {m} : R.err.fine m := ⟨(by intro h; cases h), (by intro e r f h; cases h)⟩
theorem fine_mono {m m' : Nat} {a : R} (h : a.fine m) (hm : m ≤ m') : a.fine m' :=
  ⟨h.1, fun e r f he => Nat.lt_of_lt_of_le (h.2 e r f he) hm⟩
theorem fine_bind {m m' : Nat} {a : R} {k} (h : a.fine m) (hk : ∀ e r f, r.length < m → (k e r f).fine m') : (a.bind k).fine m' := by
  cases a with
  | ok e r f => exact hk e r f (h.2 _ _ _ rfl)
  | fuel => exact absurd rfl h.1
  | err => exact fine_err
theorem fine_map {m : Nat} {a : R} {g} (h : a.fine m) : (a.map g).fine m := fine_bind h fun _ _ _ h => fine_ok h
theorem fine_setVar {m : Nat} {a : R} (h : a.fine m) : a.setVar.fine m := by
  cases a with
  | ok e r f => exact fine_ok (h.2 _ _ _ rfl)
  | fuel => exact absurd rfl h.1
  | err => exact fine_err
theorem fine_orElse {m : Nat} {a b : R} (h : a.fine m) (h' : b.fine m) : (a.orElse b).fine m := by
  cases a with
  | ok e r f => exact h
  | fuel => exact h
  | err => exact h'
theorem fine_expect {m : Nat} {k ts c} (h : ∀ r : List Tok, r.length < ts.length → (c r).fine m) : (expect k ts c).fine m := by
  cases ts with
  | nil => exact fine_err
  | cons t r =>
    simp only [expect]
    split
    · exact h r (by simp)
    · exact fine_err
theorem fine_eat {m : Nat} {k ts c d} (h : ∀ r : List Tok, r.length < ts.length → (c r).fine m) (h' : R.fine m d) : (eat k ts c d).fine m := by
  cases ts with
  | nil => exact h'
  | cons t r =>
    simp only [eat]
    split
    · exact h r (by simp)
    · exact h'
theorem fine_uncons {m : Nat} {ts c} (h : ∀ k (r : List Tok), r.length < ts.length → (c k r).fine m) : (uncons ts c).fine m := by
  cases ts with
  | nil => exact fine_err
  | cons t r => exact h t r (by simp)
theorem fine_onTok {m : Nat} {ts c d} (h' : R.fine m d) (h : ∀ k (r : List Tok), r.length < ts.length → (c k r).fine m) :
    (onTok ts d c).fine m := by
  cases ts with
  | nil => exact h'
  | cons t r => exact h t r (by simp)
theorem fine_ite {m : Nat} {p : Prop} [Decidable p] {a b : R} (h : a.fine m) (h' : b.fine m) : (if p then a else b).fine m := by
  split
  · exact h
  · exact h'

theorem nameRest_length {ts : List Tok} {n r} (h : nameRest ts = some (n, r)) : r.length ≤ ts.length := by
  induction ts using nameRest.induct generalizing n r with
  | case1 ts ih =>
    simp only [nameRest, Option.map_eq_some_iff] at h
    obtain ⟨⟨n', r'⟩, h1, h2⟩ := h
    cases h2
    have := ih h1
    simp; omega
  | case2 ts hn => unfold nameRest at h; split at h <;> simp_all
  | case3 ts h1 h2 => unfold nameRest at h; split at h <;> simp_all
theorem readName_length {ts : List Tok} {g n r} (h : readName ts = some (g, n, r)) : r.length < ts.length := by
  unfold readName at h
  split at h
  · obtain ⟨⟨n', r'⟩, h1, h2⟩ := Option.map_eq_some_iff.1 h
    cases h2; have := nameRest_length h1; simp; omega
  · obtain ⟨⟨n', r'⟩, h1, h2⟩ := Option.map_eq_some_iff.1 h
    cases h2; have := nameRest_length h1; simp; omega
  · cases h
theorem fine_onName {m : Nat} {ts c d} (h : ∀ g n (r : List Tok), r.length < ts.length → (c g n r).fine m) (h' : R.fine m d) :
    (onName ts c d).fine m := by
  unfold onName
  split
  · rename_i hn; exact h _ _ _ (readName_length hn)
  · exact h'
theorem dollars_length (ts : List Tok) : (dollars ts).2.length ≤ ts.length := by
  induction ts with
  | nil => simp [dollars]
  | cons t r ih => unfold dollars; split <;> simp_all; omega

theorem fine_closure [Closures] {m : Nat} {ts : List Tok} {c}
    (h : ∀ t (r : List Tok), r.length < ts.length → (c t r).fine m) : (onClosure (Closures.read ts) c).fine m := by
  unfold onClosure
  split
  · rename_i t r hr
    refine h _ _ ?_
    obtain ⟨rfl, h2⟩ := Closures.sound hr
    obtain ⟨r', rfl⟩ := closure_head h2
    simp; omega
  · exact fine_err

/-- goes through a function of the parser -/
macro "fine_tac" ih:ident ex:ident args:ident quot:ident : tactic => `(tactic|
  repeat first
    | exact fine_err
    | (apply fine_ok; simp only [Job.bound]; omega)
    | (refine $ex ?_ ?_ <;> (simp only [need, Job.bound]; omega))
    | (refine $args (by omega) ?_)
    | (refine $quot (by omega) ?_)
    | (refine fine_bind ($ih _ _ _ (by simp only [need, Job.bound]; omega)) ?_)
    | (intro h; try simp only [Job.bound] at h)
    | apply fine_orElse
    | apply fine_setVar
    | apply fine_map
    | apply fine_expect
    | apply fine_eat
    | apply fine_uncons
    | apply fine_onTok
    | apply fine_onName
    | apply fine_closure
    | apply fine_ite)

variable [Closures]

set_option maxHeartbeats 2000000 in
theorem run_fine (n : Nat) : ∀ j ts f, need j ts ≤ n → (run n j ts f).fine (j.bound ts) := by
  induction n with
  | zero => intro j ts f hn; cases j <;> simp only [need] at hn <;> omega
  | succ n ih =>
    have ex : ∀ {j ts f m}, need j ts ≤ n → j.bound ts ≤ m → (run n j ts f).fine m := fun h h' => fine_mono (ih _ _ _ h) h'
    have args : ∀ {r f m} {c : E → List Tok → Bool → R}, 40 * r.length + 36 ≤ n →
        (∀ e (r' : List Tok) f, r'.length < r.length → (c e r' f).fine m) → (argsStep (run n) r f c).fine m := by
      intro r f m c h1 h2
      refine fine_bind (ih _ _ _ (by simpa only [need])) fun e r' f h => fine_expect fun r'' h' => h2 _ _ _ ?_
      simp only [Job.bound] at h; omega
    have quot : ∀ {k r f m} {c : E → List Tok → Bool → R}, 40 * r.length + 5 ≤ n →
        (∀ e (r' : List Tok) f, r'.length < r.length → (c e r' f).fine m) → (quoted (run n) k r f c).fine m := by
      intro k r f m c h1 h2
      refine fine_bind (ih _ _ _ (by simpa only [need])) fun e r' f h => fine_expect fun r'' h' => h2 _ _ _ ?_
      simp only [Job.bound] at h; omega
    intro j ts f hn
    cases j with
    | lev l =>
      simp only [need] at hn
      simp only [run, step, levStep]
      rcases lk_cases l with ⟨hk, hb⟩ | ⟨hk, hb⟩ | ⟨hk, hb⟩ | ⟨hk, hb⟩ | ⟨hk, hb⟩ | ⟨hk, hb⟩ | ⟨hk, hb⟩ | ⟨hk, hb⟩ | ⟨hk, hb⟩ <;>
        simp only [hk, nonRest, assignRest, condRest, yieldRest, unaryStep] <;> fine_tac ih ex args quot
    | cvar =>
      simp only [need] at hn
      simp only [run, step, cvarStep]
      refine fine_uncons fun k r h => ?_
      have := dollars_length r
      fine_tac ih ex args quot
    | norm =>
      simp only [need] at hn
      simp only [run, step, normStep, constStep, parenStep]
      fine_tac ih ex args quot
    | _ =>
      simp only [need] at hn
      simp only [run, step, loopStep, tailStep, primStep, variStep, pnameStep, crefStep, newoStep, itemStep, items1Step,
        velemStep, partStep, pexprStep]
      fine_tac ih ex args quot

/-- The parser ends: it accepts a beginning of the text or reports an error, whatever the tokens are. -/
theorem parse_total (ts : List Tok) : parse ts ≠ .fuel := (run_fine _ _ _ _ (by simp only [need]; omega)).1

/-- The bound on nested calls is irrelevant. -/
theorem parse_bound (ts : List Tok) (n : Nat) (h : 40 * ts.length + 30 ≤ n) : run n (.lev 0) ts false = parse ts :=
  run_mono h (parse_total ts)

end KPhp.Grammar
