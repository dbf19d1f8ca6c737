import Verif.Parser.ExprTotal
/-
# The parser of expressions reads what it returns (C59)
-/
namespace KPhp.Grammar
open KPhp (Tok)
set_option linter.unusedSectionVars false
set_option linter.unusedVariables false
set_option linter.unusedSimpArgs false

/-! ## Tables -/

theorem opsAt_prec {l : Nat} {k : Tok} : (opsAt l).contains k = true ↔ Prec k l true ∨ Prec k l false := by
  constructor
  · intro h
    match l, h with
    | 0, h | 1, h | 2, h | 6, h | 7, h | 8, h | 9, h | 10, h | 11, h | 12, h | 13, h | 14, h | 15, h | 16, h =>
      simp only [opsAt, List.contains_eq_mem, List.mem_cons, List.not_mem_nil, or_false, decide_eq_true_eq] at h
      first
        | (subst h; first | (left; constructor) | (right; constructor))
        | (rcases h with rfl | rfl <;> first | (left; constructor) | (right; constructor))
        | (rcases h with rfl | rfl | rfl <;> first | (left; constructor) | (right; constructor))
        | (rcases h with rfl | rfl | rfl | rfl <;> first | (left; constructor) | (right; constructor))
        | (rcases h with rfl | rfl | rfl | rfl | rfl <;> first | (left; constructor) | (right; constructor))
    | 3, h | 4, h | 5, h => simp [opsAt] at h
    | n + 17, h => simp [opsAt] at h
  · rintro (h | h) <;> cases h <;> decide

theorem called_iff {e : E} : called e = true ↔ Called e := by
  constructor
  · intro h
    induction e with
    | call b l => exact .call _ _
    | index0 b ih => exact .index0 _ (ih h)
    | index b i ih _ => exact .index _ _ (ih h)
    | _ => cases h
  · intro h
    induction h with
    | call => rfl
    | index0 _ _ ih => exact ih
    | index _ _ _ ih => exact ih
theorem called_false {e : E} : called e = false ↔ ¬ Called e := by rw [← called_iff]; simp

theorem assign_iff {k : Tok} : assignOps.contains k = true ↔ IsAssign k := by
  constructor
  · intro h
    simp only [assignOps, List.contains_eq_mem, List.mem_cons, List.not_mem_nil, or_false, decide_eq_true_eq] at h
    rcases h with rfl | rfl | rfl | rfl | rfl | rfl | rfl | rfl | rfl | rfl | rfl | rfl | rfl <;> constructor
  · intro h; cases h <;> decide
theorem unary_iff {k : Tok} : unaryOps.contains k = true ↔ IsUnary k := by
  constructor
  · intro h
    simp only [unaryOps, List.contains_eq_mem, List.mem_cons, List.not_mem_nil, or_false, decide_eq_true_eq] at h
    rcases h with rfl | rfl | rfl | rfl | rfl | rfl | rfl | rfl | rfl | rfl | rfl | rfl | rfl | rfl | rfl | rfl <;> constructor
  · intro h; cases h <;> decide
theorem incDec_iff {k : Tok} : incDec.contains k = true ↔ IsIncDec k := by
  constructor
  · intro h
    simp only [incDec, List.contains_eq_mem, List.mem_cons, List.not_mem_nil, or_false, decide_eq_true_eq] at h
    rcases h with rfl | rfl <;> constructor
  · intro h; cases h <;> decide
theorem scalar_iff {k : Tok} : scalars.contains k = true ↔ IsScalar k := by
  constructor
  · intro h
    simp only [scalars, List.contains_eq_mem, List.mem_cons, List.not_mem_nil, or_false, decide_eq_true_eq] at h
    rcases h with rfl | rfl | rfl | rfl | rfl | rfl | rfl | rfl | rfl | rfl | rfl <;> constructor
  · intro h; cases h <;> decide
theorem offset_iff {k : Tok} : offsets.contains k = true ↔ IsOffset k := by
  constructor
  · intro h
    simp only [offsets, List.contains_eq_mem, List.mem_cons, List.not_mem_nil, or_false, decide_eq_true_eq] at h
    rcases h with rfl | rfl | rfl <;> constructor
  · intro h; cases h <;> decide
theorem words_iff {k : Tok} : semiReserved.contains k = true ↔ k ∈ words := by
  have h1 : ∀ k ∈ semiReserved, k ∈ words := by decide
  have h2 : ∀ k ∈ words, k ∈ semiReserved := by decide
  simp only [List.contains_eq_mem, decide_eq_true_eq]
  exact ⟨h1 k, h2 k⟩
theorem fresh_iff {m : Mode} {e : E} : fresh m e = true ↔ Fresh m e := by
  constructor
  · intro h
    unfold fresh at h
    split at h
    · exact .inst _
    · exact .name _ _
    · exact .stat
    · cases h
  · intro h; cases h <;> rfl
theorem fresh_false {m : Mode} {e : E} : fresh m e = false ↔ ¬ Fresh m e := by rw [← fresh_iff]; simp

theorem prec_unique {k : Tok} {l l' : Nat} {a a' : Bool} (h : Prec k l a) (h' : Prec k l' a') : l = l' ∧ a = a' := by
  cases h <;> cases h' <;> exact ⟨rfl, rfl⟩

theorem prec_chain {k : Tok} {l : Nat} {a : Bool} (h : Prec k l a) (hl : lk l = .chain) : Prec k l true := by
  cases h <;> first | (exact absurd hl (by decide)) | constructor
theorem prec_non {k : Tok} {l : Nat} {a : Bool} (h : Prec k l a) (hl : l = 12 ∨ l = 13) : Prec k l false := by
  rcases hl with rfl | rfl <;> cases h <;> constructor
theorem prec_logic {k : Tok} {l : Nat} {a : Bool} (h : Prec k l a) :
    ((k = .LOGICAL_OR ∨ k = .LOGICAL_XOR ∨ k = .LOGICAL_AND) ↔ l ≤ 4) := by
  cases h <;> decide

/-! ## Names -/

theorem nameRest_sound {ts : List Tok} {n r} (h : nameRest ts = some (n, r)) : ts = moreNames n ++ r := by
  induction ts using nameRest.induct generalizing n r with
  | case1 ts ih =>
    simp only [nameRest, Option.map_eq_some_iff] at h
    obtain ⟨⟨n', r'⟩, h1, h2⟩ := h
    cases h2
    rw [ih h1]; rfl
  | case2 ts hn => unfold nameRest at h; split at h <;> simp_all
  | case3 ts h1 h2 =>
    unfold nameRest at h
    split at h
    · exact absurd rfl (h1 _)
    · exact absurd rfl (h2 _)
    · cases h; rfl
theorem readName_sound {ts : List Tok} {g n r} (h : readName ts = some (g, n, r)) : ts = nameToks g n ++ r := by
  unfold readName at h
  split at h
  · obtain ⟨⟨n', r'⟩, h1, h2⟩ := Option.map_eq_some_iff.1 h
    cases h2; rw [nameRest_sound h1]; rfl
  · obtain ⟨⟨n', r'⟩, h1, h2⟩ := Option.map_eq_some_iff.1 h
    cases h2; rw [nameRest_sound h1]; rfl
  · cases h
theorem dollars_sound (ts : List Tok) : ts = List.replicate (dollars ts).1 .DOLLAR ++ (dollars ts).2 := by
  induction ts with
  | nil => rfl
  | cons t r ih =>
    unfold dollars
    split
    · rename_i h; cases h; simp only [List.replicate_succ, List.cons_append]; rw [← ih]
    · rfl

/-! ## What holds of every result -/

def R.sat (a : R) (P : E → List Tok → Bool → Prop) : Prop := ∀ e r f, a = .ok e r f → P e r f

theorem sat_ok {P : E → List Tok → Bool → Prop} {e r f} (h : P e r f) : (R.ok e r f).sat P := by intro e' r' f' h'; cases h'; exact h
theorem sat_err {P} : R.err.sat P := by intro e' r' f' h'; cases h'
theorem sat_mono {a : R} {Q P : E → List Tok → Bool → Prop} (h : a.sat Q) (hk : ∀ e r f, Q e r f → P e r f) : a.sat P :=
  fun e r f he => hk _ _ _ (h _ _ _ he)
theorem sat_bind {a : R} {k} {Q P : E → List Tok → Bool → Prop} (h : a.sat Q) (hk : ∀ e r f, Q e r f → (k e r f).sat P) :
    (a.bind k).sat P := by
  cases a with
  | ok e r f => exact hk e r f (h _ _ _ rfl)
  | _ => intro e' r' f' h'; cases h'
theorem sat_map {a : R} {g} {Q P : E → List Tok → Bool → Prop} (h : a.sat Q) (hk : ∀ e r f, Q e r f → P (g e) r f) : (a.map g).sat P :=
  sat_bind h fun e r f h => sat_ok (hk e r f h)
theorem sat_setVar {a : R} {Q P : E → List Tok → Bool → Prop} (h : a.sat Q) (hk : ∀ e r f, Q e r f → P e r true) : a.setVar.sat P := by
  cases a with
  | ok e r f => exact sat_ok (hk _ _ _ (h _ _ _ rfl))
  | _ => intro e' r' f' h'; cases h'
theorem sat_orElse {a b : R} {P} (h : a.sat P) (h' : b.sat P) : (a.orElse b).sat P := by
  cases a with
  | err => exact h'
  | _ => exact h
theorem sat_expect {k ts c} {P} (h : ∀ r, ts = k :: r → (c r).sat P) : (expect k ts c).sat P := by
  cases ts with
  | nil => exact sat_err
  | cons t r =>
    simp only [expect]
    split
    · rename_i ht; exact h r (by rw [ht])
    · exact sat_err
theorem sat_eat {k ts c d} {P} (h : ∀ r, ts = k :: r → (c r).sat P) (h' : headIn [k] ts = false → R.sat d P) : (eat k ts c d).sat P := by
  cases ts with
  | nil => exact h' rfl
  | cons t r =>
    simp only [eat]
    split
    · rename_i ht; exact h r (by rw [ht])
    · rename_i ht; exact h' (by simp [headIn, ht])
theorem sat_uncons {ts c} {P} (h : ∀ k r, ts = k :: r → (c k r).sat P) : (uncons ts c).sat P := by
  cases ts with
  | nil => exact sat_err
  | cons t r => exact h t r rfl
theorem sat_onTok {ts d c} {P} (h' : R.sat d P) (h : ∀ k r, ts = k :: r → (c k r).sat P) : (onTok ts d c).sat P := by
  cases ts with
  | nil => exact h'
  | cons t r => exact h t r rfl
theorem sat_onTok0 {ts d c} {P} (h' : ts = [] → R.sat d P) (h : ∀ k r, ts = k :: r → (c k r).sat P) : (onTok ts d c).sat P := by
  cases ts with
  | nil => exact h' rfl
  | cons t r => exact h t r rfl
theorem sat_onName {ts c d} {P} (h : ∀ g n r, ts = nameToks g n ++ r → (c g n r).sat P) (h' : R.sat d P) : (onName ts c d).sat P := by
  unfold onName
  split
  · rename_i hn; exact h _ _ _ (readName_sound hn)
  · exact h'
theorem sat_ite {p : Prop} [Decidable p] {a b : R} {P} (h : p → a.sat P) (h' : ¬ p → b.sat P) : (if p then a else b).sat P := by
  split
  · exact h (by assumption)
  · exact h' (by assumption)

theorem headIn_one {k : Tok} {ts} : headIn [k] ts = true ↔ ∃ r, ts = k :: r := by
  cases ts <;> simp [headIn]

/-- what the flag is after an operand of this level -/
def entry (l : Nat) (e : E) (f : Bool) : Bool := e.mark (if l ≤ 4 then false else f)

theorem entry_up {l : Nat} (h : l ≠ 4) (e : E) (f : Bool) : entry (l + 1) e f = entry l e f := by
  unfold entry
  by_cases h1 : l ≤ 4
  · rw [if_pos (by omega), if_pos h1]
  · rw [if_neg (by omega), if_neg h1]

theorem bin_entry {k : Tok} {l : Nat} {a} (h : Prec k l a) (x y : E) (f : Bool) (h4 : l ≠ 4) :
    entry l (.bin k x y) f = entry (l + 1) y (entry l x f) := by
  rw [entry_up h4]
  unfold entry
  simp only [E.mark, E.raw, E.isVar, prec_logic h, Bool.false_or]

section
variable [Closures]

theorem cvar_isVar {e : E} (h : Fits .cvar e) : e.isVar = true := by cases h <;> rfl
theorem newo_isNew {e : E} (h : Fits .newo e) : e.isNew = true := by cases h <;> rfl

/-- whether an access path is a variable depends on where it begins -/
theorem path_facts {c : Cat} {e : E} (h : Fits c e) :
    ∀ m, c = .path m → (m = .vari → e.isVar = true) ∧ (m = .inst ∨ m = .dim ∨ m = .arr ∨ m = .str → e.isVar = false) ∧
      (m ≠ .vari → m ≠ .inst → ¬ Called e) ∧ e.isNew = false ∧ e.isPlainClosure = false ∧ e.isItem = false ∧ e.endsYield = false ∧
      (m ≠ .vari → ¬ ∃ g n x l, (e = .call (.name g n) l ∨ e = .call (.cconst g n x) l)) := by
  induction h with
  | simple v hv | classVar v hv =>
    intro m hm; cases hm
    cases hv <;> (refine ⟨?_, ?_, ?_, rfl, rfl, rfl, rfl, ?_⟩ <;> first | (intro _; rfl) | (intro h; simp at h; done) | (intro _ _ h; cases h) | (intro _; simp))
  | constName | classConst | literal | quoted | arr | parenNew | className | classStatic | staticVar | function | method | dynMethod =>
    intro m hm; cases hm
    refine ⟨?_, ?_, ?_, rfl, rfl, rfl, rfl, ?_⟩ <;>
      first | (intro _; rfl) | (intro h; simp at h; done) | (intro _ _ h; cases h; done) | (intro h; exact absurd rfl h) | (intro _; simp)
  | index0 m b hb hf hm ih =>
    intro m' hm'; cases hm'
    obtain ⟨h1, h2, h3, -⟩ := ih _ rfl
    refine ⟨h1, h2, ?_, rfl, rfl, rfl, rfl, by simp⟩
    intro h h' hc; cases hc; exact h3 h h' (by assumption)
  | index m b i hb hf hi ih _ =>
    intro m' hm'; cases hm'
    obtain ⟨h1, h2, h3, -⟩ := ih _ rfl
    refine ⟨h1, h2, ?_, rfl, rfl, rfl, rfl, by simp⟩
    intro h h' hc; cases hc; exact h3 h h' (by assumption)
  | cindex m b i hb hf hc _ _ hi ih _ =>
    intro m' hm'; cases hm'
    obtain ⟨h1, h2, h3, -⟩ := ih _ rfl
    refine ⟨h1, h2, ?_, rfl, rfl, rfl, rfl, by simp⟩
    intro h h' hc; cases hc
  | call m b l hb hf hc hm hl ih _ =>
    intro m' hm'; cases hm'
    obtain ⟨h1, h2, h3, -⟩ := ih _ rfl
    have hn : ∀ g n, b ≠ .name g n := by
      rintro g n rfl
      rcases hm with rfl | rfl
      · simp [E.isVar] at h1
      · cases hb
    have hk : ∀ g n k, b ≠ .cconst g n k := by
      rintro g n k rfl
      rcases hm with rfl | rfl
      · simp [E.isVar] at h1
      · cases hb
    have hv : (E.call b l).isVar = b.isVar := by
      cases b <;> first | rfl | exact absurd rfl (hn _ _) | exact absurd rfl (hk _ _ _)
    refine ⟨fun h => by rw [hv]; exact h1 h, fun h => by rw [hv]; exact h2 h, ?_, rfl, rfl, rfl, rfl, ?_⟩
    · intro h h'; rcases hm with rfl | rfl <;> contradiction
    · intro h
      rintro ⟨g, n, x, l', h | h⟩ <;> cases h
      · exact hn _ _ rfl
      · exact hk _ _ _ rfl
  | arrow m b p hb hm hp ih _ =>
    intro m' hm'; cases hm'
    obtain ⟨h1, h2, h3, -⟩ := ih _ rfl
    refine ⟨h1, h2, ?_, rfl, rfl, rfl, rfl, by simp⟩
    intro h h' hc; cases hc
  | scope b p hb hp ih _ =>
    intro m' hm'; cases hm'
    obtain ⟨h1, h2, h3, -⟩ := ih _ rfl
    refine ⟨h1, h2, ?_, rfl, rfl, rfl, rfl, by simp⟩
    intro h h' hc; cases hc
  | classScope b p hb hp ih _ =>
    intro m' hm'; cases hm'
    obtain ⟨h1, h2, h3, -⟩ := ih _ rfl
    refine ⟨h1, h2, ?_, rfl, rfl, rfl, rfl, by simp⟩
    intro h h' hc; cases hc
  | _ => intro m hm; cases hm

theorem vari_isVar {e : E} (h : Fits (.path .vari) e) : e.isVar = true := (path_facts h _ rfl).1 rfl
theorem path_notVar {m : Mode} {e : E} (h : Fits (.path m) e) (hm : m = .inst ∨ m = .dim ∨ m = .arr ∨ m = .str) : e.isVar = false :=
  (path_facts h _ rfl).2.1 hm
theorem isVar_mark {e : E} (h : e.isVar = true) (f : Bool) : e.mark f = true := by simp [E.mark, h]
theorem path_mark {m : Mode} {e : E} (h : Fits (.path m) e) (hm : m = .inst ∨ m = .dim ∨ m = .arr ∨ m = .str) (f : Bool) :
    e.mark f = e.raw f := by simp [E.mark, path_notVar h hm]

/-- shapes of operands -/
theorem oper_facts {c : Cat} {e : E} (h : Fits c e) :
    (c = .norm ∨ c = .newo ∨ (∃ l, c = .lev l) → e.isItem = false) ∧
    (c = .norm ∨ c = .newo ∨ (∃ l, c = .lev l ∧ 5 ≤ l) → e.endsYield = false) ∧
    (c = .newo → e.isVar = false) := by
  induction h with
  | const _ h | string _ h | created _ h | «variable» _ h =>
    exact ⟨fun _ => (path_facts h _ rfl).2.2.2.2.2.1, fun _ => (path_facts h _ rfl).2.2.2.2.2.2.1, fun h => by cases h⟩
  | array _ h => exact ⟨fun _ => (path_facts h _ rfl).2.2.2.2.2.1, fun _ => (path_facts h _ rfl).2.2.2.2.2.2.1, fun h => by cases h⟩
  | new _ h ih => exact ⟨fun _ => ih.1 (by simp), fun _ => ih.2.1 (by simp), fun h => by cases h⟩
  | normal _ h ih => exact ⟨fun _ => ih.1 (by simp), fun _ => ih.2.1 (by simp), fun h => by cases h⟩
  | up l e hl h ih =>
    refine ⟨fun _ => ih.1 (by simp), fun h => ih.2.1 ?_, fun h => by cases h⟩
    rcases h with h | h | ⟨m, h, h'⟩
    · cases h
    · cases h
    · cases h; exact .inr (.inr ⟨_, rfl, by omega⟩)
  | left k l a b hp _ _ _ ih | non k l a b hp _ _ _ ih =>
    refine ⟨fun _ => rfl, fun h => ?_, fun h => by cases h⟩
    rcases h with h | h | ⟨m, h, h'⟩
    · cases h
    · cases h
    · cases h; exact ih.2.1 (.inr (.inr ⟨_, rfl, by omega⟩))
  | inst | cond | elvis | unary | list | exit0 | exitP | exitE | eval | pre | post | scalar | nowdoc | heredoc | backtick | paren | closure
  | iife | empty | isset | clone | newBare | newArgs => exact ⟨fun _ => rfl, fun _ => rfl, fun _ => rfl⟩
  | print | assign | assignVar | assignNew | yield0 | yield | yieldPair | yieldFrom =>
    refine ⟨fun _ => rfl, fun h => ?_, fun h => by cases h⟩
    rcases h with h | h | ⟨m, h, h'⟩
    · cases h
    · cases h
    · cases h; omega
  | _ => refine ⟨fun h => ?_, fun h => ?_, fun h => ?_⟩ <;> simp at h

theorem strong_noYield {l : Nat} {e : E} (h : Fits (.lev l) e) (hl : 5 ≤ l) : e.endsYield = false :=
  (oper_facts h).2.1 (.inr (.inr ⟨_, rfl, hl⟩))
theorem lev_ent {l : Nat} {e : E} (h : Fits (.lev l) e) (f : Bool) : e.ent f = e.mark false := by
  simp [E.ent, (oper_facts h).1 (.inr (.inr ⟨_, rfl⟩))]
theorem newo_mark {e : E} (h : Fits .newo e) (f : Bool) : e.mark f = e.raw f := by
  simp [E.mark, (oper_facts h).2.2 rfl]

/-- what may be called although it is no variable: a function, a static method -/
inductive Callee : E → Prop
  | name (g n) : Callee (.name g n)
  | cconst (g n k) : k ∈ words → Callee (.cconst g n k)
  | sdyn (g n e) : Fits (.lev 0) e → Callee (.sdyn g n e)

/-- What the parser guarantees for a result: the tree consists of the tokens read, the tokens left are not changed, the tree may
stand there, and the flag is what the specification says. -/
def Good : Job → List Tok → Bool → E → List Tok → Bool → Prop
  | .lev l, ts, f, e, r, f' => l ≤ 20 → ts = e.toks ++ r ∧ Fits (.lev l) e ∧ f' = entry l e f ∧
      (headIn [.DOUBLE_ARROW] r = true → e.endsYield = false)
  | .loop l acc, ts, f, e, r, f' => (lk l = .chain ∨ l = 19) → Fits (.lev l) acc → (headIn [.DOUBLE_ARROW] ts = true → acc.endsYield = false) →
      acc.toks ++ ts = e.toks ++ r ∧ Fits (.lev l) e ∧ (∀ f0, f = entry l acc f0 → f' = entry l e f0) ∧
      (headIn [.DOUBLE_ARROW] r = true → e.endsYield = false)
  | .prim, ts, f, e, r, f' => ts = e.toks ++ r ∧ Fits (.lev 20) e ∧ f' = e.mark f
  | .norm, ts, f, e, r, f' => ts = e.toks ++ r ∧ Fits .norm e ∧ f' = e.mark f
  | .vari, ts, f, e, r, f' => ts = e.toks ++ r ∧ Fits (.path .vari) e ∧ f' = e.raw f
  | .cvar, ts, f, e, r, f' => ts = e.toks ++ r ∧ Fits .cvar e ∧ f' = e.raw f
  | .pname, ts, f, e, r, f' => ts = e.toks ++ r ∧ Fits .pname e ∧ f' = e.raw f
  | .cref, ts, f, e, r, f' => ts = e.toks ++ r ∧ Fits (.path .cls) e ∧ f' = e.raw f
  | .newo, ts, f, e, r, f' => ts = e.toks ++ r ∧ Fits .newo e ∧ f' = e.raw f
  | .tail m acc, ts, f, e, r, f' =>
      (Fits (.path m) acc ∨ m = .vari ∧ headIn [.LPAREN] ts = true ∧ Callee acc) →
      acc.toks ++ ts = e.toks ++ r ∧ Fits (.path m) e ∧ ∀ f0, f = acc.raw f0 → f' = e.raw f0
  | .item a, ts, f, e, r, f' => ts = e.toks ++ r ∧ Fits (.item a) e ∧ f' = e.ent f
  | .items a _, ts, f, e, r, f' => ts = e.toks ++ r ∧ Fits (.items a) e ∧ f' = e.raw f
  | .items1 a _, ts, f, e, r, f' => ts = e.toks ++ r ∧ Fits (.items1 a) e ∧ f' = e.raw f
  | .vars b, ts, f, e, r, f' => ts = e.toks ++ r ∧ Fits (.vars b) e ∧ f' = e.raw f
  | .velem b, ts, f, e, r, f' => ts = e.toks ++ r ∧ Fits (.velem b) e ∧ f' = e.raw f
  | .parts, ts, f, e, r, f' => ts = e.toks ++ r ∧ Fits .parts e ∧ f' = e.raw f
  | .part, ts, f, e, r, f' => ts = e.toks ++ r ∧ Fits .part e ∧ f' = e.raw f

theorem lev_mark {l : Nat} {e : E} {f : Bool} (h : 5 ≤ l) : entry l e f = e.mark f := by
  unfold entry; rw [if_neg (by omega)]
theorem lev_mark0 {l : Nat} {e : E} {f : Bool} (h : l ≤ 4) : entry l e f = e.mark false := by
  unfold entry; rw [if_pos h]
theorem app1 {a b : List Tok} {k : Tok} : (a ++ [k]) ++ b = a ++ k :: b := by simp

theorem closure_ok {c : Cat} {e : E} (h : Fits c e) : ∀ t, e = .closure t → Closures.Ok t := by
  induction h with
  | closure t h => intro t' ht; cases ht; exact h
  | up _ _ _ _ ih | array _ _ ih | normal _ _ ih | new _ _ ih | const _ _ ih | string _ _ ih | created _ _ ih | «variable» _ _ ih
  | classVar _ _ ih | simple _ _ ih | nameVar _ _ ih | item _ _ _ ih | some _ _ _ ih | velem _ _ _ ih => exact ih
  | _ => intro t ht; cases ht

section
variable {p : Job → List Tok → Bool → R} (ih : ∀ j ts f, (p j ts f).sat (Good j ts f))
include ih

theorem args_good {r f c} {P : E → List Tok → Bool → Prop}
    (h : ∀ l r' , r = l.toks ++ .RPAREN :: r' → Fits (.items false) l → (c l r' (l.raw f)).sat P) : (argsStep p r f c).sat P := by
  unfold argsStep
  refine sat_bind (ih _ _ _) ?_
  rintro l r1 f1 ⟨rfl, h2, rfl⟩
  refine sat_expect fun r' hr => ?_
  subst hr
  exact h l r' rfl h2
theorem quoted_good {r f c k} {P : E → List Tok → Bool → Prop}
    (h : ∀ l r' , r = l.toks ++ k :: r' → Fits .parts l → (c l r' (l.raw f)).sat P) : (quoted p k r f c).sat P := by
  unfold quoted
  refine sat_bind (ih _ _ _) ?_
  rintro l r1 f1 ⟨rfl, h2, rfl⟩
  refine sat_expect fun r' hr => ?_
  subst hr
  exact h l r' rfl h2
/-- an expression and a token behind it -/
theorem expr_good {r f k} {c : E → List Tok → Bool → R} {P : E → List Tok → Bool → Prop}
    (h : ∀ e r', r = e.toks ++ k :: r' → Fits (.lev 0) e → (c e r' (e.mark false)).sat P) :
    ((p (.lev 0) r f).bind fun e r f => expect k r fun r => c e r f).sat P := by
  refine sat_bind (ih _ _ _) ?_
  intro e r1 f1 h1
  obtain ⟨rfl, h2, rfl, -⟩ := h1 (by omega)
  refine sat_expect fun r' hr => ?_
  subst hr
  exact h e r' rfl h2

theorem nonRest_good {l : Nat} (hl : l = 12 ∨ l = 13) {a r ts f0} (h1 : ts = a.toks ++ r) (h2 : Fits (.lev (l + 1)) a) :
    (nonRest p l a r (entry (l + 1) a f0)).sat (Good (.lev l) ts f0) := by
  subst h1
  have h5 : 5 ≤ l := by omega
  have hup : Fits (.lev l) a := .up _ _ (by omega) h2
  have self : (R.ok a r (entry (l + 1) a f0)).sat (Good (.lev l) (a.toks ++ r) f0) :=
    sat_ok fun _ => ⟨rfl, hup, entry_up (by omega) _ _, fun _ => strong_noYield h2 (by omega)⟩
  unfold nonRest
  refine sat_onTok self ?_
  rintro k r' rfl
  refine sat_ite (fun hk => ?_) fun _ => sat_ite (fun hk => ?_) fun _ => self
  · refine sat_map (ih _ _ _) ?_
    intro b r1 f1 hb _
    obtain ⟨rfl, h3, rfl, -⟩ := hb (by omega)
    have hp : Prec k l false := by
      rcases opsAt_prec.1 hk with h | h
      · exact prec_non h hl
      · exact h
    refine ⟨by simp [E.toks], .non _ _ _ _ hp h2 h3, ?_, fun _ => (strong_noYield h3 (by omega) : b.endsYield = false)⟩
    rw [bin_entry hp _ _ _ (by omega), entry_up (by omega) a]
  · refine sat_map (ih _ _ _) ?_
    rintro c r1 f1 ⟨rfl, h3, rfl⟩ _
    obtain ⟨rfl, rfl⟩ := hk
    refine ⟨by simp [E.toks], .inst _ _ h2 h3, ?_, fun _ => rfl⟩
    rw [lev_mark (by omega), lev_mark (by omega)]; rfl

theorem assignRest_good {a r ts f0} (h1 : ts = a.toks ++ r) (h2 : Fits (.lev 5) a) :
    (assignRest p a r (a.mark false)).sat (Good (.lev 4) ts f0) := by
  subst h1
  have self : (R.ok a r (a.mark false)).sat (Good (.lev 4) (a.toks ++ r) f0) :=
    sat_ok fun _ => ⟨rfl, .up _ _ (by omega) h2, rfl, fun _ => strong_noYield h2 (by omega)⟩
  unfold assignRest
  refine sat_onTok self ?_
  rintro k r' rfl
  refine sat_ite (fun hk => ?_) fun _ => self
  refine sat_ite (fun hf => ?_) fun _ => sat_err
  have hk' := assign_iff.1 hk
  refine sat_eat ?_ fun _ => ?_
  · rintro r rfl
    refine sat_ite (fun hk => ?_) fun _ => sat_err
    subst hk
    refine sat_ite (fun _ => ?_) fun _ => ?_
    · refine sat_map (ih _ _ _) ?_
      rintro c r1 f1 ⟨rfl, h3, rfl⟩ _
      exact ⟨by simp [E.toks], .assignNew _ _ h2 hf h3, rfl, fun _ => rfl⟩
    · refine sat_map (ih _ _ _) ?_
      rintro c r1 f1 ⟨rfl, h3, rfl⟩ _
      exact ⟨by simp [E.toks], .assignVar _ _ h2 hf h3, rfl, fun _ => rfl⟩
  · refine sat_map (ih _ _ _) ?_
    intro b r1 f1 hb _
    obtain ⟨rfl, h3, rfl, h4⟩ := hb (by omega)
    exact ⟨by simp [E.toks], .assign _ _ _ hk' h2 hf h3, rfl, h4⟩

theorem condRest_good {c r ts f0} (h1 : ts = c.toks ++ r) (h2 : Fits (.lev 6) c) :
    (condRest p c r (c.mark f0)).sat (Good (.lev 5) ts f0) := by
  subst h1
  unfold condRest
  refine sat_eat ?_ fun _ => sat_ok fun _ => ⟨rfl, .up _ _ (by omega) h2, rfl, fun _ => strong_noYield h2 (by omega)⟩
  rintro r rfl
  refine sat_eat ?_ fun _ => ?_
  · rintro r rfl
    refine sat_map (ih _ _ _) ?_
    intro b r1 f1 hb _
    obtain ⟨rfl, h3, rfl, -⟩ := hb (by omega)
    exact ⟨by simp [E.toks], .elvis _ _ h2 h3, rfl, fun _ => rfl⟩
  · refine expr_good ih ?_
    rintro a r' rfl h3
    refine sat_map (ih _ _ _) ?_
    intro b r1 f1 hb _
    obtain ⟨rfl, h4, rfl, -⟩ := hb (by omega)
    exact ⟨by simp [E.toks], .cond _ _ _ h2 h3 h4, rfl, fun _ => rfl⟩

theorem yieldRest_good {r f0} : (yieldRest p r).sat (Good (.lev 4) (.YIELD :: r) f0) := by
  unfold yieldRest
  refine sat_ite (fun _ => ?_) fun _ => sat_ok fun _ => ⟨rfl, .yield0, rfl, fun _ => rfl⟩
  refine sat_bind (ih _ _ _) ?_
  intro e r1 f1 h1
  obtain ⟨rfl, h2, rfl, h4⟩ := h1 (by omega)
  refine sat_eat ?_ fun hn => sat_ok fun _ => ⟨rfl, .yield _ h2, rfl, fun h => by rw [hn] at h; cases h⟩
  rintro r rfl
  refine sat_map (ih _ _ _) ?_
  intro v r1 f1 h1 _
  obtain ⟨rfl, h5, rfl, h6⟩ := h1 (by omega)
  exact ⟨by simp [E.toks], .yieldPair _ _ h2 (h4 (by simp [headIn])) h5, rfl, h6⟩

theorem unary_good {ts f} : (unaryStep p ts f).sat (Good (.lev 17) ts f) := by
  unfold unaryStep
  refine sat_uncons ?_
  rintro k r rfl
  refine sat_ite (fun hk => ?_) fun _ => sat_ite (fun hk => ?_) fun _ => sat_ite (fun hk => ?_) fun _ => sat_ite (fun hk => ?_) fun _ => ?_
  · refine sat_map (ih _ _ _) ?_
    intro e r1 f1 h1 _
    obtain ⟨rfl, h2, rfl, -⟩ := h1 (by omega)
    exact ⟨rfl, .unary _ _ (unary_iff.1 hk) h2, rfl, fun _ => rfl⟩
  · subst hk
    refine sat_expect ?_
    rintro r rfl
    refine sat_bind (ih _ _ _) ?_
    rintro l r1 f1 ⟨rfl, h2, rfl⟩
    refine sat_expect ?_
    rintro r rfl
    refine sat_expect ?_
    rintro r rfl
    refine sat_map (ih _ _ _) ?_
    intro e r1 f1 h1 _
    obtain ⟨rfl, h3, rfl, -⟩ := h1 (by omega)
    exact ⟨by simp [E.toks], .list _ _ h2 h3, rfl, fun _ => rfl⟩
  · subst hk
    refine sat_eat ?_ fun _ => sat_ok fun _ => ⟨rfl, .exit0, rfl, fun _ => rfl⟩
    rintro r rfl
    refine sat_eat ?_ fun _ => ?_
    · rintro r rfl
      exact sat_ok fun _ => ⟨rfl, .exitP, rfl, fun _ => rfl⟩
    · refine expr_good ih ?_
      rintro e r' rfl h2
      exact sat_ok fun _ => ⟨by simp [E.toks], .exitE _ h2, rfl, fun _ => rfl⟩
  · subst hk
    refine sat_expect ?_
    rintro r rfl
    refine expr_good ih ?_
    rintro e r' rfl h2
    exact sat_ok fun _ => ⟨by simp [E.toks], .eval _ h2, rfl, fun _ => rfl⟩
  · refine sat_mono (ih _ _ _) ?_
    intro e r1 f1 h1 _
    obtain ⟨h0, h2, rfl, h3⟩ := h1 (by omega)
    exact ⟨h0, .up _ _ (by omega) h2, rfl, h3⟩

theorem lev_good {l ts f} : (levStep p l ts f).sat (Good (.lev l) ts f) := by
  unfold levStep
  have hc := lk_cases l
  rcases hc with ⟨h, hl⟩ | ⟨h, hl⟩ | ⟨h, rfl⟩ | ⟨h, rfl⟩ | ⟨h, rfl⟩ | ⟨h, rfl⟩ | ⟨h, rfl⟩ | ⟨h, rfl⟩ | ⟨h, hl⟩ <;> rw [h] <;> dsimp only
  · refine sat_bind (ih _ _ _) ?_
    intro e r1 f1 h1
    obtain ⟨rfl, h2, rfl, h3⟩ := h1 (by omega)
    refine sat_mono (ih _ _ _) ?_
    intro e' r' f' hg _
    obtain ⟨h4, h5, h6, h7⟩ := hg (.inl h) (.up _ _ (by omega) h2) h3
    exact ⟨h4, h5, h6 _ (entry_up (by omega) _ _), h7⟩
  · refine sat_bind (ih _ _ _) ?_
    intro e r1 f1 h1
    obtain ⟨h0, h2, rfl, h3⟩ := h1 (by omega)
    exact nonRest_good ih hl h0 h2
  · refine sat_eat ?_ fun _ => ?_
    · rintro r rfl
      refine sat_map (ih _ _ _) ?_
      intro e r1 f1 h1 _
      obtain ⟨rfl, h2, rfl, h3⟩ := h1 (by omega)
      exact ⟨rfl, .print _ h2, rfl, h3⟩
    · refine sat_mono (ih _ _ _) ?_
      intro e r1 f1 h1 _
      obtain ⟨h0, h2, rfl, h3⟩ := h1 (by omega)
      exact ⟨h0, .up _ _ (by omega) h2, rfl, h3⟩
  · refine sat_eat ?_ fun _ => sat_eat ?_ fun _ => ?_
    · rintro r rfl
      exact yieldRest_good ih
    · rintro r rfl
      refine sat_map (ih _ _ _) ?_
      intro e r1 f1 h1 _
      obtain ⟨rfl, h2, rfl, h3⟩ := h1 (by omega)
      exact ⟨rfl, .yieldFrom _ h2, rfl, h3⟩
    · refine sat_bind (ih _ _ _) ?_
      intro e r1 f1 h1
      obtain ⟨h0, h2, rfl, h3⟩ := h1 (by omega)
      exact assignRest_good ih h0 h2
  · refine sat_bind (ih _ _ _) ?_
    intro e r1 f1 h1
    obtain ⟨h0, h2, rfl, h3⟩ := h1 (by omega)
    exact condRest_good ih h0 h2
  · exact unary_good ih
  · refine sat_uncons ?_
    rintro k r rfl
    refine sat_ite (fun hk => ?_) fun _ => ?_
    · refine sat_map (ih _ _ _) ?_
      intro e r1 f1 h1 _
      obtain ⟨rfl, h2, rfl, -⟩ := h1 (by omega)
      exact ⟨rfl, .pre _ _ (incDec_iff.1 hk) h2, rfl, fun _ => rfl⟩
    · refine sat_mono (ih _ _ _) ?_
      intro e r1 f1 h1 _
      obtain ⟨h0, h2, rfl, h3⟩ := h1 (by omega)
      exact ⟨h0, .up _ _ (by omega) h2, rfl, h3⟩
  · refine sat_bind (ih _ _ _) ?_
    intro e r1 f1 h1
    obtain ⟨rfl, h2, rfl, h3⟩ := h1 (by omega)
    refine sat_mono (ih _ _ _) ?_
    intro e' r' f' hg _
    obtain ⟨h4, h5, h6, h7⟩ := hg (.inr rfl) (.up _ _ (by omega) h2) h3
    exact ⟨h4, h5, h6 _ (entry_up (by omega) _ _), h7⟩
  · refine sat_mono (ih _ _ _) ?_
    rintro e r1 f1 ⟨h1, h2, h3⟩ h20
    obtain rfl : l = 20 := by omega
    exact ⟨h1, h2, h3, fun _ => strong_noYield h2 (by omega)⟩

theorem loop_good {l acc ts f} : (loopStep p l acc ts f).sat (Good (.loop l acc) ts f) := by
  unfold loopStep
  have self : (R.ok acc ts f).sat (Good (.loop l acc) ts f) := sat_ok fun _ h2 h3 => ⟨rfl, h2, fun _ h => h, h3⟩
  refine sat_onTok self ?_
  rintro k r rfl
  refine sat_ite (fun hl => sat_ite (fun hk => ?_) fun _ => self) fun _ => sat_ite (fun hk => ?_) fun _ => self
  · subst hl
    refine sat_mono (ih _ _ _) ?_
    intro e r1 f1 h1 _ h2 h3
    have hp : Fits (.lev 19) (.post acc k) := .post _ _ (incDec_iff.1 hk) h2
    obtain ⟨h4, h5, h6, h7⟩ := h1 (.inr rfl) hp fun _ => rfl
    refine ⟨?_, h5, fun f0 hf => h6 f0 ?_, h7⟩
    · rw [← h4]; simp [E.toks]
    · rw [hf]; rfl
  · refine sat_bind (ih _ _ _) ?_
    intro b r1 f1 h1
    refine sat_mono (ih _ _ _) ?_
    intro e r2 f2 h2 hl hacc h3
    have hlt : lk l = .chain ∧ l ≤ 16 ∧ l ≠ 4 := by
      rcases hl with hl | rfl
      · rcases lk_cases l with ⟨h, hl'⟩ | ⟨h, hl'⟩ | ⟨h, hl'⟩ | ⟨h, hl'⟩ | ⟨h, hl'⟩ | ⟨h, hl'⟩ | ⟨h, hl'⟩ | ⟨h, hl'⟩ | ⟨h, hl'⟩ <;>
          first | exact ⟨hl, by omega⟩ | (rw [h] at hl; cases hl)
      · contradiction
    obtain ⟨rfl, h5, rfl, h6⟩ := h1 (by omega)
    have hp : Prec k l true := by
      rcases opsAt_prec.1 hk with h | h
      · exact h
      · exact prec_chain h hlt.1
    obtain ⟨h7, h8, h9, h10⟩ := h2 (.inl hlt.1) (.left _ _ _ _ hp hacc h5) h6
    refine ⟨?_, h8, fun f0 hf => h9 f0 ?_, h10⟩
    · rw [← h7]; simp [E.toks]
    · rw [bin_entry hp _ _ _ hlt.2.2, hf]

theorem prim_good {ts f} : (primStep p ts f).sat (Good .prim ts f) := by
  unfold primStep
  refine sat_uncons ?_
  rintro k r rfl
  refine sat_ite (fun hk => ?_) fun _ => sat_ite (fun hk => ?_) fun _ => ?_
  · subst hk
    refine sat_expect ?_
    rintro r rfl
    refine sat_bind (ih _ _ _) ?_
    rintro l r1 f1 ⟨rfl, h2, rfl⟩
    refine sat_expect ?_
    rintro r rfl
    refine sat_mono (ih _ _ _) ?_
    intro e r1 f1 h1
    obtain ⟨h3, h4, h5⟩ := h1 (.inl (.arr _ _ h2))
    refine ⟨by rw [← h3]; simp [E.toks], .array _ h4, ?_⟩
    rw [path_mark h4 (by simp)]; exact h5 _ rfl
  · subst hk
    refine sat_bind (ih _ _ _) ?_
    rintro l r1 f1 ⟨rfl, h2, rfl⟩
    refine sat_expect ?_
    rintro r rfl
    refine sat_mono (ih _ _ _) ?_
    intro e r1 f1 h1
    obtain ⟨h3, h4, h5⟩ := h1 (.inl (.arr _ _ h2))
    refine ⟨by rw [← h3]; simp [E.toks], .array _ h4, ?_⟩
    rw [path_mark h4 (by simp)]; exact h5 _ rfl
  · refine sat_mono (ih _ _ _) ?_
    rintro e r1 f1 ⟨h1, h2, h3⟩
    exact ⟨h1, .normal _ h2, h3⟩

theorem const_good {ts f} : (constStep p ts f).sat (Good .norm ts f) := by
  unfold constStep
  refine sat_onName ?_ sat_err
  rintro g n r rfl
  have fin : ∀ {e f'} (h : Fits (.path .dim) e), f' = e.raw f → f' = e.mark f := fun h hf => by rw [path_mark h (by simp)]; exact hf
  refine sat_eat ?_ fun _ => ?_
  · rintro r rfl
    refine sat_uncons ?_
    rintro k r rfl
    refine sat_ite (fun hk => ?_) fun _ => sat_err
    refine sat_mono (ih _ _ _) ?_
    intro e r1 f1 h1
    obtain ⟨h3, h4, h5⟩ := h1 (.inl (.classConst _ _ _ (words_iff.1 hk)))
    exact ⟨by rw [← h3]; simp [E.toks], .const _ h4, fin h4 (h5 _ rfl)⟩
  · refine sat_mono (ih _ _ _) ?_
    intro e r1 f1 h1
    obtain ⟨h3, h4, h5⟩ := h1 (.inl (.constName _ _))
    exact ⟨by rw [← h3]; simp [E.toks], .const _ h4, fin h4 (h5 _ rfl)⟩

theorem paren_good {r f} : (parenStep p r f).sat (Good .norm (.LPAREN :: r) f) := by
  unfold parenStep
  refine expr_good ih ?_
  rintro e r' rfl h2
  refine sat_ite (fun hn => ?_) fun hn => ?_
  · refine sat_bind (ih _ _ _) ?_
    rintro e' r1 f1 ⟨h3, h4, rfl⟩
    rw [h3]
    refine sat_expect ?_
    rintro r rfl
    refine sat_mono (ih _ _ _) ?_
    intro e2 r2 f2 h1
    obtain ⟨h5, h6, h7⟩ := h1 (.inl (.parenNew _ h4))
    refine ⟨by rw [← h5]; simp [E.toks], .created _ h6, ?_⟩
    rw [path_mark h6 (by simp)]
    refine h7 _ ?_
    simp [E.raw, newo_isNew h4]
  · have hn' : e.isNew = false := by simpa using hn
    have self : (R.ok (.paren e) r' (e.mark false)).sat (Good .norm (.LPAREN :: (e.toks ++ .RPAREN :: r')) f) := by
      refine sat_ok ⟨by simp [E.toks], .paren _ h2 hn', ?_⟩
      simp [E.mark, E.raw, E.isVar, hn']
    refine sat_ite (fun hp => ?_) fun _ => self
    refine sat_eat ?_ fun _ => self
    rintro r rfl
    refine args_good ih ?_
    rintro l r1 rfl h3
    unfold E.isPlainClosure at hp
    split at hp
    · rename_i t
      exact sat_ok ⟨by simp [E.toks], .iife _ _ (closure_ok h2 _ rfl) h3, rfl⟩
    · cases hp

theorem norm_good {ts f} : (normStep p ts f).sat (Good .norm ts f) := by
  unfold normStep
  refine sat_uncons ?_
  rintro k r rfl
  refine sat_ite (fun hk => ?_) fun _ => sat_ite (fun hk => ?_) fun _ => sat_ite (fun hk => ?_) fun _ => sat_ite (fun hk => ?_) fun _ =>
    sat_ite (fun hk => ?_) fun _ => sat_ite (fun hk => ?_) fun _ => sat_ite (fun hk => ?_) fun _ => sat_ite (fun hk => ?_) fun _ =>
    sat_ite (fun hk => ?_) fun _ => sat_ite (fun hk => ?_) fun _ => sat_ite (fun hk => ?_) fun _ => sat_ite (fun hk => ?_) fun _ => ?_
  · exact sat_ok ⟨rfl, .scalar _ (scalar_iff.1 hk), rfl⟩
  · refine sat_orElse (sat_setVar (ih _ _ _) ?_) (const_good ih)
    rintro e r1 f1 ⟨h1, h2, h3⟩
    exact ⟨h1, .variable _ h2, (isVar_mark (vari_isVar h2) _).symm⟩
  · subst hk
    refine sat_mono (ih _ _ _) ?_
    intro e r1 f1 h1
    obtain ⟨h3, h4, h5⟩ := h1 (.inl .literal)
    refine ⟨by rw [← h3]; rfl, .string _ h4, ?_⟩
    rw [path_mark h4 (by simp)]; exact h5 _ rfl
  · subst hk
    refine sat_expect ?_
    rintro r rfl
    refine sat_expect ?_
    rintro r rfl
    exact sat_ok ⟨rfl, .nowdoc, rfl⟩
  · subst hk
    refine quoted_good ih ?_
    rintro l r' rfl h2
    refine sat_mono (ih _ _ _) ?_
    intro e r1 f1 h1
    obtain ⟨h3, h4, h5⟩ := h1 (.inl (.quoted _ h2))
    refine ⟨by rw [← h3]; simp [E.toks, closing], .string _ h4, ?_⟩
    rw [path_mark h4 (by simp)]; exact h5 _ rfl
  · subst hk
    refine quoted_good ih ?_
    rintro l r' rfl h2
    exact sat_ok ⟨by simp [E.toks, closing], .heredoc _ h2, rfl⟩
  · subst hk
    refine quoted_good ih ?_
    rintro l r' rfl h2
    exact sat_ok ⟨by simp [E.toks, closing], .backtick _ h2, rfl⟩
  · subst hk
    exact paren_good ih
  · subst hk
    refine sat_expect ?_
    rintro r rfl
    refine sat_bind (ih _ _ _) ?_
    rintro l r1 f1 ⟨rfl, h2, rfl⟩
    refine sat_expect ?_
    rintro r rfl
    exact sat_ok ⟨by simp [E.toks], .isset _ h2, rfl⟩
  · subst hk
    refine sat_expect ?_
    rintro r rfl
    refine expr_good ih ?_
    rintro e r' rfl h2
    exact sat_ok ⟨by simp [E.toks], .empty _ h2, rfl⟩
  · refine sat_mono (ih _ _ _) ?_
    rintro e r1 f1 ⟨h1, h2, h3⟩
    exact ⟨h1, .new _ h2, by rw [newo_mark h2]; exact h3⟩
  · subst hk
    refine sat_map (ih _ _ _) ?_
    rintro e r1 f1 ⟨rfl, h2, rfl⟩
    exact ⟨rfl, .clone _ h2, rfl⟩
  · unfold onClosure
    split
    · rename_i t r' hr
      obtain ⟨h1, h2⟩ := Closures.sound hr
      exact sat_ok ⟨h1, .closure _ h2, rfl⟩
    · exact sat_err

theorem vari_good {ts f} : (variStep p ts f).sat (Good .vari ts f) := by
  unfold variStep
  refine sat_onName ?_ ?_
  · rintro g n r rfl
    refine sat_uncons ?_
    rintro k r rfl
    refine sat_ite (fun hk => ?_) fun _ => sat_ite (fun hk => ?_) fun _ => sat_err
    · subst hk
      refine sat_mono (ih _ _ _) ?_
      intro e r1 f1 h1
      obtain ⟨h3, h4, h5⟩ := h1 (.inr ⟨rfl, rfl, .name _ _⟩)
      exact ⟨h3, h4, h5 _ rfl⟩
    · subst hk
      refine sat_uncons ?_
      rintro k r rfl
      refine sat_ite (fun hk => sat_ite (fun hh => ?_) fun _ => sat_err) fun _ => sat_ite (fun hk => ?_) fun _ => ?_
      · refine sat_mono (ih _ _ _) ?_
        intro e r1 f1 h1
        obtain ⟨h3, h4, h5⟩ := h1 (.inr ⟨rfl, hh, .cconst _ _ _ (words_iff.1 hk)⟩)
        exact ⟨by rw [← h3]; simp [E.toks], h4, h5 _ rfl⟩
      · subst hk
        refine expr_good ih ?_
        rintro e r' rfl h2
        refine sat_ite (fun hh => ?_) fun _ => sat_err
        refine sat_mono (ih _ _ _) ?_
        intro e2 r1 f1 h1
        obtain ⟨h3, h4, h5⟩ := h1 (.inr ⟨rfl, hh, .sdyn _ _ _ h2⟩)
        exact ⟨by rw [← h3]; simp [E.toks], h4, h5 _ rfl⟩
      · refine sat_bind (ih _ _ _) ?_
        rintro v r1 f1 ⟨h1, h2, rfl⟩
        refine sat_mono (ih _ _ _) ?_
        intro e r2 f2 h3
        obtain ⟨h4, h5, h6⟩ := h3 (.inl (.staticVar _ _ _ h2))
        exact ⟨by rw [← h4, h1]; simp [E.toks], h5, h6 _ rfl⟩
  · refine sat_bind (ih _ _ _) ?_
    rintro v r1 f1 ⟨rfl, h2, rfl⟩
    refine sat_mono (ih _ _ _) ?_
    intro e r2 f2 h3
    obtain ⟨h4, h5, h6⟩ := h3 (.inl (.simple _ h2))
    exact ⟨h4, h5, h6 _ rfl⟩

theorem cvar_good {ts f} : (cvarStep p ts f).sat (Good .cvar ts f) := by
  unfold cvarStep
  refine sat_uncons ?_
  rintro k r rfl
  refine sat_ite (fun hk => ?_) fun _ => sat_ite (fun hk => ?_) fun _ => sat_err
  · subst hk
    exact sat_ok ⟨rfl, .var, rfl⟩
  · subst hk
    have hd := dollars_sound r
    generalize (dollars r).1 = n at hd ⊢
    generalize (dollars r).2 = r2 at hd ⊢
    subst hd
    refine sat_uncons ?_
    rintro k r rfl
    refine sat_ite (fun hk => ?_) fun _ => sat_ite (fun hk => ?_) fun _ => sat_err
    · subst hk
      exact sat_ok ⟨by simp [E.toks, List.replicate_succ], .vvar _, rfl⟩
    · subst hk
      refine expr_good ih ?_
      rintro e r' rfl h2
      exact sat_ok ⟨by simp [E.toks, List.replicate_succ], .dyn _ _ h2, rfl⟩

theorem pname_good {ts f} : (pnameStep p ts f).sat (Good .pname ts f) := by
  unfold pnameStep
  refine sat_uncons ?_
  rintro k r rfl
  refine sat_ite (fun hk => ?_) fun _ => sat_ite (fun hk => ?_) fun _ => ?_
  · subst hk
    exact sat_ok ⟨rfl, .id, rfl⟩
  · subst hk
    refine expr_good ih ?_
    rintro e r' rfl h2
    exact sat_ok ⟨by simp [E.toks], .curly _ h2, rfl⟩
  · refine sat_mono (ih _ _ _) ?_
    rintro e r1 f1 ⟨h1, h2, h3⟩
    exact ⟨h1, .nameVar _ h2, h3⟩

theorem cref_good {ts f} : (crefStep p ts f).sat (Good .cref ts f) := by
  unfold crefStep
  refine sat_onName ?_ (sat_eat ?_ fun _ => ?_)
  · rintro g n r rfl
    refine sat_mono (ih _ _ _) ?_
    intro e r1 f1 h1
    obtain ⟨h3, h4, h5⟩ := h1 (.inl (.className _ _))
    exact ⟨h3, h4, h5 _ rfl⟩
  · rintro r rfl
    refine sat_mono (ih _ _ _) ?_
    intro e r1 f1 h1
    obtain ⟨h3, h4, h5⟩ := h1 (.inl .classStatic)
    exact ⟨h3, h4, h5 _ rfl⟩
  · refine sat_bind (ih _ _ _) ?_
    rintro v r1 f1 ⟨rfl, h2, rfl⟩
    refine sat_mono (ih _ _ _) ?_
    intro e r2 f2 h3
    obtain ⟨h4, h5, h6⟩ := h3 (.inl (.classVar _ h2))
    exact ⟨h4, h5, h6 _ rfl⟩

theorem newo_good {ts f} : (newoStep p ts f).sat (Good .newo ts f) := by
  unfold newoStep
  refine sat_expect ?_
  rintro r rfl
  refine sat_bind (ih _ _ _) ?_
  rintro c r1 f1 ⟨rfl, h2, rfl⟩
  refine sat_eat ?_ fun _ => sat_ok ⟨rfl, .newBare _ h2, rfl⟩
  rintro r rfl
  refine args_good ih ?_
  rintro l r' rfl h3
  exact sat_ok ⟨by simp [E.toks], .newArgs _ _ h2 h3, rfl⟩

omit ih in
theorem callee_called {e : E} (h : Callee e) : ¬ Called e := by cases h <;> (intro hc; cases hc)
omit ih in
theorem bracesOk_iff {m : Mode} {e : E} (h : Fits (.path m) e) : bracesOk m e = true → ¬ Fresh m e ∧ ¬ Called e ∧ m ≠ .arr ∧ m ≠ .str := by
  rw [← fresh_false, ← called_false]
  have hc : m ≠ .vari → m ≠ .inst → called e = false := fun h1 h2 => called_false.2 ((path_facts h _ rfl).2.2.1 h1 h2)
  cases m <;> simp [bracesOk] <;> first | (intro a b; simp [a, b]; done) | (intro a; simp [a, hc]; done) | simp [hc, fresh]

theorem tail_good {m acc ts f} : (tailStep p m acc ts f).sat (Good (.tail m acc) ts f) := by
  unfold tailStep
  have self : (m = .vari → headIn [.LPAREN] ts = true → ¬ Callee acc) → (R.ok acc ts f).sat (Good (.tail m acc) ts f) := fun h => sat_ok fun h' => by
    rcases h' with h' | ⟨h1, h2, h3⟩
    · exact ⟨rfl, h', fun _ h => h⟩
    · exact absurd h3 (h h1 h2)
  have next : ∀ {acc' : E} {ts' f'}, acc.toks ++ ts = acc'.toks ++ ts' →
      ((Fits (.path m) acc ∨ m = .vari ∧ headIn [.LPAREN] ts = true ∧ Callee acc) → Fits (.path m) acc') →
      (∀ f0, f = acc.raw f0 → f' = acc'.raw f0) → (p (.tail m acc') ts' f').sat (Good (.tail m acc) ts f) := by
    intro acc' ts' f' htoks hfit hraw
    refine sat_mono (ih _ _ _) ?_
    intro e r1 f1 h1 hacc
    obtain ⟨h2, h3, h4⟩ := h1 (.inl (hfit hacc))
    exact ⟨htoks ▸ h2, h3, fun f0 hf => h4 f0 (hraw f0 hf)⟩
  refine sat_onTok0 (fun h0 => self fun _ h => by rw [h0] at h; cases h) ?_
  rintro k r rfl
  have fits : k ≠ .LPAREN → (Fits (.path m) acc ∨ m = .vari ∧ headIn [.LPAREN] (k :: r) = true ∧ Callee acc) → Fits (.path m) acc := by
    rintro hk (h | ⟨-, h, -⟩)
    · exact h
    · obtain ⟨_, h⟩ := headIn_one.1 h; cases h; exact absurd rfl hk
  refine sat_ite (fun hk => ?_) fun _ => sat_ite (fun hk => ?_) fun _ => sat_ite (fun hk => ?_) fun hc => sat_ite (fun hk => ?_) fun _ => ?_
  · obtain ⟨rfl, hf⟩ := hk
    refine sat_eat ?_ fun _ => ?_
    · rintro r rfl
      refine sat_ite (fun _ => sat_err) fun hm => ?_
      exact next (by simp [E.toks]) (fun h => .index0 _ _ (fits (by simp) h) (fresh_false.1 hf) hm) fun _ h => h
    · refine expr_good ih ?_
      rintro i r' rfl h2
      exact next (by simp [E.toks]) (fun h => .index _ _ _ (fits (by simp) h) (fresh_false.1 hf) h2) fun _ h => rfl
  · obtain ⟨rfl, hf⟩ := hk
    refine expr_good ih ?_
    rintro i r' rfl h2
    refine next (by simp [E.toks]) (fun h => ?_) fun _ h => rfl
    have h := fits (by simp) h
    obtain ⟨h3, h4, h5, h6⟩ := bracesOk_iff h hf
    exact .cindex _ _ _ h h3 h4 h5 h6 h2
  · obtain ⟨rfl, hf⟩ := hk
    refine args_good ih ?_
    rintro l r' rfl h2
    refine next (by simp [E.toks]) (fun h => ?_) fun _ h => by rw [h]; rfl
    rcases h with h | ⟨rfl, -, h⟩
    · have hm : m = .vari ∨ m = .inst := by cases m <;> simp [callOk] at hf ⊢
      have hff : called acc = false ∧ fresh m acc = false := by rcases hm with rfl | rfl <;> simpa [callOk] using hf
      exact .call _ _ _ h (fresh_false.1 hff.2) (called_false.1 hff.1) hm h2
    · cases h with
      | name g n => exact .function _ _ _ h2
      | cconst g n k hk => exact .method _ _ _ _ hk h2
      | sdyn g n e he => exact .dynMethod _ _ _ _ he h2
  · have hk' : k = .OBJECT_OPERATOR ∨ k = .PAAMAYIM_NEKUDOTAYIM := by
      cases m <;> simp [memberOk] at hk <;> first | exact hk | (exact .inl hk) | (rcases hk with hk | ⟨hk, -⟩ <;> simp [hk])
    have hne : k ≠ .LPAREN := by rcases hk' with rfl | rfl <;> simp
    refine sat_ite (fun hm => ?_) fun hm => ?_
    · obtain ⟨rfl, rfl⟩ := hm
      refine sat_bind (ih _ _ _) ?_
      rintro v r1 f1 ⟨rfl, h2, rfl⟩
      exact next (by simp [E.toks]) (fun h => .classScope _ _ (fits hne h) h2) fun _ h => by rw [h]; rfl
    · refine sat_bind (ih _ _ _) ?_
      rintro v r1 f1 ⟨rfl, h2, rfl⟩
      refine next (by simp [E.toks]) (fun h => ?_) fun _ h => by rw [h]; rfl
      have hp := fits hne h
      cases m <;> simp [memberOk] at hk hm
      · rcases hk with rfl | rfl
        · exact .arrow _ _ _ hp (.inl rfl) h2
        · exact .scope _ _ hp h2
      · subst hk; exact .arrow _ _ _ hp (.inr (.inl rfl)) h2
      · rcases hk with rfl | ⟨rfl, hf⟩
        · exact absurd rfl hm
        · exact .arrow _ _ _ hp (.inr (.inr ⟨rfl, fresh_false.1 hf⟩)) h2
  · refine self fun hm hh hcal => hc ⟨?_, ?_⟩
    · obtain ⟨_, h⟩ := headIn_one.1 hh; cases h; rfl
    · subst hm; simp [callOk, called_false.2 (callee_called hcal), fresh]

theorem item_good {a ts f} : (itemStep p a ts f).sat (Good (.item a) ts f) := by
  unfold itemStep
  refine sat_eat ?_ fun _ => sat_ite (fun ha => ?_) fun ha => ?_
  · rintro r rfl
    refine sat_map (ih _ _ _) ?_
    rintro e r1 f1 ⟨rfl, h2, rfl⟩
    exact ⟨rfl, .byRef _ _ h2, rfl⟩
  · subst ha
    refine sat_bind (ih _ _ _) ?_
    intro k r1 f1 h1
    obtain ⟨rfl, h2, rfl, h3⟩ := h1 (by omega)
    refine sat_eat ?_ fun _ => sat_ok ⟨rfl, .item _ _ h2, by rw [lev_ent h2]; rfl⟩
    rintro r rfl
    have hy := h3 rfl
    refine sat_eat ?_ fun _ => ?_
    · rintro r rfl
      refine sat_map (ih _ _ _) ?_
      rintro e r1 f1 ⟨rfl, h4, rfl⟩
      exact ⟨by simp [E.toks], .pairRef _ _ h2 hy h4, rfl⟩
    · refine sat_map (ih _ _ _) ?_
      intro v r1 f1 h1
      obtain ⟨rfl, h4, rfl, -⟩ := h1 (by omega)
      refine ⟨by simp [E.toks], .pair _ _ h2 hy h4, ?_⟩
      have hi : v.isItem = false := (oper_facts h4).1 (.inr (.inr ⟨_, rfl⟩))
      show _ = E.raw (.pair k v) f
      simp only [E.raw, hi]; rfl
  · obtain rfl : a = false := by simpa using ha
    refine sat_eat ?_ fun _ => ?_
    · rintro r rfl
      refine sat_map (ih _ _ _) ?_
      intro v r1 f1 h1
      obtain ⟨rfl, h4, rfl, -⟩ := h1 (by omega)
      exact ⟨rfl, .spread _ h4, rfl⟩
    · refine sat_mono (ih _ _ _) ?_
      intro v r1 f1 h1
      obtain ⟨h0, h4, rfl, -⟩ := h1 (by omega)
      exact ⟨h0, .item _ _ h4, by rw [lev_ent h4]; rfl⟩

theorem items1_good {a c ts f} : (items1Step p a c ts f).sat (Good (.items1 a c) ts f) := by
  unfold items1Step
  refine sat_bind (ih _ _ _) ?_
  rintro e r1 f1 ⟨rfl, h2, rfl⟩
  refine sat_eat ?_ fun _ => sat_ok ⟨rfl, .last _ _ h2, rfl⟩
  rintro r rfl
  refine sat_ite (fun _ => ?_) fun _ => ?_
  · exact sat_ok ⟨by simp [E.toks], .lastComma _ _ h2, rfl⟩
  · refine sat_map (ih _ _ _) ?_
    rintro l r1 f1 ⟨rfl, h3, rfl⟩
    exact ⟨by simp [E.toks], .more _ _ _ h2 h3, rfl⟩

theorem velem_good {b ts f} : (velemStep p b ts f).sat (Good (.velem b) ts f) := by
  unfold velemStep
  refine sat_ite (fun _ => ?_) fun _ => sat_ite (fun hb => ?_) fun _ => sat_err
  · refine sat_mono (ih _ _ _) ?_
    rintro e r1 f1 ⟨h1, h2, h3⟩
    exact ⟨h1, .velem _ _ h2, h3⟩
  · subst hb
    refine sat_eat ?_ fun _ => sat_ok ⟨rfl, .vnone, rfl⟩
    rintro r rfl
    refine sat_expect ?_
    rintro r rfl
    refine sat_bind (ih _ _ _) ?_
    rintro l r1 f1 ⟨rfl, h2, rfl⟩
    refine sat_expect ?_
    rintro r rfl
    exact sat_ok ⟨by simp [E.toks], .vlists _ h2, rfl⟩

theorem pexpr_good {k r f} (hk : k = .CURLY_OPEN ∨ k = .DOLLAR_OPEN_CURLY_BRACES) : (pexprStep p k r f).sat (Good .part (k :: r) f) := by
  unfold pexprStep
  refine expr_good ih ?_
  rintro e r' rfl h2
  rcases hk with rfl | rfl
  · exact sat_ok ⟨by simp [E.toks], .pcurly _ h2, rfl⟩
  · exact sat_ok ⟨by simp [E.toks], .pdollar _ h2, rfl⟩

theorem part_good {ts f} : (partStep p ts f).sat (Good .part ts f) := by
  unfold partStep
  refine sat_uncons ?_
  rintro k r rfl
  refine sat_ite (fun hk => ?_) fun _ => sat_ite (fun hk => ?_) fun _ => sat_ite (fun hk => ?_) fun _ => sat_ite (fun hk => ?_) fun _ => sat_err
  · subst hk
    exact sat_ok ⟨rfl, .ptext, rfl⟩
  · subst hk
    refine sat_eat ?_ fun _ => sat_eat ?_ fun _ => sat_ok ⟨rfl, .pvar, rfl⟩
    · rintro r rfl
      refine sat_expect ?_
      rintro r rfl
      exact sat_ok ⟨rfl, .pprop, rfl⟩
    · rintro r rfl
      refine sat_uncons ?_
      rintro k r rfl
      refine sat_ite (fun hk => ?_) fun _ => sat_err
      refine sat_expect ?_
      rintro r rfl
      exact sat_ok ⟨rfl, .poff _ (offset_iff.1 hk), rfl⟩
  · exact pexpr_good ih (.inl hk)
  · refine sat_eat ?_ fun _ => pexpr_good ih (.inr hk)
    rintro r1 rfl
    refine sat_eat ?_ fun _ => pexpr_good ih (.inr hk)
    rintro r rfl
    subst hk
    refine sat_eat ?_ fun _ => ?_
    · rintro r rfl
      refine sat_expect ?_
      rintro r rfl
      exact sat_ok ⟨rfl, .pvname0, rfl⟩
    · refine expr_good ih ?_
      rintro e r' rfl h2
      refine sat_expect ?_
      rintro r rfl
      exact sat_ok ⟨by simp [E.toks], .pvname _ h2, rfl⟩

theorem step_good (j : Job) (ts : List Tok) (f : Bool) : (step p j ts f).sat (Good j ts f) := by
  cases j with
  | lev l => exact lev_good ih
  | loop l acc => exact loop_good ih
  | prim => exact prim_good ih
  | norm => exact norm_good ih
  | vari => exact vari_good ih
  | cvar => exact cvar_good ih
  | pname => exact pname_good ih
  | cref => exact cref_good ih
  | newo => exact newo_good ih
  | tail m acc => exact tail_good ih
  | item a => exact item_good ih
  | items a c =>
    refine sat_ite (fun _ => sat_ok ⟨rfl, .nil _, rfl⟩) fun _ => sat_mono (ih _ _ _) ?_
    rintro e r1 f1 ⟨h1, h2, h3⟩
    exact ⟨h1, .some _ _ h2, h3⟩
  | items1 a c => exact items1_good ih
  | vars b =>
    refine sat_bind (ih _ _ _) ?_
    rintro e r1 f1 ⟨rfl, h2, rfl⟩
    refine sat_eat ?_ fun _ => sat_ok ⟨rfl, .vlast _ _ h2, rfl⟩
    rintro r rfl
    refine sat_map (ih _ _ _) ?_
    rintro l r1 f1 ⟨rfl, h3, rfl⟩
    exact ⟨by simp [E.toks], .vmore _ _ _ h2 h3, rfl⟩
  | velem b => exact velem_good ih
  | parts =>
    refine sat_ite (fun _ => ?_) fun _ => sat_ok ⟨rfl, .pnil, rfl⟩
    refine sat_bind (ih _ _ _) ?_
    rintro e r1 f1 ⟨rfl, h2, rfl⟩
    refine sat_map (ih _ _ _) ?_
    rintro l r1 f1 ⟨rfl, h3, rfl⟩
    exact ⟨by simp [E.toks], .part _ _ h2 h3, rfl⟩
  | part => exact part_good ih
end

/-- The parser reads what it returns. -/
theorem run_good (n : Nat) : ∀ j ts f, (run n j ts f).sat (Good j ts f) := by
  induction n with
  | zero => intro j ts f e r f' h; cases h
  | succ n ih => intro j ts f; exact step_good ih j ts f
end
end KPhp.Grammar
