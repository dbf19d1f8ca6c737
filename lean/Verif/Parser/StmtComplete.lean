import Verif.Parser.StmtGrammar
/-
# Every file of the grammar is read, as its tree

The other half of `StmtGrammar.lean`: the parser reads the text of every tree of the grammar, and needs no more depth than the
text is long.
-/
namespace KPhp.Stmt
set_option linter.unusedVariables false
set_option linter.unusedSectionVars false
set_option linter.unusedSimpArgs false
open KPhp (Tok)
open KPhp.Grammar (headIn E Closures)
variable [Closures]

theorem andThen_some {α β} {p : P α} {q : P β} {ts r1 r : List Tok} {a : α} {b : β} (h1 : p ts = some (a, r1)) (h2 : q r1 = some (b, r)) :
    andThen p q ts = some ((a, b), r) := by
  simp only [andThen, h1, h2, Option.bind_eq_bind, Option.bind_some, Option.pure_def]
theorem bindP_some {α β} {p : P α} {q : α → P β} {ts r1 r : List Tok} {a : α} {b : β} (h1 : p ts = some (a, r1)) (h2 : q a r1 = some (b, r)) :
    bindP p q ts = some ((a, b), r) := by
  simp only [bindP, h1, h2, Option.bind_eq_bind, Option.bind_some, Option.pure_def]
theorem pre_some {α} {p : P α} {k : Tok} {ts r : List Tok} {a : α} (h : p ts = some (a, r)) : pre k p (k :: ts) = some (a, r) := by
  simp only [pre, skip_cons, h, Option.bind_eq_bind, Option.bind_some]
theorem post_some {α} {p : P α} {k : Tok} {ts r : List Tok} {a : α} (h : p ts = some (a, k :: r)) : post p k ts = some (a, r) := by
  simp only [post, h, skip_cons, Option.bind_eq_bind, Option.bind_some, Option.pure_def]

/-- how deep a tree is -/
def S.depth : S → Nat
  | .line _ | .halt | .nsLine _ | .noElse | .noCatch | .nil | .member _ | .abstr _ => 1
  | .block b | .ifs _ b | .loop _ b | .alt b _ _ | .switch _ b | .braces _ b | .colon _ b _ | .do_ b _ _ | .func _ b | .cls _ b
  | .nsBlock _ b | .els b | .elsAlt b | .case_ _ _ b | .fin b | .method _ b => b.depth + 1
  | .plain a b | .altIf a b _ | .try_ a b | .elif _ a b | .elifAlt _ a b | .catch_ _ a b | .cons a b => max a.depth b.depth + 1

/-- what may follow a tree -/
def Follow (s : S) (r : List Tok) : Prop := (s.isOpen = true → NotIn [.ELSEIF, .ELSE] r) ∧ NotIn [.CATCH, .FINALLY] r
def Fol : Cat → S → List Tok → Prop
  | .stmt, s, r | .top, s, r | .outer, s, r | .ifBody, s, r | .rest, s, r | .catches, s, r => Follow s r
  | .loopBody w, s, r => Follow s r ∧ w ∈ [Tok.ENDWHILE, .ENDFOR, .ENDFOREACH, .ENDDECLARE]
  | .body, s, r => In closers r ∧ (s.isOpen = true → NotIn [.ELSEIF, .ELSE] r)
  | .altRest, _, r => In [.ENDIF] r
  | .switchBody, _, _ => True
  | .cases, _, r => In [.RBRACE, .ENDSWITCH] r
  | .case, _, r => In [.CASE, .DEFAULT, .RBRACE, .ENDSWITCH] r
  | .members, _, r => In [.RBRACE] r
  | .member, _, _ => True
  | .file, _, r => r = []

/-! ## First tokens -/

/-- tokens that no statement without statements inside begins with -/
def notLine : List Tok :=
  [.LBRACE, .IF, .WHILE, .FOR, .SWITCH, .FOREACH, .DECLARE, .TRY, .DO, .CLASS, .ABSTRACT, .FINAL, .TRAIT, .INTERFACE,
   .HALT_COMPILER, .NAMESPACE, .RBRACE, .ELSE, .ELSEIF, .ENDIF, .ENDFOREACH, .ENDFOR, .ENDWHILE, .ENDSWITCH, .ENDDECLARE, .CASE,
   .DEFAULT, .CATCH, .FINALLY, .COLON]
/-- tokens that nothing in a list of statements begins with -/
def notTop : List Tok :=
  [.RBRACE, .ELSE, .ELSEIF, .ENDIF, .ENDFOREACH, .ENDFOR, .ENDWHILE, .ENDSWITCH, .ENDDECLARE, .CASE, .DEFAULT, .CATCH, .FINALLY, .COLON]

theorem line_first {l : Line} (h : l.Ok) : ∃ t r, l.toks = t :: r ∧ notLine.contains t = false := by
  cases l with
  | bare k => rcases h with rfl | rfl | rfl | rfl <;> exact ⟨_, _, rfl, by decide⟩
  | expr e t =>
    obtain ⟨-, t', r', he, hs, -⟩ := Grammar.fits_first h.1
    exact ⟨t', r' ++ [t], by simp [Line.toks, he], key_sub (start_notKey hs) (by decide)⟩
  | word k e t => rcases h.1 with rfl | rfl | rfl <;> exact ⟨_, _, rfl, by decide⟩
  | need k e t => rcases h.1 with rfl | rfl <;> exact ⟨_, _, rfl, by decide⟩
  | echo es t => exact ⟨_, _, rfl, by decide⟩
  | unset es t => exact ⟨_, _, rfl, by decide⟩
  | global es t => exact ⟨_, _, rfl, by decide⟩
  | static es t => exact ⟨_, _, rfl, by decide⟩
  | const es => exact ⟨_, _, rfl, by decide⟩
  | use k es => exact ⟨_, _, rfl, by decide⟩
  | goto => exact ⟨_, _, rfl, by decide⟩
  | label => exact ⟨_, _, rfl, by decide⟩

theorem sub_contains {ks ks' : List Tok} {t : Tok} (h : ks'.contains t = false) (hs : ∀ k ∈ ks, k ∈ ks') : ks.contains t = false := by
  cases hc : ks.contains t
  · rfl
  · have := hs t (by simpa using hc)
    simp at h; exact absurd this h

theorem head_first (h : Head) : ∃ t r, h.toks = t :: r ∧ loopToks.contains t = true := by
  cases h <;> exact ⟨_, _, rfl, rfl⟩
theorem chead_first {h : CHead} (ho : h.Ok) : ∃ t r, h.toks = t :: r ∧ classToks.contains t = true := by
  cases h with
  | cls m e i =>
    cases m with
    | none => exact ⟨_, _, rfl, rfl⟩
    | some k => rcases ho.1 k rfl with rfl | rfl <;> exact ⟨_, _, rfl, rfl⟩
  | trait => exact ⟨_, _, rfl, rfl⟩
  | interface e => exact ⟨_, _, rfl, rfl⟩

/-- how statements and declarations begin -/
theorem top_first {s : S} {c : Cat} (h : s.Fits c) (hc : c = .stmt ∨ c = .top ∨ c = .outer) :
    ∃ t r, s.toks = t :: r ∧ notTop.contains t = false := by
  have hst : c.isStmt = true := by rcases hc with rfl | rfl | rfl <;> rfl
  cases s with
  | line l =>
    obtain ⟨t, r, he, ht⟩ := line_first h.2
    exact ⟨t, r, he, sub_contains ht (by decide)⟩
  | block b => exact ⟨_, _, rfl, by decide⟩
  | ifs e b => exact ⟨_, _, rfl, by decide⟩
  | loop hd b =>
    obtain ⟨t, r, he, ht⟩ := head_first hd
    refine ⟨t, r ++ b.toks, by simp [S.toks, he], ?_⟩
    simp only [loopToks, List.contains_eq_mem, decide_eq_true_eq, List.mem_cons, List.not_mem_nil, or_false] at ht
    rcases ht with rfl | rfl | rfl | rfl <;> decide
  | switch e b => exact ⟨_, _, rfl, by decide⟩
  | try_ b x => exact ⟨_, _, rfl, by decide⟩
  | do_ s e t => exact ⟨_, _, rfl, by decide⟩
  | func f b => exact ⟨_, _, rfl, by decide⟩
  | cls hd b =>
    obtain ⟨t, r, he, ht⟩ := chead_first h.2.1
    refine ⟨t, r ++ .LBRACE :: (b.toks ++ [.RBRACE]), by simp [S.toks, he], ?_⟩
    simp only [classToks, List.contains_eq_mem, decide_eq_true_eq, List.mem_cons, List.not_mem_nil, or_false] at ht
    rcases ht with rfl | rfl | rfl | rfl | rfl <;> decide
  | halt => exact ⟨_, _, rfl, by decide⟩
  | nsLine p => exact ⟨_, _, rfl, by decide⟩
  | nsBlock p b => exact ⟨_, _, rfl, by decide⟩
  | nil => rcases hc with rfl | rfl | rfl <;> cases h
  | cons a l => obtain ⟨i, hi, _⟩ := h; rcases hc with rfl | rfl | rfl <;> cases hi
  | noElse => rcases hc with rfl | rfl | rfl <;> rcases h with h | h <;> cases h
  | noCatch => rcases hc with rfl | rfl | rfl <;> cases h
  | _ => rcases hc with rfl | rfl | rfl <;> cases h.1

theorem top_notIn {s : S} {c : Cat} (h : s.Fits c) (hc : c = .stmt ∨ c = .top ∨ c = .outer) (r : List Tok) {ks : List Tok}
    (hk : ∀ k ∈ ks, k ∈ notTop) : NotIn ks (s.toks ++ r) := by
  obtain ⟨t, r', he, ht⟩ := top_first h hc
  rw [he]
  exact sub_contains ht hk

/-! ## Completeness -/

section
variable {n : Nat} (H : ∀ c s r, s.Fits c → s.depth ≤ n → Fol c s r → run n c (s.toks ++ r) = some (s, r))
include H

theorem braced_compl {c : Cat} {s : S} (r : List Tok) (hs : s.Fits c) (hd : s.depth ≤ n) (hf : Fol c s (.RBRACE :: r)) :
    braced (run n) c (.LBRACE :: (s.toks ++ .RBRACE :: r)) = some (s, r) :=
  pre_some (post_some (H c s _ hs hd hf))
theorem body_compl {s : S} (r : List Tok) (hs : s.Fits .body) (hd : s.depth ≤ n) :
    braced (run n) .body (.LBRACE :: (s.toks ++ .RBRACE :: r)) = some (s, r) :=
  braced_compl H r hs hd ⟨rfl, fun _ => rfl⟩

theorem stmt_compl {s : S} (r : List Tok) (hs : s.Fits .stmt) (hd : s.depth ≤ n + 1) (hf : Follow s r) :
    stmtP (run n) (s.toks ++ r) = some (s, r) := by
  cases s with
  | line l =>
    obtain ⟨t, r', he, ht⟩ := line_first hs.2
    have hn : ∀ {ks : List Tok}, (∀ k ∈ ks, k ∈ notLine) → headIn ks ((S.line l).toks ++ r) = false := by
      intro ks hks
      simp only [S.toks, he, List.cons_append, headIn_cons]
      exact sub_contains ht hks
    simp only [stmtP, hn (ks := [.LBRACE]) (by decide), hn (ks := [.IF]) (by decide), hn (ks := loopToks) (by decide),
      hn (ks := [.SWITCH]) (by decide), hn (ks := [.TRY]) (by decide), hn (ks := [.DO]) (by decide), Bool.false_eq_true, if_false]
    exact mapP_some (line_compl l r hs.2 trivial)
  | block b =>
    have h1 := body_compl H r hs.2 (by simp only [S.depth] at hd; omega)
    have : blockP (run n) ((S.block b).toks ++ r) = some (.block b, r) := by
      simp only [S.toks, List.cons_append, List.append_assoc, List.nil_append]
      exact mapP_some h1
    exact this
  | ifs e b =>
    have h1 := H .ifBody b r hs.2.2 (by simp only [S.depth] at hd; omega) hf
    have : ifP (run n) ((S.ifs e b).toks ++ r) = some (.ifs e b, r) := by
      simp only [S.toks, List.cons_append, List.append_assoc, List.nil_append]
      exact mapP_some (andThen_some (pre_some (paren_compl e _ hs.2.1 trivial)) h1)
    exact this
  | loop h b =>
    have h1 := H (.loopBody h.endWord) b r hs.2.2 (by simp only [S.depth] at hd; omega) ⟨hf, by cases h <;> simp [Head.endWord]⟩
    have : loopP (run n) ((S.loop h b).toks ++ r) = some (.loop h b, r) := by
      simp only [S.toks, List.cons_append, List.append_assoc, List.nil_append]
      exact mapP_some (bindP_some (head_compl h _ hs.2.1 trivial) h1)
    cases h <;> exact this
  | switch e b =>
    have h1 := H .switchBody b r hs.2.2 (by simp only [S.depth] at hd; omega) trivial
    have : switchP (run n) ((S.switch e b).toks ++ r) = some (.switch e b, r) := by
      simp only [S.toks, List.cons_append, List.append_assoc, List.nil_append]
      exact mapP_some (andThen_some (pre_some (paren_compl e _ hs.2.1 trivial)) h1)
    exact this
  | try_ b x =>
    have h1 := body_compl H (x.toks ++ r) hs.2.1 (by simp only [S.depth] at hd; omega)
    have h2 := H .catches x r hs.2.2 (by simp only [S.depth] at hd; omega) (by
      obtain ⟨-, hf⟩ := hf
      refine ⟨fun ho => ?_, hf⟩
      cases x <;> first | (cases ho; done) | (cases hs.2.2.1; done) | (exact absurd hs.2.2 (by simp [S.Fits, Cat.item])))
    have : tryP (run n) ((S.try_ b x).toks ++ r) = some (.try_ b x, r) := by
      simp only [S.toks, List.cons_append, List.append_assoc, List.nil_append]
      exact mapP_some (pre_some (andThen_some h1 h2))
    exact this
  | do_ s e t =>
    have h1 := H .stmt s (.WHILE :: (parenTxt e ++ (tokTxt t ++ r))) hs.2.1 (by simp only [S.depth] at hd; omega) ⟨fun _ => rfl, rfl⟩
    have : doP (run n) ((S.do_ s e t).toks ++ r) = some (.do_ s e t, r) := by
      simp only [S.toks, List.cons_append, List.append_assoc, List.nil_append]
      exact mapP_some (pre_some (andThen_some h1 (andThen_some (pre_some (paren_compl e _ hs.2.2.1 trivial)) (semi_compl t r hs.2.2.2 trivial))))
    exact this
  | nil => cases hs
  | cons a l => obtain ⟨i, hi, _⟩ := hs; cases hi
  | noElse => rcases hs with h | h <;> cases h
  | noCatch => cases hs
  | halt => cases hs
  | _ => cases hs.1

omit H in
/-- how statements begin -/
theorem stmt_first {s : S} (h : s.Fits .stmt) :
    ∃ t r, s.toks = t :: r ∧ ([Tok.HALT_COMPILER, .NAMESPACE, .COLON] ++ classToks).contains t = false := by
  cases s with
  | line l =>
    obtain ⟨t, r, he, ht⟩ := line_first h.2
    exact ⟨t, r, he, sub_contains ht (by decide)⟩
  | block b => exact ⟨_, _, rfl, by decide⟩
  | ifs e b => exact ⟨_, _, rfl, by decide⟩
  | loop hd b =>
    obtain ⟨t, r, he, ht⟩ := head_first hd
    refine ⟨t, r ++ b.toks, by simp [S.toks, he], ?_⟩
    simp only [loopToks, List.contains_eq_mem, decide_eq_true_eq, List.mem_cons, List.not_mem_nil, or_false] at ht
    rcases ht with rfl | rfl | rfl | rfl <;> decide
  | switch e b => exact ⟨_, _, rfl, by decide⟩
  | try_ b x => exact ⟨_, _, rfl, by decide⟩
  | do_ s e t => exact ⟨_, _, rfl, by decide⟩
  | nil => cases h
  | cons a l => obtain ⟨i, hi, _⟩ := h; cases hi
  | noElse => rcases h with h | h <;> cases h
  | noCatch => cases h
  | halt => cases h
  | _ => cases h.1
omit H in
theorem stmt_notIn {s : S} (h : s.Fits .stmt) (r : List Tok) {ks : List Tok}
    (hk : ∀ k ∈ ks, k ∈ [Tok.HALT_COMPILER, .NAMESPACE, .COLON] ++ classToks) : headIn ks (s.toks ++ r) = false := by
  obtain ⟨t, r', he, ht⟩ := stmt_first h
  rw [he]
  exact sub_contains ht hk

omit H in
/-- a statement that begins with `function` begins with a closure -/
theorem stmt_notFunc {s : S} (h : s.Fits .stmt) (r : List Tok) : (headIn [.FUNCTION] (s.toks ++ r) && !isClosure (s.toks ++ r)) = false := by
  have other : ∀ {t : Tok} {r : List Tok}, t ≠ .FUNCTION → (headIn [.FUNCTION] (t :: r) && !isClosure (t :: r)) = false := by
    intro t r h
    simp [headIn, h]
  cases s with
  | line l =>
    have h2 : l.Ok := h.2
    show (headIn [.FUNCTION] (l.toks ++ r) && !isClosure (l.toks ++ r)) = false
    cases l with
    | expr e t =>
      obtain ⟨-, t', r', he, -⟩ := Grammar.fits_first h2.1
      have hf := Grammar.fits_fn h2.1 (.inl ⟨_, rfl⟩)
      by_cases ht : t' = .FUNCTION
      · rcases hf (by rw [he, ht]; rfl) with ⟨x, hx⟩ | ⟨x, hx⟩ <;> (simp only [Line.toks, ← hx]; rfl)
      · simp only [Line.toks, he, List.cons_append]; exact other ht
    | bare k => rcases h2 with rfl | rfl | rfl | rfl <;> exact other (by decide)
    | word k e t => rcases h2.1 with rfl | rfl | rfl <;> exact other (by decide)
    | need k e t => rcases h2.1 with rfl | rfl <;> exact other (by decide)
    | _ => exact other (by decide)
  | loop hd b => cases hd <;> exact other (by decide)
  | block | ifs | switch | try_ | do_ => exact other (by decide)
  | nil => cases h
  | cons a l => obtain ⟨i, hi, -⟩ := h; cases hi
  | noElse => rcases h with h | h <;> cases h
  | noCatch => cases h
  | halt => cases h
  | _ => cases h.1

theorem topStmt_compl {s : S} (r : List Tok) (hs : s.Fits .stmt) (hd : s.depth ≤ n + 1) (hf : Follow s r) :
    topP (run n) (s.toks ++ r) = some (s, r) := by
  simp only [topP, stmt_notFunc hs r, stmt_notIn hs r (ks := classToks) (by decide),
    stmt_notIn hs r (ks := [.HALT_COMPILER]) (by decide), Bool.false_and, Bool.false_eq_true, if_false]
  exact stmt_compl H r hs hd hf

theorem top_compl {s : S} {c : Cat} (hc : c.isTop = true) (hn : (∀ p, s ≠ .nsLine p) ∧ ∀ p b, s ≠ .nsBlock p b) (r : List Tok)
    (hs : s.Fits c) (hd : s.depth ≤ n + 1) (hf : Follow s r) : topP (run n) (s.toks ++ r) = some (s, r) := by
  cases s with
  | func f b =>
    obtain ⟨-, hk, hb⟩ := hs
    have h1 := body_compl H r hb (by simp only [S.depth] at hd; omega)
    have h2 := fhead_compl (names := [.STRING]) (by decide) f (.LBRACE :: (b.toks ++ .RBRACE :: r)) hk rfl
    have : funcP (run n) ((S.func f b).toks ++ r) = some (.func f b, r) := by
      simp only [S.toks, List.cons_append, List.append_assoc, List.nil_append]
      exact mapP_some (andThen_some h2 h1)
    obtain ⟨ref, name, ps, ret⟩ := f
    have hname : name = .STRING := by simpa [FHead.Ok] using hk.1
    subst hname
    cases ref <;> exact this
  | cls h l =>
    obtain ⟨-, hk, hb⟩ := hs
    have h1 := braced_compl H (c := .members) r hb (by simp only [S.depth] at hd; omega) rfl
    have h2 := chead_compl h (.LBRACE :: (l.toks ++ .RBRACE :: r)) hk rfl
    have : clsP (run n) ((S.cls h l).toks ++ r) = some (.cls h l, r) := by
      simp only [S.toks, List.cons_append, List.append_assoc, List.nil_append]
      exact mapP_some (andThen_some h2 h1)
    cases h with
    | cls m e i =>
      cases m with
      | none => exact this
      | some k => rcases hk.1 k rfl with rfl | rfl <;> exact this
    | trait => exact this
    | interface e => exact this
  | halt => rfl
  | nsLine p => exact absurd rfl (hn.1 p)
  | nsBlock p b => exact absurd rfl (hn.2 p b)
  | line | block | ifs | loop | switch | try_ | do_ => exact topStmt_compl H r ⟨rfl, hs.2⟩ hd hf
  | nil => cases c <;> first | (cases hc; done) | (cases hs; done)
  | cons a l => obtain ⟨i, hi, _⟩ := hs; cases c <;> first | (cases hc; done) | (cases hi; done)
  | noElse => rcases hs with h | h <;> subst h <;> cases hc
  | noCatch => cases hs; cases hc
  | _ => cases hs.1; cases hc

omit H in
theorem nsName_compl : Compl nsNameP (sepTxt .BACKSLASH tokTxt) (fun l => ∀ t ∈ l, t = .STRING) (fun _ r => NotIn [.STRING, .BACKSLASH] r) := by
  refine compl_map (compl_opt (idents_compl .BACKSLASH) [.STRING] (fun a ha => by obtain ⟨r, hr⟩ := idents_head ha .BACKSLASH; rw [hr]; rfl)) ?_
  intro l hl
  cases l with
  | nil => exact ⟨none, rfl, (fun a h => by cases h), rfl, fun r h => ⟨fun _ => h.sub (by intro t ht; simp at ht; subst ht; rfl), fun a h => by cases h⟩⟩
  | cons a l =>
    exact ⟨some (a :: l), rfl, (fun a h => by cases h; exact ⟨List.cons_ne_nil _ _, hl⟩), rfl, fun r h => ⟨(fun h => by cases h),
      fun a _ => h.sub (by intro t ht; simp at ht; subst ht; rfl)⟩⟩

theorem outer_compl {s : S} (r : List Tok) (hs : s.Fits .outer) (hd : s.depth ≤ n + 1) (hf : Follow s r) :
    outerP (run n) (s.toks ++ r) = some (s, r) := by
  by_cases hn : (∀ p, s ≠ .nsLine p) ∧ ∀ p b, s ≠ .nsBlock p b
  · have h1 := top_compl H rfl hn r hs hd hf
    have h2 : headIn [.NAMESPACE] (s.toks ++ r) = false := by
      cases s with
      | nsLine p => exact absurd rfl (hn.1 p)
      | nsBlock p b => exact absurd rfl (hn.2 p b)
      | func f b => rfl
      | halt => rfl
      | cls h l =>
        obtain ⟨t, r', he, ht⟩ := chead_first hs.2.1
        simp only [S.toks, he, List.cons_append, headIn_cons]
        simp only [classToks, List.contains_eq_mem, decide_eq_true_eq, List.mem_cons, List.not_mem_nil, or_false] at ht
        rcases ht with rfl | rfl | rfl | rfl | rfl <;> rfl
      | line | block | ifs | loop | switch | try_ | do_ =>
        refine stmt_notIn ?_ r (by decide)
        exact ⟨rfl, hs.2⟩
      | nil => cases hs
      | cons a l => obtain ⟨i, hi, _⟩ := hs; cases hi
      | noElse => rcases hs with h | h <;> cases h
      | noCatch => cases hs
      | _ => cases hs.1
    simp only [outerP, h2, Bool.false_eq_true, if_false]
    exact h1
  · cases s with
    | nsLine p =>
      have h1 := nsName_compl p (.SEMICOLON :: r) hs.2.2 rfl
      have h2 : nsRestP (run n) p (.SEMICOLON :: r) = some (.nsLine p, r) := by
        have : p.isEmpty = false := by simpa using hs.2.1
        simp only [nsRestP, show headIn [Tok.LBRACE] (.SEMICOLON :: r) = false from rfl, this, Bool.false_eq_true, if_false]
        rfl
      have : nsP (run n) ((S.nsLine p).toks ++ r) = some (.nsLine p, r) := by
        simp only [S.toks, List.cons_append, List.append_assoc, List.nil_append]
        exact mapP_some (bindP_some (pre_some h1) h2)
      exact this
    | nsBlock p b =>
      have h1 := nsName_compl p (.LBRACE :: (b.toks ++ .RBRACE :: r)) hs.2.1 rfl
      have h3 := body_compl H r hs.2.2 (by simp only [S.depth] at hd; omega)
      have h2 : nsRestP (run n) p (.LBRACE :: (b.toks ++ .RBRACE :: r)) = some (.nsBlock p b, r) := by
        simp only [nsRestP, show headIn [Tok.LBRACE] (.LBRACE :: (b.toks ++ .RBRACE :: r)) = true from rfl, if_true]
        exact mapP_some h3
      have : nsP (run n) ((S.nsBlock p b).toks ++ r) = some (.nsBlock p b, r) := by
        simp only [S.toks, List.cons_append, List.append_assoc, List.nil_append]
        exact mapP_some (bindP_some (pre_some h1) h2)
      exact this
    | _ => exact absurd ⟨(fun p h => by cases h), fun p b h => by cases h⟩ hn

/-- lists, element by element -/
theorem list_compl' {c i : Cat} (hi : c.item = some i) {stop : List Tok → Bool} {s : S} (r : List Tok) (hs : s.Fits c)
    (hd : s.depth ≤ n + 1) (hf : Fol c s r) (hstop : stop r = true)
    (hgo : ∀ a l, s = .cons a l → stop (a.toks ++ (l.toks ++ r)) = false)
    (hfi : ∀ a l, s = .cons a l → Fol i a (l.toks ++ r) ∧ Fol c l r) :
    listOf stop (run n i) (run n c) (s.toks ++ r) = some (s, r) := by
  cases s with
  | nil => simp only [S.toks, List.nil_append, listOf, hstop, if_true]
  | cons a l =>
    obtain ⟨i', hi', ha, hl⟩ := hs
    rw [hi] at hi'
    cases hi'
    obtain ⟨f1, f2⟩ := hfi a l rfl
    simp only [S.depth] at hd
    have h1 := H i a _ ha (by omega) f1
    have h2 := H c l r hl (by omega) f2
    simp only [S.toks, List.append_assoc, listOf, hgo a l rfl, Bool.false_eq_true, if_false]
    exact mapP_some (andThen_some h1 h2)
  | noElse => rcases hs with h | h <;> subst h <;> cases hi
  | noCatch => cases hs; cases hi
  | halt => cases c <;> first | (cases hs; done) | (cases hi; done)
  | line | block | ifs | loop | switch | try_ | do_ | func | cls => cases c <;> first | (cases hs.1; done) | (cases hi; done)
  | _ => cases hs.1; cases hi

omit H in
/-- what stands behind an element of a list of statements -/
theorem list_first {s : S} {c : Cat} (h : s.Fits c) (hc : c = .body ∨ c = .file) :
    s = .nil ∨ ∃ t r, s.toks = t :: r ∧ notTop.contains t = false := by
  cases s with
  | nil => exact .inl rfl
  | cons a l =>
    obtain ⟨i, hi, ha, hl⟩ := h
    have hi' : i = .stmt ∨ i = .top ∨ i = .outer := by rcases hc with rfl | rfl <;> cases hi <;> simp
    obtain ⟨t, r, he, ht⟩ := top_first ha hi'
    exact .inr ⟨t, r ++ l.toks, by simp [S.toks, he], ht⟩
  | noElse => rcases hc with rfl | rfl <;> rcases h with h | h <;> cases h
  | noCatch => rcases hc with rfl | rfl <;> cases h
  | halt => rcases hc with rfl | rfl <;> cases h
  | _ => rcases hc with rfl | rfl <;> cases h.1
end

theorem open_cons_tail {a l : S} (hl : l.isOpen = true) : (S.cons a l).isOpen = true := by
  cases l <;> first | exact hl | (cases hl; done)
theorem open_cons_nil {a : S} : (S.cons a .nil).isOpen = a.isOpen := rfl

theorem follow_next {a l : S} {c i : Cat} {r : List Tok} (hl : l.Fits c) (hc : c = .body ∨ c = .file)
    (h : l = .nil → Follow a r) : Follow a (l.toks ++ r) := by
  rcases list_first hl hc with rfl | ⟨t, r', he, ht⟩
  · exact h rfl
  · rw [he]
    exact ⟨fun _ => sub_contains ht (by decide), sub_contains ht (by decide)⟩

theorem in_sub {ks ks' : List Tok} (h : ∀ k ∈ ks, k ∈ ks') {t : Tok} (ht : ks.contains t = true) : ks'.contains t = true := by
  simp only [List.contains_eq_mem, decide_eq_true_eq] at ht ⊢
  exact h t ht
theorem in_disj {ks ks' : List Tok} (h : ∀ k ∈ ks, k ∉ ks') {t : Tok} (ht : ks.contains t = true) : ks'.contains t = false := by
  simp only [List.contains_eq_mem, decide_eq_true_eq, decide_eq_false_iff_not] at ht ⊢
  exact h t ht

theorem in_closers {r : List Tok} (h : In closers r) : NotIn [.CATCH, .FINALLY] r := by
  exact In.notIn h fun t ht => in_disj (by decide) ht

theorem member_notBrace {s : S} (h : s.Fits .member) (r : List Tok) : headIn [.RBRACE] (s.toks ++ r) = false := by
  have key : ∀ m : Member, m.Ok → ∀ r, headIn [.RBRACE] (m.toks ++ r) = false := by
    intro m hm r
    have mods : ∀ (l : List Tok), Mods l → ∀ (t : Tok) (r : List Tok), t ≠ .RBRACE → headIn [.RBRACE] (manyTxt tokTxt l ++ t :: r) = false := by
      intro l hl t r ht
      cases l with
      | nil => simp [manyTxt, headIn, ht]
      | cons a l =>
        have := hl a (by simp)
        show [Tok.RBRACE].contains a = false
        cases hc : [Tok.RBRACE].contains a
        · rfl
        · have h : a = .RBRACE := by simpa using hc
          subst h; revert this; decide
    cases m with
    | var_ l => rfl
    | use l x => rfl
    | func m f =>
      have := mods m hm.1 .FUNCTION (f.toks.tail ++ r) (by decide)
      simpa [Member.toks, FHead.toks] using this
    | const m l =>
      have := mods m hm.1 .CONST (sepTxt .COMMA (fun x => [x.1] ++ .ASSIGN :: x.2.toks) l ++ [.SEMICOLON] ++ r) (by decide)
      simpa [Member.toks] using this
    | prop m hint l =>
      obtain ⟨vr, hvr⟩ := vars_head hm.2.2
      cases hint with
      | none =>
        have := mods m hm.1 .VARIABLE (vr ++ [.SEMICOLON] ++ r) (by decide)
        simpa [Member.toks, optTxt, hvr] using this
      | some x =>
        obtain ⟨t, r', he, ht⟩ := in_of (hints_head (hm.2.1 x rfl))
        have := mods m hm.1 t (r' ++ varsTxt l ++ [.SEMICOLON] ++ r) (by rintro rfl; revert ht; decide)
        simpa [Member.toks, optTxt, he] using this
  cases s with
  | member m => exact key m h.2.1 r
  | abstr m =>
    simp only [S.toks, List.append_assoc]
    exact key m h.2.1 _
  | method m b =>
    simp only [S.toks, List.append_assoc]
    exact key m h.2.1 _
  | nil => cases h
  | cons a l => obtain ⟨i, hi, _⟩ := h; cases hi
  | noElse => rcases h with h | h <;> cases h
  | noCatch => cases h
  | halt => cases h
  | _ => cases h.1

theorem case_first {s : S} (h : s.Fits .case) (r : List Tok) : In [.CASE, .DEFAULT] (s.toks ++ r) := by
  cases s with
  | case_ e t b => cases e <;> rfl
  | nil => cases h
  | cons a l => obtain ⟨i, hi, _⟩ := h; cases hi
  | noElse => rcases h with h | h <;> cases h
  | noCatch => cases h
  | halt => cases h
  | _ => cases h.1

theorem cases_first {s : S} (h : s.Fits .cases) (r : List Tok) (hr : In [.RBRACE, .ENDSWITCH] r) :
    In [.CASE, .DEFAULT, .RBRACE, .ENDSWITCH] (s.toks ++ r) := by
  cases s with
  | nil =>
    obtain ⟨t, r', rfl, ht⟩ := in_of hr
    exact in_sub (ks' := [Tok.CASE, .DEFAULT, .RBRACE, .ENDSWITCH]) (by decide) ht
  | cons a l =>
    obtain ⟨i, hi, ha, hl⟩ := h
    cases hi
    simp only [S.toks, List.append_assoc]
    obtain ⟨t, r', he, ht⟩ := in_of (case_first ha (l.toks ++ r))
    rw [he]
    exact in_sub (ks' := [Tok.CASE, .DEFAULT, .RBRACE, .ENDSWITCH]) (by decide) ht
  | noElse => rcases h with h | h <;> cases h
  | noCatch => cases h
  | halt => cases h
  | _ => cases h.1

theorem altRest_first {s : S} (h : s.Fits .altRest) (r : List Tok) (hr : In [.ENDIF] r) :
    In closers (s.toks ++ r) ∧ (s = .noElse → NotIn [.ELSEIF, .ELSE] (s.toks ++ r)) := by
  cases s with
  | noElse =>
    obtain ⟨t, r', rfl, ht⟩ := in_of hr
    have ht' : t = .ENDIF := by simpa using ht
    subst ht'
    exact ⟨rfl, fun _ => rfl⟩
  | elifAlt c b x => exact ⟨rfl, fun h => by cases h⟩
  | elsAlt b => exact ⟨rfl, fun h => by cases h⟩
  | nil => cases h
  | cons a l => obtain ⟨i, hi, _⟩ := h; cases hi
  | noCatch => cases h
  | halt => cases h
  | _ => cases h.1

theorem rest_first {s : S} (h : s.Fits .rest) (r : List Tok) (hr : Follow s r) :
    NotIn [.CATCH, .FINALLY] (s.toks ++ r) ∧ (s = .noElse → NotIn [.ELSEIF, .ELSE] (s.toks ++ r)) := by
  cases s with
  | noElse => exact ⟨hr.2, fun _ => hr.1 rfl⟩
  | elif c b x => exact ⟨rfl, fun h => by cases h⟩
  | els b => exact ⟨rfl, fun h => by cases h⟩
  | nil => cases h
  | cons a l => obtain ⟨i, hi, _⟩ := h; cases hi
  | noCatch => cases h
  | halt => cases h
  | _ => cases h.1

theorem caseHead_compl : Compl caseHeadP caseTxt (fun o => ∀ x, o = some x → Grammar.Fits (.lev 0) x) (fun _ r => In exprEnds r) := by
  intro o r ho hr
  cases o with
  | none => rfl
  | some e => exact mapP_some (f := some) (pre_some (expr_compl e r (ho e rfl) (exprEnds_stop hr)))

theorem catchHead_compl : Compl catchHeadP (fun l => .CATCH :: .LPAREN :: ((sepTxt .BIT_OR Name.toks l ++ [.VARIABLE]) ++ [.RPAREN])) Names anyFol :=
  compl_pre (compl_pre (compl_post (compl_post (names_compl .BIT_OR (by decide)) .VARIABLE (fun _ _ _ => rfl)) .RPAREN (fun _ _ _ => trivial)) .LPAREN) .CATCH

theorem member_fol (m : Member) (hm : m.isFunc = false) (r : List Tok) : m.fol r := by
  cases m <;> first | trivial | (cases hm; done)

/-- the text of every tree of the grammar is read as this tree -/
theorem run_compl (n : Nat) : ∀ c s r, s.Fits c → s.depth ≤ n → Fol c s r → run n c (s.toks ++ r) = some (s, r) := by
  induction n with
  | zero => intro c s r _ hd; cases s <;> simp [S.depth] at hd
  | succ n H =>
    intro c s r hs hd hf
    simp only [run]
    cases c with
    | stmt => exact stmt_compl H r hs hd hf
    | top =>
      refine top_compl H (c := .top) rfl ⟨fun p h => ?_, fun p b h => ?_⟩ r hs hd hf
      · subst h; cases hs.1
      · subst h; cases hs.1
    | outer => exact outer_compl H r hs hd hf
    | body =>
      simp only [step]
      refine list_compl' H (c := .body) rfl r hs hd hf (by rw [show headIn closers r = true from hf.1]; simp) ?_ ?_
      · rintro a l rfl
        obtain ⟨i, hi, ha, hl⟩ := hs
        cases hi
        obtain ⟨t, r', he, ht⟩ := top_first ha (.inr (.inl rfl))
        simp only [he, List.cons_append, List.isEmpty_cons, Bool.false_or, headIn_cons]
        exact sub_contains ht (by decide)
      · rintro a l rfl
        obtain ⟨i, hi, ha, hl⟩ := hs
        cases hi
        exact ⟨follow_next (i := .top) hl (.inl rfl) fun h => by subst h; exact ⟨hf.2, in_closers hf.1⟩,
          hf.1, fun ho => hf.2 (open_cons_tail ho)⟩
    | file =>
      simp only [step]
      have hf' : r = [] := hf
      refine list_compl' H (c := .file) rfl r hs hd hf (by rw [hf']; rfl) ?_ ?_
      · rintro a l rfl
        obtain ⟨i, hi, ha, hl⟩ := hs
        cases hi
        obtain ⟨t, r', he, ht⟩ := top_first ha (.inr (.inr rfl))
        simp only [he, List.cons_append, List.isEmpty_cons]
      · rintro a l rfl
        obtain ⟨i, hi, ha, hl⟩ := hs
        cases hi
        exact ⟨follow_next (i := .outer) hl (.inr rfl) fun h => by subst hf'; exact ⟨fun _ => rfl, rfl⟩, hf⟩
    | cases =>
      simp only [step]
      have hstop : headIn [.CASE, .DEFAULT] r = false := In.notIn hf (fun t ht => in_disj (by decide) ht)
      refine list_compl' H (c := .cases) rfl r hs hd hf (by rw [hstop]; rfl) ?_ ?_
      · rintro a l rfl
        obtain ⟨i, hi, ha, hl⟩ := hs
        cases hi
        rw [show headIn [.CASE, .DEFAULT] (a.toks ++ (l.toks ++ r)) = true from case_first ha _]; rfl
      · rintro a l rfl
        obtain ⟨i, hi, ha, hl⟩ := hs
        cases hi
        exact ⟨cases_first hl r hf, hf⟩
    | members =>
      simp only [step]
      refine list_compl' H (c := .members) rfl r hs hd hf hf ?_ ?_
      · rintro a l rfl
        obtain ⟨i, hi, ha, hl⟩ := hs
        cases hi
        exact member_notBrace ha _
      · rintro a l rfl
        exact ⟨trivial, hf⟩
    | ifBody =>
      cases s with
      | altIf b x e =>
        obtain ⟨-, hb, hx, ho, he⟩ := hs
        simp only [S.depth] at hd
        have hx1 := altRest_first hx (.ENDIF :: e :: r) rfl
        have h1 := H .body b (x.toks ++ .ENDIF :: e :: r) hb (by omega) ⟨hx1.1, fun h => hx1.2 (ho h)⟩
        have h2 := H .altRest x (.ENDIF :: e :: r) hx (by omega) rfl
        have h3 := semi_compl e r he trivial
        have : altIfP (run n) ((S.altIf b x e).toks ++ r) = some (.altIf b x e, r) := by
          simp only [S.toks, List.cons_append, List.append_assoc, List.nil_append]
          exact mapP_some (pre_some (andThen_some h1 (andThen_some (post_some h2) h3)))
        exact this
      | plain t x =>
        obtain ⟨-, ht, hx, ho⟩ := hs
        simp only [S.depth] at hd
        have hx1 := rest_first hx r hf
        have h1 := H .stmt t (x.toks ++ r) ht (by omega) ⟨fun h => hx1.2 (ho h), hx1.1⟩
        have h2 := H .rest x r hx (by omega) hf
        have h3 : headIn [.COLON] ((S.plain t x).toks ++ r) = false := by
          simp only [S.toks, List.append_assoc]
          exact stmt_notIn ht _ (by decide)
        simp only [step, ifBodyP, h3, Bool.false_eq_true, if_false]
        simp only [S.toks, List.append_assoc]
        exact mapP_some (andThen_some h1 h2)
      | nil => cases hs
      | cons a l => obtain ⟨i, hi, _⟩ := hs; cases hi
      | noElse => rcases hs with h | h <;> cases h
      | noCatch => cases hs
      | halt => cases hs
      | _ => cases hs.1
    | rest =>
      cases s with
      | noElse =>
        have h0 := hf.1 rfl
        have h1 : headIn [.ELSEIF] r = false := h0.sub (by intro t ht; simp at ht; subst ht; rfl)
        have h2 : headIn [.ELSE] r = false := h0.sub (by intro t ht; simp at ht; subst ht; rfl)
        simp only [step, restP, S.toks, List.nil_append, h1, h2, Bool.false_eq_true, if_false]
      | elif c t x =>
        obtain ⟨-, hc, ht, hx, ho⟩ := hs
        simp only [S.depth] at hd
        have hx1 := rest_first hx r hf
        have h1 := H .stmt t (x.toks ++ r) ht (by omega) ⟨fun h => hx1.2 (ho h), hx1.1⟩
        have h2 := H .rest x r hx (by omega) hf
        have : elifP (run n) ((S.elif c t x).toks ++ r) = some (.elif c t x, r) := by
          simp only [S.toks, List.cons_append, List.append_assoc, List.nil_append]
          exact mapP_some (andThen_some (pre_some (paren_compl c _ hc trivial)) (andThen_some h1 h2))
        exact this
      | els t =>
        simp only [S.depth] at hd
        have h1 := H .stmt t r hs.2 (by omega) hf
        have : mapP S.els (pre .ELSE (run n .stmt)) ((S.els t).toks ++ r) = some (S.els t, r) := mapP_some (pre_some h1)
        exact this
      | nil => cases hs
      | cons a l => obtain ⟨i, hi, _⟩ := hs; cases hi
      | noCatch => cases hs
      | halt => cases hs
      | _ => cases hs.1
    | altRest =>
      cases s with
      | noElse =>
        have h1 : headIn [.ELSEIF] r = false := In.notIn hf (by intro t ht; simp at ht; subst ht; rfl)
        have h2 : headIn [.ELSE] r = false := In.notIn hf (by intro t ht; simp at ht; subst ht; rfl)
        simp only [step, altRestP, S.toks, List.nil_append, h1, h2, Bool.false_eq_true, if_false]
      | elifAlt c b x =>
        obtain ⟨-, hc, hb, hx, ho⟩ := hs
        simp only [S.depth] at hd
        have hx1 := altRest_first hx r hf
        have h1 := H .body b (x.toks ++ r) hb (by omega) ⟨hx1.1, fun h => hx1.2 (ho h)⟩
        have h2 := H .altRest x r hx (by omega) hf
        have : elifAltP (run n) ((S.elifAlt c b x).toks ++ r) = some (.elifAlt c b x, r) := by
          simp only [S.toks, List.cons_append, List.append_assoc, List.nil_append]
          exact mapP_some (andThen_some (pre_some (paren_compl c _ hc trivial)) (andThen_some (pre_some h1) h2))
        exact this
      | elsAlt b =>
        simp only [S.depth] at hd
        have h1 := H .body b r hs.2 (by omega) (by
          obtain ⟨t, r', rfl, ht⟩ := in_of hf
          have ht' : t = .ENDIF := by simpa using ht
          subst ht'
          exact ⟨rfl, fun _ => rfl⟩)
        have : mapP S.elsAlt (pre .ELSE (pre .COLON (run n .body))) ((S.elsAlt b).toks ++ r) = some (S.elsAlt b, r) :=
          mapP_some (pre_some (pre_some h1))
        exact this
      | nil => cases hs
      | cons a l => obtain ⟨i, hi, _⟩ := hs; cases hi
      | noCatch => cases hs
      | halt => cases hs
      | _ => cases hs.1
    | loopBody w =>
      by_cases ha : ∃ b w' e, s = .alt b w' e
      · obtain ⟨b, w', e, rfl⟩ := ha
        obtain ⟨hw, hb, he⟩ := hs
        cases hw
        simp only [S.depth] at hd
        have hw : closers.contains w = true ∧ [Tok.ELSEIF, .ELSE].contains w = false :=
          ⟨in_sub (ks := [.ENDWHILE, .ENDFOR, .ENDFOREACH, .ENDDECLARE]) (by decide) (by simpa using hf.2),
            in_disj (ks := [.ENDWHILE, .ENDFOR, .ENDFOREACH, .ENDDECLARE]) (by decide) (by simpa using hf.2)⟩
        have h1 := H .body b (w :: e :: r) hb (by omega) ⟨hw.1, fun _ => hw.2⟩
        have h2 := semi_compl e r he trivial
        have : mapP (fun x : S × Tok => S.alt x.1 w x.2) (pre .COLON (andThen (post (run n .body) w) semiP)) ((S.alt b w e).toks ++ r) =
            some (S.alt b w e, r) := by
          simp only [S.toks, List.cons_append, List.append_assoc, List.nil_append]
          exact mapP_some (pre_some (andThen_some (post_some h1) h2))
        exact this
      · have hst : s.Fits .stmt := by
          cases s with
          | line | block | ifs | loop | switch | try_ | do_ => exact ⟨rfl, hs.2⟩
          | alt b w e => exact absurd ⟨b, w, e, rfl⟩ ha
          | nil => cases hs
          | cons a l => obtain ⟨i, hi, _⟩ := hs; cases hi
          | noElse => rcases hs with h | h <;> cases h
          | noCatch => cases hs
          | halt => cases hs
          | _ => cases hs.1
        simp only [step, loopBodyP, stmt_notIn hst r (ks := [.COLON]) (by decide), Bool.false_eq_true, if_false]
        exact stmt_compl H r hst hd hf.1
    | switchBody =>
      have hflag : ∀ (b : Bool) (l : S) (t : Tok) (r : List Tok), l.Fits .cases → (t = .RBRACE ∨ t = .ENDSWITCH) →
          flag .SEMICOLON (flagTxt .SEMICOLON b ++ (l.toks ++ t :: r)) = some (b, l.toks ++ t :: r) := by
        intro b l t r hl ht
        refine compl_flag .SEMICOLON b _ trivial fun _ => ?_
        exact In.notIn (cases_first hl (t :: r) (by rcases ht with rfl | rfl <;> rfl)) (fun t ht => in_disj (by decide) ht)
      cases s with
      | colon b l e =>
        obtain ⟨-, hl, he⟩ := hs
        simp only [S.depth] at hd
        have h2 := H .cases l (.ENDSWITCH :: e :: r) hl (by omega) rfl
        have : colonP (run n) ((S.colon b l e).toks ++ r) = some (.colon b l e, r) := by
          simp only [S.toks, List.cons_append, List.append_assoc, List.nil_append]
          exact mapP_some (pre_some (andThen_some (hflag b l _ _ hl (.inr rfl)) (andThen_some (post_some h2) (semi_compl e r he trivial))))
        exact this
      | braces b l =>
        obtain ⟨-, hl⟩ := hs
        simp only [S.depth] at hd
        have h2 := H .cases l (.RBRACE :: r) hl (by omega) rfl
        have : bracesP (run n) ((S.braces b l).toks ++ r) = some (.braces b l, r) := by
          simp only [S.toks, List.cons_append, List.append_assoc, List.nil_append]
          exact mapP_some (pre_some (andThen_some (hflag b l _ _ hl (.inl rfl)) (post_some h2)))
        exact this
      | nil => cases hs
      | cons a l => obtain ⟨i, hi, _⟩ := hs; cases hi
      | noElse => rcases hs with h | h <;> cases h
      | noCatch => cases hs
      | halt => cases hs
      | _ => cases hs.1
    | case =>
      cases s with
      | case_ e t b =>
        obtain ⟨-, he, ht, hb⟩ := hs
        simp only [S.depth] at hd
        have h3 := H .body b r hb (by omega) (by
          obtain ⟨t, r', rfl, ht⟩ := in_of hf
          exact ⟨in_sub (ks' := closers) (by decide) ht, fun _ => in_disj (ks' := [.ELSEIF, .ELSE]) (by decide) ht⟩)
        have h2 : oneOf [.COLON, .SEMICOLON] (t :: (b.toks ++ r)) = some (t, b.toks ++ r) := by
          rcases ht with rfl | rfl <;> rfl
        have h1 := caseHead_compl e (t :: (b.toks ++ r)) he (by rcases ht with rfl | rfl <;> rfl)
        simp only [step, S.toks, List.append_assoc, List.cons_append]
        exact mapP_some (andThen_some h1 (andThen_some h2 h3))
      | nil => cases hs
      | cons a l => obtain ⟨i, hi, _⟩ := hs; cases hi
      | noElse => rcases hs with h | h <;> cases h
      | noCatch => cases hs
      | halt => cases hs
      | _ => cases hs.1
    | catches =>
      cases s with
      | noCatch =>
        have h0 := hf.2
        have h1 : headIn [.CATCH] r = false := h0.sub (by intro t ht; simp at ht; subst ht; rfl)
        have h2 : headIn [.FINALLY] r = false := h0.sub (by intro t ht; simp at ht; subst ht; rfl)
        simp only [step, catchesP, S.toks, List.nil_append, h1, h2, Bool.false_eq_true, if_false]
      | fin b =>
        simp only [S.depth] at hd
        have h1 := body_compl H r hs.2 (by omega)
        have : mapP S.fin (pre .FINALLY (braced (run n) .body)) ((S.fin b).toks ++ r) = some (S.fin b, r) := by
          simp only [S.toks, List.cons_append, List.append_assoc, List.nil_append]
          exact mapP_some (pre_some h1)
        exact this
      | catch_ l b x =>
        obtain ⟨-, hl, hb, hx⟩ := hs
        simp only [S.depth] at hd
        have h1 := catchHead_compl l (.LBRACE :: (b.toks ++ .RBRACE :: (x.toks ++ r))) hl trivial
        have h2 := body_compl H (x.toks ++ r) hb (by omega)
        have h3 := H .catches x r hx (by omega) (by
          refine ⟨fun ho => ?_, hf.2⟩
          cases x <;> first | (cases ho; done) | (cases hx.1; done) | (exact absurd hx (by simp [S.Fits, Cat.item])))
        have : catchP (run n) ((S.catch_ l b x).toks ++ r) = some (.catch_ l b x, r) := by
          simp only [S.toks, List.cons_append, List.append_assoc, List.nil_append]
          simp only [List.cons_append, List.append_assoc, List.nil_append] at h1
          exact mapP_some (andThen_some h1 (andThen_some h2 h3))
        exact this
      | nil => cases hs
      | cons a l => obtain ⟨i, hi, _⟩ := hs; cases hi
      | noElse => rcases hs with h | h <;> cases h
      | halt => cases hs
      | _ => cases hs.1
    | member =>
      cases s with
      | member m =>
        have h1 := member_compl m r hs.2.1 (member_fol m hs.2.2 r)
        refine mapP_some (f := fun x : Member × S => x.2) (bindP_some h1 ?_)
        simp only [memberRestP, hs.2.2, Bool.false_eq_true, if_false]
      | abstr m =>
        have h1 := member_compl m (.SEMICOLON :: r) hs.2.1 (by cases m <;> first | trivial | rfl)
        simp only [step, S.toks, List.append_assoc, List.cons_append, List.nil_append]
        refine mapP_some (f := fun x : Member × S => x.2) (bindP_some h1 ?_)
        simp only [memberRestP, hs.2.2, if_true]
        rfl
      | method m b =>
        simp only [S.depth] at hd
        have h1 := member_compl m (.LBRACE :: (b.toks ++ .RBRACE :: r)) hs.2.1 (by cases m <;> first | trivial | rfl)
        have h2 := body_compl H r hs.2.2.2 (by omega)
        simp only [step, S.toks, List.append_assoc, List.cons_append, List.nil_append]
        refine mapP_some (f := fun x : Member × S => x.2) (bindP_some h1 ?_)
        simp only [memberRestP, hs.2.2.1, if_true, show headIn [Tok.LBRACE] (.LBRACE :: (b.toks ++ .RBRACE :: r)) = true from rfl]
        exact mapP_some h2
      | nil => cases hs
      | cons a l => obtain ⟨i, hi, _⟩ := hs; cases hi
      | noElse => rcases hs with h | h <;> cases h
      | noCatch => cases hs
      | halt => cases hs
      | _ => cases hs.1

end KPhp.Stmt
