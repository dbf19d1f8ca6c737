import Verif.Completion.Analysis
/-!
# The kind of completion after each token (C54)

What completion is offered depends on the last token before the cursor, white space aside.  The tables
here are written by families of tokens, independently of the lists in the model.
-/
namespace KPhp.Completion

/-- Tokens after which an expression, a statement or a class member can begin: anything is offered. -/
def opensAnything : Tok → Bool
  -- assignments
  | .ASSIGN | .PLUS_ASSIGN | .MINUS_ASSIGN | .MUL_ASSIGN | .DIV_ASSIGN | .CONCAT_ASSIGN | .MOD_ASSIGN
  | .AND_ASSIGN | .OR_ASSIGN | .XOR_ASSIGN | .SL_ASSIGN | .SR_ASSIGN | .EXP_ASSIGN => true
  -- casts
  | .INT_CAST | .DOUBLE_CAST | .STRING_CAST | .ARRAY_CAST | .OBJECT_CAST | .BOOL_CAST | .UNSET_CAST => true
  -- arithmetic, bit and string operators
  | .PLUS | .MINUS | .MUL | .DIV | .MOD | .EXP | .INC | .DEC | .CONCAT
  | .BIT_AND | .BIT_OR | .BIT_XOR | .TILDE | .SL | .SR => true
  -- comparisons
  | .IS_EQUAL | .IS_NOT_EQUAL | .IS_IDENTICAL | .IS_NOT_IDENTICAL | .IS_SMALLER | .IS_GREATER
  | .IS_SMALLER_OR_EQUAL | .IS_GREATER_OR_EQUAL | .SPACESHIP => true
  -- logic
  | .BANG | .BOOLEAN_AND | .BOOLEAN_OR | .LOGICAL_AND | .LOGICAL_OR | .LOGICAL_XOR | .NULL_COALESCE
  | .QUESTION | .COLON | .AT => true
  -- brackets, separators
  | .LBRACE | .RBRACE | .LBRACKET | .SEMICOLON | .DOUBLE_ARROW | .ELLIPSIS | .OPEN_TAG_WITH_ECHO => true
  -- keywords before an expression
  | .ECHO | .PRINT | .RETURN | .EXIT => true
  -- strings with interpolation
  | .DOUBLE_QUOTE | .ENCAPSED_AND_WHITESPACE | .CURLY_OPEN | .DOLLAR_OPEN_CURLY_BRACES | .START_HEREDOC
  | .START_NOWDOC => true
  -- names and documentation comments
  | .STRING | .DOC_COMMENT => true
  | _ => false

/-- Words that only stand before the members of a class. -/
def memberWord : Tok → Bool
  | .PUBLIC | .PROTECTED | .PRIVATE | .STATIC | .ABSTRACT | .FINAL | .CONST | .VAR => true
  | _ => false

/-- Tokens with a rule of their own. -/
def ownRule : Tok → Bool
  | .COMMENT | .EXTENDS | .IMPLEMENTS | .COMMA | .OPEN_TAG | .OBJECT_OPERATOR | .PAAMAYIM_NEKUDOTAYIM | .LPAREN
  | .NEW | .THROW | .CONSTANT_ENCAPSED_STRING | .INSTANCEOF | .NAMESPACE | .BACKSLASH => true
  | _ => false

theorem normal_iff (t : Tok) : normalTokens.contains t = opensAnything t := by cases t <;> decide
theorem modifier_iff (t : Tok) : modifierTokens.contains t = memberWord t := by cases t <;> decide

/-- Result of the analysis of `toks` followed by `t` and, if `trail` is given, white space. -/
theorem analyse_last (u : CharClass) (inClass following : Bool) (toks : List T) (t : T) (trail : Option QString)
    (ht : t.kind ≠ .WHITESPACE) :
    analyse u inClass following false (toks ++ [t] ++ ws trail) =
      (analyseToken u inClass following trail.isSome (t :: toks.reverse)).bind fun a =>
        if !a.valid || a.early then some a else if a.back.isEmpty then none else some a :=
  analyse_ws u inClass following _ trail _ _ ht (by simp)

/-- What the user sees of an analysis. -/
structure Offers (x : Option Analysis) (op : Operation) : Prop where
  /-- completion is offered, of this kind -/
  is : ∃ a, x = some a ∧ a.valid = true ∧ a.op = op

/-- Nothing is offered. -/
def OffersNothing (x : Option Analysis) : Prop := ∃ a, x = some a ∧ a.valid = false

section
variable (u : CharClass) (inClass following : Bool) (toks : List T) (t : T) (trail : Option QString)

/-- **C54 (expressions).** After a token that can be followed by an expression or statement, everything is
offered; in a class body the members of the class. -/
theorem anything_after (h : opensAnything t.kind = true) :
    Offers (analyse u inClass following false (toks ++ [t] ++ ws trail))
      (if inClass then .ClassMemberChoose else .NoMemberAccess) := by
  have hk : ∀ k, opensAnything k = false → t.kind ≠ k := by rintro k hk rfl; rw [hk] at h; simp at h
  rw [analyse_last _ _ _ _ _ _ (hk _ rfl)]
  simp only [analyseToken, kindAt_cons, hk .COMMENT rfl, hk .EXTENDS rfl, hk .IMPLEMENTS rfl, hk .COMMA rfl,
    hk .OPEN_TAG rfl, hk .OBJECT_OPERATOR rfl, hk .PAAMAYIM_NEKUDOTAYIM rfl, hk .LPAREN rfl, hk .NEW rfl,
    hk .THROW rfl, hk .CONSTANT_ENCAPSED_STRING rfl, hk .INSTANCEOF rfl, if_false, normal_iff, h, if_true,
    Option.bind_some]
  exact ⟨_, rfl, rfl, rfl⟩

/-- **C54 (modifiers).** After a modifier, the members of the class in a class body, nothing elsewhere. -/
theorem member_after (h : memberWord t.kind = true) :
    (inClass = true → Offers (analyse u inClass following false (toks ++ [t] ++ ws trail)) .ClassMemberChoose) ∧
    (inClass = false → OffersNothing (analyse u inClass following false (toks ++ [t] ++ ws trail))) := by
  have hk : ∀ k, memberWord k = false → t.kind ≠ k := by rintro k hk rfl; rw [hk] at h; simp at h
  have hn : opensAnything t.kind = false := by revert h; generalize t.kind = k; cases k <;> decide
  rw [analyse_last _ _ _ _ _ _ (hk _ rfl)]
  simp only [analyseToken, kindAt_cons, hk .COMMENT rfl, hk .EXTENDS rfl, hk .IMPLEMENTS rfl, hk .COMMA rfl,
    hk .OPEN_TAG rfl, hk .OBJECT_OPERATOR rfl, hk .PAAMAYIM_NEKUDOTAYIM rfl, hk .LPAREN rfl, hk .NEW rfl,
    hk .THROW rfl, hk .CONSTANT_ENCAPSED_STRING rfl, hk .INSTANCEOF rfl, if_false, normal_iff, hn, modifier_iff, h,
    if_true, Bool.false_eq_true]
  constructor
  · rintro rfl; exact ⟨_, rfl, rfl, rfl⟩
  · rintro rfl; exact ⟨_, rfl, rfl⟩

/-- **C54 (nothing).** After any other token without a rule of its own, nothing is offered. -/
theorem nothing_after (h1 : opensAnything t.kind = false) (h2 : memberWord t.kind = false)
    (h3 : ownRule t.kind = false) (h4 : t.kind ≠ .WHITESPACE) :
    OffersNothing (analyse u inClass following false (toks ++ [t] ++ ws trail)) := by
  have hk : ∀ k, ownRule k = true → t.kind ≠ k := by rintro k hk rfl; rw [hk] at h3; simp at h3
  rw [analyse_last _ _ _ _ _ _ h4]
  simp only [analyseToken, kindAt_cons, hk .COMMENT rfl, hk .EXTENDS rfl, hk .IMPLEMENTS rfl, hk .COMMA rfl,
    hk .OPEN_TAG rfl, hk .OBJECT_OPERATOR rfl, hk .PAAMAYIM_NEKUDOTAYIM rfl, hk .LPAREN rfl, hk .NEW rfl,
    hk .THROW rfl, hk .CONSTANT_ENCAPSED_STRING rfl, hk .INSTANCEOF rfl, hk .NAMESPACE rfl, hk .BACKSLASH rfl,
    if_false, normal_iff, h1, modifier_iff, h2, Bool.false_eq_true, or_self]
  exact ⟨_, rfl, rfl⟩

/-- **C54 (comments).** In an unfinished comment nothing is offered. -/
theorem nothing_in_open_comment (hne : toks ≠ []) : OffersNothing (analyse u inClass following true toks) := by
  unfold analyse
  cases h : toks.reverse with
  | nil => simp at h; exact absurd h hne
  | cons x l => exact ⟨_, rfl, rfl⟩

/-- **C54 (comments).** After a one-line comment something is offered exactly if the comment has ended: with
white space after it, or with its line break; after a block comment always. -/
theorem after_comment (h : t.kind = .COMMENT) :
    (trail.isSome = true ∨ t.text.getLast? = some 10 ∨ (∃ r, t.text = q! "/*" ++ r) →
      Offers (analyse u inClass following false (toks ++ [t] ++ ws trail)) .NoMemberAccess) ∧
    (trail = none → t.text.getLast? ≠ some 10 → (¬ ∃ r, t.text = q! "/*" ++ r) →
      OffersNothing (analyse u inClass following false (toks ++ [t] ++ ws trail))) := by
  have hp : (q! "/*").isPrefixOf t.text = true ↔ ∃ r, t.text = q! "/*" ++ r := by
    rw [List.isPrefixOf_iff_prefix]
    exact ⟨fun ⟨r, h⟩ => ⟨r, h.symm⟩, fun ⟨r, h⟩ => ⟨r, h.symm⟩⟩
  rw [analyse_last _ _ _ _ _ _ (by rw [h]; simp)]
  simp only [analyseToken, kindAt_cons, h, if_true, afterComment, stringBack, List.getElem?_cons_zero, Option.map_some,
    Option.bind_eq_bind, Option.bind_some]
  constructor
  · intro hc
    refine ⟨_, if_neg ?_, ?_, rfl⟩
    all_goals
      rw [← hp] at hc
      generalize (q! "/*").isPrefixOf t.text = x at hc
      rcases hc with hc | hc | hc <;> simp [hc]
  · intro h1 h2 h3
    rw [← hp] at h3
    generalize (q! "/*").isPrefixOf t.text = x at h3
    exact ⟨_, if_pos (by simp [h1, h2, h3]), by simp [h1, h2, h3]⟩

/-- **C54 (open tag).** Directly after `<?php` with text following, nothing is offered; otherwise everything. -/
theorem after_open_tag (h : t.kind = .OPEN_TAG) :
    (trail = none → following = true → OffersNothing (analyse u inClass following false (toks ++ [t] ++ ws trail))) ∧
    (trail.isSome = true ∨ following = false →
      Offers (analyse u inClass following false (toks ++ [t] ++ ws trail)) .NoMemberAccess) := by
  rw [analyse_last _ _ _ _ _ _ (by rw [h]; simp)]
  simp only [analyseToken, kindAt_cons, h]
  constructor
  · rintro rfl rfl; exact ⟨_, rfl, rfl⟩
  · intro hc
    rw [show (if Tok.OPEN_TAG = .COMMENT then afterComment trail.isSome (t :: toks.reverse) else
      if Tok.OPEN_TAG = .EXTENDS then _ else _) = _ from rfl]
    rcases hc with hc | rfl
    · simp [hc]; exact ⟨_, rfl, rfl, rfl⟩
    · simp; exact ⟨_, rfl, rfl, rfl⟩

/-- **C54 (members).** After `->` and `::` members are offered, of the expression before the operator. -/
theorem after_access (hne : toks ≠ []) (h : t.kind = .OBJECT_OPERATOR ∨ t.kind = .PAAMAYIM_NEKUDOTAYIM) :
    ∃ a, analyse u inClass following false (toks ++ [t] ++ ws trail) = some a ∧ a.valid = true ∧
      a.op = (if t.kind = .OBJECT_OPERATOR then .MemberAccess else .StaticMemberAccess) ∧ a.back = toks.reverse := by
  rcases h with h | h <;>
  · rw [analyse_last _ _ _ _ _ _ (by rw [h]; simp)]
    simp [analyseToken, kindAt_cons, h, hne]

/-- **C54 (parenthesis).** After `(`: exceptions after `catch`, everything after `array`, otherwise the call. -/
theorem after_paren (prev : T) (o : Option QString) (h : t.kind = .LPAREN) (hw : prev.kind ≠ .WHITESPACE) :
    Offers (analyse u inClass following false (toks ++ [prev] ++ ws o ++ [t] ++ ws trail))
      (if prev.kind = .CATCH then .ExceptionChoose else if prev.kind = .ARRAY then .NoMemberAccess
       else .FunctionCallAccess) := by
  rw [analyse_last _ _ _ _ _ _ (by rw [h]; simp)]
  have hs : skipWs ((toks ++ [prev] ++ ws o).reverse) = prev :: toks.reverse := by
    rw [List.reverse_append, List.reverse_append]; exact skipWs_ws o prev _ hw
  simp only [analyseToken, kindAt_cons, h]
  have ha : afterLParen (t :: (toks ++ [prev] ++ ws o).reverse) =
      if prev.kind = .CATCH then { valid := true, op := .ExceptionChoose, back := t :: (toks ++ [prev] ++ ws o).reverse }
      else if prev.kind = .ARRAY then
        { valid := true, op := .NoMemberAccess, back := t :: (toks ++ [prev] ++ ws o).reverse, early := true }
      else { valid := true, op := .FunctionCallAccess, back := t :: (toks ++ [prev] ++ ws o).reverse } := by
    simp only [afterLParen, List.tail_cons, hs, kindAt_cons]
  rw [ha]
  by_cases h1 : prev.kind = .CATCH
  · simp only [h1, if_true]; exact ⟨_, rfl, rfl, rfl⟩
  · by_cases h2 : prev.kind = .ARRAY
    · simp only [h2]; exact ⟨_, rfl, rfl, rfl⟩
    · simp only [h1, h2, if_false]; exact ⟨_, rfl, rfl, rfl⟩

/-- **C54 (keywords).** After `instanceof` classes; after `throw` and white space instances of exceptions. -/
theorem after_instanceof_throw :
    (t.kind = .INSTANCEOF → Offers (analyse u inClass following false (toks ++ [t] ++ ws trail)) .InstanceOfChoose) ∧
    (t.kind = .THROW → trail.isSome = true →
      Offers (analyse u inClass following false (toks ++ [t] ++ ws trail)) .ExceptionInstanceChoose) ∧
    (t.kind = .THROW ∨ t.kind = .NEW ∨ t.kind = .EXTENDS ∨ t.kind = .IMPLEMENTS → trail = none →
      OffersNothing (analyse u inClass following false (toks ++ [t] ++ ws trail))) := by
  refine ⟨fun h => ?_, fun h hs => ?_, fun h hs => ?_⟩
  · rw [analyse_last _ _ _ _ _ _ (by rw [h]; simp)]
    simp only [analyseToken, kindAt_cons, h]; exact ⟨_, rfl, rfl, rfl⟩
  · rw [analyse_last _ _ _ _ _ _ (by rw [h]; simp)]
    simp only [analyseToken, kindAt_cons, h, hs]; exact ⟨_, rfl, rfl, rfl⟩
  · subst hs
    rcases h with h | h | h | h <;>
    · rw [analyse_last _ _ _ _ _ _ (by rw [h]; simp)]
      simp only [analyseToken, kindAt_cons, h]; exact ⟨_, rfl, rfl⟩

/-- **C54 (`new`).** After `throw new ` exceptions, after any other `new ` (there are at least two tokens before
it, and the second last is not `throw`) classes. -/
theorem after_new (a b : T) (w : QString) (h : t.kind = .NEW) :
    Offers (analyse u inClass following false (toks ++ [a, b, t] ++ ws (some w)))
      (if a.kind = .THROW ∧ b.kind = .WHITESPACE then .ExceptionChoose else .NewClassChoose) := by
  have : toks ++ [a, b, t] = (toks ++ [a, b]) ++ [t] := by simp
  rw [this, analyse_last _ _ _ _ _ _ (by rw [h]; simp)]
  simp only [analyseToken, kindAt_cons, h]
  have hp : prependedBy (t :: (toks ++ [a, b]).reverse) [.WHITESPACE, .THROW] false =
      some (if b.kind = .WHITESPACE then (if a.kind = .THROW then some 3 else none) else none) := by
    have : (toks ++ [a, b]).reverse = b :: a :: toks.reverse := by simp
    rw [this]
    simp only [prependedBy, List.length_cons, List.length_nil, List.tail_cons, prependedLoop, Bool.false_and,
      Bool.false_eq_true, if_false, beq_iff_eq]
    rw [if_neg (by omega)]
    split
    · split <;> rfl
    · rfl
  have hn : afterNew (t :: (toks ++ [a, b]).reverse) = some
      { valid := true, back := t :: (toks ++ [a, b]).reverse,
        op := if a.kind = .THROW ∧ b.kind = .WHITESPACE then .ExceptionChoose else .NewClassChoose } := by
    simp only [afterNew, hp, Option.bind_eq_bind, Option.bind_some]
    by_cases h1 : a.kind = .THROW <;> by_cases h2 : b.kind = .WHITESPACE <;> simp [h1, h2]
  simp only [hn, Option.isSome]
  exact ⟨_, rfl, rfl, rfl⟩

end

/-! ### Files after `include` -/

/-- Tokens of the given kinds, each preceded by optional white space, read backwards. -/
inductive Spaced : List Tok → List T → Prop
  | nil : Spaced [] []
  | cons {k : Tok} {ks : List Tok} {l : List T} (t : T) (o : Option QString) (hk : t.kind = k) (h : Spaced ks l) :
      Spaced (k :: ks) (ws o ++ t :: l)

theorem loop_spaced {ks : List Tok} {l : List T} (h : Spaced ks l) (hk : ∀ k ∈ ks, k ≠ .WHITESPACE) (rest : List T) :
    ∀ pos, prependedLoop true ks (l ++ rest) pos = some (some (pos + l.length)) := by
  induction h with
  | nil => intro pos; rfl
  | cons t o hkt h ih =>
    subst hkt
    intro pos
    have ih := ih (fun k hk' => hk k (by simp [hk']))
    have ht := hk t.kind (by simp)
    cases o with
    | none =>
      simp only [ws, List.nil_append, List.cons_append, prependedLoop]
      have : (t.kind == Tok.WHITESPACE) = false := by simpa using ht
      simp only [this, Bool.and_false, Bool.false_eq_true, if_false, beq_self_eq_true, if_true, ih,
        List.length_cons]
      congr 2; omega
    | some s =>
      simp only [ws, List.cons_append, List.nil_append, prependedLoop, beq_self_eq_true, Bool.and_self, if_true, ih,
        List.length_cons]
      congr 2; omega

theorem loop_spaced_inv {ks : List Tok} : ∀ {l : List T} {pos p : Nat},
    prependedLoop true ks l pos = some (some p) → ∃ a rest, l = a ++ rest ∧ Spaced ks a ∧ p = pos + a.length := by
  induction ks with
  | nil => intro l pos p h; simp [prependedLoop] at h; exact ⟨[], l, rfl, .nil, by simpa using h.symm⟩
  | cons k ks ih =>
    intro l pos p h
    cases l with
    | nil => simp [prependedLoop] at h
    | cons b bs =>
      simp only [prependedLoop, Bool.true_and, beq_iff_eq] at h
      split at h
      · rename_i hw
        cases bs with
        | nil => simp at h
        | cons b2 bs2 =>
          simp only at h
          split at h
          · rename_i hk
            obtain ⟨a, rest, rfl, hs, rfl⟩ := ih h
            refine ⟨ws (some b.text) ++ b2 :: a, rest, ?_, ?_, by simp [ws]; omega⟩
            · simp [ws, ← hw]
            · exact Spaced.cons b2 (some b.text) hk hs
          · simp at h
      · split at h
        · rename_i hk
          obtain ⟨a, rest, rfl, hs, rfl⟩ := ih h
          refine ⟨ws none ++ b :: a, rest, by simp [ws], ?_, by simp [ws]; omega⟩
          exact Spaced.cons b none hk hs
        · simp at h

/-- What may stand between `include` and the string, read backwards: nothing, `dirname(__FILE__) .` (or a call
of another function with `__FILE__`) or `__DIR__ .`; `d`: it is the directory of the file. -/
inductive DirChunk (u : CharClass) : List T → Bool → Prop
  | none : DirChunk u [] false
  | file {l : List T} (f : T) (h : Spaced [.CONCAT, .RPAREN, .FILE, .LPAREN, .STRING] l) (hf : l.getLast? = some f) :
      DirChunk u l (ciEq u f.text (q! "dirname"))
  | dir {l : List T} (h : Spaced [.CONCAT, .DIR] l) : DirChunk u l true

/-- `include`, `include_once`, `require` or `require_once`. -/
def isInclude : Tok → Bool
  | .INCLUDE | .INCLUDE_ONCE | .REQUIRE | .REQUIRE_ONCE => true
  | _ => false

theorem include_iff (t : Tok) : includeTokens.contains t = isInclude t := by cases t <;> decide

/-- `include` with an optional parenthesis and white space, read backwards. -/
structure IncludeHead (l : List T) : Prop where
  is : ∃ o₁ par o₂ inc pre, l = ws o₁ ++ (par ++ (ws o₂ ++ inc :: pre)) ∧ isInclude inc.kind = true ∧
    (par = [] ∨ ∃ p : T, p.kind = .LPAREN ∧ par = [p])

theorem ws_reverse (o : Option QString) : (ws o).reverse = ws o := by cases o <;> rfl

theorem skipWs_ws' (o : Option QString) (t : T) (l : List T) (ht : t.kind ≠ .WHITESPACE) :
    skipWs (ws o ++ t :: l) = t :: l := by
  rw [← ws_reverse]; exact skipWs_ws o t l ht

theorem skipWs_split (l : List T) : ∃ o, l = ws o ++ skipWs l := by
  cases l with
  | nil => exact ⟨none, rfl⟩
  | cons t r =>
    by_cases h : t.kind = .WHITESPACE
    · refine ⟨some t.text, ?_⟩
      obtain ⟨k, s⟩ := t
      simp only at h
      subst h
      simp [skipWs, ws]
    · exact ⟨none, by simp [skipWs, h, ws]⟩

/-- The end of `afterLiteral`. -/
def headKind (l : List T) : Tok :=
  kindAt (skipWs (if kindAt (skipWs l) 0 = .LPAREN then (skipWs l).tail else skipWs l)) 0

theorem headKind_iff (l : List T) : isInclude (headKind l) = true ↔ IncludeHead l := by
  constructor
  · intro h
    unfold headKind at h
    obtain ⟨o₁, h1⟩ := skipWs_split l
    generalize skipWs l = m at h h1
    have inc : ∀ m : List T, isInclude (kindAt (skipWs m) 0) = true →
        ∃ o₂ inc pre, m = ws o₂ ++ inc :: pre ∧ isInclude inc.kind = true := by
      intro m h
      obtain ⟨o₂, h2⟩ := skipWs_split m
      generalize skipWs m = n at h h2
      cases n with
      | nil => exact absurd h (by decide)
      | cons i pre => exact ⟨o₂, i, pre, h2, h⟩
    split at h
    · rename_i hp
      obtain ⟨o₂, i, pre, h2, hi⟩ := inc _ h
      cases m with
      | nil => exact absurd hp (by decide)
      | cons p m =>
        simp only [List.tail_cons] at h2
        exact ⟨o₁, [p], o₂, i, pre, by rw [h1, h2]; rfl, hi, Or.inr ⟨p, hp, rfl⟩⟩
    · obtain ⟨o₂, i, pre, h2, hi⟩ := inc _ h
      exact ⟨o₁, [], o₂, i, pre, by rw [h1, h2]; rfl, hi, Or.inl rfl⟩
  · rintro ⟨o₁, par, o₂, i, pre, rfl, hi, hp⟩
    have hiw : i.kind ≠ .WHITESPACE := by intro h; rw [h] at hi; exact absurd hi (by decide)
    have hil : i.kind ≠ .LPAREN := by intro h; rw [h] at hi; exact absurd hi (by decide)
    unfold headKind
    rcases hp with rfl | ⟨p, hp, rfl⟩
    · simp only [List.nil_append]
      cases o₁ with
      | none =>
        have : skipWs (ws none ++ (ws o₂ ++ i :: pre)) = i :: pre := skipWs_ws' o₂ i pre hiw
        rw [this, kindAt_cons, if_neg hil]
        simp [skipWs, hiw, kindAt, hi]
      | some s =>
        have : skipWs (ws (some s) ++ (ws o₂ ++ i :: pre)) = ws o₂ ++ i :: pre := by simp [ws, skipWs]
        rw [this, if_neg ?_, skipWs_ws' _ _ _ hiw]
        · exact hi
        · cases o₂ <;> simp [ws, kindAt, hil]
    · rw [List.singleton_append, skipWs_ws' _ _ _ (by rw [hp]; decide), kindAt_cons, if_pos hp, List.tail_cons,
        skipWs_ws' _ _ _ hiw]
      exact hi

theorem Spaced.length {ks : List Tok} {l : List T} (h : Spaced ks l) : ks.length ≤ l.length := by
  induction h with
  | nil => simp
  | cons t o hk h ih => simp; omega

/-- A head does not begin like `… .`. -/
theorem head_no_concat {l : List T} (h : IncludeHead l) (ks : List Tok) (pos : Nat) :
    prependedLoop true (.CONCAT :: ks) l pos = some none := by
  obtain ⟨o₁, par, o₂, i, pre, rfl, hi, hp⟩ := h
  have key : ∀ (o : Option QString) (t : T) (r : List T), t.kind ≠ .WHITESPACE → t.kind ≠ .CONCAT →
      prependedLoop true (.CONCAT :: ks) (ws o ++ t :: r) pos = some none := by
    intro o t r h1 h2
    cases o <;> simp [ws, prependedLoop, h1, h2]
  have hiw : i.kind ≠ .WHITESPACE := by intro h; rw [h] at hi; exact absurd hi (by decide)
  have hil : i.kind ≠ .CONCAT := by intro h; rw [h] at hi; exact absurd hi (by decide)
  rcases hp with rfl | ⟨p, hp, rfl⟩
  · cases o₁ with
    | none => exact key o₂ i pre hiw hil
    | some s =>
      cases o₂ with
      | none => exact key (some s) i pre hiw hil
      | some s' => simp [ws, prependedLoop]
  · exact key o₁ p _ (by rw [hp]; decide) (by rw [hp]; decide)

theorem prependedBy_true (t : T) (l : List T) (ks : List Tok) (p : Nat)
    (h : prependedLoop true ks l 1 = some (some p)) : prependedBy (t :: l) ks true = some (some p) := by
  obtain ⟨a, rest, rfl, hs, _⟩ := loop_spaced_inv h
  have := hs.length
  unfold prependedBy
  rw [if_neg (by simp; omega)]
  exact h

theorem prependedBy_none (t : T) (l : List T) (ks : List Tok)
    (h : prependedLoop true ks l 1 = some none) : prependedBy (t :: l) ks true = some none := by
  unfold prependedBy
  split
  · rfl
  · exact h

theorem prependedBy_some {t : T} {l : List T} {ks : List Tok} {p : Nat}
    (h : prependedBy (t :: l) ks true = some (some p)) : prependedLoop true ks l 1 = some (some p) := by
  unfold prependedBy at h
  split at h
  · simp at h
  · exact h

theorem Spaced.last {ks : List Tok} {l : List T} (h : Spaced ks l) (hne : ks ≠ []) : ∃ f, l.getLast? = some f := by
  cases h with
  | nil => exact absurd rfl hne
  | @cons k ks l' t o hk h =>
    have : ws o ++ t :: l' ≠ [] := by simp
    exact ⟨_, List.getLast?_eq_some_getLast this⟩

theorem stringBack_last {t : T} {a rest : List T} {f : T} (h : a.getLast? = some f) :
    stringBack (t :: (a ++ rest)) (1 + a.length - 1) = some f.text := by
  obtain ⟨a', rfl⟩ : ∃ a', a = a' ++ [f] := by
    have hne : a ≠ [] := by intro h'; rw [h'] at h; simp at h
    refine ⟨a.dropLast, ?_⟩
    rw [List.getLast?_eq_some_getLast hne] at h
    injection h with h
    rw [← h]; exact (List.dropLast_concat_getLast hne).symm
  have : 1 + (a' ++ [f]).length - 1 = a'.length + 1 := by simp
  rw [this]
  simp [stringBack]

theorem Spaced.inv2 {k₁ k₂ : Tok} {l : List T} (h : Spaced [k₁, k₂] l) :
    ∃ t₁ o₁ t₂ o₂, l = ws o₁ ++ t₁ :: (ws o₂ ++ [t₂]) ∧ t₁.kind = k₁ ∧ t₂.kind = k₂ := by
  cases h with
  | cons t1 o1 hk1 h =>
    cases h with
    | cons t2 o2 hk2 h =>
      cases h
      exact ⟨t1, o1, t2, o2, rfl, hk1, hk2⟩

/-- `afterDirname` finds exactly the chunk before the string. -/
theorem afterDirname_of {u : CharClass} {t : T} {a head : List T} {d : Bool} (hc : DirChunk u a d)
    (hh : IncludeHead head) : afterDirname u (t :: (a ++ head)) = some (1 + a.length, d) := by
  unfold afterDirname
  cases hc with
  | none =>
    simp only [List.nil_append, prependedBy_none _ _ _ (head_no_concat hh _ _), Option.bind_eq_bind,
      Option.bind_some, List.length_nil, Nat.add_zero]
  | file f h hf =>
    simp only [prependedBy_true _ _ _ _ (loop_spaced h (by decide) head 1), Option.bind_eq_bind, Option.bind_some,
      stringBack_last hf]
  | dir h =>
    have h1 : prependedLoop true [.CONCAT, .RPAREN, .FILE, .LPAREN, .STRING] (a ++ head) 1 = some none := by
      obtain ⟨t1, o1, t2, o2, rfl, hk1, hk2⟩ := h.inv2
      rw [show ws o1 ++ t1 :: (ws o2 ++ [t2]) ++ head = ws o1 ++ t1 :: (ws o2 ++ t2 :: head) by simp]
      cases o1 <;> cases o2 <;> simp [ws, prependedLoop, hk1, hk2]
    simp only [prependedBy_none _ _ _ h1, prependedBy_true _ _ _ _ (loop_spaced h (by decide) head 1),
      Option.bind_eq_bind, Option.bind_some]

/-- What `afterDirname` returns is always such a chunk. -/
theorem afterDirname_inv {u : CharClass} {t : T} {l : List T} {pos : Nat} {d : Bool}
    (h : afterDirname u (t :: l) = some (pos, d)) :
    ∃ a rest, l = a ++ rest ∧ DirChunk u a d ∧ pos = 1 + a.length := by
  unfold afterDirname at h
  simp only [Option.bind_eq_bind, Option.bind_eq_some_iff] at h
  obtain ⟨x, hx, h⟩ := h
  cases x with
  | some p =>
    simp only [Option.bind_eq_some_iff] at h
    obtain ⟨s, hs, h⟩ := h
    obtain ⟨a, rest, rfl, hsp, rfl⟩ := loop_spaced_inv (prependedBy_some hx)
    obtain ⟨f, hf⟩ := hsp.last (by simp)
    rw [stringBack_last hf] at hs
    cases hs
    simp at h
    obtain ⟨rfl, rfl⟩ := h
    exact ⟨a, rest, rfl, .file f hsp hf, rfl⟩
  | none =>
    simp only [Option.bind_eq_some_iff] at h
    obtain ⟨y, hy, h⟩ := h
    cases y with
    | some p =>
      obtain ⟨a, rest, rfl, hsp, rfl⟩ := loop_spaced_inv (prependedBy_some hy)
      simp at h
      obtain ⟨rfl, rfl⟩ := h
      exact ⟨a, rest, rfl, .dir hsp, rfl⟩
    | none =>
      simp at h
      obtain ⟨rfl, rfl⟩ := h
      exact ⟨[], l, rfl, .none, rfl⟩

theorem drop_chunk (t : T) (a rest : List T) : (t :: (a ++ rest)).drop (1 + a.length) = rest := by
  rw [Nat.add_comm, List.drop_succ_cons, List.drop_left]

theorem afterLiteral_eq {u : CharClass} {t : T} {a rest : List T} {d : Bool}
    (h : afterDirname u (t :: (a ++ rest)) = some (1 + a.length, d)) :
    afterLiteral u (t :: (a ++ rest)) = some (if isInclude (headKind rest) then
      { valid := true, op := .FileChoose, back := t :: (a ++ rest), afterDirname := d }
      else { valid := false, back := t :: (a ++ rest) }) := by
  unfold afterLiteral
  simp only [h, Option.bind_eq_bind, Option.bind_some, drop_chunk, include_iff]
  show (if isInclude (headKind rest) = true then _ else _) = _
  split <;> rfl

section
variable (u : CharClass) (inClass following : Bool) (toks : List T) (t : T) (trail : Option QString)

/-- **C54 (files).** In a string that follows `include` or `require` (with or without parenthesis, and with or
without `dirname(__FILE__) .` or `__DIR__ .` before it) files are offered, and it is known whether the path is
relative to the directory of the file. -/
theorem file_after_include (a head : List T) (d : Bool) (h : t.kind = .CONSTANT_ENCAPSED_STRING)
    (hr : toks.reverse = a ++ head) (ha : DirChunk u a d) (hh : IncludeHead head) :
    ∃ r, analyse u inClass following false (toks ++ [t] ++ ws trail) = some r ∧ r.valid = true ∧
      r.op = .FileChoose ∧ r.afterDirname = d := by
  rw [analyse_last _ _ _ _ _ _ (by rw [h]; simp), hr]
  have := afterLiteral_eq (rest := head) (afterDirname_of (t := t) ha hh)
  rw [(headKind_iff head).2 hh, if_pos rfl] at this
  simp only [analyseToken, kindAt_cons, h, this]
  exact ⟨_, rfl, rfl, rfl, rfl⟩

/-- **C54 (files, converse).** Files are offered only there; in any other string nothing is offered. -/
theorem file_only_after_include (h : t.kind = .CONSTANT_ENCAPSED_STRING) {r : Analysis}
    (hr : analyse u inClass following false (toks ++ [t] ++ ws trail) = some r) :
    (r.valid = false ∧ ¬ ∃ a head d, toks.reverse = a ++ head ∧ DirChunk u a d ∧ IncludeHead head) ∨
    (r.valid = true ∧ r.op = .FileChoose ∧ ∃ a head, toks.reverse = a ++ head ∧ DirChunk u a r.afterDirname ∧
      IncludeHead head) := by
  by_cases hex : ∃ a head d, toks.reverse = a ++ head ∧ DirChunk u a d ∧ IncludeHead head
  · right
    obtain ⟨a, head, d, h1, h2, h3⟩ := hex
    obtain ⟨r', e1, e2, e3, e4⟩ := file_after_include u inClass following toks t trail a head d h h1 h2 h3
    rw [e1] at hr
    cases hr
    exact ⟨e2, e3, a, head, h1, by rw [e4]; exact h2, h3⟩
  · left
    refine ⟨?_, hex⟩
    rw [analyse_last _ _ _ _ _ _ (by rw [h]; simp)] at hr
    have hl : analyseToken u inClass following trail.isSome (t :: toks.reverse) = afterLiteral u (t :: toks.reverse) := by
      simp only [analyseToken, kindAt_cons, h]; rfl
    rw [hl] at hr
    cases hd : afterDirname u (t :: toks.reverse) with
    | none =>
      unfold afterLiteral at hr
      rw [hd] at hr; simp at hr
    | some pd =>
      obtain ⟨pos, d⟩ := pd
      obtain ⟨a, rest, h1, h2, rfl⟩ := afterDirname_inv hd
      rw [h1] at hd hr
      rw [afterLiteral_eq hd] at hr
      cases hi : isInclude (headKind rest) with
      | true => exact absurd ⟨a, rest, d, h1, h2, (headKind_iff rest).1 hi⟩ hex
      | false =>
        rw [hi] at hr
        simp at hr
        rw [← hr]

end

/-! ### Namespaces -/

/-- The qualified name written by a list of name and backslash tokens, with `::` for each backslash. -/
def nameText : List T → QString
  | [] => []
  | t :: r => (if t.kind = .BACKSLASH then q! "::" else t.text) ++ nameText r

theorem nameText_append (a b : List T) : nameText (a ++ b) = nameText a ++ nameText b := by
  induction a with
  | nil => rfl
  | cons t a ih => simp [nameText, ih]

theorem namespaceLoop_spec (name : List T) (hn : ∀ x ∈ name, x.kind = .STRING ∨ x.kind = .BACKSLASH) (rest : List T)
    (hr : ∀ x ∈ rest.head?, x.kind ≠ .STRING ∧ x.kind ≠ .BACKSLASH) : ∀ acc,
    namespaceLoop (name.reverse ++ rest) acc = (nameText name ++ acc, rest) := by
  have stop : ∀ acc, namespaceLoop rest acc = (acc, rest) := by
    intro acc
    cases rest with
    | nil => rfl
    | cons x l =>
      have := hr x (by simp)
      simp [namespaceLoop, this.1, this.2]
  obtain ⟨m, rfl⟩ : ∃ m, name = m.reverse := ⟨name.reverse, by simp⟩
  rw [List.reverse_reverse]
  have hn : ∀ x ∈ m, x.kind = .STRING ∨ x.kind = .BACKSLASH := fun x hx => hn x (by simpa using hx)
  clear hr
  induction m with
  | nil => intro acc; simpa [nameText] using stop acc
  | cons t m ih =>
    intro acc
    have ih := ih (fun x hx => hn x (by simp at hx; simp [hx])) (fun x hx => hn x (by simp [hx]))
    have e : nameText (t :: m).reverse = nameText m.reverse ++ (if t.kind = .BACKSLASH then q! "::" else t.text) := by
      simp [nameText_append, nameText]
    rw [e]
    rcases hn t (by simp) with h | h
    · simp only [List.cons_append, namespaceLoop, h, if_true]
      rw [if_neg (by decide), ih]; simp
    · simp only [List.cons_append, namespaceLoop, h, if_true]
      rw [ih]; simp

section
variable (u : CharClass) (inClass following : Bool) (pre name : List T) (t : T) (trail : Option QString)

/-- **C54 (qualified names).** After a qualified name that ends with a backslash, what is offered lies in the
namespace written there. -/
theorem after_qualified (h : t.kind = .BACKSLASH) (hn : ∀ x ∈ name, x.kind = .STRING ∨ x.kind = .BACKSLASH)
    (hp : ∀ x ∈ pre.getLast?, x.kind ≠ .STRING ∧ x.kind ≠ .BACKSLASH ∧ x.kind ≠ .NAMESPACE) :
    ∃ a, analyse u inClass following false (pre ++ name ++ [t] ++ ws trail) = some a ∧ a.valid = true ∧
      a.op = .BackslashAccess ∧ a.nspace = nameText (name ++ [t]) := by
  rw [analyse_last _ _ _ _ _ _ (by rw [h]; simp)]
  have hl := namespaceLoop_spec (name ++ [t]) (by
      intro x hx
      rcases List.mem_append.1 hx with hx | hx
      · exact hn x hx
      · simp at hx; subst hx; exact Or.inr h) pre.reverse (by
      intro x hx; rw [List.head?_reverse] at hx; exact ⟨(hp x hx).1, (hp x hx).2.1⟩) []
  have e : t :: (pre ++ name).reverse = (name ++ [t]).reverse ++ pre.reverse := by simp
  rw [← e, List.append_nil] at hl
  have hk : kindAt pre.reverse 0 ≠ .NAMESPACE := by
    cases hpr : pre.reverse with
    | nil => decide
    | cons x l =>
      have : x ∈ pre.getLast? := by rw [← List.head?_reverse, hpr]; simp
      exact (hp x this).2.2
  have ha : afterNamespace (t :: (pre ++ name).reverse) =
      { valid := true, back := t :: (pre ++ name).reverse, nspace := nameText (name ++ [t]), op := .BackslashAccess } := by
    unfold afterNamespace
    rw [hl]
    simp only [if_neg hk]
  simp only [analyseToken, kindAt_cons, h, ha]
  exact ⟨_, rfl, rfl, rfl, rfl⟩

/-- **C54 (namespaces).** Directly after `namespace`, the namespaces are offered. -/
theorem after_namespace (h : t.kind = .NAMESPACE) :
    Offers (analyse u inClass following false (pre ++ [t] ++ ws trail)) .NamespaceChoose := by
  rw [analyse_last _ _ _ _ _ _ (by rw [h]; simp)]
  have ha : afterNamespace (t :: pre.reverse) =
      { valid := true, back := t :: pre.reverse, nspace := [], op := .NamespaceChoose } := by
    simp [afterNamespace, namespaceLoop, h, kindAt]
  simp only [analyseToken, kindAt_cons, h, ha]
  exact ⟨_, rfl, rfl, rfl⟩

/-- **C54 (finding).** After `namespace A\` the namespaces are *not* offered: the white space after the keyword
stands before the name, so the completion is the one of qualified names in expressions. -/
theorem namespace_prefix_lost (kw sp : QString) (h : t.kind = .BACKSLASH)
    (hn : ∀ x ∈ name, x.kind = .STRING ∨ x.kind = .BACKSLASH) :
    Offers (analyse u inClass following false (pre ++ [⟨.NAMESPACE, kw⟩, ⟨.WHITESPACE, sp⟩] ++ name ++ [t] ++ ws trail))
      .BackslashAccess := by
  obtain ⟨a, h1, h2, h3, _⟩ := after_qualified u inClass following (pre ++ [⟨.NAMESPACE, kw⟩, ⟨.WHITESPACE, sp⟩])
    name t trail h hn (by intro x hx; simp at hx; subst hx; simp)
  exact ⟨a, h1, h2, h3⟩
end

/-- `include (dirname(__FILE__) . '/a` -/
example : (analyse asciiClass false false false
    [⟨.OPEN_TAG, q! "<?php "⟩, ⟨.INCLUDE, q! "include"⟩, ⟨.WHITESPACE, q! " "⟩, ⟨.LPAREN, q! "("⟩,
     ⟨.STRING, q! "dirname"⟩, ⟨.LPAREN, q! "("⟩, ⟨.FILE, q! "__FILE__"⟩, ⟨.RPAREN, q! ")"⟩, ⟨.WHITESPACE, q! " "⟩,
     ⟨.CONCAT, q! "."⟩, ⟨.WHITESPACE, q! " "⟩, ⟨.CONSTANT_ENCAPSED_STRING, q! "'/a"⟩]).map
      (fun a => (a.op, a.afterDirname)) = some (.FileChoose, true) := by
  decide +kernel
example : DirChunk asciiClass [⟨.WHITESPACE, q! " "⟩, ⟨.CONCAT, q! "."⟩, ⟨.DIR, q! "__DIR__"⟩] true :=
  .dir (.cons ⟨.CONCAT, q! "."⟩ (some (q! " ")) rfl (.cons ⟨.DIR, q! "__DIR__"⟩ none rfl .nil))
example : IncludeHead [⟨.LPAREN, q! "("⟩, ⟨.WHITESPACE, q! " "⟩, ⟨.REQUIRE_ONCE, q! "require_once"⟩] :=
  ⟨none, [⟨.LPAREN, q! "("⟩], some (q! " "), ⟨.REQUIRE_ONCE, q! "require_once"⟩, [], rfl, rfl, Or.inr ⟨_, rfl, rfl⟩⟩

end KPhp.Completion
