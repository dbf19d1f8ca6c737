import Verif.Lexer.Props2
/-!
# Operators and punctuation: the longest match

In PHP code, where no white space, number, variable, name, string or comment begins, the lexer returns
the longest operator of the list `operators` that the text continues with.
-/
namespace KPhp

/-- The text continues with `s` at offset `b`. -/
def TextAt (c : QString) : Nat → QString → Prop
  | _, [] => True
  | b, x :: xs => chr c b = x ∧ TextAt c (b + 1) xs

/-- The operators and punctuation marks of PHP with their tokens. -/
def operators : List (QString × Tok) :=
  [(q! "(", .LPAREN), (q! ")", .RPAREN), (q! "[", .LBRACKET), (q! "]", .RBRACKET),
   (q! "{", .LBRACE), (q! "}", .RBRACE), (q! ",", .COMMA), (q! ";", .SEMICOLON), (q! "@", .AT),
   (q! "~", .TILDE), (q! "$", .DOLLAR), (q! "\\", .BACKSLASH), (q! "`", .BACKTICK),
   (q! "!", .BANG), (q! "!=", .IS_NOT_EQUAL), (q! "!==", .IS_NOT_IDENTICAL),
   (q! "=", .ASSIGN), (q! "==", .IS_EQUAL), (q! "===", .IS_IDENTICAL), (q! "=>", .DOUBLE_ARROW),
   (q! ">", .IS_GREATER), (q! ">>", .SR), (q! ">>=", .SR_ASSIGN), (q! ">=", .IS_GREATER_OR_EQUAL),
   (q! "<", .IS_SMALLER), (q! "<<", .SL), (q! "<<=", .SL_ASSIGN), (q! "<=", .IS_SMALLER_OR_EQUAL),
   (q! "<=>", .SPACESHIP), (q! "<>", .IS_NOT_EQUAL),
   (q! "/", .DIV), (q! "/=", .DIV_ASSIGN), (q! "%", .MOD), (q! "%=", .MOD_ASSIGN),
   (q! "^", .BIT_XOR), (q! "^=", .XOR_ASSIGN),
   (q! "*", .MUL), (q! "**", .EXP), (q! "*=", .MUL_ASSIGN), (q! "**=", .EXP_ASSIGN),
   (q! "|", .BIT_OR), (q! "||", .BOOLEAN_OR), (q! "|=", .OR_ASSIGN),
   (q! "&", .BIT_AND), (q! "&&", .BOOLEAN_AND), (q! "&=", .AND_ASSIGN),
   (q! "+", .PLUS), (q! "++", .INC), (q! "+=", .PLUS_ASSIGN),
   (q! "-", .MINUS), (q! "--", .DEC), (q! "-=", .MINUS_ASSIGN), (q! "->", .OBJECT_OPERATOR),
   (q! ".", .CONCAT), (q! ".=", .CONCAT_ASSIGN), (q! "...", .ELLIPSIS),
   (q! "?", .QUESTION), (q! "??", .NULL_COALESCE), (q! "?>", .CLOSE_TAG),
   (q! ":", .COLON), (q! "::", .PAAMAYIM_NEKUDOTAYIM)]

/-- `[b, e)` is the longest operator the text continues with at `b`, and `t` is its token. -/
def LongestOperator (c : QString) (b e : Nat) (t : Tok) : Prop :=
  ∃ op, (op, t) ∈ operators ∧ TextAt c b op ∧ e = b + op.length ∧
    ∀ p ∈ operators, TextAt c b p.1 → p.1.length ≤ op.length

/-- None of the other lexical elements of PHP code begins at `b`. -/
structure NoOtherElement (u : CharClass) (c : QString) (b : Nat) : Prop where
  space : u.isSpace (chr c b) = false
  digit : u.isDigit (chr c b) = false
  fraction : ¬ (chr c b = c! '.' ∧ u.isDigit (chr c (b + 1)) = true)
  name : nameStart u (chr c b) = false
  var : ¬ (chr c b = c! '$' ∧ nameStart u (chr c (b + 1)) = true)
  quote : chr c b ≠ c! '\'' ∧ chr c b ≠ c! '"'
  hash : chr c b ≠ c! '#'
  comment : ¬ TextAt c b (q! "//") ∧ ¬ TextAt c b (q! "/*")

section
variable {u : CharClass} {c : QString} {b : Nat} {stack : List St} {ident : QString}

/-- What the theorem says of one result. -/
def OpRes (c : QString) (b : Nat) (r : Res) : Prop :=
  (r.tok.isCast = true ∧ chr c b = c! '(') ∨
  (r.tok.isDocStart = true ∧ TextAt c b (q! "<<<")) ∨
  LongestOperator c b r.nxt r.tok ∨
  (r.tok = .INVALID ∧ r.nxt = b + 1 ∧ ∀ p ∈ operators, ¬ TextAt c b p.1)

def OpOut (c : QString) (b : Nat) (x : Option Res) : Prop := ∀ r, x = some r → OpRes c b r

theorem OpOut.ite {p : Prop} [Decidable p] {x y : Option Res}
    (h1 : p → OpOut c b x) (h2 : ¬ p → OpOut c b y) : OpOut c b (if p then x else y) := by
  by_cases h : p
  · rw [if_pos h]; exact h1 h
  · rw [if_neg h]; exact h2 h

theorem OpOut.op {t : Tok} {n : Nat} {st : List St} {id : QString} {nl : List Nat}
    (h : LongestOperator c b n t) : OpOut c b (some ⟨t, n, st, id, nl⟩) := by
  rintro _ ⟨⟩; exact Or.inr (Or.inr (Or.inl h))

/-- A longest match from a decision on the next three characters. -/
theorem longest_of {op : QString} {t : Tok} {n : Nat} (hm : (op, t) ∈ operators) (ht : TextAt c b op)
    (hn : n = b + op.length) (hl : ∀ p ∈ operators, TextAt c b p.1 → p.1.length ≤ op.length) :
    LongestOperator c b n t := ⟨op, hm, ht, hn, hl⟩

/-- The rests of the operators that begin with `x`. -/
def opsOf (x : QChar) : List QString :=
  operators.filterMap fun p => if p.1.head? = some x then some p.1.tail else none

theorem ops_first {x : QChar} (hx : chr c b = x) {n : Nat}
    (h : ∀ s ∈ opsOf x, TextAt c (b + 1) s → s.length + 1 ≤ n) :
    ∀ p ∈ operators, TextAt c b p.1 → p.1.length ≤ n := by
  rintro ⟨op, t⟩ hp ht
  cases op with
  | nil => simp
  | cons y ys =>
    obtain ⟨h1, h2⟩ := ht
    refine h ys ?_ h2
    refine List.mem_filterMap.2 ⟨_, hp, ?_⟩
    rw [if_pos (by simp [← hx, h1])]; rfl

/-- Outcome of `punct`. -/
def PLong (c : QString) (b : Nat) (x : Option (Option (Tok × Nat))) : Prop :=
  ∀ o, x = some o → (∀ t k, o = some (t, k) → LongestOperator c b (b + k) t) ∧
    (o = none → ∀ p ∈ operators, ¬ TextAt c b p.1)

theorem PLong.ite {p : Prop} [Decidable p] {x y : Option (Option (Tok × Nat))}
    (h1 : p → PLong c b x) (h2 : ¬ p → PLong c b y) : PLong c b (if p then x else y) := by
  by_cases h : p
  · rw [if_pos h]; exact h1 h
  · rw [if_neg h]; exact h2 h

theorem PLong.tok {t : Tok} {k : Nat} (h : LongestOperator c b (b + k) t) :
    PLong c b (some (some (t, k))) := by
  rintro _ ⟨⟩
  exact ⟨by rintro _ _ ⟨⟩; exact h, by simp⟩

theorem PLong.none (h : ∀ p ∈ operators, ¬ TextAt c b p.1) : PLong c b (some none) := by
  rintro _ ⟨⟩
  exact ⟨by simp, fun _ => h⟩

theorem PLong.look2 {x y : Nat} {f : Bool → Option (Option (Tok × Nat))} (hy : y ≠ 0)
    (h : chr c (b + 1) = y) (hf : PLong c b (f (chr c (b + 2) == x))) :
    PLong c b ((isAt c (b + 2) x).bind f) := by
  have := lt_of_chr_eq h hy
  rw [isAt_some (by omega), Option.bind_some]; exact hf

/-- Close a longest-match goal whose operator is given; the facts about the characters are in
context. -/
macro "longest" s:str : tactic =>
  `(tactic| (refine longest_of (op := q! $s) ?_ ?_ ?_ (ops_first (by assumption) ?_)
             · decide
             · simp [TextAt, *]
             · rfl
             · simp [TextAt, opsOf, operators, *]))

set_option maxHeartbeats 2000000 in
theorem punct_longest (hb : b < c.length) (h36 : chr c b ≠ 36) (h125 : chr c b ≠ 125)
    (h123 : chr c b ≠ 123) (h40 : chr c b ≠ 40) (h60 : chr c b ≠ 60) (h63 : chr c b ≠ 63)
    (harr : chr c b = 45 → chr c (b + 1) ≠ 62) (h47 : chr c b ≠ 47) (h96 : chr c b ≠ 96) :
    PLong c b (punct c b (chr c b)) := by
  have i1 : ∀ x, isAt c (b + 1) x = some (chr c (b + 1) == x) := fun x => isAt_some (by omega)
  unfold punct
  simp only [Option.bind_eq_bind, i1, Option.bind_some, beq_iff_eq]
  clear i1 hb
  repeat' first
    | refine PLong.none ?_
    | refine PLong.tok ?_
    | refine PLong.ite (fun h => ?_) (fun h => ?_)
    | (refine PLong.look2 (y := 61) (by decide) (by assumption) ?_; simp only [beq_iff_eq])
    | (refine PLong.look2 (y := 62) (by decide) (by assumption) ?_; simp only [beq_iff_eq])
    | (refine PLong.look2 (y := 42) (by decide) (by assumption) ?_; simp only [beq_iff_eq])
    | (refine PLong.look2 (y := 46) (by decide) (by assumption) ?_; simp only [beq_iff_eq])
    | fail
  · longest ")"
  · longest "]"
  · longest "["
  · longest ","
  · longest "@"
  · longest "!=="
  · longest "!="
  · longest "!"
  · longest ">>="
  · longest ">>"
  · longest ">="
  · longest ">"
  · longest "~"
  · longest "::"
  · longest ":"
  · longest "%="
  · longest "%"
  · longest "^="
  · longest "^"
  · longest "*="
  · longest "**="
  · longest "**"
  · longest "*"
  · longest "||"
  · longest "|="
  · longest "|"
  · longest "&&"
  · longest "&="
  · longest "&"
  · longest "++"
  · longest "+="
  · longest "+"
  · longest "--"
  · longest "-="
  · longest "-"
  · longest ".="
  · longest "..."
  · longest "."
  · longest "."
  · longest "\\"
  · longest ";"
  · longest "==="
  · longest "=="
  · longest "=>"
  · longest "="
  · simp_all [TextAt, operators]

theorem heredocOpt_false {id : QString} : heredocOpt u c b id false = some (id, none) := rfl

theorem ltBranch_longest (hb : b < c.length) (h : chr c b = 60) :
    OpOut c b (ltBranch u c b stack ident) := by
  unfold ltBranch
  simp only [Option.bind_eq_bind]
  rw [rd_some (by omega), Option.bind_some]
  refine OpOut.ite (fun h1 => ?_) fun h1 => ?_
  · have hl := lt_of_chr_eq h1 (by decide)
    rw [rd_some (by omega), Option.bind_some]
    intro r hr
    simp only [Option.bind_eq_some_iff] at hr
    obtain ⟨top, _, ⟨id', o⟩, hh, hr⟩ := hr
    cases o with
    | some p =>
      have h2 : chr c (b + 2) = 60 := by
        unfold heredocOpt at hh
        split at hh
        · rename_i hx; simp at hx; exact hx.1
        · simp at hh
      obtain ⟨nd, q⟩ := p
      refine Or.inr (Or.inl ⟨?_, h, h1, h2, trivial⟩)
      cases nd <;> simp at hr <;> subst hr <;> rfl
    | none =>
      revert hr
      revert r
      show OpOut c b _
      simp only
      refine OpOut.ite (fun h2 => OpOut.op ?_) fun h2 => OpOut.op ?_
      · longest "<<="
      · longest "<<"
  · refine OpOut.ite (fun h2 => ?_) fun h2 => ?_
    · have hl := lt_of_chr_eq h2 (by decide)
      rw [isAt_some (by omega), Option.bind_some]
      simp only [beq_iff_eq]
      refine OpOut.ite (fun h3 => OpOut.op ?_) fun h3 => OpOut.op ?_
      · longest "<=>"
      · longest "<="
    · refine OpOut.ite (fun h3 => OpOut.op ?_) fun h3 => OpOut.op ?_
      · longest "<>"
      · longest "<"

theorem questionBranch_longest (hb : b < c.length) (h : chr c b = 63) :
    OpOut c b (questionBranch c b stack ident) := by
  unfold questionBranch
  simp only [Option.bind_eq_bind]
  rw [rd_some (by omega), Option.bind_some]
  refine OpOut.ite (fun h1 => ?_) fun h1 => ?_
  · intro r hr
    simp only [Option.bind_eq_some_iff] at hr
    obtain ⟨st, _, hr⟩ := hr
    revert hr; revert r
    refine OpOut.op ?_
    longest "?>"
  · refine OpOut.ite (fun h3 => OpOut.op ?_) fun h3 => OpOut.op ?_
    · longest "??"
    · longest "?"

theorem slashBranch_longest (hb : b < c.length) (h : chr c b = 47) (h1 : ¬ TextAt c b (q! "//"))
    (h2 : ¬ TextAt c b (q! "/*")) : OpOut c b (slashBranch u c b stack ident) := by
  unfold slashBranch
  simp only [Option.bind_eq_bind]
  rw [rd_some (by omega), Option.bind_some]
  refine OpOut.ite (fun h3 => OpOut.op ?_) fun h3 => ?_
  · longest "/="
  · rw [if_neg fun h4 => h1 ⟨h, h4, trivial⟩, if_neg fun h4 => h2 ⟨h, h4, trivial⟩]
    refine OpOut.op ?_
    longest "/"

theorem parenBranch_longest (h : chr c b = 40) : OpOut c b (parenBranch u c b stack ident) := by
  have hp : LongestOperator c b (b + 1) .LPAREN := by longest "("
  intro r hr
  unfold parenBranch at hr
  simp only [Option.bind_eq_bind, Option.bind_eq_some_iff] at hr
  obtain ⟨_, _, _, _, _, _, x, _, hr⟩ := hr
  split at hr
  · split at hr
    · rename_i t ht
      simp at hr; subst hr
      refine Or.inl ⟨?_, h⟩
      obtain ⟨nm, hm, _⟩ := lookupCI_mem ht
      exact (by decide +kernel : ∀ p ∈ castTable, p.2.isCast = true) _ hm
    · simp at hr; subst hr; exact Or.inr (Or.inr (Or.inl hp))
  · simp at hr; subst hr; exact Or.inr (Or.inr (Or.inl hp))

theorem codeBranch_longest (hu : u.Lawful) (hb : b < c.length) (hc : isCode stack)
    (hn : NoOtherElement u c b) : OpOut c b (codeBranch u c b stack ident) := by
  obtain ⟨top, rest, rfl, htop⟩ := id hc
  unfold codeBranch
  simp only [Option.bind_eq_bind]
  rw [rd_some (by omega), Option.bind_some]
  simp only [List.getElem?_cons_zero, Option.bind_some]
  have hv : processVariable u c b = some none := by
    rcases processVariable_spec hu (c := c) hb with ⟨h, _⟩ | ⟨e, h, h'⟩
    · exact h
    · refine absurd ⟨h'.dollar, ?_⟩ hn.var
      have := h'.nonempty
      unfold nameStart
      rw [h'.all (b + 1) (by omega) (by omega), h'.noDigit]; rfl
  have hnum : ¬ ((u.isDigit (chr c b) || (chr c b == 46 && u.isDigit (chr c (b + 1)))) = true) := by
    simp [hn.digit]; exact fun h => by simpa using fun h' => hn.fraction ⟨h, h'⟩
  rw [if_neg (by rw [hn.space]; decide), numTest_eq hb, Option.bind_some, if_neg hnum, hv,
    Option.bind_some]
  simp only
  refine OpOut.ite (fun h => OpOut.op ?_) fun h36 => ?_
  · longest "$"
  refine OpOut.ite (fun h => OpOut.op ?_) fun h125 => ?_
  · longest "}"
  refine OpOut.ite (fun h => OpOut.op ?_) fun h123 => ?_
  · longest "{"
  refine OpOut.ite parenBranch_longest fun h40 => ?_
  refine OpOut.ite (ltBranch_longest hb) fun h60 => ?_
  refine OpOut.ite (questionBranch_longest hb) fun h63 => ?_
  have harr : (isAt c b (c! '-') &&? isAt c (b + 1) (c! '>')) =
      some (chr c b == 45 && chr c (b + 1) == 62) :=
    andO_some (isAt_some (by omega)) fun _ => isAt_some (by omega)
  rw [harr, Option.bind_some]
  refine OpOut.ite (fun h => ?_) fun h45 => ?_
  · simp at h
    obtain ⟨h, h'⟩ := h
    have hl := lt_of_chr_eq h' (by decide)
    rw [testAt_some (by omega), Option.bind_some]
    refine OpOut.op ?_
    longest "->"
  refine OpOut.ite (fun h => slashBranch_longest hb h hn.comment.1 hn.comment.2) fun h47 => ?_
  rw [if_neg hn.hash, if_neg hn.quote.1, if_neg hn.quote.2]
  refine OpOut.ite (fun h => OpOut.op ?_) fun h96 => ?_
  · longest "`"
  intro r hr
  simp only [Option.bind_eq_some_iff] at hr
  obtain ⟨o, ho, hr⟩ := hr
  have := punct_longest hb h36 h125 h123 h40 h60 h63 (by simpa using h45) h47 h96 o ho
  cases o with
  | some p =>
    obtain ⟨t, k⟩ := p
    simp at hr; subst hr
    exact Or.inr (Or.inr (Or.inl (this.1 t k rfl)))
  | none =>
    simp only at hr
    rw [if_neg (by rw [identStart_eq, hn.name]; decide)] at hr
    simp at hr; subst hr
    exact Or.inr (Or.inr (Or.inr ⟨rfl, rfl, this.2 rfl⟩))

/-- **C53.** In PHP code, where no white space, number, variable, name, string or comment begins, the
token is the longest operator the text continues with; the exceptions are type casts at `(` (C18), the
start of a heredoc or nowdoc at `<<<` (C17), and a one-character invalid token where no operator
matches at all. -/
theorem operator_token {php : Bool} {s s' : LState} {t : Tok} {e : Nat} (hu : u.Lawful)
    (h : Returned u c php s s' t b e) (hc : isCode s.stack) (hn : NoOtherElement u c b) :
    (t.isCast = true ∧ chr c b = c! '(') ∨
    (t.isDocStart = true ∧ TextAt c b (q! "<<<")) ∨
    LongestOperator c b e t ∨
    (t = .INVALID ∧ e = b + 1 ∧ ∀ p ∈ operators, ¬ TextAt c b p.1) := by
  obtain ⟨_, _, hb, _, nls, hd, _, _⟩ := h.good hu
  rw [dispatch_code hc] at hd
  exact codeBranch_longest hu hb hc hn _ hd

/-- The operator found is unique: at most one token and extent satisfy the description. -/
theorem longest_unique {e e' : Nat} {t t' : Tok} (h : LongestOperator c b e t)
    (h' : LongestOperator c b e' t') : e = e' ∧ t = t' := by
  obtain ⟨op, hm, ht, he, hl⟩ := h
  obtain ⟨op', hm', ht', he', hl'⟩ := h'
  have h1 := hl _ hm' ht'
  have h2 := hl' _ hm ht
  have hlen : op.length = op'.length := Nat.le_antisymm h2 h1
  have : op = op' := by
    clear hm hm' he he' hl hl' h1 h2
    induction op generalizing op' b with
    | nil => cases op' with
      | nil => rfl
      | cons => simp at hlen
    | cons x xs ih => cases op' with
      | nil => simp at hlen
      | cons y ys =>
        obtain ⟨a1, a2⟩ := ht
        obtain ⟨b1, b2⟩ := ht'
        rw [ih a2 ys b2 (by simpa using hlen), ← a1, ← b1]
  subst this
  refine ⟨by omega, ?_⟩
  exact (by decide +kernel : ∀ p ∈ operators, ∀ q ∈ operators, p.1 = q.1 → p.2 = q.2) _ hm _ hm' rfl

example : ∃ s s', Returned asciiClass (q! "$a<=>$b") true s s' .SPACESHIP 2 5 ∧ isCode s.stack ∧
    LongestOperator (q! "$a<=>$b") 2 5 .SPACESHIP :=
  ⟨_, _, Returned.ofRun (n := 1) rfl rfl, ⟨_, _, rfl, Or.inl rfl⟩, q! "<=>", by decide,
    ⟨rfl, rfl, rfl, trivial⟩, rfl, by
    intro p hp _
    exact (by decide +kernel : ∀ p ∈ operators, p.1.length ≤ 3) p hp⟩
example : NoOtherElement asciiClass (q! "$a<=>$b") 2 where
  space := by decide
  digit := by decide
  fraction := by decide
  name := by decide
  var := by decide
  quote := by decide
  hash := by decide
  comment := by simp [TextAt, chr]
end
end KPhp
