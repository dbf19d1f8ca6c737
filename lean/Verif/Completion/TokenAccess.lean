import Verif.Lexer.Props2
import Verif.Parser.Tokenize
/-!
# Looking back over the tokens before the cursor (C37, C48, C49)

Models `TokenAccess` (completion/context.cpp:72-180), `removeOtherArguments` (:185-204) and the analysis of the last
token in the constructor of `CodeCompletionContext` (:222-680).

The object `TokenAccess` is a token stream and a position `m_pos`, and all accesses are relative to `m_pos`. Here it is a
zipper: `back` are the tokens up to and including the current one, the current one first (so `m_pos + 1` is
`back.length` and the token at relative position `-k` is `back[k]`), `ahead` the tokens after it. A read outside the
stream (undefined behaviour, or a failing `Q_ASSERT`) gives `none`.
-/
namespace KPhp.Completion

/-- A token with its text. -/
structure T where
  kind : Tok
  text : QString
deriving DecidableEq, Repr

structure TA where
  back : List T
  ahead : List T
deriving DecidableEq, Repr

/-- completion/context.cpp:75-89: all tokens, the position is the last one. -/
def TA.start (toks : List T) : TA := ⟨toks.reverse, []⟩

/-- kind of the `k`-th token, `Token_INVALID` outside -/
def kindAt (l : List T) (k : Nat) : Tok := ((l[k]?).map T.kind).getD .INVALID

/-- completion/context.cpp:91-99 -/
def TA.type (a : TA) : Tok := kindAt a.back 0

/-- completion/context.cpp:106-111 -/
def TA.pop (a : TA) : TA :=
  match a.back with
  | [] => a
  | t :: b => ⟨b, t :: a.ahead⟩

/-- completion/context.cpp:123-130; the argument is the negated relative position -/
def TA.typeBack (a : TA) (k : Nat) : Tok := kindAt a.back k

/-- completion/context.cpp:140-163, the loop of `prependedBy`; `before` are the tokens before the current one not yet
looked at, `none` a read outside of the stream, `some none` the result -1. -/
def prependedLoop (skipWs : Bool) : List Tok → List T → Nat → Option (Option Nat)
  | [], _, pos => some (some pos)
  | k :: ks, before, pos =>
    match before with
    | [] => none
    | b :: bs =>
      if skipWs && b.kind == .WHITESPACE then
        match bs with
        | [] => none
        | b2 :: bs2 => if b2.kind == k then prependedLoop skipWs ks bs2 (pos + 2) else some none
      else if b.kind == k then prependedLoop skipWs ks bs (pos + 1) else some none

/-- completion/context.cpp:140-163 -/
def prependedBy (back : List T) (list : List Tok) (skipWs : Bool) : Option (Option Nat) :=
  if back.length < list.length then some none                     -- m_pos < list.count() - 1
  else prependedLoop skipWs list back.tail 1

/-- completion/context.cpp:190-203: the loop of `removeOtherArguments`, at the token `t` just popped to. -/
def removeOther : Nat → List T → List T
  | _, [] => []
  | o, t :: rest =>
    if t.kind = .RPAREN then removeOther (o + 1) rest
    else if t.kind = .LPAREN then (if o = 0 then t :: rest else removeOther (o - 1) rest)
    else if t.kind = .INVALID then t :: rest
    else removeOther o rest

/-- completion/context.cpp:185-204: the tokens up to the new position; the argument starts with the comma. -/
def removeOtherArguments (back : List T) : List T := removeOther 0 back.tail

/-- completion/context.cpp:209-214 -/
def skipWs : List T → List T
  | t :: r => if t.kind = .WHITESPACE then r else t :: r
  | [] => []

/-- The kinds at the beginning of a list of tokens. -/
def startsWith (ks : List Tok) (l : List T) : Bool := (l.take ks.length).map T.kind == ks

/-- completion/context.cpp:343-355: `interface X extends` or `class X implements`, read backwards. -/
def listHead (l : List T) : Bool :=
  startsWith [.EXTENDS, .WHITESPACE, .STRING, .WHITESPACE, .INTERFACE] l ||
  startsWith [.IMPLEMENTS, .WHITESPACE, .STRING, .WHITESPACE, .CLASS] l

theorem skipWs_length (l : List T) : (skipWs l).length ≤ l.length := by
  cases l with
  | nil => simp [skipWs]
  | cons t r => simp only [skipWs]; split <;> simp

/-- completion/context.cpp:335-368: the list after `implements` or `extends`; the names found, nearest first, with the
class itself last, or `none` if this is no such list. -/
def interfaceList (l : List T) (acc : List QString) : Option (List QString) :=
  match h : skipWs l with
  | [] => none
  | s :: r0 =>
    if s.kind = .STRING then
      let r := skipWs r0
      if listHead r then some (acc ++ [s.text, ((r[2]?).map T.text).getD []])
      else if kindAt r 0 = .COMMA then interfaceList r.tail (acc ++ [s.text])
      else interfaceList r (acc ++ [s.text])
    else none
termination_by l.length
decreasing_by
  all_goals
    have h1 := skipWs_length l
    have h2 := skipWs_length r0
    rw [h] at h1
    simp only [List.length_cons] at h1
    try simp only [List.length_tail]
    omega

/-- `MemberAccessOperation` (completion/context.h:45-75). -/
inductive Operation
  | NoMemberAccess | MemberAccess | StaticMemberAccess | FunctionCallAccess | NewClassChoose | FileChoose
  | ExceptionChoose | ExceptionInstanceChoose | ClassExtendsChoose | InterfaceChoose | ClassMemberChoose
  | InstanceOfChoose | NamespaceChoose | BackslashAccess
deriving DecidableEq, Repr

/-- What the analysis of the last token leaves behind. -/
structure Analysis where
  /-- `m_valid` -/
  valid : Bool
  op : Operation := .NoMemberAccess
  /-- the tokens up to the current one -/
  back : List T
  /-- the names given to `forbidIdentifier` -/
  forbidden : List QString := []
  /-- `m_isFileCompletionAfterDirname` -/
  afterDirname : Bool := false
  /-- `m_namespace`, the parts separated by backslashes -/
  nspace : QString := []
  /-- the constructor returned from within the switch -/
  early : Bool := false
deriving DecidableEq, Repr

/-- completion/context.cpp:488-555: tokens after which normal completion is offered. -/
def normalTokens : List Tok :=
  [.AND_ASSIGN, .ARRAY_CAST, .ASSIGN, .AT, .BANG, .BIT_AND, .BIT_OR, .BIT_XOR, .BOOLEAN_AND, .BOOLEAN_OR, .BOOL_CAST,
   .COLON, .CONCAT, .CONCAT_ASSIGN, .CURLY_OPEN, .DEC, .DIV, .DIV_ASSIGN, .DOC_COMMENT, .DOLLAR_OPEN_CURLY_BRACES,
   .DOUBLE_ARROW, .DOUBLE_CAST, .DOUBLE_QUOTE, .ECHO, .ELLIPSIS, .ENCAPSED_AND_WHITESPACE, .EXIT, .INC, .INT_CAST,
   .IS_EQUAL, .IS_GREATER, .IS_GREATER_OR_EQUAL, .IS_IDENTICAL, .IS_NOT_EQUAL, .IS_NOT_IDENTICAL, .IS_SMALLER,
   .IS_SMALLER_OR_EQUAL, .LBRACE, .LBRACKET, .LOGICAL_AND, .LOGICAL_OR, .LOGICAL_XOR, .MINUS, .MINUS_ASSIGN, .MOD,
   .MOD_ASSIGN, .MUL, .MUL_ASSIGN, .NULL_COALESCE, .OBJECT_CAST, .OPEN_TAG_WITH_ECHO, .OR_ASSIGN, .PLUS, .PLUS_ASSIGN,
   .PRINT, .QUESTION, .RBRACE, .RETURN, .SEMICOLON, .SL, .SL_ASSIGN, .SPACESHIP, .SR, .SR_ASSIGN, .START_HEREDOC,
   .START_NOWDOC, .STRING, .STRING_CAST, .TILDE, .UNSET_CAST, .XOR_ASSIGN, .EXP, .EXP_ASSIGN]

/-- completion/context.cpp:563-571 -/
def modifierTokens : List Tok := [.ABSTRACT, .CONST, .FINAL, .PUBLIC, .PRIVATE, .PROTECTED, .STATIC, .VAR]

/-- completion/context.cpp:440-446 -/
def includeTokens : List Tok := [.REQUIRE, .REQUIRE_ONCE, .INCLUDE, .INCLUDE_ONCE]

/-- completion/context.cpp:583-594: the namespace name before the cursor and the tokens before it. -/
def namespaceLoop : List T → QString → QString × List T
  | t :: r, acc =>
    if t.kind = .BACKSLASH then namespaceLoop r (q! "::" ++ acc)
    else if t.kind = .STRING then namespaceLoop r (t.text ++ acc)
    else (acc, t :: r)
  | [], acc => (acc, [])

/-- `stringAt(-k)`: `none` outside the stream (completion/context.cpp:134-138). -/
def stringBack (back : List T) (k : Nat) : Option QString := (back[k]?).map T.text

/-- completion/context.cpp:310-317: no completion in line comments -/
def afterComment (wasWs : Bool) (back : List T) : Option Analysis := do
  let s ← stringBack back 0
  some { valid := !(!wasWs && s.getLast? != some 10 && !(q! "/*").isPrefixOf s), op := .NoMemberAccess, back }

/-- completion/context.cpp:318-343: after `extends` and `implements` -/
def afterExtends (u : CharClass) (back : List T) : Option Analysis := do
  let c ← prependedBy back [.WHITESPACE, .STRING, .WHITESPACE, .CLASS] false
  if c.isSome then
    let s ← stringBack back 2
    some { valid := true, op := .ClassExtendsChoose, back, forbidden := [lowerStr u s] }
  else
    let i ← prependedBy back [.WHITESPACE, .STRING, .WHITESPACE, .INTERFACE] false
    if i.isSome then
      let s ← stringBack back 2
      some { valid := true, op := .InterfaceChoose, back, forbidden := [lowerStr u s] }
    else some { valid := false, back }

/-- completion/context.cpp:332-341 -/
def afterImplements (u : CharClass) (back : List T) : Option Analysis := do
  let c ← prependedBy back [.WHITESPACE, .STRING, .WHITESPACE, .CLASS] false
  if c.isSome then
    let s ← stringBack back 2
    some { valid := true, op := .InterfaceChoose, back, forbidden := [lowerStr u s] }
  else some { valid := false, back }

/-- completion/context.cpp:342-396 -/
def afterComma (u : CharClass) (back : List T) : Analysis :=
  match interfaceList back.tail [] with
  | some names => { valid := true, op := .InterfaceChoose, back, forbidden := names.map (lowerStr u) }
  | none =>
    let b := removeOtherArguments back
    { valid := kindAt b 0 != .INVALID, op := .FunctionCallAccess, back := b }

/-- completion/context.cpp:416-433 -/
def afterLParen (back : List T) : Analysis :=
  let before := skipWs back.tail
  if kindAt before 0 = .CATCH then { valid := true, op := .ExceptionChoose, back }
  else if kindAt before 0 = .ARRAY then { valid := true, op := .NoMemberAccess, back, early := true }
  else { valid := true, op := .FunctionCallAccess, back }

/-- completion/context.cpp:434-440 -/
def afterNew (back : List T) : Option Analysis := do
  let c ← prependedBy back [.WHITESPACE, .THROW] false
  some { valid := true, op := if c.isSome then .ExceptionChoose else .NewClassChoose, back }

/-- completion/context.cpp:449-468: where the search for `include` starts (as negated relative position), and whether
`dirname(__FILE__) .` or `__DIR__ .` stands before the string. -/
def afterDirname (u : CharClass) (back : List T) : Option (Nat × Bool) := do
  let a ← prependedBy back [.CONCAT, .RPAREN, .FILE, .LPAREN, .STRING] true
  match a with
  | some pos =>
    let s ← stringBack back (pos - 1)
    some (pos, ciEq u s (q! "dirname"))
  | none =>
    let b ← prependedBy back [.CONCAT, .DIR] true
    match b with
    | some pos => some (pos, true)
    | none => some (1, false)

/-- completion/context.cpp:444-491; `m_expression` is not modelled. -/
def afterLiteral (u : CharClass) (back : List T) : Option Analysis := do
  let (pos, isAfter) ← afterDirname u back
  let b := skipWs (back.drop pos)
  let b := if kindAt b 0 = .LPAREN then b.tail else b
  let b := skipWs b
  if includeTokens.contains (kindAt b 0) then
    some { valid := true, op := .FileChoose, back, afterDirname := isAfter }
  else some { valid := false, back }

/-- completion/context.cpp:583-602 -/
def afterNamespace (back : List T) : Analysis :=
  let (name, rest) := namespaceLoop back []
  { valid := true, back, nspace := name,
    op := if kindAt rest 0 = .NAMESPACE then .NamespaceChoose else .BackslashAccess }

/-- completion/context.cpp:306-680: the switch over the kind of the last token. `inClass`: the cursor is in a class
context; `following`: the text after the cursor is not empty; `back` are the tokens without white space at the end. -/
def analyseToken (u : CharClass) (inClass following wasWs : Bool) (back : List T) : Option Analysis :=
  let normal : Analysis := { valid := true, op := if inClass then .ClassMemberChoose else .NoMemberAccess, back }
  let invalid : Analysis := { valid := false, back }
  if kindAt back 0 = .COMMENT then afterComment wasWs back
  else if kindAt back 0 = .EXTENDS then (if wasWs then afterExtends u back else some invalid)
  else if kindAt back 0 = .IMPLEMENTS then (if wasWs then afterImplements u back else some invalid)
  else if kindAt back 0 = .COMMA then some (afterComma u back)
  else if kindAt back 0 = .OPEN_TAG then
    (if !wasWs && following then some invalid else some { valid := true, op := .NoMemberAccess, back })
  else if kindAt back 0 = .OBJECT_OPERATOR then some { valid := true, op := .MemberAccess, back := back.tail }
  else if kindAt back 0 = .PAAMAYIM_NEKUDOTAYIM then some { valid := true, op := .StaticMemberAccess, back := back.tail }
  else if kindAt back 0 = .LPAREN then some (afterLParen back)
  else if kindAt back 0 = .NEW then (if wasWs then afterNew back else some invalid)
  else if kindAt back 0 = .THROW then
    (if wasWs then some { valid := true, op := .ExceptionInstanceChoose, back } else some invalid)
  else if kindAt back 0 = .CONSTANT_ENCAPSED_STRING then afterLiteral u back
  else if kindAt back 0 = .INSTANCEOF then some { valid := true, op := .InstanceOfChoose, back }
  else if normalTokens.contains (kindAt back 0) then some normal
  else if modifierTokens.contains (kindAt back 0) then (if inClass then some normal else some invalid)
  else if kindAt back 0 = .NAMESPACE ∨ kindAt back 0 = .BACKSLASH then some (afterNamespace back)
  else some invalid

/-- completion/context.cpp:243-680: from the tokens of the text before the cursor to the kind of completion.
`openComment`: the rest of the text after the last token begins with `/*` (an unclosed comment, which gives no
token). The result `none` is a read outside of the token stream. -/
def analyse (u : CharClass) (inClass following openComment : Bool) (toks : List T) : Option Analysis :=
  match toks.reverse with
  | [] => none                                                                     -- :247 lastToken.at(0)
  | t :: b =>
    let wasWs := t.kind == .WHITESPACE
    let back := if wasWs then b else t :: b                                        -- :249-253
    if openComment then some { valid := false, back }                             -- :257-261
    else
      match analyseToken u inClass following wasWs back with
      | none => none
      | some a =>
        if !a.valid || a.early then some a
        else if a.back.isEmpty then none                                           -- :661 lastToken.at(0)
        else some a

/-! ## C37 -/

/-- A sequence of tokens in which the parentheses are balanced (and no token is invalid). -/
inductive Balanced : List T → Prop
  | nil : Balanced []
  | tok (t : T) (h : t.kind ≠ .LPAREN ∧ t.kind ≠ .RPAREN ∧ t.kind ≠ .INVALID) : Balanced [t]
  | paren {l : List T} (o c : T) (ho : o.kind = .LPAREN) (hc : c.kind = .RPAREN) (h : Balanced l) :
      Balanced (o :: l ++ [c])
  | append {a b : List T} (ha : Balanced a) (hb : Balanced b) : Balanced (a ++ b)

theorem removeOther_balanced {mid : List T} (h : Balanced mid) : ∀ (o : Nat) (rest : List T),
    removeOther o (mid.reverse ++ rest) = removeOther o rest := by
  induction h with
  | nil => intro o rest; rfl
  | tok t h =>
    intro o rest
    simp [removeOther, h.1, h.2.1, h.2.2]
  | paren op c ho hc h ih =>
    intro o rest
    rw [List.reverse_append, List.reverse_cons]
    simp only [List.reverse_cons, List.reverse_nil, List.nil_append, List.cons_append, List.append_assoc]
    rw [removeOther, if_pos hc, ih]
    simp [removeOther, ho]
  | append ha hb iha ihb =>
    intro o rest
    rw [List.reverse_append, List.append_assoc, ihb, iha]

/-- a scan that starts with `o` unmatched closing parentheses -/
theorem removeOther_sound (l : List T) : ∀ (o : Nat) (t : T) (pre : List T), removeOther o l = t :: pre →
    t.kind = .LPAREN → ∃ mids : List (List T), mids.length = o + 1 ∧ (∀ m ∈ mids, Balanced m) ∧
      ∃ ops : List T, ops.length = o ∧ (∀ x ∈ ops, x.kind = .LPAREN) ∧
        l = (mids.head?.getD []).reverse ++ ((ops.zip mids.tail).flatMap fun p => p.1 :: p.2.reverse) ++ t :: pre := by
  induction l with
  | nil => intro o t pre h; simp [removeOther] at h
  | cons x l ih =>
    intro o t pre h ht
    rw [removeOther] at h
    split at h
    · rename_i hx
      obtain ⟨mids, hl, hb, ops, hol, hok, he⟩ := ih _ _ _ h ht
      -- mids = m0 :: m1 :: rest, ops = p :: ops'
      match mids, ops, hl, hol with
      | m0 :: m1 :: ms, p :: ops, hl, hol =>
        refine ⟨(m1 ++ (p :: m0 ++ [x])) :: ms, by simpa using hl, ?_, ops, by simpa using hol,
          fun y hy => hok y (by simp [hy]), ?_⟩
        · intro m hm
          rcases List.mem_cons.1 hm with rfl | hm
          · exact Balanced.append (hb m1 (by simp)) (Balanced.paren p x (hok p (by simp)) hx (hb m0 (by simp)))
          · exact hb m (by simp [hm])
        · rw [he]; simp
    · split at h
      · rename_i hx1 hx
        split at h
        · rename_i ho
          injection h with h1 h2
          subst h1 h2 ho
          exact ⟨[[]], rfl, by simp [Balanced.nil], [], rfl, by simp, by simp⟩
        · rename_i ho
          obtain ⟨mids, hl, hb, ops, hol, hok, he⟩ := ih _ _ _ h ht
          refine ⟨[] :: mids, by simp; omega, ?_, x :: ops, by simp; omega, ?_, ?_⟩
          · intro m hm
            rcases List.mem_cons.1 hm with rfl | hm
            · exact Balanced.nil
            · exact hb m hm
          · intro y hy
            rcases List.mem_cons.1 hy with rfl | hy
            · exact hx
            · exact hok y hy
          · match mids, hl with
            | m0 :: ms, hl => rw [he]; simp
      · split at h
        · rename_i hx1 hx2 hx
          injection h with h1 h2
          subst h1; rw [hx] at ht; exact absurd ht (by simp)
        · rename_i hx1 hx2 hx3
          obtain ⟨mids, hl, hb, ops, hol, hok, he⟩ := ih _ _ _ h ht
          match mids, hl with
          | m0 :: ms, hl =>
            refine ⟨(m0 ++ [x]) :: ms, by simpa using hl, ?_, ops, hol, hok, ?_⟩
            · intro m hm
              rcases List.mem_cons.1 hm with rfl | hm
              · exact Balanced.append (hb m0 (by simp)) (Balanced.tok x ⟨hx2, hx1, hx3⟩)
              · exact hb m (by simp [hm])
            · rw [he]; simp

theorem removeOther_kind (l : List T) : ∀ o, kindAt (removeOther o l) 0 = .LPAREN ∨ kindAt (removeOther o l) 0 = .INVALID := by
  induction l with
  | nil => intro o; exact Or.inr rfl
  | cons x l ih =>
    intro o
    rw [removeOther]
    split
    · exact ih _
    · split
      · rename_i hx
        split
        · exact Or.inl (by simp [kindAt, hx])
        · exact ih _
      · split
        · rename_i hx; exact Or.inr (by simp [kindAt, hx])
        · exact ih _

/-- **C37.** From the comma `comma` the scan ends at the opening parenthesis `p` after `pre` exactly if the tokens
between them are balanced: it is the parenthesis of the argument list the comma belongs to. -/
theorem enclosing_call (pre mid : List T) (p comma : T) (hp : p.kind = .LPAREN) (hb : Balanced mid) :
    removeOtherArguments ((pre ++ p :: mid ++ [comma]).reverse) = (pre ++ [p]).reverse := by
  unfold removeOtherArguments
  simp only [List.reverse_append, List.reverse_cons, List.reverse_nil, List.nil_append, List.cons_append,
    List.tail_cons, List.append_assoc]
  rw [removeOther_balanced hb]
  simp [removeOther, hp]

/-- **C37 (converse).** The position reached is an opening parenthesis with balanced tokens up to the comma, or the
invalid token, in which case there is no such parenthesis. -/
theorem enclosing_call_only (toks : List T) (comma : T) :
    (∃ pre p mid, toks = pre ++ p :: mid ∧ p.kind = .LPAREN ∧ Balanced mid ∧
      removeOtherArguments ((toks ++ [comma]).reverse) = (pre ++ [p]).reverse) ∨
    (kindAt (removeOtherArguments ((toks ++ [comma]).reverse)) 0 = .INVALID ∧
      ¬ ∃ pre p mid, toks = pre ++ p :: mid ∧ p.kind = .LPAREN ∧ Balanced mid) := by
  have hr : removeOtherArguments ((toks ++ [comma]).reverse) = removeOther 0 toks.reverse := by
    simp [removeOtherArguments]
  cases h : removeOther 0 toks.reverse with
  | nil =>
    right
    refine ⟨by rw [hr, h]; rfl, ?_⟩
    rintro ⟨pre, p, mid, rfl, hp, hb⟩
    have := enclosing_call pre mid p comma hp hb
    rw [hr, h] at this; simp at this
  | cons t l =>
    rcases removeOther_kind toks.reverse 0 with hk | hk
    · left
      have ht : t.kind = .LPAREN := by rw [h] at hk; simpa [kindAt] using hk
      obtain ⟨mids, hl, hb, ops, hol, hok, he⟩ := removeOther_sound _ 0 t l h ht
      match mids, ops, hl, hol with
      | [m], [], _, _ =>
        simp at he
        refine ⟨l.reverse, t, m, ?_, ht, hb m (by simp), by rw [hr, h]; simp⟩
        have := congrArg List.reverse he
        simpa using this
    · right
      refine ⟨by rw [hr]; exact hk, ?_⟩
      rintro ⟨pre, p, mid, rfl, hp, hb⟩
      have := enclosing_call pre mid p comma hp hb
      rw [hr] at this
      rw [this] at hk
      simp [kindAt, hp] at hk

/-- **C37 (within the buffer).** The new position lies strictly before the comma. -/
theorem enclosing_call_bounds (back : List T) (h : back ≠ []) :
    (removeOtherArguments back).length < back.length ∧ removeOtherArguments back <:+ back := by
  have hs : ∀ (l : List T) (o : Nat), removeOther o l <:+ l := by
    intro l
    induction l with
    | nil => intro o; exact List.suffix_refl _
    | cons x l ih =>
      intro o
      rw [removeOther]
      split
      · exact (ih _).trans (List.suffix_cons ..)
      · split
        · split
          · exact List.suffix_refl _
          · exact (ih _).trans (List.suffix_cons ..)
        · split
          · exact List.suffix_refl _
          · exact (ih _).trans (List.suffix_cons ..)
  cases back with
  | nil => exact absurd rfl h
  | cons x l =>
    have := hs l 0
    exact ⟨by have := this.length_le; simp [removeOtherArguments]; omega, this.trans (List.suffix_cons ..)⟩

end KPhp.Completion
