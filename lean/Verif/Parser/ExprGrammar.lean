import Verif.Lexer.Token
/-
# Expressions: the parser and the grammar (C59, C60)

Models the rules of parser/php.g:357-690, 857-936 for expressions.  KDevPG generates one function per rule, which chooses an
alternative by the next token; these functions are the jobs of `run`.  Only the kinds of the tokens matter.

Simplifications:
* The lists `#x=a @ OP` and `(#additional=rest)*` are read as nested to the left.
* Not modelled: `print` inside of an operand (php.g:553), `yield` as an operand of an operator (:554-555; it is modelled where an
  assignment may stand), operators behind the right side of `=&`.  There the model fails.
* The code tries to read a function call first and falls back to the variable in front of `(` if this fails (php.g:653-658).
  `(` cannot follow there, so that the text is rejected later; the model fails at once.  In the same way the model fails at
  once if the members behind `(new …)` or the arguments behind `(function() …)` cannot be read (:564, 597-599).
* `(new …)` is tried in front of any other expression in parentheses (:564); the model reads an expression and repeats this if
  it consists of `new` only.
* A closure leaves the flag `varExpressionIsVariable` as it was; in the code its last expression counts.
-/
namespace KPhp.Grammar
open KPhp (Tok)

/-- Syntax trees. -/
inductive E
  /-- commonScalar; STRING_VARNAME -/
  | scalar (k : Tok)
  | nowdoc
  /-- a name: global?, number of further parts; `A::B`; `$v`; `$$v`, `${e}` with the number of further `$` -/
  | name (g : Bool) (n : Nat)
  | cconst (g : Bool) (n : Nat) (k : Tok)
  | var
  | vvar (n : Nat)
  | dyn (n : Nat) (e : E)
  /-- `A::$v`, `A::{e}`, `static` -/
  | svar (g : Bool) (n : Nat) (v : E)
  | sdyn (g : Bool) (n : Nat) (e : E)
  | stat
  | paren (e : E)
  /-- a closure, by its text; a closure in parentheses with arguments -/
  | closure (t : List Tok)
  | iife (c l : E)
  | empty (e : E)
  | isset (l : E)
  | new_ (c : E)
  | newArgs (c l : E)
  | clone (e : E)
  /-- text with variables; the token in front -/
  | str (k : Tok) (ps : E)
  /-- `[…]` or `array(…)` -/
  | arr (short : Bool) (items : E)
  /-- `b[]`, `b[i]`, `b{i}`, `b->p` or `b::p`, `b(…)` -/
  | index0 (b : E)
  | index (b i : E)
  | cindex (b i : E)
  | prop (op : Tok) (b p : E)
  | call (b args : E)
  /-- names of members: an identifier, `{e}` -/
  | id
  | curly (e : E)
  /-- elements of lists: `...e`, `&v`, `k => v` -/
  | spread (e : E)
  | byRef (v : E)
  | pair (k v : E)
  /-- lists: empty, one element, one element and a comma, element and comma and more -/
  | nil
  | last (i : E)
  | lastComma (i : E)
  | more (i l : E)
  /-- lists of variables, and `list(…)` inside of them -/
  | vlast (e : E)
  | vmore (e l : E)
  | lists (l : E)
  /-- parts of texts: `$v->p`, `$v[k]`, `${v[]}`, `${v[i]}`, `${e}` or `{$…}` -/
  | part (p l : E)
  | ptext
  | pprop
  | poff (k : Tok)
  | pvname0
  | pvname (i : E)
  | pexpr (k : Tok) (e : E)
  /-- operators -/
  | un (k : Tok) (e : E)
  | pre (k : Tok) (e : E)
  | post (e : E) (k : Tok)
  | bin (k : Tok) (a b : E)
  | inst (a c : E)
  | cond (c a b : E)
  | elvis (c b : E)
  | assign (k : Tok) (a b : E)
  /-- `a =& v` -/
  | assignRef (a v : E)
  | print (e : E)
  | exit0
  | exitP
  | exitE (e : E)
  | eval (e : E)
  /-- `list(…) = e` -/
  | list (l e : E)
  | yield0
  | yield (e : E)
  | yieldPair (k v : E)
  | yieldFrom (e : E)
deriving DecidableEq, Repr

/-! ## The parser -/

/-- The operators of the rules in a row, from `logicalOrExpression` (php.g:360) to `multiplicativeExpressionRest` (:513). -/
def opsAt : Nat → List Tok
  | 0 => [.LOGICAL_OR]                                                                      -- :360
  | 1 => [.LOGICAL_XOR]                                                                     -- :363
  | 2 => [.LOGICAL_AND]                                                                     -- :366
  | 6 => [.NULL_COALESCE]                                                                   -- :436
  | 7 => [.BOOLEAN_OR]                                                                      -- :439
  | 8 => [.BOOLEAN_AND]                                                                     -- :442
  | 9 => [.BIT_OR]                                                                          -- :445
  | 10 => [.BIT_XOR]                                                                        -- :448
  | 11 => [.BIT_AND]                                                                        -- :451
  | 12 => [.IS_EQUAL, .IS_NOT_EQUAL, .IS_IDENTICAL, .IS_NOT_IDENTICAL, .SPACESHIP]          -- :458
  | 13 => [.IS_SMALLER, .IS_GREATER, .IS_SMALLER_OR_EQUAL, .IS_GREATER_OR_EQUAL]            -- :473
  | 14 => [.SL, .SR]                                                                        -- :482
  | 15 => [.PLUS, .MINUS, .CONCAT]                                                          -- :492-494
  | 16 => [.MUL, .DIV, .EXP, .MOD]                                                          -- :507-510
  | _ => []

/-- The kinds of rules. -/
inductive LK | chain | non | print | assign | cond | unary | prefix | postfix | primary
deriving DecidableEq, Repr

/-- php.g:357-561: the rules, from the outermost; `chain`: any number of operands, `non`: at most two -/
def lk : Nat → LK
  | 0 | 1 | 2 => .chain
  | 3 => .print
  | 4 => .assign
  | 5 => .cond
  | 6 | 7 | 8 | 9 | 10 | 11 => .chain
  | 12 | 13 => .non
  | 14 | 15 | 16 => .chain
  | 17 => .unary
  | 18 => .prefix
  | 19 => .postfix
  | _ => .primary

/-- php.g:380-391, 406 -/
def assignOps : List Tok :=
  [.ASSIGN, .PLUS_ASSIGN, .MINUS_ASSIGN, .MUL_ASSIGN, .EXP_ASSIGN, .DIV_ASSIGN, .CONCAT_ASSIGN, .MOD_ASSIGN, .AND_ASSIGN, .OR_ASSIGN,
   .XOR_ASSIGN, .SL_ASSIGN, .SR_ASSIGN]
/-- php.g:518-536 -/
def unaryOps : List Tok :=
  [.MINUS, .PLUS, .BANG, .TILDE, .INT_CAST, .DOUBLE_CAST, .STRING_CAST, .ARRAY_CAST, .OBJECT_CAST, .BOOL_CAST, .UNSET_CAST, .AT,
   .INCLUDE, .INCLUDE_ONCE, .REQUIRE, .REQUIRE_ONCE]
/-- php.g:549 -/
def incDec : List Tok := [.INC, .DEC]
/-- php.g:922-932, without CONSTANT_ENCAPSED_STRING; STRING_VARNAME (:890) -/
def scalars : List Tok :=
  [.LNUMBER, .DNUMBER, .LINE, .DIR, .FILE, .CLASS_C, .TRAIT_C, .METHOD_C, .FUNC_C, .NAMESPACE_C, .STRING_VARNAME]
/-- the first tokens of `variable`, and of the scalars that begin with a name (php.g:569-570) -/
def nameHeads : List Tok := [.VARIABLE, .DOLLAR, .STRING, .BACKSLASH]
/-- the first tokens of `encaps` (php.g:905) -/
def partHeads : List Tok := [.ENCAPSED_AND_WHITESPACE, .VARIABLE, .CURLY_OPEN, .DOLLAR_OPEN_CURLY_BRACES]
/-- php.g:916-918 -/
def offsets : List Tok := [.STRING, .NUM_STRING, .VARIABLE]
/-- php.g:1029-1036 -/
def reservedNonModifiers : List Tok :=
  [.INCLUDE, .INCLUDE_ONCE, .EVAL, .REQUIRE, .REQUIRE_ONCE, .LOGICAL_OR, .LOGICAL_XOR, .LOGICAL_AND, .INSTANCEOF, .NEW, .CLONE, .EXIT,
   .IF, .ELSEIF, .ELSE, .ENDIF, .ECHO, .DO, .WHILE, .ENDWHILE, .FOR, .ENDFOR, .FOREACH, .ENDFOREACH, .DECLARE, .ENDDECLARE, .AS, .TRY,
   .CATCH, .FINALLY, .THROW, .USE, .INSTEADOF, .GLOBAL, .VAR, .UNSET, .ISSET, .EMPTY, .CONTINUE, .GOTO, .FUNCTION, .CONST, .RETURN,
   .PRINT, .YIELD, .LIST, .SWITCH, .ENDSWITCH, .CASE, .DEFAULT, .BREAK, .ARRAY, .CALLABLE, .EXTENDS, .IMPLEMENTS, .NAMESPACE, .TRAIT,
   .INTERFACE, .CLASS, .CLASS_C, .TRAIT_C, .FUNC_C, .METHOD_C, .LINE, .FILE, .DIR, .NAMESPACE_C]
/-- php.g:1039, 1155-1160: the words for modifiers -/
def modifierWords : List Tok := [.STATIC, .ABSTRACT, .FINAL, .PRIVATE, .PROTECTED, .PUBLIC]
/-- php.g:1038-1054: what may be the name of a class constant or method -/
def semiReserved : List Tok := .STRING :: (reservedNonModifiers ++ modifierWords)
/-- the first tokens of `varExpression` (php.g:552-588), without `print` and `yield` -/
def primHeads : List Tok :=
  scalars ++ nameHeads ++ [.CONSTANT_ENCAPSED_STRING, .START_NOWDOC, .DOUBLE_QUOTE, .START_HEREDOC, .BACKTICK, .LPAREN, .ISSET, .EMPTY,
   .NEW, .CLONE, .FUNCTION, .ARRAY, .LBRACKET]
/-- the first tokens of `printExpression` (php.g:369) -/
def printHeads : List Tok :=
  .PRINT :: .YIELD :: .YIELD_FROM :: .LIST :: .EXIT :: .EVAL :: (unaryOps ++ incDec ++ primHeads)

/-- What a function of the parser returns: the tree, the tokens left and the flag `varExpressionIsVariable` (php.g:202), or an
error; `fuel` is not a result of the code. -/
inductive R
  | fuel | err
  | ok (e : E) (rest : List Tok) (isVar : Bool)
deriving DecidableEq, Repr

def R.bind : R → (E → List Tok → Bool → R) → R
  | .fuel, _ => .fuel
  | .err, _ => .err
  | .ok e r f, k => k e r f
def R.map (r : R) (g : E → E) : R := r.bind fun e r f => .ok (g e) r f
/-- `try/rollback(a) catch(b)` -/
def R.orElse : R → R → R
  | .err, b => b
  | a, _ => a

/-- consume a token of this kind -/
def expect (k : Tok) : List Tok → (List Tok → R) → R
  | t :: r, c => if t = k then c r else .err
  | [], _ => .err
/-- consume a token of this kind if there is one -/
def eat (k : Tok) : List Tok → (List Tok → R) → R → R
  | t :: r, c, d => if t = k then c r else d
  | [], _, d => d
/-- consume any token -/
def uncons : List Tok → (Tok → List Tok → R) → R
  | t :: r, c => c t r
  | [], _ => .err
/-- consume any token if there is one -/
def onTok : List Tok → R → (Tok → List Tok → R) → R
  | t :: r, _, c => c t r
  | [], d, _ => d
/-- the head is one of these tokens -/
def headIn (ks : List Tok) : List Tok → Bool
  | t :: _ => ks.contains t
  | [] => false

/-- `\B\C…` behind an identifier (php.g:1019): how many there are -/
def nameRest : List Tok → Option (Nat × List Tok)
  | .BACKSLASH :: .STRING :: r => (nameRest r).map fun p => (p.1 + 1, p.2)
  | .BACKSLASH :: _ => none
  | r => some (0, r)
/-- `namespacedIdentifier` (php.g:1018-1020) -/
def readName : List Tok → Option (Bool × Nat × List Tok)
  | .BACKSLASH :: .STRING :: r => (nameRest r).map fun p => (true, p.1, p.2)
  | .STRING :: r => (nameRest r).map fun p => (false, p.1, p.2)
  | _ => none
/-- with a name, or else -/
def onName (ts : List Tok) (c : Bool → Nat → List Tok → R) (d : R) : R :=
  match readName ts with
  | some (g, n, r) => c g n r
  | none => d
/-- `DOLLAR+ | 0` (php.g:686) -/
def dollars : List Tok → Nat × List Tok
  | .DOLLAR :: r => ((dollars r).1 + 1, (dollars r).2)
  | r => (0, r)

/-- How closures are read (php.g:591-595).  They contain statements, which contain expressions; the grammar of expressions is
written for any way to read closures with these properties, and StmtGrammar supplies one. -/
class Closures where
  /-- the tokens of the closure and the tokens left -/
  read : List Tok → Option (List Tok × List Tok)
  /-- the texts that are closures -/
  Ok : List Tok → Prop
  sound {ts t r : List Tok} : read ts = some (t, r) → ts = t ++ r ∧ Ok t
  complete {t : List Tok} : Ok t → ∀ r, read (t ++ r) = some (t, r)
  head {t : List Tok} : Ok t → [Tok.FUNCTION, .LPAREN] <+: t ∨ [Tok.FUNCTION, .BIT_AND, .LPAREN] <+: t

/-- with a closure, or fail -/
def onClosure (x : Option (List Tok × List Tok)) (c : List Tok → List Tok → R) : R :=
  match x with
  | some (t, r) => c t r
  | none => .err

/-- What may follow: behind a variable (php.g:636), behind `(new …)` (:650), behind the class of `new` and `instanceof`
(:857-859), behind a constant (:889), an array (:560), a string literal (:891, 924). -/
inductive Mode | vari | inst | cls | dim | arr | str
deriving DecidableEq, Repr

/-- whether an access path already ends with a call (php.g:653-657: `functionCall arrayIndexSpecifier*`) -/
def called : E → Bool
  | .call _ _ => true
  | .index0 b => called b
  | .index b _ => called b
  | _ => false
/-- `(new …)` without members; a class without members: no index may follow -/
def fresh : Mode → E → Bool
  | .inst, .paren _ => true
  | .cls, .name _ _ => true
  | .cls, .stat => true
  | _, _ => false
/-- whether `{…}` may follow as an index (php.g:881 in contrast to :660) -/
def bracesOk (m : Mode) (acc : E) : Bool :=
  match m with
  | .dim => true
  | .cls => !fresh m acc
  | .vari | .inst => !called acc && !fresh m acc
  | .arr | .str => false
/-- whether arguments may follow -/
def callOk (m : Mode) (acc : E) : Bool :=
  match m with
  | .vari | .inst => !called acc && !fresh m acc
  | _ => false
/-- whether `->` or `::` may follow (php.g:639-651, 868) -/
def memberOk (m : Mode) (k : Tok) (acc : E) : Bool :=
  match m with
  | .vari => k = .OBJECT_OPERATOR || k = .PAAMAYIM_NEKUDOTAYIM
  | .inst => k = .OBJECT_OPERATOR
  | .cls => k = .PAAMAYIM_NEKUDOTAYIM || (k = .OBJECT_OPERATOR && !fresh m acc)
  | _ => false

def E.isNew : E → Bool
  | .new_ _ | .newArgs _ _ => true
  | _ => false
/-- php.g:563 -/
def E.isPlainClosure : E → Bool
  | .closure (.FUNCTION :: .LPAREN :: _) => true
  | _ => false

/-- The functions of the parser. -/
inductive Job
  /-- the rule of this level -/
  | lev (l : Nat)
  /-- the loop of a rule after its first operands -/
  | loop (l : Nat) (acc : E)
  /-- varExpression, varExpressionNormal, variable -/
  | prim | norm | vari
  /-- compoundVariableWithSimpleIndirectReference -/
  | cvar
  /-- objectProperty without indices -/
  | pname
  /-- classNameReference, varExpressionNewObject -/
  | cref | newo
  /-- what follows -/
  | tail (m : Mode) (acc : E)
  /-- elements of argument lists and (`true`) of arrays -/
  | item (a : Bool)
  | items (a : Bool) (close : Tok)
  | items1 (a : Bool) (close : Tok)
  /-- elements of `isset(…)` and (`true`) of `list(…)` -/
  | vars (b : Bool)
  | velem (b : Bool)
  /-- encapsList, encaps -/
  | parts | part
deriving DecidableEq, Repr

section
variable [Closures] (run : Job → List Tok → Bool → R)

/-- after the first operand of an operator without associativity (php.g:454-475) -/
def nonRest (l : Nat) (a : E) (r : List Tok) (f : Bool) : R :=
  onTok r (.ok a r f) fun k r' =>
    if (opsAt l).contains k then (run (.lev (l + 1)) r' f).map (.bin k a)
    else if l = 13 ∧ k = .INSTANCEOF then (run .cref r' f).map (.inst a)
    else .ok a r f

/-- after the left side of an assignment (php.g:374-427): the flag must be set.  `&` behind `=` (:408-414): a variable or `new`
follows. -/
def assignRest (a : E) (r : List Tok) (f : Bool) : R :=
  onTok r (.ok a r f) fun k r' =>
    if assignOps.contains k then
      if f then
        eat .BIT_AND r'
          (fun r =>
            if k = .ASSIGN then
              if headIn [.NEW] r then (run .newo r false).map (.assignRef a) else (run .vari r false).map (.assignRef a)
            else .err)
          ((run (.lev 4) r' f).map (.assign k a))
      else .err
    else .ok a r f

/-- after the condition (php.g:429-434) -/
def condRest (c : E) (r : List Tok) (f : Bool) : R :=
  eat .QUESTION r
    (fun r => eat .COLON r (fun r => (run (.lev 5) r f).map (.elvis c))
      ((run (.lev 0) r f).bind fun a r f => expect .COLON r fun r => (run (.lev 5) r f).map (.cond c a)))
    (.ok c r f)

/-- after `yield` (php.g:554) -/
def yieldRest (r : List Tok) : R :=
  if headIn printHeads r then
    (run (.lev 3) r false).bind fun e r f => eat .DOUBLE_ARROW r (fun r => (run (.lev 3) r f).map (.yieldPair e)) (.ok (.yield e) r f)
  else .ok .yield0 r false

/-- php.g:518-537 -/
def unaryStep (ts : List Tok) (f : Bool) : R :=
  uncons ts fun k r =>
    if unaryOps.contains k then (run (.lev 17) r f).map (.un k)
    else if k = .LIST then
      expect .LPAREN r fun r => (run (.vars true) r f).bind fun l r f => expect .RPAREN r fun r => expect .ASSIGN r fun r =>
        (run (.lev 17) r f).map (.list l)
    else if k = .EXIT then
      eat .LPAREN r
        (fun r => eat .RPAREN r (fun r => .ok .exitP r f)
          ((run (.lev 0) r f).bind fun e r f => expect .RPAREN r fun r => .ok (.exitE e) r f))
        (.ok .exit0 r f)
    else if k = .EVAL then
      expect .LPAREN r fun r => (run (.lev 0) r f).bind fun e r f => expect .RPAREN r fun r => .ok (.eval e) r f
    else run (.lev 18) ts f

/-- php.g:357-550 -/
def levStep (l : Nat) (ts : List Tok) (f : Bool) : R :=
  match lk l with
  | .chain => (run (.lev (l + 1)) ts f).bind fun e r f => run (.loop l e) r f
  | .postfix => (run (.lev (l + 1)) ts f).bind fun e r f => run (.loop l e) r f
  | .non => (run (.lev (l + 1)) ts f).bind fun e r f => nonRest run l e r f
  | .print => eat .PRINT ts (fun r => (run (.lev 4) r f).map .print) (run (.lev 4) ts f)                        -- :369
  | .assign =>
    eat .YIELD ts (fun r => yieldRest run r)
      (eat .YIELD_FROM ts (fun r => (run (.lev 3) r false).map .yieldFrom)
        ((run (.lev 5) ts false).bind fun e r f => assignRest run e r f))
  | .cond => (run (.lev 6) ts f).bind fun e r f => condRest run e r f
  | .unary => unaryStep run ts f
  | .prefix => uncons ts fun k r => if incDec.contains k then (run (.lev 18) r f).map (.pre k) else run (.lev 19) ts f
  | .primary => run .prim ts f

/-- the loop of a list of operands, or of postfix operators -/
def loopStep (l : Nat) (acc : E) (ts : List Tok) (f : Bool) : R :=
  onTok ts (.ok acc ts f) fun k r =>
    if l = 19 then if incDec.contains k then run (.loop l (.post acc k)) r f else .ok acc ts f
    else if (opsAt l).contains k then (run (.lev (l + 1)) r f).bind fun b r f => run (.loop l (.bin k acc b)) r f
    else .ok acc ts f

/-- `LPAREN parameterList=functionCallParameterList RPAREN`, after `(` -/
def argsStep (r : List Tok) (f : Bool) (c : E → List Tok → Bool → R) : R :=
  (run (.items false .RPAREN) r f).bind fun l r f => expect .RPAREN r fun r => c l r f

/-- arrays (php.g:560, 578-588), otherwise varExpressionNormal -/
def primStep (ts : List Tok) (f : Bool) : R :=
  uncons ts fun k r =>
    if k = .ARRAY then
      expect .LPAREN r fun r => (run (.items true .RPAREN) r f).bind fun l r f => expect .RPAREN r fun r => run (.tail .arr (.arr false l)) r f
    else if k = .LBRACKET then
      (run (.items true .RBRACKET) r f).bind fun l r f => expect .RBRACKET r fun r => run (.tail .arr (.arr true l)) r f
    else run .norm ts f

/-- constantOrClassConst (php.g:889, 895-900) -/
def constStep (ts : List Tok) (f : Bool) : R :=
  onName ts
    (fun g n r => eat .PAAMAYIM_NEKUDOTAYIM r
      (fun r => uncons r fun k r => if semiReserved.contains k then run (.tail .dim (.cconst g n k)) r f else .err)
      (run (.tail .dim (.name g n)) r f))
    .err

/-- a variable sets the flag (php.g:569) -/
def R.setVar : R → R
  | .ok e r _ => .ok e r true
  | a => a

/-- text with variables, after the first quote -/
def quoted (close : Tok) (r : List Tok) (f : Bool) (c : E → List Tok → Bool → R) : R :=
  (run .parts r f).bind fun ps r f => expect close r fun r => c ps r f

/-- after `(` (php.g:563-565) -/
def parenStep (r : List Tok) (f : Bool) : R :=
  (run (.lev 0) r f).bind fun e r1 f1 => expect .RPAREN r1 fun r1 =>
    if e.isNew then
      (run .newo r f).bind fun e r2 f2 => expect .RPAREN r2 fun r2 => run (.tail .inst (.paren e)) r2 f2
    else if e.isPlainClosure then
      eat .LPAREN r1 (fun r2 => argsStep run r2 f fun l r f => .ok (.iife e l) r f) (.ok (.paren e) r1 f1)
    else .ok (.paren e) r1 f1

/-- php.g:563-575 -/
def normStep (ts : List Tok) (f : Bool) : R :=
  uncons ts fun k r =>
    if scalars.contains k then .ok (.scalar k) r f
    else if nameHeads.contains k then (run .vari ts f).setVar.orElse (constStep run ts f)
    else if k = .CONSTANT_ENCAPSED_STRING then run (.tail .str (.scalar k)) r f
    else if k = .START_NOWDOC then expect .STRING r fun r => expect .END_NOWDOC r fun r => .ok .nowdoc r f
    else if k = .DOUBLE_QUOTE then quoted run .DOUBLE_QUOTE r f fun ps r f => run (.tail .str (.str k ps)) r f
    else if k = .START_HEREDOC then quoted run .END_HEREDOC r f fun ps r f => .ok (.str k ps) r f
    else if k = .BACKTICK then quoted run .BACKTICK r f fun ps r f => .ok (.str k ps) r f
    else if k = .LPAREN then parenStep run r f
    else if k = .ISSET then
      expect .LPAREN r fun r => (run (.vars false) r f).bind fun l r f => expect .RPAREN r fun r => .ok (.isset l) r f
    else if k = .EMPTY then
      expect .LPAREN r fun r => (run (.lev 0) r f).bind fun e r f => expect .RPAREN r fun r => .ok (.empty e) r f
    else if k = .NEW then run .newo ts f
    else if k = .CLONE then (run .norm r f).map .clone
    else onClosure (Closures.read ts) fun t r => .ok (.closure t) r f

/-- php.g:636-690: a function call, or a variable -/
def variStep (ts : List Tok) (f : Bool) : R :=
  onName ts
    (fun g n r => uncons r fun k r' =>
      if k = .LPAREN then run (.tail .vari (.name g n)) r f
      else if k = .PAAMAYIM_NEKUDOTAYIM then
        uncons r' fun k2 r2 =>
          if semiReserved.contains k2 then if headIn [.LPAREN] r2 then run (.tail .vari (.cconst g n k2)) r2 f else .err
          else if k2 = .LBRACE then
            (run (.lev 0) r2 f).bind fun e r f => expect .RBRACE r fun r =>
              if headIn [.LPAREN] r then run (.tail .vari (.sdyn g n e)) r f else .err
          else (run .cvar r' f).bind fun v r f => run (.tail .vari (.svar g n v)) r f
      else .err)
    ((run .cvar ts f).bind fun v r f => run (.tail .vari v) r f)

/-- php.g:682-687 -/
def cvarStep (ts : List Tok) (f : Bool) : R :=
  uncons ts fun k r =>
    if k = .VARIABLE then .ok .var r f
    else if k = .DOLLAR then
      uncons (dollars r).2 fun k r' =>
        if k = .VARIABLE then .ok (.vvar (dollars r).1) r' f
        else if k = .LBRACE then
          (run (.lev 0) r' f).bind fun e r'' f => expect .RBRACE r'' fun r'' => .ok (.dyn (dollars r).1 e) r'' f
        else .err
    else .err

/-- php.g:871-886; the alternative `LBRACE variable RBRACE` (:643) is never chosen, since its condition asks for `$` -/
def pnameStep (ts : List Tok) (f : Bool) : R :=
  uncons ts fun k r =>
    if k = .STRING then .ok .id r f
    else if k = .LBRACE then (run (.lev 0) r f).bind fun e r f => expect .RBRACE r fun r => .ok (.curly e) r f
    else run .cvar ts f

/-- php.g:857-863 -/
def crefStep (ts : List Tok) (f : Bool) : R :=
  onName ts (fun g n r => run (.tail .cls (.name g n)) r f)
    (eat .STATIC ts (fun r => run (.tail .cls .stat) r f)
      ((run .cvar ts f).bind fun v r f => run (.tail .cls v) r f))

/-- php.g:609-614 -/
def newoStep (ts : List Tok) (f : Bool) : R :=
  expect .NEW ts fun r => (run .cref r f).bind fun c r f =>
    eat .LPAREN r (fun r => argsStep run r f fun l r f => .ok (.newArgs c l) r f) (.ok (.new_ c) r f)

/-- what may follow (php.g:560, 636-676, 857-882, 889-891) -/
def tailStep (m : Mode) (acc : E) (ts : List Tok) (f : Bool) : R :=
  onTok ts (.ok acc ts f) fun k r =>
    if k = .LBRACKET ∧ fresh m acc = false then
      eat .RBRACKET r (fun r => if m = .str then .err else run (.tail m (.index0 acc)) r f)
        ((run (.lev 0) r f).bind fun i r f => expect .RBRACKET r fun r => run (.tail m (.index acc i)) r f)
    else if k = .LBRACE ∧ bracesOk m acc = true then
      (run (.lev 0) r f).bind fun i r f => expect .RBRACE r fun r => run (.tail m (.cindex acc i)) r f
    else if k = .LPAREN ∧ callOk m acc = true then argsStep run r f fun l r f => run (.tail m (.call acc l)) r f
    else if memberOk m k acc then
      if m = .cls ∧ k = .PAAMAYIM_NEKUDOTAYIM then (run .cvar r f).bind fun p r f => run (.tail m (.prop k acc p)) r f
      else (run .pname r f).bind fun p r f => run (.tail m (.prop k acc p)) r f
    else .ok acc ts f

/-- an element of a list (php.g:621, 632-633) -/
def itemStep (a : Bool) (ts : List Tok) (f : Bool) : R :=
  eat .BIT_AND ts (fun r => (run .vari r f).map .byRef)
    (if a then
      (run (.lev 0) ts f).bind fun k r f =>
        eat .DOUBLE_ARROW r
          (fun r => eat .BIT_AND r (fun r => (run .vari r f).map fun v => .pair k (.byRef v)) ((run (.lev 0) r f).map (.pair k)))
          (.ok k r f)
    else eat .ELLIPSIS ts (fun r => (run (.lev 0) r f).map .spread) (run (.lev 0) ts f))

/-- the rest of a list; a comma may stand at the end (php.g:578-587, 616-618) -/
def items1Step (a : Bool) (close : Tok) (ts : List Tok) (f : Bool) : R :=
  (run (.item a) ts f).bind fun e r f =>
    eat .COMMA r (fun r => if headIn [close] r then .ok (.lastComma e) r f else (run (.items1 a close) r f).map (.more e))
      (.ok (.last e) r f)

/-- php.g:571, 624-630 -/
def velemStep (b : Bool) (ts : List Tok) (f : Bool) : R :=
  if headIn nameHeads ts then run .vari ts f
  else if b then
    eat .LIST ts
      (fun r => expect .LPAREN r fun r => (run (.vars true) r f).bind fun l r f => expect .RPAREN r fun r => .ok (.lists l) r f)
      (.ok .nil ts f)
  else .err

/-- after `${` or `{`: an expression and `}` -/
def pexprStep (k : Tok) (r : List Tok) (f : Bool) : R :=
  (run (.lev 0) r f).bind fun e r f => expect .RBRACE r fun r => .ok (.pexpr k e) r f

/-- php.g:905-919 -/
def partStep (ts : List Tok) (f : Bool) : R :=
  uncons ts fun k r =>
    if k = .ENCAPSED_AND_WHITESPACE then .ok .ptext r f
    else if k = .VARIABLE then
      eat .OBJECT_OPERATOR r (fun r => expect .STRING r fun r => .ok .pprop r f)
        (eat .LBRACKET r
          (fun r => uncons r fun k r => if offsets.contains k then expect .RBRACKET r fun r => .ok (.poff k) r f else .err)
          (.ok .var r f))
    else if k = .CURLY_OPEN then pexprStep run k r f
    else if k = .DOLLAR_OPEN_CURLY_BRACES then
      eat .STRING_VARNAME r
        (fun r1 => eat .LBRACKET r1
          (fun r2 => eat .RBRACKET r2 (fun r => expect .RBRACE r fun r => .ok .pvname0 r f)
            ((run (.lev 0) r2 f).bind fun i r f => expect .RBRACKET r fun r => expect .RBRACE r fun r => .ok (.pvname i) r f))
          (pexprStep run k r f))
        (pexprStep run k r f)
    else .err

/-- The functions of the parser, which call each other through `run`. -/
def step (j : Job) (ts : List Tok) (f : Bool) : R :=
  match j with
  | .lev l => levStep run l ts f
  | .loop l acc => loopStep run l acc ts f
  | .prim => primStep run ts f
  | .norm => normStep run ts f
  | .vari => variStep run ts f
  | .cvar => cvarStep run ts f
  | .pname => pnameStep run ts f
  | .cref => crefStep run ts f
  | .newo => newoStep run ts f
  | .tail m acc => tailStep run m acc ts f
  | .item a => itemStep run a ts f
  | .items a c => if headIn [c] ts then .ok .nil ts f else run (.items1 a c) ts f
  | .items1 a c => items1Step run a c ts f
  | .vars b =>                                                                              -- :571, 624
    (run (.velem b) ts f).bind fun e r f => eat .COMMA r (fun r => (run (.vars b) r f).map (.vmore e)) (.ok (.vlast e) r f)
  | .velem b => velemStep run b ts f
  | .parts =>                                                                               -- :902
    if headIn partHeads ts then (run .part ts f).bind fun p r f => (run .parts r f).map (.part p) else .ok .nil ts f
  | .part => partStep run ts f
end

variable [Closures]

/-- The parser.  The first argument bounds the number of nested calls; `parse_total` shows that it does not matter. -/
def run : Nat → Job → List Tok → Bool → R
  | 0, _, _, _ => .fuel
  | n + 1, j, ts, f => step (run n) j ts f

/-- `parseExpr` (php.g:357) -/
def parse (ts : List Tok) : R := run (40 * ts.length + 30) (.lev 0) ts false

/-! ## Specification: the text of a tree, and which trees need no further parentheses -/

/-- `\B` repeated -/
def moreNames : Nat → List Tok
  | 0 => []
  | n + 1 => .BACKSLASH :: .STRING :: moreNames n
/-- `A\B\C` or `\A\B\C` -/
def nameToks (g : Bool) (n : Nat) : List Tok := (if g then [.BACKSLASH] else []) ++ .STRING :: moreNames n
/-- the quote that ends what this one begins -/
def closing : Tok → Tok
  | .START_HEREDOC => .END_HEREDOC
  | k => k

/-- the tokens of a tree -/
def E.toks : E → List Tok
  | .scalar k => [k]
  | .nowdoc => [.START_NOWDOC, .STRING, .END_NOWDOC]
  | .name g n => nameToks g n
  | .cconst g n k => nameToks g n ++ [.PAAMAYIM_NEKUDOTAYIM, k]
  | .var => [.VARIABLE]
  | .vvar n => List.replicate (n + 1) .DOLLAR ++ [.VARIABLE]
  | .dyn n e => List.replicate (n + 1) .DOLLAR ++ .LBRACE :: e.toks ++ [.RBRACE]
  | .svar g n v => nameToks g n ++ .PAAMAYIM_NEKUDOTAYIM :: v.toks
  | .sdyn g n e => nameToks g n ++ .PAAMAYIM_NEKUDOTAYIM :: .LBRACE :: e.toks ++ [.RBRACE]
  | .stat => [.STATIC]
  | .paren e => .LPAREN :: e.toks ++ [.RPAREN]
  | .closure t => t
  | .iife c l => .LPAREN :: c.toks ++ .RPAREN :: .LPAREN :: l.toks ++ [.RPAREN]
  | .empty e => .EMPTY :: .LPAREN :: e.toks ++ [.RPAREN]
  | .isset l => .ISSET :: .LPAREN :: l.toks ++ [.RPAREN]
  | .new_ c => .NEW :: c.toks
  | .newArgs c l => .NEW :: c.toks ++ .LPAREN :: l.toks ++ [.RPAREN]
  | .clone e => .CLONE :: e.toks
  | .str k ps => k :: ps.toks ++ [closing k]
  | .arr true l => .LBRACKET :: l.toks ++ [.RBRACKET]
  | .arr false l => .ARRAY :: .LPAREN :: l.toks ++ [.RPAREN]
  | .index0 b => b.toks ++ [.LBRACKET, .RBRACKET]
  | .index b i => b.toks ++ .LBRACKET :: i.toks ++ [.RBRACKET]
  | .cindex b i => b.toks ++ .LBRACE :: i.toks ++ [.RBRACE]
  | .prop op b p => b.toks ++ op :: p.toks
  | .call b l => b.toks ++ .LPAREN :: l.toks ++ [.RPAREN]
  | .id => [.STRING]
  | .curly e => .LBRACE :: e.toks ++ [.RBRACE]
  | .spread e => .ELLIPSIS :: e.toks
  | .byRef v => .BIT_AND :: v.toks
  | .pair k v => k.toks ++ .DOUBLE_ARROW :: v.toks
  | .nil => []
  | .last i => i.toks
  | .lastComma i => i.toks ++ [.COMMA]
  | .more i l => i.toks ++ .COMMA :: l.toks
  | .vlast e => e.toks
  | .vmore e l => e.toks ++ .COMMA :: l.toks
  | .lists l => .LIST :: .LPAREN :: l.toks ++ [.RPAREN]
  | .part p l => p.toks ++ l.toks
  | .ptext => [.ENCAPSED_AND_WHITESPACE]
  | .pprop => [.VARIABLE, .OBJECT_OPERATOR, .STRING]
  | .poff k => [.VARIABLE, .LBRACKET, k, .RBRACKET]
  | .pvname0 => [.DOLLAR_OPEN_CURLY_BRACES, .STRING_VARNAME, .LBRACKET, .RBRACKET, .RBRACE]
  | .pvname i => .DOLLAR_OPEN_CURLY_BRACES :: .STRING_VARNAME :: .LBRACKET :: i.toks ++ [.RBRACKET, .RBRACE]
  | .pexpr k e => k :: e.toks ++ [.RBRACE]
  | .un k e => k :: e.toks
  | .pre k e => k :: e.toks
  | .post e k => e.toks ++ [k]
  | .bin k a b => a.toks ++ k :: b.toks
  | .inst a c => a.toks ++ .INSTANCEOF :: c.toks
  | .cond c a b => c.toks ++ .QUESTION :: a.toks ++ .COLON :: b.toks
  | .elvis c b => c.toks ++ .QUESTION :: .COLON :: b.toks
  | .assign k a b => a.toks ++ k :: b.toks
  | .assignRef a v => a.toks ++ .ASSIGN :: .BIT_AND :: v.toks
  | .print e => .PRINT :: e.toks
  | .exit0 => [.EXIT]
  | .exitP => [.EXIT, .LPAREN, .RPAREN]
  | .exitE e => .EXIT :: .LPAREN :: e.toks ++ [.RPAREN]
  | .eval e => .EVAL :: .LPAREN :: e.toks ++ [.RPAREN]
  | .list l e => .LIST :: .LPAREN :: l.toks ++ .RPAREN :: .ASSIGN :: e.toks
  | .yield0 => [.YIELD]
  | .yield e => .YIELD :: e.toks
  | .yieldPair k v => .YIELD :: k.toks ++ .DOUBLE_ARROW :: v.toks
  | .yieldFrom e => .YIELD_FROM :: e.toks

/-- The table of precedence (php.g:334-356, from weak to strong): binary operators with their level, and whether they are
left-associative (otherwise non-associative). -/
inductive Prec : Tok → Nat → Bool → Prop
  | or : Prec .LOGICAL_OR 0 true
  | xor : Prec .LOGICAL_XOR 1 true
  | and : Prec .LOGICAL_AND 2 true
  | coalesce : Prec .NULL_COALESCE 6 true
  | boolOr : Prec .BOOLEAN_OR 7 true
  | boolAnd : Prec .BOOLEAN_AND 8 true
  | bitOr : Prec .BIT_OR 9 true
  | bitXor : Prec .BIT_XOR 10 true
  | bitAnd : Prec .BIT_AND 11 true
  | eq : Prec .IS_EQUAL 12 false
  | ne : Prec .IS_NOT_EQUAL 12 false
  | identical : Prec .IS_IDENTICAL 12 false
  | notIdentical : Prec .IS_NOT_IDENTICAL 12 false
  | spaceship : Prec .SPACESHIP 12 false
  | lt : Prec .IS_SMALLER 13 false
  | le : Prec .IS_SMALLER_OR_EQUAL 13 false
  | gt : Prec .IS_GREATER 13 false
  | ge : Prec .IS_GREATER_OR_EQUAL 13 false
  | shl : Prec .SL 14 true
  | shr : Prec .SR 14 true
  | plus : Prec .PLUS 15 true
  | minus : Prec .MINUS 15 true
  | concat : Prec .CONCAT 15 true
  | mul : Prec .MUL 16 true
  | div : Prec .DIV 16 true
  | mod : Prec .MOD 16 true
  | exp : Prec .EXP 16 true

inductive IsAssign : Tok → Prop
  | eq : IsAssign .ASSIGN | plus : IsAssign .PLUS_ASSIGN | minus : IsAssign .MINUS_ASSIGN | mul : IsAssign .MUL_ASSIGN
  | exp : IsAssign .EXP_ASSIGN | div : IsAssign .DIV_ASSIGN | concat : IsAssign .CONCAT_ASSIGN | mod : IsAssign .MOD_ASSIGN
  | and : IsAssign .AND_ASSIGN | or : IsAssign .OR_ASSIGN | xor : IsAssign .XOR_ASSIGN | shl : IsAssign .SL_ASSIGN
  | shr : IsAssign .SR_ASSIGN

inductive IsUnary : Tok → Prop
  | minus : IsUnary .MINUS | plus : IsUnary .PLUS | bang : IsUnary .BANG | tilde : IsUnary .TILDE | at : IsUnary .AT
  | int : IsUnary .INT_CAST | double : IsUnary .DOUBLE_CAST | string : IsUnary .STRING_CAST | array : IsUnary .ARRAY_CAST
  | object : IsUnary .OBJECT_CAST | bool : IsUnary .BOOL_CAST | unset : IsUnary .UNSET_CAST
  | incl : IsUnary .INCLUDE | inclOnce : IsUnary .INCLUDE_ONCE | req : IsUnary .REQUIRE | reqOnce : IsUnary .REQUIRE_ONCE

inductive IsIncDec : Tok → Prop | inc : IsIncDec .INC | dec : IsIncDec .DEC

/-- literals that no index may follow -/
inductive IsScalar : Tok → Prop
  | int : IsScalar .LNUMBER | float : IsScalar .DNUMBER | line : IsScalar .LINE
  | dir : IsScalar .DIR | file : IsScalar .FILE | cls : IsScalar .CLASS_C | trait : IsScalar .TRAIT_C
  | method : IsScalar .METHOD_C | func : IsScalar .FUNC_C | ns : IsScalar .NAMESPACE_C | varname : IsScalar .STRING_VARNAME

/-- the words that may be names of class constants and methods: identifiers and most keywords -/
def words : List Tok :=
  [.STRING, .ABSTRACT, .ARRAY, .AS, .BREAK, .CALLABLE, .CASE, .CATCH, .CLASS, .CLASS_C, .CLONE, .CONST, .CONTINUE, .DECLARE, .DEFAULT,
   .DIR, .DO, .ECHO, .ELSE, .ELSEIF, .EMPTY, .ENDDECLARE, .ENDFOR, .ENDFOREACH, .ENDIF, .ENDSWITCH, .ENDWHILE, .EVAL, .EXIT, .EXTENDS,
   .FILE, .FINAL, .FINALLY, .FOR, .FOREACH, .FUNC_C, .FUNCTION, .GLOBAL, .GOTO, .IF, .IMPLEMENTS, .INCLUDE, .INCLUDE_ONCE, .INSTANCEOF,
   .INSTEADOF, .INTERFACE, .ISSET, .LINE, .LIST, .LOGICAL_AND, .LOGICAL_OR, .LOGICAL_XOR, .METHOD_C, .NAMESPACE, .NAMESPACE_C, .NEW,
   .PRINT, .PRIVATE, .PROTECTED, .PUBLIC, .REQUIRE, .REQUIRE_ONCE, .RETURN, .STATIC, .SWITCH, .THROW, .TRAIT, .TRAIT_C, .TRY, .UNSET,
   .USE, .VAR, .WHILE, .YIELD]

/-- `[k]` behind a variable in a text -/
inductive IsOffset : Tok → Prop
  | name : IsOffset .STRING | num : IsOffset .NUM_STRING | var : IsOffset .VARIABLE

/-- an access path that begins with a variable, or with a call of a function or static method -/
def E.isVar : E → Bool
  | .var | .vvar _ | .dyn _ _ | .svar _ _ _ | .sdyn _ _ _ => true
  | .call (.name _ _) _ | .call (.cconst _ _ _) _ => true
  | .index0 b | .index b _ | .cindex b _ | .prop _ b _ | .call b _ => b.isVar
  | _ => false
/-- elements of lists that are no expressions -/
def E.isItem : E → Bool
  | .spread _ | .byRef _ | .pair _ _ => true
  | _ => false

/-- What the check of the left side of an assignment looks at: whether the last operand read is a variable, if `f` says so for what
was read before; as a part of a larger tree. -/
def E.raw : E → Bool → Bool
  | .scalar _, f | .nowdoc, f | .name _ _, f | .cconst _ _ _, f | .var, f | .vvar _, f | .stat, f | .closure _, f | .id, f | .nil, f
  | .ptext, f | .pprop, f | .poff _, f | .pvname0, f | .exit0, f | .exitP, f | .yield0, f => f
  | .dyn _ e, _ | .sdyn _ _ e, _ | .curly e, _ | .pexpr _ e, _ | .pvname e, _ | .empty e, _ | .exitE e, _ | .eval e, _ | .print e, _
  | .yield e, _ | .yieldFrom e, _ | .spread e, _ | .index _ e, _ | .cindex _ e, _ | .assign _ _ e, _ | .yieldPair _ e, _ =>
    e.isVar || e.raw false
  | .paren e, f => if e.isNew then e.raw f else e.isVar || e.raw false
  | .svar _ _ e, f | .iife _ e, f | .isset e, f | .new_ e, f | .str _ e, f | .arr _ e, f | .index0 e, f | .byRef e, f | .vlast e, f
  | .lists e, f => e.raw f
  | .newArgs a b, f | .call a b, f | .prop _ a b, f | .vmore a b, f | .part a b, f => b.raw (a.raw f)
  | .clone e, f | .un _ e, f | .pre _ e, f | .post e _, f => e.isVar || e.raw f
  | .pair k v, _ => if v.isItem then v.raw (k.isVar || k.raw false) else v.isVar || v.raw false
  | .last i, f | .lastComma i, f => if i.isItem then i.raw f else i.isVar || i.raw false
  | .more i l, f => l.raw (if i.isItem then i.raw f else i.isVar || i.raw false)
  | .bin k a b, f =>
    b.isVar || b.raw (if k = .LOGICAL_OR ∨ k = .LOGICAL_XOR ∨ k = .LOGICAL_AND then false else a.isVar || a.raw f)
  | .inst a c, f => c.raw (a.isVar || a.raw f)
  | .cond _ a b, _ => b.isVar || b.raw (a.isVar || a.raw false)
  | .elvis c b, f => b.isVar || b.raw (c.isVar || c.raw f)
  | .assignRef _ v, _ => v.raw false
  | .list l e, f => e.isVar || e.raw (l.raw f)
/-- … as an operand -/
def E.mark (e : E) (f : Bool) : Bool := e.isVar || e.raw f
/-- … as an element of a list -/
def E.ent (e : E) (f : Bool) : Bool := if e.isItem then e.raw f else e.mark false

/-- ends with `yield x`: `=>` belongs to it -/
def E.endsYield : E → Bool
  | .yield _ => true
  | .bin _ _ e | .assign _ _ e | .print e | .yieldPair _ e | .yieldFrom e => e.endsYield
  | _ => false

/-- a call, or a call with indices behind it -/
inductive Called : E → Prop
  | call (b l) : Called (.call b l)
  | index0 (b) : Called b → Called (.index0 b)
  | index (b i) : Called b → Called (.index b i)
/-- `(new …)`, or the name of a class: no index may follow -/
inductive Fresh : Mode → E → Prop
  | inst (e) : Fresh .inst (.paren e)
  | name (g n) : Fresh .cls (.name g n)
  | stat : Fresh .cls .stat

/-- Where a tree stands: as an operand of some level (an operand of level `l` may be any tree of level `l` or stronger), as an
innermost operand that is no array, as an access path, as a variable without indices, as the name of a member, as `new …`, in a
list, in a list of variables, in a text. -/
inductive Cat
  | lev (l : Nat) | norm | path (m : Mode) | cvar | pname | newo | item (a : Bool) | items (a : Bool) | items1 (a : Bool)
  | vars (b : Bool) | velem (b : Bool) | parts | part

/-- The grouping: which trees may stand where without parentheses. -/
inductive Fits : Cat → E → Prop
  -- binary operators: a left-associative one may be repeated on its left, operands on the right are stronger
  | left (k l a b) : Prec k l true → Fits (.lev l) a → Fits (.lev (l + 1)) b → Fits (.lev l) (.bin k a b)
  | non (k l a b) : Prec k l false → Fits (.lev (l + 1)) a → Fits (.lev (l + 1)) b → Fits (.lev l) (.bin k a b)
  | inst (a c) : Fits (.lev 14) a → Fits (.path .cls) c → Fits (.lev 13) (.inst a c)
  | print (e) : Fits (.lev 4) e → Fits (.lev 3) (.print e)
  | assign (k a b) : IsAssign k → Fits (.lev 5) a → a.mark false = true → Fits (.lev 4) b → Fits (.lev 4) (.assign k a b)
  | assignVar (a v) : Fits (.lev 5) a → a.mark false = true → Fits (.path .vari) v → Fits (.lev 4) (.assignRef a v)
  | assignNew (a c) : Fits (.lev 5) a → a.mark false = true → Fits .newo c → Fits (.lev 4) (.assignRef a c)
  | yield0 : Fits (.lev 4) .yield0
  | yield (e) : Fits (.lev 3) e → Fits (.lev 4) (.yield e)
  | yieldPair (k v) : Fits (.lev 3) k → k.endsYield = false → Fits (.lev 3) v → Fits (.lev 4) (.yieldPair k v)
  | yieldFrom (e) : Fits (.lev 3) e → Fits (.lev 4) (.yieldFrom e)
  | cond (c a b) : Fits (.lev 6) c → Fits (.lev 0) a → Fits (.lev 5) b → Fits (.lev 5) (.cond c a b)
  | elvis (c b) : Fits (.lev 6) c → Fits (.lev 5) b → Fits (.lev 5) (.elvis c b)
  | unary (k e) : IsUnary k → Fits (.lev 17) e → Fits (.lev 17) (.un k e)
  | list (l e) : Fits (.vars true) l → Fits (.lev 17) e → Fits (.lev 17) (.list l e)
  | exit0 : Fits (.lev 17) .exit0
  | exitP : Fits (.lev 17) .exitP
  | exitE (e) : Fits (.lev 0) e → Fits (.lev 17) (.exitE e)
  | eval (e) : Fits (.lev 0) e → Fits (.lev 17) (.eval e)
  | pre (k e) : IsIncDec k → Fits (.lev 18) e → Fits (.lev 18) (.pre k e)
  | post (e k) : IsIncDec k → Fits (.lev 19) e → Fits (.lev 19) (.post e k)
  -- a stronger tree may stand for a weaker one
  | up (l e) : l < 20 → Fits (.lev (l + 1)) e → Fits (.lev l) e
  -- innermost trees
  | array (e) : Fits (.path .arr) e → Fits (.lev 20) e
  | normal (e) : Fits .norm e → Fits (.lev 20) e
  | scalar (k) : IsScalar k → Fits .norm (.scalar k)
  | nowdoc : Fits .norm .nowdoc
  | heredoc (ps) : Fits .parts ps → Fits .norm (.str .START_HEREDOC ps)
  | backtick (ps) : Fits .parts ps → Fits .norm (.str .BACKTICK ps)
  | paren (e) : Fits (.lev 0) e → e.isNew = false → Fits .norm (.paren e)
  | closure (t) : Closures.Ok t → Fits .norm (.closure t)
  | iife (t l) : Closures.Ok (.FUNCTION :: .LPAREN :: t) → Fits (.items false) l → Fits .norm (.iife (.closure (.FUNCTION :: .LPAREN :: t)) l)
  | empty (e) : Fits (.lev 0) e → Fits .norm (.empty e)
  | isset (l) : Fits (.vars false) l → Fits .norm (.isset l)
  | clone (e) : Fits .norm e → Fits .norm (.clone e)
  | new (e) : Fits .newo e → Fits .norm e
  | const (e) : Fits (.path .dim) e → Fits .norm e
  | string (e) : Fits (.path .str) e → Fits .norm e
  | created (e) : Fits (.path .inst) e → Fits .norm e
  | variable (e) : Fits (.path .vari) e → Fits .norm e
  -- `new`
  | newBare (c) : Fits (.path .cls) c → Fits .newo (.new_ c)
  | newArgs (c l) : Fits (.path .cls) c → Fits (.items false) l → Fits .newo (.newArgs c l)
  -- variables
  | var : Fits .cvar .var
  | vvar (n) : Fits .cvar (.vvar n)
  | dyn (n e) : Fits (.lev 0) e → Fits .cvar (.dyn n e)
  -- where access paths begin: constants, strings, arrays, `(new …)`, classes, variables, calls by name
  | constName (g n) : Fits (.path .dim) (.name g n)
  | classConst (g n k) : k ∈ words → Fits (.path .dim) (.cconst g n k)
  | literal : Fits (.path .str) (.scalar .CONSTANT_ENCAPSED_STRING)
  | quoted (ps) : Fits .parts ps → Fits (.path .str) (.str .DOUBLE_QUOTE ps)
  | arr (s l) : Fits (.items true) l → Fits (.path .arr) (.arr s l)
  | parenNew (e) : Fits .newo e → Fits (.path .inst) (.paren e)
  | className (g n) : Fits (.path .cls) (.name g n)
  | classStatic : Fits (.path .cls) .stat
  | classVar (v) : Fits .cvar v → Fits (.path .cls) v
  | simple (v) : Fits .cvar v → Fits (.path .vari) v
  | staticVar (g n v) : Fits .cvar v → Fits (.path .vari) (.svar g n v)
  | function (g n l) : Fits (.items false) l → Fits (.path .vari) (.call (.name g n) l)
  | method (g n k l) : k ∈ words → Fits (.items false) l → Fits (.path .vari) (.call (.cconst g n k) l)
  | dynMethod (g n e l) : Fits (.lev 0) e → Fits (.items false) l → Fits (.path .vari) (.call (.sdyn g n e) l)
  -- how they go on: nothing that was called may be called again; braces as index only in front of a call
  | index0 (m b) : Fits (.path m) b → ¬ Fresh m b → m ≠ .str → Fits (.path m) (.index0 b)
  | index (m b i) : Fits (.path m) b → ¬ Fresh m b → Fits (.lev 0) i → Fits (.path m) (.index b i)
  | cindex (m b i) : Fits (.path m) b → ¬ Fresh m b → ¬ Called b → m ≠ .arr → m ≠ .str → Fits (.lev 0) i → Fits (.path m) (.cindex b i)
  | call (m b l) : Fits (.path m) b → ¬ Fresh m b → ¬ Called b → m = .vari ∨ m = .inst → Fits (.items false) l → Fits (.path m) (.call b l)
  | arrow (m b p) : Fits (.path m) b → m = .vari ∨ m = .inst ∨ m = .cls ∧ ¬ Fresh m b → Fits .pname p →
      Fits (.path m) (.prop .OBJECT_OPERATOR b p)
  | scope (b p) : Fits (.path .vari) b → Fits .pname p → Fits (.path .vari) (.prop .PAAMAYIM_NEKUDOTAYIM b p)
  | classScope (b v) : Fits (.path .cls) b → Fits .cvar v → Fits (.path .cls) (.prop .PAAMAYIM_NEKUDOTAYIM b v)
  -- names of members
  | id : Fits .pname .id
  | curly (e) : Fits (.lev 0) e → Fits .pname (.curly e)
  | nameVar (v) : Fits .cvar v → Fits .pname v
  -- lists
  | item (a e) : Fits (.lev 0) e → Fits (.item a) e
  | spread (e) : Fits (.lev 0) e → Fits (.item false) (.spread e)
  | byRef (a v) : Fits (.path .vari) v → Fits (.item a) (.byRef v)
  | pair (k v) : Fits (.lev 0) k → k.endsYield = false → Fits (.lev 0) v → Fits (.item true) (.pair k v)
  | pairRef (k v) : Fits (.lev 0) k → k.endsYield = false → Fits (.path .vari) v → Fits (.item true) (.pair k (.byRef v))
  | nil (a) : Fits (.items a) .nil
  | some (a l) : Fits (.items1 a) l → Fits (.items a) l
  | last (a i) : Fits (.item a) i → Fits (.items1 a) (.last i)
  | lastComma (a i) : Fits (.item a) i → Fits (.items1 a) (.lastComma i)
  | more (a i l) : Fits (.item a) i → Fits (.items1 a) l → Fits (.items1 a) (.more i l)
  -- lists of variables
  | vlast (b e) : Fits (.velem b) e → Fits (.vars b) (.vlast e)
  | vmore (b e l) : Fits (.velem b) e → Fits (.vars b) l → Fits (.vars b) (.vmore e l)
  | velem (b e) : Fits (.path .vari) e → Fits (.velem b) e
  | vnone : Fits (.velem true) .nil
  | vlists (l) : Fits (.vars true) l → Fits (.velem true) (.lists l)
  -- texts
  | pnil : Fits .parts .nil
  | part (p l) : Fits .part p → Fits .parts l → Fits .parts (.part p l)
  | ptext : Fits .part .ptext
  | pvar : Fits .part .var
  | pprop : Fits .part .pprop
  | poff (k) : IsOffset k → Fits .part (.poff k)
  | pvname0 : Fits .part .pvname0
  | pvname (i) : Fits (.lev 0) i → Fits .part (.pvname i)
  | pcurly (e) : Fits (.lev 0) e → Fits .part (.pexpr .CURLY_OPEN e)
  | pdollar (e) : Fits (.lev 0) e → Fits .part (.pexpr .DOLLAR_OPEN_CURLY_BRACES e)

end KPhp.Grammar
