import Verif.Parser.StmtHeads
/-
# Statements, declarations and files

Models the rules of parser/php.g for whole files: lists of statements, control structures with their two notations, functions,
classes, namespaces (php.g:294-332, 692-734, 791-855, 938-941, 1073-1125, 1145-1147).

Simplifications: what is modelled is whether a text is read *without any syntax error* and how it is read; the error recovery
(`try/recover`, the loops that skip tokens) is not.  Expressions are those of `ExprGrammar.lean`; which
closures there are is left open here and settled in `StmtClosures.lean`.
-/
namespace KPhp.Stmt
set_option linter.unusedVariables false
set_option linter.unusedSectionVars false
set_option linter.unusedSimpArgs false
open KPhp (Tok)
open KPhp.Grammar (headIn E Closures)
variable [Closures]

/-! ## Trees -/

/-- the nodes of a file, one constructor for every alternative of the rules -/
inductive S
  /-- a statement without statements inside -/
  | line (l : Line)
  /-- `{ … }` -/
  | block (b : S)
  | ifs (c : E) (b : S)
  /-- the rest of an `if`: a statement, and `elseif`s and `else` -/
  | plain (t rest : S)
  /-- the rest of an `if`: `: … endif` -/
  | altIf (b rest : S) (e : Tok)
  | loop (h : Head) (b : S)
  /-- the body of a loop: `: … endwhile` -/
  | alt (b : S) (w e : Tok)
  | switch (c : E) (b : S)
  /-- `{ … }` or `: … endswitch` behind the head of a `switch` -/
  | braces (semi : Bool) (cases : S)
  | colon (semi : Bool) (cases : S) (e : Tok)
  | try_ (b rest : S)
  | do_ (s : S) (c : E) (e : Tok)
  | func (f : FHead) (b : S)
  | cls (h : CHead) (members : S)
  | halt
  | nsLine (parts : List Tok)
  | nsBlock (parts : List Tok) (b : S)
  /-- `elseif (c) s`, and what follows -/
  | elif (c : E) (s rest : S)
  | els (s : S)
  /-- `elseif (c): …`, and what follows -/
  | elifAlt (c : E) (b rest : S)
  | elsAlt (b : S)
  | noElse
  /-- `case c:`, `default:` and their statements -/
  | case_ (c : Option E) (sep : Tok) (b : S)
  | catch_ (types : List Name) (b rest : S)
  | fin (b : S)
  | noCatch
  | member (m : Member)
  /-- a method without body -/
  | abstr (m : Member)
  | method (m : Member) (b : S)
  /-- lists -/
  | nil
  | cons (a l : S)
deriving DecidableEq, Repr

/-- the rules -/
inductive Cat
  /-- php.g:692-734 `statement` -/
  | stmt
  /-- php.g:301-311 `topStatement` -/
  | top
  /-- php.g:297-299 `outerTopStatement` -/
  | outer
  /-- php.g:313-332 `innerStatementList` -/
  | body
  /-- php.g:294 `start` -/
  | file
  /-- php.g:693-696: behind the condition of an `if` -/
  | ifBody
  /-- php.g:838-846 `elseifList`, `elseSingle` -/
  | rest
  /-- php.g:848-855 `newElseifList`, `newElseSingle` -/
  | altRest
  /-- php.g:806-808, 816-818, 830-836: the bodies of loops -/
  | loopBody (w : Tok)
  /-- php.g:791-793 -/
  | switchBody
  /-- php.g:795-800 `caseList`, `case_item` -/
  | cases
  | case
  /-- php.g:711-712, 802-804 -/
  | catches
  /-- php.g:1100-1147 `classBody`, `classStatement` -/
  | members
  | member
deriving DecidableEq, Repr

/-! ## The parser -/

/-- php.g:315-319: what ends a list of statements -/
def closers : List Tok :=
  [.RBRACE, .ELSEIF, .ELSE, .ENDIF, .ENDFOREACH, .ENDFOR, .ENDWHILE, .ENDSWITCH, .ENDDECLARE, .CASE, .DEFAULT]
def loopToks : List Tok := [.WHILE, .FOR, .FOREACH, .DECLARE]
def classToks : List Tok := [.CLASS, .ABSTRACT, .FINAL, .TRAIT, .INTERFACE]

/-- first `p`, then what depends on it -/
def bindP {α β} (p : P α) (f : α → P β) : P (α × β) := fun ts => do
  let (a, ts) ← p ts
  let (b, ts) ← f a ts
  return ((a, b), ts)

/-- a list, until `stop` -/
def listOf (stop : List Tok → Bool) (item rest : P S) : P S := fun ts =>
  if stop ts then some (.nil, ts) else mapP (fun x => .cons x.1 x.2) (andThen item rest) ts

/-- `{ statements }` -/
def braced (rec : Cat → P S) (c : Cat) : P S := pre .LBRACE (post (rec c) .RBRACE)

/-- php.g:692 -/
def blockP (rec : Cat → P S) : P S := mapP .block (braced rec .body)
/-- php.g:693 -/
def ifP (rec : Cat → P S) : P S := mapP (fun x => .ifs x.1 x.2) (andThen (pre .IF parenP) (rec .ifBody))
/-- php.g:694 -/
def altIfP (rec : Cat → P S) : P S :=
  mapP (fun x => .altIf x.1 x.2.1 x.2.2) (pre .COLON (andThen (rec .body) (andThen (post (rec .altRest) .ENDIF) semiP)))
/-- php.g:695 -/
def plainP (rec : Cat → P S) : P S := mapP (fun x => .plain x.1 x.2) (andThen (rec .stmt) (rec .rest))
def ifBodyP (rec : Cat → P S) : P S := fun ts => if headIn [.COLON] ts then altIfP rec ts else plainP rec ts
/-- php.g:697-699, 702-708 -/
def loopP (rec : Cat → P S) : P S := mapP (fun x => .loop x.1 x.2) (bindP headP fun h => rec (.loopBody h.endWord))
/-- php.g:700 -/
def switchP (rec : Cat → P S) : P S := mapP (fun x => .switch x.1 x.2) (andThen (pre .SWITCH parenP) (rec .switchBody))
/-- php.g:791 -/
def bracesP (rec : Cat → P S) : P S :=
  mapP (fun x => .braces x.1 x.2) (pre .LBRACE (andThen (flag .SEMICOLON) (post (rec .cases) .RBRACE)))
/-- php.g:792 -/
def colonP (rec : Cat → P S) : P S :=
  mapP (fun x => .colon x.1 x.2.1 x.2.2) (pre .COLON (andThen (flag .SEMICOLON) (andThen (post (rec .cases) .ENDSWITCH) semiP)))
def switchBodyP (rec : Cat → P S) : P S := fun ts => if headIn [.COLON] ts then colonP rec ts else bracesP rec ts
/-- php.g:710-712 -/
def tryP (rec : Cat → P S) : P S := mapP (fun x => .try_ x.1 x.2) (pre .TRY (andThen (braced rec .body) (rec .catches)))
/-- php.g:716 -/
def doP (rec : Cat → P S) : P S :=
  mapP (fun x => .do_ x.1 x.2.1 x.2.2) (pre .DO (andThen (rec .stmt) (andThen (pre .WHILE parenP) semiP)))
/-- php.g:692-734 -/
def stmtP (rec : Cat → P S) : P S := fun ts =>
  if headIn [.LBRACE] ts then blockP rec ts
  else if headIn [.IF] ts then ifP rec ts
  else if headIn loopToks ts then loopP rec ts
  else if headIn [.SWITCH] ts then switchP rec ts
  else if headIn [.TRY] ts then tryP rec ts
  else if headIn [.DO] ts then doP rec ts
  else mapP .line lineP ts

/-- php.g:302-304: a closure, not a function with a name -/
def isClosure : List Tok → Bool
  | .FUNCTION :: .LPAREN :: _ => true
  | .FUNCTION :: .BIT_AND :: .LPAREN :: _ => true
  | _ => false
/-- php.g:938-941 -/
def funcP (rec : Cat → P S) : P S := mapP (fun x => .func x.1 x.2) (andThen (fheadP [.STRING]) (braced rec .body))
/-- php.g:1080-1092 -/
def clsP (rec : Cat → P S) : P S := mapP (fun x => .cls x.1 x.2) (andThen cheadP (braced rec .members))
/-- php.g:310 -/
def haltP : P S := mapP (fun _ => .halt) (pre .HALT_COMPILER (pre .LPAREN (pre .RPAREN (oneOf [.SEMICOLON]))))
/-- php.g:301-311 -/
def topP (rec : Cat → P S) : P S := fun ts =>
  if headIn [.FUNCTION] ts && !isClosure ts then funcP rec ts
  else if headIn classToks ts then clsP rec ts
  else if headIn [.HALT_COMPILER] ts then haltP ts
  else stmtP rec ts

/-- php.g:1073: the name of a namespace, maybe none -/
def nsNameP : P (List Tok) := mapP (fun o => o.getD []) (opt [.STRING] (sep .BACKSLASH identP))
/-- php.g:1074-1078; the semicolon reports a problem if there is no name -/
def nsRestP (rec : Cat → P S) (parts : List Tok) : P S := fun ts =>
  if headIn [.LBRACE] ts then mapP (.nsBlock parts) (braced rec .body) ts
  else if parts.isEmpty then none else mapP (fun _ => .nsLine parts) (oneOf [.SEMICOLON]) ts
def nsP (rec : Cat → P S) : P S := mapP (fun x => x.2) (bindP (pre .NAMESPACE nsNameP) (nsRestP rec))
/-- php.g:297-299 -/
def outerP (rec : Cat → P S) : P S := fun ts => if headIn [.NAMESPACE] ts then nsP rec ts else topP rec ts

/-- php.g:842-843 -/
def elifP (rec : Cat → P S) : P S :=
  mapP (fun x => .elif x.1 x.2.1 x.2.2) (andThen (pre .ELSEIF parenP) (andThen (rec .stmt) (rec .rest)))
/-- php.g:838-846 -/
def restP (rec : Cat → P S) : P S := fun ts =>
  if headIn [.ELSEIF] ts then elifP rec ts
  else if headIn [.ELSE] ts then mapP .els (pre .ELSE (rec .stmt)) ts
  else some (.noElse, ts)
/-- php.g:851-852 -/
def elifAltP (rec : Cat → P S) : P S :=
  mapP (fun x => .elifAlt x.1 x.2.1 x.2.2) (andThen (pre .ELSEIF parenP) (andThen (pre .COLON (rec .body)) (rec .altRest)))
/-- php.g:848-855 -/
def altRestP (rec : Cat → P S) : P S := fun ts =>
  if headIn [.ELSEIF] ts then elifAltP rec ts
  else if headIn [.ELSE] ts then mapP .elsAlt (pre .ELSE (pre .COLON (rec .body))) ts
  else some (.noElse, ts)
/-- php.g:806-808, 816-818, 830-836 -/
def loopBodyP (rec : Cat → P S) (w : Tok) : P S := fun ts =>
  if headIn [.COLON] ts then mapP (fun x => .alt x.1 w x.2) (pre .COLON (andThen (post (rec .body) w) semiP)) ts else stmtP rec ts
/-- php.g:798-799: `case c` or `default` -/
def caseHeadP : P (Option E) := fun ts =>
  if headIn [.CASE] ts then mapP some (pre .CASE exprP) ts else (skip .DEFAULT ts).map fun r => (none, r)
/-- php.g:798-800 -/
def caseP (rec : Cat → P S) : P S :=
  mapP (fun x => .case_ x.1 x.2.1 x.2.2) (andThen caseHeadP (andThen (oneOf [.COLON, .SEMICOLON]) (rec .body)))
/-- php.g:802 -/
def catchHeadP : P (List Name) := pre .CATCH (pre .LPAREN (post (post (sep .BIT_OR nameP) .VARIABLE) .RPAREN))
def catchP (rec : Cat → P S) : P S :=
  mapP (fun x => .catch_ x.1 x.2.1 x.2.2) (andThen catchHeadP (andThen (braced rec .body) (rec .catches)))
/-- php.g:711-712 -/
def catchesP (rec : Cat → P S) : P S := fun ts =>
  if headIn [.CATCH] ts then catchP rec ts
  else if headIn [.FINALLY] ts then mapP .fin (pre .FINALLY (braced rec .body)) ts
  else some (.noCatch, ts)
/-- php.g:1145-1147: the rest of a member; only methods have any -/
def memberRestP (rec : Cat → P S) (m : Member) : P S := fun ts =>
  if m.isFunc then
    if headIn [.LBRACE] ts then mapP (.method m) (braced rec .body) ts else mapP (fun _ => .abstr m) (oneOf [.SEMICOLON]) ts
  else some (.member m, ts)
/-- php.g:1116-1125 -/
def memP (rec : Cat → P S) : P S := mapP (fun x => x.2) (bindP memberP (memberRestP rec))

/-- the function of every rule -/
def step (rec : Cat → P S) : Cat → P S
  | .stmt => stmtP rec
  | .top => topP rec
  | .outer => outerP rec
  | .body => listOf (fun ts => ts.isEmpty || headIn closers ts) (rec .top) (rec .body)
  | .file => listOf List.isEmpty (rec .outer) (rec .file)
  | .ifBody => ifBodyP rec
  | .rest => restP rec
  | .altRest => altRestP rec
  | .loopBody w => loopBodyP rec w
  | .switchBody => switchBodyP rec
  | .cases => listOf (fun ts => !headIn [.CASE, .DEFAULT] ts) (rec .case) (rec .cases)
  | .case => caseP rec
  | .catches => catchesP rec
  | .members => listOf (headIn [.RBRACE]) (rec .member) (rec .members)
  | .member => memP rec

/-- the parser; the first argument bounds the depth of the calls -/
def run : Nat → Cat → P S
  | 0, _, _ => none
  | n + 1, c, ts => step (run n) c ts

/-- `Parser::parseStart` (php.g:294): a whole file; `none`: there is a syntax error -/
def parseFile (ts : List Tok) : Option S :=
  match run (2 * ts.length + 2) .file ts with
  | some (s, []) => some s
  | _ => none

/-! ## What a file is -/

def caseTxt : Option E → List Tok
  | some c => .CASE :: c.toks
  | none => [.DEFAULT]
/-- the text of a tree -/
def S.toks : S → List Tok
  | .line l => l.toks
  | .block b => .LBRACE :: (b.toks ++ [.RBRACE])
  | .ifs c b => .IF :: (parenTxt c ++ b.toks)
  | .plain t rest => t.toks ++ rest.toks
  | .altIf b rest e => .COLON :: (b.toks ++ (rest.toks ++ [.ENDIF, e]))
  | .loop h b => h.toks ++ b.toks
  | .alt b w e => .COLON :: (b.toks ++ [w, e])
  | .switch c b => .SWITCH :: (parenTxt c ++ b.toks)
  | .braces semi l => .LBRACE :: (flagTxt .SEMICOLON semi ++ (l.toks ++ [.RBRACE]))
  | .colon semi l e => .COLON :: (flagTxt .SEMICOLON semi ++ (l.toks ++ [.ENDSWITCH, e]))
  | .try_ b rest => .TRY :: .LBRACE :: (b.toks ++ .RBRACE :: rest.toks)
  | .do_ s c e => .DO :: (s.toks ++ .WHILE :: (parenTxt c ++ [e]))
  | .func f b => f.toks ++ .LBRACE :: (b.toks ++ [.RBRACE])
  | .cls h l => h.toks ++ .LBRACE :: (l.toks ++ [.RBRACE])
  | .halt => [.HALT_COMPILER, .LPAREN, .RPAREN, .SEMICOLON]
  | .nsLine p => .NAMESPACE :: (sepTxt .BACKSLASH tokTxt p ++ [.SEMICOLON])
  | .nsBlock p b => .NAMESPACE :: (sepTxt .BACKSLASH tokTxt p ++ .LBRACE :: (b.toks ++ [.RBRACE]))
  | .elif c s rest => .ELSEIF :: (parenTxt c ++ (s.toks ++ rest.toks))
  | .els s => .ELSE :: s.toks
  | .elifAlt c b rest => .ELSEIF :: (parenTxt c ++ .COLON :: (b.toks ++ rest.toks))
  | .elsAlt b => .ELSE :: .COLON :: b.toks
  | .noElse | .noCatch | .nil => []
  | .case_ c t b => caseTxt c ++ t :: b.toks
  | .catch_ l b rest => .CATCH :: .LPAREN :: (sepTxt .BIT_OR Name.toks l ++ .VARIABLE :: .RPAREN :: .LBRACE :: (b.toks ++ .RBRACE :: rest.toks))
  | .fin b => .FINALLY :: .LBRACE :: (b.toks ++ [.RBRACE])
  | .member m => m.toks
  | .abstr m => m.toks ++ [.SEMICOLON]
  | .method m b => m.toks ++ .LBRACE :: (b.toks ++ [.RBRACE])
  | .cons a l => a.toks ++ l.toks

/-- an `if` without `else` stands at the very end, so that an `else` behind would belong to it -/
def S.isOpen : S → Bool
  | .ifs _ b => b.isOpen
  | .plain _ rest => rest.isOpen
  | .elif _ _ rest => rest.isOpen
  | .els s => s.isOpen
  | .noElse => true
  | .loop _ b => b.isOpen
  | .cons a .nil => a.isOpen
  | .cons _ l => l.isOpen
  | _ => false

/-- the places where a statement may stand -/
def Cat.isStmt : Cat → Bool
  | .stmt | .top | .outer | .loopBody _ => true
  | _ => false
/-- the places where a declaration may stand -/
def Cat.isTop : Cat → Bool
  | .top | .outer => true
  | _ => false
/-- the lists and their elements -/
def Cat.item : Cat → Option Cat
  | .body => some .top
  | .file => some .outer
  | .cases => some .case
  | .members => some .member
  | _ => none

/-- the grammar: which trees there are.  An `if` without `else` in front of `elseif` or `else` is not among them: the text would
be read differently. -/
def S.Fits : S → Cat → Prop
  | .line l, c => c.isStmt ∧ l.Ok
  | .block b, c => c.isStmt ∧ b.Fits .body
  | .ifs e b, c => c.isStmt ∧ Grammar.Fits (.lev 0) e ∧ b.Fits .ifBody
  | .plain t rest, c => c = .ifBody ∧ t.Fits .stmt ∧ rest.Fits .rest ∧ (t.isOpen → rest = .noElse)
  | .altIf b rest e, c => c = .ifBody ∧ b.Fits .body ∧ rest.Fits .altRest ∧ (b.isOpen → rest = .noElse) ∧ Semi e
  | .loop h b, c => c.isStmt ∧ h.Ok ∧ b.Fits (.loopBody h.endWord)
  | .alt b w e, c => c = .loopBody w ∧ b.Fits .body ∧ Semi e
  | .switch e b, c => c.isStmt ∧ Grammar.Fits (.lev 0) e ∧ b.Fits .switchBody
  | .braces _ l, c => c = .switchBody ∧ l.Fits .cases
  | .colon _ l e, c => c = .switchBody ∧ l.Fits .cases ∧ Semi e
  | .try_ b rest, c => c.isStmt ∧ b.Fits .body ∧ rest.Fits .catches
  | .do_ s e t, c => c.isStmt ∧ s.Fits .stmt ∧ Grammar.Fits (.lev 0) e ∧ Semi t
  | .func f b, c => c.isTop ∧ f.Ok [.STRING] ∧ b.Fits .body
  | .cls h l, c => c.isTop ∧ h.Ok ∧ l.Fits .members
  | .halt, c => c.isTop
  | .nsLine p, c => c = .outer ∧ Idents p
  | .nsBlock p b, c => c = .outer ∧ (∀ t ∈ p, t = .STRING) ∧ b.Fits .body
  | .elif e s rest, c => c = .rest ∧ Grammar.Fits (.lev 0) e ∧ s.Fits .stmt ∧ rest.Fits .rest ∧ (s.isOpen → rest = .noElse)
  | .els s, c => c = .rest ∧ s.Fits .stmt
  | .elifAlt e b rest, c => c = .altRest ∧ Grammar.Fits (.lev 0) e ∧ b.Fits .body ∧ rest.Fits .altRest ∧ (b.isOpen → rest = .noElse)
  | .elsAlt b, c => c = .altRest ∧ b.Fits .body
  | .noElse, c => c = .rest ∨ c = .altRest
  | .case_ e t b, c => c = .case ∧ (∀ x, e = some x → Grammar.Fits (.lev 0) x) ∧ (t = .COLON ∨ t = .SEMICOLON) ∧ b.Fits .body
  | .catch_ l b rest, c => c = .catches ∧ Names l ∧ b.Fits .body ∧ rest.Fits .catches
  | .fin b, c => c = .catches ∧ b.Fits .body
  | .noCatch, c => c = .catches
  | .member m, c => c = .member ∧ m.Ok ∧ m.isFunc = false
  | .abstr m, c => c = .member ∧ m.Ok ∧ m.isFunc = true
  | .method m b, c => c = .member ∧ m.Ok ∧ m.isFunc = true ∧ b.Fits .body
  | .nil, c => c.item.isSome
  | .cons a l, c => ∃ i, c.item = some i ∧ a.Fits i ∧ l.Fits c

/-! ## Soundness -/

theorem mapP_inv {α β} {p : P α} {f : α → β} {ts r : List Tok} {b : β} (h : mapP f p ts = some (b, r)) :
    ∃ a, p ts = some (a, r) ∧ f a = b := by
  simp only [mapP, Option.map_eq_some_iff] at h
  obtain ⟨⟨a, r'⟩, hp, he⟩ := h
  cases he; exact ⟨a, hp, rfl⟩
theorem andThen_inv {α β} {p : P α} {q : P β} {ts r : List Tok} {x : α × β} (h : andThen p q ts = some (x, r)) :
    ∃ r1, p ts = some (x.1, r1) ∧ q r1 = some (x.2, r) := by
  simp only [andThen, Option.bind_eq_bind, Option.bind_eq_some_iff, Option.pure_def, Option.some.injEq] at h
  obtain ⟨⟨a, r1⟩, h1, ⟨b, r2⟩, h2, he⟩ := h
  cases he; exact ⟨r1, h1, h2⟩
theorem bindP_inv {α β} {p : P α} {q : α → P β} {ts r : List Tok} {x : α × β} (h : bindP p q ts = some (x, r)) :
    ∃ r1, p ts = some (x.1, r1) ∧ q x.1 r1 = some (x.2, r) := by
  simp only [bindP, Option.bind_eq_bind, Option.bind_eq_some_iff, Option.pure_def, Option.some.injEq] at h
  obtain ⟨⟨a, r1⟩, h1, ⟨b, r2⟩, h2, he⟩ := h
  cases he; exact ⟨r1, h1, h2⟩
theorem pre_inv {α} {p : P α} {k : Tok} {ts r : List Tok} {a : α} (h : pre k p ts = some (a, r)) :
    ∃ ts', ts = k :: ts' ∧ p ts' = some (a, r) := by
  simp only [pre, Option.bind_eq_bind, Option.bind_eq_some_iff] at h
  obtain ⟨r1, h1, h2⟩ := h
  exact ⟨r1, skip_some.1 h1, h2⟩
theorem post_inv {α} {p : P α} {k : Tok} {ts r : List Tok} {a : α} (h : post p k ts = some (a, r)) :
    p ts = some (a, k :: r) := by
  simp only [post, Option.bind_eq_bind, Option.bind_eq_some_iff, Option.pure_def, Option.some.injEq] at h
  obtain ⟨⟨a1, r1⟩, h1, r2, h2, he⟩ := h
  cases he
  rw [skip_some] at h2
  simp only at h2
  rw [h1, h2]

/-- what is read: the text of the result, a tree of the grammar, and no `else` is left that would belong to it -/
def Reads (p : P S) (c : Cat) : Prop :=
  ∀ ts s r, p ts = some (s, r) → ts = s.toks ++ r ∧ s.Fits c ∧ (s.isOpen = true → NotIn [.ELSEIF, .ELSE] r)

section
variable {rec : Cat → P S} (H : ∀ c, Reads (rec c) c)
include H

theorem braced_reads {c : Cat} {ts r : List Tok} {s : S} (h : braced rec c ts = some (s, r)) :
    ts = .LBRACE :: (s.toks ++ .RBRACE :: r) ∧ s.Fits c := by
  obtain ⟨ts', hs, hz⟩ := pre_inv h; clear h; subst hs; have h := hz; clear hz
  obtain ⟨rfl, h2, -⟩ := H c _ _ _ (post_inv h)
  exact ⟨rfl, h2⟩

theorem stmt_reads {c : Cat} (hc : c.isStmt = true) : Reads (stmtP rec) c := by
  intro ts s r h
  simp only [stmtP] at h
  split at h
  · obtain ⟨b, hz, hs⟩ := mapP_inv h; clear h; subst hs; have h := hz; clear hz
    obtain ⟨rfl, hb⟩ := braced_reads H h
    exact ⟨by simp [S.toks], ⟨hc, hb⟩, fun h => by cases h⟩
  split at h
  · obtain ⟨⟨e, b⟩, hz, hs⟩ := mapP_inv h; clear h; subst hs; have h := hz; clear hz
    obtain ⟨r1, h1, h2⟩ := andThen_inv h
    obtain ⟨rfl, he⟩ := sound_pre paren_sound .IF _ _ _ h1
    obtain ⟨e2, hb, ho⟩ := H _ _ _ _ h2
    simp only at e2 hb ho
    subst e2
    exact ⟨by simp [S.toks], ⟨hc, he, hb⟩, ho⟩
  split at h
  · obtain ⟨⟨hd, b⟩, hz, hs⟩ := mapP_inv h; clear h; subst hs; have h := hz; clear hz
    obtain ⟨r1, h1, h2⟩ := bindP_inv h
    obtain ⟨rfl, he⟩ := head_sound _ _ _ h1
    obtain ⟨e2, hb, ho⟩ := H _ _ _ _ h2
    simp only at e2 hb ho
    subst e2
    exact ⟨by simp [S.toks], ⟨hc, he, hb⟩, ho⟩
  split at h
  · obtain ⟨⟨e, b⟩, hz, hs⟩ := mapP_inv h; clear h; subst hs; have h := hz; clear hz
    obtain ⟨r1, h1, h2⟩ := andThen_inv h
    obtain ⟨rfl, he⟩ := sound_pre paren_sound .SWITCH _ _ _ h1
    obtain ⟨e2, hb, -⟩ := H _ _ _ _ h2
    simp only at e2 hb
    subst e2
    exact ⟨by simp [S.toks], ⟨hc, he, hb⟩, fun h => by cases h⟩
  split at h
  · obtain ⟨⟨b, x⟩, hz, hs⟩ := mapP_inv h; clear h; subst hs; have h := hz; clear hz
    obtain ⟨ts', hs, hz⟩ := pre_inv h; clear h; subst hs; have h := hz; clear hz
    obtain ⟨r1, h1, h2⟩ := andThen_inv h
    obtain ⟨rfl, hb⟩ := braced_reads H h1
    obtain ⟨rfl, hx, -⟩ := H _ _ _ _ h2
    exact ⟨by simp [S.toks], ⟨hc, hb, hx⟩, fun h => by cases h⟩
  split at h
  · obtain ⟨⟨b, e, t⟩, hz, hs⟩ := mapP_inv h; clear h; subst hs; have h := hz; clear hz
    obtain ⟨ts', hs, hz⟩ := pre_inv h; clear h; subst hs; have h := hz; clear hz
    obtain ⟨r1, h1, h2⟩ := andThen_inv h
    obtain ⟨rfl, hb, -⟩ := H _ _ _ _ h1
    obtain ⟨r2, h2, h3⟩ := andThen_inv h2
    obtain ⟨e2, he⟩ := sound_pre paren_sound .WHILE _ _ _ h2
    obtain ⟨e3, ht⟩ := semi_sound _ _ _ h3
    simp only at e2 e3 he ht
    subst e3 e2
    exact ⟨by simp [S.toks, tokTxt], ⟨hc, hb, he, ht⟩, fun h => by cases h⟩
  · obtain ⟨l, hz, hs⟩ := mapP_inv h; clear h; subst hs; have h := hz; clear hz
    obtain ⟨rfl, hl⟩ := line_sound _ _ _ h
    exact ⟨rfl, ⟨hc, hl⟩, fun h => by cases h⟩

theorem top_reads {c : Cat} (hc : c.isTop = true) : Reads (topP rec) c := by
  have hs : c.isStmt = true := by cases c <;> first | rfl | (cases hc; done)
  intro ts s r h
  simp only [topP] at h
  split at h
  · obtain ⟨⟨f, b⟩, hz, hs⟩ := mapP_inv h; clear h; subst hs; have h := hz; clear hz
    obtain ⟨r1, h1, h2⟩ := andThen_inv h
    obtain ⟨rfl, hf⟩ := fhead_sound _ _ _ _ h1
    obtain ⟨rfl, hb⟩ := braced_reads H h2
    exact ⟨by simp [S.toks], ⟨hc, hf, hb⟩, fun h => by cases h⟩
  split at h
  · obtain ⟨⟨f, b⟩, hz, hs⟩ := mapP_inv h; clear h; subst hs; have h := hz; clear hz
    obtain ⟨r1, h1, h2⟩ := andThen_inv h
    obtain ⟨rfl, hf⟩ := chead_sound _ _ _ h1
    obtain ⟨rfl, hb⟩ := braced_reads H h2
    exact ⟨by simp [S.toks], ⟨hc, hf, hb⟩, fun h => by cases h⟩
  split at h
  · obtain ⟨t, hz, hs⟩ := mapP_inv h; clear h; subst hs; have h := hz; clear hz
    obtain ⟨rfl, ht⟩ := sound_pre (sound_pre (sound_pre (sound_oneOf [.SEMICOLON]) .RPAREN) .LPAREN) .HALT_COMPILER _ _ _ h
    have ht' : t = .SEMICOLON := by simpa using ht
    subst ht'
    exact ⟨rfl, hc, fun h => by cases h⟩
  · exact stmt_reads H hs _ _ _ h

omit H in
theorem nsName_sound : Sound nsNameP (sepTxt .BACKSLASH tokTxt) (fun l => ∀ t ∈ l, t = .STRING) := by
  refine sound_map (sound_opt (idents_sound .BACKSLASH) [.STRING]) fun o h => ?_
  cases o with
  | none => exact ⟨rfl, fun _ h => by cases h⟩
  | some l => exact ⟨rfl, (h l rfl).2⟩

theorem outer_reads : Reads (outerP rec) .outer := by
  intro ts s r h
  simp only [outerP] at h
  split at h
  · obtain ⟨⟨p, x⟩, hz, hs⟩ := mapP_inv h; clear h; subst hs; have h := hz; clear hz
    obtain ⟨r1, h1, h2⟩ := bindP_inv h
    obtain ⟨ts', hs, hz⟩ := pre_inv h1; clear h1; subst hs; have h1 := hz; clear hz
    obtain ⟨rfl, hp⟩ := nsName_sound _ _ _ h1
    simp only [nsRestP] at h2
    split at h2
    · obtain ⟨b, hz, hs⟩ := mapP_inv h2; clear h2; subst hs; have h2 := hz; clear hz
      obtain ⟨rfl, hb⟩ := braced_reads H h2
      exact ⟨by simp [S.toks], ⟨rfl, hp, hb⟩, fun h => by cases h⟩
    split at h2
    · cases h2
    · rename_i hne
      obtain ⟨t, hz, hs⟩ := mapP_inv h2; clear h2; subst hs; have h2 := hz; clear hz
      obtain ⟨rfl, ht⟩ := sound_oneOf _ _ _ _ h2
      have ht' : t = .SEMICOLON := by simpa using ht
      subst ht'
      exact ⟨by simp [S.toks], ⟨rfl, by simpa using hne, hp⟩, fun h => by cases h⟩
  · exact top_reads H rfl _ _ _ h

theorem list_reads {c i : Cat} (hi : c.item = some i) (stop : List Tok → Bool) : Reads (listOf stop (rec i) (rec c)) c := by
  intro ts s r h
  simp only [listOf] at h
  split at h
  · cases h; exact ⟨rfl, by simp [S.Fits, hi], fun h => by cases h⟩
  · obtain ⟨⟨a, l⟩, hz, hs⟩ := mapP_inv h; clear h; subst hs; have h := hz; clear hz
    obtain ⟨r1, h1, h2⟩ := andThen_inv h
    obtain ⟨rfl, ha, oa⟩ := H _ _ _ _ h1
    obtain ⟨e2, hl, ol⟩ := H _ _ _ _ h2
    simp only at ha hl e2 oa ol
    subst e2
    refine ⟨by simp [S.toks], ⟨i, hi, ha, hl⟩, fun h => ?_⟩
    cases l <;> first | exact ol h | exact oa h

end

/-- behind something that is not followed by `else`, nothing of an `if` is read -/
theorem run_rest_none {n : Nat} {ts r : List Tok} {s : S} (h : run n .rest ts = some (s, r)) (hn : NotIn [.ELSEIF, .ELSE] ts) : s = .noElse := by
  cases n with
  | zero => cases h
  | succ n =>
    simp only [run, step] at h
    have h1 : headIn [.ELSEIF] ts = false := hn.sub (by intro t ht; simp at ht; subst ht; rfl)
    have h2 : headIn [.ELSE] ts = false := hn.sub (by intro t ht; simp at ht; subst ht; rfl)
    simp only [restP, h1, h2, Bool.false_eq_true, if_false] at h
    cases h; rfl
theorem run_altRest_none {n : Nat} {ts r : List Tok} {s : S} (h : run n .altRest ts = some (s, r)) (hn : NotIn [.ELSEIF, .ELSE] ts) : s = .noElse := by
  cases n with
  | zero => cases h
  | succ n =>
    simp only [run, step] at h
    have h1 : headIn [.ELSEIF] ts = false := hn.sub (by intro t ht; simp at ht; subst ht; rfl)
    have h2 : headIn [.ELSE] ts = false := hn.sub (by intro t ht; simp at ht; subst ht; rfl)
    simp only [altRestP, h1, h2, Bool.false_eq_true, if_false] at h
    cases h; rfl

theorem catchHead_sound : Sound catchHeadP (fun l => .CATCH :: .LPAREN :: ((sepTxt .BIT_OR Name.toks l ++ [.VARIABLE]) ++ [.RPAREN])) Names :=
  sound_pre (sound_pre (sound_post (sound_post (names_sound _) _) _) _) _

theorem caseHead_sound : Sound caseHeadP caseTxt (fun o => ∀ x, o = some x → Grammar.Fits (.lev 0) x) := by
  intro ts o r h
  simp only [caseHeadP] at h
  split at h
  · obtain ⟨x, hz, hs⟩ := mapP_inv h; clear h; subst hs
    obtain ⟨rfl, he⟩ := sound_pre expr_sound .CASE _ _ _ hz
    exact ⟨rfl, fun y hy => by cases hy; exact he⟩
  · simp only [Option.map_eq_some_iff] at h
    obtain ⟨r', h1, he⟩ := h
    rw [skip_some] at h1
    cases he
    exact ⟨h1, fun y hy => by cases hy⟩

theorem notIn_of {ks : List Tok} {r : List Tok} (h : ¬headIn ks r = true) : NotIn ks r := by
  cases hc : headIn ks r
  · exact hc
  · exact absurd hc h
theorem notElse {r : List Tok} (h1 : ¬headIn [.ELSEIF] r = true) (h2 : ¬headIn [.ELSE] r = true) : NotIn [.ELSEIF, .ELSE] r := by
  cases r with
  | nil => rfl
  | cons t r =>
    simp [headIn] at h1 h2
    simp [NotIn, headIn, h1, h2]

/-- whatever the parser reads is the text of a tree of the grammar -/
theorem run_reads (n : Nat) : ∀ c, Reads (run n c) c := by
  induction n with
  | zero => intro c ts s r h; cases h
  | succ n H =>
    intro c ts s r h
    simp only [run] at h
    cases c with
    | stmt => exact stmt_reads H rfl _ _ _ h
    | top => exact top_reads H rfl _ _ _ h
    | outer => exact outer_reads H _ _ _ h
    | body => simp only [step] at h; exact list_reads H (c := .body) rfl _ _ _ _ h
    | file => simp only [step] at h; exact list_reads H (c := .file) rfl _ _ _ _ h
    | cases => simp only [step] at h; exact list_reads H (c := .cases) rfl _ _ _ _ h
    | members => simp only [step] at h; exact list_reads H (c := .members) rfl _ _ _ _ h
    | ifBody =>
      simp only [step, ifBodyP] at h
      split at h
      · obtain ⟨⟨b, x, e⟩, hz, hs⟩ := mapP_inv h; clear h; subst hs; have h := hz; clear hz
        obtain ⟨ts', hs, hz⟩ := pre_inv h; clear h; subst hs; have h := hz; clear hz
        obtain ⟨r1, h1, h2⟩ := andThen_inv h
        obtain ⟨r2, h2, h3⟩ := andThen_inv h2
        have h2 := post_inv h2
        obtain ⟨rfl, hb, ob⟩ := H _ _ _ _ h1
        have hn := fun ho => run_altRest_none h2 (ob ho)
        obtain ⟨rfl, hx, -⟩ := H _ _ _ _ h2
        obtain ⟨rfl, he⟩ := semi_sound _ _ _ h3
        exact ⟨by simp [S.toks, tokTxt], ⟨rfl, hb, hx, hn, he⟩, fun h => by cases h⟩
      · obtain ⟨⟨t, x⟩, hz, hs⟩ := mapP_inv h; clear h; subst hs; have h := hz; clear hz
        obtain ⟨r1, h1, h2⟩ := andThen_inv h
        obtain ⟨rfl, ht, ot⟩ := H _ _ _ _ h1
        have hn := fun ho => run_rest_none h2 (ot ho)
        obtain ⟨rfl, hx, ox⟩ := H _ _ _ _ h2
        exact ⟨by simp [S.toks], ⟨rfl, ht, hx, hn⟩, ox⟩
    | rest =>
      simp only [step, restP] at h
      split at h
      · obtain ⟨⟨e, t, x⟩, hz, hs⟩ := mapP_inv h; clear h; subst hs; have h := hz; clear hz
        obtain ⟨r0, h0, h'⟩ := andThen_inv h
        obtain ⟨rfl, he⟩ := sound_pre paren_sound .ELSEIF _ _ _ h0
        obtain ⟨r1, h1, h2⟩ := andThen_inv h'
        obtain ⟨rfl, ht, ot⟩ := H _ _ _ _ h1
        have hn := fun ho => run_rest_none h2 (ot ho)
        obtain ⟨rfl, hx, ox⟩ := H _ _ _ _ h2
        exact ⟨by simp [S.toks], ⟨rfl, he, ht, hx, hn⟩, ox⟩
      rename_i hn1
      split at h
      · obtain ⟨s, hz, hs⟩ := mapP_inv h; clear h; subst hs; have h := hz; clear hz
        obtain ⟨ts', hs, hz⟩ := pre_inv h; clear h; subst hs; have h := hz; clear hz
        obtain ⟨rfl, hs, os⟩ := H _ _ _ _ h
        exact ⟨by simp [S.toks], ⟨rfl, hs⟩, os⟩
      · rename_i hn2
        cases h; exact ⟨rfl, .inl rfl, fun _ => notElse hn1 hn2⟩
    | altRest =>
      simp only [step, altRestP] at h
      split at h
      · obtain ⟨⟨e, t, x⟩, hz, hs⟩ := mapP_inv h; clear h; subst hs; have h := hz; clear hz
        obtain ⟨r0, h0, h'⟩ := andThen_inv h
        obtain ⟨rfl, he⟩ := sound_pre paren_sound .ELSEIF _ _ _ h0
        obtain ⟨r1, h1, h2⟩ := andThen_inv h'
        obtain ⟨ts', hs, hz⟩ := pre_inv h1; clear h1; subst hs; have h1 := hz; clear hz
        obtain ⟨rfl, ht, ot⟩ := H _ _ _ _ h1
        have hn := fun ho => run_altRest_none h2 (ot ho)
        obtain ⟨rfl, hx, ox⟩ := H _ _ _ _ h2
        exact ⟨by simp [S.toks], ⟨rfl, he, ht, hx, hn⟩, fun h => by cases h⟩
      rename_i hn1
      split at h
      · obtain ⟨s, hz, hs⟩ := mapP_inv h; clear h; subst hs; have h := hz; clear hz
        obtain ⟨ts', hs, hz⟩ := pre_inv h; clear h; subst hs; have h := hz; clear hz
        obtain ⟨ts'', hs, hz⟩ := pre_inv h; clear h; subst hs; have h := hz; clear hz
        obtain ⟨rfl, hs, os⟩ := H _ _ _ _ h
        exact ⟨by simp [S.toks], ⟨rfl, hs⟩, fun h => by cases h⟩
      · rename_i hn2
        cases h; exact ⟨rfl, .inr rfl, fun _ => notElse hn1 hn2⟩
    | loopBody w =>
      simp only [step, loopBodyP] at h
      split at h
      · obtain ⟨⟨b, e⟩, hz, hs⟩ := mapP_inv h; clear h; subst hs; have h := hz; clear hz
        obtain ⟨ts', hs, hz⟩ := pre_inv h; clear h; subst hs; have h := hz; clear hz
        obtain ⟨r1, h1, h2⟩ := andThen_inv h
        obtain ⟨rfl, hb, ob⟩ := H _ _ _ _ (post_inv h1)
        obtain ⟨rfl, he⟩ := semi_sound _ _ _ h2
        exact ⟨by simp [S.toks, tokTxt], ⟨rfl, hb, he⟩, fun h => by cases h⟩
      · exact stmt_reads H rfl _ _ _ h
    | switchBody =>
      simp only [step, switchBodyP] at h
      split at h
      · obtain ⟨⟨b, l, e⟩, hz, hs⟩ := mapP_inv h; clear h; subst hs; have h := hz; clear hz
        obtain ⟨ts', hs, hz⟩ := pre_inv h; clear h; subst hs; have h := hz; clear hz
        obtain ⟨r1, h1, h2⟩ := andThen_inv h
        obtain ⟨rfl, -⟩ := sound_flag _ _ _ _ h1
        obtain ⟨r2, h2, h3⟩ := andThen_inv h2
        obtain ⟨rfl, hl, -⟩ := H _ _ _ _ (post_inv h2)
        obtain ⟨rfl, he⟩ := semi_sound _ _ _ h3
        exact ⟨by simp [S.toks, tokTxt], ⟨rfl, hl, he⟩, fun h => by cases h⟩
      · obtain ⟨⟨b, l⟩, hz, hs⟩ := mapP_inv h; clear h; subst hs; have h := hz; clear hz
        obtain ⟨ts', hs, hz⟩ := pre_inv h; clear h; subst hs; have h := hz; clear hz
        obtain ⟨r1, h1, h2⟩ := andThen_inv h
        obtain ⟨rfl, -⟩ := sound_flag _ _ _ _ h1
        obtain ⟨rfl, hl, -⟩ := H _ _ _ _ (post_inv h2)
        exact ⟨by simp [S.toks], ⟨rfl, hl⟩, fun h => by cases h⟩
    | case =>
      simp only [step] at h; unfold caseP at h
      obtain ⟨⟨e, t, b⟩, hz, hs⟩ := mapP_inv h; clear h; subst hs; have h := hz; clear hz
      obtain ⟨r1, h1, h2⟩ := andThen_inv h
      obtain ⟨r2, h2, h3⟩ := andThen_inv h2
      obtain ⟨e2, ht⟩ := sound_oneOf _ _ _ _ h2
      obtain ⟨e3, hb, -⟩ := H _ _ _ _ h3
      obtain ⟨e1, he⟩ := caseHead_sound _ _ _ h1
      simp only at e1 e2 e3 ht hb he
      subst e3 e2 e1
      exact ⟨by simp [S.toks], ⟨rfl, he, by simpa using ht, hb⟩, fun h => by cases h⟩
    | catches =>
      simp only [step, catchesP] at h
      split at h
      · obtain ⟨⟨l, b, x⟩, hz, hs⟩ := mapP_inv h; clear h; subst hs; have h := hz; clear hz
        obtain ⟨r1, h1, h2⟩ := andThen_inv h
        obtain ⟨rfl, hl⟩ := catchHead_sound _ _ _ h1
        obtain ⟨r2, h2, h3⟩ := andThen_inv h2
        obtain ⟨rfl, hb⟩ := braced_reads H h2
        obtain ⟨rfl, hx, -⟩ := H _ _ _ _ h3
        exact ⟨by simp [S.toks], ⟨rfl, hl, hb, hx⟩, fun h => by cases h⟩
      split at h
      · obtain ⟨b, hz, hs⟩ := mapP_inv h; clear h; subst hs; have h := hz; clear hz
        obtain ⟨ts', hs, hz⟩ := pre_inv h; clear h; subst hs; have h := hz; clear hz
        obtain ⟨rfl, hb⟩ := braced_reads H h
        exact ⟨by simp [S.toks], ⟨rfl, hb⟩, fun h => by cases h⟩
      · cases h; exact ⟨rfl, rfl, fun h => by cases h⟩
    | member =>
      obtain ⟨⟨m, x⟩, hz, hs⟩ := mapP_inv h; clear h; subst hs; have h := hz; clear hz
      obtain ⟨r1, h1, h2⟩ := bindP_inv h
      obtain ⟨rfl, hm⟩ := member_sound _ _ _ h1
      simp only [memberRestP] at h2
      split at h2
      · rename_i hf
        split at h2
        · obtain ⟨b, hz, hs⟩ := mapP_inv h2; clear h2; subst hs; have h2 := hz; clear hz
          obtain ⟨rfl, hb⟩ := braced_reads H h2
          exact ⟨by simp [S.toks], ⟨rfl, hm, hf, hb⟩, fun h => by cases h⟩
        · obtain ⟨t, hz, hs⟩ := mapP_inv h2; clear h2; subst hs; have h2 := hz; clear hz
          obtain ⟨rfl, ht⟩ := sound_oneOf _ _ _ _ h2
          have ht' : t = .SEMICOLON := by simpa using ht
          subst ht'
          exact ⟨by simp [S.toks], ⟨rfl, hm, hf⟩, fun h => by cases h⟩
      · rename_i hf
        cases h2
        exact ⟨rfl, ⟨rfl, hm, by simpa using hf⟩, fun h => by cases h⟩

end KPhp.Stmt
