import Verif.Lexer.Token
/-!
# Model of the hand-written PHP lexer (parser/phplexer.cpp)

One call of `Lexer::nextTokenKind` is the function `step`.  Conventions:

* The result type is `Option`: `none` is *undefined behaviour* (a read outside the text and its NUL
  terminator, or an access to an empty mode stack).
* `m_curpos` *after* the final `m_curpos++` is `nxt`: a token occupies `[begin, nxt)`, i.e.
  `m_tokenEnd = nxt - 1`.  Inside a branch, the C++ value of `m_curpos` at the end of the branch is
  `nxt - 1`.
* C++ pointer `it` and `m_curpos` move in step; an access `(it + k)` is the access at index
  `m_curpos + k`.
* `while (m_curpos < m_contentSize && cond) { ...; ++m_curpos; }` is `scan`.
* The calls of `createNewline` are collected in `Res.nls` / `LState.lines`.
-/
namespace KPhp

/-- Lexer modes, `enum Lexer::State` (parser/phplexer.h:67-80). -/
inductive St where
  | Error | Html | Default | Str | StrVar | StrVarBracket | StrVarObjOp | StrVarCurly | StrVarname
  | Heredoc | Backtick | Nowdoc
  deriving DecidableEq, Repr, Inhabited

/-- Read access `*(m_content.constData() + i)`: the text, its NUL terminator, otherwise undefined
behaviour (`none`).  (parser/phplexer.cpp:85-87; `QString::constData` is NUL terminated.) -/
def rd (c : QString) (i : Nat) : Option QChar :=
  if i < c.length then c[i]? else if i = c.length then some 0 else none

/-- The test `p(*(it + k))` at offset `i`. -/
def testAt (c : QString) (i : Nat) (p : QChar → Bool) : Option Bool := (rd c i).map p

/-- The test `(it + k)->unicode() == x` at offset `i`. -/
def isAt (c : QString) (i : Nat) (x : QChar) : Option Bool := testAt c i (· == x)

/-- C++ `&&` (the right operand is only evaluated, i.e. its reads only happen, if the left one
holds). -/
def andO (a b : Option Bool) : Option Bool :=
  match a with
  | none => none
  | some true => b
  | some false => some false

/-- C++ `||`. -/
def orO (a b : Option Bool) : Option Bool :=
  match a with
  | none => none
  | some true => some true
  | some false => b

/-- C++ `!`. -/
def notO (a : Option Bool) : Option Bool := a.map (!·)

@[inherit_doc] infixr:35 " &&? " => andO
@[inherit_doc] infixr:30 " ||? " => orO

/-- Loop `while (pos < bound && p(pos)) ++pos;` started at `i`, where `k = bound - i`. -/
def scanAux (p : Nat → Option Bool) : Nat → Nat → Option Nat
  | 0, i => some i
  | k + 1, i => do if ← p i then scanAux p k (i + 1) else some i

/-- Loop `while (pos < bound && p(pos)) ++pos;` started at `i`. -/
def scan (bound : Nat) (p : Nat → Option Bool) (i : Nat) : Option Nat := scanAux p (bound - i) i

/-- `m_content.mid(i, j - i)`. -/
def slice (c : QString) (i j : Nat) : QString := (c.drop i).take (j - i)

/-- The offsets `createNewline` is called with by a loop that visits the offsets `[i, j)` one by one
and calls it for each `'\n'`. -/
def nlsIn (c : QString) (i j : Nat) : List Nat :=
  (List.range' i (j - i)).filter (fun k => c[k]? == some 10)

/-- `Lexer::isValidVariableIdentifier` (parser/phplexer.cpp:1046-1049). -/
def validIdent (u : CharClass) (ch : QChar) : Bool :=
  u.isLetter ch || u.isDigit ch || ch == c! '_' || decide (ch > 0x7f)

/-- Identifier start: `isValidVariableIdentifier(it) && !it->isDigit()`. -/
def identStart (u : CharClass) (ch : QChar) : Bool := validIdent u ch && !u.isDigit ch

/-- Number of backslashes directly before offset `i`; `none` when the walk leaves the text.
(the loop in parser/phplexer.cpp:1022-1025) -/
def countBack (c : QString) : Nat → Option Nat
  | 0 => none
  | i + 1 => do if (← rd c i) = c! '\\' then (countBack c i).map (· + 1) else some 0

/-- `Lexer::isEscapedWithBackslash` (parser/phplexer.cpp:1017-1027).  As in the C++ code `curPos` is
not decremented by the loop, so the walk only stops at a non-backslash. -/
def escaped (c : QString) (curPos startPos : Nat) : Option Bool :=
  if curPos > startPos then do let k ← countBack c curPos; some (k % 2 == 1) else some false

/-- `Lexer::isHereNowDocEnd` (parser/phplexer.cpp:1000-1015), `m_curpos = i`. -/
def hereEnd (c ident : QString) (i : Nat) : Option Bool :=
  if slice c i (i + ident.length) = ident then
    isAt c (i + ident.length) 10 ||?
      (isAt c (i + ident.length) (c! ';') &&? isAt c (i + ident.length + 1) 10)
  else some false

/-- Result of a branch of the state switch. -/
structure Res where
  tok : Tok
  nxt : Nat
  stack : List St
  ident : QString
  nls : List Nat
  deriving DecidableEq, Repr

/-- `Lexer::processVariable` (parser/phplexer.cpp:1029-1045): `some none` = not a variable, else the
offset after the variable. -/
def processVariable (u : CharClass) (c : QString) (b : Nat) : Option (Option Nat) := do
  if ← isAt c b (c! '$') &&? testAt c (b + 1) (identStart u) then
    let e ← scan c.length (fun i => testAt c i (validIdent u)) (b + 1)
    some (some e)
  else some none

/-- Test for an open tag: `<?` not followed by `xml` (parser/phplexer.cpp:90-95). -/
def isOpenTag (u : CharClass) (c : QString) (b : Nat) : Option Bool :=
  isAt c b (c! '<') &&? isAt c (b + 1) (c! '?') &&?
    notO (testAt c (b + 2) (fun x => u.toLower x == c! 'x') &&?
      testAt c (b + 3) (fun x => u.toLower x == c! 'm') &&?
      testAt c (b + 4) (fun x => u.toLower x == c! 'l'))

/-- Test for `php` and white space after `<?` (parser/phplexer.cpp:102-105). -/
def isPhpTag (u : CharClass) (c : QString) (b : Nat) : Option Bool :=
  testAt c (b + 2) (fun x => u.toLower x == c! 'p') &&?
    testAt c (b + 3) (fun x => u.toLower x == c! 'h') &&?
    testAt c (b + 4) (fun x => u.toLower x == c! 'p') &&?
    testAt c (b + 5) u.isSpace

/-- `HtmlState` branch (parser/phplexer.cpp:89-122). -/
def htmlBranch (u : CharClass) (c : QString) (b : Nat) (stack : List St) (ident : QString) :
    Option Res := do
  if ← isOpenTag u c b then
    if ← isAt c (b + 2) (c! '=') then
      some ⟨.OPEN_TAG_WITH_ECHO, b + 3, .Default :: stack, ident, []⟩
    else if ← isPhpTag u c b then
      let nl ← isAt c (b + 5) 10
      some ⟨.OPEN_TAG, b + 6, .Default :: stack, ident, if nl then [b + 5] else []⟩
    else some ⟨.OPEN_TAG, b + 2, .Default :: stack, ident, []⟩
  else
    -- INLINE_HTML: advance until the two characters after the current one are `<?`
    let r ← scan c.length (fun i => notO (isAt c (i + 1) (c! '<') &&? isAt c (i + 2) (c! '?'))) b
    some ⟨.INLINE_HTML, r + 1, stack, ident, nlsIn c b (r + 1)⟩

/-- Whitespace (parser/phplexer.cpp:125-132). -/
def wsBranch (u : CharClass) (c : QString) (b : Nat) (stack : List St) (ident : QString) :
    Option Res := do
  let e ← scan c.length (fun i => testAt c i u.isSpace) b
  some ⟨.WHITESPACE, e, stack, ident, nlsIn c b e⟩

/-- Characters continuing a number literal (parser/phplexer.cpp:148-153). -/
def numChar (u : CharClass) (hex bin hasPoint : Bool) (ch : QChar) : Bool :=
  u.isDigit ch || (!hex && !hasPoint && ch == c! '.') || (bin && (ch == c! '0' || ch == c! '1'))
    || (hex && (u.toLower ch == c! 'a' || u.toLower ch == c! 'b' || u.toLower ch == c! 'c'
        || u.toLower ch == c! 'd' || u.toLower ch == c! 'e' || u.toLower ch == c! 'f'))

/-- The digit loop (parser/phplexer.cpp:147-158): result is the end offset and `hasPoint`. -/
def numLoop (u : CharClass) (c : QString) (hex bin : Bool) : Nat → Nat → Bool → Option (Nat × Bool)
  | 0, i, hp => some (i, hp)
  | k + 1, i, hp => do
    let ch ← rd c i
    if numChar u hex bin hp ch then numLoop u c hex bin k (i + 1) (hp || ch == c! '.')
    else some (i, hp)

/-- Value of an ASCII digit in a base up to 16 (used by `QString::toLong`). -/
def digitVal (ch : QChar) : Option Nat :=
  if asciiDigit ch then some (ch - 48)
  else if 97 ≤ ch ∧ ch ≤ 102 then some (ch - 87)
  else if 65 ≤ ch ∧ ch ≤ 70 then some (ch - 55)
  else none

/-- Value of a digit string in a base, `none` if some character is not a digit of that base. -/
def digitsVal (base : Nat) : QString → Nat → Option Nat
  | [], acc => some acc
  | ch :: r, acc =>
    match digitVal ch with
    | some d => if d < base then digitsVal base r (acc * base + d) else none
    | none => none

/-- `QString::toLong(&ok, base)` succeeds: a non-empty digit string whose value fits a signed 64-bit
`long` (Qt; used at parser/phplexer.cpp:183). -/
def toLongOk (s : QString) (base : Nat) : Bool :=
  match s with
  | [] => false
  | _ => match digitsVal base s 0 with
    | some v => decide (v < 2 ^ 63)
    | none => false

/-- Test for an exponent at `e` (parser/phplexer.cpp:159-161). -/
def isExponent (u : CharClass) (c : QString) (e : Nat) : Option Bool :=
  testAt c e (fun x => u.toLower x == c! 'e') &&?
    (testAt c (e + 1) u.isDigit ||?
      ((isAt c (e + 1) (c! '-') ||? isAt c (e + 1) (c! '+')) &&? testAt c (e + 2) u.isDigit))

/-- Number literals (parser/phplexer.cpp:133-191). -/
def numBranch (u : CharClass) (c : QString) (b : Nat) (stack : List St) (ident : QString) :
    Option Res := do
  let hex ← isAt c b (c! '0') &&? testAt c (b + 1) (fun x => u.toLower x == c! 'x')
  let i₁ := if hex then b + 2 else b
  let bin ← isAt c i₁ (c! '0') &&? testAt c (i₁ + 1) (fun x => u.toLower x == c! 'b')
  let i₂ := if bin then i₁ + 2 else i₁
  let (e, hasPoint) ← numLoop u c hex bin (c.length - i₂) i₂ false
  let isExp ← (some (!hex && !bin)) &&? isExponent u c e
  if isExp then
    let sign ← isAt c (e + 1) (c! '-') ||? isAt c (e + 1) (c! '+')
    let e' ← scan c.length (fun i => testAt c i u.isDigit) (if sign then e + 2 else e + 1)
    some ⟨.DNUMBER, e', stack, ident, []⟩
  else if hasPoint then some ⟨.DNUMBER, e, stack, ident, []⟩
  else if toLongOk (slice c i₂ e) (if hex then 16 else 10) then
    some ⟨.LNUMBER, e, stack, ident, []⟩
  else some ⟨.DNUMBER, e, stack, ident, []⟩

/-- The cast names (parser/phplexer.cpp:227-251). -/
def castTable : List (QString × Tok) :=
  [(q! "int", .INT_CAST), (q! "integer", .INT_CAST), (q! "real", .DOUBLE_CAST),
   (q! "double", .DOUBLE_CAST), (q! "float", .DOUBLE_CAST), (q! "string", .STRING_CAST),
   (q! "binary", .STRING_CAST), (q! "array", .ARRAY_CAST), (q! "object", .OBJECT_CAST),
   (q! "bool", .BOOL_CAST), (q! "boolean", .BOOL_CAST), (q! "unset", .UNSET_CAST)]

/-- First entry of a table whose name equals `name` ignoring case: the `else if` chains of
case-insensitive comparisons. -/
def lookupCI (u : CharClass) (t : List (QString × Tok)) (name : QString) : Option Tok :=
  (t.find? (fun e => ciEq u name e.1)).map (·.2)

/-- `(` or a cast (parser/phplexer.cpp:209-260). -/
def parenBranch (u : CharClass) (c : QString) (b : Nat) (stack : List St) (ident : QString) :
    Option Res := do
  let p₁ ← scan c.length (fun i => testAt c i u.isSpace) (b + 1)
  let p₂ ← scan c.length (fun i => testAt c i u.isLetter) p₁
  let p₃ ← scan c.length (fun i => testAt c i u.isSpace) p₂
  if ← isAt c p₃ (c! ')') then
    match lookupCI u castTable (slice c p₁ p₂) with
    | some t => some ⟨t, p₃ + 1, stack, ident, []⟩
    | none => some ⟨.LPAREN, b + 1, stack, ident, []⟩
  else some ⟨.LPAREN, b + 1, stack, ident, []⟩

/-- Recognition of a heredoc/nowdoc start after `<<<` at `b` (parser/phplexer.cpp:284-323).
Result: the new value of `m_hereNowDocIdentifier` (it is overwritten even when no heredoc follows)
and, if a heredoc or nowdoc starts, whether it is a nowdoc and the offset of the line break.
The bounds `m_curpos + pos < m_contentSize` are off by one (`m_curpos` is already `b + 1`, `it` is at
`b`): the loops stop one character early, at `c.length - 1`. -/
def heredocStart (u : CharClass) (c : QString) (b : Nat) (ident : QString) :
    Option (QString × Option (Bool × Nat)) := do
  let q₀ ← scan (c.length - 1) (fun i => testAt c i (fun ch => ch == c! ' ' || ch == 9)) (b + 3)
  let isNowdoc ← isAt c q₀ (c! '\'')
  let foundQuote ← (some isNowdoc) ||? isAt c q₀ (c! '"')
  let q₁ := if foundQuote then q₀ + 1 else q₀
  if ← testAt c q₁ (fun ch => u.isLetter ch || ch == c! '_') then
    let q₂ ← scan (c.length - 1)
      (fun i => testAt c i (fun ch => u.isDigit ch || u.isLetter ch || ch == c! '_')) q₁
    let closeQuote ← (some (foundQuote && decide (q₂ + 1 < c.length))) &&?
      testAt c q₂ (fun ch => (isNowdoc && ch == c! '\'') || ch == c! '"')
    let q₃ := if closeQuote then q₂ + 1 else q₂
    let ok ← (some (decide (q₃ + 1 < c.length))) &&? isAt c q₃ 10
    some (slice c q₁ q₂, if ok then some (isNowdoc, q₃) else none)
  else some (ident, none)

/-- `heredocStart` is only tried after `<<<` and not in `StringVariableCurly`
(parser/phplexer.cpp:286). -/
def heredocOpt (u : CharClass) (c : QString) (b : Nat) (ident : QString) (try_ : Bool) :
    Option (QString × Option (Bool × Nat)) :=
  if try_ then heredocStart u c b ident else some (ident, none)

/-- `<` (parser/phplexer.cpp:281-346). -/
def ltBranch (u : CharClass) (c : QString) (b : Nat) (stack : List St) (ident : QString) :
    Option Res := do
  let c₁ ← rd c (b + 1)
  if c₁ = c! '<' then
    let c₂ ← rd c (b + 2)
    let top ← stack[0]?
    let hd ← heredocOpt u c b ident (c₂ == c! '<' && top != .StrVarCurly)
    match hd.2 with
    | some (true, q) => some ⟨.START_NOWDOC, q + 1, .Nowdoc :: stack, hd.1, [q]⟩
    | some (false, q) => some ⟨.START_HEREDOC, q + 1, .Heredoc :: stack, hd.1, [q]⟩
    | none =>
      if c₂ = c! '=' then some ⟨.SL_ASSIGN, b + 3, stack, hd.1, []⟩
      else some ⟨.SL, b + 2, stack, hd.1, []⟩
  else if c₁ = c! '=' then
    if ← isAt c (b + 2) (c! '>') then some ⟨.SPACESHIP, b + 3, stack, ident, []⟩
    else some ⟨.IS_SMALLER_OR_EQUAL, b + 2, stack, ident, []⟩
  else if c₁ = c! '>' then some ⟨.IS_NOT_EQUAL, b + 2, stack, ident, []⟩
  else some ⟨.IS_SMALLER, b + 1, stack, ident, []⟩

/-- `while (state() != HtmlState) popState();` (parser/phplexer.cpp:376) -/
def dropToHtml : List St → Option (List St)
  | [] => none
  | .Html :: r => some (.Html :: r)
  | _ :: r => dropToHtml r

/-- `?` (parser/phplexer.cpp:371-382). -/
def questionBranch (c : QString) (b : Nat) (stack : List St) (ident : QString) : Option Res := do
  let c₁ ← rd c (b + 1)
  if c₁ = c! '>' then
    let st ← dropToHtml stack
    some ⟨.CLOSE_TAG, b + 2, st, ident, []⟩
  else if c₁ = c! '?' then some ⟨.NULL_COALESCE, b + 2, stack, ident, []⟩
  else some ⟨.QUESTION, b + 1, stack, ident, []⟩

/-- `?>` at `i`, as tested by one-line comments (parser/phplexer.cpp:408, 464). -/
def closeTagAt (c : QString) (i : Nat) : Option Bool :=
  if i + 1 < c.length then isAt c i (c! '?') &&? isAt c (i + 1) (c! '>') else some false

/-- `///` at `p` (parser/phplexer.cpp:425-426). -/
def tripleSlash (c : QString) (p : Nat) : Option Bool :=
  isAt c p (c! '/') &&? isAt c (p + 1) (c! '/') &&? isAt c (p + 2) (c! '/')

/-- The loop of one-line comments (parser/phplexer.cpp:407-439 for `//`, `doc` = `token ==
DOC_COMMENT`; parser/phplexer.cpp:463-475 for `#`, with `doc = false`).  `k` bounds the number of
iterations; result: final `m_curpos` and the recorded line breaks. -/
def lineComment (u : CharClass) (c : QString) (doc : Bool) : Nat → Nat → Option (Nat × List Nat)
  | 0, i => if i < c.length then none else some (i, [])
  | k + 1, i =>
    if i < c.length then do
      if ← closeTagAt c i then some (i - 1, [])
      else if ← isAt c i 10 then
        if doc then
          let p ← scan c.length (fun j => testAt c j (fun x => u.isSpace x && !(x == 10))) (i + 1)
          if ← tripleSlash c p then
            let r ← lineComment u c doc k (p + 2)
            some (r.1, i :: r.2)
          else some (i, [i])
        else some (i, [i])
      else lineComment u c doc k (i + 1)
    else some (i, [])

/-- `/` (parser/phplexer.cpp:396-459). -/
def slashBranch (u : CharClass) (c : QString) (b : Nat) (stack : List St) (ident : QString) :
    Option Res := do
  let c₁ ← rd c (b + 1)
  if c₁ = c! '=' then some ⟨.DIV_ASSIGN, b + 2, stack, ident, []⟩
  else if c₁ = c! '/' then
    let doc ← isAt c (b + 2) (c! '/')
    let r ← lineComment u c doc (c.length - b) b
    some ⟨if doc then .DOC_COMMENT else .COMMENT, r.1 + 1, stack, ident, r.2⟩
  else if c₁ = c! '*' then
    let doc ← isAt c (b + 2) (c! '*') &&? testAt c (b + 3) u.isSpace
    let e ← scan c.length (fun i => notO (isAt c i (c! '*') &&? isAt c (i + 1) (c! '/'))) (b + 2)
    some ⟨if doc then .DOC_COMMENT else .COMMENT, e + 2, stack, ident, nlsIn c (b + 2) e⟩
  else some ⟨.DIV, b + 1, stack, ident, []⟩

/-- `#` (parser/phplexer.cpp:460-475). -/
def hashBranch (u : CharClass) (c : QString) (b : Nat) (stack : List St) (ident : QString) :
    Option Res := do
  let r ← lineComment u c false (c.length - b) b
  some ⟨.COMMENT, r.1 + 1, stack, ident, r.2⟩

/-- `'…'` (parser/phplexer.cpp:552-566). -/
def squoteBranch (c : QString) (b : Nat) (stack : List St) (ident : QString) : Option Res := do
  let e ← scan c.length (fun i => notO (isAt c i (c! '\'')) ||? escaped c i (b + 1)) (b + 1)
  some ⟨.CONSTANT_ENCAPSED_STRING, if e = c.length then e else e + 1, stack, ident,
    nlsIn c (b + 1) e⟩

/-- `$` starting an interpolation inside a double-quoted string (parser/phplexer.cpp:575-577). -/
def varStartAt (u : CharClass) (c : QString) (i start : Nat) : Option Bool :=
  isAt c i (c! '$') &&? notO (escaped c i start) &&?
    (isAt c (i + 1) (c! '{') ||? testAt c (i + 1) (identStart u))

/-- The scan loop of `"` (parser/phplexer.cpp:572-583); result: final offset and `foundVar`. -/
def dquoteLoop (u : CharClass) (c : QString) (start : Nat) : Nat → Nat → Option (Nat × Bool)
  | 0, i => some (i, false)
  | k + 1, i => do
    if ← notO (isAt c i (c! '"')) ||? escaped c i start then
      if ← varStartAt u c i start then some (i, true) else dquoteLoop u c start k (i + 1)
    else some (i, false)

/-- `"` (parser/phplexer.cpp:567-603): a complete string literal without interpolation, or just the
opening quote. -/
def dquoteBranch (u : CharClass) (c : QString) (b : Nat) (stack : List St) (ident : QString) :
    Option Res := do
  let r ← dquoteLoop u c (b + 1) (c.length - (b + 1)) (b + 1)
  if r.2 then some ⟨.DOUBLE_QUOTE, b + 1, .Str :: stack, ident, []⟩
  else if r.1 = c.length then
    -- `m_curpos--` before the line breaks are recorded: offsets are one too small
    some ⟨.CONSTANT_ENCAPSED_STRING, r.1, stack, ident, (nlsIn c (b + 1) r.1).map (· - 1)⟩
  else some ⟨.CONSTANT_ENCAPSED_STRING, r.1 + 1, stack, ident, nlsIn c (b + 1) r.1⟩

/-- Keywords other than `static` and `yield` (parser/phplexer.cpp:630-788). -/
def keywordTable : List (QString × Tok) :=
  [(q! "echo", .ECHO), (q! "include", .INCLUDE), (q! "include_once", .INCLUDE_ONCE),
   (q! "require", .REQUIRE), (q! "require_once", .REQUIRE_ONCE), (q! "eval", .EVAL),
   (q! "print", .PRINT), (q! "abstract", .ABSTRACT), (q! "break", .BREAK), (q! "case", .CASE),
   (q! "catch", .CATCH), (q! "class", .CLASS), (q! "const", .CONST), (q! "continue", .CONTINUE),
   (q! "default", .DEFAULT), (q! "do", .DO), (q! "else", .ELSE), (q! "extends", .EXTENDS),
   (q! "final", .FINAL), (q! "for", .FOR), (q! "if", .IF), (q! "implements", .IMPLEMENTS),
   (q! "instanceof", .INSTANCEOF), (q! "insteadof", .INSTEADOF), (q! "interface", .INTERFACE),
   (q! "trait", .TRAIT), (q! "new", .NEW), (q! "private", .PRIVATE), (q! "protected", .PROTECTED),
   (q! "public", .PUBLIC), (q! "return", .RETURN), (q! "switch", .SWITCH), (q! "throw", .THROW),
   (q! "try", .TRY), (q! "finally", .FINALLY), (q! "while", .WHILE), (q! "clone", .CLONE),
   (q! "exit", .EXIT), (q! "die", .EXIT), (q! "elseif", .ELSEIF), (q! "endif", .ENDIF),
   (q! "endwhile", .ENDWHILE), (q! "endfor", .ENDFOR), (q! "foreach", .FOREACH),
   (q! "endforeach", .ENDFOREACH), (q! "declare", .DECLARE), (q! "enddeclare", .ENDDECLARE),
   (q! "as", .AS), (q! "endswitch", .ENDSWITCH), (q! "function", .FUNCTION), (q! "use", .USE),
   (q! "goto", .GOTO), (q! "global", .GLOBAL), (q! "var", .VAR), (q! "unset", .UNSET),
   (q! "isset", .ISSET), (q! "empty", .EMPTY), (q! "__halt_compiler", .HALT_COMPILER),
   (q! "list", .LIST), (q! "array", .ARRAY), (q! "__class__", .CLASS_C), (q! "__trait__", .TRAIT_C),
   (q! "__method__", .METHOD_C), (q! "__function__", .FUNC_C), (q! "__line__", .LINE),
   (q! "__file__", .FILE), (q! "__dir__", .DIR), (q! "or", .LOGICAL_OR), (q! "and", .LOGICAL_AND),
   (q! "xor", .LOGICAL_XOR), (q! "namespace", .NAMESPACE), (q! "__namespace__", .NAMESPACE_C),
   (q! "callable", .CALLABLE), (q! "void", .VOID)]

/-- The look-ahead loop of `static` and `yield`: `pos` starts at `m_curpos = e - 1` while `lookAhead`
starts at `e`, so the character tested is the one at `pos + 1` (parser/phplexer.cpp:693-698,
790-795). -/
def lookAheadWs (u : CharClass) (c : QString) (e : Nat) : Option Nat :=
  scan c.length (fun pos => testAt c (pos + 1) u.isSpace) (e - 1)

/-- Identifier-like words (parser/phplexer.cpp:622-811). -/
def wordBranch (u : CharClass) (c : QString) (b : Nat) (stack : List St) (ident : QString) :
    Option Res := do
  let e ← scan c.length (fun i => testAt c i (validIdent u)) b
  let name := slice c b e
  if ciEq u name (q! "static") then
    let pos ← lookAheadWs u c e
    let late ← (some (decide (pos + 1 < c.length))) &&?
      isAt c (pos + 1) (c! ':') &&? isAt c (pos + 2) (c! ':')
    some ⟨if late then .STRING else .STATIC, e, stack, ident, []⟩
  else if ciEq u name (q! "yield") then
    let pos ← lookAheadWs u c e
    -- four unconditional reads
    let a₁ ← rd c (pos + 1)
    let a₂ ← rd c (pos + 2)
    let a₃ ← rd c (pos + 3)
    let a₄ ← rd c (pos + 4)
    if pos + 4 < c.length ∧ [a₁, a₂, a₃, a₄] = q! "from" then
      some ⟨.YIELD_FROM, pos + 5, stack, ident, []⟩
    else some ⟨.YIELD, e, stack, ident, []⟩
  else match lookupCI u keywordTable name with
    | some t => some ⟨t, e, stack, ident, []⟩
    | none => some ⟨.STRING, e, stack, ident, []⟩

/-- Operators and punctuation that only depend on at most three characters: the remaining branches
of the chain (parser/phplexer.cpp:207-208, 261-280, 347-370, 389-395, 476-551, 607-621).  Result: token
and its length; `some none` = none of these.  The first characters of all branches of the chain are
distinct, so grouping them does not change the order of tests. -/
def punct (c : QString) (b : Nat) (ch : QChar) : Option (Option (Tok × Nat)) :=
  if ch = c! ')' then some (some (.RPAREN, 1))
  else if ch = c! ']' then some (some (.RBRACKET, 1))
  else if ch = c! '[' then some (some (.LBRACKET, 1))
  else if ch = c! ',' then some (some (.COMMA, 1))
  else if ch = c! '@' then some (some (.AT, 1))
  else if ch = c! '!' then do
    if ← isAt c (b + 1) (c! '=') then
      if ← isAt c (b + 2) (c! '=') then some (some (.IS_NOT_IDENTICAL, 3))
      else some (some (.IS_NOT_EQUAL, 2))
    else some (some (.BANG, 1))
  else if ch = c! '>' then do
    if ← isAt c (b + 1) (c! '>') then
      if ← isAt c (b + 2) (c! '=') then some (some (.SR_ASSIGN, 3)) else some (some (.SR, 2))
    else if ← isAt c (b + 1) (c! '=') then some (some (.IS_GREATER_OR_EQUAL, 2))
    else some (some (.IS_GREATER, 1))
  else if ch = c! '~' then some (some (.TILDE, 1))
  else if ch = c! ':' then do
    if ← isAt c (b + 1) (c! ':') then some (some (.PAAMAYIM_NEKUDOTAYIM, 2))
    else some (some (.COLON, 1))
  else if ch = c! '%' then do
    if ← isAt c (b + 1) (c! '=') then some (some (.MOD_ASSIGN, 2)) else some (some (.MOD, 1))
  else if ch = c! '^' then do
    if ← isAt c (b + 1) (c! '=') then some (some (.XOR_ASSIGN, 2)) else some (some (.BIT_XOR, 1))
  else if ch = c! '*' then do
    if ← isAt c (b + 1) (c! '=') then some (some (.MUL_ASSIGN, 2))
    else if ← isAt c (b + 1) (c! '*') then
      if ← isAt c (b + 2) (c! '=') then some (some (.EXP_ASSIGN, 3)) else some (some (.EXP, 2))
    else some (some (.MUL, 1))
  else if ch = c! '|' then do
    if ← isAt c (b + 1) (c! '|') then some (some (.BOOLEAN_OR, 2))
    else if ← isAt c (b + 1) (c! '=') then some (some (.OR_ASSIGN, 2))
    else some (some (.BIT_OR, 1))
  else if ch = c! '&' then do
    if ← isAt c (b + 1) (c! '&') then some (some (.BOOLEAN_AND, 2))
    else if ← isAt c (b + 1) (c! '=') then some (some (.AND_ASSIGN, 2))
    else some (some (.BIT_AND, 1))
  else if ch = c! '+' then do
    if ← isAt c (b + 1) (c! '+') then some (some (.INC, 2))
    else if ← isAt c (b + 1) (c! '=') then some (some (.PLUS_ASSIGN, 2))
    else some (some (.PLUS, 1))
  else if ch = c! '-' then do
    if ← isAt c (b + 1) (c! '-') then some (some (.DEC, 2))
    else if ← isAt c (b + 1) (c! '=') then some (some (.MINUS_ASSIGN, 2))
    else some (some (.MINUS, 1))
  else if ch = c! '.' then do
    if ← isAt c (b + 1) (c! '=') then some (some (.CONCAT_ASSIGN, 2))
    else if ← isAt c (b + 1) (c! '.') then
      if ← isAt c (b + 2) (c! '.') then some (some (.ELLIPSIS, 3)) else some (some (.CONCAT, 1))
    else some (some (.CONCAT, 1))
  else if ch = c! '\\' then some (some (.BACKSLASH, 1))
  else if ch = c! ';' then some (some (.SEMICOLON, 1))
  else if ch = c! '=' then do
    if ← isAt c (b + 1) (c! '=') then
      if ← isAt c (b + 2) (c! '=') then some (some (.IS_IDENTICAL, 3))
      else some (some (.IS_EQUAL, 2))
    else if ← isAt c (b + 1) (c! '>') then some (some (.DOUBLE_ARROW, 2))
    else some (some (.ASSIGN, 1))
  else some none

/-- `DefaultState` and `StringVariableCurly` (parser/phplexer.cpp:123-813). -/
def codeBranch (u : CharClass) (c : QString) (b : Nat) (stack : List St) (ident : QString) :
    Option Res := do
  let ch ← rd c b
  let top ← stack[0]?
  if u.isSpace ch then wsBranch u c b stack ident
  else if ← testAt c b u.isDigit ||? (isAt c b (c! '.') &&? testAt c (b + 1) u.isDigit) then
    numBranch u c b stack ident
  else
    let v ← processVariable u c b
    match v with
    | some e => some ⟨.VARIABLE, e, stack, ident, []⟩
    | none =>
      if ch = c! '$' then some ⟨.DOLLAR, b + 1, stack, ident, []⟩
      else if ch = c! '}' then
        some ⟨.RBRACE, b + 1, if top = .StrVarCurly then stack.tail else stack, ident, []⟩
      else if ch = c! '{' then
        some ⟨.LBRACE, b + 1, if top = .StrVarCurly then .StrVarCurly :: stack else stack, ident, []⟩
      else if ch = c! '(' then parenBranch u c b stack ident
      else if ch = c! '<' then ltBranch u c b stack ident
      else if ch = c! '?' then questionBranch c b stack ident
      else if ← isAt c b (c! '-') &&? isAt c (b + 1) (c! '>') then
        let more ← testAt c (b + 2) (validIdent u)
        some ⟨.OBJECT_OPERATOR, b + 2, if more then .StrVarObjOp :: stack else stack, ident, []⟩
      else if ch = c! '/' then slashBranch u c b stack ident
      else if ch = c! '#' then hashBranch u c b stack ident
      else if ch = c! '\'' then squoteBranch c b stack ident
      else if ch = c! '"' then dquoteBranch u c b stack ident
      else if ch = c! '`' then some ⟨.BACKTICK, b + 1, .Backtick :: stack, ident, []⟩
      else
        let pt ← punct c b ch
        match pt with
        | some (t, k) => some ⟨t, b + k, stack, ident, []⟩
        | none =>
          if identStart u ch then wordBranch u c b stack ident
          else some ⟨.INVALID, b + 1, stack, ident, []⟩

/-- `popState` (parser/phplexer.cpp:70-73); popping an empty stack is undefined behaviour. -/
def popSt : List St → Option (List St)
  | [] => none
  | _ :: r => some r

/-- The first break test of the `ENCAPSED_AND_WHITESPACE` loop, for an unescaped position
(parser/phplexer.cpp:863-865): `${`, `{$name` (here a digit counts as a name!), `$name`. -/
def encBreak (u : CharClass) (c : QString) (i : Nat) : Option Bool :=
  (isAt c i (c! '$') &&? isAt c (i + 1) (c! '{')) ||?
  (isAt c i (c! '{') &&? isAt c (i + 1) (c! '$') &&? testAt c (i + 2) (validIdent u)) ||?
  (isAt c i (c! '$') &&? testAt c (i + 1) (identStart u))

/-- The loop of `ENCAPSED_AND_WHITESPACE` (parser/phplexer.cpp:860-891); `top` is the mode after a
possible pop of `StringVariable`.  Result: final `m_curpos` before `m_curpos--`. -/
def encLoop (u : CharClass) (c : QString) (top : St) (ident : QString) (start : Nat) :
    Nat → Nat → Option Nat
  | 0, i => if i < c.length then none else some i
  | k + 1, i =>
    if i < c.length then do
      if ← notO (escaped c i start) &&? encBreak u c i then some i
      else if ← (some (top == .Str)) &&? isAt c i (c! '"') &&? notO (escaped c i start) then some i
      else if ← (some (top == .Backtick)) &&? isAt c i (c! '`') &&? notO (escaped c i start) then
        some i
      else if ← (some (top == .Heredoc)) &&? isAt c i 10 &&? hereEnd c ident (i + 1) then
        some (i + 1)
      else encLoop u c top ident start k (i + 1)
    else some i

/-- `state() == m || state(1) == m`. -/
def inMode (stack : List St) (m : St) : Option Bool :=
  (stack[0]?).map (· == m) ||? (stack[1]?).map (· == m)

/-- `if (state() == StringVariable) popState();` -/
def popStrVar (stack : List St) : Option (List St) := do
  let top ← stack[0]?
  if top = .StrVar then popSt stack else some stack

/-- Leaving a string mode: `if (state() == StringVariable) popState(); popState();` -/
def leaveStr (stack : List St) : Option (List St) := do
  let st ← popStrVar stack
  popSt st

/-- `{$name` or `{${` (parser/phplexer.cpp:847-848). -/
def curlyOpenAt (u : CharClass) (c : QString) (b : Nat) : Option Bool :=
  isAt c b (c! '{') &&? isAt c (b + 1) (c! '$') &&?
    testAt c (b + 2) (fun x => identStart u x || x == c! '{')

/-- `->name` (parser/phplexer.cpp:852-853). -/
def arrowAt (u : CharClass) (c : QString) (b : Nat) : Option Bool :=
  isAt c b (c! '-') &&? isAt c (b + 1) (c! '>') &&? testAt c (b + 2) (identStart u)

/-- `StringVariable`, `String`, `StringHeredoc`, `StringBacktick` (parser/phplexer.cpp:815-893). -/
def strBranch (u : CharClass) (c : QString) (b : Nat) (stack : List St) (ident : QString) :
    Option Res := do
  let top ← stack[0]?
  if ← inMode stack .Str &&? isAt c b (c! '"') then
    let st ← leaveStr stack
    some ⟨.DOUBLE_QUOTE, b + 1, st, ident, []⟩
  else if ← inMode stack .Backtick &&? isAt c b (c! '`') then
    let st ← leaveStr stack
    some ⟨.BACKTICK, b + 1, st, ident, []⟩
  else if ← inMode stack .Heredoc &&? hereEnd c ident b then
    let st ← leaveStr stack
    some ⟨.END_HEREDOC, b + ident.length, st, ident, []⟩
  else
    let v ← processVariable u c b
    match v with
    | some e =>
      some ⟨.VARIABLE, e, if top = .StrVar then stack else .StrVar :: stack, ident, []⟩
    | none =>
      if ← (some (top != .StrVar)) &&? isAt c b (c! '$') &&? isAt c (b + 1) (c! '{') then
        let name ← testAt c (b + 2) (identStart u)
        some ⟨.DOLLAR_OPEN_CURLY_BRACES, b + 2, if name then .StrVarname :: stack else stack, ident,
          []⟩
      else if ← (some (top == .StrVar)) &&? isAt c b (c! '[') then
        some ⟨.LBRACKET, b + 1, .StrVarBracket :: stack, ident, []⟩
      else if ← (some (top != .StrVar)) &&? curlyOpenAt u c b then
        some ⟨.CURLY_OPEN, b + 1, .StrVarCurly :: stack, ident, []⟩
      else if ← (some (top == .StrVar)) &&? arrowAt u c b then
        some ⟨.OBJECT_OPERATOR, b + 2, .StrVarObjOp :: stack, ident, []⟩
      else
        let st ← popStrVar stack
        let top' ← st[0]?
        let e ← encLoop u c top' ident b (c.length - b) b
        some ⟨.ENCAPSED_AND_WHITESPACE, e, st, ident, nlsIn c b e⟩

/-- The loop of `StringNowdoc` (parser/phplexer.cpp:901-910). -/
def nowdocLoop (c ident : QString) : Nat → Nat → Option Nat
  | 0, i => if i < c.length then none else some i
  | k + 1, i =>
    if i < c.length then do
      if ← isAt c i 10 &&? hereEnd c ident (i + 1) then some (i + 1)
      else nowdocLoop c ident k (i + 1)
    else some i

/-- `StringNowdoc` (parser/phplexer.cpp:894-913). -/
def nowdocBranch (c : QString) (b : Nat) (stack : List St) (ident : QString) : Option Res := do
  if ← hereEnd c ident b then
    let st ← popSt stack
    some ⟨.END_NOWDOC, b + ident.length, st, ident, []⟩
  else
    let e ← nowdocLoop c ident (c.length - b) b
    some ⟨.STRING, e, stack, ident, nlsIn c b e⟩

/-- `StringVariableBracket` (parser/phplexer.cpp:914-935). -/
def bracketBranch (u : CharClass) (c : QString) (b : Nat) (stack : List St) (ident : QString) :
    Option Res := do
  let ch ← rd c b
  if ch = c! ']' then
    let st ← popSt stack
    let st ← popSt st
    some ⟨.RBRACKET, b + 1, st, ident, []⟩
  else if u.isDigit ch then
    let e ← scan c.length (fun i => testAt c i u.isDigit) b
    some ⟨.NUM_STRING, e, stack, ident, []⟩
  else
    let e ← scan c.length (fun i => notO (isAt c i (c! ']'))) b
    some ⟨.STRING, e, stack, ident, nlsIn c b e⟩

/-- `StringVariableObjectOperator` (parser/phplexer.cpp:936-945). -/
def objOpBranch (u : CharClass) (c : QString) (b : Nat) (stack : List St) (ident : QString) :
    Option Res := do
  let e ← scan c.length (fun i => testAt c i (validIdent u)) b
  let st ← popSt stack
  let st ← popStrVar st
  some ⟨.STRING, e, st, ident, []⟩

/-- `StringVarname` (parser/phplexer.cpp:946-955). -/
def varnameBranch (u : CharClass) (c : QString) (b : Nat) (stack : List St) (ident : QString) :
    Option Res := do
  let st ← popSt stack
  let e ← scan c.length (fun i => testAt c i (validIdent u)) b
  some ⟨.STRING_VARNAME, e, .StrVarCurly :: st, ident, []⟩

/-- The state switch (parser/phplexer.cpp:88-959). -/
def dispatch (u : CharClass) (c : QString) (b : Nat) (stack : List St) (ident : QString) :
    Option Res := do
  match ← stack[0]? with
  | .Html => htmlBranch u c b stack ident
  | .Default | .StrVarCurly => codeBranch u c b stack ident
  | .StrVar | .Str | .Heredoc | .Backtick => strBranch u c b stack ident
  | .Nowdoc => nowdocBranch c b stack ident
  | .StrVarBracket => bracketBranch u c b stack ident
  | .StrVarObjOp => objOpBranch u c b stack ident
  | .StrVarname => varnameBranch u c b stack ident
  | .Error => some ⟨.INVALID, b + 1, stack, ident, []⟩

/-- Lexer object (parser/phplexer.h:42-65).  `halt` is `m_haltCompiler`, `lines` the sequence of
`createNewline` calls so far. -/
structure LState where
  pos : Nat
  stack : List St
  ident : QString
  halt : Nat
  lines : List Nat
  deriving DecidableEq, Repr

/-- Constructor (parser/phplexer.cpp:22-32); `php` = `initialState == DefaultState`, otherwise
`HtmlState`, the only two values used in the code base (php.g:1208, completion/context.cpp:80,
duchain/expressionparser.cpp, parsesession.cpp). -/
def LState.init (php : Bool) : LState :=
  ⟨0, if php then [.Default, .Html, .Error] else [.Html, .Error], [], 0, []⟩

/-- What one call of `nextTokenKind` returns: kind `0`, or a token with `tokenBegin()` and
`tokenEnd() + 1`. -/
inductive Out where
  | eof
  | tok (t : Tok) (b e : Nat)
  deriving DecidableEq, Repr

/-- Whitespace and comments. -/
def Tok.isTrivia : Tok → Bool
  | .WHITESPACE | .COMMENT | .DOC_COMMENT => true
  | _ => false

/-- Update of `m_haltCompiler` after a token (parser/phplexer.cpp:968-986), for
`m_haltCompiler ≠ 4`. -/
def haltStep (h : Nat) (t : Tok) : Nat :=
  let h' :=
    if h = 0 then 0
    else if t.isTrivia then h
    else if h = 1 ∧ t = .LPAREN then 2
    else if h = 2 ∧ t = .RPAREN then 3
    else if h = 3 ∧ t = .SEMICOLON then 4
    else 0
  if t = .HALT_COMPILER ∧ h' = 0 then 1 else h'

/-- One call of `Lexer::nextTokenKind` (parser/phplexer.cpp:75-988). -/
def step (u : CharClass) (c : QString) (s : LState) : Option (LState × Out) :=
  if s.pos ≥ c.length then
    some ({ s with lines := s.lines ++ [s.pos] }, .eof)
  else do
    let r ← dispatch u c s.pos s.stack s.ident
    if r.nxt > c.length + 1 then
      -- `m_curpos > m_contentSize`
      some (⟨r.nxt - 1, r.stack, r.ident, s.halt, s.lines ++ r.nls⟩, .eof)
    else if s.halt = 4 then
      some (⟨r.nxt, r.stack, r.ident, 4, s.lines ++ r.nls⟩, .eof)
    else
      some (⟨r.nxt, r.stack, r.ident, haltStep s.halt r.tok, s.lines ++ r.nls⟩,
        .tok r.tok s.pos r.nxt)

/-- `n` successive calls; result: the outputs in order and the final state. -/
def runN (u : CharClass) (c : QString) : Nat → LState → Option (List Out × LState)
  | 0, s => some ([], s)
  | n + 1, s => do
    let (s', o) ← step u c s
    let (os, sf) ← runN u c n s'
    some (o :: os, sf)

end KPhp
