import Verif.Lexer.Basic
/-!
# Specification vocabulary for the lexer

Independent descriptions of what each kind of token is, phrased on the text only (`chr c i` is the
character at offset `i`), and of well nested mode stacks.  No definition here refers to the lexer's
branch functions.
-/
namespace KPhp

/-- Every character in `[i, j)` satisfies `p`. -/
def AllChr (c : QString) (i j : Nat) (p : QChar → Prop) : Prop := ∀ k, i ≤ k → k < j → p (chr c k)

/-- Offset `k` is escaped: an odd number of backslashes directly precedes it. -/
def Escaped (c : QString) (k : Nat) : Prop := bsBefore c k % 2 = 1

instance (c : QString) (k : Nat) : Decidable (Escaped c k) := by unfold Escaped; infer_instance

/-- The characters of names: letters, digits, the underscore and everything that is not ASCII. -/
def identChar (u : CharClass) (ch : QChar) : Bool :=
  u.isLetter ch || u.isDigit ch || ch == c! '_' || decide (ch > 127)

/-- The characters a name can begin with: those of names without the digits. -/
def nameStart (u : CharClass) (ch : QChar) : Bool := identChar u ch && !u.isDigit ch

/-- `[b, e)` is a maximal, non-empty run of white space. -/
structure WhitespaceSpec (u : CharClass) (c : QString) (b e : Nat) : Prop where
  nonempty : b < e
  inText : e ≤ c.length
  all : AllChr c b e (fun ch => u.isSpace ch = true)
  maximal : e < c.length → u.isSpace (chr c e) = false

/-- `[b, e)` is `$` followed by a maximal identifier that does not start with a digit. -/
structure VariableSpec (u : CharClass) (c : QString) (b e : Nat) : Prop where
  dollar : chr c b = c! '$'
  nonempty : b + 1 < e
  inText : e ≤ c.length
  all : AllChr c (b + 1) e (fun ch => identChar u ch = true)
  noDigit : u.isDigit (chr c (b + 1)) = false
  maximal : e < c.length → identChar u (chr c e) = false

/-- `[b, e)` is a maximal identifier that does not start with a digit. -/
structure WordSpec (u : CharClass) (c : QString) (b e : Nat) : Prop where
  nonempty : b < e
  inText : e ≤ c.length
  all : AllChr c b e (fun ch => identChar u ch = true)
  noDigit : u.isDigit (chr c b) = false
  maximal : e < c.length → identChar u (chr c e) = false

/-- Text outside PHP: contains no `<?` except possibly at its first character, and stops only
directly before a `<?` or at the end of the text (`e = length + 1`: the reported end is the
terminator). -/
structure InlineHtmlSpec (c : QString) (b e : Nat) : Prop where
  nonempty : b < e
  noTag : ∀ k, b < k → k < e → ¬ (chr c k = c! '<' ∧ chr c (k + 1) = c! '?')
  stop : (chr c e = c! '<' ∧ chr c (e + 1) = c! '?' ∧ e < c.length) ∨ e = c.length + 1

/-- `<?xml` (in any case) at `b`. -/
def XmlAt (u : CharClass) (c : QString) (b : Nat) : Prop :=
  u.toLower (chr c (b + 2)) = c! 'x' ∧ u.toLower (chr c (b + 3)) = c! 'm' ∧
    u.toLower (chr c (b + 4)) = c! 'l'

/-- An open tag (`<?` not followed by `xml` or `=`); `<?php` only with the white space character
after it. -/
structure OpenTagSpec (u : CharClass) (c : QString) (b e : Nat) : Prop where
  tag : chr c b = c! '<' ∧ chr c (b + 1) = c! '?'
  notXml : ¬ XmlAt u c b
  notEcho : chr c (b + 2) ≠ c! '='
  stop : (e = b + 6 ∧ u.toLower (chr c (b + 2)) = c! 'p' ∧ u.toLower (chr c (b + 3)) = c! 'h' ∧
      u.toLower (chr c (b + 4)) = c! 'p' ∧ u.isSpace (chr c (b + 5)) = true) ∨ e = b + 2

/-- The open tag with echo `<?=`. -/
structure OpenTagEchoSpec (c : QString) (b e : Nat) : Prop where
  tag : chr c b = c! '<' ∧ chr c (b + 1) = c! '?' ∧ chr c (b + 2) = c! '='
  stop : e = b + 3

/-- A complete block comment: from `/*` to the first `*/` that follows it. -/
structure BlockCommentSpec (c : QString) (b e : Nat) : Prop where
  open_ : chr c b = c! '/' ∧ chr c (b + 1) = c! '*'
  long : b + 4 ≤ e
  inText : e ≤ c.length
  close : chr c (e - 2) = c! '*' ∧ chr c (e - 1) = c! '/'
  first : ∀ k, b + 2 ≤ k → k < e - 2 → ¬ (chr c k = c! '*' ∧ chr c (k + 1) = c! '/')

/-- A block comment at `b` that is never closed. -/
structure OpenBlockComment (c : QString) (b : Nat) : Prop where
  open_ : chr c b = c! '/' ∧ chr c (b + 1) = c! '*'
  never : ∀ k, b + 2 ≤ k → ¬ (chr c k = c! '*' ∧ chr c (k + 1) = c! '/')

/-- How a one-line comment may end: with its line break, before `?>`, or with the text (the reported
end is then the terminator). -/
def LineCommentEnd (c : QString) (e : Nat) : Prop :=
  (e ≤ c.length ∧ chr c (e - 1) = 10) ∨
  (e < c.length ∧ chr c e = c! '?' ∧ chr c (e + 1) = c! '>') ∨
  e = c.length + 1

/-- One-line comment: no line break before its last character and no `?>` inside. -/
structure LineCommentSpec (c : QString) (b e : Nat) : Prop where
  open_ : chr c b = c! '#' ∨ (chr c b = c! '/' ∧ chr c (b + 1) = c! '/')
  nonempty : b < e
  oneLine : ∀ k, b ≤ k → k + 1 < e → chr c k ≠ 10
  noCloseTag : ∀ k, b ≤ k → k < e → ¬ (chr c k = c! '?' ∧ chr c (k + 1) = c! '>')
  stop : LineCommentEnd c e

/-- The line after the line break at `k` starts, after white space, with `///` before `e`. -/
def ContinuesAt (u : CharClass) (c : QString) (k e : Nat) : Prop :=
  ∃ p, k < p ∧ p + 2 < e ∧ AllChr c (k + 1) p (fun ch => u.isSpace ch = true ∧ ch ≠ 10) ∧
    chr c p = c! '/' ∧ chr c (p + 1) = c! '/' ∧ chr c (p + 2) = c! '/'

/-- `///` doc comment: each line break inside is followed by a line starting with `///`, no `?>`. -/
structure LineDocSpec (u : CharClass) (c : QString) (b e : Nat) : Prop where
  open_ : chr c b = c! '/' ∧ chr c (b + 1) = c! '/' ∧ chr c (b + 2) = c! '/'
  nonempty : b < e
  lines : ∀ k, b ≤ k → k + 1 < e → chr c k = 10 → ContinuesAt u c k e
  noCloseTag : ∀ k, b ≤ k → k < e → ¬ (chr c k = c! '?' ∧ chr c (k + 1) = c! '>')
  stop : LineCommentEnd c e

/-- `/**` followed by white space. -/
def DocOpen (u : CharClass) (c : QString) (b : Nat) : Prop :=
  chr c (b + 2) = c! '*' ∧ u.isSpace (chr c (b + 3)) = true

/-- A quoted literal `[b, e)` with quote character `q` that is closed by its first unescaped quote. -/
structure ClosedLiteral (c : QString) (q : QChar) (b e : Nat) : Prop where
  open_ : chr c b = q
  long : b + 2 ≤ e
  inText : e ≤ c.length
  close : chr c (e - 1) = q ∧ ¬ Escaped c (e - 1)
  first : ∀ k, b < k → k < e - 1 → chr c k = q → Escaped c k

/-- A quoted literal at `b` that is never closed extends to the end of the text. -/
structure UnclosedLiteral (c : QString) (q : QChar) (b e : Nat) : Prop where
  open_ : chr c b = q
  stop : e = c.length
  never : ∀ k, b < k → k < c.length → chr c k = q → Escaped c k

/-- At `k` starts an interpolated variable: an unescaped `${` or `$name`. -/
def VarAt (u : CharClass) (c : QString) (k : Nat) : Prop :=
  chr c k = c! '$' ∧ ¬ Escaped c k ∧ (chr c (k + 1) = c! '{' ∨ nameStart u (chr c (k + 1)) = true)

/-- A string literal returned as one token. -/
def StringLiteralSpec (u : CharClass) (c : QString) (b e : Nat) : Prop :=
  (ClosedLiteral c (c! '\'') b e ∨ UnclosedLiteral c (c! '\'') b e) ∨
  ((ClosedLiteral c (c! '"') b e ∨ UnclosedLiteral c (c! '"') b e) ∧
    ∀ k, b < k → k < e → ¬ VarAt u c k)

/-- A parenthesised non-empty word `( word )` in `[b, e)`, white space allowed around the word; the word is
`[p, q)`. -/
structure ParenWord (u : CharClass) (c : QString) (b p q e : Nat) : Prop where
  open_ : chr c b = c! '('
  order : b + 1 ≤ p ∧ p < q ∧ q + 1 ≤ e
  ws1 : AllChr c (b + 1) p (fun ch => u.isSpace ch = true)
  word : AllChr c p q (fun ch => u.isLetter ch = true)
  ws2 : AllChr c q (e - 1) (fun ch => u.isSpace ch = true)
  close : chr c (e - 1) = c! ')'

/-- The names of the casts of each kind (PHP manual, "Type juggling"). -/
def castNames : Tok → List QString
  | .INT_CAST => [q! "int", q! "integer"]
  | .DOUBLE_CAST => [q! "float", q! "double", q! "real"]
  | .STRING_CAST => [q! "string", q! "binary"]
  | .ARRAY_CAST => [q! "array"]
  | .OBJECT_CAST => [q! "object"]
  | .BOOL_CAST => [q! "bool", q! "boolean"]
  | .UNSET_CAST => [q! "unset"]
  | _ => []

/-- `[b, e)` is a cast of kind `t`: a parenthesised word equal, ignoring case, to one of the cast
names of kind `t`. -/
def CastSpec (u : CharClass) (c : QString) (b e : Nat) (t : Tok) : Prop :=
  ∃ p q name, ParenWord u c b p q e ∧ name ∈ castNames t ∧ ciEq u (slice c p q) name = true

/-- The cast token kinds. -/
def Tok.isCast : Tok → Bool
  | .INT_CAST | .DOUBLE_CAST | .STRING_CAST | .ARRAY_CAST | .OBJECT_CAST | .BOOL_CAST
  | .UNSET_CAST => true
  | _ => false

/-- The closing identifier of a heredoc/nowdoc: the text `ident`, then a line break or `;` and a line
break. -/
structure HereEndSpec (c ident : QString) (b e : Nat) : Prop where
  text : slice c b e = ident
  stop : e = b + ident.length
  inText : e ≤ c.length
  after : chr c e = 10 ∨ (chr c e = c! ';' ∧ chr c (e + 1) = 10)

/-- `[b, e)` starts a heredoc (`nowdoc = false`) or nowdoc with identifier `id`: `<<<`, blanks, an
optional quote, the identifier, an optional closing quote, a line break. -/
def HereStartSpec (u : CharClass) (c : QString) (id : QString) (nowdoc : Bool) (b e : Nat) : Prop :=
  chr c b = c! '<' ∧ chr c (b + 1) = c! '<' ∧ chr c (b + 2) = c! '<' ∧
  ∃ s p q, b + 3 ≤ s ∧ p < q ∧ q < e ∧ e ≤ c.length ∧
    AllChr c (b + 3) s (fun ch => ch = c! ' ' ∨ ch = 9) ∧
    (p = s ∨ (p = s + 1 ∧ (chr c s = c! '\'' ∨ chr c s = c! '"'))) ∧
    (nowdoc = true ↔ chr c s = c! '\'') ∧
    id = slice c p q ∧
    AllChr c p q (fun ch => (u.isDigit ch || u.isLetter ch || ch == c! '_') = true) ∧
    u.isDigit (chr c p) = false ∧
    (e = q + 1 ∨ (e = q + 2 ∧ p = s + 1 ∧ ((nowdoc = true ∧ chr c q = c! '\'') ∨ chr c q = c! '"'))) ∧
    chr c (e - 1) = 10

/-- The token starts a heredoc or nowdoc. -/
def Tok.isDocStart : Tok → Bool
  | .START_HEREDOC | .START_NOWDOC => true
  | _ => false

/-- The keywords of each token kind, other than `static` and `yield` (PHP manual, "List of keywords", with the names of the tokens
"List of parser tokens"). -/
def keywordNames : Tok → List QString
  | .ABSTRACT => [q! "abstract"]
  | .ARRAY => [q! "array"]
  | .AS => [q! "as"]
  | .BREAK => [q! "break"]
  | .CALLABLE => [q! "callable"]
  | .CASE => [q! "case"]
  | .CATCH => [q! "catch"]
  | .CLASS => [q! "class"]
  | .CLASS_C => [q! "__class__"]
  | .CLONE => [q! "clone"]
  | .CONST => [q! "const"]
  | .CONTINUE => [q! "continue"]
  | .DECLARE => [q! "declare"]
  | .DEFAULT => [q! "default"]
  | .DIR => [q! "__dir__"]
  | .DO => [q! "do"]
  | .ECHO => [q! "echo"]
  | .ELSE => [q! "else"]
  | .ELSEIF => [q! "elseif"]
  | .EMPTY => [q! "empty"]
  | .ENDDECLARE => [q! "enddeclare"]
  | .ENDFOR => [q! "endfor"]
  | .ENDFOREACH => [q! "endforeach"]
  | .ENDIF => [q! "endif"]
  | .ENDSWITCH => [q! "endswitch"]
  | .ENDWHILE => [q! "endwhile"]
  | .EVAL => [q! "eval"]
  | .EXIT => [q! "exit", q! "die"]
  | .EXTENDS => [q! "extends"]
  | .FILE => [q! "__file__"]
  | .FINAL => [q! "final"]
  | .FINALLY => [q! "finally"]
  | .FOR => [q! "for"]
  | .FOREACH => [q! "foreach"]
  | .FUNCTION => [q! "function"]
  | .FUNC_C => [q! "__function__"]
  | .GLOBAL => [q! "global"]
  | .GOTO => [q! "goto"]
  | .HALT_COMPILER => [q! "__halt_compiler"]
  | .IF => [q! "if"]
  | .IMPLEMENTS => [q! "implements"]
  | .INCLUDE => [q! "include"]
  | .INCLUDE_ONCE => [q! "include_once"]
  | .INSTANCEOF => [q! "instanceof"]
  | .INSTEADOF => [q! "insteadof"]
  | .INTERFACE => [q! "interface"]
  | .ISSET => [q! "isset"]
  | .LINE => [q! "__line__"]
  | .LIST => [q! "list"]
  | .LOGICAL_AND => [q! "and"]
  | .LOGICAL_OR => [q! "or"]
  | .LOGICAL_XOR => [q! "xor"]
  | .METHOD_C => [q! "__method__"]
  | .NAMESPACE => [q! "namespace"]
  | .NAMESPACE_C => [q! "__namespace__"]
  | .NEW => [q! "new"]
  | .PRINT => [q! "print"]
  | .PRIVATE => [q! "private"]
  | .PROTECTED => [q! "protected"]
  | .PUBLIC => [q! "public"]
  | .REQUIRE => [q! "require"]
  | .REQUIRE_ONCE => [q! "require_once"]
  | .RETURN => [q! "return"]
  | .SWITCH => [q! "switch"]
  | .THROW => [q! "throw"]
  | .TRAIT => [q! "trait"]
  | .TRAIT_C => [q! "__trait__"]
  | .TRY => [q! "try"]
  | .UNSET => [q! "unset"]
  | .USE => [q! "use"]
  | .VAR => [q! "var"]
  | .VOID => [q! "void"]
  | .WHILE => [q! "while"]
  | _ => []

/-- The keyword token kinds other than `static` and `yield`. -/
def isKeywordTok (t : Tok) : Prop := ∃ k, k ∈ keywordNames t

/-- Which mode may lie directly above which: the nesting discipline of PHP source. -/
def under : St → St → Bool
  | .Default, .Html => true
  | .Str, .Default | .Str, .StrVarCurly => true
  | .Backtick, .Default | .Backtick, .StrVarCurly => true
  | .Heredoc, .Default => true
  | .Nowdoc, .Default => true
  | .StrVar, .Str | .StrVar, .Heredoc | .StrVar, .Backtick => true
  | .StrVarBracket, .StrVar => true
  | .StrVarObjOp, .Default | .StrVarObjOp, .StrVarCurly | .StrVarObjOp, .StrVar => true
  | .StrVarCurly, .Str | .StrVarCurly, .Heredoc | .StrVarCurly, .Backtick
  | .StrVarCurly, .StrVarCurly => true
  | .StrVarname, .Str | .StrVarname, .Heredoc | .StrVarname, .Backtick => true
  | _, _ => false

/-- Well nested mode stacks: the two bottom modes, and each further mode allowed on the one below. -/
inductive Wf : List St → Prop
  | base : Wf [.Html, .Error]
  | push {t s : St} {r : List St} : under t s = true → Wf (s :: r) → Wf (t :: s :: r)

/-- The stack contains an interpolating string mode. -/
def HasStr (l : List St) : Prop := St.Str ∈ l ∨ St.Heredoc ∈ l ∨ St.Backtick ∈ l

/-- The stack contains a heredoc or nowdoc. -/
def HasDoc (l : List St) : Prop := St.Heredoc ∈ l ∨ St.Nowdoc ∈ l

/-- A heredoc identifier: a non-empty word of letters, digits and underscores. -/
def DocIdent (u : CharClass) (ident : QString) : Prop :=
  ident ≠ [] ∧ ∀ x ∈ ident, (u.isDigit x || u.isLetter x || x == c! '_') = true

/-- Modes that are entered only directly before an identifier. -/
def wantsIdent : St → Bool
  | .StrVarObjOp | .StrVarname => true
  | _ => false

/-- The invariant of the lexer object between calls (position `b`). -/
structure SInv (u : CharClass) (c : QString) (b : Nat) (stack : List St) (ident : QString) :
    Prop where
  wf : Wf stack
  doc : HasDoc stack → DocIdent u ident
  anchor : HasStr stack → ∃ j, j < b ∧ chr c j ≠ 92
  top : ∀ t r, stack = t :: r → wantsIdent t = true → identChar u (chr c b) = true

/-- `ch` is the digit of value `d`: `0` … `9`, `a` … `f` or `A` … `F`. -/
def IsDigit (ch : QChar) (d : Nat) : Prop :=
  (d < 10 ∧ ch = 48 + d) ∨ (10 ≤ d ∧ d < 16 ∧ (ch = 97 + (d - 10) ∨ ch = 65 + (d - 10)))

/-- `s` is a numeral in the base with the value `v`. -/
inductive Numeral (base : Nat) : QString → Nat → Prop
  | nil : Numeral base [] 0
  | snoc {s : QString} {v d : Nat} {ch : QChar} : Numeral base s v → IsDigit ch d → d < base →
      Numeral base (s ++ [ch]) (v * base + d)

/-- An integer literal: decimal digits, `0x` and hexadecimal digits, or `0b` and digits, without
point, whose value fits a signed 64-bit integer. -/
def IntLiteralSpec (u : CharClass) (c : QString) (b e : Nat) : Prop :=
  b < e ∧ e ≤ c.length ∧ (∀ k, b ≤ k → k < e → chr c k ≠ c! '.') ∧
  ∃ s base, b ≤ s ∧ s < e ∧ (base = 10 ∨ base = 16) ∧
    (∃ v, Numeral base (slice c s e) v ∧ v < 2 ^ 63) ∧
    (base = 10 → s = b ∨ (s = b + 2 ∧ chr c b = c! '0' ∧ u.toLower (chr c (b + 1)) = c! 'b')) ∧
    (base = 16 → chr c b = c! '0' ∧ u.toLower (chr c (b + 1)) = c! 'x' ∧ (s = b + 2 ∨ s = b + 4))

/-- The quote character that closes the innermost string mode (none for heredocs). -/
def strQuote : List St → Option QChar
  | .Str :: _ | .StrVar :: .Str :: _ => some (c! '"')
  | .Backtick :: _ | .StrVar :: .Backtick :: _ => some (c! '`')
  | _ => none

/-- At `k` the text looks like an interpolation: `${`, `$name` or `{$name`. -/
def InterpolAt (u : CharClass) (c : QString) (k : Nat) : Prop :=
  (chr c k = c! '$' ∧ (chr c (k + 1) = c! '{' ∨ nameStart u (chr c (k + 1)) = true)) ∨
  (chr c k = c! '{' ∧ chr c (k + 1) = c! '$' ∧ identChar u (chr c (k + 2)) = true)

/-- Plain text inside an interpolated string: contains the closing quote and the beginning of an
interpolation only escaped by a backslash (of the same piece of text). -/
structure EncapsedSpec (u : CharClass) (c : QString) (quote : Option QChar) (b e : Nat) : Prop where
  inText : b ≤ e ∧ e ≤ c.length
  noQuote : ∀ k, b ≤ k → k < e → quote = some (chr c k) → b < k ∧ Escaped c k
  noVar : ∀ k, b ≤ k → k < e → InterpolAt u c k → b < k ∧ Escaped c k

/-- `yield from`: the word `yield`, white space, `from`. -/
def YieldFromSpec (u : CharClass) (c : QString) (b e : Nat) : Prop :=
  ∃ m p, WordSpec u c b m ∧ ciEq u (slice c b m) (q! "yield") = true ∧ m ≤ p ∧
    AllChr c m p (fun ch => u.isSpace ch = true) ∧ e = p + 4 ∧ e ≤ c.length ∧
    slice c p e = q! "from"

/-- What the text of a token of each kind looks like (`stack`, `ident`: lexer modes and heredoc
identifier when the token starts; `True` for kinds whose extent is described elsewhere). -/
def TokSpec (u : CharClass) (c : QString) (stack : List St) (ident : QString) (b e : Nat) :
    Tok → Prop
  | .WHITESPACE => WhitespaceSpec u c b e
  | .VARIABLE => VariableSpec u c b e
  | .INLINE_HTML => stack.head? = some .Html ∧ InlineHtmlSpec c b e ∧
      (chr c b = c! '<' ∧ chr c (b + 1) = c! '?' → XmlAt u c b)
  | .OPEN_TAG => stack.head? = some .Html ∧ OpenTagSpec u c b e
  | .OPEN_TAG_WITH_ECHO => stack.head? = some .Html ∧ OpenTagEchoSpec c b e
  | .COMMENT => LineCommentSpec c b e ∨ (BlockCommentSpec c b e ∧ ¬ DocOpen u c b) ∨
      (OpenBlockComment c b ∧ e = c.length + 2)
  | .DOC_COMMENT => LineDocSpec u c b e ∨ (BlockCommentSpec c b e ∧ DocOpen u c b) ∨
      (OpenBlockComment c b ∧ e = c.length + 2)
  | .CONSTANT_ENCAPSED_STRING => StringLiteralSpec u c b e
  | .INT_CAST => CastSpec u c b e .INT_CAST
  | .DOUBLE_CAST => CastSpec u c b e .DOUBLE_CAST
  | .STRING_CAST => CastSpec u c b e .STRING_CAST
  | .ARRAY_CAST => CastSpec u c b e .ARRAY_CAST
  | .OBJECT_CAST => CastSpec u c b e .OBJECT_CAST
  | .BOOL_CAST => CastSpec u c b e .BOOL_CAST
  | .UNSET_CAST => CastSpec u c b e .UNSET_CAST
  | .LPAREN => e = b + 1 ∧ chr c b = c! '(' ∧ ∀ e' t, ¬ CastSpec u c b e' t
  | .END_HEREDOC => HereEndSpec c ident b e
  | .END_NOWDOC => HereEndSpec c ident b e
  | .LNUMBER => IntLiteralSpec u c b e
  | .STATIC => WordSpec u c b e ∧ ciEq u (slice c b e) (q! "static") = true
  | .YIELD => WordSpec u c b e ∧ ciEq u (slice c b e) (q! "yield") = true
  | .YIELD_FROM => YieldFromSpec u c b e
  | .ENCAPSED_AND_WHITESPACE => EncapsedSpec u c (strQuote stack) b e
  | .CLOSE_TAG => chr c b = c! '?' ∧ chr c (b + 1) = c! '>' ∧ e = b + 2
  | _ => True

end KPhp
