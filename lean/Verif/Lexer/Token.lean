import Verif.Chars
/-! Token kinds of the lexer (parser/php.g:223-288, the `%token` declarations) -/
namespace KPhp

/-- Token kinds produced by the lexer (parser/php.g, `%token` declarations).  Kind `0`/`EOF` is the
separate outcome `Out.eof` of the model. -/
inductive Tok where
  | WHITESPACE | COMMENT | DOC_COMMENT | INLINE_HTML | OPEN_TAG | OPEN_TAG_WITH_ECHO | CLOSE_TAG
  | LNUMBER | DNUMBER | VARIABLE | DOLLAR | RBRACE | LBRACE | RPAREN | LPAREN
  | INT_CAST | DOUBLE_CAST | STRING_CAST | ARRAY_CAST | OBJECT_CAST | BOOL_CAST | UNSET_CAST
  | RBRACKET | LBRACKET | COMMA | AT | IS_NOT_IDENTICAL | IS_NOT_EQUAL | BANG
  | START_HEREDOC | START_NOWDOC | END_HEREDOC | END_NOWDOC | SL_ASSIGN | SL | SPACESHIP
  | IS_SMALLER_OR_EQUAL | IS_SMALLER | SR_ASSIGN | SR | IS_GREATER_OR_EQUAL | IS_GREATER
  | TILDE | PAAMAYIM_NEKUDOTAYIM | COLON | NULL_COALESCE | QUESTION | OBJECT_OPERATOR
  | MOD_ASSIGN | MOD | DIV_ASSIGN | DIV | XOR_ASSIGN | BIT_XOR | MUL_ASSIGN | EXP_ASSIGN | EXP | MUL
  | BOOLEAN_OR | OR_ASSIGN | BIT_OR | BOOLEAN_AND | AND_ASSIGN | BIT_AND | INC | PLUS_ASSIGN | PLUS
  | DEC | MINUS_ASSIGN | MINUS | CONCAT_ASSIGN | ELLIPSIS | CONCAT | BACKSLASH | SEMICOLON
  | CONSTANT_ENCAPSED_STRING | DOUBLE_QUOTE | BACKTICK | IS_IDENTICAL | IS_EQUAL | DOUBLE_ARROW
  | ASSIGN | ECHO | INCLUDE | INCLUDE_ONCE | REQUIRE | REQUIRE_ONCE | EVAL | PRINT | ABSTRACT
  | BREAK | CASE | CATCH | CLASS | CONST | CONTINUE | DEFAULT | DO | ELSE | EXTENDS | FINAL | FOR
  | IF | IMPLEMENTS | INSTANCEOF | INSTEADOF | INTERFACE | TRAIT | NEW | PRIVATE | PROTECTED
  | PUBLIC | RETURN | STATIC | SWITCH | THROW | TRY | FINALLY | WHILE | CLONE | EXIT | ELSEIF
  | ENDIF | ENDWHILE | ENDFOR | FOREACH | ENDFOREACH | DECLARE | ENDDECLARE | AS | ENDSWITCH
  | FUNCTION | USE | GOTO | GLOBAL | VAR | UNSET | ISSET | EMPTY | HALT_COMPILER | LIST | ARRAY
  | CLASS_C | TRAIT_C | METHOD_C | FUNC_C | LINE | FILE | DIR | LOGICAL_OR | LOGICAL_AND
  | LOGICAL_XOR | NAMESPACE | NAMESPACE_C | CALLABLE | VOID | YIELD_FROM | YIELD | STRING
  | DOLLAR_OPEN_CURLY_BRACES | CURLY_OPEN | ENCAPSED_AND_WHITESPACE | NUM_STRING | STRING_VARNAME
  | INVALID
  deriving DecidableEq, Repr, Inhabited

end KPhp
