{"id": "C01", "title": "Tokens tile the source", "statement": "The successive tokens returned by the lexer are contiguous: the first begins at offset 0 and every further token begins exactly where the previous one ended, so the concatenation of the token texts is a prefix of the source; no character is skipped, duplicated or reordered.", "quantifier": "all UTF-16 texts, both start modes (HTML / PHP), any number of calls of nextTokenKind", "why_tests_cant": "a test fixes finitely many texts; a gap or overlap can be hidden in any combination of the 11 lexer states and branches", "anchors": ["parser/phplexer.cpp: Lexer::nextTokenKind, tokenBegin, tokenEnd"]}
{"id": "C02", "title": "No text is lost before end of file", "statement": "When the lexer reports end of file for a text in which __halt_compiler was not used and no block comment is left open, the concatenated token texts are the whole text.", "quantifier": "all texts and all lexer runs that reach end of file", "why_tests_cant": "needs every path on which a branch may stop early or jump over the end", "anchors": ["parser/phplexer.cpp: Lexer::nextTokenKind"]}
{"id": "C03", "title": "Tokenising terminates", "statement": "For every text the lexer reports end of file after finitely many calls (bounded by a linear function of the text length), so opening a file can never hang the IDE.", "quantifier": "all texts, both start modes", "why_tests_cant": "non-termination on one input class is invisible to tests on other inputs; the bound must hold for every text", "anchors": ["parser/phplexer.cpp: Lexer::nextTokenKind (StringVariable/String/StringHeredoc/StringBacktick branch)", "parser/php.g: Parser::tokenize"]}
{"id": "C04", "title": "The lexer never reads outside the text", "statement": "While lexing, only the characters of the text and its single NUL terminator are read.", "quantifier": "all texts, both start modes, any number of calls", "why_tests_cant": "an out-of-bounds read usually has no visible effect in a test run", "anchors": ["parser/phplexer.cpp: Lexer::nextTokenKind, isHereNowDocEnd, isEscapedWithBackslash, processVariable"]}
{"id": "C05", "title": "The lexer mode stack never underflows", "statement": "Whatever the text, leaving a string, heredoc, brace, bracket or PHP section always returns to the mode that was active when it was entered; the mode stack never underflows and the error mode is never entered.", "quantifier": "all texts, both start modes, any number of calls", "why_tests_cant": "requires an invariant over all nestings of quotes, heredocs, braces and tags, of unbounded depth", "anchors": ["parser/phplexer.cpp: pushState, popState, state, nextTokenKind"]}
{"id": "C06", "title": "End of file is stable", "statement": "Once the lexer has reported end of file, each further call reports end of file again.", "quantifier": "all texts, all numbers of further calls", "why_tests_cant": "quantifies over all later calls and all ways end of file can be reached", "anchors": ["parser/phplexer.cpp: Lexer::nextTokenKind"]}
{"id": "C07", "title": "__halt_compiler(); stops the lexer", "statement": "After the token sequence __halt_compiler ( ) ; (whitespace and comments allowed between) every further call reports end of file, and the lexer stops early for no other token sequence.", "quantifier": "all token histories", "why_tests_cant": "a history property: the counter must survive any trivia and be reset by any other token", "anchors": ["parser/phplexer.cpp: m_haltCompiler handling at the end of nextTokenKind"]}
{"id": "C08", "title": "Every line break is recorded", "statement": "The line table receives exactly the offsets of the line breaks lying inside the tokens produced, so line numbers of all reported positions are right.", "quantifier": "all texts; every token kind", "why_tests_cant": "each branch maintains the table itself; a missing entry shifts all later lines, for unboundedly many shapes of input", "anchors": ["parser/phplexer.cpp: createNewline calls in nextTokenKind"]}
{"id": "C09", "title": "Keyword recognition is case-insensitive and whole-word", "statement": "The token kind of an identifier-like word does not depend on the letter case of the word, and a word that is not, ignoring case, in the keyword list is never returned as a keyword.", "quantifier": "all words in all contexts", "why_tests_cant": "infinitely many words and case variants", "anchors": ["parser/phplexer.cpp: keyword chain in nextTokenKind"]}
{"id": "C10", "title": "Text outside PHP tags is inline HTML", "statement": "In HTML mode every token is an open tag, an open-echo tag or inline HTML; an inline-HTML token never runs over the beginning of a later `<?`, and `<?xml` is not an open tag.", "quantifier": "all texts and positions in HTML mode", "why_tests_cant": "all lengths and positions of markup", "anchors": ["parser/phplexer.cpp: HtmlState branch"]}
{"id": "C11", "title": "A close tag always returns to HTML", "statement": "A `?>` close tag token puts the lexer back in HTML mode from any nesting depth of braces and strings.", "quantifier": "all texts, all nesting depths", "why_tests_cant": "unbounded nesting depth", "anchors": ["parser/phplexer.cpp: '?' branch of nextTokenKind"]}
{"id": "C12", "title": "String literals end at the first unescaped quote", "statement": "A single-quoted string literal extends exactly to the first quote preceded by an even number of backslashes, or to the end of text when there is none; a double-quoted literal returned as one token contains no unescaped quote and no interpolated variable.", "quantifier": "all texts", "why_tests_cant": "all lengths of backslash runs", "anchors": ["parser/phplexer.cpp: '\\'' and '\"' branches, isEscapedWithBackslash"]}
{"id": "C13", "title": "Comment extents", "statement": "A block comment ends at the first `*/` after its opening; a one-line comment ends at its line break, before `?>`, or at end of text, whichever comes first, and contains none of them before its end; only `///` doc comments continue over several lines.", "quantifier": "all texts", "why_tests_cant": "all lengths and combinations of terminators", "anchors": ["parser/phplexer.cpp: '/' and '#' branches"]}
{"id": "C14", "title": "Whitespace tokens are maximal", "statement": "A whitespace token consists of whitespace only and is followed by a non-whitespace character or the end of text, so two whitespace tokens are never adjacent.", "quantifier": "all texts", "why_tests_cant": "all run lengths", "anchors": ["parser/phplexer.cpp: whitespace branch"]}
{"id": "C15", "title": "Variable tokens are maximal names", "statement": "A variable token is a dollar sign followed by a non-empty maximal run of identifier characters not starting with a digit.", "quantifier": "all texts, in code and inside strings", "why_tests_cant": "all names and contexts", "anchors": ["parser/phplexer.cpp: processVariable"]}
{"id": "C16", "title": "Integer and float literals", "statement": "A number token is an integer literal only if it has neither point nor exponent and its value fits a signed 64-bit integer; every decimal literal whose value does not fit is returned as a float literal.", "quantifier": "all digit strings", "why_tests_cant": "all magnitudes and lengths", "anchors": ["parser/phplexer.cpp: number branch"]}
{"id": "C17", "title": "Heredoc and nowdoc closing identifier", "statement": "A heredoc or nowdoc end token is exactly the identifier given at its start and is followed by a line break or by `;` and a line break; while inside, the remembered identifier does not change, whatever is nested.", "quantifier": "all texts and nestings", "why_tests_cant": "all identifiers, bodies and nested interpolations", "anchors": ["parser/phplexer.cpp: isHereNowDocEnd, StringHeredoc, StringNowdoc branches"]}
{"id": "C18", "title": "Cast recognition", "statement": "A parenthesised word, with optional whitespace inside the parentheses, is one cast token iff the word is, ignoring case, one of the listed cast types; otherwise only the parenthesis is consumed.", "quantifier": "all texts", "why_tests_cant": "all spacings, cases and words", "anchors": ["parser/phplexer.cpp: '(' branch"]}
{"id": "C19", "title": "The parser's token stream has no trivia and one end marker", "statement": "After tokenising, the stream contains no whitespace, comment or doc-comment token and exactly one end-of-file token, which is the last one; the other tokens are the lexer's non-trivia tokens in order.", "quantifier": "all lexer token sequences", "why_tests_cant": "all interleavings of trivia, of every length", "anchors": ["parser/php.g: Parser::tokenize"]}
{"id": "C20", "title": "Doc comments attach to the next token", "statement": "The doc comment attached to a token is the last doc comment of the trivia immediately before it; a token with no doc comment directly before it (since the previous token) has none.", "quantifier": "all token sequences", "why_tests_cant": "all interleavings of comments and tokens", "anchors": ["parser/php.g: Parser::tokenize", "parser/parsesession.cpp: ParseSession::docComment"]}
{"id": "C21", "title": "Doc tag search", "statement": "Searching a doc comment for a tag yields only non-empty words containing no whitespace that directly follow the tag name, in order of appearance, and at most one word when only one is asked for.", "quantifier": "all comment texts and tag names", "why_tests_cant": "all comments", "anchors": ["duchain/builders/typebuilder.cpp: TypeBuilder::findInDocComment, injectParseType"]}
{"id": "C22", "title": "Doc type expressions", "statement": "Interpreting a doc type is independent of the case of the built-in names; `T[]` is an array of T; a union `A|B|...` is always an unsure type containing exactly the types of its members, in order of first occurrence and without duplicates.", "quantifier": "all doc type words", "why_tests_cant": "all unions of any length", "anchors": ["duchain/builders/typebuilder.cpp: parseType, parseSimpleType, injectTypeDeclaration"]}
{"id": "C23", "title": "Type hints: nullability and unions", "statement": "The type derived from a (union) type hint offers exactly the listed member types, plus null iff some member is marked nullable; a single non-nullable hint is the plain type; an unresolvable hint gives no type.", "quantifier": "all type-hint lists of any length and all class environments", "why_tests_cant": "all unions of any length", "anchors": ["duchain/helper.cpp: determineTypehintFromList, determineGenericTypeHint"]}
{"id": "C24", "title": "Parameter types", "statement": "A parameter always gets a type: hint first, then default value, then doc comment, then mixed; a null default adds null to the hint; by-reference wraps the type in a reference and variadic then wraps it in an array.", "quantifier": "all parameter shapes", "why_tests_cant": "all combinations of hints, defaults, docs and modifiers", "anchors": ["duchain/helper.cpp: parameterType, propertyType, returnType"]}
{"id": "C25", "title": "Class-hint detection agrees with type resolution", "statement": "A type name is treated as a class hint iff it is none of the built-in hint names that type resolution itself handles, regardless of letter case.", "quantifier": "all names", "why_tests_cant": "all names", "anchors": ["duchain/helper.cpp: isGenericClassTypehint, determineGenericTypeHint"]}
{"id": "C26", "title": "Namespaced identifiers are case-folded", "statement": "Names written in different letter case denote the same class, function or namespace; constants keep the case of the last component only; and an explicitly global name never has the current namespace prepended.", "quantifier": "all identifier sequences and scopes", "why_tests_cant": "all lengths and cases", "anchors": ["duchain/helper.cpp: identifierForNamespace, identifierWithNamespace, findDeclarationImportHelper"]}
{"id": "C27", "title": "Include resolution order", "statement": "An include path resolves to the remote URL itself, else the file next to the current document, else in the projects containing the document, else in the other projects in order; a result is returned iff some candidate exists (or it is remote).", "quantifier": "all paths, documents, project lists and file systems", "why_tests_cant": "all environments", "anchors": ["duchain/helper.cpp: findIncludeFile, getIncludeFileForNode"]}
{"id": "C28", "title": "Completion code model counts references", "statement": "For any history of add, update and remove calls, an identifier is listed for a file iff it was added more often than removed since it was last absent, with the most recent name and kind; each identifier is listed at most once, invalid identifiers never, and no other file is affected.", "quantifier": "all operation histories", "why_tests_cant": "unbounded histories", "anchors": ["duchain/completioncodemodel.cpp: addItem, updateItem, removeItem, items"]}
{"id": "C29", "title": "Inheritance stays acyclic", "statement": "Whatever classes declare as their base, the class import graph the builder creates never contains a cycle.", "quantifier": "all sequences of class declarations", "why_tests_cant": "unbounded histories of declarations, including mutually recursive ones", "anchors": ["duchain/builders/declarationbuilder.cpp: addBaseType"]}
{"id": "C30", "title": "Variable type inference accumulates", "statement": "After any sequence of assignments one variable is declared, and its type offers exactly the assigned types, each once and in the order of first assignment, mixed being replaced by the first proper type and references staying references; $this is never declared.", "quantifier": "all assignment sequences", "why_tests_cant": "unbounded sequences", "anchors": ["duchain/builders/declarationbuilder.cpp: declareVariable", "duchain/builders/typebuilder.cpp: visitStatement"]}
{"id": "C31", "title": "Inferred return types", "statement": "A declared return type (hint or doc comment) is kept whatever is returned; otherwise the inferred return type of a function offers exactly the alternatives of the types of its return statements (references ignored, leading unknown ones forgotten), each once; callable and a real function give callable; a function that returns nothing is void.", "quantifier": "all sequences of return statements", "why_tests_cant": "unbounded sequences", "anchors": ["duchain/builders/typebuilder.cpp: visitStatement"]}
{"id": "C32", "title": "Class member modifier diagnostics", "statement": "With error reporting on, a newly declared method gets no diagnostic iff it obeys the rules (interface methods: no final/abstract, no body; abstract methods: class abstract or trait, no body, not final; others: a body), and each diagnostic is given exactly when its text is true of the declaration; access, static, final and abstract are exactly those written, in any order and repetition; likewise for constants and properties.", "quantifier": "all modifier combinations", "why_tests_cant": "all combinations", "anchors": ["duchain/builders/declarationbuilder.cpp: visitClassStatement"]}
{"id": "C33", "title": "Reserved names cannot be class names", "statement": "A class, interface or trait name is reported as reserved iff it equals one of string, bool, int, float, iterable, object, null, true, false ignoring case.", "quantifier": "all names", "why_tests_cant": "all names", "anchors": ["duchain/builders/declarationbuilder.cpp: isReservedClassName"]}
{"id": "C34", "title": "Override completion offers only overridable members", "statement": "The override list never offers private or final members, nor a member already (re)declared nearer in the hierarchy, and offers each method name once.", "quantifier": "all class hierarchies", "why_tests_cant": "hierarchies of any depth and size", "anchors": ["completion/context.cpp: ClassMemberChoose part of completionItems"]}
{"id": "C35", "title": "Inheritance completion excludes ancestors and itself", "statement": "Completion after extends/implements never offers the class itself, anything it already (transitively) extends or implements; the computation terminates on every import graph.", "quantifier": "all class graphs, including cyclic ones", "why_tests_cant": "graphs of any size", "anchors": ["completion/context.cpp: forbidIdentifier"]}
{"id": "C36", "title": "Modifier keyword completion", "statement": "Completion inside a class never offers a modifier already written, nor one conflicting with those written.", "quantifier": "all modifier sequences", "why_tests_cant": "all sequences", "anchors": ["completion/context.cpp: getMethodTokens"]}
{"id": "C37", "title": "Enclosing call argument search", "statement": "Skipping other arguments backwards from the cursor ends on the opening parenthesis that matches the current argument list, never inside a nested call, and always stays within the token buffer.", "quantifier": "all token buffers", "why_tests_cant": "all nestings", "anchors": ["completion/context.cpp: removeOtherArguments, TokenAccess"]}
{"id": "C38", "title": "Member completion respects visibility", "statement": "After -> and :: only members whose visibility permits access from the current class and whose staticness fits are offered.", "quantifier": "all members, contexts and access operators", "why_tests_cant": "all combinations", "anchors": ["completion/context.cpp: memberAccessCompletionItems, completionItems"]}
{"id": "C39", "title": "Renaming changes every use exactly once", "statement": "Applying a rename visits the context tree and replaces every non-empty use of the declaration exactly once, keeps the dollar sign of variables, and stops at the first failing change.", "quantifier": "all context trees", "why_tests_cant": "trees of any depth", "anchors": ["codegen/refactoring.cpp: Refactoring::applyChangesToVariables / applyChanges"]}
{"id": "C40", "title": "PHPUnit result classification", "statement": "A test suite run is Failed if PHPUnit exits with 1 or, on exit code 0, the last output line about some case says it failed; Passed on exit code 0 without such a case; Error otherwise; each output line updates exactly the case it names.", "quantifier": "all outputs and exit codes", "why_tests_cant": "all outputs", "anchors": ["testprovider/phpunitrunjob.cpp: rowsInserted, processFinished"]}
{"id": "C41", "title": "A document is rescheduled for missing includes at most once", "statement": "Parsing a document with unresolved identifiers reschedules it at most once per request, with a worse (or equal worst) priority, and never after it was already rescheduled; whatever the order of requests, merges and runs there are at most two runs per request; the stored features are those wanted and those it had, without internal flags.", "quantifier": "all schedules of parse runs", "why_tests_cant": "all histories of parse jobs", "anchors": ["phpparsejob.cpp: ParseJob::run"]}
{"id": "C42", "title": "Doc file names", "statement": "The local documentation page for a declaration depends only on the kind of declaration and its name ignoring case; its file name is lower case with underscores replaced by dashes. Remote pages keep the name as written. A page is shown only for internal declarations and, if local, only if the file exists.", "quantifier": "all names", "why_tests_cant": "all names", "anchors": ["docs/phpdocsplugin.cpp: getDocumentationFilename, documentationForDeclaration"]}
{"id": "C43", "title": "Keyword completion templates", "statement": "Executing a keyword completion inserts the template with indentation and puts the cursor exactly where the cursor marker was.", "quantifier": "all templates and indentations", "why_tests_cant": "all templates", "anchors": ["completion/keyworditem.cpp: KeywordItem::execute"]}
{"id": "C44", "title": "Word under cursor", "statement": "The word range computed for the cursor contains the cursor and covers exactly the maximal run of letters and underscores around it; it is empty if the cursor is on no such character; magic constants are recognised by it.", "quantifier": "all lines and columns", "why_tests_cant": "all lines and columns", "anchors": ["phplanguagesupport.cpp: wordUnderCursor"]}
{"id": "C45", "title": "Plain text of interpolated strings", "statement": "Inside double-quoted, backtick and heredoc strings, a plain-text token never contains the start of an interpolation (`$name`, `{$`, `${`) or the closing quote, except escaped by a backslash.", "quantifier": "all texts", "why_tests_cant": "all string bodies", "anchors": ["parser/phplexer.cpp: Lexer::nextTokenKind (String state), isEscapedWithBackslash"]}
{"id": "C46", "title": "Parameter diagnostics", "statement": "For a parameter list of any length, exactly the variadic parameters with a default, the class-hinted parameters with a non-null default, and the variadic parameters that are not last are reported; and the function records exactly one default entry per parameter.", "quantifier": "all parameter lists", "why_tests_cant": "lists of any length", "anchors": ["duchain/builders/declarationbuilder.cpp: visitParameterList, visitParameter"]}
{"id": "C47", "title": "Trait composition", "statement": "Using traits never removes or changes declarations of the class; everything added stands for a member of one of the traits with its name, access and staticness; own members win; afterwards every member of every found trait is provided under its name or an alias; collisions are reported exactly when two traits provide the same method and insteadof does not resolve it.", "quantifier": "all classes, lists of traits and alias statements", "why_tests_cant": "any number of traits and members", "anchors": ["duchain/builders/declarationbuilder.cpp: importTraitMethods, createTraitAliasDeclarations", "duchain/declarations/traitmethodaliasdeclaration.cpp: isOverriding"]}
{"id": "C48", "title": "Kind of completion", "statement": "After `class X implements A, B,` only interfaces are offered, and none of the names already written in the list; after `interface X extends` likewise; after the first name of `extends`/`implements` the completion has the corresponding kind; inside the arguments of a call, completion knows the called function.", "quantifier": "all lists of names, any number of them, any number of arguments", "why_tests_cant": "lists of any length", "anchors": ["completion/context.cpp: CodeCompletionContext::CodeCompletionContext, identifiersFromTokens, removeOtherArguments"]}
{"id": "C49", "title": "Completion stays inside the text", "statement": "Whatever text stands before the cursor, analysing it for completion never reads or moves outside of the tokens of that text.", "quantifier": "all texts before the cursor", "why_tests_cant": "an out-of-range access depends on the exact shape of the text; all texts must be covered", "anchors": ["completion/context.cpp: TokenAccess, CodeCompletionContext::CodeCompletionContext, evaluateExpression"]}
{"id": "C50", "title": "Expression before the cursor and enclosing calls", "statement": "For member access and calls, the expression evaluated is the text between the start of the statement or of the current argument and the cursor; the chain of enclosing call contexts is finite, each call standing strictly before the previous one and being preceded by a name.", "quantifier": "all texts before the cursor and every nesting depth", "why_tests_cant": "nesting of any depth, expressions of any length", "anchors": ["completion/context.cpp: CodeCompletionContext::evaluateExpression"]}
{"id": "C51", "title": "Text inserted to override or implement a member", "statement": "Executing an override completion inserts the modifiers typed so far in their order, exactly one access modifier, static and function as needed, the name, all parameters with type hint and own default value, and a body that calls the parent method with all parameters and returns its value where there is one.", "quantifier": "all members, typed modifiers and lines", "why_tests_cant": "all combinations of modifiers, parameters and defaults", "anchors": ["completion/implementationitem.cpp: ImplementationItem::execute", "completion/helpers.cpp: createArgumentList"]}
{"id": "C52", "title": "Discovery of PHPUnit test suites", "statement": "For every non-abstract class of a parsed file that derives from the PHPUnit test case class the suites added are the nearest descendants (or itself) in a project that have own test methods, each with exactly its methods whose name starts with test.", "quantifier": "all class hierarchies", "why_tests_cant": "hierarchies of any depth", "anchors": ["testprovider/phpunitprovider.cpp: processContext, processTestCaseDeclaration"]}
{"id": "C53", "title": "Operators and literal kinds are read by longest match", "statement": "In PHP code, where no comment, string, number, name, variable, cast, open or close tag begins, the token returned is the longest PHP operator or punctuation that begins at the position, with its own kind; where one of those elements begins, the token has the kind of that element.", "quantifier": "all source texts and all positions a tokenisation reaches in PHP code", "why_tests_cant": "every context of every operator, with any following text", "anchors": ["parser/phplexer.cpp: Lexer::nextTokenKind", "parser/tokens"]}
{"id": "C54", "title": "Kind of completion offered after each token", "statement": "The kind of items offered (anything, members, files, namespaces, classes, exceptions, nothing) is determined by the last token before the cursor and, after a string, a backslash or a parenthesis, by the tokens in front of it: e.g. files exactly inside an include expression, the qualified name written so far after a backslash, nothing inside comments.", "quantifier": "all texts before the cursor", "why_tests_cant": "all sequences of tokens of any length before the cursor", "anchors": ["completion/context.cpp: CodeCompletionContext::CodeCompletionContext"]}
{"id": "C55", "title": "The class before ::", "statement": "After `self::` the static members of the enclosing class are offered, after `parent::` those of its first base that is a class, after another name those of the class the name denotes; nothing is offered after `self::` or `parent::` outside a class or without a parent.", "quantifier": "all names before `::`, all enclosing scopes and class hierarchies", "why_tests_cant": "every nesting of scopes and every list of bases", "anchors": ["completion/context.cpp: CodeCompletionContext::evaluateExpression"]}
{"id": "C56", "title": "Types of expressions", "statement": "The type reported for an expression follows the documented rules: a literal, cast, comparison, concatenation, arithmetic, array, closure or `new` expression has the type of its construct; a variable, constant, call or member access has the type of the declaration it denotes (of its result, for calls), along chains of member accesses of any length, where a type with alternatives counts as a class if exactly one alternative is a class. A closure returns what its hint says, otherwise the type of its last return, otherwise void; nested closures do not influence each other.", "quantifier": "all expressions of any nesting, all visible declarations", "why_tests_cant": "expressions nest without bound and every combination of constructs and declarations counts", "anchors": ["duchain/expressionvisitor.cpp: ExpressionVisitor::visit*", "duchain/expressionevaluationresult.cpp: ExpressionEvaluationResult"]}
{"id": "C57", "title": "Uses reported for an expression", "statement": "Every class, namespace, function, constant, variable and member name occurring anywhere in an expression is reported as a use of the declaration the name denotes there (or of none, if it denotes none), except where a variable or property is being assigned for the first time; and nothing else is reported.", "quantifier": "all expressions of any nesting, all visible declarations", "why_tests_cant": "occurrences at any depth inside calls, indices, closures and strings", "anchors": ["duchain/expressionvisitor.cpp: ExpressionVisitor::usingDeclaration and callers, buildNamespaceUses, processVariable"]}
{"id": "C58", "title": "An expression is unresolved iff it contains an unknown function, class of a static call or class name in a string", "statement": "The result of evaluating an expression is marked as having unresolved names exactly if somewhere in it an unknown function is called, a static method of an unknown class is called, or a string outside of the arguments of define() consists of a word which is not the name of a class; the name given to define() is never looked at.", "quantifier": "all expressions of any nesting, all visible declarations", "why_tests_cant": "occurrences at any depth; the mark must survive the evaluation of the rest", "anchors": ["duchain/expressionvisitor.cpp: visitFunctionCall, visitCommonScalar", "duchain/expressionevaluationresult.cpp: setHadUnresolvedIdentifiers"]}
{"id": "C59", "title": "Expressions are grouped by the table of precedence", "statement": "Parsing an expression always ends. It is accepted as a whole exactly if its tokens are the text of a tree in which operators are grouped by the table of precedence and associativity (or, xor, and, print, assignment, ?:, ??, ||, &&, |, ^, &, equality, comparison and instanceof, shifts, + - ., * / % **, unary operators and casts, ++ --, then access paths); this tree is unique and is the one returned; no token is lost or reordered.", "quantifier": "all sequences of tokens of the modelled kinds, of any length and nesting", "why_tests_cant": "any combination and depth of operators", "anchors": ["parser/php.g:357-691, 888-936: rules expr to commonScalar"]}
{"id": "C60", "title": "An assignment needs a variable on its left side", "statement": "An assignment whose left side contains no variable and no call is reported as an error, whatever follows; in an accepted assignment the left side contains a variable or call.", "quantifier": "all expressions of any nesting on both sides, all assignment operators", "why_tests_cant": "the check uses a flag set while any operand is parsed", "anchors": ["parser/php.g:374-427: assignmentExpression, assignmentExpressionCheckIfVariable", "parser/php.g:569: varExpressionIsVariable"]}
{"id": "C61", "title": "The scopes of a file are those of its text", "statement": "Building the declarations of a file visits its tree twice and always ends with every scope closed. There is exactly one scope for every namespace, class, parameter list, list of captured variables and body in the text, in the order of the text, nested as in the text; a body sees the parameters and captured variables of its own function and of no other. Everything in the file is declared or used in the scope of the constructs around it, and both visits agree about it.", "quantifier": "all files: any nesting of closures, functions, classes and methods, any sequence of namespace declarations and blocks", "why_tests_cant": "unbounded nesting and mixing of constructs; the second visit relies on what the first wrote into the nodes", "anchors": ["duchain/builders/contextbuilder.cpp:92-125, 244-427: ContextBuilder", "duchain/builders/predeclarationbuilder.cpp:35-180: PreDeclarationBuilder", "duchain/builders/declarationbuilder.cpp:146-235, 853-897, 1581-1595: DeclarationBuilder"]}
{"id": "C62", "title": "Names are found from everywhere in their namespace", "statement": "A class or function declared at the level of a namespace belongs to exactly the namespace in force there (namespace A; until the next declaration, namespace A { } for its block). A class or function name written anywhere in a file - in methods, functions and closures of any depth - is looked up as the full name it means in the namespace in force there, and finds the first declaration of the file with this full name, whether it stands before or behind.", "quantifier": "all files, all places in them, all spellings of the name, any imported files", "why_tests_cant": "any sequence of namespaces and any nesting around the name", "anchors": ["duchain/builders/contextbuilder.cpp:366-427: openNamespace, closeNamespace", "duchain/helper.cpp:165-257: findDeclarationImportHelper", "duchain/helper.cpp: identifierWithNamespace, identifierForNamespace"]}
{"id": "C63", "title": "A variable denotes a variable of its own function", "statement": "A variable read in the body of a function, method or closure denotes a superglobal or something introduced in the text of that very function: its parameters, captured variables, or a statement directly in its body; it never denotes a variable of the file, of a function around it or of another function. A parameter, or a variable that is assigned before, is always found; a variable introduced at a single place denotes the declaration at this place; a parameter stays what the variable denotes after it is assigned. $this directly in a method denotes the class of the method.", "quantifier": "all files, all functions at any nesting, all variables and all positions", "why_tests_cant": "any combination of scopes, of statements before and behind, and of equal names in other scopes", "anchors": ["duchain/expressionvisitor.cpp:42-118, 1031-1046: processVariable, findVariableDeclaration", "duchain/builders/declarationbuilder.cpp:816-851, 899-925, 1006-1167, 1411-1550: declareVariable, declareFoundVariable, visitLexicalVar, visitGlobalVar"]}
{"id": "C64", "title": "The uses of the parts of a name and the reports for them", "statement": "Every part of a written class name (base class, interface, trait, type hint, catch) or used name is shown as a use exactly once, in order: a part before the last one as the namespace or class named by the parts up to it (unless this part is its declaration), the last one as what the whole name stands for. 'Declaration not found' is reported at a part exactly if its use is linked to nothing, 'deprecated' exactly if it is linked to a deprecated declaration. A name that is known as PHP reads it is never reported and linked to that declaration; a name unknown in both readings is reported. Only if nothing is known under PHP's reading is the name taken as a global one.", "quantifier": "all names of any number of parts, all kinds of declarations, all contexts, namespaces, imported files and symbol tables", "why_tests_cant": "any number of parts, any set of known declarations, two readings of each name", "anchors": ["duchain/builders/usebuilder.cpp:199-207, 225-339: newCheckedUse, buildNamespaceUses, visitUseNamespaceOrUseGroupedNamespace, visitInnerUseNamespace", "duchain/helper.cpp:165-257: findDeclarationImportHelper"]}
{"id": "C65", "title": "Redeclared members and members declared by assignment", "statement": "In a class, a method is reported as redeclared exactly if a method of the same name (in any letter case) stands before it, a property exactly if a property of the same name stands before it or comes from a trait used before, a constant exactly if a constant of this name stands before it. Assigning $this->x in a method adds a property x to the class exactly if the class has none of this name.", "quantifier": "all files, all sequences of classes and interfaces, all sequences of members in them and of assignments in their methods", "why_tests_cant": "any number of classes and members in any order; the reports depend on what was seen before in the file", "anchors": ["duchain/builders/declarationbuilder.cpp:315-561, 1064-1158: visitClassStatement, visitClassVariable, visitClassConstantDeclaration, declareClassMember", "duchain/builders/predeclarationbuilder.cpp: visitClassVariable, m_upcomingClassVariables"]}
{"id": "C66", "title": "Redeclared classes, functions and constants", "statement": "A class, function or constant directly in a file is reported as redeclared only if the same was declared before in the file, and a constant, class or function is reported if it was declared before and its name is written in lower case (constants in any case).", "quantifier": "all files, all sequences and nestings of declarations, all names", "why_tests_cant": "any number of declarations between the two, any nesting of functions and classes, any letter case", "anchors": ["duchain/builders/declarationbuilder.cpp:222-235, 853-860, 927-958, 1336-1373: isGlobalRedeclaration, reportRedeclarationError"]}
{"id": "C67", "title": "A declaration has the type its own text gives it", "statement": "Whatever stands before it in the file, every declaration gets the type its own text says: a property that of its type hint, else of its @var comment, else of its value, else null; a class constant that of its value, marked constant; a parameter, static variable, assigned variable, function, closure, class, imported trait member its own; the value of a foreach the element type; the variable of a catch the class or the alternatives caught.", "quantifier": "all files: all sequences and nestings of classes, members, functions, closures, statements and comments", "why_tests_cant": "the type is handed over through members of the builder that keep what earlier text left behind; any text may stand before", "anchors": ["duchain/builders/typebuilder.cpp:206-271, 296-470, 551-645: parseDocComment, getTypeForNode, visitClassStatement, visitClassVariable, visitClassConstantDeclaration, visitCatchItem", "duchain/builders/declarationbuilder.cpp:153-163, 543-560, 646-688, 1472-1550: closeDeclaration"]}
{"id": "C68", "title": "Exactly the files of the grammar are free of syntax errors", "statement": "A file is read without a syntax error exactly if its tokens are the text of a file of the PHP grammar: statements, control structures in both notations, functions, classes, interfaces, traits with their members, namespaces, use, const and the statements without inner statements; and the syntax tree is the one of this text. No depth of nesting is refused.", "quantifier": "all sequences of tokens, all nestings of statements and declarations, any depth", "why_tests_cant": "infinitely many programs of any depth, and for refused ones no reading at all may exist", "anchors": ["parser/php.g:294-331 start, topStatement, innerStatementList", "parser/php.g:688-886 statement", "parser/php.g:956-1172 functions, classes, members"]}
{"id": "C69", "title": "A file has one reading; else belongs to the nearest if", "statement": "No text is the text of two different syntax trees. In if (a) if (b) x else y the else belongs to the second if, whatever the conditions and statements are; with braces around the inner if it belongs to the first; nowhere in a tree that was read does an else stand behind a branch that ends with an if without else.", "quantifier": "all files, all conditions and statements at any depth", "why_tests_cant": "ambiguity is a statement about all pairs of trees", "anchors": ["parser/php.g:688-692 statement", "parser/php.g:858-880 elseifList, elseSingle, newElseifList"]}
{"id": "C70", "title": "Files can be joined, wrapped and rewritten between notations", "statement": "If two texts are free of syntax errors, so is one behind the other, with the statements of both. Statements of a file may be put in braces, into a function body or a namespace block and taken out of braces again; only namespace declarations may not. Loops with braces and with : endwhile/endfor/endforeach/enddeclare are accepted with the same bodies, and so are if/else with both notations unless the first branch ends with an if without else.", "quantifier": "all pairs of files, all statement lists, all loops and bodies", "why_tests_cant": "all combinations of files of any size", "anchors": ["parser/php.g:294-331", "parser/php.g:688-704", "parser/php.g:817-880"]}
{"id": "C71", "title": "In a file without syntax error all brackets match", "statement": "In a file that is accepted every parenthesis, bracket and brace is closed by the one that belongs to it, the last opened first. So if a text is accepted, it is refused after any one of its brackets was removed, and after any bracket was added anywhere.", "quantifier": "all files, all brackets, all positions", "why_tests_cant": "all files and all positions in them", "anchors": ["parser/php.g (all rules with LPAREN, LBRACKET, LBRACE)"]}
{"id": "C72", "title": "What use imports", "statement": "A use statement binds the name behind as, or the last part of the imported name (lower case, except for constants), to the class, function or constant the name means; to a namespace if it means none. It is refused as having no effect exactly outside of namespaces for a one-part name without as, and as a conflict exactly when the name means a declaration written in the same scope of the same file; a reserved class name behind as is reported in any letter case. Every import either binds one name or gives one such error. Behind any sequence of imports each name finds what was bound to it, and other names find what they did before.", "quantifier": "all names, kinds, aliases, namespaces, environments, and all sequences of imports", "why_tests_cant": "all sequences of imports in all environments", "anchors": ["duchain/builders/declarationbuilder.cpp:1598-1686 visitUseStatement, visitUseNamespaceOrUseGroupedNamespace, visitNonGroupedUseNamespace", "duchain/builders/contextbuilder.cpp:190-202 identifierPairForNode"]}
{"id": "C73", "title": "Which variable an assignment or a list() element declares", "statement": "An assignment with = is to the first variable of its left side, read as $x, $x[..], $p->x or ..->p->x (with the name before the last -> as parent, never through an index), and an element of list() declares its first variable unless that is an array element; what stands in indices, arguments, nested assignments or on the right side does not change it, and neither does anything searched for before. So an assignment to a variable is to that variable.", "quantifier": "all expressions at any depth, all states the search can be in", "why_tests_cant": "all nestings of assignments, calls and lists in one another", "anchors": ["duchain/builders/declarationbuilder.cpp:49-119 getVariableIdentifier", "duchain/builders/declarationbuilder.cpp:985-1005 visitAssignmentExpression, visitVariable", "duchain/builders/declarationbuilder.cpp:1414-1440 visitAssignmentListElement, declareFoundVariable"]}
{"id": "C74", "title": "Arguments by reference and unpacked arguments", "statement": "A variable passed to a function the name of which is known is declared exactly if the parameter at the argument's own position is by reference; calls nested in arguments do not shift positions or functions, and unknown functions declare nothing. \"Cannot use positional argument after argument unpacking\" is reported for an argument exactly if it has no ... and the one before it has; so something is reported in a list exactly if some argument without ... stands behind one with it.", "quantifier": "all argument lists of any length and nesting, all functions", "why_tests_cant": "all nestings and lengths of argument lists", "anchors": ["duchain/builders/declarationbuilder.cpp:1297-1330 visitFunctionCall", "duchain/builders/declarationbuilder.cpp:1362-1412 visitFunctionCallParameterList, visitFunctionCallParameterListElement"]}
{"id": "C75", "title": "Assignments to members of objects", "statement": "Assigning to $o->x from outside of the class of $o and its subclasses, where nothing named x is visible, reports a private or protected x of the nearest base class that has one, and takes a public one without a report. Inside of the class or a subclass no access is ever reported; $this->x takes the class's own x, or an inherited one that is not private. A property is declared in the class of the object exactly if nothing suitable is found and the file declares none of this name further on. Objects of unknown class are left alone.", "quantifier": "all classes with any base classes and members, all places of code, all names", "why_tests_cant": "all class hierarchies and scopes", "anchors": ["duchain/builders/declarationbuilder.cpp:1169-1188 getClassContext", "duchain/builders/declarationbuilder.cpp:1190-1294 visitAssignmentExpressionEqual", "duchain/builders/declarationbuilder.cpp:592-605 declareClassMember"]}
{"id": "C76", "title": "Choosing a file completes the include statement", "statement": "When a file is chosen in include '…, require_once(\"… or the like (any letter case, perhaps with a parenthesis and dirname(__FILE__) .), the rest of the old name, the quotation mark, parentheses and the ; of the line are replaced by the name, the same quotation mark, ) if there is (, and one ;; what stands before and behind is kept. Without a ; only name and quotation mark are replaced; at a blank nothing is. Choosing the same file once more changes nothing. In any document the text before the word and all other lines are kept. After a directory the cursor is right behind its /.", "quantifier": "all documents, names, positions; every form of the statement's beginning", "why_tests_cant": "all texts around the cursor", "anchors": ["completion/includefileitem.cpp:16-87 IncludeFileItem::execute"]}
{"id": "C77", "title": "The files offered in an include", "statement": "In include '… the files and folders offered are exactly those the projects have in the directory that the text up to its last slash denotes (from the directory of the document, from the root, through . and ..), each once however many projects have it; .. besides in the root of a project where nothing is typed. The text with the offered name instead of the part behind the last slash includes exactly the file that was chosen; likewise behind dirname(__FILE__) . with nothing or a / typed.", "quantifier": "all project contents, directories and typed texts", "why_tests_cant": "all directories, texts and projects", "anchors": ["completion/context.cpp:1101-1184 completionItems"]}
{"id": "C78", "title": "To-do notes in comments", "statement": "Every line of a comment that contains one of the configured markers becomes one to-do hint, in order, with the line's text without slashes, stars and white space at both ends; no other line does. In a file none of the comments is left out. The hint's position is that of the note exactly if the note is in the first line of its comment.", "quantifier": "all texts, all lists of markers that are words, all comments", "why_tests_cant": "all comments and markers; a regular expression with backtracking over several lines", "anchors": ["parser/php.g:1205-1282 tokenize, extractTodosFromComment, setTodoMarkers", "parser/php.g:1290-1299 reportProblem"]}
{"id": "C79", "title": "Analysing a changed class again", "statement": "After any history of edits, the declarations of a class and the problems reported for them are those a first analysis of the last text gives: access, static, final and abstract of methods, properties, constants and members declared by assignment, kind and modifier of the class.", "quantifier": "all histories of versions of a class, all members and modifiers, with and without problem reporting", "why_tests_cant": "the result depends on the whole history of edits", "anchors": ["duchain/builders/declarationbuilder.cpp:290-425 visitClassStatement", "duchain/builders/declarationbuilder.cpp:562-690", "duchain/builders/predeclarationbuilder.cpp:35-117", "phpparsejob.cpp:101-124"]}
{"id": "C80", "title": "Text written for a chosen completion", "statement": "Choosing an offered declaration replaces exactly what was typed of its name at the cursor, a dollar sign included, by a text that means the declaration at this place: `$x`, `f`, `C`, `$this->m`, `self::$x`, `self::A`, and `m`, `$x`, `A` behind `->` and `::`; while the name is typed on, the list stays open and the range to replace grows with it.", "quantifier": "all lines, cursor columns, word characters, declarations, enclosing contexts and operators before the cursor", "why_tests_cant": "the text around the cursor, the declaration and its place are arbitrary", "anchors": ["completion/item.cpp:39-78 NormalDeclarationCompletionItem::declarationName", "completion/model.cpp:48-75 completionRange, shouldAbortCompletion", "completion/codemodelitem.cpp:78-90 execute"]}
{"id": "C81", "title": "Variables offered in an expression", "statement": "In an expression, every variable of the function that is written before the cursor is offered, each name once, and no variable of another function but superglobals.", "quantifier": "all nestings of contexts, all declarations in them, all cursor positions", "why_tests_cant": "whether a variable is offered depends on all declarations of all contexts around the cursor", "anchors": ["completion/context.cpp:1436-1475 CodeCompletionContext::completionItems", "completion/context.cpp:1654-1772 isValidCompletionItem"]}
{"id": "C82", "title": "Call tips", "statement": "For the calls around the cursor, from the innermost outwards, the signature shown is that of the function or method called, of the constructor (the nearest in the class and its bases) for a class, and of the closure for a variable; a call for which nothing is known does not suppress the others.", "quantifier": "all nestings of calls, all callees, class hierarchies and cursor positions", "why_tests_cant": "calls nest to any depth and constructors are inherited over any number of classes", "anchors": ["completion/context.cpp:1540-1590 CodeCompletionContext::completionItems", "completion/context.cpp:770-787"]}
{"id": "C83", "title": "Which parts of a file are analysed", "statement": "Every expression, static value, head of a function or class, list of caught types, `global`, `use` and list of traits written anywhere in a file is looked at for uses, once.", "quantifier": "all files the grammar accepts, of any nesting", "why_tests_cant": "statements nest to any depth, in all combinations", "anchors": ["parser/php.g:688-886 statement", "duchain/builders/usebuilder.cpp:51-198 UseBuilder", "duchain/builders/contextbuilder.cpp:244-400 ContextBuilder"]}
{"id": "C84", "title": "What a closure returns", "statement": "The return type of a closure is the declared one, else the type of what its own `return`s give (all of them), `Generator` if it contains a `yield`, and `void` without either; functions and closures inside of it, and the closures around it, do not matter.", "quantifier": "all bodies, of any nesting of statements, expressions, functions and closures", "why_tests_cant": "closures nest in expressions and statements to any depth", "anchors": ["duchain/expressionvisitor.cpp:221-283 visitClosure", "duchain/expressionvisitor.cpp:904-915 visitStatement", "duchain/expressionvisitor.cpp:182-196 visitVarExpression"]}
{"id": "C85", "title": "Constants of define()", "statement": "`define('X', …)` declares the constant `X`, in any spelling of `define`, and nothing if the name is not written as one string; the constant is global.", "quantifier": "all argument expressions, all places of the call, of any nesting", "why_tests_cant": "the first argument is any expression, and the call stands in any nesting of functions, classes and namespaces", "anchors": ["duchain/builders/declarationbuilder.cpp:1336-1379 DeclarationBuilder::visitFunctionCall", "duchain/helper.cpp:306-327 findCommonScalar"]}
{"id": "C86", "title": "yield outside of functions", "statement": "Exactly the `yield`s that stand in no body of a function, method or closure are reported.", "quantifier": "all files, of any nesting of functions, classes, closures and namespaces", "why_tests_cant": "functions, classes and closures nest to any depth", "anchors": ["duchain/builders/declarationbuilder.cpp:1687-1695 DeclarationBuilder::visitVarExpression"]}
{"id": "C87", "title": "The message of a syntax error shows the symbol, the token and its position", "statement": "Whatever the source text and the token at which parsing fails, the message of the error is the fixed sentence with the name of the expected symbol, the text of the current token, its kind and its start and end positions at their places, and the problem is reported at that token: its range starts at the token and ends one column after its last character.", "quantifier": "all token texts, symbol names, kinds, positions, token lists and stream positions; all behaviours of QChar::digitValue outside ASCII", "why_tests_cant": "the token text comes from the user's source; only a proof covers every text that QString::arg might reinterpret", "anchors": ["parser/php.g:315-326 (unexpected token)", "parser/php.g:1288-1321 Parser::reportProblem", "parser/php.g:1325-1352 Parser::expectedToken, expectedSymbol"]}
{"id": "C88", "title": "The tool tip of a magic constant ends and shows what encloses the position", "statement": "Hovering over a magic constant shows, at every position of every file, a value: the file, its directory, the line counted from 1, the innermost class around the position, the innermost function or method, the class and method for __METHOD__, the namespace; or the remark that there is none.", "quantifier": "all nestings of namespaces, classes, methods, functions and closures, all positions in them, all character classifications", "why_tests_cant": "the positions and nestings are unbounded; that the search for the method ends is a liveness property of a loop", "anchors": ["duchain/navigation/magicconstantnavigationcontext.cpp:20-119", "duchain/builders/contextbuilder.cpp:244-424 (contexts and their ranges)", "phplanguagesupport.cpp:143-173 (caller)"]}
{"id": "C89", "title": "The tool tip of a function or class is its declaration", "statement": "For every function the tool tip shows its return type (not for constructors and destructors), its name and all its parameters in order, each with its type, its name and its own default value, a variadic one in brackets with the type of its elements; names and default values are shown literally and cannot introduce markup. For every class it shows modifier, kind, name, the parent class and the interfaces in order.", "quantifier": "all functions with any number of parameters, types, names and default values; all classes with any number of interfaces", "why_tests_cant": "parameter lists are unbounded and the default values are matched by counting from the end of the list", "anchors": ["duchain/navigation/declarationnavigationcontext.cpp:44-109 htmlClass", "duchain/navigation/declarationnavigationcontext.cpp:147-223 htmlFunction", "duchain/builders/declarationbuilder.cpp:819-852 visitParameter"]}
{"id": "C90", "title": "The list of documented functions and classes", "statement": "The documentation list has, in the order of the file, every declaration of the functions file whose type is not constant, each class followed by its members; every function in it is shown by its name.", "quantifier": "all declaration lists, all return types, names and argument lists", "why_tests_cant": "the text of a return type is arbitrary (a doc comment decides it); only a proof says for which texts the two regular expressions leave the name", "anchors": ["docs/phpdocsmodel.cpp:58-125", "duchain/declarations/functiondeclaration.cpp:60-71", "duchain/declarations/classmethoddeclaration.cpp:75-91"]}
{"id": "C91", "title": "The highlighting of an argument list", "statement": "The pieces of highlighting sent with the argument list of a completion item lie one after the other from the start to the end of the text, without gap or overlap, and the pieces formatted as parameters show exactly the parameters with their types, in order.", "quantifier": "all parameter lists, types and default values", "why_tests_cant": "positions in a text that is built piece by piece: every number of parameters, types and default values gives other positions", "anchors": ["completion/helpers.cpp:31-130", "completion/item.cpp:150-168"]}
{"id": "C92", "title": "White space, comments and letter case", "statement": "A file made of lexical elements (words, variables, decimal, floating point, hexadecimal and binary numbers, quoted strings, strings and backticks with interpolations of all forms, heredocs, nowdocs, operators, member accesses, casts, comments, blanks, tags, text outside the tags) is tokenised completely and as exactly those elements; such a text has one reading; its tree is the one the grammar gives to the tokens of the elements. Files whose elements, set apart by blanks and comments in any layout, stand for the same tokens - keywords in any letter case - are read as the same tree, and every tree of plain code is the tree of some file.", "quantifier": "all texts, all layouts, all trees", "why_tests_cant": "a statement about every text and every way to lay it out; tests fix single texts", "anchors": ["parser/phplexer.cpp:75-988", "parser/php.g:1205-1242", "parser/php.g:294"]}
{"id": "C93", "title": "The identity of types", "statement": "Class types, containers and the kinds resource, callable and object compare as equal exactly if they are of the same kind with the same class, modifiers and entries in the same order; equality is an equivalence, and equal types have equal hashes. So, whatever types are built one after the other, two of them get the same index in the type repository exactly if they are the same type, entries of containers included, and an index goes on standing for its type. Containers are shown as `class of (entries)` with the first five entries; class types are shown with the name they were given.", "quantifier": "all types, all nestings, all histories of the repository, all hash functions of the platform", "why_tests_cant": "a statement about all pairs of types and all histories; tests build a handful of types", "anchors": ["duchain/types/indexedcontainer.cpp", "duchain/types/structuretype.cpp", "duchain/types/integraltypeextended.cpp"]}
{"id": "C94", "title": "Classes named by variables and properties", "statement": "Behind `new` and `instanceof`, a class may be named by a variable followed by properties (`new $o->p::$q`, `new X::$p`, `new $o->$p`). Visiting such a reference never crashes; every name in it that can be resolved is reported as a use of its declaration, in order, a name a class does not declare as unresolved, nothing is reported anywhere else, and nothing reported before gets lost; the expressions inside of it are visited.", "quantifier": "all references of any length, all lookups, all expressions inside", "why_tests_cant": "references nest and chain without bound, and the outcome depends on what each lookup finds", "anchors": ["duchain/expressionvisitor.cpp:707-823", "duchain/expressionvisitor.cpp:198-213", "duchain/expressionvisitor.cpp:873-884", "parser/php.g:857-886"]}
{"id": "C95", "title": "What the offered keywords insert", "statement": "The keywords offered outside of member accesses are known to the lexer and offered once. Choosing one of them but `static`, in any line and with any style of indentation, inserts a text that begins with the keyword, has no rest of a marker, in which all brackets are closed and every line break is followed by the indentation of the line; the cursor is put where the template says (for array, try, default, do and else only if the word starts at the beginning of its line, and for templates without marker it is not moved).", "quantifier": "all 47 offered keywords, all lines, all indentation styles, all positions of the word, all lawful character classes", "why_tests_cant": "The result depends on the line's indentation, the configured style and the position, all unbounded; tests execute a few keywords in empty lines.", "anchors": ["completion/context.cpp: CodeCompletionContext::completionItems, ADD_KEYWORD, ADD_KEYWORD2", "completion/keyworditem.cpp: KeywordItem::execute", "completion/helpers.cpp: getIndentation, indentString"]}
{"id": "C96", "title": "Which files a file imports", "statement": "Whatever jobs run, in whatever order and overlapping in whatever way: a document has a chain iff it has been parsed; a file imports exactly the files that, since its last analysis began, an include expression of it referred to at the moment it was visited and that had been parsed by then, and the file of the built-in functions; never itself and none twice; a syntax error leaves the imports as they are. At most one declaration stands for an included file, and when jobs run one after the other there is one iff the file has been included by an analysed file since its own last analysis.", "quantifier": "all projects, all texts, all histories of edits and parse jobs, all interleavings of the jobs' locked sections, all lawful character classes", "why_tests_cant": "The imports depend on which files were parsed before which, over unbounded histories and schedules; tests parse two files in one order.", "anchors": ["duchain/builders/contextbuilder.cpp: ContextBuilder::build, startVisiting, visitUnaryExpression", "duchain/builders/declarationbuilder.cpp: DeclarationBuilder::build, startVisiting, visitUnaryExpression, closeContext, encounter", "duchain/helper.cpp: getIncludeFileForNode", "phpparsejob.cpp: ParseJob::run"]}
{"id": "C97", "title": "When a file counts as up to date", "statement": "A file that has been parsed counts as up to date iff neither it nor any file its last analysis rests on (the included files that had been parsed, what their analyses rested on, and so on) has another revision than the one that was read.", "quantifier": "all projects, all texts, all histories of edits and parse jobs, all interleavings, all lawful character classes", "why_tests_cant": "The record of revisions is built from the records of other files at the time of the analysis; whether changes are missed or reported for ever depends on unbounded histories.", "anchors": ["phpparsejob.cpp: ParseJob::run", "duchain/builders/contextbuilder.cpp: ContextBuilder::build, visitUnaryExpression"]}
{"id": "C98", "title": "Positions in the editor", "statement": "The position the editor is given for the front of a token is that of its first character and the one for its back that after its last character; the text the editor shows in the range of a node is the text reported for it; a cursor is inside of that range iff its character belongs to the node, and inside of the range of at most one token.", "quantifier": "all texts, all tokens and pairs of tokens, all cursors, all lawful character classes", "why_tests_cant": "Lines are counted from a table the lexer fills while it skips over the text; whether one missed line break shifts everything behind it can only be settled for all texts.", "anchors": ["duchain/editorintegrator.cpp: EditorIntegrator::findPosition, findRange", "parser/parsesession.cpp: ParseSession::positionAt, symbol", "parser/phplexer.cpp: Lexer::createNewline"]}
{"id": "C99", "title": "Completion of namespaces", "statement": "Behind `A\\B\\`, `\\A\\B\\` or `namespace A\\B\\` completion offers what is declared directly in the namespace `A\\B` of the file and the files it includes - behind `namespace` only namespaces - and nothing else; behind `\\` alone what is declared outside of all namespaces.", "quantifier": "all files and included files, all names, all orders in which the declarations of a namespace are found", "why_tests_cant": "A namespace may be opened any number of times in any number of files, and the search returns its openings in an order that depends on the history of the project.", "anchors": ["completion/context.cpp: CodeCompletionContext::CodeCompletionContext (Token_NAMESPACE, Token_BACKSLASH), completionItems (BackslashAccess, NamespaceChoose), isValidCompletionItem", "duchain/builders/predeclarationbuilder.cpp: PreDeclarationBuilder::openNamespace"]}
{"id": "C100", "title": "From the text to the declared types", "statement": "When a file without syntax error is parsed and its declarations are built, the classes, interfaces and traits declared are those whose names stand behind `class`, `interface` or `trait` in the text: none more, each once, of the right kind, in the order of the text, under its name in lower case; the two passes over the file see the same constructs and no assertion fails.", "quantifier": "all sources, all sequences of tokens that parse without syntax error, all nestings of statements, expressions, types, functions and namespaces", "why_tests_cant": "Types may be declared at any depth inside functions, closures, control structures and expressions; which parts of the syntax tree the two passes visit is spread over the grammar and many visitors, and a forgotten one shows only in the nesting that uses it.", "anchors": ["php.g (rules 294-332, 357-690, 692-734, 791-855, 857-1016, 1073-1125, 1145-1153)", "duchain/builders/declarationbuilder.cpp: DeclarationBuilder::build, visitClassVariable", "duchain/builders/predeclarationbuilder.cpp: PreDeclarationBuilder::visitClassVariable", "phpparsejob.cpp: ParseJob::run"]}
{"id": "C101", "title": "The place of every declaration", "statement": "When a file without syntax error is parsed and its declarations are built, the classes, interfaces, traits, functions, methods and namespaces declared are those the text says: none more, each once, in the order of the text, under its name in lower case, a function that stands directly in the braces of a class as method; and each is declared in a context whose classes and namespaces are exactly those whose braces, or whose `namespace ..;`, surround it in the text.", "quantifier": "all sources, all sequences of tokens that parse without syntax error, all nestings of statements, expressions, types, functions, closures and namespaces", "why_tests_cant": "A declaration can stand at any depth inside functions, closures, control structures, expressions, types and namespaces; a context opened and not closed, or closed too early, shows only for what comes later and only in the nesting where it happens.", "anchors": ["php.g (rules 294-332, 357-690, 692-734, 791-855, 857-1016, 1073-1153)", "duchain/builders/declarationbuilder.cpp: visitClassVariable, visitFunctionDeclarationStatement, visitClassStatement", "duchain/builders/predeclarationbuilder.cpp", "duchain/builders/contextbuilder.cpp: visitClassDeclarationStatement, visitNamespaceDeclarationStatement, openNamespace, closeNamespace"]}
{"id": "C102", "title": "Values of properties and static variables", "statement": "A property or static variable with a value has the type that a doc comment says, else the type of its value: that of the literal, also behind a sign, boolean and null for these words, string for `A::class`, array, or the type of the constant it names. Every name in the value is reported as used once, in the order of the text, as what it stands for.", "quantifier": "all values (literals, constants, signs, arrays, nested to any depth), all declarations they may refer to, all states of the visitor before", "why_tests_cant": "Values nest without bound and the visitor keeps one result that every part overwrites; whether something of an inner value remains or is lost depends on the nesting.", "anchors": ["duchain/expressionvisitor.cpp: ExpressionVisitor::visitStaticScalar, visitConstantOrClassConst", "duchain/builders/typebuilder.cpp: TypeBuilder::getTypeForNode, visitClassVariable, visitStaticVar", "duchain/builders/usebuilder.cpp: UseBuilder::visitStaticScalar", "parser/php.g: staticScalar, staticArrayPairValue, staticVar, classVariable"]}
{"id": "C103", "title": "Where the editor shows a declaration", "statement": "In a file without syntax error every class, interface, trait, function, method and namespace declared has a range, and the text the editor has in this range is its name. Of two declarations the one earlier in the outline is shown in front of the other, so that a cursor is in the range of at most one.", "quantifier": "all texts that are tokenised and read to their end without syntax error, all cursors in them", "why_tests_cant": "The range comes from offsets of the lexer, the table of line starts, the node the parser made of the name and the order in which the visitor meets the nodes; an error in any of them shows only in texts of some length and nesting.", "anchors": ["duchain/builders/predeclarationbuilder.cpp: PreDeclarationBuilder::visitClassDeclarationStatement, visitInterfaceDeclarationStatement, visitTraitDeclarationStatement, visitFunctionDeclarationStatement", "duchain/builders/declarationbuilder.cpp: DeclarationBuilder::visitClassStatement, openNamespace", "duchain/editorintegrator.cpp: EditorIntegrator::findPosition, findRange", "duchain/builders/contextbuilder.cpp: ContextBuilder::editorFindRange"]}
{"id": "C104", "title": "Where the scope of a class is", "statement": "In a file without syntax error the scope of every class, interface and trait goes from its first word (a modifier, if it has one) to its closing brace. Of two of these scopes either no cursor is in both, or the second is inside of the first. A method, function or class counts as declared in exactly those classes in whose scope its name is shown, innermost first.", "quantifier": "all texts that are tokenised and read to their end without syntax error, classes nested to any depth, all cursors", "why_tests_cant": "The place a declaration is filed under comes from the order in which contexts are opened and closed, the scope the editor looks up comes from two tokens and the table of line starts; that both agree for every nesting of classes, functions and closures cannot be sampled.", "anchors": ["duchain/builders/contextbuilder.cpp: ContextBuilder::visitClassDeclarationStatement, visitInterfaceDeclarationStatement, visitTraitDeclarationStatement, editorFindRange", "duchain/editorintegrator.cpp: EditorIntegrator::findRange", "parser/php.g: classDeclarationStatement, interfaceDeclarationStatement, traitDeclarationStatement, classBody"]}
{"id": "C105", "title": "Where the bodies of functions and methods are", "statement": "In a file without syntax error every class, method and function has a scope where its text says: a class from its first word to its closing brace, a method from the opening to the closing brace behind its name and parameters (or only the `;`), a function between these braces; and no others, one for each. A cursor is in a scope exactly if it is in that text, and of two scopes either no cursor is in both or the second is inside of the first.", "quantifier": "all texts that are tokenised and read to their end without syntax error, classes, functions, methods and closures nested to any depth, all cursors", "why_tests_cant": "Bodies are opened from nodes of the parser and nested as the visitor goes through them (default values, closures, classes inside of functions); that the ranges agree with the braces of the text for every nesting cannot be sampled.", "anchors": ["duchain/builders/contextbuilder.cpp: ContextBuilder::visitClassStatement, visitFunctionDeclarationStatement, visitClosure, editorFindRange", "duchain/editorintegrator.cpp: EditorIntegrator::findRange", "parser/php.g: functionDeclarationStatement, methodBody, classStatement, classBody"]}
