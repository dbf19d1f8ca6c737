# Formal model of KDE/kdev-php in Lean 4 — design

Source: `/repo` (C++/KDevPG grammar), read as text. Model and proofs: `/verif/lean/Verif`. Properties: `properties.jsonl`.
Which theorem proves which property: `MANIFEST.json` (generated by `mk_manifest.py` from `manifest_claims.py`).
Wrong programs the theorems were tested against: `seeded/LOG.jsonl`.

## 1. Trusted base

* The kernel of Lean 4.33.0. The axioms of every theorem of the manifest are listed in `AXIOMS.md` (generated by `axioms.py`);
  they are among `propext`, `Classical.choice`, `Quot.sound`. No axiom is added, no proof is left open, and no compiled code is
  trusted (`decide +kernel` is evaluated by the kernel). Mathlib is not used.
* That the definitions marked with a file and lines say what this code does. Simplifications are named in the comments.
* Code outside of the repository, taken as follows:
  * Qt: `QString` is a list of UTF-16 units. `QChar::isSpace/isLetter/isDigit/toLower` and case folding are a parameter
    `CharClass`; the facts used are the fields of `CharClass.Lawful`: their values on ASCII, letters, digits and white space are
    disjoint, lower-casing and folding are idempotent, white space has no case. Case mappings that change the length of a text are not
    modelled. `asciiClass_lawful` shows that the laws can be met.
  * Reading `QString::at(i)` at `i = size` gives the terminator; reading beyond is undefined behaviour. Reading through `QCharRef`
    (`wordUnderCursor` only) beyond the end gives 0, as in Qt 5.
  * KDevPlatform: `DUContext::imports` is the reflexive-transitive closure of the imports; `isPublicBaseClass` that of the bases;
    `allDeclarations` lists members of the class before those of imported contexts; `UnsureType::addType` adds a type once;
    a declaration is found again and reused on re-parsing; class types are resolved by name; `Declaration::AccessPolicy` is ordered
    public < protected < private; `DocumentChangeSet` and `BackgroundParser` as described in `Refactor.lean` and `ParseJob.lean`.
* Undefined behaviour (reads out of range, null dereference, popping an empty stack, failing `Q_ASSERT`) is an outcome of its own
  (`none` of `Option`) in the model of the lexer, the completion analysis, type hints and traits.
* Integers are unbounded; overflow of `int` offsets (texts of 2^31 units) is not modelled.

## 2. Conventions

* Each module has a model part (definitions with file and lines), a part `Specification` (definitions that do not use the model's
  helpers) and theorems. Beside the theorems stand examples with concrete cases that meet the hypotheses.
* If the code violates a property, the violation is proved for a concrete case or a class of cases, the part that holds is proved
  with the suffix `_partial`, and the claim is marked partial.

## 3. Properties: what is modelled and how it is proved

| Property | Model | Proof |
|---|---|---|
| C01–C08 | `Lexer/Model.lean`: `step` = one call of `Lexer::nextTokenKind` (parser/phplexer.cpp), all 11 modes, all branches; `runN` = a run | a contract (`Good`) for every branch (`Branch1`–`8`), an invariant of the lexer object (`Run.lean`), induction over the calls |
| C09–C18, C45 | the same | the contract says for each token kind what its text is (`Spec.lean`); lifted to all tokens of all runs (`Props2.lean`) |
| C53 | the same; table of operators and elements in `Lexer/Operators.lean`, `Lexer/Elements.lean` | completeness of the branches, uniqueness of the longest match |
| C19, C20 | `Parser/Tokenize.lean`: the loop filling the token stream (parser/php.g) over any lexer output | induction over the tokens |
| C21 | `Duchain/DocComment.lean`: search for tags (duchain/helper.cpp) | induction over the text |
| C22 | `Duchain/DocType.lean`: interpretation of doc types | induction over the members |
| C23–C25 | `Duchain/TypeHint.lean`: type hints, parameter and property types | case analysis, induction over the members of a union |
| C26 | `Duchain/Names.lean`: names of nodes, lookup | induction over the components, decision logic |
| C27 | `Duchain/Include.lean`: resolution of included files | decision logic over any file system and list of projects |
| C28 | `Duchain/CodeModel.lean`: the completion code model, per file sorted lists with reference counts | refinement to counters over all histories |
| C29 | `Duchain/Inheritance.lean`: opening and closing of base classes | invariant over all histories of parses |
| C30 | `Duchain/Variables.lean`: declaration of variables on assignment | fold invariants over histories of assignments |
| C31 | `Duchain/ReturnType.lean`: return types of nested functions | induction over statement trees |
| C32, C33, C46 | `Duchain/Members.lean`: modifiers, member and parameter checks | decision logic, induction over modifiers and parameters |
| C47 | `Duchain/Traits.lean`: import of trait members, aliases, `insteadof` | induction over the trait list |
| C56, C57, C58 | `Duchain/ExprEval.lean`: the expression visitor over syntax trees; lookups are parameters | mutual induction over trees, typing rules, invariants of the visitor's state |
| C34, C36 | `Completion/ClassMember.lean`, `MethodTokens.lean` | induction over declarations and typed words |
| C35, C48 | `Completion/Forbid.lean`: forbidden classes, listing of declarations | graph search with a finite measure, case analysis |
| C37, C48, C49 | `Completion/TokenAccess.lean`, `Analysis.lean`: looking back over tokens, kind of completion | induction over the tokens (zipper) |
| C54 | `Completion/TokenAccess.lean`, `Kinds.lean` | case analysis on the last token, induction over the tokens in front of it |
| C49, C50 | `Completion/Expression.lean`: expression before the cursor, chain of calls | induction over the tokens |
| C50, C55 | `Completion/CallContext.lean`: call contexts, class before `::` | case analysis on the tokens before the cursor, list search |
| C59, C60 | `Parser/ExprGrammar.lean`: recursive descent over all rules of expressions, `new`, `isset`, `list`, `yield`, text with variables, dynamic members and closures included (what is simplified is listed at the top of the file) | `ExprTotal` (termination), `ExprSound`, `ExprComplete`, `ExprProps`: induction over the calls (soundness, termination), over trees (completeness) |
| C61 | `Duchain/Scopes.lean`: both walks of the builders over a file, with the stack of open contexts and the contexts stored in nodes | the first walk makes what the text asks for, the second one repeats it: induction over the tree with frame conditions on nodes |
| C62 | `Duchain/ScopeNames.lean`: namespaces in force, full names, lookup (with C17's model of names) | C61 and induction over the file |
| C63 | `Duchain/VariableScopes.lean`, `FunctionVars.lean`, `Parameters.lean`: declaring and looking up variables in the contexts of C61 | induction over what is seen; the parameters of a function stand before its body (order of the sites) |
| C64 | `Duchain/NameUses.lean`: `buildNamespaceUses`, `newCheckedUse` and the `use` statements over the lookup of C26 | induction over the loop of the parts; `Right` characterises uses and reports by membership and order |
| C65 | `Duchain/MemberDecls.lean`: the members of the classes of a file in both walks, `m_upcomingClassVariables` | invariant between the statements seen and the members declared |
| C66 | `Duchain/Redeclared.lean`: `isGlobalRedeclaration` over the declarations of a tree of C61 | induction over the tree and the list of declarations |
| C67 | `Duchain/DeclTypes.lean`: type stack, `lastType` and the flags of `TypeBuilder` over trees of declarations | induction over the tree for every state of the builder |
| C68 | `Parser/Combinators.lean`, `StmtParts`, `StmtLines`, `StmtHeads`, `StmtGrammar.lean`: recursive descent over the rules for files, statements, functions, classes, members; `StmtClosures.lean` closes the circle expression – closure – statement – expression. Error recovery is not modelled | soundness and completeness of every combinator and rule (`StmtComplete.lean`), induction over the depth of calls and over trees; for closures a limit over the depth of closures in each other, shown to satisfy the equation of the rule (`all_read_eq`, `StmtMono.lean`) |
| C69, C70 | the same; `StmtProps.lean` | from C68 by comparing texts of trees |
| C71 | the same; `StmtNesting.lean`: a stack of open brackets as specification | induction over the trees |
| C38 | `Completion/MemberAccess.lean` | case analysis over any hierarchy |
| C51 | `Completion/Implementation.lean`: text inserted for an override, argument lists | induction over parameters, decision logic over modifiers |
| C39 | `Support/Refactor.lean` | induction over context trees and over lines |
| C40, C52 | `Support/PhpUnit.lean` | induction over the output and over class trees |
| C41 | `Support/ParseJob.lean` | decision logic, a decreasing measure over all schedules |
| C42, C44 | `Support/Docs.lean` | list induction |
| C43 | `Support/Keyword.lean` | induction over templates |
| C72 | `UseStatements.lean`: one item, and runs of items in which each declaration changes the environment of the next; the platform's treatment of aliases is a parameter with laws | specification by the meaning of names of C26; induction over the run |
| C73 | `VariableSearch.lean`: the visitor with the members it saves and restores (`PushValue`) | a stateless semantics by mutual induction, then a relational specification (what stands within what) |
| C74 | the same model, with the lookup of the function by `Names.lean` | the same specification; positions by `At` |
| C75 | `MemberAssign.lean`: both searches, the check of the access policy and the declaration of a member | relational nearest class (`Nearest`, `OneProperty`); case analysis over the searches |
| C76 | `IncludeItem.lean`: the regular expression as a matcher, `lastIndexIn`, the loops over the text behind | the matcher is proved equal to a relational reading of the expression (`matchHere_iff`); no match begins inside of an opening (`clean_opening`) |
| C77 | `FileChoose.lean`: paths as segments, the choice of the directory, the loops over folders | `Denotes`: a relational meaning of a path text, proved equal to the platform's; induction over folders |
| C78 | `Todo.lean`: the regular expression by backtracking, `globalMatch`, the comment part of `tokenize` | any match is that of a line that mentions a marker with only decoration before (`matchAt_line`), and such a line gives its match (`matchAt_some`); strong induction over the position |
| C79 | `Reparse.lean`: versions of a class, reuse of the declarations that keep type, name and range, the visits of `Members.lean` on reused declarations | induction over members (`visit_eq`) and histories; `parse_again_iff` is exact: it fails iff a member that keeps its place loses a modifier |
| C80 | `Insert.lean`: the range, its extension by a dollar sign, the test that closes the list, the name with its prefix | the piece typed is specified as a split of the line (`Typed`), the meaning of a text in PHP by an inductive relation (`Means`); `means_iff` is exact |
| C81 | `CallTips.lean` (first part) on `Forbid.lean`: the contexts from the cursor outwards in the order the platform lists them, the loop from the last declaration to the first | `local_offered_iff_partial` from the exact `Forbid.visible_iff` |
| C82 | `CallTips.lean` (second part): search for the constructor in a tree of classes and around it, validity of the callee, the loop over the calls | mutual induction over the tree of classes (`mem_findIn`); `tip_iff_partial` is exact |
| C83 | `Walk.lean`: the tree kept (parts of a rule without a name are dropped) and the walk over it | `analysed_lost` by induction over the tree: analysed and lost parts together are a permutation of everything written; `file_complete_partial` on token sequences |
| C84 | `Closures.lean` on the visitor of `ExprEval.lean`; `exits` lists the `return`s and `yield`s of a body outside of closures | mutual induction over the tree (`step_visit`): a visit changes only the innermost closure, and that as the last exit says |
| C85 | `Define.lean`: the search for a scalar in the first argument, the way outwards to the namespace | `constant_iff` by induction over the expression; `declared_in` from C61 |
| C86 | `Define.lean` (last part) on the contexts of C61 | induction over the text (`siteReports`), with `build_good` of C61 |
| C87 | `Errors`: `QString::arg` (pieces, lowest marker, replacement), the three messages, `reportProblem` | a step lemma for a marker between two characters that cannot belong to a marker; induction over the pieces of the text |
| C88 | `MagicConstant`: the context tree that ContextBuilder makes of a file, findContextAt, `findContext`, all the branches of `html`, the loop with fuel | induction over the bodies around a position (`Inside`), which determines the path of contexts; for the loop: the start of a body is in the body, so the second round finds the same context |
| C89 | `Navigation`: htmlFunction with its index arithmetic (reading behind the end of a list is `none`), htmlClass, `toHtmlEscaped` | induction over the parameters with the index; over the bases |
| C90 | `DocsList`: fillModel, the removal of `\(.+\)` and `^[^ ]+ ` from the text of a function | the first opening and the last closing parenthesis by splitting the text; induction over the declarations |
| C91 | `Completion.Highlight`: createArgumentList with its `highlighting` output | invariant of the loop: the pieces tile the text up to textFormatStart; the text agrees with the model of C-completion's createArgumentList |
| C92 | `Lexer.Lexemes`: a lexical grammar by texts (`Lexeme`, `Reading`); `Parser.Layout`: pieces, layouts, the way from a file to its tree; `Lexer.Interpolated`, `Parser.Sources`: strings with variables, backticks, heredocs and nowdocs (`Place`, `Element`, `Source`) | each lexeme is one step (or two) of the lexer from the contracts of C05-C18, induction over the reading; fill loop; C68 for the tree |
| C93 | `Duchain.TypeIdentity`: `equals`, `hash`, `toString` with their loops; the repository as the list of types stored so far | loop lemmas; the repository stores no type twice (invariant); a denotation of indexes as trees is kept and is injective up to names |
| C94 | `Duchain.NewReference`: the loop over the properties, the static part, `new` and `instanceof`; expressions inside are trees of any type visited by any function; `none` is a crash | induction over a path of properties; monotonicity and a frame relation over the loop; agreement with the model of C56 for plain names |
| C95 | `Support/KeywordTable.lean`: the table of the offered keywords with their templates, `choose` on top of the expansion of C43 | the templates are taken apart (finite check), `exec` from the general theorems of C43, a checker for brackets proved sound, induction over the text for line breaks |
| C96 | `Duchain/Project.lean`: the chains of all documents (imports, revisions, declaration for the file), the locked sections of a job as steps, the file an include refers to by C27; KDevPlatform's `addImportedParentContext`, `cleanIfNotEncountered` and `ParsingEnvironmentFile` as described in the comments | invariants over all traces of steps (`imports_iff`, `marks_le_one`), computation of a whole job and induction over histories (`imports_history`, `marked_iff`) |
| C97 | as C96; `upToDate` is KDevPlatform's `isUpdateRequired`, `RestsOn` the specification over histories | the own revision by an invariant over all schedules; the rest by the computation of a whole job and induction over histories, both directions; counterexamples for failed jobs, cycles and overlapping jobs |
| C98 | `Parser/Position.lean`: the line table at the end of tokenising, `positionAt`, the edges and ranges; `KDevPG::LocationTable::positionAt` is trusted to count the entries before an offset; `cursorOffset` is how an editor finds the character at a cursor | the table before an offset by `line_table_partial` (C08) and contiguity, an induction over the text for `positionAt` against `cursorOffset`, monotonicity of both |
| C99 | `Completion/NamespaceChoose.lean`: the tokens before the cursor, the search for the namespace with an arbitrary order, the filter of declarations, on top of the contexts of C61; `QualifiedIdentifier(QString)` and `findDeclarations` are trusted | induction over the tokens; the contexts of kind namespace are shown to be the openings in the text in both directions; everything else by C61 |
| C100 | `Parser/Outline.lean` (which parts of the tree each of the two walks visits, and the position of every name and node), `Parser/OutlineTypes.lean` (the specification on the tokens: `scan`, `hides`), `Parser/Declared.lean` (parse, then both walks of C61; from the source text with C66) | every tree that the parser makes is flattened into what is visited, lost and late; its tokens are shown to be those of the text, its nodes distinct by intervals of positions; then the theorems of C61 apply |
| C101 | `Parser/Outline.lean` (which parts of the tree each of the two walks visits), `Duchain/Scopes.lean` (the two walks of C61), `Parser/Places.lean` (the specification `places`: one run over the tokens that knows braces and the words `class`, `function`, `namespace` and not the grammar) | every part of a tree that the parser makes takes the reader of its tokens from one level of braces to the next and leaves the same marks behind (`Go`), by induction on the tree; the marks are then those of the contexts open in the walk (C61) |
| C102 | `Duchain/StaticValue.lean`: the trees of `staticScalar` and their visitor, on top of the expressions of C56 and C57 (`ExprEval.lean`); the specification is the relation `Denotes` (types in PHP), `names` and `Stands` (names in the text) | cases over the derivation of the type, for every state of the visitor; for uses induction over the value |
| C103 | `Parser/Ranges.lean`: `shown`, the declarations of the first walk (C101) with the ranges (C98) of the nodes of their names; the specification uses only the text: `textIn` (what is between two cursors) and the order of cursors | the places of names in the token stream (C101) are strictly increasing, by induction over the stream; with the ranges of tokens (C98) this gives texts and order |
| C104 | `Parser/Spans.lean`: `U.spans` and `fileSpans`, the first and last tokens of class declarations (with the cases of the first walk), `scopes`, their ranges in the editor (C98); the specification uses the declarations of C103 and whether a range contains a cursor | induction over the outline of the file: the classes around a token in its path are those whose tokens enclose it; the ends of a class from an invariant of the outlines of all statements (`Shut`); with the order of tokens in the text this carries over to cursors |
| C105 | `Parser/Bodies.lean`: `U.bodies` and `fileBodies`, first and last tokens of the contexts that the first walk opens for classes, methods and function bodies; ranges as in C104; the specification (`ClassScope`, `MethodScope`, `FunctionScope`, `Scoped`) speaks of tokens of the text only | induction over the outline of the file with the invariant `Shut` of the outlines of all statements (a function is followed by braces, a method by braces or `;`); with the order of tokens this carries over to cursors |

## 4. Not modelled

The error recovery of the parser generated by KDevPG (after the first syntax error), and in expressions: `print` inside an operand, `yield` as operand of an operator, operators behind the right side of `=&`; in the expression visitor: the lookups (parameters), class references computed by
expressions, static scalars; the use builder around it; highlighting, navigation widgets and other GUI code; locks and threads of the duchain (a parse run is one step); the item
repositories on disk; network access; the project and launch management of KDevelop.

## 5. Errors in the code found while proving

Each is proved in Lean for the model (theorem names in brackets) unless marked (read).

* Lexer: `"$a{$1"` is tokenised forever (`lexer_hangs`). `yield` followed by fewer than three characters is read over the end
  (`yield_overread`). Line breaks inside casts, `yield from` and unterminated literals are lost or shifted (`cast_line_break_lost`,
  `yield_line_break_lost`, `quote_line_break_shifted`). `yield fromage` is `yield from` (`yield_from_word`). The end of a heredoc is recognised
  in the middle of a line after an interpolation (read). Binary literals are compared as decimal (read).
* Doc comments: a tag without value takes the next line's first word (`doc_tag_swallows`). `int[][]` is an array of mixed (`doc_type_nested_array`).
* Type hints: the first nullable member of a union loses `null` (`first_nullable_dropped`); an unresolvable member of a union is
  dereferenced (`unresolved_union_ub`).
* Inheritance: base lists can become cyclic after contexts were recreated; then the method search does not end
  (`base_cycle_after_recreation`).
* Return types: the flag "declared" is lost by nested functions (`declared_lost`, `return_lost`).
* Members: modifiers removed from the source stay on a reused declaration (`stale_modifiers`). An abstract method of a class that is not
  abstract is reported twice; private abstract methods are not reported (read).
* Traits: an unknown trait hides the following ones (`missing_trait_hides`); an aliased method loses its own name
  (`aliased_original_lost`); aliasing a property dereferences null (`alias_of_property_crashes`).
* Expressions: an unknown static method is not reported (`unknown_static_method`); the unknown class of `X::$v` is reported twice
  (`unknown_class_twice`); an unknown variable in the index of an assigned array is not reported
  (`unknown_index_not_reported`); `$i->x` has the type of `$i` if its class is unknown (`access_without_class`); `$a && $b`, `$a * $b`, `!$a`
  and `$a ? $b : $c` have the type of their last operand (rule `HasType.last`); the class in `X::$f()` and the variable in `$$f` are
  not reported (read); variables in the body of a closure are resolved in the context around it (read).
* Uses: a name of several parts in a grouped `use` asks for a part that does not exist (`inner_out_of_range`; the `at` of kdevelop-pg-qt then
  does not end, read) or links the wrong parts (`inner_shifted`); a class name unknown in its namespace is taken for the global class and not reported
  (`fallback_hides`); `use A\B` in a namespace `N` means `N\A\B` if that is known (`use_behind_namespace`); the uses in `use T { … }` of a class are made
  twice (`visitClassStatement` visits `imports` itself and again through the default visitor, read).
* Grammar: `**` groups to the left and is as strong as `*` (`limit_pow_groups_left`, `limit_pow_as_mul`), `-$a ** 2` is `(-$a) ** 2`
  (`limit_minus_pow`), `??` groups to the left and `?:` to the right (`limit_coalesce_left`, `limit_ternary_right`), `instanceof` is
  weaker than `+` and `!` (`limit_instanceof`), `include $a . 'b'` is `(include $a) . 'b'` (`limit_include`), `$a && $b = f()` assigns to `$a && $b`
  (`limit_assign_in_operand`), `$a + 1 = 2` is accepted (`limit_assign_to_sum`).
* Variables: the variable of a `foreach`, of `list` or an argument passed by reference is not declared in a function if the file has a global of
  this name (`target_lost`, `foreach_lost`); `global $x` in a namespace declares nothing (`global_lost`, `global_in_namespace_lost`); a closure captures
  variables its function does not know (`capture_leaks`); `$this` in a closure in a method is not found (`this_denotes`).
  The types of assignments to a captured variable are merged into the outer variable (read).
* Redeclarations: a class or function whose name contains an upper-case letter is never reported (`upper_case_never`); in a namespace a
  redeclaration is missed and a function named like a global one is reported (`namespace_ignored`); a property behind a method that assigns it is
  reported in every class but the first of a file (`upcoming_forgotten`); in the first class, `$this->x = …` declares nothing if another class of the file
  has a property `x` (`assigned_member_lost`), in any class if a parameter or local variable `$x` is visible (`hidden_member_lost`); a constant behind a property
  of its name is reported if the property has the value of a constant (`constant_after_property`).
* Types of declarations: class constants behind an abstract or interface method with `@return` have the type of the method and are not constant
  (`constants_behind_method`); the variable of `catch (Unknown $e)` has the type of the last assignment in the block (`catch_unknown`, `catch_unknown_assign`); the key
  of a `foreach` has the type of the elements (`foreach_key`); a property with `@var $this` has the type closed before (`this_property`).  The block of a `catch` or `foreach` is
  visited before its variable is declared, so that it has no type there when a file is compiled for the first time (read).
* Grammar: `switch ($x): ?>`, `const A = 1 ?>`, `use A ?>`, `goto a ?>` and `foreach ($a as [$x])` are syntax errors for this parser;
  `class A { $a; }` and `try { }` are not (examples in `StmtClosures.lean`); a method may not be named `void` (`method_names`); `(function & () { })()` is an error (php.g:563 asks for `(` as third token; example in
  `StmtClosures.lean`); `(new A)->b = 1` is an error
  (`limit_assign_to_member_of_new`); `list($a) = $b + $c` is `(list($a) = $b) + $c` (`limit_list_takes_one_operand`).
* `use`: names are tried relative to the namespace first (`use_is_relative`); `use A\X; use B\X;` is not reported (`double_import_unreported`); a conflict is not seen if the import is unknown (`unknown_import_unreported`); grouped imports declare nothing (`group_ignored`); special class names are reported for functions, and not for the last part of a name (`special_names_inexact`).
* Assignments: `$x && $y = 1` declares `$x`, not `$y` (`and_assign_finding`); `[$a, $b] = f()` is an assignment to `$a` alone (`short_list_finding`).
* Arguments: those of a method call inside the arguments of a function are matched with that function's parameters (`method_arguments_finding`), those of `C::m()` with a function `m`'s (`static_call_finding`).
* Members: `$o->p = …` looks for `p` from the code first, so a local variable `$p` or a property of the class around hides a private property and gets its type (`local_variable_taken`, `other_class_taken`); a subclass declares a second `p` in the base class (`subclass_redeclares`); the class of `$o` is the one of the *global* `$o` (`local_object_ignored`).
* Choosing a file behind `include __DIR__ . '` (where files are offered) adds nothing and removes the `';` (`unknown_opening`, `dir_constant_finding`), or closes with the quotation mark of an earlier `include` (`earlier_include_finding`); `include('x')` without `;` gets a second `)` (`second_parenthesis_finding`); the rest of a word without quotation mark is removed (`unclosed_string`).
* File completion: `include '..` offers the directory two levels up (`two_dots_finding`); `dirname(__FILE__) . 'x` the siblings of the directory (`no_slash_finding`), `..` without its slash (`parent_without_slash_finding`), and once per project (`parent_twice_finding`).
* To-do notes below the first line of a comment are reported in the comment's first line, with the offset in the comment added to the column (`Todo.hint_position`); with an empty list of markers every comment has a note (`Todo.no_markers_note`); started inside PHP, comments before the first token are not looked at (example in `Todo.lean`).
* A member whose `static`, `final`, `abstract` or access is overwritten so that its name stays in place keeps it until the declaration is made anew, and a missing body is then not reported (`Reparse.removed_abstract_finding`, exactly: `parse_again_iff`, `kept_attrs`); an interface or trait that was an `abstract`/`final` class keeps that (`class_kept`).
* A member completed in a closure inside a method, or in the value of a constant or property of the class, is written without `$this->`/`self::` (`Insert.closure_member`); in a static method `$this->` is written (`static_method_this`).
* `static $x = self::A;` makes the type of `$x` constant, so that completion writes `C::x` for `C::$x` (`Insert.static_constant_value`).
* Classes of other namespaces are completed to their last name, which means another class (`Insert.other_namespace`).
* In a method, a local variable with the name of a property (or of any constant that is visible) is not offered: names are deduplicated from the outermost declaration inwards (`CallTips.hidden_by_property`, exactly: `local_offered_iff_partial`).
* No call tip for `new Foo(` when `Foo` is declared further down at the same level (`CallTips.class_behind`), nor for a private method called in a closure (`private_in_closure`); for a class without constructor the function of the same name is shown (`function_for_class`).
* php.g:691 and :704 give `newElseifList newElseSingle` and `declareStatement` no names, so nothing in the `elseif:`/`else:` parts of `if (…): … endif;` or in `declare (…) { … }` is declared, used or checked (`Walk.colon_else`, `declare_body`); the value of `static $x = A;` is not a use (`static_value`).
* The type of a closure is that of its last `return` in the text, where functions merge all of them (C31): `function() { if (…) return 1; return 'a'; }` returns `string` (`Closures.first_forgotten`); a `return` in a function declared inside of the closure counts (`inner_function`), and one behind a `yield` removes the generator (`yield_return`).
* `define('A' . 'B', 1)` declares a constant `B`, `define(f('x'), 1)` one named `x`: the last literal of the argument is taken (`Define.concatenated`, `computed`). In a namespace, `define('A', 1)` declares `N\A` where PHP declares `\A` (`declared_in`, `not_global`).
* C87: `Parser::expectedSymbol` inserts the token's text with the first `.arg(name, text)` and then calls `.arg(number)` five times on the result, so a `%1`…`%7` in the token's text (an inline HTML or string token, or `%` next to a digit) is taken for a place marker: the text is altered and the last marker stays in the message (`Errors.marker_in_text`).
* C88: `MagicConstantNavigationContext::html` loops `while (ctx = findContext(top, pos, Other))` with `pos = ctx->range().start` to leave a function that is not a method; but the start belongs to the range, so the same context is found again: hovering over `__METHOD__` in a plain function or a closure hangs, with the DUChain read lock held (`MagicConstant.method_hangs`).
* C88: the tool tips of `__CLASS__` and `__NAMESPACE__` show the lower-cased name and only the last component (`MagicConstant.class_value`, `namespace_value`).
* C89: the tool tip of `interface A extends B` reads `interface A implements B` (`Navigation.interface_implements`).
* C90: the documentation list removes `\(.+\)` greedily from `unsure (int, bool) strpos (string, string)`, which removes the name of the function too: functions that return one of several types appear as empty lines (`DocsList.shown_unsure`).
* C91: the last piece of the highlighting of an argument list is given the length of the whole text (helpers.cpp:124) instead of the rest, so it reaches behind the end of the text as soon as there is a parameter (`Completion.Highlight.last_too_long`).
* C92: a blank behind `->` changes the tokens: `$a->list` is a property, `$a-> list` a syntax error (`arrow_blank_matters`); a comment between `static` and `::` is a syntax error, white space is not (`static_comment_matters`); `yield FROM` is not `yield from`, and `yield fromage` is (`yield_from_word`); a binary literal is an integer or a float by its decimal reading, and a hexadecimal literal loses digits `0b` at its beginning (`radix_literals`). In strings: the index of `"$a[$i]"` is a plain string token and `"$a[0x1]"` a syntax error (`index_corners`); behind a variable `{${` is not an interpolation (`curly_corners`); a heredoc ends with its identifier in the middle of a line if an interpolation stands directly before it (`heredoc_corner`).
* C93: the written form of a class name is stored in its type but not compared: while an equal type is stored, the class is shown as it was written first (`first_writing_shown`). The first entry of a container has the factor 0 in the hash, so containers with one entry collide with each other and with the plain class type (`first_entry_not_hashed`).
* C94: **crashes**: `new static/**/::$p` (the comment keeps the lexer from making `static` a name; the identifier of the class name is a null pointer: `static_reference_parsed`, `static_crashes`), and `new $o::${$unknown}` (`last()` of an empty list: `static_expr_crashes`, `Example.crash`).
* C94: `new X::$p` has the type of `X` and reports `X` twice (`static_property_typed_as_class`, `class_reported_twice`); in `new $o->p[$i]->q`, `q` is looked up in the class of `$i` (`index_replaces_object`); `$x instanceof $c` is not boolean (`instanceof_variable`); nothing in the index of `$o->$p[…]` and in `$o->{…}` is reported.
* C95: the template of `static` (completion/context.cpp:1645) ends its marker with two `%`, so choosing it inserts `static $%;` (`keyword_static`); the template of `try` (line 1609) inserts a `$` in the body of its `catch` (`keyword_try`).
* C96: a file that includes a file which is parsed later does not import it and still counts as up to date, so what it sees depends on the order of the jobs (`included_later_finding`; an unresolved include does not count as unresolved identifier, contextbuilder.cpp:470-479).
* C96 (by reading, no theorem): `UseBuilder::visitExpr` (usebuilder.cpp:139-142) does not descend, and include expressions occur only inside of expressions (php.g:502-547), so `UseBuilder::visitUnaryExpression` (usebuilder.cpp:209-223) is never called: no use of the included file is ever reported.
* C97: two files that include each other are never up to date again after one of them has been changed twice, however often they are analysed: the old revision is passed back and forth (`mutual_never_up_to_date`, `mutual_finding`; contextbuilder.cpp:476-477).
* C97: when a text with a syntax error is given up without saving, the file counts as up to date, its syntax error stays reported and changes of the files it includes are missed (`broken_finding`; phpparsejob.cpp:179-183 forgets the included revisions and keeps the old own one).
* C97: if the analysis of a file overlaps with that of a file including it, later changes of a third file are missed (`overlap_finding`; the record of a file is incomplete while it is being analysed, and `parseLock` does not exclude other jobs).
* C98: a line break inside of a cast, e.g. `(⏎int)$a`, shifts the reported line of everything behind it (`cast_shifts_finding`; phplexer.cpp, the branch of `(`, calls no `createNewline`).
* C98: HTML at the end of a file is reported to end one column behind the end of the text (`html_end_finding`).
* C98: the scope of a function with an empty body starts behind its end, so no cursor between the braces is inside of it (`empty_node`, `empty_body_finding`; contextbuilder.cpp:317-319, 350-352: the range of an empty statement list goes from the closing to the opening brace).
* C99: completion behind a namespace name that is not written in lower case offers nothing (`upper_never`, `upper_case_nothing`; context.cpp:585 takes the text as it is written, names are kept in lower case).
* C99: of a namespace opened more than once, in one file or several, only one opening is offered (`one_opening_only`; context.cpp:1341-1346 stops at the first).
* C99: behind `\` alone nothing of the included files is offered (`included_missing`; context.cpp:1339 and 1352: `localDeclarations` of the own file).
* C100: classes in the branches `elseif (..):` and `else:`, in a block of `declare`, and in a closure inside an index that another index follows are never declared (`classes_not_declared`; php.g keeps only part of these branches in the tree that is visited).
* C100: a closure in the value of a class variable is visited only by the second pass, which then opens a context the first never made (`second_walk_stops`; predeclarationbuilder.cpp:129-132 does not visit the value, declarationbuilder.cpp:558 does).
* C101: a function behind `else:` or `elseif (..):` is never declared (`function_not_declared`).
* C102: `static $x = -1.5` is an integer (`signed_float`, expressionvisitor.cpp:524); `\true` is looked up as a constant and has no type (`global_true`); `A::class` of an unknown class has no type (`class_of_unknown`); a constant in `static $x = FOO;` is not reported as used, so that renaming FOO leaves it (`static_not_used`, usebuilder.cpp:154-159).
* C103: behind `(⏎int)$a` every declaration is shown one line too early, in columns the line does not have (`ShownDemo.cast_moves_declaration`; the cause is C98).
* C104: behind `(⏎int)$a` the scope of a class is shown one line too early, so that its text is outside of its scope (`ScopeDemo.cast_moves_scope`; the cause is C98).
* Completion: `abstract` is offered after `final` (`final_offers_abstract`); a private redeclaration does not hide the inherited member
  (`private_redeclaration_ignored`); nothing is offered after `class X extends Y implements` (`implements_after_extends_invalid`); namespaces are not offered
  after `namespace A\` (`namespace_prefix_lost`); no
  member completion after `f($a, $b)->` (`comma_in_call_invalid`) and a wrong expression in the second argument
  (`second_argument_expression`); classes of the project's code model are offered unfiltered (`project_classes_unfiltered`); members
  permitted on objects of derived classes are missing (`derived_object_missing`); a closure inside a method is offered no private
  members (`closure_in_method_hides`); white space between `(` or `,` and an argument loses the call (`spaced_argument_lost`);
  nothing is offered after `parent::` if the parent is abstract (`abstract_parent_invalid`); the cursor column of keyword templates is shifted
  (`keyword_cursor_shifted`); with only `function` typed an override is written `function public name` (`function_not_last`);
  `replaceRange.start() = …` in `ImplementationItem::execute` assigns to a temporary (read).
* Other: a magic constant at the beginning of a line is not recognised (`word_at_line_start`); a method and the function
  `class_method` share their local documentation page (`local_collision`).
