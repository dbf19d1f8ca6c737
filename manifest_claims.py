claim("C01", "proved", ["tokens_tile"])
claim("C02", "proved", ["nothing_lost"])
claim("C03", "partial", ["lexing_terminates_partial", "lexer_hangs"],
  "The full statement is false: lexer_hangs proves that `\"$a{$1\"` is tokenised forever. Proved for texts without `{$digit` and without the overread of C04.")
claim("C04", "partial", ["no_overread_partial", "yield_overread"],
  "The full statement is false: yield_overread proves that `yield;` at the end of the text reads behind the terminator. Proved for texts without a `yield` near the end.")
claim("C05", "proved", ["modes_wf", "mode_returns"])
claim("C06", "proved", ["eof_stable"])
claim("C07", "proved", ["halt_stops", "stops_only_at_end"])
claim("C08", "partial", ["line_table_partial", "line_table_complete_partial", "line_table_exact", "line_table_iff", "cast_line_break_lost", "yield_line_break_lost", "quote_line_break_shifted"],
  "The full statement is false for casts, `yield from` and unterminated double-quoted literals containing line breaks (three counterexample theorems); proved for runs without such tokens.")
claim("C09", "proved", ["keyword_is_word", "word_token", "static_yield_token", "keyword_case_insensitive"])
claim("C10", "proved", ["html_tokens", "inline_html", "open_tags"])
claim("C11", "proved", ["close_tag_to_html"])
claim("C12", "proved", ["string_literal"])
claim("C13", "proved", ["comment_extent", "doc_comment_extent"])
claim("C14", "proved", ["whitespace_maximal", "whitespace_not_adjacent"])
claim("C15", "proved", ["variable_token"])
claim("C16", "proved", ["integer_literal", "decimal_literal"])
claim("C17", "proved", ["heredoc_start", "heredoc_end", "heredoc_ident_kept", "heredoc_matches", "heredoc_recognized"])
claim("C18", "proved", ["cast_token", "paren_token"])
claim("C19", "proved", ["stream_is_significant_tokens", "stream_no_trivia", "symbol_text"])
claim("C20", "proved", ["doc_comment_attached"])
claim("C21", "proved", ["Doc.doc_tag_values", "Doc.doc_tag_lines", "Doc.doc_tag_words", "Doc.doc_tag_first"],
  "Doc.doc_tag_swallows records the quirk that a tag without a value takes the first word of the next comment line.")
claim("C22", "proved", ["DocType.doc_type_case_insensitive", "DocType.doc_type_builtin", "DocType.doc_type_self", "DocType.doc_type_class", "DocType.doc_type_array", "DocType.doc_type_union", "DocType.doc_type_nested_array"])
claim("C23", "partial", ["TypeHint.single_hint", "TypeHint.nullable_hint", "TypeHint.union_hint_partial", "TypeHint.union_hint_members_partial", "TypeHint.first_nullable_dropped", "TypeHint.unresolved_union_ub"],
  "The full statement is false: first_nullable_dropped shows that the nullability of the first member of a union is forgotten, unresolved_union_ub that a union with an unresolvable member dereferences a null type. Proved for unions whose members all resolve and whose first member is not nullable.")
claim("C24", "proved", ["TypeHint.parameter_type_priority", "TypeHint.parameter_null_default", "TypeHint.parameter_wrapping", "TypeHint.parameter_has_type", "TypeHint.property_and_return_type"])
claim("C25", "proved", ["TypeHint.class_hint_iff", "TypeHint.class_hint_resolution", "TypeHint.has_class_hint_iff"])
claim("C26", "proved", ["Names.name_case_insensitive", "Names.constant_name", "Names.plain_name", "Names.grouped_name", "Names.global_lookup", "Names.relative_lookup", "Names.toplevel_lookup", "Names.self_lookup", "Names.lookup_kind", "Names.lookup_complete", "Names.parent_lookup", "Names.self_outside", "Names.lookup_first"])
claim("C27", "proved", ["Include.include_first_existing", "Include.include_remote", "Include.include_resolves_iff", "Include.include_literal", "Include.include_empty"])
claim("C28", "proved", ["CodeModel.code_model_refines", "CodeModel.code_model_unique", "CodeModel.code_model_listed", "CodeModel.code_model_most_recent", "CodeModel.code_model_update_precondition"])
claim("C45", "proved", ["encapsed_text"])
claim("C29", "proved", ["Inheritance.imports_acyclic", "Inheritance.bases_acyclic", "Inheritance.base_is_ancestor", "Inheritance.circular_reported_iff", "Inheritance.base_method_search", "Inheritance.base_cycle_after_recreation"],
  "The import graph is acyclic for every history. The base-class lists (stored by name) are acyclic as long as class contexts are reused over re-parses; base_cycle_after_recreation shows that otherwise they can become cyclic and the search for redeclared methods does not end.")
claim("C30", "proved", ["Variables.variable_type_accumulates", "Variables.plain_variable_type", "Variables.one_declaration", "Variables.assignment_updates_newest", "Variables.assign_adds", "Variables.assign_reference", "Variables.assign_unknown", "Variables.this_reported_iff", "Variables.this_array_access"])
claim("C31", "partial", ["ReturnType.inferred_return_type_partial", "ReturnType.uniform_return_type_partial", "ReturnType.declared_kept_partial", "ReturnType.callable_return_type", "ReturnType.declared_lost", "ReturnType.return_lost"],
  "The full statement is false: the flag saying that the return type is declared is overwritten by nested functions and not restored (declared_lost, return_lost). Proved when the nested functions, at any depth, agree with the function about having a declared return type.")
claim("C32", "proved", ["Members.method_reported_iff", "Members.method_diagnostics", "Members.method_attributes", "Members.modifiers_written", "Members.constant_checks", "Members.property_checks", "Members.nothing_reported", "Members.stale_modifiers"],
  "For newly declared members; stale_modifiers shows that a declaration reused by a re-parse keeps attributes whose modifiers were removed.")
claim("C33", "proved", ["Members.reserved_iff", "Members.reserved_ascii_iff"])
claim("C46", "proved", ["Members.parameter_diagnostics", "Members.default_parameters"])
claim("C47", "proved", ["Traits.traits_composed", "Traits.own_member_wins", "Traits.collision_iff", "Traits.importFrom_errors", "Traits.insteadof_overrides", "Traits.alias_declared", "Traits.missing_trait_hides", "Traits.aliased_original_lost", "Traits.alias_of_property_crashes", "Traits.alias_modifiers_reported"],
  "Three limits are proved beside it: an unknown trait hides the following ones, an aliased method loses its own name, aliasing a property dereferences a null pointer.")
claim("C34", "partial", ["Completion.override_list", "Completion.override_once", "Completion.override_excludes", "Completion.override_nearest_partial", "Completion.private_redeclaration_ignored"],
  "The full statement is false: a nearer private (or differently static) redeclaration does not hide the farther member (private_redeclaration_ignored). Proved when the nearer declarations of the name are not private and agree in staticness.")
claim("C36", "partial", ["Completion.choose_keywords", "Completion.keyword_no_conflict_partial", "Completion.empty_body_keywords", "Completion.choose_filters", "Completion.method_tokens_written", "Completion.every_text_written", "Completion.final_offers_abstract"],
  "The exact set of offered keywords is proved (choose_keywords). The claim that an offered keyword never conflicts is false for abstract after final (final_offers_abstract); it is proved for the others.")
claim("C37", "proved", ["Completion.enclosing_call", "Completion.enclosing_call_only", "Completion.enclosing_call_bounds"])
claim("C48", "proved", ["Completion.Forbid.class_completion", "Completion.Forbid.normal_completion", "Completion.Forbid.variable_once", "Completion.interface_list_completion", "Completion.first_name_completion", "Completion.argument_completion", "Completion.implements_after_extends_invalid", "Completion.Forbid.throw_completion", "Completion.Forbid.namespace_completion", "Completion.Forbid.visible_iff"])
claim("C49", "proved", ["Completion.completion_contexts", "Completion.analysis_in_bounds", "Completion.lexer_opened", "Completion.completion_in_bounds"])
claim("C50", "partial", ["Completion.parent_contexts", "Completion.completion_contexts", "Completion.member_expression_partial", "Completion.call_expression_partial", "Completion.comma_in_call_invalid", "Completion.second_argument_expression", "Completion.call_context", "Completion.no_call_context", "Completion.argument_parent", "Completion.spaced_argument_lost", "Completion.member_in_argument", "Completion.static_name"],
  "The chain of enclosing calls is proved for every text. The claim about the text of the expression is false when a comma stands inside parentheses before the cursor (comma_in_call_invalid, second_argument_expression); it is proved for balanced expressions without such commas.")
claim("C35", "partial", ["Completion.Forbid.forbid_terminates", "Completion.Forbid.forbidden_iff", "Completion.Forbid.inheritance_completion_partial", "Completion.Forbid.inheritance_completion_files", "Completion.Forbid.no_ancestor_offered", "Completion.Forbid.project_classes_unfiltered", "Completion.Forbid.same_name_skipped"],
  "Proved for the declarations visible from the cursor and those found through the code model. The classes taken from the completion code model of the project files are not filtered at all (project_classes_unfiltered), and of several declarations with the same name only one is followed (same_name_skipped).")
claim("C38", "proved", ["Completion.Access.member_visible", "Completion.Access.public_listed", "Completion.Access.own_members_listed", "Completion.Access.base_members_listed", "Completion.Access.containers_of", "Completion.Access.derived_object_missing", "Completion.Access.containers_nested", "Completion.Access.method_sees_own", "Completion.Access.outside_only_public", "Completion.Access.closure_in_method_hides"],
  "Everything offered is permitted; the converse is proved for public members, the current class and its bases, and refuted for objects of derived classes.")
claim("C39", "proved", ["Refactor.rename_uses", "Refactor.rename_complete", "Refactor.rename_unused", "Refactor.rename_declarations", "Refactor.rename_keeps_dollar"])
claim("C40", "proved", ["PhpUnit.readLine_iff", "PhpUnit.results_iff", "PhpUnit.suite_result"],
  "Results are kept under the lower-case name of a case, which is the name of the cases found by the provider.")
claim("C41", "proved", ["ParseJob.rescheduled_iff", "ParseJob.rescheduled_priority", "ParseJob.skipped_iff", "ParseJob.stored_features", "ParseJob.runs_bounded", "ParseJob.at_most_once"])
claim("C42", "proved", ["Docs.local_pages", "Docs.local_form", "Docs.local_case", "Docs.local_injective", "Docs.local_collision", "Docs.remote_pages", "Docs.page_shown_iff"],
  "For local documentation; remote pages keep the case of the name (remote_pages).")
claim("C43", "partial", ["Keyword.keyword_cursor_partial", "Keyword.keyword_cursor_shifted", "Keyword.keyword_plain", "Keyword.keyword_selection"],
  "The column of the cursor is wrong if the marker stands behind a line break of the template and the completed word does not start at column 0 (keyword_cursor_shifted). Proved otherwise.")
claim("C44", "partial", ["Docs.word_under_cursor_partial", "Docs.word_at_line_start", "Docs.no_word_under_cursor", "Docs.magic_constant_range"],
  "For a word at the beginning of a line the range starts at column -1, so that magic constants there are not recognised (word_at_line_start). Proved otherwise.")
claim("C51", "partial", ["Completion.Impl.override_method", "Completion.Impl.override_variable", "Completion.Impl.argument_list", "Completion.Impl.override_modifiers", "Completion.Impl.function_last_partial", "Completion.Impl.function_not_last"],
  "If function was typed without an access modifier, the modifier is inserted behind function (function_not_last). Everything else is proved.")
claim("C52", "proved", ["PhpUnit.suites_found"])
claim("C53", "proved", ["operator_token", "longest_unique", "element_token"])
claim("C54", "proved", ["Completion."+n for n in "anything_after member_after nothing_after nothing_in_open_comment after_comment after_open_tag after_access after_paren after_instanceof_throw after_new file_after_include file_only_after_include after_qualified after_namespace namespace_prefix_lost".split()],
  "namespace_prefix_lost: namespaces are not offered after `namespace A\\\\`, because of the white space behind the keyword.")
claim("C55", "proved", ["Completion.self_access", "Completion.parent_access", "Completion.named_access", "Completion.abstract_parent_invalid"],
  "abstract_parent_invalid: nothing is offered after parent:: if the parent class is abstract.")
claim("C56", "proved", ["Expr.type_of", "Expr.closure_return", "Expr.access_without_class"],
  "Typing rules HasType; limits of the code: $i->x keeps the type of $i if its class is unknown (access_without_class), operators without a rule have the type of their last operand.")
claim("C57", "proved", ["Expr."+n for n in "class_reported namespace_reported function_reported constant_reported variable_reported member_reported reported_only declaration_not_reported unknown_static_method unknown_class_twice unknown_index_not_reported".split()],
  "Limits of the code: an unknown static method is not reported (unknown_static_method), the unknown class of X::$v is reported twice (unknown_class_twice).")
claim("C58", "proved", ["Expr.unresolved_iff", "Expr.define_name_ignored"])
claim("C59", "proved", ["Grammar."+n for n in "parse_total parse_bound parse_sound parse_complete parse_iff grouping_unique two_operators assign_right equality_not_chained limit_pow_groups_left limit_pow_as_mul limit_minus_pow limit_coalesce_left limit_ternary_right limit_instanceof limit_include limit_assign_in_operand limit_list_takes_one_operand".split()] + ["Stmt.php_expr_iff"],
  "For the kinds of expressions listed at the top of ExprGrammar.lean. The table is the one of php.g, which differs from PHP where the limit_ theorems say so.")
claim("C60", "proved", ["Grammar.assign_without_variable", "Grammar.assign_has_variable", "Grammar.limit_assign_to_sum", "Grammar.limit_assign_to_member_of_new"],
  "The check is not exact: $v + 1 = 2 is accepted (limit_assign_to_sum).")
claim("C61", "proved", ["Scopes.build_good"])
claim("C62", "proved", ["Scopes.declared_in_namespace", "Scopes.name_in_namespace", "Scopes.found_from_everywhere", "Scopes.inForce_total"])
claim("C63", "proved", ["Denote."+n for n in "variable_in_function assigned_in_function single_declaration parameter_denoted this_denotes foreach_lost target_lost global_lost global_in_namespace_lost capture_leaks".split()],
  "The negative theorems show what PHP finds and the code does not (foreach target with the name of a global, global in a namespace, $this in a closure), and a capture beyond the function.")
claim("C64", "proved", ["NameUses."+n for n in "parts_used use_parts_used choose_taken taken_unique known_not_reported unknown_reported inner_one fallback_hides use_behind_namespace inner_out_of_range inner_shifted".split()],
  "For names outside groups and names of one part in a group. The code is wrong for names of several parts in a group (inner_out_of_range, inner_shifted), and takes a class name that is unknown in its namespace for the global one (fallback_hides).")
claim("C65", "proved", ["MemberDecls."+n for n in "method_redeclared property_redeclared property_redeclared_any constant_redeclared assigned_member upcoming_forgotten assigned_member_lost hidden_member_lost constant_after_property".split()],
  "Properties: exact in the first class of a file, and sound up to assigned members elsewhere (property_redeclared_any). The code is wrong in the cases of upcoming_forgotten, assigned_member_lost, hidden_member_lost and constant_after_property.")
claim("C66", "proved", ["Redeclared."+n for n in "codeSites_spec reported_iff redeclaration_sound redeclaration_complete upper_case_never namespace_ignored".split()],
  "The code never reports a class or function with an upper-case letter in its name (upper_case_never) and mistakes namespaces (namespace_ignored).")
claim("C67", "proved", ["DeclTypes."+n for n in "walk_types file_types constants_behind_method catch_unknown catch_unknown_assign foreach_key this_property".split()],
  "For all declarations but those marked as not sure in the specification (entries), for which the code is wrong: constants_behind_method, catch_unknown, foreach_key, this_property, and properties behind a value with a comment of its own.")
claim("C68", "proved", ["Stmt."+n for n in "file_read_iff file_accepted_iff depth_irrelevant run_reads run_compl php_read_iff all_ok_iff all_read_eq method_names constant_names function_names type_words modifier_words".split()],
  "For the grammar without error recovery, with the expressions of C59 and closures of any nesting. The theorems hold for every way to read closures; `php_read_iff` states them for the one of the code, which `all_ok_iff` and `all_read_eq` characterise.")
claim("C69", "proved", ["Stmt."+n for n in "one_reading php_one_reading else_nearest else_braces else_not_stolen".split()],
  "For the grammar of C68.")
claim("C70", "proved", ["Stmt."+n for n in "files_concat wrap unwrap loop_notations loop_ends if_notations".split()],
  "For the grammar of C68.")
claim("C71", "proved", ["Stmt."+n for n in "brackets_closed bracket_missing php_brackets php_bracket_missing".split()],
  "For the grammar of C68. bracket_missing says both directions: of two texts that differ by one bracket at most one is accepted.")
claim("C72", "proved", ["UseStatements."+n for n in "imported_unique no_effect_iff in_use_iff declaration_bound_iff namespace_bound_iff bound_or_rejected special_iff group_ignored visible_after found_after unbound_unchanged use_is_relative double_import_unreported unknown_import_unreported special_names_inexact".split()],
  "Names self, static and parent are excluded. The effect of an alias on lookups is the platform's, trusted (Declares.Lawful). The names of a group use A\\{B, C} are not declared at all by the code (group_ignored); the last four theorems are findings.")
claim("C73", "proved", ["VariableSearch."+n for n in "events_iff state_restored assignment_target namesVar_unique no_member_of_array and_assign_finding short_list_finding".split()],
  "Of the syntax tree only the nodes the search treats are modelled. What is then declared for the variable is the subject of C30, C63 and C65. The last two theorems are findings.")
claim("C74", "proved", ["VariableSearch."+n for n in "events_iff state_restored unpacking_reported_iff unknown_declares_nothing callee_name method_arguments_finding static_call_finding".split()],
  "Arguments of methods, new and called closures are taken to belong to the function call around them (ArgsOf.args, method_arguments_finding), C::m() to a function m (static_call_finding): findings.")
claim("C75", "proved", ["MemberAssign."+n for n in "outside_access inside_no_report this_no_report declares_iff this_takes unknown_object local_variable_taken other_class_taken subclass_redeclares local_object_ignored".split()],
  "findDeclarations of the platform is assumed to search the context, what it imports and what is around, and to stop at the first with the name. The last four theorems are findings.")
claim("C76", "proved", ["IncludeItem."+n for n in "matchHere_iff lastMatch_opening completes_statement completes_open_statement completes_at_blank execute_twice rest_kept cursor_behind_slash unknown_opening unclosed_string dir_constant_finding earlier_include_finding second_parenthesis_finding".split()],
  "QRegExp is modelled by its documented meaning; KTextEditor is trusted to end a range at the end of its line. The last five theorems are findings.")
claim("C77", "proved", ["FileChoose."+n for n in "denotes_iff includes_iff offered_directory offered_iff offered_once chosen_included chosen_included_dirname two_dots_finding no_slash_finding parent_without_slash_finding parent_twice_finding".split()],
  "KDevelop::Path and the project model are trusted as described in the file. The last four theorems are findings.")
claim("C78", "proved", ["Todo."+n for n in "notes_lines note_text isDeco_iff isDot_iff file_hints hint_position no_markers_note".split()],
  "The meaning of the regular expression (PCRE) and the line table of kdevelop-pg are trusted as described in the file. `no_markers_note` and the negative half of `hint_position` are findings.")
claim("C79", "partial", ["Reparse."+n for n in "declare_attrs taken_over_iff parse_again_iff parse_again_problems history_first_partial kept_attrs constant_right class_kept removed_abstract_finding".split()],
  "False of the code where a member keeps its place (line and columns) and loses a modifier: `kept_attrs` and `class_kept` say what it then has, `removed_abstract_finding` is a case where an error is not reported. Proved: for every other history (`history_first_partial`), and exactly for them (`parse_again_iff`). KDevPlatform's reuse of declarations is trusted as described in the file.")
claim("C80", "partial", ["Insert."+n for n in "range_typed typed_exists execute_replaces range_grows stays_open_iff open_while_typing means_iff chosen_means_partial variable_chosen static_method_this closure_member static_constant_value other_namespace".split()],
  "Range and replacement are proved fully. The meaning of the text is false of the code in the cases the exact `means_iff` names: members chosen in a static method, a closure or the body of the class, static properties whose type is constant, classes of other namespaces. The word around the cursor (KTextEditor) is trusted; the parentheses added behind functions by the platform are not modelled.")
claim("C81", "partial", ["CallTips."+n for n in "local_offered_iff_partial no_foreign_variable offered_once hidden_by_property".split()],
  "False of the code where something else with the same name is declared further outside: the loop starts with the outermost declarations, so that a property or constant of that name suppresses the local variable (`hidden_by_property`). `local_offered_iff_partial` is exact. The order of `DUContext::allDeclarations` is trusted.")
claim("C82", "partial", ["CallTips."+n for n in "valid_iff mem_findIn constructor_nearest old_constructor no_constructor tip_iff_partial tips_in_order class_behind function_for_class private_in_closure".split()],
  "Exact (`tip_iff_partial`, `constructor_nearest`, `no_constructor`). False of the code: no tip for a class declared behind the cursor (`class_behind`) or a private method called in a closure (`private_in_closure`); the tip of a function for a class of the same name without constructor (`function_for_class`). Which calls enclose the cursor is C50.")
claim("C83", "partial", ["Walk."+n for n in "analysed_lost complete_iff file_lost file_complete_partial braces_else colon_else declare_body static_value".split()],
  "False of the code for the `elseif`/`else` parts of `if (…):`, the statements of `declare`, and the values of static variables and in `declare`; `analysed_lost` says exactly what is lost, `file_complete_partial` that a file without `endif`, `declare` and `static` is analysed completely. Double visits (variables of `foreach`, `unset`, traits with aliases) are not modelled.")
claim("C84", "partial", ["Expr.Closures."+n for n in "closure_returns hinted no_exit last_return last_yield uniform_partial first_forgotten inner_function yield_return inner_closure".split()],
  "False of the code: only the last `return` counts (`first_forgotten`), also if it stands in a function declared inside (`inner_function`) or behind a `yield` (`yield_return`). `closure_returns` says exactly which exit decides; `uniform_partial` is the claim where all exits are returns of one type. The types of the arguments of a closure are those of C24.")
claim("C85", "partial", ["Define."+n for n in "constant_iff literal_constant_partial other_function concatenated computed declared_in not_global".split()],
  "Exact (`constant_iff`, `declared_in`). False of the code: for a name put together or computed, the last string in the argument is declared (`concatenated`, `computed`); in a namespace the constant is declared in the namespace (`not_global`). Redeclarations are C66.")
claim("C86", "proved", ["Define."+n for n in "yields_reported".split()],
  "Hypotheses: distinct tokens (as C61) and no `yield` in the variable list `use (…)` of a closure, which the grammar does not allow.")
claim("C87", "partial", ["Errors."+n for n in "expectedSymbol_exact expectedSymbol_noPercent unexpected_exact expectedToken_exact_partial marker_in_text marker_in_text' report_iff report_none".split()],
  "Proved for every token text without a place marker numbered up to 7, and for the two one-argument messages without any restriction. The full statement is false of the code: the text of the token is inserted first and then searched for markers (`marker_in_text`).")
claim("C88", "partial", ["MagicConstant."+n for n in "class_value namespace_value function_value file_value method_value_partial method_none method_hangs class_lowered".split()],
  "Proved: the value of every constant from the bodies around the position, exactly. The full statement is false of the code: in a function that is not a method, or in a closure, the loop for __METHOD__ never ends (`method_hangs`); classes and namespaces appear in lower case and a namespace without its outer components.")
claim("C89", "proved", ["Navigation."+n for n in "function_tip escape_safe escape_shown class_tip unknown_base interface_implements".split()],
  "The interfaces that an interface extends are shown after `implements` (`interface_implements`).")
claim("C90", "partial", ["DocsList."+n for n in "rows shown_plain_partial shown_noargs shown_unsure".split()],
  "Proved for return types of one word. The full statement is false of the code: a function with several return types is shown as an empty line (`shown_unsure`).")
claim("C91", "partial", ["Completion.Highlight."+n for n in "highlighting_partial highlighted_text last_too_long".split()],
  "Proved for all pieces but the length of the last. The full statement is false of the code: the last piece has the length of the whole text (`last_too_long`).")
claim("C92", "proved", [""+n for n in "reading_tokens reading_unique layout_tokens text_read_iff layout_tree readAs_unique keyword_piece tree_written arrow_blank_matters static_comment_matters yield_from_word radix_literals Strings.source_tokens Strings.source_unique Strings.source_of_reading Strings.source_read_iff Strings.curly_corners Strings.index_corners Strings.heredoc_corner".split()],
  "The lexical grammar leaves out __halt_compiler, heredocs inside an interpolation, `?>` inside an interpolation, characters no token begins with, and elements cut off by the end of the text. `->name` and `yield from` are single elements, `static` and `yield` depend on what follows: `arrow_blank_matters`, `static_comment_matters` and `yield_from_word` show that layout does matter there.")
claim("C93", "proved", ["TypeId."+n for n in "equals_iff equals_refl equals_symm equals_trans hash_of_equals same_index_iff index_keeps container_shown long_container_shown class_shown kinds_shown container_name_shown entries_after_add entries_after_replace first_writing_shown first_entry_not_hashed".split()],
  "KDevPlatform's `StructureType::equals`/`IntegralType::equals` (class, modifiers, declaration) and its repository are trusted as described in the module; removal of unreferenced types is not modelled.")
claim("C94", "partial", ["Expr.NewRef."+n for n in "path_steps new_path missing_stops dynamic_reported static_part_reported reference_keeps reference_reports_only reference_total static_crashes static_expr_crashes static_reference_parsed new_named new_static static_property_typed_as_class class_reported_twice index_replaces_object dynamic_index_ignored computed_name_ignored unsure_not_resolved instanceof_named instanceof_variable Example.crash".split()],
  "Two forms crash (`static_crashes`, `static_expr_crashes`), and some expressions are not visited (`dynamic_index_ignored`, `computed_name_ignored`, `missing_stops`), so the full statement is false; proved: references without the two forms are visited to the end (`reference_total`), paths of properties without indexes are reported exactly.")
claim("C95", "partial", ["Keyword.Table."+n for n in "keyword_text_partial keyword_cursor keyword_no_cursor keyword_cursor_below keyword_kinds keyword_static keyword_try keyword_known".split()],
  "Missing: `static` inserts a stray `%` (`keyword_static`), and the cursor of five templates is shifted by the column of the word (`keyword_cursor_below`).")
claim("C96", "proved", ["Project."+n for n in "known_iff target_iff imports_iff imports_nodup imports_history marks_le_one marked_iff Demo.included_later_finding".split()],
  "The include expressions of a text are given as the list of their string tokens; both passes are taken to visit the same ones.")
claim("C97", "partial", ["Project."+n for n in "change_noticed up_to_date_unchanged_partial up_to_date_iff_partial mutual_never_up_to_date Demo.broken_finding Demo.mutual_finding Demo.overlap_finding".split()],
  "Proved for jobs that succeed and run one after the other: no change is missed, and without cycles of includes none is reported falsely; for every schedule a change of the file itself is noticed. False otherwise: `broken_finding`, `mutual_finding`, `overlap_finding`.")
claim("C98", "partial", [""+n for n in "token_inside edges_partial tokens_ordered range_text_partial token_text_partial range_contains_partial one_token_partial empty_node PosDemo.cast_shifts_finding PosDemo.html_end_finding PosDemo.empty_body_finding".split()],
  "Proved for texts in which no cast, `yield from` or unterminated double-quoted literal contains a line break (exactly the texts with a right line table, `line_table_iff`) and tokens other than HTML at the end of the text; false otherwise (`cast_shifts_finding`, `html_end_finding`).")
claim("C99", "partial", ["NsChoose."+n for n in "analyse_name offered_opening offered_sound offered_complete_partial offered_global upper_never ex_found ex_once upper_case_nothing one_opening_only included_missing ex_namespace".split()],
  "Nothing foreign is offered. That nothing is missing holds for names written in lower case that are opened once (`offered_complete_partial`); otherwise it is false: `upper_case_nothing`, `one_opening_only`, `included_missing`.")
claim("C100", "partial", ["Outline."+n for n in "nodes_distinct classes_sound classes_declared_partial source_classes_partial classes_not_declared second_walk_stops outline_toks".split()],
  "Nothing foreign is declared, for every file without syntax error. That nothing is missing is proved for files without `if (..): .. endif`, `declare`, an index behind an index or behind a string; in these it is false: `classes_not_declared`, `second_walk_stops`.")
claim("C101", "partial", ["Outline."+n for n in "places_sound places_declared_partial source_places_partial function_not_declared".split()],
  "Nothing foreign and nothing misplaced is declared, for every file without syntax error. That nothing is missing is proved for files without `if (..): .. endif`, `declare`, an index behind an index or behind a string; in these it is false: `function_not_declared`.")
claim("C102", "partial", ["Expr."+n for n in "value_type_partial declared_value_partial property_uses_partial signed_float class_of_unknown global_true static_not_used".split()],
  "The types are proved for all values but signed floats, `A::class` of unknown classes, and `\\true`, `\\false`, `\\null`, where they are wrong (`signed_float`, `class_of_unknown`, `global_true`). The uses are proved for properties without an index behind a string; names in static variables are never used (`static_not_used`).")
claim("C103", "partial", ["Outline."+n for n in "declarations_shown_partial run_sorted ShownDemo.cast_moves_declaration".split()],
  "Proved for all texts in which no cast, `yield from` or unterminated literal has a line break inside. For others it is false (`cast_moves_declaration`).")
claim("C104", "partial", ["Outline."+n for n in "class_scopes_partial file_placed ScopeDemo.modifier_scope ScopeDemo.cast_moves_scope".split()],
  "Proved for all texts in which no cast, `yield from` or unterminated literal has a line break inside; for others it is false (`cast_moves_scope`). That the scope begins with the modifier is part of the definition of the model and shown by an example; the theorem says that it begins with a modifier or the word in front of the name. Scopes of parameter lists and bodies of functions are not covered: that of an empty body is reversed (C98, `empty_body_finding`).")
claim("C105", "partial", ["Outline."+n for n in "bodies_partial file_scoped BodyDemo.body_scopes".split()],
  "Proved for all texts read without syntax error; the part about cursors for those in which no cast, `yield from` or unterminated literal has a line break inside (C104, `cast_moves_scope`). A function with an empty body has no such scope: its range is reversed (C98, `empty_body_finding`), so for it the statement is false. Which tokens a body consists of is read off the outline of the syntax tree in the model; the theorem says that they are delimited by braces behind the name. Not covered: scopes of parameter lists, closures and namespaces.")
