{
 "claims": [
  {
   "property": "C01",
   "status": "proved",
   "theorems": [
    "KPhp.tokens_tile"
   ],
   "note": ""
  },
  {
   "property": "C02",
   "status": "proved",
   "theorems": [
    "KPhp.nothing_lost"
   ],
   "note": ""
  },
  {
   "property": "C03",
   "status": "partial",
   "theorems": [
    "KPhp.lexing_terminates_partial",
    "KPhp.lexer_hangs"
   ],
   "note": "The full statement is false: lexer_hangs proves that `\"$a{$1\"` is tokenised forever. Proved for texts without `{$digit` and without the overread of C04."
  },
  {
   "property": "C04",
   "status": "partial",
   "theorems": [
    "KPhp.no_overread_partial",
    "KPhp.yield_overread"
   ],
   "note": "The full statement is false: yield_overread proves that `yield;` at the end of the text reads behind the terminator. Proved for texts without a `yield` near the end."
  },
  {
   "property": "C05",
   "status": "proved",
   "theorems": [
    "KPhp.modes_wf",
    "KPhp.mode_returns"
   ],
   "note": ""
  },
  {
   "property": "C06",
   "status": "proved",
   "theorems": [
    "KPhp.eof_stable"
   ],
   "note": ""
  },
  {
   "property": "C07",
   "status": "proved",
   "theorems": [
    "KPhp.halt_stops",
    "KPhp.stops_only_at_end"
   ],
   "note": ""
  },
  {
   "property": "C08",
   "status": "partial",
   "theorems": [
    "KPhp.line_table_partial",
    "KPhp.line_table_complete_partial",
    "KPhp.line_table_exact",
    "KPhp.line_table_iff",
    "KPhp.cast_line_break_lost",
    "KPhp.yield_line_break_lost",
    "KPhp.quote_line_break_shifted"
   ],
   "note": "The full statement is false for casts, `yield from` and unterminated double-quoted literals containing line breaks (three counterexample theorems); proved for runs without such tokens."
  },
  {
   "property": "C09",
   "status": "proved",
   "theorems": [
    "KPhp.keyword_is_word",
    "KPhp.word_token",
    "KPhp.static_yield_token",
    "KPhp.keyword_case_insensitive"
   ],
   "note": ""
  },
  {
   "property": "C10",
   "status": "proved",
   "theorems": [
    "KPhp.html_tokens",
    "KPhp.inline_html",
    "KPhp.open_tags"
   ],
   "note": ""
  },
  {
   "property": "C11",
   "status": "proved",
   "theorems": [
    "KPhp.close_tag_to_html"
   ],
   "note": ""
  },
  {
   "property": "C12",
   "status": "proved",
   "theorems": [
    "KPhp.string_literal"
   ],
   "note": ""
  },
  {
   "property": "C13",
   "status": "proved",
   "theorems": [
    "KPhp.comment_extent",
    "KPhp.doc_comment_extent"
   ],
   "note": ""
  },
  {
   "property": "C14",
   "status": "proved",
   "theorems": [
    "KPhp.whitespace_maximal",
    "KPhp.whitespace_not_adjacent"
   ],
   "note": ""
  },
  {
   "property": "C15",
   "status": "proved",
   "theorems": [
    "KPhp.variable_token"
   ],
   "note": ""
  },
  {
   "property": "C16",
   "status": "proved",
   "theorems": [
    "KPhp.integer_literal",
    "KPhp.decimal_literal"
   ],
   "note": ""
  },
  {
   "property": "C17",
   "status": "proved",
   "theorems": [
    "KPhp.heredoc_start",
    "KPhp.heredoc_end",
    "KPhp.heredoc_ident_kept",
    "KPhp.heredoc_matches",
    "KPhp.heredoc_recognized"
   ],
   "note": ""
  },
  {
   "property": "C18",
   "status": "proved",
   "theorems": [
    "KPhp.cast_token",
    "KPhp.paren_token"
   ],
   "note": ""
  },
  {
   "property": "C19",
   "status": "proved",
   "theorems": [
    "KPhp.stream_is_significant_tokens",
    "KPhp.stream_no_trivia",
    "KPhp.symbol_text"
   ],
   "note": ""
  },
  {
   "property": "C20",
   "status": "proved",
   "theorems": [
    "KPhp.doc_comment_attached"
   ],
   "note": ""
  },
  {
   "property": "C21",
   "status": "proved",
   "theorems": [
    "KPhp.Doc.doc_tag_values",
    "KPhp.Doc.doc_tag_lines",
    "KPhp.Doc.doc_tag_words",
    "KPhp.Doc.doc_tag_first"
   ],
   "note": "Doc.doc_tag_swallows records the quirk that a tag without a value takes the first word of the next comment line."
  },
  {
   "property": "C22",
   "status": "proved",
   "theorems": [
    "KPhp.DocType.doc_type_case_insensitive",
    "KPhp.DocType.doc_type_builtin",
    "KPhp.DocType.doc_type_self",
    "KPhp.DocType.doc_type_class",
    "KPhp.DocType.doc_type_array",
    "KPhp.DocType.doc_type_union",
    "KPhp.DocType.doc_type_nested_array"
   ],
   "note": ""
  },
  {
   "property": "C23",
   "status": "partial",
   "theorems": [
    "KPhp.TypeHint.single_hint",
    "KPhp.TypeHint.nullable_hint",
    "KPhp.TypeHint.union_hint_partial",
    "KPhp.TypeHint.union_hint_members_partial",
    "KPhp.TypeHint.first_nullable_dropped",
    "KPhp.TypeHint.unresolved_union_ub"
   ],
   "note": "The full statement is false: first_nullable_dropped shows that the nullability of the first member of a union is forgotten, unresolved_union_ub that a union with an unresolvable member dereferences a null type. Proved for unions whose members all resolve and whose first member is not nullable."
  },
  {
   "property": "C24",
   "status": "proved",
   "theorems": [
    "KPhp.TypeHint.parameter_type_priority",
    "KPhp.TypeHint.parameter_null_default",
    "KPhp.TypeHint.parameter_wrapping",
    "KPhp.TypeHint.parameter_has_type",
    "KPhp.TypeHint.property_and_return_type"
   ],
   "note": ""
  },
  {
   "property": "C25",
   "status": "proved",
   "theorems": [
    "KPhp.TypeHint.class_hint_iff",
    "KPhp.TypeHint.class_hint_resolution",
    "KPhp.TypeHint.has_class_hint_iff"
   ],
   "note": ""
  },
  {
   "property": "C26",
   "status": "proved",
   "theorems": [
    "KPhp.Names.name_case_insensitive",
    "KPhp.Names.constant_name",
    "KPhp.Names.plain_name",
    "KPhp.Names.grouped_name",
    "KPhp.Names.global_lookup",
    "KPhp.Names.relative_lookup",
    "KPhp.Names.toplevel_lookup",
    "KPhp.Names.self_lookup",
    "KPhp.Names.lookup_kind",
    "KPhp.Names.lookup_complete",
    "KPhp.Names.parent_lookup",
    "KPhp.Names.self_outside",
    "KPhp.Names.lookup_first"
   ],
   "note": ""
  },
  {
   "property": "C27",
   "status": "proved",
   "theorems": [
    "KPhp.Include.include_first_existing",
    "KPhp.Include.include_remote",
    "KPhp.Include.include_resolves_iff",
    "KPhp.Include.include_literal",
    "KPhp.Include.include_empty"
   ],
   "note": ""
  },
  {
   "property": "C28",
   "status": "proved",
   "theorems": [
    "KPhp.CodeModel.code_model_refines",
    "KPhp.CodeModel.code_model_unique",
    "KPhp.CodeModel.code_model_listed",
    "KPhp.CodeModel.code_model_most_recent",
    "KPhp.CodeModel.code_model_update_precondition"
   ],
   "note": ""
  },
  {
   "property": "C45",
   "status": "proved",
   "theorems": [
    "KPhp.encapsed_text"
   ],
   "note": ""
  },
  {
   "property": "C29",
   "status": "proved",
   "theorems": [
    "KPhp.Inheritance.imports_acyclic",
    "KPhp.Inheritance.bases_acyclic",
    "KPhp.Inheritance.base_is_ancestor",
    "KPhp.Inheritance.circular_reported_iff",
    "KPhp.Inheritance.base_method_search",
    "KPhp.Inheritance.base_cycle_after_recreation"
   ],
   "note": "The import graph is acyclic for every history. The base-class lists (stored by name) are acyclic as long as class contexts are reused over re-parses; base_cycle_after_recreation shows that otherwise they can become cyclic and the search for redeclared methods does not end."
  },
  {
   "property": "C30",
   "status": "proved",
   "theorems": [
    "KPhp.Variables.variable_type_accumulates",
    "KPhp.Variables.plain_variable_type",
    "KPhp.Variables.one_declaration",
    "KPhp.Variables.assignment_updates_newest",
    "KPhp.Variables.assign_adds",
    "KPhp.Variables.assign_reference",
    "KPhp.Variables.assign_unknown",
    "KPhp.Variables.this_reported_iff",
    "KPhp.Variables.this_array_access"
   ],
   "note": ""
  },
  {
   "property": "C31",
   "status": "partial",
   "theorems": [
    "KPhp.ReturnType.inferred_return_type_partial",
    "KPhp.ReturnType.uniform_return_type_partial",
    "KPhp.ReturnType.declared_kept_partial",
    "KPhp.ReturnType.callable_return_type",
    "KPhp.ReturnType.declared_lost",
    "KPhp.ReturnType.return_lost"
   ],
   "note": "The full statement is false: the flag saying that the return type is declared is overwritten by nested functions and not restored (declared_lost, return_lost). Proved when the nested functions, at any depth, agree with the function about having a declared return type."
  },
  {
   "property": "C32",
   "status": "proved",
   "theorems": [
    "KPhp.Members.method_reported_iff",
    "KPhp.Members.method_diagnostics",
    "KPhp.Members.method_attributes",
    "KPhp.Members.modifiers_written",
    "KPhp.Members.constant_checks",
    "KPhp.Members.property_checks",
    "KPhp.Members.nothing_reported",
    "KPhp.Members.stale_modifiers"
   ],
   "note": "For newly declared members; stale_modifiers shows that a declaration reused by a re-parse keeps attributes whose modifiers were removed."
  },
  {
   "property": "C33",
   "status": "proved",
   "theorems": [
    "KPhp.Members.reserved_iff",
    "KPhp.Members.reserved_ascii_iff"
   ],
   "note": ""
  },
  {
   "property": "C46",
   "status": "proved",
   "theorems": [
    "KPhp.Members.parameter_diagnostics",
    "KPhp.Members.default_parameters"
   ],
   "note": ""
  },
  {
   "property": "C47",
   "status": "proved",
   "theorems": [
    "KPhp.Traits.traits_composed",
    "KPhp.Traits.own_member_wins",
    "KPhp.Traits.collision_iff",
    "KPhp.Traits.importFrom_errors",
    "KPhp.Traits.insteadof_overrides",
    "KPhp.Traits.alias_declared",
    "KPhp.Traits.missing_trait_hides",
    "KPhp.Traits.aliased_original_lost",
    "KPhp.Traits.alias_of_property_crashes",
    "KPhp.Traits.alias_modifiers_reported"
   ],
   "note": "Three limits are proved beside it: an unknown trait hides the following ones, an aliased method loses its own name, aliasing a property dereferences a null pointer."
  },
  {
   "property": "C34",
   "status": "partial",
   "theorems": [
    "KPhp.Completion.override_list",
    "KPhp.Completion.override_once",
    "KPhp.Completion.override_excludes",
    "KPhp.Completion.override_nearest_partial",
    "KPhp.Completion.private_redeclaration_ignored"
   ],
   "note": "The full statement is false: a nearer private (or differently static) redeclaration does not hide the farther member (private_redeclaration_ignored). Proved when the nearer declarations of the name are not private and agree in staticness."
  },
  {
   "property": "C36",
   "status": "partial",
   "theorems": [
    "KPhp.Completion.choose_keywords",
    "KPhp.Completion.keyword_no_conflict_partial",
    "KPhp.Completion.empty_body_keywords",
    "KPhp.Completion.choose_filters",
    "KPhp.Completion.method_tokens_written",
    "KPhp.Completion.every_text_written",
    "KPhp.Completion.final_offers_abstract"
   ],
   "note": "The exact set of offered keywords is proved (choose_keywords). The claim that an offered keyword never conflicts is false for abstract after final (final_offers_abstract); it is proved for the others."
  },
  {
   "property": "C37",
   "status": "proved",
   "theorems": [
    "KPhp.Completion.enclosing_call",
    "KPhp.Completion.enclosing_call_only",
    "KPhp.Completion.enclosing_call_bounds"
   ],
   "note": ""
  },
  {
   "property": "C48",
   "status": "proved",
   "theorems": [
    "KPhp.Completion.Forbid.class_completion",
    "KPhp.Completion.Forbid.normal_completion",
    "KPhp.Completion.Forbid.variable_once",
    "KPhp.Completion.interface_list_completion",
    "KPhp.Completion.first_name_completion",
    "KPhp.Completion.argument_completion",
    "KPhp.Completion.implements_after_extends_invalid",
    "KPhp.Completion.Forbid.throw_completion",
    "KPhp.Completion.Forbid.namespace_completion",
    "KPhp.Completion.Forbid.visible_iff"
   ],
   "note": ""
  },
  {
   "property": "C49",
   "status": "proved",
   "theorems": [
    "KPhp.Completion.completion_contexts",
    "KPhp.Completion.analysis_in_bounds",
    "KPhp.Completion.lexer_opened",
    "KPhp.Completion.completion_in_bounds"
   ],
   "note": ""
  },
  {
   "property": "C50",
   "status": "partial",
   "theorems": [
    "KPhp.Completion.parent_contexts",
    "KPhp.Completion.completion_contexts",
    "KPhp.Completion.member_expression_partial",
    "KPhp.Completion.call_expression_partial",
    "KPhp.Completion.comma_in_call_invalid",
    "KPhp.Completion.second_argument_expression",
    "KPhp.Completion.call_context",
    "KPhp.Completion.no_call_context",
    "KPhp.Completion.argument_parent",
    "KPhp.Completion.spaced_argument_lost",
    "KPhp.Completion.member_in_argument",
    "KPhp.Completion.static_name"
   ],
   "note": "The chain of enclosing calls is proved for every text. The claim about the text of the expression is false when a comma stands inside parentheses before the cursor (comma_in_call_invalid, second_argument_expression); it is proved for balanced expressions without such commas."
  },
  {
   "property": "C35",
   "status": "partial",
   "theorems": [
    "KPhp.Completion.Forbid.forbid_terminates",
    "KPhp.Completion.Forbid.forbidden_iff",
    "KPhp.Completion.Forbid.inheritance_completion_partial",
    "KPhp.Completion.Forbid.inheritance_completion_files",
    "KPhp.Completion.Forbid.no_ancestor_offered",
    "KPhp.Completion.Forbid.project_classes_unfiltered",
    "KPhp.Completion.Forbid.same_name_skipped"
   ],
   "note": "Proved for the declarations visible from the cursor and those found through the code model. The classes taken from the completion code model of the project files are not filtered at all (project_classes_unfiltered), and of several declarations with the same name only one is followed (same_name_skipped)."
  },
  {
   "property": "C38",
   "status": "proved",
   "theorems": [
    "KPhp.Completion.Access.member_visible",
    "KPhp.Completion.Access.public_listed",
    "KPhp.Completion.Access.own_members_listed",
    "KPhp.Completion.Access.base_members_listed",
    "KPhp.Completion.Access.containers_of",
    "KPhp.Completion.Access.derived_object_missing",
    "KPhp.Completion.Access.containers_nested",
    "KPhp.Completion.Access.method_sees_own",
    "KPhp.Completion.Access.outside_only_public",
    "KPhp.Completion.Access.closure_in_method_hides"
   ],
   "note": "Everything offered is permitted; the converse is proved for public members, the current class and its bases, and refuted for objects of derived classes."
  },
  {
   "property": "C39",
   "status": "proved",
   "theorems": [
    "KPhp.Refactor.rename_uses",
    "KPhp.Refactor.rename_complete",
    "KPhp.Refactor.rename_unused",
    "KPhp.Refactor.rename_declarations",
    "KPhp.Refactor.rename_keeps_dollar"
   ],
   "note": ""
  },
  {
   "property": "C40",
   "status": "proved",
   "theorems": [
    "KPhp.PhpUnit.readLine_iff",
    "KPhp.PhpUnit.results_iff",
    "KPhp.PhpUnit.suite_result"
   ],
   "note": "Results are kept under the lower-case name of a case, which is the name of the cases found by the provider."
  },
  {
   "property": "C41",
   "status": "proved",
   "theorems": [
    "KPhp.ParseJob.rescheduled_iff",
    "KPhp.ParseJob.rescheduled_priority",
    "KPhp.ParseJob.skipped_iff",
    "KPhp.ParseJob.stored_features",
    "KPhp.ParseJob.runs_bounded",
    "KPhp.ParseJob.at_most_once"
   ],
   "note": ""
  },
  {
   "property": "C42",
   "status": "proved",
   "theorems": [
    "KPhp.Docs.local_pages",
    "KPhp.Docs.local_form",
    "KPhp.Docs.local_case",
    "KPhp.Docs.local_injective",
    "KPhp.Docs.local_collision",
    "KPhp.Docs.remote_pages",
    "KPhp.Docs.page_shown_iff"
   ],
   "note": "For local documentation; remote pages keep the case of the name (remote_pages)."
  },
  {
   "property": "C43",
   "status": "partial",
   "theorems": [
    "KPhp.Keyword.keyword_cursor_partial",
    "KPhp.Keyword.keyword_cursor_shifted",
    "KPhp.Keyword.keyword_plain",
    "KPhp.Keyword.keyword_selection"
   ],
   "note": "The column of the cursor is wrong if the marker stands behind a line break of the template and the completed word does not start at column 0 (keyword_cursor_shifted). Proved otherwise."
  },
  {
   "property": "C44",
   "status": "partial",
   "theorems": [
    "KPhp.Docs.word_under_cursor_partial",
    "KPhp.Docs.word_at_line_start",
    "KPhp.Docs.no_word_under_cursor",
    "KPhp.Docs.magic_constant_range"
   ],
   "note": "For a word at the beginning of a line the range starts at column -1, so that magic constants there are not recognised (word_at_line_start). Proved otherwise."
  },
  {
   "property": "C51",
   "status": "partial",
   "theorems": [
    "KPhp.Completion.Impl.override_method",
    "KPhp.Completion.Impl.override_variable",
    "KPhp.Completion.Impl.argument_list",
    "KPhp.Completion.Impl.override_modifiers",
    "KPhp.Completion.Impl.function_last_partial",
    "KPhp.Completion.Impl.function_not_last"
   ],
   "note": "If function was typed without an access modifier, the modifier is inserted behind function (function_not_last). Everything else is proved."
  },
  {
   "property": "C52",
   "status": "proved",
   "theorems": [
    "KPhp.PhpUnit.suites_found"
   ],
   "note": ""
  },
  {
   "property": "C53",
   "status": "proved",
   "theorems": [
    "KPhp.operator_token",
    "KPhp.longest_unique",
    "KPhp.element_token"
   ],
   "note": ""
  },
  {
   "property": "C54",
   "status": "proved",
   "theorems": [
    "KPhp.Completion.anything_after",
    "KPhp.Completion.member_after",
    "KPhp.Completion.nothing_after",
    "KPhp.Completion.nothing_in_open_comment",
    "KPhp.Completion.after_comment",
    "KPhp.Completion.after_open_tag",
    "KPhp.Completion.after_access",
    "KPhp.Completion.after_paren",
    "KPhp.Completion.after_instanceof_throw",
    "KPhp.Completion.after_new",
    "KPhp.Completion.file_after_include",
    "KPhp.Completion.file_only_after_include",
    "KPhp.Completion.after_qualified",
    "KPhp.Completion.after_namespace",
    "KPhp.Completion.namespace_prefix_lost"
   ],
   "note": "namespace_prefix_lost: namespaces are not offered after `namespace A\\\\`, because of the white space behind the keyword."
  },
  {
   "property": "C55",
   "status": "proved",
   "theorems": [
    "KPhp.Completion.self_access",
    "KPhp.Completion.parent_access",
    "KPhp.Completion.named_access",
    "KPhp.Completion.abstract_parent_invalid"
   ],
   "note": "abstract_parent_invalid: nothing is offered after parent:: if the parent class is abstract."
  },
  {
   "property": "C56",
   "status": "proved",
   "theorems": [
    "KPhp.Expr.type_of",
    "KPhp.Expr.closure_return",
    "KPhp.Expr.access_without_class"
   ],
   "note": "Typing rules HasType; limits of the code: $i->x keeps the type of $i if its class is unknown (access_without_class), operators without a rule have the type of their last operand."
  },
  {
   "property": "C57",
   "status": "proved",
   "theorems": [
    "KPhp.Expr.class_reported",
    "KPhp.Expr.namespace_reported",
    "KPhp.Expr.function_reported",
    "KPhp.Expr.constant_reported",
    "KPhp.Expr.variable_reported",
    "KPhp.Expr.member_reported",
    "KPhp.Expr.reported_only",
    "KPhp.Expr.declaration_not_reported",
    "KPhp.Expr.unknown_static_method",
    "KPhp.Expr.unknown_class_twice",
    "KPhp.Expr.unknown_index_not_reported"
   ],
   "note": "Limits of the code: an unknown static method is not reported (unknown_static_method), the unknown class of X::$v is reported twice (unknown_class_twice)."
  },
  {
   "property": "C58",
   "status": "proved",
   "theorems": [
    "KPhp.Expr.unresolved_iff",
    "KPhp.Expr.define_name_ignored"
   ],
   "note": ""
  },
  {
   "property": "C59",
   "status": "proved",
   "theorems": [
    "KPhp.Grammar.parse_total",
    "KPhp.Grammar.parse_bound",
    "KPhp.Grammar.parse_sound",
    "KPhp.Grammar.parse_complete",
    "KPhp.Grammar.parse_iff",
    "KPhp.Grammar.grouping_unique",
    "KPhp.Grammar.two_operators",
    "KPhp.Grammar.assign_right",
    "KPhp.Grammar.equality_not_chained",
    "KPhp.Grammar.limit_pow_groups_left",
    "KPhp.Grammar.limit_pow_as_mul",
    "KPhp.Grammar.limit_minus_pow",
    "KPhp.Grammar.limit_coalesce_left",
    "KPhp.Grammar.limit_ternary_right",
    "KPhp.Grammar.limit_instanceof",
    "KPhp.Grammar.limit_include",
    "KPhp.Grammar.limit_assign_in_operand",
    "KPhp.Grammar.limit_list_takes_one_operand",
    "KPhp.Stmt.php_expr_iff"
   ],
   "note": "For the kinds of expressions listed at the top of ExprGrammar.lean. The table is the one of php.g, which differs from PHP where the limit_ theorems say so."
  },
  {
   "property": "C60",
   "status": "proved",
   "theorems": [
    "KPhp.Grammar.assign_without_variable",
    "KPhp.Grammar.assign_has_variable",
    "KPhp.Grammar.limit_assign_to_sum",
    "KPhp.Grammar.limit_assign_to_member_of_new"
   ],
   "note": "The check is not exact: $v + 1 = 2 is accepted (limit_assign_to_sum)."
  },
  {
   "property": "C61",
   "status": "proved",
   "theorems": [
    "KPhp.Scopes.build_good"
   ],
   "note": ""
  },
  {
   "property": "C62",
   "status": "proved",
   "theorems": [
    "KPhp.Scopes.declared_in_namespace",
    "KPhp.Scopes.name_in_namespace",
    "KPhp.Scopes.found_from_everywhere",
    "KPhp.Scopes.inForce_total"
   ],
   "note": ""
  },
  {
   "property": "C63",
   "status": "proved",
   "theorems": [
    "KPhp.Denote.variable_in_function",
    "KPhp.Denote.assigned_in_function",
    "KPhp.Denote.single_declaration",
    "KPhp.Denote.parameter_denoted",
    "KPhp.Denote.this_denotes",
    "KPhp.Denote.foreach_lost",
    "KPhp.Denote.target_lost",
    "KPhp.Denote.global_lost",
    "KPhp.Denote.global_in_namespace_lost",
    "KPhp.Denote.capture_leaks"
   ],
   "note": "The negative theorems show what PHP finds and the code does not (foreach target with the name of a global, global in a namespace, $this in a closure), and a capture beyond the function."
  },
  {
   "property": "C64",
   "status": "proved",
   "theorems": [
    "KPhp.NameUses.parts_used",
    "KPhp.NameUses.use_parts_used",
    "KPhp.NameUses.choose_taken",
    "KPhp.NameUses.taken_unique",
    "KPhp.NameUses.known_not_reported",
    "KPhp.NameUses.unknown_reported",
    "KPhp.NameUses.inner_one",
    "KPhp.NameUses.fallback_hides",
    "KPhp.NameUses.use_behind_namespace",
    "KPhp.NameUses.inner_out_of_range",
    "KPhp.NameUses.inner_shifted"
   ],
   "note": "For names outside groups and names of one part in a group. The code is wrong for names of several parts in a group (inner_out_of_range, inner_shifted), and takes a class name that is unknown in its namespace for the global one (fallback_hides)."
  },
  {
   "property": "C65",
   "status": "proved",
   "theorems": [
    "KPhp.MemberDecls.method_redeclared",
    "KPhp.MemberDecls.property_redeclared",
    "KPhp.MemberDecls.property_redeclared_any",
    "KPhp.MemberDecls.constant_redeclared",
    "KPhp.MemberDecls.assigned_member",
    "KPhp.MemberDecls.upcoming_forgotten",
    "KPhp.MemberDecls.assigned_member_lost",
    "KPhp.MemberDecls.hidden_member_lost",
    "KPhp.MemberDecls.constant_after_property"
   ],
   "note": "Properties: exact in the first class of a file, and sound up to assigned members elsewhere (property_redeclared_any). The code is wrong in the cases of upcoming_forgotten, assigned_member_lost, hidden_member_lost and constant_after_property."
  },
  {
   "property": "C66",
   "status": "proved",
   "theorems": [
    "KPhp.Redeclared.codeSites_spec",
    "KPhp.Redeclared.reported_iff",
    "KPhp.Redeclared.redeclaration_sound",
    "KPhp.Redeclared.redeclaration_complete",
    "KPhp.Redeclared.upper_case_never",
    "KPhp.Redeclared.namespace_ignored"
   ],
   "note": "The code never reports a class or function with an upper-case letter in its name (upper_case_never) and mistakes namespaces (namespace_ignored)."
  },
  {
   "property": "C67",
   "status": "proved",
   "theorems": [
    "KPhp.DeclTypes.walk_types",
    "KPhp.DeclTypes.file_types",
    "KPhp.DeclTypes.constants_behind_method",
    "KPhp.DeclTypes.catch_unknown",
    "KPhp.DeclTypes.catch_unknown_assign",
    "KPhp.DeclTypes.foreach_key",
    "KPhp.DeclTypes.this_property"
   ],
   "note": "For all declarations but those marked as not sure in the specification (entries), for which the code is wrong: constants_behind_method, catch_unknown, foreach_key, this_property, and properties behind a value with a comment of its own."
  },
  {
   "property": "C68",
   "status": "proved",
   "theorems": [
    "KPhp.Stmt.file_read_iff",
    "KPhp.Stmt.file_accepted_iff",
    "KPhp.Stmt.depth_irrelevant",
    "KPhp.Stmt.run_reads",
    "KPhp.Stmt.run_compl",
    "KPhp.Stmt.php_read_iff",
    "KPhp.Stmt.all_ok_iff",
    "KPhp.Stmt.all_read_eq",
    "KPhp.Stmt.method_names",
    "KPhp.Stmt.constant_names",
    "KPhp.Stmt.function_names",
    "KPhp.Stmt.type_words",
    "KPhp.Stmt.modifier_words"
   ],
   "note": "For the grammar without error recovery, with the expressions of C59 and closures of any nesting. The theorems hold for every way to read closures; `php_read_iff` states them for the one of the code, which `all_ok_iff` and `all_read_eq` characterise."
  },
  {
   "property": "C69",
   "status": "proved",
   "theorems": [
    "KPhp.Stmt.one_reading",
    "KPhp.Stmt.php_one_reading",
    "KPhp.Stmt.else_nearest",
    "KPhp.Stmt.else_braces",
    "KPhp.Stmt.else_not_stolen"
   ],
   "note": "For the grammar of C68."
  },
  {
   "property": "C70",
   "status": "proved",
   "theorems": [
    "KPhp.Stmt.files_concat",
    "KPhp.Stmt.wrap",
    "KPhp.Stmt.unwrap",
    "KPhp.Stmt.loop_notations",
    "KPhp.Stmt.loop_ends",
    "KPhp.Stmt.if_notations"
   ],
   "note": "For the grammar of C68."
  },
  {
   "property": "C71",
   "status": "proved",
   "theorems": [
    "KPhp.Stmt.brackets_closed",
    "KPhp.Stmt.bracket_missing",
    "KPhp.Stmt.php_brackets",
    "KPhp.Stmt.php_bracket_missing"
   ],
   "note": "For the grammar of C68. bracket_missing says both directions: of two texts that differ by one bracket at most one is accepted."
  },
  {
   "property": "C72",
   "status": "proved",
   "theorems": [
    "KPhp.UseStatements.imported_unique",
    "KPhp.UseStatements.no_effect_iff",
    "KPhp.UseStatements.in_use_iff",
    "KPhp.UseStatements.declaration_bound_iff",
    "KPhp.UseStatements.namespace_bound_iff",
    "KPhp.UseStatements.bound_or_rejected",
    "KPhp.UseStatements.special_iff",
    "KPhp.UseStatements.group_ignored",
    "KPhp.UseStatements.visible_after",
    "KPhp.UseStatements.found_after",
    "KPhp.UseStatements.unbound_unchanged",
    "KPhp.UseStatements.use_is_relative",
    "KPhp.UseStatements.double_import_unreported",
    "KPhp.UseStatements.unknown_import_unreported",
    "KPhp.UseStatements.special_names_inexact"
   ],
   "note": "Names self, static and parent are excluded. The effect of an alias on lookups is the platform's, trusted (Declares.Lawful). The names of a group use A\\{B, C} are not declared at all by the code (group_ignored); the last four theorems are findings."
  },
  {
   "property": "C73",
   "status": "proved",
   "theorems": [
    "KPhp.VariableSearch.events_iff",
    "KPhp.VariableSearch.state_restored",
    "KPhp.VariableSearch.assignment_target",
    "KPhp.VariableSearch.namesVar_unique",
    "KPhp.VariableSearch.no_member_of_array",
    "KPhp.VariableSearch.and_assign_finding",
    "KPhp.VariableSearch.short_list_finding"
   ],
   "note": "Of the syntax tree only the nodes the search treats are modelled. What is then declared for the variable is the subject of C30, C63 and C65. The last two theorems are findings."
  },
  {
   "property": "C74",
   "status": "proved",
   "theorems": [
    "KPhp.VariableSearch.events_iff",
    "KPhp.VariableSearch.state_restored",
    "KPhp.VariableSearch.unpacking_reported_iff",
    "KPhp.VariableSearch.unknown_declares_nothing",
    "KPhp.VariableSearch.callee_name",
    "KPhp.VariableSearch.method_arguments_finding",
    "KPhp.VariableSearch.static_call_finding"
   ],
   "note": "Arguments of methods, new and called closures are taken to belong to the function call around them (ArgsOf.args, method_arguments_finding), C::m() to a function m (static_call_finding): findings."
  },
  {
   "property": "C75",
   "status": "proved",
   "theorems": [
    "KPhp.MemberAssign.outside_access",
    "KPhp.MemberAssign.inside_no_report",
    "KPhp.MemberAssign.this_no_report",
    "KPhp.MemberAssign.declares_iff",
    "KPhp.MemberAssign.this_takes",
    "KPhp.MemberAssign.unknown_object",
    "KPhp.MemberAssign.local_variable_taken",
    "KPhp.MemberAssign.other_class_taken",
    "KPhp.MemberAssign.subclass_redeclares",
    "KPhp.MemberAssign.local_object_ignored"
   ],
   "note": "findDeclarations of the platform is assumed to search the context, what it imports and what is around, and to stop at the first with the name. The last four theorems are findings."
  },
  {
   "property": "C76",
   "status": "proved",
   "theorems": [
    "KPhp.IncludeItem.matchHere_iff",
    "KPhp.IncludeItem.lastMatch_opening",
    "KPhp.IncludeItem.completes_statement",
    "KPhp.IncludeItem.completes_open_statement",
    "KPhp.IncludeItem.completes_at_blank",
    "KPhp.IncludeItem.execute_twice",
    "KPhp.IncludeItem.rest_kept",
    "KPhp.IncludeItem.cursor_behind_slash",
    "KPhp.IncludeItem.unknown_opening",
    "KPhp.IncludeItem.unclosed_string",
    "KPhp.IncludeItem.dir_constant_finding",
    "KPhp.IncludeItem.earlier_include_finding",
    "KPhp.IncludeItem.second_parenthesis_finding"
   ],
   "note": "QRegExp is modelled by its documented meaning; KTextEditor is trusted to end a range at the end of its line. The last five theorems are findings."
  },
  {
   "property": "C77",
   "status": "proved",
   "theorems": [
    "KPhp.FileChoose.denotes_iff",
    "KPhp.FileChoose.includes_iff",
    "KPhp.FileChoose.offered_directory",
    "KPhp.FileChoose.offered_iff",
    "KPhp.FileChoose.offered_once",
    "KPhp.FileChoose.chosen_included",
    "KPhp.FileChoose.chosen_included_dirname",
    "KPhp.FileChoose.two_dots_finding",
    "KPhp.FileChoose.no_slash_finding",
    "KPhp.FileChoose.parent_without_slash_finding",
    "KPhp.FileChoose.parent_twice_finding"
   ],
   "note": "KDevelop::Path and the project model are trusted as described in the file. The last four theorems are findings."
  },
  {
   "property": "C78",
   "status": "proved",
   "theorems": [
    "KPhp.Todo.notes_lines",
    "KPhp.Todo.note_text",
    "KPhp.Todo.isDeco_iff",
    "KPhp.Todo.isDot_iff",
    "KPhp.Todo.file_hints",
    "KPhp.Todo.hint_position",
    "KPhp.Todo.no_markers_note"
   ],
   "note": "The meaning of the regular expression (PCRE) and the line table of kdevelop-pg are trusted as described in the file. `no_markers_note` and the negative half of `hint_position` are findings."
  },
  {
   "property": "C79",
   "status": "partial",
   "theorems": [
    "KPhp.Reparse.declare_attrs",
    "KPhp.Reparse.taken_over_iff",
    "KPhp.Reparse.parse_again_iff",
    "KPhp.Reparse.parse_again_problems",
    "KPhp.Reparse.history_first_partial",
    "KPhp.Reparse.kept_attrs",
    "KPhp.Reparse.constant_right",
    "KPhp.Reparse.class_kept",
    "KPhp.Reparse.removed_abstract_finding"
   ],
   "note": "False of the code where a member keeps its place (line and columns) and loses a modifier: `kept_attrs` and `class_kept` say what it then has, `removed_abstract_finding` is a case where an error is not reported. Proved: for every other history (`history_first_partial`), and exactly for them (`parse_again_iff`). KDevPlatform's reuse of declarations is trusted as described in the file."
  },
  {
   "property": "C80",
   "status": "partial",
   "theorems": [
    "KPhp.Insert.range_typed",
    "KPhp.Insert.typed_exists",
    "KPhp.Insert.execute_replaces",
    "KPhp.Insert.range_grows",
    "KPhp.Insert.stays_open_iff",
    "KPhp.Insert.open_while_typing",
    "KPhp.Insert.means_iff",
    "KPhp.Insert.chosen_means_partial",
    "KPhp.Insert.variable_chosen",
    "KPhp.Insert.static_method_this",
    "KPhp.Insert.closure_member",
    "KPhp.Insert.static_constant_value",
    "KPhp.Insert.other_namespace"
   ],
   "note": "Range and replacement are proved fully. The meaning of the text is false of the code in the cases the exact `means_iff` names: members chosen in a static method, a closure or the body of the class, static properties whose type is constant, classes of other namespaces. The word around the cursor (KTextEditor) is trusted; the parentheses added behind functions by the platform are not modelled."
  },
  {
   "property": "C81",
   "status": "partial",
   "theorems": [
    "KPhp.CallTips.local_offered_iff_partial",
    "KPhp.CallTips.no_foreign_variable",
    "KPhp.CallTips.offered_once",
    "KPhp.CallTips.hidden_by_property"
   ],
   "note": "False of the code where something else with the same name is declared further outside: the loop starts with the outermost declarations, so that a property or constant of that name suppresses the local variable (`hidden_by_property`). `local_offered_iff_partial` is exact. The order of `DUContext::allDeclarations` is trusted."
  },
  {
   "property": "C82",
   "status": "partial",
   "theorems": [
    "KPhp.CallTips.valid_iff",
    "KPhp.CallTips.mem_findIn",
    "KPhp.CallTips.constructor_nearest",
    "KPhp.CallTips.old_constructor",
    "KPhp.CallTips.no_constructor",
    "KPhp.CallTips.tip_iff_partial",
    "KPhp.CallTips.tips_in_order",
    "KPhp.CallTips.class_behind",
    "KPhp.CallTips.function_for_class",
    "KPhp.CallTips.private_in_closure"
   ],
   "note": "Exact (`tip_iff_partial`, `constructor_nearest`, `no_constructor`). False of the code: no tip for a class declared behind the cursor (`class_behind`) or a private method called in a closure (`private_in_closure`); the tip of a function for a class of the same name without constructor (`function_for_class`). Which calls enclose the cursor is C50."
  },
  {
   "property": "C83",
   "status": "partial",
   "theorems": [
    "KPhp.Walk.analysed_lost",
    "KPhp.Walk.complete_iff",
    "KPhp.Walk.file_lost",
    "KPhp.Walk.file_complete_partial",
    "KPhp.Walk.braces_else",
    "KPhp.Walk.colon_else",
    "KPhp.Walk.declare_body",
    "KPhp.Walk.static_value"
   ],
   "note": "False of the code for the `elseif`/`else` parts of `if (\u2026):`, the statements of `declare`, and the values of static variables and in `declare`; `analysed_lost` says exactly what is lost, `file_complete_partial` that a file without `endif`, `declare` and `static` is analysed completely. Double visits (variables of `foreach`, `unset`, traits with aliases) are not modelled."
  },
  {
   "property": "C84",
   "status": "partial",
   "theorems": [
    "KPhp.Expr.Closures.closure_returns",
    "KPhp.Expr.Closures.hinted",
    "KPhp.Expr.Closures.no_exit",
    "KPhp.Expr.Closures.last_return",
    "KPhp.Expr.Closures.last_yield",
    "KPhp.Expr.Closures.uniform_partial",
    "KPhp.Expr.Closures.first_forgotten",
    "KPhp.Expr.Closures.inner_function",
    "KPhp.Expr.Closures.yield_return",
    "KPhp.Expr.Closures.inner_closure"
   ],
   "note": "False of the code: only the last `return` counts (`first_forgotten`), also if it stands in a function declared inside (`inner_function`) or behind a `yield` (`yield_return`). `closure_returns` says exactly which exit decides; `uniform_partial` is the claim where all exits are returns of one type. The types of the arguments of a closure are those of C24."
  },
  {
   "property": "C85",
   "status": "partial",
   "theorems": [
    "KPhp.Define.constant_iff",
    "KPhp.Define.literal_constant_partial",
    "KPhp.Define.other_function",
    "KPhp.Define.concatenated",
    "KPhp.Define.computed",
    "KPhp.Define.declared_in",
    "KPhp.Define.not_global"
   ],
   "note": "Exact (`constant_iff`, `declared_in`). False of the code: for a name put together or computed, the last string in the argument is declared (`concatenated`, `computed`); in a namespace the constant is declared in the namespace (`not_global`). Redeclarations are C66."
  },
  {
   "property": "C86",
   "status": "proved",
   "theorems": [
    "KPhp.Define.yields_reported"
   ],
   "note": "Hypotheses: distinct tokens (as C61) and no `yield` in the variable list `use (\u2026)` of a closure, which the grammar does not allow."
  },
  {
   "property": "C87",
   "status": "partial",
   "theorems": [
    "KPhp.Errors.expectedSymbol_exact",
    "KPhp.Errors.expectedSymbol_noPercent",
    "KPhp.Errors.unexpected_exact",
    "KPhp.Errors.expectedToken_exact_partial",
    "KPhp.Errors.marker_in_text",
    "KPhp.Errors.marker_in_text'",
    "KPhp.Errors.report_iff",
    "KPhp.Errors.report_none"
   ],
   "note": "Proved for every token text without a place marker numbered up to 7, and for the two one-argument messages without any restriction. The full statement is false of the code: the text of the token is inserted first and then searched for markers (`marker_in_text`)."
  },
  {
   "property": "C88",
   "status": "partial",
   "theorems": [
    "KPhp.MagicConstant.class_value",
    "KPhp.MagicConstant.namespace_value",
    "KPhp.MagicConstant.function_value",
    "KPhp.MagicConstant.file_value",
    "KPhp.MagicConstant.method_value_partial",
    "KPhp.MagicConstant.method_none",
    "KPhp.MagicConstant.method_hangs",
    "KPhp.MagicConstant.class_lowered"
   ],
   "note": "Proved: the value of every constant from the bodies around the position, exactly. The full statement is false of the code: in a function that is not a method, or in a closure, the loop for __METHOD__ never ends (`method_hangs`); classes and namespaces appear in lower case and a namespace without its outer components."
  },
  {
   "property": "C89",
   "status": "proved",
   "theorems": [
    "KPhp.Navigation.function_tip",
    "KPhp.Navigation.escape_safe",
    "KPhp.Navigation.escape_shown",
    "KPhp.Navigation.class_tip",
    "KPhp.Navigation.unknown_base",
    "KPhp.Navigation.interface_implements"
   ],
   "note": "The interfaces that an interface extends are shown after `implements` (`interface_implements`)."
  },
  {
   "property": "C90",
   "status": "partial",
   "theorems": [
    "KPhp.DocsList.rows",
    "KPhp.DocsList.shown_plain_partial",
    "KPhp.DocsList.shown_noargs",
    "KPhp.DocsList.shown_unsure"
   ],
   "note": "Proved for return types of one word. The full statement is false of the code: a function with several return types is shown as an empty line (`shown_unsure`)."
  },
  {
   "property": "C91",
   "status": "partial",
   "theorems": [
    "KPhp.Completion.Highlight.highlighting_partial",
    "KPhp.Completion.Highlight.highlighted_text",
    "KPhp.Completion.Highlight.last_too_long"
   ],
   "note": "Proved for all pieces but the length of the last. The full statement is false of the code: the last piece has the length of the whole text (`last_too_long`)."
  },
  {
   "property": "C92",
   "status": "proved",
   "theorems": [
    "KPhp.reading_tokens",
    "KPhp.reading_unique",
    "KPhp.layout_tokens",
    "KPhp.text_read_iff",
    "KPhp.layout_tree",
    "KPhp.readAs_unique",
    "KPhp.keyword_piece",
    "KPhp.tree_written",
    "KPhp.arrow_blank_matters",
    "KPhp.static_comment_matters",
    "KPhp.yield_from_word",
    "KPhp.radix_literals",
    "KPhp.Strings.source_tokens",
    "KPhp.Strings.source_unique",
    "KPhp.Strings.source_of_reading",
    "KPhp.Strings.source_read_iff",
    "KPhp.Strings.curly_corners",
    "KPhp.Strings.index_corners",
    "KPhp.Strings.heredoc_corner"
   ],
   "note": "The lexical grammar leaves out __halt_compiler, heredocs inside an interpolation, `?>` inside an interpolation, characters no token begins with, and elements cut off by the end of the text. `->name` and `yield from` are single elements, `static` and `yield` depend on what follows: `arrow_blank_matters`, `static_comment_matters` and `yield_from_word` show that layout does matter there."
  },
  {
   "property": "C93",
   "status": "proved",
   "theorems": [
    "KPhp.TypeId.equals_iff",
    "KPhp.TypeId.equals_refl",
    "KPhp.TypeId.equals_symm",
    "KPhp.TypeId.equals_trans",
    "KPhp.TypeId.hash_of_equals",
    "KPhp.TypeId.same_index_iff",
    "KPhp.TypeId.index_keeps",
    "KPhp.TypeId.container_shown",
    "KPhp.TypeId.long_container_shown",
    "KPhp.TypeId.class_shown",
    "KPhp.TypeId.kinds_shown",
    "KPhp.TypeId.container_name_shown",
    "KPhp.TypeId.entries_after_add",
    "KPhp.TypeId.entries_after_replace",
    "KPhp.TypeId.first_writing_shown",
    "KPhp.TypeId.first_entry_not_hashed"
   ],
   "note": "KDevPlatform's `StructureType::equals`/`IntegralType::equals` (class, modifiers, declaration) and its repository are trusted as described in the module; removal of unreferenced types is not modelled."
  },
  {
   "property": "C94",
   "status": "partial",
   "theorems": [
    "KPhp.Expr.NewRef.path_steps",
    "KPhp.Expr.NewRef.new_path",
    "KPhp.Expr.NewRef.missing_stops",
    "KPhp.Expr.NewRef.dynamic_reported",
    "KPhp.Expr.NewRef.static_part_reported",
    "KPhp.Expr.NewRef.reference_keeps",
    "KPhp.Expr.NewRef.reference_reports_only",
    "KPhp.Expr.NewRef.reference_total",
    "KPhp.Expr.NewRef.static_crashes",
    "KPhp.Expr.NewRef.static_expr_crashes",
    "KPhp.Expr.NewRef.static_reference_parsed",
    "KPhp.Expr.NewRef.new_named",
    "KPhp.Expr.NewRef.new_static",
    "KPhp.Expr.NewRef.static_property_typed_as_class",
    "KPhp.Expr.NewRef.class_reported_twice",
    "KPhp.Expr.NewRef.index_replaces_object",
    "KPhp.Expr.NewRef.dynamic_index_ignored",
    "KPhp.Expr.NewRef.computed_name_ignored",
    "KPhp.Expr.NewRef.unsure_not_resolved",
    "KPhp.Expr.NewRef.instanceof_named",
    "KPhp.Expr.NewRef.instanceof_variable",
    "KPhp.Expr.NewRef.Example.crash"
   ],
   "note": "Two forms crash (`static_crashes`, `static_expr_crashes`), and some expressions are not visited (`dynamic_index_ignored`, `computed_name_ignored`, `missing_stops`), so the full statement is false; proved: references without the two forms are visited to the end (`reference_total`), paths of properties without indexes are reported exactly."
  },
  {
   "property": "C95",
   "status": "partial",
   "theorems": [
    "KPhp.Keyword.Table.keyword_text_partial",
    "KPhp.Keyword.Table.keyword_cursor",
    "KPhp.Keyword.Table.keyword_no_cursor",
    "KPhp.Keyword.Table.keyword_cursor_below",
    "KPhp.Keyword.Table.keyword_kinds",
    "KPhp.Keyword.Table.keyword_static",
    "KPhp.Keyword.Table.keyword_try",
    "KPhp.Keyword.Table.keyword_known"
   ],
   "note": "Missing: `static` inserts a stray `%` (`keyword_static`), and the cursor of five templates is shifted by the column of the word (`keyword_cursor_below`)."
  },
  {
   "property": "C96",
   "status": "proved",
   "theorems": [
    "KPhp.Project.known_iff",
    "KPhp.Project.target_iff",
    "KPhp.Project.imports_iff",
    "KPhp.Project.imports_nodup",
    "KPhp.Project.imports_history",
    "KPhp.Project.marks_le_one",
    "KPhp.Project.marked_iff",
    "KPhp.Project.Demo.included_later_finding"
   ],
   "note": "The include expressions of a text are given as the list of their string tokens; both passes are taken to visit the same ones."
  },
  {
   "property": "C97",
   "status": "partial",
   "theorems": [
    "KPhp.Project.change_noticed",
    "KPhp.Project.up_to_date_unchanged_partial",
    "KPhp.Project.up_to_date_iff_partial",
    "KPhp.Project.mutual_never_up_to_date",
    "KPhp.Project.Demo.broken_finding",
    "KPhp.Project.Demo.mutual_finding",
    "KPhp.Project.Demo.overlap_finding"
   ],
   "note": "Proved for jobs that succeed and run one after the other: no change is missed, and without cycles of includes none is reported falsely; for every schedule a change of the file itself is noticed. False otherwise: `broken_finding`, `mutual_finding`, `overlap_finding`."
  },
  {
   "property": "C98",
   "status": "partial",
   "theorems": [
    "KPhp.token_inside",
    "KPhp.edges_partial",
    "KPhp.tokens_ordered",
    "KPhp.range_text_partial",
    "KPhp.token_text_partial",
    "KPhp.range_contains_partial",
    "KPhp.one_token_partial",
    "KPhp.empty_node",
    "KPhp.PosDemo.cast_shifts_finding",
    "KPhp.PosDemo.html_end_finding",
    "KPhp.PosDemo.empty_body_finding"
   ],
   "note": "Proved for texts in which no cast, `yield from` or unterminated double-quoted literal contains a line break (exactly the texts with a right line table, `line_table_iff`) and tokens other than HTML at the end of the text; false otherwise (`cast_shifts_finding`, `html_end_finding`)."
  },
  {
   "property": "C99",
   "status": "partial",
   "theorems": [
    "KPhp.NsChoose.analyse_name",
    "KPhp.NsChoose.offered_opening",
    "KPhp.NsChoose.offered_sound",
    "KPhp.NsChoose.offered_complete_partial",
    "KPhp.NsChoose.offered_global",
    "KPhp.NsChoose.upper_never",
    "KPhp.NsChoose.ex_found",
    "KPhp.NsChoose.ex_once",
    "KPhp.NsChoose.upper_case_nothing",
    "KPhp.NsChoose.one_opening_only",
    "KPhp.NsChoose.included_missing",
    "KPhp.NsChoose.ex_namespace"
   ],
   "note": "Nothing foreign is offered. That nothing is missing holds for names written in lower case that are opened once (`offered_complete_partial`); otherwise it is false: `upper_case_nothing`, `one_opening_only`, `included_missing`."
  },
  {
   "property": "C100",
   "status": "partial",
   "theorems": [
    "KPhp.Outline.nodes_distinct",
    "KPhp.Outline.classes_sound",
    "KPhp.Outline.classes_declared_partial",
    "KPhp.Outline.source_classes_partial",
    "KPhp.Outline.classes_not_declared",
    "KPhp.Outline.second_walk_stops",
    "KPhp.Outline.outline_toks"
   ],
   "note": "Nothing foreign is declared, for every file without syntax error. That nothing is missing is proved for files without `if (..): .. endif`, `declare`, an index behind an index or behind a string; in these it is false: `classes_not_declared`, `second_walk_stops`."
  },
  {
   "property": "C101",
   "status": "partial",
   "theorems": [
    "KPhp.Outline.places_sound",
    "KPhp.Outline.places_declared_partial",
    "KPhp.Outline.source_places_partial",
    "KPhp.Outline.function_not_declared"
   ],
   "note": "Nothing foreign and nothing misplaced is declared, for every file without syntax error. That nothing is missing is proved for files without `if (..): .. endif`, `declare`, an index behind an index or behind a string; in these it is false: `function_not_declared`."
  },
  {
   "property": "C102",
   "status": "partial",
   "theorems": [
    "KPhp.Expr.value_type_partial",
    "KPhp.Expr.declared_value_partial",
    "KPhp.Expr.property_uses_partial",
    "KPhp.Expr.signed_float",
    "KPhp.Expr.class_of_unknown",
    "KPhp.Expr.global_true",
    "KPhp.Expr.static_not_used"
   ],
   "note": "The types are proved for all values but signed floats, `A::class` of unknown classes, and `\\true`, `\\false`, `\\null`, where they are wrong (`signed_float`, `class_of_unknown`, `global_true`). The uses are proved for properties without an index behind a string; names in static variables are never used (`static_not_used`)."
  },
  {
   "property": "C103",
   "status": "partial",
   "theorems": [
    "KPhp.Outline.declarations_shown_partial",
    "KPhp.Outline.run_sorted",
    "KPhp.Outline.ShownDemo.cast_moves_declaration"
   ],
   "note": "Proved for all texts in which no cast, `yield from` or unterminated literal has a line break inside. For others it is false (`cast_moves_declaration`)."
  },
  {
   "property": "C104",
   "status": "partial",
   "theorems": [
    "KPhp.Outline.class_scopes_partial",
    "KPhp.Outline.file_placed",
    "KPhp.Outline.ScopeDemo.modifier_scope",
    "KPhp.Outline.ScopeDemo.cast_moves_scope"
   ],
   "note": "Proved for all texts in which no cast, `yield from` or unterminated literal has a line break inside; for others it is false (`cast_moves_scope`). That the scope begins with the modifier is part of the definition of the model and shown by an example; the theorem says that it begins with a modifier or the word in front of the name. Scopes of parameter lists and bodies of functions are not covered: that of an empty body is reversed (C98, `empty_body_finding`)."
  },
  {
   "property": "C105",
   "status": "partial",
   "theorems": [
    "KPhp.Outline.bodies_partial",
    "KPhp.Outline.file_scoped",
    "KPhp.Outline.BodyDemo.body_scopes"
   ],
   "note": "Proved for all texts read without syntax error; the part about cursors for those in which no cast, `yield from` or unterminated literal has a line break inside (C104, `cast_moves_scope`). A function with an empty body has no such scope: its range is reversed (C98, `empty_body_finding`), so for it the statement is false. Which tokens a body consists of is read off the outline of the syntax tree in the model; the theorem says that they are delimited by braces behind the name. Not covered: scopes of parameter lists, closures and namespaces."
  }
 ]
}