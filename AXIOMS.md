# Axioms of the theorems of MANIFEST.json

Generated by `axioms.py` with `#print axioms`.

| Theorem | Axioms |
|---|---|
| `KPhp.tokens_tile` | propext, Classical.choice, Quot.sound |
| `KPhp.nothing_lost` | propext, Classical.choice, Quot.sound |
| `KPhp.lexing_terminates_partial` | propext, Classical.choice, Quot.sound |
| `KPhp.lexer_hangs` | propext, Quot.sound |
| `KPhp.no_overread_partial` | propext, Classical.choice, Quot.sound |
| `KPhp.yield_overread` | propext |
| `KPhp.modes_wf` | propext, Classical.choice, Quot.sound |
| `KPhp.mode_returns` | propext, Classical.choice, Quot.sound |
| `KPhp.eof_stable` | propext, Classical.choice, Quot.sound |
| `KPhp.halt_stops` | propext, Classical.choice, Quot.sound |
| `KPhp.stops_only_at_end` | propext, Classical.choice, Quot.sound |
| `KPhp.line_table_partial` | propext, Classical.choice, Quot.sound |
| `KPhp.line_table_complete_partial` | propext, Classical.choice, Quot.sound |
| `KPhp.line_table_exact` | propext, Classical.choice, Quot.sound |
| `KPhp.line_table_iff` | propext, Classical.choice, Quot.sound |
| `KPhp.cast_line_break_lost` | propext |
| `KPhp.yield_line_break_lost` | propext |
| `KPhp.quote_line_break_shifted` | propext |
| `KPhp.keyword_is_word` | propext, Classical.choice, Quot.sound |
| `KPhp.word_token` | propext, Classical.choice, Quot.sound |
| `KPhp.static_yield_token` | propext, Classical.choice, Quot.sound |
| `KPhp.keyword_case_insensitive` | propext, Classical.choice, Quot.sound |
| `KPhp.html_tokens` | propext, Classical.choice, Quot.sound |
| `KPhp.inline_html` | propext, Classical.choice, Quot.sound |
| `KPhp.open_tags` | propext, Classical.choice, Quot.sound |
| `KPhp.close_tag_to_html` | propext, Classical.choice, Quot.sound |
| `KPhp.string_literal` | propext, Classical.choice, Quot.sound |
| `KPhp.comment_extent` | propext, Classical.choice, Quot.sound |
| `KPhp.doc_comment_extent` | propext, Classical.choice, Quot.sound |
| `KPhp.whitespace_maximal` | propext, Classical.choice, Quot.sound |
| `KPhp.whitespace_not_adjacent` | propext, Classical.choice, Quot.sound |
| `KPhp.variable_token` | propext, Classical.choice, Quot.sound |
| `KPhp.integer_literal` | propext, Classical.choice, Quot.sound |
| `KPhp.decimal_literal` | propext, Classical.choice, Quot.sound |
| `KPhp.heredoc_start` | propext, Classical.choice, Quot.sound |
| `KPhp.heredoc_end` | propext, Classical.choice, Quot.sound |
| `KPhp.heredoc_ident_kept` | propext, Classical.choice, Quot.sound |
| `KPhp.heredoc_matches` | propext, Classical.choice, Quot.sound |
| `KPhp.heredoc_recognized` | propext, Classical.choice, Quot.sound |
| `KPhp.cast_token` | propext, Classical.choice, Quot.sound |
| `KPhp.paren_token` | propext, Classical.choice, Quot.sound |
| `KPhp.stream_is_significant_tokens` | propext, Classical.choice, Quot.sound |
| `KPhp.stream_no_trivia` | propext, Classical.choice, Quot.sound |
| `KPhp.symbol_text` | propext, Classical.choice, Quot.sound |
| `KPhp.doc_comment_attached` | propext, Classical.choice, Quot.sound |
| `KPhp.Doc.doc_tag_values` | propext, Quot.sound |
| `KPhp.Doc.doc_tag_lines` | propext, Quot.sound |
| `KPhp.Doc.doc_tag_words` | propext, Quot.sound |
| `KPhp.Doc.doc_tag_first` | propext, Quot.sound |
| `KPhp.DocType.doc_type_case_insensitive` | propext, Classical.choice, Quot.sound |
| `KPhp.DocType.doc_type_builtin` | propext, Classical.choice, Quot.sound |
| `KPhp.DocType.doc_type_self` | propext, Classical.choice, Quot.sound |
| `KPhp.DocType.doc_type_class` | propext, Quot.sound |
| `KPhp.DocType.doc_type_array` | propext, Quot.sound |
| `KPhp.DocType.doc_type_union` | propext, Quot.sound |
| `KPhp.DocType.doc_type_nested_array` | propext, Quot.sound |
| `KPhp.TypeHint.single_hint` | propext, Quot.sound |
| `KPhp.TypeHint.nullable_hint` | propext, Quot.sound |
| `KPhp.TypeHint.union_hint_partial` | propext, Quot.sound |
| `KPhp.TypeHint.union_hint_members_partial` | propext, Quot.sound |
| `KPhp.TypeHint.first_nullable_dropped` | propext |
| `KPhp.TypeHint.unresolved_union_ub` | propext, Quot.sound |
| `KPhp.TypeHint.parameter_type_priority` | propext, Quot.sound |
| `KPhp.TypeHint.parameter_null_default` | propext, Quot.sound |
| `KPhp.TypeHint.parameter_wrapping` | propext, Quot.sound |
| `KPhp.TypeHint.parameter_has_type` | propext, Quot.sound |
| `KPhp.TypeHint.property_and_return_type` | propext |
| `KPhp.TypeHint.class_hint_iff` | propext, Quot.sound |
| `KPhp.TypeHint.class_hint_resolution` | propext, Quot.sound |
| `KPhp.TypeHint.has_class_hint_iff` | propext, Quot.sound |
| `KPhp.Names.name_case_insensitive` | propext, Quot.sound |
| `KPhp.Names.constant_name` | propext |
| `KPhp.Names.plain_name` | propext |
| `KPhp.Names.grouped_name` | propext |
| `KPhp.Names.global_lookup` | propext, Quot.sound |
| `KPhp.Names.relative_lookup` | propext, Quot.sound |
| `KPhp.Names.toplevel_lookup` | propext, Quot.sound |
| `KPhp.Names.self_lookup` | propext, Classical.choice, Quot.sound |
| `KPhp.Names.lookup_kind` | propext, Quot.sound |
| `KPhp.Names.lookup_complete` | propext, Quot.sound |
| `KPhp.Names.parent_lookup` | propext, Quot.sound |
| `KPhp.Names.self_outside` | propext, Classical.choice, Quot.sound |
| `KPhp.Names.lookup_first` | propext, Quot.sound |
| `KPhp.Include.include_first_existing` | propext, Quot.sound |
| `KPhp.Include.include_remote` | propext, Quot.sound |
| `KPhp.Include.include_resolves_iff` | propext, Quot.sound |
| `KPhp.Include.include_literal` | propext, Quot.sound |
| `KPhp.Include.include_empty` | — |
| `KPhp.CodeModel.code_model_refines` | propext, Classical.choice, Quot.sound |
| `KPhp.CodeModel.code_model_unique` | propext, Classical.choice, Quot.sound |
| `KPhp.CodeModel.code_model_listed` | propext, Classical.choice, Quot.sound |
| `KPhp.CodeModel.code_model_most_recent` | propext, Classical.choice, Quot.sound |
| `KPhp.CodeModel.code_model_update_precondition` | propext, Classical.choice, Quot.sound |
| `KPhp.encapsed_text` | propext, Classical.choice, Quot.sound |
| `KPhp.Inheritance.imports_acyclic` | propext, Classical.choice, Quot.sound |
| `KPhp.Inheritance.bases_acyclic` | propext, Classical.choice, Quot.sound |
| `KPhp.Inheritance.base_is_ancestor` | propext, Classical.choice, Quot.sound |
| `KPhp.Inheritance.circular_reported_iff` | propext, Classical.choice, Quot.sound |
| `KPhp.Inheritance.base_method_search` | propext, Classical.choice, Quot.sound |
| `KPhp.Inheritance.base_cycle_after_recreation` | propext, Classical.choice, Quot.sound |
| `KPhp.Variables.variable_type_accumulates` | propext, Quot.sound |
| `KPhp.Variables.plain_variable_type` | propext, Classical.choice, Quot.sound |
| `KPhp.Variables.one_declaration` | propext, Quot.sound |
| `KPhp.Variables.assignment_updates_newest` | propext, Quot.sound |
| `KPhp.Variables.assign_adds` | propext |
| `KPhp.Variables.assign_reference` | propext |
| `KPhp.Variables.assign_unknown` | propext |
| `KPhp.Variables.this_reported_iff` | propext, Quot.sound |
| `KPhp.Variables.this_array_access` | propext, Classical.choice, Quot.sound |
| `KPhp.ReturnType.inferred_return_type_partial` | propext, Quot.sound |
| `KPhp.ReturnType.uniform_return_type_partial` | propext |
| `KPhp.ReturnType.declared_kept_partial` | propext |
| `KPhp.ReturnType.callable_return_type` | propext |
| `KPhp.ReturnType.declared_lost` | propext |
| `KPhp.ReturnType.return_lost` | propext |
| `KPhp.Members.method_reported_iff` | propext, Quot.sound |
| `KPhp.Members.method_diagnostics` | propext |
| `KPhp.Members.method_attributes` | propext, Quot.sound |
| `KPhp.Members.modifiers_written` | propext |
| `KPhp.Members.constant_checks` | propext |
| `KPhp.Members.property_checks` | propext |
| `KPhp.Members.nothing_reported` | propext |
| `KPhp.Members.stale_modifiers` | — |
| `KPhp.Members.reserved_iff` | propext, Quot.sound |
| `KPhp.Members.reserved_ascii_iff` | propext, Quot.sound |
| `KPhp.Members.parameter_diagnostics` | propext, Quot.sound |
| `KPhp.Members.default_parameters` | propext |
| `KPhp.Traits.traits_composed` | propext, Classical.choice, Quot.sound |
| `KPhp.Traits.own_member_wins` | propext, Classical.choice, Quot.sound |
| `KPhp.Traits.collision_iff` | propext, Quot.sound |
| `KPhp.Traits.importFrom_errors` | propext, Quot.sound |
| `KPhp.Traits.insteadof_overrides` | propext, Quot.sound |
| `KPhp.Traits.alias_declared` | propext |
| `KPhp.Traits.missing_trait_hides` | propext, Quot.sound |
| `KPhp.Traits.aliased_original_lost` | propext, Classical.choice, Quot.sound |
| `KPhp.Traits.alias_of_property_crashes` | propext |
| `KPhp.Traits.alias_modifiers_reported` | propext, Quot.sound |
| `KPhp.Completion.override_list` | propext, Classical.choice, Quot.sound |
| `KPhp.Completion.override_once` | propext, Classical.choice, Quot.sound |
| `KPhp.Completion.override_excludes` | propext, Classical.choice, Quot.sound |
| `KPhp.Completion.override_nearest_partial` | propext, Classical.choice, Quot.sound |
| `KPhp.Completion.private_redeclaration_ignored` | propext |
| `KPhp.Completion.choose_keywords` | propext, Classical.choice, Quot.sound |
| `KPhp.Completion.keyword_no_conflict_partial` | propext, Classical.choice, Quot.sound |
| `KPhp.Completion.empty_body_keywords` | — |
| `KPhp.Completion.choose_filters` | propext, Quot.sound |
| `KPhp.Completion.method_tokens_written` | propext, Classical.choice, Quot.sound |
| `KPhp.Completion.every_text_written` | propext, Classical.choice, Quot.sound |
| `KPhp.Completion.final_offers_abstract` | propext, Classical.choice, Quot.sound |
| `KPhp.Completion.enclosing_call` | propext |
| `KPhp.Completion.enclosing_call_only` | propext, Quot.sound |
| `KPhp.Completion.enclosing_call_bounds` | propext, Quot.sound |
| `KPhp.Completion.Forbid.class_completion` | propext, Quot.sound |
| `KPhp.Completion.Forbid.normal_completion` | propext, Quot.sound |
| `KPhp.Completion.Forbid.variable_once` | propext, Quot.sound |
| `KPhp.Completion.interface_list_completion` | propext, Quot.sound |
| `KPhp.Completion.first_name_completion` | propext, Quot.sound |
| `KPhp.Completion.argument_completion` | propext, Quot.sound |
| `KPhp.Completion.implements_after_extends_invalid` | propext, Quot.sound |
| `KPhp.Completion.Forbid.throw_completion` | propext, Quot.sound |
| `KPhp.Completion.Forbid.namespace_completion` | propext |
| `KPhp.Completion.Forbid.visible_iff` | propext, Quot.sound |
| `KPhp.Completion.completion_contexts` | propext, Classical.choice, Quot.sound |
| `KPhp.Completion.analysis_in_bounds` | propext, Classical.choice, Quot.sound |
| `KPhp.Completion.lexer_opened` | propext, Classical.choice, Quot.sound |
| `KPhp.Completion.completion_in_bounds` | propext, Classical.choice, Quot.sound |
| `KPhp.Completion.parent_contexts` | propext, Classical.choice, Quot.sound |
| `KPhp.Completion.member_expression_partial` | propext, Quot.sound |
| `KPhp.Completion.call_expression_partial` | propext, Classical.choice, Quot.sound |
| `KPhp.Completion.comma_in_call_invalid` | propext |
| `KPhp.Completion.second_argument_expression` | propext |
| `KPhp.Completion.call_context` | propext, Classical.choice, Quot.sound |
| `KPhp.Completion.no_call_context` | propext, Quot.sound |
| `KPhp.Completion.argument_parent` | propext, Quot.sound |
| `KPhp.Completion.spaced_argument_lost` | propext, Quot.sound |
| `KPhp.Completion.member_in_argument` | propext, Quot.sound |
| `KPhp.Completion.static_name` | propext, Quot.sound |
| `KPhp.Completion.Forbid.forbid_terminates` | propext, Classical.choice, Quot.sound |
| `KPhp.Completion.Forbid.forbidden_iff` | propext, Classical.choice, Quot.sound |
| `KPhp.Completion.Forbid.inheritance_completion_partial` | propext, Quot.sound |
| `KPhp.Completion.Forbid.inheritance_completion_files` | propext, Quot.sound |
| `KPhp.Completion.Forbid.no_ancestor_offered` | propext, Classical.choice, Quot.sound |
| `KPhp.Completion.Forbid.project_classes_unfiltered` | propext, Quot.sound |
| `KPhp.Completion.Forbid.same_name_skipped` | propext, Quot.sound |
| `KPhp.Completion.Access.member_visible` | propext, Quot.sound |
| `KPhp.Completion.Access.public_listed` | propext, Quot.sound |
| `KPhp.Completion.Access.own_members_listed` | propext, Quot.sound |
| `KPhp.Completion.Access.base_members_listed` | propext, Quot.sound |
| `KPhp.Completion.Access.containers_of` | propext, Quot.sound |
| `KPhp.Completion.Access.derived_object_missing` | propext |
| `KPhp.Completion.Access.containers_nested` | propext |
| `KPhp.Completion.Access.method_sees_own` | propext, Quot.sound |
| `KPhp.Completion.Access.outside_only_public` | propext, Quot.sound |
| `KPhp.Completion.Access.closure_in_method_hides` | propext, Quot.sound |
| `KPhp.Refactor.rename_uses` | propext, Classical.choice, Quot.sound |
| `KPhp.Refactor.rename_complete` | propext, Classical.choice, Quot.sound |
| `KPhp.Refactor.rename_unused` | — |
| `KPhp.Refactor.rename_declarations` | propext, Classical.choice, Quot.sound |
| `KPhp.Refactor.rename_keeps_dollar` | propext, Classical.choice, Quot.sound |
| `KPhp.PhpUnit.readLine_iff` | propext, Quot.sound |
| `KPhp.PhpUnit.results_iff` | propext, Classical.choice, Quot.sound |
| `KPhp.PhpUnit.suite_result` | propext, Classical.choice, Quot.sound |
| `KPhp.ParseJob.rescheduled_iff` | propext, Quot.sound |
| `KPhp.ParseJob.rescheduled_priority` | propext, Classical.choice, Quot.sound |
| `KPhp.ParseJob.skipped_iff` | propext, Quot.sound |
| `KPhp.ParseJob.stored_features` | propext, Quot.sound |
| `KPhp.ParseJob.runs_bounded` | propext, Classical.choice, Quot.sound |
| `KPhp.ParseJob.at_most_once` | propext, Classical.choice, Quot.sound |
| `KPhp.Docs.local_pages` | propext, Quot.sound |
| `KPhp.Docs.local_form` | propext, Quot.sound |
| `KPhp.Docs.local_case` | propext, Quot.sound |
| `KPhp.Docs.local_injective` | propext, Quot.sound |
| `KPhp.Docs.local_collision` | propext, Quot.sound |
| `KPhp.Docs.remote_pages` | propext, Quot.sound |
| `KPhp.Docs.page_shown_iff` | propext, Quot.sound |
| `KPhp.Keyword.keyword_cursor_partial` | propext, Quot.sound |
| `KPhp.Keyword.keyword_cursor_shifted` | propext, Quot.sound |
| `KPhp.Keyword.keyword_plain` | propext, Quot.sound |
| `KPhp.Keyword.keyword_selection` | propext, Quot.sound |
| `KPhp.Docs.word_under_cursor_partial` | propext, Quot.sound |
| `KPhp.Docs.word_at_line_start` | propext, Quot.sound |
| `KPhp.Docs.no_word_under_cursor` | propext, Quot.sound |
| `KPhp.Docs.magic_constant_range` | propext, Classical.choice, Quot.sound |
| `KPhp.Completion.Impl.override_method` | propext, Classical.choice, Quot.sound |
| `KPhp.Completion.Impl.override_variable` | propext, Quot.sound |
| `KPhp.Completion.Impl.argument_list` | propext, Classical.choice, Quot.sound |
| `KPhp.Completion.Impl.override_modifiers` | propext, Quot.sound |
| `KPhp.Completion.Impl.function_last_partial` | propext, Quot.sound |
| `KPhp.Completion.Impl.function_not_last` | propext, Quot.sound |
| `KPhp.PhpUnit.suites_found` | propext, Quot.sound |
| `KPhp.operator_token` | propext, Classical.choice, Quot.sound |
| `KPhp.longest_unique` | propext, Classical.choice, Quot.sound |
| `KPhp.element_token` | propext, Classical.choice, Quot.sound |
| `KPhp.Completion.anything_after` | propext, Quot.sound |
| `KPhp.Completion.member_after` | propext, Quot.sound |
| `KPhp.Completion.nothing_after` | propext, Quot.sound |
| `KPhp.Completion.nothing_in_open_comment` | propext, Quot.sound |
| `KPhp.Completion.after_comment` | propext, Quot.sound |
| `KPhp.Completion.after_open_tag` | propext, Quot.sound |
| `KPhp.Completion.after_access` | propext, Quot.sound |
| `KPhp.Completion.after_paren` | propext, Quot.sound |
| `KPhp.Completion.after_instanceof_throw` | propext, Quot.sound |
| `KPhp.Completion.after_new` | propext, Quot.sound |
| `KPhp.Completion.file_after_include` | propext, Quot.sound |
| `KPhp.Completion.file_only_after_include` | propext, Classical.choice, Quot.sound |
| `KPhp.Completion.after_qualified` | propext, Quot.sound |
| `KPhp.Completion.after_namespace` | propext, Quot.sound |
| `KPhp.Completion.namespace_prefix_lost` | propext, Quot.sound |
| `KPhp.Completion.self_access` | propext |
| `KPhp.Completion.parent_access` | propext, Quot.sound |
| `KPhp.Completion.named_access` | propext |
| `KPhp.Completion.abstract_parent_invalid` | propext |
| `KPhp.Expr.type_of` | propext, Classical.choice, Quot.sound |
| `KPhp.Expr.closure_return` | propext, Classical.choice, Quot.sound |
| `KPhp.Expr.access_without_class` | propext, Classical.choice, Quot.sound |
| `KPhp.Expr.class_reported` | propext, Classical.choice, Quot.sound |
| `KPhp.Expr.namespace_reported` | propext, Classical.choice, Quot.sound |
| `KPhp.Expr.function_reported` | propext, Classical.choice, Quot.sound |
| `KPhp.Expr.constant_reported` | propext, Classical.choice, Quot.sound |
| `KPhp.Expr.variable_reported` | propext, Classical.choice, Quot.sound |
| `KPhp.Expr.member_reported` | propext, Classical.choice, Quot.sound |
| `KPhp.Expr.reported_only` | propext, Classical.choice, Quot.sound |
| `KPhp.Expr.declaration_not_reported` | propext, Quot.sound |
| `KPhp.Expr.unknown_static_method` | propext |
| `KPhp.Expr.unknown_class_twice` | propext |
| `KPhp.Expr.unknown_index_not_reported` | propext, Quot.sound |
| `KPhp.Expr.unresolved_iff` | propext, Classical.choice, Quot.sound |
| `KPhp.Expr.define_name_ignored` | propext, Quot.sound |
| `KPhp.Grammar.parse_total` | propext, Classical.choice, Quot.sound |
| `KPhp.Grammar.parse_bound` | propext, Classical.choice, Quot.sound |
| `KPhp.Grammar.parse_sound` | propext, Classical.choice, Quot.sound |
| `KPhp.Grammar.parse_complete` | propext, Classical.choice, Quot.sound |
| `KPhp.Grammar.parse_iff` | propext, Classical.choice, Quot.sound |
| `KPhp.Grammar.grouping_unique` | propext, Classical.choice, Quot.sound |
| `KPhp.Grammar.two_operators` | propext, Classical.choice, Quot.sound |
| `KPhp.Grammar.assign_right` | propext, Classical.choice, Quot.sound |
| `KPhp.Grammar.equality_not_chained` | propext, Classical.choice, Quot.sound |
| `KPhp.Grammar.limit_pow_groups_left` | propext, Classical.choice, Quot.sound |
| `KPhp.Grammar.limit_pow_as_mul` | propext, Classical.choice, Quot.sound |
| `KPhp.Grammar.limit_minus_pow` | propext, Classical.choice, Quot.sound |
| `KPhp.Grammar.limit_coalesce_left` | propext, Classical.choice, Quot.sound |
| `KPhp.Grammar.limit_ternary_right` | propext, Classical.choice, Quot.sound |
| `KPhp.Grammar.limit_instanceof` | propext, Classical.choice, Quot.sound |
| `KPhp.Grammar.limit_include` | propext, Classical.choice, Quot.sound |
| `KPhp.Grammar.limit_assign_in_operand` | propext, Classical.choice, Quot.sound |
| `KPhp.Grammar.limit_list_takes_one_operand` | propext, Classical.choice, Quot.sound |
| `KPhp.Stmt.php_expr_iff` | propext, Classical.choice, Quot.sound |
| `KPhp.Grammar.assign_without_variable` | propext, Classical.choice, Quot.sound |
| `KPhp.Grammar.assign_has_variable` | propext, Classical.choice, Quot.sound |
| `KPhp.Grammar.limit_assign_to_sum` | propext, Classical.choice, Quot.sound |
| `KPhp.Grammar.limit_assign_to_member_of_new` | propext, Classical.choice, Quot.sound |
| `KPhp.Scopes.build_good` | propext, Quot.sound |
| `KPhp.Scopes.declared_in_namespace` | propext, Quot.sound |
| `KPhp.Scopes.name_in_namespace` | propext, Quot.sound |
| `KPhp.Scopes.found_from_everywhere` | propext, Classical.choice, Quot.sound |
| `KPhp.Scopes.inForce_total` | propext, Quot.sound |
| `KPhp.Denote.variable_in_function` | propext, Classical.choice, Quot.sound |
| `KPhp.Denote.assigned_in_function` | propext, Classical.choice, Quot.sound |
| `KPhp.Denote.single_declaration` | propext, Classical.choice, Quot.sound |
| `KPhp.Denote.parameter_denoted` | propext, Classical.choice, Quot.sound |
| `KPhp.Denote.this_denotes` | propext, Quot.sound |
| `KPhp.Denote.foreach_lost` | propext |
| `KPhp.Denote.target_lost` | propext |
| `KPhp.Denote.global_lost` | propext |
| `KPhp.Denote.global_in_namespace_lost` | propext |
| `KPhp.Denote.capture_leaks` | propext |
| `KPhp.NameUses.parts_used` | propext, Quot.sound |
| `KPhp.NameUses.use_parts_used` | propext, Quot.sound |
| `KPhp.NameUses.choose_taken` | propext, Quot.sound |
| `KPhp.NameUses.taken_unique` | propext, Quot.sound |
| `KPhp.NameUses.known_not_reported` | propext, Quot.sound |
| `KPhp.NameUses.unknown_reported` | propext, Quot.sound |
| `KPhp.NameUses.inner_one` | propext, Quot.sound |
| `KPhp.NameUses.fallback_hides` | propext, Quot.sound |
| `KPhp.NameUses.use_behind_namespace` | propext, Quot.sound |
| `KPhp.NameUses.inner_out_of_range` | propext, Quot.sound |
| `KPhp.NameUses.inner_shifted` | propext, Quot.sound |
| `KPhp.MemberDecls.method_redeclared` | propext, Classical.choice, Quot.sound |
| `KPhp.MemberDecls.property_redeclared` | propext, Classical.choice, Quot.sound |
| `KPhp.MemberDecls.property_redeclared_any` | propext, Classical.choice, Quot.sound |
| `KPhp.MemberDecls.constant_redeclared` | propext, Classical.choice, Quot.sound |
| `KPhp.MemberDecls.assigned_member` | propext, Quot.sound |
| `KPhp.MemberDecls.upcoming_forgotten` | propext, Classical.choice, Quot.sound |
| `KPhp.MemberDecls.assigned_member_lost` | propext, Quot.sound |
| `KPhp.MemberDecls.hidden_member_lost` | propext, Quot.sound |
| `KPhp.MemberDecls.constant_after_property` | propext, Classical.choice, Quot.sound |
| `KPhp.Redeclared.codeSites_spec` | propext, Quot.sound |
| `KPhp.Redeclared.reported_iff` | propext, Quot.sound |
| `KPhp.Redeclared.redeclaration_sound` | propext, Quot.sound |
| `KPhp.Redeclared.redeclaration_complete` | propext, Quot.sound |
| `KPhp.Redeclared.upper_case_never` | propext, Quot.sound |
| `KPhp.Redeclared.namespace_ignored` | propext, Quot.sound |
| `KPhp.DeclTypes.walk_types` | propext, Quot.sound |
| `KPhp.DeclTypes.file_types` | propext, Quot.sound |
| `KPhp.DeclTypes.constants_behind_method` | propext |
| `KPhp.DeclTypes.catch_unknown` | propext |
| `KPhp.DeclTypes.catch_unknown_assign` | propext |
| `KPhp.DeclTypes.foreach_key` | propext |
| `KPhp.DeclTypes.this_property` | propext |
| `KPhp.Stmt.file_read_iff` | propext, Classical.choice, Quot.sound |
| `KPhp.Stmt.file_accepted_iff` | propext, Classical.choice, Quot.sound |
| `KPhp.Stmt.depth_irrelevant` | propext, Classical.choice, Quot.sound |
| `KPhp.Stmt.run_reads` | propext, Classical.choice, Quot.sound |
| `KPhp.Stmt.run_compl` | propext, Classical.choice, Quot.sound |
| `KPhp.Stmt.php_read_iff` | propext, Classical.choice, Quot.sound |
| `KPhp.Stmt.all_ok_iff` | propext, Classical.choice, Quot.sound |
| `KPhp.Stmt.all_read_eq` | propext, Classical.choice, Quot.sound |
| `KPhp.Stmt.method_names` | propext, Classical.choice, Quot.sound |
| `KPhp.Stmt.constant_names` | propext, Classical.choice, Quot.sound |
| `KPhp.Stmt.function_names` | propext, Classical.choice, Quot.sound |
| `KPhp.Stmt.type_words` | propext, Classical.choice, Quot.sound |
| `KPhp.Stmt.modifier_words` | propext, Classical.choice, Quot.sound |
| `KPhp.Stmt.one_reading` | propext, Classical.choice, Quot.sound |
| `KPhp.Stmt.php_one_reading` | propext, Classical.choice, Quot.sound |
| `KPhp.Stmt.else_nearest` | propext, Classical.choice, Quot.sound |
| `KPhp.Stmt.else_braces` | propext, Classical.choice, Quot.sound |
| `KPhp.Stmt.else_not_stolen` | propext |
| `KPhp.Stmt.files_concat` | propext, Classical.choice, Quot.sound |
| `KPhp.Stmt.wrap` | propext, Classical.choice, Quot.sound |
| `KPhp.Stmt.unwrap` | propext, Classical.choice, Quot.sound |
| `KPhp.Stmt.loop_notations` | propext, Classical.choice, Quot.sound |
| `KPhp.Stmt.loop_ends` | propext, Classical.choice, Quot.sound |
| `KPhp.Stmt.if_notations` | propext, Classical.choice, Quot.sound |
| `KPhp.Stmt.brackets_closed` | propext, Classical.choice, Quot.sound |
| `KPhp.Stmt.bracket_missing` | propext, Classical.choice, Quot.sound |
| `KPhp.Stmt.php_brackets` | propext, Classical.choice, Quot.sound |
| `KPhp.Stmt.php_bracket_missing` | propext, Classical.choice, Quot.sound |
| `KPhp.UseStatements.imported_unique` | propext, Quot.sound |
| `KPhp.UseStatements.no_effect_iff` | propext, Classical.choice, Quot.sound |
| `KPhp.UseStatements.in_use_iff` | propext, Classical.choice, Quot.sound |
| `KPhp.UseStatements.declaration_bound_iff` | propext, Classical.choice, Quot.sound |
| `KPhp.UseStatements.namespace_bound_iff` | propext, Classical.choice, Quot.sound |
| `KPhp.UseStatements.bound_or_rejected` | propext, Classical.choice, Quot.sound |
| `KPhp.UseStatements.special_iff` | propext, Classical.choice, Quot.sound |
| `KPhp.UseStatements.group_ignored` | propext |
| `KPhp.UseStatements.visible_after` | propext |
| `KPhp.UseStatements.found_after` | propext, Quot.sound |
| `KPhp.UseStatements.unbound_unchanged` | propext, Quot.sound |
| `KPhp.UseStatements.use_is_relative` | propext |
| `KPhp.UseStatements.double_import_unreported` | propext |
| `KPhp.UseStatements.unknown_import_unreported` | propext |
| `KPhp.UseStatements.special_names_inexact` | propext |
| `KPhp.VariableSearch.events_iff` | propext, Classical.choice, Quot.sound |
| `KPhp.VariableSearch.state_restored` | propext |
| `KPhp.VariableSearch.assignment_target` | propext, Classical.choice, Quot.sound |
| `KPhp.VariableSearch.namesVar_unique` | propext, Quot.sound |
| `KPhp.VariableSearch.no_member_of_array` | propext, Classical.choice, Quot.sound |
| `KPhp.VariableSearch.and_assign_finding` | propext, Classical.choice, Quot.sound |
| `KPhp.VariableSearch.short_list_finding` | propext, Classical.choice, Quot.sound |
| `KPhp.VariableSearch.unpacking_reported_iff` | propext, Quot.sound |
| `KPhp.VariableSearch.unknown_declares_nothing` | propext, Classical.choice, Quot.sound |
| `KPhp.VariableSearch.callee_name` | propext, Quot.sound |
| `KPhp.VariableSearch.method_arguments_finding` | propext, Classical.choice, Quot.sound |
| `KPhp.VariableSearch.static_call_finding` | propext |
| `KPhp.MemberAssign.outside_access` | propext, Classical.choice, Quot.sound |
| `KPhp.MemberAssign.inside_no_report` | propext, Quot.sound |
| `KPhp.MemberAssign.this_no_report` | propext, Classical.choice, Quot.sound |
| `KPhp.MemberAssign.declares_iff` | propext, Classical.choice, Quot.sound |
| `KPhp.MemberAssign.this_takes` | propext, Classical.choice, Quot.sound |
| `KPhp.MemberAssign.unknown_object` | propext, Classical.choice, Quot.sound |
| `KPhp.MemberAssign.local_variable_taken` | propext |
| `KPhp.MemberAssign.other_class_taken` | propext |
| `KPhp.MemberAssign.subclass_redeclares` | propext |
| `KPhp.MemberAssign.local_object_ignored` | propext, Quot.sound |
| `KPhp.IncludeItem.matchHere_iff` | propext, Classical.choice, Quot.sound |
| `KPhp.IncludeItem.lastMatch_opening` | propext, Classical.choice, Quot.sound |
| `KPhp.IncludeItem.completes_statement` | propext, Classical.choice, Quot.sound |
| `KPhp.IncludeItem.completes_open_statement` | propext, Classical.choice, Quot.sound |
| `KPhp.IncludeItem.completes_at_blank` | propext, Classical.choice, Quot.sound |
| `KPhp.IncludeItem.execute_twice` | propext, Classical.choice, Quot.sound |
| `KPhp.IncludeItem.rest_kept` | propext, Classical.choice, Quot.sound |
| `KPhp.IncludeItem.cursor_behind_slash` | propext, Classical.choice, Quot.sound |
| `KPhp.IncludeItem.unknown_opening` | propext, Quot.sound |
| `KPhp.IncludeItem.unclosed_string` | propext, Classical.choice, Quot.sound |
| `KPhp.IncludeItem.dir_constant_finding` | — |
| `KPhp.IncludeItem.earlier_include_finding` | — |
| `KPhp.IncludeItem.second_parenthesis_finding` | — |
| `KPhp.FileChoose.denotes_iff` | propext, Classical.choice, Quot.sound |
| `KPhp.FileChoose.includes_iff` | propext, Classical.choice, Quot.sound |
| `KPhp.FileChoose.offered_directory` | propext, Classical.choice, Quot.sound |
| `KPhp.FileChoose.offered_iff` | propext, Classical.choice, Quot.sound |
| `KPhp.FileChoose.offered_once` | propext, Quot.sound |
| `KPhp.FileChoose.chosen_included` | propext, Classical.choice, Quot.sound |
| `KPhp.FileChoose.chosen_included_dirname` | propext, Classical.choice, Quot.sound |
| `KPhp.FileChoose.two_dots_finding` | propext, Classical.choice, Quot.sound |
| `KPhp.FileChoose.no_slash_finding` | propext, Quot.sound |
| `KPhp.FileChoose.parent_without_slash_finding` | propext, Classical.choice, Quot.sound |
| `KPhp.FileChoose.parent_twice_finding` | — |
| `KPhp.Todo.notes_lines` | propext, Classical.choice, Quot.sound |
| `KPhp.Todo.note_text` | propext, Quot.sound |
| `KPhp.Todo.isDeco_iff` | propext, Quot.sound |
| `KPhp.Todo.isDot_iff` | propext, Quot.sound |
| `KPhp.Todo.file_hints` | propext, Classical.choice, Quot.sound |
| `KPhp.Todo.hint_position` | propext, Classical.choice, Quot.sound |
| `KPhp.Todo.no_markers_note` | propext, Classical.choice, Quot.sound |
| `KPhp.Reparse.declare_attrs` | propext |
| `KPhp.Reparse.taken_over_iff` | propext |
| `KPhp.Reparse.parse_again_iff` | propext, Classical.choice, Quot.sound |
| `KPhp.Reparse.parse_again_problems` | propext, Classical.choice, Quot.sound |
| `KPhp.Reparse.history_first_partial` | propext, Classical.choice, Quot.sound |
| `KPhp.Reparse.kept_attrs` | propext, Quot.sound |
| `KPhp.Reparse.constant_right` | propext |
| `KPhp.Reparse.class_kept` | propext, Quot.sound |
| `KPhp.Reparse.removed_abstract_finding` | — |
| `KPhp.Insert.range_typed` | propext, Quot.sound |
| `KPhp.Insert.typed_exists` | propext, Classical.choice, Quot.sound |
| `KPhp.Insert.execute_replaces` | propext, Quot.sound |
| `KPhp.Insert.range_grows` | propext, Classical.choice, Quot.sound |
| `KPhp.Insert.stays_open_iff` | propext, Classical.choice, Quot.sound |
| `KPhp.Insert.open_while_typing` | propext, Classical.choice, Quot.sound |
| `KPhp.Insert.means_iff` | propext, Classical.choice, Quot.sound |
| `KPhp.Insert.chosen_means_partial` | propext, Classical.choice, Quot.sound |
| `KPhp.Insert.variable_chosen` | propext, Quot.sound |
| `KPhp.Insert.static_method_this` | propext |
| `KPhp.Insert.closure_member` | propext |
| `KPhp.Insert.static_constant_value` | propext |
| `KPhp.Insert.other_namespace` | propext |
| `KPhp.CallTips.local_offered_iff_partial` | propext, Quot.sound |
| `KPhp.CallTips.no_foreign_variable` | propext, Quot.sound |
| `KPhp.CallTips.offered_once` | propext, Quot.sound |
| `KPhp.CallTips.hidden_by_property` | — |
| `KPhp.CallTips.valid_iff` | propext, Quot.sound |
| `KPhp.CallTips.mem_findIn` | propext, Classical.choice, Quot.sound |
| `KPhp.CallTips.constructor_nearest` | propext, Classical.choice, Quot.sound |
| `KPhp.CallTips.old_constructor` | propext, Classical.choice, Quot.sound |
| `KPhp.CallTips.no_constructor` | propext, Classical.choice, Quot.sound |
| `KPhp.CallTips.tip_iff_partial` | propext, Quot.sound |
| `KPhp.CallTips.tips_in_order` | propext |
| `KPhp.CallTips.class_behind` | propext |
| `KPhp.CallTips.function_for_class` | — |
| `KPhp.CallTips.private_in_closure` | — |
| `KPhp.Walk.analysed_lost` | propext, Classical.choice, Quot.sound |
| `KPhp.Walk.complete_iff` | propext, Classical.choice, Quot.sound |
| `KPhp.Walk.file_lost` | propext, Classical.choice, Quot.sound |
| `KPhp.Walk.file_complete_partial` | propext, Classical.choice, Quot.sound |
| `KPhp.Walk.braces_else` | propext, Classical.choice, Quot.sound |
| `KPhp.Walk.colon_else` | propext, Classical.choice, Quot.sound |
| `KPhp.Walk.declare_body` | propext, Classical.choice, Quot.sound |
| `KPhp.Walk.static_value` | propext, Classical.choice, Quot.sound |
| `KPhp.Expr.Closures.closure_returns` | propext, Classical.choice, Quot.sound |
| `KPhp.Expr.Closures.hinted` | propext, Classical.choice, Quot.sound |
| `KPhp.Expr.Closures.no_exit` | propext, Classical.choice, Quot.sound |
| `KPhp.Expr.Closures.last_return` | propext, Classical.choice, Quot.sound |
| `KPhp.Expr.Closures.last_yield` | propext, Classical.choice, Quot.sound |
| `KPhp.Expr.Closures.uniform_partial` | propext, Classical.choice, Quot.sound |
| `KPhp.Expr.Closures.first_forgotten` | propext, Classical.choice, Quot.sound |
| `KPhp.Expr.Closures.inner_function` | propext, Classical.choice, Quot.sound |
| `KPhp.Expr.Closures.yield_return` | propext, Classical.choice, Quot.sound |
| `KPhp.Expr.Closures.inner_closure` | propext, Classical.choice, Quot.sound |
| `KPhp.Define.constant_iff` | propext, Quot.sound |
| `KPhp.Define.literal_constant_partial` | propext, Quot.sound |
| `KPhp.Define.other_function` | propext, Quot.sound |
| `KPhp.Define.concatenated` | propext, Quot.sound |
| `KPhp.Define.computed` | propext, Quot.sound |
| `KPhp.Define.declared_in` | propext, Quot.sound |
| `KPhp.Define.not_global` | propext, Classical.choice, Quot.sound |
| `KPhp.Define.yields_reported` | propext, Quot.sound |
| `KPhp.Errors.expectedSymbol_exact` | propext, Classical.choice, Quot.sound |
| `KPhp.Errors.expectedSymbol_noPercent` | propext, Classical.choice, Quot.sound |
| `KPhp.Errors.unexpected_exact` | propext, Classical.choice, Quot.sound |
| `KPhp.Errors.expectedToken_exact_partial` | propext, Classical.choice, Quot.sound |
| `KPhp.Errors.marker_in_text` | propext |
| `KPhp.Errors.marker_in_text'` | propext |
| `KPhp.Errors.report_iff` | propext, Quot.sound |
| `KPhp.Errors.report_none` | propext |
| `KPhp.MagicConstant.class_value` | propext, Classical.choice, Quot.sound |
| `KPhp.MagicConstant.namespace_value` | propext, Classical.choice, Quot.sound |
| `KPhp.MagicConstant.function_value` | propext, Classical.choice, Quot.sound |
| `KPhp.MagicConstant.file_value` | — |
| `KPhp.MagicConstant.method_value_partial` | propext, Classical.choice, Quot.sound |
| `KPhp.MagicConstant.method_none` | propext, Classical.choice, Quot.sound |
| `KPhp.MagicConstant.method_hangs` | propext, Classical.choice, Quot.sound |
| `KPhp.MagicConstant.class_lowered` | — |
| `KPhp.Navigation.function_tip` | propext, Quot.sound |
| `KPhp.Navigation.escape_safe` | propext |
| `KPhp.Navigation.escape_shown` | propext |
| `KPhp.Navigation.class_tip` | propext, Classical.choice, Quot.sound |
| `KPhp.Navigation.unknown_base` | propext |
| `KPhp.Navigation.interface_implements` | propext, Classical.choice, Quot.sound |
| `KPhp.DocsList.rows` | propext, Quot.sound |
| `KPhp.DocsList.shown_plain_partial` | propext, Quot.sound |
| `KPhp.DocsList.shown_noargs` | propext, Quot.sound |
| `KPhp.DocsList.shown_unsure` | propext, Quot.sound |
| `KPhp.Completion.Highlight.highlighting_partial` | propext, Classical.choice, Quot.sound |
| `KPhp.Completion.Highlight.highlighted_text` | propext, Classical.choice, Quot.sound |
| `KPhp.Completion.Highlight.last_too_long` | propext, Classical.choice, Quot.sound |
| `KPhp.reading_tokens` | propext, Classical.choice, Quot.sound |
| `KPhp.reading_unique` | propext, Classical.choice, Quot.sound |
| `KPhp.layout_tokens` | propext, Classical.choice, Quot.sound |
| `KPhp.text_read_iff` | propext, Classical.choice, Quot.sound |
| `KPhp.layout_tree` | propext, Classical.choice, Quot.sound |
| `KPhp.readAs_unique` | propext, Classical.choice, Quot.sound |
| `KPhp.keyword_piece` | propext, Quot.sound |
| `KPhp.tree_written` | propext, Classical.choice, Quot.sound |
| `KPhp.arrow_blank_matters` | propext, Classical.choice, Quot.sound |
| `KPhp.static_comment_matters` | propext, Classical.choice, Quot.sound |
| `KPhp.yield_from_word` | propext |
| `KPhp.radix_literals` | propext |
| `KPhp.Strings.source_tokens` | propext, Classical.choice, Quot.sound |
| `KPhp.Strings.source_unique` | propext, Classical.choice, Quot.sound |
| `KPhp.Strings.source_of_reading` | propext |
| `KPhp.Strings.source_read_iff` | propext, Classical.choice, Quot.sound |
| `KPhp.Strings.curly_corners` | propext |
| `KPhp.Strings.index_corners` | propext, Classical.choice, Quot.sound |
| `KPhp.Strings.heredoc_corner` | propext |
| `KPhp.TypeId.equals_iff` | propext, Classical.choice, Quot.sound |
| `KPhp.TypeId.equals_refl` | propext, Classical.choice, Quot.sound |
| `KPhp.TypeId.equals_symm` | propext, Classical.choice, Quot.sound |
| `KPhp.TypeId.equals_trans` | propext, Classical.choice, Quot.sound |
| `KPhp.TypeId.hash_of_equals` | propext, Classical.choice, Quot.sound |
| `KPhp.TypeId.same_index_iff` | propext, Classical.choice, Quot.sound |
| `KPhp.TypeId.index_keeps` | propext, Classical.choice, Quot.sound |
| `KPhp.TypeId.container_shown` | propext, Quot.sound |
| `KPhp.TypeId.long_container_shown` | propext, Quot.sound |
| `KPhp.TypeId.class_shown` | propext |
| `KPhp.TypeId.kinds_shown` | propext |
| `KPhp.TypeId.container_name_shown` | propext |
| `KPhp.TypeId.entries_after_add` | propext, Quot.sound |
| `KPhp.TypeId.entries_after_replace` | propext |
| `KPhp.TypeId.first_writing_shown` | propext, Classical.choice, Quot.sound |
| `KPhp.TypeId.first_entry_not_hashed` | propext |
| `KPhp.Expr.NewRef.path_steps` | propext |
| `KPhp.Expr.NewRef.new_path` | propext |
| `KPhp.Expr.NewRef.missing_stops` | propext |
| `KPhp.Expr.NewRef.dynamic_reported` | propext |
| `KPhp.Expr.NewRef.static_part_reported` | propext |
| `KPhp.Expr.NewRef.reference_keeps` | propext |
| `KPhp.Expr.NewRef.reference_reports_only` | propext |
| `KPhp.Expr.NewRef.reference_total` | propext, Quot.sound |
| `KPhp.Expr.NewRef.static_crashes` | propext |
| `KPhp.Expr.NewRef.static_expr_crashes` | propext, Quot.sound |
| `KPhp.Expr.NewRef.static_reference_parsed` | propext, Classical.choice, Quot.sound |
| `KPhp.Expr.NewRef.new_named` | propext |
| `KPhp.Expr.NewRef.new_static` | propext |
| `KPhp.Expr.NewRef.static_property_typed_as_class` | propext |
| `KPhp.Expr.NewRef.class_reported_twice` | propext |
| `KPhp.Expr.NewRef.index_replaces_object` | propext |
| `KPhp.Expr.NewRef.dynamic_index_ignored` | propext |
| `KPhp.Expr.NewRef.computed_name_ignored` | propext |
| `KPhp.Expr.NewRef.unsure_not_resolved` | propext |
| `KPhp.Expr.NewRef.instanceof_named` | propext |
| `KPhp.Expr.NewRef.instanceof_variable` | propext |
| `KPhp.Expr.NewRef.Example.crash` | propext, Quot.sound |
| `KPhp.Keyword.Table.keyword_text_partial` | propext, Classical.choice, Quot.sound |
| `KPhp.Keyword.Table.keyword_cursor` | propext, Quot.sound |
| `KPhp.Keyword.Table.keyword_no_cursor` | propext, Quot.sound |
| `KPhp.Keyword.Table.keyword_cursor_below` | propext, Quot.sound |
| `KPhp.Keyword.Table.keyword_kinds` | propext, Quot.sound |
| `KPhp.Keyword.Table.keyword_static` | propext, Classical.choice, Quot.sound |
| `KPhp.Keyword.Table.keyword_try` | propext, Quot.sound |
| `KPhp.Keyword.Table.keyword_known` | propext, Quot.sound |
| `KPhp.Project.known_iff` | propext, Quot.sound |
| `KPhp.Project.target_iff` | propext, Classical.choice, Quot.sound |
| `KPhp.Project.imports_iff` | propext, Quot.sound |
| `KPhp.Project.imports_nodup` | propext, Quot.sound |
| `KPhp.Project.imports_history` | propext, Quot.sound |
| `KPhp.Project.marks_le_one` | propext, Quot.sound |
| `KPhp.Project.marked_iff` | propext, Classical.choice, Quot.sound |
| `KPhp.Project.Demo.included_later_finding` | propext |
| `KPhp.Project.change_noticed` | propext, Quot.sound |
| `KPhp.Project.up_to_date_unchanged_partial` | propext, Quot.sound |
| `KPhp.Project.up_to_date_iff_partial` | propext, Quot.sound |
| `KPhp.Project.mutual_never_up_to_date` | propext, Quot.sound |
| `KPhp.Project.Demo.broken_finding` | propext, Quot.sound |
| `KPhp.Project.Demo.mutual_finding` | propext, Quot.sound |
| `KPhp.Project.Demo.overlap_finding` | propext |
| `KPhp.token_inside` | propext, Classical.choice, Quot.sound |
| `KPhp.edges_partial` | propext, Classical.choice, Quot.sound |
| `KPhp.tokens_ordered` | propext, Classical.choice, Quot.sound |
| `KPhp.range_text_partial` | propext, Classical.choice, Quot.sound |
| `KPhp.token_text_partial` | propext, Classical.choice, Quot.sound |
| `KPhp.range_contains_partial` | propext, Classical.choice, Quot.sound |
| `KPhp.one_token_partial` | propext, Classical.choice, Quot.sound |
| `KPhp.empty_node` | propext, Classical.choice, Quot.sound |
| `KPhp.PosDemo.cast_shifts_finding` | propext |
| `KPhp.PosDemo.html_end_finding` | propext |
| `KPhp.PosDemo.empty_body_finding` | propext |
| `KPhp.NsChoose.analyse_name` | propext |
| `KPhp.NsChoose.offered_opening` | propext, Quot.sound |
| `KPhp.NsChoose.offered_sound` | propext, Quot.sound |
| `KPhp.NsChoose.offered_complete_partial` | propext, Quot.sound |
| `KPhp.NsChoose.offered_global` | propext, Quot.sound |
| `KPhp.NsChoose.upper_never` | propext, Quot.sound |
| `KPhp.NsChoose.ex_found` | propext |
| `KPhp.NsChoose.ex_once` | propext, Quot.sound |
| `KPhp.NsChoose.upper_case_nothing` | propext |
| `KPhp.NsChoose.one_opening_only` | propext |
| `KPhp.NsChoose.included_missing` | propext |
| `KPhp.NsChoose.ex_namespace` | propext |
| `KPhp.Outline.nodes_distinct` | propext, Classical.choice, Quot.sound |
| `KPhp.Outline.classes_sound` | propext, Classical.choice, Quot.sound |
| `KPhp.Outline.classes_declared_partial` | propext, Classical.choice, Quot.sound |
| `KPhp.Outline.source_classes_partial` | propext, Classical.choice, Quot.sound |
| `KPhp.Outline.classes_not_declared` | propext, Classical.choice, Quot.sound |
| `KPhp.Outline.second_walk_stops` | propext, Classical.choice, Quot.sound |
| `KPhp.Outline.outline_toks` | propext, Classical.choice, Quot.sound |
| `KPhp.Outline.places_sound` | propext, Classical.choice, Quot.sound |
| `KPhp.Outline.places_declared_partial` | propext, Classical.choice, Quot.sound |
| `KPhp.Outline.source_places_partial` | propext, Classical.choice, Quot.sound |
| `KPhp.Outline.function_not_declared` | propext, Classical.choice, Quot.sound |
| `KPhp.Expr.value_type_partial` | propext, Classical.choice, Quot.sound |
| `KPhp.Expr.declared_value_partial` | propext, Classical.choice, Quot.sound |
| `KPhp.Expr.property_uses_partial` | propext, Classical.choice, Quot.sound |
| `KPhp.Expr.signed_float` | propext |
| `KPhp.Expr.class_of_unknown` | propext |
| `KPhp.Expr.global_true` | propext, Quot.sound |
| `KPhp.Expr.static_not_used` | propext |
| `KPhp.Outline.declarations_shown_partial` | propext, Classical.choice, Quot.sound |
| `KPhp.Outline.run_sorted` | propext, Quot.sound |
| `KPhp.Outline.ShownDemo.cast_moves_declaration` | propext, Classical.choice, Quot.sound |
| `KPhp.Outline.class_scopes_partial` | propext, Classical.choice, Quot.sound |
| `KPhp.Outline.file_placed` | propext, Classical.choice, Quot.sound |
| `KPhp.Outline.ScopeDemo.modifier_scope` | propext, Classical.choice, Quot.sound |
| `KPhp.Outline.ScopeDemo.cast_moves_scope` | propext, Classical.choice, Quot.sound |
| `KPhp.Outline.bodies_partial` | propext, Classical.choice, Quot.sound |
| `KPhp.Outline.file_scoped` | propext, Classical.choice, Quot.sound |
| `KPhp.Outline.BodyDemo.body_scopes` | propext, Classical.choice, Quot.sound |
