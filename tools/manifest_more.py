L='Verif.Lexer.'
p('C16','proved',q(L,'lexer_tokens'),'')
p('C17','proved',q(L,'lexer_tokens','lexer_locations_sorted'),'')
p('C18','proved',q(L,'block_comment_exact','block_comment_nests','block_comment_adjacent_closers'),'last one is a machine-checked disagreement: touching delimiters')
p('C19','proved',q(L,'quote_roundtrip','string_literal_quotable','quote_not_roundtrip'),'last one is a disagreement: raw-string contents')
PP='Verif.Preproc.'
p('C20','proved',q(PP,'define_map_stack'),'')
p('C22','proved',q(PP,'preprocessing_terminates','preprocessing_depth','self_include_never_ends'),'last one is a disagreement: `#pragma multiple` self-inclusion never ends')
p('C21','proved',q(PP,'PP.conditional_selects','PP.conditional_enters','PP.conditional_leaves','PP.disabled_region_silent','condition_swallows_next_line','condition_takes_docs'),'conditions without function-like macros; the last two are disagreements showing why that (and the absence of pending doc comments) is needed')
p('C43','proved',q(PP,'history_gives_defines','history_forgets_in_included_file'),'for events that happen in location order; the last one is a disagreement: it fails across #include')
p('C44','proved',q(PP,'PP.ordinary_text_expands','PP.ordinary_file_expands'),'object-like macros only')

LS='Verif.Langserver.'
p('C23','proved',q(LS,'changes_exact','store_mirrors_client','long_column_crosses_line','lone_cr_is_not_a_line','reversed_range_panics'),'last three are disagreements')
p('C24','proved',q(LS,'offset_position_inverse','total_offset_boundary','get_range_exact'),'')
p('C25','proved',q(LS,'frames_roundtrip','frames_roundtrip_eof','read_sound','interleaved_writers','run_never_out_of_fuel','content_type_breaks_framing','content_type_first_ends_session'),'last two are disagreements')
p('C26','proved',q(LS,'store_refuses','change_accepted','versions_monotone','handle_version','open_twice_replaces'),'last one is a disagreement')
p('C45','proved',q(LS,'cursor_reads'),'')
ED='Verif.Editor.'
p('C27','proved',q(ED,'history_correct','undo_reverts_edit','redo_reverts_undo','redo_takes_oldest'),'last one is a disagreement')
p('C28','proved',q(ED,'history_correct'),'')
p('C46','proved',q(ED,'drawn_exact','iterInstances_exact','getInstance_sound','load_holds','session_correct','Demo.getInstance_misses','Demo.reload_leaves_old_vertices'),'last two are disagreements')
p('C47','proved',q(ED,'place_reversible','delete_reversible','session_correct','Demo.undo_delete_loses_turf'),'last one is a disagreement')
p('C48','proved',q(ED,'load_exact','load_save','save_exact','save_keeps_key','save_succeeds','load_edit_save','Demo.emptied_tile_is_filled'),'last one is a disagreement')

DM='Verif.Dmi.'
p('C29','proved',q(DM,'offsets_tile','sprite_owner','ranges_disjoint','names_exact','getIconState_exact','getIconState_finds','render_parse','render_offsets','Demo.short_delays_shift','Demo.parse_panics'),'last two are disagreements')
p('C30','proved',q(DM,'indexOfFrame_exact','indexOfFrame_missing','frames_of_state','frames_distinct','sprites_partition','rect_inside','rect_disjoint','rectOf_exact','rect_narrow_panics','rectOf_no_states'),'last two are disagreements')
p('C31','proved',q(DM,'Dir.offset_exact','Dir.toInt_offset','Dir.fromInt_iff','Dir.flip_offset','Dir.flip_involutive','Dir.ccw90_offset','Dir.cw90_offset','Dir.eighth_turns','Dir.contains_iff','Dir.constants_exact','Dir.cw90_southwest'),'last one is a disagreement')
p('C32','proved',q(DM,'blend_ok','blend_opaque','blend_transparent','blend_over_opaque','channel_no_wrap','composite_exact','tint_exact','channel_wraps','transparent_loses_colour','composite_spills','composite_panics'),'last four are disagreements')
p('C49','proved',q(DM,'renderFrames_exact','renderToImages_exact','renderDirs_exact','render_small_sheet_panics'),'last one is a disagreement')

OT='Verif.Objtree.'
p('C33','proved',q(OT,'find_exact','find_finished','finished_keeps','paths_unique','parent_path_exact','root_exact','child_exact','subtype_path','run_stable','typeByPath_exact','typeByPathApprox_exact','typeByPath_list','ispath_types','ispath_spec','recurse_exact','navDot_exact','navColon_exact'),'')
p('C34','proved',q(OT,'getValue_nearest','getVarDeclaration_nearest','getProc_nearest','getProcDeclaration_nearest','supers_finished','own_exact','Demo.cycle_hangs'),'last one is a disagreement: cyclic parent_type')
p('C35','proved',q(OT,'parent_nested','parent_top','parent_override','parent_rootless','parent_builtin','acyclic','chain_root','isSubtypeOf_exact','iterParents_exact','recurseTypes_exact','climb_cycle'),'last one: on a cycle lookups never end')
p('C50','proved',q(OT,'ids_distinct'),'symbol ids are natural numbers in the model (no 30-bit overflow)')

CO='Verif.Const.'
p('C36','proved',q(CO,'evaluation_terminates','evaluation_bound_irrelevant','evaluated_is_value','recorded_is_value','value_unique','evaluation_deterministic','cycle_is_error','leads_to_cycle_is_error','value_is_found','outcome_is_fixed','evaluation_memoised','evaluate_all_correct','Demo.order_matters_for_non_const','Demo.error_leaves_mark','Demo.and_is_not_lazy'),'last three are disagreements')
p('C37','proved',q(CO,'bit_ops_fold','bit_ops_on_naturals','bit_ops_in_range','bit_not_folds','bit_not_involutive','negative_operand_is_zero'),'last one is a disagreement: negative operands count as 0')
p('C51','proved',q(CO,'rgb_three','rgb_four','rgb_wrong_count','rgb_right_count','rgb_out_of_range','rgb_shape','rgb_no_panic','rgb_ignores_names','rgb_space_panics'),'last two are disagreements')
p('C52','proved',q(CO,'int_ops_fold','int_result_exact','int_neg_folds','beyond_is_rounded'),'last one shows the bound is needed')
p('C53','proved',q(CO,'constant_eq_equivalence','constant_eq_hash','prefab_eq_iff'),'')
p('C54','proved',q(CO,'variable_folds','folds_unique'),'')
p('C55','proved',q(CO,'is_truthy_sound'),'interpolated strings are outside the model')
p('C38','proved',q('Verif.Parse.','parse_total','parse_iff','derives_unique','expression_sound','expression_complete','two_operators','two_assignments','conditional_right','bracketed','prefix_postfix','missing_else','assignment_in_arm'),'the last two are disagreements with the language; terms without operators are atoms of the model')
p('C39','proved',q('Verif.SwitchRand.','gap_exact','no_gap_iff','never_sound','never_complete','silent','infinity_overflow','fraction_not_reported','unknown_case_ignored'),'the last three are disagreements: an upper bound beyond 32 bits panics or wraps; a case of fractions only is not reported; a case that is not a literal is taken to match nothing')
p('C40','proved',q('Verif.Docs.','simplify_spec','simplify_content','text_content','text_empty_iff'),'')
p('C41','proved',q('Verif.Color.','extract_exact','color_meaning','format_extract','present_extract','present_replace','present_stable','present_hex','channel_round_trip','alpha_overflow'),'the last is a disagreement: an alpha over 255 is dropped')
p('C42','proved',q('Verif.Search.','startsWith_iff','contains_iff','search_answers_iff','search_exact','search_self','search_not_everything'),'lower-casing is per character (final sigma excluded by the hypothesis Plain)')
p('C56','proved',q('Verif.CallTree.','sleep_report_true','builtin_report_true','sleep_report_wording','sleeper_reported_once','written_calls_reported','own_sleep_reported','all_sleepers_reported','called_root_never_checked','exact_call_hides_override','sleeping_root_missed'),'the last three are disagreements: a proc with the directive that another such proc calls is never checked, and a proc first called exactly is not looked at again when called virtually')
p('C57','proved',q('Verif.CallTree.','impure_itself_iff','impure_callee_iff','impure_override_iff','impure_overrides_known','impurity_reported_once','impure_stack_true','impure_stack_later_steps'),'the last is a disagreement: later steps of the stack carry the location of the directive')
p('C58','proved',q('Verif.CallTree.','directive_insert','directive_lookup','directive_inherited','directive_order_irrelevant'),'')
p('C59','proved',q('Verif.Preproc.','PP.macro_text_expands','PP.define_line','PP.wrong_arguments_reported','uncalled_macro_hides_next','empty_argument_pastes_neighbours','numbers_not_pasted'),'Expansion of text with function-like macros, by the rewriting rules of MacroSpec.lean (arguments, variadic parameters, # and ##, locations, the nesting limit); #define lines; wrong argument counts. Last three: where the program differs from a C preprocessor.')
p('C60','proved',q('Verif.Preproc.','PP.environment_preprocessed','PP.meaning_unique'),'Big-step meaning of a whole environment: text, #define, #undef, #pragma multiple, #include of sources, maps, skins and scripts, and conditional chains, nested; output up to line ends.')

p('C61','proved',q('Verif.Flow.','reported_code_is_not_reached','unreachable_place_is_not_reached','reported_doWhile_condition_is_not_reached','reported_range_body_is_not_reached','doWhile_break_false_alarm','range_break_false_alarm','range_step_false_alarm','zero_range_false_alarm','doWhile_continue_false_alarm'),'The last five exhibit false alarms of the code outside the stated hypotheses.')
p('C62','proved',q('Verif.Flow.','spawn_return_only','spawn_return_all','late_setting_only','late_setting_all','if_condition_only','if_condition_all','dead_arm_all','loop_condition_only','loop_condition_all','code_after_return_is_noticed','code_after_return_missed'),'code_after_return_missed shows that the hypothesis on preceding jumps is needed.')
D='Verif.Decl.'
p('C63','proved',q(D,'declarations_mean_their_paths','same_facts_same_tree','blocks_only_save_writing','init_wf','init_see','absolute_path_among_variables','operator_slash_block','path_after_proc'),'what a declaration means is in Decl/Spec.lean (Src, facts, World.tell); the last three are witnesses that the well-formedness conditions are needed')
p('C64','proved',q(D,'parsing_ends','tree_is_not_misused','unclosed_block_panics','crossed_brackets_panic'),'the last two show the panic')
p('C65','proved',q(D,'read_in_sequence','order_of_independent_files','types_stay','stray_brace_ends_reading'),'')
p('C66','proved',q(D,'bodies_do_not_matter','strip_see','procBody_toks'),'')
S='Verif.Stmt.'
p('C67','proved',q(S,'bodies_mean_their_statements','one_reading','else_goes_to_the_nearest_if','procs_have_their_statements','list_loop_forgets_its_type','rest_of_the_line_is_dropped','semicolon_after_the_default','in_test_of_two_parts','sample_ok'),'the grammar, its meaning and its messages are in Stmt/Spec.lean; expressions are what the expression parser reads at that place; the witnesses list_loop_forgets_its_type, rest_of_the_line_is_dropped, semicolon_after_the_default and in_test_of_two_parts show where the code departs from the language')
p('C68','proved',q(S,'body_parsing_ends','body_is_determined'),'')

p('C69','proved',q('Verif.Dmm.','line_endings_irrelevant','leading_junk_ignored','byte_order_mark_ignored','leading_comment_ignored','empty_block_ignored','tab_in_string_is_lost'),'last one: tabs, unlike line ends, are lost inside values')
p('C70','proved',q('Verif.Minimap.','minimap_pixels','minimap_total','minimap_above_panics','drawAll_exact','sort_order'),'For every list of passes (as functions); i32 overflow of positions not modelled. A rectangle above the level panics.')
p('C71','proved',q('Verif.Minimap.','part_of_picture','part_is_cut_out','tiles_part','Ex.part_lacks_overhang'),'What hangs over from outside tiles is missing: Ex.part_lacks_overhang.')
p('C72','proved',q('Verif.Minimap.','layer_order','layer_monotone','floats_plain','layer_below_one','layer_tiny_negative','layer_saturates'),'Outside the stated range the order fails: layer_below_one, layer_tiny_negative, layer_saturates.')
p('C73','proved',q('Verif.Minimap.','color_six','color_three','color_name','color_unknown','color_other_length','alpha_is','var_given','var_nearest','var_missing','color_eight_white','color_nine_panics'),'#rrggbbaa is white and a ninth digit overflows.')
p('C74','proved',q('Verif.Minimap.','sprite_place','sprite_look','thing_sprites','thing_hidden','prefab_things','atomList_eq','tile_sprites','neighborhood_directions'),'')

p('C75','proved',q('Verif.Minimap.','pass_chosen','pass_order','layer_nearest','floor_hides','hidden_iff','slashes_win'),'Paths with several trailing slashes win over longer ones: slashes_win. The dual layering of vents is not modelled.')
p('C76','proved',q('Verif.Minimap.','adjacencies_bits','match16','match20','cardinal_corners','diagonal_looks','underlay_elbow','bitmask_looks','smooth16_looks','smooth20_looks','smooth25_looks','reverse_slanted','typepaths_never_match','anchored_ignored','emptied_is_border','Ex.lone_neighbour_is_diagonal'),'The last four are disagreements with the game systems.')
p('C77','proved',q('Verif.Minimap.','cable_linked','cable_looks','link_mutual','neighbours_see','link_one_way'),'')
p('C78','proved',q('Verif.Minimap.','pick_share','loot_doubles','loot_single','loot_things','pick_weightless_panics'),'Weights summing to less than one panic.')
p('C79','proved',q('Verif.Typing.','effects_iff','accepted_iff','exprIs_iff','undefinedVar_iff','undefinedField_iff','undefinedProc_iff','builtin_gives','kwarg_iff','usesArglist_iff','filter_params','filter_flags','modifiers_iff'),'Expressions; statements are C80.')
p('C80','proved',q('Verif.Typing.','body_reports','block_reports','scopes_reports','findings_reports','shift_reports_twice','start_not_looked_at','stale_constant'),'The last three are disagreements. Control flow messages are C61/C62; which statements end a block is taken from there.')
p('C81','proved',q('Verif.Typing.','run_override','callsParent_iff','unlint_hides_parent_call','start_hides_parent_call'),'The last two are disagreements. Which proc a directive is inherited from is C58.')
p('C82','proved',q('Verif.Typing.','kwargs_sound','kwargs_complete','kwargs_once','report_base','kw_noted','kw_redefined_missed','kw_inherited_missed'),'The last two are disagreements: such overrides are missed.')
p('C83','proved',q('Verif.Typing.','varDefs_iff','varDefs_unique','varDemo_reports'),'Every report, and what a project without one may rely on.')
p('C84','proved',q('Verif.Typing.','accepted_runs','accepted_compound','most_honest','demoGood_runs','demoGood_value','missed_ternary','missed_sum','missed_compound','missed_index','missed_global','missed_globalProc','missed_new'),'For the expressions named in the statement; the last seven are accepted and fail in a run.')
p('C85','proved',q('Verif.Refs.','references_iff','references_sorted','implementations_iff','implementations_sorted','local_in_one_body','visitExpr_uses'),'As sets of places in order; how often a place is listed is not claimed.')
p('C86','proved',q('Verif.Lookup.','completion_iff','members_once','goto_iff','symbolAt_iff','gotoType_iff','signature_iff','complete_then_goto','unscoped_then_goto','symbol_above_goto','symbol_var_listed','symbol_call_listed','symbol_field_listed','hoverVar_docs','hoverProc_docs','hover_lists'),'On the annotations at a place; completion as a set of items.')
p('C87','proved',q('Verif.Server.','main_session','main_exit','answered_once','session_count','session_idle','does_unique','handleCall_does','batch_of_one','empty_batch','batch_exit_unanswered','shutdown_with_params','eof_is_success'),'handlers and the decoding of JSON are parameters')
p('C88','proved',q('Verif.Server.','build_get','build_nodup','shown_last','one_sender','parser_first','quiet_all_sent','quiet_last','quiet_single','progress','one_run','stale_check'),'every interleaving; one publish per step')
p('C89','proved',q('Verif.Server.','foldingRanges_iff','foldingRanges_sorted','foldingRanges_nested','kindOf_opens','kindOf_closes'),'')
p('C90','proved',q('Verif.Server.','documentSymbols_rows','documentSymbols_once','parentOf_innermost','parentOf_none','empty_variable_panics'),'on the annotations that the interval tree yields (C05)')
p('C91','proved',q('Verif.Debug.','parseFunction_iff','exSession_no_stale','exSession_exact','exRequest_answers','exRequest_func_answers','exRequest_unconnected','wishes_apart','auxSession_no_stale','auxSession_exact','auxSession_down','exSession_shared_place_disagrees','exRequest_second_game_disagrees'),'The converse (every wish is in the game) needs that no line begins at offset 0 of a proc; without it exSession_shared_place_disagrees.')
p('C92','proved',q('Verif.Debug.','getProc_iff','location_some','location_none','location_getProc','lineToOffset_iff','lineToOffset_none','offsetToLine_of','offsetToLine_within','lineToOffset_offsetToLine','frame_at_breakpoint','frame_stddef','getProc_kind_word_disagrees'),'')
p('C93','proved',q('Verif.Debug.','stackTrace_rows','givenId_iff','frames_distinct','frame_scopes','scopes_distinct','value_reference','value_closed','unknown_frame','threads_listed','threads_start','localVars_rows','argVars_rows','localVars_distinct','argVars_distinct','auxLabels_rows','auxLabels_distinct','linear_rows','assoc_rows','indexed_inj','fields_rows','disassemble_addresses','evaluate_shows','deep_frame_disagrees','before_stop_disagrees','threads_empty_stack_disagrees','pointer_disagrees','aux_suffix_disagrees','zero_reference_disagrees'),'Scopes of frames with ids below 2^23-1; beyond, deep_frame_disagrees.')
p('C94','proved',q('Verif.Debug.','life_story','life_truthful','life_ended_once','life_signal','life_progress','seq_perm','seq_distinct','seq_quiet','dap_responses','seq_order_disagrees','dap_panic_disagrees','dap_order_disagrees','kill_not_terminated_disagrees','signal_reaped_disagrees','relaunch_disagrees'),'Handlers are parameters: any total function of the adapter state.')
p('C95','proved',q('Verif.Debug.','readLoop_messages','readLoop_roundtrip','messages_unique','auxRun_messages','calls_in_order','own_answer','answer_comes','aux_failed_down','down_silent','ex_stale_disagrees','aux_stale_disagrees','early_call_disagrees'),'After a failed call own answers are not guaranteed: ex_stale_disagrees, aux_stale_disagrees.')
p('C96','proved',q('Verif.Cli.','diff_exact','diff_empty_iff','diff_saved','diff_symm','diff_unknown_key_disagrees'),'')
p('C97','proved',q('Verif.Cli.','coord_roundtrip','region_within','region_exact','region_default','minimapName_inj','chunkName_inj','written_schedule','minimap_files','minimap_cmd_total','renderMany_rows','renderMany_files','chunk_region','region_drawable','max_without_level_disagrees','chunk_upper_disagrees','chunk_lower_disagrees','same_stem_disagrees','exit_wraps_disagrees','twice_disagrees'),'Files of maps of the same name: same_stem_disagrees.')
p('C98','proved',q('Verif.Typing.','compile_accepts','annotation_means','gather_silent','wordsPath_iff','call_type','override_not_annotated','path_separators_ignored','raw_missing_replaces'),'')
p('C99','proved',q('Verif.Dmdoc.','index_order','index_paths','index_nested','index_once','index_substance','index_rows','index_rows_all','shown_twice'),'')
p('C100','proved',q('Verif.Dmdoc.','fix_leads','fix_reported','member_linked','global_linked','type_linked','macro_linked','file_linked','silent_names','corrected','external_builtin','member_unlinked','w1_ordinary','page_lost','markdown_not_linked','dry_run_wraps'),'No two pages may have the same name: page_lost.')
p('C101','proved',q('Verif.Dmdoc.','linkify_leads','linkify_text','linkify_complete','linkify_list','word_leads','type_links_lead','arrow_nearest','module_links_lead','index_links_lead','type_page_iff','page_entries','root_link_dead','no_modules_anchor'),'No two pages may have the same name; docs on the root: root_link_dead.')
p('C102','proved',q('Verif.Dmdoc.','module_laid','module_items','module_text','module_title','text_skip','lined_shown','block_then_line'),'')
p('C103','proved',q('Verif.Dmdoc.','title_spec','title_none','teaser_spec','teaser_none','teaser_total','headings_linked','linked_unique','slug_words','slug_chars','words_exist','same_anchor'),'')
p('C104','proved',q('Verif.Dmdoc.','as_same','as_words','as_joined','display_same','word_type','displayed_movable'),'')
p('C105','proved',q('Verif.Explorer.','lazy_is_eager','tree_complete','query_exact','members_exact','update_sends'),'')
p('C106','proved',q('Verif.Session.','made_from','defines_last','answer_current','single_file_current','Case.good_orderly','Case.bad_change_stale','Case.opened_late_stale','Case.reparse_stale'),'Only for a client that keeps to the protocol with the document: Case.bad_change_stale, Case.opened_late_stale; Case.reparse_stale.')
p('C107','proved',q('Verif.Session.','poll_latest','table_from','busy_latest','Case.references_stale'),'')
p('C108','proved',q('Verif.Editor.Desk.','desk_ok','writes_asked','dialog_saves_its_map','answer_is_written','clean_means_saved','save_writes','save_all','saved_as','close_spec','tab_cycle','open_once','prepared_current','act_selected','only_close_closes','command_tabs','failed_write_loses_star','untitled_has_no_star','close_discards','two_maps_one_file','reload_missed','unreadable_stays'),'')
p('C109','proved',q('Verif.Editor.Prefab.','closest_type','frame_exact','frame_no_type','value_nearest','shown_spec','rows_sorted','globals_offered'),'')
p('C110','proved',q('Verif.Editor.Place.','stroke_exact','stroke_on_map','stroke_undone','nothing_placed','frame_idle','frame_click','frame_remove','entry_frame','add_selected','pick_selected','none_selected_after_remove','icon_stale','stroke_from_outside','level_change_missed'),'')
p('C111','proved',q('Verif.IconCache.','retrieve_exact','retrieve_loaded','cached_stays','done_cached','call_ends','uniq_same','race_two_icons','failure_remembered','old_root_kept'),'')
p('C112','proved',q('Verif.Editor.View.','tile_exact','tile_covers','target_current','zoom_levels','scroll_inside','scroll_exact','drag_follows','zoom_keeps_middle','roundAway_near','zoom_is_stale','other_map_is_stale','drag_leaves_the_map'),'')
p('C113','proved',q('Verif.Term.','group_reads','one_meaning','group_ends','group_stops','nested_reads','sample_ok','empty_arguments_vanish','proc_reference_arguments_vanish','dot_path_leaves_the_brace','lone_slash','colon_in_ternary'),'')
p('C114','proved',q('Verif.Editor.Recent.','recent_exact','sessions_exact','recent_once','recent_order','start_exact','reopens_last','crash_exact','again_same','menu_click','crash_forgets','twice_stays','sample'),'')
