{
 "claims": [
  {
   "property": "C01",
   "status": "proved",
   "theorems": [
    "Verif.IntervalTree.interval_tree_multimap"
   ],
   "note": "all histories of insert/remove"
  },
  {
   "property": "C02",
   "status": "proved",
   "theorems": [
    "Verif.IntervalTree.interval_tree_no_panic"
   ],
   "note": ""
  },
  {
   "property": "C03",
   "status": "proved",
   "theorems": [
    "Verif.IntervalTree.interval_tree_range_exact"
   ],
   "note": ""
  },
  {
   "property": "C04",
   "status": "proved",
   "theorems": [
    "Verif.IntervalTree.interval_tree_iter_complete",
    "Verif.IntervalTree.interval_tree_into_iter_complete",
    "Verif.IntervalTree.interval_tree_min_max",
    "Verif.IntervalTree.interval_tree_merge"
   ],
   "note": ""
  },
  {
   "property": "C05",
   "status": "proved",
   "theorems": [
    "Verif.Context.annotations_at_location",
    "Verif.Context.annotations_in_range"
   ],
   "note": ""
  },
  {
   "property": "C06",
   "status": "proved",
   "theorems": [
    "Verif.Context.location_order",
    "Verif.Context.location_pred",
    "Verif.Context.location_add_columns"
   ],
   "note": ""
  },
  {
   "property": "C07",
   "status": "proved",
   "theorems": [
    "Verif.Context.file_ids_stable",
    "Verif.Context.file_ids_within_limit",
    "Verif.Context.file_limit_hands_out_bad_id",
    "Verif.Context.get_path_panics_on_next_id"
   ],
   "note": "last two are machine-checked disagreements at the file limit"
  },
  {
   "property": "C08",
   "status": "proved",
   "theorems": [
    "Verif.Context.register_error_exact",
    "Verif.Context.error_level_monotone"
   ],
   "note": ""
  },
  {
   "property": "C09",
   "status": "proved",
   "theorems": [
    "Verif.Dmm.key_roundtrip",
    "Verif.Dmm.key_text_injective",
    "Verif.Dmm.key_format_panics_iff",
    "Verif.Dmm.key_parse_range"
   ],
   "note": ""
  },
  {
   "property": "C10",
   "status": "proved",
   "theorems": [
    "Verif.Dmm.adjusted_key_length_sufficient"
   ],
   "note": ""
  },
  {
   "property": "C100",
   "status": "proved",
   "theorems": [
    "Verif.Dmdoc.fix_leads",
    "Verif.Dmdoc.fix_reported",
    "Verif.Dmdoc.member_linked",
    "Verif.Dmdoc.global_linked",
    "Verif.Dmdoc.type_linked",
    "Verif.Dmdoc.macro_linked",
    "Verif.Dmdoc.file_linked",
    "Verif.Dmdoc.silent_names",
    "Verif.Dmdoc.corrected",
    "Verif.Dmdoc.external_builtin",
    "Verif.Dmdoc.member_unlinked",
    "Verif.Dmdoc.w1_ordinary",
    "Verif.Dmdoc.page_lost",
    "Verif.Dmdoc.markdown_not_linked",
    "Verif.Dmdoc.dry_run_wraps"
   ],
   "note": "No two pages may have the same name: page_lost."
  },
  {
   "property": "C101",
   "status": "proved",
   "theorems": [
    "Verif.Dmdoc.linkify_leads",
    "Verif.Dmdoc.linkify_text",
    "Verif.Dmdoc.linkify_complete",
    "Verif.Dmdoc.linkify_list",
    "Verif.Dmdoc.word_leads",
    "Verif.Dmdoc.type_links_lead",
    "Verif.Dmdoc.arrow_nearest",
    "Verif.Dmdoc.module_links_lead",
    "Verif.Dmdoc.index_links_lead",
    "Verif.Dmdoc.type_page_iff",
    "Verif.Dmdoc.page_entries",
    "Verif.Dmdoc.root_link_dead",
    "Verif.Dmdoc.no_modules_anchor"
   ],
   "note": "No two pages may have the same name; docs on the root: root_link_dead."
  },
  {
   "property": "C102",
   "status": "proved",
   "theorems": [
    "Verif.Dmdoc.module_laid",
    "Verif.Dmdoc.module_items",
    "Verif.Dmdoc.module_text",
    "Verif.Dmdoc.module_title",
    "Verif.Dmdoc.text_skip",
    "Verif.Dmdoc.lined_shown",
    "Verif.Dmdoc.block_then_line"
   ],
   "note": ""
  },
  {
   "property": "C103",
   "status": "proved",
   "theorems": [
    "Verif.Dmdoc.title_spec",
    "Verif.Dmdoc.title_none",
    "Verif.Dmdoc.teaser_spec",
    "Verif.Dmdoc.teaser_none",
    "Verif.Dmdoc.teaser_total",
    "Verif.Dmdoc.headings_linked",
    "Verif.Dmdoc.linked_unique",
    "Verif.Dmdoc.slug_words",
    "Verif.Dmdoc.slug_chars",
    "Verif.Dmdoc.words_exist",
    "Verif.Dmdoc.same_anchor"
   ],
   "note": ""
  },
  {
   "property": "C104",
   "status": "proved",
   "theorems": [
    "Verif.Dmdoc.as_same",
    "Verif.Dmdoc.as_words",
    "Verif.Dmdoc.as_joined",
    "Verif.Dmdoc.display_same",
    "Verif.Dmdoc.word_type",
    "Verif.Dmdoc.displayed_movable"
   ],
   "note": ""
  },
  {
   "property": "C105",
   "status": "proved",
   "theorems": [
    "Verif.Explorer.lazy_is_eager",
    "Verif.Explorer.tree_complete",
    "Verif.Explorer.query_exact",
    "Verif.Explorer.members_exact",
    "Verif.Explorer.update_sends"
   ],
   "note": ""
  },
  {
   "property": "C106",
   "status": "proved",
   "theorems": [
    "Verif.Session.made_from",
    "Verif.Session.defines_last",
    "Verif.Session.answer_current",
    "Verif.Session.single_file_current",
    "Verif.Session.Case.good_orderly",
    "Verif.Session.Case.bad_change_stale",
    "Verif.Session.Case.opened_late_stale",
    "Verif.Session.Case.reparse_stale"
   ],
   "note": "Only for a client that keeps to the protocol with the document: Case.bad_change_stale, Case.opened_late_stale; Case.reparse_stale."
  },
  {
   "property": "C107",
   "status": "proved",
   "theorems": [
    "Verif.Session.poll_latest",
    "Verif.Session.table_from",
    "Verif.Session.busy_latest",
    "Verif.Session.Case.references_stale"
   ],
   "note": ""
  },
  {
   "property": "C108",
   "status": "proved",
   "theorems": [
    "Verif.Editor.Desk.desk_ok",
    "Verif.Editor.Desk.writes_asked",
    "Verif.Editor.Desk.dialog_saves_its_map",
    "Verif.Editor.Desk.answer_is_written",
    "Verif.Editor.Desk.clean_means_saved",
    "Verif.Editor.Desk.save_writes",
    "Verif.Editor.Desk.save_all",
    "Verif.Editor.Desk.saved_as",
    "Verif.Editor.Desk.close_spec",
    "Verif.Editor.Desk.tab_cycle",
    "Verif.Editor.Desk.open_once",
    "Verif.Editor.Desk.prepared_current",
    "Verif.Editor.Desk.act_selected",
    "Verif.Editor.Desk.only_close_closes",
    "Verif.Editor.Desk.command_tabs",
    "Verif.Editor.Desk.failed_write_loses_star",
    "Verif.Editor.Desk.untitled_has_no_star",
    "Verif.Editor.Desk.close_discards",
    "Verif.Editor.Desk.two_maps_one_file",
    "Verif.Editor.Desk.reload_missed",
    "Verif.Editor.Desk.unreadable_stays"
   ],
   "note": ""
  },
  {
   "property": "C109",
   "status": "proved",
   "theorems": [
    "Verif.Editor.Prefab.closest_type",
    "Verif.Editor.Prefab.frame_exact",
    "Verif.Editor.Prefab.frame_no_type",
    "Verif.Editor.Prefab.value_nearest",
    "Verif.Editor.Prefab.shown_spec",
    "Verif.Editor.Prefab.rows_sorted",
    "Verif.Editor.Prefab.globals_offered"
   ],
   "note": ""
  },
  {
   "property": "C11",
   "status": "proved",
   "theorems": [
    "Verif.Dmm.coord3_to_raw",
    "Verif.Dmm.coord3_from_raw",
    "Verif.Dmm.coord2_roundtrip"
   ],
   "note": ""
  },
  {
   "property": "C110",
   "status": "proved",
   "theorems": [
    "Verif.Editor.Place.stroke_exact",
    "Verif.Editor.Place.stroke_on_map",
    "Verif.Editor.Place.stroke_undone",
    "Verif.Editor.Place.nothing_placed",
    "Verif.Editor.Place.frame_idle",
    "Verif.Editor.Place.frame_click",
    "Verif.Editor.Place.frame_remove",
    "Verif.Editor.Place.entry_frame",
    "Verif.Editor.Place.add_selected",
    "Verif.Editor.Place.pick_selected",
    "Verif.Editor.Place.none_selected_after_remove",
    "Verif.Editor.Place.icon_stale",
    "Verif.Editor.Place.stroke_from_outside",
    "Verif.Editor.Place.level_change_missed"
   ],
   "note": ""
  },
  {
   "property": "C111",
   "status": "proved",
   "theorems": [
    "Verif.IconCache.retrieve_exact",
    "Verif.IconCache.retrieve_loaded",
    "Verif.IconCache.cached_stays",
    "Verif.IconCache.done_cached",
    "Verif.IconCache.call_ends",
    "Verif.IconCache.uniq_same",
    "Verif.IconCache.race_two_icons",
    "Verif.IconCache.failure_remembered",
    "Verif.IconCache.old_root_kept"
   ],
   "note": ""
  },
  {
   "property": "C112",
   "status": "proved",
   "theorems": [
    "Verif.Editor.View.tile_exact",
    "Verif.Editor.View.tile_covers",
    "Verif.Editor.View.target_current",
    "Verif.Editor.View.zoom_levels",
    "Verif.Editor.View.scroll_inside",
    "Verif.Editor.View.scroll_exact",
    "Verif.Editor.View.drag_follows",
    "Verif.Editor.View.zoom_keeps_middle",
    "Verif.Editor.View.roundAway_near",
    "Verif.Editor.View.zoom_is_stale",
    "Verif.Editor.View.other_map_is_stale",
    "Verif.Editor.View.drag_leaves_the_map"
   ],
   "note": ""
  },
  {
   "property": "C113",
   "status": "proved",
   "theorems": [
    "Verif.Term.group_reads",
    "Verif.Term.one_meaning",
    "Verif.Term.group_ends",
    "Verif.Term.group_stops",
    "Verif.Term.nested_reads",
    "Verif.Term.sample_ok",
    "Verif.Term.empty_arguments_vanish",
    "Verif.Term.proc_reference_arguments_vanish",
    "Verif.Term.dot_path_leaves_the_brace",
    "Verif.Term.lone_slash",
    "Verif.Term.colon_in_ternary"
   ],
   "note": ""
  },
  {
   "property": "C114",
   "status": "proved",
   "theorems": [
    "Verif.Editor.Recent.recent_exact",
    "Verif.Editor.Recent.sessions_exact",
    "Verif.Editor.Recent.recent_once",
    "Verif.Editor.Recent.recent_order",
    "Verif.Editor.Recent.start_exact",
    "Verif.Editor.Recent.reopens_last",
    "Verif.Editor.Recent.crash_exact",
    "Verif.Editor.Recent.again_same",
    "Verif.Editor.Recent.menu_click",
    "Verif.Editor.Recent.crash_forgets",
    "Verif.Editor.Recent.twice_stays",
    "Verif.Editor.Recent.sample"
   ],
   "note": ""
  },
  {
   "property": "C12",
   "status": "proved",
   "theorems": [
    "Verif.Dmm.map_save_read_roundtrip",
    "Verif.Dmm.map_save_no_panic",
    "Verif.Dmm.roundtrip_corrupts_quoted_string",
    "Verif.Dmm.roundtrip_loses_map_on_trailing_backslash",
    "Verif.Dmm.roundtrip_empty_dictionary"
   ],
   "note": "round trip proved for maps meeting MapOk; last three show each exclusion is a real failure"
  },
  {
   "property": "C13",
   "status": "proved",
   "theorems": [
    "Verif.Dmm.read_grid_blocks",
    "Verif.Dmm.read_map_wellformed",
    "Verif.Dmm.reader_panics_on_malformed",
    "Verif.Dmm.reader_accepts_unknown_key",
    "Verif.Dmm.reader_drops_rows"
   ],
   "note": "last three are machine-checked disagreements"
  },
  {
   "property": "C14",
   "status": "proved",
   "theorems": [
    "Verif.Indents.indent_keeps_tokens",
    "Verif.Indents.indent_output_balanced",
    "Verif.Indents.indent_brace_free_balanced",
    "Verif.Indents.indent_locations_sorted",
    "Verif.Indents.indent_panics",
    "Verif.Indents.indent_unmatched_passed_on"
   ],
   "note": "last two are disagreements"
  },
  {
   "property": "C15",
   "status": "proved",
   "theorems": [
    "Verif.Indents.indent_layout",
    "Verif.Indents.indent_depth"
   ],
   "note": ""
  },
  {
   "property": "C16",
   "status": "proved",
   "theorems": [
    "Verif.Lexer.lexer_tokens"
   ],
   "note": ""
  },
  {
   "property": "C17",
   "status": "proved",
   "theorems": [
    "Verif.Lexer.lexer_tokens",
    "Verif.Lexer.lexer_locations_sorted"
   ],
   "note": ""
  },
  {
   "property": "C18",
   "status": "proved",
   "theorems": [
    "Verif.Lexer.block_comment_exact",
    "Verif.Lexer.block_comment_nests",
    "Verif.Lexer.block_comment_adjacent_closers"
   ],
   "note": "last one is a machine-checked disagreement: touching delimiters"
  },
  {
   "property": "C19",
   "status": "proved",
   "theorems": [
    "Verif.Lexer.quote_roundtrip",
    "Verif.Lexer.string_literal_quotable",
    "Verif.Lexer.quote_not_roundtrip"
   ],
   "note": "last one is a disagreement: raw-string contents"
  },
  {
   "property": "C20",
   "status": "proved",
   "theorems": [
    "Verif.Preproc.define_map_stack"
   ],
   "note": ""
  },
  {
   "property": "C21",
   "status": "proved",
   "theorems": [
    "Verif.Preproc.PP.conditional_selects",
    "Verif.Preproc.PP.conditional_enters",
    "Verif.Preproc.PP.conditional_leaves",
    "Verif.Preproc.PP.disabled_region_silent",
    "Verif.Preproc.condition_swallows_next_line",
    "Verif.Preproc.condition_takes_docs"
   ],
   "note": "conditions without function-like macros; the last two are disagreements showing why that (and the absence of pending doc comments) is needed"
  },
  {
   "property": "C22",
   "status": "proved",
   "theorems": [
    "Verif.Preproc.preprocessing_terminates",
    "Verif.Preproc.preprocessing_depth",
    "Verif.Preproc.self_include_never_ends"
   ],
   "note": "last one is a disagreement: `#pragma multiple` self-inclusion never ends"
  },
  {
   "property": "C23",
   "status": "proved",
   "theorems": [
    "Verif.Langserver.changes_exact",
    "Verif.Langserver.store_mirrors_client",
    "Verif.Langserver.long_column_crosses_line",
    "Verif.Langserver.lone_cr_is_not_a_line",
    "Verif.Langserver.reversed_range_panics"
   ],
   "note": "last three are disagreements"
  },
  {
   "property": "C24",
   "status": "proved",
   "theorems": [
    "Verif.Langserver.offset_position_inverse",
    "Verif.Langserver.total_offset_boundary",
    "Verif.Langserver.get_range_exact"
   ],
   "note": ""
  },
  {
   "property": "C25",
   "status": "proved",
   "theorems": [
    "Verif.Langserver.frames_roundtrip",
    "Verif.Langserver.frames_roundtrip_eof",
    "Verif.Langserver.read_sound",
    "Verif.Langserver.interleaved_writers",
    "Verif.Langserver.run_never_out_of_fuel",
    "Verif.Langserver.content_type_breaks_framing",
    "Verif.Langserver.content_type_first_ends_session"
   ],
   "note": "last two are disagreements"
  },
  {
   "property": "C26",
   "status": "proved",
   "theorems": [
    "Verif.Langserver.store_refuses",
    "Verif.Langserver.change_accepted",
    "Verif.Langserver.versions_monotone",
    "Verif.Langserver.handle_version",
    "Verif.Langserver.open_twice_replaces"
   ],
   "note": "last one is a disagreement"
  },
  {
   "property": "C27",
   "status": "proved",
   "theorems": [
    "Verif.Editor.history_correct",
    "Verif.Editor.undo_reverts_edit",
    "Verif.Editor.redo_reverts_undo",
    "Verif.Editor.redo_takes_oldest"
   ],
   "note": "last one is a disagreement"
  },
  {
   "property": "C28",
   "status": "proved",
   "theorems": [
    "Verif.Editor.history_correct"
   ],
   "note": ""
  },
  {
   "property": "C29",
   "status": "proved",
   "theorems": [
    "Verif.Dmi.offsets_tile",
    "Verif.Dmi.sprite_owner",
    "Verif.Dmi.ranges_disjoint",
    "Verif.Dmi.names_exact",
    "Verif.Dmi.getIconState_exact",
    "Verif.Dmi.getIconState_finds",
    "Verif.Dmi.render_parse",
    "Verif.Dmi.render_offsets",
    "Verif.Dmi.Demo.short_delays_shift",
    "Verif.Dmi.Demo.parse_panics"
   ],
   "note": "last two are disagreements"
  },
  {
   "property": "C30",
   "status": "proved",
   "theorems": [
    "Verif.Dmi.indexOfFrame_exact",
    "Verif.Dmi.indexOfFrame_missing",
    "Verif.Dmi.frames_of_state",
    "Verif.Dmi.frames_distinct",
    "Verif.Dmi.sprites_partition",
    "Verif.Dmi.rect_inside",
    "Verif.Dmi.rect_disjoint",
    "Verif.Dmi.rectOf_exact",
    "Verif.Dmi.rect_narrow_panics",
    "Verif.Dmi.rectOf_no_states"
   ],
   "note": "last two are disagreements"
  },
  {
   "property": "C31",
   "status": "proved",
   "theorems": [
    "Verif.Dmi.Dir.offset_exact",
    "Verif.Dmi.Dir.toInt_offset",
    "Verif.Dmi.Dir.fromInt_iff",
    "Verif.Dmi.Dir.flip_offset",
    "Verif.Dmi.Dir.flip_involutive",
    "Verif.Dmi.Dir.ccw90_offset",
    "Verif.Dmi.Dir.cw90_offset",
    "Verif.Dmi.Dir.eighth_turns",
    "Verif.Dmi.Dir.contains_iff",
    "Verif.Dmi.Dir.constants_exact",
    "Verif.Dmi.Dir.cw90_southwest"
   ],
   "note": "last one is a disagreement"
  },
  {
   "property": "C32",
   "status": "proved",
   "theorems": [
    "Verif.Dmi.blend_ok",
    "Verif.Dmi.blend_opaque",
    "Verif.Dmi.blend_transparent",
    "Verif.Dmi.blend_over_opaque",
    "Verif.Dmi.channel_no_wrap",
    "Verif.Dmi.composite_exact",
    "Verif.Dmi.tint_exact",
    "Verif.Dmi.channel_wraps",
    "Verif.Dmi.transparent_loses_colour",
    "Verif.Dmi.composite_spills",
    "Verif.Dmi.composite_panics"
   ],
   "note": "last four are disagreements"
  },
  {
   "property": "C33",
   "status": "proved",
   "theorems": [
    "Verif.Objtree.find_exact",
    "Verif.Objtree.find_finished",
    "Verif.Objtree.finished_keeps",
    "Verif.Objtree.paths_unique",
    "Verif.Objtree.parent_path_exact",
    "Verif.Objtree.root_exact",
    "Verif.Objtree.child_exact",
    "Verif.Objtree.subtype_path",
    "Verif.Objtree.run_stable",
    "Verif.Objtree.typeByPath_exact",
    "Verif.Objtree.typeByPathApprox_exact",
    "Verif.Objtree.typeByPath_list",
    "Verif.Objtree.ispath_types",
    "Verif.Objtree.ispath_spec",
    "Verif.Objtree.recurse_exact",
    "Verif.Objtree.navDot_exact",
    "Verif.Objtree.navColon_exact"
   ],
   "note": ""
  },
  {
   "property": "C34",
   "status": "proved",
   "theorems": [
    "Verif.Objtree.getValue_nearest",
    "Verif.Objtree.getVarDeclaration_nearest",
    "Verif.Objtree.getProc_nearest",
    "Verif.Objtree.getProcDeclaration_nearest",
    "Verif.Objtree.supers_finished",
    "Verif.Objtree.own_exact",
    "Verif.Objtree.Demo.cycle_hangs"
   ],
   "note": "last one is a disagreement: cyclic parent_type"
  },
  {
   "property": "C35",
   "status": "proved",
   "theorems": [
    "Verif.Objtree.parent_nested",
    "Verif.Objtree.parent_top",
    "Verif.Objtree.parent_override",
    "Verif.Objtree.parent_rootless",
    "Verif.Objtree.parent_builtin",
    "Verif.Objtree.acyclic",
    "Verif.Objtree.chain_root",
    "Verif.Objtree.isSubtypeOf_exact",
    "Verif.Objtree.iterParents_exact",
    "Verif.Objtree.recurseTypes_exact",
    "Verif.Objtree.climb_cycle"
   ],
   "note": "last one: on a cycle lookups never end"
  },
  {
   "property": "C36",
   "status": "proved",
   "theorems": [
    "Verif.Const.evaluation_terminates",
    "Verif.Const.evaluation_bound_irrelevant",
    "Verif.Const.evaluated_is_value",
    "Verif.Const.recorded_is_value",
    "Verif.Const.value_unique",
    "Verif.Const.evaluation_deterministic",
    "Verif.Const.cycle_is_error",
    "Verif.Const.leads_to_cycle_is_error",
    "Verif.Const.value_is_found",
    "Verif.Const.outcome_is_fixed",
    "Verif.Const.evaluation_memoised",
    "Verif.Const.evaluate_all_correct",
    "Verif.Const.Demo.order_matters_for_non_const",
    "Verif.Const.Demo.error_leaves_mark",
    "Verif.Const.Demo.and_is_not_lazy"
   ],
   "note": "last three are disagreements"
  },
  {
   "property": "C37",
   "status": "proved",
   "theorems": [
    "Verif.Const.bit_ops_fold",
    "Verif.Const.bit_ops_on_naturals",
    "Verif.Const.bit_ops_in_range",
    "Verif.Const.bit_not_folds",
    "Verif.Const.bit_not_involutive",
    "Verif.Const.negative_operand_is_zero"
   ],
   "note": "last one is a disagreement: negative operands count as 0"
  },
  {
   "property": "C38",
   "status": "proved",
   "theorems": [
    "Verif.Parse.parse_total",
    "Verif.Parse.parse_iff",
    "Verif.Parse.derives_unique",
    "Verif.Parse.expression_sound",
    "Verif.Parse.expression_complete",
    "Verif.Parse.two_operators",
    "Verif.Parse.two_assignments",
    "Verif.Parse.conditional_right",
    "Verif.Parse.bracketed",
    "Verif.Parse.prefix_postfix",
    "Verif.Parse.missing_else",
    "Verif.Parse.assignment_in_arm"
   ],
   "note": "the last two are disagreements with the language; terms without operators are atoms of the model"
  },
  {
   "property": "C39",
   "status": "proved",
   "theorems": [
    "Verif.SwitchRand.gap_exact",
    "Verif.SwitchRand.no_gap_iff",
    "Verif.SwitchRand.never_sound",
    "Verif.SwitchRand.never_complete",
    "Verif.SwitchRand.silent",
    "Verif.SwitchRand.infinity_overflow",
    "Verif.SwitchRand.fraction_not_reported",
    "Verif.SwitchRand.unknown_case_ignored"
   ],
   "note": "the last three are disagreements: an upper bound beyond 32 bits panics or wraps; a case of fractions only is not reported; a case that is not a literal is taken to match nothing"
  },
  {
   "property": "C40",
   "status": "proved",
   "theorems": [
    "Verif.Docs.simplify_spec",
    "Verif.Docs.simplify_content",
    "Verif.Docs.text_content",
    "Verif.Docs.text_empty_iff"
   ],
   "note": ""
  },
  {
   "property": "C41",
   "status": "proved",
   "theorems": [
    "Verif.Color.extract_exact",
    "Verif.Color.color_meaning",
    "Verif.Color.format_extract",
    "Verif.Color.present_extract",
    "Verif.Color.present_replace",
    "Verif.Color.present_stable",
    "Verif.Color.present_hex",
    "Verif.Color.channel_round_trip",
    "Verif.Color.alpha_overflow"
   ],
   "note": "the last is a disagreement: an alpha over 255 is dropped"
  },
  {
   "property": "C42",
   "status": "proved",
   "theorems": [
    "Verif.Search.startsWith_iff",
    "Verif.Search.contains_iff",
    "Verif.Search.search_answers_iff",
    "Verif.Search.search_exact",
    "Verif.Search.search_self",
    "Verif.Search.search_not_everything"
   ],
   "note": "lower-casing is per character (final sigma excluded by the hypothesis Plain)"
  },
  {
   "property": "C43",
   "status": "proved",
   "theorems": [
    "Verif.Preproc.history_gives_defines",
    "Verif.Preproc.history_forgets_in_included_file"
   ],
   "note": "for events that happen in location order; the last one is a disagreement: it fails across #include"
  },
  {
   "property": "C44",
   "status": "proved",
   "theorems": [
    "Verif.Preproc.PP.ordinary_text_expands",
    "Verif.Preproc.PP.ordinary_file_expands"
   ],
   "note": "object-like macros only"
  },
  {
   "property": "C45",
   "status": "proved",
   "theorems": [
    "Verif.Langserver.cursor_reads"
   ],
   "note": ""
  },
  {
   "property": "C46",
   "status": "proved",
   "theorems": [
    "Verif.Editor.drawn_exact",
    "Verif.Editor.iterInstances_exact",
    "Verif.Editor.getInstance_sound",
    "Verif.Editor.load_holds",
    "Verif.Editor.session_correct",
    "Verif.Editor.Demo.getInstance_misses",
    "Verif.Editor.Demo.reload_leaves_old_vertices"
   ],
   "note": "last two are disagreements"
  },
  {
   "property": "C47",
   "status": "proved",
   "theorems": [
    "Verif.Editor.place_reversible",
    "Verif.Editor.delete_reversible",
    "Verif.Editor.session_correct",
    "Verif.Editor.Demo.undo_delete_loses_turf"
   ],
   "note": "last one is a disagreement"
  },
  {
   "property": "C48",
   "status": "proved",
   "theorems": [
    "Verif.Editor.load_exact",
    "Verif.Editor.load_save",
    "Verif.Editor.save_exact",
    "Verif.Editor.save_keeps_key",
    "Verif.Editor.save_succeeds",
    "Verif.Editor.load_edit_save",
    "Verif.Editor.Demo.emptied_tile_is_filled"
   ],
   "note": "last one is a disagreement"
  },
  {
   "property": "C49",
   "status": "proved",
   "theorems": [
    "Verif.Dmi.renderFrames_exact",
    "Verif.Dmi.renderToImages_exact",
    "Verif.Dmi.renderDirs_exact",
    "Verif.Dmi.render_small_sheet_panics"
   ],
   "note": "last one is a disagreement"
  },
  {
   "property": "C50",
   "status": "proved",
   "theorems": [
    "Verif.Objtree.ids_distinct"
   ],
   "note": "symbol ids are natural numbers in the model (no 30-bit overflow)"
  },
  {
   "property": "C51",
   "status": "proved",
   "theorems": [
    "Verif.Const.rgb_three",
    "Verif.Const.rgb_four",
    "Verif.Const.rgb_wrong_count",
    "Verif.Const.rgb_right_count",
    "Verif.Const.rgb_out_of_range",
    "Verif.Const.rgb_shape",
    "Verif.Const.rgb_no_panic",
    "Verif.Const.rgb_ignores_names",
    "Verif.Const.rgb_space_panics"
   ],
   "note": "last two are disagreements"
  },
  {
   "property": "C52",
   "status": "proved",
   "theorems": [
    "Verif.Const.int_ops_fold",
    "Verif.Const.int_result_exact",
    "Verif.Const.int_neg_folds",
    "Verif.Const.beyond_is_rounded"
   ],
   "note": "last one shows the bound is needed"
  },
  {
   "property": "C53",
   "status": "proved",
   "theorems": [
    "Verif.Const.constant_eq_equivalence",
    "Verif.Const.constant_eq_hash",
    "Verif.Const.prefab_eq_iff"
   ],
   "note": ""
  },
  {
   "property": "C54",
   "status": "proved",
   "theorems": [
    "Verif.Const.variable_folds",
    "Verif.Const.folds_unique"
   ],
   "note": ""
  },
  {
   "property": "C55",
   "status": "proved",
   "theorems": [
    "Verif.Const.is_truthy_sound"
   ],
   "note": "interpolated strings are outside the model"
  },
  {
   "property": "C56",
   "status": "proved",
   "theorems": [
    "Verif.CallTree.sleep_report_true",
    "Verif.CallTree.builtin_report_true",
    "Verif.CallTree.sleep_report_wording",
    "Verif.CallTree.sleeper_reported_once",
    "Verif.CallTree.written_calls_reported",
    "Verif.CallTree.own_sleep_reported",
    "Verif.CallTree.all_sleepers_reported",
    "Verif.CallTree.called_root_never_checked",
    "Verif.CallTree.exact_call_hides_override",
    "Verif.CallTree.sleeping_root_missed"
   ],
   "note": "the last three are disagreements: a proc with the directive that another such proc calls is never checked, and a proc first called exactly is not looked at again when called virtually"
  },
  {
   "property": "C57",
   "status": "proved",
   "theorems": [
    "Verif.CallTree.impure_itself_iff",
    "Verif.CallTree.impure_callee_iff",
    "Verif.CallTree.impure_override_iff",
    "Verif.CallTree.impure_overrides_known",
    "Verif.CallTree.impurity_reported_once",
    "Verif.CallTree.impure_stack_true",
    "Verif.CallTree.impure_stack_later_steps"
   ],
   "note": "the last is a disagreement: later steps of the stack carry the location of the directive"
  },
  {
   "property": "C58",
   "status": "proved",
   "theorems": [
    "Verif.CallTree.directive_insert",
    "Verif.CallTree.directive_lookup",
    "Verif.CallTree.directive_inherited",
    "Verif.CallTree.directive_order_irrelevant"
   ],
   "note": ""
  },
  {
   "property": "C59",
   "status": "proved",
   "theorems": [
    "Verif.Preproc.PP.macro_text_expands",
    "Verif.Preproc.PP.define_line",
    "Verif.Preproc.PP.wrong_arguments_reported",
    "Verif.Preproc.uncalled_macro_hides_next",
    "Verif.Preproc.empty_argument_pastes_neighbours",
    "Verif.Preproc.numbers_not_pasted"
   ],
   "note": "Expansion of text with function-like macros, by the rewriting rules of MacroSpec.lean (arguments, variadic parameters, # and ##, locations, the nesting limit); #define lines; wrong argument counts. Last three: where the program differs from a C preprocessor."
  },
  {
   "property": "C60",
   "status": "proved",
   "theorems": [
    "Verif.Preproc.PP.environment_preprocessed",
    "Verif.Preproc.PP.meaning_unique"
   ],
   "note": "Big-step meaning of a whole environment: text, #define, #undef, #pragma multiple, #include of sources, maps, skins and scripts, and conditional chains, nested; output up to line ends."
  },
  {
   "property": "C61",
   "status": "proved",
   "theorems": [
    "Verif.Flow.reported_code_is_not_reached",
    "Verif.Flow.unreachable_place_is_not_reached",
    "Verif.Flow.reported_doWhile_condition_is_not_reached",
    "Verif.Flow.reported_range_body_is_not_reached",
    "Verif.Flow.doWhile_break_false_alarm",
    "Verif.Flow.range_break_false_alarm",
    "Verif.Flow.range_step_false_alarm",
    "Verif.Flow.zero_range_false_alarm",
    "Verif.Flow.doWhile_continue_false_alarm"
   ],
   "note": "The last five exhibit false alarms of the code outside the stated hypotheses."
  },
  {
   "property": "C62",
   "status": "proved",
   "theorems": [
    "Verif.Flow.spawn_return_only",
    "Verif.Flow.spawn_return_all",
    "Verif.Flow.late_setting_only",
    "Verif.Flow.late_setting_all",
    "Verif.Flow.if_condition_only",
    "Verif.Flow.if_condition_all",
    "Verif.Flow.dead_arm_all",
    "Verif.Flow.loop_condition_only",
    "Verif.Flow.loop_condition_all",
    "Verif.Flow.code_after_return_is_noticed",
    "Verif.Flow.code_after_return_missed"
   ],
   "note": "code_after_return_missed shows that the hypothesis on preceding jumps is needed."
  },
  {
   "property": "C63",
   "status": "proved",
   "theorems": [
    "Verif.Decl.declarations_mean_their_paths",
    "Verif.Decl.same_facts_same_tree",
    "Verif.Decl.blocks_only_save_writing",
    "Verif.Decl.init_wf",
    "Verif.Decl.init_see",
    "Verif.Decl.absolute_path_among_variables",
    "Verif.Decl.operator_slash_block",
    "Verif.Decl.path_after_proc"
   ],
   "note": "what a declaration means is in Decl/Spec.lean (Src, facts, World.tell); the last three are witnesses that the well-formedness conditions are needed"
  },
  {
   "property": "C64",
   "status": "proved",
   "theorems": [
    "Verif.Decl.parsing_ends",
    "Verif.Decl.tree_is_not_misused",
    "Verif.Decl.unclosed_block_panics",
    "Verif.Decl.crossed_brackets_panic"
   ],
   "note": "the last two show the panic"
  },
  {
   "property": "C65",
   "status": "proved",
   "theorems": [
    "Verif.Decl.read_in_sequence",
    "Verif.Decl.order_of_independent_files",
    "Verif.Decl.types_stay",
    "Verif.Decl.stray_brace_ends_reading"
   ],
   "note": ""
  },
  {
   "property": "C66",
   "status": "proved",
   "theorems": [
    "Verif.Decl.bodies_do_not_matter",
    "Verif.Decl.strip_see",
    "Verif.Decl.procBody_toks"
   ],
   "note": ""
  },
  {
   "property": "C67",
   "status": "proved",
   "theorems": [
    "Verif.Stmt.bodies_mean_their_statements",
    "Verif.Stmt.one_reading",
    "Verif.Stmt.else_goes_to_the_nearest_if",
    "Verif.Stmt.procs_have_their_statements",
    "Verif.Stmt.list_loop_forgets_its_type",
    "Verif.Stmt.rest_of_the_line_is_dropped",
    "Verif.Stmt.semicolon_after_the_default",
    "Verif.Stmt.in_test_of_two_parts",
    "Verif.Stmt.sample_ok"
   ],
   "note": "the grammar, its meaning and its messages are in Stmt/Spec.lean; expressions are what the expression parser reads at that place; the witnesses list_loop_forgets_its_type, rest_of_the_line_is_dropped, semicolon_after_the_default and in_test_of_two_parts show where the code departs from the language"
  },
  {
   "property": "C68",
   "status": "proved",
   "theorems": [
    "Verif.Stmt.body_parsing_ends",
    "Verif.Stmt.body_is_determined"
   ],
   "note": ""
  },
  {
   "property": "C69",
   "status": "proved",
   "theorems": [
    "Verif.Dmm.line_endings_irrelevant",
    "Verif.Dmm.leading_junk_ignored",
    "Verif.Dmm.byte_order_mark_ignored",
    "Verif.Dmm.leading_comment_ignored",
    "Verif.Dmm.empty_block_ignored",
    "Verif.Dmm.tab_in_string_is_lost"
   ],
   "note": "last one: tabs, unlike line ends, are lost inside values"
  },
  {
   "property": "C70",
   "status": "proved",
   "theorems": [
    "Verif.Minimap.minimap_pixels",
    "Verif.Minimap.minimap_total",
    "Verif.Minimap.minimap_above_panics",
    "Verif.Minimap.drawAll_exact",
    "Verif.Minimap.sort_order"
   ],
   "note": "For every list of passes (as functions); i32 overflow of positions not modelled. A rectangle above the level panics."
  },
  {
   "property": "C71",
   "status": "proved",
   "theorems": [
    "Verif.Minimap.part_of_picture",
    "Verif.Minimap.part_is_cut_out",
    "Verif.Minimap.tiles_part",
    "Verif.Minimap.Ex.part_lacks_overhang"
   ],
   "note": "What hangs over from outside tiles is missing: Ex.part_lacks_overhang."
  },
  {
   "property": "C72",
   "status": "proved",
   "theorems": [
    "Verif.Minimap.layer_order",
    "Verif.Minimap.layer_monotone",
    "Verif.Minimap.floats_plain",
    "Verif.Minimap.layer_below_one",
    "Verif.Minimap.layer_tiny_negative",
    "Verif.Minimap.layer_saturates"
   ],
   "note": "Outside the stated range the order fails: layer_below_one, layer_tiny_negative, layer_saturates."
  },
  {
   "property": "C73",
   "status": "proved",
   "theorems": [
    "Verif.Minimap.color_six",
    "Verif.Minimap.color_three",
    "Verif.Minimap.color_name",
    "Verif.Minimap.color_unknown",
    "Verif.Minimap.color_other_length",
    "Verif.Minimap.alpha_is",
    "Verif.Minimap.var_given",
    "Verif.Minimap.var_nearest",
    "Verif.Minimap.var_missing",
    "Verif.Minimap.color_eight_white",
    "Verif.Minimap.color_nine_panics"
   ],
   "note": "#rrggbbaa is white and a ninth digit overflows."
  },
  {
   "property": "C74",
   "status": "proved",
   "theorems": [
    "Verif.Minimap.sprite_place",
    "Verif.Minimap.sprite_look",
    "Verif.Minimap.thing_sprites",
    "Verif.Minimap.thing_hidden",
    "Verif.Minimap.prefab_things",
    "Verif.Minimap.atomList_eq",
    "Verif.Minimap.tile_sprites",
    "Verif.Minimap.neighborhood_directions"
   ],
   "note": ""
  },
  {
   "property": "C75",
   "status": "proved",
   "theorems": [
    "Verif.Minimap.pass_chosen",
    "Verif.Minimap.pass_order",
    "Verif.Minimap.layer_nearest",
    "Verif.Minimap.floor_hides",
    "Verif.Minimap.hidden_iff",
    "Verif.Minimap.slashes_win"
   ],
   "note": "Paths with several trailing slashes win over longer ones: slashes_win. The dual layering of vents is not modelled."
  },
  {
   "property": "C76",
   "status": "proved",
   "theorems": [
    "Verif.Minimap.adjacencies_bits",
    "Verif.Minimap.match16",
    "Verif.Minimap.match20",
    "Verif.Minimap.cardinal_corners",
    "Verif.Minimap.diagonal_looks",
    "Verif.Minimap.underlay_elbow",
    "Verif.Minimap.bitmask_looks",
    "Verif.Minimap.smooth16_looks",
    "Verif.Minimap.smooth20_looks",
    "Verif.Minimap.smooth25_looks",
    "Verif.Minimap.reverse_slanted",
    "Verif.Minimap.typepaths_never_match",
    "Verif.Minimap.anchored_ignored",
    "Verif.Minimap.emptied_is_border",
    "Verif.Minimap.Ex.lone_neighbour_is_diagonal"
   ],
   "note": "The last four are disagreements with the game systems."
  },
  {
   "property": "C77",
   "status": "proved",
   "theorems": [
    "Verif.Minimap.cable_linked",
    "Verif.Minimap.cable_looks",
    "Verif.Minimap.link_mutual",
    "Verif.Minimap.neighbours_see",
    "Verif.Minimap.link_one_way"
   ],
   "note": ""
  },
  {
   "property": "C78",
   "status": "proved",
   "theorems": [
    "Verif.Minimap.pick_share",
    "Verif.Minimap.loot_doubles",
    "Verif.Minimap.loot_single",
    "Verif.Minimap.loot_things",
    "Verif.Minimap.pick_weightless_panics"
   ],
   "note": "Weights summing to less than one panic."
  },
  {
   "property": "C79",
   "status": "proved",
   "theorems": [
    "Verif.Typing.effects_iff",
    "Verif.Typing.accepted_iff",
    "Verif.Typing.exprIs_iff",
    "Verif.Typing.undefinedVar_iff",
    "Verif.Typing.undefinedField_iff",
    "Verif.Typing.undefinedProc_iff",
    "Verif.Typing.builtin_gives",
    "Verif.Typing.kwarg_iff",
    "Verif.Typing.usesArglist_iff",
    "Verif.Typing.filter_params",
    "Verif.Typing.filter_flags",
    "Verif.Typing.modifiers_iff"
   ],
   "note": "Expressions; statements are C80."
  },
  {
   "property": "C80",
   "status": "proved",
   "theorems": [
    "Verif.Typing.body_reports",
    "Verif.Typing.block_reports",
    "Verif.Typing.scopes_reports",
    "Verif.Typing.findings_reports",
    "Verif.Typing.shift_reports_twice",
    "Verif.Typing.start_not_looked_at",
    "Verif.Typing.stale_constant"
   ],
   "note": "The last three are disagreements. Control flow messages are C61/C62; which statements end a block is taken from there."
  },
  {
   "property": "C81",
   "status": "proved",
   "theorems": [
    "Verif.Typing.run_override",
    "Verif.Typing.callsParent_iff",
    "Verif.Typing.unlint_hides_parent_call",
    "Verif.Typing.start_hides_parent_call"
   ],
   "note": "The last two are disagreements. Which proc a directive is inherited from is C58."
  },
  {
   "property": "C82",
   "status": "proved",
   "theorems": [
    "Verif.Typing.kwargs_sound",
    "Verif.Typing.kwargs_complete",
    "Verif.Typing.kwargs_once",
    "Verif.Typing.report_base",
    "Verif.Typing.kw_noted",
    "Verif.Typing.kw_redefined_missed",
    "Verif.Typing.kw_inherited_missed"
   ],
   "note": "The last two are disagreements: such overrides are missed."
  },
  {
   "property": "C83",
   "status": "proved",
   "theorems": [
    "Verif.Typing.varDefs_iff",
    "Verif.Typing.varDefs_unique",
    "Verif.Typing.varDemo_reports"
   ],
   "note": "Every report, and what a project without one may rely on."
  },
  {
   "property": "C84",
   "status": "proved",
   "theorems": [
    "Verif.Typing.accepted_runs",
    "Verif.Typing.accepted_compound",
    "Verif.Typing.most_honest",
    "Verif.Typing.demoGood_runs",
    "Verif.Typing.demoGood_value",
    "Verif.Typing.missed_ternary",
    "Verif.Typing.missed_sum",
    "Verif.Typing.missed_compound",
    "Verif.Typing.missed_index",
    "Verif.Typing.missed_global",
    "Verif.Typing.missed_globalProc",
    "Verif.Typing.missed_new"
   ],
   "note": "For the expressions named in the statement; the last seven are accepted and fail in a run."
  },
  {
   "property": "C85",
   "status": "proved",
   "theorems": [
    "Verif.Refs.references_iff",
    "Verif.Refs.references_sorted",
    "Verif.Refs.implementations_iff",
    "Verif.Refs.implementations_sorted",
    "Verif.Refs.local_in_one_body",
    "Verif.Refs.visitExpr_uses"
   ],
   "note": "As sets of places in order; how often a place is listed is not claimed."
  },
  {
   "property": "C86",
   "status": "proved",
   "theorems": [
    "Verif.Lookup.completion_iff",
    "Verif.Lookup.members_once",
    "Verif.Lookup.goto_iff",
    "Verif.Lookup.symbolAt_iff",
    "Verif.Lookup.gotoType_iff",
    "Verif.Lookup.signature_iff",
    "Verif.Lookup.complete_then_goto",
    "Verif.Lookup.unscoped_then_goto",
    "Verif.Lookup.symbol_above_goto",
    "Verif.Lookup.symbol_var_listed",
    "Verif.Lookup.symbol_call_listed",
    "Verif.Lookup.symbol_field_listed",
    "Verif.Lookup.hoverVar_docs",
    "Verif.Lookup.hoverProc_docs",
    "Verif.Lookup.hover_lists"
   ],
   "note": "On the annotations at a place; completion as a set of items."
  },
  {
   "property": "C87",
   "status": "proved",
   "theorems": [
    "Verif.Server.main_session",
    "Verif.Server.main_exit",
    "Verif.Server.answered_once",
    "Verif.Server.session_count",
    "Verif.Server.session_idle",
    "Verif.Server.does_unique",
    "Verif.Server.handleCall_does",
    "Verif.Server.batch_of_one",
    "Verif.Server.empty_batch",
    "Verif.Server.batch_exit_unanswered",
    "Verif.Server.shutdown_with_params",
    "Verif.Server.eof_is_success"
   ],
   "note": "handlers and the decoding of JSON are parameters"
  },
  {
   "property": "C88",
   "status": "proved",
   "theorems": [
    "Verif.Server.build_get",
    "Verif.Server.build_nodup",
    "Verif.Server.shown_last",
    "Verif.Server.one_sender",
    "Verif.Server.parser_first",
    "Verif.Server.quiet_all_sent",
    "Verif.Server.quiet_last",
    "Verif.Server.quiet_single",
    "Verif.Server.progress",
    "Verif.Server.one_run",
    "Verif.Server.stale_check"
   ],
   "note": "every interleaving; one publish per step"
  },
  {
   "property": "C89",
   "status": "proved",
   "theorems": [
    "Verif.Server.foldingRanges_iff",
    "Verif.Server.foldingRanges_sorted",
    "Verif.Server.foldingRanges_nested",
    "Verif.Server.kindOf_opens",
    "Verif.Server.kindOf_closes"
   ],
   "note": ""
  },
  {
   "property": "C90",
   "status": "proved",
   "theorems": [
    "Verif.Server.documentSymbols_rows",
    "Verif.Server.documentSymbols_once",
    "Verif.Server.parentOf_innermost",
    "Verif.Server.parentOf_none",
    "Verif.Server.empty_variable_panics"
   ],
   "note": "on the annotations that the interval tree yields (C05)"
  },
  {
   "property": "C91",
   "status": "proved",
   "theorems": [
    "Verif.Debug.parseFunction_iff",
    "Verif.Debug.exSession_no_stale",
    "Verif.Debug.exSession_exact",
    "Verif.Debug.exRequest_answers",
    "Verif.Debug.exRequest_func_answers",
    "Verif.Debug.exRequest_unconnected",
    "Verif.Debug.wishes_apart",
    "Verif.Debug.auxSession_no_stale",
    "Verif.Debug.auxSession_exact",
    "Verif.Debug.auxSession_down",
    "Verif.Debug.exSession_shared_place_disagrees",
    "Verif.Debug.exRequest_second_game_disagrees"
   ],
   "note": "The converse (every wish is in the game) needs that no line begins at offset 0 of a proc; without it exSession_shared_place_disagrees."
  },
  {
   "property": "C92",
   "status": "proved",
   "theorems": [
    "Verif.Debug.getProc_iff",
    "Verif.Debug.location_some",
    "Verif.Debug.location_none",
    "Verif.Debug.location_getProc",
    "Verif.Debug.lineToOffset_iff",
    "Verif.Debug.lineToOffset_none",
    "Verif.Debug.offsetToLine_of",
    "Verif.Debug.offsetToLine_within",
    "Verif.Debug.lineToOffset_offsetToLine",
    "Verif.Debug.frame_at_breakpoint",
    "Verif.Debug.frame_stddef",
    "Verif.Debug.getProc_kind_word_disagrees"
   ],
   "note": ""
  },
  {
   "property": "C93",
   "status": "proved",
   "theorems": [
    "Verif.Debug.stackTrace_rows",
    "Verif.Debug.givenId_iff",
    "Verif.Debug.frames_distinct",
    "Verif.Debug.frame_scopes",
    "Verif.Debug.scopes_distinct",
    "Verif.Debug.value_reference",
    "Verif.Debug.value_closed",
    "Verif.Debug.unknown_frame",
    "Verif.Debug.threads_listed",
    "Verif.Debug.threads_start",
    "Verif.Debug.localVars_rows",
    "Verif.Debug.argVars_rows",
    "Verif.Debug.localVars_distinct",
    "Verif.Debug.argVars_distinct",
    "Verif.Debug.auxLabels_rows",
    "Verif.Debug.auxLabels_distinct",
    "Verif.Debug.linear_rows",
    "Verif.Debug.assoc_rows",
    "Verif.Debug.indexed_inj",
    "Verif.Debug.fields_rows",
    "Verif.Debug.disassemble_addresses",
    "Verif.Debug.evaluate_shows",
    "Verif.Debug.deep_frame_disagrees",
    "Verif.Debug.before_stop_disagrees",
    "Verif.Debug.threads_empty_stack_disagrees",
    "Verif.Debug.pointer_disagrees",
    "Verif.Debug.aux_suffix_disagrees",
    "Verif.Debug.zero_reference_disagrees"
   ],
   "note": "Scopes of frames with ids below 2^23-1; beyond, deep_frame_disagrees."
  },
  {
   "property": "C94",
   "status": "proved",
   "theorems": [
    "Verif.Debug.life_story",
    "Verif.Debug.life_truthful",
    "Verif.Debug.life_ended_once",
    "Verif.Debug.life_signal",
    "Verif.Debug.life_progress",
    "Verif.Debug.seq_perm",
    "Verif.Debug.seq_distinct",
    "Verif.Debug.seq_quiet",
    "Verif.Debug.dap_responses",
    "Verif.Debug.seq_order_disagrees",
    "Verif.Debug.dap_panic_disagrees",
    "Verif.Debug.dap_order_disagrees",
    "Verif.Debug.kill_not_terminated_disagrees",
    "Verif.Debug.signal_reaped_disagrees",
    "Verif.Debug.relaunch_disagrees"
   ],
   "note": "Handlers are parameters: any total function of the adapter state."
  },
  {
   "property": "C95",
   "status": "proved",
   "theorems": [
    "Verif.Debug.readLoop_messages",
    "Verif.Debug.readLoop_roundtrip",
    "Verif.Debug.messages_unique",
    "Verif.Debug.auxRun_messages",
    "Verif.Debug.calls_in_order",
    "Verif.Debug.own_answer",
    "Verif.Debug.answer_comes",
    "Verif.Debug.aux_failed_down",
    "Verif.Debug.down_silent",
    "Verif.Debug.ex_stale_disagrees",
    "Verif.Debug.aux_stale_disagrees",
    "Verif.Debug.early_call_disagrees"
   ],
   "note": "After a failed call own answers are not guaranteed: ex_stale_disagrees, aux_stale_disagrees."
  },
  {
   "property": "C96",
   "status": "proved",
   "theorems": [
    "Verif.Cli.diff_exact",
    "Verif.Cli.diff_empty_iff",
    "Verif.Cli.diff_saved",
    "Verif.Cli.diff_symm",
    "Verif.Cli.diff_unknown_key_disagrees"
   ],
   "note": ""
  },
  {
   "property": "C97",
   "status": "proved",
   "theorems": [
    "Verif.Cli.coord_roundtrip",
    "Verif.Cli.region_within",
    "Verif.Cli.region_exact",
    "Verif.Cli.region_default",
    "Verif.Cli.minimapName_inj",
    "Verif.Cli.chunkName_inj",
    "Verif.Cli.written_schedule",
    "Verif.Cli.minimap_files",
    "Verif.Cli.minimap_cmd_total",
    "Verif.Cli.renderMany_rows",
    "Verif.Cli.renderMany_files",
    "Verif.Cli.chunk_region",
    "Verif.Cli.region_drawable",
    "Verif.Cli.max_without_level_disagrees",
    "Verif.Cli.chunk_upper_disagrees",
    "Verif.Cli.chunk_lower_disagrees",
    "Verif.Cli.same_stem_disagrees",
    "Verif.Cli.exit_wraps_disagrees",
    "Verif.Cli.twice_disagrees"
   ],
   "note": "Files of maps of the same name: same_stem_disagrees."
  },
  {
   "property": "C98",
   "status": "proved",
   "theorems": [
    "Verif.Typing.compile_accepts",
    "Verif.Typing.annotation_means",
    "Verif.Typing.gather_silent",
    "Verif.Typing.wordsPath_iff",
    "Verif.Typing.call_type",
    "Verif.Typing.override_not_annotated",
    "Verif.Typing.path_separators_ignored",
    "Verif.Typing.raw_missing_replaces"
   ],
   "note": ""
  },
  {
   "property": "C99",
   "status": "proved",
   "theorems": [
    "Verif.Dmdoc.index_order",
    "Verif.Dmdoc.index_paths",
    "Verif.Dmdoc.index_nested",
    "Verif.Dmdoc.index_once",
    "Verif.Dmdoc.index_substance",
    "Verif.Dmdoc.index_rows",
    "Verif.Dmdoc.index_rows_all",
    "Verif.Dmdoc.shown_twice"
   ],
   "note": ""
  }
 ]
}