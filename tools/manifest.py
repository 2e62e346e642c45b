import json,os
M={}
def p(c,st,th,note): M[c]=dict(property=c,status=st,theorems=th,note=note)
I='Verif.IntervalTree.';X='Verif.Context.';D='Verif.Dmm.';N='Verif.Indents.'
def q(pre,*a): return [pre+x for x in a]
p('C01','proved',q(I,'interval_tree_multimap'),'all histories of insert/remove')
p('C02','proved',q(I,'interval_tree_no_panic'),'')
p('C03','proved',q(I,'interval_tree_range_exact'),'')
p('C04','proved',q(I,'interval_tree_iter_complete','interval_tree_into_iter_complete','interval_tree_min_max','interval_tree_merge'),'')
p('C05','proved',q(X,'annotations_at_location','annotations_in_range'),'')
p('C06','proved',q(X,'location_order','location_pred','location_add_columns'),'')
p('C07','proved',q(X,'file_ids_stable','file_ids_within_limit','file_limit_hands_out_bad_id','get_path_panics_on_next_id'),'last two are machine-checked disagreements at the file limit')
p('C08','proved',q(X,'register_error_exact','error_level_monotone'),'')
p('C09','proved',q(D,'key_roundtrip','key_text_injective','key_format_panics_iff','key_parse_range'),'')
p('C10','proved',q(D,'adjusted_key_length_sufficient'),'')
p('C11','proved',q(D,'coord3_to_raw','coord3_from_raw','coord2_roundtrip'),'')
p('C12','proved',q(D,'map_save_read_roundtrip','map_save_no_panic','roundtrip_corrupts_quoted_string','roundtrip_loses_map_on_trailing_backslash','roundtrip_empty_dictionary'),'round trip proved for maps meeting MapOk; last three show each exclusion is a real failure')
p('C13','proved',q(D,'read_grid_blocks','read_map_wellformed','reader_panics_on_malformed','reader_accepts_unknown_key','reader_drops_rows'),'last three are machine-checked disagreements')
p('C14','proved',q(N,'indent_keeps_tokens','indent_output_balanced','indent_brace_free_balanced','indent_locations_sorted','indent_panics','indent_unmatched_passed_on'),'last two are disagreements')
p('C15','proved',q(N,'indent_layout','indent_depth'),'')
exec(open('/tmp/w/manifest_more.py').read()) if os.path.exists('/tmp/w/manifest_more.py') else None
json.dump({"claims":[M[k] for k in sorted(M)]},open('/verif/MANIFEST.json','w'),indent=1)
