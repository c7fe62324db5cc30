{"claims":[
{"property": "C01", "status": "proved", "theorems": ["Verif.C01_read_own_write", "Verif.C01_read_own_write_same", "Verif.C01_space_fails", "Verif.C01_route_fails"], "note": "For keys without spaces and trees without route patterns; C01_space_fails and C01_route_fails show that both conditions are needed."},
{"property": "C02", "status": "proved", "theorems": ["Verif.C02_frame_entry", "Verif.C02_frame_absent", "Verif.C02_alias_fails", "Verif.C02_found_fails"], "note": "C02_frame_entry and C02_frame_absent; C02_alias_fails and C02_found_fails show why the excluded cases are excluded."},
{"property": "C03", "status": "proved", "theorems": ["Verif.C03_last_write_wins", "Verif.C03_never_written"], "note": ""},
{"property": "C04", "status": "partial", "theorems": ["Verif.C04_found_fails", "Verif.C04_found_partial", "Verif.C04_found_history_partial"], "note": "The code violates the claim when the key is a proper prefix of a stored key (C04_found_fails); the partial theorems cover the other cases."},
{"property": "C05", "status": "proved", "theorems": ["Verif.C05_has_exact", "Verif.C05_has_total", "Verif.C05_paths", "Verif.C05_has_sets", "Verif.C05_doc_fails"], "note": "C05_doc_fails: branch positions created by splits also answer Has."},
{"property": "C06", "status": "proved", "theorems": ["Verif.C06_order_irrelevant"], "note": ""},
{"property": "C07", "status": "proved", "theorems": ["Verif.C07_remove_subtree", "Verif.C07_removes_siblings"], "note": "C07_removes_siblings: removal is by characters, so Remove(\"app\") also removes \"apple\"."},
{"property": "C08", "status": "proved", "theorems": ["Verif.C08_remove_iff_has", "Verif.C08_remove_idempotent", "Verif.C08_removed_node"], "note": ""},
{"property": "C09", "status": "proved", "theorems": ["Verif.C09_walk_exact", "Verif.C09_walk_live"], "note": ""},
{"property": "C10", "status": "partial", "theorems": ["Verif.C10_key_ascii", "Verif.C10_key_leaf", "Verif.C10_key_fails"], "note": "Holds for ASCII keys and for leaf entries in any script; C10_key_fails is a branch entry below which a non-ASCII key was split."},
{"property": "C11", "status": "proved", "theorems": ["Verif.C11_withPrefix", "Verif.C11_nested", "Verif.C11_shift", "Verif.C11_replaced", "Verif.C11_reads", "Verif.C11_writes", "Verif.C11_views_share"], "note": "Delimiters below 128; C39_rune_delim_fails for others."},
{"property": "C12", "status": "proved", "theorems": ["Verif.C12_dup_answers", "Verif.C12_dup_walk", "Verif.C12_dup_independent", "Verif.C12_meta_dropped"], "note": "evendeep.MakeClone is taken to return an equal value that shares nothing with its argument. C12_meta_dropped: description, comment and tag are not copied."},
{"property": "C13", "status": "proved", "theorems": ["Verif.C13_meta_survives", "Verif.C13_fresh_meta"], "note": ""},
{"property": "C14", "status": "partial", "theorems": ["Verif.C14_missing_partial", "Verif.C14_setComment_has", "Verif.C14_setTag_has", "Verif.C14_unrelated_partial", "Verif.C14_partial_match_fails", "Verif.C14_getters", "Verif.C14_read_back"], "note": "True when the path has an entry or nothing related is stored; C14_partial_match_fails shows that on a partial match the annotation lands on another entry; C14_missing_partial says exactly on which."},
{"property": "C15", "status": "partial", "theorems": ["Verif.C15_args_partial", "Verif.C15_stores", "Verif.C15_count_fails", "Verif.C15_count_partial"], "note": "Arguments and effect proved; the call count is wrong in the code (C15_count_fails); C15_count_partial says what it is."},
{"property": "C16", "status": "proved", "theorems": ["Verif.C16_old_value", "Verif.C16_old_value_new"], "note": ""},
{"property": "C17", "status": "proved", "theorems": ["Verif.C17_agree"], "note": ""},
{"property": "C18", "status": "proved", "theorems": ["Verif.C18_hasPart_iff", "Verif.C18_empty_fails"], "note": "C18_empty_fails for the empty trie."},
{"property": "C19", "status": "proved", "theorems": ["Verif.C19_getM_exact", "Verif.C19_getR_exact", "Verif.C19_readback", "Verif.C19_branch_data_lost", "Verif.C19_prefix_fails", "Verif.C19_prefix_panics", "Verif.C19_empty_panics"], "note": "Also GetR. C19_branch_data_lost, C19_prefix_fails, C19_prefix_panics, C19_empty_panics: what happens outside the claim."},
{"property": "C20", "status": "proved", "theorems": ["Verif.C20_order_independent", "Verif.C20_values", "Verif.C20_map_value_fails"], "note": "C20_map_value_fails: the condition on values is needed."},
{"property": "C21", "status": "proved", "theorems": ["Verif.C21_found", "Verif.C21_missing", "Verif.C21_slices", "Verif.C21_mustSlices", "Verif.C21_stop", "Verif.C21_bytes", "Verif.C21_narrow", "Verif.C21_narrow_fails", "Verif.C21_branch_value_ignored"], "note": "For every conversion, including panicking ones; the converters themselves are an external package. Slice getters return all defaults; C21_branch_value_ignored shows a surprising consequence of Get's found flag. C21_narrow: narrow integer getters give the number modulo 2^n (C21_narrow_fails: no error when it does not fit)."},
{"property": "C22", "status": "proved", "theorems": ["Verif.Bytes.C22_blanks", "Verif.Bytes.C22_kibi", "Verif.Bytes.C22_kilo", "Verif.Bytes.C22_wraps", "Verif.Bytes.C22_saturates", "Verif.Bytes.C22_zetta_ignored", "Verif.Bytes.C22_hex_fails", "Verif.Bytes.C22_octal", "Verif.Bytes.C22_blank_panics"], "note": "Any blanks below U+0080 around and between. The branch for numbers with a decimal point (strconv.ParseFloat) is not part of the claim; see C107. C22_wraps, C22_saturates, C22_zetta_ignored, C22_hex_fails, C22_octal, C22_blank_panics: behaviour outside the claim."},
{"property": "C23", "status": "partial", "theorems": ["Verif.Dur.C23_roundtrip_partial", "Verif.Dur.C23_panic_iff", "Verif.Dur.C23_roundtrip_range_partial", "Verif.Dur.C23_roundtrip_fails", "Verif.Dur.C23_overflow_accepted"], "note": "The claim is false: C23_roundtrip_fails. Proved: whenever formatting returns, parsing gives the duration back, and formatting panics exactly for the durations described by C23_panic_iff. float64 arithmetic is modelled as correctly rounded rational arithmetic."},
{"property": "C24", "status": "partial", "theorems": ["Verif.C24_roundtrip_fails", "Verif.C24_roundtrip_lower_partial", "Verif.C24_parse_single", "Verif.C24_has"], "note": "The round trip is false for every operation except through lower-cased names (C24_roundtrip_fails, C24_roundtrip_lower_partial); Has is proved in full."},
{"property": "C25", "status": "proved", "theorems": ["Verif.Ctx.C25_iterate", "Verif.Ctx.C25_reset", "Verif.Ctx.C25_nextName", "Verif.Ctx.C25_withValues", "Verif.Ctx.C25_add_during", "Verif.Ctx.C25_empty_name"], "note": "C25_add_during and C25_empty_name describe additions during an iteration and the empty name."},
{"property": "C26", "status": "partial", "theorems": ["Verif.Sys.C26_expiry", "Verif.Sys.C26_detached", "Verif.Sys.C26_setTTL", "Verif.Sys.C26_answers", "Verif.Sys.C26_close_partial", "Verif.Sys.C26_close_starting", "Verif.Sys.C26_branch", "Verif.Sys.C26_close_fails", "Verif.Sys.C26_close_view_fails", "Verif.Sys.C26_split_fails", "Verif.Sys.C26_branch_value", "Verif.Sys.C26_reset_cleared", "Verif.Sys.C26_short_ignored", "Verif.Sys.C26_dup_fails", "Verif.Sys.C26_prefix_fails", "Verif.Sys.C26_removed_branch_fails"], "note": "The last sentence is false: C26_close_fails (a timer that expired before Close, or whose goroutine has not reached its select, still clears the entry). Proved: expiry clears exactly its entry in every execution in which the entry is neither split nor removed (C26_expiry, C26_answers), and Close stops every timer whose goroutine waits (C26_close_partial). Calls, timers and goroutine steps are atomic: data races inside one call are not modelled."},
{"property": "C27", "status": "proved", "theorems": ["Verif.Store.C27_set", "Verif.Store.C27_old", "Verif.Store.C27_remove", "Verif.Store.C27_flag_fails", "Verif.Store.C27_silent_views", "Verif.Store.C27_silent_merge", "Verif.Store.C27_stream_fails"], "note": "For every store state. C27_flag_fails: the mergingMapOrLoading argument is inverted; C27_silent_*: writes through prefix views, merges and map loads call no handler; C27_stream_fails: loading a stream reports overwritten keys as new."},
{"property": "C28", "status": "partial", "theorems": ["Verif.Store.C28_save_partial", "Verif.Store.C28_save_loses_branch", "Verif.Store.C28_save_loses_below", "Verif.Store.C28_set_mark", "Verif.Store.C28_merge_mark", "Verif.Store.C28_load_mark", "Verif.Store.C28_withinLoading", "Verif.Store.C28_reload_stays_modified"], "note": "Marks of Set, Merge and Load proved for every store. Save: exact description of the saved map without prefix; the claim itself fails for branch entries and for leaves below another leaf (C28_save_loses_branch, C28_save_loses_below) and, with a prefix, as in C19_prefix_fails. C28_reload_stays_modified: a reload does not clean the mark."},
{"property": "C29", "status": "proved", "theorems": ["Verif.Store.C29_merge", "Verif.Store.C29_merge_last", "Verif.Store.C29_merge_is_sets", "Verif.Store.C29_load_is_sets", "Verif.Store.C29_load", "Verif.Store.C29_load_nested", "Verif.Store.C29_merge_prefix_fails", "Verif.Store.C29_empty_key_fails", "Verif.Store.C29_order_fails", "Verif.Store.C29_meta_fails", "Verif.Store.C29_stream_fails"], "note": "Paths free of route patterns; with slice flattening the map keys must be non-empty (C29_empty_key_fails). C29_merge_prefix_fails: Merge ignores the prefix of a view. C29_meta_fails, C29_stream_fails: further deviations of Load."},
{"property": "C30", "status": "proved", "theorems": ["Verif.C30_components", "Verif.C30_deflate", "Verif.C30_order_independent", "Verif.C30_extending_fails", "Verif.C30_empty_panics"], "note": "For every non-empty delimiter string. C30_extending_fails and C30_empty_panics: what happens when keys extend each other or a key is empty."},
{"property": "C31", "status": "partial", "theorems": ["Verif.C31_clean_partial", "Verif.C31_nested_slice_fails", "Verif.C31_map_slice_fails", "Verif.C31_agrees", "Verif.C31_collision_fails"], "note": "Clean result proved for values whose slices contain no slices or typed map slices; beyond that the claim is false (C31_nested_slice_fails, C31_map_slice_fails). Agreement on paths needs keys that are distinct as text (C31_collision_fails)."},
{"property": "C32", "status": "proved", "theorems": ["Verif.Remote.C32_strip", "Verif.Remote.C32_prepend", "Verif.Remote.C32_no_slash", "Verif.Remote.C32_injective", "Verif.Remote.C32_outside_fails", "Verif.Remote.C32_overlap_fails", "Verif.Remote.C32_delim_fails", "Verif.Remote.C32_separator_fails"], "note": "For delimiters of several characters, 'contains no delimiter' is read as not containing its first character; C32_overlap_fails shows the weaker reading fails. C32_outside_fails, C32_delim_fails, C32_separator_fails: behaviour outside the claim."},
{"property": "C33", "status": "partial", "theorems": ["Verif.C33_captures_partial", "Verif.C33_only_partial", "Verif.C33_literal_fails", "Verif.C33_length_fails", "Verif.C33_colon_fails", "Verif.C33_empty_fails"], "note": "Exact description for a single pattern (pattern_lookup); the code deviates from the claim for patterns ending in a literal, for paths of the pattern's length, for segments starting with ':' and for an empty last segment (C33_*_fails)."},
{"property": "C34", "status": "partial", "theorems": ["Verif.C34_terminates_partial", "Verif.C34_terminates_sets_partial", "Verif.C34_hang_fails", "Verif.C34_hang_is_divergence"], "note": "Proved for all trees in which no entry path ends with ':' (in particular without route patterns: C05_has_total); otherwise false: C34_hang_fails. C34_hang_is_divergence: the model's fuel is exact."},
{"property": "C35", "status": "proved", "theorems": ["Verif.C35_nearest_scope", "Verif.C35_plain_first", "Verif.C35_ancestor", "Verif.C35_partial_blocks", "Verif.C35_top_never"], "note": "Exact for every tree, including trees with route patterns. C35_partial_blocks and C35_top_never record two consequences that users may not expect."},
{"property": "C36", "status": "proved", "theorems": ["Verif.Store.C36_write", "Verif.Store.C36_remove", "Verif.Store.C36_other"], "note": "An event is its operation set and the pairs Next yields; views not in recursive-up mode."},
{"property": "C37", "status": "proved", "theorems": ["Verif.Remote.Change.C37_changed", "Verif.Remote.Change.C37_removed", "Verif.Remote.Change.C37_history", "Verif.Remote.Change.C37_mixed_loses_removal", "Verif.Remote.Change.C37_single", "Verif.Remote.Change.C37_single_removal_fails"], "note": "C37_history composes over whole watch histories. C37_mixed_loses_removal and C37_single_removal_fails: behaviour outside the claim."},
{"property": "C38", "status": "partial", "theorems": ["Verif.Store.C38_roundtrip_partial", "Verif.Store.C38_empty_component_fails", "Verif.Store.C38_map_value_fails", "Verif.Store.C38_store_mustGet_fails", "Verif.Store.C38_component_prefix_fails"], "note": "Besides the stated conditions the keys must have no empty component and no blank, and map[any]any, ValPkg and (if flattened) slice values are excluded; the C38_*_fails theorems show that this is needed."},
{"property": "C39", "status": "proved", "theorems": ["Verif.C39_join", "Verif.C39_join1", "Verif.C39_assoc", "Verif.C39_split", "Verif.C39_bytes", "Verif.C39_rune_delim_fails"], "note": "C39_bytes: delimiters below 128; C39_rune_delim_fails for others."},
{"property": "C40", "status": "proved", "theorems": ["Verif.C40_setEmpty", "Verif.C40_update", "Verif.C40_update_wipes", "Verif.NodeOp.C40_writes", "Verif.NodeOp.C40_marks"], "note": "C40_update_wipes: Update resets the data before the callback runs."},
{"property": "C41", "status": "proved", "theorems": ["Verif.Remote.C41_etcd"], "note": ""},
{"property": "C42", "status": "partial", "theorems": ["Verif.C42_getR", "Verif.C42_getM_keepPrefix", "Verif.C42_getM_partial", "Verif.C42_getM_prefix_partial", "Verif.C42_absent", "Verif.C42_two_components_fails", "Verif.C42_collision_fails", "Verif.C42_three_components_fails", "Verif.C42_sibling_fails", "Verif.C42_fragment_fails", "Verif.C42_prefix_fails", "Verif.C42_partial_match"], "note": "GetR and GetM with WithKeepPrefix are proved in full (trees without route patterns, values that are no maps). GetM(p) is false for paths of several components (C42_two_components_fails, C42_three_components_fails), when an entry shares only characters with p (C42_sibling_fails), for the entry at p itself (C42_fragment_fails) and with deep entries under a prefix (C42_prefix_fails); proved for the rest."},
{"property": "C43", "status": "partial", "theorems": ["Verif.C43_merge_partial", "Verif.C43_agrees_with_store", "Verif.C43_position_fails", "Verif.C43_depth_fails", "Verif.C43_slice_fails", "Verif.C43_nil_panics", "Verif.C43_collision_fails"], "note": "Proved for maps of plain values and slices of such maps at any position, and for one level of nesting at the root. Otherwise false: C43_position_fails, C43_depth_fails, C43_slice_fails, C43_collision_fails, C43_nil_panics."},
{"property": "C44", "status": "partial", "theorems": ["Verif.C44_dots", "Verif.EnvCfg.C44_filter", "Verif.EnvCfg.C44_key", "Verif.EnvCfg.C44_injective", "Verif.EnvProv.C44_table", "Verif.EnvProv.C44_load", "Verif.EnvProv.C44_next_fails", "Verif.EnvProv.C44_count", "Verif.EnvProv.C44_position_ignored", "Verif.C44_options", "Verif.C44_position", "Verif.C44_flag_prefix_fails", "Verif.C44_strip_panics", "Verif.C44_count_fails", "Verif.C44_collision_fails", "Verif.C44_environ", "Verif.C44_last"], "note": "All but the clause on Next proved; Next is inverted in the code (C44_next_fails: it reports the end at once although there are keys, and panics without keys). strings.ToLower is an arbitrary function. C44_strip_panics, C44_flag_prefix_fails, C44_position_ignored, C44_collision_fails, C44_count_fails (names that share a key are counted each): behaviour outside the claim."},
{"property": "C45", "status": "partial", "theorems": ["Verif.Store.C45_mustGet_get", "Verif.Store.C45_set_partial", "Verif.Store.C45_frame", "Verif.Store.C45_load", "Verif.Store.C45_set_fails"], "note": "The middle clause is proved exactly when k is not on a branch of the tree; otherwise MustGet returns nil although the value was stored (C45_set_fails: Set(\"apple\"), Set(\"app\"), MustGet(\"app\")). Unlike Trie.MustGet (C01) the store's version also looks at the error of Query."},
{"property": "C46", "status": "partial", "theorems": ["Verif.C46_subtree_partial", "Verif.C46_parent", "Verif.C46_partial_match", "Verif.C46_unrelated", "Verif.C46_siblings_fails", "Verif.C46_no_entry_fails", "Verif.C46_prefix_fails"], "note": "Holds when p has an entry and ends with the delimiter (C46_subtree_partial). Without the trailing delimiter the walk starts at the parent node (C46_parent), on a partial match it is the whole tree (C46_partial_match), so siblings and unrelated entries are visited: C46_siblings_fails, C46_no_entry_fails, C46_prefix_fails."},
{"property": "C47", "status": "proved", "theorems": ["Verif.C47_stored", "Verif.C47_last_write", "Verif.C47_absent", "Verif.C47_shift", "Verif.C47_branch_found_fails"], "note": "The found flag of Get at a branch entry does depend on the delimiter (C47_branch_found_fails), which is why the statement restricts it to leaves."},
{"property": "C48", "status": "proved", "theorems": ["Verif.Store.C48_load", "Verif.Store.C48_dotted", "Verif.Store.C48_plain", "Verif.Store.C48_extending_fails", "Verif.Store.C48_empty_component_fails"], "note": "C48_extending_fails and C48_empty_component_fails show that the two conditions are needed. The position option of the provider is ignored by Load."},
{"property": "C49", "status": "proved", "theorems": ["Verif.Loading.C49_exclusive", "Verif.Loading.C49_skipped", "Verif.Loading.C49_available", "Verif.Loading.C49_copy", "Verif.Loading.C49_copy_never_loads", "Verif.Loading.C49_views_fails", "Verif.Loading.C49_store"], "note": "The compare-and-swap, the release and the copying of a store are atomic steps. The guarantee is per store object: a store and a view of it can be loaded at the same time (C49_views_fails), and a copy made while its original is loading ignores Load for ever (C49_copy_never_loads)."},
{"property": "C50", "status": "proved", "theorems": ["Verif.C50_dump", "Verif.C50_shows", "Verif.C50_no_wrong", "Verif.C50_line", "Verif.C50_wrong_fails", "Verif.C50_root_hidden"], "note": "Formatting of values and colours is an arbitrary function. For keys that are not ASCII the shown key can be cut and marked WRONG (C50_wrong_fails); data stored at the root is never shown (C50_root_hidden)."},
{"property": "C51", "status": "proved", "theorems": ["Verif.C51_endsWith", "Verif.C51_startsWith", "Verif.C51_startsWith_fails"], "note": "Storing an unrelated key changes the answer of StartsWith (C51_startsWith_fails)."},
{"property": "C52", "status": "partial", "theorems": ["Verif.Store.C52_load", "Verif.Store.C52_no_provider", "Verif.Store.C52_reads_back", "Verif.Store.C52_error_partial", "Verif.Store.C52_writeable", "Verif.Store.C52_stream_fails", "Verif.Store.C52_flatten_fails", "Verif.Store.C52_dishonest_fails"], "note": "C52_load, C52_reads_back and C52_writeable hold for all options and providers (that return no data along with an error); a stream provider reports an error although its pairs were stored (C52_stream_fails), and a flatten option in front of the prefix option outlives the load (C52_flatten_fails)."},
{"property": "C53", "status": "partial", "theorems": ["Verif.Store.C53_nothing", "Verif.Store.C53_outcome", "Verif.Store.C53_save_load_partial", "Verif.Store.C53_saveAs_load_partial", "Verif.Store.C53_prefix_fails"], "note": "C53_nothing, C53_outcome in general for loaders without prefix; the round trip for keys and values that survive nesting (see C38); with WithStorePrefix the saved keys are cut (C53_prefix_fails)."},
{"property": "C54", "status": "partial", "theorems": ["Verif.Watch.C54_single", "Verif.Watch.C54_after_close_partial", "Verif.Watch.C54_closers", "Verif.Watch.C54_prefix_fails", "Verif.Watch.C54_close_lost_fails", "Verif.Watch.C54_revived_fails", "Verif.Watch.C54_rewatch_fails"], "note": "C54_single for all runs without Close; C54_after_close_partial for providers loaded without a prefix option, whose goroutines had begun, and which are not loaded again. Otherwise Close has no effect or is undone (C54_prefix_fails, C54_close_lost_fails, C54_revived_fails); a cancelled or failed watcher blocks later ones (C54_rewatch_fails). The Go scheduler and fsnotify are represented by arbitrary interleavings and events."},
{"property": "C55", "status": "partial", "theorems": ["Verif.Etcd.C55_range", "Verif.Etcd.C55_follows_partial", "Verif.Etcd.C55_prefix_silent", "Verif.Etcd.C55_prefix_key_fails", "Verif.Etcd.C55_same_path_fails", "Verif.Etcd.C55_blank_fails", "Verif.Etcd.C55_gap_fails", "Verif.Etcd.C55_prefix_fails"], "note": "C55_follows_partial for all histories, for keys whose paths are not empty, without blanks and route patterns, and not prefixes of one another, and for changes after the watching began. Otherwise it fails: C55_prefix_key_fails, C55_same_path_fails, C55_blank_fails, C55_gap_fails. After a load with a store prefix the changes call no handlers and set no mark (C55_prefix_silent, C55_prefix_fails). The etcd server is represented by its specification."},
{"property": "C56", "status": "partial", "theorems": ["Verif.C56_section", "Verif.C56_no_holder", "Verif.C56_root", "Verif.C56_path_partial", "Verif.C56_absent", "Verif.C56_two_components_fails", "Verif.C56_missing_fails"], "note": "C56_section (unconditional): the map is that of GetM with nested keys, and the fallback to GetR has no effect. C56_root for the whole store, C56_path_partial for sections named by one component, C56_absent, C56_no_holder. For longer section names the code delivers wrong maps (C56_two_components_fails), and a missing section may be filled from another entry (C56_missing_fails). evendeep's CopyTo is an arbitrary function."},
{"property": "C57", "status": "partial", "theorems": ["Verif.Consul.C57_follows_partial", "Verif.Consul.C57_type_fails", "Verif.Consul.C57_merged_fails", "Verif.Consul.C57_gap_fails"], "note": "C57_follows_partial: keys usable as store paths (as in C55), no changes between reading and watching, one snapshot per change; a value is a string or a byte slice depending on how it has arrived. Violations: C57_type_fails, C57_merged_fails, C57_gap_fails."},
{"property": "C58", "status": "proved", "theorems": ["Verif.Store.C58_run", "Verif.Store.C58_sequential", "Verif.Store.C58_seen", "Verif.Store.C58_last_write", "Verif.Store.C58_others", "Verif.Store.C58_handler_reads", "Verif.Store.C58_handler_misses", "Verif.Store.C58_fuel", "Verif.Store.C58_terminates", "Verif.Store.C58_loop_fails"], "note": "C58_run, C58_sequential, C58_seen, C58_last_write, C58_others, C58_handler_reads, C58_handler_misses, C58_fuel, C58_terminates; C58_loop_fails is the boundary of termination. Handlers have no state besides the store."},
{"property": "C59", "status": "proved", "theorems": ["Verif.StoreW.C59_new", "Verif.StoreW.C59_order", "Verif.StoreW.C59_empty", "Verif.StoreW.C59_derive", "Verif.StoreW.C59_dup"], "note": "The options are modelled as constructors, one per With… function; handlers are identified by numbers. That derived stores drop handlers is what the code does (recorded as a disagreement with what one would expect)."},
{"property": "C60", "status": "proved", "theorems": ["Verif.Hcl.C60_idempotent", "Verif.Hcl.C60_no_single", "Verif.Hcl.C60_paths", "Verif.Hcl.C60_load", "Verif.Hcl.C60_option", "Verif.Hcl.C60_inner_fails"], "note": "The parser of hashicorp/hcl is external; the maps it delivers are arbitrary, with distinct keys. C60_inner_fails: single blocks inside blocks that occur several times are not entered (stated property excludes them)."},
{"property": "C61", "status": "partial", "theorems": ["Verif.C61_json_partial", "Verif.C61_json_iff", "Verif.C61_trie_fails", "Verif.C61_string", "Verif.C61_bell_fails", "Verif.C61_delim_fails"], "note": "C61_json_partial holds for prefixes whose characters Go's and JSON's quoting treat alike and delimiters that need no escape; C61_json_iff shows that these are exactly the cases (otherwise the result is not a JSON text: C61_bell_fails, C61_delim_fails). C61_trie_fails: the text of a trie alone is never JSON. C61_string is the full claim about String."},
{"property": "C62", "status": "partial", "theorems": ["Verif.C62_read_own_write", "Verif.C62_last_write_wins", "Verif.C62_never_written", "Verif.C62_entries_answer", "Verif.C62_route_partial", "Verif.C62_shadow_fails", "Verif.C62_rest_fails", "Verif.C62_beyond_fails", "Verif.C62_inside_fails", "Verif.C62_names_fail"], "note": "The first half is proved in full (C62_read_own_write, C62_last_write_wins, C62_never_written, C62_entries_answer). C62_route_partial proves the second half for paths that leave every other key before its end and not at a route marker. Elsewhere it fails: C62_shadow_fails, C62_rest_fails (the earlier of two fitting keys answers), C62_beyond_fails, C62_inside_fails (a literal set first hides the pattern for longer and shorter paths), C62_names_fail (two names for one position: neither is found)."},
{"property": "C63", "status": "proved", "theorems": ["Verif.C63_history", "Verif.C63_remove_result", "Verif.Store.C63_store_history"], "note": "C63_history (trie), C63_store_history (stores), C63_remove_result. Excluded: writing calls in recursive-up mode, route patterns (C62), views with different delimiters (C46), and writes through node pointers kept by the caller."},
{"property": "C64", "status": "partial", "theorems": ["Verif.C64_size", "Verif.C64_branching", "Verif.C64_growth", "Verif.C64_leak_fails"], "note": "Proved for histories of Set (C64_size, C64_branching); C64_growth bounds the nodes by the number of writing calls in all histories of C63. With Remove the claim is false: C64_leak_fails gives, for every n, a history after which one path has a value and more than n nodes exist, because Remove never joins a branch with its only child."},
{"property": "C65", "status": "partial", "theorems": ["Verif.FileWatch.C65_write_calls", "Verif.FileWatch.C65_other_files", "Verif.FileWatch.C65_error_last", "Verif.FileWatch.C65_follows_fails", "Verif.FileWatch.C65_pointer_fails", "Verif.FileWatch.C65_each", "Verif.FileWatch.C65_removed", "Verif.FileWatch.C65_bits", "Verif.FileWatch.C65_pair", "Verif.FileWatch.C65_order"], "note": "The reporting half is proved (C65_write_calls, C65_other_files, C65_error_last). The second half is false for every store and every sequence of events: C65_follows_fails (the change is passed by value, which does not implement the interface the store asks for); C65_pointer_fails shows that passing the address would change nothing, as the operation of the change is never set."},
{"property": "C66", "status": "partial", "theorems": ["Verif.Sys.C66_left", "Verif.Sys.C66_erase_partial", "Verif.Sys.C66_below_fails", "Verif.Sys.C66_split_fails", "Verif.Sys.C66_prefix_fails"], "note": "C66_left holds for every execution. The recipe erases exactly the subtree at the key as long as its node was not split (C66_erase_partial). C66_below_fails: keys that merely begin with the erased key go too; C66_split_fails: after a split the key of the node is a common prefix, and the siblings go; C66_prefix_fails: through a view with a prefix no timer is set at all, and Remove finds nothing."},
{"property": "C67", "status": "partial", "theorems": ["Verif.Store.C67_merge_partial", "Verif.Store.C67_load_partial", "Verif.Store.C67_order", "Verif.Store.C67_dotted", "Verif.Store.C67_dotted_merge", "Verif.Store.C67_again", "Verif.Store.C67_order_fails"], "note": "MustGet of the trie and Has never depend on it, nor does any answer for a path below which nothing is stored (C67_merge_partial, C67_load_partial); dotted and nested keys are loaded by the same writes (C67_dotted); order of iteration: C67_order; twice: C67_again. C67_order_fails: for {port: 1, ports: 2} Store.MustGet(\"port\") is 1 or nil depending on the iteration order."},
{"property": "C68", "status": "proved", "theorems": ["Verif.C68_filter", "Verif.C68_prefix", "Verif.C68_cut", "Verif.C68_modified"], "note": "For views without a prefix; with one, GetM(\"\") is empty (C19_prefix_fails). Stated for the leaves, since GetM exports nothing else."},
{"property": "C69", "status": "partial", "theorems": ["Verif.Store.C69_paste_partial", "Verif.Store.C69_branch_fails", "Verif.Store.C69_setPrefix_fails"], "note": "C69_paste_partial: holds for all leaves with plain (map-free) values. C69_branch_fails: a value on a key that has keys below it is not exported and does not come along. C69_setPrefix_fails: SetPrefix moves nothing, contrary to README \"Easily Cutting\"; afterwards the old keys are just not found."},
{"property": "C70", "status": "proved", "theorems": ["Verif.C70_read_back", "Verif.C70_injective", "Verif.C70_printable"], "note": "On bytes, as the code works on them."},
{"property": "C71", "status": "partial", "theorems": ["Verif.C71_locate_partial", "Verif.C71_doc_fails"], "note": "C71_locate_partial gives the answer in every case, by the stored entries alone. C71_doc_fails: on a partial match found is false, although the documentation of Locate says true."},
{"property": "C72", "status": "partial", "theorems": ["Verif.NodeLock.C72_exclusive_partial", "Verif.NodeLock.C72_progress_partial", "Verif.NodeLock.C72_set_fails", "Verif.NodeLock.C72_first_fails", "Verif.NodeLock.C72_abort_fails"], "note": "C72_exclusive_partial and C72_progress_partial: for any number of goroutines once a SetTTL on the entry has returned, without Set. C72_set_fails: Set on an existing key writes without the lock. C72_first_fails: a reader that started before the first SetTTL reads without it. C72_abort_fails: two overlapping first calls of SetTTL make two locks, and a reader unlocks the wrong one. Assumes sequential consistency."},
{"property": "C73", "status": "partial", "theorems": ["Verif.TtlRace.C73_serial_partial", "Verif.TtlRace.C73_close_partial", "Verif.TtlRace.C73_steps", "Verif.TtlRace.C73_many_partial", "Verif.TtlRace.C73_panic_fails", "Verif.TtlRace.C73_block_fails", "Verif.TtlRace.C73_reopen_fails", "Verif.TtlRace.C73_leak_fails"], "note": "C73_serial_partial, C73_close_partial: all of it when calls do not overlap. C73_many_partial: any number of overlapping calls of SetTTL once one has returned, without Close. C73_steps: a call takes at most four steps of its own. C73_panic_fails: two overlapping first calls, nil dereference. C73_block_fails, C73_reopen_fails: SetTTL waits for ever at a closed object. C73_leak_fails: an object that a later Close does not close. Assumes sequential consistency."},
{"property": "C74", "status": "partial", "theorems": ["Verif.Codecs.C74_repeatable", "Verif.Codecs.C74_read_back", "Verif.Codecs.C74_errors", "Verif.Codecs.C74_pretty_fails", "Verif.Codecs.C74_gob_partial", "Verif.Codecs.C74_gob_fails", "Verif.Codecs.C74_gob_stream", "Verif.Codecs.C74_table", "Verif.Codecs.C74_table_last"], "note": "C74_repeatable, C74_read_back, C74_errors for json, yaml, toml, hjson, nestext; C74_table and C74_table_last for the table. gob fails (C74_gob_fails): Marshal never returns bytes, and from the second call on Unmarshal ignores its argument; C74_gob_partial is what is left. The pretty option of json, on by default, has no effect (C74_pretty_fails). The libraries are parameters."},
{"property": "C75", "status": "partial", "theorems": ["Verif.Hjson.C75_decode_partial", "Verif.Hjson.C75_values", "Verif.Hjson.C75_array_fails", "Verif.Hjson.C75_root_fails", "Verif.Hjson.C75_null"], "note": "C75_decode_partial, C75_values: documents that are objects, without arrays or with WithFlattenSlice(false). C75_array_fails: otherwise only the last element of an array is kept. C75_root_fails: a string at the top becomes its own name, a number is lost, an array loses all but its last element."},
{"property": "C76", "status": "proved", "theorems": ["Verif.Times.C76_first", "Verif.Times.C76_must", "Verif.Times.C76_accepts", "Verif.Times.C76_stable"], "note": "C76_first, C76_accepts, C76_stable. time.Parse is a parameter; calls one at a time (the list has no lock)."},
{"property": "C77", "status": "partial", "theorems": ["Verif.Dummy.C77_dummy_partial", "Verif.Dummy.C77_answers_fail", "Verif.Dummy.C77_getM_fails"], "note": "C77_dummy_partial: MustGet, Get, Has, Remove, SetComment, SetTag, GetEx and the typed getters without defaults. C77_answers_fail: defaults are ignored, errors are nil, Locate and Walk differ. C77_getM_fails: GetM of a path panics in an empty store, not in the dummy store."},
{"property": "C78", "status": "proved", "theorems": ["Verif.Pool.C78_join", "Verif.Pool.C78_apart", "Verif.Pool.C78_clean", "Verif.Pool.C78_ctx", "Verif.Pool.C78_ctx_now", "Verif.Pool.C78_free"], "note": "sync.Pool is modelled as: Get takes any object in the pool or makes a new one, objects may vanish. The memory model (visibility of writes between Put and Get) is assumed sequentially consistent."},
{"property": "C79", "status": "partial", "theorems": ["Verif.C79_delim", "Verif.C79_refines", "Verif.C79_apart", "Verif.C79_alike", "Verif.C79_alias", "Verif.C79_invalid_fails", "Verif.C79_delim_fails"], "note": "C79_refines, C79_apart: holds for valid UTF-8 and ASCII delimiters. C79_delim: a prefix joins as it should exactly for ASCII delimiters and U+FFFD; C79_delim_fails: otherwise entries are not found through the prefix. C79_alike, C79_invalid_fails: strings that are not UTF-8 share the entry of every string that decodes alike. pathS of such leaves is not modelled."},
{"property": "C80", "status": "partial", "theorems": ["Verif.HclMarshal.C80_values", "Verif.HclMarshal.C80_marshal_partial", "Verif.HclMarshal.C80_order", "Verif.HclMarshal.C80_error_fails", "Verif.HclMarshal.C80_null_fails", "Verif.HclMarshal.C80_drop_fails", "Verif.HclMarshal.C80_panic_fails"], "note": "C80_marshal_partial: holds for maps whose values are bools, strings, integers, stringers and lists of these of one type (C80_values: exactly those values are kept). C80_error_fails: no error is ever reported; C80_null_fails: other values become null; C80_drop_fails: such elements vanish from lists; C80_panic_fails: mixed lists, lists of maps and empty lists beside others panic. The text of the document is hclwrite's; that cty.ListVal panics and NilVal prints as null is taken from cty and hclwrite."},
{"property": "C81", "status": "partial", "theorems": ["Verif.ReadModes.C81_consul_list", "Verif.ReadModes.C81_consul_last", "Verif.ReadModes.C81_consul_get_partial", "Verif.ReadModes.C81_missing_fails", "Verif.ReadModes.C81_consul_error", "Verif.ReadModes.C81_value", "Verif.ReadModes.C81_meta", "Verif.ReadModes.C81_meta_lost_fails", "Verif.ReadModes.C81_meta_same_fails", "Verif.ReadModes.C81_consul_options", "Verif.ReadModes.C81_prefix_fails", "Verif.ReadModes.C81_etcd_options", "Verif.ReadModes.C81_etcd_read", "Verif.ReadModes.C81_etcd_limit", "Verif.ReadModes.C81_position_fails"], "note": "consul's single mode panics when the key is missing (C81_missing_fails), WithPrefix has no effect (C81_prefix_fails), and none of the meta data reach a store (C81_meta_lost_fails, C81_meta_same_fails); etcd's WithPosition alone reads one key (C81_position_fails), and no option sets the limit."},
{"property": "C82", "status": "partial", "theorems": ["Verif.Files.C82_writes", "Verif.Files.C82_untouched", "Verif.Files.C82_codec", "Verif.Files.C82_position", "Verif.Files.C82_origin", "Verif.Files.C82_options", "Verif.Files.C82_disabled", "Verif.Files.C82_enabled", "Verif.Files.C82_roundtrip_partial", "Verif.Files.C82_lost_fails", "Verif.Files.C82_outfile_fails", "Verif.Files.C82_fs", "Verif.Files.C82_skipped", "Verif.Files.C82_released", "Verif.Files.C82_save_loses_fails", "Verif.Files.C82_torn_fails"], "note": "Save replaces the file by the modified entries, so loaded and unmodified values are lost (C82_lost_fails, C82_save_loses_fails); SaveAs ignores its file name and without a provider does nothing, without an error (C82_outfile_fails); a Load during a Save can read an empty file and succeed (C82_torn_fails). Reading back is partial as C53."},
{"property": "C83", "status": "partial", "theorems": ["Verif.Cost.C83_same", "Verif.Cost.C83_once", "Verif.Cost.C83_lookup", "Verif.Cost.C83_up", "Verif.Cost.C83_insert", "Verif.Cost.C83_routes_fails", "Verif.Cost.C83_exponential_fails"], "note": "Proved for keys without route patterns; C83_routes_fails and C83_exponential_fails show that patterns break the bound. The extra reads of the retriever loop on patterns are not counted."},
{"property": "C84", "status": "partial", "theorems": ["Verif.Steps.C84_final", "Verif.Steps.C84_apart", "Verif.Steps.C84_whole", "Verif.Steps.C84_old_or_new", "Verif.Steps.C84_overwrite", "Verif.Steps.C84_disturbed_fails"], "note": "Holds for lookups that part from the key before the node that is split (C84_apart), and for all lookups when nothing has to be split, as when a stored key is overwritten (C84_whole, C84_old_or_new, C84_overwrite). During a split it is false: split cuts the path of the node before it puts the lower half below it, so that a reader gets the value of another key, misses stored keys and finds keys never set (C84_disturbed_fails). Lookups are taken to run between two assignments of the writer; the Go memory model promises less."},
{"property": "C85", "status": "proved", "theorems": ["Verif.Heap.C85_history", "Verif.Heap.C85_grow", "Verif.Heap.C85_apart", "Verif.Heap.C85_dup", "Verif.Heap.C85_node", "Verif.Heap.C85_removed"], "note": "C85_history, C85_grow, C85_apart, C85_dup, C85_node, C85_removed. Path slices are values (the code never writes through them); evendeep.MakeClone returns an equal value sharing nothing."},
{"property": "C86", "status": "partial", "theorems": ["Verif.Heap.C86_local", "Verif.Heap.C86_apart", "Verif.Heap.C86_ends", "Verif.Heap.C86_write", "Verif.Heap.C86_prune", "Verif.Heap.C86_endless", "Verif.Heap.C86_sprout_fails", "Verif.Heap.C86_skip_fails", "Verif.Heap.C86_ghost_fails", "Verif.Heap.C86_twice_fails"], "note": "Proved for callbacks that change only the visited node and what is below it: they are called exactly for the nodes of the tree at the end, in its order (C86_local), leave the rest alone (C86_apart) and come to an end unless they add nodes (C86_ends); instances are writing to the node (C86_write) and removing its children (C86_prune). Otherwise false: removing the visited leaf makes the walk pass over the next sibling and visit the last one twice (C86_skip_fails); removing siblings makes it visit removed nodes or nodes twice (C86_ghost_fails, C86_twice_fails); and a callback that adds a key below each visited node never ends (C86_endless, C86_sprout_fails)."},
{"property": "C87", "status": "partial", "theorems": ["Verif.C87_getM_partial", "Verif.C87_to_partial", "Verif.C87_flat", "Verif.C87_to_second", "Verif.C87_nested", "Verif.C87_own", "Verif.C87_getM_fails", "Verif.C87_to_fails", "Verif.C87_save_fails", "Verif.C87_apart_fails", "Verif.C87_shared_fails"], "note": "Proved for exports with full paths when no entry that holds a map has an entry below it, and for all exports when no maps are stored (C87_getM_partial, C87_to_partial); GetR and the flat GetM never write (C87_flat). What the nested export holds: C87_nested. The maps it made can be written to (C87_own). Otherwise false: GetM, To and the export behind saving write the entries below a stored map into that map, so that reading changes the store (C87_getM_fails, C87_to_fails, C87_save_fails); GetM(path) also does it to maps with nothing below them because it drops components (C87_apart_fails); and stored maps are shared with the result (C87_shared_fails)."},
{"property": "C88", "status": "partial", "theorems": ["Verif.Race.C88_same", "Verif.Race.C88_ends", "Verif.Race.C88_values", "Verif.Race.C88_lost_fails", "Verif.Race.C88_value_fails", "Verif.Race.C88_phantom_fails", "Verif.Race.C88_panic_fails"], "note": "Proved when no key gets in the way of another: each replaces a value of its own or leaves a stored path where the others have already left it. Then all schedules end, without a panic (C88_ends), in the tree of the sequential execution (C88_same), so with all values (C88_values). Otherwise false, since Set takes no lock: a key can be lost (C88_lost_fails), a value can stay the old one (C88_value_fails), a key can come out under a path nobody set (C88_phantom_fails), and the program can panic (C88_panic_fails)."},
{"property": "C89", "status": "partial", "theorems": ["Verif.Race.C89_replace", "Verif.Race.C89_replaced", "Verif.Race.C89_beside", "Verif.Race.C89_absent", "Verif.Race.C89_alone", "Verif.Race.C89_panic_fails", "Verif.Race.C89_other_fails", "Verif.Race.C89_absent_fails", "Verif.Race.C89_missed_fails", "Verif.Race.C89_section_fails"], "note": "Proved when the writers replace values that are there, also of the key that is looked up and also several of them the same key (C89_replace), and when they set new keys that do not get in each other's way or in that of the lookup of a stored key (C89_beside); likewise the lookup of a key that is not there, beside writers whose keys share no branch with it, ends without a panic and finds nothing (C89_absent); C89_replaced says what the replacing writers leave, C89_alone that the lookup with a program counter is Query. Otherwise false, since lookups take no lock: a lookup can panic (C89_panic_fails), return a value only ever set under another key (C89_other_fails), find a key that was never set (C89_absent_fails), return the value of a key of a section as the section's own (C89_section_fails), and miss a key that is there all the time (C89_missed_fails)."},
{"property": "C90", "status": "partial", "theorems": ["Verif.Prune.C90_kept", "Verif.Prune.C90_safe", "Verif.Prune.C90_below", "Verif.Prune.C90_after", "Verif.Prune.C90_missed_fails", "Verif.Prune.C90_wrong_fails"], "note": "Proved when the goroutines remove from different nodes and not before the node to go to among its siblings (C90_kept); for any key, also one that is removed or not there, the lookup ends and gives the answer of the trie or nothing, if no only child on the way is removed (C90_safe, C90_below); a lookup begun after the removals gives the answer of the trie without the keys (C90_after). Otherwise false: whenever a sibling before the node is removed, and the node is not the last, there is a schedule on which the key is missed (C90_missed_fails); whenever an only child is removed, every lookup below its parent can return the value of the parent (C90_wrong_fails)."},
{"property": "C91", "status": "partial", "theorems": ["Verif.Prune.C91_contents", "Verif.Prune.C91_tidy", "Verif.Prune.C91_panic_fails", "Verif.Prune.C91_stray_fails", "Verif.Prune.C91_parent_fails"], "note": "Proved when the goroutines remove from different nodes and each spares the ways of the others (C91_tidy, with C91_contents for the keys that are left). Otherwise false: whenever two of them remove children of one node, the first at or before the second, there is a schedule on which the second panics (C91_panic_fails, if its child is the last) or removes the child behind its own instead and reports success (C91_stray_fails); two that remove the same only child can remove its parent (C91_parent_fails)."},
{"property": "C92", "status": "partial", "theorems": ["Verif.Parts.C92_parts", "Verif.Parts.C92_answers", "Verif.Parts.C92_empty_fails"], "note": "Proved when the trie has a node for each of the parts, none above another, and the keys are strictly below these nodes (C92_parts; C92_answers: there is an answer for each call). Otherwise false: in an empty trie, one goroutine sets a key below a and another sets one below b; the second is told that its key is stored and then that it is not there (C92_empty_fails)."},
{"property": "C93", "status": "partial", "theorems": ["Verif.Parts.C93_replace", "Verif.Parts.C93_panic_fails", "Verif.Parts.C93_wipe_fails", "Verif.Parts.C93_back_fails", "Verif.Parts.C93_lost_fails", "Verif.Parts.C93_twice_fails"], "note": "Proved when every Set is for a key of its own that is in the trie, the removals are apart from each other, and the children on the way to a key that is set stand before the removed ones or at the end: the trie is the one of all calls one after the other (C93_replace). Otherwise false. A Remove panics, or takes all siblings with it and reports success, when a Set splits the node (C93_panic_fails, C93_wipe_fails). A removed key comes back, or a new one is lost, when a Set adds a child beside the removed one (C93_back_fails, C93_lost_fails). A Set for a stored key behind the removed one makes a second node, and the key keeps its old value (C93_twice_fails)."},
{"property": "C94", "status": "partial", "theorems": ["Verif.RemoteWatch.C94_etcd_each", "Verif.RemoteWatch.C94_etcd_once_partial", "Verif.RemoteWatch.C94_etcd_close_partial", "Verif.RemoteWatch.C94_etcd_registered", "Verif.RemoteWatch.C94_etcd_ends", "Verif.RemoteWatch.C94_etcd_cancel", "Verif.RemoteWatch.C94_etcd_twice_fails", "Verif.RemoteWatch.C94_etcd_spin_fails", "Verif.RemoteWatch.C94_etcd_prefix_fails", "Verif.RemoteWatch.C94_etcd_gap_fails", "Verif.RemoteWatch.C94_etcd_leak_fails", "Verif.RemoteWatch.C94_consul_close_partial", "Verif.RemoteWatch.C94_consul_ends_partial", "Verif.RemoteWatch.C94_consul_lost_fails", "Verif.RemoteWatch.C94_consul_shared_fails", "Verif.RemoteWatch.C94_consul_cancel_fails", "Verif.RemoteWatch.C94_consul_prefix_fails"], "note": "Proved: etcd: every change is passed on exactly once per watch (C94_etcd_each), hence at most once if the provider was loaded once (C94_etcd_once_partial); after Close only the rest of the responses at hand is reported and no goroutine is made (C94_etcd_close_partial); a goroutine whose context is cancelled can end at once (C94_etcd_cancel), and no other ever ends (C94_etcd_ends). consul: after Close every goroutine ends after at most two steps, never waiting, and reports at most what it was about to report (C94_consul_close_partial, C94_consul_ends_partial), if loads are made without prefix and alternate with Close. False: two loads of an etcd provider report everything twice (C94_etcd_twice_fails); Close leaves its goroutine running in circles for ever, because a closed channel is always ready (C94_etcd_spin_fails); after cancelling, the watch remains and gathers events (C94_etcd_leak_fails); after two loads of a consul provider Close stops only the second plan (C94_consul_lost_fails), or both goroutines run the second plan and nobody the first (C94_consul_shared_fails); consul ignores the context (C94_consul_cancel_fails); Close ignores providers loaded with a prefix (C94_etcd_prefix_fails, C94_consul_prefix_fails). Changes between the return of Load and the beginning of the watch are reported to nobody (C94_etcd_gap_fails)."},
{"property": "C95", "status": "partial", "theorems": ["Verif.TStore.C95_export", "Verif.TStore.C95_save", "Verif.TStore.C95_again", "Verif.TStore.C95_silent", "Verif.TStore.C95_close", "Verif.TStore.C95_store", "Verif.TStore.C95_close_fails", "Verif.TStore.C95_again_fails", "Verif.TStore.C95_close_twice"], "note": "Proved, for all executions: nothing else changes, in GetM, GetR and what Save selects (C95_export, C95_save, C95_store). The rest of the claim is false, and proved to be so in general: the expired key stays in every export, with nil as its value, and Save writes it as nil if it was modified (C95_export, C95_save); no handler is ever called by a timer (C95_silent); setting the key again calls the change handlers with old value nil and never the new handlers (C95_again, C95_store; C95_again_fails shows that after Remove it is the new handlers). Store.Close closes the peripherals only, so that everything after it, the timers included, goes on as if it had not been called (C95_close, C95_close_fails); closing twice closes the peripherals twice (C95_close_twice)."},
{"property": "C96", "status": "partial", "theorems": ["Verif.CodecFiles.C96_untouched", "Verif.CodecFiles.C96_missing", "Verif.CodecFiles.C96_json_partial", "Verif.CodecFiles.C96_trailing_fails", "Verif.CodecFiles.C96_yaml_fails", "Verif.CodecFiles.C96_yaml_partial", "Verif.CodecFiles.C96_empty_fails", "Verif.CodecFiles.C96_none_fails", "Verif.CodecFiles.C96_open_fails", "Verif.CodecFiles.C96_save_partial", "Verif.CodecFiles.C96_save_fails"], "note": "Proved: Load changes no file (C96_untouched), a missing file is an error (C96_missing), for json Load agrees with Unmarshal where that succeeds (C96_json_partial), for yaml where there is a document that is not a map (C96_yaml_partial), Save of yaml writes what can be read back (C96_save_partial). False: json accepts anything after the first document (C96_trailing_fails); yaml panics for every file that Unmarshal can read, because the nil map itself and not its address is given to the decoder (C96_yaml_fails); an empty file is an error for Load of yaml and none for Unmarshal (C96_empty_fails); toml, hjson, hcl and nestext never load (C96_none_fails); no file is ever closed (C96_open_fails); a Save that fails has emptied the file (C96_save_fails). The libraries are parameters; that yaml.v3 panics when it is given a nil map by value is taken from its source."},
{"property": "C97", "status": "partial", "theorems": ["Verif.Race.C97_replace", "Verif.Race.C97_beside", "Verif.Race.C97_alone", "Verif.Race.C97_snapshot_fails", "Verif.Race.C97_phantom_fails"], "note": "Proved where goroutines replace values, even of the same key (C97_replace), and where they set new keys without getting in each other's way and without cutting a path (C97_beside): the export ends, has the right keys, each once, and the entries are those of the trie at moments that follow one another. By itself it gives the map of GetM (C97_alone). False in general: a Set that cuts a path can put a key into the map that nobody ever set (C97_phantom_fails). The map as a whole need not be that of any one moment (C97_snapshot_fails). Modelled without prefix and options; reading or writing a string or slice is one step."},
{"property": "C98", "status": "partial", "theorems": ["Verif.Race.C98_once", "Verif.Race.C98_told", "Verif.Race.C98_distinct", "Verif.Race.C98_mirror", "Verif.Race.C98_apart", "Verif.Race.C98_copy", "Verif.Race.C98_mirror_fails", "Verif.Race.C98_chain_fails", "Verif.Race.C98_new_fails"], "note": "Proved without conditions: every call that has returned is told once, with its key and value (C98_once). Proved where values are replaced, even of the same key: every call returns after finitely many steps of its own, and the old value told is one that the key had while the call was under way (C98_told). With different keys the old value is the one before (C98_distinct), and the copy agrees with the store (C98_mirror). Proved also for new keys that do not get in each other's way: every call returns, a new key is told as created if the value the lookup returns for it counts as nil, otherwise the old value is told (C98_apart), and the copy has the values of the trie (C98_copy). False when two goroutines set one key: the copy can end with the overwritten value (C98_mirror_fails), both can be told the same old value (C98_chain_fails), and both can be told that the key is new (C98_new_fails). Modelled without prefix and blanks in keys; the flag modified is left out; calling the handlers is one step."},
{"property": "C99", "status": "partial", "theorems": ["Verif.Bytes.C99_kibi_partial", "Verif.Bytes.C99_kilo_partial", "Verif.Bytes.C99_bare_partial", "Verif.Bytes.C99_bytes", "Verif.Bytes.C99_digit_fails", "Verif.Bytes.C99_lost_fails"], "note": "Proved with a unit (C99_kibi_partial, C99_kilo_partial), alone (C99_bare_partial), and as a decimal number of bytes (C99_bytes). False for hexadecimal numbers that end in e or b: the digit is taken for a unit or a suffix (C99_digit_fails), and with a unit behind it the digit e is lost whatever the number (C99_lost_fails). Numbers with a decimal point: C107."},
{"property": "C100", "status": "partial", "theorems": ["Verif.Dur.C100_near", "Verif.Dur.C100_sum_partial", "Verif.Dur.C100_grammar", "Verif.Dur.C100_wrap_fails", "Verif.Dur.C100_float_fails", "Verif.Dur.C100_must"], "note": "Proved: nothing else is accepted (C100_grammar); the result is the exact sum, and an error exactly if it is out of range, if no fraction has more digits than the unit has zeros and no part is exactly 2^63 nanoseconds (C100_sum_partial, C100_must); with any fractions, a text safely in range is accepted and the result is at most two nanoseconds per part off the exact rational number (C100_near). False otherwise: a part of 2^63 nanoseconds, twice, is accepted and gives 0 (C100_wrap_fails), and fractions with many digits are not rounded down (C100_float_fails). The arithmetic of float64 is rounding to 53 bits over the rationals; the exponent is unbounded."},
{"property": "C101", "status": "proved", "theorems": ["Verif.Bytes.C101_uint", "Verif.Bytes.C101_uint_range", "Verif.Bytes.C101_int", "Verif.Bytes.C101_int_range", "Verif.Bytes.C101_unique"], "note": "C101_uint, C101_int: equivalences for all texts. C101_uint_range, C101_int_range: out of range. C101_unique: the notation is unambiguous. strconv.ParseInt and ParseUint are modelled from their source. A text that is no number gives an error, but the Must variants may give a limit for it (see the example: too many digits and then something else)."},
{"property": "C102", "status": "partial", "theorems": ["Verif.Dur.C102_near", "Verif.Dur.C102_days", "Verif.Dur.C102_exact", "Verif.Dur.C102_milli_fails"], "note": "C102_near: the result is off by less than one nanosecond and one part in 2^53, always; C102_days: so by less than two nanoseconds up to 104 days. C102_exact: whole seconds and binary fractions down to 1/512 are exact. The last sentence is false: 1.001 gives 1.000999999s (C102_milli_fails). Out of range the language does not define the result. The arithmetic of float64 is rounding to 53 bits over the rationals."},
{"property": "C103", "status": "partial", "theorems": ["Verif.Prune.C103_sound", "Verif.Prune.C103_kept", "Verif.Prune.C103_after", "Verif.Prune.C103_missed_fails"], "note": "C103_sound: any removals, even those that collide. C103_kept, C103_after: removals from different nodes that spare each other's ways. C103_missed_fails: the condition on the siblings is needed; a schedule for every removal before a node that is not the last. Sequentially consistent memory; no options and no prefix."},
{"property": "C104", "status": "partial", "theorems": ["Verif.Prune.C104_once", "Verif.Prune.C104_told", "Verif.Prune.C104_all", "Verif.Prune.C104_stray_fails", "Verif.Prune.C104_value_fails"], "note": "C104_once: without conditions on the calls. C104_told, C104_all: removals from different nodes that spare each other's ways (as in C91). C104_stray_fails: for all pairs of removals from one node, the first at or before the second, that is not the last, there is a schedule on which the handlers are told wrongly. C104_value_fails: a key is told with the value of another. Sequentially consistent memory; a call of the handlers is one step."},
{"property": "C105", "status": "partial", "theorems": ["Verif.Parts.C105_answer", "Verif.Parts.C105_safe", "Verif.Parts.C105_after", "Verif.Parts.C105_miss_fails"], "note": "C105_answer and C105_after: under the conditions of C93 on the calls of Set and Remove, for keys to which the way is left alone in the sense of C90. C105_miss_fails: without the latter a key that nobody touches is not found, although the Set beside it works. C105_safe: any key, if no removal takes the only child of a node on the way: it may be missed, but nothing else happens. Sequentially consistent memory."},
{"property": "C106", "status": "partial", "theorems": ["Verif.Parts.C106_sound", "Verif.Parts.C106_kept", "Verif.Parts.C106_set", "Verif.Parts.C106_after", "Verif.Parts.C106_snapshot_fails"], "note": "C106_sound, C106_kept, C106_set, C106_after: under the conditions of C93 on the calls of Set and Remove. The last sentence is false: C106_snapshot_fails, a map that contains a removed key together with a value that was set after the removal. That keys may be missed when a removal gets into the way: C103_missed_fails. Sequentially consistent memory; no options and no prefix; reading a string or a slice is one step."},
{"property": "C107", "status": "partial", "theorems": ["Verif.Bytes.C107_kibi_near", "Verif.Bytes.C107_kibi_whole", "Verif.Bytes.C107_kilo_near", "Verif.Bytes.C107_kilo_whole_partial", "Verif.Bytes.C107_kilo_eighths", "Verif.Bytes.C107_bare", "Verif.Bytes.C107_mono", "Verif.Bytes.C107_kilo_fails", "Verif.Bytes.C107_down_fails"], "note": "C107_kibi_near, C107_kilo_near, C107_bare: less than a byte off, but for the 53 bits of a float64. C107_kibi_whole: whole numbers of bytes are exact with units of 1024. With units of 1000 they are exact or one less (C107_kilo_whole_partial), and exact for eighths (C107_kilo_eighths). C107_mono: the order. False: 1.001K is 1000 bytes (C107_kilo_fails), and a number just below one kibibyte is 1024 bytes (C107_down_fails). Signs, exponents and hexadecimal fractions are left open (the argument `other`), and so are products out of the range of uint64 (`oob`)."},
{"property": "C108", "status": "partial", "theorems": ["Verif.Parts.C108_once", "Verif.Parts.C108_told", "Verif.Parts.C108_all", "Verif.Parts.C108_order_fails", "Verif.Parts.C108_twice_fails", "Verif.Parts.C108_new_fails"], "note": "C108_once: without conditions on the calls. C108_told, C108_all: under the conditions of C93 on the calls of Set and Remove. False for a Set and a Remove of one key: they can be told in the wrong order (C108_order_fails), the same old value can be told as removed and as replaced (C108_twice_fails), and a new key can be told as changed, without an old value (C108_new_fails). New keys are in C98 (among calls of Set) and in C112 (beside Remove). The flag modified is left out; calling the handlers is one step. Sequentially consistent memory."},
{"property": "C109", "status": "partial", "theorems": ["Verif.Parts.C109_new"], "note": "Proved for new keys that add a child to a node; not for those that split a path. Without the conditions it is false: C88_lost_fails (two new children of one node), C93_back_fails and C93_lost_fails (a child is added to the node from which one is removed), C93_panic_fails and C93_wipe_fails (a path is split). The loops read the elements of the slice when they get to them; sequentially consistent memory; append makes a new array."},
{"property": "C110", "status": "partial", "theorems": ["Verif.Parts.C110_answer", "Verif.Parts.C110_safe", "Verif.Parts.C110_after", "Verif.Parts.C110_new", "Verif.Parts.C110_found"], "note": "C110_answer, C110_after: keys in the trie to which the way is left alone. C110_new, C110_found: new keys. C110_safe: any other key, if no removal takes the only child of a node on the way: it may be missed, but nothing else happens. All with the conditions of C109 on the calls of Set and Remove. The loops read the elements of the slice when they get to them; sequentially consistent memory; append makes a new array."},
{"property": "C111", "status": "partial", "theorems": ["Verif.Parts.C111_sound", "Verif.Parts.C111_kept", "Verif.Parts.C111_set", "Verif.Parts.C111_removed", "Verif.Parts.C111_unset", "Verif.Parts.C111_after", "Verif.Parts.C111_snapshot_fails"], "note": "C111_sound, C111_kept, C111_set, C111_unset, C111_removed, C111_after: under the conditions of C109 on the calls of Set and Remove. The last sentence is false: C111_snapshot_fails, a map without a new key and with a value that was set after that key. Sequentially consistent memory; append makes a new array; no options and no prefix; reading a string or a slice is one step."},
{"property": "C112", "status": "partial", "theorems": ["Verif.Parts.C112_told", "Verif.Parts.C112_all", "Verif.Parts.C112_below_fails", "Verif.Parts.C112_beside_fails"], "note": "C112_told, C112_all: under the conditions of C109 on the calls of Set and Remove (C108_once holds for any calls). The last sentence is false: handlers are told that a key is new that is not in the trie, because a node above it was removed (C112_below_fails) or because another Set added a child to the same node (C112_beside_fails). The flag modified is left out; calling the handlers is one step. Sequentially consistent memory."},
{"property": "C113", "status": "partial", "theorems": ["Verif.Parts.C113_copy", "Verif.Parts.C113_other", "Verif.Parts.C113_set", "Verif.Parts.C113_after", "Verif.Parts.C113_flag_fails", "Verif.Parts.C113_remove_fails"], "note": "C113_copy, C113_other, C113_set, C113_after: for calls of Set for keys at which there is a node (the code makes nodes for new keys in several steps; of these C113 does not speak). The last sentence is false: the copy can have a key without the flag, but with the new value (C113_flag_fails); and beside Remove it can have a key twice and lack one that nobody removes (C113_remove_fails). Sequentially consistent memory; evendeep.MakeClone is taken to return an equal value."},
{"property": "C114", "status": "partial", "theorems": ["Verif.Parts.C114_copy", "Verif.Parts.C114_other", "Verif.Parts.C114_set", "Verif.Parts.C114_unset", "Verif.Parts.C114_after", "Verif.Parts.C114_snapshot_fails", "Verif.Parts.C114_split_fails"], "note": "C114_copy, C114_other, C114_set, C114_unset, C114_after: for new keys whose Set adds a leaf to a node, no two to the same one (Joins, as in C109). The last sentence is false: the copy can lack a new key although it has a value that was set later (C114_snapshot_fails); and beside a Set that splits a node the copy can have keys that nobody has ever set (C114_split_fails). Sequentially consistent memory; evendeep.MakeClone is taken to return an equal value."},
{"property": "C115", "status": "partial", "theorems": ["Verif.Parts.C115_copy", "Verif.Parts.C115_other", "Verif.Parts.C115_set", "Verif.Parts.C115_removed", "Verif.Parts.C115_unset"], "note": "C115_copy, C115_other, C115_set, C115_unset, C115_removed: for removals that are apart (Tidy, as in C93) and new keys whose Set adds a leaf to a node (Joins, as in C109). The last sentence is false: beside one Remove the copy can have a key twice, so that it is still there after its removal from the copy, and can lack a key that nobody removes, if that stands behind the removed one (C113_remove_fails). Sequentially consistent memory; evendeep.MakeClone is taken to return an equal value."},
{"property": "C116", "status": "partial", "theorems": ["Verif.Parts.C116_walk", "Verif.Parts.C116_set", "Verif.Parts.C116_removed", "Verif.Parts.C116_unset", "Verif.Parts.C116_twice_fails", "Verif.Parts.C116_below", "Verif.Parts.C116_order", "Verif.Parts.C116_after"], "note": "C116_walk, C116_set, C116_removed, C116_unset: for removals that are apart (Tidy, as in C93) and new keys whose Set adds a leaf to a node (Joins, as in C109). Without Remove the calls are in the order of Walk alone, none twice (C116_order, and C116_below for Walk of a node); after all calls have returned the walk is that of the resulting trie (C116_after). The sentence \"It is called at most once…\" is false: beside one Remove cb can be called twice for a node that nobody removes, and not at all for another (C116_twice_fails). cb only notes its arguments. Sequentially consistent memory; append makes a new array."},
{"property": "C117", "status": "partial", "theorems": ["Verif.Parts.C117_dump", "Verif.Parts.C117_other", "Verif.Parts.C117_snapshot_fails", "Verif.Parts.C117_after", "Verif.Parts.C117_remove_fails"], "note": "C117_dump, C117_other, C117_after: all but the last sentence, for new keys whose Set adds a leaf to a node (Joins, as in C109). The last sentence is false: C117_snapshot_fails; and beside Remove the text can have the line of a key twice and lack that of a key that nobody removes (C117_remove_fails). The path and the kind of a node are read in one step, its other fields (but the mark) in another. Sequentially consistent memory; append makes a new array; fmt.Sprint, %q and the colours are arbitrary functions."},
{"property": "C118", "status": "partial", "theorems": ["Verif.Parts.C118_dump", "Verif.Parts.C118_set", "Verif.Parts.C118_other", "Verif.Parts.C118_removed", "Verif.Parts.C118_unset"], "note": "C118_dump, C118_set, C118_unset, C118_other, C118_removed: all but the last sentence, for removals that are apart (Tidy, as in C93) and new keys whose Set adds a leaf to a node (Joins, as in C109); nothing is said about the order of the lines (C117 does, without Remove). The last sentence is false: C117_remove_fails. The path and the kind of a node are read in one step, its other fields (but the mark) in another. Sequentially consistent memory; append makes a new array; fmt.Sprint, %q and the colours are arbitrary functions."}
]}
