'Yaml.Props.C01_utf8_delivered' depends on axioms: [propext, Classical.choice, Quot.sound]
'Yaml.Props.C01_utf8_delivered_forced' depends on axioms: [propext, Classical.choice, Quot.sound]
'Yaml.Props.C02_nothing_accepted_silently' depends on axioms: [propext, Classical.choice, Quot.sound]
'Yaml.Props.C03_tokens_depend_on_text' depends on axioms: [propext, Classical.choice, Quot.sound]
'Yaml.Props.C03_chunking_is_invisible' depends on axioms: [propext, Classical.choice, Quot.sound]
'Yaml.Props.C04_events_depend_on_text' depends on axioms: [propext, Classical.choice, Quot.sound]
'Yaml.Props.C04_documents_depend_on_text' depends on axioms: [propext, Classical.choice, Quot.sound]
'Yaml.Props.C05_encoding_detection_partial' depends on axioms: [propext, Quot.sound]
'Yaml.Props.C05_refuted' depends on axioms: [propext]
'Yaml.Props.C06_utf16_delivered_partial' depends on axioms: [propext, Classical.choice, Quot.sound]
'Yaml.Props.C06_refuted' depends on axioms: [propext]
'Yaml.Props.C07_scan_panics_only_known_partial' depends on axioms: [propext, Classical.choice, Quot.sound]
'Yaml.Props.C07_no_panic_partial' depends on axioms: [propext, Classical.choice, Quot.sound]
'Yaml.Props.C07_refuted_escape' depends on axioms: [propext]
'Yaml.Props.C07_refuted_tag' depends on axioms: [propext]
'Yaml.Props.C07_refuted_block_scalar' depends on axioms: [propext]
'Yaml.Props.C08_scan_terminates' depends on axioms: [propext, Classical.choice, Quot.sound]
'Yaml.Props.C08_token_count' depends on axioms: [propext, Classical.choice, Quot.sound]
'Yaml.Props.C08_stream_ends' depends on axioms: [propext, Classical.choice, Quot.sound]
'Yaml.Props.C08_parse_terminates' depends on axioms: [propext, Classical.choice, Quot.sound]
'Yaml.Props.C08_event_count' depends on axioms: [propext, Classical.choice, Quot.sound]
'Yaml.Props.C08_events_end' depends on axioms: [propext, Classical.choice, Quot.sound]
'Yaml.Props.C09_starts_once' depends on axioms: [propext, Classical.choice, Quot.sound]
'Yaml.Props.C09_end_is_sticky' depends on axioms: [propext, Classical.choice, Quot.sound]
'Yaml.Props.C10_marks_are_positions' depends on axioms: [propext, Classical.choice, Quot.sound]
'Yaml.Props.C10_error_marks_are_positions' depends on axioms: [propext, Classical.choice, Quot.sound]
'Yaml.Props.C10_error_kinds' depends on axioms: [propext, Classical.choice, Quot.sound]
'Yaml.Props.C11_marks_ordered' depends on axioms: [propext, Classical.choice, Quot.sound]
'Yaml.Props.C11_repeated_end_has_zero_marks' depends on axioms: [propext]
'Yaml.Props.C12_blocks_nest' depends on axioms: [propext, Classical.choice, Quot.sound]
'Yaml.Props.C12_blocks_balanced' depends on axioms: [propext, Classical.choice, Quot.sound]
'Yaml.Props.C13_implicit_keys' depends on axioms: [propext, Classical.choice, Quot.sound]
'Yaml.Props.C13_implicit_keys_complete' depends on axioms: [propext, Classical.choice, Quot.sound]
'Yaml.Props.C14_quoted_scalar' depends on axioms: [propext, Classical.choice, Quot.sound]
'Yaml.Props.C14_simple_escape' depends on axioms: [propext, Classical.choice, Quot.sound]
'Yaml.Props.C14_code_escape' depends on axioms: [propext, Classical.choice, Quot.sound]
'Yaml.Props.C14_bad_escape' depends on axioms: [propext, Classical.choice, Quot.sound]
'Yaml.Props.C14_bad_code' depends on axioms: [propext, Classical.choice, Quot.sound]
'Yaml.Props.C14_unknown_escape' depends on axioms: [propext, Classical.choice, Quot.sound]
'Yaml.Props.C15_number_value' depends on axioms: [propext, Classical.choice, Quot.sound]
'Yaml.Props.C15_long_number_rejected' depends on axioms: [propext, Classical.choice, Quot.sound]
'Yaml.Props.C15_no_number_rejected' depends on axioms: [propext, Classical.choice, Quot.sound]
'Yaml.Props.C15_directive_scanned' depends on axioms: [propext, Classical.choice, Quot.sound]
'Yaml.Props.C15_versions_accepted' depends on axioms: [propext, Classical.choice, Quot.sound]
'Yaml.Props.C16_events_follow_grammar' depends on axioms: [propext, Classical.choice, Quot.sound]
'Yaml.Props.C16_events_complete' depends on axioms: [propext, Classical.choice, Quot.sound]
'Yaml.Props.C17_parse_panics_only_in_scanner' depends on axioms: [propext, Classical.choice, Quot.sound]
'Yaml.Props.C17_no_panic_partial' depends on axioms: [propext, Classical.choice, Quot.sound]
'Yaml.Props.C18_tags_resolve' depends on axioms: [propext, Classical.choice, Quot.sound]
'Yaml.Props.C18_undeclared_handles_rejected' depends on axioms: [propext, Classical.choice, Quot.sound]
'Yaml.Props.C19_directives_scoped' depends on axioms: [propext, Classical.choice, Quot.sound]
'Yaml.Props.C19_directives_listed' depends on axioms: [propext, Classical.choice, Quot.sound]
'Yaml.Props.C20_end_is_sticky' depends on axioms: [propext, Classical.choice, Quot.sound]
'Yaml.Props.C21_loaded_well_formed' depends on axioms: [propext, Classical.choice, Quot.sound]
'Yaml.Props.C21_root_is_first' depends on axioms: [propext, Classical.choice, Quot.sound]
'Yaml.Props.C22_load_composes_events' depends on axioms: [propext, Classical.choice, Quot.sound]
'Yaml.Props.C23_loaded_anchors' depends on axioms: [propext, Classical.choice, Quot.sound]
'Yaml.Props.C23_load_errors' depends on axioms: [propext, Classical.choice, Quot.sound]
'Yaml.Props.C23_bad_anchor_is_error' depends on axioms: [propext, Classical.choice, Quot.sound]
'Yaml.Props.C24_load_panics_only_in_scanner' depends on axioms: [propext, Classical.choice, Quot.sound]
'Yaml.Props.C24_load_terminates' depends on axioms: [propext, Classical.choice, Quot.sound]
'Yaml.Props.C24_empty_iff_ended' depends on axioms: [propext, Classical.choice, Quot.sound]
'Yaml.Props.add_returns_new_node' depends on axioms: [propext, Quot.sound]
'Yaml.Props.append_sequence_item_exact' depends on axioms: [propext, Classical.choice, Quot.sound]
'Yaml.Props.append_mapping_pair_exact' depends on axioms: [propext, Classical.choice, Quot.sound]
'Yaml.Props.building_keeps_well_formed' depends on axioms: [propext, Classical.choice, Quot.sound]
'Yaml.Props.get_node_exact' depends on axioms: [propext, Quot.sound]
'Yaml.Props.get_node_zero_panics' depends on axioms: [propext]
'Yaml.Props.C26_accepts' depends on axioms: [propext, Classical.choice, Quot.sound]
'Yaml.Props.C26_accepted_is_grammatical' depends on axioms: [propext, Classical.choice, Quot.sound]
'Yaml.Props.C26_complete' depends on axioms: [propext, Classical.choice, Quot.sound]
'Yaml.Props.C26_rejects' depends on axioms: [propext, Classical.choice, Quot.sound]
'Yaml.Props.C26_bad_event_not_accepted' depends on axioms: [propext, Classical.choice, Quot.sound]
'Yaml.Props.C27_refuted' depends on axioms: [propext, Quot.sound]
'Yaml.Props.C27_no_panic_partial' depends on axioms: [propext, Classical.choice, Quot.sound]
'Yaml.Props.C27_only_panic' depends on axioms: [propext, Classical.choice, Quot.sound]
'Yaml.Props.C28_buffering' depends on axioms: [propext, Classical.choice, Quot.sound]
'Yaml.Props.C28_drained' depends on axioms: [propext, Classical.choice, Quot.sound]
'Yaml.Props.C29_failing_writer' depends on axioms: [propext, Classical.choice, Quot.sound]
'Yaml.Props.C30_double_quoted' depends on axioms: [propext, Classical.choice, Quot.sound]
'Yaml.Props.C31_single_quoted' depends on axioms: [propext, Classical.choice, Quot.sound]
'Yaml.Props.C32_plain_round_trip' depends on axioms: [propext, Classical.choice, Quot.sound]
'Yaml.Props.C32_plain_scanned' depends on axioms: [propext, Classical.choice, Quot.sound]
'Yaml.Props.C33_block_scanned' depends on axioms: [propext, Classical.choice, Quot.sound]
'Yaml.Props.C33_literal_round_trip' depends on axioms: [propext, Classical.choice, Quot.sound]
'Yaml.Props.C34_refuted' depends on axioms: [propext]
'Yaml.Props.C34_refuted_spaces' depends on axioms: [propext]
'Yaml.Props.C34_refuted_width' depends on axioms: [propext]
'Yaml.Props.C34_folded_round_trip_partial' depends on axioms: [propext, Classical.choice, Quot.sound]
'Yaml.Props.C34_folded_iff_partial' depends on axioms: [propext, Classical.choice, Quot.sound]
'Yaml.Props.C34_folded_spaces_partial' depends on axioms: [propext, Classical.choice, Quot.sound]
'Yaml.Props.C35_ascii' depends on axioms: [propext, Classical.choice, Quot.sound]
'Yaml.Props.C35_ascii_bytes' depends on axioms: [propext, Classical.choice, Quot.sound]
'Yaml.Props.C36_acceptable' depends on axioms: [propext, Classical.choice, Quot.sound]
'Yaml.Props.C36_readable' depends on axioms: [propext, Classical.choice, Quot.sound]
'Yaml.Props.C37_encoding' depends on axioms: [propext, Classical.choice, Quot.sound]
'Yaml.Props.C38_tag_scanned' depends on axioms: [propext, Classical.choice, Quot.sound]
'Yaml.Props.C38_tag_round_trip_partial' depends on axioms: [propext, Classical.choice, Quot.sound]
'Yaml.Props.C38_refuted' depends on axioms: [propext]
'Yaml.Props.C39_dump_ok' depends on axioms: [propext, Classical.choice, Quot.sound]
'Yaml.Props.C39_each_node_once' depends on axioms: [propext, Quot.sound]
'Yaml.Props.C39_compose' depends on axioms: [propext, Classical.choice, Quot.sound]
'Yaml.Props.C39_dump_partial' depends on axioms: [propext, Classical.choice, Quot.sound]
'Yaml.Props.C39_stream_partial' depends on axioms: [propext, Classical.choice, Quot.sound]
'Yaml.Props.C39_empty' depends on axioms: [propext, Classical.choice, Quot.sound]
'Yaml.Props.C39_refuted' depends on axioms: [propext, Classical.choice, Quot.sound]
'Yaml.Props.C40_accepted_names' depends on axioms: [propext, Classical.choice, Quot.sound]
'Yaml.Props.C40_bad_name_rejected' depends on axioms: [propext, Classical.choice, Quot.sound]
'Yaml.Props.C40_name_round_trip' depends on axioms: [propext, Classical.choice, Quot.sound]
'Yaml.Props.located_error_reports' depends on axioms: [propext]
'Yaml.Props.error_kinds_distinct' does not depend on any axioms
'Yaml.Props.marks_iff_located' depends on axioms: [propext]
'Yaml.Props.display_located' depends on axioms: [propext]
'Yaml.Props.try_into_io' depends on axioms: [propext, Quot.sound]
'Yaml.Props.C42_scanner_reset' depends on axioms: [propext]
'Yaml.Props.C42_parser_reset' depends on axioms: [propext]
'Yaml.Props.C42_emitter_reset' depends on axioms: [propext, Classical.choice, Quot.sound]
'Yaml.Props.C42_scanner_new' depends on axioms: [propext]
'Yaml.Props.C42_parser_new' depends on axioms: [propext]
'Yaml.Props.C43_settings' depends on axioms: [propext, Classical.choice, Quot.sound]
'Yaml.Props.C44_round_trip_partial' depends on axioms: [propext, Classical.choice, Quot.sound]
'Yaml.Props.C44_refuted' depends on axioms: [propext, Quot.sound]
'Yaml.Props.C44_sample' depends on axioms: [propext, Classical.choice, Quot.sound]
'Yaml.Props.C45_scan_after_error_partial' depends on axioms: [propext, Classical.choice, Quot.sound]
'Yaml.Props.C45_refuted_scanner' depends on axioms: [propext]
'Yaml.Props.C45_refuted_parser' depends on axioms: [propext]
'Yaml.Props.C46_events_say_what_tokens_say' depends on axioms: [propext, Classical.choice, Quot.sound]
'Yaml.Props.C46_content_conserved' depends on axioms: [propext, Classical.choice, Quot.sound]
'Yaml.Props.C46_whole_stream' depends on axioms: [propext, Classical.choice, Quot.sound]
'Yaml.Props.C47_grammar_accepted' depends on axioms: [propext, Classical.choice, Quot.sound]
'Yaml.Props.C47_sample' depends on axioms: [propext, Quot.sound]
'Yaml.Props.C47_unambiguous' depends on axioms: [propext, Classical.choice, Quot.sound]
'Yaml.Props.C48_load_succeeds' depends on axioms: [propext, Classical.choice, Quot.sound]
'Yaml.Props.C48_load_end' depends on axioms: [propext, Classical.choice, Quot.sound]
'Yaml.Props.C48_load_all' depends on axioms: [propext, Classical.choice, Quot.sound]
'Yaml.Props.C48_sample' depends on axioms: [propext, Classical.choice, Quot.sound]
'Yaml.Props.C49_dump_load_partial' depends on axioms: [propext, Classical.choice, Quot.sound]
'Yaml.Props.C49_sample' depends on axioms: [propext, Quot.sound]
'Yaml.Props.C49_refuted' depends on axioms: [propext, Classical.choice, Quot.sound]
'Yaml.Props.C50_tokens_fit' depends on axioms: [propext, Classical.choice, Quot.sound]
'Yaml.Props.C50_events_ok' depends on axioms: [propext, Classical.choice, Quot.sound]
'Yaml.Props.C50_implicit_root' depends on axioms: [propext, Classical.choice, Quot.sound]
'Yaml.Props.C51_parsed_is_emitted' depends on axioms: [propext, Classical.choice, Quot.sound]
'Yaml.Props.C51_parse_emit_parse_partial' depends on axioms: [propext, Classical.choice, Quot.sound]
'Yaml.Props.C51_untagged' depends on axioms: [propext, Classical.choice, Quot.sound]
'Yaml.Props.C51_refuted' depends on axioms: [propext, Classical.choice, Quot.sound]
'Yaml.Props.C51_sample' depends on axioms: [propext, Classical.choice, Quot.sound]
'Yaml.Props.C52_loaded_is_dumpable' depends on axioms: [propext, Classical.choice, Quot.sound]
'Yaml.Props.C52_load_dump_load_partial' depends on axioms: [propext, Classical.choice, Quot.sound]
'Yaml.Props.C52_simple' depends on axioms: [propext, Classical.choice, Quot.sound]
'Yaml.Props.C52_sample' depends on axioms: [propext, Quot.sound]
'Yaml.Props.C52_simple_sample' depends on axioms: [propext, Classical.choice, Quot.sound]
'Yaml.Props.C52_refuted' depends on axioms: [propext, Classical.choice, Quot.sound]
'Yaml.Props.C53_tokens_cover_the_text' depends on axioms: [propext, Classical.choice, Quot.sound]
'Yaml.Props.C53_tokens_cover_the_text_so_far' depends on axioms: [propext, Classical.choice, Quot.sound]
'Yaml.Props.C53_each_token_is_in_the_text' depends on axioms: [propext, Classical.choice, Quot.sound]
'Yaml.Props.C53_events_come_from_the_text' depends on axioms: [propext, Classical.choice, Quot.sound]
'Yaml.Props.layoutSample_reads' depends on axioms: [propext]
'Yaml.Props.C54_block_structure_follows_the_layout' depends on axioms: [propext, Classical.choice, Quot.sound]
'Yaml.Props.C54_block_structure_so_far' depends on axioms: [propext, Classical.choice, Quot.sound]
'Yaml.Props.C55_refuted' depends on axioms: [propext, Classical.choice, Quot.sound]
'Yaml.Props.C55_only_grammar_partial' depends on axioms: [propext, Classical.choice, Quot.sound]
'Yaml.Props.C55_language_partial' depends on axioms: [propext, Classical.choice, Quot.sound]
'Yaml.Props.C55_only_yaml_partial' depends on axioms: [propext, Classical.choice, Quot.sound]
'Yaml.Props.C55_sample' depends on axioms: [propext, Quot.sound]
'Yaml.Props.C56_json' depends on axioms: [propext, Classical.choice, Quot.sound]
'Yaml.Props.C56_load' depends on axioms: [propext, Classical.choice, Quot.sound]
'Yaml.Props.C56_limits' depends on axioms: [propext]
'Yaml.Props.C56_sample' depends on axioms: [propext, Classical.choice, Quot.sound]
'Yaml.Props.C57_yaml' depends on axioms: [propext, Classical.choice, Quot.sound]
'Yaml.Props.C57_unambiguous' depends on axioms: [propext, Classical.choice, Quot.sound]
'Yaml.Props.C57_load' depends on axioms: [propext, Classical.choice, Quot.sound]
'Yaml.Props.C57_sample' depends on axioms: [propext, Classical.choice, Quot.sound]
'Yaml.Props.C58_event_marks' depends on axioms: [propext, Classical.choice, Quot.sound]
'Yaml.Props.C58_positions' depends on axioms: [propext, Classical.choice, Quot.sound]
'Yaml.Props.C58_order' depends on axioms: [propext, Classical.choice, Quot.sound]
'Yaml.Props.C58_tokens_disjoint' depends on axioms: [propext, Classical.choice, Quot.sound]
'Yaml.Props.C58_scalar_text' depends on axioms: [propext, Classical.choice, Quot.sound]
'Yaml.Props.C58_error_marks' depends on axioms: [propext, Classical.choice, Quot.sound]
'Yaml.Props.C58_sample' depends on axioms: [propext]
'Yaml.Props.C58_error_sample' depends on axioms: [propext]
'Yaml.Props.C59_tokens' depends on axioms: [propext, Classical.choice, Quot.sound]
'Yaml.Props.C59_events' depends on axioms: [propext, Classical.choice, Quot.sound]
'Yaml.Props.C59_documents' depends on axioms: [propext, Classical.choice, Quot.sound]
'Yaml.Props.C59_other_breaks' depends on axioms: [propext]
'Yaml.Props.C60_tokens_partial' depends on axioms: [propext, Classical.choice, Quot.sound]
'Yaml.Props.C60_events_partial' depends on axioms: [propext, Classical.choice, Quot.sound]
'Yaml.Props.C60_documents_partial' depends on axioms: [propext, Classical.choice, Quot.sound]
'Yaml.Props.C60_sample' depends on axioms: [propext, Quot.sound]
'Yaml.Props.C60_refuted' depends on axioms: [propext, Quot.sound]
'Yaml.Props.C60_flow_stays' depends on axioms: [propext]
'Yaml.Props.C61_tokens' depends on axioms: [propext, Classical.choice, Quot.sound]
'Yaml.Props.C61_events' depends on axioms: [propext, Classical.choice, Quot.sound]
'Yaml.Props.C61_documents' depends on axioms: [propext, Classical.choice, Quot.sound]
'Yaml.Props.C61_sample' depends on axioms: [propext, Quot.sound]
'Yaml.Props.C61_one_needed' depends on axioms: [propext]
'Yaml.Props.C62_breaks' depends on axioms: [propext, Classical.choice, Quot.sound]
'Yaml.Props.C62_results' depends on axioms: [propext, Classical.choice, Quot.sound]
'Yaml.Props.C62_accepted' depends on axioms: [propext, Classical.choice, Quot.sound]
'Yaml.Props.C62_written' depends on axioms: [propext, Classical.choice, Quot.sound]
'Yaml.Props.C62_read_back' depends on axioms: [propext, Classical.choice, Quot.sound]
'Yaml.Props.C62_default' depends on axioms: [propext, Classical.choice, Quot.sound]
'Yaml.Props.C63_settings' depends on axioms: [propext, Classical.choice, Quot.sound]
'Yaml.Props.C63_histories' depends on axioms: [propext, Classical.choice, Quot.sound]
'Yaml.Props.C64_encodings' depends on axioms: [propext, Classical.choice, Quot.sound]
'Yaml.Props.C64_written' depends on axioms: [propext, Classical.choice, Quot.sound]
'Yaml.Props.C64_results' depends on axioms: [propext, Classical.choice, Quot.sound]
'Yaml.Props.C64_accepted' depends on axioms: [propext, Classical.choice, Quot.sound]
'Yaml.Props.C65_cause' depends on axioms: [propext, Classical.choice, Quot.sound]
'Yaml.Props.C65_scanner' depends on axioms: [propext, Classical.choice, Quot.sound]
'Yaml.Props.C65_parser' depends on axioms: [propext, Classical.choice, Quot.sound]
'Yaml.Props.C65_load' depends on axioms: [propext, Classical.choice, Quot.sound]
'Yaml.Props.C65_found_forbidden' depends on axioms: [propext, Classical.choice, Quot.sound]
'Yaml.Props.C65_found_malformed' depends on axioms: [propext, Classical.choice, Quot.sound]
'Yaml.Props.C65_sample' depends on axioms: [propext]
'Yaml.Props.C65_sample_parser' depends on axioms: [propext]
'Yaml.Props.C65_sample_malformed' depends on axioms: [propext, Classical.choice, Quot.sound]
'Yaml.Props.C66_tokens' depends on axioms: [propext, Classical.choice, Quot.sound]
'Yaml.Props.C66_events' depends on axioms: [propext, Classical.choice, Quot.sound]
'Yaml.Props.C66_documents' depends on axioms: [propext, Classical.choice, Quot.sound]
'Yaml.Props.C66_no_end_token' depends on axioms: [propext, Classical.choice, Quot.sound]
'Yaml.Props.C66_no_end_event' depends on axioms: [propext, Classical.choice, Quot.sound]
'Yaml.Props.C66_no_last_document' depends on axioms: [propext, Classical.choice, Quot.sound]
'Yaml.Props.C66_sample' depends on axioms: [propext, Classical.choice, Quot.sound]
'Yaml.Props.C66_sample_results' depends on axioms: [propext]
'Yaml.Props.C67_scanner_step' depends on axioms: [propext, Quot.sound]
'Yaml.Props.C67_scanner_fused' depends on axioms: [propext, Quot.sound]
'Yaml.Props.C67_scanner_none_iff' depends on axioms: [propext, Classical.choice, Quot.sound]
'Yaml.Props.C67_scanner_items' depends on axioms: [propext, Classical.choice, Quot.sound]
'Yaml.Props.C67_parser_step' depends on axioms: [propext, Classical.choice, Quot.sound]
'Yaml.Props.C67_parser_fused' depends on axioms: [propext, Classical.choice, Quot.sound]
'Yaml.Props.C67_parser_none_iff' depends on axioms: [propext, Classical.choice, Quot.sound]
'Yaml.Props.C67_parser_items' depends on axioms: [propext, Classical.choice, Quot.sound]
'Yaml.Props.C67_sample' depends on axioms: [propext]
'Yaml.Props.C67_sample_error' depends on axioms: [propext, Quot.sound]
'Yaml.Props.C68_unicode' depends on axioms: [propext, Quot.sound]
'Yaml.Props.C68_histories' depends on axioms: [propext, Quot.sound]
'Yaml.Props.C68_dump' depends on axioms: [propext, Classical.choice, Quot.sound]
'Yaml.Props.C68_sample' depends on axioms: [propext]
'Yaml.Props.C68_dump_sample' depends on axioms: [propext, Classical.choice, Quot.sound]
'Yaml.Props.C68_difference' depends on axioms: [propext]
