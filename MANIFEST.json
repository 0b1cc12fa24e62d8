{"claims": [
 {"property": "C01", "status": "proved", "theorems": ["Yaml.Props.C01_utf8_delivered", "Yaml.Props.C01_utf8_delivered_forced"], "note": "For every BufRead without I/O errors (Interrupted allowed except on the very first refill) and every way of taking the characters."},
 {"property": "C02", "status": "proved", "theorems": ["Yaml.Props.C02_nothing_accepted_silently"], "note": ""},
 {"property": "C03", "status": "proved", "theorems": ["Yaml.Props.C03_tokens_depend_on_text", "Yaml.Props.C03_chunking_is_invisible"], "note": "inputs below the size limit of the reader (4*size < usize limit); same decoded text and detected encoding give the same results of every number of scan calls"},
 {"property": "C04", "status": "proved", "theorems": ["Yaml.Props.C04_events_depend_on_text", "Yaml.Props.C04_documents_depend_on_text"], "note": ""},
 {"property": "C05", "status": "partial", "theorems": ["Yaml.Props.C05_encoding_detection_partial", "Yaml.Props.C05_refuted"], "note": "False in full: input whose first byte is 0xEF but which has no byte order mark is rejected; witness C05_refuted."},
 {"property": "C06", "status": "partial", "theorems": ["Yaml.Props.C06_utf16_delivered_partial", "Yaml.Props.C06_refuted"], "note": "False in full: UTF-16 in buffers of two or more bytes is garbled (units counted as bytes); witness C06_refuted. Proved for sources delivering at most one byte per refill."},
 {"property": "C07", "status": "partial", "theorems": ["Yaml.Props.C07_scan_panics_only_known_partial", "Yaml.Props.C07_no_panic_partial", "Yaml.Props.C07_refuted_escape", "Yaml.Props.C07_refuted_tag", "Yaml.Props.C07_refuted_block_scalar"], "note": "False in full (three witnesses). Proved: no other panic exists."},
 {"property": "C08", "status": "proved", "theorems": ["Yaml.Props.C08_scan_terminates", "Yaml.Props.C08_token_count", "Yaml.Props.C08_stream_ends", "Yaml.Props.C08_parse_terminates", "Yaml.Props.C08_event_count", "Yaml.Props.C08_events_end"], "note": "Scanner and parser; calls up to and including the first error."},
 {"property": "C09", "status": "proved", "theorems": ["Yaml.Props.C09_starts_once", "Yaml.Props.C09_end_is_sticky"], "note": ""},
 {"property": "C10", "status": "proved", "theorems": ["Yaml.Props.C10_marks_are_positions", "Yaml.Props.C10_error_marks_are_positions", "Yaml.Props.C10_error_kinds"], "note": ""},
 {"property": "C11", "status": "proved", "theorems": ["Yaml.Props.C11_marks_ordered", "Yaml.Props.C11_repeated_end_has_zero_marks"], "note": "Up to and including the first StreamEnd; StreamEnd tokens returned again carry zero marks."},
 {"property": "C12", "status": "proved", "theorems": ["Yaml.Props.C12_blocks_nest", "Yaml.Props.C12_blocks_balanced"], "note": ""},
 {"property": "C13", "status": "proved", "theorems": ["Yaml.Props.C13_implicit_keys", "Yaml.Props.C13_implicit_keys_complete"], "note": ""},
 {"property": "C14", "status": "proved", "theorems": ["Yaml.Props.C14_quoted_scalar", "Yaml.Props.C14_simple_escape", "Yaml.Props.C14_code_escape", "Yaml.Props.C14_bad_escape", "Yaml.Props.C14_bad_code", "Yaml.Props.C14_unknown_escape"], "note": "Any scanner state, any prefix of the scalar body; a backslash at the very end of input panics (C07_refuted)."},
 {"property": "C15", "status": "proved", "theorems": ["Yaml.Props.C15_number_value", "Yaml.Props.C15_long_number_rejected", "Yaml.Props.C15_no_number_rejected", "Yaml.Props.C15_directive_scanned", "Yaml.Props.C15_versions_accepted"], "note": "values, rejection of long numbers at the scanner; rejection of other versions at Parser::parse"},
 {"property": "C16", "status": "proved", "theorems": ["Yaml.Props.C16_events_follow_grammar", "Yaml.Props.C16_events_complete"], "note": ""},
 {"property": "C17", "status": "proved", "theorems": ["Yaml.Props.C17_parse_panics_only_in_scanner", "Yaml.Props.C17_no_panic_partial"], "note": "The second theorem combines it with C07 for texts where the known scanner defects cannot show."},
 {"property": "C18", "status": "proved", "theorems": ["Yaml.Props.C18_tags_resolve", "Yaml.Props.C18_undeclared_handles_rejected"], "note": ""},
 {"property": "C19", "status": "proved", "theorems": ["Yaml.Props.C19_directives_scoped", "Yaml.Props.C19_directives_listed"], "note": ""},
 {"property": "C20", "status": "proved", "theorems": ["Yaml.Props.C20_end_is_sticky"], "note": ""},
 {"property": "C21", "status": "proved", "theorems": ["Yaml.Props.C21_loaded_well_formed", "Yaml.Props.C21_root_is_first"], "note": "every document returned by a history of successful load calls on any input"},
 {"property": "C22", "status": "proved", "theorems": ["Yaml.Props.C22_load_composes_events"], "note": "against the recursive composition Spec/Compose.lean; the events are those successive parse calls return on the same input"},
 {"property": "C23", "status": "proved", "theorems": ["Yaml.Props.C23_loaded_anchors", "Yaml.Props.C23_load_errors", "Yaml.Props.C23_bad_anchor_is_error"], "note": ""},
 {"property": "C24", "status": "proved", "theorems": ["Yaml.Props.C24_load_panics_only_in_scanner", "Yaml.Props.C24_load_terminates", "Yaml.Props.C24_empty_iff_ended"], "note": ""},
 {"property": "C25", "status": "proved", "theorems": ["Yaml.Props.add_returns_new_node", "Yaml.Props.append_sequence_item_exact", "Yaml.Props.append_mapping_pair_exact", "Yaml.Props.building_keeps_well_formed", "Yaml.Props.get_node_exact", "Yaml.Props.get_node_zero_panics"], "note": "get_node(0) panics with overflow checks on; stated as its own theorem."},
 {"property": "C26", "status": "proved", "theorems": ["Yaml.Props.C26_accepts", "Yaml.Props.C26_accepted_is_grammatical", "Yaml.Props.C26_complete", "Yaml.Props.C26_rejects", "Yaml.Props.C26_bad_event_not_accepted"], "note": "Acceptance assumes no tag is cut inside a character (see C27)."},
 {"property": "C27", "status": "partial", "theorems": ["Yaml.Props.C27_refuted", "Yaml.Props.C27_no_panic_partial", "Yaml.Props.C27_only_panic"], "note": "Refuted as stated: a tag whose bytes are cut inside a character by a tag prefix panics. Proved: that is the only panic."},
 {"property": "C28", "status": "proved", "theorems": ["Yaml.Props.C28_buffering", "Yaml.Props.C28_drained"], "note": ""},
 {"property": "C29", "status": "proved", "theorems": ["Yaml.Props.C29_failing_writer"], "note": ""},
 {"property": "C30", "status": "proved", "theorems": ["Yaml.Props.C30_double_quoted"], "note": "Function level: write_double_quoted_scalar in any emitter state with indent >= 1 and a line break set, scan_flow_scalar in any scanner state, any following text."},
 {"property": "C31", "status": "proved", "theorems": ["Yaml.Props.C31_single_quoted"], "note": "Function level, any state; the following text must not start with a quote (the emitter never writes one there)."},
 {"property": "C32", "status": "proved", "theorems": ["Yaml.Props.C32_plain_round_trip", "Yaml.Props.C32_plain_scanned"], "note": "Written text is dispatched to the plain scalar scanner and scanned back as the same string, in any emitter and scanner state."},
 {"property": "C33", "status": "proved", "theorems": ["Yaml.Props.C33_block_scanned", "Yaml.Props.C33_literal_round_trip"], "note": "For every block-allowed string and every emitter state one indentation step inside the enclosing block; text with CR line breaks must not be followed by LF."},
 {"property": "C34", "status": "partial", "theorems": ["Yaml.Props.C34_refuted", "Yaml.Props.C34_refuted_spaces", "Yaml.Props.C34_refuted_width", "Yaml.Props.C34_folded_round_trip_partial", "Yaml.Props.C34_folded_iff_partial", "Yaml.Props.C34_folded_spaces_partial"], "note": "False of the code as stated (witness a LF b: the look-ahead of write_folded_scalar is off by one). Proved instead exactly which strings come back: every block-allowed string, in every emitter state, is scanned as one folded scalar, equal to the string if and only if foldsWell and indentedKept (Spec/Folds.lean) hold."},
 {"property": "C35", "status": "proved", "theorems": ["Yaml.Props.C35_ascii", "Yaml.Props.C35_ascii_bytes"], "note": ""},
 {"property": "C36", "status": "proved", "theorems": ["Yaml.Props.C36_acceptable", "Yaml.Props.C36_readable"], "note": ""},
 {"property": "C37", "status": "proved", "theorems": ["Yaml.Props.C37_encoding"], "note": ""},
 {"property": "C38", "status": "partial", "theorems": ["Yaml.Props.C38_tag_scanned", "Yaml.Props.C38_tag_round_trip_partial", "Yaml.Props.C38_refuted"], "note": "Round trip proved for ASCII tags whose shorthand suffix has no , [ ]; the full claim is false of the code (C38_refuted: percent-escapes are decoded as Latin-1, and a shorthand with a comma is unreadable)"},
 {"property": "C39", "status": "partial", "theorems": ["Yaml.Props.C39_dump_ok", "Yaml.Props.C39_each_node_once", "Yaml.Props.C39_compose", "Yaml.Props.C39_dump_partial", "Yaml.Props.C39_stream_partial", "Yaml.Props.C39_empty", "Yaml.Props.C39_refuted"], "note": "Whenever dump returns, exactly the events of the graph were emitted (each reachable node once, aliases name it, composing them gives the document back). As stated the property is false (C39_refuted): sharing below the children of the root panics. For documents that share only children of the root (or the root) dump equals emitting those events, and a whole stream of such documents is accepted."},
 {"property": "C40", "status": "proved", "theorems": ["Yaml.Props.C40_accepted_names", "Yaml.Props.C40_bad_name_rejected", "Yaml.Props.C40_name_round_trip"], "note": "accepted names are valid, invalid names are rejected, and every valid name as written in any emitter state is scanned back exactly"},
 {"property": "C41", "status": "proved", "theorems": ["Yaml.Props.located_error_reports", "Yaml.Props.error_kinds_distinct", "Yaml.Props.marks_iff_located", "Yaml.Props.display_located", "Yaml.Props.try_into_io"], "note": ""},
 {"property": "C42", "status": "proved", "theorems": ["Yaml.Props.C42_scanner_reset", "Yaml.Props.C42_parser_reset", "Yaml.Props.C42_emitter_reset", "Yaml.Props.C42_scanner_new", "Yaml.Props.C42_parser_new"], "note": "For every list of calls before and after: the results after reset are those of a new object. reset is modelled field by field (scanner, parser)."},
 {"property": "C43", "status": "proved", "theorems": ["Yaml.Props.C43_settings"], "note": ""},
 {"property": "C44", "status": "partial", "theorems": ["Yaml.Props.C44_round_trip_partial", "Yaml.Props.C44_refuted", "Yaml.Props.C44_sample"], "note": "C44_round_trip_partial: any configuration, writer, style and chunking; the whole emitted stream is read back event by event (SameEvents). Missing, because false of the code: folded scalars with awkward lines (C34_refuted), tags that are not ASCII or have , [ ] behind a prefix (C38_refuted), a first document whose root leaves no text (C44_refuted); UTF-8 output starting with byte 0xEF needs set_encoding (C05_refuted), UTF-16 output has to be delivered byte by byte (C06_refuted); output below 2^31 bytes."},
 {"property": "C45", "status": "partial", "theorems": ["Yaml.Props.C45_scan_after_error_partial", "Yaml.Props.C45_refuted_scanner", "Yaml.Props.C45_refuted_parser"], "note": "false of the code: parse after a Parser error can panic ([a}), scan after an error can meet the panics of C07; proved: the scanner cannot panic anywhere else and always returns"},
 {"property": "C46", "status": "proved", "theorems": ["Yaml.Props.C46_events_say_what_tokens_say", "Yaml.Props.C46_content_conserved", "Yaml.Props.C46_whole_stream"], "note": ""},
 {"property": "C47", "status": "proved", "theorems": ["Yaml.Props.C47_grammar_accepted", "Yaml.Props.C47_sample", "Yaml.Props.C47_unambiguous"], "note": "Completeness of the parser with respect to Spec/TokenGrammar.lean, by induction over derivations of any size; the tokens are those the scanner itself returns for the input."},
 {"property": "C48", "status": "proved", "theorems": ["Yaml.Props.C48_load_succeeds", "Yaml.Props.C48_load_end", "Yaml.Props.C48_load_all", "Yaml.Props.C48_sample"], "note": "converse of C22/C23: load succeeds on every document that parse returns with anchors in order"},
 {"property": "C49", "status": "partial", "theorems": ["Yaml.Props.C49_dump_load_partial", "Yaml.Props.C49_sample", "Yaml.Props.C49_refuted"], "note": "false as stated (C49_refuted); proved for documents satisfying Dumpable, AsciiTags, ReadableDoc and not LostDoc, with any emitter configuration, any chunking and encoding; each excluded class has a witness (C39_refuted, C34_refuted, C38_refuted, C49_refuted)"},
 {"property": "C50", "status": "proved", "theorems": ["Yaml.Props.C50_tokens_fit", "Yaml.Props.C50_events_ok", "Yaml.Props.C50_implicit_root"], "note": "Sample: C51_sample (Parses), sample_reads (Reads)."},
 {"property": "C51", "status": "partial", "theorems": ["Yaml.Props.C51_parsed_is_emitted", "Yaml.Props.C51_parse_emit_parse_partial", "Yaml.Props.C51_untagged", "Yaml.Props.C51_refuted", "Yaml.Props.C51_sample"], "note": "False in full: a verbatim tag with a comma is written as a shorthand that cannot be read (C51_refuted). Proved for streams satisfying Readable (ASCII tags without ,[] behind a prefix; folded scalars that suit the look-ahead), without exception for streams without tags and folded scalars."},
 {"property": "C52", "status": "partial", "theorems": ["Yaml.Props.C52_loaded_is_dumpable", "Yaml.Props.C52_load_dump_load_partial", "Yaml.Props.C52_simple", "Yaml.Props.C52_sample", "Yaml.Props.C52_simple_sample", "Yaml.Props.C52_refuted"], "note": "False in full: the document of `!!str` is dumped as an empty line (C52_refuted); nodes shared below the top make dump panic (C39_refuted). Proved for documents without these, with readable tags and folded scalars; without exception for streams without anchors, aliases, tags and folded scalars (C52_simple)."},
 {"property": "C53", "status": "proved", "theorems": ["Yaml.Props.C53_tokens_cover_the_text", "Yaml.Props.C53_tokens_cover_the_text_so_far", "Yaml.Props.C53_each_token_is_in_the_text", "Yaml.Props.C53_events_come_from_the_text", "Yaml.Props.layoutSample_reads"], "note": "Spec/Lexemes.lean: Tiles, Separates, Spells. Percent escapes of more than one octet are specified as the code decodes them (each octet a character; finding 4, refuted under C38)."},
 {"property": "C54", "status": "proved", "theorems": ["Yaml.Props.C54_block_structure_follows_the_layout", "Yaml.Props.C54_block_structure_so_far"], "note": "Spec/Lexemes.lean: Laid, LaidOut."},
 {"property": "C55", "status": "partial", "theorems": ["Yaml.Props.C55_refuted", "Yaml.Props.C55_only_grammar_partial", "Yaml.Props.C55_language_partial", "Yaml.Props.C55_only_yaml_partial", "Yaml.Props.C55_sample"], "note": "False as stated: in a flow sequence the parser drops the token after `?` when it is `:`, `,` or `]`, so `[?]]` is accepted (C55_refuted). With that deviation written into the grammar (lax = true, two rules) the parser accepts exactly the grammar with exactly its events (C55_language_partial, both directions); without `?` directly before `:`, `,`, `]` whatever is accepted is YAML (C55_only_yaml_partial)."},
 {"property": "C56", "status": "proved", "theorems": ["Yaml.Props.C56_json", "Yaml.Props.C56_load", "Yaml.Props.C56_limits", "Yaml.Props.C56_sample"], "note": "JsonText (Spec/Json.lean) is RFC 8259 with the limits named in the property, marked (Y); C56_limits gives a rejected (or differently read) text for each."},
 {"property": "C57", "status": "proved", "theorems": ["Yaml.Props.C57_yaml", "Yaml.Props.C57_unambiguous", "Yaml.Props.C57_load", "Yaml.Props.C57_sample"], "note": "YamlText (Spec/Yaml.lean) is the grammar, character by character, independent of the scanner and parser; its exclusions are named in the property and at the top of the file. TextSent says how the text is delivered."},
 {"property": "C58", "status": "proved", "theorems": ["Yaml.Props.C58_event_marks", "Yaml.Props.C58_positions", "Yaml.Props.C58_order", "Yaml.Props.C58_tokens_disjoint", "Yaml.Props.C58_scalar_text", "Yaml.Props.C58_error_marks", "Yaml.Props.C58_sample", "Yaml.Props.C58_error_sample"], "note": "Placed (Spec/EventMarks.lean) lists the marks for each kind of event. Repeated StreamEnd events after the first have zero marks (excluded by EventsEndOnce)."},
 {"property": "C59", "status": "proved", "theorems": ["Yaml.Props.C59_tokens", "Yaml.Props.C59_events", "Yaml.Props.C59_documents", "Yaml.Props.C59_other_breaks"], "note": "C59_other_breaks shows that LS and PS (U+2028, U+2029), which YAML 1.1 treats as specific breaks, are rightly not included"},
 {"property": "C60", "status": "partial", "theorems": ["Yaml.Props.C60_tokens_partial", "Yaml.Props.C60_events_partial", "Yaml.Props.C60_documents_partial", "Yaml.Props.C60_sample", "Yaml.Props.C60_refuted", "Yaml.Props.C60_flow_stays"], "note": "false as stated (C60_refuted): behind `...` a document without `---` is refused although the same text alone is accepted; proved for every rest that does not begin with such an implicit document. For tokens alone also a `...` inside a flow collection is excluded (C60_flow_stays: the scanner stays in the flow collection); C60_events/documents need no such condition, as the parser has then already failed."},
 {"property": "C61", "status": "proved", "theorems": ["Yaml.Props.C61_tokens", "Yaml.Props.C61_events", "Yaml.Props.C61_documents", "Yaml.Props.C61_sample", "Yaml.Props.C61_one_needed"], "note": "C61_one_needed: the one character behind `...` is really needed, and a document without explicit end is not returned before something else starts."},
 {"property": "C62", "status": "proved", "theorems": ["Yaml.Props.C62_breaks", "Yaml.Props.C62_results", "Yaml.Props.C62_accepted", "Yaml.Props.C62_written", "Yaml.Props.C62_read_back", "Yaml.Props.C62_default"], "note": "Break::Any (the default) is excluded from C62_breaks by b ≠ any and covered by C62_default: it is LF. C62_results/C62_accepted need a writer that does not fail (chunk sizes differ with the length of the output). C62_read_back combines C62_written with C59."},
 {"property": "C63", "status": "proved", "theorems": ["Yaml.Props.C63_settings", "Yaml.Props.C63_histories"], "note": "Spec/Settings.lean defines the settings in force; concrete instances are checked beside the theorems."},
 {"property": "C64", "status": "proved", "theorems": ["Yaml.Props.C64_encodings", "Yaml.Props.C64_written", "Yaml.Props.C64_results", "Yaml.Props.C64_accepted"], "note": "C64_results/C64_accepted need a writer that does not fail, as in C62."},
 {"property": "C65", "status": "proved", "theorems": ["Yaml.Props.C65_cause", "Yaml.Props.C65_scanner", "Yaml.Props.C65_parser", "Yaml.Props.C65_load", "Yaml.Props.C65_found_forbidden", "Yaml.Props.C65_found_malformed", "Yaml.Props.C65_sample", "Yaml.Props.C65_sample_parser", "Yaml.Props.C65_sample_malformed"], "note": "ReadFault, Culprit, CutOff (Spec/Culprit.lean) are about bytes and texts only. UTF-16 streams are not covered (C06: they are garbled)."},
 {"property": "C66", "status": "proved", "theorems": ["Yaml.Props.C66_tokens", "Yaml.Props.C66_events", "Yaml.Props.C66_documents", "Yaml.Props.C66_no_end_token", "Yaml.Props.C66_no_end_event", "Yaml.Props.C66_no_last_document", "Yaml.Props.C66_sample", "Yaml.Props.C66_sample_results"], "note": "BreaksOff (Spec/BreaksOff.lean) is about sources, bytes and texts only. The second source must be without errors and of less than 2^61 items and bytes."},
 {"property": "C67", "status": "proved", "theorems": ["Yaml.Props.C67_scanner_step", "Yaml.Props.C67_scanner_fused", "Yaml.Props.C67_scanner_none_iff", "Yaml.Props.C67_scanner_items", "Yaml.Props.C67_parser_step", "Yaml.Props.C67_parser_fused", "Yaml.Props.C67_parser_none_iff", "Yaml.Props.C67_parser_items", "Yaml.Props.C67_sample", "Yaml.Props.C67_sample_error"], "note": "itemsOf, iterateOk, Called (Spec/Iterate.lean) use only the results of the calls."},
 {"property": "C68", "status": "proved", "theorems": ["Yaml.Props.C68_unicode", "Yaml.Props.C68_histories", "Yaml.Props.C68_dump", "Yaml.Props.C68_sample", "Yaml.Props.C68_dump_sample", "Yaml.Props.C68_difference"], "note": "AsciiEvent (Spec/Ascii.lean) and AsciiDocument (Spec/AsciiDoc.lean) are about the data only; C68_difference is a witness that the hypothesis is needed."}
]}
