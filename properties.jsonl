{"id": "C01", "title": "UTF-8 input reaches the scanner unchanged", "statement": "If the bytes supplied by the BufRead are the UTF-8 encoding of a text all of whose characters are allowed in YAML streams (optionally preceded by a UTF-8 byte order mark, and not otherwise starting with byte 0xEF), then reading to the end of input succeeds and the characters delivered are exactly that text, in order, none lost, duplicated or altered, however the reader splits the bytes into buffers (also in the middle of a character).", "quantifier": "every text of allowed characters and every way of cutting its encoding into buffer refills", "why_tests_cant": "the text and the buffer boundaries both range over infinite sets; tests use whole-slice readers and a handful of strings", "anchors": ["src/reader.rs: yaml_parser_update_buffer, read_utf8_buffered, read_utf8_char_unbuffered, utf8_char_width, push_char"]}
{"id": "C02", "title": "Malformed or forbidden input is never silently accepted", "statement": "If reading the input to the end succeeds for a stream decoded as UTF-8, then the bytes after the optional byte order mark are exactly the UTF-8 encoding of the delivered characters, and every delivered character is tab, LF, CR, printable ASCII, U+0085 or in U+00A0..U+D7FF, U+E000..U+FFFD, U+10000..U+10FFFF.", "quantifier": "every byte string and every chunking", "why_tests_cant": "a decoder that accepts one malformed sequence at one buffer boundary is not found by sampling", "anchors": ["src/reader.rs: read_utf8_buffered, read_utf8_char_unbuffered, push_char"]}
{"id": "C03", "title": "Token stream does not depend on buffer boundaries", "statement": "For an input that decodes successfully, the result of every call to Scanner::scan (token, marks, or error) depends only on the decoded text, not on how the reader chunks the bytes.", "quantifier": "every valid input, every pair of chunkings, every number of scan calls", "why_tests_cant": "depends on lookahead requested at each of hundreds of peek sites meeting a refill boundary; tests read from one slice", "anchors": ["src/scanner.rs: Scanner::scan, cache and all fetch_*/scan_* functions", "src/reader.rs"]}
{"id": "C04", "title": "Events and documents do not depend on buffer boundaries", "statement": "For an input that decodes successfully, the sequence of results of Parser::parse and of Document::load depends only on the decoded text.", "quantifier": "every valid input, every pair of chunkings, every number of calls up to and including the first error", "why_tests_cant": "same as C03, through the parser and the loader", "anchors": ["src/parser.rs: Parser::parse", "src/document.rs: Document::load"]}
{"id": "C05", "title": "Encoding detection", "statement": "A UTF-8 byte order mark is consumed and never appears in the text, 0xFF 0xFE and 0xFE 0xFF select UTF-16, an empty input is an empty stream, and any other input is taken as UTF-8 with no byte dropped.", "quantifier": "every byte string", "why_tests_cant": "the first bytes range over all of U+0000..U+10FFFF; one lead byte (0xEF) behaves differently", "anchors": ["src/reader.rs: yaml_parser_determine_encoding"]}
{"id": "C06", "title": "UTF-16 input reaches the scanner unchanged", "statement": "If the input is a UTF-16 byte order mark followed by the UTF-16 encoding of an allowed text, reading to the end succeeds and delivers exactly that text.", "quantifier": "every text and every chunking", "why_tests_cant": "the test suite contains no UTF-16 input at all", "anchors": ["src/reader.rs: read_utf16_buffered, read_utf16_char_unbuffered"]}
{"id": "C07", "title": "Scanner::scan never panics", "statement": "Calling Scanner::scan repeatedly on any input never panics: every failure is reported as an Err.", "quantifier": "every input text and every number of scan calls up to the first error", "why_tests_cant": "panic sites (unwrap, expect, indexing, VecDeque::insert, assert) are guarded by invariants over all reachable scanner states", "anchors": ["src/scanner.rs: Scanner::scan, fetch_next_token, fetch_value, roll_indent, unroll_indent, skip_char, read_char, read_line_break, scan_tag, scan_flow_scalar, scan_block_scalar"]}
{"id": "C08", "title": "Scanning and parsing terminate", "statement": "Every call to Scanner::scan or Parser::parse on a finite input returns; and a bounded number of calls (linear in the input length) reaches the stream end or an error.", "quantifier": "every finite input; calls up to and including the first that returns an error", "why_tests_cant": "non-termination cannot be observed by a finite test, and the loops interact with a token queue and simple-key bookkeeping", "anchors": ["src/scanner.rs: fetch_more_tokens, scan_* loops", "src/parser.rs: parse_document_start, process_directives"]}
{"id": "C09", "title": "Token stream framing", "statement": "The first token is StreamStart; StreamStart occurs only there; StreamEnd is the last token, and once it has been returned every later scan returns StreamEnd and the iterator returns None.", "quantifier": "every input and every number of calls", "why_tests_cant": "history property over unbounded call sequences", "anchors": ["src/scanner.rs: Scanner::scan, Iterator for Scanner, fetch_stream_start, fetch_stream_end"]}
{"id": "C10", "title": "Marks are true positions in the input", "statement": "Every mark of a token or error produced by the scanner is the position (byte index, zero-based line, zero-based column, with CR LF as one line break) reached after some prefix of the decoded input; only the marks taken at end of input may instead be placed at column 0 of the following line.", "quantifier": "every input, every token and every scanner error", "why_tests_cant": "off-by-one errors in mark maintenance are spread over all scanning functions", "anchors": ["src/scanner.rs: skip_char, skip_line_break, read_char, read_line_break", "src/error.rs: Mark"]}
{"id": "C11", "title": "Marks never go backwards", "statement": "For every token start_mark <= end_mark, and start marks are non-decreasing along the token stream (comparing index, and line/column lexicographically).", "quantifier": "every input and every pair of consecutive tokens", "why_tests_cant": "retroactive insertion of Key and BlockMappingStart tokens could break order for particular nestings only", "anchors": ["src/scanner.rs: fetch_value, roll_indent, save_simple_key"]}
{"id": "C12", "title": "Block collection tokens nest", "statement": "In every prefix of the token stream the number of BlockEnd tokens never exceeds the number of BlockSequenceStart and BlockMappingStart tokens, and a token stream that ends while no flow collection is open contains equally many of both.", "quantifier": "every input", "why_tests_cant": "indentation stack invariants hold over all nestings", "anchors": ["src/scanner.rs: roll_indent, unroll_indent"]}
{"id": "C13", "title": "Implicit keys are single-line and bounded", "statement": "Whenever the scanner turns an already scanned token into a mapping key by inserting a Key token, the ':' that triggered it is on the same line as the key and at most 1024 bytes after its start.", "quantifier": "every input", "why_tests_cant": "the bound involves every possible interleaving of staleness checks and token fetches", "anchors": ["src/scanner.rs: stale_simple_keys, fetch_value, save_simple_key"]}
{"id": "C14", "title": "Double-quoted escapes decode as specified", "statement": "In a double-quoted scalar each of the single-character escapes and each \\xHH, \\uHHHH and \\UHHHHHHHH escape denotes exactly the character the YAML specification assigns; escapes for surrogates or values above U+10FFFF are errors; any other escape character is an error.", "quantifier": "every escape and all 2^32 code values, in any context", "why_tests_cant": "the code space is too large to enumerate through the scanner", "anchors": ["src/scanner.rs: scan_flow_scalar"]}
{"id": "C15", "title": "%YAML version numbers", "statement": "A version number of one to nine decimal digits is read as its exact decimal value without overflow; longer numbers are rejected; documents declaring a version other than 1.1 or 1.2 are rejected.", "quantifier": "every digit string", "why_tests_cant": "overflow boundary", "anchors": ["src/scanner.rs: scan_version_directive_number", "src/parser.rs: process_directives"]}
{"id": "C16", "title": "Events follow the YAML event grammar", "statement": "The events returned by successive Parser::parse calls always form a prefix of a sentence of: stream ::= StreamStart document* StreamEnd; document ::= DocumentStart node DocumentEnd; node ::= Alias | Scalar | SequenceStart node* SequenceEnd | MappingStart (node node)* MappingEnd; and when StreamEnd has been returned they form a complete sentence.", "quantifier": "every input (indeed every token sequence) and every number of parse calls", "why_tests_cant": "unbounded nesting depth and unbounded token sequences", "anchors": ["src/parser.rs: Parser::parse, state_machine and all parse_* functions"]}
{"id": "C17", "title": "Parser::parse never panics", "statement": "Apart from panics of the scanner, Parser::parse never panics on any input up to and including the call that returns the first error.", "quantifier": "every input and every number of calls up to the first error", "why_tests_cant": "the unwraps on the state and mark stacks rely on an invariant of the pushdown automaton", "anchors": ["src/parser.rs: state_machine, parse_*"]}
{"id": "C18", "title": "Tag shorthands resolve to the right tag", "statement": "A node's event carries no tag if it has no tag property; the verbatim tag for !<...>; and for a shorthand, the prefix declared for its handle in the same document (or the default prefix of ! and !!) followed by the suffix; an undeclared handle is an error.", "quantifier": "every document, handle, suffix and set of %TAG directives", "why_tests_cant": "the lookup must be right for every list of directives", "anchors": ["src/parser.rs: parse_node, process_directives, ParserInner::append_tag_directive"]}
{"id": "C19", "title": "Directives are scoped to one document", "statement": "Tag directives of one document are never visible in another document of the same stream; a repeated %YAML or a repeated %TAG handle within one document is an error; the DocumentStart event lists exactly the document's %TAG directives in order.", "quantifier": "every stream of documents", "why_tests_cant": "history property over all documents of a stream", "anchors": ["src/parser.rs: process_directives, parse_document_end, append_tag_directive"]}
{"id": "C20", "title": "End of stream is sticky", "statement": "Once Parser::parse has returned StreamEnd it returns StreamEnd forever and consumes no more input, and the iterator returns None forever.", "quantifier": "every input and every number of further calls", "why_tests_cant": "history property", "anchors": ["src/parser.rs: Parser::parse, Iterator for Parser"]}
{"id": "C21", "title": "Loaded documents are well formed", "statement": "Every Document returned by Document::load refers only to existing nodes: every sequence item and every mapping key and value is an id between 1 and the number of nodes, every mapping pair has both key and value, the root is node 1, every node carries a tag.", "quantifier": "every input and every load call", "why_tests_cant": "unbounded graphs", "anchors": ["src/document.rs: Document::load, load_nodes, load_node_add"]}
{"id": "C22", "title": "Loading composes exactly the event tree", "statement": "The Document built from the events of a document is the one obtained by numbering the non-alias nodes in document order: each node keeps its tag (or the default tag), value, style and children in order, and an alias is replaced by the id of the node carrying its anchor.", "quantifier": "every event tree", "why_tests_cant": "the loader is iterative with an explicit stack; unbounded depth and width", "anchors": ["src/document.rs: load_nodes, load_scalar, load_sequence, load_mapping, load_alias, load_node_add"]}
{"id": "C23", "title": "Anchors and aliases", "statement": "An alias resolves to the node with that anchor defined earlier in the same document; an alias with no such anchor and a second definition of the same anchor are Composer errors; anchors never carry over to the next document.", "quantifier": "every stream of documents", "why_tests_cant": "history property over documents and anchors", "anchors": ["src/document.rs: register_anchor, load_alias, Document::load", "src/parser.rs: ParserInner::delete_aliases"]}
{"id": "C24", "title": "Document::load never panics beyond parsing", "statement": "Apart from panics of the scanner, Document::load never panics on any input up to the first error, and it returns an empty document exactly when the stream has ended.", "quantifier": "every input, every number of load calls", "why_tests_cant": "panics are guarded by the event grammar", "anchors": ["src/document.rs: Document::load, load_document, load_nodes, load_sequence_end, load_mapping_end"]}
{"id": "C25", "title": "Document building API keeps documents well formed", "statement": "add_scalar, add_sequence and add_mapping return the id of the new last node and never disturb existing nodes; append_sequence_item and yaml_document_append_mapping_pair either panic on an invalid argument, leaving the document unchanged, or append exactly that reference; so any sequence of calls yields a document whose references are all valid; get_node(id) returns the node exactly for valid ids.", "quantifier": "every sequence of API calls", "why_tests_cant": "history property", "anchors": ["src/document.rs: Document::new, add_scalar, add_sequence, add_mapping, append_sequence_item, yaml_document_append_mapping_pair, get_node"]}
{"id": "C26", "title": "Emitter accepts exactly the event grammar", "statement": "Emitter::emit accepts every event sequence of the event grammar whose anchors, tags, directives and implicit flags are valid, and rejects with an Emitter error (not a panic) any sequence at the first processed event that leaves the grammar.", "quantifier": "every event sequence", "why_tests_cant": "unbounded nesting and look-ahead queue", "anchors": ["src/emitter.rs: emit, needs_mode_events, state_machine, emit_*"]}
{"id": "C27", "title": "Emitter::emit never panics", "statement": "With an output set, Emitter::emit never panics on any event sequence up to the first error.", "quantifier": "every event sequence and every configuration", "why_tests_cant": "stack unwraps, string slicing at byte offsets, digit conversions", "anchors": ["src/emitter.rs: emit, analyze_tag, analyze_tag_directive, write_block_scalar_hints, emit_*"]}
{"id": "C28", "title": "Buffering never changes the output", "statement": "The bytes delivered to the writer followed by the bytes still buffered are always exactly the encoding of all characters emitted so far in order; after StreamEnd (or DocumentEnd) has been processed nothing remains buffered.", "quantifier": "every event sequence, every configuration, every output length relative to the 16 KiB buffer", "why_tests_cant": "buffer boundary positions are unbounded", "anchors": ["src/emitter.rs: flush, flush_if_needed, put, put_break, write_str, write_char, write_break"]}
{"id": "C29", "title": "A failing writer sees only a prefix", "statement": "If the writer fails at any byte, emit returns an I/O error and the bytes accepted so far are a prefix of the bytes a non-failing writer would have received.", "quantifier": "every event sequence and every failure point", "why_tests_cant": "crash-point property", "anchors": ["src/emitter.rs: flush, emit"]}
{"id": "C30", "title": "Double-quoted scalars round-trip", "statement": "For every string and every emitter configuration (width, indent, line break, unicode), scanning the text written for a double-quoted scalar yields exactly that string.", "quantifier": "every string of Unicode scalar values, every configuration, every starting column and indentation", "why_tests_cant": "line folding interacts with spaces, escapes and width at unbounded positions", "anchors": ["src/emitter.rs: write_double_quoted_scalar", "src/scanner.rs: scan_flow_scalar"]}
{"id": "C31", "title": "Single-quoted scalars round-trip", "statement": "For every string the emitter allows in single-quoted style and every configuration, scanning the text written for it yields exactly that string.", "quantifier": "every string classified as single-quotable, every configuration", "why_tests_cant": "as C30", "anchors": ["src/emitter.rs: analyze_scalar, write_single_quoted_scalar", "src/scanner.rs: scan_flow_scalar"]}
{"id": "C32", "title": "Plain scalars round-trip", "statement": "For every string the emitter allows in plain style in the given (block or flow) context, the text written for it starts a plain scalar for the scanner and is scanned back as exactly that string.", "quantifier": "every string classified as plain-allowed, every configuration and context", "why_tests_cant": "the indicator analysis must be exactly complementary to the scanner's rules", "anchors": ["src/emitter.rs: analyze_scalar, write_plain_scalar", "src/scanner.rs: fetch_next_token, scan_plain_scalar"]}
{"id": "C33", "title": "Literal block scalars round-trip", "statement": "For every string the emitter allows in literal style, the text written (header with indentation and chomping hints, and body) is scanned back as exactly that string.", "quantifier": "every string classified as block-allowed, every configuration", "why_tests_cant": "leading/trailing breaks and spaces interact with hints", "anchors": ["src/emitter.rs: write_literal_scalar, write_block_scalar_hints", "src/scanner.rs: scan_block_scalar, scan_block_scalar_breaks"]}
{"id": "C34", "title": "Folded block scalars round-trip", "statement": "For every string the emitter allows in folded style, the text written is scanned back as exactly that string.", "quantifier": "every string classified as block-allowed, every configuration", "why_tests_cant": "as C33, plus folding", "anchors": ["src/emitter.rs: write_folded_scalar", "src/scanner.rs: scan_block_scalar"]}
{"id": "C35", "title": "Without unicode the output is ASCII", "statement": "With set_unicode(false), every character produced by the emitter (other than a UTF-16 byte order mark) is ASCII.", "quantifier": "every event sequence and configuration", "why_tests_cant": "all styles, tags, anchors and directives must cooperate", "anchors": ["src/emitter.rs: analyze_scalar, write_*"]}
{"id": "C36", "title": "Emitted text is acceptable input", "statement": "Every character the emitter produces is one that the reader accepts (no control characters or non-characters).", "quantifier": "every event sequence and configuration", "why_tests_cant": "as C35", "anchors": ["src/emitter.rs: analyze_scalar, write_*", "src/reader.rs: push_char"]}
{"id": "C37", "title": "Output encoding", "statement": "UTF-8 output is the UTF-8 encoding of the emitted characters; UTF-16 output is a byte order mark followed by the UTF-16 encoding in the selected byte order; a UTF-8 stream carries no byte order mark.", "quantifier": "every output text", "why_tests_cant": "surrogate pairs, buffer boundaries", "anchors": ["src/emitter.rs: flush, write_bom, emit_stream_start"]}
{"id": "C38", "title": "Emitted tags resolve back", "statement": "The tag text written for a node (handle and escaped suffix, or verbatim) resolves, under the document's directives, to the tag the event carried.", "quantifier": "every tag and every set of directives", "why_tests_cant": "prefix selection and percent-escaping over all Unicode", "anchors": ["src/emitter.rs: analyze_tag, process_tag, write_tag_content, write_tag_handle", "src/scanner.rs: scan_tag, scan_tag_uri, scan_uri_escapes", "src/parser.rs: parse_node"]}
{"id": "C39", "title": "Dumping a document emits its nodes", "statement": "Document::dump of a well-formed document emits a grammatical event sequence in which every node reachable from the root is emitted once in full, later occurrences are aliases to an anchor that was emitted with the node, and it never panics.", "quantifier": "every well-formed document graph", "why_tests_cant": "sharing and cycles", "anchors": ["src/document.rs: dump, anchor_node, dump_node", "src/emitter.rs: anchor_node_sub, generate_anchor"]}
{"id": "C40", "title": "Emitted anchors are valid names", "statement": "emit rejects any anchor or alias that is empty or contains a character other than ASCII letters, digits, '_' and '-', and every accepted anchor is scanned back as the same anchor.", "quantifier": "every anchor string", "why_tests_cant": "all strings", "anchors": ["src/emitter.rs: analyze_anchor, write_anchor", "src/scanner.rs: scan_anchor", "src/macros.rs: is_alpha"]}
{"id": "C41", "title": "Error reporting", "statement": "kind, problem, context, problem_mark and context_mark report what the error was built with: marks exist exactly for scanner, parser and composer errors, a context exists exactly when it is non-empty, and displayed positions are the mark plus one.", "quantifier": "every error value", "why_tests_cant": "all marks", "anchors": ["src/error.rs: Error, Mark Display"]}
{"id": "C42", "title": "reset restores a fresh object", "statement": "After Scanner::reset, Parser::reset or Emitter::reset the object behaves exactly like a newly created one, whatever happened before.", "quantifier": "every history", "why_tests_cant": "history property: any field could leak", "anchors": ["src/scanner.rs: Scanner::reset", "src/parser.rs: Parser::reset", "src/emitter.rs: Emitter::reset"]}
{"id": "C43", "title": "Emitter settings are normalised", "statement": "Whatever values are passed to set_indent and set_width, once the stream has started the indentation step is between 2 and 9 and the line width is positive and larger than twice the indentation or unlimited, as long as settings are not changed after the stream start.", "quantifier": "all i32 arguments", "why_tests_cant": "integer ranges", "anchors": ["src/emitter.rs: set_indent, set_width, emit_stream_start"]}
{"id": "C44", "title": "Emit-then-parse returns the same events", "statement": "Parsing the text emitted for a grammatical event sequence yields the same events (up to styles and marks).", "quantifier": "every event sequence", "why_tests_cant": "unbounded trees, all styles", "anchors": ["src/emitter.rs", "src/scanner.rs", "src/parser.rs"]}
{"id": "C45", "title": "Repeated calls after an error do not panic", "statement": "After Scanner::scan, Parser::parse or Document::load has returned an Err, calling it again returns (Ok or Err) without panicking.", "quantifier": "every input and every number of further calls", "why_tests_cant": "error paths leave the stacks in intermediate states", "anchors": ["src/parser.rs: parse_block_sequence_entry, parse_block_mapping_key, parse_flow_sequence_entry, parse_flow_mapping_key", "src/scanner.rs"]}
{"id": "C46", "title": "Events say exactly what the tokens say", "statement": "The events returned by Parser::parse are made from consecutive shares of the tokens a scanner returns for the same input: each event carries exactly the anchor, tag, alias, scalar value and style, directives and implicit flags of its share; nothing is lost, duplicated or reordered, and the only additions are empty plain scalars for omitted nodes.", "quantifier": "every input and every number of parse calls", "why_tests_cant": "must hold for every token sequence and nesting", "anchors": ["src/parser.rs: parse_node, process_empty_scalar, parse_document_start, parse_document_end"]}
{"id": "C47", "title": "The parser accepts every token stream of the YAML grammar", "statement": "If the tokens Scanner::scan returns for an input form a stream of the YAML token grammar (documents, block and flow collections at any nesting depth, indentless sequences, anchors and tags in either order, empty nodes, single-pair mappings, %YAML and %TAG directives), then Parser::parse over the same input returns exactly the events that stream stands for, with tags resolved by the document's directives, and never an error or a panic.", "quantifier": "all inputs, chunkings and encodings whose tokens derive from the grammar, all nesting depths and lengths", "why_tests_cant": "The grammar is infinite; each construct can be nested in every other and followed by every permitted token, and tests can only sample some combinations.", "anchors": ["src/parser.rs: Parser::parse, state_machine, parse_node, parse_block_sequence_entry, parse_indentless_sequence_entry, parse_block_mapping_key, parse_block_mapping_value, parse_flow_sequence_entry*, parse_flow_mapping_key, parse_flow_mapping_value, parse_document_start, parse_document_content, parse_document_end, process_directives"]}
{"id": "C48", "title": "load returns every document that parse returns", "statement": "If Parser::parse would return all events of a document in which every alias has its anchor before it and no anchor is used twice, then Document::load returns exactly the document these events denote and leaves the parser behind it; if parse would return the end of the stream, load returns a document without nodes; so loading again and again returns all documents of a stream in order.", "quantifier": "every input, chunking, encoding and number of load calls", "why_tests_cant": "must hold for every tree of events and every history of calls", "anchors": ["src/document.rs: load, load_document, load_nodes, register_anchor, load_node_add, load_alias, load_scalar, load_sequence, load_mapping", "src/parser.rs: Parser::parse"]}
{"id": "C49", "title": "Dump-then-load returns copies of the documents", "statement": "Dumping a list of well-formed documents to a new emitter and loading the bytes that were written returns the same number of documents, each a copy of the one dumped: the nodes reachable from the root, each once, with the same kind, content, tag and references (renumbered), and the same directives; styles and marks may differ.", "quantifier": "every list of document graphs (sharing and cycles included), every emitter configuration, every chunking of the output", "why_tests_cant": "unbounded graphs and texts; composition of dumper, emitter, scanner, parser and loader", "anchors": ["src/document.rs: dump, load", "src/emitter.rs", "src/scanner.rs", "src/parser.rs"]}
{"id": "C50", "title": "Tokens and events of any input have valid contents", "statement": "Every token Scanner::scan returns has valid contents: anchor and alias names are non-empty words of letters, digits, _ and -, tag directives have a handle (!, !! or !word!) and a non-empty prefix, tags have a non-empty suffix and no or a valid handle, version numbers are below 10^9, plain scalars are not empty. Every event Parser::parse returns is one that Emitter::emit has to accept: valid names, non-empty tags, a tag or an implicit flag, valid directives, a version 1.1 or 1.2; and the root of a document started without --- is never an empty plain scalar without anchor and tag.", "quantifier": "all inputs, chunkings, encodings, number of calls, including inputs that fail later", "why_tests_cant": "ranges over all inputs; the checks are spread over many scanner and parser functions", "anchors": ["src/scanner.rs: scan_anchor, scan_tag, scan_tag_handle, scan_tag_uri, scan_directive, scan_version_directive_number, scan_plain_scalar", "src/parser.rs: parse_node, process_empty_scalar, process_directives, parse_document_start"]}
{"id": "C51", "title": "What was parsed can be emitted and parsed again", "statement": "When Parser::parse has returned a whole stream, an Emitter with any configuration accepts all its events, and parsing the bytes it wrote returns, without an error, events that say the same one by one (tags, anchors, values, kinds, directives; styles may differ).", "quantifier": "all inputs that parse without an error, all emitter configurations, all deliveries of the output", "why_tests_cant": "unbounded inputs; composition of scanner, parser, emitter, scanner, parser", "anchors": ["src/parser.rs: Parser::parse", "src/emitter.rs: Emitter::emit", "src/scanner.rs: Scanner::scan"]}
{"id": "C52", "title": "Loaded documents can be dumped and loaded again", "statement": "Documents returned by Document::load can be passed to dump, in any selection and order, with any emitter configuration; dump succeeds, and loading the bytes written returns the same documents: the same nodes under the same numbers, with the same kind, content, tag and references, and the same directives; only styles and marks may differ.", "quantifier": "all inputs, all documents loaded from them, all selections, emitter configurations and deliveries", "why_tests_cant": "unbounded inputs and graphs; composition of scanner, parser, loader, dumper, emitter, scanner, parser, loader", "anchors": ["src/document.rs: load, dump", "src/parser.rs", "src/emitter.rs", "src/scanner.rs"]}
{"id": "C53", "title": "The tokens are the text", "statement": "The tokens returned by Scanner::scan, in order, cover the input text: the text consists of separating text (blanks, line breaks, comments, byte order marks at line starts) and the texts of the tokens, and nothing else. Each token's start and end mark delimit a piece of text that is spelled the way its kind is spelled, and that denotes exactly the value, name, handle, suffix, version or prefix the token carries (escapes, line folding, chomping, indentation, percent escapes included). Inferred tokens (stream start/end, block collection start/end, implicit keys) have no text. Events of Parser::parse say only what such tokens say.", "quantifier": "all inputs, encodings, deliveries, all lengths of call histories", "why_tests_cant": "unbounded inputs; a token with a wrong value, a piece of text that is skipped or read twice, only shows for particular texts", "anchors": ["src/scanner.rs: fetch_next_token, scan_to_next_token, scan_directive, scan_anchor, scan_tag, scan_block_scalar, scan_flow_scalar, scan_plain_scalar", "src/parser.rs: Parser::parse"]}
{"id": "C54", "title": "Block structure follows the layout", "statement": "In the token stream, a block collection starts at the position of its first entry or key, strictly to the right of the collection it is in; all its entries and keys are at that column; no other token in it is to the left of that column; it ends exactly where the first token to the left of it starts, or at a directive, document marker or the end of the stream, which close all of them; inside flow collections there is no block structure.", "quantifier": "all inputs, encodings, deliveries, all lengths of call histories", "why_tests_cant": "unbounded nesting and layout", "anchors": ["src/scanner.rs: roll_indent, unroll_indent, fetch_value, fetch_key, fetch_block_entry, fetch_next_token, save_simple_key"]}
{"id": "C55", "title": "The parser accepts only the YAML token grammar", "statement": "Whenever Parser::parse returns events up to StreamEnd, the tokens that Scanner::scan returns for the same input are a stream of the YAML grammar over tokens, and the events are exactly those the stream stands for; anything else is rejected with an error. A token stream stands for one list of events only.", "quantifier": "all inputs, encodings, deliveries, all lengths of streams and depths of nesting", "why_tests_cant": "infinitely many ill-formed token streams", "anchors": ["src/parser.rs: state_machine and all parse_* functions, parse_flow_sequence_entry_mapping_key"]}
{"id": "C56", "title": "JSON texts are read as what they denote", "statement": "A JSON text (RFC 8259) is parsed without error; numbers and the literals true, false, null become plain scalars with their text, strings become double-quoted scalars with the value they denote, arrays and objects become flow sequences and mappings with their items and members in order; Document::load returns one document whose root represents the value, then the empty document. The texts are those that YAML 1.1 and the library's limits admit: no tabs outside the outermost brackets, a member's name and its colon on one line of at most 1024 bytes, no escaped surrogates, no characters YAML forbids, and U+0085, U+2028, U+2029 in strings only escaped; each of these limits is needed.", "quantifier": "all JSON texts within the limits, of any nesting and size (input below 2^31 bytes), all ways to deliver the UTF-8 bytes in pieces, with or without byte order mark", "why_tests_cant": "infinitely many texts, nestings and chunkings", "anchors": ["src/scanner.rs: scan_flow_scalar, scan_plain_scalar, fetch_flow_*, fetch_value, save_simple_key", "src/parser.rs: parse_flow_*, parse_node", "src/document.rs: Document::load"]}
{"id": "C57", "title": "YAML texts are read as what they denote", "statement": "A text formed by the rules of YAML (directives, explicit and implicit documents, comments, block and flow collections, simple and explicit keys, anchors, aliases, tags, scalars of all five styles; rules of indentation, of columns and of what may follow what) is parsed without error into exactly the events it denotes; a text denotes at most one sequence of events; and if in every document aliases come after their anchors and no anchor is defined twice, Document::load returns the documents one after the other and then the empty document. Comments and the amount of white space do not matter except where the rules mention columns. Left out of the rules (no claim): flow collections as simple keys, the properties of one node on several lines, ':' without a key, byte order marks within the text, shorthand tags with ,[] in flow context.", "quantifier": "all texts of the grammar, of any nesting and size (input below 2^31 bytes), UTF-8 in any pieces with or without byte order mark, UTF-16 of either byte order byte by byte", "why_tests_cant": "infinitely many texts, nestings, layouts and chunkings; ambiguity is a question about all pairs of readings", "anchors": ["src/scanner.rs: fetch_next_token, scan_to_next_token, roll_indent, unroll_indent, save_simple_key, stale_simple_keys, fetch_*, scan_*", "src/parser.rs: parse_*, process_directives", "src/document.rs: Document::load"]}
{"id": "C58", "title": "Events and parser errors point to the right places", "statement": "The start and end marks of every event that Parser::parse returns are those of the tokens it was made from: a scalar or the start of a collection reaches from its first property (anchor or tag), if any, to the end of the scalar or of the token that opens the collection; aliases, closing brackets, stream and document markers have the marks of their token; an explicit document start reaches from the first directive to the end of '---'; omitted nodes are an empty span right after the indicator before them or right before the token that follows; implicit ends are at the token that follows. So all marks are positions in the text (index, line and column agree), no event ends before it starts, start marks never go backwards, tokens do not overlap, and the text before the end mark of a scalar event spells its value. The problem mark of a parser error is the start of a token of the input, its context mark (if there is a context) the start of this or an earlier token.", "quantifier": "all inputs in all encodings and chunkings, all histories of calls before the stream end or the first error", "why_tests_cant": "marks are computed from lookahead tokens and a stack of marks; wrong ones show only for particular combinations of properties, omitted nodes and nesting", "anchors": ["src/parser.rs: parse_node, parse_document_start, parse_document_end, parse_block_*, parse_flow_*, parse_indentless_sequence_entry, process_empty_scalar, process_directives", "src/event.rs: Event::start_mark, Event::end_mark", "src/error.rs: ErrorInner::Parser"]}
{"id": "C59", "title": "The choice of line breaks is invisible", "statement": "Two YAML texts that become equal when every CR LF, every other CR and every NEL (U+0085) is replaced by LF give the same results: Scanner::scan the same tokens, Parser::parse the same events and Document::load the same documents, with the same values (a break inside a scalar is an LF in the value) and the same lines and columns, and if reading ends with an error, the same error at the same line and column (or the same panic). Only the index of marks depends on the choice.", "quantifier": "all pairs of texts of allowed characters with the same lines, breaks chosen at each place independently; all encodings and chunkings; any number of calls up to the first error", "why_tests_cant": "every place where the scanner looks at, skips or copies a break handles four kinds of break separately (two of them multi-byte or two characters wide, with lookahead); a test fixes one combination", "anchors": ["src/macros.rs: is_break, is_crlf (and friends)", "src/scanner.rs: skip_line_break, read_line_break, scan_to_next_token, scan_block_scalar, scan_flow_scalar, scan_plain_scalar, stale_simple_keys", "src/parser.rs: Parser::parse", "src/document.rs: Document::load"]}
{"id": "C60", "title": "Nothing leaks from one document into the next", "statement": "After Document::load (or Parser::parse) has returned a document that was ended by an explicit `...` with only blanks and a comment behind it on its line, all further results are those that a new parser gives for the text below that line alone, with lines counted further: neither %TAG or %YAML directives, anchors, open collections, indentation, pending simple keys nor any error state of the documents before has an influence. The same holds for the tokens of Scanner::scan.", "quantifier": "all texts of allowed characters, all histories of successful calls that end with such a document end, all encodings and chunkings of the whole and of the rest (chosen independently), any number of further calls up to the first failure", "why_tests_cant": "the state that could leak (indents, simple keys, queued tokens, flow level, directive and alias tables, states, buffered input) is the product of an arbitrary history; a test fixes one first document", "anchors": ["src/scanner.rs: fetch_document_indicator, unroll_indent, remove_simple_key, increase_flow_level, decrease_flow_level", "src/parser.rs: parse_document_start, parse_document_end, process_directives", "src/document.rs: Document::load, delete_aliases"]}
{"id": "C61", "title": "A finished document is returned on time", "statement": "Once a source has delivered a text in which a document is ended by an explicit `...` and one more character has arrived behind it, Document::load (Parser::parse, Scanner::scan) returns that document (its end event, its token) and reads nothing further: whatever the source would deliver next (more text, garbage, an I/O failure, nothing yet) has no influence on the results so far and is still unread afterwards.", "quantifier": "all texts of allowed characters, all histories of successful calls that end with an explicit document end, all encodings and chunkings, all continuations of the source (arbitrary further pieces and failures)", "why_tests_cant": "the scanner looks ahead (document indicators, simple keys, caches of several characters); that it never asks for a character it does not need must hold after every history and before every continuation, and a test fixes both", "anchors": ["src/scanner.rs: cache, fetch_next_token, fetch_more_tokens, fetch_document_indicator, scan, peek", "src/reader.rs: read_more / update_buffer", "src/parser.rs: parse_document_end", "src/document.rs: Document::load"]}
{"id": "C62", "title": "set_break changes only the line breaks", "statement": "Two emitters with the same encoding and settings, except that one was given set_break(LF) and the other CR or CRLF, accept exactly the same event sequences with the same result for every call of emit, and at every moment the text produced by the second is the text of the first with every LF replaced by the chosen break: indentation, folding, quoting, choice of style and everything else is the same. If the LF output is UTF-8 without CR, both outputs are parsed to the same events at the same lines and columns.", "quantifier": "all encodings, all lists of settings, all event sequences (grammatical or not), all writers (results: writers that do not fail), calls of flush anywhere in between, all chunkings when reading back", "why_tests_cant": "every writing function tracks columns, whitespace and indentation around a break; that none of this depends on the break that was written must hold for every event sequence, width and indentation", "anchors": ["src/emitter.rs: set_break, put_break, write_break, write_indent, emit, yaml_emitter_write_literal_scalar, write_folded_scalar"]}
{"id": "C63", "title": "The setters: last call wins, unusable values become defaults", "statement": "What an emitter does depends on the calls of set_canonical, set_indent, set_width, set_unicode and set_break only through the settings in force: of each setter the last call counts, in whatever order the setters are called; an indent outside 2..=9 is the default 2, a negative width means no limit, a width of at most two indentation levels is 80 (also when set_width is called before set_indent), and the default break is LF. Two emitters with the same settings in force give the same result for every sequence of calls and write the same bytes.", "quantifier": "all lists of setter calls with all argument values, all encodings, all event sequences (grammatical or not), flushes in between, all writers including failing ones", "why_tests_cant": "infinitely many argument values and call orders; that nothing of the raw values is used before they are normalised at StreamStart must hold for every event sequence and every writer", "anchors": ["src/emitter.rs: set_canonical, set_indent, set_width, set_unicode, set_break, emit_stream_start, emit"]}
{"id": "C64", "title": "The encoding changes only the bytes", "statement": "An emitter set to UTF-16 (LE or BE) and one set to UTF-8 with the same settings accept the same event sequences with the same results, and produce the same text: the UTF-16 output is a byte order mark followed by the text of the UTF-8 output, re-encoded. No column, line break, style or escape depends on the encoding.", "quantifier": "both UTF-16 encodings, all settings, all event sequences (for the text: that begin with StreamStart), flushes in between, all writers (results: that do not fail)", "why_tests_cant": "the byte order mark is written before column tracking starts and buffers are flushed at different places; that this never influences folding or indentation must hold for all event sequences", "anchors": ["src/emitter.rs: set_encoding, emit_stream_start, write_bom, flush, flush_if_needed, write_str"]}
{"id": "C65", "title": "Reading errors name the culprit", "statement": "If reading a UTF-8 stream fails - taking characters, Scanner::scan, Parser::parse or Document::load, the first error of a run - then the error is one about the text (scanner, parser, composer), or it has the cause it names: 'control characters are not allowed' means that at the reported offset, behind the encoding of a text of allowed characters, there is a character that is not allowed, and the value is its code; 'invalid UTF-8' that at the offset no character begins, the value being the byte there; 'invalid byte order marker' that the stream begins like a byte order mark and is not one; 'input is too long' that 2^63-1 bytes were read; an I/O error is one the source reported, or an unexpected end within a character or byte order mark. Conversely the first forbidden character, or the first bytes that are no character, of a source without I/O errors are reported, with the same offset and value however the bytes are cut into chunks, as soon as more characters are asked for than there are in front of them (for malformed bytes that end sooner than their first byte announces, an unexpected end of input may be reported instead).", "quantifier": "all byte sources (contents, chunk sizes, interruptions, I/O errors), all sequences of requests, all runs of scan, parse and load up to their first error; encoding set to UTF-8 or found out", "why_tests_cant": "all byte sequences and all ways of cutting them; the offset depends on everything read before", "anchors": ["src/reader.rs: yaml_parser_update_buffer, yaml_parser_determine_encoding, read_utf8_buffered, read_utf8_char_unbuffered, push_char", "src/error.rs: Error::reader, Display", "src/scanner.rs: Scanner::cache, Scanner::scan", "src/parser.rs: Parser::parse", "src/document.rs: Document::load"]}
{"id": "C66", "title": "An error while reading spoils nothing", "statement": "If the input breaks off - the source fails at some point, or in a UTF-8 stream there are bytes that are no character, or a character that is not allowed - then up to that error Scanner::scan, Parser::parse and Document::load return what they return for any text of which the part before may be the beginning: the same tokens, events and documents, and the same errors about YAML; the first result that differs is an error of reading. And the end is never reported: none of the tokens or events returned is a stream end, no document is the empty one that means that there are no more.", "quantifier": "all sources that fail somewhere, all texts and all ways of going on; all numbers of calls", "why_tests_cant": "all inputs, all places where they may break off, and all continuations; how much is read ahead of what is returned depends on everything before", "anchors": ["src/reader.rs: yaml_parser_update_buffer, yaml_parser_determine_encoding", "src/scanner.rs: Scanner::cache, Scanner::scan", "src/parser.rs: Parser::parse", "src/document.rs: Document::load"]}
{"id": "C67", "title": "The iterators yield what the calls return", "statement": "Iterating over a Scanner or a Parser is calling scan or parse: each call of next gives Some of what the call would have returned, Ok or Err, and leaves the same object, or it gives None where the call would return a stream end without reading or changing anything. The stream end itself is yielded, once: next gives None exactly if a stream end has been returned before - for a scanner whatever errors there were, for a parser as long as there was none - and after None always None. So the items met in a loop that stops at the first error are the results of the calls up to the first error or the stream end.", "quantifier": "all inputs, all numbers of calls, all histories of calls (for the scanner with errors); the first and last parts for scanners and parsers in any state", "why_tests_cant": "history property: all inputs and all points at which iteration starts", "anchors": ["src/scanner.rs: Iterator for Scanner", "src/parser.rs: Iterator for Parser, FusedIterator for Parser", "src/scanner.rs: Scanner::scan", "src/parser.rs: Parser::parse"]}
{"id": "C68", "title": "set_unicode is about non-ASCII scalars only", "statement": "If the values of all scalar events are ASCII, then it makes no difference whether and with which argument set_unicode was called: for the same events - also ungrammatical ones, also with calls of flush between them - and the same writer - also one that fails - every call of emit returns the same, and the writer receives the same bytes at the same calls. (Anchors, tags and directives may contain other characters.) The same holds for dumping documents whose scalars are ASCII, whether or not they can be dumped.", "quantifier": "all encodings, all other settings, all writers with all failures, all sequences of events with ASCII scalar values, all sequences of documents with ASCII scalar values", "why_tests_cant": "relates two runs of the emitter, over all settings, styles and event sequences", "anchors": ["src/emitter.rs: Emitter::set_unicode", "src/emitter.rs: Emitter::analyze_scalar", "src/emitter.rs: Emitter::write_double_quoted_scalar", "src/emitter.rs: Emitter::emit"]}
