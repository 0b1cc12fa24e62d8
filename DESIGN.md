# Formal model of libyaml-safer in Lean 4 — design

## Layers of the model (all under `lean/Verif/`)

| Lean module | models | idea |
|---|---|---|
| `Basic`, `Chars` | `lib.rs`, `error.rs`, `token.rs`, `event.rs`, `macros.rs` | plain data and character predicates |
| `Utf`  | `core::str::from_utf8`, `char::decode_utf16`, `encode_utf8/16` (std, trusted reading) | decoders with *incomplete* vs *invalid* |
| `Reader` | `reader.rs` | the byte source is a list of buffer refills (`data`, `intr`, `fail`); BOM detection, UTF-8/UTF-16 decoding, `yaml_parser_update_buffer` |
| `Prog` | – | programs as trees over the four things the scanner does to its input: `cache n`, `buffer.get(i)`, `pop_front`, read `encoding`.  A scanner function is a Lean function `State → tree of (outcome × State)`; outcomes are `ok`, `err`, `panic`, `fuel` |
| `Scanner` | `scanner.rs` | every `fetch_*`/`scan_*` function, line by line, in that monad |
| `Parser` | `parser.rs` | every `parse_*` function as a tree over `peek`/`skip`/`take` of tokens |
| `Document` | `document.rs` | node table, building API, loader, dumper |
| `Emitter` | `emitter.rs` | every `emit_*`/`write_*`/`analyze_*` function as a state function with explicit error and panic outcomes |

`&mut self` functions return the new state; `Result` stays data; every
`unwrap`/`expect`/`assert!`/`unreachable!`/indexing that could panic is an explicit
`panic` outcome.  Loops carry a step budget (`fuel`); running out is an explicit
outcome `fuel`, and the theorems state that it does not occur once the budget exceeds
a bound computed from the input length.

Two interpreters exist for scanner programs.
* **A (bytes)**: the real reader over a chunked byte source.
* **B (text)**: the remaining decoded text plus a counter `cached` of how many
  characters the code is *entitled* to look at; looking further is the explicit outcome
  `uncached`.  One induction over program trees shows A and B agree whenever B never
  reports `uncached`; the scanner safety proof shows it never does.  This is what makes
  "for every chunking" a theorem instead of forty relational proofs.

## How each property is to be proved

* C01, C02, C05, C06: induction over the chunk list about the `Reader` model.  C05 (lead
  byte 0xEF) and C06 (UTF-16) are expected to be *false of the code*: negation by witness plus a partial theorem.
* C03, C04: the A/B simulation, instantiated for two chunkings of the same text.
* C07, C08, C09, C12, C13: one inductive scanner invariant (indent stack, simple-key stack,
  token queue numbering, `cached` discipline, consumption measure) preserved by each function.
  C07 is false of the code (three input-reachable panics); the theorem names exactly those panic sites.
* C10, C11: relation `Adv` (consumption step) threaded through the same proof; independent spec `markOf`.
* C14, C15: symbolic execution of the escape / number loop, against a table/positional spec.
* C16, C17: completion language of (state, stack); each step emits a derivative.  Holds for all token answers.
* C18, C19: list-source interpretation of the parser against a lookup spec.
* C20: state-machine lemma.
* C21–C24: loader over the event grammar against a recursive composition spec.
* C25: invariant over sequences of API operations.
* C26, C27: as C16 for the emitter automaton.
* C28, C29, C37: invariant "written ++ encode buffer = encode emitted" with a failing sink.
* C30–C34: symbolic execution of writer and scanner by induction on the string.  C34 is false of the code
  (off-by-one look-ahead in `write_folded_scalar`): negation by witness plus partial theorem.
  `Props/Folds` says exactly which strings come back (an equivalence, by induction on the string with the value
  that is read carried along): `Spec/Folds.lean` has the two conditions, on line feeds and on the width.
* C35, C36: predicate on every character pushed.
* C38: prefix spec; percent-escapes of non-ASCII are false of the code: witness + partial.
* C39: dump against a graph traversal spec; false of the code for sharing below depth one: witness + partial.
* C40–C43: direct.
* C44: the emitter's run is cut into the events processed with the queue behind each (`Lib/Round21`); by induction over
  the event tree (`Lib/Round5`–`Round20`), each node's text is read by the scanner, in the indentation and flow context
  it was written in, as tokens that derive the same events in the token grammar of C47; C47 and the reader theorems
  finish.  False of the code as stated (lost empty first document, folded look-ahead, tag suffixes): witnesses + partial.
* C45: false of the code (mark stack underflow after an error): witness.
* C46, C47: the parser over a token list; induction over a token grammar (`Spec/TokenGrammar`).
* C48: the loader's weakest precondition (C22, C23) and determinism of `parse` exclude every other result.
* C49: C39 (events dumped), C44 (events read back), composition respects "say the same" (`Lib/DumpLoad`), C48.
* C50: contents checks (`lexData`) carried by the scanner's lexical rules through queue and history (`Lib/Run`, `Fit`); events via C46.
* C51: C50 + C16 give the hypotheses of C26 and C44; the first document is never lost by `C50_implicit_root`.
* C52: loaded documents meet `Dumpable` (C21, C50); they are dumped in the order of their numbers (`compose_walks`), so the copy of C49 is the same document; without aliases nothing is shared (`compose_once`).
* C55: each call of `parse` refines a transition table over tokens (Lib/Trans–Trans3, partial correctness); by strong
  induction on the events an accepting run of the table derives its events in the token grammar (Trans4). False as stated
  (`[?]]`); the grammar with that one deviation is exactly the language accepted.
* C56: JSON texts (`Spec/Json.lean`) are lexed with the lexeme calculus made for C44 (`Lib/Lexeme*`, `Lib/Json*`: the gaps may
  contain tabs inside flow collections); their tokens derive the events in the token grammar, C47 does the rest; `load` by C48.
* C57: the grammar of YAML texts (`Spec/Yaml.lean`; character by character, with places for the columns) is read in one induction
  over the mutual derivations: `Lib/YamlLex` (white space and comments are what the scanner skips), `YamlKey` (simple keys, whose KEY
  token the scanner inserts afterwards), `YamlFlow`, `YamlBlock` (indentation: BLOCK-…-START and BLOCK-END tokens), `YamlDocs`. Each
  lemma gives the tokens fetched (`Runs`) and their derivation in the token grammar of C47; `runs_yaml` puts both together and C47/C48 give
  events and documents. Uniqueness follows since the parser is a function.
* C58: `Placed` (`Spec/EventMarks.lean`) gives the marks of an event in terms of its share of tokens and the tokens to come. A weakest-precondition
  pass over every parser function (`Lib/Spans*.lean`) yields it for one call, with the stack of marks as part of the invariant for error contexts;
  order and positions follow from C10, C11 and the tiling of C53 (a token that is not empty ends at a true position: `Hist.wide`).
* C59: a simulation. `Yaml.Tw` (`Lib/Twin.lean` to `Twin8.lean`) relates two runs of every scanner function over texts that
  differ only in line breaks (and, for C60, in the line they are at): equal states up to the index of marks. The relation of tokens carries over to every parser function and
  to the loader. The statement compares result lists after setting the index of all marks to 0.
* C60: the same simulation with a shift of lines. `Lib/Docs.lean`–`Docs3.lean`: right behind a `...` the scanner's indents, simple keys and queue are those of a
  new scanner (an invariant over histories), so that after the rest of the line both scan related tokens. `Docs4`: the first `parse` there and the second of a new
  parser are related, likewise `load`; `Docs5`, `DocsDepth`: after the event of an explicit document end the parser is in one fixed state, and the scanner has no
  flow collection open (the parser never has fewer open than the scanner, by the table of transitions of C55). `Docs6` puts them together; C59's simulation does the rest.
* C61: `Lib/Need.lean`: a run that did not meet the end of the source does the same over a longer source (`exec_plus`: induction over the program tree, with the
  clean-reader invariant). `Lib/Ahead.lean`: rules that count how far a scanner function caches beyond the current position (at most four characters, exactly three and
  the character behind for a document indicator), up to `reads_not_ended`. `Ahead2`/`Ahead3`: the scanner inside a parser is one called for exactly the tokens the parser
  took, plus the one it peeked; none is peeked right behind an explicit document end. `Spec/OnTime.lean` has the two notions of the statement.
* C62: `Spec/WithBreak.lean` replaces LF in a text. `Lib/EmitBreak.lean`, `EmitBreak2.lean`: for each function of the emitter, run beside itself from the state with the other
  break and over the text with the breaks replaced (`BF`): same result, states again equal up to the break, text again the replaced one; C28 carries this over to the buffered
  emitter. The invariant also says that no tag handle contains LF, so every raw LF comes from `put_break`.
* C63: `Spec/Settings.lean` computes the settings in force. `Lib/Settings.lean`: until `emit_stream_start` normalises them, the raw values are not read and nothing is
  written (`TR`: the two program trees are the same, or both already at a leaf with states that normalise alike).
* C64: `Lib/EmitEnc.lean`, `EmitEnc2.lean`: as for C62, with the encoding instead of the break and `BOM ++ text` instead of the replaced text; before the stream begins (`PF`)
  nothing is written.
* C65: `Spec/Culprit.lean` says what can be wrong with bytes. An invariant of the reader (`Trk`: the bytes are the encoding of what was delivered
  and what is buffered, followed by the rest; the offset counts the former) is kept by successful refills, and every failing path of the reader
  violates the text at the offset (Lib/Culprit, Culprit2). Scanner, parser and composer hand failures on (`Honest`: a type class with instances for every
  method, Lib/Honest, Honest2). The converse: the first bad place is unique (`FirstBad`), so the only causes left are those of the theorem.
* C66: `Spec/BreaksOff.lean` says when a source breaks off and which texts it may have begun. A relational invariant (`Half`): one scanner over a source that delivers a
  beginning of the text and then fails, one over the text, with the same state; a program that asks for its look-ahead (C03) and hands errors on (`Honest`, C65) ends with a
  reading error or does the same on both (Lib/Half). The tokens of the first are a prefix of those of the second, and parser and composer are functions of the tokens (Lib/Half2). That
  the end is not reported: over two texts that both begin so, it would be in two places (Lib/Half4, with C53).
* C67: `next` as a program is that of `scan`/`parse` with its result wrapped (`some_catch`, `handle_item`), unless the end flag is set; the flag is set exactly
  by returning the stream end (scanner: `Idle`/`SDone` after any results; parser: the invariant `PInv` of successful calls).
* C68: `Lib/EmitUni.lean`, `EmitUni2.lean`: the programs of the emitter from two states that differ in `unicode` are the same trees of operations (`Sim`: same operations,
  for every answer the same continuation, results that differ only in `unicode`), by going through all functions; the setting is read in `analyze_scalar` and
  `write_double_quoted_scalar` only, and there it does not matter for an ASCII character. The same operations on the same buffers and writer give the same bytes (`sim_exec`). For documents:
  the functions of the dumper run from two such objects, with the node table's scalars ASCII as the invariant (`BD`, `AsciiNodes`).
* C53, C54: `Spec/Lexemes.lean` says what separates tokens, how each kind is spelled and what the layout asks for. The lexical functions
  are proved sound for it in partial-correctness form (`wpC`, Lib/Part, Snd–Snd4), the fetch functions attach the spelling to each token
  (Lib/Fetch), and the invariant `TInv` (Lib/Tile–Tile5, Tight) carries the tiling through `scan`: implicit keys, which are put into
  the queue later, need that the tokens behind the candidate still tile when a mapping starts in front of them (`KOk`).

## Trusted base

* Lean 4.33.0's kernel (every theorem is replayed by it; no `native_decide`, no `bv_decide`, no
  own axioms, nothing left open).
* Axioms: each theorem listed in MANIFEST.json depends on a subset of `propext`, `Classical.choice`, `Quot.sound`,
  Lean's three standard axioms.  `axioms.txt` gives the set for every listed theorem (output of `#print axioms`).
* The reading of Rust into the model, i.e. that each definition in `lean/Verif/{Basic,Chars,Utf,Prog,Reader,Scanner,
  Parser,Document,Emitter,Dumper,Api,EmitApi,Lifecycle}.lean` does what the cited lines of `/repo/src` do.  This is a
  human reading; nothing was compiled.  Definitions cite file and lines.
* The reading of the Rust standard library into `Utf.lean` and `Reader.lean`: `core::str::from_utf8` (with
  `error_len`), `char::decode_utf16`, `char::from_u32`, `encode_utf8`/`encode_utf16`, `char::to_digit`,
  `BufRead::fill_buf`/`consume`, `Read::read`/`read_exact`, `Write::write_all`, `VecDeque`/`Vec` operations.

### Modelled
* `macros.rs`, `token.rs`, `event.rs`, `lib.rs` (types and constants), `error.rs` (all accessors and `Display`);
* `reader.rs`: all functions, over a source that is a list of refills (data / interrupted / failed), any chunking;
* `scanner.rs`: all functions (fetch, scan, indentation and simple-key bookkeeping, `Iterator` interface, input set-up);
* `parser.rs`: all functions (state machine, tag directives, document start/end, `Iterator` interface, `reset`);
* `document.rs`: node table, building and reading API, loader, `anchor_node`, dumper;
* `emitter.rs`: all functions (state machine, analysis, writers, output buffering, UTF-8/UTF-16 output, failing sinks,
  configuration setters, lifecycle `open`/`close`/`reset`).

### Not modelled
* memory allocation, capacity, running time, recursion depth, `Drop`, `Debug` output, `unsafe` soundness of
  `from_utf8_unchecked` (its precondition is proved);
* integer widths: `i32`/`u64`/`usize` are unbounded in the model, except where the code itself checks a bound
  (`roll_indent`'s `i32::MAX` assertion, `get_node(0)` underflow, decimal version numbers);
* a `BufRead`/`Write` implementation that violates its contract; panics inside user callbacks;
* the test programs in `src/bin` and the test suite.

### How the pieces fit
`Prog`/`M`: a scanner/parser/emitter function is a tree of requests to the layer below.  It is run against
(A) the byte-level reader, (B) decoded text with an entitlement counter (`stepB`), (T) plain decoded text (`stepT`),
or (L) a fixed list of tokens (`stepL`).  Simulation theorems connect the interpreters, so properties proved about
the convenient one hold of the object the user calls.  `wp` is a weakest-precondition calculus over these trees with
separate post-conditions for success, error and panic.

Independent specifications live in `Spec/`; each is small and does not mention the model's functions (grammar of event
streams, token grammar, quoted/plain/block scalar text, marks, composition of documents, output text, …).
