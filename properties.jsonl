{"id": "C01", "title": "Interval tree behaves as a multimap", "statement": "After any sequence of insert/remove calls on a fresh IntervalTree, get(k) returns Some(values inserted under k since its last removal, in insertion order) if there is at least one such value, and None otherwise; is_empty/contains agree with it.", "quantifier": "every finite history of insert/remove operations, every key type with a total order, every value", "why_tests_cant": "the set of histories and tree shapes is infinite; rebalancing bugs appear only for particular shapes", "anchors": ["crates/interval-tree/src/tree.rs: IntervalTree::insert/remove/get/contains/is_empty", "crates/interval-tree/src/node.rs: Node::insert/delete/search_pair"]}
{"id": "C02", "title": "Interval tree never panics and stays balanced", "statement": "In every reachable tree no operation hits `unreachable!()` or `expect(\"Avl broken\")`, and the reported height h satisfies fib(h+2)-1 <= number of distinct keys, hence h is logarithmic in the number of keys.", "quantifier": "every history of insert/remove", "why_tests_cant": "the panic branches depend on balance invariants over all tree shapes", "anchors": ["crates/interval-tree/src/node.rs: rotate_if_necessary, rotate_left/right(_successor), updated_node, combine_two_subtrees", "crates/interval-tree/src/tree.rs: height"]}
{"id": "C03", "title": "Range queries return exactly the intersecting entries", "statement": "range(a..=b) yields, in ascending key order and insertion order within a key, exactly the stored (key,value) pairs whose key k satisfies k.end >= a and k.start <= b, each exactly once.", "quantifier": "every reachable tree and every query range, including inverted ranges", "why_tests_cant": "pruning by cached max is only right if the augmentation invariant holds in every reachable tree", "anchors": ["crates/interval-tree/src/iterators.rs: RangePairIter", "crates/interval-tree/src/tree.rs: range"]}
{"id": "C04", "title": "Full iteration is sorted and complete", "statement": "iter() and into_iter() yield every stored (key,value) pair exactly once in ascending key order, values of one key in insertion order; min()/max() are the first/last key; merge(other) has the effect of inserting other's pairs in that order.", "quantifier": "every reachable tree", "why_tests_cant": "iteration is an explicit stack machine over arbitrary tree shapes", "anchors": ["crates/interval-tree/src/iterators.rs: RangePairIter, IntoIter", "crates/interval-tree/src/tree.rs: iter, into_iter, min, max, merge"]}
{"id": "C05", "title": "Annotation lookups by location are exact", "statement": "After any sequence of AnnotationTree::insert(a..b, x), get_location(loc) yields exactly the annotations whose stored range satisfies a.start <= loc and loc <= its stored end (the location just before b) or the cursor stands immediately after it, each once, in order; nothing else is returned.", "quantifier": "all insertion sequences, all locations", "why_tests_cant": "depends on the interval tree plus Location predecessor arithmetic for all locations", "anchors": ["crates/dreammaker/src/annotation.rs: AnnotationTree", "crates/dreammaker/src/error.rs: Location::pred"]}
{"id": "C06", "title": "Location order is source order and pred is the predecessor", "statement": "Location comparison is the lexicographic order on (file,line,column) and pred(l) is the greatest representable location strictly below l, for every l except the two minimal/builtin ones; it panics only at file 0 line 0 column 0.", "quantifier": "all Location values (u16,u32,u16)", "why_tests_cant": "2^64 values", "anchors": ["crates/dreammaker/src/error.rs: Location, Location::pred"]}
{"id": "C07", "title": "File ids are stable", "statement": "FileList::register returns the same id for the same path and distinct ids for distinct paths, get_path(register(p)) = p, and later registrations never change earlier answers, as long as fewer than 0xfffe files are registered.", "quantifier": "all histories of register/get_path", "why_tests_cant": "quantifies over all histories of registrations; the boundary is at 65534 files", "anchors": ["crates/dreammaker/src/error.rs: FileList::register, get_id, get_path"]}
{"id": "C08", "title": "Diagnostics configuration decides what is reported", "statement": "An error is registered iff its configured severity (if any override for its type) is not disabled and the (possibly overridden) severity is at least as severe as the error level; its severity field is the override.", "quantifier": "all configs, all diagnostics", "why_tests_cant": "all combinations of overrides and levels over unbounded histories", "anchors": ["crates/dreammaker/src/config.rs: Config::set_configured_severity, registerable_error", "crates/dreammaker/src/error.rs: Context::register_error"]}
{"id": "C09", "title": "Dictionary keys round-trip", "statement": "Parsing the text of a formatted map key gives back the key, distinct keys have distinct texts of the same width, and every key that FormatKey prints at width n is shorter than 52^n.", "quantifier": "every 16-bit key and every width 1..3", "why_tests_cant": "base-52 carry and boundary behaviour for all keys and widths", "anchors": ["crates/dmm-tools/src/dmm.rs: FormatKey, base_52_reverse, advance_key", "crates/dmm-tools/src/dmm/read.rs: parse_map"]}
{"id": "C10", "title": "Saving picks a sufficient key width", "statement": "After adjust_key_length (called on save) every dictionary key fits its printed width, so the save never panics on a key.", "quantifier": "every dictionary", "why_tests_cant": "boundary at 52 and 2704 keys over all dictionaries", "anchors": ["crates/dmm-tools/src/dmm.rs: Map::adjust_key_length, to_file"]}
{"id": "C11", "title": "Map coordinates convert without loss", "statement": "Coord3::from_raw and to_raw are mutually inverse on in-bounds coordinates, in-bounds tests accept exactly 1..=dim in each axis, and to_raw panics outside.", "quantifier": "all coordinates and all map dimensions", "why_tests_cant": "unbounded dimensions", "anchors": ["crates/dmm-tools/src/dmm.rs: Coord2, Coord3"]}
{"id": "C12", "title": "TGM save then load is the identity on maps", "statement": "Writing any well-formed map with the TGM writer and reading the text back with the DMM reader produces the same dictionary, grid, dimensions and key length.", "quantifier": "all maps of all sizes with all dictionary contents in the writer's safe alphabet", "why_tests_cant": "round trip over unbounded maps", "anchors": ["crates/dmm-tools/src/dmm/save_tgm.rs: save_tgm", "crates/dmm-tools/src/dmm/read.rs: parse_map"]}
{"id": "C13", "title": "Map reader is total and reports malformed maps as errors", "statement": "If the map reader returns a map, the grid dimensions equal the largest coordinates covered by the grid blocks, every tile carries the key written for it in the text, and keys are unique in the dictionary. The reader does not check that tile keys occur in the dictionary, and it panics on some malformed texts: both are stated and proved as disagreements with the documentation.", "quantifier": "all byte strings", "why_tests_cant": "all inputs", "anchors": ["crates/dmm-tools/src/dmm/read.rs: parse_map"]}
{"id": "C14", "title": "Indentation becomes balanced braces", "statement": "For every token stream the indentation processor's output (through EOF) has balanced braces for every indentation-opened block, contains no newline/tab/space tokens, and keeps the other tokens in order.", "quantifier": "all token streams", "why_tests_cant": "all streams of all lengths and nestings", "anchors": ["crates/dreammaker/src/indents.rs: IndentProcessor"]}
{"id": "C15", "title": "Indentation depth equals brace depth", "statement": "For consistently indented input, each logical line's tokens appear in the output at brace depth equal to its indentation level.", "quantifier": "all consistently indented programs", "why_tests_cant": "unbounded nesting depth", "anchors": ["crates/dreammaker/src/indents.rs: IndentProcessor"]}
{"id": "C16", "title": "Lexer punctuation is longest match", "statement": "Tokenizing any file (within the u32/u16 location limits) consumes it completely: each token spans a contiguous piece of text, punctuation tokens are the longest symbol of the symbol table that is a prefix of the remaining text, and the pieces between tokens are white space and comments only.", "quantifier": "all inputs", "why_tests_cant": "all inputs against the table", "anchors": ["crates/dreammaker/src/lexer.rs: read_punct, PUNCT_TABLE, SPEEDY_TABLE"]}
{"id": "C17", "title": "Lexer locations are exact", "statement": "The location attached to each token equals the (line,column) obtained by counting newlines and bytes from the start of the file up to the token's first byte, and token locations never decrease.", "quantifier": "all byte streams (below the 65535 column and 2^32 line limits)", "why_tests_cant": "all inputs", "anchors": ["crates/dreammaker/src/lexer.rs: LocationTracker"]}
{"id": "C18", "title": "Block comments nest", "statement": "A block comment ends at the end of the shortest text that contains one more `*/` than it contains `/*`; it is reported as unterminated (at end of file) iff there is no such text. When delimiters do not touch each other this is the closer matching the opener by nesting.", "quantifier": "all inputs", "why_tests_cant": "unbounded nesting", "anchors": ["crates/dreammaker/src/lexer.rs: skip_block_comments"]}
{"id": "C19", "title": "Quoted strings read back", "statement": "For every string that is well escaped (all contents of ordinary string literals are) lexing the quoted form produced by the Quote formatter yields a single string token with exactly these contents and no diagnostic, whatever follows. Raw-string contents outside that class are shown not to survive.", "quantifier": "all strings in the supported alphabet", "why_tests_cant": "all strings", "anchors": ["crates/dreammaker/src/lexer.rs: Quote, read_string"]}
{"id": "C20", "title": "Macro scope follows define/undef order", "statement": "The preprocessor's define map behaves as a stack per name: lookups return the most recent un-removed definition, remove returns it and reveals the previous one.", "quantifier": "all histories of insert/remove", "why_tests_cant": "all histories", "anchors": ["crates/dreammaker/src/preprocessor.rs: DefineMap"]}
{"id": "C21", "title": "Conditional compilation selects exactly one branch", "statement": "In an #if/#ifdef/#ifndef ... #elif ... #else ... #endif chain at an active nesting level exactly the tokens of the first branch whose condition is true are delivered (macro-expanded; the else branch if none; nothing if there is neither), up to newline tokens; no directive of another branch is executed, and afterwards the nesting level is restored; text inside an inactive outer region delivers only newlines and executes nothing. Conditions ending in the bare name of a function-like macro are shown to be read differently (they swallow the next line).", "quantifier": "all nestings and all chains", "why_tests_cant": "unbounded nesting and chain length", "anchors": ["crates/dreammaker/src/preprocessor.rs: Ifdef, is_disabled, real_preprocess/evaluate"]}
{"id": "C22", "title": "Preprocessing ends; expansion depth is bounded", "statement": "Whatever macros and includes an environment contains (recursive ones included), preprocessing it ends after finitely many tokens unless a `#pragma multiple` is executed; a macro is never expanded with more than 32 files and expansions below it, and without `#pragma multiple` no file is included twice. A file that executes `#pragma multiple` and includes itself is shown never to end.", "quantifier": "all programs", "why_tests_cant": "recursion through arbitrary include graphs", "anchors": ["crates/dreammaker/src/preprocessor.rs: MAX_RECURSION_DEPTH, IncludeStack"]}
{"id": "C23", "title": "Document sync applies edits exactly", "statement": "Applying an LSP change event whose range is ordered and names existing lines replaces exactly the text between the two positions (columns in UTF-16 units) by the new text; after any sequence of valid events the server's copy equals the client's. A column past the end of its line is shown to reach into the next line, a lone CR not to end a line, and a reversed range to panic.", "quantifier": "all texts, all valid edit sequences", "why_tests_cant": "all edit histories over all Unicode texts", "anchors": ["crates/dm-langserver/src/document.rs: Document::change, total_offset, line_offset"]}
{"id": "C24", "title": "Offset to position inverts position to offset", "statement": "For every text and every position on an existing line with a column that falls between characters, converting to a byte offset (always a character boundary) and back gives the same position, and conversely.", "quantifier": "all texts, all positions", "why_tests_cant": "all Unicode texts", "anchors": ["crates/dm-langserver/src/document.rs: total_offset, offset_to_position"]}
{"id": "C25", "title": "JSON-RPC framing round-trips", "statement": "For every sequence of messages written with the frame writer, by any number of writers each writing whole frames, the frame reader yields exactly these messages in order and then ends; whatever the reader accepts it accepts as a framed message. A Content-Type header (allowed by the protocol) is shown to break framing.", "quantifier": "all message sequences", "why_tests_cant": "all payloads including ones containing header-like text", "anchors": ["crates/dm-langserver/src/jrpc_io.rs: write, read"]}
{"id": "C26", "title": "Document store versions", "statement": "The document store refuses changes and closes for documents that are not open and changes older than the stored version, leaving everything as it was; an accepted change sets the version, versions of an open document never decrease, and other documents are not touched. (Opening an open document is shown to replace it silently.)", "quantifier": "all histories of open/change/close", "why_tests_cant": "all histories", "anchors": ["crates/dm-langserver/src/document.rs: DocumentStore"]}
{"id": "C27", "title": "Undo and redo are inverse", "statement": "In the editor's history, after any sequence of edits, undos, redos, saves and reloads the document is the snapshot belonging to the current place in the history tree; undo right after an edit restores what was before it, redo after undoing the first edit made at a place restores that edit; undo at the root and redo at a leaf do nothing. After undoing one edit and making and undoing another, redo is shown to bring back the older one.", "quantifier": "all histories", "why_tests_cant": "all interleavings of edits, undos, redos", "anchors": ["crates/spaceman-dmm/src/history.rs: History"]}
{"id": "C28", "title": "Dirty flag is exact", "statement": "is_dirty is false exactly when the current place in the history tree is the one last marked clean; can_undo and can_redo are exact.", "quantifier": "all histories", "why_tests_cant": "all histories", "anchors": ["crates/spaceman-dmm/src/history.rs: History::is_dirty, mark_clean"]}
{"id": "C29", "title": "Icon state offsets tile the sheet", "statement": "For every metadata text the parser accepts: states take consecutive ranges of sprite indices in declaration order starting at 0, each of directions*frames sprites, so every sprite below the total belongs to exactly one state; the duplicate number is the number of earlier states of that name, and looking up (name, k) gives exactly the k-th state of that name and never panics. Every description in the form BYOND writes parses to exactly the states it describes, and if each has a delay per frame the offsets are the sums of the described directions*frames.", "quantifier": "all metadata texts; all descriptions (any number of states)", "why_tests_cant": "all texts and all lists of states", "anchors": ["crates/dreammaker/src/dmi.rs: Metadata::parse_metadata, State::num_sprites"]}
{"id": "C30", "title": "Sprite rectangles are disjoint and inside the sheet", "statement": "In every parsed metadata, the k-th direction of frame f of a state is sprite offset+f*dirs+k, each sprite below the total is one (state, direction, frame), rectangles of different sprites share no pixel, and those of sprites within columns*rows of the sheet lie inside it; rect_of is exactly the rectangle of the named state's sprite and does not panic on a sheet at least one sprite wide.", "quantifier": "all metadata texts, sheet sizes, names, directions, frames", "why_tests_cant": "all dimensions", "anchors": ["crates/dreammaker/src/dmi.rs: Metadata::rect_of, State::index_of_dir, index_of_frame"]}
{"id": "C31", "title": "Direction algebra", "statement": "Directions agree with their geometry: offset, integer value, flips, eighth and quarter turns and containment are exactly those of the compass (with clockwise_90 of southwest shown to be wrong), from_int accepts exactly the eight values and inverts to_int.", "quantifier": "all directions and all compositions of operations", "why_tests_cant": "claims about all compositions", "anchors": ["crates/dreammaker/src/dmi.rs: Dir"]}
{"id": "C32", "title": "Alpha compositing", "statement": "Compositing a crop inside the source onto a place inside the destination never panics or overflows the alpha, blends exactly the pixels of the rectangle with the corresponding tinted source pixels, and leaves all others and the size unchanged. An opaque pixel replaces, a transparent one keeps a visible pixel, over an opaque pixel every channel is the weighted mean, and channels do not wrap when the remainder dropped from the alpha is less than it (they are shown to wrap otherwise).", "quantifier": "all pixels, images, crops, positions and tints", "why_tests_cant": "2^64 pixel pairs and all image sizes", "anchors": ["crates/dmm-tools/src/dmi.rs: Image::composite, composite_u8"]}
{"id": "C33", "title": "Type tree lookups follow paths", "statement": "After any registrations, and after parents are assigned: find(path) returns the type whose path is that string and nothing else; no two types share a path; registering more never changes a type's path, parent path or id; every non-root type's parent path is its own path minus the last component; lookups by components find the type with those components (the approximate lookup: the longest prefix that is a type); ispath tells whether one type is inside another; visiting recursively visits exactly the types inside, once each; navigating with '.' finds the nearest child up the path and with ':' finds a type of that name inside iff there is one. A component path starting with 'list' finds /list whatever follows.", "quantifier": "all sequences of registrations, all paths and names", "why_tests_cant": "all trees", "anchors": ["crates/dreammaker/src/objtree.rs: ObjectTreeBuilder::subtype_or_add, ObjectTree::find"]}
{"id": "C34", "title": "Variable and proc lookup is nearest-ancestor", "statement": "On any type with a finite chain of ancestors, get_value / get_var_declaration / get_proc / get_proc_declaration return what the nearest ancestor (itself first) that has it holds, and nothing when none does; following parent_proc visits every registered value on the chain once, per type the last first; what a type holds is determined by the registrations: procs hold declarations (latest first) before overrides in order, variables the last value in the code, else the first built-in. Disagreement: two types naming each other as parent_type are accepted, and lookups of a missing variable then never end.", "quantifier": "all sequences of registrations, all types with a finite chain, all names", "why_tests_cant": "all trees", "anchors": ["crates/dreammaker/src/objtree.rs: TypeRef::get_value, get_proc, get_var_declaration"]}
{"id": "C35", "title": "Parent types and subtype tests", "statement": "A nested type without parent_type inherits from the type it is inside; a top-level one from /datum; the built-in exceptions (/atom, /turf, /area, /obj, /mob, /client, /datum, /list, ...) have their fixed parents; parent_type overrides with the type named, falling back to the root. When nothing sets parent_type except to /datum every chain of ancestors is finite and ends at the root. is_subtype_of(a,b) holds iff b is on the chain of a; iterating parents lists the chain in order; visiting subtypes visits exactly the types with the type on their chain, once each.", "quantifier": "all sequences of registrations, all parent_type values, all types with a finite chain", "why_tests_cant": "all trees", "anchors": ["crates/dreammaker/src/objtree.rs: is_subtype_of, iter_parent_types"]}
{"id": "C36", "title": "Constant evaluation terminates and detects cycles", "statement": "Evaluating a variable's constant value always terminates: a variable whose definition refers to itself through any chain of variables, or leads to such a chain, gives an error; whenever evaluation gives a constant it is the value the definitions determine (unique, independent of what was evaluated before and in which order); a value once found is remembered and later evaluations return it without changing anything; a variable that has a value through const variables only is always found; evaluating everything finds all such values and reports an error for every variable that has none.", "quantifier": "all variable definition graphs, all orders of evaluation", "why_tests_cant": "all graphs and all orders", "anchors": ["crates/dreammaker/src/constants.rs: constant_ident_lookup"]}
{"id": "C37", "title": "Bitwise constant folding is 24-bit", "statement": "Folding the operators & | ^ << >> ~ on numbers gives the mathematical operation on the operands as unsigned 32-bit integers, reduced to the low 24 bits; shifts by 32 or more are errors; ~ is an involution on 0..2^24-1.", "quantifier": "all operands", "why_tests_cant": "2^64 pairs", "anchors": ["crates/dreammaker/src/constants.rs: ConstantFolder::binary"]}
{"id": "C38", "title": "Operator precedence", "statement": "Parsing a token stream as an expression always ends, without panic, with an expression, with no expression, or with a syntax error. An expression is returned without warning exactly when the tokens spell it in the layered grammar of the language: 15 levels from unary operators to `in \u2026 to`, left association inside a level, right association for assignments and `?:`. The grammar is unambiguous, so the tree is determined by the tokens. When what follows cannot continue an expression, exactly the expression's own tokens are consumed.", "quantifier": "all token streams of all lengths, and all expressions", "why_tests_cant": "There are infinitely many token streams; a test shows the tree for some operator chains, not that every chain is grouped by the precedence table, nor that no stream makes the recursive parser loop or panic.", "anchors": ["crates/dreammaker/src/parser.rs: expression_ex, expression_part, BINARY_OPS"]}
{"id": "C39", "title": "switch(rand()) coverage check is exact", "statement": "For `switch(rand(L, H))` with constant bounds and no `else`, the linter reports a missing value iff some whole number rand may give is matched by no case, and the reported value is the least such; it never panics when the numbers fit 32 bits. A case is reported as never triggering only if no number rand may give matches it, and every case of whole numbers outside the range is reported. With an else, or on any other expression, nothing is reported as missing.", "quantifier": "all bounds, all lists of cases (values and ranges, in any order, overlapping or not)", "why_tests_cant": "there are unboundedly many lists of ranges; the sweep over sorted ranges is right only by an invariant", "anchors": ["crates/dreamchecker/src/switch_rand_range.rs: check_switch_rand_range, get_case_range, get_rand_range"]}
{"id": "C40", "title": "Doc comment simplification keeps content", "statement": "Rendering doc comments never panics (in particular never slices inside a character). From every non-blank line of a comment one and the same prefix and suffix are removed, the longest that consist of ignorable characters (white space and the comment's own `*` or `/`); blank lines at the ends are dropped, others kept. Every other character is kept, in order, and a collection renders to nothing iff it is reported as empty.", "quantifier": "all collections of doc comments of both kinds, all texts", "why_tests_cant": "all texts of all alphabets, including characters of several bytes", "anchors": ["crates/dreammaker/src/docs.rs: DocCollection::text, DocCollection::is_empty, DocComment::is_empty, simplify"]}
{"id": "C41", "title": "Colour literals round-trip", "statement": "The colours reported for a document are exactly the leftmost non-overlapping colour texts (`\"#rgb\"`, `'#rrggbb'`, `rgb(r, g, b[, a])`, ...) with the colours they stand for. The text offered for any colour is found again as one colour, which is that colour; putting it in place of a colour in a document changes this colour only. A literal written by the formatter, and any hexadecimal literal up to the case of its digits, is offered unchanged for its own colour. A channel survives the trip to the editor and back as a 32-bit float.", "quantifier": "all documents, all colours, all formats, all places", "why_tests_cant": "2^32 colours times all documents around them", "anchors": ["crates/dm-langserver/src/color.rs: extract_colors, ColorFormat::parse, ColorFormat::format, COLOR_REGEX, parse_hex, parse_rgba", "crates/dm-langserver/src/main.rs: DocumentColor, ColorPresentationRequest"]}
{"id": "C42", "title": "Symbol search", "statement": "A workspace symbol search answers iff the query has a letter or digit (after `var/` or `proc/`, if given). The answer is exactly the defines, types (not the root), declared variables and declared procs asked for, each once and in order: names must begin with the query ignoring case and everything but letters and digits; a query with a slash finds types whose path contains it, ignoring case; `#`, `var/` and `proc/` restrict the kind. Searching for a name finds it.", "quantifier": "all queries, all object trees and define histories", "why_tests_cant": "all strings and trees", "anchors": ["crates/dm-langserver/src/symbol_search.rs: Query::parse, matches_*, starts_with, contains", "crates/dm-langserver/src/main.rs: WorkspaceSymbol"]}
{"id": "C43", "title": "Multi-branch macro history", "statement": "If all definitions and #undefs happen in location order, the define map cut from the finalized history at any location holds for every name exactly the definitions in force there. Across #include the order of locations is not the order of events, and the map cut at the start of an included file is shown to miss macros that are undefined later in the including file.", "quantifier": "all programs, all locations", "why_tests_cant": "all histories and locations", "anchors": ["crates/dreammaker/src/preprocessor.rs: branch_at_file, finalize"]}
{"id": "C44", "title": "Object-like macros expand by recursive substitution", "statement": "Text without directives, doc comments, interpolated strings and function-like macros is delivered with every object-like macro name replaced by its definition, recursively up to 32 nested expansions, every substituted token carrying the location of the use; __FILE__ and __LINE__ are replaced by path and line; nothing else about the preprocessor changes.", "quantifier": "all environments, define maps, token sequences and continuations", "why_tests_cant": "unbounded nesting of definitions and arbitrary token sequences", "anchors": ["crates/dreammaker/src/preprocessor.rs: Preprocessor::real_next, IncludeStack::next"]}
{"id": "C45", "title": "Reading an open document", "statement": "Reading an open document through the store gives exactly its bytes followed by end of file, whatever buffer sizes the reader uses.", "quantifier": "all documents and all sequences of buffer sizes", "why_tests_cant": "the sequence of buffer sizes is unbounded", "anchors": ["crates/dm-langserver/src/document.rs: Cursor, DocumentStore::read"]}
{"id": "C46", "title": "The renderer draws exactly the map", "statement": "After loading a map and after any session of placing, deleting, undo, redo and reloads: what is drawn on a level is exactly its live instances, each once, in sort-key order, with the right texture, and the tile menu lists exactly the instances of a tile front to back. Without reloads the vertices are right too (a reload is shown to leave the old ones); get_instance never returns a dead instance (but is shown to miss live ones).", "quantifier": "all maps, prefabs, render environments and sessions", "why_tests_cant": "sessions are unbounded, and the incremental draw call updates depend on the whole history", "anchors": ["crates/spaceman-dmm/src/map_repr.rs: AtomMap::add_instance, remove_instance, sort_again, index_buffer, iter_instances, get_instance"]}
{"id": "C47", "title": "Placing and deleting can be undone", "statement": "On maps with at most one turf and one area per tile, placing an atom (replacing the turf/area there) and deleting one never panic, and undoing them restores exactly the instances that were there, including the slots they are in, in whatever environment each runs. With two turfs on a tile, undoing a deletion is shown to lose the other turf.", "quantifier": "all maps, edits, environments", "why_tests_cant": "all edit sequences and slot reuse orders", "anchors": ["crates/spaceman-dmm/src/map_repr.rs: undo_add_instance, undo_remove_instance", "crates/spaceman-dmm/src/tools/place.rs: Place::drag", "crates/spaceman-dmm/src/editor.rs"]}
{"id": "C48", "title": "Loading and saving in the editor keep the map", "statement": "Loading never panics on a map whose keys are defined and gives exactly the file's instances in order; saving after any session, against any base map and in any hash order, gives the same size and on every non-empty tile exactly the instances that stand there in slot order; a tile with a unique key in the base map keeps it; saving succeeds if the keys suffice. An emptied tile is shown to be saved with another tile's contents.", "quantifier": "all maps, sessions, base maps and hash iteration orders", "why_tests_cant": "hash iteration order and edit history are unbounded", "anchors": ["crates/spaceman-dmm/src/map_repr.rs: AtomMap::new, AtomMap::save"]}
{"id": "C49", "title": "Rendering an icon state", "statement": "Rendering an icon state of a file whose sheet has room for its sprites gives one image per frame in order, then in reverse order if the state rewinds; each shows all directions side by side in sheet order, pixel by pixel as in the sheet (fully transparent pixels lose their colour). Looking up a name that does not exist is an error, never a panic.", "quantifier": "all sheets, metadata, states, frames, pixels", "why_tests_cant": "all images and all state layouts", "anchors": ["crates/dmm-tools/src/dmi/render.rs: render_to_images, render_frames, render_dirs, ordered_dirs", "crates/dmm-tools/src/dmi.rs: composite, rect_of_index"]}
{"id": "C50", "title": "Symbol ids are distinct", "statement": "After any registrations, no two types, variable declarations or proc declarations of the object tree share a symbol id.", "quantifier": "all sequences of registrations", "why_tests_cant": "all histories of registrations and re-declarations", "anchors": ["crates/dreammaker/src/objtree.rs: SymbolIdSource, subtype_or_add, declare_var, register_var, register_proc"]}
{"id": "C51", "title": "rgb() constants", "statement": "rgb(r, g, b) and rgb(r, g, b, a) with components 0..255 fold to the string # followed by two hex digits per component that spell it; a component out of range is an error; every result is # and six or eight digits; with three components besides the space keyword it never panics.", "quantifier": "all argument lists", "why_tests_cant": "2^32 argument tuples and all keyword combinations", "anchors": ["crates/dreammaker/src/constants.rs: color_args"]}
{"id": "C52", "title": "Whole-number constant arithmetic is exact", "statement": "For whole-number operands of magnitude at most 2^24, folding + - * and the comparisons gives exactly the mathematical result as long as it also has magnitude at most 2^24; such constants are equal iff the numbers are.", "quantifier": "all whole numbers of magnitude at most 2^24 and all arithmetic operators", "why_tests_cant": "2^50 operand pairs per operator", "anchors": ["crates/dreammaker/src/constants.rs: ConstantFolder::binary, unary, to_int"]}
{"id": "C53", "title": "Equality and hashing of constants and prefabs agree", "statement": "Equality of NaN-free constants is an equivalence relation; equal constants feed identical data to any hasher whatever the insertion order of their variables; two prefabs are equal iff they have the same path and equal values under the same names.", "quantifier": "all constants and prefabs of any nesting", "why_tests_cant": "all nested values and insertion orders", "anchors": ["crates/dreammaker/src/constants.rs: Constant PartialEq, Hash, Pop", "crates/dreammaker/src/dmm.rs: Prefab PartialEq, Hash"]}
{"id": "C54", "title": "Constant expressions mean what DM's rules say", "statement": "The value found for a variable is the one its defining expression has by the rules of the language: names stand for their own values, ?: picks a branch by truthiness, && and || give one of their operands, == compares, + joins strings, prefabs and lists keep their arguments and the last of several assignments to a variable; and by those rules an expression has at most one value.", "quantifier": "all expressions of any nesting, all variable environments", "why_tests_cant": "all expression trees", "anchors": ["crates/dreammaker/src/constants.rs: ConstantFolder::expr, term, follow, arguments, vars, binary, unary"]}
{"id": "C55", "title": "Truthiness analysis is sound", "statement": "When the linter's is_truthy says an expression is always true (always false) and the expression has a constant value, then that value is true (false) at run time.", "quantifier": "all expressions", "why_tests_cant": "all expression trees", "anchors": ["crates/dreammaker/src/ast.rs: Expression::is_truthy, Term::is_truthy", "crates/dreammaker/src/constants.rs: Constant::to_bool"]}
{"id": "C56", "title": "The should_not_sleep check reports only true chains, each sleeper once, and misses none that is outermost", "statement": "For every program: each must_not_sleep report about a callee names a proc with the directive, a chain of synchronous calls (with dispatch to overrides at or below the receiver type only) from it to the sleeping proc exactly as listed, through no detached, exempt, sleeping or itself checked proc; a sleeping proc is reported at most once; a sleeper reached by calls as written from a proc with the directive that no other such proc waits for is always reported, and with overrides included if a proc is always dispatched alike. Disagreements: a proc with the directive called by an earlier such proc is never checked; a proc first called exactly hides its overrides from a later virtual call.", "quantifier": "every call graph, type tree, set of directives, receivers and order of the procs with the directive", "why_tests_cant": "the call graph may be of any size and shape, cyclic included; the tests check a handful of small files", "anchors": ["crates/dreamchecker/src/lib.rs: check_proc_call_tree, CallEdge, CallStack", "crates/dreammaker/src/objtree.rs: ProcRef::recurse_children_within"]}
{"id": "C57", "title": "The should_be_pure check is exact", "statement": "For every program, the impure procs reported for a proc with should_be_pure are exactly those reachable from it by calls; the impure overrides reported are exactly the recorded overrides of the reached pure procs, less those that cannot apply to the own type; recorded overrides are exactly the impure procs overriding the proc at any distance, New excepted; nothing is reported twice; the stack shown is a real call chain. Disagreement: later steps of the stack are shown at the directive, not at the call.", "quantifier": "every call graph, override relation, set of impure procs and of directives", "why_tests_cant": "reachability over arbitrary, possibly cyclic call graphs", "anchors": ["crates/dreamchecker/src/lib.rs: check_proc_call_tree, propagate_violations, ViolatingOverrides"]}
{"id": "C58", "title": "Directives are kept, refused and inherited as documented, independently of the order of analysis", "statement": "Setting a directive keeps the first value and refuses a second, a disabling one where not allowed, and global procs where not allowed; a lookup finds the nearest setting along overridden procs; after analysis a proc carries should_not_sleep / should_be_pure exactly if set on it or, having a body, on a proc it overrides, whatever the order in which procs are visited.", "quantifier": "every override forest, set of directives and order of visit", "why_tests_cant": "the traversal order and the override forest are arbitrary", "anchors": ["crates/dreamchecker/src/lib.rs: ProcDirective::insert, get_self_or_parent, try_copy_from_parent, check_proc"]}
{"id": "C59", "title": "Function-like macros expand by the documented rules", "statement": "A `#define` line adds exactly the definition it denotes: a name directly followed by `(` gets the listed parameters (the last may be variadic), any other name is replaced by everything after it. A use of a function-like macro with matching arguments is replaced by its body with the arguments substituted, `#p` replaced by the text of the argument and `a##b` joined, and the result is expanded again, up to 32 levels; every resulting token carries the location of the use. Commas inside parentheses do not separate arguments. A call with the wrong number of arguments is reported and delivers nothing.", "quantifier": "every environment, macro table, macro body, argument list and text of a file, at any nesting of includes", "why_tests_cant": "bodies, arguments and the nesting of calls are unbounded, and substitution, stringification, pasting and re-expansion interact", "anchors": ["crates/dreammaker/src/preprocessor.rs: Preprocessor::real_next (define arm 904-1043, macro call 1194-1393)"]}
{"id": "C60", "title": "Preprocessing a whole environment delivers what its text means", "statement": "The tokens delivered for an environment file are, up to line ends, those given by a recursive reading of its text: text is expanded with the macros defined at that point, `#define`, `#undef` and `#pragma multiple` take effect from their line on, `#include` inserts the meaning of the file at that place unless it was included before (or records the map, skin or script), and of a conditional only the first branch whose condition holds takes effect. The macros and files at the end are the ones that reading gives, it is unique, and nothing panics.", "quantifier": "every environment (file system, search, expression evaluator), every set of builtin macros and every text made of those elements, nested to any depth", "why_tests_cant": "the order of definitions, includes and conditionals is arbitrary; the include stack, the stack of conditionals and the queue of the reader must cooperate for all of them", "anchors": ["crates/dreammaker/src/preprocessor.rs: Preprocessor (Iterator::next, real_next, evaluate, prepare_include_file, in_environment)"]}
{"id": "C61", "title": "Code reported as unreachable is not reached", "statement": "Whenever the checker reports \"possible unreachable code\", an unreachable if or else block, a do-while that ends before its condition or a range loop whose body is never run, no execution of the proc comes to the code the message is about: the statement and all after it in the block, the arm and its condition, the else block, the condition of the do-while, the body of the loop. This holds for procs without goto whose do-while loops and literal range loops are plain (a run can complete the body, or no break/continue acts on the loop; the range is not 0 to 0 and its step is absent or positive and ascending); for others there are false alarms, exhibited.", "quantifier": "all proc bodies (any nesting of statements) without goto, with distinct locations, and all executions of them, finite or cut off at any point, with any outcome of unknown conditions and runtime errors at any point", "why_tests_cant": "unboundedly many nestings of loops, branches and jumps, and all their executions", "anchors": ["crates/dreamchecker/src/lib.rs: ControlFlow, visit_block, visit_statement", "crates/dreammaker/src/ast.rs: Term::valid_for_range"]}
{"id": "C62", "title": "Control-flow messages are exactly those that are due", "statement": "A value returned inside a spawn, a SpacemanDMM_ set statement that is not among the sets at the top of the proc, a condition of an if or a test of a for that is known to be true or false, and every arm and else after an always-true condition are reported, all of them, unless some code of the proc was skipped as unreachable (which is itself reported), and nothing else is reported under these messages. Code after a return or CRASH, or after an if/switch whose branches all return, all break or all continue, is noticed whenever no break or continue precedes it in its block.", "quantifier": "all proc bodies, all places in them, any nesting of spawns below 2^32", "why_tests_cant": "the claim is about every statement at every depth of every proc body", "anchors": ["crates/dreamchecker/src/lib.rs: visit_block, visit_statement, loop_condition_check, inside_newcontext"]}
{"id": "C63", "title": "Declarations mean their full paths, however they are nested in blocks", "statement": "Parsing a well-formed list of declarations (types, variable overrides, var declarations with flags, list suffixes, initializers and as/in clauses, procs and verbs with parameters, return types, operators and bodies; nested in blocks, with relative or absolute paths, with or without closing semicolons) reads to the end and leaves a tree that says exactly what was there before plus what each declaration says about its full path, in order: the types on the path exist, the last value and the last declaration of a variable count, a declared proc comes before its overrides and its first declaration counts. The messages are exactly those specified. The same declarations, each written on its own with its full path, give the identical tree.", "quantifier": "all lists of declarations of any depth and length, all well-formed trees they are added to, all expression parsers and body parsers", "why_tests_cant": "unboundedly many nestings of blocks, and any combination of path forms and declarations; the claim is about the whole resulting tree", "anchors": ["crates/dreammaker/src/parser.rs: tree_entries, tree_entry, tree_path, tree_block, input_specifier, var_annotations, proc_params", "crates/dreammaker/src/objtree.rs: declare_var, override_var, register_proc, subtype_or_add"]}
{"id": "C64", "title": "The declaration parser ends and fails only in one way", "statement": "Whatever tokens it is given, the parser of declarations terminates and never uses a type that is not in the tree; the only panic is 'kept parsing after EOF'. That one happens exactly where one would hope for an error message: a type block that is not closed at the end of the input panics, and such input comes out of the indent processor for a source file with crossed brackets, without any message.", "quantifier": "all token sequences (malformed included), all trees, all expression and body parsers that take at least one token", "why_tests_cant": "termination and absence of panics are about every malformed input", "anchors": ["crates/dreammaker/src/parser.rs: run, tree_entries, tree_entry, next, require, put_back", "crates/dreammaker/src/indents.rs: IndentProcessor"]}
{"id": "C65", "title": "Files are read one after the other and the order of unrelated ones is irrelevant", "statement": "What follows well-formed declarations is read exactly as if it were the whole input on top of the tree they give, be it well-formed or not. Two sets of declarations that have no variable or proc of the same type in common give trees that say the same in either order. No input, not even one that ends in a fatal syntax error, removes a type. A stray closing brace ends the reading: what follows it is lost.", "quantifier": "all declarations, all following tokens, all trees", "why_tests_cant": "a claim about all pairs of inputs and all continuations", "anchors": ["crates/dreammaker/src/parser.rs: run, tree_entries", "crates/dreammaker/src/objtree.rs: subtype_or_add"]}
{"id": "C66", "title": "Proc bodies are captured, not understood: they cannot affect the rest of the tree", "statement": "Whatever parser is used for proc bodies, and whether it succeeds on them or not, the parser of declarations consumes the same tokens, gives the same messages and builds the same tree but for the code of the procs; the tokens of a body are recorded exactly as written between its braces or on its line, with nested brackets of all kinds.", "quantifier": "all token sequences, all trees, all pairs of body parsers", "why_tests_cant": "quantifies over all bodies and over what the body parser might do with them", "anchors": ["crates/dreammaker/src/parser.rs: tree_entry, read_any_tt, block"]}
{"id": "C67", "title": "Proc bodies are parsed as the statements they are written as", "statement": "For every body written in the statement grammar of the language (blocks, one-line bodies, empty bodies; if/else-if/else, while, do-while, every form of for, spawn, switch with ranges and default, try/catch, set, break/continue with labels, del, labels, var declarations with types, sizes, values and several names, return, throw, CRASH, goto), with any nesting and any stray semicolons, the parser gives exactly those statements in their order with their parts in place, consumes exactly the tokens of the body, and reports exactly the warnings about ineffective flags, ineffective as-clauses and empty cases. The grammar is unambiguous, an else belongs to the nearest if, and the statements end up as the code of the declared proc.", "quantifier": "all bodies of the grammar, all expression parsers, all tokens after the body, all trees the proc is declared in", "why_tests_cant": "programs nest without bound and the parser is a single function of 370 lines with dozens of interleaved lookaheads", "anchors": ["crates/dreammaker/src/parser.rs: block, statement, simple_statement, for_range, case, separated, statement_terminator, skip_phantom_semicolons", "crates/dreammaker/src/ast.rs: Statement, ForLoop, ForListStatement, ForKeyValueStatement, ForRangeStatement"]}
{"id": "C68", "title": "Parsing a proc body ends, on any tokens", "statement": "For every token sequence, well-formed or not, the body parser comes to an end with statements or an error, never reads beyond its tokens, and leaves no more tokens than there were; its answer does not depend on how long it is given.", "quantifier": "all token sequences, all expression parsers that consume a token when they succeed", "why_tests_cant": "a loop that does not consume a token shows only on a particular malformed input", "anchors": ["crates/dreammaker/src/parser.rs: block, statement, simple_statement, separated, skip_phantom_semicolons"]}
{"id": "C69", "title": "The layout of a map file does not matter to the map reader", "statement": "Reading a map file gives the same map (or the same failure) whether its lines end in LF or CRLF, with or without a UTF-8 byte-order mark, whatever comment line or text without quotes, parentheses and slashes precedes the first entry, and whether or not a prefab without variables is followed by an empty block {}.", "quantifier": "every file content, every position of a line end in it, every leading text, every key, path and continuation of the file", "why_tests_cant": "the reader is a state machine with a dozen flags; a test covers one file in one layout, not every state in which a carriage return or an empty block can occur", "anchors": ["crates/dmm-tools/src/dmm/read.rs: parse_map", "crates/dmm-tools/src/dmm.rs: Map::from_file", "crates/dreammaker/src/lexer.rs: buffer_file / BOM skipping"]}
{"id": "C70", "title": "A minimap shows every visible sprite at its place, in drawing order", "statement": "Rendering the rectangle of tiles from min to max gives an image of 32 pixels per tile, and every pixel of it is the result of painting over transparency, one after the other, the pixels of the sprites of the tiles in the rectangle: each sprite stands with its bottom left corner at the bottom left corner of its tile moved by its pixel offsets, tinted with its colour, clipped at the border of the image; lower plane first, then lower layer, then map order. Rendering does not panic for any rectangle inside a complete level with readable colours and well-formed icon files, for any render passes.", "quantifier": "every level, dictionary, rectangle within it, icon sheets, object variables (positions and offsets any integers) and list of render passes", "why_tests_cant": "pictures compared in tests show a few maps; an off-by-one in clipping or flipping shows only for sprites hanging over one of the four borders, and depth ties only with particular maps", "anchors": ["crates/dmm-tools/src/minimap.rs: generate, clip, get_atom_list, Sprite::from_vars", "crates/dmm-tools/src/render_passes/mod.rs: RenderPass"]}
{"id": "C71", "title": "The picture of a region is the region of the picture", "statement": "Rendering a sub-rectangle gives, at every pixel no sprite of a tile outside it reaches, what rendering the larger rectangle gives there; when no sprite leaves its tile the small image is exactly cut out of the large one.", "quantifier": "every pair of nested rectangles of a level, every map, icons and passes", "why_tests_cant": "it relates two runs over all maps; smoothing with neighbours outside the region, sort stability and the flipped y axis all enter", "anchors": ["crates/dmm-tools/src/minimap.rs: generate"]}
{"id": "C72", "title": "Layers sort like the numbers they were given as", "statement": "For layer values that are multiples of 2^-23 from -32768 to below 32768 (all floats of magnitude 1 or more among them) the sort key of a layer orders like floor(65536 * value): numerical order is never reversed and differences of 1/65536 or more are never lost.", "quantifier": "all pairs of such float values, of either sign", "why_tests_cant": "there are 2^32 floats; the failures (the largest float below 1, tiny negative numbers, values from 32768 on) are isolated points", "anchors": ["crates/dmm-tools/src/minimap.rs: Layer, From<f32> for Layer"]}
{"id": "C73", "title": "Colour, transparency and inherited variables of a map object", "statement": "A colour text #rrggbb or #rgb, in either case, is that colour; a known name is its colour; any other text without # and any # text of another length up to eight digits is white; a transparency of 0 to 255 is used, others are 255. A variable has the value given in the map, else that of the nearest ancestor type having it (null if not constant), else null.", "quantifier": "all texts, all variable tables and inheritance chains", "why_tests_cant": "the texts and inheritance chains are unbounded; overflow of the digit sum needs nine digits", "anchors": ["crates/dmm-tools/src/minimap.rs: color_of, html_color, GetVar::get_var_inner"]}
{"id": "C74", "title": "What a thing on the map shows, and the order in which render passes act", "statement": "A thing is drawn at pixel_x+pixel_w+step_x, pixel_y+pixel_z+step_y from its tile, with its icon, icon_state, dir, plane and layer. Each pass adjusts the sprite in turn; underlays of all passes come first, then what passes draw from the neighbourhood, then the thing unless some pass replaces it, then overlays. Things rejected by a filter, of unknown type or without icon show nothing; a pass that replaces a prefab stops the passes after it. In each direction a pass sees the things on the tile next to it in that direction, none outside the map.", "quantifier": "all things, variable tables, lists of passes, levels and positions", "why_tests_cant": "passes are open-ended functions and compose in any order; the neighbourhood must be right at every position", "anchors": ["crates/dmm-tools/src/minimap.rs: Sprite::from_vars, get_atom_list, generate, Neighborhood", "crates/dmm-tools/src/render_passes/mod.rs: RenderPass"]}
{"id": "C75", "title": "Which render passes run, what they hide and on which layer they draw", "statement": "A pass runs if named in the include list, else not if named in the exclude list, else if \"all\" is included, else not if \"all\" is excluded, else as configured, else by default; in table order, once. A configured layer applies to a thing if its path is the nearest configured ancestor of the thing's type, whatever the order of the configuration. Without configuration what lies under the floor is drawn below floors and walls and above plating and space. A thing is hidden exactly if it is below a configured path, its invisibility exceeds 60, or it is a mapping helper or placeholder balloon.", "quantifier": "all include and exclude texts, configurations, orders left by the unstable sort, type paths and things", "why_tests_cant": "the hash map order and the unstable sort are unspecified; paths and lists are unbounded", "anchors": ["crates/dmm-tools/src/render_passes/mod.rs: configure, configure_list, FancyLayers, HideInvisible"]}
{"id": "C76", "title": "Icon smoothing shows exactly the connections", "statement": "A thing connects in a direction if something on the tile there matches (type or subtype in the list, common group, same type, or the border of the map if it smooths with borders) and, for a corner, on both tiles beside it too. The four corner pictures, the diagonal pictures of walls connected on exactly two meeting sides, with the turf behind drawn underneath, and the numbered states are those of these connections; things without smoothing flags are unchanged; nothing panics if the turfs to draw exist.", "quantifier": "all things, neighbourhoods, flags and lists, for the 2016, 2020 and 2025 systems", "why_tests_cant": "256 neighbourhoods times unbounded contents, lists and flags", "anchors": ["crates/dmm-tools/src/render_passes/icon_smoothing.rs", "crates/dmm-tools/src/render_passes/icon_smoothing_2020.rs", "crates/dmm-tools/src/render_passes/icon_smoothing_2025.rs"]}
{"id": "C77", "title": "Cables are drawn linked exactly to neighbouring cables", "statement": "A cable is linked to a neighbouring tile if a cable of the same layer is there, except between a storage unit and its terminal; its state is the layer followed by the numbers of the linked directions, or -noconnection, and -node if linked twice over a machine, grille or bridge. Links of neighbouring cables are mutual unless a tile has both a storage unit and a terminal.", "quantifier": "all cables, tiles and neighbourhoods, all pairs of neighbouring tiles of a level", "why_tests_cant": "tile contents are unbounded; mutuality relates two renderings at every position", "anchors": ["crates/dmm-tools/src/render_passes/smart_cables.rs"]}
{"id": "C78", "title": "Random loot respects weights, counts and doubles", "statement": "Of the equally likely numbers from 1 to the sum of the weights exactly as many pick an item as its weight says (1 if it has none). With doubles exactly lootcount items are picked; without, no item twice and as many as asked for or available. The drop is replaced by the picked types that exist.", "quantifier": "all lists with weights that are not negative (at least one for several items), all random numbers in range", "why_tests_cant": "a test sees some draws; the share of each item and the absence of duplicates concern all of them", "anchors": ["crates/dmm-tools/src/render_passes/random.rs: pickweight, Random::expand"]}
{"id": "C79", "title": "Undefined names and the other messages about expressions come exactly when due", "statement": "For every expression, DreamChecker reports an undefined variable, field, proc, path or type, a needed static type, a private or protected access, an ambiguous operator, a bad keyword or filter argument, and records each call, sleep and impurity, exactly at those terms, accesses and operators inside the expression where the rules for that message hold; the static type each rule looks at is the one the declarations of variables and procs (own or inherited), list element types and return type annotations give. An expression is accepted without a message exactly if no rule holds anywhere in it.", "quantifier": "every object tree, proc, set of local variables and expression, of any size and nesting", "why_tests_cant": "types flow through arbitrarily nested expressions, inheritance chains and argument lists; a test sees a few shapes only", "anchors": ["crates/dreamchecker/src/lib.rs: AnalyzeProc::visit_expression, visit_term, visit_follow, visit_call, visit_binary, static_type", "crates/dreamchecker/src/type_expr.rs: TypeExpr::evaluate"]}
{"id": "C80", "title": "Local variables are known exactly in their scope, and every reached statement is looked at", "statement": "What DreamChecker reports about a proc body is exactly what is due for each statement that it holds to be reached, looked at with the local variables in scope there: a declaration is known to the statements after it in the same block and in blocks inside them, and not outside; loop and catch variables only inside their block; parameters, usr, src, args and the like everywhere. Beside the messages about expressions these are: undefined types of variables, discarded results of pure procs, impure <<, iterating over what cannot be iterated, constant conditions, || in a case, several catch parameters.", "quantifier": "every object tree, proc, parameter list and body, of any size and nesting", "why_tests_cant": "scopes and control flow nest without bound; a leak of one variable out of one construct shows up only in particular combinations", "anchors": ["crates/dreamchecker/src/lib.rs: AnalyzeProc::run, visit_block, visit_statement, visit_var, visit_control_condition, loop_condition_check"]}
{"id": "C81", "title": "Override rules are reported exactly when broken", "statement": "A proc with a parent is reported for overriding a private or final proc, for calling a parent that forbids it, for never calling a parent that demands it, and for redefining a proc of the same type, exactly if the annotations say so; a call of the parent counts exactly if ..() stands in a statement that is looked at, at a place in an expression that is looked at.", "quantifier": "every object tree, proc body and set of annotations", "why_tests_cant": "the call may be at any depth of statements and expressions", "anchors": ["crates/dreamchecker/src/lib.rs: AnalyzeProc::run, ProcDirective::get_self_or_parent"]}
{"id": "C82", "title": "Overrides that lack a keyword argument used in calls are all found", "statement": "If a proc is called on a type with keyword arguments, and the type itself has exactly one definition of it, then every overriding definition below that lacks one of these keywords is noted (per type the latest such one, with exactly the keywords it lacks) in one report for that proc, at the first definition called, with the first place of each such keyword and the number of others; and nothing else is reported.", "quantifier": "every object tree, all calls, all procs, however many definitions and levels of inheritance", "why_tests_cant": "concerns all overrides below and all calls anywhere", "anchors": ["crates/dreamchecker/src/lib.rs: check_kwargs, finish_check_kwargs, visit_call", "crates/dreammaker/src/objtree.rs: Display for ProcRef, TypeRef"]}
{"id": "C83", "title": "Redeclared, final and private variables: every clash along the line of inheritance is reported, and nothing else", "statement": "Checking variable definitions reports, for every type, each of its variables and each ancestor below the root that declares a variable of that name, that the type redeclares it (if it declares it again outside the built-in code), overrides a final one, and overrides a private one; nothing else is reported, and never for `vars` or the parent_type of /client. If nothing is reported, a variable below the root has one declaration on a line of inheritance, and looking it up from any subtype finds that one.", "quantifier": "every object tree, all types, variables and depths of inheritance", "why_tests_cant": "concerns all pairs of a type and an ancestor, and what a whole clean project may rely on", "anchors": ["crates/dreamchecker/src/lib.rs: check_var_defs", "crates/dreammaker/src/objtree.rs: TypeRef::iter_parent_types, get_var_declaration"]}
{"id": "C84", "title": "Code that is accepted does not run into undefined variables and procs", "statement": "If DreamChecker says nothing about an expression, and variables hold and procs return what their declarations promise (in the object at hand and in overrides), then no run of the expression ends at a variable or proc that the value does not have, a global name that does not exist or a missing parent proc, and the value of the expression is of the static type found for it. This holds for expressions without these: `?:` with branches of different static types, list operators and compound assignments mixing types, indexing of values not declared as a list, `::`, overloaded `++` with a declared result, fields and methods that only exist as global names, and arguments of `new` for types without New. Each of the ones left out by mistake rather than design is shown to be accepted and to fail in a run.", "quantifier": "every object tree, context, expression of any depth, and every run in every world that keeps to the declarations", "why_tests_cant": "a claim about all values at run time; a test sees a message or its absence, not the executions", "anchors": ["crates/dreamchecker/src/lib.rs: visit_expression, visit_term, visit_follow, visit_call, visit_binary", "crates/dreammaker/src/objtree.rs: get_var_declaration, get_proc"]}
{"id": "C85", "title": "Find References and Find Implementations list exactly the right places", "statement": "For every type, variable, proc and local variable of a project, Find References gives, in order, exactly the places where it is named: in values of variables, default values of parameters, and bodies of procs; a variable or proc counts for the type whose declaration the name stands for (nearest ancestor of the static type of the value, of the code for unqualified names), a local variable for its last declaration before the place. Find Implementations gives exactly the place of a type, all places where a variable gets a value, and the first definition of a proc on each type. References to a local variable are all in one definition of a proc. Code that is not looked at: arguments of unqualified calls of unknown procs, of `new` for unknown types or types without New, of `new mini.expr()`, of `.()` outside of procs and `..()` without parent, variables of unknown paths, CRASH() and `set` values, and the start of `for(x = a to b)` with x not declared there.", "quantifier": "every object tree, every program text over all expression and statement forms, every symbol, every place", "why_tests_cant": "a list that is exact needs every place of every possible program to be considered", "anchors": ["crates/dm-langserver/src/find_references.rs: ReferencesTable::new, find_references, find_implementations, WalkProc"]}
{"id": "C86", "title": "Completion, Go to Definition and the symbol under the cursor follow the scoping rules, and agree with each other", "statement": "At every place of a source file, completion offers exactly: after `a.b.` the variables and procs of the declared type of `a.b` and its ancestors without the root, each once and from the nearest type that has it; where a name can start the local variables, parameters of the surrounding definition, macros, members of the type of the code and globals, and keywords inside procs; in the tree of declarations the child types and what can be overridden; after a path the child types or the declared procs or verbs; all of it filtered by what has been typed. Go to Definition leads to exactly what the names there stand for (first a local variable, then a parameter, then the nearest member; `..()` to the definition before or the proc of the parent). What is offered after `a.b.` is exactly what Go to Definition then leads to. The symbol that Find References looks for is that of the last name at the place, and for unqualified names the one under which the place is listed (C85). Go to Type Definition, Signature Help and hovers follow the same rules.", "quantifier": "every object tree, every list of annotations around a place, every typed text and way to match it, every name", "why_tests_cant": "quantifies over all class hierarchies, all scopes around a place and all names; two features must agree at every place", "anchors": ["crates/dm-langserver/src/completion.rs", "crates/dm-langserver/src/main.rs: find_type_context, find_unscoped_var, find_scoped_type, symbol_id_at, construct_proc_hover, construct_var_hover, GotoDefinition, GotoTypeDefinition, Completion, SignatureHelpRequest", "crates/dreammaker/src/objtree.rs: type_by_path_approx, get_var_declaration, get_proc_declaration, parent_type_without_root"]}
{"id": "C87", "title": "The language server answers every request once, in order, and works only between initialize and shutdown", "statement": "For every sequence of messages from a client: every request (and everything that is no valid call) is answered exactly once, under its own id and in the order of the requests; notifications are never answered; each message is answered by at most one thing written. Before a well-formed `initialize` and after a `shutdown`, no handler runs: the state does not change, no notification goes out and every request fails. What each call does depends only on the calls before it: -32002 outside of the active time, -32600 for bad parameters and a second `initialize`, -32603 for unknown methods, else the handler. `exit` ends the process with 0 if an `initialize` and then a `shutdown` came before, else with 1.", "quantifier": "every set of handlers, every state, every sequence of messages, single or in batches, well-formed or not", "why_tests_cant": "quantifies over all histories of calls and all handlers", "anchors": ["crates/dm-langserver/src/main.rs: handle_input, handle_call, handle_method_call, handle_notification, exit, Initialize, Shutdown, main", "crates/dm-langserver/src/jrpc_io.rs: run_until_stdin_eof"]}
{"id": "C88", "title": "The editor shows the diagnostics of the last send, whatever the schedule of the threads", "statement": "The diagnostics built from a list of errors are, for every document, those of the errors that are in it, in order, with notes as related information or as diagnostics of their own. For every interleaving of the main thread and the checking threads of any number of reparses, and every order of the hash tables: only one thread sends at a time; whenever none is sending, what the client shows for every document is exactly what the map sent last has for it, and nothing for other documents; the findings of the parser always go out before those of the check of the same run; everything is sent once; some thread can always go on. With one check, the client in the end shows its findings.", "quantifier": "every list of errors, every number of runs, every interleaving of all threads, every iteration order", "why_tests_cant": "quantifies over all schedules of the threads and all iteration orders of hash tables", "anchors": ["crates/dm-langserver/src/main.rs: DiagnosticsTracker::build, DiagnosticsTracker::send, Engine::parse_environment, location_to_range, component_to_source"]}
{"id": "C89", "title": "Folding ranges are the matched regions", "statement": "The folding ranges of a document are exactly the pairs of a line marked `#region` and a line marked `#endregion` between which all regions are closed that are opened, and no others; they are nested or apart, and come in the order of their ends; markers without a partner are ignored.", "quantifier": "every text", "why_tests_cant": "quantifies over all texts and all ways to nest regions", "anchors": ["crates/dm-langserver/src/main.rs: FoldingRangeRequest, is_region_marker"]}
{"id": "C90", "title": "The outline has every symbol once, inside the innermost block around it", "statement": "The outline of a document lists exactly the types, variables, procs, local variables and macros that are annotated, each once, in the order of the document; each is inside the block or proc body that starts last before it and is not over where it starts, and at the top level if there is none; names, kinds and details (the last part of the path that is no keyword and not part of the path of the block) follow from the annotations.", "quantifier": "every list of annotations of a file, nested or overlapping, in any order", "why_tests_cant": "quantifies over all documents and all nestings of blocks", "anchors": ["crates/dm-langserver/src/main.rs: DocumentSymbolRequest, name_and_detail, find_document_symbols, is_constructor_name, span_to_range"]}
{"id": "C91", "title": "The game has exactly the breakpoints that the editor last asked for", "statement": "For every history of SetBreakpoints and SetFunctionBreakpoints requests of a debugging session with a connected game: every breakpoint in the game was asked for by the last accepted request for some source (a file, or the function breakpoints), so none is stale; and, if no line begins at the first instruction of a proc, every breakpoint so asked for is in the game, with auxtools under the condition given last and if the game accepts it. A request answers one breakpoint for each one asked for, in order, verified exactly if its place exists; a refused request (unknown file, modified source) changes nothing; without a connected game nothing is verified, saved or sent.", "quantifier": "every object tree, every byte code, every history of requests, every pattern of accepted breakpoints and lost calls", "why_tests_cant": "quantifies over all histories of requests and all programs", "anchors": ["crates/dm-langserver/src/debugger/mod.rs: SetBreakpoints, SetFunctionBreakpoints, saved_breakpoints", "crates/dm-langserver/src/debugger/extools.rs: set_breakpoint, unset_breakpoint", "crates/dm-langserver/src/debugger/auxtools.rs: set_breakpoint, unset_breakpoint"]}
{"id": "C92", "title": "Lines, procs and instructions of the debugger stand for one another", "statement": "A line of a file belongs to the proc whose definition starts last at or before it in that file, under the number of that definition, and to none before the first; a proc reference with a number leads back to exactly that definition, where builtin definitions that come first are not counted unless they are those of stddef.dm. A line stands for the offset of the first marker of that line in the byte code of its proc, and an offset for the line of the last marker at or before the instruction it names; a frame that stops at the place of a breakpoint is shown in the file and on the line of that breakpoint.", "quantifier": "every well-formed object tree, every file, line, byte code with increasing offsets", "why_tests_cant": "quantifies over all object trees and all byte codes", "anchors": ["crates/dm-langserver/src/debugger/mod.rs: DebugDatabaseBuilder::build, get_proc, file_id, location_to_proc_ref, StackTrace, STDDEF_PROCS", "crates/dm-langserver/src/debugger/extools.rs: offset_to_line, line_to_offset, parse_lineno"]}
{"id": "C93", "title": "The debugger shows the frames and variables that the game has, under ids that lead back to them", "statement": "With extools, for every set of stopped threads: a stack trace has a row for each frame of the thread, in order, and every frame of every thread has its own id; that id leads to three scopes whose references, different for different frames and scopes, lead to the locals, the arguments and the globals of that frame (for ids below 2^23-1; deeper frames disagree). Locals are shown as `.` and every local in order under its name, arguments as `src`, `usr` and every argument in order, repeated names with a number so that no two rows have one name. A value that can be opened leads to the contents of that list or the fields of that object, every other value to none; a list shows every element counted from one, an associative list every key and value, an object every field in the order of names whatever the order of the hash table. Every address that Disassemble tells can be disassembled again. An id that was never given is refused.", "quantifier": "every number of threads, every depth of stack, every list of variables and names, every value", "why_tests_cant": "quantifies over all stacks, all variable names and all values", "anchors": ["crates/dm-langserver/src/debugger/mod.rs: Threads, StackTrace, Scopes, Variables, Evaluate, Disassemble", "crates/dm-langserver/src/debugger/extools.rs: get_thread, get_thread_by_frame_id, get_list_contents, get_all_fields", "crates/dm-langserver/src/debugger/extools_types.rs: ValueText::to_variables_reference, has_vars, is_list"]}
{"id": "C94", "title": "The life of a debugged game and the numbering and answering of messages are truthful", "statement": "For every schedule of the editor, the launching thread, the game and its process: what is observed about a game is one of a few stories; Exited and Terminated are told only after the process ended, with its exit code and each at most once; a process ends once; a signal goes only to a game that was not told to be over, and nothing blocks. Whatever the schedule of threads, every message has its own sequence number, and together the numbers are those from 0 on. Every request gets exactly one response, in the order of requests, with its number, its command and the result of its handler.", "quantifier": "every interleaving of launches, kills, detaches, exits and messages; every list of requests and every result of the handlers", "why_tests_cant": "quantifies over all schedules of several threads and a process", "anchors": ["crates/dm-langserver/src/debugger/launched.rs: Launched::new, kill, detach", "crates/dm-langserver/src/debugger/mod.rs: SequenceNumber, handle_input, handle_request, issue_event"]}
{"id": "C95", "title": "Messages between the debugger and the game arrive whole, in order, and calls get their own answers", "statement": "However the byte stream from the game is cut into chunks, the messages handled are exactly those that were sent, in order: with extools those between zero bytes, with auxtools those after their length up to one that ends the thread; an incomplete one at the end is ignored. Calls end in the order in which they were made, each once; up to the first call that fails every call ends with its own answer and never with that of another call or of another kind, with every interleaving of answers, events and messages without an answer; a call made on a connection on which none failed is on the way to its answer. With auxtools a failed call ends the connection, after which nothing more is sent.", "quantifier": "every stream, every cut into chunks, every interleaving of adapter, game and reading thread", "why_tests_cant": "quantifies over all cuts of all streams and all schedules", "anchors": ["crates/dm-langserver/src/debugger/extools.rs: ExtoolsThread::read_loop, ExtoolsSender::send, bytecode, get_reference_type", "crates/dm-langserver/src/debugger/auxtools.rs: AuxtoolsThread::run, send, send_or_disconnect, read_response_or_disconnect, disconnect"]}
{"id": "C96", "title": "diff-maps lists exactly the places that differ", "statement": "For any two maps whose grid keys are all in their dictionaries, `dmm-tools diff-maps` names the two sizes exactly if they differ, and lists exactly the places that both maps have (counted as in the game, rows from the bottom) and whose tiles differ in a path, the order of things or the value of a variable (not in the order of variables), each once and in order; it prints nothing exactly if the maps have the same size and tiles, so not for a map and what is read after saving it; exchanging the maps gives the same places.", "quantifier": "every two maps, of any sizes", "why_tests_cant": "quantifies over all pairs of maps", "anchors": ["crates/dmm-tools-cli/src/main.rs: Command::DiffMaps", "crates/dmm-tools/src/dmm.rs: Map, Prefab"]}
{"id": "C97", "title": "The command line renderer draws the region asked for into one file per level or chunk", "statement": "Whatever corners are given, `dmm-tools minimap` draws a non-empty region within the map, exactly the common part of the box and the map if there is one, and the whole map without corners; if the maps have different names, there is afterwards exactly one file for each level of the region of each map that could be loaded, with the picture of that region of that level, in whatever order threads write them; the status counts the maps that could not be loaded. `render-many` answers an entry for each map and chunk in the order given, with the name of the file that holds the picture of that chunk. Printed coordinates are read back.", "quantifier": "every list of maps, corners and chunks; every order of writing", "why_tests_cant": "quantifies over all lists of maps and all schedules of the writing threads", "anchors": ["crates/dmm-tools-cli/src/main.rs: Command::Minimap, CoordArg, clamp, render_many"]}
{"id": "C98", "title": "Return type annotations mean what the documentation says", "statement": "`set SpacemanDMM_return_type = e` is accepted without a message exactly for the documented forms (`/path`, `null`, `param`, `param[_]..[_].type`, joined by `||`, `&&`, `?:` and brackets) over existing types and parameters of the proc. The static type of a call is what the last annotation that counts in the called definition stands for: the named type, the type the argument (by name, or else by position) is a path to, or its static type with as many levels of list taken off as there are `[_]`; `a || b` is `a` unless it is no type. Without annotation it is the declared `as ..` type of the proc, inherited from the nearest declaring type; `as` words mean the smallest of /mob, /obj, /turf, /area, /list, /atom/movable and /atom that fits. A message comes exactly when the argument is a path to a type that does not exist.", "quantifier": "every object tree, annotation, list of settings, and call", "why_tests_cant": "quantifies over all annotation expressions and argument lists", "anchors": ["crates/dreamchecker/src/type_expr.rs: TypeExpr::compile, TypeExpr::evaluate, TypeExprContext::get", "crates/dreamchecker/src/lib.rs: AnalyzeObjectTree::gather_settings, AnalyzeProc::visit_call, static_type", "crates/dreammaker/src/ast.rs: InputType::to_typepath"]}
{"id": "C99", "title": "The index of the documentation shows everything once and where it belongs", "statement": "The index page of dmdoc lists every module and every documented type exactly once, as it is and in the order of their names; besides them it has only placeholders (no page, no teaser, the last part for a name) for paths on the way to the entry that follows. The paths in it are exactly those of the entries and those on the way to them. With the names in the order of the map they come from, top elements are paths of one part and an element below another has the path of that other plus one part; and if moreover no name goes on from a path with a character before `/`, no path occurs twice. An element is greyed exactly when it and everything below it has no substance. When it is rendered, the lines with link or teaser are the entries with page or teaser, in order, and every other element is on its own line or in the prefix of one.", "quantifier": "every list of entries", "why_tests_cant": "quantifies over all sets of names", "anchors": ["crates/dmdoc/src/main.rs: build_index_tree, combine", "crates/dmdoc/src/template.rs: index_tree, index_tree_elem"]}
{"id": "C100", "title": "References in documentation lead to what they name, and what is wrong with them is reported", "statement": "A reference `[..]` in a documentation text that dmdoc turns into a link to the site leads to a page that is written and to an anchor on that page. If no link is made a message is printed. If a link is made without a message it leads to exactly what the reference names: the macro, the file, the type, or the var or proc of the type. A reference to a type or to a var or proc of a type is linked to the longest path on the way to it at which it is documented; if that is not the type itself the message tells the guess and whether the thing exists. `[/ty/name]` for a var or proc of `/ty` is linked as the full form, with a message that tells the correction. A link to the BYOND reference is given only for a builtin that is not documented on its own page. A var or proc that is documented nowhere on the way and is not a builtin is not linked, and the message tells whether it exists.", "quantifier": "every object tree, macro history, set of files and reference text (no two pages of the same name)", "why_tests_cant": "quantifies over all trees and all texts", "anchors": ["crates/dmdoc/src/main.rs: broken_link_fixer, main2 (types_with_docs, macro_to_module_map, modules_which_exist, pages)", "crates/dmdoc/src/template.rs: dm_module, dm_type (anchors)"]}
{"id": "C101", "title": "The links of the documentation pages lead to pages that are there", "statement": "Every link the templates of dmdoc put on an index, module or type page (members, macros, parents, types in type paths and in `as` clauses) leads to a page that is written and to an anchor on it, if the root type has no docs of its own; every page is linked from the index; a type path with links reads as the path, and in a type path that is not under `/list` every path on the way that has a page is linked to it; the arrow at an override leads to the nearest parent type that documents the var or proc; a type has a page exactly when it has a description or a documented var or proc.", "quantifier": "every object tree, macro history and set of files (no two pages of the same name)", "why_tests_cant": "quantifies over all trees", "anchors": ["crates/dmdoc/src/main.rs: linkify_type, main2 (all_type_names, parents, substance)", "crates/dmdoc/src/template.rs: dm_index, dm_module, dm_type, linkify_input_type"]}
{"id": "C102", "title": "The page of a module shows everything in it once, in the order of the lines", "statement": "The page dmdoc writes for a module (a source or markdown file) shows every documented define, type, global var and global proc of it exactly once, in the order of their lines and, on the same line, of collection. The module comments between two of them are shown there as one text, comments that are not on neighbouring lines being set apart by an empty line comment; nothing of their content is lost (white space, `*` and `/` aside), comments that say nothing make no text, and making the page does not panic. The name of the module is taken from the first text only.", "quantifier": "every list of comments and items with their lines", "why_tests_cant": "quantifies over all files", "anchors": ["crates/dmdoc/src/main.rs: main2 (finalize modules, push_docs!)", "crates/dreammaker/src/docs.rs: DocCollection"]}
{"id": "C103", "title": "The title, teaser and headings of a documentation text are what was written", "statement": "In a documentation text the title is exactly what is in a first-level heading at its start, if there is one, and is not part of the body; the teaser is exactly the first paragraph of the body, if it starts with one, and empty otherwise; there is a description exactly if something comes after that; taking the teaser never panics. Every heading is rendered with an anchor, everything else is rendered as it is and nothing is added or lost. The anchor is the words of the heading in lower case, without apostrophes, with a dash between them: only alphanumeric characters and single inner dashes.", "quantifier": "every list of markdown events, every text of a heading and every renderer whose end of a paragraph is not blank", "why_tests_cant": "quantifies over all texts", "anchors": ["crates/dmdoc/src/markdown.rs: DocBlock, parse_main, HeadingLinker, slugify"]}
{"id": "C104", "title": "The `as` clauses shown say what the source says", "statement": "The words dmdoc shows for an `as` clause mean the same as the words in the source; they are in the order of the table and no two of them share a kind, and the words of a combined kind are shown as that (`mob|obj` as `movable`). A word that is linked is linked to the type that the type checker takes it for. The words shown in error messages also mean the same, with repetitions.", "quantifier": "every list of words in an `as` clause", "why_tests_cant": "quantifies over all combinations", "anchors": ["crates/dmdoc/src/template.rs: matching_names, render_input_type", "crates/dreammaker/src/ast.rs: InputType"]}
{"id": "C105", "title": "The object tree explorer shows every type once, whether it is sent the tree or asks for it", "statement": "A client that opens every folder of the object tree explorer gets to see exactly what a client that is sent the whole tree gets to see: every type of the environment once, at its path. A query is answered for the path of every type and for no other, with a stub for each child in the order of their names that says what a query for that child says. An entry has the vars the type itself sets, each once and in the order of their names, shown as constants exactly if declared const here, and the procs it defines, one entry for each definition, of which only the first says whether it is a verb.", "quantifier": "every environment, i.e. every tree made by any sequence of registrations", "why_tests_cant": "quantifies over all environments", "anchors": ["crates/dm-langserver/src/main.rs: update_objtree, objtree_stub, objtree_with_vars_and_procs, objtree_recurse, objtree_with_placeholders, QueryObjectTree", "crates/dm-langserver/src/extras.rs: ObjectTreeType"]}
{"id": "C106", "title": "Requests about an open document are answered from its current text", "statement": "In every session, a request about an open document is answered from the text the client has sent, if the client keeps to the protocol with that document (opened once, good changes, asked about while open). With a workspace, the parse of the environment it is answered from was the last one at some moment since the last accepted edit of the document; without one the answer is from the current text whatever the client does. It fails only if no environment has been parsed.", "quantifier": "every finite history of open, change, close, reparse and request messages", "why_tests_cant": "quantifies over all histories; stale answers need particular ones", "anchors": ["crates/dm-langserver/src/main.rs: get_annotations, DidOpenTextDocument, DidChangeTextDocument, DidCloseTextDocument, parse_environment", "crates/dm-langserver/src/document.rs: DocumentStore"]}
{"id": "C107", "title": "Find references uses the table of the last parse as soon as it is ready", "statement": "After any history of parses, threads that end or panic at any time, and requests, a request for references uses the table of the last parse if that is ready, and otherwise the one used before; the table of an earlier parse that becomes ready late is never used, and a request never waits.", "quantifier": "every interleaving of parses, thread ends, panics and requests", "why_tests_cant": "depends on the schedule of the threads", "anchors": ["crates/dm-langserver/src/background.rs: Background", "crates/dm-langserver/src/main.rs: References, GotoImplementation, parse_environment"]}
{"id": "C108", "title": "The map editor saves the map it was asked to save, and no change is lost unnoticed", "statement": "In every session with the map editor - opening, creating, closing, selecting, editing, undoing and saving maps, with dialogs answered late, environments loaded again and background work finishing at any time - one of the open maps is selected whenever one is open; every write to a file was asked for and writes the map it was asked for as it is at that moment, even if other maps were selected, opened or closed since the dialog was shown, and every answered dialog about a map that is still open and ready is carried out; a map with a file and no star in its title is what was last saved of it (not as a copy) or else what was loaded; Save, Save As and Save All take the star away, Save Copy As does not; Save All saves every map and keeps the selection; opening an open file selects it, closing removes only the selected map, and Tab goes round the maps; a loaded map is prepared for the environment that is then current.", "quantifier": "every finite history of user actions, dialog answers and results of background threads", "why_tests_cant": "quantifies over all histories and schedules of the background threads", "anchors": ["crates/spaceman-dmm/src/editor.rs: EditorScene, run, finish_loading_env, load_map, close_map, save_map, save_map_as, save_all, tab_between_maps, undo, redo, Command", "crates/spaceman-dmm/src/history.rs: History"]}
{"id": "C109", "title": "The variables window changes only what was clicked and never a value behind the user", "statement": "The type shown for an object is that of its path or of the longest path above it that is a type, and its path is red exactly if it is not a type. In a frame of the window for the variables of an object, whatever is clicked: the variables whose reset button was pressed are no longer set, all others stay set as they were and in their order; what is newly set was clicked, was not set, is declared by the type or an ancestor, is none of the unmodifiable variables and has no modifiers unless these are shown; and no variable gets another value, other than those reset, which get the inherited one. The rows are sorted by name.", "quantifier": "every object tree, object, filter and set of clicks", "why_tests_cant": "quantifies over all trees, objects and combinations of clicks", "anchors": ["crates/spaceman-dmm/src/edit_prefab.rs: EditPrefab::show", "crates/spaceman-dmm/src/editor.rs: Environment::find_closest_type"]}
{"id": "C110", "title": "The placement tool places the selected prefab once on each tile of a stroke, and the palette keeps the selection", "statement": "Pressing the left button on a tile and moving with it held down places the selected prefab exactly once on every tile the mouse was on, in the order they were reached, whatever happens between (off the map, over windows, back over the same tiles), and each placement is one undo step: as many undos as placements take the map back, with the same star. With no prefab selected or the button up nothing is placed. In the palette a click selects that entry and changes nothing else; removing an entry keeps the others in order and the selected one selected, or selects the next if it was that one; an entry changes only by Apply, to the copy in its window; adding and picking select the right prefab, and picking adds none if there is an equal one.", "quantifier": "every palette, every frame and every sequence of mouse frames, from every state of the editor", "why_tests_cant": "quantifies over all palettes, click patterns and strokes of any length", "anchors": ["crates/spaceman-dmm/src/tools/place.rs: Place, PaletteEntry", "crates/spaceman-dmm/src/editor.rs: last_drag_tile, target_tile", "crates/spaceman-dmm/src/history.rs: edit, undo"]}
{"id": "C111", "title": "Threads that share the icon cache all get the right icon", "statement": "Whatever the schedule of the threads that look up icons at once: while the files stay the same, every lookup that ends gives exactly the icon in its file below the icons root, or none if that cannot be read; if files change meanwhile, it still gives what some load of that very file gave. Once an icon is in the cache (or known to be unreadable) and nobody is still loading it, it is never loaded again and every later lookup gives the same. A lookup needs at most three steps of its own, whatever the others do before, and the lookup for a single thread does the same as an uninterrupted one.", "quantifier": "every interleaving of any number of lookups and file changes", "why_tests_cant": "quantifies over all schedules of the threads", "anchors": ["crates/dmm-tools/src/icon_cache.rs: IconCache::retrieve_shared, retrieve_uniq, set_icons_root", "crates/dmm-tools/src/minimap.rs: generate"]}
{"id": "C112", "title": "The editor acts on the tile that is shown under the mouse, and the view moves as asked", "statement": "At every zoom and center and for every size of window and map, the tile of the map editor under a place in the window is the one whose pixels are shown there (to half a pixel of the map), none outside the map or while it is loading, and each place inside the map is on a tile. After the mouse was moved or its wheel turned, until something else changes the view, clicks act on the tile under the mouse. Whatever the user does the zoom is one of nine levels from 1/16 to 16. Changing it keeps the middle of the window; scrolling moves the center by the turn of the wheel and never out of the map; dragging with the middle button keeps what was grabbed under the mouse and leaves the other maps.", "quantifier": "every window, map, center, zoom, place and every sequence of events", "why_tests_cant": "quantifies over all views and sequences of events", "anchors": ["crates/spaceman-dmm/src/editor.rs: EditorScene::tile_under, mouse_moved, mouse_wheel, zoom_in, zoom_out, EditorMap::clamp_center, run_main_loop (context.drag)"]}
{"id": "C113", "title": "Terms of expressions are read as what they are written as", "statement": "Every term that is written in an expression (literals, names, calls of each kind, paths with and without variables, `new` in all its forms, `list`, `input` with `as` and `in`, `locate`, `pick` with weights, `call`, `call_ext`, strings with expressions inside, parentheses), with any prefix operators before it and any fields, calls, indices and postfix operators behind it, is read as exactly that, with the rest of the text left, provided the expressions inside it are read as what they are; so the same text cannot mean two things. In a conditional expression a colon belongs to the name before it, and only to a name. On any tokens at all reading a term ends, and takes at least one token if there is a term; where no expression can begin nothing is read.", "quantifier": "every term written in the grammar, nested to any depth, every rest, and every token sequence", "why_tests_cant": "quantifies over all terms, nested without bound, and over all token sequences", "anchors": ["crates/dreammaker/src/parser.rs: Parser::group, term, follow, list_access, field, arguments, pick_arguments, separated, prefab_ex, path_separator, input_specifier, input_type"]}
{"id": "C114", "title": "The editor remembers the environments that were loaded, and opens the last one", "statement": "After any number of sessions of the map editor the list of recent environments is all environments that were ever loaded, each once, none lost, the one loaded last on top; it is on disk after each load. Started without an argument that names an environment, the editor opens the one on top; otherwise the first that is named, by itself or by a map that belongs to one, and never a second; every map named is opened, in order. A click on an entry of the menu loads that entry. A crash while an environment is recorded leaves the old list, the new list, or, between emptying and writing the file, none.", "quantifier": "every sequence of sessions and loads, every command line, every crash point", "why_tests_cant": "quantifies over all histories of sessions and over all crash points", "anchors": ["crates/spaceman-dmm/src/config.rs: Config::make_recent, load, save", "crates/spaceman-dmm/src/editor.rs: EditorScene::finish_init, finish_loading_env, menu of recent environments"]}
