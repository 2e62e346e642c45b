# Formal model of SpacemanDMM in Lean 4

## Layout

Each area is a directory `lean/Verif/<Area>`:

* the model – executable definitions transcribed from `/repo`, each with a comment citing file and lines; what is
  simplified is said in that comment or at the head of the file.  Files: `*/Model.lean`, `*Model.lean`, and
  `Dmm/{Keys,Text}`, `Dmi/{Dir,Metadata,Composite,Render}`, `Editor/{History,MapRepr,Draws,Save}`,
  `Langserver/{Document,Jrpc}`, `Const/F32`.
* the specification – `*/Spec.lean`, or a section "Specification" before the lemmas.  It does not use the model's own
  helpers beyond its data types and the function the claim is about.
* the proofs – `Lemmas`, and the theorems a reader should look at in `*Props*.lean` (or the section "Properties"), named
  in `MANIFEST.json`, with `example`s that meet the hypotheses in non-trivial cases.

`tools/` has the scripts that keep `properties.jsonl` and `MANIFEST.json`, and the mutation harness (`seed.py` for edits
written by hand, `auto.py` for generated ones; results in `seeded/LOG.jsonl`).

## Conventions

* Rust panics (`unwrap`, `expect`, `unreachable!`, index out of bounds, overflow in a debug build) are `none` of an
  `Option`, an explicit constructor, or a sticky flag, wherever the absence of panics is part of a claim.
* `Vec` is `List`; strings are `List Char`, byte strings one `Char` per byte; `HashMap` is an association list or function
  and theorems hold for every iteration order; `IndexMap` keeps insertion order, `BTreeMap` key order.
* Fixed width integers are `Nat`/`Int` with explicit ranges, wraps or overflow checks where the claim is about them.
* `&mut` becomes a returned value.  Loops are structural recursion; where they are not, they take fuel and a theorem says
  when the fuel suffices (or, in C22, C34, that no fuel does).

## Trusted base

* Lean 4.33.0's kernel.  Every theorem of the manifest depends at most on `propext`, `Classical.choice` and `Quot.sound`
  (`#print axioms`: of 270 theorems 197 use all three, 41 `propext` and `Quot.sound`, 22 `propext`, 10 none).  No axiom
  is added and no compiled evaluation is used; `decide +kernel` is evaluation by the kernel.
* The transcription of Rust to Lean, by hand, cited line by line.  The code was read, never run.
* The library code the model stands on: `Vec`, `HashMap`, `BTreeMap`, `IndexMap`, `str` methods, `petgraph` (insertion
  order of edges), `regex` (the one expression of `color.rs`, C41), `binary_search_by_key` (its contract, C46–C48).

### What is modelled

| area | code | left out |
|------|------|----------|
| `IntervalTree` | all of `crates/interval-tree` | `range_mut` pairs, `Debug` |
| `Context` | `error.rs` (locations, file list, `register_error`), `config.rs`, `annotation.rs` | I/O of the configuration, message texts |
| `Lexer` | `lexer.rs` | UTF-8/Latin-1 conversion of collected bytes; `f32` parsing is a parameter |
| `Indents` | `indents.rs` | – |
| `Preproc` | `preprocessor.rs` | annotations, `danger_idents`; file system, expression parser and token display are parameters |
| `Parse` | the operator part of `parser.rs` (expressions, ternary, `in`, assignment, unary, index) | terms without operators are atoms; statements |
| `Term` | `parser.rs`: `group`, `term`, `follow`, `arguments`, `prefab_ex` and all they call | operators between terms (`Parse`): expressions are read by a parameter; messages, locations, annotations; input types are the names in them |
| `Const` | `constants.rs` | interpolated strings; `powf`, trigonometry, HSV/HSL/HCY conversion are parameters; `f32` is an abstract rounding (`F32`) |
| `Objtree` | `objtree.rs` (builder, parent types, lookups, navigation) | locations, documentation, symbol ids beyond 30 bits |
| `Docs` | `docs.rs` | – |
| `Dmm` | `dmm.rs`, `dmm/read.rs`, `dmm/save_tgm.rs` | evaluation and display of variable values are parameters; writer of the old format |
| `Dmi` | `dreammaker/src/dmi.rs`, `dmm-tools/src/dmi.rs` (composite), `dmi/render.rs` | PNG decoding, GIF encoding |
| `Editor` | `history.rs`, `map_repr.rs`, parts of `map_renderer.rs` they need; of `editor.rs` the open maps and saving (`DeskModel`), the mouse handling and `find_closest_type`; `edit_prefab.rs`; `tools/place.rs`; zoom, scrolling and the tile under the mouse (`ViewModel`, `f32` as rationals); recent environments and the command line (`RecentModel`) | OpenGL, SDL, windows |
| `Langserver` | `document.rs`, `jrpc_io.rs`, `symbol_search.rs`, `color.rs`, the parts of `main.rs` that use them | everything else of `main.rs`, debugger, threads |
| `Check` | `dreamchecker/src/switch_rand_range.rs` | – |
| `CallTree` | `dreamchecker/src/lib.rs`: `check_proc_call_tree`, `propagate_violations`, `ProcDirective` | how calls, sleeps and impurities are found in a body; message texts; the object tree is reduced to the questions asked of it |
| `Flow` | `dreamchecker/src/lib.rs`: `ControlFlow`, `visit_block`, the control flow of `visit_statement`; `ast.rs`: `valid_for_range` | what is found out about expressions; `goto` (the theorems on reachability exclude it); runs are over-approximated (no values, labelled jumps act on any enclosing loop) |
| `Decl` | `parser.rs`: `run`, `tree_entries`, `tree_entry`, `tree_path`, `proc_params`, `input_specifier`, `read_any_tt` and what they call; on the tree of `Objtree` | doc comments, annotations, locations; expressions and proc bodies are parsed by parameters |
| `Stmt` | `parser.rs`: `block`, `statement`, `simple_statement`, `for_range`, `case`, `separated` and what they call; on the tokens and parts of `Decl` | annotations, locations, the messages of a body that has a fatal error; expressions are parsed by a parameter (`ExprP`) |
| `Minimap` | `minimap.rs` except the gfx types; `render_passes/`: the trait, selection, `HideInvisible`, `FancyLayers`, the three icon smoothings, `SmartCables`, loot drops; `icon_cache.rs` (`IconCache`) | i32/u32 overflow of pixel positions, error messages; the passes are arbitrary functions that only append (true of each pass); `IconCache` is a function; the parent links of a type are followed beforehand |
| `Typing` | `dreamchecker/src/lib.rs`: `run`, `visit_block`, `visit_statement`, `visit_var`, `visit_expression` and all it calls (terms, follows, calls, operators, filter checks), `static_type`, `type_expr.rs`, the return types in `gather_settings` | the finished object tree is taken as maps (parents without cycle, variables, procs, path resolution); message texts, notes, fix hints, assumption sets (nothing reads them) |
| `Refs` | `dm-langserver/src/find_references.rs`: all of it | the finished object tree as in `Typing`; symbol ids are what they stand for (C50); places are numbers; how often a place is listed |
| `Lookup` | `dm-langserver/src/completion.rs`: all of it but the texts; of `main.rs`: `find_type_context`, `find_unscoped_var`, `find_scoped_type`, `symbol_id_at`, hovers, `GotoDefinition`, `GotoTypeDefinition`, `Completion`, `SignatureHelpRequest` | which annotations are at a place (C05); the matching of typed text (C42, a parameter here); labels, details and locations |
| `Server` | of `dm-langserver/src/main.rs`: the driver (`handle_input` to `exit`, `Initialize`, `Shutdown`), `DiagnosticsTracker`, the threads of `parse_environment`, `FoldingRangeRequest`, `is_region_marker`, `DocumentSymbolRequest`, the object tree explorer (`update_objtree`, `QueryObjectTree`), document notifications and `get_annotations`; `background.rs` | JSON (serde, jsonrpc-core); threads joined by `exit`; what the parser and dreamchecker find (the maps are arbitrary); URLs (a parameter); poisoned locks |
| `Debug` | of `dm-langserver/src/debugger`: the debug database, breakpoints with extools and auxtools, line tables, frames and variables, the life of the game, sequence numbers and the request loop, framing and calls of both engines | the game itself (what it accepts and which calls are lost are parameters; it replaces a breakpoint at the same place; it answers calls in order); sockets (streams of chunks); JSON, bincode and DAP types; `extools_bundle`, `evaluate` of auxtools; `Path` (components); hash sets (lists) |
| `Cli` | of `dmm-tools-cli`: `diff-maps`, `minimap`, `render-many`, coordinates | the drawing (a parameter; C70); `Path::file_stem` (the stem is given); the file system (last write wins); external optimizers; `list-passes`, `map-info` |
| `Dmdoc` | of `dmdoc`: the index tree and its lines; references in texts, which pages are written and their anchors, the links of the templates; the page of a module; titles, teasers and headings over the events of pulldown-cmark; `as` clauses | the markup; pulldown-cmark; git information; the static template files |

Not modelled at all: I/O, threads, OpenGL/SDL, PNG decoding, serde, the debug protocol (auxtools/extools), the
type checker of dreamchecker, dmdoc's HTML, the minimap.

## Per property

| id | model | proof |
|----|-------|-------|
| C01–C04 | `Tree` with cached height and maximum, rotations, delete, insert; both iterators as stack machines | invariant (order, balance, caches) by induction over histories; refinement to a sorted association list; iterators by a measure |
| C05, C06 | locations as lexicographic triples, `pred`; annotation tree on the interval tree, zero-width entries | case analysis on bounds; C03 |
| C07, C08 | file list; `register_error` | induction over histories; case analysis on every configuration |
| C09–C11 | base 52 keys, `adjust_key_length`, coordinates in `i32` | arithmetic; induction on digits |
| C12, C13 | the reader as a state machine over characters, the TGM writer | simulation of the reader over the writer's output; invariant of the reader for every input it accepts |
| C14, C15 | the indentation processor | invariant over token streams; depth function |
| C16–C19 | the whole lexer | simulation: a lexeme grammar with the text it covers; C17 from the text before the token |
| C20 | `DefineMap` | refinement to a stack of definitions per name |
| C21 | the directive machine of the preprocessor with arbitrary token streams | relation between the text of a conditional and the machine; disabled regions by induction on nesting |
| C22 | the full step function with macros, includes | lexicographic measure over include stack and expansion depth |
| C43 | define history (an interval tree) | invariant between the events and the tree |
| C44 | object-like expansion | big-step expansion relation, simulation |
| C23, C24, C26, C45 | documents with UTF-16 positions, document store, cursor | induction on text; client and server histories in lockstep |
| C25 | header reader, frame writer | induction on messages; any interleaving of locked writers |
| C27, C28 | undo tree | history invariant against two stacks |
| C46–C48 | instance table with free list, draw calls, undo closures, save | representation invariant; commutation with an abstract multiset per tile; C27 for sessions |
| C29, C30, C49 | metadata parser, rectangles, rendering | offsets by a running sum; text of a rendered description parses back; arithmetic |
| C31, C32 | `Dir`, `composite` | complete case analysis on the enum; arithmetic, loops by induction |
| C33–C35, C50 | the builder's arena | invariants of a forest of paths; parent assignment; fuel suffices iff there is no cycle |
| C36, C54 | evaluation as a computation with lookups, memo table with marks | big-step relation (`Value`, `Folds`), cycles by a dependency relation; memoisation invariant |
| C37, C51–C53, C55 | operators on `F32`, `rgb()`, equality and hash, `is_truthy` | bit lemmas, rounding is exact below 2^24, mutual induction on terms |
| C38 | operator-precedence parser with the strength table | precedence grammar as inductive relation; soundness, completeness and uniqueness |
| C39 | sort and sweep over case ranges | the sweep's invariant against "some case matches"; exact least gap |
| C40 | prefix and suffix stripping in bytes | the affixes are common to all non-blank lines, so slices are on boundaries; filter lemmas for content |
| C41 | the regular expression as a function, `ColorFormat` | the function decides an inductive language; scan relation; replacement lemma |
| C42 | query parser and matchers | query relation; sublist and membership |
| C56 | breadth-first walk over frames (proc, receiver, exactness), visited set shared between roots | invariant: queue entries are waited for; every visited proc is explored; induction over the relation `Waits` |
| C57 | the same without receivers, one visited set per root; `impure_overrides` | reports are exactly transitive closure of calls; fold over the override forest |
| C58 | the map of a directive, copying from parents | copying changes no resolution, hence any order gives the same |
| C59 | `#define` lines, argument reading, `#`/`##` pasting, macro calls | rewriting relation `Expands` (MacroSpec.lean); simulation of each rule by steps of the reader |
| C60 | the whole reader | big-step relation `Program` (ProgramSpec.lean); simulation by induction on the derivation, using C21 for conditionals and C59 for text |
| C61 | control-flow checks | runs of a proc body as a relation with traces of places; a raised flag excludes completion (structural induction), then induction on the run |
| C62 | control-flow checks | every message has a source (structural induction); every part of a quiet proc is visited (induction on the path to it) |
| C63 | parser of declarations | grammar of well-formed declarations with meaning (Decl/Spec.lean: full paths, facts, `World`); simulation by induction on the source |
| C64 | same | fuel bounded by the number of tokens; invariant on node indices; witness of the panic through the `Indents` model |
| C65 | same | messages are only appended (induction on fuel); facts about different things commute |
| C66 | same | erasing code commutes with every operation (induction on fuel) |
| C67 | parser of proc bodies | grammar of bodies with meaning and messages (Stmt/Spec.lean); induction on the written body, with fuel made irrelevant by monotonicity |
| C68 | same | measure on the tokens left (Stmt/Fuel.lean), for all tokens |
| C69 | same reader as C12 | two runs of the reader side by side (the second on the other layout), by induction on the text (Dmm/ReadLayout.lean) |
| C70 | rendering of a rectangle of a level | what every pixel should be is a list of stamps in level coordinates from the bottom left (Minimap/Spec.lean); clipping, flipping and compositing proved equal to it sprite by sprite, the sort proved stable |
| C71 | same | sprites of the part = sprites of the whole inside it; sorting commutes with filtering; stamps that put nothing do not matter |
| C72 | `Layer::from(f32)` on the model of `f32` of C21 | exactness of 24 bit fractions, then integer arithmetic; witnesses outside |
| C73 | colour texts and variable lookup | digit by digit; induction on the ancestor chain |
| C74 | `Sprite::from_vars`, `get_atom_list`, the loop over the passes, `Neighborhood` | the lists are characterised by folds and flat maps over the passes; the neighbourhood in map directions |
| C75 | `configure`, `FancyLayers`, `HideInvisible` | words between commas; for every order `sort_unstable_by_key` may leave, the nearest ancestor is met first; built-in layers by cases on the path |
| C76 | the three icon smoothing passes | the bits of the junction proved equal to a relation on directions by cases on the eight neighbours; the looks follow |
| C77 | `SmartCables` | by cases on what the two tiles hold; the two views of a pair of tiles related through C74 |
| C78 | `pickweight` and loot drops | induction on the list; random numbers are arguments constrained to the range asked for |
| C79 | expressions, object tree lookups, the visitor returning type and effects; a separate set of typing rules and of rules for each effect | `exprIs_iff`: the visitor computes exactly the rules' judgement, by induction on expressions; `effects_iff`: effects are those of `Due` at the sites `At`; tables restated in `Tables.lean` |
| C80 | statements as a mutual inductive type, the walk returning control flow, local variables and reports; a separate spec of scoping (`After`, `InnerBlock`, `Stands`), of the expressions of a statement (`Looks`) and of what is due (`Own`) | `body_reports`: reports of the walk are exactly `Own` of the statements that `Stands` gives, by induction on statements; control flow is shown to be that of `Verif.Flow` (`ctl_stmt`) |
| C81 | the end of `run`, directives as functions | `run_override`, with `callsParent_iff` reducing the flag to an occurrence of `..()` |
| C82 | `used_kwargs` as a map with the three steps that fill and read it; keys as triples | `kwargs_sound`, `kwargs_complete`, `kwargs_once`: maps followed key by key, the latest definition as the last of a filtered list |
| C83 | `check_var_defs` with the loops over types, ancestors and variables | `varDefs_iff`: the ancestors before the root by induction along the chain, lookups in a list of unique names; `varDefs_unique`: induction along the inheritance |
| C84 | a small run-time semantics of expressions (`SoundSpec.lean`, not part of the code: values by type, variables and procs left to a `World`) beside the model of C79 | `accepted_runs`: mutual induction over runs and typing rules, with `Due` for what would have been reported; `most_honest`, `demoGood_runs`, `demoGood_value` for a world and runs; `missed_*` for what is accepted and fails |
| C85 | all of `find_references.rs` (`Refs`): the visitor of expressions and statements and the two passes over the tree | `references_iff`, `implementations_iff` against `Refs/Spec.lean`: static types as inference rules (`ExprIs`), places (`At`), what a place stands for (`Names`), bodies as sequences of declarations and expressions (`items`), last declaration counts (`Visible`); mutual induction over expressions, folds over items and pieces of code with the numbering of local symbols as invariant; `references_sorted`, `implementations_sorted`, `local_in_one_body` |
| C86 | `completion.rs` and the lookups of `main.rs` (`Lookup`), on the annotations at a place | `completion_iff`, `goto_iff`, `symbolAt_iff`, `gotoType_iff`, `signature_iff` against `Lookup/Spec.lean`: nearest ancestor as a relation (`Nearest`), the type of `a.b` (`ScopedTy`), paths (`FullPath`, `PathTy`), what is offered (`Offered`) and led to (`Leads`), without the loops of the code; induction along ancestors, over paths and over the seen-sets; agreement: `complete_then_goto`, `unscoped_then_goto`, `symbol_above_goto`, `symbol_var_listed`, `symbol_call_listed`, `symbol_field_listed`; `members_once`; `hoverVar_docs`, `hoverProc_docs`, `hover_lists` |
| C87 | the driver of `main.rs` (`Server/Rpc`), handlers and decoding as parameters | `main_session`, `main_exit` against `Server/RpcSpec.lean`: what a call does as a relation on the history of calls (`Does`, no status); invariant: the status stands for the history; `answered_once`, `session_count`, `session_idle`, `does_unique` |
| C88 | `DiagnosticsTracker` and the threads of `parse_environment` as a transition system with a lock, one publish per step (`Server/Diag`) | `build_get` by induction over errors; an invariant for every reachable state: `shown_last`, `one_sender`, `parser_first`, `quiet_all_sent`, `quiet_single`, `progress` |
| C89 | `FoldingRangeRequest`, `is_region_marker` (`Server/Fold`) | `foldingRanges_iff` against bracket matching by counting; invariant of the stack; `foldingRanges_sorted`, `foldingRanges_nested` |
| C90 | `DocumentSymbolRequest` on the annotations of the file (`Server/Outline`) | `documentSymbols_rows`, `documentSymbols_once`: the nested symbols, listed with their parents, against a flat specification (`rowsOf`, `parentOf`, `headerOf`); induction on the recursion with the open blocks; `parentOf_innermost`, `parentOf_none` |
| C91 | `SetBreakpoints` and `SetFunctionBreakpoints` for both engines, with the messages sent and the set of breakpoints of the game (`Debug/Breaks`) | `exSession_exact`, `auxSession_exact` against `Debug/BreaksSpec.lean`: the wishes of the editor as a recursion on the history of requests; invariants of the loops: the saved set is what the game has for the source |
| C92 | the debug database, the line tables of extools and the place of a frame (`Debug/Db`) | `getProc_iff`, `location_some`, `location_none`, `lineToOffset_iff`, `offsetToLine_of`, `frame_at_breakpoint` against `Numbered`, `Defines`, `Begins`; the order of the line table by induction on the sort |
| C93 | the requests `Threads`, `StackTrace`, `Scopes`, `Variables`, `Evaluate`, `Disassemble` for extools, the row names of auxtools (`Debug/Frames`) | `stackTrace_rows`, `frames_distinct`, `frame_scopes`, `scopes_distinct`, `localVars_rows`, `localVars_distinct`, `fields_rows`, ... against `FrameAt`, `GivenId`; arithmetic of ids as integers, induction on the rows with the table of names seen |
| C94 | the states and threads of `launched.rs` as a transition system, sequence numbers with threads between taking and writing a number, the loop of requests (`Debug/Session`) | `life_story`, `life_truthful`, `seq_perm`, `dap_responses`: inductive invariants on reachable states; induction on the requests |
| C95 | the two framings on streams that come in chunks; calls, answers, events, timeouts and reconnection as a transition system (`Debug/Link`) | `readLoop_messages`, `messages_unique`, `auxRun_messages` by induction on the chunks and messages; `own_answer`, `answer_comes` from the invariant that only the waiting call is on the way, in one place |
| C96 | the loops of `diff-maps` with equality of prefabs (`Cli/Model`) | `diff_exact`, `diff_empty_iff`, `diff_symm`, `diff_saved` against `tileAt`, `SameTile`: induction on the places; composes with C12 |
| C97 | corners, regions, names and writes of `minimap` and `render-many`, drawing as a parameter (`Cli/Model`) | `region_within`, `region_exact`, `minimap_files`, `renderMany_rows`, `renderMany_files`, `minimap_cmd_total`, `region_drawable` (composes with C70); names are injective, so the last write is the only one |
| C98 | the compiler of type expressions, `gather_settings` for return types, `to_typepath` on bits (`Typing/AnnModel`), with the evaluation of `Typing/Model` | `compile_accepts`, `annotation_means`, `gather_silent`, `wordsPath_iff`, `call_type` against `Accepted`, `AnnReads`, `CallReads`, `WordsPath` on the annotation as written (`Typing/AnnSpec`): induction on expressions and follows |
| C99 | `build_index_tree` and `combine` on a stack of frames, the lines of `index_tree_elem` (`Dmdoc/IndexModel`) | `index_order`, `index_paths`, `index_nested`, `index_once`, `index_substance`, `index_rows`, `index_rows_all` against `Lists`, `OnWay`, `ParentPath`, `TopPath`, `Inside` (`Dmdoc/IndexSpec`): the stack holds exactly the paths on the way to the last entry |
| C100 | `broken_link_fixer` over a given tree, macro history and files; the pages written in order and their anchors (`Dmdoc/LinkModel`) | `fix_leads`, `fix_reported`, `member_linked`, `global_linked`, `type_linked`, `macro_linked`, `file_linked`, `silent_names`, `corrected`, `external_builtin`, `member_unlinked` against `Published`, `Leads`, `Documents`, `Nearest`, `Names` (`Dmdoc/LinkSpec`) for an `Ordinary` world, of which `w1_ordinary` is one |
| C101 | `linkify_type`, `linkify_input_type`, the links of the templates (`Dmdoc/LinkModel`) | `linkify_leads`, `linkify_text`, `linkify_complete`, `linkify_list`, `word_leads`, `type_links_lead`, `arrow_nearest`, `module_links_lead`, `index_links_lead`, `type_page_iff` against the same specification |
| C102 | the loop that finishes a module with `push_docs!`, over `DocCollection` of C40 (`Dmdoc/ModuleModel`) | `module_laid`, `module_items`, `module_text`, `module_title` against `Laid`, `RunShown`, `Spaced` (`Dmdoc/ModuleSpec`); empty comments left over from earlier runs do not change a text (`text_skip`) |
| C103 | `parse_with_title`, `parse_main`, `HeadingLinker::next`, `slugify` on given events, with byte ranges (`Dmdoc/MarkdownModel`) | `title_spec`, `title_none`, `teaser_spec`, `teaser_none`, `teaser_total`, `headings_linked`, `linked_unique`, `slug_words`, `slug_chars` against `Linked`, `WordsOf` (`Dmdoc/MarkdownSpec`) |
| C104 | `matching_names`, `Display for InputType` on bits (`Dmdoc/AsModel`) | `as_same`, `as_words`, `as_joined`, `display_same`, `word_type` against the bits of the words (C98) |
| C105 | the explorer over the object tree model of C33-C35 (`Server/ExplorerModel`); locations and declarations are parameters | `lazy_is_eager`, `tree_complete`, `query_exact`, `members_exact`, `update_sends` against `openAll`, `Entry.all`, `Says` |
| C106 | `get_annotations` and the document notifications over the document store (`Server/SessionModel`); annotations stand for what they are made from | `made_from`, `answer_current`, `single_file_current` by induction on the history, against `Orderly` |
| C107 | `Background` with a thread per job (`Server/SessionModel`) | `poll_latest`, `table_from`, `busy_latest`: invariant over all histories |
| C108 | the open maps of the editor as a state machine over user actions, dialog answers and thread results (`Editor/DeskModel`), on top of the history model of C27/C28; what is done to maps is a parameter | `desk_ok`, `writes_asked`, `dialog_saves_its_map`, `answer_is_written`, `clean_means_saved` (invariant with the snapshot tree of C27), `save_writes`, `save_all`, `saved_as`, `close_spec`, `tab_cycle`, `open_once`, `prepared_current` |
| C109 | a frame of the variables window as a function of the clicks (`Editor/PrefabModel`), `find_closest_type` | `closest_type` (induction over the cut path), `frame_exact`, `frame_no_type`, `rows_sorted` |
| C110 | the palette loop and the brush as functions of the clicks of a frame (`Editor/PlaceModel`), with the history of C27 | `stroke_exact` (invariant over the frames), `stroke_on_map` (with the map of C46–C48), `stroke_undone`, `nothing_placed`, `frame_idle`, `frame_click`, `frame_remove`, `entry_frame`, `add_selected`, `pick_selected` |
| C111 | lookups as calls whose steps (read, load, insert) interleave freely with those of others and with changes of the files (`Minimap/IconCache`) | `retrieve_exact`, `retrieve_loaded`, `cached_stays` (invariants over the events), `call_ends`, `uniq_same` |
| C112 | the view as a state machine over mouse, wheel, keys and frames (`Editor/ViewModel`); `f32` as rationals | `tile_exact`, `tile_covers`, `target_current`, `zoom_levels` (inductions over the events), `scroll_inside`, `scroll_exact`, `drag_follows`, `zoom_keeps_middle` |
| C113 | `group`, `term` and all they call as functions on tokens (`Term/Model`), the expressions inside read by a parameter; how terms are written as a separate syntax with its tokens and meaning (`Term/Spec`) | `group_reads` (case by case, inductions over lists, paths, strings and what follows), `one_meaning`, `group_ends` (measure), `group_stops`, `nested_reads` (closes the recursion for expressions without operators) |
| C114 | the list, the file in its three states, start, command line and menu (`Editor/RecentModel`); sessions as folds over what is loaded; TOML is not modelled | `recent_exact`, `sessions_exact`, `recent_once`, `recent_order` (inductions over the history), `start_exact`, `reopens_last`, `crash_exact`, `again_same`, `menu_click` |

## Disagreements

Where the code violates the property one would want, the strongest true statement is proved and the failure is proved with
a concrete witness (all are in the manifest):

* C07 `file_limit_hands_out_bad_id`, `get_path_panics_on_next_id`: the 65535th file gets the id reserved for "bad".
* C69 `tab_in_string_is_lost`: a tab inside a quoted value of a map file is dropped by the reader.
* C70 `minimap_above_panics`: a rectangle reaching above the top of the level panics (to the right of it, columns are left transparent).
* C71 `Ex.part_lacks_overhang`: things on tiles outside the rectangle that reach into it are not drawn.
* C72 `layer_below_one`, `layer_tiny_negative`, `layer_saturates`: the layers 0.99999994, -1e-9 and everything from 32768 on sort wrongly.
* C73 `color_eight_white`, `color_nine_panics`: `#rrggbbaa` is drawn white, a ninth hexadecimal digit overflows `u32` (a panic in debug builds).
* C75 `slashes_win`: a configured path ending in several slashes is sorted by its full length and wins over a longer path.
* C76 `typepaths_never_match`: in 2016 smoothing a `canSmoothWith` list of type paths (rather than texts) matches nothing. `anchored_ignored`: the test for `/atom/movable` is on the text of the path, so no object counts as loose. `emptied_is_border`: a tile whose things were filtered out counts as the border of the map. `Ex.lone_neighbour_is_diagonal`: numbered smoothing draws a turf connected on a single side as a diagonal.
* C77 `link_one_way`: a tile with both a storage unit and a terminal is linked in one direction only.
* C78 `pick_weightless_panics`: weights that sum to less than one are a panic.
* C80: `a << b` as a statement looks at `a` twice and reports its errors twice; the start of `for(x = a to b)` is not looked at at all when the loop does not declare `x`; a local variable keeps the constant value of its declaration after assignments, so `var/p = /mob; p = /obj; p::owner` is wrongly reported.
* C81: `..()` inside `SpacemanDMM_unlint(..)`, inside the arguments of an undefined proc or in the start of such a `for` does not count, and the proc is reported for never calling its parent.
* C82: nothing is reported if the type called on has two definitions of the proc (the key is then written with `[idx/len]`: `kw_redefined_missed`) or inherits it (`kw_inherited_missed`); of a type with two definitions an older one that lacks a keyword is still reported when the newer one has it.
* C83: a variable declared by the root (a global one) does not count as declared above; a declaration in the built-in code that overrides a final or private variable is not reported either; a variable that several ancestors declare is reported once for each.
* C84: accepted, although a run ends at an undefined name: `(c ? a : b).x` with only `a` having `x` (`missed_ternary`), `(list + other)[1].x` (`missed_sum`), `(L += a).x` (`missed_compound`), `obj[i].x` (`missed_index`: indexing gives the type of the object itself), `obj.global_var` and `obj.global_proc()` (`missed_global`, `missed_globalProc`: lookups go on to the root), and `new /pixloc(nosuch)` (`missed_new`).
* C85: names in the arguments of an unqualified call of an unknown proc are not listed, while those of `global.f()` and `x.f()` are (example at 32 in `Refs/Examples.lean`); a local variable stays known after its block, so a later use of a variable of the type with the same name counts as the local one; `for(x = a to b)` with `x` declared before lists neither `x` nor what `a` names; values of `set` and `CRASH()`, and arguments of `new mini.expr()`, are not looked at; of several definitions of a proc on one type only the first is an implementation.
* C86 (examples in `Lookup/Examples.lean`): a variable without a type counts as of the root, so `x.` offers all globals and `x.score` leads to the global; a shadowing inner local variable is not found, the outer one is (the first one listed at the place, unlike C85, where the last declaration counts); local variables and parameters have no symbol, so Find References finds nothing for them under the cursor although the table has them; a global named `x.score` is listed by Find References but the cursor there finds nothing; `/obj/typo` leads to `/obj`; after `/type/proc/` a proc of an ancestor is not offered if the type overrides it; in blocks of declarations globals are offered as if they could be overridden; hovers show the docs of the farthest ancestor, not of the nearest.
* C87 `batch_of_one`, `empty_batch` (JSON-RPC wants an array, or an error), `batch_exit_unanswered`, `shutdown_with_params`, `eof_is_success`.
* C88 `stale_check`: checking threads of earlier runs are not cancelled or waited for, so a slow check of an old version can overwrite the findings for the new one, for good. Read but not modelled: when the environment cannot be opened, and in single-file mode, diagnostics are published without the tracker, so later sends do not erase them.
* C90 `empty_variable_panics` (not reachable: the parser makes no such annotation).
* C91 `exSession_shared_place_disagrees`: a function breakpoint and a line breakpoint at offset 0 share a place; removing one removes the other. `exRequest_second_game_disagrees`: saved breakpoints outlive the game, so a second game of the same adapter does not get them although they are answered as verified.
* C92 `getProc_kind_word_disagrees`: `/icon/proc/Turn` and `/icon/Turn` are numbered differently.
* C93 `deep_frame_disagrees`: the locals of frames with an id of 2^23-1 or more are taken for values of the game. `before_stop_disagrees`: before the first stop, asking for scopes panics. `threads_empty_stack_disagrees`: a thread with an empty stack makes Threads panic. `pointer_disagrees`: Disassemble refuses every instruction pointer that StackTrace gives. `zero_reference_disagrees`: reference 0 (no children) is that of the locals of frame 0. `aux_suffix_disagrees`: names of the game that look like suffixes collide.
* C94 `kill_not_terminated_disagrees`: a game that is killed is told as exited, not as terminated. `signal_reaped_disagrees`: a signal can be sent after the process was waited for. `relaunch_disagrees`: a second launch forgets the first game. `seq_order_disagrees`, `dap_order_disagrees`: sequence numbers are not in the order of the messages. `dap_panic_disagrees`: anything but a request ends the adapter.
* C95 `ex_stale_disagrees`, `aux_stale_disagrees`: the late answer to a call that was given up becomes the answer to the next call. `early_call_disagrees`: a call before the game connects ends the connection for good.
* C96 `diff_unknown_key_disagrees`: on a map with a key that is not in the dictionary, which the reader accepts, diff-maps panics.
* C97 `max_without_level_disagrees`: `--max x,y` draws only the first level. `same_stem_disagrees`, `twice_disagrees`: maps of the same name overwrite each other's pictures. `chunk_upper_disagrees`, `chunk_lower_disagrees`: corners of chunks are not clamped as the comment says. `exit_wraps_disagrees`: 256 failures count as success.
* C98 `index_without_type_ignored`: `param[_]` without `.type` is accepted and the `[_]` ignored. `path_separators_ignored`: `.foo.bar` is read as `/foo/bar`. `raw_missing_replaces`: a raw path to a missing type replaces an earlier annotation, other mistakes leave it. `override_not_annotated`: unlike `as ..`, an annotation does not count for overrides.
* C99 `shown_twice`: `code/a`, `code/a-b`, `code/a/c` in order show `code/a` twice, the second time as a placeholder.
* C100 `page_lost`: a type page overwrites the module page of the same name (`datum.dm` and `/datum`), so the link of a macro leads to a page without its anchor; this is why the theorems ask that no two pages have the same name. `markdown_not_linked`: a markdown file has a page but a reference to it is reported as not documented. `dry_run_wraps`: 256 messages give exit status 0.
* C101 `root_link_dead`: docs on the root type give a link to `global).html`. `no_modules_anchor`: the header links to `index.html#modules` even if that is not there.
* C102 `block_then_line`: a line comment that comes after a block comment ends up in the last paragraph of that, however far apart they are.
* C103 `same_anchor`: headings of the same words get the same anchor, and one without alphanumeric characters an empty one.
* C104 `displayed_movable`: error messages show `mob|obj|movable` for `movable`.
* C105: `n_procs` counts names, `procs` lists definitions, so the two may differ; an override of a constant is shown as a field.
* C106 `bad_change_stale`, `opened_late_stale`, `reparse_stale`: a list of changes of which one is bad, opening a document after a request about it, and parsing again all keep annotations of the text or of the macros before.
* C107 `references_stale`: after parsing again, requests use the table of the parse before until the new one is ready, although the numbers of symbols may have changed.
* C108 `failed_write_loses_star`, `untitled_has_no_star`, `close_discards`, `two_maps_one_file`, `reload_missed`, `unreadable_stays`: the star goes away even if writing failed; a new map has none; closing does not ask; Save As onto a file that is open elsewhere gives two maps with one file; an environment that arrives during a refresh does not reach the map; a file that cannot be read stays "loading".
* C109 `globals_offered`: for a path that is below no type the closest type is the root, and the global variables are offered as variables of the object.
* C110 `none_selected_after_remove`, `icon_stale`, `stroke_from_outside`, `level_change_missed`: removing the last entry while selected leaves none selected; Apply keeps the old icon; a stroke begun off the map continues the one before and skips its tiles; changing the level during a stroke skips the tile under the mouse.
* C111 `race_two_icons`, `failure_remembered`, `old_root_kept`: two threads draw different icons if the file changes between their loads; a file that could not be read is never looked at again; icons loaded before the root is set stay.
* C112 `zoom_is_stale`, `other_map_is_stale`, `drag_leaves_the_map`: the tile clicks act on is not looked up again when the zoom or the map changes without the mouse, so a click can act on another tile than shown, even one that is not on the map; dragging, unlike scrolling, leaves the map.
* C113 `empty_arguments_vanish`, `proc_reference_arguments_vanish`, `dot_path_leaves_the_brace`, `lone_slash`: an argument left out between commas is dropped and those behind it move up; arguments behind `x::f` are dropped; `.name{..}` leaves the brace; `/` alone is a path without a message.
* C114 `crash_forgets`, `twice_stays`: the file is emptied before it is written, so a crash at that point loses the list; entries that are twice in a file edited by hand stay.
* C12 `roundtrip_corrupts_quoted_string`, `roundtrip_loses_map_on_trailing_backslash`, `roundtrip_empty_dictionary`: variable
  values whose text has a quote or backslash next to the end, and maps without any tile type, do not survive.
* C13 `reader_panics_on_malformed`, `reader_accepts_unknown_key`, `reader_drops_rows`.
* C14 `indent_panics`, `indent_unmatched_passed_on`: unmatched closing brackets.
* C18 `block_comment_adjacent_closers`: `/*/` and `*/*/` touch.
* C19 `quote_not_roundtrip`: contents of raw strings need not be quotable.
* C21 `condition_swallows_next_line` (a function-like macro at the end of an `#if` eats the next line),
  `condition_takes_docs` (pending doc comments attach to what follows the condition).
* C22 `self_include_never_ends`: `#pragma multiple` and self-inclusion.
* C43 `history_forgets_in_included_file`.
* C23 `long_column_crosses_line`, `lone_cr_is_not_a_line`, `reversed_range_panics`.
* C25 `content_type_breaks_framing`, `content_type_first_ends_session`.
* C26 `open_twice_replaces`.
* C27 `redo_takes_oldest`: after undo and a new edit, redo of the older branch is what is offered.
* C29 `short_delays_shift`, `parse_panics`; C30 `rect_narrow_panics`, `rectOf_no_states`; C31 `cw90_southwest`;
  C32 `channel_wraps`, `transparent_loses_colour`, `composite_spills`, `composite_panics`; C49 `render_small_sheet_panics`.
* C34 `cycle_hangs`, C35 `climb_cycle`: a cycle of `parent_type` hangs every lookup.
* C36 `order_matters_for_non_const`, `error_leaves_mark`, `and_is_not_lazy`.
* C37 `negative_operand_is_zero`; C51 `rgb_ignores_names`, `rgb_space_panics`.
* C38 `missing_else`, `assignment_in_arm`.
* C39 `infinity_overflow`, `fraction_not_reported`, `unknown_case_ignored`.
* C41 `alpha_overflow`.
* C56 `called_root_never_checked`, `sleeping_root_missed`, `exact_call_hides_override`; C57 `impure_stack_later_steps`.
* C61 `doWhile_break_false_alarm`, `range_break_false_alarm`, `range_step_false_alarm`, `zero_range_false_alarm`,
  `doWhile_continue_false_alarm`: code that is run is called unreachable; C62 `code_after_return_missed`.
* C64 `unclosed_block_panics`, `crossed_brackets_panic`: `/a{n()(})` passes the indent processor and makes the parser panic;
  C65 `stray_brace_ends_reading`; C63 `absolute_path_among_variables`, `operator_slash_block`, `path_after_proc`.
* C67 `list_loop_forgets_its_type` (`for(var/x as mob in L)`), `rest_of_the_line_is_dropped` (`/proc/f() if(x) {} y;` loses
  `y` without a message), `semicolon_after_the_default`, `in_test_of_two_parts`.
* C59 `uncalled_macro_hides_next`, `empty_argument_pastes_neighbours`, `numbers_not_pasted` (against a C preprocessor).
* C46 `getInstance_misses`, `reload_leaves_old_vertices`; C47 `undo_delete_loses_turf`; C48 `emptied_tile_is_filled`.

Seen in the code but outside the model: the editor marks a map as clean even when writing the file failed; `find_word` of
the language server would underflow at the start of a line but is not called; `Constant::index` on a float key is off by
one; `pretty_print` of `lib.rs` underflows on an unmatched closing brace.

## Testing the theorems

`seeded/LOG.jsonl` has one line per wrong program: the definition, the edit, the claim it breaks and the theorems that
failed.  Edits written by hand follow realistic bugs; `tools/auto.py` draws edits at random (comparisons, constants,
swapped branches and projections) from every model file.  A survivor is either equivalent to the original or a reason to
tighten a theorem, and the log says which.
