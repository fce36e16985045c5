{
 "claims": [
  {
   "property": "C01",
   "status": "proved",
   "theorems": [
    "Verif.C01_lossless",
    "Verif.C08_source_file_parse_total",
    "Verif.C01_leaves_are_tokens"
   ],
   "note": "parse_text modelled end to end: lexer, token source, parser events, process, deferred sink, rowan builder; also for SourceFile::parse, and the leaves are exactly the lexer's tokens"
  },
  {
   "property": "C02",
   "status": "proved",
   "theorems": [
    "Verif.C02_total",
    "Verif.C02_parse_total"
   ],
   "note": "every panic and unbounded loop of lexer, parser and sinks is an explicit error value of the model"
  },
  {
   "property": "C03",
   "status": "proved",
   "theorems": [
    "Verif.C03_root"
   ],
   "note": ""
  },
  {
   "property": "C04",
   "status": "proved",
   "theorems": [
    "Verif.C04_tokenize_partitions",
    "Verif.C04_lengths_sum"
   ],
   "note": ""
  },
  {
   "property": "C05",
   "status": "proved",
   "theorems": [
    "Verif.C05_errors_are_token_ranges",
    "Verif.C05_errors_in_text_and_ordered"
   ],
   "note": ""
  },
  {
   "property": "C06",
   "status": "proved",
   "theorems": [
    "Verif.C06_error_ranges",
    "Verif.C06_reparse_ranges"
   ],
   "note": "lexer and parser errors; validation errors are C07/C08"
  },
  {
   "property": "C07",
   "status": "partial",
   "theorems": [
    "Verif.C07_error_ranges_partial",
    "Verif.C07_error_ranges_fails"
   ],
   "note": "false as stated: `x=[=\\` gives an error range past the end of the text; proved for files without such an unfinished long bracket. What exactly is reported for every file, and that such errors are off by exactly one byte, is C111."
  },
  {
   "property": "C08",
   "status": "proved",
   "theorems": [
    "Verif.C08_source_file_parse_total"
   ],
   "note": ""
  },
  {
   "property": "C09",
   "status": "proved",
   "theorems": [
    "Verif.C09_trivia_irrelevant"
   ],
   "note": ""
  },
  {
   "property": "C10",
   "status": "proved",
   "theorems": [
    "Verif.C10_well_nested"
   ],
   "note": ""
  },
  {
   "property": "C100",
   "status": "proved",
   "theorems": [
    "Verif.C100_errors",
    "Verif.C100_nodes",
    "Verif.C100_end",
    "Verif.C100_one_token"
   ],
   "note": "The table of constructs, messages and recovery tokens is Spec/Recovery.lean (`Stays`, `Skips`). At the end of the file the Error node is empty."
  },
  {
   "property": "C101",
   "status": "proved",
   "theorems": [
    "Verif.C101_initial_library",
    "Verif.C101_serving",
    "Verif.C101_success",
    "Verif.C101_success_events",
    "Verif.C101_exit_ends",
    "Verif.C101_closed",
    "Verif.C101_greetings",
    "Verif.C101_shutdown_fails",
    "Verif.C101_unanswered_fails"
   ],
   "note": "C101_shutdown_fails: contrary to the protocol, `exit` without `shutdown` also gives status 0; C101_unanswered_fails: a request whose task is in the queue at `exit` is never answered. lsp_server's handshake is modelled for both ways it may treat a request before initialize. The root of the workspace is never read by the code."
  },
  {
   "property": "C102",
   "status": "proved",
   "theorems": [
    "Verif.Server.C102_hash_order",
    "Verif.Server.C102_client",
    "Verif.Server.C102_per_document",
    "Verif.Server.C102_shown",
    "Verif.Server.C102_orders_visible"
   ],
   "note": "a simulation between two runs with the same events and any iteration orders; C102_orders_visible shows that the order of publications in one turn really depends on the iteration order"
  },
  {
   "property": "C103",
   "status": "proved",
   "theorems": [
    "Verif.C103_shape",
    "Verif.C103_tolerant"
   ],
   "note": "a Hoare calculus for the parts of open nodes, run over the whole grammar, then through the event processing and the sink; shapes in Spec/Tolerant.lean"
  },
  {
   "property": "C104",
   "status": "proved",
   "theorems": [
    "Verif.C104_required",
    "Verif.C104_optional",
    "Verif.C104_required_expr",
    "Verif.C104_optional_expr"
   ],
   "note": "counting symbols in the shapes of C103"
  },
  {
   "property": "C105",
   "status": "partial",
   "theorems": [
    "Verif.C105_builds_partial",
    "Verif.C105_lua",
    "Verif.C105_prog",
    "Verif.C105_expect_at",
    "Verif.C105_abandon_fails",
    "Verif.C105_kind",
    "Verif.C105_kind_fails"
   ],
   "note": "false of the code in one case, so the theorem excludes it: abandoning a marker right after precede leaves a dangling forward link (process panics, or the next node swallows the previous one); also kind() of the marker returned by change_kind is the old kind"
  },
  {
   "property": "C106",
   "status": "proved",
   "theorems": [
    "Verif.C106_never_waits"
   ],
   "note": "the lock operations of an event are written down from the code (when guards and snapshots are released is read off the statements); events that panic are left out"
  },
  {
   "property": "C107",
   "status": "proved",
   "theorems": [
    "Verif.C107_channels",
    "Verif.C107_ends",
    "Verif.C107_running"
   ],
   "note": "server and loader threads with their two channels and the drop order; the reader and writer threads of lsp_server are not modelled"
  },
  {
   "property": "C108",
   "status": "proved",
   "theorems": [
    "Verif.C108_stable",
    "Verif.C108_ids",
    "Verif.C108_token",
    "Verif.C108_block"
   ],
   "note": "about the id map made from a node that has a parent; the only caller passes the root and panics (C53_fails)"
  },
  {
   "property": "C109",
   "status": "proved",
   "theorems": [
    "Verif.C109_resolves",
    "Verif.C109_same_node"
   ],
   "note": "exact behaviour of C51 in all cases, empty nodes and stale pointers included"
  },
  {
   "property": "C11",
   "status": "partial",
   "theorems": [
    "Verif.C11_no_false_alarms_partial",
    "Verif.C11_no_false_alarms_fails"
   ],
   "note": "holds for the documented grammar except expression lists in generic for, where the code is proved to report a false error"
  },
  {
   "property": "C110",
   "status": "proved",
   "theorems": [
    "Verif.C110_reads",
    "Verif.C110_linear",
    "Verif.Lexer.C110_accept",
    "Verif.Lexer.C110_accept_count"
   ],
   "note": "The counting lexer (Model/LexerCost.lean) runs the functions of lua_lexer.rs on a source that counts Chars::next; over_lexMain shows that on the plain source they are the functions of Model/Lexer.lean, and C110_reads that both find the same tokens and errors. Not counted: comparing an identifier with the keywords, which is proportional to the identifier."
  },
  {
   "property": "C111",
   "status": "proved",
   "theorems": [
    "Verif.C111_validation",
    "Verif.C111_ranges"
   ],
   "note": "For every text, also with lexical and syntax errors. As a set of (message, range) pairs; the order is that of the nodes in the document (sourceFileParse_eq)."
  },
  {
   "property": "C112",
   "status": "proved",
   "theorems": [
    "Verif.C112_classes",
    "Verif.C112_keyword"
   ],
   "note": "For every text. Uses C75 (how each token is spelled)."
  },
  {
   "property": "C113",
   "status": "proved",
   "theorems": [
    "Verif.Codegen.C113_accessors",
    "Verif.Codegen.C113_lua",
    "Verif.Codegen.C113_checked_in",
    "Verif.Codegen.C113_label_fails",
    "Verif.Codegen.C113_method_fails"
   ],
   "note": "C113_accessors is for every grammar. The two _fails theorems show the two structs of Lua's grammar outside C113_lua. Parsing lua.ungram/ast_src.toml and rendering Rust source are not modelled; the grammar and the checked-in files are transcribed by tools/gen_codegen.py. The generator's rule for lists with a trailing separator returns only the first item: stated in `expected`."
  },
  {
   "property": "C114",
   "status": "partial",
   "theorems": [
    "Verif.Hir.C114_inner_partial"
   ],
   "note": "Missing: nothing in the repository calls collect_inner_items; and the ids are those of a map built for a node inside the file, because the map of the whole file cannot be built (C74_fails). Function statements and local functions with an empty parameter list `()` do not become items (C74_function_fails), which the theorem states through `kept`."
  },
  {
   "property": "C115",
   "status": "partial",
   "theorems": [
    "Verif.C115_manual_partial",
    "Verif.C115_for_fails",
    "Verif.C115_table_fails",
    "Verif.C115_escape_fails"
   ],
   "note": "Spec/Manual.lean is a transcription of the manual's grammar over token kinds, independent of the tree grammar of C02/C03. Partial because the property without the exceptions is false of the code: C115_for_fails (`for k in next,t do end`), C115_table_fails (`local a={}(f)[1]=2`) and C115_escape_fails (`a='\\065'`) are programs of the manual that get errors. Not covered: programs that use `goto` as a name (a keyword for lua-analyzer)."
  },
  {
   "property": "C116",
   "status": "proved",
   "theorems": [
    "Verif.Uri.C116_reading",
    "Verif.Uri.C116_abs_path",
    "Verif.Uri.C116_same_path",
    "Verif.Uri.C116_writing",
    "Verif.Uri.C116_url",
    "Verif.Uri.C116_round_trip",
    "Verif.Uri.C116_same_uri",
    "Verif.Uri.C116_same_uri_fails",
    "Verif.Uri.C116_distinct_fails"
   ],
   "note": "The functions of the url and percent-encoding crates are modelled from their source, for Unix; URL parsing is not modelled (a Url is any value). The two _fails theorems are instances a user may not expect: a canonical answer to a non-canonical URI, and a URI of another scheme taken for the file."
  },
  {
   "property": "C117",
   "status": "proved",
   "theorems": [
    "Verif.Uri.C117_strip_prefix",
    "Verif.Uri.C117_pop"
   ],
   "note": "std::path is modelled from its source, for Unix."
  },
  {
   "property": "C118",
   "status": "proved",
   "theorems": [
    "Verif.C118_replace",
    "Verif.C118_wrap",
    "Verif.C118_comment_fails"
   ],
   "note": "C118_replace is the general statement (trees compared without white space and comments); C118_wrap the eleven ways of wrapping a file; C118_comment_fails shows that the condition on the last comment is needed."
  },
  {
   "property": "C119",
   "status": "proved",
   "theorems": [
    "Verif.C119_splice",
    "Verif.C119_delete",
    "Verif.C119_apart_fails"
   ],
   "note": "C119_splice is the general statement (replace, insert, delete; trees compared without white space and comments); C119_delete the special case of taking statements out; C119_apart_fails shows that the condition on the seams is needed."
  },
  {
   "property": "C12",
   "status": "partial",
   "theorems": [
    "Verif.C12_error_free_derives_partial",
    "Verif.C12_accepts_iff_partial",
    "Verif.C12_unambiguous",
    "Verif.C12_error_free_derives_fails"
   ],
   "note": "holds for the documented grammar plus two silently accepted constructs; proved to fail for the documented grammar itself"
  },
  {
   "property": "C120",
   "status": "proved",
   "theorems": [
    "Verif.C120_order",
    "Verif.C120_report_unique",
    "Verif.C120_sorted_fails"
   ],
   "note": "C120_order: rows = one row per node, in document order, with the errors reported about it; their concatenation is exactly what is reported after the errors of parse_text. C120_report_unique: the errors of a row are determined by the node. C120_sorted_fails: the order is not that of the start offsets."
  },
  {
   "property": "C121",
   "status": "proved",
   "theorems": [
    "Verif.C121_conforms",
    "Verif.C121_never"
   ],
   "note": "An exact criterion for each of the 53 rules. Conforms is the hypothesis of C113_lua (generated accessors return what the rule says), so that C121 tells to which nodes C113_lua applies."
  },
  {
   "property": "C122",
   "status": "proved",
   "theorems": [
    "Verif.C122_seen",
    "Verif.C122_marks",
    "Verif.C122_clean",
    "Verif.C122_manual"
   ],
   "note": "End to end; which texts are accepted is C78, what the errors are is C83/C111/C120. Documents that were closed and reopened: C94. The conformance of the client is AllAdmissible/Follows of Spec/Client.lean."
  },
  {
   "property": "C123",
   "status": "proved",
   "theorems": [
    "Verif.C123_exchange",
    "Verif.C123_accepted",
    "Verif.C123_number_fails",
    "Verif.C123_exchange_example",
    "Verif.C123_accepted_example",
    "Verif.C123_digits_example",
    "Verif.C123_digits_fails",
    "Verif.C123_long_example",
    "Verif.C123_long_fails"
   ],
   "note": "The excluded cases (a name or number directly behind a number, a long string directly behind `[`) are necessary: C123_number_fails, C123_digits_fails, C123_long_fails. Exchanges for block comments are not covered (a block comment needs its line to end behind it, C82)."
  },
  {
   "property": "C124",
   "status": "proved",
   "theorems": [
    "Verif.C124_paste",
    "Verif.C124_example",
    "Verif.C124_open_fails"
   ],
   "note": "Self-closing kinds: expressions in parentheses, tables, functions, indices, argument and parameter lists, and the statements that end in `end`. For other constructs it is false (C124_open_fails)."
  },
  {
   "property": "C125",
   "status": "proved",
   "theorems": [
    "Verif.C125_alone",
    "Verif.C125_double",
    "Verif.C125_halve",
    "Verif.C125_example"
   ],
   "note": "Corollaries of C124_paste with the surrounding fixed; `around` (Spec/Alone.lean) lists what is put around each kind."
  },
  {
   "property": "C126",
   "status": "proved",
   "theorems": [
    "Verif.C126_wrap",
    "Verif.C126_places",
    "Verif.C126_example",
    "Verif.C126_fails"
   ],
   "note": "C126_fails shows that none of the three conditions can be dropped; C126_places: no place of an expression is left out."
  },
  {
   "property": "C127",
   "status": "proved",
   "theorems": [
    "Verif.C127_alone",
    "Verif.C127_paren",
    "Verif.C127_replace",
    "Verif.C127_example",
    "Verif.C127_fails"
   ],
   "note": "C127_fails: without the parentheses the other expression may be read differently (`c or d` in the place of the `a` of `a*b`). The places are those of C126."
  },
  {
   "property": "C128",
   "status": "proved",
   "theorems": [
    "Verif.C128_replace",
    "Verif.C128_fits",
    "Verif.C128_tokens_lexemes",
    "Verif.C128_example",
    "Verif.C128_fails"
   ],
   "note": "C128_fails: a long string in the place of an index (the brackets run together), an expression that can be called in front of `(`, and the call that is a statement. With C127 (the same with parentheses, at all places)."
  },
  {
   "property": "C129",
   "status": "proved",
   "theorems": [
    "Verif.C129_replace",
    "Verif.C129_fits",
    "Verif.C129_name",
    "Verif.C129_example",
    "Verif.C129_fails"
   ],
   "note": "C129_fails: directly behind a number, `(` behind what can be called, something that starts with a table as a statement, and the method behind `:`. With C127 (any expression in parentheses) and C128 (any expression between separators)."
  },
  {
   "property": "C13",
   "status": "partial",
   "theorems": [
    "Verif.C13_precedence_partial",
    "Verif.C13_precedence_fails"
   ],
   "note": "holds for operators of different levels and for equal operators; proved to fail for different operators of the same level (a + b - c); exactly what happens, without exceptions, is proved in C85, C87"
  },
  {
   "property": "C130",
   "status": "proved",
   "theorems": [
    "Verif.C130_replace",
    "Verif.C130_statement",
    "Verif.C130_target",
    "Verif.C130_example",
    "Verif.C130_fails"
   ],
   "note": "The places C127-C129 leave out. C130_fails: a field as a statement, a call as a target."
  },
  {
   "property": "C14",
   "status": "partial",
   "theorems": [
    "Verif.C14_string_terminated_partial",
    "Verif.C14_string_unterminated_partial",
    "Verif.C14_string_fails",
    "Verif.C14_nul_fails"
   ],
   "note": "holds for bodies whose only escapes are escaped delimiters or backslashes not before a delimiter; proved to fail for an escaped backslash before the closing quote and for NUL; exactly what happens, without exceptions, is proved in C82"
  },
  {
   "property": "C15",
   "status": "partial",
   "theorems": [
    "Verif.C15_long_string_partial",
    "Verif.C15_long_string_unterminated_partial",
    "Verif.C15_long_string_fails"
   ],
   "note": "holds for bodies without ] and backslash; proved to fail otherwise; exactly what happens, without exceptions, is proved in C82"
  },
  {
   "property": "C16",
   "status": "partial",
   "theorems": [
    "Verif.C16_line_comment",
    "Verif.C16_block_comment_partial",
    "Verif.C16_block_comment_fails",
    "Verif.C16_block_comment_level_fails"
   ],
   "note": "line comments in full; block comments in part, proved to fail in general; exactly what happens, without exceptions, is proved in C82"
  },
  {
   "property": "C17",
   "status": "proved",
   "theorems": [
    "Verif.C17_words"
   ],
   "note": ""
  },
  {
   "property": "C18",
   "status": "proved",
   "theorems": [
    "Verif.C18_longest_match"
   ],
   "note": ""
  },
  {
   "property": "C19",
   "status": "proved",
   "theorems": [
    "Verif.C19_whitespace_run",
    "Verif.C19_whitespace_tokens"
   ],
   "note": ""
  },
  {
   "property": "C20",
   "status": "partial",
   "theorems": [
    "Verif.C20_numeral_partial",
    "Verif.C20_numeral_fails"
   ],
   "note": "proved to fail for e+ exponents and others; exactly what happens, without exceptions, is proved in C82"
  },
  {
   "property": "C21",
   "status": "proved",
   "theorems": [
    "Verif.C21_relex"
   ],
   "note": ""
  },
  {
   "property": "C22",
   "status": "partial",
   "theorems": [
    "Verif.C22_no_errors_partial",
    "Verif.C22_token_tree_partial",
    "Verif.C22_token_partial",
    "Verif.C22_reparse_fails_token",
    "Verif.C22_reparse_fails_validation"
   ],
   "note": "For files without errors: if reparse reports no errors and the leaves of its tree are the tokens of the edited text, the tree is the one a full parse gives (token and block path). For edits that change one reparsable token the tree always agrees, and the errors too when neither text has errors. In general the property is false of the code: witnesses for a token that swallows new tokens and for validation errors that are not recomputed. Missing: files with errors under block reparsing.; exactly what happens, without exceptions, is proved in C95"
  },
  {
   "property": "C23",
   "status": "partial",
   "theorems": [
    "Verif.C23_text_partial",
    "Verif.C23_total_partial",
    "Verif.C23_text_fails",
    "Verif.C23_panics_trivia",
    "Verif.C23_panics_errors"
   ],
   "note": "The text is the edited text up to a lost part that starts with a block end; no panic unless a shrinking edit meets old errors or an edited block starts with trivia. The full property is false of the code: witnesses for lost text and for both panics.; exactly what happens, without exceptions, is proved in C95"
  },
  {
   "property": "C24",
   "status": "proved",
   "theorems": [
    "Verif.TokenSet.C24_contains_new",
    "Verif.TokenSet.C24_contains_union",
    "Verif.TokenSet.C24_contains_empty",
    "Verif.TokenSet.C24_new_eq_iff"
   ],
   "note": ""
  },
  {
   "property": "C25",
   "status": "proved",
   "theorems": [
    "Verif.C25_roundtrip",
    "Verif.C25_raw"
   ],
   "note": ""
  },
  {
   "property": "C26",
   "status": "proved",
   "theorems": [
    "Verif.TextEdit.apply_replaces",
    "Verif.TextEdit.Replaces.unique"
   ],
   "note": "for every text and every edit the builder accepts whose ranges are ranges of the text; both the one-edit and the general path, including the length assertion"
  },
  {
   "property": "C27",
   "status": "proved",
   "theorems": [
    "Verif.TextEdit.build_iff_disjoint",
    "Verif.TextEdit.build_order_irrelevant"
   ],
   "note": "std's stable sort is modelled by a stable insertion sort"
  },
  {
   "property": "C28",
   "status": "proved",
   "theorems": [
    "Verif.TextEdit.union_spec",
    "Verif.TextEdit.union_apply"
   ],
   "note": ""
  },
  {
   "property": "C29",
   "status": "proved",
   "theorems": [
    "Verif.TextEdit.applyToOffset_spec",
    "Verif.TextEdit.applyToOffset_same_char",
    "Verif.TextEdit.invalidatesOffset_iff",
    "Verif.TextEdit.invalidatesOffset_safe"
   ],
   "note": "the character at the offset is preserved if no edit starts exactly there (an insertion at the offset goes after it); an offset that invalidates_offset does not reject keeps both its neighbours"
  },
  {
   "property": "C30",
   "status": "proved",
   "theorems": [
    "Verif.LineIndex.offset_lineCol",
    "Verif.LineIndex.lineCol_spec",
    "Verif.LineIndex.lastLine_spec"
   ],
   "note": "texts below 2^32 bytes"
  },
  {
   "property": "C31",
   "status": "proved",
   "theorems": [
    "Verif.LineIndex.utf16_exact"
   ],
   "note": ""
  },
  {
   "property": "C32",
   "status": "partial",
   "theorems": [
    "Verif.Lsp.offset_spec_partial",
    "Verif.Lsp.offset_spec_fails"
   ],
   "note": "holds for texts without lone CR and positions of character boundaries within an existing line; proved false otherwise (columns not cut off, lone CR, middle of a surrogate pair, line past the end panics); exactly what happens, without exceptions, is proved in C88"
  },
  {
   "property": "C33",
   "status": "partial",
   "theorems": [
    "Verif.Lsp.position_roundtrip",
    "Verif.Lsp.range_roundtrip",
    "Verif.Lsp.position_client_fails",
    "Verif.Lsp.position_client_exact",
    "Verif.Lsp.range_client_exact"
   ],
   "note": "server side holds for every boundary (position_roundtrip, range_roundtrip); the client side is proved exactly (position_client_exact, range_client_exact): it holds if and only if every carriage return before the place is followed by a line feed before it, and otherwise the client sees an earlier place, so the property is false as stated (position_client_fails)"
  },
  {
   "property": "C34",
   "status": "proved",
   "theorems": [
    "Verif.Stdx.partitionPoint_in_bounds",
    "Verif.Stdx.partitionPoint_spec"
   ],
   "note": ""
  },
  {
   "property": "C35",
   "status": "proved",
   "theorems": [
    "Verif.Lsp.applyDocumentChanges_sequential",
    "Verif.Lsp.applyDocumentChanges_conforming"
   ],
   "note": "for every list of changes whose ranges do not end on an earlier line than they start; for conforming changes also without panic and equal to the text the protocol prescribes"
  },
  {
   "property": "C36",
   "status": "proved",
   "theorems": [
    "Verif.C36_vfs_total",
    "Verif.C36_vfs_is_a_map",
    "Verif.C36_vfs_iter"
   ],
   "note": "every sequence of writes and takes; the only panic is more than 2^32-1 distinct paths"
  },
  {
   "property": "C37",
   "status": "proved",
   "theorems": [
    "Verif.C37_ids_stable_unique"
   ],
   "note": ""
  },
  {
   "property": "C38",
   "status": "proved",
   "theorems": [
    "Verif.C38_write_reports_change",
    "Verif.C38_take_changes"
   ],
   "note": ""
  },
  {
   "property": "C39",
   "status": "proved",
   "theorems": [
    "Verif.C39_db_follows_vfs",
    "Verif.C39_db_follows_history"
   ],
   "note": "every history of events and every hash iteration order"
  },
  {
   "property": "C40",
   "status": "partial",
   "theorems": [
    "Verif.C40_batch_panics_partial",
    "Verif.C40_batch_fails"
   ],
   "note": "the property is false: exact condition for the panic proved, with a witness; exactly what happens, without exceptions, is proved in C90"
  },
  {
   "property": "C41",
   "status": "proved",
   "theorems": [
    "Verif.C41_one_response",
    "Verif.C41_outcomes"
   ],
   "note": ""
  },
  {
   "property": "C42",
   "status": "proved",
   "theorems": [
    "Verif.C42_after_shutdown",
    "Verif.C42_fresh_ids"
   ],
   "note": ""
  },
  {
   "property": "C43",
   "status": "partial",
   "theorems": [
    "Verif.C43_open_documents_mirrored_partial",
    "Verif.C43_lone_cr_fails"
   ],
   "note": "false for documents with lone carriage returns (witness); proved for all others, every interleaving; exactly what happens, without exceptions, is proved in C88, C89"
  },
  {
   "property": "C44",
   "status": "partial",
   "theorems": [
    "Verif.C44_no_panic_partial",
    "Verif.C44_no_panic_fails"
   ],
   "note": "proved except for the panics of C40 and C54, malformed notifications and unknown response ids, which do end the server; exactly what happens, without exceptions, is proved in C90"
  },
  {
   "property": "C45",
   "status": "partial",
   "theorems": [
    "Verif.C45_diagnostics_converge_partial",
    "Verif.C45_reopened_partial",
    "Verif.C45_drained",
    "Verif.C45_reopen_fails"
   ],
   "note": "false for documents closed and reopened (witness); proved for documents never closed; C94 gives the exact behaviour in all cases"
  },
  {
   "property": "C46",
   "status": "partial",
   "theorems": [
    "Verif.C46_close_clears",
    "Verif.C46_stays_clear_partial",
    "Verif.C46_stays_clear_fails"
   ],
   "note": "false if diagnostics are queued when the document is closed (witness); C94 gives the exact behaviour in all cases"
  },
  {
   "property": "C47",
   "status": "proved",
   "theorems": [
    "Verif.C47_changes_exact",
    "Verif.C47_diagnostics_for",
    "Verif.C47_equal"
   ],
   "note": ""
  },
  {
   "property": "C48",
   "status": "proved",
   "theorems": [
    "Verif.C48_first_128"
   ],
   "note": ""
  },
  {
   "property": "C49",
   "status": "proved",
   "theorems": [
    "Verif.Paths.C49_normalize",
    "Verif.Paths.C49_normalize_stable",
    "Verif.Paths.C49_normal_forms",
    "Verif.Paths.C49_no_dots",
    "Verif.Paths.C49_place_names",
    "Verif.Paths.C49_relative_fails",
    "Verif.Paths.C49_relative"
   ],
   "note": "Unix. normalize gives exactly the canonical path of the lexical place; the private normalize_path changes the meaning of relative paths (not exposed)."
  },
  {
   "property": "C50",
   "status": "proved",
   "theorems": [
    "Verif.Loader.C50_progress",
    "Verif.Loader.C50_files",
    "Verif.Loader.C50_run",
    "Verif.Loader.C50_invalidate",
    "Verif.Loader.C50_admissible"
   ],
   "note": "The disk is an arbitrary tree each time it is looked at; WalkDir is modelled on it. C50_admissible connects the loader to the hypothesis of the server theorems."
  },
  {
   "property": "C51",
   "status": "partial",
   "theorems": [
    "Verif.C51_resolves_partial",
    "Verif.C51_same_node_partial",
    "Verif.C51_error_free_partial",
    "Verif.C51_empty_block_fails"
   ],
   "note": "Proved for every tree and every non-empty node; in error-free files the pointer finds that very node. Empty nodes fail: the pointer to the empty body of `function f()end` does not resolve (the code panics)."
  },
  {
   "property": "C52",
   "status": "proved",
   "theorems": [
    "Verif.C52_walk",
    "Verif.C52_parents_first"
   ],
   "note": "For every tree and every callback."
  },
  {
   "property": "C53",
   "status": "partial",
   "theorems": [
    "Verif.C53_fails",
    "Verif.C53_errors_fail",
    "Verif.C53_ids_partial",
    "Verif.C53_pointers_unique",
    "Verif.C53_error_free_partial"
   ],
   "note": "As stated it fails: from_source asserts that the node has a parent and is only called with the root. Apart from the assertion: every item of an error-free file has an id, different items have different ids, the id leads back to that very item unless it is an empty block."
  },
  {
   "property": "C54",
   "status": "partial",
   "theorems": [
    "Verif.C54_configuration_partial",
    "Verif.C54_configuration_fails"
   ],
   "note": "a relative library path ends the server; exactly what happens, without exceptions, is proved in C91, C101"
  },
  {
   "property": "C55",
   "status": "proved",
   "theorems": [
    "Verif.BindingPowers.C55_builds_iff",
    "Verif.BindingPowers.C55_declaration_order",
    "Verif.BindingPowers.C55_distinct",
    "Verif.BindingPowers.C55_associativity",
    "Verif.BindingPowers.C55_undeclared",
    "Verif.BindingPowers.C55_redeclared"
   ],
   "note": "u8 overflow included."
  },
  {
   "property": "C56",
   "status": "proved",
   "theorems": [
    "Verif.Accept.C56_single",
    "Verif.Accept.C56_seq",
    "Verif.Accept.C56_while",
    "Verif.Accept.C56_until",
    "Verif.Accept.C56_repeat"
   ],
   "note": "exact for the pairs of combinators the lexer uses; a Not in second position of a sequence accepts at the end of the text (C56_seq_not_fails)"
  },
  {
   "property": "C57",
   "status": "partial",
   "theorems": [
    "Verif.C57_quoted_escapes_partial",
    "Verif.C57_decimal_escape_fails",
    "Verif.C57_call_string_fails",
    "Verif.C57_long_string_fails"
   ],
   "note": "false as stated: decimal escapes and long strings are flagged, call-string arguments are not checked; exact for quoted literal nodes and one-character escapes; exactly what happens, without exceptions, is proved in C83"
  },
  {
   "property": "C58",
   "status": "partial",
   "theorems": [
    "Verif.C58_expr_stmt_partial",
    "Verif.C58_expr_stmt_fails"
   ],
   "note": "false as stated: extra parenthesised expressions pass validation (`f(),(x)`); exactly what happens, without exceptions, is proved in C83"
  },
  {
   "property": "C59",
   "status": "partial",
   "theorems": [
    "Verif.C59_assign_partial",
    "Verif.C59_assign_fails"
   ],
   "note": "false as stated: `(a)=1` passes validation; exactly what happens, without exceptions, is proved in C83"
  },
  {
   "property": "C60",
   "status": "partial",
   "theorems": [
    "Verif.C60_library_loaded_partial",
    "Verif.C60_initial_library_fails"
   ],
   "note": "the library the server is started with is never loaded; exactly what happens, without exceptions, is proved in C91, C101"
  },
  {
   "property": "C61",
   "status": "proved",
   "theorems": [
    "Verif.Paths.C61_parent",
    "Verif.Paths.C61_parent_exact",
    "Verif.Paths.C61_join"
   ],
   "note": "Unix. C61_parent_exact: the parent makes all steps of the path but the last."
  },
  {
   "property": "C62",
   "status": "proved",
   "theorems": [
    "Verif.C62_messages",
    "Verif.C62_places",
    "Verif.C62_source_file"
   ],
   "note": "All 10 message forms of the grammar; nextKind is the specification of 'the token at the error'."
  },
  {
   "property": "C63",
   "status": "partial",
   "theorems": [
    "Verif.C63_name",
    "Verif.C63_nameRef",
    "Verif.C63_nameRef_clean",
    "Verif.C63_ident",
    "Verif.C63_ref_ident",
    "Verif.C63_nameRef_fails"
   ],
   "note": "NameRef::text panics for a missing name after a syntax error (C63_nameRef_fails, `goto`); Name::text is proved for every file."
  },
  {
   "property": "C64",
   "status": "partial",
   "theorems": [
    "Verif.C64_op",
    "Verif.C64_operands_partial",
    "Verif.C64_prefix_partial",
    "Verif.C64_operands_fails",
    "Verif.C64_prefix_fails"
   ],
   "note": "operands in parentheses are not expressions for the accessors, so lhs of `(a)+b` is b."
  },
  {
   "property": "C65",
   "status": "proved",
   "theorems": [
    "Verif.C65_sourceFile",
    "Verif.C65_functionExpr",
    "Verif.C65_localFunction",
    "Verif.C65_function",
    "Verif.C65_for",
    "Verif.C65_while",
    "Verif.C65_repeat",
    "Verif.C65_do",
    "Verif.C65_else",
    "Verif.C65_break",
    "Verif.C65_if",
    "Verif.C65_elseIf"
   ],
   "note": ""
  },
  {
   "property": "C66",
   "status": "partial",
   "theorems": [
    "Verif.C66_while_partial",
    "Verif.C66_repeat_partial",
    "Verif.C66_paren_partial",
    "Verif.C66_index_partial",
    "Verif.C66_indexExpr_partial",
    "Verif.C66_dotExpr_partial",
    "Verif.C66_call_partial",
    "Verif.C66_positional_partial",
    "Verif.C66_keyValue_partial",
    "Verif.C66_if_partial",
    "Verif.C66_elseIf_partial",
    "Verif.C66_condition_fails",
    "Verif.C66_index_fails"
   ],
   "note": "an operand in parentheses is not returned; otherwise right."
  },
  {
   "property": "C67",
   "status": "partial",
   "theorems": [
    "Verif.C67_stmts_partial",
    "Verif.C67_do_fails"
   ],
   "note": "`do ... end` is not listed; all other statements are, in order."
  },
  {
   "property": "C68",
   "status": "proved",
   "theorems": [
    "Verif.C68_assign",
    "Verif.C68_exprStmt",
    "Verif.C68_numericFor",
    "Verif.C68_genericFor",
    "Verif.C68_goto",
    "Verif.C68_method",
    "Verif.C68_static",
    "Verif.C68_labelDelim",
    "Verif.C68_names",
    "Verif.C68_path",
    "Verif.C68_params",
    "Verif.C68_local",
    "Verif.C68_assign_sides",
    "Verif.C68_tableSep"
   ],
   "note": ""
  },
  {
   "property": "C69",
   "status": "partial",
   "theorems": [
    "Verif.C69_exprs_partial",
    "Verif.C69_exprs_fails"
   ],
   "note": "expressions in parentheses are not listed."
  },
  {
   "property": "C70",
   "status": "partial",
   "theorems": [
    "Verif.C70_function_fails",
    "Verif.C70_for_fails",
    "Verif.C70_genericFor_fails",
    "Verif.C70_keyValue_fails",
    "Verif.C70_static_fails",
    "Verif.C70_return_fails",
    "Verif.C70_args_fails",
    "Verif.C70_table_fails",
    "Verif.C70_items_fails",
    "Verif.C70_values_fails",
    "Verif.C70_argDots_fails"
   ],
   "note": "the accessors listed always return nothing (proved for every file)."
  },
  {
   "property": "C71",
   "status": "partial",
   "theorems": [
    "Verif.C71_method_partial",
    "Verif.C71_callArgs",
    "Verif.C71_receiver_fails",
    "Verif.C71_name_fails"
   ],
   "note": "the receiver is wrong if it is in parentheses, the method name is wrong if the receiver is a plain name."
  },
  {
   "property": "C72",
   "status": "proved",
   "theorems": [
    "Verif.C72_literal",
    "Verif.C72_tokens"
   ],
   "note": "Literal::kind in every file, the token accessors in error-free ones."
  },
  {
   "property": "C73",
   "status": "partial",
   "theorems": [
    "Verif.C73_label_partial",
    "Verif.C73_label_fails"
   ],
   "note": "finish always returns the first delimiter."
  },
  {
   "property": "C74",
   "status": "partial",
   "theorems": [
    "Verif.Hir.C74_fails",
    "Verif.Hir.C74_errors_fail",
    "Verif.Hir.C74_localAssign_partial",
    "Verif.Hir.C74_localFunction_partial",
    "Verif.Hir.C74_function_fails",
    "Verif.Hir.C74_method_partial",
    "Verif.Hir.C74_static_partial",
    "Verif.Hir.C74_plainName_partial"
   ],
   "note": "As stated it fails for every file: a panic for error-free ones, an empty item tree for the others. The lowering of single statements is proved exact; functions are always dropped, local functions with `()` too."
  },
  {
   "property": "C75",
   "status": "proved",
   "theorems": [
    "Verif.C75_tokens",
    "Verif.C75_tree",
    "Verif.C75_fixed",
    "Verif.C75_name",
    "Verif.C75_unique"
   ],
   "note": ""
  },
  {
   "property": "C76",
   "status": "proved",
   "theorems": [
    "Verif.C76_productions"
   ],
   "note": ""
  },
  {
   "property": "C77",
   "status": "proved",
   "theorems": [
    "Verif.C77_reparse_errors"
   ],
   "note": ""
  },
  {
   "property": "C78",
   "status": "proved",
   "theorems": [
    "Verif.C78_accepted",
    "Verif.C78_parses"
   ],
   "note": "Exact (iff), so it also pins the deviations recorded under C12, C57, C58 and C59."
  },
  {
   "property": "C79",
   "status": "proved",
   "theorems": [
    "Verif.C79_stmt",
    "Verif.C79_stmtItem",
    "Verif.C79_functionDefContent",
    "Verif.C79_expr",
    "Verif.C79_forContent",
    "Verif.C79_tableContent",
    "Verif.C79_tableKey",
    "Verif.C79_children",
    "Verif.C79_blockLike",
    "Verif.C79_struct",
    "Verif.C79_struct_one",
    "Verif.C79_wrapper_fails"
   ],
   "note": "every union type and every struct type of the typed tree, and is_block_like on error-free files; C79_wrapper_fails: the four wrapper nodes around contents cast to no type at all"
  },
  {
   "property": "C80",
   "status": "partial",
   "theorems": [
    "Verif.C80_tokens_partial",
    "Verif.C80_true_fails"
   ],
   "note": "true for Ident, Number, Str, Comment, Whitespace; no token of any file casts to True or False."
  },
  {
   "property": "C81",
   "status": "partial",
   "theorems": [
    "Verif.Hir.C81_items_partial"
   ],
   "note": "Proved for every list of item statements of an error-free file with the ids made from a node that has a parent; missing: the code only makes ids from the root, which panics (C74_fails), and drops functions."
  },
  {
   "property": "C82",
   "status": "proved",
   "theorems": [
    "Verif.C82_first_token",
    "Verif.C82_rules_total",
    "Verif.C82_tokenize"
   ],
   "note": "The rules are the inductive predicates of Spec/Reads.lean. They are lua-analyzer's own rules; where they differ from Lua's is the subject of C14, C15, C16 and C20."
  },
  {
   "property": "C83",
   "status": "proved",
   "theorems": [
    "Verif.C83_validation",
    "Verif.C83_accepts"
   ],
   "note": "Spec/Complaints.lean says when there is reason to complain, in terms of the nodes and tokens of the file."
  },
  {
   "property": "C84",
   "status": "proved",
   "theorems": [
    "Verif.C84_unambiguous",
    "Verif.C84_derivation"
   ],
   "note": "For every dialect-accepted derivation and every text; strip is defined in Spec/Grouping.lean."
  },
  {
   "property": "C85",
   "status": "proved",
   "theorems": [
    "Verif.C85_infix",
    "Verif.C85_prefix",
    "Verif.C85_levels"
   ],
   "note": "Edges are relations on nodes (Spec/Grouping.lean); the levels are the table of Spec/LuaGrammar.lean that C74/C13 compare with Lua's."
  },
  {
   "property": "C86",
   "status": "proved",
   "theorems": [
    "Verif.C86_trivia",
    "Verif.C86_rule"
   ],
   "note": "For texts with errors too."
  },
  {
   "property": "C87",
   "status": "proved",
   "theorems": [
    "Verif.C87_parse"
   ],
   "note": "Equivalence; MadeOf and TriviaRule are in Spec/Grouping.lean, the grammar in Spec/LuaGrammar.lean."
  },
  {
   "property": "C88",
   "status": "proved",
   "theorems": [
    "Verif.Lsp.C88_offset",
    "Verif.Lsp.C88_changes",
    "Verif.Lsp.C88_forward",
    "Verif.Lsp.C88_applies",
    "Verif.Lsp.C88_lines",
    "Verif.Lsp.C88_backward_fails"
   ],
   "note": "Exact complement to C32/C35; C88_changes holds for every list of changes; C88_forward for those whose ranges do not end on an earlier line than they start (C88_backward_fails shows why)."
  },
  {
   "property": "C89",
   "status": "proved",
   "theorems": [
    "Verif.C89_documents"
   ],
   "note": "Exact complement to C43: no assumption that the client follows the protocol."
  },
  {
   "property": "C90",
   "status": "proved",
   "theorems": [
    "Verif.C90_dies"
   ],
   "note": "Exact complement to C40, C44 and C54; Spec/Fatal.lean lists the fatal events."
  },
  {
   "property": "C91",
   "status": "proved",
   "theorems": [
    "Verif.C91_libraries"
   ],
   "note": "Exact complement to C60."
  },
  {
   "property": "C92",
   "status": "proved",
   "theorems": [
    "Verif.C92_steps",
    "Verif.C92_tree"
   ],
   "note": "Steps are calls of the parser's primitives (Spec/Steps.lean). Every loop of the grammar makes such a call in each iteration, so loops are counted. The lexer is counted in C110, the validation is not counted; C92_tree bounds the errors of lexing and parsing."
  },
  {
   "property": "C93",
   "status": "proved",
   "theorems": [
    "Verif.C93_enough",
    "Verif.C93_overflow",
    "Verif.C93_valid_program_overflows"
   ],
   "note": "Depth counts simultaneous calls of expr_bp and block, the two functions every recursion goes through. C93_enough also shows that the model's fuel has no influence on its results."
  },
  {
   "property": "C94",
   "status": "proved",
   "theorems": [
    "Verif.C94_client_view",
    "Verif.C94_settled",
    "Verif.C94_closed"
   ],
   "note": "Gives the exact behaviour in the cases in which C45 and C46 fail."
  },
  {
   "property": "C95",
   "status": "proved",
   "theorems": [
    "Verif.C95_unfit",
    "Verif.C95_token",
    "Verif.C95_agree",
    "Verif.C95_block",
    "Verif.C95_full"
   ],
   "note": "Exact case analysis of reparse. The new block's text and errors are given by C23_text_partial and C77. The cases are those of Spec/Reparsing.lean."
  },
  {
   "property": "C96",
   "status": "proved",
   "theorems": [
    "Verif.C96_tokens",
    "Verif.C96_nodes",
    "Verif.C96_errors",
    "Verif.C96_edit",
    "Verif.C96_one_token_is_not_enough",
    "Verif.C96_checks_look_further"
   ],
   "note": "About the lexer, the parser and the tree builder (parseText). The two tokens and the positions are defined in Spec/Stability.lean from the public tokenizer only. The last two theorems show that neither the distance nor the restriction to parse errors can be weakened."
  },
  {
   "property": "C97",
   "status": "proved",
   "theorems": [
    "Verif.C97_join",
    "Verif.C97_join_fails"
   ],
   "note": "C97_join: for all pairs of error-free files meeting the two seam conditions; C97_join_fails: pairs showing that neither condition can be dropped"
  },
  {
   "property": "C98",
   "status": "proved",
   "theorems": [
    "Verif.C98_loaded",
    "Verif.C98_steady",
    "Verif.C98_safe",
    "Verif.C98_settles",
    "Verif.C98_removed_library_fails",
    "Verif.C98_deleted_file_fails",
    "Verif.C98_unreadable_file_fails"
   ],
   "note": "Two threads with two channels (Model/Running.lean). Library paths are taken to be directories or missing (not regular files); storing files is bounded by the 32-bit ids. The three _fails theorems show what users might expect and does not hold."
  },
  {
   "property": "C99",
   "status": "proved",
   "theorems": [
    "Verif.C99_tokens",
    "Verif.C99_completable",
    "Verif.C99_unfinished",
    "Verif.C99_wrong",
    "Verif.C99_completable_fails"
   ],
   "note": "C99_completable_fails: `function a.:(` shows that the exception is needed. The continuation is written with one word per token; the checks made after parsing (C83) are not part of this property."
  }
 ]
}
