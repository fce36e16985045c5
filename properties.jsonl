{"id": "C01", "title": "Parsing is lossless", "statement": "SourceFile::parse(text) produces a tree whose text (the concatenation of the text of its leaf tokens, in order) is exactly `text`, for every input, valid Lua or not.", "quantifier": "every finite sequence of Unicode scalar values used as source text", "why_tests_cant": "the set of texts, in particular of malformed texts that exercise error recovery, is infinite; a fuzzer can only sample it", "anchors": ["crates/syntax/src/lib.rs: SourceFile::parse", "crates/syntax/src/parsing.rs: parse_text", "crates/syntax/src/parsing/text_tree_sink.rs: DeferedTextTreeSink"]}
{"id": "C02", "title": "Parsing never panics and always terminates", "statement": "SourceFile::parse's lexing, parsing and tree building stages return normally on every text: no assertion, index, slice or unwrap fails, no marker is dropped unfinished and no loop runs forever.", "quantifier": "every source text", "why_tests_cant": "error-recovery loops terminate only if every iteration consumes a token, over unbounded malformed input", "anchors": ["crates/parser/src/grammar.rs", "crates/parser/src/grammar/statements.rs", "crates/parser/src/grammar/expressions.rs", "crates/parser/src/event.rs: process", "crates/syntax/src/parsing/text_tree_sink.rs"]}
{"id": "C03", "title": "The tree root is a SourceFile holding one Block that holds everything", "statement": "For every text, the root node of the parse has kind SourceFile, its only child is a Block node, and all tokens of the file, including leading and trailing comments and whitespace, are inside that Block.", "quantifier": "every source text", "why_tests_cant": "depends on the deferral counters of the tree sink over arbitrary nesting of node starts and finishes", "anchors": ["crates/syntax/src/parsing.rs: DEFER_AMOUNT", "crates/syntax/src/parsing/text_tree_sink.rs: DeferedTextTreeSink", "crates/parser/src/grammar.rs: root"]}
{"id": "C04", "title": "The lexer partitions the text", "statement": "tokenize(text) yields tokens that are all non-empty, whose lengths add up to the byte length of the text and each of which starts and ends on a character boundary; it terminates without panicking.", "quantifier": "every source text", "why_tests_cant": "must hold for every Unicode text, including NULs, lone quotes and unterminated brackets", "anchors": ["crates/syntax/src/lexer.rs: tokenize, tokenizer, first_token", "crates/syntax/src/lua_lexer.rs: LuaLexer::lex_main"]}
{"id": "C05", "title": "Lexer errors point at the offending token", "statement": "Every error returned by tokenize(text) has as its range exactly the range of one token of the returned token list, hence lies inside the text, and error ranges come in increasing order.", "quantifier": "every source text", "why_tests_cant": "needs offsets accumulated over arbitrarily many tokens", "anchors": ["crates/syntax/src/lexer.rs: tokenizer, first_token"]}
{"id": "C06", "title": "Syntax error ranges lie inside the text", "statement": "Every lexing or parsing error reported for a text has a range start <= end <= byte length of the text with both ends on character boundaries, so the editor can always display it.", "quantifier": "every source text", "why_tests_cant": "depends on sink position bookkeeping along every recovery path", "anchors": ["crates/syntax/src/parsing/text_tree_sink.rs: error, start_error_node, finish_error_node", "crates/syntax/src/parsing.rs: parse_text"]}
{"id": "C07", "title": "Escape-validation error ranges lie inside their string token", "statement": "Every error that validation reports about a string literal has a range inside that string token, hence inside the text.", "quantifier": "every source text containing a string literal", "why_tests_cant": "the offset arithmetic must be right for every delimiter length, escape position and multi-byte character", "anchors": ["crates/syntax/src/validation.rs: validate_literal, unescape_str", "crates/syntax/src/lib.rs: SourceFile::parse"]}
{"id": "C08", "title": "Validation never panics", "statement": "SourceFile::parse's validation pass returns normally on every tree the parser can produce.", "quantifier": "every source text", "why_tests_cant": "validation uses first_token().unwrap(), slicing and unwraps whose safety depends on the shape of every possible tree", "anchors": ["crates/syntax/src/validation.rs: validate"]}
{"id": "C09", "title": "Tree shape ignores trivia", "statement": "Two texts whose non-trivia tokens have the same kinds in the same order parse to trees that are identical (same node kinds, same nesting, same error messages in the same places) once comments and whitespace are removed and token texts are ignored.", "quantifier": "every pair of texts with equal non-trivia token kinds", "why_tests_cant": "quantifies over pairs of texts and all placements of comments and whitespace", "anchors": ["crates/syntax/src/parsing/text_token_source.rs", "crates/syntax/src/parsing/text_tree_sink.rs", "crates/parser/src/lib.rs: parse"]}
{"id": "C10", "title": "Parse events describe a well nested tree", "statement": "The sequence of start/token/finish callbacks the parser makes on a tree sink is well nested: every start has its finish, exactly one root is opened, and exactly one token callback is made for each non-trivia token of the input, in order.", "quantifier": "every sequence of token kinds", "why_tests_cant": "forward-parent links are set while parsing and resolved later; the claim covers arbitrarily long chains of them", "anchors": ["crates/parser/src/event.rs: process", "crates/parser/src/parser.rs: Marker::complete, CompletedMarker::precede"]}
{"id": "C100", "title": "Recovery stays within the construct", "statement": "After a syntax error the parser gives up only what it says. Every syntax error of a parsed text belongs to one construct of the tree: either it is a complaint at a point inside that construct that skips nothing (a missing closing token, a missing name, ...), or the construct has an Error node with exactly the error's range, and the tokens in it are the ones the message is about: one token that cannot stand there, never a token the construct recovers at (`end`, `local` before an expression, `,` in a list of names, `(` in a function name, ...); only a table constructor skips several tokens, up to the next separator, `}`, `[` or `end`. Conversely every Error node is reported in this way. In particular an `end` is never swallowed, unless it closes nothing, and then it is reported as unmatched.", "quantifier": "every text", "why_tests_cant": "it ranges over every erroneous text, each error and each Error node in it", "anchors": ["crates/parser/src/grammar: all grammar functions and recovery sets", "crates/parser/src/parser.rs: err_recover, err_and_bump, error, expect", "crates/syntax/src/parsing/text_tree_sink.rs: error, start_node"]}
{"id": "C101", "title": "A session from start to end", "statement": "The server serves exactly between the handshake (initialize, initialized; requests before it are not served) and the exit notification, the end of its input, or an event of C90; while it serves its state is the one the other server properties describe, starting from the library the initializationOptions ask for (none, null or {}: empty; anything but a list of strings at workspace.library: empty). The exit status is 0 exactly if `exit` is reached; nothing after it matters; if the input ends before `exit` the status is not 0. initialize is answered exactly once.", "quantifier": "every sequence of client messages, loader and task events, with every order of hash iteration", "why_tests_cant": "it ranges over all sessions and interleavings", "anchors": ["crates/lua-analyzer/src/main.rs: main, run_server", "crates/lua-analyzer/src/main_loop.rs: run, next_event", "crates/lua-analyzer/src/config.rs: Config::new, Config::update"]}
{"id": "C102", "title": "Hash iteration order is invisible", "statement": "Two runs of the server that receive the same events but iterate over their hash tables (open documents, changed diagnostics) in different orders cannot be told apart, except by the order of publications for different documents that are sent in one turn: one panics exactly if the other does; they store the same files, documents, configuration and requests in flight; for every document the publications are the same in the same order, with the same versions; all other messages are the same in the same order; and the client shows the same.", "quantifier": "every history of events, every configuration, every choice of iteration orders at every event", "why_tests_cant": "a test observes the one iteration order its hasher happens to produce; the claim compares all pairs of orders along all histories", "anchors": ["crates/lua-analyzer/src/global_state.rs: maybe_update_diagnostics", "crates/lua-analyzer/src/main_loop.rs: handle_event, handle_task", "crates/lua-analyzer/src/diagnostics.rs: set_native_diagnostics, take_changes"]}
{"id": "C103", "title": "What every node is made of, errors or not", "statement": "In the syntax tree of every text, with any number of errors, the child nodes and non-trivia tokens of every node follow the error-tolerant shape of its kind: the keyword or bracket that starts a construct, blocks, parameter lists and operands to the left are always there in their order, other parts can be missing, and Error nodes stand only where an expression, a name, a statement, or a table separator belongs. Every production of the error-free grammar is an instance of its shape.", "quantifier": "every text, every node of its tree", "why_tests_cant": "there are infinitely many ways to break a program; a test shows the tree of one broken text", "anchors": ["crates/parser/src/grammar/expressions.rs", "crates/parser/src/grammar/statements.rs", "crates/parser/src/parser.rs: Parser, Marker, CompletedMarker", "crates/parser/src/event.rs: process", "crates/syntax/src/parsing/text_tree_sink.rs"]}
{"id": "C104", "title": "Accessors of the typed tree on broken files", "statement": "On the tree of every text, broken or not: 49 accessors (bodies, parameter lists, leading keywords, opening brackets, the parts to the left) find their part on every node of their kind, and it is the only part of that sort; 41 more find the only part of their sort, and return nothing only if the node has no such part; accessors of single expressions find the only expression of the node unless that is in parentheses (then nothing).", "quantifier": "every text, every node, every accessor of the tables in Spec/Parts.lean", "why_tests_cant": "the accessors are used on files being typed, which are mostly broken; a test sees some broken files", "anchors": ["crates/syntax/src/ast/generated/nodes.rs", "crates/syntax/src/ast.rs: support::child, token", "crates/parser/src/grammar/expressions.rs", "crates/parser/src/grammar/statements.rs"]}
{"id": "C105", "title": "The marker API builds the tree its calls describe, for any grammar", "statement": "Whatever code drives the parser through its marker API (start, complete, abandon, precede, undo_completion, change_kind, error nodes, error messages, consuming tokens): as long as a node is completed only after the nodes begun inside it, every call succeeds, and the tree sink is told exactly the tree the calls describe. A node contains everything between its beginning and its end, also when the beginning was inserted later with precede; an abandoned node is not there and what it would have contained stays in place; a node whose completion is undone is open again; a node whose kind is changed has the new kind. The Lua grammar drives the API this way on every input.", "quantifier": "every program over the API, every token sequence, every chain of precede", "why_tests_cant": "nodes are begun retroactively through forward links between recorded events, chains of which can be arbitrarily long and can cross abandoned and reopened nodes; any grammar may combine the calls in any order", "anchors": ["crates/parser/src/parser.rs: Marker::complete, Marker::abandon, CompletedMarker::precede, undo_completion, change_kind, kind, Parser::expect_at", "crates/parser/src/event.rs: process"]}
{"id": "C106", "title": "The server never waits for itself", "statement": "While it handles events, in any order and number, the server never asks for the lock of its file store while it holds it in a conflicting way, and never changes the database while one of its own tasks holds a snapshot of it; between two events it holds no lock and no snapshot. So it cannot block itself.", "quantifier": "every history of client messages, loader messages and finished tasks, every iteration order", "why_tests_cant": "a guard held one statement too long blocks the server for ever only in the events in which a second lock is taken while it is held, which depends on the open documents and on whether the text has changed", "anchors": ["crates/lua-analyzer/src/global_state.rs: process_changes, maybe_update_diagnostics, snapshot", "crates/lua-analyzer/src/main_loop.rs: handle_event, handle_vfs, on_notification", "crates/lua-analyzer/src/dispatch.rs: RequestDispatcher::on", "crates/lua-analyzer/src/thread_pool.rs: spawn"]}
{"id": "C107", "title": "The threads work together from start to end", "statement": "In every interleaving of the server and its file loader, and wherever the main loop is left (exit, end of input, error or panic): no message is sent to a thread that is gone, none is awaited from one, the loader never panics and is there as long as the server runs; after the main loop is left the process ends after a bounded number of steps, never gets stuck, and only after the loader has finished the work it was given.", "quantifier": "every schedule of the two threads, every disk contents, every point at which the main loop ends", "why_tests_cant": "the outcome depends on the order in which fields are dropped relative to what the other thread is doing at that moment", "anchors": ["crates/lua-analyzer/src/global_state.rs: Handle, GlobalState::new", "crates/lua-analyzer/src/main_loop.rs: run, next_event", "crates/vfs/src/loader.rs: FileLoaderHandle, FileLoaderActor::run, next_event, send"]}
{"id": "C108", "title": "Item ids are stable under edits inside items", "statement": "The id AstIdMap gives to an item (local declaration, function, block) does not depend on any token nor on what is inside items at its own depth or deeper: if an edit changes only tokens, comments, whitespace or the insides of items nested at least as deep, every item around keeps its id. In particular Parse::reparse of a token keeps all ids, and of a block keeps the ids of all items nested no deeper than the block.", "quantifier": "every pair of trees that agree outside their items nested to depth d, every d; every edit on a token or in a block of every file", "why_tests_cant": "any tree shapes, nestings and edits", "anchors": ["crates/hir/src/ast_id_map.rs: AstIdMap::from_source, bdfs, ast_id", "crates/syntax/src/parsing/reparsing.rs: reparse_token, reparse_block"]}
{"id": "C109", "title": "What a node pointer resolves to", "statement": "A SyntaxNodePtr, also one made from another version of the tree, resolves exactly to the node with its range and kind that has no such node above it and no node to its left that contains the range; otherwise it does not resolve. The pointer of a node resolves back to it exactly if no node above has its range and kind and, if it is empty, no node to its left ends where it stands.", "quantifier": "every tree, every pointer, every node", "why_tests_cant": "all trees and all pointers", "anchors": ["crates/syntax/src/ptr.rs: SyntaxNodePtr::to_node"]}
{"id": "C11", "title": "No false alarms: every program of the supported grammar parses without errors", "statement": "If the non-trivia token kinds of a text derive from the supported Lua grammar, parsing reports no syntax error.", "quantifier": "every derivation of the grammar, of any size and nesting", "why_tests_cant": "the language is infinite", "anchors": ["crates/parser/src/grammar.rs", "crates/parser/src/grammar/statements.rs", "crates/parser/src/grammar/expressions.rs"]}
{"id": "C110", "title": "Lexing takes linear time", "statement": "Splitting a text into tokens reads, counting every call of the character iterator (look-ahead included, however often a character is read again), at most 11 characters per token plus 10 per character of the text, so at most 21 times as many characters as the text has. No input (unclosed brackets, backslashes, quotes) makes the lexer rescan the rest of the text.", "quantifier": "every text", "why_tests_cant": "a bound on the work for all inputs; tests time single inputs", "anchors": ["crates/syntax/src/lexer.rs: tokenize", "crates/syntax/src/lua_lexer.rs", "lib/accept/src/source.rs: CharSource", "lib/accept/src/accept/combinators.rs"]}
{"id": "C111", "title": "Exactly what validation reports, also for broken files", "statement": "For every text, the errors SourceFile::parse reports after the lexical and syntax errors are exactly these: an expression statement with no expression list, with an expression in it that is neither a call nor parenthesised, with no call, or with several calls (with their number); an assignment without a left side, without a right side, or whose left side (if it has both) holds something other than a name or an index; and a string literal whose contents hold a backslash not followed by a known escape character. Every error is a range of the text, except for escape errors in a long string whose second opening bracket is missing, which are reported exactly one byte too far to the right.", "quantifier": "every text, with or without lexical and syntax errors, and every error", "why_tests_cant": "an equivalence over all inputs, including every broken file", "anchors": ["crates/syntax/src/validation.rs", "crates/syntax/src/lib.rs: SourceFile::parse"]}
{"id": "C112", "title": "The class of a token can be read off its text", "statement": "For every text, every token of its tree is exactly one of keyword, punctuation, literal, trivia, name, unknown, as the classification functions is_keyword / is_punct / is_literal / is_trivia say: it is a keyword exactly if its text is one of the keywords, punctuation exactly if its text is one of the operators, a literal exactly if its text starts with a digit, a quote or a long bracket, trivia exactly if it starts with `--` or white space, a name exactly if it starts with a letter or underscore and is no keyword; an unknown token is a single character. from_keyword on the text of a keyword token gives back its kind.", "quantifier": "every text and every token of its tree, also with lexical errors", "why_tests_cant": "an equivalence over all inputs", "anchors": ["crates/parser/src/syntax_kind/generated.rs: is_keyword, is_punct, is_literal, from_keyword", "crates/parser/src/syntax_kind.rs: is_trivia", "crates/syntax/src/lua_lexer.rs"]}
{"id": "C113", "title": "Generated accessors return what the grammar file says", "statement": "Whatever the grammar: if the code generator lowers a rule to accessors, and the parts of a node (without comments and white space) are a sentence of that rule in which no part is wanted by two accessors and no part at a place without accessor is wanted by one, then every part at a place with an accessor is returned by the accessor named after its label or type: the part itself for a place filled at most once, all parts in order for a list, only the first for a list with a trailing separator; and no accessor returns anything else. For Lua's grammar file this covers every struct except LabelStmt and MethodCallExpr (for which it fails). The checked-in files are what the generator produces from lua.ungram and ast_src.toml: kinds and their order, T!, is_keyword/is_punct/is_literal/is_trivia, from_keyword, accessors, casts, token types.", "quantifier": "every grammar, rule, sentence of the rule and node; every kind and every text for the checked-in files", "why_tests_cant": "all grammars, all sentences of a rule (lists of any length), all nodes", "anchors": ["xtask/src/codegen/gen_syntax/ast_src.rs: lower, lower_rule, lower_comma_list, lower_enum", "xtask/src/codegen/gen_syntax/mod.rs: gen_syntax_kinds, gen_tokens, gen_nodes", "xtask/assets/lua.ungram", "xtask/assets/ast_src.toml", "crates/syntax/src/ast/generated/nodes.rs", "crates/parser/src/syntax_kind/generated.rs"]}
{"id": "C114", "title": "Inner items are listed under the block they are written in", "statement": "Collecting the inner items of any node of an error-free file never panics, and afterwards the item tree lists under every block inside the node exactly the items of the statements that block is directly made of, in the order of the source: each with the names its statement declares and leading back to that very statement; nothing is listed under any other id.", "quantifier": "every error-free file, every node of its tree (nesting of blocks and functions of any depth)", "why_tests_cant": "all programs and all nodes; blocks nested to any depth", "anchors": ["crates/hir/src/item_tree/lower.rs: collect_inner_items, lower_mod_item", "crates/hir/src/item_tree.rs: ItemTreeData::inner_items", "crates/hir/src/ast_id_map.rs: ast_id"]}
{"id": "C115", "title": "No complaint about a Lua 5.1 program", "statement": "A text that lexes without an error, whose tokens are derived by the grammar of the Lua 5.1 reference manual (section 8), and whose strings use only the escapes lua-analyzer knows, gets no error at all from SourceFile::parse: neither a syntax error nor a validation error. Two constructs of the manual are excepted: a list of several expressions after `in`, and a statement that starts with `(` right behind a function or a table constructor.", "quantifier": "every program the manual's grammar derives, of any length and nesting depth, with any white space and comments", "why_tests_cant": "infinitely many programs; every combination and nesting of statements, expressions and operators", "anchors": ["crates/parser/src/grammar/expressions.rs", "crates/parser/src/grammar/statements.rs", "crates/syntax/src/validation.rs", "crates/syntax/src/lib.rs: SourceFile::parse"]}
{"id": "C116", "title": "File URIs and paths", "statement": "A URI is resolved to the absolute path its path component spells under percent-decoding (RFC 3986), never panicking; URIs whose path does not start with '/' or that have a foreign host are reported as an error. Two paths are the same file for the server exactly when they have the same names. The URI the server produces for an absolute path spells every name with exactly the reserved bytes coded in upper case, and resolving it gives the same path. The server answers under the very URI the client used exactly when that URI is in this canonical form.", "quantifier": "every URL value and every absolute Unix path of arbitrary bytes", "why_tests_cant": "infinitely many paths and spellings, including non-UTF-8 bytes, malformed percent codes, dots and repeated separators", "anchors": ["crates/lua-analyzer/src/from_proto.rs: abs_path", "crates/lua-analyzer/src/to_proto.rs: url_from_abs_path", "crates/stdx/src/paths.rs: AbsPathBuf"]}
{"id": "C117", "title": "Stripping a directory from a path", "statement": "AbsPath::strip_prefix(base) succeeds exactly when the names of base are the first names of the path; the result is a relative path with the remaining components, and base.join(result) is the path again. AbsPathBuf::pop removes the last name if there is one, reports whether it did, and keeps the path absolute.", "quantifier": "every pair of absolute Unix paths, with any separators, dots and names", "why_tests_cant": "infinitely many pairs of paths and spellings of the same path", "anchors": ["crates/stdx/src/paths.rs: AbsPath::strip_prefix, AbsPathBuf::pop, RelPath"]}
{"id": "C118", "title": "A correct file may be put into any block", "statement": "In a file without errors, the text of any block (the body of a function, a loop, a branch, do, or of the whole file; also an empty body) may be replaced by the text of any other file without errors, on lines of its own. The result parses and validates without errors, and, white space and comments apart, its tree is the old tree with that block replaced by the block of the other file. In particular every correct file may be wrapped into do, while, repeat, if, else, for, function. (The other file must not end in a comment starting with --[[, which may still be open.)", "quantifier": "every error-free file, every block in it and every other error-free file", "why_tests_cant": "infinitely many pairs of files and blocks; the tokens at the seams must not merge and the replaced text must not change how the rest is read", "anchors": ["crates/syntax/src/lib.rs: SourceFile::parse", "crates/parser/src/grammar.rs: block_raw, block", "crates/syntax/src/lexer.rs: tokenize", "crates/syntax/src/validation.rs"]}
{"id": "C119", "title": "Statements may be replaced, inserted and taken out", "statement": "In a file without errors, any run of neighbouring elements of a block (statements with their semicolons; also an empty run, at any place) may be replaced by the text of any other file without errors, on lines of its own (also an empty one). If what comes behind a seam cannot be read as the rest of the statement before it (it does not start with '(' , nor with an expression behind 'return', nor with a lone ';'), the result parses and validates without errors, and, white space and comments apart, its tree is the old tree with exactly these statements replaced by those of the other file. (What stands before a seam must not end in a comment starting with --[[.)", "quantifier": "every error-free file, every block in it, every run of its elements, every other error-free file", "why_tests_cant": "infinitely many files, blocks and runs; the tokens at the seams must not merge, no statement may swallow its neighbour and the rest of the file must be read as before", "anchors": ["crates/syntax/src/lib.rs: SourceFile::parse", "crates/parser/src/grammar.rs: block_raw, block", "crates/syntax/src/lexer.rs: tokenize", "crates/syntax/src/validation.rs"]}
{"id": "C12", "title": "No missed errors: an error-free parse conforms to the grammar", "statement": "If the parser reports no error for a token sequence then that sequence derives from the grammar, and the tree it returns is a derivation tree of it.", "quantifier": "every sequence of token kinds", "why_tests_cant": "requires reasoning on every malformed sequence", "anchors": ["crates/parser/src/grammar.rs", "crates/parser/src/grammar/statements.rs", "crates/parser/src/grammar/expressions.rs"]}
{"id": "C120", "title": "The order of the validation errors", "statement": "The errors that parsing a file reports are those of the lexer, then those of the parser, then those of the validation of the tree, and the latter come node by node: the nodes are visited in document order (a node before what is inside it, left before right), about each node exactly the errors that the node has are reported, in a fixed order (expression statements: the members of the list that are no calls from left to right, then the complaint about the number of calls; assignments: the wrong targets from left to right; strings: the wrong escape sequences from left to right), and nothing is reported twice or left out.", "quantifier": "every text, with or without lexical and syntax errors", "why_tests_cant": "infinitely many texts; a snapshot only fixes the order for one file, and a missing, duplicated or misplaced error in another file would go unnoticed; only the first 128 errors of a file are shown, so the order decides which", "anchors": ["crates/syntax/src/validation.rs: validate", "crates/syntax/src/validation.rs: unescape", "crates/syntax/src/lib.rs: SourceFile::parse"]}
{"id": "C121", "title": "Which nodes are what lua.ungram says", "statement": "The typed tree is generated from xtask/assets/lua.ungram, so its users take the rules of that file for a description of the tree. In a file without lexical and syntax errors, the parts of a node (white space and comments left out) are a sentence of the rule for its kind exactly if: it is not a function definition, a for statement, a table, a key-value pair, the head of a generic for or the head of a static function (these never are); a block has no semicolons and no do statements directly in it; a literal is not nil or '...'; a list of names is not empty and does not end with a comma; a path does not end with a dot; a parameter list has no '...'; a return statement and an argument list are empty; an infix or prefix expression does not have the operator % or #; and none of its parts is an expression in parentheses.", "quantifier": "every text without lexical and syntax errors, every node of its tree, every rule of lua.ungram", "why_tests_cant": "infinitely many files and nodes; no code compares the trees with the grammar file", "anchors": ["xtask/assets/lua.ungram", "crates/parser/src/grammar", "xtask/src/codegen/gen_syntax/ast_src.rs", "crates/syntax/src/lib.rs: SourceFile::parse"]}
{"id": "C122", "title": "What the user sees", "statement": "For every history of a client that follows the protocol, whatever it opens, types in whatever steps, in whatever number of documents, with file events in between: the server survives, and once its queue has been handled, a document that was never closed shows exactly the first 128 errors of SourceFile::parse for the text the user has in the editor, with their messages, each marked (by the protocol's rules for positions) at the very place of the error, unless a carriage return without line feed comes before it. In particular nothing is marked exactly if the text is accepted, and nothing is marked in a Lua 5.1 program (with the exceptions of C115).", "quantifier": "every protocol-conforming history and schedule, every document, every text", "why_tests_cant": "the composition of the change handling, the lexer, the parser, the validation, the position arithmetic and the publishing over unbounded histories", "anchors": ["crates/lua-analyzer/src/main_loop.rs: handle_event, on_notification, update_diagnostics", "crates/lua-analyzer/src/lsp_utils.rs: apply_document_changes", "crates/lua-analyzer/src/handlers.rs: publish_diagnostics", "crates/lua-analyzer/src/to_proto.rs: range", "crates/syntax/src/lib.rs: SourceFile::parse"]}
{"id": "C123", "title": "Names, strings, numbers and comments may be exchanged", "statement": "Take any text, also one with errors. Exchange any of its names for other names, any of its complete strings for other strings (in quotes or in long brackets), any of its numbers for whole numbers, and any of its comments for comments to the end of the line, in any number of places at once; only, if a number or what stands directly behind it is exchanged, what stands directly behind it must not start with a letter, a digit, `_` or `.`, and what is newly put directly behind `[` must not start with `[`: the new text is parsed to the same tree with just those tokens exchanged, and the same errors are reported in the same order at the same tokens. A file that was accepted stays accepted if its strings use known escapes. Directly behind a number this fails: in `a=3b=4` the name b cannot be exchanged for e1, and in `a=0xaxb=4` the number cannot be exchanged for 0. And in `t['s']=1` the string cannot be exchanged for `[[x]]`.", "quantifier": "every text, every set of exchanged tokens, every new name, string, number and comment", "why_tests_cant": "renaming must be safe for every file, every choice of tokens and every new spelling, and the lexer's maximal munch lets a token depend on its neighbour", "anchors": ["crates/syntax/src/lexer.rs: tokenize", "crates/syntax/src/parsing/text_tree_sink.rs: TextTreeSink", "crates/syntax/src/lib.rs: SourceFile::parse", "crates/syntax/src/validation.rs: validate"]}
{"id": "C124", "title": "Constructs with their own brackets can be copied from file to file", "statement": "Take two files without errors, and in each of them a construct of the same kind that has its own brackets: an expression in parentheses, a table, a function expression, an index, an argument list, a parameter list, or a do, while, if, for, function or local function statement. Put the text of the second in the place of the text of the first, without adding any space: the result has no errors, and its tree is exactly the tree of the first file with the node of the construct replaced by the node of the second. For constructs without brackets this fails: b*c in x=b*c*a cannot be replaced by b+c.", "quantifier": "every two accepted files, every two nodes of the same self-closing kind in them, however deep", "why_tests_cant": "copying must be safe for every file, every surrounding of the construct and every size of it, and the lexer joins characters of neighbouring tokens", "anchors": ["crates/parser/src/grammar.rs", "crates/parser/src/grammar/expressions.rs", "crates/parser/src/grammar/statements.rs", "crates/syntax/src/lua_lexer.rs", "crates/syntax/src/parsing/text_tree_sink.rs: TextTreeSink", "crates/syntax/src/lib.rs: SourceFile::parse"]}
{"id": "C125", "title": "Constructs with their own brackets stand alone", "statement": "Take any construct with its own brackets out of a file without errors and put it, just as it is written, into a file of its own: a do, while, if, for, function or local function statement with nothing around it, a table, a function expression or an expression in parentheses behind `return `, an index behind `return a`, an argument list behind `f`, a parameter list between `function f` and ` end`. This file has no errors either, and the construct is the very same node in it, at the place where it was put. Also, where a file without errors has an expression in parentheses, the parentheses may be doubled, and doubled ones halved, and only that node of the tree changes.", "quantifier": "every accepted file and every node of a self-closing kind in it, however deep", "why_tests_cant": "any construct of any size, in any file, must not depend on what was around it", "anchors": ["crates/parser/src/grammar.rs", "crates/parser/src/grammar/expressions.rs", "crates/parser/src/grammar/statements.rs", "crates/syntax/src/lua_lexer.rs", "crates/syntax/src/lib.rs: SourceFile::parse"]}
{"id": "C126", "title": "An expression may be put in parentheses", "statement": "In a file without errors, take an expression that is an operand of an operator, the function of a call, the object of a method call, the object of an index or a field access, an index, an element of a list of expressions, the value or key of a table field, or a condition. Putting it in parentheses gives a file without errors whose tree is the old one with the node of the expression replaced by a parenthesized expression around that same node - unless the token before it can end something that is called (then the parenthesis would start arguments) or is the `:` before the name of a method, or the expression cannot be called as it stands and a parenthesis follows it (then what follows would become its arguments), or it is the call that makes up a statement. Each of these three exceptions is real. These places are all the places of expressions: any other node with the kind of an expression is the label of a goto, part of the name of a function definition, or the table that is the whole argument of a call.", "quantifier": "every accepted file, every expression node in it at one of the named places, however deep", "why_tests_cant": "every expression of every file, with every kind of neighbour, must keep its reading; a wrong binding power, a wrong lookahead or a wrong token boundary shows up only for some combinations", "anchors": ["crates/parser/src/grammar/expressions.rs", "crates/parser/src/grammar/statements.rs", "crates/syntax/src/lua_lexer.rs", "crates/syntax/src/validation.rs", "crates/syntax/src/lib.rs: SourceFile::parse"]}
{"id": "C127", "title": "An expression may be put in the place of another one, in parentheses", "statement": "Every expression of a file without errors stands alone: the file `return e`, with the expression as it is written, has no errors and the expression is the same node in it; so has `return (e)`. In a file without errors, an expression at one of the places of C126, under the conditions of C126, may be replaced by any expression of any file without errors, written as it is there but in parentheses: the result is a file without errors whose tree is the old one with the node of the expression replaced by the other node in parentheses. (This is what inlining a variable does.) Without the parentheses this is false.", "quantifier": "every pair of accepted files, every expression node at one of the named places of the first, every expression node of the second, however deep", "why_tests_cant": "all pairs of expressions and surroundings must fit together; no finite set of pairs covers the combinations of operators, neighbours, comments and nesting", "anchors": ["crates/parser/src/grammar/expressions.rs", "crates/parser/src/grammar/statements.rs: return_stmt", "crates/syntax/src/lua_lexer.rs", "crates/syntax/src/validation.rs", "crates/syntax/src/lib.rs: SourceFile::parse"]}
{"id": "C128", "title": "Between brackets, keywords and separators any expression will do", "statement": "In a file without errors, an expression that is all there is between two brackets, keywords or separators (an expression in parentheses or in an index, a field of a table, a condition, what a `for` runs over, or an element of a list of expressions other than the one that is a statement and the targets of an assignment) may be replaced by any expression of any file without errors, written as it is there and without parentheses, if the tokens stay what they are and the next one is not `(`: the result is a file without errors, and its tree is the old one with the one node replaced by the other. The tokens stay what they are if a space or one of `( { , ; =` stands before the expression and a space, a line break, one of `) ] } , ;` or nothing behind it. Without each condition this is false.", "quantifier": "every pair of accepted files, every expression node at one of the named places of the first, every expression node of the second, however deep", "why_tests_cant": "all pairs of expressions and surroundings must fit together; no finite set of pairs covers the combinations of operators, neighbours, tokens and nesting", "anchors": ["crates/parser/src/grammar/expressions.rs", "crates/parser/src/grammar/statements.rs", "crates/syntax/src/lua_lexer.rs", "crates/syntax/src/validation.rs", "crates/syntax/src/lib.rs: SourceFile::parse"]}
{"id": "C129", "title": "Names, fields, calls and parentheses may stand wherever an expression may", "statement": "In a file without errors, an expression at any place where expressions may stand (an operand, the function of a call, what an index or field is taken of, a condition, an element of a list; not one that is itself a statement, not a target of an assignment, not the method behind `:`) may be replaced by any expression of any file without errors that is a name or something in parentheses followed by any indices and calls, written as it is there, if the tokens stay what they are; if it starts with `(`, nothing that can be called may end directly before it, and if `(` follows, the old expression must be callable. The result is a file without errors, and its tree is the old one with the one node replaced by the other. The tokens stay what they are if it is a name that is replaced, unless a number stands directly before it and the new expression starts with a name. Without each condition this is false.", "quantifier": "every pair of accepted files, every expression node at such a place of the first, every such expression node of the second, however deep", "why_tests_cant": "all pairs of expressions and surroundings (operators of every level, calls, indices, lists) must fit together; no finite set of pairs covers them", "anchors": ["crates/parser/src/grammar/expressions.rs", "crates/parser/src/grammar/statements.rs", "crates/syntax/src/lua_lexer.rs", "crates/syntax/src/validation.rs", "crates/syntax/src/lib.rs: SourceFile::parse"]}
{"id": "C13", "title": "Binary operators nest by Lua precedence and associativity", "statement": "In the tree for an expression, operators nest as the Lua reference manual prescribes: or < and < comparison < .. < additive < multiplicative < unary < ^, with .. and ^ right associative and all other operators left associative.", "quantifier": "every expression, of any length", "why_tests_cant": "chains of operators are unbounded", "anchors": ["crates/parser/src/grammar/expressions.rs: LuaOp, expr_bp, lhs", "lib/binding_powers/src/lib.rs", "lib/binding_powers_impl/src/lib.rs"]}
{"id": "C130", "title": "A statement may be exchanged for another call, a target for another target", "statement": "In a file without errors, a call may be replaced by any call of any file without errors, and a name, field or index by any name, field or index, wherever expressions may stand: also where the call is the whole statement, and where the name is assigned to. It is written as it is there, if the tokens stay what they are, it starts with a name or `(`, and, if it is `(`, nothing that can be called ends directly before it; the method name behind `:` is not such a place. The result is a file without errors, and its tree is the old one with the one node replaced by the other. The tokens stay what they are if nothing, a space or one of `( { , ; =` stands before it and nothing, a space, a line break or one of `) ] } , ;` behind it, and also if a name is replaced that does not stand directly behind a number. A field in the place of a statement and a call in the place of a target give errors.", "quantifier": "every pair of accepted files, every call / assignable node of the first, every node of the same sort of the second, however deep", "why_tests_cant": "all pairs of statements and replacements, in all surroundings, must fit together; no finite set of pairs covers them", "anchors": ["crates/parser/src/grammar/expressions.rs", "crates/parser/src/grammar/statements.rs", "crates/syntax/src/validation.rs: ExprStmt::validate, AssignStmt::validate", "crates/syntax/src/lib.rs: SourceFile::parse"]}
{"id": "C14", "title": "Quoted string literals end at the matching quote", "statement": "A short string literal extends to the first unescaped matching quote, where a backslash escapes the following character (including another backslash); it is unterminated exactly if a newline or the end of the text comes first.", "quantifier": "every text after an opening quote", "why_tests_cant": "all combinations of backslashes and quotes", "anchors": ["crates/syntax/src/lua_lexer.rs: string"]}
{"id": "C15", "title": "Long bracket strings end at the matching close bracket", "statement": "A long string opened with n equals signs ends at the first close bracket of the same level, and is reported unterminated exactly if there is none.", "quantifier": "every level n and every string body", "why_tests_cant": "body and level are unbounded", "anchors": ["crates/syntax/src/lua_lexer.rs: multiline_string, bracket_enclosed"]}
{"id": "C16", "title": "Comments extend to end of line or to the closing long bracket", "statement": "A line comment runs to just before the next newline or the end of the text; a block comment --[[ ... ]] ends at its closing bracket so that the code after it is not swallowed.", "quantifier": "every text after --", "why_tests_cant": "all comment bodies", "anchors": ["crates/syntax/src/lua_lexer.rs: comment"]}
{"id": "C17", "title": "Keywords are never identifiers and identifiers are maximal", "statement": "A word made of letters, digits and underscores, not starting with a digit, is always one token over its whole maximal extent; its kind is the keyword of that spelling if there is one and identifier otherwise.", "quantifier": "every word followed by any text", "why_tests_cant": "infinitely many words and continuations", "anchors": ["crates/syntax/src/lua_lexer.rs: ident", "crates/parser/src/syntax_kind/generated.rs: from_keyword"]}
{"id": "C18", "title": "Operators are lexed by longest match", "statement": "At an operator character that starts neither a comment (`--`) nor a long bracket (`[[`, `[=`), the token is the longest operator of the language that is a prefix of the remaining text.", "quantifier": "every text starting with an operator character", "why_tests_cant": "every continuation must be considered", "anchors": ["crates/syntax/src/lua_lexer.rs: lex_main"]}
{"id": "C19", "title": "Whitespace runs are one token and only ASCII whitespace is whitespace", "statement": "A maximal run of ASCII whitespace forms exactly one whitespace token and no other token contains only whitespace.", "quantifier": "every text", "why_tests_cant": "all runs and continuations", "anchors": ["crates/syntax/src/lua_lexer.rs: whitespace, is_whitespace"]}
{"id": "C20", "title": "Number literals cover the whole Lua numeral", "statement": "A Lua 5.1 numeral (decimal with optional fraction and signed exponent, or 0x/0X hexadecimal) is lexed as one number token covering all of it.", "quantifier": "every numeral followed by any non-numeral character", "why_tests_cant": "infinitely many numerals", "anchors": ["crates/syntax/src/lua_lexer.rs: number"]}
{"id": "C21", "title": "Re-lexing a token text reproduces the token", "statement": "Taking the text of any single token produced by tokenize and tokenizing it alone yields that same token again, with the same error status.", "quantifier": "every token of every text", "why_tests_cant": "needed for token-level incremental reparsing; quantifies over all contexts", "anchors": ["crates/syntax/src/lexer.rs: first_token", "crates/syntax/src/parsing/reparsing.rs: reparse_token"]}
{"id": "C22", "title": "Incremental reparse agrees with a full parse", "statement": "For a parsed file and a single edit, Parse::reparse returns a tree and errors equal to parsing the edited text from scratch.", "quantifier": "every text and every insert/delete edit", "why_tests_cant": "all pairs of text and edit", "anchors": ["crates/syntax/src/lib.rs: Parse::reparse, incremental_reparse", "crates/syntax/src/parsing/reparsing.rs"]}
{"id": "C23", "title": "Incremental reparse preserves the edited text", "statement": "Whatever path it takes, Parse::reparse returns a tree whose text is the edited text, and never panics.", "quantifier": "every text and every edit inside it", "why_tests_cant": "all pairs of text and edit", "anchors": ["crates/syntax/src/parsing/reparsing.rs: incremental_reparse, reparse_token, reparse_block, merge_errors"]}
{"id": "C24", "title": "Token sets are sets", "statement": "A TokenSet built from a list of kinds contains exactly the kinds in the list, and union is set union.", "quantifier": "every list of kinds and every kind", "why_tests_cant": "all subsets of the 115 kinds", "anchors": ["crates/parser/src/token_set.rs"]}
{"id": "C25", "title": "Syntax kinds survive the round trip through raw integers", "statement": "Converting a SyntaxKind to u16 and back gives the same kind, and every u16 up to the last kind converts back without panicking to a kind with that number.", "quantifier": "every kind and every u16 in range", "why_tests_cant": "unsafe transmute: correctness is a statement on the whole domain", "anchors": ["crates/parser/src/syntax_kind.rs"]}
{"id": "C26", "title": "Applying a TextEdit replaces all its ranges simultaneously", "statement": "TextEdit::apply on a text yields the text in which every edit range of the original text has been replaced by its insertion, all other characters unchanged and in order, and it does not panic when ranges are in bounds on character boundaries.", "quantifier": "every text and every set of disjoint edits", "why_tests_cant": "unbounded number and position of edits", "anchors": ["crates/text_edit/src/lib.rs: TextEdit::apply, Indel::apply"]}
{"id": "C27", "title": "TextEdit builders accept exactly disjoint edits, in any order", "statement": "Building an edit from replacements succeeds exactly when the ranges are pairwise disjoint in the sense checked by the builder, keeps every replacement, and the result does not depend on the order in which replacements with distinct ranges were added.", "quantifier": "every finite sequence of replacements", "why_tests_cant": "all orders and numbers of edits, including more than 16", "anchors": ["crates/text_edit/src/lib.rs: TextEditBuilder, assert_disjoint, check_disjoint"]}
{"id": "C28", "title": "TextEdit::union is all or nothing", "statement": "union succeeds exactly when the two edits together are disjoint; on success the result contains the edits of both and applying it performs both, on failure self is left as it was.", "quantifier": "every pair of edits", "why_tests_cant": "all pairs", "anchors": ["crates/text_edit/src/lib.rs: TextEdit::union"]}
{"id": "C29", "title": "apply_to_offset follows the text", "statement": "If apply_to_offset(o) returns o', then the edited text splits at o' into the old text before o with the edits starting before o applied, and the old text from o on with the other edits applied; in particular the character at o is the character at o' if no edit starts exactly at o. It returns None exactly when o lies strictly inside a deleted range.", "quantifier": "every text, edit and offset", "why_tests_cant": "all triples", "anchors": ["crates/text_edit/src/lib.rs: TextEdit::apply_to_offset"]}
{"id": "C30", "title": "Offset to line/column and back is the identity", "statement": "For every offset in the text, LineIndex::offset(LineIndex::line_col(o)) = o, the line number is the number of newlines before o and the column is the distance to the last of them.", "quantifier": "every text and every offset up to its length", "why_tests_cant": "infinitely many texts", "anchors": ["crates/ide_db/src/line_index.rs: LineIndex::new, line_col, offset", "crates/stdx/src/lib.rs: partition_point"]}
{"id": "C31", "title": "UTF-16 columns are exact", "statement": "For every character boundary, to_utf16 gives the number of UTF-16 code units between the line start and the boundary, and to_utf8 maps it back to the same byte column.", "quantifier": "every text and every character boundary in it", "why_tests_cant": "all mixtures of 1, 2, 3 and 4 byte characters", "anchors": ["crates/ide_db/src/line_index.rs: utf8_to_utf16_col, utf16_to_utf8_col"]}
{"id": "C32", "title": "LSP positions resolve as the protocol prescribes", "statement": "A position received from the client resolves to the offset the LSP specification prescribes: lines separated by \\n, \\r\\n or \\r, a column past the end of the line means the line end; it never panics.", "quantifier": "every text and every position", "why_tests_cant": "clients may send any position", "anchors": ["crates/lua-analyzer/src/from_proto.rs: offset, text_range", "crates/ide_db/src/line_index.rs"]}
{"id": "C33", "title": "Positions sent to the client denote the same place", "statement": "For every range on character boundaries of a text, the LSP range sent for it resolves, on the client's and on the server's side, to the same range.", "quantifier": "every text and every range", "why_tests_cant": "all texts", "anchors": ["crates/lua-analyzer/src/to_proto.rs: position, range", "crates/lua-analyzer/src/from_proto.rs: text_range"]}
{"id": "C34", "title": "Binary partition search is correct", "statement": "partition_point returns the unique split index for every slice partitioned by the predicate and never reads out of bounds on any slice.", "quantifier": "every slice and predicate", "why_tests_cant": "contains unsafe unchecked indexing", "anchors": ["crates/stdx/src/lib.rs: partition_point"]}
{"id": "C35", "title": "Document changes are applied sequentially", "statement": "For changes whose ranges do not end before they start, apply_document_changes yields the text obtained by applying the changes of a didChange notification one after the other, each relative to the text left by the previous one.", "quantifier": "every text and every list of changes whose ranges have start line <= end line", "why_tests_cant": "the index is cached across changes; staleness bugs need particular histories", "anchors": ["crates/lua-analyzer/src/lsp_utils.rs: apply_document_changes"]}
{"id": "C36", "title": "The Vfs is a map from paths to contents", "statement": "After any sequence of set_file_contents calls, looking a path up returns an id exactly if the last write to that path was Some, and the contents are those of that write; paths do not interfere.", "quantifier": "every sequence of writes", "why_tests_cant": "histories", "anchors": ["crates/vfs/src/lib.rs: Vfs", "crates/vfs/src/path_interner.rs"]}
{"id": "C37", "title": "File ids are stable and unique", "statement": "Once assigned, a path's FileId never changes and is never shared by another path, across deletion and re-creation; file_path is its inverse.", "quantifier": "every sequence of writes", "why_tests_cant": "histories", "anchors": ["crates/vfs/src/lib.rs", "crates/vfs/src/path_interner.rs"]}
{"id": "C38", "title": "The change log is complete and exact", "statement": "take_changes returns one entry per effective write since the last take, in order, with the correct Create/Modify/Delete kind; writes that change nothing are not recorded and set_file_contents returns whether it was effective.", "quantifier": "every interleaving of writes and takes", "why_tests_cant": "histories", "anchors": ["crates/vfs/src/lib.rs: set_file_contents, take_changes"]}
{"id": "C39", "title": "The analysis database follows the Vfs", "statement": "After handling any event, the analysed text of every file is the current Vfs contents if they are valid UTF-8 and empty if not or deleted.", "quantifier": "every event history", "why_tests_cant": "histories, including coalesced file-watcher batches", "anchors": ["crates/lua-analyzer/src/global_state.rs: process_changes", "crates/base_db/src/change.rs"]}
{"id": "C40", "title": "Processing a batch of file changes never panics", "statement": "process_changes returns normally for every batch of writes performed since the previous event.", "quantifier": "every batch of writes, including create-then-delete of one file", "why_tests_cant": "order-dependent", "anchors": ["crates/lua-analyzer/src/global_state.rs: process_changes", "crates/lua-analyzer/src/main_loop.rs: handle_vfs"]}
{"id": "C41", "title": "Every request gets exactly one response", "statement": "If the client uses distinct ids, every request it sends is answered exactly once, once the queued tasks have been drained, whatever else is interleaved.", "quantifier": "every interleaving of client messages, task completions and file events", "why_tests_cant": "schedules", "anchors": ["crates/lua-analyzer/src/main_loop.rs: on_request, handle_task", "crates/lua-analyzer/src/dispatch.rs", "crates/lua-analyzer/src/global_state.rs: respond, register_request"]}
{"id": "C42", "title": "No request is served after shutdown", "statement": "After a shutdown request has been handled, every later request is answered with InvalidRequest and changes nothing else.", "quantifier": "every message history", "why_tests_cant": "histories", "anchors": ["crates/lua-analyzer/src/main_loop.rs: on_request"]}
{"id": "C43", "title": "Open documents mirror the client's text", "statement": "While a document is open, the server's contents for it equal the text the client has, i.e. the text sent on didOpen with all didChange edits applied; file watcher events do not overwrite it.", "quantifier": "every interleaving of open/change/close notifications and file events that follow the protocol", "why_tests_cant": "histories", "anchors": ["crates/lua-analyzer/src/main_loop.rs: on_notification, handle_vfs"]}
{"id": "C44", "title": "Editing notifications never crash the server", "statement": "Handling didOpen, didChange, didClose and file events in any protocol-conforming order never panics.", "quantifier": "every protocol-conforming history", "why_tests_cant": "histories: unwraps in didChange and in the diagnostics update rely on an invariant between open documents and the Vfs", "anchors": ["crates/lua-analyzer/src/main_loop.rs: on_notification", "crates/lua-analyzer/src/global_state.rs: maybe_update_diagnostics"]}
{"id": "C45", "title": "Published diagnostics converge", "statement": "When the queues have drained, the last diagnostics published for every open document are those of its current text (the client shows exactly the diagnostics of the current text).", "quantifier": "every protocol-conforming history and schedule", "why_tests_cant": "histories and schedules", "anchors": ["crates/lua-analyzer/src/main_loop.rs: handle_event", "crates/lua-analyzer/src/diagnostics.rs", "crates/lua-analyzer/src/global_state.rs: maybe_update_diagnostics"]}
{"id": "C46", "title": "Closing a document clears its diagnostics for good", "statement": "After didClose the client is sent an empty diagnostics list for the document, no later non-empty list is sent while it stays closed, and reopening it publishes its diagnostics again.", "quantifier": "every history with a close", "why_tests_cant": "histories and schedules", "anchors": ["crates/lua-analyzer/src/main_loop.rs: DidCloseTextDocument handler", "crates/lua-analyzer/src/diagnostics.rs"]}
{"id": "C47", "title": "Diagnostics are republished exactly on change", "statement": "The diagnostics collection reports a file as changed exactly when its list of diagnostics differs (in source, severity, range or message, or number) from the stored one, and each change is reported once.", "quantifier": "every sequence of updates", "why_tests_cant": "histories", "anchors": ["crates/lua-analyzer/src/diagnostics.rs: DiagnosticCollection"]}
{"id": "C48", "title": "At most 128 diagnostics per file, the first ones, in order", "statement": "The diagnostics of a file are its first 128 syntax errors in report order, each with the error's range and message.", "quantifier": "every text", "why_tests_cant": "all texts", "anchors": ["crates/ide/src/diagnostics.rs: diagnostics"]}
{"id": "C49", "title": "Path normalization", "statement": "normalize_path yields a path without . and .. components (when absolute), is idempotent, keeps absolute paths absolute and denotes the same place lexically.", "quantifier": "every path", "why_tests_cant": "unbounded component sequences", "anchors": ["crates/stdx/src/paths.rs: normalize_path, AbsPath"]}
{"id": "C50", "title": "Workspace loader reports progress and files faithfully", "statement": "For every configuration the loader sends one Progress message with n_done = 0, then for each entry its files and a Progress with n_done increasing by one up to n_total, all with the configuration's version.", "quantifier": "every configuration and directory content", "why_tests_cant": "all configurations", "anchors": ["crates/vfs/src/loader.rs", "crates/vfs/src/handle.rs"]}
{"id": "C51", "title": "Syntax node pointers resolve to their node", "statement": "SyntaxNodePtr::new(node).to_node(root) returns a node of the same kind and range for every node of the tree, without panicking.", "quantifier": "every tree and every node in it", "why_tests_cant": "all trees, empty nodes included", "anchors": ["crates/syntax/src/ptr.rs: SyntaxNodePtr"]}
{"id": "C52", "title": "The breadth-first-by-depth walk visits every node once", "statement": "The walk used to number AST items visits every node of the tree exactly once, parents before children, so that ids do not depend on the contents of deeper levels.", "quantifier": "every tree", "why_tests_cant": "all trees", "anchors": ["crates/hir/src/ast_id_map.rs: bdfs"]}
{"id": "C53", "title": "AST id maps are total and injective", "statement": "AstIdMap::from_source assigns distinct ids to distinct items of every source file and looking up an item's id returns a pointer to it.", "quantifier": "every source file", "why_tests_cant": "all trees", "anchors": ["crates/hir/src/ast_id_map.rs"]}
{"id": "C54", "title": "Client configuration never crashes the server", "statement": "Any configuration JSON the client returns is accepted: invalid values fall back to defaults and never panic.", "quantifier": "every configuration value", "why_tests_cant": "all JSON values", "anchors": ["crates/lua-analyzer/src/config.rs", "crates/lua-analyzer/src/reload.rs: load_workspace"]}
{"id": "C55", "title": "Binding-power tables are consistent", "statement": "The binding powers generated for an operator declaration list are pairwise distinct, increase in declaration order, and left (right) associative operators have a smaller (larger) left power than right power.", "quantifier": "every declaration list", "why_tests_cant": "arbitrary precedence declarations", "anchors": ["lib/binding_powers/src/lib.rs", "lib/binding_powers_impl/src/lib.rs"]}
{"id": "C56", "title": "Combinator acceptance agrees with lookahead", "statement": "For the character source: accepting a single-character pattern, a sequence or a repetition reports success exactly when lookahead says it matches, and then consumes exactly the matching characters; otherwise it consumes nothing. while/until consume the maximal matching run, possibly empty, report success exactly if any input is left, and their lookahead says whether the run is non-empty.", "quantifier": "every text and every matcher", "why_tests_cant": "all inputs", "anchors": ["lib/accept/src/accept.rs", "lib/accept/src/accept/combinators.rs", "lib/accept/src/source.rs"]}
{"id": "C57", "title": "Exactly the invalid escapes of string literals are reported", "statement": "SourceFile::parse reports an invalid-escape error for every backslash sequence of a quoted string that Lua does not define, and for nothing else.", "quantifier": "every source text and every string literal in it", "why_tests_cant": "strings are unbounded sequences of arbitrary characters and escapes, in many syntactic positions", "anchors": ["crates/syntax/src/validation.rs: unquote, unescape, unescape_once, Literal::validate"]}
{"id": "C58", "title": "Expression statements are single calls", "statement": "If SourceFile::parse reports no errors, every expression statement of the file is exactly one function or method call.", "quantifier": "every source text", "why_tests_cant": "statements are unbounded lists of arbitrary expressions", "anchors": ["crates/syntax/src/validation.rs: ExprStmt::validate", "crates/syntax/src/ast/generated/nodes.rs: Expr"]}
{"id": "C59", "title": "Assignment targets are assignable", "statement": "If SourceFile::parse reports no errors, everything on the left of every assignment is a name, a field access or an index expression.", "quantifier": "every source text", "why_tests_cant": "left-hand sides are unbounded lists of arbitrary expressions", "anchors": ["crates/syntax/src/validation.rs: AssignStmt::validate", "crates/syntax/src/ast/generated/nodes.rs: Expr"]}
{"id": "C60", "title": "The configured library is the one loaded", "statement": "At any time the last configuration given to the file loader is the current library setting; versions increase by one; only absolute paths are given to the loader.", "quantifier": "every initial configuration and every history of configuration changes", "why_tests_cant": "needs every sequence of configuration changes, including an unchanged value after start-up", "anchors": ["crates/lua-analyzer/src/reload.rs: update_configuration, load_workspace", "crates/lua-analyzer/src/main.rs: run_server", "crates/lua-analyzer/src/config.rs: Config::update"]}
{"id": "C61", "title": "Operations on absolute paths give absolute paths", "statement": "AbsPath::parent and AbsPath::join never panic and give absolute paths; joining a relative path goes from the place of the first path along the second.", "quantifier": "every absolute path and every path joined to it", "why_tests_cant": "unbounded paths with arbitrary separators and dots", "anchors": ["crates/stdx/src/paths.rs: AbsPath::parent, AbsPath::join, AbsPath::assert"]}
{"id": "C62", "title": "Syntax error messages are true where they are reported", "statement": "Every syntax error reported by parse_text says something true about the first token (whitespace and comments skipped) at or after the start of its range: 'Expected A, got B' means that token is B and not A, 'Expected an expression' that no expression starts with it, and so on; syntax errors come in text order without overlapping, each is at a point or covers exactly a node of kind Error, and every Error node is reported.", "quantifier": "every text; every error reported for it", "why_tests_cant": "the message and its place depend on every error path of the grammar and on where trivia is attached; tests only snapshot a few erroneous inputs", "anchors": ["crates/parser/src/parser.rs: error, expect, err_recover, err_until", "crates/parser/src/grammar.rs", "crates/syntax/src/parsing/text_tree_sink.rs: error, start_error_node, finish_error_node"]}
{"id": "C63", "title": "Names have a text", "statement": "Name::text and NameRef::text never panic; they give the text of the node, which is an identifier and not a keyword.", "quantifier": "every text, with or without errors, every Name and NameRef node of its tree", "why_tests_cant": "needs all texts, malformed ones included", "anchors": ["crates/syntax/src/ast/node_ext.rs: Name::text, NameRef::text, text_of_first_token"]}
{"id": "C64", "title": "Operators and operands", "statement": "InfixExpr::op_token and op_kind are the operator written between the operands; lhs and rhs are the operands; PrefixExpr::expr is the operand.", "quantifier": "every text that parses without errors, every node of its tree of the kind, wherever comments and white space are", "why_tests_cant": "unbounded texts and trees; trivia may be anywhere", "anchors": ["crates/syntax/src/ast/expr_ext.rs: InfixExpr", "crates/parser/src/grammar/expressions.rs: impl From<SyntaxKind> for Option<LuaOp>"]}
{"id": "C65", "title": "Bodies and keywords of compound statements", "statement": "For every compound statement and function the body, end, do, then, else, elseif accessors return the corresponding parts.", "quantifier": "every text that parses without errors, every node of its tree of the kind, wherever comments and white space are", "why_tests_cant": "unbounded texts and trees; trivia may be anywhere", "anchors": ["crates/syntax/src/ast/generated/nodes.rs", "crates/syntax/src/ast.rs: support"]}
{"id": "C66", "title": "Subexpressions", "statement": "Conditions of if/elseif/while/repeat, the operand of parentheses, the base and index of an index expression, the callee of a call and the values of table fields are returned by their accessors.", "quantifier": "every text that parses without errors, every node of its tree of the kind, wherever comments and white space are", "why_tests_cant": "unbounded texts and trees; trivia may be anywhere", "anchors": ["crates/syntax/src/ast/generated/nodes.rs", "crates/syntax/src/ast.rs: support"]}
{"id": "C67", "title": "Statements of a block", "statement": "Block::stmts lists the statements of the block in order.", "quantifier": "every text that parses without errors, every node of its tree of the kind, wherever comments and white space are", "why_tests_cant": "unbounded texts and trees; trivia may be anywhere", "anchors": ["crates/syntax/src/ast/generated/nodes.rs", "crates/syntax/src/ast.rs: support"]}
{"id": "C68", "title": "Names, parameters and tokens of statements", "statement": "MultiName::names, IndexPath::name_refs, ParamList, LocalAssignStmt, AssignStmt::lhs/rhs, ExprStmt, NumericFor, GotoStmt, FunctionMethod/FunctionStatic, TableSep, LabelDelim accessors return the parts written there, in order.", "quantifier": "every text that parses without errors, every node of its tree of the kind, wherever comments and white space are", "why_tests_cant": "unbounded texts and trees; trivia may be anywhere", "anchors": ["crates/syntax/src/ast/generated/nodes.rs", "crates/syntax/src/ast.rs: support"]}
{"id": "C69", "title": "Expression lists", "statement": "MultivalExpr::exprs lists the expressions of a list in order.", "quantifier": "every text that parses without errors, every node of its tree of the kind, wherever comments and white space are", "why_tests_cant": "unbounded texts and trees; trivia may be anywhere", "anchors": ["crates/syntax/src/ast/generated/nodes.rs", "crates/syntax/src/ast.rs: support"]}
{"id": "C70", "title": "Every part can be reached", "statement": "Every child node of a statement or expression is returned by one of its accessors (values of return, arguments, table entries, the name of a function, the head of a for, items of a file).", "quantifier": "every text that parses without errors, every node of its tree of the kind, wherever comments and white space are", "why_tests_cant": "unbounded texts and trees; trivia may be anywhere", "anchors": ["crates/syntax/src/ast/generated/nodes.rs", "crates/syntax/src/ast.rs: support"]}
{"id": "C71", "title": "Calls", "statement": "CallExpr, MethodCallExpr and CallArgs return the callee or receiver, the method name and the arguments as written.", "quantifier": "every text that parses without errors, every node of its tree of the kind, wherever comments and white space are", "why_tests_cant": "unbounded texts and trees; trivia may be anywhere", "anchors": ["crates/syntax/src/ast/generated/nodes.rs", "crates/syntax/src/ast.rs: support"]}
{"id": "C72", "title": "Literals", "statement": "Literal::kind never panics and is the value the text of the literal denotes.", "quantifier": "every text, with or without errors, every Literal node of its tree", "why_tests_cant": "needs all texts, malformed ones included", "anchors": ["crates/syntax/src/ast/expr_ext.rs: Literal::token, Literal::kind"]}
{"id": "C73", "title": "Label delimiters", "statement": "LabelStmt::start and LabelStmt::finish are the two delimiters of a label, name its name.", "quantifier": "every text that parses without errors, every node of its tree of the kind, wherever comments and white space are", "why_tests_cant": "unbounded texts and trees; trivia may be anywhere", "anchors": ["crates/syntax/src/ast/generated/nodes.rs", "crates/syntax/src/ast.rs: support"]}
{"id": "C74", "title": "Item trees", "statement": "The item tree of a file lists exactly the local declarations, local functions and functions written at its top level, in order, with their names and parameters; asking for it never panics.", "quantifier": "every file, with or without syntax errors", "why_tests_cant": "all texts", "anchors": ["crates/hir/src/item_tree.rs: file_item_tree_query", "crates/hir/src/item_tree/lower.rs: Ctx", "crates/hir/src/lib.rs: ast_id_map"]}
{"id": "C75", "title": "The kind of a token tells its text", "statement": "Every token is written as its kind says (keywords and operators have one spelling, names are identifiers that are not keywords, strings are delimited, comments start with two dashes, numbers start with a digit); otherwise it is a broken string or an unknown character and an error is reported on exactly that token.", "quantifier": "every text, every token", "why_tests_cant": "unbounded texts", "anchors": ["crates/syntax/src/lua_lexer.rs", "crates/syntax/src/lexer.rs: tokenize"]}
{"id": "C76", "title": "Nodes are instances of productions", "statement": "Every node of the tree of a file without errors consists of the tokens and nodes its production in the grammar lists, in that order.", "quantifier": "every text that parses without errors, every node", "why_tests_cant": "unbounded trees", "anchors": ["xtask/assets/lua.ungram", "crates/parser/src/grammar.rs", "crates/parser/src/grammar/expressions.rs", "crates/parser/src/grammar/statements.rs"]}
{"id": "C77", "title": "Errors after an incremental reparse", "statement": "When a reparse is incremental, the new errors are exactly those of the old errors lying outside the replaced node, unchanged when before it and shifted by the length change of the edit when after it, followed by the errors found in the replaced piece moved to its place; all ranges are ranges of the new text.", "quantifier": "every text, edit and previous parse for which the incremental path is taken", "why_tests_cant": "depends on the relative position of every error and every edit", "anchors": ["crates/syntax/src/parsing/reparsing.rs: merge_errors", "crates/syntax/src/lib.rs: Parse::reparse"]}
{"id": "C78", "title": "Exactly which files are accepted without an error", "statement": "SourceFile::parse reports no error for a text exactly if it lexes without an error, its tokens derive from the grammar the parser accepts, every expression statement is a list with exactly one call and otherwise only parenthesised expressions, every assignment target is a name, field, index or parenthesised expression, and every backslash in a literal string (quoted or long) is followed by one of a b f n r t v \\ \" ' [ ].", "quantifier": "every text, both directions", "why_tests_cant": "an equivalence between acceptance and a grammar over all texts", "anchors": ["crates/syntax/src/lib.rs: SourceFile::parse", "crates/syntax/src/validation.rs", "crates/parser/src/grammar.rs", "crates/syntax/src/lua_lexer.rs"]}
{"id": "C79", "title": "Casts to the types of the typed tree are exact", "statement": "A syntax node casts to a union type of the typed tree (Stmt, StmtItem, Expr, FunctionDefContent, ForContent, TableContent, TableKey) if and only if can_cast accepts its kind; the result is the variant named after the node's kind and wraps that very node; child accessors return exactly the children that cast. Stmt::is_block_like holds exactly for statements starting with if, for, while, function or repeat. A node casts to a struct type exactly if its kind has the name of the type, and every node of an error-free file casts to exactly one struct type, except the wrapper nodes around the contents of a function name, a for, a table field and a table key, which cast to none.", "quantifier": "every syntax node; for is_block_like every statement of every error-free file", "why_tests_cant": "tests cast the kinds of a few nodes; the claim covers all kinds for all seven types and all trees", "anchors": ["crates/syntax/src/ast/generated/nodes.rs: cast, can_cast, syntax", "crates/syntax/src/ast/stmt_ext.rs: is_block_like", "crates/syntax/src/ast.rs: support"]}
{"id": "C80", "title": "Typed tokens", "statement": "A token casts to a typed token (Ident, Number, Str, True, False, Comment, Whitespace) if and only if it is written like one.", "quantifier": "every token of every file", "why_tests_cant": "the tokens of arbitrary files", "anchors": ["crates/syntax/src/ast/generated/tokens.rs", "crates/syntax/src/ast.rs: AstToken"]}
{"id": "C81", "title": "From an item back to its source", "statement": "HasSource::source of an item of the item tree is the very statement the item was made from, and the item has the names that statement declares.", "quantifier": "every file, every item of its item tree", "why_tests_cant": "all texts: two statements must never share an id", "anchors": ["crates/hir/src/item_tree.rs: HasSource", "crates/hir/src/ast_id_map.rs", "crates/syntax/src/ptr.rs"]}
{"id": "C82", "title": "Tokens follow one set of lexical rules", "statement": "The lexer cuts every text according to a fixed set of rules (keywords and names, white space, longest operator, longest number, quoted strings that end at the first quote not preceded by a backslash, long brackets that end at the first matching bracket not preceded by a backslash, line comments, block comments that take the rest of their line, other characters). The rules give every text exactly one way to be cut; the tokens, their lengths, the error messages and the error ranges are exactly those the rules give.", "quantifier": "every text, and every way to cut it into words", "why_tests_cant": "The rules speak about the first place in an arbitrarily long text where a token can end, and that no other cut is possible; tests see single texts.", "anchors": ["crates/syntax/src/lua_lexer.rs", "crates/syntax/src/lexer.rs: tokenize, tokenizer, lex_first_token"]}
{"id": "C83", "title": "Validation complains exactly when it should by its own rules", "statement": "For every file without lexical and syntax errors SourceFile::parse reports a message at a range exactly if the file has an expression statement that is not one single call, an assignment to something other than a name, a field or an index (parenthesised expressions are overlooked in both), or a string literal with an unknown escape; so such a file is accepted exactly if it has none of these.", "quantifier": "every text without lexical and syntax errors, every message and every range", "why_tests_cant": "the texts, the places of the statements and strings in them and the escapes are unbounded, and absence of a complaint quantifies over all nodes", "anchors": ["crates/syntax/src/validation.rs: validate, validate_expr_stmt, validate_assign_stmt, validate_literal, unquote", "crates/syntax/src/lib.rs: SourceFile::parse"]}
{"id": "C84", "title": "The tree of a correct file is the only derivation of its tokens", "statement": "The grammar the parser accepts is unambiguous, and for every text without lexical and syntax errors the syntax tree, with white space and comments left out, is the one derivation of the text's token sequence from that grammar.", "quantifier": "every text without lexical and syntax errors, every derivation of its tokens", "why_tests_cant": "uniqueness quantifies over all derivations of all token sequences, which are infinitely many and arbitrarily deep", "anchors": ["crates/parser/src/grammar.rs: root", "crates/syntax/src/parsing.rs: parse_text", "crates/syntax/src/parsing/text_tree_sink.rs: TextTreeSink"]}
{"id": "C85", "title": "How operators group in the tree", "statement": "In the syntax tree of every text without lexical and syntax errors operators group by the parser's own table of levels: an operator exposed on the right edge of the left operand of a binary operator binds tighter, or is the same operator and that one is left associative; an operator exposed on the left edge of its right operand binds tighter, or is the same operator and that one is right associative; and only operators that bind tighter than the unary ones are exposed on the left edge of a unary operator's operand. No two binary operators share a level (unlike in Lua).", "quantifier": "every text without lexical and syntax errors, every operator node in its tree, every operator exposed in its operands, however deep", "why_tests_cant": "operators can be exposed through operands of any depth, and every combination of operators and nestings must be grouped right", "anchors": ["crates/parser/src/grammar/expressions.rs: expr_bp, prefix_binding_power", "lib/binding_powers"]}
{"id": "C86", "title": "Where white space and comments are in the tree", "statement": "For every text, with errors or not, the file has one block, and no node below that block starts at a piece of white space or a comment, has one as its first element or as its last element; so ranges of nodes do not begin with trivia. (They can end with it: the else branch of `if a then else end` is followed by an empty block.)", "quantifier": "every text, every node of its tree, every piece of white space and comment", "why_tests_cant": "the texts, the nesting and the number of nodes that end at the same place are unbounded", "anchors": ["crates/syntax/src/parsing/text_tree_sink.rs: start_node, finish_node, eat_trivias"]}
{"id": "C87", "title": "Complete specification of parsing a correct file", "statement": "For every text and every tree, parsing the text yields this tree and no lexical or syntax error exactly if the leaves of the tree spell the text and are its tokens (all free of lexical errors), the tree without white space and comments is a derivation in the accepted grammar, and white space and comments are where C86 says.", "quantifier": "every text and every tree", "why_tests_cant": "an equivalence over all texts and all trees: tests can show neither that nothing else is accepted nor that nothing else is produced", "anchors": ["crates/syntax/src/parsing.rs: parse_text", "crates/syntax/src/parsing/text_tree_sink.rs", "crates/parser/src/lib.rs: parse", "crates/syntax/src/lexer.rs: tokenize"]}
{"id": "C88", "title": "What the server makes of every position and every change", "statement": "For every text and every position, on a character boundary or not, the server resolves the position to: the start of the line (only line feeds end lines) plus the bytes of the characters that fit into the UTF-16 column, one byte before its end for a character whose surrogate pair the column splits, and one byte more for every column past the end of the line; it panics exactly if there is no such line. The changes of a list are applied one after the other; a change is applied exactly if both offsets are character boundaries of the text, the first not after the second. Positions are looked up in the text whose lines were counted last; lines are counted again before a change that ends on or after the line on which the change before it starts, and if no range ends on an earlier line than it starts, this makes each change use the positions of the very text it is applied to.", "quantifier": "every text, every position, every list of changes", "why_tests_cant": "texts, columns and change lists are unbounded and the equality must hold for malformed positions too", "anchors": ["crates/ide_db/src/line_index.rs: LineIndex::new, to_utf8, offset", "crates/lua-analyzer/src/from_proto.rs: offset, text_range", "crates/lua-analyzer/src/lsp_utils.rs: apply_document_changes"]}
{"id": "C89", "title": "Documents and files as the server reads them", "statement": "After every history of events the server survives, whatever the client sends, a document is open exactly if it was opened and not closed since, and the contents stored for every path and the text analysed for every open document are those obtained from the history by opening, changing (with the reading of C88), and file loader writes to closed files.", "quantifier": "every history of client and loader events, every schedule, every path", "why_tests_cant": "unbounded interleavings of client and loader events on many files", "anchors": ["crates/lua-analyzer/src/main_loop.rs: handle_event, on_notification", "crates/vfs/src/lib.rs: Vfs::set_file_contents", "crates/lua-analyzer/src/global_state.rs: process_changes"]}
{"id": "C90", "title": "Exactly which events end the server", "statement": "A history of events ends the server exactly if it contains, after some past, one of these: a change of an open document whose positions do not fit its text (C88), a notification with parameters that do not deserialize, a response to no open request of the server, a configuration that changes the library and names a relative path in it, or a batch of loader messages that gives a closed file new contents and deletes it again. (At most 2^32-1 files.)", "quantifier": "every history of events, every schedule, every hash table order", "why_tests_cant": "an equivalence over all histories: that nothing else ends the server cannot be tested", "anchors": ["crates/lua-analyzer/src/main_loop.rs: run, handle_event, on_request, on_notification", "crates/lua-analyzer/src/global_state.rs: process_changes, complete_request", "crates/lua-analyzer/src/reload.rs: update_configuration, load_workspace"]}
{"id": "C91", "title": "Exactly which libraries are loaded", "statement": "After every history the server survives, its library is the one set by the last configuration response that sets one (null and {} set none, anything but a list of strings sets the empty list), and the lists given to the file loader are exactly the successive different libraries after the initial one, numbered 1, 2, ...", "quantifier": "every initial configuration and every history of events", "why_tests_cant": "unbounded histories of configuration responses between all other events", "anchors": ["crates/lua-analyzer/src/config.rs: Config::update, ConfigData::from_json", "crates/lua-analyzer/src/reload.rs", "crates/lua-analyzer/src/main_loop.rs: on_notification (DidChangeConfiguration)"]}
{"id": "C92", "title": "Parsing takes linear time and space", "statement": "Parsing a file of n tokens finishes within 100 n + 5 calls of the parser's primitives (look at a token, take one, open or close a node, report an error) and makes at most that many callbacks; the syntax tree of a text of n characters has at most 100 n + 5 nodes and parsing reports at most 101 n + 5 errors. No malformed input makes error recovery loop or go back.", "quantifier": "every token sequence and every text", "why_tests_cant": "a bound for all inputs, including all malformed ones; tests measure single inputs", "anchors": ["crates/parser/src/parser.rs", "crates/parser/src/event.rs: process", "crates/parser/src/grammar.rs", "crates/parser/src/grammar/expressions.rs", "crates/parser/src/grammar/statements.rs", "crates/syntax/src/parsing.rs: parse_text"]}
{"id": "C93", "title": "How deep the parser recurses", "statement": "A file of n tokens never needs more than 2 n + 3 nested calls of the recursive functions of the parser, and with that room the result does not depend on it. No constant bound is enough: for every depth d there is a valid, accepted program of 2 (d+1) tokens (nested do blocks) that overflows a stack with room for d calls, however the file goes on after the d+1 openings.", "quantifier": "every token sequence, every stack depth, every bound on loops", "why_tests_cant": "the bound is over all inputs; the overflow exists for every stack size", "anchors": ["crates/parser/src/grammar.rs: block", "crates/parser/src/grammar/expressions.rs: expr_bp", "crates/syntax/tests/stack_overflow.rs (ignored test)"]}
{"id": "C94", "title": "Exactly what the client shows", "statement": "After every history the server survives, the diagnostics the client shows for a document are those obtained by following that document alone: each event after which the document is open computes the diagnostics of its text; handling the queued tasks publishes the last computed ones if anything different from the last published ones was computed in between, and nothing otherwise; closing shows the empty list and forgets nothing. In particular, once the queue is handled an open document shows the diagnostics of its text exactly if diagnostics were waiting or it showed them already; a closed document shows nothing until the next handling of the queue and then whatever was waiting when it was closed.", "quantifier": "every initial configuration, every history of events for any number of documents, every iteration order of the server's hash maps", "why_tests_cant": "unbounded histories, interleavings of documents and hash orders", "anchors": ["crates/lua-analyzer/src/main_loop.rs: handle_event, update_diagnostics, on_notification", "crates/lua-analyzer/src/diagnostics.rs", "crates/lua-analyzer/src/handlers.rs: publish_diagnostics"]}
{"id": "C95", "title": "reparse: what it does, in every case", "statement": "For every tree, error list and edit, `reparse` does exactly one of four things. (1) If the edit does not fit the text of the tree it panics. (2) If the edit falls on one whitespace, comment, identifier or string token, deletes no line break of whitespace or a comment, and the first token of the edited token text has the same kind, it puts the whole edited token text as one token of that kind into the old tree; it panics exactly if the edit shortens the text and an old error lies behind the token. The resulting tree is the tree of the edited text exactly if lexing the edited text gives the tokens of that tree. (3) Otherwise, if the text of the innermost block around the edit, after the edit, ends with the token `end`, it puts a new block in that place; it panics exactly if the edited text of the block begins with whitespace or a comment, or the edit shortens the text and an old error lies behind the block. (4) Otherwise it returns what parsing the edited text returns.", "quantifier": "all trees, error lists, edits; for the agreement all source texts", "why_tests_cant": "The claim covers every tree, position and edit, with the exact set of panics; tests sample a few edits.", "anchors": ["crates/syntax/src/parsing/reparsing.rs: incremental_reparse, reparse_token, reparse_block, merge_errors", "crates/syntax/src/lib.rs: Parse::reparse, incremental_reparse, full_reparse"]}
{"id": "C96", "title": "What lies before an edit and is separated from it by two tokens does not change", "statement": "Take two texts that agree up to some place. The tokens that end before that place are the same in both, with the same lexical errors. If the first text has two tokens that are neither white space nor comments, both after a position p and both ending before the place where the texts part, then the parse trees of the two texts have the same nodes at the same offsets among those that end at p or before, and the lexer and the parser report the same errors, in the same order, among those whose range ends at p or before. In particular this holds for the text before and after an edit. One such token is not enough, and the checks made after parsing are not covered: they may depend on text further on.", "quantifier": "all pairs of texts with a common front part, all positions, all nodes, all errors", "why_tests_cant": "It is a relation between the parses of two arbitrary texts: how far the parser's decisions reach back from any later text. A bound on the look-ahead is a fact about every run of the grammar.", "anchors": ["crates/parser/src/grammar.rs: root and all productions", "crates/parser/src/parser.rs: Parser::nth", "crates/syntax/src/lexer.rs: tokenize", "crates/syntax/src/parsing.rs: parse_text", "crates/syntax/src/parsing/text_tree_sink.rs: TextTreeSink"]}
{"id": "C97", "title": "Putting one correct file behind another", "statement": "If two texts are each accepted without errors, then the first, a line break and the second together are accepted without errors, and the statements of the result (with everything in them) are those of the first followed by those of the second - provided the first does not end in a block comment, and the second cannot be read as continuing the last statement of the first: that ends in a semicolon, or the second does not start with a parenthesis, and not with an expression behind a bare return. Without these conditions statements are silently lost.", "quantifier": "every pair of error-free files", "why_tests_cant": "the claim is about all pairs of programs, of any size, with any tokens at the seam", "anchors": ["crates/syntax/src/lib.rs: SourceFile::parse", "crates/parser/src/grammar.rs: block_raw, block", "crates/syntax/src/lexer.rs: tokenize", "crates/syntax/src/parsing/text_tree_sink.rs"]}
{"id": "C98", "title": "The library is loaded, whatever the interleaving", "statement": "The server, its file loader and the client run concurrently. After any interleaving, once nothing is under way the loader has looked once, in order, at every path of every library the session has set; a file that was never opened is known to the server exactly if the last look that shows it as a Lua file could read it, and the text analysed for it is what that look read (on a disk that does not change: exactly the readable Lua files below the library paths). Left alone by the client, server and loader come to rest after a bounded number of steps; on the way neither panics as long as no Lua file that could be read becomes unreadable. Without that proviso the server can be ended; and files of a library no longer set, or deleted from the disk, stay.", "quantifier": "every interleaving of client messages, loader steps and turns of the server; every disk content at every look", "why_tests_cant": "the interleavings of the two threads and the ways messages are coalesced into turns are unbounded, and tests see one schedule", "anchors": ["crates/lua-analyzer/src/main_loop.rs: next_event, handle_vfs", "crates/lua-analyzer/src/reload.rs: load_workspace", "crates/vfs/src/loader.rs: FileLoaderActor::run, load_entry"]}
{"id": "C99", "title": "No complaint before it is needed", "statement": "What a text holds before the first syntax complaint is the beginning of a program without complaints: if no complaint about a++b starts before the last token of a ends (a ends at a token end and holds no lexical error), some continuation of a, on a new line, parses without complaint. In particular a text complained about only behind its last token is unfinished, not wrong. The only exception: a ends with `.` and `:` and a `(` follows, as in `function a.:(`, where the complaint comes one token late. In the other direction, a complaint with two whole tokens behind it remains under every way to write on.", "quantifier": "every token sequence, every text and every place in it", "why_tests_cant": "it relates the position of the first complaint in every text to the existence of a continuation among all texts", "anchors": ["crates/parser/src/grammar: all grammar functions", "crates/parser/src/parser.rs: error, err_recover, expect", "crates/syntax/src/parsing/text_tree_sink.rs: error"]}
