# Formal model of lua-analyzer in Lean 4 — design

## Layout

* `lean/Verif/Model/*.lean` — the model: total, computable functions, one per function of the code,
  each with a comment citing file and lines in `/repo` and the simplifications made.
* `lean/Verif/Spec/*.lean` — small specifications that do not mention the model
  (what a Lua string literal is, what UTF-16 length is, simultaneous replacement, ...).
* `lean/Verif/Proof/*.lean` — helper lemmas.
* `lean/Verif/Props/*.lean` — the property theorems, one file per topic, each theorem next to an
  `example` showing its hypotheses are met by a concrete non-trivial case.
* `MANIFEST.json` — property → theorem names and status; `seeded/LOG.jsonl` — mutation experiments.

## Modelling conventions

* Text is `List Char` (Lean's `Char` = Unicode scalar value = Rust's `char`).  Byte offsets are `Nat`,
  UTF-8 lengths come from `Char.utf8Size`.  Slicing at a byte offset is a partial function
  (`none` = the Rust panic on a non-boundary or out-of-range index).
* Offsets, ids and counters are unbounded naturals; the code uses `u32`/`usize`.  So every theorem is
  about inputs for which these do not overflow (texts below 4 GiB).  Subtractions that could go below
  zero in Rust are modelled explicitly (they are panics in the model, not truncated).
* A Rust panic (assertion, `unwrap`, index, slice, `unreachable!`, a dropped unfinished marker) is an
  explicit error value.  "Never panics" is a theorem, not a convention.
* Unbounded loops and mutual recursion use fuel, and running out of fuel is a distinct error value;
  the theorems prove it never happens with the fuel the entry point supplies (termination).
* Call stack depth and heap exhaustion are not modelled.

## Plan per property

| Property | Model | Proof |
|---|---|---|
| C01 C02 C03 C06 C10 | lexer, grammar as programs over the `Parser` API, events, `process`, tree sinks, rowan builder | induction on fuel / derivation of an abstract "frame" semantics, then a simulation to the event semantics, then sink |
| C04 C05 C14-C21 | `LuaLexer` function by function over `List Char` | structural / strong induction on the text |
| C07 C08 | `validation.rs` on the model trees | induction on trees and strings; C07 is false for some malformed long brackets: negation with a witness plus a partial theorem |
| C09 | whole pipeline | the parser sees only kinds; erasure of trivia commutes with the sink |
| C11 C12 | declarative grammar in `Spec` | soundness / completeness of the recursive descent |
| C13 | Pratt loop | the code's table differs from Lua's: negation witness, and the exact nesting rule for the code's own table |
| C22 C23 | `reparsing.rs` | false in general (witnesses), partial theorems |
| C24 C25 | `TokenSet`, `SyntaxKind` conversions | bit-level lemmas |
| C26-C29 | `text_edit` | induction on sorted edits |
| C30-C34 | `LineIndex`, `partition_point`, proto conversions | induction on text; binary search invariant |
| C35 | `apply_document_changes` | invariant of the cached index |
| C36-C40 | `Vfs`, `process_changes`, `Change::apply` | refinement to a map, induction on histories |
| C41-C48 | `GlobalState` event loop as a transition system | invariants over all reachable states |
| C49 | `normalize_path` on component lists | induction |
| C50 | loader actor | induction |
| C51-C53 | rowan red-tree navigation on model trees, `bdfs`, `AstIdMap` | induction; witnesses for the panics |
| C54 | config JSON | case analysis; witness for relative library path panic |
| C55 | `BindingPowers::new` | induction on declarations |
| C56 | `accept` combinators | induction on text |
| C57-C59 | `validation.rs` on parse trees | exact rule for escapes by induction on the string; the shape of error-free trees from the grammar proof; witnesses where the check misses something |
| C60 | `Config`, `GlobalState::switch_workspaces` | invariant over server histories; witness for the initial library |
| C61 | `AbsPath` / `AbsPathBuf` on `Path` components | induction on segments |
| C62 | grammar programs | "honesty" invariant: a message pushed at a token is true of the token kind there, through the whole grammar and the sink |
| C63-C73 C76 | typed AST accessors (generated and hand-written) on red trees | every node of an error-free tree is an instance of a production (C76, from the grammar derivation); the accessors computed on productions |
| C74 C81 | `item_tree/lower.rs`, `ast_id_map.rs`, `ptr.rs` | accessor theorems; pointers are exact in error-free files (no two nodes of the same kind and range) |
| C82 | `lua_lexer.rs`, `lexer.rs` | the rules are inductive predicates (`Spec/Reads.lean`); every rule is followed (closed forms of the lexer), some rule applies to every text, so the rules and the lexer agree |
| C83 | `validation.rs` | `Spec/Complaints.lean` says when there is reason to complain about a node; every validator is characterised on the productions of its node (C62) and on the lexical rules (C82) |
| C84 | parser, sink | `strip` removes white space and comments; `placeL_strip` shows the sink adds nothing else; uniqueness from completeness of the parser (a derivation determines the parser's calls) |
| C85 | `expr_bp`, levels | every operator node of the tree is a derivation of its own (induction on the derivation); edges are relations on nodes, related to the grammar's side conditions by induction |
| C86 | text tree sink | induction on the abstract tree through `place`: every node is opened just before a token and closed just after its last element |
| C87 | `parse_text` | C84 + C86 one way; the other way: a tree is determined by its leaves, its stripped shape and the trivia rule |
| C88 | `line_index.rs`, `from_proto.rs`, `lsp_utils.rs` | `Spec/ServerPositions.lean` defines lines and columns by recursion on the text; induction relates them to the index's tables |
| C89 | main loop | `serverFile` folds the history; invariant along `run`, one case per event |
| C90 | main loop | `Fatal` says which events end the server; per event an equivalence, then induction on the history |
| C91 | `config.rs`, `reload.rs` | `libraries` folds the history; invariant along `run` |
| C92 | parser programs, `event::process` | `Prog.steps` counts the calls of primitives; an amortised cost calculus (every token taken pays for 100 steps) through the whole grammar; each event makes at most one callback |
| C93 | recursion of the grammar | `Spec/Depth.lean` ties the recursion with separate bounds for depth and loops; more fuel never changes a result (a refinement through all grammar functions); nested `do` by induction |
| C94 | the diagnostics pipeline of the server, seen for one document | `Spec/ClientView.lean` follows one document through the history; an invariant relates its three fields to the messages sent, the collection and the task queue |
| C95 | `reparse`, exactly | `Spec/Reparsing.lean` states the three cases by tree, edit and tokens; case analysis of the model, each lookup shown to have exactly the stated outcome |
| C96 | lexer, parser and tree builder on two texts with a common front part | a syntactic bound on the grammar's look-ahead (`Proof/LookAhead`), two runs of the same program in lock step with equal completion logs (`Proof/CompletionLog`), nodes and errors as a function of the log (`Proof/PlaceLog`); a token depends on one character after it |
| C97 | lexer, parser, tree builder and validation on two texts with a line break between them | the tokens of the parts stay (only white space merges), derivations of the two lists of statements concatenate when `mayFollow` holds at the seam, `parseKinds_complete` and `placeL_local` give the tree, `C78_accepted` the absence of complaints |
| C98 | server, file loader and the two channels between them as a transition system (`Model/Running.lean`): the loader takes configurations, looks, sends; the server receives any number of messages in a turn; client events anywhere | invariant: what was received, queued and is still to send are exactly the writes of all looks, and the looks are at the libraries of the history (`C91`); last-write lemma over looks; `loader_none_iff` for safety; a rank that every inner step lowers |
| C99 | token sequences and texts; `beforeError` = the tokens of a tree before its first error | one lemma per grammar function (`Proof/Viable*.lean`): what it has read when it first errs is a prefix of some derivation of its nonterminal; completed programs are accepted (C12/C84); every token kind can be written (`Proof/Spellable.lean`); place of the first error from the sink proof |
| C100 | texts; `Spec/Recovery.lean`: which complaint may come in which construct, which tokens it may skip and what must follow | a calculus `R` (`Proof/Recovery*.lean`) with one rule per parser primitive that follows the kinds of the open nodes, one lemma per grammar function; carried to tree positions through the sink (`Props/Recovery.lean`) |
| C101 | `main.rs`, `run` of `main_loop.rs`, the handshake of lsp_server (`Model/Session.lean`) | the process as a fold over its input; the phases are characterised by the form of the input (induction from the end), the main loop is `Server.run`, fatal events by C90 |
| C102 | `maybe_update_diagnostics`, `handle_event`, `DiagnosticCollection` with the iteration orders as a parameter of every event (`Orders` in `Model/Server.lean`) | simulation: two runs with the same events stay alike (equal up to the order inside queued diagnostics and published turns); `set_native_diagnostics` commutes for different files; `Spec/Shuffled.lean` says what may differ |
| C103 | the whole grammar, `Marker`/`precede`, event processing, sink | `Spec/Tolerant.lean` gives a regular pattern of parts for every node kind; Hoare triples over the stack of open nodes (`Proof/Tolerant.lean`) are proved for every grammar function (`Proof/TolerantGrammar.lean`) and carried through the sink; `C103_tolerant` shows every production matches its pattern |
| C104 | accessors of `nodes.rs` (`child`, `token`) | tables of accessors in `Spec/Parts.lean`; a pattern bounds how often a symbol occurs, so the first match is the only one |
| C105 | the whole marker API of `parser.rs`, including calls the Lua grammar never makes (`abandon`, `undo_completion`, `change_kind`, `kind`, `expect_at`), as programs over calls (`Model/Markers.lean`) | a forest semantics of each call (`Spec/Markers.lean`); `process` is shown to report events in a logical order (chains of forward links resolved), and every call changes that order as the forest says; the Lua grammar is shown to follow the discipline on every input. False when a marker is abandoned right after `precede`: exhibited |
| C106 | the locks taken and given back during each event, in order: the `RwLock` of the Vfs, snapshots of the database and writes to it (`Model/Locks.lean`, beside the server model, with its branching) | a semantics of locks (`Spec/Locks.lean`); every handler's operations are granted from nothing to nothing; induction over the history |
| C107 | the two threads, the two channels with their ends, leaving the main loop and dropping the state field by field (`Model/Threads.lean`, on top of `Model/Running.lean`) | invariant (the loader is alive until its sender is dropped, ended once it is joined, the receiver outlives it); a measure every step lowers once the loop is left; simulation with C98 in both directions |
| C108 | `AstIdMap::from_source`, `bdfs`, `ast_id` (`Model/Ptr.lean`), `reparse` | `Spec/ItemIds.lean`: `SameOutside d` (two trees with the same nodes as far as these lie inside at most `d` items), `SamePlace`, `KeepsIds`; the walks over both trees are compared layer by layer; reparsing through C95 (one element of the tree replaced), lookup through C53 (pointers of items are distinct) |
| C109 | `SyntaxNodePtr::to_node` (`Model/Ptr.lean`) | induction over the tree; order of siblings; stated with `Below`, `Above`, `Left` of `Spec/Walk.lean` |
| C110 | the lexer over a character source that counts every read (`Model/LexerCost.lean`: the functions of lua_lexer.rs written over an arbitrary source, lib/accept with counts) | amortised cost: every consumed character brings 10, a calculus of budgets (`Pays`) for the combinators and loops (`Proof/LexerCost.lean`); on the plain source the generic functions are those of `Model/Lexer.lean` |
| C111 | `validation.rs` as a whole, on the trees of all texts | `Spec/Faults.lean` (what is wrong with a statement or literal of the tree, what the contents of a string token are when its brackets are incomplete); each rule of the validator is shown equivalent to its fault, and the literal nodes of every tree hold exactly one token |
| C112 | `is_keyword`, `is_punct`, `is_literal`, `is_trivia`, `from_keyword` of `syntax_kind` on the tokens of all trees | `Spec.Classified` says for each class which texts belong to it, from the word lists of `Spec/LuaLexical.lean`; case analysis over the spellings of C75 |
| C113 | `xtask/src/codegen/gen_syntax` (lowering and generation, as data with the meaning of the generated Rust), Lua's grammar file and the checked-in output | `Spec/Codegen.lean` gives the sentences of a rule and what each accessor should return; induction over sentences shows that lowering makes one field per place, and counts how often a place is filled; the checked-in files by evaluation in the kernel |
| C114 | `item_tree/lower.rs` `collect_inner_items`, rowan's `preorder` | induction over the tree: a walk over a node restores the stack of blocks and lists under each id the statements owed to it; ids of blocks are unique (C53); productions (C50-C52) show that only blocks have statements as children |
| C115 | nothing new: `Spec/Manual.lean` is the grammar of the Lua 5.1 reference manual over token kinds | induction over the manual's derivation: a tree of the accepted grammar (C02/C03) with the same tokens whose statements pass the validation; flat sequences of operators get a tree by inserting operator after operator on the right edge; then C78, C84 and C87 |
| C116 | `from_proto.rs:9-12`, `to_proto.rs:30-57`, `Url::to_file_path`/`from_file_path`, percent-encoding | `Spec/Uris.lean` gives reading and writing of percent codes as relations; functional induction, `PathSpec.steps` identifies paths |
| C117 | `paths.rs` `strip_prefix`, `pop`, std `Components` read from the front | induction over the reader's fuel relates it to `PathSpec.steps` |
| C118 | lexer, parser, sink, validation as for C78/C87/C97 | prefix and suffix of the token list are the tokens of the parts (`lexemes_split`), joined by line breaks (`lexemes_join`); the derivation with one block replaced (`deriv_rep`) is what the parser finds (`parse_of_deriv`); the shape and the tokens fix the tree without trivia; validation looks only at kinds of children and at literals |
| C119 | as for C118 | the statement list of the block is split at the seams (`stmts_split`) and glued again with the new statements (`stmts_splice`); every block inside a derivation is derived (`deriv_blocks`); the rest as for C118, which is now the special case of the whole block |
| C120 | as for C111; `Spec/Reports`: what is reported about one node, as a list | the walk is the list of nodes below the root, each once, in document order (`redNodes_*`); per node the model's functions are compared with `Report`, which is shown to be a function | 
| C121 | `lua.ungram` as data (as for C113), the productions of C76; `Spec/Conformance` | sentences of a rule are related to a simpler reading of rules (`sentence_says`, `says_sentence`); then one lemma per rule (`fact_*`) against the productions of C76 |
| C122 | the server's main loop, change handling, parsing, validation, positions and publishing together | `Marks` says when a diagnostic stands for an error by the rules of the protocol; composition of C44, C45, C48, C33 and C115 |
| C123 | lexer, parser, sink and validation, with the words of names, strings, numbers and comments exchanged | `Retold` (Spec/Exchange.lean) is the same tree with other words; how a token is read depends on the next character only through a few classes (`reads_change`), so the lexemes carry over; the parser sees the same kinds; induction over the placed tree for tokens and error positions |
| C124 | lexer, parser, sink and validation, with one node of a file replaced by a node of another | `selfClosing` (Spec/Pasting.lean) lists the kinds; by induction over derivations, replacing a self-closing node keeps what the grammar and its side conditions see of it (first token, binding powers, whether a call may follow: `Pst.deriv_rep`); the opening and closing tokens are spelled in one way, so the tokens around are read as before (`Pst.lexemes_change`); induction over the placed tree (`Pst.placeL_swap`) gives the same tree around it |
| C125 | as C124 | the surroundings of `around` (Spec/Alone.lean) are concrete files of which the node is computed by the kernel; C124_paste puts the construct there, and the place of the new node follows from the path (`Ctx.swap`); doubling pastes twice |
| C126 | lexer, parser, sink, validation (as C78) | `WrapL` puts one expression of a derivation in parentheses; by induction over derivations (`deriv_wrap`) the grammar still derives the result, the conditions on what can be called being kept by `endsCallable_wr` and `ends_last`; `place_wrap` follows the trivia, `lexemes_paren` the tokens, `wrap_fine` the checks of validation |
| C127 | lexer, parser, sink, validation (as C78) | `deriv_der`: every expression node of a derivation is derived from the nonterminal of expressions; with `place_local` its tokens and nodes are those of `return e`; then C126 puts it in parentheses and C124 pastes the parenthesized expression over the parenthesized old one |
| C128 | lexer, parser, sink, validation (as C78) | `deriv_put`: in a derivation, the expression at one of the places may be exchanged for any other derived expression, because none of these places bounds the operators in it; `placeL_put`: the sink puts the trivia where they were; `reads_opener`, `reads_closer`: the token before and the last token of the new expression are read as before |
| C129 | lexer, parser, sink, validation (as C78) | `deriv_prim`: in a derivation, the expression at any place may be exchanged for a name or parentheses followed by indices and calls, because such an expression bounds no operator on either side; `placeL_put` as for C128; `reads_last`, `reads_change`: the last token of such an expression and the token before it are read in front of whatever stood behind and before a name |
| C130 | lexer, parser, sink, validation (as C78) | as C129, with every open place allowed; `same_fine`: what the validation requires of a statement depends only on the kinds of the expressions in its lists, and stays true when a call stands for a call or a target for a target |
| C75 C80 | lexer, `ast/generated/tokens.rs` | spelling of each token kind as a small inductive spec; the lexer proved sound and complete for it |
| C77 | `reparsing.rs` error merging | the place-by-place description of errors in the sink |
| C78 | whole pipeline | soundness and completeness of lexer, parser and validation put together |
| C79 | union and struct types of the AST | case analysis generated from the declarations |

Properties that the code violates are kept with their full statement; the theorem list then holds the
negation (a proved counterexample, named `..._fails`) and the strongest positive part (`..._partial`).

## Trusted base

* Lean 4.33.0's kernel, and the axioms `propext`, `Classical.choice`, `Quot.sound` (no others).
* That the model definitions transcribe the cited Rust code; the semantics of the libraries used by the
  code that are modelled from their documentation: `rowan` (green tree builder, red tree navigation),
  `text-size`, `std` (`str` slicing, `Vec`, `HashMap`, stable sort, `Path::components`),
  `indexmap`, `crossbeam-channel` (FIFO), `rayon::ThreadPool::install` (runs the closure to completion
  before returning), `lsp-server` (`ReqQueue`), `salsa` (input-determined queries), `serde_json`.
* Not modelled: call stack exhaustion, memory exhaustion, u32 overflow (texts ≥ 4 GiB), logging,
  the parts of `xtask` other than the syntax generator, `test_utils`, JSON (de)serialisation of LSP types, the file watcher behind `vfs/src/loader.rs`.

### What is modelled, crate by crate

| Code | Model | Left out |
|---|---|---|
| `xtask/src/codegen/gen_syntax` | `Codegen`, and its input and checked-in output in `CodegenData` | reading `lua.ungram` and `ast_src.toml` (crates `ungrammar`, `toml`; transcribed by `tools/gen_codegen.py` instead), rendering and formatting of Rust source: generated items are data with the meaning of the Rust they stand for |
| `parser` (`grammar/*`, `parser.rs`, `event.rs`, `token_set.rs`, `syntax_kind*`), `lib/binding_powers*` | `SyntaxKind`, `TokenSet`, `BindingPowers`, `Parser`, `Grammar` | `drop_bomb` only as "an unfinished marker is an error"; `Parser::nth` has no step limit in this version; unbounded loops and recursion are modelled with fuel that is proved sufficient (C01) |
| `syntax` (`lexer.rs`, `lua_lexer.rs`, `parsing.rs`, `parsing/*`, `validation.rs`, `ptr.rs`, `ast/*`), `lib/accept` | `Accept`, `Lexer`, `Sink`, `Validation`, `Red`, `Reparse`, `Ptr`, `AstNodes`, `AstCast`, `Ast` | rowan itself: green trees are a plain inductive type, red nodes are (path, offset, green) triples, the binary search for a child is "first child that overlaps" |
| `text_edit`, `ide_db/line_index.rs`, `lua-analyzer/{from_proto,to_proto,lsp_utils}.rs`, `stdx/lib.rs` | `TextEdit`, `LineIndex`, `Uri` | `Url` parsing and Windows paths are not modelled |
| `vfs`, `base_db/change.rs`, `lua-analyzer/{global_state,main_loop,dispatch,handlers,diagnostics,config,reload,document}.rs` | `Vfs`, `Diagnostics`, `Config`, `Server` | threads: `TaskPool` uses `install`, which runs the job before it returns; channels are FIFO and the choice among them is nondeterministic; the order of hash map iteration is an arbitrary parameter (`Orders`); salsa cancellation |
| `stdx/paths.rs`, `vfs/{loader,handle}.rs` | `Paths`, `Loader` | Unix paths; the disk is a finite tree given by `WalkDir`'s documentation |
| `hir/{ast_id_map,item_tree,item_tree/lower,name}.rs` | `Ptr`, `ItemTree` | body lowering (`todo!()` in the code) |

`Model/AstNodes.lean` and `Model/AstCast.lean` are written by `tools/gen_ast.py` and `tools/gen_cast.py` from
`crates/syntax/src/ast/generated/nodes.rs`; the output is committed.

### Evidence that the model matches the code

The code cannot be run here.  The repository's own snapshot tests record what it does, so the model is run on their
inputs and compared: `tools/compare_snapshots.py` (with the two Lean drivers next to it) evaluates the model's lexer on
the 22 lexer snapshots and the model's parser on the 53 parser snapshots under `/repo`; all 75 agree, tree, ranges and
error messages.  This is a test of the model, outside the proofs.  `seeded/LOG.jsonl` records the mutations of the model
and the theorems that failed on them.
