# Formal model of mmcloughlin/ssarules in Lean 4

`properties.jsonl` lists the claims (C01 …), `MANIFEST.json` maps each to its theorems, `seeded/LOG.jsonl` records the wrong programs the
theorems were tested against.  This file says what is modelled, how each claim is stated and proved, and what is trusted.

## Layout

| where | contents |
|---|---|
| `lean/Verif/Model/*.lean` | the model: transcription of the Go code, function by function; every definition cites file and lines |
| `lean/Verif/Spec/*.lean` | specifications, small and independent of the model's helpers |
| `lean/Verif/Props/*.lean` | the property theorems only, named `Cnn_…`, each with a non-trivial example that meets its hypotheses |
| `lean/Verif/Proof/*.lean` | lemmas |
| `tools/` | scripts that write `properties.jsonl`, `MANIFEST.json`, the axiom table below and the mutation log |

| Go source | model | specification | theorems |
|---|---|---|---|
| ast/ast.go, `go/ast` | Model/Ast, Model/Dump (with `go/ast.Fprint`, `strconv.Quote`) | Spec/Dump | Props/Dump (C61) |
| ast/walk.go, rules/rules.go | Model/Walk (on trees), Model/WalkHeap (on a heap, for visitors that modify) | Spec/Tree, Spec/LiveWalk | Props/Walk (C01–C04), Props/WalkHeap (C65) |
| pass/alt.go | Model/Expand (values), Model/ExpandHeap (pointers and slices), Model/ExpandProg (one access at a time) | Spec/Expand, Spec/ExpandError, Spec/Heap, Spec/Sharing, Spec/Concurrent | Props/Expand (C05, C06, C08–C13, C57), Props/ExpandHeap (C07), Props/Sharing (C64), Props/Concurrent (C62), Props/Relabel (C68, Spec/Relabel) |
| printer/printer.go | Model/Printer | Spec/Print, Spec/Operators | Props/Printer (C14–C16), Props/Roundtrip (C18–C20) |
| parse/internal/goexpr/parse.go | Model/Goexpr | Spec/GoTree | Props/Parse (C30, C31) |
| parse/internal/parser/zparser.go (generated from rules.peg) | Model/Utf8 (decoding), Model/Peg (machine), Model/Grammar (table and actions), Model/PegErr (machine with positions and messages), Model/PegCount (machine with its counter), Model/Options (options, machine with a limit) | Spec/Syntax, Spec/WellFormed, Spec/Utf8, Spec/Submitted, Spec/ParseError, Spec/Message, Spec/PegSem, Spec/PegFile, Spec/Count, Spec/Options | Props/Parse (C17, C21–C29, C49), Props/ParseError (C26, C50–C54), Props/PegGrammar (C55), Props/Count (C59), Props/Options (C72) |
| parse/parse.go, `ParseReader`, `ParseFile` | Model/Parse (on bytes), Model/Reader (with `ioutil.ReadAll`, `strings.Reader`) | Spec/Reader | Props/Parse, Props/Reader (C63) |
| smt2/generate.go, smt2/ops.go | Model/Smt2 | Spec/Smt (SMT-LIB reader and semantics), Spec/Ssa (meaning of SSA rules), Spec/GenError (obstacles and messages), Spec/Rewrite (rewriting, renaming), Spec/Compose (equational consequences), Spec/ReadBack (the line with the rule), Spec/Solver (solvers and errors), Spec/Verdict (counterexamples, clean runs) | Props/Smt2 (C32–C39), Props/GenError (C56), Props/Rewrite (C66, C67), Props/Compose (C73), Props/ReadBack (C75), Props/Solver (C76), Props/Verdict, Props/VerdictMain (C77, C78) |
| cmd/ssarules/main.go | Model/Filter, Model/Cmd, Model/Main (command line, process) | Spec/Cmd, Spec/Disk, Spec/Log (reader for the log), Spec/Crash (disk and log in steps), Spec/CommandLine, Spec/Simul | Props/Cmd (C40–C46), Props/Size (C71), Props/Disk (C41, C45, C47, C48), Props/Crash (C79), Props/Log (C58), Props/Main (C60), Props/Simul (C69), Props/Source (C70) |
| ast/walk.go, rules/rules.go, printer/printer.go, pass/alt.go, smt2/generate.go and the filter, on ASTs with nil pointers | Model/Nil | Spec/Nil | Props/Nil (C74) |
| `go/parser.ParseExpr` (not part of the repo) | parameter `lib : GoLib` | Spec/GoSyntax, Spec/Roundtrip | |

## Modelling conventions

* Text in an AST is `List Char`.  The parser's input is bytes, decoded by a model of `utf8.DecodeRune` into symbols: a rune or an invalid byte.
  Everything the parser puts into an AST is valid UTF-8 (an invalid byte makes the parse fail, C23), so nothing is lost for parsed ASTs; strings that
  are not UTF-8 in hand-built ASTs are outside the model.
* A nil interface is a constructor (`Value.nil`, `Op.nil`, `OpPart.nil`, `GoExpr.nil`), a nil `*Expr` is `none`.  Typed nil pointers inside
  interfaces and nil entries in `File.Rules` are outside of these models; `Model/Nil` has the same functions for ASTs with them (C74), except for nodes of go/ast.
* `(T, error)` results are `Res T` with `ok`, `err`, `panic`.  A side-effecting call is a function on an explicit state; the visitor of `Walk`, the
  writer of `Fprint`, the answers of the operating system and the Go parser are arbitrary parameters.
* The PEG machine is an interpreter (`run`) over the grammar table transcribed as data: backtracking, the label frames, the error list, action
  calls, panics and `recover` are there.  It has a depth argument; this is not an assumption, C21 proves that a depth linear in the input always
  suffices and that more never changes the outcome.
* `Model/PegErr` is the same machine with everything that makes up the error message (position, rule stack, farthest failure); it is
  proved to refine the smaller machine.
* `pass/alt.go` is modelled twice: on trees, and on a heap of pointers and slices for C07; the second is proved to refine the first.
* The command is a trace of events (opening, reading, closing, logging, writing) against an arbitrary environment.  `Spec/Disk` refines a write into
  the steps "truncate" and "append one byte" for crash points.

## How each claim is modelled and proved

* **C01–C04** `Walk` over an arbitrary stateful visitor; specification: children of a node and pre-order list (Spec/Tree); induction on the
  tree.  Panics are tracked, so C04 is an equivalence.
* **C05–C11** refinement of the loops of pass/alt.go to "the `i`-th rule has the `i`-th entry picked in every alternation" (Spec/Expand).
* **C07** heap model: a successful run is "allocate, then one write of the file's rule list"; invariant: old cells are unchanged.
* **C12** the natural claim is false: `C12_false`; the exact condition is proved.
* **C13** combines C25 with C06.
* **C14–C16** the printer's sequence of writes is computed once and for all writers (sticky error); induction on the node.
* **C17** from C25.  **C18–C20** see "Go expressions" below: lexer/parser inversion for the printed form, by induction on the expression with an
  invariant on the token before and after; `FileText` (C24) for the outer level.  Converse (C18_exact, C19_exact): what is read has at least as many
  characters, blanks and comments aside, as what is printed, so in a file that is read back nothing is skipped, the parts of each rule are found where
  they were written and no token is lost; that every Go expression is submitted in its printed form follows from C26 with two Go parsers that differ
  in the answer for that text only.
* **C21** static check of the grammar table (no left recursion, no loop over an expression that can match nothing), lifted by induction on the remaining input.
* **C22, C25** Hoare-style shape invariants of all values that reach an action (no type assertion fails).
* **C23, C26** errors are never removed; every bad byte the machine passes is recorded; a successful parse has passed all of them.
* **C24** `FileText` in Spec/Syntax is a declarative grammar of the accepted texts; soundness, completeness and unambiguity are proved.
* **C27–C29, C49** consequences of C24.
* **C30, C31** induction on Go trees.
* **C32–C39** the script is *text*; Spec/Smt reads it character by character and gives it a meaning, Spec/Ssa gives the rule a meaning; induction on values.
* **C40–C46** equations for the trace of `run`; the natural form of the claims about file names needs path resolution (`locate` in Spec/Cmd).
* **C47, C48** prefixes of the sequence of disk steps.
* **C50–C53** `Model/PegErr.lean` is the machine with positions, rule stack and farthest failure; `Proof/PegErr.lean` proves by induction on the depth
  that forgetting these gives the machine of `Model/Peg.lean`, so every claim about accepted inputs carries over. C50: an invariant of the machine
  (`DInv`): every error and every expected terminal is true at a place of the input. C51: the runs on two inputs with a common beginning go in step until they
  look past it, and looking past it leaves a farthest failure there (no terminal is longer than three characters). C52: sorting. C53: a typing of the values of all
  grammar expressions, as long as there is no error. C26_accept_iff follows from C53.
* **C54** a reader of messages (Spec/Message) is run on the text the model produces; the terminals of the table are checked against a list of their notations.
* **C55** the text of rules.peg is read by a small reader; the machine is proved to follow Ford's semantics for the table with actions and labels erased (induction on the
  depth); a normal form that is proved to preserve the semantics (inlining, flat sequences, merged classes) makes table and rules.peg equal.
* **C56** the account `NoScript` of the first obstacle is a declarative relation; the generator's text is proved to be its message, it is unique, and the messages are decoded.
* **C57** likewise for `FileFault` and all outcomes of ExpandAlternates, panics included.
* **C58** the log is a text; a reader that knows its format only (Spec/Log) is run on it, and what it reads is proved to be the account of the run.  No line of the log is ambiguous because printed rules and messages have no line breaks (this needs FollowsGo: the Go expressions of simple rules print on one line).
* **C59** the machine with a counter is proved to be the machine; without actions it is described by a relation `Ev` (text, rest, number of evaluations).  The bound is found
  bottom-up, one lemma per grammar expression, each of the form `evaluations + a·|rest| ≤ a·|text| + b`.  Two places need more: a name with a parenthesis is tried as a call and again as
  the next rule (the arguments read in vain are paid by the rule that follows, `Proof/CountTwice`), and an unterminated comment is read to the end and given up; this happens at most once because a
  condition that starts with a comment makes the action of the rule panic, which ends the parse (`Proof/CountReal`, from the values in the frames).
* **C60** the command line is described by what it is made of (Spec/CommandLine: options, file names, what is wrong), the model by the loop of package flag.  Each description determines the
  outcome of the loop, and by induction on the arguments one of them always applies; so both agree and the descriptions exclude each other.  The process is then that of C40–C48, C58.
* **C61** the printer of `go/ast` is a machine (output, line, indentation, pointers seen, error of the first failing write).  Its run with failing writes follows the run without
  them.  Where no text has a line break it prints exactly the lines of Spec/Dump (induction on the value).  Two clear values whose lines are the same are equal up to addresses, by
  induction on one of them, with the invariant that pointers seen on the same line point to the same value; the fields that are nil are found again by their names.  Without sharing, two runs on the same
  AST simulate each other.
* **C62** ownership: every cell belongs to one goroutine (the file it expands, what it allocates) or to all, and then nobody writes it.  For one goroutine that sees only its own and the common cells, and gets new
  cells at arbitrary addresses, the refinement proof of C07 is repeated (`Proof/ExpandProg`); a step of one goroutine leaves the views of the others as they are, so all proofs hold together in every
  interleaving (`Proof/Concurrent`), and two accesses to one cell by different goroutines are reads.
* **C63** the loop of `ioutil.ReadAll` on an array with a capacity, against an arbitrary reader.  What a reader holds (`Holds`) is an inductive predicate over all ways to be read, and the proof is
  by induction on it, with the invariant that the array begins with what has been delivered.
* **C64** on the heap model of C07: the relation `Parts` between an old and a new value lists the new cells; by induction on the nesting they come from disjoint intervals of addresses, so no cell is used twice.
  `*ast.Expr` objects (conditions, Aux, AuxInt) are values in this model: that they are shared too is not visible.
* **C65** `Walk` on the heap with visitors that modify it (Model/WalkHeap).  A visitor that edits its node is described by a function on trees (`Edits`, a separation-style frame condition);
  the walk on the heap is proved equal, for every depth, to a walk on trees that edits, which is proved equivalent to the relation `Live`.  For arbitrary visitors a log of all visits is
  kept, and each entry is proved to be what memory held at that moment.
* **C66, C67** on top of C32: evaluation of `subst θ v` is evaluation of `v` with the values of `θ` (where defined), likewise for renaming; induction on the expression, the place and the number of steps
  (Spec/Rewrite).  The wildcard `_` makes a script illegal (C37), so rules with `_` are never certified in this sense.
* **C68** a free theorem, by induction on the value (Spec/Relabel); it makes up for Go expressions being values in the heap model: read them as pointers.
* **C69** an execution is any interleaving of the operations of the processes on the disk (truncate, put one byte at a position; Spec/Simul).  Invariant for one place: nothing has happened yet, or the
  contents are `Patchy` and for some process all bytes before its own position are right (the one that truncated last); when all have finished this process has written everything.  The two descriptions of
  writing (append in Spec/Disk, positions here) are proved to agree for one process (C69_alone).
* **C70** the loop over the rules looks at the trace only through its writes, and `load` yields the expansion of the simple rules; the rest is C18, C49 and that expansion preserves `RuleStable`.
* **C71** inductions over values: the term of a value of the fragment against its printed form (the table of operations gives the constant), names declared against names printed, an opcode
  with one alternative picked against all; for the command, from the grammar (`ValueText`), so that layout and the Go library do not matter; for printing, over the tokens of Go expressions (C71_printed).
* **C72** the machine with a limit does what the counting machine does until the limit is exceeded (one induction over all four loops, with the errors recorded so far); the rest from the
  soundness and completeness of each rule of the grammar and the depth bound, which hold for every entry point.  `AllowInvalidUTF8` is modelled exactly on valid UTF-8 only.
* **C73** every expression, also without a proper value, gets a value in the infinite bit sequences, an operation on `w` bits working on all blocks of `w` bits; certified rules hold there block by block,
  so connected expressions have the same sequence, and the first block of it is the value if there is one (C32 then turns values into verdicts).

* **C74** the functions again on ASTs whose pointers may be nil.  Printing is a list of texts with holes at the nil pointers; substituting in the list is printing the AST with the nil pointers
  replaced.  Expansion is related to expansion of the AST with the nil pointers replaced by one relation that is kept by all steps; the worst replacement is an opcode on which expansion panics.

* **C75** the printed rule of the supported fragment contains no Go expression, so that it is a text of that rule does not depend on the Go parser; `ruleLine` (Spec/ReadBack) cuts it out of the script.
* **C76** `solve` (Spec/Solver) executes commands and goes on after those errors a parameter says; a solver may have read any readable beginning of its input. The expressions of a readable beginning of a text of lists are a beginning of its expressions (lexer: a cut atom only at the end; reader: what is closed stays). Legal names: the run is a beginning of the run of the whole script. An illegal name: no assertion succeeds, since a sorted term mentions declared names only, so every query is empty of assertions. Files: the invariant that the place of a rule holds a beginning of its script, from C47.
* **C77** `IsModel`, `Refutes` (Spec/Verdict); both directions of C32's proof are about one assignment: the sides have values in SSA exactly if they have them in SMT-LIB, and then the same.
* **C78** from what can be observed: exit status, log text (`ErrorLine`), files (`AllUnsat`, by `AskedFile`), number of expanded rules. A generator error among the events leaves a line; without one every expansion has a script (C40), its file holds it (C45), and C76 does the rest. `Verified` is stated about the parsed input files and `pickRule`, not about the list the command builds.
* **C79** a run is a sequence of steps (`effects`, Spec/Crash): those of the disk (Spec/Disk) and the characters of the log, in the order of the program; any beginning of it may have been done. Whole lines of the log are the texts of a beginning of the events, all steps of which are done (induction over the events); every message `written` follows its write, which was answered without an error, and no later step touches the place (C41). Loss of data the operating system has accepted is not modelled, as in C47.
  The second run of the command is computed from the first one's list of writes.

## Go expressions

`go/parser` is outside the repo.  Nothing is assumed about it in the model (`GoLib`: its answers, the texts of its errors and of recovered runtime errors, and Go's map order are arbitrary).  Two kinds of hypotheses occur:

* `RejectsComment lib` (C24 converse, C27, C29, C49): a text that is only a `//` comment is not a Go expression.
* `FollowsGo u lib` (C18–C20): on texts that are expressions of the eight supported node kinds, and on texts that are no Go expressions, the parser
  does what `goSyntax u` (Spec/GoSyntax) says, for the Go version `u` (letters, digits, `~`).  `goSyntax` was written from the Go specification and
  go/scanner, go/parser; it ignores the `Obj` field of identifiers and the nesting limit (10⁵) of newer versions.  `refLib u` satisfies it, so it
  is consistent; that the real library does is trusted.

## Not modelled

* Reflection of ASTs in memory that are cyclic, contain typed nil pointers, or (Go before 1.17) set `Obj` of Go identifiers (C61); failures to write the log of the command, the parser statistic `ChoiceAltCnt`, what `AllowInvalidUTF8` lets actions see of invalid bytes (the option is never passed).
* Constructs of the PEG machine that the table does not use: `&e`, code predicates, throw/recover, `ignoreCase`, Unicode classes.
* Memory exhaustion and stack overflow; integer overflow of counters.
* Symbolic and hard links, other programs that write to the same files (several runs of the command itself: C69), loss of accepted data at a power failure, permissions.
* The text of embedded Go errors (an arbitrary function).

## Findings: where the natural claim is false of the code

* A file of blanks or comments only is rejected; only the empty file has no rules (C27).
* Newlines in a condition become blanks before Go parses it, so a `//` comment in a multi-line condition silently drops the rest of the condition (C28).
* The variadic marker of a call is cleared with the positions: `f(x...)` and `f(x)` are the same AST (C31).
* Printing puts Go tokens side by side: `a & ^b` is printed as `a&^b` (another expression), `a - -b` as `a--b` (rejected) (C19).
* Carriage returns: a raw string in a condition with a carriage return does not survive printing (C19).
* A one-entry alternation next to a longer one makes ExpandAlternates panic (C12); the parser never produces it.
* `_` is declared as an ordinary constant: the script is not legal SMT-LIB, and several `_` denote the same value (C37, C38); names such as `let` too.
* A script left over from an earlier run for a rule the generator now rejects stays (C45).
* Concatenating two accepted files without a separator can change the meaning (`x` and `(y)` become a call) (C49).
* `(NeqB x y) => …` and `(Not (EqB x y)) => …` have scripts with the same commands; only the comment tells them apart (C75).
* Options after the first file name are file names: `ssarules a.rules -outdir out` fails to open `-outdir` (C60).
* A visitor that modifies nodes in place meets a shared S-expression once per occurrence and edits it each time (C65).
* Rules made from one rule by ExpandAlternates share the S-expressions without alternations; modifying one in place modifies all (C64).
* A type may contain line breaks; in the dump of a rule it can pretend to be other fields, and two different rules have the same dump (C61).  A bare opcode and a bare variable are dumped alike.
* Printing (hence `Generate`) panics on every AST with a nil pointer, also after a write has failed or an error has been recorded; a nil `*Expr` value is no trouble for `Walk` and
  `ExpandAlternates`, but makes printing the expanded rules panic (C74).
* An error at a newline is reported on the next line at column 0 (C50).

## Validation of the model (a test, not a proof)

`tools/conformance.lean.txt` runs the model (evaluated by Lean, with the reference Go parser `refLib`) on all sixteen rule files of the repo and on the cases of its tests: the golden files
are reproduced, and parsing the printed form gives the same AST.  `tools/check_peg.py` compares the embedded text of rules.peg with the repo;
`tools/check_table.py` reads the composite literal `g` of zparser.go and compares it, entry by entry (266 entries, with the texts used in error messages), with the table of Model/Grammar.

## Trusted base

* The Lean 4.33.0 kernel.
* That the model says what the Go source says: the cited lines.  Nothing was run.  The parts of Go's standard library that occur in it (flag, log, filepath.Join, ioutil.ReadAll, strings.Reader, utf8, sort, fmt verbs, go/ast.Fprint, strconv.Quote) were written from memory of their sources for Go 1.16.
* The specifications in `Verif/Spec`, in particular the SMT-LIB fragment, the meaning of the SSA opcodes, and the Go expression syntax.
* The hypotheses named above where a theorem has them.
* Axioms, per theorem (as reported by Lean; none besides the three standard ones):

<!-- axioms -->
* no axioms: C63_takes_back
* `propext`: C04_walk_nil, C09_eraseOps_injective_but_ops, C25_parts_have_alternation, C59_one_number
* `Quot.sound`, `propext`: C01_flat_children, C01_nodes_of_tree, C01_walk_children, C04_walk_no_panic, C04_walk_panic, C50_first_line, C65_current, C65_edits, C65_edits_only, C65_reads, C65_rename, C74_contains, C74_filter, C74_flat, C74_has, C74_inspect, C74_inspect_same, C74_walk
* `Classical.choice`, `Quot.sound`, `propext`: C01_inspect_all, C01_inspect_is_pruned_preorder, C02_contains, C02_contains_of_done, C03_hasAux, C03_hasAuxInt, C03_hasBinding, C03_hasEllipsis, C03_hasTrailing, C03_hasType, C04_contains_panic, C04_inspect_panic, C05_expand_picks, C05_expand_plain, C05_expand_rule, C06_expand_error, C06_expand_succeeds_iff, C07_failure_changes_nothing, C07_success_changes_only_the_file, C08_idempotent, C08_no_alternatives_left, C09_only_opcodes_change, C10_empty_file, C10_expand_append, C10_never_loses_rules, C11_filter_commutes, C11_predicates_invariant, C12_false, C12_no_panic, C12_panic_file_iff, C12_panic_iff, C13_expand_parsed, C14_file_fails_iff, C14_file_is_lines, C15_bytes, C15_error, C15_operators, C15_rule_fails_iff, C16_fprint, C17_print_parsed, C18_exact, C18_goexpr, C18_goexpr_exact, C18_print_parse, C19_cr_rejected, C19_exact, C19_fusion_changes_meaning, C19_fusion_rejected, C19_normal_form, C19_reparse, C19_reparse_no_cr, C20_injective, C20_rule_injective, C21_terminates, C22_total, C23_invalid_utf8, C24_accepted_is_rules, C24_rules_accepted, C24_unambiguous, C25_well_formed, C26_accept_iff, C26_bad_expression_fails, C26_only_submitted_matter, C27_no_rules, C27_surrounding_skip, C28_comment_hides_rest, C28_condition, C29_operands, C30_clean, C30_go_error, C30_no_panic, C30_panic_iff, C30_parse_iff, C30_rejects, C31_same_iff, C31_variadic_lost, C32_script_decides_rule, C32_valid_iff, C32_values_defined, C33_commands, C33_legal, C34_accepts_iff, C34_rejects, C35_features_rejected, C35_nothing_ignored, C36_any_names, C36_comment_confined, C37_false_placeholder, C37_false_reserved, C37_legal_iff, C37_parsed, C37_written_legal_iff, C38_declared_once, C38_distinct, C38_instance, C39_never_unsigned, C39_sort_of_match, C40_load, C40_load_only, C40_trace, C41_name_unique, C41_names_distinct, C41_once, C41_places_once, C41_written_iff, C41_written_is_rule, C41_written_place, C41_written_place_iff, C42_no_output, C42_write_failure, C43_failure_modes, C43_generator_input, C43_succeeds_iff, C44_end_to_end, C45_disk_after, C45_files_after, C45_rerun, C46_more_inputs, C47_elsewhere, C47_stopped, C48_recovers, C49_concat, C49_concat_lines, C49_select, C49_split, C50_distinct, C50_line_column, C50_offset, C50_offset_ends, C50_same_result, C50_truthful, C51_local, C51_no_continuation, C52_map_order, C52_missing, C52_sorted, C53_first_is_cause, C54_expected, C54_lines, C54_position, C54_vocabulary, C54_wording, C55_accepts, C55_accepts_iff, C55_decides, C55_read, C56_error_iff, C56_one_reason, C56_points_at, C56_readable, C57_failure_iff, C57_one_fault, C58_failure, C58_rule, C58_success, C59_any_go_parser, C59_counted, C59_counts_the_run, C59_evaluations, C59_linear, C60_one_meaning, C60_options_first, C60_refuses, C60_runs, C60_status, C60_written, C61_declared, C61_determined, C61_forged, C61_images, C61_injective, C61_lines, C61_literals, C61_never_fails, C61_parsed, C61_unshared, C61_writer, C62_alone, C62_expanded, C62_finite, C62_looks, C62_never_between, C62_no_race, C62_others_unchanged, C62_progress, C62_reads_rule, C63_command, C63_conversation, C63_file, C63_hangs, C63_panic, C63_reader, C63_reader_error, C63_same, C63_strict, C63_string, C64_private, C64_shared_example, C64_sharing, C66_command, C66_rewriting, C66_satisfiable, C67_accepts, C67_identify, C67_identify_converse_false, C67_same_verdict, C68_opcodes_only, C69_alone, C69_elsewhere, C69_finished, C69_meanwhile, C69_mixed, C69_repair, C69_same, C69_serial, C70_expansion_printed, C70_joined, C70_simple_rules_only, C70_written_out, C71_expansion, C71_expansion_rule, C71_output, C71_printed, C71_script, C72_count, C72_depends, C72_entry_complete, C72_entry_sound, C72_entry_unknown, C72_limit, C72_limit_enough, C72_no_options, C72_recover, C72_terminates, C72_undo, C72_unused, C73_chain, C73_command, C73_consequence, C73_context, C73_culprit, C73_instance, C73_reverse, C73_values, C74_bytes, C74_expand_error, C74_expand_ok, C74_expand_panic, C74_generate, C74_print_before, C74_print_panic, C74_print_same, C75_again, C75_comment_needed, C75_injective, C75_names, C75_read_back, C75_written, C76_disk, C76_illegal, C76_legal, C76_sat_may_be_wrong, C76_unsat_never_wrong, C77_cut_off, C77_models, C77_only_variables, C77_valid_iff, C77_written, C78_clean_run, C78_exact, C78_process, C78_rewriting, C79_all_steps, C79_before, C79_beginning, C79_confirmed, C79_disk, C79_written
