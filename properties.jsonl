{"id": "C01", "title": "Inspect is a pruned depth-first pre-order traversal", "statement": "ast.Inspect(node, f) calls f on node first, then, iff f returned true, on each child subtree left to right (File: its rules; Rule: match then result; SExpr: opcode then arguments; multi-part opcode: its parts). Every node of the tree is passed to f exactly once when f always returns true, and nothing below a node on which f returned false is passed to f.", "quantifier": "every AST (any size and depth) and every callback, including callbacks whose answer depends on earlier calls", "why_tests_cant": "trees and callback histories are unbounded; a test sees a handful of shapes", "anchors": ["ast/walk.go:Walk", "ast/walk.go:Inspect"]}
{"id": "C02", "title": "Contains is existential search with early stop", "statement": "ast.Contains(node, pred) returns true iff some node of the tree (in the sense of C01) satisfies pred, and pred is called exactly on the pre-order prefix of the tree up to and including the first satisfying node, never afterwards.", "quantifier": "every AST and every predicate", "why_tests_cant": "quantifies over all predicates and all trees", "anchors": ["ast/walk.go:Contains", "ast/walk.go:Inspect"]}
{"id": "C03", "title": "Has* predicates see every depth of match and result", "statement": "rules.HasBinding/HasType/HasAux/HasAuxInt/HasEllipsis/HasTrailing(r) is true iff some S-expression occurring at any depth in the match or the result of r carries that feature; the condition and block are irrelevant.", "quantifier": "every rule", "why_tests_cant": "nesting depth is unbounded; the tests use one rule per predicate and only positive cases", "anchors": ["rules/rules.go", "ast/walk.go:Contains"]}
{"id": "C04", "title": "Exactly when Walk panics", "statement": "Walk/Inspect panic iff the traversal reaches a nil match, result, operator, operator part or argument and the visitor asks to go on below it; they never panic on a tree without such nils, whatever the visitor.", "quantifier": "every AST, every visitor", "why_tests_cant": "all trees and visitors", "anchors": ["ast/walk.go:Walk"]}
{"id": "C05", "title": "Expansion picks the i-th alternative everywhere, in order", "statement": "For a rule whose alternations all have n>1 entries, ExpandAlternates replaces it by exactly n consecutive rules; the i-th one is the original with every (a|b|...) in every opcode, at every depth of match and result, replaced by its i-th entry (and the opcode parts concatenated).  A rule without alternations is kept as it is.", "quantifier": "every well-formed rule, any number and nesting of alternations, any n", "why_tests_cant": "number of alternations, their sizes and depth are unbounded", "anchors": ["pass/alt.go:expandrule", "pass/alt.go:expandsexpr", "pass/alt.go:expandopcodeparts"]}
{"id": "C06", "title": "Expansion succeeds exactly when alternation sizes agree", "statement": "On a well-formed file ExpandAlternates returns nil iff within each rule all alternations have the same number of entries; otherwise it returns the error 'incompatible alternative counts m and n' where m and n are two different sizes that both occur in one rule.", "quantifier": "every well-formed file", "why_tests_cant": "all combinations of sizes and positions; the tests try five", "anchors": ["pass/alt.go:resolvecounts", "pass/alt.go:expandsexpr", "pass/alt.go:expandrule"]}
{"id": "C07", "title": "Expansion is all-or-nothing and does not mutate rules", "statement": "If ExpandAlternates returns an error, the file's rule list is what it was before; if it succeeds only the file's rule list is replaced: no rule, S-expression or argument list that existed before the call is modified, and rules without alternations keep their identity (same pointer).", "quantifier": "every heap of AST nodes, with arbitrary sharing, every file", "why_tests_cant": "sharing patterns and error positions are unbounded", "anchors": ["pass/alt.go:ExpandAlternates", "pass/alt.go:expandrules", "pass/alt.go:expandrule", "pass/alt.go:expandsexpr"]}
{"id": "C08", "title": "No alternation survives, expansion is idempotent", "statement": "After a successful ExpandAlternates no opcode of any rule contains alternatives, and a second ExpandAlternates succeeds and changes nothing.", "quantifier": "every file on which the first call succeeds", "why_tests_cant": "every file", "anchors": ["pass/alt.go:ExpandAlternates"]}
{"id": "C09", "title": "Expansion keeps everything but opcodes", "statement": "Every rule produced by expanding r has the condition and block of r, and its match and result agree with those of r in shape, bindings, types, AuxInt, Aux, variables, Go expressions, argument order, ellipsis and trailing flags; only opcodes differ.", "quantifier": "every rule", "why_tests_cant": "all rules, all depths", "anchors": ["pass/alt.go:expandrule", "pass/alt.go:expandsexpr"]}
{"id": "C10", "title": "Expansion preserves rule order and never loses rules", "statement": "The expanded file is the concatenation, in the original order, of the expansions of the individual rules; each rule contributes at least one rule; the result for one rule does not depend on the other rules.", "quantifier": "every file on which expansion succeeds", "why_tests_cant": "files are unbounded; order and loss bugs may need specific neighbours", "anchors": ["pass/alt.go:expandrules"]}
{"id": "C11", "title": "Feature predicates are invariant under expansion, so filtering and expansion commute", "statement": "For each rule e in the expansion of r, HasBinding(e)=HasBinding(r) and likewise for the five other predicates; filtering a file with the CLI's 'simple rule' filter before expansion gives the same rules as filtering after.", "quantifier": "every file on which expansion succeeds", "why_tests_cant": "all files", "anchors": ["pass/alt.go", "rules/rules.go", "cmd/ssarules/main.go:load"]}
{"id": "C12", "title": "Expansion panics only on an opcode that mixes a one-entry alternation with a longer one", "statement": "On every AST built from the exported types (nil values, empty alternations and empty part lists included) in which no opcode has both a one-entry alternation and a longer one, ExpandAlternates returns, with nil or an error, and does not panic; an opcode of that shape (which the parser never produces) does make it panic, unless sizes clash. (The natural claim, no panic on any AST, is false of the code.)", "quantifier": "every AST, including ones not produced by the parser", "why_tests_cant": "all hand-built ASTs", "anchors": ["pass/alt.go:expandopcodeparts"]}
{"id": "C13", "title": "Expansion of parsed files fails only on unequal sizes", "statement": "For every text accepted by parse.String, ExpandAlternates on the resulting file neither panics nor reports an assertion failure: its only possible error is 'incompatible alternative counts'.", "quantifier": "every input text", "why_tests_cant": "all texts; relies on the grammar never producing degenerate opcodes", "anchors": ["parse/rules.peg:Op", "parse/rules.peg:OpAlt", "pass/alt.go:expandopcodeparts"]}
{"id": "C14", "title": "A printed file is the newline-terminated concatenation of its printed rules", "statement": "printer.Bytes(file) is, for each rule in order, printer.Bytes(rule) followed by a newline, and fails iff printing some rule fails.", "quantifier": "every file", "why_tests_cant": "all files", "anchors": ["printer/printer.go:node", "printer/printer.go:Bytes"]}
{"id": "C15", "title": "Printing fails exactly on unsupported nodes", "statement": "printer.Bytes(n) returns an error iff n contains a nil value/opcode or a Go expression of a kind other than identifier, literal, parenthesis, unary, binary, call, star, selector; on error no bytes are returned, and the error names the type of the first such node in printing order.", "quantifier": "every AST", "why_tests_cant": "all ASTs", "anchors": ["printer/printer.go:goexpr", "printer/printer.go:value", "printer/printer.go:op"]}
{"id": "C16", "title": "A failing writer gets a prefix and its first error is reported", "statement": "printer.Fprint(w, n) issues writes whose concatenation is a prefix of printer.Bytes(n); the first error returned by w is the error returned by Fprint and w is never called again after it; if no write fails and n is printable, w has received exactly printer.Bytes(n).", "quantifier": "every AST and every writer behaviour (any pattern of failures, stateful writers)", "why_tests_cant": "failure can occur at any write; unboundedly many patterns", "anchors": ["printer/printer.go:printf", "printer/printer.go:seterror", "printer/printer.go:Fprint"]}
{"id": "C17", "title": "Every parsed file can be printed", "statement": "If parse.String(s) succeeds with file f then printer.Bytes(f) succeeds.", "quantifier": "every input text", "why_tests_cant": "all inputs; the sets of expression kinds accepted by the parser and by the printer must agree", "anchors": ["parse/internal/goexpr/parse.go:clearpos", "printer/printer.go:goexpr"]}
{"id": "C18", "title": "Print then parse is the identity on well-formed files", "statement": "For every well-formed AST file f (identifiers, opcodes and types are lexically legal; Go expressions are trees the Go parser can produce, no bracket that ends them occurs in them) whose Go expressions have no adjacent tokens that fuse into another token, printer.Bytes(f) succeeds and parse.String of it succeeds and equals f.  These are exactly the files with this property: any other file, however it was made, cannot be printed, or its printed text is rejected or parsed as a different file.", "quantifier": "every file", "why_tests_cant": "TestRoundtrip checks fifteen files; the claim is about all ASTs", "anchors": ["printer/printer.go", "parse/rules.peg", "parse/parse.go"]}
{"id": "C19", "title": "Printing what was parsed re-parses to the same file", "statement": "For every text s without carriage returns with parse.String(s)=f, if printing f puts no two Go tokens side by side that fuse (++ -- && &^ /* or an integer before a point), then parse.String(printer.Bytes(f)) = f, so printing is a normal form.  For texts with carriage returns the same holds if no literal of a condition contains =>.  The two conditions are exact: whenever one of them is not met, the printed text is rejected or parsed as a different file; for instance [a & ^b] is printed as [a&^b], which is another expression, and [a - -b] as [a--b], which is rejected.", "quantifier": "every input text", "why_tests_cant": "TestRoundtrip checks fifteen files; the claim is about all texts", "anchors": ["printer/printer.go:goexpr", "printer/printer_test.go:TestRoundtrip"]}
{"id": "C20", "title": "Printing is injective on well-formed files", "statement": "Two different well-formed files (no fusing operators) never print to the same text.", "quantifier": "all pairs of well-formed files", "why_tests_cant": "pairs of arbitrary ASTs", "anchors": ["printer/printer.go"]}
{"id": "C21", "title": "The parser terminates on every input", "statement": "parse.String/Reader return on every byte sequence: the generated PEG machine never loops, with recursion depth at most linear in the input length.", "quantifier": "every byte sequence", "why_tests_cant": "non-termination needs an input nobody tried", "anchors": ["parse/internal/parser/zparser.go", "parse/rules.peg"]}
{"id": "C22", "title": "The parser never panics and returns exactly one of file or error", "statement": "parse.String(s) never panics; it returns either a file and a nil error or a nil file and a non-nil error.", "quantifier": "every byte sequence", "why_tests_cant": "type assertions in the semantic actions and in cast would panic only on particular inputs", "anchors": ["parse/parse.go:cast", "parse/internal/parser/zparser.go:parse", "parse/internal/parser/zparser.go:parseActionExpr"]}
{"id": "C23", "title": "Invalid UTF-8 is always rejected", "statement": "If the input is not valid UTF-8, parse.String returns an error, wherever the bad byte is (also inside comments, types, blocks).", "quantifier": "every byte sequence", "why_tests_cant": "position and context of the bad byte are unbounded", "anchors": ["parse/internal/parser/zparser.go:read"]}
{"id": "C24", "title": "The whole input is accounted for", "statement": "If parse.String succeeds with n rules, the input is a concatenation of skipped text (white space and // comments), n rule texts each of which is 'value [&& cond] => [@block] value', and skipped text: nothing is silently dropped at the end.", "quantifier": "every accepted input", "why_tests_cant": "all inputs", "anchors": ["parse/rules.peg:File", "parse/rules.peg:Rule"]}
{"id": "C25", "title": "Parsed files are well formed", "statement": "In every file returned by parse.String: opcodes are non-empty words over [_a-zA-Z0-9]; every multi-part opcode has an alternation, no two adjacent plain parts, and every alternation has at least two entries; variables and bindings are identifiers [a-z][_a-zA-Z0-9]* (or _); types are non-empty and without '>'; blocks are non-empty and contain no blank, tab or CR; no nil values; embedded Go expressions contain only the eight supported node kinds and no source positions.", "quantifier": "every accepted input", "why_tests_cant": "all inputs", "anchors": ["parse/rules.peg", "parse/internal/goexpr/parse.go"]}
{"id": "C26", "title": "A bad embedded Go expression fails the whole parse", "statement": "If at any point of the parse an AuxInt, Aux, call or condition text is rejected by goexpr.Parse, parse.String returns an error, even if the grammar then backtracks and the rest of the input matches.", "quantifier": "every input", "why_tests_cant": "requires particular backtracking paths", "anchors": ["parse/internal/parser/zparser.go:parseActionExpr", "parse/rules.peg:AuxInt"]}
{"id": "C27", "title": "Surrounding white space and comments do not matter", "statement": "Adding any skipped text (blanks, tabs, CRs, newlines, complete // comments) in front of or after an accepted input with at least one rule yields the same file. The only accepted input without rules is the empty one: blanks or comments alone are rejected.", "quantifier": "every accepted input and every skip text", "why_tests_cant": "all inputs and all skip texts", "anchors": ["parse/rules.peg:File", "parse/rules.peg:Skip"]}
{"id": "C28", "title": "The recorded condition is the Go parse of the condition text joined into one line", "statement": "For a rule with a condition, Rule.Condition is the Go parse of everything written between the && after the match and the next =>, with newlines replaced by blanks and outer white space removed. (Hence a // comment inside a multi-line condition hides the rest of the condition.)", "quantifier": "every accepted input", "why_tests_cant": "needs multi-line conditions with comments at particular places", "anchors": ["parse/rules.peg:Condition", "internal/testdata/generic.rules:2088", "printer/testdata/generic.golden:749"]}
{"id": "C29", "title": "Later type, AuxInt or Aux operands replace earlier ones, arguments are kept in order", "statement": "In an S-expression the arguments appear in Args in source order, wherever types, [..] and {..} operands are interleaved; of several <..>, [..], {..} operands the last one is recorded.", "quantifier": "every accepted input", "why_tests_cant": "all interleavings", "anchors": ["parse/rules.peg:SExpr"]}
{"id": "C30", "title": "goexpr clears every position and rejects every unsupported node", "statement": "goexpr.Parse succeeds iff the Go parser succeeds and the tree contains only the eight supported node kinds; the result is the Go parser's tree with every source position (including a call's ... marker) zeroed, so it depends only on the token structure and not on layout. If it is rejected for an unsupported node, the error names the type of the last unsupported node met.", "quantifier": "every Go expression tree", "why_tests_cant": "all trees", "anchors": ["parse/internal/goexpr/parse.go:Parse", "parse/internal/goexpr/parse.go:clearpos"]}
{"id": "C31", "title": "Embedded Go expressions are kept up to positions and variadic markers", "statement": "Two embedded Go texts yield the same AST iff their Go trees differ in source positions and variadic markers only; so f(x...) and f(x) are not distinguished. (The natural claim, that the variadic marker is kept, is false of the code.)", "quantifier": "every call expression", "why_tests_cant": "the marker is a position field that looks harmless to clear", "anchors": ["parse/internal/goexpr/parse.go:clearpos", "printer/printer.go:goexpr"]}
{"id": "C32", "title": "The SMT script decides the rule", "statement": "If smt2.Generate(r) returns a script and the variables of r are legal, non-reserved SMT-LIB symbols, then the script is unsatisfiable iff the match and the result of r denote the same value for every assignment of machine values to the variables (two's complement bit vectors / booleans as documented for the Go SSA opcodes).", "quantifier": "every rule accepted by Generate, every nesting depth, every assignment", "why_tests_cant": "all rules and all 2^64-sized value spaces", "anchors": ["smt2/generate.go", "smt2/ops.go"]}
{"id": "C33", "title": "The SMT script is well formed", "statement": "Under the same side condition the script reads as SMT-LIB: set-info, set-logic QF_BV, one declare-const per variable (no variable twice, each before its use, sort as required by the opcode it is used in), exactly one well-sorted assertion, check-sat, exit.", "quantifier": "every rule accepted by Generate", "why_tests_cant": "all rules", "anchors": ["smt2/generate.go:generate", "smt2/generate.go:variable"]}
{"id": "C34", "title": "Generate accepts exactly the supported fragment", "statement": "smt2.Generate(r) succeeds iff r has no condition and no block, its match is an S-expression, and all S-expressions in it use plain opcodes from the supported table with the right number of arguments, no binding/type/AuxInt/Aux/ellipsis/trailing, no Go expression, and all opcodes in the rule work on one and the same width/sort.", "quantifier": "every rule", "why_tests_cant": "all rules", "anchors": ["smt2/generate.go:sexpr", "smt2/ops.go:Params", "smt2/ops.go:Evaluate"]}
{"id": "C35", "title": "No output on error; unsupported features are never ignored", "statement": "When Generate returns an error it returns no bytes; a rule with a condition, block, binding, type, AuxInt, Aux, ellipsis, trailing or alternatives anywhere always gives an error.", "quantifier": "every rule", "why_tests_cant": "all rules and depths", "anchors": ["smt2/generate.go:Generate", "smt2/generate.go:sexpr"]}
{"id": "C36", "title": "The rule text in the script header cannot escape its comment", "statement": "In every script returned by Generate for a parsed and expanded rule, the embedded rule text is confined to one comment line; removing comments leaves the same commands.", "quantifier": "every parsed rule", "why_tests_cant": "all rules", "anchors": ["smt2/generate.go:generate"]}
{"id": "C37", "title": "The script is legal exactly if all variable names are legal SMT-LIB symbols", "statement": "For every parsed rule accepted by Generate the script is legal SMT-LIB if and only if every variable is a non-reserved symbol that does not clash with a predefined one; for the placeholder _ and for names such as let the script is illegal. (The natural claim, always legal, is false of the code.)", "quantifier": "every parsed rule", "why_tests_cant": "all names", "anchors": ["smt2/generate.go:variable", "parse/rules.peg:Placeholder"]}
{"id": "C38", "title": "Every name, including the placeholder _, is one constant however often it occurs", "statement": "The script declares each name that occurs in the rule exactly once, so all occurrences of a name, also of the placeholder _, denote the same value; occurrences are independent only if all names differ. (The natural claim, that each _ is its own wildcard, is false of the code.)", "quantifier": "every parsed rule", "why_tests_cant": "needs two placeholders in one rule", "anchors": ["smt2/generate.go:variable", "ast/ast.go:Placeholder"]}
{"id": "C39", "title": "Only the default signedness is ever used", "statement": "In every script all declared constants have the sort of the match's opcode; the alternative unsigned signatures are never selected.", "quantifier": "every rule accepted by Generate", "why_tests_cant": "all rules", "anchors": ["smt2/ops.go:Params", "smt2/ops.go:Evaluate"]}
{"id": "C40", "title": "The CLI verifies exactly the simple rules, in order", "statement": "The rules handed to the generator are those of all input files, in file and source order, that have no condition, block, binding, type, Aux, AuxInt, ellipsis or trailing, each replaced by its expansions.", "quantifier": "every list of input files", "why_tests_cant": "all inputs", "anchors": ["cmd/ssarules/main.go:load"]}
{"id": "C41", "title": "Output files never collide and are named by rule index", "statement": "Rule number i of the expanded list is the only one that can write file outdir/%04d.smt2(i); different indices give different names; a rule the generator rejects leaves a gap and does not shift others.", "quantifier": "every rule list of any length (also beyond 9999)", "why_tests_cant": "all indices", "anchors": ["cmd/ssarules/main.go:run"]}
{"id": "C42", "title": "Failures abort cleanly", "statement": "If any input file fails to parse or expansion fails, no output file is written. If writing file k fails, the run stops with that error: exactly the earlier files have been written, nothing after.", "quantifier": "every list of inputs and every write-failure pattern", "why_tests_cant": "all crash/failure points", "anchors": ["cmd/ssarules/main.go:run", "cmd/ssarules/main.go:load"]}
{"id": "C43", "title": "The CLI's failure modes are only parse, incompatible alternatives, write", "statement": "run returns an error only if an input file cannot be read/parsed, alternation sizes of a simple rule differ, or an output file cannot be written; in particular printing a rule never fails and the generator never sees an unexpanded opcode or an unsupported field.", "quantifier": "every list of input files", "why_tests_cant": "all inputs", "anchors": ["cmd/ssarules/main.go:run", "printer/printer.go", "smt2/generate.go:sexpr"]}
{"id": "C44", "title": "End to end: an unsatisfiable output file certifies its rule", "statement": "If the CLI writes a script, the script belongs to an expansion of a simple rule of one of the input files, and if the script is legal SMT-LIB then it is unsatisfiable if and only if that expansion is valid for all values of its variables.", "quantifier": "every run", "why_tests_cant": "all inputs", "anchors": ["cmd/ssarules/main.go", "smt2/generate.go", "pass/alt.go", "parse/rules.peg"]}
{"id": "C45", "title": "Files after a run; running again changes nothing", "statement": "After a successful run the file named after rule i holds exactly the script of rule i if the generator accepts it; every other file has its old contents (so a script left by an earlier run for a rule now rejected stays). A second run on the same inputs leaves all files as they are.", "quantifier": "every list of inputs and every previous contents of the output directory", "why_tests_cant": "all inputs and histories", "anchors": ["cmd/ssarules/main.go:run"]}
{"id": "C46", "title": "Adding input files keeps the numbering of the others", "statement": "If a run on some input files and a run on the same files followed by more both succeed, the files written by the first are written by the second under the same names with the same contents.", "quantifier": "all lists of input files", "why_tests_cant": "all inputs", "anchors": ["cmd/ssarules/main.go:run", "cmd/ssarules/main.go:load"]}
{"id": "C47", "title": "A stopped run damages at most one file", "statement": "If a run of the CLI is killed at any moment, or a write fails half way, then there is a rule number m such that the files of all accepted rules before m are complete scripts, the file of rule m is as before or a beginning of its script, and every other file is as before; nothing but outdir/NNNN.smt2 is ever touched.", "quantifier": "every list of inputs, every crash point (each byte written), every previous contents of the disk", "why_tests_cant": "all crash points", "anchors": ["cmd/ssarules/main.go:run"]}
{"id": "C48", "title": "A successful run repairs any history of stopped runs", "statement": "After any number of runs on the same inputs that were killed or failed at arbitrary points, a run that succeeds leaves exactly the files it would have left if it had been the only run.", "quantifier": "every history of interrupted runs", "why_tests_cant": "all histories and crash points", "anchors": ["cmd/ssarules/main.go:run"]}
{"id": "C49", "title": "Accepted texts can be concatenated and cut into rules", "statement": "If two texts are accepted and at least one has a rule, then the first, some white space or complete comments (not nothing), and the second are accepted together, with the rules of the first followed by those of the second; likewise any list of accepted texts with a newline after each. Without a separator this is false. Conversely an accepted text can be cut into one piece per rule, each of which is accepted by itself as that rule; any of the pieces, in any order and with repetitions, with a newline after each, are accepted and give just the rules chosen.", "quantifier": "all pairs and lists of accepted texts and all separators", "why_tests_cant": "all texts", "anchors": ["parse/rules.peg:File", "parse/parse.go:String"]}
{"id": "C50", "title": "Parse errors are never empty, never repeated, and true", "statement": "When parsing fails the error list is not empty, no two of its messages are equal, and each message is true of the input at its position: an invalid byte stands there, or a text that should be Go and is not, or nothing of what the message says is expected. The offset is the number of bytes before the position; line and column are those of that place (a newline counts as column 0 of the line it starts), and increase with the offset.", "quantifier": "every byte sequence, every file name and every behaviour of the Go parser", "why_tests_cant": "all inputs", "anchors": ["parse/parse.go:Reader", "parse/internal/parser/zparser.go:failAt", "parse/internal/parser/zparser.go:addErrAt", "parse/internal/parser/zparser.go:dedupe"]}
{"id": "C51", "title": "A syntax error depends only on the text up to the error", "statement": "If 'no match found' is reported it is the only error, and every input that has the same first offset+16 bytes gives exactly the same error; so no continuation can repair it.", "quantifier": "every rejected input and every way to continue it", "why_tests_cant": "all pairs of inputs", "anchors": ["parse/internal/parser/zparser.go:failAt", "parse/rules.peg"]}
{"id": "C52", "title": "What a syntax error lists as expected", "statement": "The list of expected terminals of 'no match found' is not empty, sorted, without repetition, with EOF last if it is listed; none of them stands at the position; and the list does not depend on the order in which Go iterates over maps, so equal inputs give equal errors.", "quantifier": "every rejected input and every map iteration order", "why_tests_cant": "all inputs and all map orders", "anchors": ["parse/internal/parser/zparser.go:parse", "parse/internal/parser/zparser.go:listJoin"]}
{"id": "C53", "title": "The first parse error is a cause", "statement": "If the Go parser returns no trees with nil parts, the first error is an invalid byte, a text that is not a Go expression, or the single error 'no match found'; follow-up errors (unknown operand, recovered runtime errors) never come first.", "quantifier": "every rejected input", "why_tests_cant": "all inputs", "anchors": ["parse/internal/parser/zparser.go", "parse/rules.peg"]}
{"id": "C54", "title": "Error messages can be read back", "statement": "Every message of a parse error begins filename:line:column (offset): with the position in decimal, so the position can be read from the text; from 'no match found' the list of expected terminals can be read (a, b or c), each being one of the 28 terminals of the grammar, one of them negated, or EOF; an error inside a rule names it after the position (rule Operand: ), followed by what is wrong; and if file name and Go's messages have no line breaks, the text of the error has exactly one line for each message of the list.", "quantifier": "every rejected input and every file name", "why_tests_cant": "all inputs", "anchors": ["parse/internal/parser/zparser.go:addErrAt", "parse/internal/parser/zparser.go:listJoin", "parse/internal/parser/zparser.go:errList.Error"]}
{"id": "C55", "title": "The generated parser implements rules.peg", "statement": "Apart from the embedded Go expressions, the parser accepts exactly the UTF-8 texts on which the rule File of parse/rules.peg succeeds under the standard semantics of parsing expression grammars (ordered choice, greedy loops, no backtracking into them); rules.peg gives exactly one answer for every text. The optimizations of the parser generator (rules replaced by their definitions, merged classes, flattened sequences) change nothing.", "quantifier": "every byte sequence", "why_tests_cant": "all inputs; the generated table is 1400 lines", "anchors": ["parse/rules.peg", "parse/internal/parser/zparser.go:g", "parse/parse.go:Reader"]}
{"id": "C56", "title": "A generator error names the first obstacle", "statement": "If smt2.Generate fails, its message is determined by the rule as follows: an unprintable part; else a match that is a single variable; else the first fault in the match; else a condition; else a block; else the first fault in the result. A fault is found reading from the outside in and from left to right; the message lists the opcodes and argument numbers that lead to it and says what it is (binding, type, AuxInt, Aux, ellipsis, trailing, unexpanded opcode, unsupported opcode, opcode of another type, wrong number of arguments with both numbers, Go expression). Path and fault can be recovered from the text. Inconsistent variable types and result types that cannot be inferred are never reported.", "quantifier": "every rule", "why_tests_cant": "all rules of any depth", "anchors": ["smt2/generate.go:generate", "smt2/generate.go:sexpr", "smt2/generate.go:variable", "smt2/ops.go:Params", "smt2/ops.go:Evaluate"]}
{"id": "C57", "title": "A failed expansion reports the first fault", "statement": "For every AST, well-formed or not: if pass.ExpandAlternates does not succeed, its error text (or its panic) is determined by the first fault: in the first faulty rule, the fault of the match, else of the result, else two different alternation sizes in match and result; in a value, the fault of its opcode, else of the first argument that has one or whose alternation size differs from the sizes before it (the two sizes are named in that order); an opcode is faulty if it is nil, has no parts, has an empty alternation or two sizes, only one-entry alternations, a nil part, or a one-entry alternation beside a longer one (panic).", "quantifier": "every AST", "why_tests_cant": "all files, rules and nestings", "anchors": ["pass/alt.go:ExpandAlternates", "pass/alt.go:expandopcodeparts", "pass/alt.go:resolvecounts"]}
{"id": "C58", "title": "The log of the command is complete and true", "statement": "Standard error of the command can be read line by line and the lines say exactly this. After a successful run: for every argument, in order, its name and the number of rules in it; the numbers of all, simple and expanded rules; then for each expanded rule a text that parses as exactly this rule, followed by the name of the file its script has been written to, or by the reason why it has none. After a failed run the log is that of a successful run up to the failure, and the last entry is the error: 'parse: ' and what is wrong with the first input that does not load, or the two sizes of alternations that differ, or the error of the write.", "quantifier": "every set of input files, every pattern of failing reads and writes, every output directory", "why_tests_cant": "all runs", "anchors": ["cmd/ssarules/main.go:main", "cmd/ssarules/main.go:run", "cmd/ssarules/main.go:load"]}
{"id": "C59", "title": "Parsing takes linear time", "statement": "For every input of n bytes, accepted or rejected, parse.String, parse.Reader and parse.File evaluate at most 250 n + 710 grammar expressions, attempts given up by backtracking included: no nesting, no unfinished comment and no ambiguous beginning makes the backtracking parser take quadratic or exponential time. Without an assumption about the Go parser the bound is 250 n + m^2 + 710, m being the length of an unterminated last line. (The time go/parser takes for the expressions handed to it is not counted.)", "quantifier": "every byte sequence", "why_tests_cant": "all inputs of any size and nesting; a test sees finitely many, and exponential backtracking shows only on particular families", "anchors": ["parse/internal/parser/zparser.go:parseExpr", "parse/internal/parser/zparser.go:Stats", "parse/rules.peg"]}
{"id": "C60", "title": "The command line", "statement": "Every command line means exactly one thing. Either it is a list of options -outdir DIR, -outdir=DIR, --outdir DIR, --outdir=DIR (the last one counts) followed by file names, the first of which does not look like an option unless it follows --: then the process works on these files in order and writes to this directory only, and exits with 0 if everything went well and with 1 otherwise. Or it asks for help: usage, exit status 0. Or it is wrong: what is wrong and the usage on standard error, exit status 2, whatever files there are. From the first file name on every argument is a file name.", "quantifier": "every list of arguments, all file contents and all patterns of failing reads and writes", "why_tests_cant": "all argument lists, lengths and orders", "anchors": ["cmd/ssarules/main.go:main", "cmd/ssarules/main.go:run", "cmd/ssarules/main.go:outdir"]}
{"id": "C61", "title": "A dump describes the AST", "statement": "ast.Dump never fails; ast.Fprint makes the writes of which the dump consists, stops at the first that fails and returns its error. The dump has one line per field, element or brace, each with its number and indentation; an object met again is shown as the number of the line on which it was first written. Structs are shown with the fields their declarations have, in that order, with values of the declared types. ASTs with the same dump are equal, whatever parts they share in memory (bindings and types without line breaks); for ASTs without sharing the dump is the same exactly if the AST is. With line breaks in types it is false: two different rules can have the same dump.", "quantifier": "every AST, every sharing of its parts in memory and every pattern of failing writes", "why_tests_cant": "all pairs of ASTs", "anchors": ["ast/ast.go:Dump", "ast/ast.go:Fprint", "ast/ast.go:Print"]}
{"id": "C62", "title": "Goroutines that expand files do not disturb each other", "statement": "Different files can be expanded by different goroutines at the same time, even if they share rules, S-expressions or arrays, and meanwhile others may read those rules (print them, walk them, generate scripts): there is no data race (no cell one goroutine writes or allocates is accessed by another), every goroutine finishes with the result it has when it runs alone, at any moment each file has either its old or all its expanded rules, readers read what they read when nothing else is going on, and nothing else that existed changes. (Expanding one file twice at the same time is a race.)", "quantifier": "every number of goroutines, every memory with any sharing between files, every interleaving of their accesses", "why_tests_cant": "all schedules", "anchors": ["pass/alt.go:ExpandAlternates", "pass/alt.go:expandsexpr", "pass/alt.go:expandrule"]}
{"id": "C63", "title": "Only the bytes a reader delivers matter", "statement": "parse.Reader on a reader that follows the contract of io.Reader returns, and what it returns is determined by the file name and the bytes delivered, however they are split into pieces (empty reads, one byte at a time, end of file with or after the last bytes, a buffer used as scratch space); if the reader fails, its error is returned and no file. The reader always gets room for at least one byte and is not called again after it has reported an error. The file parsed does not depend on the name. parse.String is parse.Reader with the name 'string'. parse.File: an error of open or close is returned even if the text was fine. A reader that breaks the contract can make it panic or hang.", "quantifier": "every reader, every way to split the data, every capacity append may choose", "why_tests_cant": "all schedules of partial reads", "anchors": ["parse/parse.go:File", "parse/parse.go:Reader", "parse/parse.go:String", "parse/internal/parser/zparser.go:ParseReader", "parse/internal/parser/zparser.go:ParseFile"]}
{"id": "C64", "title": "What expanded rules share", "statement": "After pass.ExpandAlternates succeeded: a rule without alternations is the same object as before. Every other rule in the file is a new object; in it an S-expression with an alternation somewhere inside is a new object with a new argument slice, used once, with all fields but opcode and arguments copied; a part without alternations is the very object of the old rule, shared by all rules made from it. An object that did not exist before belongs to one rule only: it can be modified in place and no other rule of the file changes. (Modifying a shared one changes all.)", "quantifier": "every AST in memory, with any sharing of its parts", "why_tests_cant": "all ASTs, nestings and ways to share objects", "anchors": ["pass/alt.go:expandsexpr", "pass/alt.go:expandrule", "pass/alt.go:ExpandAlternates"]}
{"id": "C65", "title": "A visitor may modify the node it is given", "statement": "ast.Walk and ast.Inspect may be used to modify an AST in place. If a visitor modifies the node it is given (fields, arguments, whole subtrees) and nothing else, and the AST shares no parts, then the walk goes on with the children the modified node has; when it returns, the AST is the one obtained by editing each node before its children, and no object outside of it was modified; it returns if and only if this editing comes to an end (a visitor that keeps adding below the node it is given never does). For example a callback that renames opcodes and variables where it meets them renames all of them. Whatever a visitor does, each node it is given is what memory holds at that moment: changes ahead of the walk are seen, only a slice that is being walked over is fixed when the loop begins. A visitor that only reads does not notice sharing: it is called as on the tree that the AST represents. (With sharing, as ExpandAlternates leaves it, a part is edited once for every place where it is used.)", "quantifier": "all ASTs in memory, all visitors that modify the node they are given (with state, pruning, changing visitors), all depths", "why_tests_cant": "a test fixes one visitor and one AST; whether the walk sees old or new children, terminates, and leaves other objects alone has to hold for all visitors and ASTs", "anchors": ["ast/walk.go:Walk", "ast/walk.go:Inspect", "ast/walk.go:inspector", "ast/ast.go:File", "ast/ast.go:Rule", "ast/ast.go:SExpr"]}
{"id": "C66", "title": "Rewriting with certified rules preserves values", "statement": "Take rules for which smt2.Generate returned a script that is legal SMT-LIB and unsatisfiable, and whose results use only variables of their matches. Rewriting any expression with them - any number of steps, any of the rules, anything put for the variables, at any place - leads to an expression with the same value, for all values of its variables for which it has one. After a successful run of the command this holds for all simple rules of the input files (expanded) whose written scripts are unsatisfiable. Conversely, if the script is satisfiable, rewriting with the rule changes the value of some expression.", "quantifier": "all sets of rules, expressions, places, instances, numbers of steps and values", "why_tests_cant": "infinitely many expressions and rewriting sequences; 2^64 values", "anchors": ["smt2/generate.go:Generate", "smt2/ops.go:operations", "cmd/ssarules/main.go:run"]}
{"id": "C67", "title": "Names of variables do not matter to the generator", "statement": "Whether smt2.Generate accepts a rule depends neither on the names of its variables nor on which of them are the same. If two rules differ only by a one-to-one change of variables (to names legal in SMT-LIB), both scripts are satisfiable or both are not. If variables are made equal in a rule whose script is unsatisfiable, the script of the new rule is unsatisfiable; the converse is false.", "quantifier": "all rules and all renamings", "why_tests_cant": "all pairs of rules and names", "anchors": ["smt2/generate.go:Generate", "smt2/generate.go:variable"]}
{"id": "C68", "title": "Expansion looks at opcodes only", "statement": "Whatever is put in the place of variables, Go expressions, bindings, types, AuxInt, Aux, ellipsis, trailing, conditions and blocks of the rules of a file - removed, added, exchanged - pass.ExpandAlternates succeeds on the changed file if and only if it succeeds on the original one, with the rules changed in the same way, and fails with the same error otherwise. So each expanded rule has the Go expressions of the rule it comes from, by reference.", "quantifier": "all files and all such changes", "why_tests_cant": "all pairs of files", "anchors": ["pass/alt.go:ExpandAlternates", "pass/alt.go:expandsexpr", "pass/alt.go:expandrule"]}
{"id": "C69", "title": "Several runs of the command at the same time", "statement": "Run the command several times at once, in any working directories, with any interleaving of the operations on files (each write of a script goes to the disk in pieces of any size), where runs with the same output directory have the same rules. When all runs have ended without an error, every accepted rule's file holds its complete script and all other files are as before: the result is that of running them one after the other. At any moment, and if runs were killed or failed at any points, a rule's file is as before or agrees with the script up to some length, except that some bytes may be zero; one further run that succeeds repairs it. Whatever the runs are given, files that have no script's name in an output directory are never touched. If runs with the same output directory have different rules, a file may in the end be the script of neither, though all runs report success.", "quantifier": "every number of processes, every interleaving of their operations, every set of points at which they are killed, all inputs and directories", "why_tests_cant": "all schedules and crash points", "anchors": ["cmd/ssarules/main.go:run", "cmd/ssarules/main.go:main"]}
{"id": "C70", "title": "Only the simple rules matter to the command, and alternatives can be written out", "statement": "What the command writes, and whether and with which error it ends, depends on nothing in its (accepted) input files but the simple rules, in order: not on file names, layout, comments, other rules, or how rules are distributed over files, for every pattern of failing writes. In particular several files can be joined, with a newline after each, into one; and rules with alternatives can be replaced by the expanded rules, printed: the expansion of a file that survives printing and parsing survives it too, and the command writes the same scripts under the same names.", "quantifier": "all pairs of input lists with the same simple rules, all patterns of failing writes", "why_tests_cant": "all pairs of inputs", "anchors": ["cmd/ssarules/main.go:run", "cmd/ssarules/main.go:load", "pass/alt.go:ExpandAlternates", "printer/printer.go:Bytes"]}
{"id": "C71", "title": "No blow-up", "statement": "The script smt2.Generate returns is linear in the rule: at most 36 times as long as the rule's printed form, plus 93 characters. Printing what was parsed gives a text at most three times as long as the source. pass.ExpandAlternates turns a rule with n printed characters into at most n rules, none longer than n, and a printable file of n characters into a printable one of at most n^2. With n bytes of input in all, a run of the command asks for at most n files with altogether at most n(36n + 165) characters to be written, whatever the files contain and whichever writes fail.", "quantifier": "all rules, files, inputs and patterns of failing writes", "why_tests_cant": "all sizes and depths", "anchors": ["smt2/generate.go:Generate", "smt2/ops.go:Evaluate", "pass/alt.go:ExpandAlternates", "cmd/ssarules/main.go:run"]}
{"id": "C72", "title": "Parser options", "statement": "The generated parser takes options. Only the last entry point, the last limit, the last Recover and the last AllowInvalidUTF8 matter; GlobalStore, overridden options and the order of options of different kinds do not. Without options it is the parser of package parse; options that are not needed (entry point File, a limit not reached, AllowInvalidUTF8 on valid UTF-8, Recover(false) when nothing panics) change nothing. MaxExpressions(n) stops exactly the parses that evaluate more than n expressions of the grammar, with nil, a first part of the errors that the parse without limit reports, and the error for the limit; 250 per byte and 710 is enough for every file. With Recover(false) the parser panics exactly where it would have returned the error of a recovered panic, and by default it never panics. An entry point that is no rule gives an error and parses nothing; any other accepts only what begins with a text of its rule, and returns the value of that text; it accepts every text of the rule, followed by the end or by a character that cannot continue it and anything after that. Every parse ends.", "quantifier": "all lists of options, all texts, all Go parsers", "why_tests_cant": "all option lists and inputs", "anchors": ["parse/internal/parser/zparser.go:Parse", "parse/internal/parser/zparser.go:MaxExpressions", "parse/internal/parser/zparser.go:Entrypoint", "parse/internal/parser/zparser.go:Recover", "parse/internal/parser/zparser.go:AllowInvalidUTF8", "parse/internal/parser/zparser.go:GlobalStore"]}
{"id": "C73", "title": "Verdicts compose", "statement": "Whatever follows from certified rules (rules with a legal, unsatisfiable script) by equational reasoning is certified: if smt2.Generate accepts a rule with legal names, and its match can be turned into its result by any number of steps with certified rules, forwards or backwards, at any place, with anything put for the variables (also with expressions on the way that mix sorts or have no meaning), then its script is unsatisfiable; if it is satisfiable, one of the rules used is not certified. In particular certified rules can be reversed, chained, instantiated and used inside an operation, and in a run of the command a rule that follows from rules with unsatisfiable scripts gets one too, if it gets a legal script.", "quantifier": "all lists of certified rules, all chains of steps, all expressions, all values of the variables", "why_tests_cant": "all derivations of any length over all expressions", "anchors": ["smt2/generate.go:Generate", "smt2/ops.go:Evaluate", "cmd/ssarules/main.go:run"]}
{"id": "C74", "title": "Nil pointers in an AST", "statement": "An AST made by hand may contain nil pointers: nil *Rule entries, nil *SExpr and *Expr inside Value interfaces, a nil *File. Every node, also a nil pointer, is given to the visitor; then Walk panics on nil interfaces and on nil *File, *Rule and *SExpr, but not on nil *Expr. So Contains and the functions of package rules answer yes if a node in question comes before those in pre-order, and panic if one of those comes first. Printing panics exactly if there is a nil pointer anywhere, after writing what precedes it, whatever the writer does. ExpandAlternates hands nil *Expr through like other expressions; it panics on a nil *Rule or *SExpr unless a fault that comes earlier is reported: it reports an error exactly if it would whatever the nil pointers were replaced with, and panics exactly if it would for some replacement. smt2.Generate panics exactly if the match or the result contains a nil pointer or the rule is nil. Without nil pointers all of them do what the other properties say.", "quantifier": "all ASTs with nil pointers at any places and depths, all visitors, writers and replacements", "why_tests_cant": "a test fixes where the nil pointer is; what happens depends on everything that comes before it", "anchors": ["ast/walk.go:Walk", "rules/rules.go:HasBinding", "printer/printer.go:Fprint", "pass/alt.go:ExpandAlternates", "smt2/generate.go:Generate", "cmd/ssarules/main.go:load"]}
{"id": "C75", "title": "A script names its rule", "statement": "From every script that smt2.Generate returns for a rule with variable names as in parsed rules, the rule can be read back: the third line without its '; ' is parsed as exactly that rule, whatever Go parser is in use (one that rejects a lone comment). So different rules get different scripts, and from each script that the command writes, in a successful run or not, one recovers the rule whose number is in the file's name. Collecting these lines from whatever a run has written, in order, into one file and running the command on it, in any output directory, succeeds and writes the same scripts in the same order, numbered without gaps. The comment is needed: there are different rules whose scripts are the same commands.", "quantifier": "all rules, all pairs of rules, all runs of the command with all patterns of failing writes", "why_tests_cant": "all rules and histories; a test compares a few scripts", "anchors": ["smt2/generate.go:Generate", "smt2/generate.go:generate", "printer/printer.go:Bytes", "parse/parse.go:String", "cmd/ssarules/main.go:run"]}
{"id": "C76", "title": "An unsat answer is never wrong", "statement": "A solver that is given the script smt2.Generate returns for a parsed rule, or only a beginning of it (cut off anywhere, even inside a character of the file), and that stops at errors or ignores some or all of them, answers 'unsat' only if the rule is valid. If all names are legal SMT-LIB names, the only query it can come to answer is the one of the complete script, so 'sat' also means that the rule is not valid; if some name is not legal ('_', 'let', ...), it never answers 'unsat', but it may answer 'sat' for a valid rule. The same holds for the files in the output directory, whatever runs of the command were stopped at whatever points or failed, if the place was empty before the first of them.", "quantifier": "all rules, all beginnings of the script, all ways to go on after errors, all histories of interrupted runs", "why_tests_cant": "all prefixes, solver behaviours and crash points; a test fixes one", "anchors": ["smt2/generate.go:Generate", "smt2/generate.go:generate", "cmd/ssarules/main.go:run"]}
{"id": "C77", "title": "A satisfying assignment is a counterexample", "statement": "If all variable names of a rule are legal SMT-LIB names, the models of the script smt2.Generate returns are exactly the counterexamples of the rule: an assignment satisfies the query (also of a script that was cut off) exactly if, with these values under the rule's own variable names, the two sides of the rule have different values of one sort. What it assigns to other names does not matter, and a rule is valid exactly if it has no counterexample. For every script the command writes that is legal, the models are the counterexamples of a rule of an input file with one choice of its alternatives.", "quantifier": "all rules, all assignments, all beginnings of scripts, all runs of the command", "why_tests_cant": "all assignments; a test tries a few", "anchors": ["smt2/generate.go:Generate", "smt2/generate.go:variable", "cmd/ssarules/main.go:run"]}
{"id": "C78", "title": "A clean run certifies every simple rule", "statement": "If ssarules exits with status 0, no line of its log starts with 'ssarules: error: ', and a correct solver, whatever it does after errors, answers 'unsat' for each of the files 0000.smt2, 0001.smt2, ... in the output directory, as many as the log says there are expanded rules, then every rule of every input file that has no condition, block, binding, type, AuxInt, Aux, ellipsis and trailing is, for every choice of its alternatives, in the supported fragment and valid; so rewriting expressions with them preserves values. Conversely, if the variable names of these rules are legal SMT-LIB names, a successful run on valid supported rules logs no generator error, and the files are ones a correct solver answers 'unsat' for.", "quantifier": "all input files, all contents of the output directory before the run, all answers to writes, all solvers that are right on satisfiability", "why_tests_cant": "all inputs and file systems; a test runs the command on a few", "anchors": ["cmd/ssarules/main.go:main", "cmd/ssarules/main.go:run", "cmd/ssarules/main.go:load", "smt2/generate.go:Generate", "pass/alt.go:ExpandAlternates"]}
{"id": "C79", "title": "The log of an interrupted run tells the truth", "statement": "If a run of ssarules is stopped at any moment, in the middle of a write, between a write and its message or in the middle of a message, then whole lines at the beginning of its log can be read, and every file they say has been written holds at that moment the complete script of a rule, whatever was there before, and its write has been confirmed; so do the files of all rules the lines announce, except the last one announced.", "quantifier": "all input files, all file systems, all answers to writes, all crash points (steps of disk and log), all beginnings of the log", "why_tests_cant": "all crash points; a test cannot stop the process everywhere", "anchors": ["cmd/ssarules/main.go:run", "cmd/ssarules/main.go:load"]}
