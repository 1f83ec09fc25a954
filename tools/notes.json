{
 "C12": {
  "note": "The natural claim (no panic at all) is false: C12_false. Proved: when it cannot panic, and exactly which single opcodes cause the panic."
 },
 "C37": {
  "note": "The natural claim (always legal) is false: C37_false_*. Proved: the script is legal iff every variable is a legal name; for all parsed rules."
 },
 "C38": {
  "note": "The natural claim (independent wildcards) is false. Proved: each name is declared exactly once; one constant per occurrence iff names are not repeated."
 },
 "C24": {
  "note": "The converse and unambiguity assume that go/parser rejects a text that is nothing but a // comment (RejectsComment)."
 },
 "C27": {
  "note": "Assumes RejectsComment (see C24)."
 },
 "C29": {
  "note": "Assumes RejectsComment (see C24)."
 },
 "C28": {
  "note": "C28_comment_hides_rest is a consequence (defect) shown for a stand-in Go parser that ignores a trailing // comment."
 },
 "C31": {
  "note": "C31_variadic_lost: f(x...) and f(x) coincide."
 },
 "C42": {
  "note": "A write that fails is assumed to be reported by WriteFile; what the file holds after a failed write is in C47."
 },
 "C18": {
  "note": "Assumes that go/parser agrees with the reference Go expression syntax in Spec/GoSyntax.lean (FollowsGo), which is shown satisfiable."
 },
 "C19": {
  "note": "Assumes that go/parser agrees with the reference Go expression syntax in Spec/GoSyntax.lean (FollowsGo), which is shown satisfiable. C19_exact is the claim with its converse. Instances of the converse: C19_fusion_changes_meaning, C19_fusion_rejected; with carriage returns in raw strings: C19_cr_rejected."
 },
 "C50": {
  "note": "The texts of errors made by go/parser and by the Go runtime are parameters of the model."
 },
 "C53": {
  "note": "Assumes that go/parser returns no tree with a nil part together with a nil error (goNoNil)."
 },
 "C54": {
  "note": "The reader (readMessage, readExpected, messageLines) and the list of terminals are in Spec/Message.lean and do not use the model."
 },
 "C55": {
  "note": "The text of rules.peg is in Spec/PegFile.lean with a reader for it (tools/check_peg.py compares it with the repo); semantics after Ford in Spec/PegSem.lean. Values are not part of C55, see C24."
 },
 "C58": {
  "note": "Assumes that go/parser agrees with the reference syntax (FollowsGo) and that file names and output directory contain no line break. Failures to write the log are not modelled."
 },
 "C59": {
  "note": "C59_linear assumes that a // comment alone is no Go expression (RejectsComment); C59_any_go_parser assumes nothing. C59_counts_the_run ties the counting machine to the machine of all other theorems."
 },
 "C60": {
  "note": "Package flag is modelled from its source (Go 1.16) for the one flag of the command. File names are texts (valid UTF-8)."
 },
 "C61": {
  "note": "go/ast.Fprint and strconv.Quote are modelled from their sources over values without cycles. C61_forged shows why the condition on types is needed."
 },
 "C62": {
  "note": "pass/alt.go as programs that access one heap cell at a time (C62_alone: run alone they are the functions of C07). Steps interleave in any order; C62_no_race is what the Go memory model asks for programs without synchronisation, so that nothing is lost by looking at sequentially consistent runs. Slices used as local variables, strings and *ast.Expr are values."
 },
 "C63": {
  "note": "ioutil.ReadAll and strings.Reader are modelled from their sources (Go 1.16). Readers that keep the buffer are not modelled."
 },
 "C64": {
  "note": "*ast.Expr objects are values in the heap model; C68 (with Go expressions read as pointers) says that expanded rules have the original ones. C64_shared_example is the negative side."
 },
 "C65": {
  "note": "Model/WalkHeap reads fields and array elements at the moment the Go code does. Opcode parts and *ast.Expr are values there (they can be replaced, not modified in place). 'Shares no parts' is OwnN with a list of cells without repetition."
 },
 "C66": {
  "note": "Values and rules as in Spec/Ssa; a rule with the placeholder _ is never certified, its script is not legal (C37)."
 },
 "C67": {
  "note": "C67_identify_converse_false is the negative side."
 },
 "C69": {
  "note": "C69_mixed is the negative side. Operations on different processes' own file positions; a failing write may leave any beginning of its bytes (a process that is not finished)."
 },
 "C79": {
  "note": "Assumes as C58 that go/parser agrees with the reference syntax (FollowsGo) and that file names and output directory contain no line break. The log is not buffered (package log). Failures to write the log and loss of data the operating system has accepted are not modelled."
 }
}
