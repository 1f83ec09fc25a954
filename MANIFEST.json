{
 "claims": [
  {
   "property": "C01",
   "status": "proved",
   "theorems": [
    "Verif.Props.C01_inspect_is_pruned_preorder",
    "Verif.Props.C01_inspect_all",
    "Verif.Props.C01_nodes_of_tree",
    "Verif.Props.C01_flat_children",
    "Verif.Props.C01_walk_children"
   ],
   "note": ""
  },
  {
   "property": "C02",
   "status": "proved",
   "theorems": [
    "Verif.Props.C02_contains",
    "Verif.Props.C02_contains_of_done"
   ],
   "note": ""
  },
  {
   "property": "C03",
   "status": "proved",
   "theorems": [
    "Verif.Props.C03_hasBinding",
    "Verif.Props.C03_hasType",
    "Verif.Props.C03_hasAux",
    "Verif.Props.C03_hasAuxInt",
    "Verif.Props.C03_hasEllipsis",
    "Verif.Props.C03_hasTrailing"
   ],
   "note": ""
  },
  {
   "property": "C04",
   "status": "proved",
   "theorems": [
    "Verif.Props.C04_walk_no_panic",
    "Verif.Props.C04_walk_panic",
    "Verif.Props.C04_walk_nil",
    "Verif.Props.C04_inspect_panic",
    "Verif.Props.C04_contains_panic"
   ],
   "note": ""
  },
  {
   "property": "C05",
   "status": "proved",
   "theorems": [
    "Verif.Props.C05_expand_picks",
    "Verif.Props.C05_expand_rule",
    "Verif.Props.C05_expand_plain"
   ],
   "note": ""
  },
  {
   "property": "C06",
   "status": "proved",
   "theorems": [
    "Verif.Props.C06_expand_succeeds_iff",
    "Verif.Props.C06_expand_error"
   ],
   "note": ""
  },
  {
   "property": "C07",
   "status": "proved",
   "theorems": [
    "Verif.Props.C07_failure_changes_nothing",
    "Verif.Props.C07_success_changes_only_the_file"
   ],
   "note": ""
  },
  {
   "property": "C08",
   "status": "proved",
   "theorems": [
    "Verif.Props.C08_no_alternatives_left",
    "Verif.Props.C08_idempotent"
   ],
   "note": ""
  },
  {
   "property": "C09",
   "status": "proved",
   "theorems": [
    "Verif.Props.C09_only_opcodes_change",
    "Verif.Props.C09_eraseOps_injective_but_ops"
   ],
   "note": ""
  },
  {
   "property": "C10",
   "status": "proved",
   "theorems": [
    "Verif.Props.C10_expand_append",
    "Verif.Props.C10_never_loses_rules",
    "Verif.Props.C10_empty_file"
   ],
   "note": ""
  },
  {
   "property": "C11",
   "status": "proved",
   "theorems": [
    "Verif.Props.C11_predicates_invariant",
    "Verif.Props.C11_filter_commutes"
   ],
   "note": ""
  },
  {
   "property": "C12",
   "status": "proved",
   "theorems": [
    "Verif.Props.C12_false",
    "Verif.Props.C12_no_panic",
    "Verif.Props.C12_panic_iff",
    "Verif.Props.C12_panic_file_iff"
   ],
   "note": "The natural claim (no panic at all) is false: C12_false. Proved: when it cannot panic, and exactly which single opcodes cause the panic."
  },
  {
   "property": "C13",
   "status": "proved",
   "theorems": [
    "Verif.Props.C13_expand_parsed"
   ],
   "note": ""
  },
  {
   "property": "C14",
   "status": "proved",
   "theorems": [
    "Verif.Props.C14_file_is_lines",
    "Verif.Props.C14_file_fails_iff"
   ],
   "note": ""
  },
  {
   "property": "C15",
   "status": "proved",
   "theorems": [
    "Verif.Props.C15_bytes",
    "Verif.Props.C15_error",
    "Verif.Props.C15_operators",
    "Verif.Props.C15_rule_fails_iff"
   ],
   "note": ""
  },
  {
   "property": "C16",
   "status": "proved",
   "theorems": [
    "Verif.Props.C16_fprint"
   ],
   "note": ""
  },
  {
   "property": "C17",
   "status": "proved",
   "theorems": [
    "Verif.Props.C17_print_parsed"
   ],
   "note": ""
  },
  {
   "property": "C18",
   "status": "proved",
   "theorems": [
    "Verif.Props.C18_print_parse",
    "Verif.Props.C18_exact",
    "Verif.Props.C18_goexpr_exact",
    "Verif.Props.C18_goexpr"
   ],
   "note": "Assumes that go/parser agrees with the reference Go expression syntax in Spec/GoSyntax.lean (FollowsGo), which is shown satisfiable."
  },
  {
   "property": "C19",
   "status": "proved",
   "theorems": [
    "Verif.Props.C19_reparse",
    "Verif.Props.C19_exact",
    "Verif.Props.C19_reparse_no_cr",
    "Verif.Props.C19_normal_form",
    "Verif.Props.C19_fusion_changes_meaning",
    "Verif.Props.C19_fusion_rejected",
    "Verif.Props.C19_cr_rejected"
   ],
   "note": "Assumes that go/parser agrees with the reference Go expression syntax in Spec/GoSyntax.lean (FollowsGo), which is shown satisfiable. C19_exact is the claim with its converse. Instances of the converse: C19_fusion_changes_meaning, C19_fusion_rejected; with carriage returns in raw strings: C19_cr_rejected."
  },
  {
   "property": "C20",
   "status": "proved",
   "theorems": [
    "Verif.Props.C20_injective",
    "Verif.Props.C20_rule_injective"
   ],
   "note": ""
  },
  {
   "property": "C21",
   "status": "proved",
   "theorems": [
    "Verif.Props.C21_terminates"
   ],
   "note": ""
  },
  {
   "property": "C22",
   "status": "proved",
   "theorems": [
    "Verif.Props.C22_total"
   ],
   "note": ""
  },
  {
   "property": "C23",
   "status": "proved",
   "theorems": [
    "Verif.Props.C23_invalid_utf8"
   ],
   "note": ""
  },
  {
   "property": "C24",
   "status": "proved",
   "theorems": [
    "Verif.Props.C24_accepted_is_rules",
    "Verif.Props.C24_rules_accepted",
    "Verif.Props.C24_unambiguous"
   ],
   "note": "The converse and unambiguity assume that go/parser rejects a text that is nothing but a // comment (RejectsComment)."
  },
  {
   "property": "C25",
   "status": "proved",
   "theorems": [
    "Verif.Props.C25_well_formed",
    "Verif.Props.C25_parts_have_alternation"
   ],
   "note": ""
  },
  {
   "property": "C26",
   "status": "proved",
   "theorems": [
    "Verif.Props.C26_bad_expression_fails",
    "Verif.Props.C26_only_submitted_matter",
    "Verif.Props.C26_accept_iff"
   ],
   "note": ""
  },
  {
   "property": "C27",
   "status": "proved",
   "theorems": [
    "Verif.Props.C27_surrounding_skip",
    "Verif.Props.C27_no_rules"
   ],
   "note": "Assumes RejectsComment (see C24)."
  },
  {
   "property": "C28",
   "status": "proved",
   "theorems": [
    "Verif.Props.C28_condition",
    "Verif.Props.C28_comment_hides_rest"
   ],
   "note": "C28_comment_hides_rest is a consequence (defect) shown for a stand-in Go parser that ignores a trailing // comment."
  },
  {
   "property": "C29",
   "status": "proved",
   "theorems": [
    "Verif.Props.C29_operands"
   ],
   "note": "Assumes RejectsComment (see C24)."
  },
  {
   "property": "C30",
   "status": "proved",
   "theorems": [
    "Verif.Props.C30_parse_iff",
    "Verif.Props.C30_clean",
    "Verif.Props.C30_panic_iff",
    "Verif.Props.C30_no_panic",
    "Verif.Props.C30_go_error",
    "Verif.Props.C30_rejects"
   ],
   "note": ""
  },
  {
   "property": "C31",
   "status": "proved",
   "theorems": [
    "Verif.Props.C31_same_iff",
    "Verif.Props.C31_variadic_lost"
   ],
   "note": "C31_variadic_lost: f(x...) and f(x) coincide."
  },
  {
   "property": "C32",
   "status": "proved",
   "theorems": [
    "Verif.Props.C32_script_decides_rule",
    "Verif.Props.C32_values_defined",
    "Verif.Props.C32_valid_iff"
   ],
   "note": ""
  },
  {
   "property": "C33",
   "status": "proved",
   "theorems": [
    "Verif.Props.C33_commands",
    "Verif.Props.C33_legal"
   ],
   "note": ""
  },
  {
   "property": "C34",
   "status": "proved",
   "theorems": [
    "Verif.Props.C34_accepts_iff",
    "Verif.Props.C34_rejects"
   ],
   "note": ""
  },
  {
   "property": "C35",
   "status": "proved",
   "theorems": [
    "Verif.Props.C35_nothing_ignored",
    "Verif.Props.C35_features_rejected"
   ],
   "note": ""
  },
  {
   "property": "C36",
   "status": "proved",
   "theorems": [
    "Verif.Props.C36_comment_confined",
    "Verif.Props.C36_any_names"
   ],
   "note": ""
  },
  {
   "property": "C37",
   "status": "proved",
   "theorems": [
    "Verif.Props.C37_written_legal_iff",
    "Verif.Props.C37_parsed",
    "Verif.Props.C37_false_placeholder",
    "Verif.Props.C37_false_reserved",
    "Verif.Props.C37_legal_iff"
   ],
   "note": "The natural claim (always legal) is false: C37_false_*. Proved: the script is legal iff every variable is a legal name; for all parsed rules."
  },
  {
   "property": "C38",
   "status": "proved",
   "theorems": [
    "Verif.Props.C38_declared_once",
    "Verif.Props.C38_instance",
    "Verif.Props.C38_distinct"
   ],
   "note": "The natural claim (independent wildcards) is false. Proved: each name is declared exactly once; one constant per occurrence iff names are not repeated."
  },
  {
   "property": "C39",
   "status": "proved",
   "theorems": [
    "Verif.Props.C39_sort_of_match",
    "Verif.Props.C39_never_unsigned"
   ],
   "note": ""
  },
  {
   "property": "C40",
   "status": "proved",
   "theorems": [
    "Verif.Props.C40_trace",
    "Verif.Props.C40_load",
    "Verif.Props.C40_load_only"
   ],
   "note": ""
  },
  {
   "property": "C41",
   "status": "proved",
   "theorems": [
    "Verif.Props.C41_names_distinct",
    "Verif.Props.C41_written_is_rule",
    "Verif.Props.C41_written_iff",
    "Verif.Props.C41_once",
    "Verif.Props.C41_name_unique",
    "Verif.Props.C41_written_place",
    "Verif.Props.C41_written_place_iff",
    "Verif.Props.C41_places_once"
   ],
   "note": ""
  },
  {
   "property": "C42",
   "status": "proved",
   "theorems": [
    "Verif.Props.C42_no_output",
    "Verif.Props.C42_write_failure"
   ],
   "note": "A write that fails is assumed to be reported by WriteFile; what the file holds after a failed write is in C47."
  },
  {
   "property": "C43",
   "status": "proved",
   "theorems": [
    "Verif.Props.C43_failure_modes",
    "Verif.Props.C43_succeeds_iff",
    "Verif.Props.C43_generator_input"
   ],
   "note": ""
  },
  {
   "property": "C44",
   "status": "proved",
   "theorems": [
    "Verif.Props.C44_end_to_end"
   ],
   "note": ""
  },
  {
   "property": "C45",
   "status": "proved",
   "theorems": [
    "Verif.Props.C45_files_after",
    "Verif.Props.C45_rerun",
    "Verif.Props.C45_disk_after"
   ],
   "note": ""
  },
  {
   "property": "C46",
   "status": "proved",
   "theorems": [
    "Verif.Props.C46_more_inputs"
   ],
   "note": ""
  },
  {
   "property": "C47",
   "status": "proved",
   "theorems": [
    "Verif.Props.C47_stopped",
    "Verif.Props.C47_elsewhere"
   ],
   "note": ""
  },
  {
   "property": "C48",
   "status": "proved",
   "theorems": [
    "Verif.Props.C48_recovers"
   ],
   "note": ""
  },
  {
   "property": "C49",
   "status": "proved",
   "theorems": [
    "Verif.Props.C49_concat",
    "Verif.Props.C49_concat_lines",
    "Verif.Props.C49_split",
    "Verif.Props.C49_select"
   ],
   "note": ""
  },
  {
   "property": "C50",
   "status": "proved",
   "theorems": [
    "Verif.Props.C50_same_result",
    "Verif.Props.C50_truthful",
    "Verif.Props.C50_distinct",
    "Verif.Props.C50_offset",
    "Verif.Props.C50_offset_ends",
    "Verif.Props.C50_line_column",
    "Verif.Props.C50_first_line"
   ],
   "note": "The texts of errors made by go/parser and by the Go runtime are parameters of the model."
  },
  {
   "property": "C51",
   "status": "proved",
   "theorems": [
    "Verif.Props.C51_local",
    "Verif.Props.C51_no_continuation"
   ],
   "note": ""
  },
  {
   "property": "C52",
   "status": "proved",
   "theorems": [
    "Verif.Props.C52_sorted",
    "Verif.Props.C52_missing",
    "Verif.Props.C52_map_order"
   ],
   "note": ""
  },
  {
   "property": "C53",
   "status": "proved",
   "theorems": [
    "Verif.Props.C53_first_is_cause"
   ],
   "note": "Assumes that go/parser returns no tree with a nil part together with a nil error (goNoNil)."
  },
  {
   "property": "C54",
   "status": "proved",
   "theorems": [
    "Verif.Props.C54_position",
    "Verif.Props.C54_vocabulary",
    "Verif.Props.C54_expected",
    "Verif.Props.C54_wording",
    "Verif.Props.C54_lines"
   ],
   "note": "The reader (readMessage, readExpected, messageLines) and the list of terminals are in Spec/Message.lean and do not use the model."
  },
  {
   "property": "C55",
   "status": "proved",
   "theorems": [
    "Verif.Props.C55_read",
    "Verif.Props.C55_accepts",
    "Verif.Props.C55_accepts_iff",
    "Verif.Props.C55_decides"
   ],
   "note": "The text of rules.peg is in Spec/PegFile.lean with a reader for it (tools/check_peg.py compares it with the repo); semantics after Ford in Spec/PegSem.lean. Values are not part of C55, see C24."
  },
  {
   "property": "C56",
   "status": "proved",
   "theorems": [
    "Verif.Props.C56_error_iff",
    "Verif.Props.C56_one_reason",
    "Verif.Props.C56_points_at",
    "Verif.Props.C56_readable"
   ],
   "note": ""
  },
  {
   "property": "C57",
   "status": "proved",
   "theorems": [
    "Verif.Props.C57_failure_iff",
    "Verif.Props.C57_one_fault"
   ],
   "note": ""
  },
  {
   "property": "C58",
   "status": "proved",
   "theorems": [
    "Verif.Props.C58_success",
    "Verif.Props.C58_rule",
    "Verif.Props.C58_failure"
   ],
   "note": "Assumes that go/parser agrees with the reference syntax (FollowsGo) and that file names and output directory contain no line break. Failures to write the log are not modelled."
  },
  {
   "property": "C59",
   "status": "proved",
   "theorems": [
    "Verif.Props.C59_counts_the_run",
    "Verif.Props.C59_counted",
    "Verif.Props.C59_evaluations",
    "Verif.Props.C59_one_number",
    "Verif.Props.C59_linear",
    "Verif.Props.C59_any_go_parser"
   ],
   "note": "C59_linear assumes that a // comment alone is no Go expression (RejectsComment); C59_any_go_parser assumes nothing. C59_counts_the_run ties the counting machine to the machine of all other theorems."
  },
  {
   "property": "C60",
   "status": "proved",
   "theorems": [
    "Verif.Props.C60_one_meaning",
    "Verif.Props.C60_runs",
    "Verif.Props.C60_refuses",
    "Verif.Props.C60_status",
    "Verif.Props.C60_written",
    "Verif.Props.C60_options_first"
   ],
   "note": "Package flag is modelled from its source (Go 1.16) for the one flag of the command. File names are texts (valid UTF-8)."
  },
  {
   "property": "C61",
   "status": "proved",
   "theorems": [
    "Verif.Props.C61_never_fails",
    "Verif.Props.C61_writer",
    "Verif.Props.C61_lines",
    "Verif.Props.C61_declared",
    "Verif.Props.C61_literals",
    "Verif.Props.C61_injective",
    "Verif.Props.C61_unshared",
    "Verif.Props.C61_determined",
    "Verif.Props.C61_images",
    "Verif.Props.C61_parsed",
    "Verif.Props.C61_forged"
   ],
   "note": "go/ast.Fprint and strconv.Quote are modelled from their sources over values without cycles. C61_forged shows why the condition on types is needed."
  },
  {
   "property": "C62",
   "status": "proved",
   "theorems": [
    "Verif.Props.C62_alone",
    "Verif.Props.C62_no_race",
    "Verif.Props.C62_expanded",
    "Verif.Props.C62_never_between",
    "Verif.Props.C62_others_unchanged",
    "Verif.Props.C62_looks",
    "Verif.Props.C62_reads_rule",
    "Verif.Props.C62_progress",
    "Verif.Props.C62_finite"
   ],
   "note": "pass/alt.go as programs that access one heap cell at a time (C62_alone: run alone they are the functions of C07). Steps interleave in any order; C62_no_race is what the Go memory model asks for programs without synchronisation, so that nothing is lost by looking at sequentially consistent runs. Slices used as local variables, strings and *ast.Expr are values."
  },
  {
   "property": "C63",
   "status": "proved",
   "theorems": [
    "Verif.Props.C63_reader",
    "Verif.Props.C63_reader_error",
    "Verif.Props.C63_string",
    "Verif.Props.C63_same",
    "Verif.Props.C63_conversation",
    "Verif.Props.C63_strict",
    "Verif.Props.C63_file",
    "Verif.Props.C63_command",
    "Verif.Props.C63_panic",
    "Verif.Props.C63_hangs",
    "Verif.Props.C63_takes_back"
   ],
   "note": "ioutil.ReadAll and strings.Reader are modelled from their sources (Go 1.16). Readers that keep the buffer are not modelled."
  },
  {
   "property": "C64",
   "status": "proved",
   "theorems": [
    "Verif.Props.C64_sharing",
    "Verif.Props.C64_private",
    "Verif.Props.C64_shared_example"
   ],
   "note": "*ast.Expr objects are values in the heap model; C68 (with Go expressions read as pointers) says that expanded rules have the original ones. C64_shared_example is the negative side."
  },
  {
   "property": "C65",
   "status": "proved",
   "theorems": [
    "Verif.Props.C65_edits",
    "Verif.Props.C65_edits_only",
    "Verif.Props.C65_reads",
    "Verif.Props.C65_rename",
    "Verif.Props.C65_current"
   ],
   "note": "Model/WalkHeap reads fields and array elements at the moment the Go code does. Opcode parts and *ast.Expr are values there (they can be replaced, not modified in place). 'Shares no parts' is OwnN with a list of cells without repetition."
  },
  {
   "property": "C66",
   "status": "proved",
   "theorems": [
    "Verif.Props.C66_rewriting",
    "Verif.Props.C66_command",
    "Verif.Props.C66_satisfiable"
   ],
   "note": "Values and rules as in Spec/Ssa; a rule with the placeholder _ is never certified, its script is not legal (C37)."
  },
  {
   "property": "C67",
   "status": "proved",
   "theorems": [
    "Verif.Props.C67_accepts",
    "Verif.Props.C67_same_verdict",
    "Verif.Props.C67_identify",
    "Verif.Props.C67_identify_converse_false"
   ],
   "note": "C67_identify_converse_false is the negative side."
  },
  {
   "property": "C68",
   "status": "proved",
   "theorems": [
    "Verif.Props.C68_opcodes_only"
   ],
   "note": ""
  },
  {
   "property": "C69",
   "status": "proved",
   "theorems": [
    "Verif.Props.C69_alone",
    "Verif.Props.C69_finished",
    "Verif.Props.C69_serial",
    "Verif.Props.C69_same",
    "Verif.Props.C69_meanwhile",
    "Verif.Props.C69_elsewhere",
    "Verif.Props.C69_repair",
    "Verif.Props.C69_mixed"
   ],
   "note": "C69_mixed is the negative side. Operations on different processes' own file positions; a failing write may leave any beginning of its bytes (a process that is not finished)."
  },
  {
   "property": "C70",
   "status": "proved",
   "theorems": [
    "Verif.Props.C70_expansion_printed",
    "Verif.Props.C70_simple_rules_only",
    "Verif.Props.C70_joined",
    "Verif.Props.C70_written_out"
   ],
   "note": ""
  },
  {
   "property": "C71",
   "status": "proved",
   "theorems": [
    "Verif.Props.C71_script",
    "Verif.Props.C71_printed",
    "Verif.Props.C71_expansion",
    "Verif.Props.C71_expansion_rule",
    "Verif.Props.C71_output"
   ],
   "note": ""
  },
  {
   "property": "C72",
   "status": "proved",
   "theorems": [
    "Verif.Props.C72_terminates",
    "Verif.Props.C72_depends",
    "Verif.Props.C72_no_options",
    "Verif.Props.C72_unused",
    "Verif.Props.C72_limit",
    "Verif.Props.C72_count",
    "Verif.Props.C72_limit_enough",
    "Verif.Props.C72_recover",
    "Verif.Props.C72_entry_unknown",
    "Verif.Props.C72_entry_sound",
    "Verif.Props.C72_entry_complete",
    "Verif.Props.C72_undo"
   ],
   "note": ""
  },
  {
   "property": "C73",
   "status": "proved",
   "theorems": [
    "Verif.Props.C73_values",
    "Verif.Props.C73_consequence",
    "Verif.Props.C73_culprit",
    "Verif.Props.C73_command",
    "Verif.Props.C73_reverse",
    "Verif.Props.C73_chain",
    "Verif.Props.C73_instance",
    "Verif.Props.C73_context"
   ],
   "note": ""
  },
  {
   "property": "C74",
   "status": "proved",
   "theorems": [
    "Verif.Props.C74_walk",
    "Verif.Props.C74_inspect",
    "Verif.Props.C74_inspect_same",
    "Verif.Props.C74_flat",
    "Verif.Props.C74_contains",
    "Verif.Props.C74_has",
    "Verif.Props.C74_filter",
    "Verif.Props.C74_print_panic",
    "Verif.Props.C74_print_same",
    "Verif.Props.C74_print_before",
    "Verif.Props.C74_bytes",
    "Verif.Props.C74_expand_ok",
    "Verif.Props.C74_expand_error",
    "Verif.Props.C74_expand_panic",
    "Verif.Props.C74_generate"
   ],
   "note": ""
  },
  {
   "property": "C75",
   "status": "proved",
   "theorems": [
    "Verif.Props.C75_read_back",
    "Verif.Props.C75_names",
    "Verif.Props.C75_injective",
    "Verif.Props.C75_written",
    "Verif.Props.C75_again",
    "Verif.Props.C75_comment_needed"
   ],
   "note": ""
  },
  {
   "property": "C76",
   "status": "proved",
   "theorems": [
    "Verif.Props.C76_legal",
    "Verif.Props.C76_illegal",
    "Verif.Props.C76_unsat_never_wrong",
    "Verif.Props.C76_sat_may_be_wrong",
    "Verif.Props.C76_disk"
   ],
   "note": ""
  },
  {
   "property": "C77",
   "status": "proved",
   "theorems": [
    "Verif.Props.C77_models",
    "Verif.Props.C77_cut_off",
    "Verif.Props.C77_only_variables",
    "Verif.Props.C77_valid_iff",
    "Verif.Props.C77_written"
   ],
   "note": ""
  },
  {
   "property": "C78",
   "status": "proved",
   "theorems": [
    "Verif.Props.C78_clean_run",
    "Verif.Props.C78_exact",
    "Verif.Props.C78_rewriting",
    "Verif.Props.C78_process"
   ],
   "note": ""
  },
  {
   "property": "C79",
   "status": "proved",
   "theorems": [
    "Verif.Props.C79_all_steps",
    "Verif.Props.C79_disk",
    "Verif.Props.C79_written",
    "Verif.Props.C79_before",
    "Verif.Props.C79_confirmed",
    "Verif.Props.C79_beginning"
   ],
   "note": "Assumes as C58 that go/parser agrees with the reference syntax (FollowsGo) and that file names and output directory contain no line break. The log is not buffered (package log). Failures to write the log and loss of data the operating system has accepted are not modelled."
  }
 ]
}