{
 "claims": [
  {
   "property": "C01",
   "status": "partial",
   "theorems": [
    "Verif.Props.C01_print_parse_partial",
    "Verif.Props.C01_unreadable",
    "Verif.Props.C01_roundtrip_iff",
    "Verif.Props.C01_parsed_names",
    "Verif.Props.C01_parse_print_parse",
    "Verif.Props.C01_counterexamples",
    "Verif.Props.C01_reparse",
    "Verif.Props.C01_reparse_double",
    "Verif.Props.C01_printed_text_final"
   ],
   "note": "Round trip proved for exactly the constraints for which it holds (iff): identifier names, no xor, no division, no negative literal. The unrestricted claim is false for the code; counterexamples are proved. Every constraint the parser yields is read back from its own text, with no condition on the constraint (C01_reparse): parsed constraints contain neither xor, division, exclusion nor negative literals."
  },
  {
   "property": "C02",
   "status": "proved",
   "theorems": [
    "Verif.Props.C02_grammar",
    "Verif.Props.C02_grammar_null",
    "Verif.Props.C02_unambiguous"
   ],
   "note": "Parser accepts exactly the sentences of the declarative grammar and returns the grammar's unique tree."
  },
  {
   "property": "C03",
   "status": "partial",
   "theorems": [
    "Verif.Props.C03_lexer",
    "Verif.Props.C03_lexer_iff",
    "Verif.Props.C03_parse_safe_partial",
    "Verif.Props.C03_empty_text_is_undefined"
   ],
   "note": "Proved for every nonempty text; the empty text is undefined behaviour in the code (proved)."
  },
  {
   "property": "C04",
   "status": "proved",
   "theorems": [
    "Verif.Props.C04_whitespace_amount",
    "Verif.Props.C04_whitespace_insert",
    "Verif.Props.C04_nothing_dropped",
    "Verif.Props.C04_text_after_nul_ignored"
   ],
   "note": "Any two nonempty whitespace runs are interchangeable anywhere; insertion next to delimiters and at the ends; spellings concatenate to the text up to an end-of-text byte."
  },
  {
   "property": "C05",
   "status": "proved",
   "theorems": [
    "Verif.Props.C05_builds",
    "Verif.Props.C05_safe",
    "Verif.Props.C05_builder_agrees_with_parser"
   ],
   "note": "Builder results are exactly the denotations of the call grammar; on calls that have a token, builder and parser return the same tree or none."
  },
  {
   "property": "C06",
   "status": "proved",
   "theorems": [
    "Verif.Props.C06_complete_iff",
    "Verif.Props.C06_sticky",
    "Verif.Props.C06_operand_after_operand",
    "Verif.Props.C06_operator_after_operator",
    "Verif.Props.C06_empty_parentheses",
    "Verif.Props.C06_parens"
   ],
   "note": "build() is non-null exactly for legal complete call sequences; errors absorb."
  },
  {
   "property": "C07",
   "status": "partial",
   "theorems": [
    "Verif.Props.C07_literal",
    "Verif.Props.C07_print_read",
    "Verif.Props.C07_exponent_partial",
    "Verif.Props.C07_exponent_exact",
    "Verif.Props.C07_exponent_inexact",
    "Verif.Props.C07_signed_digits",
    "Verif.Props.C07_arrow_after_literal",
    "Verif.Props.C07_sum_of_literals_is_one_literal",
    "Verif.Props.C07_unspaced_sum"
   ],
   "note": "Exact/saturating reading and print-read proved for all digit strings. A literal with e (exponent below 24000) is read as the nearest integer of the nearest double; it is its value up to 2^53 and not beyond (witness). The claim on two literals separated by a sign is false: digits with signs among them are one literal read as the largest integer, proved for all such texts. Every sum or difference of literals written without blanks is one literal and reads as the largest 64 bit number (C07_unspaced_sum)."
  },
  {
   "property": "C08",
   "status": "proved",
   "theorems": [
    "Verif.Props.C08_clone",
    "Verif.Props.C08_independent",
    "Verif.Props.C08_roots"
   ],
   "note": "On objects with identities and parent pointers, for every constraint whose features exist and for either order in which operands are cloned. C08_roots covers every program that builds, clones, combines and drops constraints and sets features."
  },
  {
   "property": "C09",
   "status": "partial",
   "theorems": [
    "Verif.Props.C09_registered",
    "Verif.Props.C09_missing_changes"
   ],
   "note": "Success: exact effect for every well-formed model and every constraint. The last sentence (unchanged when a feature is missing) is false, refuted for every such call by C09_missing_changes."
  },
  {
   "property": "C10",
   "status": "partial",
   "theorems": [
    "Verif.Props.C10_accepts",
    "Verif.Props.C10_total_partial",
    "Verif.Props.C10_empty_is_undefined",
    "Verif.Props.C10_next_right",
    "Verif.Props.C10_next_left",
    "Verif.Props.C10_accepts_undefined_constant",
    "Verif.Props.C10_constant_defined_iff"
   ],
   "note": "Acceptance and operand order proved for all texts; the last sentence (constant always defined) is false for the code (witness) and the empty text is undefined behaviour."
  },
  {
   "property": "C100",
   "status": "proved",
   "theorems": [
    "Verif.Props.C100_exact",
    "Verif.Props.C100_no_leak",
    "Verif.Props.C100_all_freed",
    "Verif.Props.C100_others_stay"
   ],
   "note": "For all programs without undefined behaviour, whatever pointers their calls use: the heap holds exactly what the containers of the live models own, each object has one owner and is listed once; empty after the last model. Ownership only: raw pointers of other models or of constraints may dangle (C97_foreign_parent and the properties on constraints)."
  },
  {
   "property": "C101",
   "status": "partial",
   "theorems": [
    "Verif.Props.C101_merged",
    "Verif.Props.C101_both_partial",
    "Verif.Props.C101_valid_in_both_partial",
    "Verif.Props.C101_constraints_lost",
    "Verif.Props.C101_alternative_lost",
    "Verif.Props.C101_first_wins",
    "Verif.Props.C101_fails",
    "Verif.Props.C101_optional_wins"
   ],
   "note": "Proved for all models that can be cloned faithfully and without ranges: the configurations of the result, in both modes, are those of the first model that give the new features of the second what they ask for as plain children (C101_merged); with a strict merge, a second model without groups, ranges and constraints and no names differing in case only, they are those valid in both (C101_valid_in_both_partial). False for the code otherwise: constraints and groups of the second model are lost (C101_constraints_lost, C101_alternative_lost, C101_fails), and where both models have a feature the first wins (C101_first_wins, C101_optional_wins)."
  },
  {
   "property": "C102",
   "status": "partial",
   "theorems": [
    "Verif.Props.C102_nothing_new",
    "Verif.Props.C102_self",
    "Verif.Props.C102_conflict_either_way",
    "Verif.Props.C102_order_partial",
    "Verif.Props.C102_constraints_of_first",
    "Verif.Props.C102_order_fails"
   ],
   "note": "Proved for models that can be cloned: merging with itself, or a model with nothing new, gives exactly the clone (C29, C73 say what that keeps); null in one order iff in the other, in both modes; with Strict and without names differing in case only, the results have the same features, attributes, parents and sets of locations. False for the code: constraints (and groups, C101) of the result are those of the model that comes first (C102_constraints_of_first), and without Strict attributes too (C102_order_fails)."
  },
  {
   "property": "C103",
   "status": "partial",
   "theorems": [
    "Verif.Props.C103_same_document",
    "Verif.Props.C103_reproducible",
    "Verif.Props.C103_clone",
    "Verif.Props.C103_fixpoint_partial",
    "Verif.Props.C103_fixpoint_iff",
    "Verif.Props.C103_settles_iff",
    "Verif.Props.C103_grows",
    "Verif.Props.C103_self_doubles",
    "Verif.Props.C103_other_class_repeats",
    "Verif.Props.C103_repeatable",
    "Verif.Props.C103_fixpoint_not_vacuous",
    "Verif.Props.C103_same_not_vacuous",
    "Verif.Props.C103_clone_not_vacuous",
    "Verif.Props.C103_first_differs",
    "Verif.Props.C103_fails",
    "Verif.Props.C104_case_fails"
   ],
   "note": "Proved for writable models (C33): the same document for models that say the same (SaysSame, which compares descriptions and no addresses), for a clone, and under any environment. Saving again gives the same document exactly if no feature implies itself, no implication between features is kept as a non-Boolean or mixed constraint, and, without Boolean constraints, there is no group of several features (C103_fixpoint_iff); the third condition is not needed for the second document (C103_settles_iff). False for the code otherwise: a self-implication is held 2^n times after n rounds, an implication kept as a mixed constraint n+1 times (C103_grows, C103_fails), and the first document of a group without constraints differs from the second (C103_first_differs). Siblings whose names differ in case only are saved in an order that depends on addresses (C104_case_fails), so the condition of C33 on siblings is needed."
  },
  {
   "property": "C104",
   "status": "partial",
   "theorems": [
    "Verif.Props.C104_same_saved",
    "Verif.Props.C104_final_iff",
    "Verif.Props.C104_normal_form_partial",
    "Verif.Props.C104_not_vacuous",
    "Verif.Props.C104_case_fails",
    "Verif.Props.C104_layout"
   ],
   "note": "Proved for documents in the form C57/C63 covers whose sibling names differ in more than case and whose file paths end in no slash (Storable): reordered and relaid documents are saved as the same document (C104_same_saved), which is final exactly if no option implies itself and no implication between two options stands among non-Boolean or mixed constraints (C104_final_iff). Writability is not assumed but derived from the document (writable_doc), including that every constraint the parser yields can be printed and read back (C01_reparse). False for the code otherwise: siblings A and a are saved in an order that depends on addresses (C104_case_fails); self-implications double (C103_grows). Constraint elements are compared in order. In every model with two siblings of the same kind whose names differ in case only, and in every layout, visiting sets backwards saves another document (C104_layout)."
  },
  {
   "property": "C105",
   "status": "partial",
   "theorems": [
    "Verif.Props.C105_grouping_partial",
    "Verif.Props.C105_not_vacuous",
    "Verif.Props.C105_groups_fail",
    "Verif.Props.C105_kinds_fail"
   ],
   "note": "Proved in both modes for models whose roots have the same name, whose features have a kind, and without groups (not strictly: in the first model only), the first two being ones that can be cloned (C29); the second merges run on the heap the first leave. The result is equal including the order of locations. False for the code otherwise: strictly, merging drops the groups of the second model, so that a third with the same groups conflicts from the left but not from the right (C105_groups_fail); not strictly, a feature without kind can be merged with another but not be copied (C105_kinds_fail). Models with different roots are covered by C30 and C102 only."
  },
  {
   "property": "C106",
   "status": "proved",
   "theorems": [
    "Verif.Props.C106_owned",
    "Verif.Props.C106_says",
    "Verif.Props.C106_held",
    "Verif.Props.C106_own_texts",
    "Verif.Props.C106_loop",
    "Verif.Props.C106_new_name_in_loop",
    "Verif.Props.C106_freed_texts"
   ],
   "note": "Option objects have addresses that are not reused; reading a freed one is undefined. The map (llvm::StringMap) is assumed to keep its entries and, on an existing key, to assign in place; inserting a new key ends the use of iterators, whether or not the table grows. "
  },
  {
   "property": "C107",
   "status": "proved",
   "theorems": [
    "Verif.Props.C107_modification_errors",
    "Verif.Props.C107_solver_errors",
    "Verif.Props.C107_printed",
    "Verif.Props.C107_modifications",
    "Verif.Props.C107_answers",
    "Verif.Props.C107_owned"
   ],
   "note": "The texts are those in the two switches. How llvm::raw_ostream prints truth values and numbers is trusted; pointers as values (printed as addresses) are covered only by the general C107_printed."
  },
  {
   "property": "C108",
   "status": "proved",
   "theorems": [
    "Verif.Props.C108_defined",
    "Verif.Props.C108_locations",
    "Verif.Props.C108_offsets",
    "Verif.Props.C108_made",
    "Verif.Props.C108_equal",
    "Verif.Props.C108_not_none",
    "Verif.Props.C108_other_class",
    "Verif.Props.C108_raises"
   ],
   "note": "pybind11's reference_internal policy (start and end refer into the location and keep it alive) is trusted; paths are lists of elements. Beyond the claim: comparing a location with an offset raises a TypeError in every state (C108_other_class). Locations obtained from a feature are C90."
  },
  {
   "property": "C109",
   "status": "proved",
   "theorems": [
    "Verif.Props.C25_independent_iff",
    "Verif.Props.C26_unordered_iff",
    "Verif.Props.C26_strict",
    "Verif.Props.C26_weak_iff",
    "Verif.Props.C26_iteration_iff",
    "Verif.Props.C27_sorted_iff",
    "Verif.Props.C27_twins",
    "Verif.Props.C27_canonical_iff"
   ],
   "note": "The exact form of C25, C26 and C27, whose unconditional statements are false. std::upper_bound on a range that is not partitioned counts as undefined, as in the standard."
  },
  {
   "property": "C11",
   "status": "partial",
   "theorems": [
    "Verif.Props.C11_integer_texts",
    "Verif.Props.C11_boolean_texts",
    "Verif.Props.C11_boolean_value_partial",
    "Verif.Props.C11_upper_case_true_is_false",
    "Verif.Props.C11_bool_roundtrip",
    "Verif.Props.C11_int_roundtrip",
    "Verif.Props.C11_idempotent",
    "Verif.Props.C11_other_strings",
    "Verif.Props.C11_option_text",
    "Verif.Props.C11_option_text_colon"
   ],
   "note": "Round trip and idempotence proved; the letter-case claim is false for the code: 'TRUE' yields false (witness), proved in the cases that hold. The text of an option determines it if the name has no colon."
  },
  {
   "property": "C110",
   "status": "proved",
   "theorems": [
    "Verif.Props.C01_roundtrip_iff"
   ],
   "note": "The exact form of C01, whose unconditional statement is false. The behaviour of number texts with a fraction or exponent is a parameter."
  },
  {
   "property": "C111",
   "status": "proved",
   "theorems": [
    "Verif.Props.C89_any_edit",
    "Verif.Props.C89_any_edit_ends",
    "Verif.Props.C89_move_and_remove",
    "Verif.Props.C89_moved_then_removed"
   ],
   "note": "The positive part of C89 in its widest form; the bodies outside of it are undefined in the cases of C89 and C89_moved_then_removed. The body is given as a function that keeps an invariant of the caller and a tree of features (Edits)."
  },
  {
   "property": "C112",
   "status": "proved",
   "theorems": [
    "Verif.Props.C38_options",
    "Verif.Props.C38_numeric_parent",
    "Verif.Props.C38_empty_alternative"
   ],
   "note": "The exact form of the first part of C38, whose unconditional statement is false. Z3 reports ill-sorted terms as an exception, which counts as not succeeding."
  },
  {
   "property": "C113",
   "status": "proved",
   "theorems": [
    "Verif.Props.C28_any_edges",
    "Verif.Props.C28_duplicate",
    "Verif.Props.C28_missing"
   ],
   "note": "The exact form of C28 for edges. Groups and constraints are C28; features of equal names and edges to unknown features are rejected (C28_duplicate, C28_missing)."
  },
  {
   "property": "C114",
   "status": "proved",
   "theorems": [
    "Verif.Props.C29_succeeds_iff",
    "Verif.Props.C29_any",
    "Verif.Props.C29_exact",
    "Verif.Props.C29_independent"
   ],
   "note": "The exact form of C29 (for C29_exact every group is directly below a feature)."
  },
  {
   "property": "C115",
   "status": "proved",
   "theorems": [
    "Verif.Props.C115_exactly",
    "Verif.Props.C115_none_lost",
    "Verif.Props.C28_constraints"
   ],
   "note": "The exact form of C56. What a line is read as (readAs) is the text replacement of the code followed by the constraint parser, whose results C36 and C01 are about."
  },
  {
   "property": "C116",
   "status": "proved",
   "theorems": [
    "Verif.Props.C116_none_lost",
    "Verif.Props.C116_unreadable"
   ],
   "note": "For any tree of elements the model of the XML parser accepts; texts are those libxml2 gives. Boolean constraints of the model also come from excluded and implied options, so for these the document's are a sublist."
  },
  {
   "property": "C12",
   "status": "proved",
   "theorems": [
    "Verif.Props.C12_lookup",
    "Verif.Props.C12_iterate",
    "Verif.Props.C12_dump_load",
    "Verif.Props.C12_history_readable",
    "Verif.Props.C12_load_iff"
   ],
   "note": "LLVM's JSON printer and parser are an assumption (JsonText.Faithful, with an instance); the rest is proved for all histories."
  },
  {
   "property": "C13",
   "status": "partial",
   "theorems": [
    "Verif.Props.C13_const_visits_nothing",
    "Verif.Props.C13_const_agrees_partial",
    "Verif.Props.C13_counterexample"
   ],
   "note": "False for the code: begin() const returns end; proved exactly when it holds (empty configurations)."
  },
  {
   "property": "C14",
   "status": "partial",
   "theorems": [
    "Verif.Props.C14_location_eq",
    "Verif.Props.C14_location_order",
    "Verif.Props.C14_location_lt",
    "Verif.Props.C14_range_eq_partial",
    "Verif.Props.C14_revision_range_ignored",
    "Verif.Props.C14_every_revision_range"
   ],
   "note": "Order laws proved; range equality proved for every component except the revision range, which the code ignores (witness). Every range has an equal one with another revision range (C14_every_revision_range)."
  },
  {
   "property": "C15",
   "status": "proved",
   "theorems": [
    "Verif.Props.C15_create",
    "Verif.Props.C15_succeeds_iff",
    "Verif.Props.C15_last_separator",
    "Verif.Props.C15_format_test",
    "Verif.Props.C15_roundtrip",
    "Verif.Props.C15_injective",
    "Verif.Props.C15_nested"
   ],
   "note": "For every string."
  },
  {
   "property": "C16",
   "status": "partial",
   "theorems": [
    "Verif.Props.C16_check_partial",
    "Verif.Props.C16_acyclic_partial",
    "Verif.Props.C16_wellformed_accepted",
    "Verif.Props.C16_cycle_accepted",
    "Verif.Props.C16_every_cycle"
   ],
   "note": "What acceptance gives in every object graph, a tree if parent links are acyclic, and completeness. The unrestricted claim is false: C16_cycle_accepted. From every well-formed model in which a feature other than the root has a descendant a model is made that the check accepts and that is no tree (C16_every_cycle)."
  },
  {
   "property": "C17",
   "status": "partial",
   "theorems": [
    "Verif.Props.C17_transactions_partial",
    "Verif.Props.C17_initial",
    "Verif.Props.C17_cycle",
    "Verif.Props.C17_every_cycle"
   ],
   "note": "Proved for every sequence of meaningful modifications (Spec.Legal). False without: C17_cycle, C21_remove_leaks, C23_wrong_relationship, C24_dangling. In every well-formed model a commit that moves a feature below one of its own descendants succeeds and cuts the subtree off from the root (C17_every_cycle)."
  },
  {
   "property": "C18",
   "status": "partial",
   "theorems": [
    "Verif.Props.C18_abort",
    "Verif.Props.C18_single_partial",
    "Verif.Props.C18_prefix_partial",
    "Verif.Props.C18_not_rolled_back",
    "Verif.Props.C18_constraint_stays",
    "Verif.Props.C99_constraints_left"
   ],
   "note": "Abort is proved in full. A failing commit leaves the effect of the modifications before the failing one; refuted for every well-formed model by C18_not_rolled_back and C18_constraint_stays. Which constraints a failed commit leaves: C99_constraints_left."
  },
  {
   "property": "C19",
   "status": "proved",
   "theorems": [
    "Verif.Props.C19_original_unchanged",
    "Verif.Props.C19_committed"
   ],
   "note": "For every well-formed model and every list of calls (any prefix, so also an aborted transaction). The fields of the original model object itself are not reachable from the copy in the model; the shared part is the heap of nodes."
  },
  {
   "property": "C20",
   "status": "partial",
   "theorems": [
    "Verif.Props.C20_same_partial",
    "Verif.Props.C20_described",
    "Verif.Props.C20_same_edits_partial",
    "Verif.Props.C20_move_ignored",
    "Verif.Props.C20_add_child_ignored",
    "Verif.Props.C20_missing_feature",
    "Verif.Props.C20_goes_on_after_error",
    "Verif.Props.C20_children_never_move",
    "Verif.Props.C20_error_skipped"
   ],
   "note": "Holds for modifications that refer to existing features and succeed, without addChild: the same model node for node, for lists of modifications that succeed one after the other and for all lists of edits that the description of the model allows. For copy transactions with any such edits, also new features below others added in the same transaction, the committed model is characterised by its description (moves have no effect). Refuted without these conditions: a copy transaction ignores addChild, dereferences null for a missing feature, and goes on after an error. In every model addChild is ignored (C20_children_never_move) and a failed call is skipped where a modify transaction returns the error (C20_error_skipped)."
  },
  {
   "property": "C21",
   "status": "partial",
   "theorems": [
    "Verif.Props.C21_add",
    "Verif.Props.C21_add_taken",
    "Verif.Props.C21_remove_recursive_partial",
    "Verif.Props.C21_remove_leaf_partial",
    "Verif.Props.C21_remove_missing",
    "Verif.Props.C21_remove_nonleaf",
    "Verif.Props.C21_remove_root",
    "Verif.Props.C21_remove_leaks"
   ],
   "note": "Removal: excludes the root (undefined behaviour, C21_remove_root), relationships directly below relationships and leaves with several empty relationships (false, C21_remove_leaks)."
  },
  {
   "property": "C22",
   "status": "partial",
   "theorems": [
    "Verif.Props.C22_move_partial",
    "Verif.Props.C22_self_rejected",
    "Verif.Props.C22_missing_rejected",
    "Verif.Props.C22_descendant_accepted"
   ],
   "note": "Rejection below a proper descendant is false in every well-formed model: C22_descendant_accepted."
  },
  {
   "property": "C23",
   "status": "partial",
   "theorems": [
    "Verif.Props.C23_add_partial",
    "Verif.Props.C23_remove_partial",
    "Verif.Props.C23_round_trip_partial",
    "Verif.Props.C23_wrong_relationship",
    "Verif.Props.C23_second_group"
   ],
   "note": "Needs that the relationships concerned are the feature's own; false otherwise (C23_wrong_relationship, C23_second_group)."
  },
  {
   "property": "C24",
   "status": "partial",
   "theorems": [
    "Verif.Props.C24_unmentioned_partial",
    "Verif.Props.C24_dangling",
    "Verif.Props.C24_dangling_clone",
    "Verif.Props.C24_dangling_write",
    "Verif.Props.C24_dangling_solver",
    "Verif.Props.C24_dangling_all"
   ],
   "note": "False whenever a mentioned feature is removed (C24_dangling). What this does to the rest of the library is proved for every model: cloning, writing (unless the constraint is written as a list of options) and setting up a solver are then undefined."
  },
  {
   "property": "C25",
   "status": "proved",
   "theorems": [
    "Verif.Props.C25_preorder",
    "Verif.Props.C25_unique",
    "Verif.Props.C25_independent",
    "Verif.Props.C25_depends_on_layout",
    "Verif.Props.C25_layout",
    "Verif.Props.C25_independent_iff"
   ],
   "note": "For every well-formed model and every order of pointer sets. C25_depends_on_layout shows that the condition on sibling names is needed for independence of memory layout. The order is independent of memory layout exactly if siblings have different names ignoring case (C25_independent_iff); otherwise visiting sets backwards changes it in every layout (C25_layout)."
  },
  {
   "property": "C26",
   "status": "partial",
   "theorems": [
    "Verif.Props.C26_before",
    "Verif.Props.C26_strict",
    "Verif.Props.C26_total_partial",
    "Verif.Props.C26_iteration_partial",
    "Verif.Props.C26_iteration_agrees",
    "Verif.Props.C26_not_weak",
    "Verif.Props.C26_freed",
    "Verif.Props.C26_unordered_iff",
    "Verif.Props.C26_weak_iff",
    "Verif.Props.C26_iteration_iff"
   ],
   "note": "A strict order in every well-formed model; total, weak and equal to iteration order if siblings have different names ignoring case. Refuted otherwise: with siblings A and a incomparability is not transitive (C26_not_weak), so it is no strict weak order. Comparing with a freed feature is undefined (C26_freed). Exactly: two features are unordered iff they are the same or below siblings that are equal ignoring case (C26_unordered_iff); the comparison is a strict weak order iff no such sibling has children (C26_weak_iff); it is the order of iteration iff there are no such siblings (C26_iteration_iff)."
  },
  {
   "property": "C27",
   "status": "partial",
   "theorems": [
    "Verif.Props.C27_sorted_partial",
    "Verif.Props.C27_canonical",
    "Verif.Props.C27_remove",
    "Verif.Props.C27_undefined",
    "Verif.Props.C27_two_models_cycle",
    "Verif.Props.C27_stable",
    "Verif.Props.C27_stale",
    "Verif.Props.C27_freed",
    "Verif.Props.C27_twins",
    "Verif.Props.C27_sorted_iff",
    "Verif.Props.C27_canonical_iff"
   ],
   "note": "For features of one well-formed model whose siblings have different names ignoring case. Without that std::upper_bound is called on a range that is not partitioned, which is undefined (C27_undefined); for features of two models the comparison is cyclic (C27_two_models_cycle). Equal elements are the same pointer, so their order is not observable. The order stays as long as names and parents stay (C27_stable); when the tree changes later the vector is not sorted again and the next insertion may be undefined (C27_stale). A vector must not keep a feature removed from its model: the next insertion is undefined (C27_freed). Exactly: all sequences of calls give the sorted contents iff no feature with a sibling equal ignoring case has children (C27_sorted_iff, C27_twins names the calls that fail otherwise); the order of insertion does not matter iff there are no such siblings (C27_canonical_iff)."
  },
  {
   "property": "C28",
   "status": "partial",
   "theorems": [
    "Verif.Props.C28_builds_partial",
    "Verif.Props.C28_any_order_partial",
    "Verif.Props.C28_duplicate",
    "Verif.Props.C28_missing",
    "Verif.Props.C28_constraint_missing",
    "Verif.Props.C28_cycle_accepted",
    "Verif.Props.C28_order_of_root",
    "Verif.Props.C28_last_edge_wins",
    "Verif.Props.C28_relationship_missing",
    "Verif.Props.C28_relationship_unknown",
    "Verif.Props.C28_any_edges",
    "Verif.Props.C28_taken",
    "Verif.Props.C28_in_order",
    "Verif.Props.C28_names_iff",
    "Verif.Props.C28_constraints"
   ],
   "note": "Proved for every tree of distinctly named features and every order of the calls, without features of root kind made by makeFeature and without a feature called root. Duplicates, missing features and unknown names in constraints give null. Refuted beyond that: a cycle of edges is accepted (C28_cycle_accepted), the result depends on the order of calls when a root is made after an edge or a feature gets two parents, and a relationship on a missing feature dereferences null. In general a call that asks for a relationship below a feature that is not made, anywhere among calls that describe a tree, makes building undefined (C28_relationship_unknown). For edges of any shape between features that were made: they are all accepted, the last edge of a child wins, and the model is a tree exactly if the last edges have no cycle and there is none to the root (C28_any_edges). Names count in the order they are given: a name not free then makes null of all (C28_taken), and else the model described is built (C28_in_order); without edges, groups and constraints that is exact (C28_names_iff). Whatever the calls are, what is built has exactly the constraints given, in order (C28_constraints)."
  },
  {
   "property": "C29",
   "status": "partial",
   "theorems": [
    "Verif.Props.C29_clone_partial",
    "Verif.Props.C29_described",
    "Verif.Props.C29_same",
    "Verif.Props.C29_independent",
    "Verif.Props.C29_drops",
    "Verif.Props.C29_unbound_constraint",
    "Verif.Props.C29_root_locations",
    "Verif.Props.C29_feature_called_root",
    "Verif.Props.C29_group_absorbs",
    "Verif.Props.C29_root_attributes",
    "Verif.Props.C29_any",
    "Verif.Props.C29_exact",
    "Verif.Props.C29_succeeds_iff"
   ],
   "note": "Proved for every well-formed model whose features have at most one group over all their children, whose root has no attributes and whose constraints mention known features; up to the output string and the step function, which clone drops. Each condition is needed: a witness refutes the claim without it. Whatever is stored at the root besides its name is lost in the clone (C29_root_attributes). For any well-formed model with at most one group directly below each feature (groups may hold some children only or be nested, the root may have attributes): what the clone is (C29_any), and exactly when it is the same (C29_exact). Exactly when there is a clone: C29_succeeds_iff."
  },
  {
   "property": "C30",
   "status": "partial",
   "theorems": [
    "Verif.Props.C30_merge_partial",
    "Verif.Props.C30_null_iff",
    "Verif.Props.C30_inputs_unchanged",
    "Verif.Props.C30_common_parent",
    "Verif.Props.C30_foreign_root_crashes",
    "Verif.Props.C30_parent_differs_in_case",
    "Verif.Props.C30_parent_of_root_ignored",
    "Verif.Props.C30_crashes",
    "Verif.Props.C30_unknown_kind",
    "Verif.Props.C30_revision_lost",
    "Verif.Props.C30_described"
   ],
   "note": "For two valid models on one heap, the first one with a description (C29): if the first model knows the root of the second, the result is null exactly if a feature of the second cannot be merged, and otherwise the union (C30_merge_partial, C30_null_iff); the inputs are unchanged. Refuted as stated: whenever the root of the second model has another name the call never returns a model and crashes if nothing conflicts; parents that differ in case only are confused; without Strict the parent of a feature that is a root elsewhere is ignored; features of unknown kind give null; locations that differ in revision only are lost. For models with descriptions and roots of the same name both outcomes are given by the descriptions alone, and the result has a description again, so that it can be cloned, edited and merged further (C30_described, C97_histories); without a condition if the first model has no groups, otherwise if no new feature comes below a feature with a group."
  },
  {
   "property": "C31",
   "status": "partial",
   "theorems": [
    "Verif.Props.C31_terminates",
    "Verif.Props.C31_leaves_partial",
    "Verif.Props.C31_trees_partial",
    "Verif.Props.C31_twice",
    "Verif.Props.C31_twice_pointer",
    "Verif.Props.C31_grandchild",
    "Verif.Props.C31_unsorted",
    "Verif.Props.C31_root",
    "Verif.Props.C31_pointer_listed_twice",
    "Verif.Props.C31_name_listed_twice",
    "Verif.Props.C31_root_leaf",
    "Verif.Props.C31_nested_listed",
    "Verif.Props.C31_nested_pointer",
    "Verif.Props.C31_chains_partial"
   ],
   "note": "The recursion always ends. Without recursion, for references to distinct non-root features, every element is removed or returned, the returned ones are missing or not leaves, and nothing else changes; with recursion the same for features none of which is below another. The full claim is refuted: duplicates, a feature with a non-direct descendant, an unsorted pointer set handed to std::set_intersection, and the root each break it. In every well-formed model a leaf that is listed twice through its address makes the call undefined (C31_pointer_listed_twice), a leaf that is listed twice by name makes the leaves listed behind it neither removed nor returned (C31_name_listed_twice), and listing a root without children is undefined (C31_root_leaf). In recursive mode, in every well-formed model, a feature listed together with one that is below it but not directly (a grandchild, or a member of its group) ends the transaction at the second, and what is listed behind it is neither removed nor returned (C31_nested_listed); through its address the call is undefined (C31_nested_pointer). With recursion the claim also holds for lists with features below one another, if everything between two listed features is listed too and the children of a listed feature that has a listed child are visited in the order of addresses (C31_chains_partial; C31_nested_listed and C31_unsorted show that both conditions are needed)."
  },
  {
   "property": "C32",
   "status": "proved",
   "theorems": [
    "Verif.Props.C32_written_valid",
    "Verif.Props.C32_not_vacuous"
   ],
   "note": "Whatever the writer model produces conforms to the declarations of the DTD (content models as regular expressions, attributes, text). C32_not_vacuous shows documents that do not conform."
  },
  {
   "property": "C33",
   "status": "partial",
   "theorems": [
    "Verif.Props.C33_roundtrip_partial",
    "Verif.Props.C33_faithful_partial",
    "Verif.Props.C33_stable",
    "Verif.Props.C33_lost",
    "Verif.Props.C33_group_alternative",
    "Verif.Props.C33_group_dissolved",
    "Verif.Props.C33_undefined",
    "Verif.Props.C33_other_root",
    "Verif.Props.C33_unknown_kind",
    "Verif.Props.C33_fails",
    "Verif.Props.C33_not_vacuous",
    "Verif.Props.C33_faithful_not_vacuous"
   ],
   "note": "Proved: every model that can be written is read back as exactly what WrittenAs says; a model without lossy parts is read back as it is (up to order); the second round trip loses nothing. The claim as stated is false: output strings, step functions, member offsets and revisions are always lost, list values are narrowed to int, or-groups become alternatives, groups with one or an optional child dissolve, a root with another name becomes a child, features of no kind make the document unreadable, locations without start or end are undefined. WrittenAs also says how often each implication and exclusion is written."
  },
  {
   "property": "C34",
   "status": "proved",
   "theorems": [
    "Verif.Props.C34_detects",
    "Verif.Props.C34_loads",
    "Verif.Props.C34_example"
   ],
   "note": "For any document that is read without a second parent: the alternative groups after loading are exactly the features with at least two children, none optional, each pair excluding each other in both directions."
  },
  {
   "property": "C35",
   "status": "partial",
   "theorems": [
    "Verif.Props.C35_accepts_partial",
    "Verif.Props.C35_needs_bracket",
    "Verif.Props.C35_documented",
    "Verif.Props.C35_kind",
    "Verif.Props.C35_accepts_more"
   ],
   "note": "Exact set of accepted cardinalities (lines without a closing bracket before the opening one) and the group kind. The claim as stated is false: C35_accepts_more shows [1,-1], leading zeros, a missing bracket and a line without comma accepted."
  },
  {
   "property": "C36",
   "status": "partial",
   "theorems": [
    "Verif.Props.C36_renames_partial",
    "Verif.Props.C36_ends_partial",
    "Verif.Props.C36_loads_partial",
    "Verif.Props.C36_never_ends",
    "Verif.Props.C36_renames_wrongly",
    "Verif.Props.C36_connective_lost",
    "Verif.Props.C36_unnamed_group"
   ],
   "note": "Exact renaming for texts of good words, termination when every identifier has a character its name lacks, whole documents with clauses. The claim as stated is false: a DTD-conforming document that is never finished, wrong renaming of an identifier with another one as suffix, a destroyed connective, identifiers of unnamed groups."
  },
  {
   "property": "C37",
   "status": "partial",
   "theorems": [
    "Verif.Props.C37_reads_back_partial",
    "Verif.Props.C37_jump_rejected",
    "Verif.Props.C37_jump_null",
    "Verif.Props.C37_one_root",
    "Verif.Props.C37_space_cuts_name",
    "Verif.Props.C37_space_rejects",
    "Verif.Props.C37_only_known_letters",
    "Verif.Props.C37_names_cut",
    "Verif.Props.C37_same_name"
   ],
   "note": "All trees over names without spaces, brackets and parentheses and with identifiers the format allows; jumps and unknown kind letters rejected for all texts. Names with spaces are cut (C37_space_cuts_name). In every tree a name is cut at its first space (C37_names_cut). No document whose feature tree has two lines for features with the same name up to the first space makes a model (C37_same_name)."
  },
  {
   "property": "C38",
   "status": "partial",
   "theorems": [
    "Verif.Props.C38_exactly_valid_partial",
    "Verif.Props.C38_xor_accepts_invalid",
    "Verif.Props.C38_unknown_left_out",
    "Verif.Props.C38_cannot_be_loaded",
    "Verif.Props.C38_as_coded",
    "Verif.Props.C38_no_valid_lost",
    "Verif.Props.C38_options",
    "Verif.Props.C38_numeric_parent",
    "Verif.Props.C38_empty_alternative"
   ],
   "note": "For every well-formed model that is Clear (names without NUL, no feature of unknown kind, ranges whose stepping ends, no Boolean feature below a numeric one, groups of Boolean features, alternatives not empty, constraints well-sorted with leaves that point to the features they name) the accepted assignments are exactly the valid configurations of the model with 'not both' in place of each xor (C38_as_coded); without xor these are the valid configurations, and with xor on top none of these is lost. Refuted otherwise: xor accepts neither side, unknown features are dropped silently, numeric parents and empty alternatives crash. Z3 terms and their meaning are modelled; Z3 is an oracle. For all well-formed models: whenever loading succeeds the options are exactly the features neither of unknown kind nor below such a feature (C38_options); a Boolean feature below a numeric one and an empty alternative are never loaded (C38_numeric_parent, C38_empty_alternative)."
  },
  {
   "property": "C39",
   "status": "partial",
   "theorems": [
    "Verif.Props.C39_exactly_one_partial",
    "Verif.Props.C39_asserts_not_both",
    "Verif.Props.C38_xor_accepts_invalid",
    "Verif.Props.C39_as_coded",
    "Verif.Props.C39_negated_xor_requires_both"
   ],
   "note": "The code asserts 'not both' (proved for all operand expressions): right unless both sides are false, wrong whenever they are (second half of C39_exactly_one_partial is the refutation)."
  },
  {
   "property": "C40",
   "status": "partial",
   "theorems": [
    "Verif.Props.C40_every_valid_once_partial",
    "Verif.Props.C40_next_is_new",
    "Verif.Props.C40_as_coded"
   ],
   "note": "Proved for loadable models and every sound and complete oracle that never answers 'unknown' (the code would then use a model that does not exist). With xor the list is exactly that of the configurations valid with 'not both' (C40_as_coded). Includes termination."
  },
  {
   "property": "C41",
   "status": "partial",
   "theorems": [
    "Verif.Props.C41_min_of_n_and_all_partial",
    "Verif.Props.C41_as_coded"
   ],
   "note": "For loadable models and oracles that always answer; for every N. With xor the same for the configurations valid with 'not both'."
  },
  {
   "property": "C42",
   "status": "partial",
   "theorems": [
    "Verif.Props.C42_never_false",
    "Verif.Props.C42_void_model_is_valid",
    "Verif.Props.C42_hasValid_partial",
    "Verif.Props.C42_hasValid_as_coded"
   ],
   "note": "False: isValid is true for every model that can be loaded, because the Result is converted with operator bool; hasValidConfigurations beneath it is exact."
  },
  {
   "property": "C43",
   "status": "partial",
   "theorems": [
    "Verif.Props.C43_requirement_and_polarity_partial",
    "Verif.Props.C43_boolean_operand_crashes"
   ],
   "note": "Proved for every mixed constraint in which features are operands of arithmetic and comparisons, combined by any Boolean operators but xor (Boolean features as 0/1). False for constraints in which a feature alone is an operand of a Boolean operator: Z3 rejects the sorts."
  },
  {
   "property": "C44",
   "status": "partial",
   "theorems": [
    "Verif.Props.C44_orbit_exact",
    "Verif.Props.C44_increasing_terminates",
    "Verif.Props.C44_fixed_point_never_ends",
    "Verif.Props.C44_doubling_from_zero_never_ends",
    "Verif.Props.C44_no_step_function_crashes"
   ],
   "note": "Exactness proved whenever the loop ends, termination for increasing steps, for any floating-point arithmetic. Termination is false otherwise: x*2 from 0 never ends."
  },
  {
   "property": "C45",
   "status": "partial",
   "theorems": [
    "Verif.Props.C45_loading_reports_nothing_partial",
    "Verif.Props.C45_error_changes_nothing",
    "Verif.Props.C45_missing_parent_and_duplicate_reported",
    "Verif.Props.C45_parents_first_at_most_once",
    "Verif.Props.C45_unknown_parent_reported"
   ],
   "note": "All but the first sentence proved for every well-formed model and every order of calls; the first sentence for loadable models. It is false with features of unknown kind: their children's parents are reported missing."
  },
  {
   "property": "C46",
   "status": "partial",
   "theorems": [
    "Verif.Props.C46_read",
    "Verif.Props.C46_number",
    "Verif.Props.C46_leading_zero",
    "Verif.Props.C46_write",
    "Verif.Props.C46_selected",
    "Verif.Props.C46_readable_partial",
    "Verif.Props.C46_ambiguous",
    "Verif.Props.C46_order_partial",
    "Verif.Props.C46_order_fails",
    "Verif.Props.C46_example",
    "Verif.Props.C46_short_row",
    "Verif.Props.C46_quotation_marks",
    "Verif.Props.C46_kept_iff"
   ],
   "note": "Reading and listing are proved for all tables with distinct columns and full rows and all lists of configurations. Partial: strings with quotation marks make the written list ambiguous (C46_ambiguous), the entries are ordered by the text of their number, so that with more than ten configurations the order differs (C46_order_fails), and numeric fields are rewritten by the option conversion (C46_leading_zero). The CSV and YAML libraries are not modelled. For rows of any length, reading fails exactly if a row ends before the column of a feature (C46_short_row). Every list of options is written like the one in which two neighbours are joined with quotation marks and a comma (C46_quotation_marks). A field of a numeric feature is kept exactly if it is neither a number within 64 bits written differently from how numbers are printed nor a truth value with capital letters (C46_kept_iff)."
  },
  {
   "property": "C47",
   "status": "proved",
   "theorems": [
    "Verif.Props.C47_children",
    "Verif.Props.C47_children_depth",
    "Verif.Props.C47_parent_feature",
    "Verif.Props.C47_converse"
   ],
   "note": "For every well-formed model; C47_children and C47_children_depth for every node kind."
  },
  {
   "property": "C48",
   "status": "partial",
   "theorems": [
    "Verif.Props.C48_fits",
    "Verif.Props.C48_saturates_partial",
    "Verif.Props.C48_sign",
    "Verif.Props.C48_monotone_partial",
    "Verif.Props.C48_wide_values_wrap",
    "Verif.Props.C48_wraps"
   ],
   "note": "Proved below 2^32; for 64-bit counters the argument wraps first (witness). Only the value modulo 2^32 matters, for all values (C48_wraps)."
  },
  {
   "property": "C49",
   "status": "partial",
   "theorems": [
    "Verif.Props.C49_repeat_partial",
    "Verif.Props.C49_second_build_loses_features",
    "Verif.Props.C49_build_changes_builder",
    "Verif.Props.C49_second_build",
    "Verif.Props.C49_second_build_differs",
    "Verif.Props.C49_build_regroups",
    "Verif.Props.C49_null_build_regroups",
    "Verif.Props.C49_open_build_regroups",
    "Verif.Props.C49_after_parens"
   ],
   "note": "False for the code (two witnesses); proved for repeated null builds and feature-free constraints. Whatever was called before, the second of two calls in a row returns the constraint again exactly if it mentions no feature (C49_second_build). For any two operators a call in between, also one that returns null, decides the grouping (C49_build_regroups, C49_null_build_regroups, C49_open_build_regroups). After operator() and without features a call changes nothing (C49_after_parens)."
  },
  {
   "property": "C50",
   "status": "proved",
   "theorems": [
    "Verif.Props.C50_once",
    "Verif.Props.C50_destroyed"
   ],
   "note": "For every environment, model and list of calls. Undefined behaviour while the modifications run is excluded by the hypothesis on the outcome of the commit."
  },
  {
   "property": "C51",
   "status": "partial",
   "theorems": [
    "Verif.Props.C51_add",
    "Verif.Props.C51_remove_partial",
    "Verif.Props.C51_remove_missing",
    "Verif.Props.C51_missing_feature"
   ],
   "note": "Proved where the feature exists and, for removal, has an equal location. Removing a location the feature does not have erases the end iterator (C51_remove_missing) and a missing feature is dereferenced (C51_missing_feature), so no error is reported."
  },
  {
   "property": "C52",
   "status": "proved",
   "theorems": [
    "Verif.Props.C52_set_root",
    "Verif.Props.C52_same_name",
    "Verif.Props.C52_taken"
   ],
   "note": "For every well-formed model."
  },
  {
   "property": "C53",
   "status": "partial",
   "theorems": [
    "Verif.Props.C53_values_readable_partial",
    "Verif.Props.C53_negative_is_text"
   ],
   "note": "Proved for Boolean features and for non-negative numbers that fit into 64 bits; false for every negative number, which becomes a text such as '(- 5)'. That Z3 prints negative numerals this way is part of the model of Z3."
  },
  {
   "property": "C54",
   "status": "partial",
   "theorems": [
    "Verif.Props.C54_number_partial",
    "Verif.Props.C54_void_is_error",
    "Verif.Props.C54_as_coded"
   ],
   "note": "Proved for loadable models with a valid configuration, with xor for the configurations valid with 'not both'; for all others an error is returned instead of 0."
  },
  {
   "property": "C55",
   "status": "partial",
   "theorems": [
    "Verif.Props.C55_document_partial",
    "Verif.Props.C55_tree_partial",
    "Verif.Props.C55_constraint_partial",
    "Verif.Props.C55_crashes",
    "Verif.Props.C55_empty_formula",
    "Verif.Props.C55_unnamed_identifier",
    "Verif.Props.C55_blank_formula",
    "Verif.Props.C55_blank_formula_document",
    "Verif.Props.C55_colon_last",
    "Verif.Props.C55_above_root",
    "Verif.Props.C55_tree_crash_document"
   ],
   "note": "Whole documents, from the text of the elements through the builder to the model, with any features, groups, nested roots and constraints: the parser rejects them or builds a model if there is a name attribute, something follows every first colon, all lines are deeper than the first and identifiers used in constraints stand for names. The claim as stated is false: five kinds of crashing documents. For all documents: a formula of blanks crashes the parser (C55_blank_formula, C55_blank_formula_document), a tree line that ends with its colon does (C55_colon_last), a feature line less indented than the root does (C55_above_root)."
  },
  {
   "property": "C56",
   "status": "partial",
   "theorems": [
    "Verif.Props.C56_clauses_partial",
    "Verif.Props.C56_dropped",
    "Verif.Props.C115_none_lost"
   ],
   "note": "Clauses over good words are all kept. The claim as stated is false: an unparsable line is dropped and the model is returned. Exactly: no line is lost if and only if every line that is not blank can be read (C115_none_lost)."
  },
  {
   "property": "C57",
   "status": "partial",
   "theorems": [
    "Verif.Props.C57_loads_partial",
    "Verif.Props.C57_any_layout_partial",
    "Verif.Props.C57_line_text",
    "Verif.Props.C57_negative_position",
    "Verif.Props.C57_bound_digits",
    "Verif.Props.C57_bound_negative",
    "Verif.Props.C57_bound_exponent",
    "Verif.Props.C57_optional_text",
    "Verif.Props.C57_lower_case_true_is_mandatory",
    "Verif.Props.C57_bound_exponent_negative",
    "Verif.Props.C57_any_spelling_partial",
    "Verif.Props.C57_values_text",
    "Verif.Props.C57_values_exponent"
   ],
   "note": "Proved for every document in canonical form and in every layout of it in the sense of C63; layouts cover blanks, numbers in other spellings, other separators in lists of values, and other texts of `optional` than False. Positions beyond their type are covered for a line of a small document; a negative line is read as a huge one, which refutes the full claim. Documents with blanks around the names in `children` are rejected by the code. In every document bounds may be in scientific notation with fractions if their value is an integer up to 2^53, and lists of values without values say nothing (C57_any_spelling_partial). In a list of values a number in scientific notation is read as two numbers (C57_values_exponent)."
  },
  {
   "property": "C58",
   "status": "partial",
   "theorems": [
    "Verif.Props.C58_two_parents",
    "Verif.Props.C58_one_parent",
    "Verif.Props.C58_duplicate",
    "Verif.Props.C58_missing",
    "Verif.Props.C58_unknown_feature",
    "Verif.Props.C58_cycle_accepted",
    "Verif.Props.C58_any_cycle"
   ],
   "note": "Each defect is rejected, except cycles: C58_cycle_accepted proves that options that are each other's parent are accepted. Every document without constraints in which some option is above itself is accepted, and the model is no tree (C58_any_cycle)."
  },
  {
   "property": "C59",
   "status": "partial",
   "theorems": [
    "Verif.Props.C59_load_safe_partial",
    "Verif.Props.C59_safe_partial",
    "Verif.Props.C59_empty_constraint",
    "Verif.Props.C59_large_position",
    "Verif.Props.C59_mixed_without_attributes",
    "Verif.Props.C59_root_below_cycle",
    "Verif.Props.C59_not_vacuous",
    "Verif.Props.C59_load_not_vacuous"
   ],
   "note": "The whole of loading (reading, building, detection of alternative groups) is free of undefined behaviour for every document that conforms to the DTD under four conditions: no empty constraint, mixed constraints have their attributes, positions fit int, and the root is not placed below a cycle. Each is shown necessary by a conforming document whose loading is undefined. The full claim is false for the code."
  },
  {
   "property": "C60",
   "status": "proved",
   "theorems": [
    "Verif.Props.C60_graph",
    "Verif.Props.C60_unambiguous"
   ],
   "note": "DOT::EscapeString is modelled from LLVM's published source. The statements are read by Spec.reading; their rendering as text is modelled as DotItem.text."
  },
  {
   "property": "C61",
   "status": "partial",
   "theorems": [
    "Verif.Props.C61_html",
    "Verif.Props.C61_label_partial",
    "Verif.Props.C61_plain",
    "Verif.Props.C61_broken",
    "Verif.Props.C61_fails"
   ],
   "note": "Exact characterisations. toHTML escapes only the outermost operator, so nested & and < are left raw; EscapeString adds backslashes that HTML-like labels show; names and output strings with < break the label."
  },
  {
   "property": "C62",
   "status": "partial",
   "theorems": [
    "Verif.Props.C62_text_partial",
    "Verif.Props.C62_unambiguous",
    "Verif.Props.C62_members_missing",
    "Verif.Props.C62_fails",
    "Verif.Props.C62_dump"
   ],
   "note": "The children shown are only the direct ones: members of a group are missing although their text names the feature as parent."
  },
  {
   "property": "C63",
   "status": "partial",
   "theorems": [
    "Verif.Props.C63_layout_partial",
    "Verif.Props.C63_not_vacuous",
    "Verif.Props.C63_numbers_not_vacuous",
    "Verif.Props.C63_children_differ",
    "Verif.Props.C63_bounds_partial",
    "Verif.Props.C63_bounds_not_vacuous"
   ],
   "note": "Blanks around the names in `children` are kept by the parser: a conforming document with them is rejected (C63_children_differ). Everything else is proved, and more: blanks inside constraints, numbers in other spellings, other separators in lists of values and other texts of `optional` than False make no difference either. Blanks after an output string are kept and count as part of it. Bounds may also differ in being written in scientific notation (C63_bounds_partial)."
  },
  {
   "property": "C64",
   "status": "partial",
   "theorems": [
    "Verif.Props.C64_one_file",
    "Verif.Props.C64_rejects",
    "Verif.Props.C64_as_coded",
    "Verif.Props.C64_writes_all_partial",
    "Verif.Props.C64_sample_set_partial",
    "Verif.Props.C64_empty_set_keeps_old_output",
    "Verif.Props.C64_missing_sample_set_crashes",
    "Verif.Props.C64_number",
    "Verif.Props.C64_negative",
    "Verif.Props.C64_writes_minus_five"
   ],
   "note": "Composition of loading (C57), solving (C40) and writing (C46); valid configurations are stated on the description of the document, without the tree. The claim is false: negative numbers are written as `(- 5)`, an empty sample set ends with 0 and leaves the old output file, exclusive or is read as not both (C64_as_coded says what is written then). Partial: documents in any layout of the form of `Doc.toXml`, clear descriptions, a solver that always answers; libxml2, the CSV and YAML libraries and failures while writing are parameters or not modelled."
  },
  {
   "property": "C65",
   "status": "partial",
   "theorems": [
    "Verif.Props.C65_effects",
    "Verif.Props.C65_rejects",
    "Verif.Props.C65_dump_partial",
    "Verif.Props.C65_out_partial",
    "Verif.Props.C65_verify_is_ignored",
    "Verif.Props.C65_verify_starts_viewer",
    "Verif.Props.C65_unwritable_is_success",
    "Verif.Props.C65_dump_ignores_out"
   ],
   "note": "The claim is false: --verify makes no difference to any run (C65_verify_is_ignored), so it starts a viewer; an output file that cannot be opened is reported as success; --dump ignores -o. Partial: documents in any layout of the form of `Doc.toXml`; libxml2, temporary names and the search for viewers are parameters."
  },
  {
   "property": "C66",
   "status": "partial",
   "theorems": [
    "Verif.Props.C66_equivalence",
    "Verif.Props.C66_identity_partial",
    "Verif.Props.C66_trichotomy_partial",
    "Verif.Props.C66_equal_to_child"
   ],
   "note": "The claim is false: names of a model are kept apart by case but equality ignores case, so a feature `A` equals its own child `a` and is less than it as well (C66_equal_to_child). Proved if no two names are the same ignoring case."
  },
  {
   "property": "C67",
   "status": "partial",
   "theorems": [
    "Verif.Props.C67_update_partial",
    "Verif.Props.C67_missing",
    "Verif.Props.C67_wrong_revision",
    "Verif.Props.C67_undo"
   ],
   "note": "The claim is false: equality of locations ignores the revision range, so of two locations that differ only there the first is replaced whichever was asked for (C67_wrong_revision). Proved: the first location that is like the old one up to its revisions is replaced."
  },
  {
   "property": "C68",
   "status": "partial",
   "theorems": [
    "Verif.Props.C68_first_build",
    "Verif.Props.C68_once_partial",
    "Verif.Props.C68_failure_stays_partial",
    "Verif.Props.C68_again_undefined",
    "Verif.Props.C68_parent_name"
   ],
   "note": "The claim is false with assertions enabled: after every successful build, building again dereferences the null FM, and further calls fail an assertion (C68_again_undefined). Proved in full without assertions."
  },
  {
   "property": "C69",
   "status": "partial",
   "theorems": [
    "Verif.Props.C69_builds_mandatory",
    "Verif.Props.C69_builds_partial",
    "Verif.Props.C69_optional_lost",
    "Verif.Props.C69_relation"
   ],
   "note": "The claim is false: make_binary_feature drops the optionality, so no program that asks for an optional feature gets its model (C69_optional_lost); without assertions any relation but OR is an alternative. pybind11's conversions are trusted; the other bound classes are not modelled."
  },
  {
   "property": "C70",
   "status": "partial",
   "theorems": [
    "Verif.Props.C70_adds",
    "Verif.Props.C70_stops_silently"
   ],
   "note": "The first half is proved for every list with new, distinct names whose parents are known or among the new features before. The second half is false: the features before the failing one stay, those after it are not added, and the result of the commit is dropped (C70_stops_silently)."
  },
  {
   "property": "C71",
   "status": "partial",
   "theorems": [
    "Verif.Props.C71_lists_all_partial",
    "Verif.Props.C71_negation_crashes"
   ],
   "note": "Composition of loading (C36, C37) with solving (C40); what a document permits is defined on its lines. The claim is false: `~x` becomes the arithmetic negation of x, so for every document with a negated literal setting up the solver fails with an exception of Z3 (C71_negation_crashes). Partial: documents without negated literals, whose members are below groups, in the class of C36, and a solver that always answers."
  },
  {
   "property": "C72",
   "status": "partial",
   "theorems": [
    "Verif.Props.C72_kept_partial",
    "Verif.Props.C72_members_exclude",
    "Verif.Props.C72_or_lost",
    "Verif.Props.C72_range_crashes",
    "Verif.Props.C72_fails"
   ],
   "note": "Composition of C33 and C40. The claim is false: members of an or-group exclude each other after reading, so every valid configuration with two of them is lost; a model with a range cannot be given to the solver any more, as the step function is not written; groups with optional members and siblings that exclude each other gain configurations (C72_fails). Partial: writable models whose groups are alternatives of mandatory members (or have one member) and whose numbers are lists of int values."
  },
  {
   "property": "C73",
   "status": "partial",
   "theorems": [
    "Verif.Props.C73_kept_partial",
    "Verif.Props.C73_range_crashes",
    "Verif.Props.C73_fails",
    "Verif.Props.C73_loses"
   ],
   "note": "Composition of C29 and C40. The claim is false: the clone of a numeric feature has no step function, so the solver crashes for the clone of every model with a range that has values (C73_range_crashes), and a child beside a group joins it in the clone (C73_fails). Partial: described models without such ranges and without a feature called root below another root. C73_loses: in every model with a mandatory option beside an alternative group below one feature, no valid configuration selecting that feature is valid for the clone; below the root, none at all."
  },
  {
   "property": "C74",
   "status": "partial",
   "theorems": [
    "Verif.Props.C74_calls",
    "Verif.Props.C74_file_partial",
    "Verif.Props.C74_text_partial",
    "Verif.Props.C74_python_text",
    "Verif.Props.C74_crash_iff",
    "Verif.Props.C74_unopened_unreported",
    "Verif.Props.C74_unopened_looks_written",
    "Verif.Props.C74_dump_unreported",
    "Verif.Props.C74_fails",
    "Verif.Props.C74_python_file"
   ],
   "note": "The writer as a program of calls whose return codes are arbitrary. Once the file is open the claim holds, and the calls made without failure build exactly the tree of Xml.write (refinement of the tree model used elsewhere). The claim is false for a file that cannot be opened: `return false` is the number zero, which is no error; a failing dump gives an empty text instead of nothing."
  },
  {
   "property": "C75",
   "status": "partial",
   "theorems": [
    "Verif.Props.C75_loaded_verifies",
    "Verif.Props.C75_verifies_iff",
    "Verif.Props.C75_described_partial",
    "Verif.Props.C75_any_layout_partial",
    "Verif.Props.C75_safe_partial",
    "Verif.Props.C75_two_parents",
    "Verif.Props.C75_duplicate",
    "Verif.Props.C75_unknown_feature",
    "Verif.Props.C75_sxfm",
    "Verif.Props.C75_fails"
   ],
   "note": "What loads verifies. The converse is false: verifying looks at the DTD only, so documents with two parents for an option, two options of one name or constraints about unknown features verify and do not load, and some that verify crash the loader (C75_fails). It holds for documents that describe a model (conditions of C57), in any layout. SXFM documents neither verify nor load."
  },
  {
   "property": "C76",
   "status": "proved",
   "theorems": [
    "Verif.Props.C76_constraint",
    "Verif.Props.C76_missing_restricts",
    "Verif.Props.C76_all_configs"
   ],
   "note": "For the specification of valid configurations (independent of the solver), and through C40 for what getAllConfigs returns. If the constraint names a missing feature the modification reports an error although the constraint has been added and restricts the configurations (C76_missing_restricts, cf. C09)."
  },
  {
   "property": "C77",
   "status": "proved",
   "theorems": [
    "Verif.Props.C77_add",
    "Verif.Props.C77_optional",
    "Verif.Props.C77_mandatory"
   ],
   "note": "For the specification of valid configurations. A numeric feature whose name a constraint already uses as that of a missing feature is excluded: the constraint then changes its meaning."
  },
  {
   "property": "C78",
   "status": "partial",
   "theorems": [
    "Verif.Props.C78_remove_partial",
    "Verif.Props.C78_remove_free_partial"
   ],
   "note": "For recursive removal. Limited by C21 (relationships directly below relationships; the root) and to features that no constraint mentions. The feature must have been selectable, or have been optional or a group member in a model with some valid configuration, as otherwise removing it can make a model without configurations have some."
  },
  {
   "property": "C79",
   "status": "partial",
   "theorems": [
    "Verif.Props.C79_group_partial",
    "Verif.Props.C79_group_optional_partial",
    "Verif.Props.C79_ungroup_partial",
    "Verif.Props.C79_ungroup_optional_partial"
   ],
   "note": "Under the conditions of C23: the nearest features (relationships) below the feature are its own children; the other cases break the tree."
  },
  {
   "property": "C80",
   "status": "partial",
   "theorems": [
    "Verif.Props.C80_metadata",
    "Verif.Props.C80_add_location",
    "Verif.Props.C80_remove_location_partial",
    "Verif.Props.C80_set_root_partial"
   ],
   "note": "Removing a location the feature does not have is undefined behaviour (C51). Replacing the root needs that no constraint mentions the old root: such constraints keep a pointer to a deleted feature (C52)."
  },
  {
   "property": "C81",
   "status": "proved",
   "theorems": [
    "Verif.Props.C81_move",
    "Verif.Props.C81_into_alternative",
    "Verif.Props.C81_between_features"
   ],
   "note": "For every node but the root and every new parent outside its subtree, in and out of groups. Moves below an own descendant are accepted by the code and break the tree (C22_descendant_accepted); the quantifier excludes them."
  },
  {
   "property": "C82",
   "status": "partial",
   "theorems": [
    "Verif.Props.C82_statement",
    "Verif.Props.C82_program_partial",
    "Verif.Props.C82_raises_iff",
    "Verif.Props.C82_silent",
    "Verif.Props.C82_remove_root",
    "Verif.Props.C82_stale"
   ],
   "note": "Refinement of a sheet of names by the object graph, for all programs that do not remove the root, on models whose groups contain features only and with at most one group per feature. The last sentence is false: the helpers drop the result of the commit, so a taken name and a feature with children return as if the call had worked (C82_silent); removing the root is undefined, and so is using the object of a removed feature. That pybind11 raises TypeError for None is trusted."
  },
  {
   "property": "C83",
   "status": "partial",
   "theorems": [
    "Verif.Props.C83_script_partial",
    "Verif.Props.C83_configurations_partial",
    "Verif.Props.C83_document_partial",
    "Verif.Props.C83_saved_configurations_partial",
    "Verif.Props.C83_beside_group"
   ],
   "note": "Refinement: each modification on the object graph corresponds to an edit of the description; induction over transactions and scripts; composed with C57, C33, C72 and C40. Left out: children for features that already have a group, locations of the root, removing features and replacing roots that constraints mention. The first is where the claim fails: a child beside a group makes the saved document lose the group and keep the exclusions, so a model with valid configurations is read back without any (C83_beside_group)."
  },
  {
   "property": "C84",
   "status": "partial",
   "theorems": [
    "Verif.Props.C84_sum_partial",
    "Verif.Props.C84_product_partial",
    "Verif.Props.C84_power_partial",
    "Verif.Props.C84_exponential_partial",
    "Verif.Props.C84_fraction_is_dropped",
    "Verif.Props.C84_small_step_never_ends",
    "Verif.Props.C84_one_and_a_half",
    "Verif.Props.C84_large_range_never_ends",
    "Verif.Props.C84_doubling_overflows",
    "Verif.Props.C84_negative_doubling_overflows"
   ],
   "note": "IEEE 754 binary64 with rounding to nearest is modelled exactly; std::pow is a parameter assumed exact for naturals with results up to 2^53. Proved for integer constants and numbers up to 2^53. False beyond: a fraction up to 1/2 is dropped at each step (x + 1.5 steps by 1, x + 0.5 never ends), x + 1 from 2^53 never ends, x * 2 up to 2^62 or from -1 overflows."
  },
  {
   "property": "C85",
   "status": "partial",
   "theorems": [
    "Verif.Props.C85_move_and_const_copy",
    "Verif.Props.C85_move_possible",
    "Verif.Props.C85_copy_partial",
    "Verif.Props.C85_copied_error_is_success",
    "Verif.Props.C85_validity",
    "Verif.Props.C85_count",
    "Verif.Props.C85_configurations",
    "Verif.Props.C85_modifications",
    "Verif.Props.C85_ok_variable",
    "Verif.Props.C85_handed_on",
    "Verif.Props.C85_error_variable"
   ],
   "note": "The outcome of C++ overload resolution is written down in the model. Proved for moves and copies of constants; copies of variables are faithful exactly if neither type is constructible from bool. False otherwise: the forwarding constructors win, so copying a Result<SolverErrorCode, bool>, uint64_t or vector turns an error into a success and loses the value."
  },
  {
   "property": "C86",
   "status": "partial",
   "theorems": [
    "Verif.Props.C86_text",
    "Verif.Props.C86_read_back_iff",
    "Verif.Props.C86_read_print_read_partial",
    "Verif.Props.C86_large",
    "Verif.Props.C86_second_time",
    "Verif.Props.C86_small_constant_is_lost",
    "Verif.Props.C86_not_a_number"
   ],
   "note": "Exact set of constants that survive: the doubles nearest to a number with two digits after the point, which includes every double from 2^46 on. The claim is false for the others: constants below 0.005 read back as zero; negative, infinite and undefined constants are not readable. Printing is stable from the second time on. The format of formatv is taken from LLVM; the sign of zero is left out."
  },
  {
   "property": "C87",
   "status": "partial",
   "theorems": [
    "Verif.Props.C87_values_partial",
    "Verif.Props.C87_valid_partial",
    "Verif.Props.C87_generator_partial",
    "Verif.Props.C87_four_configurations",
    "Verif.Props.C87_no_configurations"
   ],
   "note": "From the elements of the document to the entries written, with the arithmetic of doubles, for sums and products with an integer and numbers up to 2^53. The claim is false for options without a step function (also those without any values), with steps up to one half and for doubling from -1: reading them gives a model, but asking for its configurations crashes or does not end. Powers are left to C84."
  },
  {
   "property": "C88",
   "status": "partial",
   "theorems": [
    "Verif.Props.C88_calls",
    "Verif.Props.C88_calls_as_coded",
    "Verif.Props.C88_iterators",
    "Verif.Props.C88_iterators_as_coded",
    "Verif.Props.C88_second_loop",
    "Verif.Props.C88_second_loop_as_coded",
    "Verif.Props.C88_distance_is_one_more",
    "Verif.Props.C88_distance_as_coded",
    "Verif.Props.C88_current_is_stale",
    "Verif.Props.C88_xor_answers_wrong"
   ],
   "note": "Every sequence of calls refines a small machine that remembers the configurations given and the constraints added; for models and added constraints with exclusive or too, read with 'not both' for every exclusive or, which is what the code asserts (C39); with the exclusive or read as such the answers are wrong (C88_xor_answers_wrong). The parts of the claim about iterators that the code does not satisfy are refuted for every model: the first increment of a fresh iterator finds the first configuration instead of skipping it, so counting increments gives one too many; a second loop over an iterable sees only the last configuration; and the current configuration may violate a constraint added after it was given. Calls of addFeature and addRelationship in between are covered by C94_after_loading."
  },
  {
   "property": "C89",
   "status": "partial",
   "theorems": [
    "Verif.Props.C89_visits",
    "Verif.Props.C89_ends",
    "Verif.Props.C89_all_old",
    "Verif.Props.C89_new",
    "Verif.Props.C89_idle",
    "Verif.Props.C89_add_one",
    "Verif.Props.C89_remove_passed",
    "Verif.Props.C89_never_ends",
    "Verif.Props.C89_add_to_each",
    "Verif.Props.C89_remove_current",
    "Verif.Props.C89_remove_current_recursive",
    "Verif.Props.C89_remove_pending",
    "Verif.Props.C89_remove_sibling",
    "Verif.Props.C89_moving",
    "Verif.Props.C89_moving_ends",
    "Verif.Props.C89_move_one",
    "Verif.Props.C89_move_twice",
    "Verif.Props.C89_move_lost",
    "Verif.Props.C89_any_edit",
    "Verif.Props.C89_any_edit_ends",
    "Verif.Props.C89_move_and_remove",
    "Verif.Props.C89_moved_then_removed"
   ],
   "note": "Proved for all bodies that add features, change other things or remove features already passed (Keeps, with an invariant of the caller), and for all bodies that move and add features but remove none (Roams): defined, ends, and exactly which features are visited. The rest of the claim is false: removing the feature being visited is undefined for every leaf and every subtree of every model, removing one that waits in the iterator is undefined when its turn comes, a loop that gives every visited feature a child never ends, a feature moved below an earlier sibling while that is visited is visited twice, and one moved below a passed feature can be left out. Bodies that add, move and remove at once: whenever the removed features are passed ones that the body never moves, the loop is defined and exactly the root and the children of visited features are visited (C89_any_edit, C89_any_edit_ends; these make no use of addresses being fresh); a feature that was moved so that it waits twice and is removed between its turns makes the loop undefined (C89_moved_then_removed)."
  },
  {
   "property": "C90",
   "status": "partial",
   "theorems": [
    "Verif.Props.C90_denotes_partial",
    "Verif.Props.C90_expected_reply",
    "Verif.Props.C90_assign_loop",
    "Verif.Props.C90_add_invalidates",
    "Verif.Props.C90_add_loop",
    "Verif.Props.C90_after_remove",
    "Verif.Props.C90_remove_shifts",
    "Verif.Props.C90_remove_loop",
    "Verif.Props.C90_remove_loop_one",
    "Verif.Props.C90_remove_backwards",
    "Verif.Props.C90_remove_forwards"
   ],
   "note": "Proved for every sequence of calls that removes no location and adds none beyond the capacity of the vector. The rest of the claim is false: adding to a full vector makes every object and iterator undefined, removing a location moves later ones under the objects of earlier ones, and loops that add or remove are undefined (for all lists with at least one or two locations)."
  },
  {
   "property": "C91",
   "status": "partial",
   "theorems": [
    "Verif.Props.C91_text_partial",
    "Verif.Props.C91_category_not_in_text",
    "Verif.Props.C91_revision_not_in_text",
    "Verif.Props.C91_colon_in_path",
    "Verif.Props.C91_made_with_partial",
    "Verif.Props.C91_negative",
    "Verif.Props.C91_assigned",
    "Verif.Props.C91_colon_ambiguous"
   ],
   "note": "Proved: for paths without colon and without the dash the text determines path, start, end and member offset; numbers that are not negative are shown as given. False for the code: the text leaves out category and revisions, a colon in the path makes it ambiguous, and LineColumnOffset(-1, c) is accepted and shows 4294967295. Every location with a start is written like the whole file whose name ends in that position, though they are not equal (C91_colon_ambiguous)."
  },
  {
   "property": "C92",
   "status": "partial",
   "theorems": [
    "Verif.Props.C92_converse",
    "Verif.Props.C92_children",
    "Verif.Props.C92_down",
    "Verif.Props.C92_up",
    "Verif.Props.C92_parent_partial",
    "Verif.Props.C92_grouped_parent",
    "Verif.Props.C92_order_differs",
    "Verif.Props.C92_freed"
   ],
   "note": "Everything proved except that parent() is the parent feature, as documented: it is exactly for features outside of groups; in a group it is the group, and is_parent and is_child deny the relation with the parent feature. The order of the recursion is that of insertion, not that of iterating."
  },
  {
   "property": "C93",
   "status": "proved",
   "theorems": [
    "Verif.Props.C93_visits",
    "Verif.Props.C93_order_unique",
    "Verif.Props.C93_result",
    "Verif.Props.C93_default",
    "Verif.Props.C93_collect",
    "Verif.Props.C93_add_constraint"
   ],
   "note": "Visitors are records of overrides over any state; overrides of inner nodes act and then call the default. The visitor that adds constraints is shown to do what the model of adding constraints does."
  },
  {
   "property": "C94",
   "status": "partial",
   "theorems": [
    "Verif.Props.C94_calls",
    "Verif.Props.C94_valid",
    "Verif.Props.C94_enumerates",
    "Verif.Props.C94_unknown_features_accepted",
    "Verif.Props.C94_current_shows_forbidden_value",
    "Verif.Props.C94_late_option_unsat",
    "Verif.Props.C94_parent_as_number",
    "Verif.Props.C94_whole_model",
    "Verif.Props.C94_after_loading",
    "Verif.Props.C94_extends_model",
    "Verif.Props.C94_default_solver",
    "Verif.Props.C94_default_root"
   ],
   "note": "Every sequence of calls refines a machine that remembers the options, what has to hold and the configurations given (exclusive or read as 'not both', C39). Not satisfied by the code: a constraint or group about features that have not been added is accepted, although Solver.h promises an error; the current configuration shows values for options added since that these need not allow; configurations given before an option was added exclude all their extensions; a Boolean feature below a parent that was added as a number is an exception of Z3. A whole model added by hand in any order gives what the factory's solver gives, and a solver filled by the factory answers all further calls by the same machine. The solver made without a model is not empty: it has a true option root, shown in every configuration, and refuses features of that name (C94_default_root)."
  },
  {
   "property": "C95",
   "status": "partial",
   "theorems": [
    "Verif.Props.C95_iterating_partial",
    "Verif.Props.C95_model_held_partial",
    "Verif.Props.C95_alive",
    "Verif.Props.C95_freed_stays",
    "Verif.Props.C95_gives",
    "Verif.Props.C95_not_kept",
    "Verif.Props.C95_same_object",
    "Verif.Props.C95_one_object",
    "Verif.Props.C95_again"
   ],
   "note": "Proved for all programs that get their objects by iterating over models and nodes, and for all programs that keep their models in variables. The claim is false for the code: in every state, what get_root, get_feature, parent, locations and the lists of constraints return does not keep the model, so it is unusable once the model is gone; and an object got by iterating is such an object too if there was one for the same feature. pybind11's rules for policies, keep_alive and registered instances are trusted; removal of single features is C82, of locations C90. In every state a program can get to a part of a model has at most one object alive (C95_one_object), and asking again for a part in hand changes nothing (C95_again): what an iterator gives keeps the model alive only if it was not in hand before."
  },
  {
   "property": "C96",
   "status": "partial",
   "theorems": [
    "Verif.Props.C96_serial",
    "Verif.Props.C96_move_partial",
    "Verif.Props.C96_moved_still_open",
    "Verif.Props.C96_assign_loses",
    "Verif.Props.C96_moved_outlives",
    "Verif.Props.C96_removed_by_other",
    "Verif.Props.C96_model_gone",
    "Verif.Props.C96_recording_after_end"
   ],
   "note": "Interleavings: proved in full, in both directions (defined exactly if the executions are). Moves: proved for moving to a new variable with the one moved from left alone until it is destroyed, while the model exists. The rest of the claim is false for the code: the defaulted move leaves the source open, so it goes on recording and committing and touches the model in its destructor even after the model is gone; assignment discards what the target had recorded. Two transactions that refer by pointer to what one of them removes are undefined. Copy transactions are C98; assigning a transaction to itself is left out."
  },
  {
   "property": "C97",
   "status": "partial",
   "theorems": [
    "Verif.Props.C97_untouched",
    "Verif.Props.C97_histories",
    "Verif.Props.C97_continued",
    "Verif.Props.C97_foreign_parent"
   ],
   "note": "Proved: an operation on one model, successful or not, leaves every other model node for node as it was if the pointers it is given are to nodes of its own model (copy transactions: whatever pointers); programs whose operations are allowed by the descriptions of the models run through and each model ends as its own history says. The last sentence of the claim is false for the code: for any two models, a feature of one is accepted as the parent of a new feature of the other, the transaction succeeds, and the first model has a child it does not own, dangling once the other is gone. Programs may merge models at any point (null or a new model, C30_described)."
  },
  {
   "property": "C98",
   "status": "partial",
   "theorems": [
    "Verif.Props.C98_untouched",
    "Verif.Props.C98_histories",
    "Verif.Props.C98_once",
    "Verif.Props.C98_commit",
    "Verif.Props.C98_assign_self",
    "Verif.Props.C98_after_end",
    "Verif.Props.C98_destroy_uncommitted",
    "Verif.Props.C98_assign_loses"
   ],
   "note": "Proved: isolation for every call with any pointers, also failing ones; programs allowed by the descriptions of the models run through with the told answers and results; no copy is given out twice, in any program. False for the code: after the end only additions, setRoot and commit answer an error, the other calls dereference null (C98_after_end, exact for each call); assigning to an open transaction loses its changes without a word in all builds, destroying one does so without assertions and fails an assertion otherwise."
  },
  {
   "property": "C99",
   "status": "partial",
   "theorems": [
    "Verif.Props.C99_undo_partial",
    "Verif.Props.C99_any",
    "Verif.Props.C99_constraints_stay",
    "Verif.Props.C99_constraint_for_good",
    "Verif.Props.C99_constraints_added",
    "Verif.Props.C99_constraints_left"
   ],
   "note": "Proved: every history of meaningful modifications (C83's conditions) without added constraints can be undone exactly, and every describable model can be reached from every model without constraints. False for the code: there is no modification that removes a constraint, so added constraints stay, in order, whatever any transactions do, successful or not (C99_constraints_stay, C99_constraint_for_good). A committed transaction adds exactly its constraints, in order (C99_constraints_added); one that fails leaves those of its first modifications (C99_constraints_left)."
  }
 ]
}