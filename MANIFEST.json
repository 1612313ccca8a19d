{
 "claims": [
  {
   "property": "C01",
   "status": "proved",
   "theorems": [
    "Verif.Match.C01_operators_keep_meaning",
    "Verif.Match.C01_operators_keep_meaning_custom",
    "Verif.Match.C01_simplify_keeps_meaning"
   ],
   "note": "Predicates, and any truthful custom matcher."
  },
  {
   "property": "C02",
   "status": "partial",
   "theorems": [
    "Verif.Match.C02_violated_and",
    "Verif.Match.C02_violated_or",
    "Verif.Match.C02_mixed_partial",
    "Verif.Match.C02_holds_when_repaired",
    "Verif.Match.C02_unaffected_partial",
    "Verif.Match.C02_one_constant_partial",
    "Verif.Match.C02_positive_partial",
    "Verif.Match.C02_in_exact",
    "Verif.Match.C02_not_in_exact"
   ],
   "note": "The full statement is false of the code: two != terms with different constants on one field are taken to imply each other. Proved when each field has one ==/!= constant or is used without != and negated ==, whenever the wrong answer has no influence on the result, for every expression once that one answer is corrected, and for msg::in and its negation."
  },
  {
   "property": "C03",
   "status": "proved",
   "theorems": [
    "Verif.Match.C03_sum_of_products_keeps_meaning",
    "Verif.Match.C03_sum_of_products_relational",
    "Verif.Match.C03_sum_of_products_terminates"
   ],
   "note": ""
  },
  {
   "property": "C04",
   "status": "proved",
   "theorems": [
    "Verif.Match.C04_sum_of_products_normal_form",
    "Verif.Match.C04_sum_of_products_normal_form_raw",
    "Verif.Match.C04_raw_double_not_is_kept"
   ],
   "note": "Operator-built matchers; a hand-written not_t<not_t<...>> type is the counterexample outside the claim."
  },
  {
   "property": "C05",
   "status": "partial",
   "theorems": [
    "Verif.Match.C05_implies_sound_predicates",
    "Verif.Match.C05_violated",
    "Verif.Match.C05_implies_sound_partial",
    "Verif.Match.C05_every_ne_pair_wrong",
    "Verif.Match.C05_exact"
   ],
   "note": "False for != against != with another constant; proved for every other pair and all compounds. C05_exact: exactly which pairs of comparisons are claimed."
  },
  {
   "property": "C06",
   "status": "partial",
   "theorems": [
    "Verif.Match.C06_ordering_is_inclusion",
    "Verif.Match.C06_violated",
    "Verif.Match.C06_mixed_partial",
    "Verif.Match.C06_holds_when_repaired",
    "Verif.Match.C06_ordering_is_inclusion_partial"
   ],
   "note": "Inherits the != defect of C05 for field comparisons; proved for predicates and truthful custom matchers."
  },
  {
   "property": "C07",
   "status": "proved",
   "theorems": [
    "Verif.Match.C07_simplify_never_grows",
    "Verif.Match.C07_operators_never_grow"
   ],
   "note": ""
  },
  {
   "property": "C08",
   "status": "proved",
   "theorems": [
    "Verif.Match.C08_documented_laws",
    "Verif.Match.C08_absorption",
    "Verif.Match.C08_de_morgan",
    "Verif.Match.relOps_lawful",
    "Verif.Match.predOps_lawful"
   ],
   "note": ""
  },
  {
   "property": "C55",
   "status": "proved",
   "theorems": [
    "Verif.Match.C55_bounds_simplify"
   ],
   "note": ""
  },
  {
   "property": "C56",
   "status": "proved",
   "theorems": [
    "Verif.Match.C56_ordering_swaps"
   ],
   "note": ""
  },
  {
   "property": "C57",
   "status": "partial",
   "theorems": [
    "Verif.Match.C57_violated",
    "Verif.Match.C57_violated_or",
    "Verif.Match.C57_self_equivalent_partial",
    "Verif.Match.C57_exact"
   ],
   "note": "False for and/or matchers, which compare as unordered with themselves; C57_exact: for exactly these."
  },
  {
   "property": "C58",
   "status": "partial",
   "theorems": [
    "Verif.Match.C58_violated",
    "Verif.Match.C58_violated_signed",
    "Verif.Match.C58_implies_complete_partial",
    "Verif.Match.C58_bounds_unused",
    "Verif.Match.C58_exact"
   ],
   "note": "False for the largest value of 32 and 64-bit unsigned types (the successor wraps) and does not compile for signed ones; proved for all other constants, and for narrower types for all constants. Implications that hold only because the type is bounded are not claimed and not recognised. C58_exact: exactly which pairs are missed."
  },
  {
   "property": "C09",
   "status": "proved",
   "theorems": [
    "Verif.Bits.C09_write_read",
    "Verif.Bits.C09_write_read_fits"
   ],
   "note": ""
  },
  {
   "property": "C10",
   "status": "proved",
   "theorems": [
    "Verif.Bits.C10_write_frame",
    "Verif.Bits.C10_other_field_unchanged"
   ],
   "note": ""
  },
  {
   "property": "C11",
   "status": "proved",
   "theorems": [
    "Verif.Bits.C11_reads_declared_bits",
    "Verif.Bits.C11_reads_number",
    "Verif.Bits.C11_byte_index",
    "Verif.Bits.C11_dword_index"
   ],
   "note": ""
  },
  {
   "property": "C12",
   "status": "partial",
   "theorems": [
    "Verif.Bits.C12_violated",
    "Verif.Bits.C12_violated_everywhere",
    "Verif.Bits.C12_fits_inside_partial",
    "Verif.Bits.C12_exact"
   ],
   "note": "False at the boundary: fits_inside accepts a field whose top bit is the bit just after the storage, and it is then accessed out of bounds. Proved for all other fields that pass the check; C12_exact: these are exactly the fields with such a location."
  },
  {
   "property": "C13",
   "status": "proved",
   "theorems": [
    "Verif.Bits.C13_default_storage_big_enough",
    "Verif.Bits.C13_default_storage_minimal"
   ],
   "note": ""
  },
  {
   "property": "C14",
   "status": "proved",
   "theorems": [
    "Verif.Bits.C14_read_independent_of_width",
    "Verif.Bits.C14_write_independent_of_width",
    "Verif.Bits.C14_write_any"
   ],
   "note": ""
  },
  {
   "property": "C15",
   "status": "partial",
   "theorems": [
    "Verif.Bits.C15_read_int_partial",
    "Verif.Bits.C15_write_int_partial",
    "Verif.Bits.C15_violated_read",
    "Verif.Bits.C15_violated_write",
    "Verif.Bits.C15_violated_write_crossing",
    "Verif.Bits.C15_u64_low_partial",
    "Verif.Bits.C15_u64_write_low_partial",
    "Verif.Bits.C15_u64_read_exact",
    "Verif.Bits.C15_u64_write_exact",
    "Verif.Bits.C15_u64_read_iff",
    "Verif.Bits.C15_u64_write_iff"
   ],
   "note": "Proved for 8, 16 and 32-bit integers; false for 64-bit integers when a location starts at bit 32 or above, or when a narrow field crosses bit 31. C15_u64_read_iff and C15_u64_write_iff say that these are all the wrong cases, the _exact theorems what happens in them."
  },
  {
   "property": "C16",
   "status": "proved",
   "theorems": [
    "Verif.Bits.C16_no_undefined_shift",
    "Verif.Bits.C16_no_undefined_shift_u64"
   ],
   "note": ""
  },
  {
   "property": "C17",
   "status": "proved",
   "theorems": [
    "Verif.Message.C17_construction",
    "Verif.Message.C17_padding_zero"
   ],
   "note": ""
  },
  {
   "property": "C18",
   "status": "proved",
   "theorems": [
    "Verif.Message.C18_history",
    "Verif.Message.C18_set_changes_only_named",
    "Verif.Message.C18_set_defaults",
    "Verif.Message.C18_set_overlapping"
   ],
   "note": ""
  },
  {
   "property": "C19",
   "status": "partial",
   "theorems": [
    "Verif.Message.C19_names_unique",
    "Verif.Message.C19_base_kept",
    "Verif.Message.C19_violated",
    "Verif.Message.C19_new_field_present_partial"
   ],
   "note": "False when the new field starts at a higher bit than the base field of the same name: the base field is kept. Proved as an iff for the other cases; uniqueness and keeping base fields proved in full."
  },
  {
   "property": "C20",
   "status": "proved",
   "theorems": [
    "Verif.Message.C20_pack_disjoint",
    "Verif.Message.C20_pack_fields",
    "Verif.Message.C20_pack_reads_slice"
   ],
   "note": ""
  },
  {
   "property": "C21",
   "status": "proved",
   "theorems": [
    "Verif.Message.C21_relaxed"
   ],
   "note": ""
  },
  {
   "property": "C22",
   "status": "proved",
   "theorems": [
    "Verif.Message.C22_equiv_iff",
    "Verif.Message.C22_ignores_padding",
    "Verif.Message.C22_notices_difference",
    "Verif.Message.C22_equivalence",
    "Verif.Message.C22_equiv_overlapping"
   ],
   "note": ""
  },
  {
   "property": "C59",
   "status": "proved",
   "theorems": [
    "Verif.Message.C59_copy",
    "Verif.Message.C59_copy_overlapping"
   ],
   "note": ""
  },
  {
   "property": "C60",
   "status": "partial",
   "theorems": [
    "Verif.Message.C60_violated",
    "Verif.Message.C60_declaration_order_irrelevant_partial",
    "Verif.Message.C60_fields_in_order",
    "Verif.Message.C60_exact"
   ],
   "note": "False for fields that share their lowest bit; proved when lowest bits are distinct, and only then does order never matter (C60_exact)."
  },
  {
   "property": "C61",
   "status": "proved",
   "theorems": [
    "Verif.Message.C61_rename"
   ],
   "note": ""
  },
  {
   "property": "C62",
   "status": "proved",
   "theorems": [
    "Verif.Message.C62_required_value_persists",
    "Verif.Message.C62_nothing_left_unset"
   ],
   "note": ""
  },
  {
   "property": "C36",
   "status": "proved",
   "theorems": [
    "Verif.Seq.C36_prefix"
   ],
   "note": ""
  },
  {
   "property": "C37",
   "status": "proved",
   "theorems": [
    "Verif.Seq.C37_finish_before_reversing"
   ],
   "note": ""
  },
  {
   "property": "C38",
   "status": "proved",
   "theorems": [
    "Verif.Seq.C38_done_all_the_way"
   ],
   "note": ""
  },
  {
   "property": "C39",
   "status": "proved",
   "theorems": [
    "Verif.Seq.C39_in_bounds"
   ],
   "note": ""
  },
  {
   "property": "C63",
   "status": "proved",
   "theorems": [
    "Verif.Seq.C63_direction"
   ],
   "note": ""
  },
  {
   "property": "C64",
   "status": "proved",
   "theorems": [
    "Verif.Seq.C64_progress"
   ],
   "note": ""
  },
  {
   "property": "C40",
   "status": "proved",
   "theorems": [
    "Verif.Interrupt.C40_only",
    "Verif.Interrupt.C40_all",
    "Verif.Interrupt.C40_none",
    "Verif.Interrupt.C40_manager"
   ],
   "note": "names and status fields unique in the tree, status fields are no enable fields, flows do not change the fields (Tidy)"
  },
  {
   "property": "C41",
   "status": "proved",
   "theorems": [
    "Verif.Interrupt.C41_only",
    "Verif.Interrupt.C41_first",
    "Verif.Interrupt.C41_last",
    "Verif.Interrupt.C41_once",
    "Verif.Interrupt.C41_none"
   ],
   "note": "same hypotheses as C40"
  },
  {
   "property": "C42",
   "status": "proved",
   "theorems": [
    "Verif.Interrupt.C42_only_owned",
    "Verif.Interrupt.C42_histories"
   ],
   "note": "from a state in which hardware and remembered values agree (C44)"
  },
  {
   "property": "C43",
   "status": "partial",
   "theorems": [
    "Verif.Interrupt.C43_histories_partial",
    "Verif.Interrupt.C43_init_histories_partial",
    "Verif.Interrupt.C43_leaves",
    "Verif.Interrupt.C43_refreshAll",
    "Verif.Interrupt.C43_reset",
    "Verif.Interrupt.C43_init_partial",
    "Verif.Interrupt.C43_enables",
    "Verif.Interrupt.C43_enables_names",
    "Verif.Interrupt.C43_init_enables",
    "Verif.Interrupt.C43_violated_depth",
    "Verif.Interrupt.C43_violated_name",
    "Verif.Interrupt.C43_violated_name_type",
    "Verif.Interrupt.C43_init_exact"
   ],
   "note": "false in general: propagation reaches one level for resources, by-name operations do not update the interrupts above, a name given as a type updates nothing; proved for safe histories and for all histories on interrupts without sub-interrupts; C43_init_exact: exactly when the bits match after initialisation from any state"
  },
  {
   "property": "C44",
   "status": "partial",
   "theorems": [
    "Verif.Interrupt.C44_histories",
    "Verif.Interrupt.C44_forced",
    "Verif.Interrupt.C44_init_partial",
    "Verif.Interrupt.C44_init_histories_partial",
    "Verif.Interrupt.C44_violated_reinit",
    "Verif.Interrupt.C44_init_exact"
   ],
   "note": "a second initialisation to an all-zero register value is not written; C44_init_exact: exactly when hardware and memory agree after initialisation from any state"
  },
  {
   "property": "C65",
   "status": "partial",
   "theorems": [
    "Verif.Interrupt.C65_manager_init_partial",
    "Verif.Interrupt.C65_violated",
    "Verif.Interrupt.C65_exact"
   ],
   "note": "false with an inactive top-level interrupt that shares a register; proved if all top-level interrupts are active; C65_exact: exactly which bits are set, and when hardware and memory agree, whatever is active"
  },
  {
   "property": "C23",
   "status": "proved",
   "theorems": [
    "Verif.Handler.C23_exactly_the_matching",
    "Verif.Handler.C23_once_each",
    "Verif.Handler.C23_is_match"
   ],
   "note": "for every order of evaluation of the operands; order of the calls is C66"
  },
  {
   "property": "C24",
   "status": "partial",
   "theorems": [
    "Verif.Handler.C24_conjunction_mixed_partial",
    "Verif.Handler.C24_plain_mixed_partial",
    "Verif.Handler.C24_conditional_mixed_partial",
    "Verif.Handler.C24_conjunction_one_constant_partial",
    "Verif.Handler.C24_conjunction_positive_partial",
    "Verif.Handler.C24_plain_positive_partial",
    "Verif.Handler.C24_conditional_one_constant_partial",
    "Verif.Handler.C24_conditional_positive_partial",
    "Verif.Handler.C24_violated"
   ],
   "note": "false through the unsound simplification of two != tests (C02); proved when each field has one ==/!= constant or is used without != and negated =="
  },
  {
   "property": "C25",
   "status": "partial",
   "theorems": [
    "Verif.Handler.C25_returns_called",
    "Verif.Handler.C25_exact_mixed_partial",
    "Verif.Handler.C25_exact_one_constant_partial",
    "Verif.Handler.C25_exact_positive_partial",
    "Verif.Handler.C25_violated_same_exclusion",
    "Verif.Handler.C25_violated_single_callback",
    "Verif.Handler.C25_violated_negated_predicate",
    "Verif.Handler.C25_violated_not_in"
   ],
   "note": "false when two conjunctions exclude the same value of an index field, for negated predicates, and through C02; proved as an iff outside these cases"
  },
  {
   "property": "C26",
   "status": "partial",
   "theorems": [
    "Verif.Handler.C26_no_conjunction_missed",
    "Verif.Handler.C26_callback_mixed_partial",
    "Verif.Handler.C26_callback_one_constant_partial",
    "Verif.Handler.C26_callback_positive_partial",
    "Verif.Handler.C26_violated",
    "Verif.Handler.C26_violated_no_index"
   ],
   "note": "proved in full for the registered conjunctions; for callbacks it is false through C02 and without index fields"
  },
  {
   "property": "C66",
   "status": "partial",
   "theorems": [
    "Verif.Handler.C66_registration_order_partial",
    "Verif.Handler.C66_violated",
    "Verif.Handler.C66_exact"
   ],
   "note": "C66_exact: the order is certain exactly when all called callbacks have the same name; true for left to right evaluation; the language allows other orders"
  },
  {
   "property": "C67",
   "status": "partial",
   "theorems": [
    "Verif.Handler.C67_once_mixed_partial",
    "Verif.Handler.C67_once_one_constant_partial",
    "Verif.Handler.C67_once_positive_partial",
    "Verif.Handler.C67_count_one_constant_partial",
    "Verif.Handler.C67_count_positive_partial",
    "Verif.Handler.C67_count_mixed_partial",
    "Verif.Handler.C67_violated"
   ],
   "note": "false when two alternatives of one callback accept the same message; proved otherwise (with the conditions of C25). The count theorems say exactly how often a callback is called: once per accepting alternative"
  },
  {
   "property": "C68",
   "status": "partial",
   "theorems": [
    "Verif.Handler.C68_is_match_complete_partial",
    "Verif.Handler.C68_index_tests_partial",
    "Verif.Handler.C68_agrees_one_constant_partial",
    "Verif.Handler.C68_agrees_mixed_partial",
    "Verif.Handler.C68_violated"
   ],
   "note": "only one direction holds in general; is_match looks at the == and != tests of index fields only (exact theorem), and agrees with handle when there are no other tests"
  },
  {
   "property": "C27",
   "status": "proved",
   "theorems": [
    "Verif.Lookup.C27_make",
    "Verif.Lookup.C27_pext",
    "Verif.Lookup.C27_linear",
    "Verif.Lookup.C27_made"
   ],
   "note": "for every order in which std::sort leaves entries of one bucket; make succeeds for keys up to 30 bits, otherwise if the mask found has at most 30 bits"
  },
  {
   "property": "C28",
   "status": "proved",
   "theorems": [
    "Verif.Lookup.C28_make",
    "Verif.Lookup.C28_pext"
   ],
   "note": ""
  },
  {
   "property": "C29",
   "status": "proved",
   "theorems": [
    "Verif.Lookup.C29_terminates",
    "Verif.Lookup.C29_first_phase",
    "Verif.Lookup.C29_separates",
    "Verif.Lookup.C29_search_length"
   ],
   "note": "search length means the one of the table; the configured maximum is C69"
  },
  {
   "property": "C69",
   "status": "partial",
   "theorems": [
    "Verif.Lookup.C69_exact",
    "Verif.Lookup.C69_compared_partial",
    "Verif.Lookup.C69_violated_compared",
    "Verif.Lookup.C69_bound_partial",
    "Verif.Lookup.C69_violated"
   ],
   "note": "false by one: runs are counted without their first key; C69_exact says for which entries, C69_compared_partial counts the comparisons"
  },
  {
   "property": "C70",
   "status": "proved",
   "theorems": [
    "Verif.Lookup.C70_no_overflow",
    "Verif.Lookup.C70_bits_exist"
   ],
   "note": ""
  },
  {
   "property": "C71",
   "status": "proved",
   "theorems": [
    "Verif.Lookup.C71_duplicates_rejected",
    "Verif.Lookup.C71_linear_last"
   ],
   "note": "the linear strategy alone accepts duplicates and answers the last"
  },
  {
   "property": "C30",
   "status": "proved",
   "theorems": [
    "Verif.Flow.C30_order",
    "Verif.Flow.C30_run"
   ],
   "note": "for every order in which the containers give back their elements"
  },
  {
   "property": "C31",
   "status": "proved",
   "theorems": [
    "Verif.Flow.C31_once",
    "Verif.Flow.C31_run_subset",
    "Verif.Flow.C31_run_all"
   ],
   "note": "with conditions: exactly those whose predicates hold (C35)"
  },
  {
   "property": "C32",
   "status": "proved",
   "theorems": [
    "Verif.Flow.C32_cycle",
    "Verif.Flow.C32_rejected"
   ],
   "note": "the other errors (mentions, conditions) come first"
  },
  {
   "property": "C33",
   "status": "proved",
   "theorems": [
    "Verif.Flow.C33_accepted",
    "Verif.Flow.C33_missing"
   ],
   "note": ""
  },
  {
   "property": "C34",
   "status": "proved",
   "theorems": [
    "Verif.Flow.C34_meaning",
    "Verif.Flow.C34_no_other_order"
   ],
   "note": ""
  },
  {
   "property": "C35",
   "status": "partial",
   "theorems": [
    "Verif.Flow.C35_conditional_partial",
    "Verif.Flow.C35_exact",
    "Verif.Flow.C35_violated_group",
    "Verif.Flow.C35_violated_seq_group"
   ],
   "note": "false for a starred group, which loses the condition; proved for actions with their own *; C35_exact says for every flow that builds when each action runs"
  },
  {
   "property": "C72",
   "status": "partial",
   "theorems": [
    "Verif.Flow.C72_stronger",
    "Verif.Flow.C72_both_run",
    "Verif.Flow.C72_rejected_partial",
    "Verif.Flow.C72_exact",
    "Verif.Flow.C72_violated_group"
   ],
   "note": "rejection is exact for programs without starred groups; a starred group loses its condition, so a weaker ordering on it is accepted; C72_exact says for every program when it is rejected"
  },
  {
   "property": "C73",
   "status": "partial",
   "theorems": [
    "Verif.Flow.C73_steps_partial",
    "Verif.Flow.C73_refs_partial",
    "Verif.Flow.C73_exact",
    "Verif.Flow.C73_violated_unstarred",
    "Verif.Flow.C73_violated_group",
    "Verif.Flow.C73_violated_mention"
   ],
   "note": "false for unstarred steps, starred groups and second mentions; proved when each step is added once with its own * and else mentioned by _ref; C73_exact: every other sequencer that builds has lost functions"
  },
  {
   "property": "C74",
   "status": "proved",
   "theorems": [
    "Verif.Flow.C74_lists_cycles",
    "Verif.Flow.C74_only_after_cycles"
   ],
   "note": ""
  },
  {
   "property": "C45",
   "status": "partial",
   "theorems": [
    "Verif.Log.C45_argument",
    "Verif.Log.C45_record_partial",
    "Verif.Log.C45_header",
    "Verif.Log.C45_length",
    "Verif.Log.C45_violated_bool",
    "Verif.Log.C45_violated_enum_char",
    "Verif.Log.C45_violated_enum_negative",
    "Verif.Log.C45_violated_id"
   ],
   "note": "A record decodes to the statement exactly when every argument is one the decoder handles; `true`, scoped enumerations over char and negative unscoped enumerators are decoded wrongly, and a message without arguments keeps only 28 bits of its id."
  },
  {
   "property": "C46",
   "status": "partial",
   "theorems": [
    "Verif.Log.C46_stream_partial",
    "Verif.Log.C46_statements_partial",
    "Verif.Log.C46_injective",
    "Verif.Log.C46_violated_version",
    "Verif.Log.C46_exact"
   ],
   "note": "C46_exact: of any mix of statements and version records the statements before the first version are decoded. Proved for every sequence of log statements; a version record in the stream stops the decoder."
  },
  {
   "property": "C47",
   "status": "partial",
   "theorems": [
    "Verif.Log.C47_version_partial",
    "Verif.Log.C47_injective",
    "Verif.Log.C47_violated_length",
    "Verif.Log.C47_exact"
   ],
   "note": "C47_exact: readable exactly when shorter. Proved for texts shorter than 65528 bytes; a longer text overflows the 16-bit length."
  },
  {
   "property": "C48",
   "status": "partial",
   "theorems": [
    "Verif.Catalog.C48_unique_partial",
    "Verif.Catalog.C48_complete",
    "Verif.Catalog.C48_exact",
    "Verif.Catalog.C48_violated_explicit"
   ],
   "note": "C48_exact: the ids are distinct exactly when no two different messages ask for the same one. Proved when the recorded and explicit ids do not already clash; the generator does not look for such clashes."
  },
  {
   "property": "C49",
   "status": "partial",
   "theorems": [
    "Verif.Catalog.C49_exact",
    "Verif.Catalog.C49_kept",
    "Verif.Catalog.C49_not_reused_partial",
    "Verif.Catalog.C49_violated_explicit",
    "Verif.Catalog.C49_violated_hash"
   ],
   "note": "C49_exact says when an id is kept and when it becomes free, for messages whose hashes differ. The statement is false in other cases: an explicit id replaces the recorded one, whose number is then free, and messages whose text is the type of their argument collide under every hash."
  },
  {
   "property": "C50",
   "status": "proved",
   "theorems": [
    "Verif.Catalog.C50_limit",
    "Verif.Catalog.C50_seven_bits",
    "Verif.Catalog.C50_keys"
   ],
   "note": "For recorded and explicit ids that are not negative."
  },
  {
   "property": "C75",
   "status": "partial",
   "theorems": [
    "Verif.Catalog.C75_last_file_partial",
    "Verif.Catalog.C75_violated_two_files"
   ],
   "note": "False: only the last stable catalog counts."
  },
  {
   "property": "C76",
   "status": "partial",
   "theorems": [
    "Verif.Catalog.C76_history_partial",
    "Verif.Catalog.C76_no_explicit",
    "Verif.Catalog.C76_violated_explicit"
   ],
   "note": "Proved for every history without collisions of hashes in which explicit ids are used consistently, in particular without explicit ids."
  },
  {
   "property": "C77",
   "status": "partial",
   "theorems": [
    "Verif.Catalog.C77_exact",
    "Verif.Catalog.C77_ids_partial",
    "Verif.Catalog.C77_order_partial",
    "Verif.Catalog.C77_violated_same_text"
   ],
   "note": "C77_exact says in which order new messages are numbered, for every list of symbols: by text, and by the first symbol when the texts are the same. False for new messages with the same text and different arguments; C77_ids_partial has the other cases in which the lists ask for the same ids."
  },
  {
   "property": "C78",
   "status": "proved",
   "theorems": [
    "Verif.Catalog.C78_exact",
    "Verif.Catalog.C78_new_ids"
   ],
   "note": "For messages whose hashes differ."
  },
  {
   "property": "C79",
   "status": "partial",
   "theorems": [
    "Verif.Catalog.C79_defined_partial",
    "Verif.Catalog.C79_violated_tags",
    "Verif.Catalog.C79_violated_ids",
    "Verif.Catalog.C79_violated_hash",
    "Verif.Catalog.C79_exact"
   ],
   "note": "C79_exact says exactly which symbols get a definition: those whose type is that of the last listed symbol of the same message. False for symbols that differ in tags, named arguments or explicit id only, and for collisions of the key; proved otherwise."
  },
  {
   "property": "C80",
   "status": "proved",
   "theorems": [
    "Verif.Catalog.C80_split"
   ],
   "note": ""
  },
  {
   "property": "C81",
   "status": "partial",
   "theorems": [
    "Verif.Catalog.C81_explicit_partial",
    "Verif.Catalog.C81_violated_mixed",
    "Verif.Catalog.C81_exact"
   ],
   "note": "C81_exact gives the id of every message in every case: of the symbol listed last. False when the same message is also logged without an explicit id or with another one; proved otherwise."
  },
  {
   "property": "C82",
   "status": "proved",
   "theorems": [
    "Verif.Catalog.C82_written"
   ],
   "note": "Old messages for which the build has an explicit id are written with that id."
  },
  {
   "property": "C51",
   "status": "proved",
   "theorems": [
    "Verif.Nexus.C51_once",
    "Verif.Nexus.C51_service"
   ],
   "note": "for every order of the extensions of one service"
  },
  {
   "property": "C52",
   "status": "proved",
   "theorems": [
    "Verif.Nexus.C52_prune",
    "Verif.Nexus.C52_nodes"
   ],
   "note": ""
  },
  {
   "property": "C53",
   "status": "partial",
   "theorems": [
    "Verif.Nexus.C53_once",
    "Verif.Nexus.C53_compiles",
    "Verif.Nexus.C53_arguments_partial",
    "Verif.Nexus.C53_exact",
    "Verif.Nexus.C53_violated_reference"
   ],
   "note": "C53_exact says what each function gets in every case; each function is called once in order; a function that changes an argument taken by reference changes what the later ones get"
  },
  {
   "property": "C54",
   "status": "partial",
   "theorems": [
    "Verif.Nexus.C54_flow",
    "Verif.Nexus.C54_message_mixed_partial",
    "Verif.Nexus.C54_message_one_constant_partial",
    "Verif.Nexus.C54_message_positive_partial",
    "Verif.Nexus.C54_function",
    "Verif.Nexus.C54_violated_message",
    "Verif.Flow.C35_conditional_partial",
    "Verif.Flow.C35_violated_group"
   ],
   "note": "message callbacks: false through the unsound simplification of two != tests (C02), proved otherwise; flows: C54_flow reduces to C35 and C72, which starred groups violate; plain functions under a condition do not compile"
  },
  {
   "property": "C83",
   "status": "partial",
   "theorems": [
    "Verif.Nexus.C83_order_partial",
    "Verif.Nexus.C83_together",
    "Verif.Nexus.C83_exact"
   ],
   "note": "under the assumption that stdx::gather_by keeps the order of the elements of a group; whatever order it leaves, the arguments of one extend stay together from left to right (C83_together), and the order is that of the statement exactly if the grouping does not change it (C83_exact)"
  },
  {
   "property": "C84",
   "status": "partial",
   "theorems": [
    "Verif.Nexus.C84_by_name_partial",
    "Verif.Nexus.C84_first",
    "Verif.Nexus.C84_not",
    "Verif.Nexus.C84_violated_same_name",
    "Verif.Nexus.C84_violated_runtime"
   ],
   "note": "C84_first and C84_not say in every case which service it is; false when two exported services have the same name, and under runtime conditions, where extending by name does not compile; proved otherwise"
  },
  {
   "property": "C85",
   "status": "proved",
   "theorems": [
    "Verif.Nexus.C85_compiles",
    "Verif.Nexus.C85_exported"
   ],
   "note": ""
  },
  {
   "property": "C86",
   "status": "partial",
   "theorems": [
    "Verif.Nexus.C86_service",
    "Verif.Nexus.C86_by_name_partial",
    "Verif.Nexus.C86_other_names",
    "Verif.Nexus.C86_first",
    "Verif.Nexus.C86_violated_same_name"
   ],
   "note": "C86_first: by name the first exported service with that name runs; by type proved; by name false when two exported services have the same name, as two unnamed flows do"
  },
  {
   "property": "C87",
   "status": "partial",
   "theorems": [
    "Verif.Nexus.C87_exact",
    "Verif.Nexus.C87_callable_partial",
    "Verif.Nexus.C87_violated_pointer"
   ],
   "note": "false for function pointers, which are replaced by null pointers; proved for callables without state; C87_exact says what happens in all cases"
  },
  {
   "property": "C88",
   "status": "partial",
   "theorems": [
    "Verif.Receive.C88_raw_partial",
    "Verif.Receive.C88_object_partial",
    "Verif.Receive.C88_raw_exact",
    "Verif.Receive.C88_violated_located_later",
    "Verif.Receive.C88_violated_renamed_later"
   ],
   "note": "raw storage: proved when no option after the condition moves the field; message objects: proved when none renames it; false otherwise; C88_raw_exact: on raw storage every condition is tested where the field was when the condition was given"
  },
  {
   "property": "C89",
   "status": "partial",
   "theorems": [
    "Verif.Receive.C89_exact_partial",
    "Verif.Receive.C89_less_than_admits",
    "Verif.Receive.C89_violated"
   ],
   "note": "proved for every option but with_less_than, which admits equality"
  },
  {
   "property": "C90",
   "status": "partial",
   "theorems": [
    "Verif.Receive.C90_pack_object_partial",
    "Verif.Receive.C90_relaxed_object_partial",
    "Verif.Receive.C90_overlay_raw_partial",
    "Verif.Receive.C90_pack_raw_exact",
    "Verif.Receive.C90_relaxed_raw_exact",
    "Verif.Receive.C90_violated_pack_raw",
    "Verif.Receive.C90_violated_relaxed_raw"
   ],
   "note": "proved for message objects, and for overlays on raw storage; false for raw storage of packs and relaxed messages, where the condition is tested at the former place (for every pack and relaxed message: C90_pack_raw_exact, C90_relaxed_raw_exact)"
  },
  {
   "property": "C91",
   "status": "partial",
   "theorems": [
    "Verif.Receive.C91_raw_partial",
    "Verif.Receive.C91_object_partial",
    "Verif.Receive.C91_violated_object"
   ],
   "note": "raw storage proved; message objects only when the renamed field has no condition, otherwise the callback does not compile"
  },
  {
   "property": "C92",
   "status": "partial",
   "theorems": [
    "Verif.Receive.C92_object_exact",
    "Verif.Receive.C92_raw_exact",
    "Verif.Receive.C92_object_partial",
    "Verif.Receive.C92_raw_partial",
    "Verif.Receive.C92_violated_width",
    "Verif.Receive.C92_violated_negative"
   ],
   "note": "proved exactly: accepted if the required values fit in the fields, else refused; false for values wider than the field and negative values in fields narrower than their type"
  },
  {
   "property": "C93",
   "status": "partial",
   "theorems": [
    "Verif.Receive.C93_object_partial",
    "Verif.Receive.C93_raw_partial",
    "Verif.Receive.C93_compiles",
    "Verif.Receive.C93_violated"
   ],
   "note": "proved when each name either has one ==/!= constant or is used without negated equality (conditions of field types mixed in are C24); false for several != constants (C02)"
  },
  {
   "property": "C94",
   "status": "partial",
   "theorems": [
    "Verif.Receive.C94_plain_raw_partial",
    "Verif.Receive.C94_plain_object_partial",
    "Verif.Receive.C94_indexed_raw_partial",
    "Verif.Receive.C94_indexed_object_partial",
    "Verif.Receive.C94_violated_moved_index"
   ],
   "note": "proved for conditions as in C88, C93 and, for indexed services, C25; false for message objects that have the index field at another place than the index"
  },
  {
   "property": "C95",
   "status": "partial",
   "theorems": [
    "Verif.Receive.C95_name",
    "Verif.Receive.C95_type",
    "Verif.Receive.C95_place",
    "Verif.Receive.C95_no_place",
    "Verif.Receive.C95_default_partial",
    "Verif.Receive.C95_default_exact",
    "Verif.Receive.C95_condition_partial",
    "Verif.Receive.C95_new_type",
    "Verif.Receive.C95_violated_new_type"
   ],
   "note": "false for with_new_type, which drops initial value and condition"
  },
  {
   "property": "C96",
   "status": "partial",
   "theorems": [
    "Verif.Receive.C96_equal_partial",
    "Verif.Receive.C96_in_partial",
    "Verif.Receive.C96_exact",
    "Verif.Receive.C96_violated_later",
    "Verif.Receive.C96_violated_bound"
   ],
   "note": "proved for with_equal_to and with_in after the value was fixed; false when the value is fixed later, and for bounds and predicates"
  },
  {
   "property": "C97",
   "status": "partial",
   "theorems": [
    "Verif.Viz.C97_graphviz_partial",
    "Verif.Viz.C97_violated_space",
    "Verif.Viz.C97_violated_twice"
   ],
   "note": "proved for names that are identifiers; names with spaces give no graph, and an ordering written twice under different conditions gives two arrows"
  },
  {
   "property": "C98",
   "status": "partial",
   "theorems": [
    "Verif.Viz.C98_mermaid_partial",
    "Verif.Viz.C98_violated_id",
    "Verif.Viz.C98_violated_always"
   ],
   "note": "proved for names of letters, digits, spaces and underscores; two names that differ only by space and underscore share a box, and a condition called always is not shown"
  },
  {
   "property": "C99",
   "status": "partial",
   "theorems": [
    "Verif.Viz.C99_graphviz_partial",
    "Verif.Viz.C99_mermaid_partial",
    "Verif.Viz.C99_violated_start",
    "Verif.Viz.C99_violated_cycle"
   ],
   "note": "the equivalence of paths and orderings is proved for all flows without actions called start and end, the paths from start to end for those without cycles; false for actions called start, and for flows with cycles"
  },
  {
   "property": "C100",
   "status": "partial",
   "theorems": [
    "Verif.Viz.C100_mermaid_partial",
    "Verif.Viz.C100_cycle",
    "Verif.Viz.C100_violated_cycle",
    "Verif.Viz.C100_violated_graphviz"
   ],
   "note": "proved for mermaid and flows without cycles that add each action once; no picture when the search meets a cycle; the graphviz text is never a graph, because its name is not an identifier"
  },
  {
   "property": "C101",
   "status": "partial",
   "theorems": [
    "Verif.Front.C101_logger",
    "Verif.Front.C101_binary_partial",
    "Verif.Front.C101_violated_short"
   ],
   "note": "proved up to any logger; in the binary log a message without arguments loses level, module and unit"
  },
  {
   "property": "C102",
   "status": "proved",
   "theorems": [
    "Verif.Front.C102_scope",
    "Verif.Front.C102_nearest",
    "Verif.Front.C102_compiles",
    "Verif.Front.C102_needs",
    "Verif.Front.C102_outside"
   ],
   "note": "declarations in classes are not modelled"
  },
  {
   "property": "C103",
   "status": "partial",
   "theorems": [
    "Verif.Front.C103_text_partial",
    "Verif.Front.C103_binary_partial",
    "Verif.Front.C103_binary_exact",
    "Verif.Front.C103_stateless_exact",
    "Verif.Front.C103_pointer_lost",
    "Verif.Front.C103_records",
    "Verif.Front.C101_logger",
    "Verif.Front.C105_other_flavors",
    "Verif.Front.C103_violated_pointer",
    "Verif.Front.C103_violated_state"
   ],
   "note": "proved for appending text destinations and binary destinations without state; the text logger drops the iterator that formatting returns, so pointers overwrite, and the binary logger calls a copy of its destinations, so their state is lost"
  },
  {
   "property": "C104",
   "status": "partial",
   "theorems": [
    "Verif.Front.C104_read_partial",
    "Verif.Front.C104_breaks_partial",
    "Verif.Front.C104_flow_partial",
    "Verif.Front.C104_violated_every_break",
    "Verif.Front.C104_violated_break",
    "Verif.Front.C104_violated_module"
   ],
   "note": "proved for modules without closing bracket or line break, and texts without line breaks or where no line after a line break has the form of a message; every other line break makes the log ambiguous (C104_violated_every_break)"
  },
  {
   "property": "C105",
   "status": "partial",
   "theorems": [
    "Verif.Front.C105_fatal",
    "Verif.Front.C105_assert",
    "Verif.Front.C105_only",
    "Verif.Front.C105_other_flavors",
    "Verif.Front.C105_assert_exact",
    "Verif.Front.C105_extra_exact",
    "Verif.Front.C105_violated_braces"
   ],
   "note": "false for asserted expressions with braces, which are taken for fields; proved otherwise; C105_assert_exact and C105_extra_exact: exactly what an assertion passes on for every expression whose braces pair up"
  },
  {
   "property": "C106",
   "status": "partial",
   "theorems": [
    "Verif.Front.C106_text",
    "Verif.Front.C106_binary_partial",
    "Verif.Front.C106_logger_partial",
    "Verif.Front.C105_other_flavors",
    "Verif.Front.C106_violated_documented",
    "Verif.Front.C106_violated_module"
   ],
   "note": "a log_version function with the documented parameters is not called, the text of a version has the module default, and version strings of more than 65527 characters do not fit (C47); proved otherwise"
  },
  {
   "property": "C107",
   "status": "proved",
   "theorems": [
    "Verif.Front.C107_calls",
    "Verif.Front.C107_texts",
    "Verif.Front.C107_before",
    "Verif.Front.C107_policy",
    "Verif.Front.C107_order"
   ],
   "note": ""
  },
  {
   "property": "C108",
   "status": "partial",
   "theorems": [
    "Verif.Front.C108_env_partial",
    "Verif.Front.C108_violated_same",
    "Verif.Front.C108_exact"
   ],
   "note": "C108_exact: those equal to the default count as not given; a specialisation equal to the default environment is passed over; proved otherwise"
  },
  {
   "property": "C109",
   "status": "proved",
   "theorems": [
    "Verif.Front.C109_main",
    "Verif.Front.C109_order"
   ],
   "note": ""
  },
  {
   "property": "C110",
   "status": "proved",
   "theorems": [
    "Verif.Explain.C110_meaning",
    "Verif.Explain.C110_fields"
   ],
   "note": "the conditions on names are needed: C110_violated_unnamed shows two predicates on a field, which have the same text, with different answers"
  },
  {
   "property": "C111",
   "status": "partial",
   "theorems": [
    "Verif.Explain.C111_shown_partial",
    "Verif.Explain.C111_total_partial",
    "Verif.Explain.C111_violated_reads_more"
   ],
   "note": "proved for messages that hold all fields of the matcher; describe_match reads every field of the matcher, also where the matcher itself stops early, and so reads past the end of a short message"
  },
  {
   "property": "C112",
   "status": "proved",
   "theorems": [
    "Verif.Explain.C112_called",
    "Verif.Explain.C112_refused",
    "Verif.Explain.C112_same_calls",
    "Verif.Explain.C112_total"
   ],
   "note": ""
  },
  {
   "property": "C113",
   "status": "partial",
   "theorems": [
    "Verif.Explain.C113_called",
    "Verif.Explain.C113_exact_partial",
    "Verif.Explain.C113_refused_partial",
    "Verif.Explain.C113_same_calls",
    "Verif.Explain.C113_violated_count"
   ],
   "note": "the error counts the parts of the alternatives of callbacks, not the callbacks; otherwise proved, exactness under the conditions of C25 (indexable matchers)"
  },
  {
   "property": "C115",
   "status": "partial",
   "theorems": [
    "Verif.Explain.C115_plain_partial",
    "Verif.Explain.C115_indexed_partial",
    "Verif.Explain.C115_violated"
   ],
   "note": "C115_violated: two different sets of called callbacks with the same text, which no reader can tell apart; proved when names and modules have no brackets or line breaks and no callback logs a line of this form itself; C104_violated_break shows the need"
  },
  {
   "property": "C114",
   "status": "proved",
   "theorems": [
    "Verif.Explain.C114_values",
    "Verif.Explain.C114_held"
   ],
   "note": ""
  },
  {
   "property": "C116",
   "status": "proved",
   "theorems": [
    "Verif.Object.C116_memory_of_bits",
    "Verif.Object.C116_defined",
    "Verif.Object.C116_only",
    "Verif.Object.C116_equivalent"
   ],
   "note": "lifetimes are not modelled: variables live to the end of the program"
  },
  {
   "property": "C117",
   "status": "proved",
   "theorems": [
    "Verif.Object.C117_separate",
    "Verif.Object.C117_own_storage"
   ],
   "note": ""
  },
  {
   "property": "C118",
   "status": "proved",
   "theorems": [
    "Verif.Object.C118_view_shows_message",
    "Verif.Object.C118_part_shows_message"
   ],
   "note": ""
  },
  {
   "property": "C119",
   "status": "proved",
   "theorems": [
    "Verif.Object.C119_copy_equal",
    "Verif.Object.C119_copy_with_values"
   ],
   "note": ""
  },
  {
   "property": "C120",
   "status": "proved",
   "theorems": [
    "Verif.Object.C120_destructure"
   ],
   "note": ""
  },
  {
   "property": "C121",
   "status": "proved",
   "theorems": [
    "Verif.Object.C121_const_views",
    "Verif.Object.C121_no_set"
   ],
   "note": "an owning message declared const is modelled as a mutable one only used through constant views"
  },
  {
   "property": "C122",
   "status": "proved",
   "theorems": [
    "Verif.Conc.C122_serial",
    "Verif.Conc.C122_realtime",
    "Verif.Conc.C122_all",
    "Verif.Conc.C122_synced",
    "Verif.Conc.C122_matches",
    "Verif.Conc.C122_only_owned"
   ],
   "note": "critical sections are taken to exclude each other (the conc library is not modelled)"
  },
  {
   "property": "C123",
   "status": "partial",
   "theorems": [
    "Verif.Conc.C123_violated_reset",
    "Verif.Conc.C123_violated_lasting",
    "Verif.Conc.C123_serial_partial"
   ],
   "note": "reset (dynamic_controller.hpp 439-448) is not inside the critical section; with an enable at the same time, an enabled interrupt can stay disabled in the hardware, also after further enables. The partial theorem: true if no other call is in progress during a reset"
  },
  {
   "property": "C124",
   "status": "proved",
   "theorems": [
    "Verif.Conc.C124_reads"
   ],
   "note": ""
  },
  {
   "property": "C125",
   "status": "proved",
   "theorems": [
    "Verif.Conc.C125_no_deadlock",
    "Verif.Conc.C125_finish",
    "Verif.Sink.C125_logging"
   ],
   "note": ""
  },
  {
   "property": "C126",
   "status": "proved",
   "theorems": [
    "Verif.Sink.C126_whole",
    "Verif.Sink.C126_all"
   ],
   "note": ""
  },
  {
   "property": "C127",
   "status": "partial",
   "theorems": [
    "Verif.Sink.C127_violated_orders",
    "Verif.Sink.C127_violated_same_type",
    "Verif.Sink.C127_realtime_partial",
    "Verif.Sink.C127_single_partial",
    "Verif.Sink.C127_same_partial"
   ],
   "note": "each destination has a critical section of its own, so two threads can reach two destinations in different orders. Partial theorems: both have the same messages, those of each thread in the same order; messages whose statements do not overlap, and one logging thread"
  },
  {
   "property": "C128",
   "status": "partial",
   "theorems": [
    "Verif.Sink.C128_violated_mixed",
    "Verif.Sink.C128_whole_partial"
   ],
   "note": "the text logger has no critical section. The partial theorem: true for a destination to which no two threads write at the same time"
  },
  {
   "property": "C129",
   "status": "partial",
   "theorems": [
    "Verif.Sink.C129_violated_copy",
    "Verif.Sink.C129_violated_position",
    "Verif.Sink.C129_binary_partial",
    "Verif.Sink.C129_binary_exact",
    "Verif.Sink.C129_text_partial"
   ],
   "note": "log_msg copies the writer with its destinations for each message (auto writer), and the text logger drops the iterators that format_to returns. Partial theorems: true for destinations and iterators whose effect does not depend on a state of their own"
  },
  {
   "property": "C130",
   "status": "proved",
   "theorems": [
    "Verif.Pending.C130_pending"
   ],
   "note": ""
  },
  {
   "property": "C131",
   "status": "proved",
   "theorems": [
    "Verif.Pending.C131_not_lost"
   ],
   "note": ""
  },
  {
   "property": "C132",
   "status": "partial",
   "theorems": [
    "Verif.Pending.C132_violated",
    "Verif.Pending.C132_violated_shared",
    "Verif.Pending.C132_pending_partial",
    "Verif.Pending.C132_not_cleared_partial",
    "Verif.Pending.C132_exact"
   ],
   "note": "clear_status_last clears the status field after the flows ran, together with a request that arrived in the meantime; at a shared interrupt it leaves the status of the element set while that of the shared interrupt is cleared, so that the element is not looked at again. The partial theorem: requests pending when the run begins; C132_not_cleared_partial: requests not followed by a clear on the way; C132_exact: exactly when the next run serves the element, whatever the policies"
  },
  {
   "property": "C133",
   "status": "proved",
   "theorems": [
    "Verif.Pending.C133_not_more"
   ],
   "note": ""
  },
  {
   "property": "C134",
   "status": "proved",
   "theorems": [
    "Verif.Release.C134_release",
    "Verif.Release.Repo.C134_this_library"
   ],
   "note": "files end with a newline; the preprocessor is specified with conditions of fixed value"
  },
  {
   "property": "C135",
   "status": "partial",
   "theorems": [
    "Verif.Release.C135_violated_twice",
    "Verif.Release.C135_violated_late",
    "Verif.Release.C135_violated_condition",
    "Verif.Release.C135_violated_lost",
    "Verif.Release.C135_text_partial"
   ],
   "note": "a main header without includes is printed twice (slices with None); place 0 of the system headers counts as not set; if the first include is under a condition, all system headers are; a library header included first under a condition is lost for others. The partial theorem: for main headers that include something, and library headers included outside conditions, all text is seen once and in order"
  },
  {
   "property": "C136",
   "status": "partial",
   "theorems": [
    "Verif.Release.C136_violated_guard",
    "Verif.Release.C136_violated_this_library",
    "Verif.Release.C136_once_partial",
    "Verif.Release.C136_every"
   ],
   "note": "the script drops the #pragma once of the main header with all others, so the release has no guard: included twice in a translation unit, everything is defined twice. The partial theorem: programs that include it once. C136_every: with any number of includes, not under conditions, the program sees the library at the first place and the release at each place"
  },
  {
   "property": "C137",
   "status": "partial",
   "theorems": [
    "Verif.Symbols.C137_exact",
    "Verif.Symbols.C137_module_exact",
    "Verif.Symbols.C137_message_partial",
    "Verif.Symbols.C137_module_partial",
    "Verif.Symbols.C137_violated_empty",
    "Verif.Symbols.C137_violated_utf8"
   ],
   "note": "an empty text (also of a tag or the name of an argument) stops the script: int of the empty string; a text with characters beyond ASCII stops it where char is signed, and is read as one character for each byte of its UTF-8 where char is unsigned. C137_exact and C137_module_exact: read right exactly if the texts are not empty and of characters from 0 to 0x10ffff, else the script stops"
  },
  {
   "property": "C138",
   "status": "proved",
   "theorems": [
    "Verif.Symbols.C138_defines",
    "Verif.Symbols.C138_defines_module"
   ],
   "note": ""
  },
  {
   "property": "C139",
   "status": "partial",
   "theorems": [
    "Verif.Render.C139_formats",
    "Verif.Render.C139_number",
    "Verif.Render.C139_order",
    "Verif.Render.C139_shown_partial",
    "Verif.Render.C139_violated_order",
    "Verif.Render.C139_violated_percent",
    "Verif.Render.C139_violated_percent_text",
    "Verif.Render.C139_violated_braces",
    "Verif.Render.C139_violated_long",
    "Verif.Render.C139_violated_negative",
    "Verif.Render.C139_violated_bool"
   ],
   "note": "the loop replaces the first {:...} anywhere before any {}, so with {} before {:...} the conversions are those of other arguments; % is not escaped; doubled braces stay; {:x} becomes %x also for 64 bits and negative numbers; true is shown as 1. C139_formats says for all format strings which conversion a field gets; the partial theorem is for the other cases, with every {} getting the conversion of its own argument, for which all {:...} before all {} is enough (C139_order)"
  },
  {
   "property": "C140",
   "status": "partial",
   "theorems": [
    "Verif.Render.C140_line_partial",
    "Verif.Render.C140_number",
    "Verif.Render.C140_violated_char",
    "Verif.Render.C140_violated_bool",
    "Verif.Render.C140_bool_exact",
    "Verif.Render.C140_char_exact"
   ],
   "note": "a character is shown as the literal of its byte like b'a' (always, C140_char_exact), true as -1 and false as 0 (always, C140_bool_exact). The partial theorem: all integers, and enumerators by the names in the JSON file, with text without an opening parenthesis"
  },
  {
   "property": "C141",
   "status": "partial",
   "theorems": [
    "Verif.Render.C141_first",
    "Verif.Render.C141_names_partial",
    "Verif.Render.C141_ends",
    "Verif.Render.C141_violated_two",
    "Verif.Render.C141_violated_call"
   ],
   "note": "every enumerator in a text gets the name of the first (C141_first, for all texts of this form); text like f(x)2 is rewritten. C141_ends: for all texts"
  },
  {
   "property": "C142",
   "status": "partial",
   "theorems": [
    "Verif.Render.C142_types_partial",
    "Verif.Render.C142_exact",
    "Verif.Render.C142_underlying",
    "Verif.Render.C142_violated_template"
   ],
   "note": "the decoder raises exactly for enumerations with < in the name (one in a class template) and for scoped ones with a comma in the name (C142_exact); the XML file is right for all names (C142_underlying)"
  },
  {
   "property": "C143",
   "status": "partial",
   "theorems": [
    "Verif.Render.C143_exact",
    "Verif.Render.C143_text_partial",
    "Verif.Render.C143_violated_amp",
    "Verif.Render.C143_violated_end"
   ],
   "note": "& is written as &amp; within CDATA, so a reader takes &amp; (every text with &); a text with ]]> makes the file not well-formed"
  },
  {
   "property": "C144",
   "status": "proved",
   "theorems": [
    "Verif.Json.C144_entry",
    "Verif.Json.C144_module",
    "Verif.Json.C144_file",
    "Verif.Json.C144_kind",
    "Verif.Json.C144_older"
   ],
   "note": ""
  },
  {
   "property": "C145",
   "status": "partial",
   "theorems": [
    "Verif.Json.C145_copied_partial",
    "Verif.Json.C145_enumerator_partial",
    "Verif.Json.C145_violated_two",
    "Verif.Json.C145_exact"
   ],
   "note": "of two extra files with the same key only the last counts; so the enumerations of all but the last file that has any are lost. The partial theorems: no later file with the key; C145_exact says what is in the catalog for a key whatever the files are, enumerations apart"
  },
  {
   "property": "C146",
   "status": "partial",
   "theorems": [
    "Verif.Json.C146_listed_partial",
    "Verif.Json.C146_exact",
    "Verif.Json.C146_violated_messages"
   ],
   "note": "an extra file with the key messages or modules replaces those of the program; C146_exact says exactly when they are all there"
  },
  {
   "property": "C147",
   "status": "proved",
   "theorems": [
    "Verif.Json.C147_written",
    "Verif.Json.C147_found",
    "Verif.Json.C147_name"
   ],
   "note": ""
  },
  {
   "property": "C148",
   "status": "partial",
   "theorems": [
    "Verif.Catalog.C148_exact",
    "Verif.Catalog.C148_one_entry_partial",
    "Verif.Catalog.C148_history_partial",
    "Verif.Catalog.C148_violated_tags"
   ],
   "note": "a message whose tags or named arguments change keeps its id and has the old and the new entry. C148_exact: one build without explicit ids keeps one entry for each id exactly if they do not change. The partial theorems: histories in which they do not change, without explicit ids"
  },
  {
   "property": "C149",
   "status": "partial",
   "theorems": [
    "Verif.Json.C149_read",
    "Verif.Json.C149_printed",
    "Verif.Json.C149_refused_partial",
    "Verif.Json.C149_violated_dashes",
    "Verif.Json.C149_violated_exact"
   ],
   "note": "1-2-3 is read as 1 (C149_violated_exact: every piece with two dashes is read as the number before the first). The partial theorem on refusal: a text with a character that does not occur in lists of ranges, and at most one dash between commas"
  },
  {
   "property": "C150",
   "status": "partial",
   "theorems": [
    "Verif.Catalog.C150_exact",
    "Verif.Catalog.C150_listed_partial",
    "Verif.Catalog.C150_forgotten_partial",
    "Verif.Catalog.C150_violated_forget"
   ],
   "note": "the option only leaves the old entries out of the JSON file: recorded ids are still given to messages that have one, and not to others"
  },
  {
   "property": "C151",
   "status": "partial",
   "theorems": [
    "Verif.Json.C151_refers_partial",
    "Verif.Json.C151_exact",
    "Verif.Json.C151_iff",
    "Verif.Xml.C165_enum",
    "Verif.Xml.C165_one_enum",
    "Verif.Json.C151_violated_two"
   ],
   "note": "with two arguments of enumerations only the last is referred to"
  },
  {
   "property": "C152",
   "status": "partial",
   "theorems": [
    "Verif.Json.C152_declared_partial",
    "Verif.Json.C152_unnamed",
    "Verif.Json.C152_violated_member"
   ],
   "note": "an enumeration that is a member of class C is declared in a namespace C, so the file does not compile"
  },
  {
   "property": "C153",
   "status": "partial",
   "theorems": [
    "Verif.Whole.C153_program_partial",
    "Verif.Whole.C153_first_partial",
    "Verif.Whole.C153_violated_braces",
    "Verif.Whole.C153_violated_tags"
   ],
   "note": "messages without arguments are printed with doubled braces; two statements with the same text and argument types but different tags, named arguments or ids do not link. The partial theorems further leave out what C45, C79, C137, C140 to C142 found: texts that are not ASCII or empty or have a (, values that the decoder shows wrong (truth values, negative unscoped enumerators, scoped enumerations over char), enumerators that share a value or have none"
  },
  {
   "property": "C154",
   "status": "partial",
   "theorems": [
    "Verif.Cpp.C154_code_partial",
    "Verif.Cpp.C154_exact",
    "Verif.Cpp.C154_exact_iff",
    "Verif.Cpp.C154_leaks",
    "Verif.Cpp.C154_violated_newline",
    "Verif.Cpp.C154_violated_code"
   ],
   "note": "a text with a line feed ends the comment it is in: LOG of a text that ends in a line feed gives a file that does not compile, and the rest of a text is compiled as code. The partial theorem: texts without line ends; types without slashes. C154_exact: for all texts, what is read besides is what stands before each definition outside the comment with its text (in lines, with the comments that begin with two slashes left out), and nothing exactly if no text leaves something; C154_leaks: texts without line ends leave nothing"
  },
  {
   "property": "C155",
   "status": "partial",
   "theorems": [
    "Verif.Args.C155_kept",
    "Verif.Args.C155_options_partial",
    "Verif.Args.C155_violated_zero",
    "Verif.Args.C155_violated_variable",
    "Verif.Args.C155_violated_semicolon"
   ],
   "note": "values that cmake takes for false are lost (RESERVED_IDS 0, MODULE_ID_MAX 0, CLIENT_NAME N); variables of the caller like INPUT_JSON or STABLE_JSON are given to the script; the part of a value after a ; is lost. C155_kept says exactly which settings the script has when no such variable is set and values have no ; and no - in front (unless the value is only that); further values of an option that has one are ignored"
  },
  {
   "property": "C156",
   "status": "partial",
   "theorems": [
    "Verif.Extract.C156_file_partial",
    "Verif.Extract.C156_flow_partial",
    "Verif.Extract.C156_violated_backslash"
   ],
   "note": "a backslash followed by n or 012 in a name is taken for a line feed. The partial theorems: pictures without backslash; names without ~"
  },
  {
   "property": "C157",
   "status": "partial",
   "theorems": [
    "Verif.Select.C157_linear_search",
    "Verif.Select.C157_same_everywhere",
    "Verif.Select.C157_float_defined",
    "Verif.Select.C157_float_exact",
    "Verif.Select.C157_other",
    "Verif.Select.C157_violated_float",
    "Verif.Select.C157_violated_negative"
   ],
   "note": "true for integral and enumeration types; on ARC keys of type float are compared by their integral part, and the conversion is undefined from 2^32 on and for -1 and below (exactly: C157_float_defined, C157_float_exact); in all other cases keys of any type are compared as they are (C157_other)"
  },
  {
   "property": "C158",
   "status": "proved",
   "theorems": [
    "Verif.Bench.C158_file",
    "Verif.Bench.C158_declares",
    "Verif.Bench.C158_ends",
    "Verif.Bench.C158_chained"
   ],
   "note": "C158_endless: with more keys than the type has values the script does not end"
  },
  {
   "property": "C159",
   "status": "proved",
   "theorems": [
    "Verif.Serve.C159_once",
    "Verif.Serve.C159_order",
    "Verif.Serve.C159_sequence",
    "Verif.Serve.C159_conditions",
    "Verif.Serve.C159_exact",
    "Verif.Serve.C159_only",
    "Verif.Serve.C159_idle",
    "Verif.Serve.C159_state",
    "Verif.Serve.C159_effects",
    "Verif.Serve.C159_number"
   ],
   "note": "composition of the models of interrupts, configurations and flows"
  },
  {
   "property": "C160",
   "status": "proved",
   "theorems": [
    "Verif.Send.C160_starts",
    "Verif.Send.C160_once",
    "Verif.Send.C160_complete",
    "Verif.Send.C160_waits_first",
    "Verif.Send.C160_direct",
    "Verif.Send.C160_service",
    "Verif.Send.C160_performed",
    "Verif.Send.C160_work"
   ],
   "note": "the library async is environment: incite_on waits before it calls, run_triggers takes out all that wait at once"
  },
  {
   "property": "C161",
   "status": "partial",
   "theorems": [
    "Verif.Send.C161_exact",
    "Verif.Send.C161_same_partial",
    "Verif.Send.C161_violated"
   ],
   "note": "with Types the second overload takes the first of them for the type of the send action and is not viable; the first overload takes the send action for the function. True exactly without received values"
  },
  {
   "property": "C162",
   "status": "partial",
   "theorems": [
    "Verif.Call.C162_reads",
    "Verif.Call.C162_asked",
    "Verif.Call.C162_compiles_exact",
    "Verif.Call.C162_compiles_partial",
    "Verif.Call.C162_violated_owning",
    "Verif.Call.C162_bytes"
   ],
   "note": "a function that takes msg::owning<M> does not compile with arrays and spans that are longer than the message. When calls compile is stated exactly, for mutable views too; what is read is proved for all of them. Functions with several overloads are left out"
  },
  {
   "property": "C163",
   "status": "partial",
   "theorems": [
    "Verif.Results.C163_exact",
    "Verif.Results.C163_white_space",
    "Verif.Results.C163_one_run_partial",
    "Verif.Results.C163_violated_thousands",
    "Verif.Results.C163_violated_columns",
    "Verif.Results.C163_violated_second"
   ],
   "note": "times with a thousands separator are left out; a line with further cells before the name (counters) leaves its cell empty; of two runs the size of the first is shown with the times of the second. What the tables show for any file of runs is stated exactly (C163_exact)"
  },
  {
   "property": "C164",
   "status": "partial",
   "theorems": [
    "Verif.Dump.C164_text",
    "Verif.Dump.C164_exact_partial",
    "Verif.Dump.C164_types_partial",
    "Verif.Dump.C164_violated_comma",
    "Verif.Dump.C164_violated_name"
   ],
   "note": "the text is always the declaration with types given by their names. A flow whose name has a comma looks like two flows; names of flows are written without quotes, so a named flow looks like a type of that name. When each type is written as one argument and no name has a quote, texts are equal exactly when the declarations are, up to types that are written in the same way"
  },
  {
   "property": "C165",
   "status": "partial",
   "theorems": [
    "Verif.Xml.C165_message_partial",
    "Verif.Xml.C165_exact",
    "Verif.Xml.C165_module_partial",
    "Verif.Xml.C165_no_module",
    "Verif.Xml.C165_enum",
    "Verif.Xml.C165_one_enum",
    "Verif.Xml.C165_client",
    "Verif.Xml.C165_violated_mask"
   ],
   "note": "the mask of the entries leaves out the upper four bits, so of two ids that differ only there the first is found (C165_violated_mask); what is found is stated exactly (C165_exact). Texts with & or ]]> are read otherwise (C143). Which format string it is, is C139"
  },
  {
   "property": "C166",
   "status": "proved",
   "theorems": [
    "Verif.Receive.C166_compiles",
    "Verif.Receive.C166_raw",
    "Verif.Receive.C166_answer",
    "Verif.Receive.C166_raw_answer"
   ],
   "note": ""
  },
  {
   "property": "C167",
   "status": "partial",
   "theorems": [
    "Verif.Whole.C167_ids",
    "Verif.Whole.C167_logs_partial",
    "Verif.Whole.C167_violated_braces"
   ],
   "note": "C167_ids is the full claim about ids. C167_logs_partial leaves out the statements that C153 leaves out, for which the lines are wrong already within one build (C153_violated_braces, C153_violated_tags; with two builds C167_violated_braces; see also the claims named there)"
  },
  {
   "property": "C168",
   "status": "partial",
   "theorems": [
    "Verif.Control.C168_calls",
    "Verif.Control.C168_off",
    "Verif.Control.C168_obeys",
    "Verif.Control.C168_resource_off",
    "Verif.Control.C168_name_off",
    "Verif.Control.C168_flows_off",
    "Verif.Control.C168_matches_partial",
    "Verif.Control.C168_exact_partial",
    "Verif.Control.C168_status",
    "Verif.Control.C168_cleared_partial",
    "Verif.Control.C168_one_flow",
    "Verif.Control.C168_violated_no_field",
    "Verif.Control.C168_violated_depth"
   ],
   "note": "Violated for interrupts without enable field (C168_violated_no_field: they run although their resource is off) and in trees of three levels (C168_violated_depth: everything is on, nothing runs). The theorems about turning off hold for all interrupts with an enable field, whatever flows do. C168_exact_partial has both directions when the enable bits match what is on, which C168_matches_partial keeps under the operations of C43, and flows call no controller and leave status fields alone"
  },
  {
   "property": "C169",
   "status": "partial",
   "theorems": [
    "Verif.Flow.C169_room",
    "Verif.Flow.C169_steps_partial",
    "Verif.Flow.C169_violated_steps"
   ],
   "note": "Full for flows. Violated for sequencers with steps without *, which lose their functions (C73) and become one node with too many successors"
  },
  {
   "property": "C170",
   "status": "partial",
   "theorems": [
    "Verif.React.C170_handler",
    "Verif.React.C170_in_order",
    "Verif.React.C170_unclaimed",
    "Verif.React.C170_indexed_terms_partial",
    "Verif.React.C170_indexed_partial",
    "Verif.React.C170_violated_alternatives",
    "Verif.React.C170_violated_write"
   ],
   "note": "Full for plain services, in each order of the operands. Indexed services: with the conditions of C25 and callbacks that leave the index fields of the message alone; violated when a callback writes an index field of the message being handled, and for callbacks with alternatives, each of which has a turn of its own"
  },
  {
   "property": "C171",
   "status": "partial",
   "theorems": [
    "Verif.Log.C171_exact",
    "Verif.Log.C171_stops",
    "Verif.Log.C171_complete_partial",
    "Verif.Log.C171_cut_partial",
    "Verif.Log.C171_violated_cut"
   ],
   "note": "Exactly which files are accepted is proved. It is as stated when the last argument of each message fills its place. Violated otherwise: a file that ends inside the last argument is accepted when enough bytes are left, and then an eight-byte long is read as its lower four bytes"
  },
  {
   "property": "C172",
   "status": "partial",
   "theorems": [
    "Verif.Log.C172_little_partial",
    "Verif.Log.C172_big_short_partial",
    "Verif.Log.C172_big_exact",
    "Verif.Log.C172_version_partial",
    "Verif.Log.C172_violated_any"
   ],
   "note": "The bytes are given exactly for both byte orders, also of the version. Violated for statements with arguments on a big-endian host: the header and the id (which goes through to_le twice) are words in host order and the arguments are bytes in little-endian order, so no way of writing words makes both readable"
  },
  {
   "property": "C173",
   "status": "partial",
   "theorems": [
    "Verif.Log.C173_exact",
    "Verif.Log.C173_joined_partial",
    "Verif.Log.C173_violated_cut"
   ],
   "note": "It is proved exactly for which first files this holds: those of complete records; so always when the last argument of each message fills its place. Violated when the first file ends inside its last argument, with enough bytes left to read a value"
  },
  {
   "property": "C174",
   "status": "partial",
   "theorems": [
    "Verif.Whole.C174_stdout_partial",
    "Verif.Whole.C174_violated_output"
   ],
   "note": "Violated with --output: the option is read and not used, the lines are printed and the file is not written"
  },
  {
   "property": "C175",
   "status": "partial",
   "theorems": [
    "Verif.Whole.C175_written_partial",
    "Verif.Whole.C175_read_partial",
    "Verif.Whole.C175_failed_partial",
    "Verif.Whole.C175_json_partial",
    "Verif.Whole.C175_violated_limit",
    "Verif.Whole.C175_violated_cut"
   ],
   "note": "Proved for runs that end well, that fail while reading, or that were asked for JSON only; a failed run never touches the XML file. Violated: the limit for module ids is checked after the C++ file was written, so a run that fails there leaves a new C++ file beside the old JSON file; and a scoped enumeration in an anonymous namespace leaves an empty C++ file"
  },
  {
   "property": "C176",
   "status": "proved",
   "theorems": [
    "Verif.Handler.C176_exact",
    "Verif.Handler.C176_callbacks"
   ],
   "note": "that stdx::cx_map and stdx::bitset keep their elements in arrays of the given size is taken from their documentation"
  },
  {
   "property": "C177",
   "status": "partial",
   "theorems": [
    "Verif.Handler.C177_refused_partial",
    "Verif.Handler.C177_refused_one_partial",
    "Verif.Handler.C177_each",
    "Verif.Handler.C177_two_partial",
    "Verif.Handler.C177_consistent_partial",
    "Verif.Handler.C177_one_value_partial",
    "Verif.Handler.C177_one_required_partial",
    "Verif.Handler.C177_violated_refused",
    "Verif.Handler.C177_violated_missed"
   ],
   "note": "Proved: what is refused has an alternative that no message meets, for the conditions of C24 without negated predicates; two required values of one field are refused exactly if they differ; any conjunction of values without contradiction is accepted; one value against any number of required ones, or the other way round, is refused exactly if it contradicts one. Violated: a != 5 and b == 2 and a == 6 is refused although it can be met; two conjunctions that contradict each other are accepted"
  },
  {
   "property": "C178",
   "status": "partial",
   "theorems": [
    "Verif.Log.C178_exact",
    "Verif.Log.C178_kept_exact",
    "Verif.Log.C178_violated_level"
   ],
   "note": "Kept exactly if the level is less than 8, the module id less than 128 and the unit less than 16. Violated otherwise: unit_t has 32 bits and the field four, so unit 18 is logged as unit 2, and level 9 of an enumeration of the user's own as level 1; nothing is refused"
  },
  {
   "property": "C179",
   "status": "partial",
   "theorems": [
    "Verif.Match.C179_transitive",
    "Verif.Match.C179_predicates",
    "Verif.Match.C179_fields_partial",
    "Verif.Match.C179_violated_largest",
    "Verif.Match.C179_violated_ne"
   ],
   "note": "Proved for predicates and all terms that are transitive themselves. Comparisons of fields are not: X < 3 is less than X <= 5 and that less than X <= 0xffffffff for a field of 32 bits, but the first and the last are unordered; X == 5, X != 7 and X != 5 likewise. The part proved for fields is a <= when the constants are not the largest values of types of 32 bits or more and the matcher in the middle has no !="
  },
  {
   "property": "C180",
   "status": "partial",
   "theorems": [
    "Verif.Match.C180_all",
    "Verif.Match.C180_any",
    "Verif.Match.C180_predicates",
    "Verif.Match.C180_two",
    "Verif.Match.C180_fields_partial",
    "Verif.Match.C180_violated_fields",
    "Verif.Match.C180_violated_negated",
    "Verif.Match.C180_violated_nested"
   ],
   "note": "Proved for lists of predicates and of all single terms that are ordered transitively, for any two comparisons of fields, and for any number of them without != and largest values. Violated for three comparisons with the largest value of a 32-bit type, for negated predicates (not p and not q becomes not (p or q), which is unordered with not p) and for operands that are conjunctions themselves"
  },
  {
   "property": "C181",
   "status": "proved",
   "theorems": [
    "Verif.Lookup.C181_constant",
    "Verif.Lookup.C181_three"
   ],
   "note": "C181_three: three comparisons are needed, although the search length asked for is two (C69)"
  },
  {
   "property": "C182",
   "status": "proved",
   "theorems": [
    "Verif.Handler.C182_tables",
    "Verif.Handler.C182_made"
   ],
   "note": "C182_made is for all types of at most 30 bits; for wider types the table is made if the mask has at most 30 bits (C27_made), which is not proved here of the values of a service; C182_tables holds for types of any width"
  }
 ]
}