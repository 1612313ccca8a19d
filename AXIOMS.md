# Axioms of the theorems in MANIFEST.json

Output of `#print axioms`, grouped. Nothing else is used.

## none (12 theorems)

* `Verif.Catalog.C50_keys`
* `Verif.Handler.C66_violated`
* `Verif.Json.C149_violated_dashes`
* `Verif.Match.C58_violated_signed`
* `Verif.Nexus.C53_arguments_partial`
* `Verif.Nexus.C53_once`
* `Verif.Nexus.C53_violated_reference`
* `Verif.Render.C143_violated_end`
* `Verif.Sink.C127_violated_orders`
* `Verif.Sink.C127_violated_same_type`
* `Verif.Sink.C129_violated_copy`
* `Verif.Sink.C129_violated_position`

## propext (57 theorems)

* `Verif.Args.C155_violated_semicolon`
* `Verif.Args.C155_violated_variable`
* `Verif.Args.C155_violated_zero`
* `Verif.Catalog.C148_violated_tags`
* `Verif.Catalog.C150_violated_forget`
* `Verif.Catalog.C48_violated_explicit`
* `Verif.Catalog.C49_violated_explicit`
* `Verif.Catalog.C75_violated_two_files`
* `Verif.Catalog.C76_violated_explicit`
* `Verif.Catalog.C77_violated_same_text`
* `Verif.Catalog.C79_violated_ids`
* `Verif.Catalog.C79_violated_tags`
* `Verif.Catalog.C81_violated_mixed`
* `Verif.Cpp.C154_violated_code`
* `Verif.Flow.C31_run_subset`
* `Verif.Front.C103_stateless_exact`
* `Verif.Handler.C177_violated_refused`
* `Verif.Handler.C25_returns_called`
* `Verif.Handler.C26_violated_no_index`
* `Verif.Handler.C66_registration_order_partial`
* `Verif.Json.C152_unnamed`
* `Verif.Log.C173_violated_cut`
* `Verif.Match.C04_raw_double_not_is_kept`
* `Verif.Match.C179_violated_largest`
* `Verif.Match.C179_violated_ne`
* `Verif.Match.C180_violated_fields`
* `Verif.Match.C180_violated_negated`
* `Verif.Match.C180_violated_nested`
* `Verif.Match.C56_ordering_swaps`
* `Verif.Match.C57_self_equivalent_partial`
* `Verif.Match.C57_violated`
* `Verif.Match.C57_violated_or`
* `Verif.Match.C58_bounds_unused`
* `Verif.Match.predOps_lawful`
* `Verif.Nexus.C53_compiles`
* `Verif.Nexus.C54_flow`
* `Verif.Nexus.C54_function`
* `Verif.Receive.C166_raw`
* `Verif.Render.C139_violated_bool`
* `Verif.Render.C139_violated_braces`
* `Verif.Render.C139_violated_long`
* `Verif.Render.C139_violated_negative`
* `Verif.Render.C139_violated_order`
* `Verif.Render.C139_violated_percent`
* `Verif.Render.C139_violated_percent_text`
* `Verif.Render.C140_violated_bool`
* `Verif.Render.C140_violated_char`
* `Verif.Render.C141_violated_call`
* `Verif.Render.C141_violated_two`
* `Verif.Send.C160_performed`
* `Verif.Send.C161_exact`
* `Verif.Send.C161_same_partial`
* `Verif.Send.C161_violated`
* `Verif.Sink.C127_realtime_partial`
* `Verif.Sink.C129_binary_partial`
* `Verif.Whole.C174_stdout_partial`
* `Verif.Xml.C165_violated_mask`

## propext, Quot.sound (149 theorems)

* `Verif.Bits.C12_violated`
* `Verif.Bits.C15_violated_read`
* `Verif.Bits.C15_violated_write`
* `Verif.Bits.C15_violated_write_crossing`
* `Verif.Catalog.C150_exact`
* `Verif.Catalog.C150_listed_partial`
* `Verif.Catalog.C48_complete`
* `Verif.Catalog.C48_exact`
* `Verif.Catalog.C48_unique_partial`
* `Verif.Catalog.C49_exact`
* `Verif.Catalog.C49_kept`
* `Verif.Catalog.C49_not_reused_partial`
* `Verif.Catalog.C49_violated_hash`
* `Verif.Catalog.C50_limit`
* `Verif.Catalog.C50_seven_bits`
* `Verif.Catalog.C75_last_file_partial`
* `Verif.Catalog.C76_history_partial`
* `Verif.Catalog.C76_no_explicit`
* `Verif.Catalog.C78_exact`
* `Verif.Catalog.C78_new_ids`
* `Verif.Catalog.C79_defined_partial`
* `Verif.Catalog.C79_exact`
* `Verif.Catalog.C79_violated_hash`
* `Verif.Catalog.C80_split`
* `Verif.Catalog.C81_exact`
* `Verif.Catalog.C81_explicit_partial`
* `Verif.Catalog.C82_written`
* `Verif.Conc.C122_realtime`
* `Verif.Conc.C123_violated_lasting`
* `Verif.Control.C168_calls`
* `Verif.Cpp.C154_leaks`
* `Verif.Flow.C169_violated_steps`
* `Verif.Flow.C35_violated_group`
* `Verif.Flow.C35_violated_seq_group`
* `Verif.Flow.C72_violated_group`
* `Verif.Flow.C73_violated_group`
* `Verif.Flow.C73_violated_mention`
* `Verif.Flow.C73_violated_unstarred`
* `Verif.Front.C101_violated_short`
* `Verif.Handler.C177_each`
* `Verif.Handler.C177_two_partial`
* `Verif.Handler.C23_exactly_the_matching`
* `Verif.Handler.C23_is_match`
* `Verif.Handler.C23_once_each`
* `Verif.Handler.C25_violated_negated_predicate`
* `Verif.Handler.C68_is_match_complete_partial`
* `Verif.Interrupt.C43_enables`
* `Verif.Interrupt.C43_enables_names`
* `Verif.Interrupt.C43_init_enables`
* `Verif.Interrupt.C65_violated`
* `Verif.Json.C144_kind`
* `Verif.Json.C144_module`
* `Verif.Json.C144_older`
* `Verif.Json.C145_copied_partial`
* `Verif.Json.C145_exact`
* `Verif.Json.C145_violated_two`
* `Verif.Json.C146_exact`
* `Verif.Json.C146_listed_partial`
* `Verif.Json.C146_violated_messages`
* `Verif.Json.C147_written`
* `Verif.Log.C172_version_partial`
* `Verif.Log.C178_violated_level`
* `Verif.Log.C45_violated_bool`
* `Verif.Log.C45_violated_enum_char`
* `Verif.Log.C45_violated_enum_negative`
* `Verif.Log.C46_violated_version`
* `Verif.Lookup.C181_three`
* `Verif.Lookup.C27_linear`
* `Verif.Lookup.C69_violated`
* `Verif.Lookup.C69_violated_compared`
* `Verif.Lookup.C71_duplicates_rejected`
* `Verif.Lookup.C71_linear_last`
* `Verif.Match.C01_operators_keep_meaning`
* `Verif.Match.C01_operators_keep_meaning_custom`
* `Verif.Match.C01_simplify_keeps_meaning`
* `Verif.Match.C05_implies_sound_partial`
* `Verif.Match.C05_implies_sound_predicates`
* `Verif.Match.C06_ordering_is_inclusion`
* `Verif.Match.C08_de_morgan`
* `Verif.Match.C08_documented_laws`
* `Verif.Match.C179_fields_partial`
* `Verif.Match.C179_predicates`
* `Verif.Match.C179_transitive`
* `Verif.Match.C58_violated`
* `Verif.Match.relOps_lawful`
* `Verif.Message.C19_names_unique`
* `Verif.Message.C19_violated`
* `Verif.Message.C20_pack_fields`
* `Verif.Message.C22_equivalence`
* `Verif.Nexus.C51_service`
* `Verif.Nexus.C52_prune`
* `Verif.Nexus.C84_violated_runtime`
* `Verif.Nexus.C84_violated_same_name`
* `Verif.Nexus.C86_violated_same_name`
* `Verif.Pending.C130_pending`
* `Verif.Pending.C131_not_lost`
* `Verif.Pending.C132_not_cleared_partial`
* `Verif.Pending.C132_pending_partial`
* `Verif.Pending.C132_violated`
* `Verif.Pending.C132_violated_shared`
* `Verif.React.C170_handler`
* `Verif.React.C170_in_order`
* `Verif.React.C170_unclaimed`
* `Verif.Receive.C166_compiles`
* `Verif.Receive.C93_compiles`
* `Verif.Receive.C95_condition_partial`
* `Verif.Receive.C95_name`
* `Verif.Receive.C95_new_type`
* `Verif.Receive.C95_no_place`
* `Verif.Receive.C95_place`
* `Verif.Receive.C95_type`
* `Verif.Release.C134_release`
* `Verif.Release.C135_text_partial`
* `Verif.Release.C135_violated_condition`
* `Verif.Release.C135_violated_late`
* `Verif.Release.C135_violated_lost`
* `Verif.Release.C135_violated_twice`
* `Verif.Release.Repo.C134_this_library`
* `Verif.Render.C140_bool_exact`
* `Verif.Render.C140_char_exact`
* `Verif.Render.C141_ends`
* `Verif.Render.C141_first`
* `Verif.Render.C141_names_partial`
* `Verif.Render.C143_exact`
* `Verif.Render.C143_text_partial`
* `Verif.Render.C143_violated_amp`
* `Verif.Select.C157_linear_search`
* `Verif.Select.C157_other`
* `Verif.Select.C157_same_everywhere`
* `Verif.Select.C157_violated_negative`
* `Verif.Send.C160_complete`
* `Verif.Send.C160_direct`
* `Verif.Send.C160_once`
* `Verif.Send.C160_service`
* `Verif.Send.C160_waits_first`
* `Verif.Send.C160_work`
* `Verif.Serve.C159_effects`
* `Verif.Serve.C159_state`
* `Verif.Sink.C129_binary_exact`
* `Verif.Sink.C129_text_partial`
* `Verif.Whole.C174_violated_output`
* `Verif.Whole.C175_failed_partial`
* `Verif.Whole.C175_json_partial`
* `Verif.Whole.C175_read_partial`
* `Verif.Whole.C175_violated_cut`
* `Verif.Whole.C175_violated_limit`
* `Verif.Whole.C175_written_partial`
* `Verif.Xml.C165_client`
* `Verif.Xml.C165_one_enum`

## propext, Classical.choice, Quot.sound (509 theorems)

* `Verif.Args.C155_kept`
* `Verif.Args.C155_options_partial`
* `Verif.Bench.C158_chained`
* `Verif.Bench.C158_declares`
* `Verif.Bench.C158_ends`
* `Verif.Bench.C158_file`
* `Verif.Bits.C09_write_read`
* `Verif.Bits.C09_write_read_fits`
* `Verif.Bits.C10_other_field_unchanged`
* `Verif.Bits.C10_write_frame`
* `Verif.Bits.C11_byte_index`
* `Verif.Bits.C11_dword_index`
* `Verif.Bits.C11_reads_declared_bits`
* `Verif.Bits.C11_reads_number`
* `Verif.Bits.C12_exact`
* `Verif.Bits.C12_fits_inside_partial`
* `Verif.Bits.C12_violated_everywhere`
* `Verif.Bits.C13_default_storage_big_enough`
* `Verif.Bits.C13_default_storage_minimal`
* `Verif.Bits.C14_read_independent_of_width`
* `Verif.Bits.C14_write_any`
* `Verif.Bits.C14_write_independent_of_width`
* `Verif.Bits.C15_read_int_partial`
* `Verif.Bits.C15_u64_low_partial`
* `Verif.Bits.C15_u64_read_exact`
* `Verif.Bits.C15_u64_read_iff`
* `Verif.Bits.C15_u64_write_exact`
* `Verif.Bits.C15_u64_write_iff`
* `Verif.Bits.C15_u64_write_low_partial`
* `Verif.Bits.C15_write_int_partial`
* `Verif.Bits.C16_no_undefined_shift`
* `Verif.Bits.C16_no_undefined_shift_u64`
* `Verif.Call.C162_asked`
* `Verif.Call.C162_bytes`
* `Verif.Call.C162_compiles_exact`
* `Verif.Call.C162_compiles_partial`
* `Verif.Call.C162_reads`
* `Verif.Call.C162_violated_owning`
* `Verif.Catalog.C148_exact`
* `Verif.Catalog.C148_history_partial`
* `Verif.Catalog.C148_one_entry_partial`
* `Verif.Catalog.C150_forgotten_partial`
* `Verif.Catalog.C77_exact`
* `Verif.Catalog.C77_ids_partial`
* `Verif.Catalog.C77_order_partial`
* `Verif.Conc.C122_all`
* `Verif.Conc.C122_matches`
* `Verif.Conc.C122_only_owned`
* `Verif.Conc.C122_serial`
* `Verif.Conc.C122_synced`
* `Verif.Conc.C123_serial_partial`
* `Verif.Conc.C123_violated_reset`
* `Verif.Conc.C124_reads`
* `Verif.Conc.C125_finish`
* `Verif.Conc.C125_no_deadlock`
* `Verif.Control.C168_cleared_partial`
* `Verif.Control.C168_exact_partial`
* `Verif.Control.C168_flows_off`
* `Verif.Control.C168_matches_partial`
* `Verif.Control.C168_name_off`
* `Verif.Control.C168_obeys`
* `Verif.Control.C168_off`
* `Verif.Control.C168_one_flow`
* `Verif.Control.C168_resource_off`
* `Verif.Control.C168_status`
* `Verif.Control.C168_violated_depth`
* `Verif.Control.C168_violated_no_field`
* `Verif.Cpp.C154_code_partial`
* `Verif.Cpp.C154_exact`
* `Verif.Cpp.C154_exact_iff`
* `Verif.Cpp.C154_violated_newline`
* `Verif.Dump.C164_exact_partial`
* `Verif.Dump.C164_text`
* `Verif.Dump.C164_types_partial`
* `Verif.Dump.C164_violated_comma`
* `Verif.Dump.C164_violated_name`
* `Verif.Explain.C110_fields`
* `Verif.Explain.C110_meaning`
* `Verif.Explain.C111_shown_partial`
* `Verif.Explain.C111_total_partial`
* `Verif.Explain.C111_violated_reads_more`
* `Verif.Explain.C112_called`
* `Verif.Explain.C112_refused`
* `Verif.Explain.C112_same_calls`
* `Verif.Explain.C112_total`
* `Verif.Explain.C113_called`
* `Verif.Explain.C113_exact_partial`
* `Verif.Explain.C113_refused_partial`
* `Verif.Explain.C113_same_calls`
* `Verif.Explain.C113_violated_count`
* `Verif.Explain.C114_held`
* `Verif.Explain.C114_values`
* `Verif.Explain.C115_indexed_partial`
* `Verif.Explain.C115_plain_partial`
* `Verif.Explain.C115_violated`
* `Verif.Extract.C156_file_partial`
* `Verif.Extract.C156_flow_partial`
* `Verif.Extract.C156_violated_backslash`
* `Verif.Flow.C169_room`
* `Verif.Flow.C169_steps_partial`
* `Verif.Flow.C30_order`
* `Verif.Flow.C30_run`
* `Verif.Flow.C31_once`
* `Verif.Flow.C31_run_all`
* `Verif.Flow.C32_cycle`
* `Verif.Flow.C32_rejected`
* `Verif.Flow.C33_accepted`
* `Verif.Flow.C33_missing`
* `Verif.Flow.C34_meaning`
* `Verif.Flow.C34_no_other_order`
* `Verif.Flow.C35_conditional_partial`
* `Verif.Flow.C35_exact`
* `Verif.Flow.C72_both_run`
* `Verif.Flow.C72_exact`
* `Verif.Flow.C72_rejected_partial`
* `Verif.Flow.C72_stronger`
* `Verif.Flow.C73_exact`
* `Verif.Flow.C73_refs_partial`
* `Verif.Flow.C73_steps_partial`
* `Verif.Flow.C74_lists_cycles`
* `Verif.Flow.C74_only_after_cycles`
* `Verif.Front.C101_binary_partial`
* `Verif.Front.C101_logger`
* `Verif.Front.C102_compiles`
* `Verif.Front.C102_nearest`
* `Verif.Front.C102_needs`
* `Verif.Front.C102_outside`
* `Verif.Front.C102_scope`
* `Verif.Front.C103_binary_exact`
* `Verif.Front.C103_binary_partial`
* `Verif.Front.C103_pointer_lost`
* `Verif.Front.C103_records`
* `Verif.Front.C103_text_partial`
* `Verif.Front.C103_violated_pointer`
* `Verif.Front.C103_violated_state`
* `Verif.Front.C104_breaks_partial`
* `Verif.Front.C104_flow_partial`
* `Verif.Front.C104_read_partial`
* `Verif.Front.C104_violated_break`
* `Verif.Front.C104_violated_every_break`
* `Verif.Front.C104_violated_module`
* `Verif.Front.C105_assert`
* `Verif.Front.C105_assert_exact`
* `Verif.Front.C105_extra_exact`
* `Verif.Front.C105_fatal`
* `Verif.Front.C105_only`
* `Verif.Front.C105_other_flavors`
* `Verif.Front.C105_violated_braces`
* `Verif.Front.C106_binary_partial`
* `Verif.Front.C106_logger_partial`
* `Verif.Front.C106_text`
* `Verif.Front.C106_violated_documented`
* `Verif.Front.C106_violated_module`
* `Verif.Front.C107_before`
* `Verif.Front.C107_calls`
* `Verif.Front.C107_order`
* `Verif.Front.C107_policy`
* `Verif.Front.C107_texts`
* `Verif.Front.C108_env_partial`
* `Verif.Front.C108_exact`
* `Verif.Front.C108_violated_same`
* `Verif.Front.C109_main`
* `Verif.Front.C109_order`
* `Verif.Handler.C176_callbacks`
* `Verif.Handler.C176_exact`
* `Verif.Handler.C177_consistent_partial`
* `Verif.Handler.C177_one_required_partial`
* `Verif.Handler.C177_one_value_partial`
* `Verif.Handler.C177_refused_one_partial`
* `Verif.Handler.C177_refused_partial`
* `Verif.Handler.C177_violated_missed`
* `Verif.Handler.C182_made`
* `Verif.Handler.C182_tables`
* `Verif.Handler.C24_conditional_mixed_partial`
* `Verif.Handler.C24_conditional_one_constant_partial`
* `Verif.Handler.C24_conditional_positive_partial`
* `Verif.Handler.C24_conjunction_mixed_partial`
* `Verif.Handler.C24_conjunction_one_constant_partial`
* `Verif.Handler.C24_conjunction_positive_partial`
* `Verif.Handler.C24_plain_mixed_partial`
* `Verif.Handler.C24_plain_positive_partial`
* `Verif.Handler.C24_violated`
* `Verif.Handler.C25_exact_mixed_partial`
* `Verif.Handler.C25_exact_one_constant_partial`
* `Verif.Handler.C25_exact_positive_partial`
* `Verif.Handler.C25_violated_not_in`
* `Verif.Handler.C25_violated_same_exclusion`
* `Verif.Handler.C25_violated_single_callback`
* `Verif.Handler.C26_callback_mixed_partial`
* `Verif.Handler.C26_callback_one_constant_partial`
* `Verif.Handler.C26_callback_positive_partial`
* `Verif.Handler.C26_no_conjunction_missed`
* `Verif.Handler.C26_violated`
* `Verif.Handler.C66_exact`
* `Verif.Handler.C67_count_mixed_partial`
* `Verif.Handler.C67_count_one_constant_partial`
* `Verif.Handler.C67_count_positive_partial`
* `Verif.Handler.C67_once_mixed_partial`
* `Verif.Handler.C67_once_one_constant_partial`
* `Verif.Handler.C67_once_positive_partial`
* `Verif.Handler.C67_violated`
* `Verif.Handler.C68_agrees_mixed_partial`
* `Verif.Handler.C68_agrees_one_constant_partial`
* `Verif.Handler.C68_index_tests_partial`
* `Verif.Handler.C68_violated`
* `Verif.Interrupt.C40_all`
* `Verif.Interrupt.C40_manager`
* `Verif.Interrupt.C40_none`
* `Verif.Interrupt.C40_only`
* `Verif.Interrupt.C41_first`
* `Verif.Interrupt.C41_last`
* `Verif.Interrupt.C41_none`
* `Verif.Interrupt.C41_once`
* `Verif.Interrupt.C41_only`
* `Verif.Interrupt.C42_histories`
* `Verif.Interrupt.C42_only_owned`
* `Verif.Interrupt.C43_histories_partial`
* `Verif.Interrupt.C43_init_exact`
* `Verif.Interrupt.C43_init_histories_partial`
* `Verif.Interrupt.C43_init_partial`
* `Verif.Interrupt.C43_leaves`
* `Verif.Interrupt.C43_refreshAll`
* `Verif.Interrupt.C43_reset`
* `Verif.Interrupt.C43_violated_depth`
* `Verif.Interrupt.C43_violated_name`
* `Verif.Interrupt.C43_violated_name_type`
* `Verif.Interrupt.C44_forced`
* `Verif.Interrupt.C44_histories`
* `Verif.Interrupt.C44_init_exact`
* `Verif.Interrupt.C44_init_histories_partial`
* `Verif.Interrupt.C44_init_partial`
* `Verif.Interrupt.C44_violated_reinit`
* `Verif.Interrupt.C65_exact`
* `Verif.Interrupt.C65_manager_init_partial`
* `Verif.Json.C144_entry`
* `Verif.Json.C144_file`
* `Verif.Json.C145_enumerator_partial`
* `Verif.Json.C147_found`
* `Verif.Json.C147_name`
* `Verif.Json.C149_printed`
* `Verif.Json.C149_read`
* `Verif.Json.C149_refused_partial`
* `Verif.Json.C149_violated_exact`
* `Verif.Json.C151_exact`
* `Verif.Json.C151_iff`
* `Verif.Json.C151_refers_partial`
* `Verif.Json.C151_violated_two`
* `Verif.Json.C152_declared_partial`
* `Verif.Json.C152_violated_member`
* `Verif.Log.C171_complete_partial`
* `Verif.Log.C171_cut_partial`
* `Verif.Log.C171_exact`
* `Verif.Log.C171_stops`
* `Verif.Log.C171_violated_cut`
* `Verif.Log.C172_big_exact`
* `Verif.Log.C172_big_short_partial`
* `Verif.Log.C172_little_partial`
* `Verif.Log.C172_violated_any`
* `Verif.Log.C173_exact`
* `Verif.Log.C173_joined_partial`
* `Verif.Log.C178_exact`
* `Verif.Log.C178_kept_exact`
* `Verif.Log.C45_argument`
* `Verif.Log.C45_header`
* `Verif.Log.C45_length`
* `Verif.Log.C45_record_partial`
* `Verif.Log.C45_violated_id`
* `Verif.Log.C46_exact`
* `Verif.Log.C46_injective`
* `Verif.Log.C46_statements_partial`
* `Verif.Log.C46_stream_partial`
* `Verif.Log.C47_exact`
* `Verif.Log.C47_injective`
* `Verif.Log.C47_version_partial`
* `Verif.Log.C47_violated_length`
* `Verif.Lookup.C181_constant`
* `Verif.Lookup.C27_made`
* `Verif.Lookup.C27_make`
* `Verif.Lookup.C27_pext`
* `Verif.Lookup.C28_make`
* `Verif.Lookup.C28_pext`
* `Verif.Lookup.C29_first_phase`
* `Verif.Lookup.C29_search_length`
* `Verif.Lookup.C29_separates`
* `Verif.Lookup.C29_terminates`
* `Verif.Lookup.C69_bound_partial`
* `Verif.Lookup.C69_compared_partial`
* `Verif.Lookup.C69_exact`
* `Verif.Lookup.C70_bits_exist`
* `Verif.Lookup.C70_no_overflow`
* `Verif.Match.C02_holds_when_repaired`
* `Verif.Match.C02_in_exact`
* `Verif.Match.C02_mixed_partial`
* `Verif.Match.C02_not_in_exact`
* `Verif.Match.C02_one_constant_partial`
* `Verif.Match.C02_positive_partial`
* `Verif.Match.C02_unaffected_partial`
* `Verif.Match.C02_violated_and`
* `Verif.Match.C02_violated_or`
* `Verif.Match.C03_sum_of_products_keeps_meaning`
* `Verif.Match.C03_sum_of_products_relational`
* `Verif.Match.C03_sum_of_products_terminates`
* `Verif.Match.C04_sum_of_products_normal_form`
* `Verif.Match.C04_sum_of_products_normal_form_raw`
* `Verif.Match.C05_every_ne_pair_wrong`
* `Verif.Match.C05_exact`
* `Verif.Match.C05_violated`
* `Verif.Match.C06_holds_when_repaired`
* `Verif.Match.C06_mixed_partial`
* `Verif.Match.C06_ordering_is_inclusion_partial`
* `Verif.Match.C06_violated`
* `Verif.Match.C07_operators_never_grow`
* `Verif.Match.C07_simplify_never_grows`
* `Verif.Match.C08_absorption`
* `Verif.Match.C180_all`
* `Verif.Match.C180_any`
* `Verif.Match.C180_fields_partial`
* `Verif.Match.C180_predicates`
* `Verif.Match.C180_two`
* `Verif.Match.C55_bounds_simplify`
* `Verif.Match.C57_exact`
* `Verif.Match.C58_exact`
* `Verif.Match.C58_implies_complete_partial`
* `Verif.Message.C17_construction`
* `Verif.Message.C17_padding_zero`
* `Verif.Message.C18_history`
* `Verif.Message.C18_set_changes_only_named`
* `Verif.Message.C18_set_defaults`
* `Verif.Message.C18_set_overlapping`
* `Verif.Message.C19_base_kept`
* `Verif.Message.C19_new_field_present_partial`
* `Verif.Message.C20_pack_disjoint`
* `Verif.Message.C20_pack_reads_slice`
* `Verif.Message.C21_relaxed`
* `Verif.Message.C22_equiv_iff`
* `Verif.Message.C22_equiv_overlapping`
* `Verif.Message.C22_ignores_padding`
* `Verif.Message.C22_notices_difference`
* `Verif.Message.C59_copy`
* `Verif.Message.C59_copy_overlapping`
* `Verif.Message.C60_declaration_order_irrelevant_partial`
* `Verif.Message.C60_exact`
* `Verif.Message.C60_fields_in_order`
* `Verif.Message.C60_violated`
* `Verif.Message.C61_rename`
* `Verif.Message.C62_nothing_left_unset`
* `Verif.Message.C62_required_value_persists`
* `Verif.Nexus.C51_once`
* `Verif.Nexus.C52_nodes`
* `Verif.Nexus.C53_exact`
* `Verif.Nexus.C54_message_mixed_partial`
* `Verif.Nexus.C54_message_one_constant_partial`
* `Verif.Nexus.C54_message_positive_partial`
* `Verif.Nexus.C54_violated_message`
* `Verif.Nexus.C83_exact`
* `Verif.Nexus.C83_order_partial`
* `Verif.Nexus.C83_together`
* `Verif.Nexus.C84_by_name_partial`
* `Verif.Nexus.C84_first`
* `Verif.Nexus.C84_not`
* `Verif.Nexus.C85_compiles`
* `Verif.Nexus.C85_exported`
* `Verif.Nexus.C86_by_name_partial`
* `Verif.Nexus.C86_first`
* `Verif.Nexus.C86_other_names`
* `Verif.Nexus.C86_service`
* `Verif.Nexus.C87_callable_partial`
* `Verif.Nexus.C87_exact`
* `Verif.Nexus.C87_violated_pointer`
* `Verif.Object.C116_defined`
* `Verif.Object.C116_equivalent`
* `Verif.Object.C116_memory_of_bits`
* `Verif.Object.C116_only`
* `Verif.Object.C117_own_storage`
* `Verif.Object.C117_separate`
* `Verif.Object.C118_part_shows_message`
* `Verif.Object.C118_view_shows_message`
* `Verif.Object.C119_copy_equal`
* `Verif.Object.C119_copy_with_values`
* `Verif.Object.C120_destructure`
* `Verif.Object.C121_const_views`
* `Verif.Object.C121_no_set`
* `Verif.Pending.C132_exact`
* `Verif.Pending.C133_not_more`
* `Verif.React.C170_indexed_partial`
* `Verif.React.C170_indexed_terms_partial`
* `Verif.React.C170_violated_alternatives`
* `Verif.React.C170_violated_write`
* `Verif.Receive.C166_answer`
* `Verif.Receive.C166_raw_answer`
* `Verif.Receive.C88_object_partial`
* `Verif.Receive.C88_raw_exact`
* `Verif.Receive.C88_raw_partial`
* `Verif.Receive.C88_violated_located_later`
* `Verif.Receive.C88_violated_renamed_later`
* `Verif.Receive.C89_exact_partial`
* `Verif.Receive.C89_less_than_admits`
* `Verif.Receive.C89_violated`
* `Verif.Receive.C90_overlay_raw_partial`
* `Verif.Receive.C90_pack_object_partial`
* `Verif.Receive.C90_pack_raw_exact`
* `Verif.Receive.C90_relaxed_object_partial`
* `Verif.Receive.C90_relaxed_raw_exact`
* `Verif.Receive.C90_violated_pack_raw`
* `Verif.Receive.C90_violated_relaxed_raw`
* `Verif.Receive.C91_object_partial`
* `Verif.Receive.C91_raw_partial`
* `Verif.Receive.C91_violated_object`
* `Verif.Receive.C92_object_exact`
* `Verif.Receive.C92_object_partial`
* `Verif.Receive.C92_raw_exact`
* `Verif.Receive.C92_raw_partial`
* `Verif.Receive.C92_violated_negative`
* `Verif.Receive.C92_violated_width`
* `Verif.Receive.C93_object_partial`
* `Verif.Receive.C93_raw_partial`
* `Verif.Receive.C93_violated`
* `Verif.Receive.C94_indexed_object_partial`
* `Verif.Receive.C94_indexed_raw_partial`
* `Verif.Receive.C94_plain_object_partial`
* `Verif.Receive.C94_plain_raw_partial`
* `Verif.Receive.C94_violated_moved_index`
* `Verif.Receive.C95_default_exact`
* `Verif.Receive.C95_default_partial`
* `Verif.Receive.C95_violated_new_type`
* `Verif.Receive.C96_equal_partial`
* `Verif.Receive.C96_exact`
* `Verif.Receive.C96_in_partial`
* `Verif.Receive.C96_violated_bound`
* `Verif.Receive.C96_violated_later`
* `Verif.Release.C136_every`
* `Verif.Release.C136_once_partial`
* `Verif.Release.C136_violated_guard`
* `Verif.Release.C136_violated_this_library`
* `Verif.Render.C139_formats`
* `Verif.Render.C139_number`
* `Verif.Render.C139_order`
* `Verif.Render.C139_shown_partial`
* `Verif.Render.C140_line_partial`
* `Verif.Render.C140_number`
* `Verif.Render.C142_exact`
* `Verif.Render.C142_types_partial`
* `Verif.Render.C142_underlying`
* `Verif.Render.C142_violated_template`
* `Verif.Results.C163_exact`
* `Verif.Results.C163_one_run_partial`
* `Verif.Results.C163_violated_columns`
* `Verif.Results.C163_violated_second`
* `Verif.Results.C163_violated_thousands`
* `Verif.Results.C163_white_space`
* `Verif.Select.C157_float_defined`
* `Verif.Select.C157_float_exact`
* `Verif.Select.C157_violated_float`
* `Verif.Send.C160_starts`
* `Verif.Seq.C36_prefix`
* `Verif.Seq.C37_finish_before_reversing`
* `Verif.Seq.C38_done_all_the_way`
* `Verif.Seq.C39_in_bounds`
* `Verif.Seq.C63_direction`
* `Verif.Seq.C64_progress`
* `Verif.Serve.C159_conditions`
* `Verif.Serve.C159_exact`
* `Verif.Serve.C159_idle`
* `Verif.Serve.C159_number`
* `Verif.Serve.C159_once`
* `Verif.Serve.C159_only`
* `Verif.Serve.C159_order`
* `Verif.Serve.C159_sequence`
* `Verif.Sink.C125_logging`
* `Verif.Sink.C126_all`
* `Verif.Sink.C126_whole`
* `Verif.Sink.C127_same_partial`
* `Verif.Sink.C127_single_partial`
* `Verif.Sink.C128_violated_mixed`
* `Verif.Sink.C128_whole_partial`
* `Verif.Symbols.C137_exact`
* `Verif.Symbols.C137_message_partial`
* `Verif.Symbols.C137_module_exact`
* `Verif.Symbols.C137_module_partial`
* `Verif.Symbols.C137_violated_empty`
* `Verif.Symbols.C137_violated_utf8`
* `Verif.Symbols.C138_defines`
* `Verif.Symbols.C138_defines_module`
* `Verif.Viz.C100_cycle`
* `Verif.Viz.C100_mermaid_partial`
* `Verif.Viz.C100_violated_cycle`
* `Verif.Viz.C100_violated_graphviz`
* `Verif.Viz.C97_graphviz_partial`
* `Verif.Viz.C97_violated_space`
* `Verif.Viz.C97_violated_twice`
* `Verif.Viz.C98_mermaid_partial`
* `Verif.Viz.C98_violated_always`
* `Verif.Viz.C98_violated_id`
* `Verif.Viz.C99_graphviz_partial`
* `Verif.Viz.C99_mermaid_partial`
* `Verif.Viz.C99_violated_cycle`
* `Verif.Viz.C99_violated_start`
* `Verif.Whole.C153_first_partial`
* `Verif.Whole.C153_program_partial`
* `Verif.Whole.C153_violated_braces`
* `Verif.Whole.C153_violated_tags`
* `Verif.Whole.C167_ids`
* `Verif.Whole.C167_logs_partial`
* `Verif.Whole.C167_violated_braces`
* `Verif.Xml.C165_enum`
* `Verif.Xml.C165_exact`
* `Verif.Xml.C165_message_partial`
* `Verif.Xml.C165_module_partial`
* `Verif.Xml.C165_no_module`
