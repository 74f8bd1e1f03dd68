C01_live_ranges_disjoint	Classical.choice, Quot.sound, propext
C01_reserve_grants_exact_size	Classical.choice, Quot.sound, propext
C01_object_ranges_disjoint	Classical.choice, Quot.sound, propext
C02_first_fit_complete	Classical.choice, Quot.sound, propext
C02_whole_segment_after_release	Classical.choice, Quot.sound, propext
C02_manager_serves_fitting_request	Classical.choice, Quot.sound, propext
C03_cleanup_keeps_other_metadata	Classical.choice, Quot.sound, propext
C03_metadata_slots_disjoint	Classical.choice, Quot.sound, propext
C04_violated	Quot.sound, propext
C04_memory_lost_violated	
C04_refused_put_partial	Quot.sound, propext
C04_lost_partial	Classical.choice, Quot.sound, propext
C05_reservations_idempotent	Quot.sound, propext
C06_reclaims_only_published	Classical.choice, Quot.sound, propext
C06_reclaim_only_unreferenced	Classical.choice, Quot.sound, propext
C07_violated	Classical.choice, Quot.sound, propext
C07_referenced_object_freed_violated	Quot.sound, propext
C07_same_order_partial	Classical.choice, Quot.sound, propext
C07_own_references_partial	Classical.choice, Quot.sound, propext
C08_write_read_roundtrip	Classical.choice, Quot.sound, propext
C08_stable_under_other_writes	Classical.choice, Quot.sound, propext
C08_other_host_roundtrip	Classical.choice, Quot.sound, propext
C09_oversized_write_refused	Classical.choice, Quot.sound, propext
C10_accepted_object_is_published	Classical.choice, Quot.sound, propext
C11_violated	propext
C11_refcount_partial	Classical.choice, Quot.sound, propext
C11_never_below_partial	Classical.choice, Quot.sound, propext
C12_segments_fit	Classical.choice, Quot.sound, propext
C12_refused_iff_does_not_fit	Classical.choice, Quot.sound, propext
C13_slots_suffice	Classical.choice, Quot.sound, propext
C13_slots_suffice_configured	Classical.choice, Quot.sound, propext
C14_known_length_roundtrip	Classical.choice, Quot.sound, propext
C14_sized_roundtrip	Classical.choice, Quot.sound, propext
C15_violated	Classical.choice, Quot.sound, propext
C15_wrong_body_violated	propext
C15_packages_in_order_partial	Classical.choice, Quot.sound, propext
C15_exactly_partial	Classical.choice, Quot.sound, propext
C16_violated	Quot.sound, propext
C16_exact_copy_partial	Classical.choice, Quot.sound, propext
C16_exactly_partial	Classical.choice, Quot.sound, propext
C16_defined_exactly	Classical.choice, Quot.sound, propext
C16_bounds_partial	Classical.choice, Quot.sound, propext
C17_violated	propext
C17_silently_replaced_violated	propext
C17_bytearray_violated	propext
C17_roundtrip_partial	Classical.choice, Quot.sound, propext
C17_exactly_partial	Classical.choice, Quot.sound, propext
C17_as_bytes_partial	Classical.choice, Quot.sound, propext
C18_violated	propext
C18_buffers_partial	Classical.choice, Quot.sound, propext
C18_bytearrays_partial	Classical.choice, Quot.sound, propext
C18_markers_partial	Classical.choice, Quot.sound, propext
C19_violated	propext
C19_small_objects_partial	Classical.choice, Quot.sound, propext
C19_reads_partial	Classical.choice, Quot.sound, propext
C19_exactly_partial	Classical.choice, Quot.sound, propext
C20_references_unique	Classical.choice, Quot.sound, propext
C20_request_served	Classical.choice, Quot.sound, propext
C21_parse_exact	Classical.choice, Quot.sound, propext
C21_metadata_injective	Classical.choice, Quot.sound, propext
C22_one_live_object	Classical.choice, Quot.sound, propext
C22_reported_exactly_once	Classical.choice, Quot.sound, propext
C22_report_at_last_drop	Classical.choice, Quot.sound, propext
C22_last_drop_reports	Classical.choice, Quot.sound, propext
C22_possible	propext
C23_only_free_workers	Quot.sound, propext
C23_fails_only_if_all_blocked	Classical.choice, Quot.sound, propext
C24_fair	Classical.choice, Quot.sound, propext
C24_full_round	Classical.choice, Quot.sound, propext
C25_actor_keeps_worker	Classical.choice, Quot.sound, propext
C25_released_worker_used_again	Classical.choice, Quot.sound, propext
C26_violated	Quot.sound, propext
C26_own_actors_partial	Classical.choice, Quot.sound, propext
C26_one_creator_partial	Classical.choice, Quot.sound, propext
C27_only_free_workers	Classical.choice, Quot.sound, propext
C27_actors_exclusive_and_released	Classical.choice, Quot.sound, propext
C27_programs	Classical.choice, Quot.sound, propext
C28_one_role	Classical.choice, Quot.sound, propext
C28_agreement	Quot.sound, propext
C29_same_host	Classical.choice, Quot.sound, propext
C29_common_monitor	Quot.sound, propext
C29_lone_host_rejected	Classical.choice, Quot.sound, propext
C30_sum	Quot.sound, propext
C30_any_hosts	Classical.choice, Quot.sound, propext
C30_configured	Classical.choice, Quot.sound, propext
C31_slots	Quot.sound, propext
C32_results_sequential	Classical.choice, Quot.sound, propext
C32_schedule_independent	Classical.choice, Quot.sound, propext
C33_once_with_values	Classical.choice, Quot.sound, propext
C34_violated	Quot.sound, propext
C34_order_partial	Classical.choice, Quot.sound, propext
C34_repeated_partial	Classical.choice, Quot.sound, propext
C34_exact_partial	Classical.choice, Quot.sound, propext
C35_violated	Quot.sound, propext
C35_first_partial	Classical.choice, Quot.sound, propext
C35_exact_partial	Classical.choice, Quot.sound, propext
C36_not_called	Quot.sound, propext
C36_same_error	Classical.choice, Quot.sound, propext
C36_transitive	Classical.choice, Quot.sound, propext
C37_violated	Quot.sound, propext
C37_coroutine_violated	Quot.sound, propext
C37_answered_partial	Classical.choice, Quot.sound, propext
C37_once_partial	Classical.choice, Quot.sound, propext
C37_coroutine_partial	Classical.choice, Quot.sound, propext
C38_remote_partial	Classical.choice, Quot.sound, propext
C38_cluster_partial	Classical.choice, Quot.sound, propext
C38_actor_violated	Quot.sound, propext
C38_coroutine_violated	Quot.sound, propext
C38_overtaken_violated	Quot.sound, propext
C39_partition	Classical.choice, Quot.sound, propext
C40_failed_violated	Quot.sound, propext
C40_zero_violated	Quot.sound, propext
C40_many_violated	Quot.sound, propext
C40_succeeded_partial	Classical.choice, Quot.sound, propext
C40_exact_partial	Classical.choice, Quot.sound, propext
C41_shape	Classical.choice, Quot.sound, propext
C41_values	Classical.choice, Quot.sound, propext
C42_violated	Quot.sound, propext
C42_no_wrong_value_partial	Classical.choice, Quot.sound, propext
C42_never_partial	Classical.choice, Quot.sound, propext
C43_violated	Quot.sound, propext
C43_crash_partial	Classical.choice, Quot.sound, propext
C44_violated	Classical.choice, Quot.sound, propext
C44_order_partial	Classical.choice, Quot.sound, propext
C44_available_partial	Classical.choice, Quot.sound, propext
C44_overtaken_partial	Quot.sound, propext
C44_held_partial	Quot.sound, propext
C44_woken_partial	Quot.sound, propext
C45_method_violated	Quot.sound, propext
C45_processes_violated	Quot.sound, propext
C45_single_partial	Quot.sound, propext
C45_count_partial	Quot.sound, propext
C46_late_violated	
C46_exactly_once_partial	Quot.sound, propext
C46_onTime_partial	Quot.sound, propext
C46_receivers	Quot.sound, propext
C47_stops	Classical.choice, Quot.sound, propext
C47_method_violated	Quot.sound, propext
C47_processes_violated	Quot.sound, propext
C47_coroutine_violated	Quot.sound, propext
C47_progress_partial	Quot.sound, propext
C48_data	Classical.choice, Quot.sound, propext
C48_owner	Quot.sound, propext
C49_known_before_task	Classical.choice, Quot.sound, propext
C49_never_missing	Classical.choice, Quot.sound, propext
C49_sent_once	Quot.sound, propext
C50_monitor_violated	Quot.sound, propext
C50_finish_violated	Quot.sound, propext
C50_no_workers_violated	Quot.sound, propext
C50_stray_violated	Quot.sound, propext
C50_coroutine_violated	Quot.sound, propext
C50_no_early_leave	Classical.choice, Quot.sound, propext
C50_root_last	Classical.choice, Quot.sound, propext
C50_no_stray_protocol	Classical.choice, Quot.sound, propext
C50_ends_partial	Classical.choice, Quot.sound, propext
C50_returns_partial	Quot.sound, propext
C50_bounded	Classical.choice, Quot.sound, propext
C51_violated	Quot.sound, propext
C51_crash_violated	Quot.sound, propext
C51_once_partial	Quot.sound, propext
C51_bound_partial	Quot.sound, propext
C52_kept	Quot.sound, propext
C52_released	Quot.sound, propext
C52_finish	Quot.sound, propext
C53_function_partial	Classical.choice, Quot.sound, propext
C53_method_partial	Classical.choice, Quot.sound, propext
C53_method_exactly_partial	Classical.choice, Quot.sound, propext
C53_method_violated	propext
C53_value_violated	propext
C53_missing_violated	propext
C54_version_read	Classical.choice, Quot.sound, propext
C54_mpich_partial	Classical.choice, Quot.sound, propext
C54_other_libraries	Quot.sound, propext
C54_short_violated	Classical.choice, Quot.sound, propext
C54_no_version_line_violated	Classical.choice, Quot.sound, propext
C54_exactly_partial	Classical.choice, Quot.sound, propext
C55_program_first	Quot.sound, propext
C55_environment_second	Quot.sound, propext
C55_default_last	Quot.sound, propext
C55_stable	Quot.sound, propext
C55_threshold_violated	Classical.choice, Quot.sound, propext
C55_source_partial	Quot.sound, propext
C55_values	propext
C55_threshold_source_partial	Quot.sound, propext
C56_flag_violated	Classical.choice, Quot.sound, propext
C56_full_violated	Classical.choice, Quot.sound, propext
C56_flag_texts	Classical.choice, Quot.sound, propext
C56_agrees_partial	Classical.choice, Quot.sound, propext
C56_flag_exactly_partial	Classical.choice, Quot.sound, propext
C57_set_violated	Classical.choice, Quot.sound, propext
C57_read_partial	propext
C57_set_exactly_partial	propext
C58_follows	Quot.sound, propext
C58_out_of_band_shared	Quot.sound, propext
C58_late_violated	Classical.choice, Quot.sound, propext
C58_unshared_violated	Classical.choice, Quot.sound, propext
C58_serializer_partial	Quot.sound, propext
C58_shared_partial	Quot.sound, propext
C58_first_partial	Quot.sound, propext
C58_own_variables	propext
C59_best_installed	Quot.sound, propext
C59_read	Quot.sound, propext
C60_function	Classical.choice, Quot.sound, propext
C60_cases	Classical.choice, Quot.sound, propext
C60_class	Classical.choice, Quot.sound, propext
C60_other	propext
C60_bare	propext
C60_bare_errors	propext
C61_other_names_partial	Classical.choice, Quot.sound, propext
C61_reserved_violated	Classical.choice, Quot.sound, propext
C61_resources_refused_partial	Classical.choice, Quot.sound, propext
C61_full_violated	Classical.choice, Quot.sound, propext
C61_exact_partial	Classical.choice, Quot.sound, propext
C61_nothing_invented	Classical.choice, Quot.sound, propext
C61_library_partial	Classical.choice, Quot.sound, propext
C61_library_violated	propext
C61_refused_partial	Classical.choice, Quot.sound, propext
C62_positions	propext
C62_none_left	propext
C62_sent	Quot.sound, propext
C63_own_options	Classical.choice, Quot.sound, propext
C63_stored_once	Classical.choice, Quot.sound, propext
C64_full_violated	propext
C64_thread_violated	
C64_one_partial	Quot.sound, propext
C64_init_first_partial	Quot.sound, propext
C64_which_partial	Quot.sound, propext
C64_noticed_partial	propext
C65_bytes_violated	Quot.sound, propext
C65_exception_violated	Quot.sound, propext
C65_read_partial	Classical.choice, Quot.sound, propext
C65_same_program_partial	Classical.choice, Quot.sound, propext
C65_schedule_partial	Classical.choice, Quot.sound, propext
C66_worker_dies_violated	Classical.choice, Quot.sound, propext
C66_upto_partial	Classical.choice, Quot.sound, propext
C66_progress_partial	Classical.choice, Quot.sound, propext
C67_index_violated	propext
C67_zero_violated	propext
C67_wrong_reference_violated	Quot.sound, propext
C67_failed_violated	propext
C67_partial	Classical.choice, Quot.sound, propext
C67_exactly_partial	Quot.sound, propext
C67_zero_exactly_partial	Quot.sound, propext
C68_bytes_violated	Quot.sound, propext
C68_exception_violated	Quot.sound, propext
C68_partial	Classical.choice, Quot.sound, propext
C68_exactly_partial	Classical.choice, Quot.sound, propext
C69_order	Classical.choice, Quot.sound, propext
C69_history_read	Classical.choice, Quot.sound, propext
C69_history	Classical.choice, Quot.sound, propext
C70_short_violated	Quot.sound, propext
C70_not_iterable_violated	Quot.sound, propext
C70_position_partial	Classical.choice, Quot.sound, propext
C70_partial	Classical.choice, Quot.sound, propext
C70_forever_partial	Classical.choice, Quot.sound, propext
C71_exception_violated	Quot.sound, propext
C71_put_violated	Quot.sound, propext
C71_read_partial	Classical.choice, Quot.sound, propext
C71_get_partial	Classical.choice, Quot.sound, propext
C71_submit_read_partial	Classical.choice, Quot.sound, propext
C71_submit_partial	Classical.choice, Quot.sound, propext
C71_wait	Quot.sound, propext
C71_get_list	Classical.choice, Quot.sound, propext
C72_sequential_violated	Quot.sound, propext
C72_sequential_exactly_partial	Quot.sound, propext
C72_pymp_submit_partial	Quot.sound, propext
C72_pymp_read_partial	Classical.choice, Quot.sound, propext
C72_pymp_get_partial	Classical.choice, Quot.sound, propext
C72_mpi_partial	Classical.choice, Quot.sound, propext
C73_full_violated	Quot.sound, propext
C73_direct_partial	Classical.choice, Quot.sound, propext
C73_nested_partial	Classical.choice, Quot.sound, propext
C73_exactly_partial	Classical.choice, Quot.sound, propext
C74_lost_violated	propext
C74_endless_violated	propext
C74_partial	Classical.choice, Quot.sound, propext
C74_exactly_partial	Classical.choice, Quot.sound, propext
C75_violated	propext
C75_partial	Classical.choice, Quot.sound, propext
C75_exactly_partial	Classical.choice, Quot.sound, propext
C76_memory	Classical.choice, Quot.sound, propext
C76_bounds	Classical.choice, Quot.sound, propext
C77_round_trip	Classical.choice, Quot.sound, propext
C78_dropped_violated	Quot.sound, propext
C78_received_violated	Quot.sound, propext
C78_held_partial	Classical.choice, Quot.sound, propext
C78_returned_violated	Quot.sound, propext
C78_inside_violated	Quot.sound, propext
C78_usable_exact_partial	Classical.choice, Quot.sound, propext
C78_open_partial	Classical.choice, Quot.sound, propext
C79_violated	
C79_check_partial	Classical.choice, Quot.sound, propext
C79_exactly_partial	Classical.choice, Quot.sound, propext
C80_violated	Quot.sound, propext
C80_foreign_monitor_violated	Quot.sound, propext
C80_single_host_partial	Classical.choice, Quot.sound, propext
C80_roles_exactly_partial	Quot.sound, propext
C80_monitor_exactly_partial	Quot.sound, propext
C81_coroutine_violated	Quot.sound, propext
C81_short_violated	Quot.sound, propext
C81_exact_partial	Classical.choice, Quot.sound, propext
C81_no_deadlock_partial	Classical.choice, Quot.sound, propext
C81_bounded	Classical.choice, Quot.sound, propext
C81_terminates_partial	Classical.choice, Quot.sound, propext
C82_no_garbage	Quot.sound, propext
C82_own	Quot.sound, propext
C83_sum	Quot.sound, propext
C83_even	Quot.sound, propext
C83_nonzero	Quot.sound, propext
C84_violated	propext
C84_partial	Quot.sound, propext
C84_exactly_partial	Classical.choice, Quot.sound, propext
C85_missing_violated	
C85_address_violated	
C85_partial	Quot.sound, propext
C85_exactly_partial	Classical.choice, Quot.sound, propext
C86_initialize	Quot.sound, propext
C87_nested_calls_are_direct_calls	Quot.sound, propext
C87_any_program	Quot.sound, propext
C87_nested_schedule_independent	Quot.sound, propext
C87_copies_agree	Quot.sound, propext
C87_second_get_tells	Quot.sound, propext
C88_recursion_deadlocks	Classical.choice, Quot.sound, propext
C88_nested_get_violated	Classical.choice, Quot.sound, propext
C88_cycle_lasts	Classical.choice, Quot.sound, propext
C88_deadlock_is_cycle_partial	Classical.choice, Quot.sound, propext
C88_one_waiting_task_partial	Classical.choice, Quot.sound, propext
C88_progress_violated	Quot.sound, propext
C88_no_deadlock_without_nested_get_partial	Classical.choice, Quot.sound, propext
C88_can_finish_without_nested_get_partial	Classical.choice, Quot.sound, propext
C88_can_finish_within_workers_partial	Classical.choice, Quot.sound, propext
C88_can_finish_with_enough_workers_partial	Classical.choice, Quot.sound, propext
C88_recursion_finishes_iff	Classical.choice, Quot.sound, propext
C89_stolen_reply_violated	Quot.sound, propext
C89_task_waits_forever_violated	Quot.sound, propext
C89_wait_in_task_never_returns	Quot.sound, propext
C89_main_process_only_partial	Classical.choice, Quot.sound, propext
C89_main_process_returns_partial	Classical.choice, Quot.sound, propext
C90_call_before_creation_violated	Quot.sound, propext
C90_confirmed_handles_partial	Classical.choice, Quot.sound, propext
C90_overtaken_partial	Classical.choice, Quot.sound, propext
C91_registered_values_intact_partial	Classical.choice, Quot.sound, propext
C91_value_outlives_reference_violated	Quot.sound, propext
C91_lookup_overtaken_violated	Quot.sound, propext
C91_until_reuse_partial	Classical.choice, Quot.sound, propext
C92_unused_objects_reclaimed	Classical.choice, Quot.sound, propext
C92_used_objects_kept	Classical.choice, Quot.sound, propext
C93_cleanup_during_copy_violated	Quot.sound, propext
C93_cleanup_completes_partial	Classical.choice, Quot.sound, propext
C93_exact_partial	Classical.choice, Quot.sound, propext
C94_needed_objects_survive_partial	Classical.choice, Quot.sound, propext
C94_kept_arguments_partial	Classical.choice, Quot.sound, propext
C94_tasks_keep_arguments_partial	Classical.choice, Quot.sound, propext
C94_method_argument_violated	Quot.sound, propext
C94_hang_violated	Quot.sound, propext
C95_nothing_left_partial	Classical.choice, Quot.sound, propext
C95_late_answer_violated	Quot.sound, propext
C95_kept_forever_violated	Classical.choice, Quot.sound, propext
C95_kept_calls_partial	Classical.choice, Quot.sound, propext
C95_tasks_keep_results_partial	Classical.choice, Quot.sound, propext
C95_ignored_result_violated	Classical.choice, Quot.sound, propext
C95_monitor_violated	Quot.sound, propext
C96_threshold_violated	Classical.choice, Quot.sound, propext
C96_hosts_violated	Classical.choice, Quot.sound, propext
C96_cpus_violated	Classical.choice, Quot.sound, propext
C96_variable_violated	Classical.choice, Quot.sound, propext
C96_settings_partial	Classical.choice, Quot.sound, propext
C96_configuration_partial	Classical.choice, Quot.sound, propext
C96_defaults	Classical.choice, Quot.sound, propext
C97_quote_violated	Classical.choice, Quot.sound, propext
C97_backslash_violated	Classical.choice, Quot.sound, propext
C97_runs_value_violated	Classical.choice, Quot.sound, propext
C97_backslashes_partial	Classical.choice, Quot.sound, propext
C97_variables_partial	Classical.choice, Quot.sound, propext
C98_method_violated	Quot.sound, propext
C98_get_twice_violated	Quot.sound, propext
C98_task_behind_method_violated	Quot.sound, propext
C98_no_hang_partial	Classical.choice, Quot.sound, propext
C98_returns_partial	Classical.choice, Quot.sound, propext
C98_actors_partial	Classical.choice, Quot.sound, propext
C98_actors_return_partial	Classical.choice, Quot.sound, propext
C99_too_few_violated	propext
C99_dictionary_violated	propext
C99_generator_violated	propext
C99_not_iterable_violated	propext
C99_exception_value_violated	propext
C99_bytes_violated	propext
C99_agreement_violated	propext
C99_results_partial	Quot.sound, propext
C99_errors_partial	Quot.sound, propext
C99_no_wrong_item_partial	Quot.sound, propext
C99_one_exactly_partial	Quot.sound, propext
C99_sequence_exactly_partial	Classical.choice, Quot.sound, propext
C99_iterable_partial	Quot.sound, propext
C100_containers_violated	propext
C100_put_get_violated	propext
C100_put_get_partial	propext
C100_put_get_list_partial	Quot.sound, propext
C100_put_get_exactly_partial	Quot.sound, propext
C100_put_get_list_exactly_partial	Quot.sound, propext
C101_submit_violated	Classical.choice, Quot.sound, propext
C101_actor_methods_violated	Classical.choice, Quot.sound, propext
C101_private_violated	Classical.choice, Quot.sound, propext
C101_public_names_partial	Classical.choice, Quot.sound, propext
C101_private_names_partial	Classical.choice, Quot.sound, propext
C101_no_other_method	Classical.choice, Quot.sound, propext
C101_exact_partial	Classical.choice, Quot.sound, propext
C101_otherwise_partial	Classical.choice, Quot.sound, propext
C102_multiprocessing_violated	propext
C102_owner_rank_violated	Quot.sound, propext
C102_all_partial	Classical.choice, Quot.sound, propext
C102_one_actor_partial	Classical.choice, Quot.sound, propext
C102_creation_partial	Classical.choice, Quot.sound, propext
C102_passing_partial	Classical.choice, Quot.sound, propext
C102_arrives_partial	
C103_constructor_violated	propext
C103_missing_method_violated	propext
C103_unserializable_result_violated	propext
C103_unserializable_exception_violated	propext
C103_exit_violated	propext
C103_negative_returns_violated	propext
C103_no_returns_violated	propext
C103_well_behaved_partial	Classical.choice, Quot.sound, propext
C103_exact_partial	Classical.choice, Quot.sound, propext
C104_values_violated	propext
C104_unknown_owner_violated	propext
C104_values_partial	propext
C104_known_references_partial	Quot.sound, propext
C105_violated	Classical.choice, Quot.sound, propext
C105_stuck_violated	Quot.sound, propext
C105_malformed_violated	propext
C105_worker_partial	Classical.choice, Quot.sound, propext
C105_monitor	Classical.choice, Quot.sound, propext
C105_shutdown	propext
C105_distinct	propext
C106_libraries_partial	Quot.sound, propext
C106_sequential_partial	Quot.sound, propext
C106_mpi_partial	Classical.choice, Quot.sound, propext
C106_mpi_once_partial	Classical.choice, Quot.sound, propext
C106_processes	Classical.choice, Quot.sound, propext
C106_twice_violated	propext
C106_again_violated	propext
C106_put_violated	propext
C106_sequential_violated	propext
C106_violated	propext
C107_object_partial	Quot.sound, propext
C107_alone_partial	Classical.choice, Quot.sound, propext
C107_calls_partial	Classical.choice, Quot.sound, propext
C107_dropped_violated	Quot.sound, propext
C107_running_violated	Quot.sound, propext
C107_others_violated	Quot.sound, propext
C107_mpi_partial	Quot.sound, propext
C107_mpi_violated	Quot.sound, propext
C107_mpi_forever	Quot.sound, propext
C107_freed_partial	Classical.choice, Quot.sound, propext
C107_mpi_freed_partial	Classical.choice, Quot.sound, propext
C107_lost_partial	Classical.choice, Quot.sound, propext
C108_violated	Classical.choice, Quot.sound, propext
C108_all_violated	Classical.choice, Quot.sound, propext
C108_service_violated	Classical.choice, Quot.sound, propext
C108_starts_partial	Classical.choice, Quot.sound, propext
C108_exactly_partial	Classical.choice, Quot.sound, propext
C109_violated	Quot.sound, propext
C109_dropped_violated	Quot.sound, propext
C109_unused_partial	Quot.sound, propext
C109_when_partial	Classical.choice, Quot.sound, propext
C109_held_partial	Classical.choice, Quot.sound, propext
C110_result_violated	propext
C110_exception_violated	propext
C110_no_returns_violated	propext
C110_exit_violated	propext
C110_not_iterable_violated	propext
C110_loads_violated	propext
C110_exact_partial	Classical.choice, Quot.sound, propext
C110_queue_partial	Classical.choice, Quot.sound, propext
C110_methods_partial	Classical.choice, Quot.sound, propext
C110_returns_partial	Classical.choice, Quot.sound, propext
C111_recorded	Classical.choice, Quot.sound, propext
C111_get_violated	Quot.sound, propext
C111_task_violated	Quot.sound, propext
C111_result_violated	Quot.sound, propext
C111_forward_violated	Quot.sound, propext
C111_submit_violated	Quot.sound, propext
C111_pyseq_violated	propext
C111_mpi_partial	Quot.sound, propext
C111_sent_partial	Quot.sound, propext
C111_first_partial	Quot.sound, propext
C111_pyseq_partial	Quot.sound, propext
C111_pymp	Quot.sound, propext
C111_pymp_made	Quot.sound, propext
C111_pymp_tasks	Quot.sound, propext
C111_pyseq_made_partial	Quot.sound, propext
C112_exact_partial	Classical.choice, Quot.sound, propext
C112_large_violated	Classical.choice, Quot.sound, propext
C112_slots_violated	Quot.sound, propext
C112_scattered_violated	Quot.sound, propext
C112_fetch_violated	Quot.sound, propext
C112_copying_violated	Classical.choice, Quot.sound, propext
C112_silent	Quot.sound, propext
C112_answer_partial	Quot.sound, propext
C112_fits_partial	Classical.choice, Quot.sound, propext
C112_messages_partial	Classical.choice, Quot.sound, propext
C113_garbage_violated	Quot.sound, propext
C113_mutual_violated	propext
C113_waits_violated	Quot.sound, propext
C113_right_partial	Quot.sound, propext
C113_ends_partial	Quot.sound, propext
C113_bounded	Quot.sound, propext
C113_one_copy_partial	Quot.sound, propext
C113_reclaim	Quot.sound, propext
C114_batch_violated	Classical.choice, Quot.sound, propext
C114_result_violated	Classical.choice, Quot.sound, propext
C114_start_partial	Classical.choice, Quot.sound, propext
C114_regular_partial	Classical.choice, Quot.sound, propext
C114_none_left_partial	Classical.choice, Quot.sound, propext
C114_left_violated	Quot.sound, propext
C114_parts	Classical.choice, Quot.sound, propext
C115_exception_violated	
C115_switched_off_violated	
C115_nested_violated	propext
C115_success_partial	propext
C115_exact_partial	Quot.sound, propext
C115_user_code_partial	propext
C115_nested_partial	propext
C115_last	Quot.sound, propext
C116_version_of_checkout	Classical.choice, Quot.sound, propext
C116_describe_round_trip	Classical.choice, Quot.sound, propext
C116_describe_short	Classical.choice, Quot.sound, propext
C116_date	Classical.choice, Quot.sound, propext
C116_unparsable	Quot.sound, propext
C116_version_identifies_partial	Classical.choice, Quot.sound, propext
C116_collision_partial	Classical.choice, Quot.sound, propext
C116_violated	propext
C117_names_partial	Classical.choice, Quot.sound, propext
C117_archive_partial	Classical.choice, Quot.sound, propext
C117_archive_and_checkout_agree	Classical.choice, Quot.sound, propext
C117_date	Classical.choice, Quot.sound, propext
C117_revision	Quot.sound, propext
C117_directory_search	Quot.sound, propext
C117_source_directory	propext
C117_branch_violated	propext
C117_comma_violated	propext
C118_violated	propext
C118_unchanged_partial	Quot.sound, propext
C118_or_eq_exact_partial	propext
C118_union_partial	Classical.choice, Quot.sound, propext
C118_package_arrives	Quot.sound, propext
C118_wrapping_needed	propext
C119_nothing_written_violated	propext
C119_written_violated	propext
C119_log_partial	Quot.sound, propext
C119_exactly_partial	Classical.choice, Quot.sound, propext
C119_at_most_once_partial	Quot.sound, propext
C120_line_partial	Classical.choice, Quot.sound, propext
C120_violated	propext
C120_operations_exact_partial	Classical.choice, Quot.sound, propext
C120_names	Quot.sound, propext
C120_names_unique	
C120_line_determines	Classical.choice, Quot.sound, propext
C121_tuple_violated	propext
C121_frame_violated	propext
C121_text_violated	propext
C121_refused_exactly_partial	Classical.choice, Quot.sound, propext
C121_comes_back_partial	Quot.sound, propext
C121_importable_partial	Classical.choice, Quot.sound, propext
C122_functions_partial	Quot.sound, propext
C122_constructors_partial	Quot.sound, propext
C122_local_violated	Classical.choice, Quot.sound, propext
C122_text_violated	Quot.sound, propext
C122_arrives	Quot.sound, propext
C122_keys	propext
C123_looks_partial	Quot.sound, propext
C123_same_exactly_partial	Quot.sound, propext
C123_new	Quot.sound, propext
C123_refused_exactly_partial	Classical.choice, Quot.sound, propext
C123_cycle_violated	Classical.choice, Quot.sound, propext
C123_shared_violated	Quot.sound, propext
C123_depth_violated	Classical.choice, Quot.sound, propext
C123_pickled_partial	Quot.sound, propext
C123_levels_partial	Classical.choice, Quot.sound, propext
C124_empty_violated	propext
C124_short_violated	propext
C124_violated	Quot.sound, propext
C124_good_partial	Classical.choice, Quot.sound, propext
C124_exactly_partial	Classical.choice, Quot.sound, propext
C124_threshold_partial	Classical.choice, Quot.sound, propext
C124_sharp_violated	Quot.sound, propext
C125_put_violated	propext
C125_put_partial	propext
C125_others_partial	propext
C125_suffice_partial	Classical.choice, Quot.sound, propext
C125_exhausted_violated	Classical.choice, Quot.sound, propext
C125_default_violated	Classical.choice, Quot.sound, propext
C126_spawning_violated	Quot.sound, propext
C126_violated	Quot.sound, propext
C126_starts_partial	Quot.sound, propext
C126_exactly_partial	Classical.choice, Quot.sound, propext
C126_size	propext
C127_right_values	Classical.choice, Quot.sound, propext
C127_right_everywhere	Classical.choice, Quot.sound, propext
C127_same_program	Classical.choice, Quot.sound, propext
C127_all_gets_answered	Classical.choice, Quot.sound, propext
C128_violated	Quot.sound, propext
C128_mpi_partial	Classical.choice, Quot.sound, propext
C128_pymp_partial	Classical.choice, Quot.sound, propext
C128_pyseq_partial	Quot.sound, propext
C128_pyseq_first_partial	Quot.sound, propext
C128_same_partial	Classical.choice, Quot.sound, propext
C129_violated	Quot.sound, propext
C129_falsy_violated	Quot.sound, propext
C129_put_violated	Quot.sound, propext
C129_pymp_partial	Quot.sound, propext
C129_pyseq_partial	Quot.sound, propext
C129_exact_partial	Classical.choice, Quot.sound, propext
C129_program_partial	Classical.choice, Quot.sound, propext
C130_violated	propext
C130_positions_partial	Quot.sound, propext
C130_exactly_partial	Quot.sound, propext
C130_arrives_partial	Quot.sound, propext
C131_room_violated	Quot.sound, propext
C131_failed_violated	Quot.sound, propext
C131_pymp_partial	Classical.choice, Quot.sound, propext
C131_pymp_states_partial	Classical.choice, Quot.sound, propext
C131_pyseq_partial	Classical.choice, Quot.sound, propext
C131_overtaken_violated	Quot.sound, propext
C131_violated	Quot.sound, propext
C131_mpi_partial	Classical.choice, Quot.sound, propext
C132_local_object	Classical.choice, Quot.sound, propext
C133_violated	Classical.choice, Quot.sound, propext
C133_exactly_partial	Classical.choice, Quot.sound, propext
C133_together_partial	Classical.choice, Quot.sound, propext
C133_no_room_violated	Classical.choice, Quot.sound, propext
C133_ends	Quot.sound, propext
C133_default_partial	Classical.choice, Quot.sound, propext
C133_same_partial	Classical.choice, Quot.sound, propext
C134_whole_partial	Classical.choice, Quot.sound, propext
C134_exactly_partial	Classical.choice, Quot.sound, propext
C134_violated	Classical.choice, Quot.sound, propext
C134_monitor_violated	Classical.choice, Quot.sound, propext
C134_other_data_violated	Quot.sound, propext
C134_program_violated	Classical.choice, Quot.sound, propext
C135_uninterrupted_partial	Classical.choice, Quot.sound, propext
C135_values_partial	Classical.choice, Quot.sound, propext
C135_raises_partial	Classical.choice, Quot.sound, propext
C135_violated	Quot.sound, propext
C135_forever_violated	Classical.choice, Quot.sound, propext
C135_lost_violated	Quot.sound, propext
C136_received_partial	Classical.choice, Quot.sound, propext
C136_ranges_partial	Quot.sound, propext
C136_count_partial	Quot.sound, propext
C136_end_partial	Quot.sound, propext
C136_exactly_partial	Quot.sound, propext
C136_forever_violated	Quot.sound, propext
C136_violated	Quot.sound, propext
C136_shutdown_violated	Quot.sound, propext
C136_wait_forever_violated	Quot.sound, propext
C137_order_violated	Quot.sound, propext
C137_raises_violated	Quot.sound, propext
C137_skips_violated	Quot.sound, propext
C137_set_violated	Quot.sound, propext
C137_ends_exactly_partial	Classical.choice, Quot.sound, propext
C137_mpi_exactly_partial	Classical.choice, Quot.sound, propext
C137_pymp_exactly_partial	Classical.choice, Quot.sound, propext
C137_dask_exactly_partial	Classical.choice, Quot.sound, propext
C137_contract_partial	Classical.choice, Quot.sound, propext
C138_monitor_violated	Quot.sound, propext
C138_waits_violated	Quot.sound, propext
C138_kept_violated	Classical.choice, Quot.sound, propext
C138_partial	Classical.choice, Quot.sound, propext
C138_monitor_exactly_partial	Classical.choice, Quot.sound, propext
C138_waits_exactly_partial	Classical.choice, Quot.sound, propext
C138_kept_exactly_partial	Classical.choice, Quot.sound, propext
C139_exactly_partial	Classical.choice, Quot.sound, propext
C139_usable_partial	Classical.choice, Quot.sound, propext
C139_forgotten_partial	Classical.choice, Quot.sound, propext
C139_values_violated	Classical.choice, Quot.sound, propext
C139_violated	Quot.sound, propext
C139_collected_violated	Classical.choice, Quot.sound, propext
C140_replies_exactly_partial	Quot.sound, propext
C140_answered_partial	Quot.sound, propext
C140_monitor_exactly_partial	Quot.sound, propext
C140_orders_partial	Quot.sound, propext
C140_serial_partial	Quot.sound, propext
C140_swapped_violated	Quot.sound, propext
C140_monitor_violated	Quot.sound, propext
C140_ids_violated	Quot.sound, propext
C140_back_violated	Quot.sound, propext
C140_violated	Quot.sound, propext
C140_ids_partial	Quot.sound, propext
C140_numbers_partial	Quot.sound, propext
C141_once_partial	Classical.choice, Quot.sound, propext
C141_local_partial	Classical.choice, Quot.sound, propext
C141_least_exactly_partial	Classical.choice, Quot.sound, propext
C141_cancelled_violated	Classical.choice, Quot.sound, propext
C141_violated	Classical.choice, Quot.sound, propext
C141_lost_exactly_partial	Classical.choice, Quot.sound, propext
C141_possible_partial	Classical.choice, Quot.sound, propext
C141_pymp_partial	Quot.sound, propext
C141_pymp_violated	Quot.sound, propext
C141_pymp_possible_partial	Classical.choice, Quot.sound, propext
C142_good_partial	Classical.choice, Quot.sound, propext
C142_root_partial	Quot.sound, propext
C142_dead_exactly_partial	Quot.sound, propext
C142_own_partial	Classical.choice, Quot.sound, propext
C142_again_violated	Quot.sound, propext
C142_second_violated	Classical.choice, Quot.sound, propext
C142_stray_violated	Classical.choice, Quot.sound, propext
C142_lost_violated	Classical.choice, Quot.sound, propext
C142_violated	Classical.choice, Quot.sound, propext
C142_order_partial	Quot.sound, propext
C142_executed_partial	Quot.sound, propext
C142_ended_partial	Quot.sound, propext
C143_named_partial	Classical.choice, Quot.sound, propext
C143_refused_exactly_partial	Classical.choice, Quot.sound, propext
C143_default_partial	Quot.sound, propext
C143_dropped_violated	Classical.choice, Quot.sound, propext
C143_decorator_violated	Classical.choice, Quot.sound, propext
C143_method_violated	propext
C143_violated	Classical.choice, Quot.sound, propext
C144_needed_partial	Classical.choice, Quot.sound, propext
C144_kept_partial	Classical.choice, Quot.sound, propext
C144_put_partial	Classical.choice, Quot.sound, propext
C144_size_partial	Classical.choice, Quot.sound, propext
C144_unbounded_violated	Classical.choice, Quot.sound, propext
C144_violated	Quot.sound, propext
C144_orphan_violated	Classical.choice, Quot.sound, propext
C145_result_exactly_partial	Classical.choice, Quot.sound, propext
C145_placed_partial	Classical.choice, Quot.sound, propext
C145_ends_partial	Quot.sound, propext
C145_stuck_exactly_partial	Classical.choice, Quot.sound, propext
C145_self_partial	Quot.sound, propext
C145_noget_partial	Classical.choice, Quot.sound, propext
C145_first_violated	Quot.sound, propext
C145_function_violated	Classical.choice, Quot.sound, propext
C145_foreign_violated	Quot.sound, propext
C145_violated	Classical.choice, Quot.sound, propext
C146_first_violated	Classical.choice, Quot.sound, propext
C146_all_violated	Classical.choice, Quot.sound, propext
C146_violated	Classical.choice, Quot.sound, propext
C146_calls_violated	propext
C146_siblings_partial	Classical.choice, Quot.sound, propext
C146_earlier_partial	Classical.choice, Quot.sound, propext
C146_main_partial	Classical.choice, Quot.sound, propext
C146_own_exactly_partial	Classical.choice, Quot.sound, propext
C147_index_violated	Classical.choice, Quot.sound, propext
C147_class_violated	Quot.sound, propext
C147_worker_violated	Quot.sound, propext
C147_refused_violated	propext
C147_grabbed_violated	propext
C147_violated	Classical.choice, Quot.sound, propext
C147_index_partial	Classical.choice, Quot.sound, propext
C147_functions_partial	Classical.choice, Quot.sound, propext
C147_class_exactly_partial	Quot.sound, propext
C147_worker_partial	Quot.sound, propext
C147_room_partial	Quot.sound, propext
C147_alone_partial	Quot.sound, propext
C148_first_violated	Classical.choice, Quot.sound, propext
C148_hangs_violated	Classical.choice, Quot.sound, propext
C148_violated	Classical.choice, Quot.sound, propext
C148_stuck_exactly_partial	Classical.choice, Quot.sound, propext
C148_self_partial	Classical.choice, Quot.sound, propext
C148_ends_partial	Classical.choice, Quot.sound, propext
C148_careful_partial	Classical.choice, Quot.sound, propext
C148_once_partial	Classical.choice, Quot.sound, propext
C148_results_partial	Classical.choice, Quot.sound, propext
C148_fails_partial	Classical.choice, Quot.sound, propext
C148_no_worker_partial	propext
C149_violated	Quot.sound, propext
C149_never_violated	Classical.choice, Quot.sound, propext
C149_copy_violated	Quot.sound, propext
C149_data_partial	Classical.choice, Quot.sound, propext
C149_one_partial	Classical.choice, Quot.sound, propext
C149_inner_partial	Classical.choice, Quot.sound, propext
C149_kept_partial	Classical.choice, Quot.sound, propext
C149_loop_partial	Classical.choice, Quot.sound, propext
C149_orders_partial	Classical.choice, Quot.sound, propext
