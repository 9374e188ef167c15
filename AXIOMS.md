# Axioms of each theorem

Written by tools/gen_axioms.py from `#print axioms`. The three axioms are Lean's own.

## none

* `Verif.Sig.C48_violated_cancelled`
* `Verif.Sig.C48_second_partial`
* `Verif.Sig.C48_single_signal_exit`

## Classical.choice, Quot.sound, propext

* `Verif.C01_hex_alphabet`
* `Verif.C01_hex_roundtrip`
* `Verif.C02_base32_alphabet`
* `Verif.C02_base32_roundtrip`
* `Verif.C03_hex_injective`
* `Verif.C03_base32_injective`
* `Verif.C03_string_injective`
* `Verif.C04_hex_decode_iff`
* `Verif.C04_hex_decode_total`
* `Verif.C05_base32_decode_sound`
* `Verif.C05_base32_decode_complete`
* `Verif.C05_base32_decode_iff`
* `Verif.C05_base32_no_panic_partial`
* `Verif.C05_violated_iff`
* `Verif.C05_violated_newline`
* `Verif.C05_violated_ff`
* `Verif.UID.C05_violated_exactly`
* `Verif.C08_single_rooted_tree`
* `Verif.C08_children_iff_parent`
* `Verif.C08_one_parent`
* `Verif.C08_calls_end`
* `Verif.C08_duplicate_id_breaks_tree`
* `Verif.C09_add_child`
* `Verif.C09_add_root`
* `Verif.C09_add_refused`
* `Verif.C09_root_stable`
* `Verif.C09_nodes_stable`
* `Verif.C10_add_tag`
* `Verif.C10_add_tag_unknown`
* `Verif.C10_delete_tag`
* `Verif.C11_add_branch`
* `Verif.C11_add_branch_unknown`
* `Verif.C11_delete_branch`
* `Verif.C12_update_branch_iff`
* `Verif.C12_update_branch_effect`
* `Verif.C12_update_branch_ends`
* `Verif.C13_no_dangling`
* `Verif.C14_violated_exactly`
* `Verif.C14_search_id`
* `Verif.C14_search_names`
* `Verif.C14_violated_newline`
* `Verif.C15_load_dump`
* `Verif.C15_dump_exists`
* `Verif.C15_dump_loop`
* `Verif.C15_cycles`
* `Verif.C15_order_irrelevant`
* `Verif.C16_load_total`
* `Verif.C16_load_iff_partial`
* `Verif.C16_load_content_partial`
* `Verif.C17_save_load_partial`
* `Verif.C17_comes_back`
* `Verif.C17_utf8_iff`
* `Verif.C17_saves`
* `Verif.C17_violated_lost`
* `Verif.C17_violated_merged`
* `Verif.C17_info_roundtrip`
* `Verif.C18_torn_detected`
* `Verif.C18_read_error`
* `Verif.C18_never_misread`
* `Verif.C18_info_torn`
* `Verif.C19_loads_iff_partial`
* `Verif.C19_small_loads`
* `Verif.C19_violated_depth`
* `Verif.C19_chain_loads`
* `Verif.C20_full_name_injective`
* `Verif.C20_parse_full_name_partial`
* `Verif.C20_violated_newline`
* `Verif.C20_parse_total`
* `Verif.C20_parse_sound`
* `Verif.C20_local_name`
* `Verif.C20_local_readings`
* `Verif.C21_reachable_names`
* `Verif.Ws.C21_all_branches_partial`
* `Verif.Ws.C21_local_branches_partial`
* `Verif.Ws.C21_remote_branches_partial`
* `Verif.Ws.C21_isolated`
* `Verif.Ws.C21_violated_newline`
* `Verif.Ws.C21_names_stay_proper`
* `Verif.Ws.C22_tags`
* `Verif.Ws.C23_history`
* `Verif.C24_refused`
* `Verif.C24_accepted_iff`
* `Verif.Ws.C24_add_branch`
* `Verif.Ws.C24_add_tag`
* `Verif.Ws.C25_checked_out`
* `Verif.Ws.C25_delete_branch`
* `Verif.Ws.C25_confined`
* `Verif.C26_search_crashes_iff`
* `Verif.Ws.C26_search`
* `Verif.C27_commit_effect`
* `Verif.C27_commit_keeps_files`
* `Verif.C28_accepted_iff`
* `Verif.C28_refused`
* `Verif.C29_violated_on_branch`
* `Verif.C29_detached_partial`
* `Verif.C29_detached_commits`
* `Verif.C30_own_branch`
* `Verif.C30_next_commit`
* `Verif.C30_violated_full_name`
* `Verif.C30_violated_refused`
* `Verif.C31_append_only`
* `Verif.C32_commit_layer`
* `Verif.C32_commit_frozen`
* `Verif.C32_violated_commit`
* `Verif.C32_violated_killed`
* `Verif.C32_layer_frozen_partial`
* `Verif.C32_idle_frozen`
* `Verif.C32_content_frozen_partial`
* `Verif.C32_violated_busy`
* `Verif.C33_checkout_restores`
* `Verif.C34_clone`
* `Verif.C35_isolated_partial`
* `Verif.C35_steady_partial`
* `Verif.C35_violated_checkout`
* `Verif.C35_write_partial`
* `Verif.C35_own_layer_partial`
* `Verif.C36_reachable`
* `Verif.C36_upper_unique`
* `Verif.C36_upper_new`
* `Verif.C36_mount_fresh`
* `Verif.C37_mount_new`
* `Verif.C37_too_few`
* `Verif.C37_stack`
* `Verif.C37_missing_layer`
* `Verif.C38_options_partial`
* `Verif.C38_violated_comma`
* `Verif.C38_violated_colon`
* `Verif.C38_violated_backslash`
* `Verif.C39_length`
* `Verif.C39_fits_iff_partial`
* `Verif.C39_violated_depth`
* `Verif.C39_default_root`
* `Verif.C39_violated_meaning`
* `Verif.Layer.C40_create`
* `Verif.Layer.C40_list`
* `Verif.Layer.C40_list_foreign`
* `Verif.Layer.C40_delete`
* `Verif.Layer.C40_history_partial`
* `Verif.Layer.C40_none_missing`
* `Verif.Layer.C40_violated_half`
* `Verif.Layer.C40_violated_alias`
* `Verif.Layer.C40_violated_panic`
* `Verif.C41_violated_forever`
* `Verif.C41_commit`
* `Verif.C41_checkout`
* `Verif.C41_clone`
* `Verif.C41_edit`
* `Verif.C41_init`
* `Verif.C41_closed`
* `Verif.C41_content`
* `Verif.C41_violated_truncated`
* `Verif.C42_commit`
* `Verif.C42_checkout`
* `Verif.C42_clone`
* `Verif.C42_init`
* `Verif.C43_violated_clash`
* `Verif.C43_violated_tags`
* `Verif.C43_violated_overlap`
* `Verif.C43_sequential`
* `Verif.C44_leads_to_iff`
* `Verif.C44_mount_path`
* `Verif.C44_otherwise_error`
* `Verif.C44_lexical`
* `Verif.C44_violated_exactly`
* `Verif.C44_violated_newline`
* `Verif.C45_violated_init`
* `Verif.C45_init`
* `Verif.C45_clone_partial`
* `Verif.C45_violated_clone`
* `Verif.C46_root_partial`
* `Verif.C46_violated_delete`
* `Verif.C46_violated_move`
* `Verif.Ws.C49_log_panics_iff`
* `Verif.Ws.C49_log_unknown`
* `Verif.C49_violated_working_layer`
* `Verif.C49_violated_after_checkout`
* `Verif.C49_log_partial`
* `Verif.Ws.C50_history`
* `Verif.Ws.C50_printed`
* `Verif.Ws.C50_output`
* `Verif.C50_commit_partial`
* `Verif.C50_stays`
* `Verif.C50_violated_utf8`
* `Verif.Time.C50_date_round_trip`
* `Verif.Locks.C51_no_deadlock`
* `Verif.Locks.C51_exclusive`
* `Verif.Locks.C51_all_finish`
* `Verif.C52_names_closed`
* `Verif.C52_loads`
* `Verif.C52_content`
* `Verif.C52_not_a_snapshot`
* `Verif.C52_violated_no_root`
* `Verif.Alias.C53_setters_keep`
* `Verif.C54_removed`
* `Verif.C54_frame`
* `Verif.C55_accepted`
* `Verif.C55_init`
* `Verif.C55_references`
* `Verif.C55_accepted_iff`
* `Verif.C56_others`
* `Verif.C57_violated_checkout`
* `Verif.C57_violated_edit`
* `Verif.C57_violated_link`
* `Verif.C57_commit_partial`
* `Verif.C57_checkout_partial`
* `Verif.C57_clone_partial`
* `Verif.C57_edit_partial`
* `Verif.C57_init`
* `Verif.C57_progress`
* `Verif.C58_mounted`
* `Verif.C58_violated_reboot`
* `Verif.C59_tag`
* `Verif.C59_untag`
* `Verif.C59_branch`
* `Verif.C59_unbranch`
* `Verif.C60_no_global_branch`
* `Verif.C60_origin`
* `Verif.C60_no_remote_branches`
* `Verif.C60_concurrent`
* `Verif.C61_checkout_accepted_iff`
* `Verif.C61_checkout_refused`
* `Verif.C62_clone_accepted_iff`
* `Verif.Ws.C63_marks_partial`
* `Verif.Ws.C63_tells_partial`
* `Verif.Cli.C64_same_partial`
* `Verif.Cli.C64_root`
* `Verif.Cli.C64_violated_refused`
* `Verif.Cli.C64_violated_names`
* `Verif.Cli.C64_violated_branch`
* `Verif.Cli.C64_violated_untag`
* `Verif.Cli.C64_violated_untag_disk`
* `Verif.Cli.C65_on_branch_partial`
* `Verif.Cli.C65_violated`
* `Verif.Cli.C65_checkout_partial`
* `Verif.Cli.C65_violated_checkout`
* `Verif.Cli.C66_message_partial`
* `Verif.Cli.C66_violated`
* `Verif.Cli.C66_line`
* `Verif.Cli.C67_chdir_root`
* `Verif.Cli.C67_chdir_user`
* `Verif.Cli.C68_reading`
* `Verif.Cli.C68_which`
* `Verif.Cli.C69_branches`
* `Verif.Cli.C69_remotes`
* `Verif.Cli.C69_all`
* `Verif.Cli.C69_tags_partial`
* `Verif.Cli.C69_violated_tags`
* `Verif.Cli.C70_tags`
* `Verif.Cli.C70_tags_stop`
* `Verif.Cli.C70_branches`
* `Verif.Cli.C70_branches_stop`
* `Verif.C71_tree_whole`
* `Verif.C71_load_total`
* `Verif.C71_record_whole`
* `Verif.C71_no_failing_writes`
* `Verif.C71_apart`
* `Verif.C71_one_after_another`
* `Verif.C72_ancestry`
* `Verif.C72_parent`
* `Verif.C73_no_hang`
* `Verif.C73_crash`
* `Verif.C74_mount_history`
* `Verif.C74_mount_history_before`
* `Verif.C74_mounts_agree`
* `Verif.C75_init`
* `Verif.C75_clone`
* `Verif.C75_commit`
* `Verif.C75_checkout`
* `Verif.C75_others_commit`
* `Verif.C75_others_checkout`
* `Verif.C75_others_clone`
* `Verif.C75_others_init`
* `Verif.C76_violated_commit`
* `Verif.C76_violated_checkout`
* `Verif.C76_violated_clone`
* `Verif.C76_violated_owner`
* `Verif.C76_edit_partial`
* `Verif.C77_tidy`
* `Verif.C77_apart`
* `Verif.C77_killed`
* `Verif.C77_past`
* `Verif.C77_commit`
* `Verif.C78_untouched`
* `Verif.C78_torn`
* `Verif.C79_killed`
* `Verif.C79_serial`
* `Verif.C79_answers`
* `Verif.Cli.C80_values`
* `Verif.Cli.C80_one_number`
* `Verif.Cli.C80_means`
* `Verif.Cli.C80_one`
* `Verif.Cli.C80_front`
* `Verif.Cli.C80_only`
* `Verif.Cli.C80_words`
* `Verif.Cli.C80_options`
* `Verif.Cli.C80_job`
* `Verif.Cli.C81_done`
* `Verif.Cli.C81_line`
* `Verif.C82_no_workspace_partial`
* `Verif.C82_no_source_partial`
* `Verif.C82_checkout_partial`
* `Verif.C82_edit_partial`
* `Verif.C82_init_partial`
* `Verif.C82_violated_commit`
* `Verif.C82_violated_clone`
* `Verif.C82_violated_init`
* `Verif.C83_tidy`
* `Verif.C83_layers`
* `Verif.C83_refused`
* `Verif.Sudo.C84_zero`
* `Verif.Sudo.C84_status`
* `Verif.Sudo.C84_stops`
* `Verif.Sudo.C84_violated_interrupt`
* `Verif.Sudo.C84_violated_killed`
* `Verif.Sudo.C84_done`
* `Verif.C85_commit_partial`
* `Verif.C85_checkout_partial`
* `Verif.C85_violated_commit`
* `Verif.C85_violated_checkout`
* `Verif.C86_init`
* `Verif.C86_clone`
* `Verif.C87_init_partial`
* `Verif.C87_violated_init`
* `Verif.C87_violated_clone`
* `Verif.C88_violated_commit`
* `Verif.C88_violated_commit_runs`
* `Verif.C88_commit_partial`
* `Verif.C88_commit_refused`
* `Verif.C88_violated_checkout`
* `Verif.C88_violated_checkout_runs`
* `Verif.C88_checkout_partial`
* `Verif.C89_violated_pigeonhole`
* `Verif.C89_used_layer_partial`
* `Verif.C89_again_partial`
* `Verif.C89_violated_refused`
* `Verif.C89_careful_partial`
* `Verif.C89_at_once_partial`
* `Verif.C90_wrapped`
* `Verif.C90_from`
* `Verif.C90_text_kept`
* `Verif.C90_text_tells`
* `Verif.C90_layer`
* `Verif.C90_violated_text`
* `Verif.C91_simulates`
* `Verif.C91_history`
* `Verif.C91_goes_on`
* `Verif.C91_returns`
* `Verif.C91_undisturbed`
* `Verif.C92_layer_stays`
* `Verif.C92_set_aside`
* `Verif.C92_restart`
* `Verif.C92_violated_checkout`
* `Verif.C93_layers`
* `Verif.C93_layers_stay`
* `Verif.C93_mounts`
* `Verif.C93_spaces`
* `Verif.C93_commit`
* `Verif.C93_checkout`
* `Verif.C93_clone`
* `Verif.C93_init`
* `Verif.C94_moved`
* `Verif.C94_init`
* `Verif.C94_clone`
* `Verif.C94_commit`
* `Verif.C94_checkout`
* `Verif.C94_same`
* `Verif.C94_violated_two_links`
* `Verif.C95_nodes`
* `Verif.C95_parent`
* `Verif.C95_root`
* `Verif.C95_has_child`
* `Verif.C95_children`
* `Verif.C95_leaf`
* `Verif.C95_add_answer`
* `Verif.C95_delete_answer`
* `Verif.C95_annotation`
* `Verif.C95_data`
* `Verif.C95_returns`
* `Verif.C96_found`
* `Verif.C96_found_itself`
* `Verif.C96_others`
* `Verif.C96_accepted`
* `Verif.C96_accepted_root`
* `Verif.C97_tree`
* `Verif.C97_record`
* `Verif.C97_null`
* `Verif.C97_violated_lost`
* `Verif.C98_layout`
* `Verif.C98_refused`
* `Verif.C98_written`
* `Verif.C98_written_record`
* `Verif.C98_one_value`
* `Verif.C98_spelling`
* `Verif.Alias.C99_set_parent`
* `Verif.Alias.C99_add_annotation`
* `Verif.Alias.C99_set_annotations`
* `Verif.Alias.C99_add_data`
* `Verif.Alias.C99_set_data`
* `Verif.Alias.C99_add_child`
* `Verif.Alias.C99_delete_child`
* `Verif.Alias.C99_add_tag`
* `Verif.Alias.C99_delete_tag`
* `Verif.Alias.C99_add_branch`
* `Verif.Alias.C99_delete_branch`
* `Verif.Alias.C99_update_branch`
* `Verif.Alias.C99_add_node`
* `Verif.Alias.C99_others`
* `Verif.Alias.C99_names`
* `Verif.Alias.C99_shared_map`
* `Verif.C100_hex`
* `Verif.C100_hex_unique`
* `Verif.C100_base32`
* `Verif.C100_base32_unique`
* `Verif.C100_string`
* `Verif.C100_read_hex`
* `Verif.C100_read_base32`
* `Verif.C101_written`
* `Verif.C101_read`
* `Verif.C101_one_tree`
* `Verif.C101_record_written`
* `Verif.C101_record_read`
* `Verif.Linear.C102_violated_search`
* `Verif.C103_one_moment_partial`
* `Verif.C103_commit_partial`
* `Verif.C103_checkout_partial`
* `Verif.C103_files_partial`
* `Verif.C103_violated`
* `Verif.C104_chdir`
* `Verif.C104_commit_partial`
* `Verif.C104_checkout_partial`
* `Verif.C104_clone`
* `Verif.C104_init`
* `Verif.C104_edit`
* `Verif.C104_clone_lost`
* `Verif.C104_violated_commit`
* `Verif.C104_violated_checkout`
* `Verif.C106_refused_partial`
* `Verif.C106_violated_commit`
* `Verif.C106_violated_checkout`
* `Verif.C106_violated_edit`
* `Verif.C107_same`
* `Verif.C107_commit`
* `Verif.C107_checkout`
* `Verif.C107_commit_accepted_iff`
* `Verif.C107_checkout_accepted_iff`
* `Verif.C107_runs`
* `Verif.C107_outer_commit`
* `Verif.C107_outer_checkout_partial`
* `Verif.C107_violated_checkout`
* `Verif.C107_violated_stale`
* `Verif.C107_clone_into`
* `Verif.C107_clone_self`
* `Verif.C107_clone_accepted_iff`
* `Verif.C107_clone_runs`
* `Verif.C107_clone_from`
* `Verif.C107_clone_from_runs`
* `Verif.C107_clone_from_accepted_iff`
* `Verif.C107_edit_same`
* `Verif.C107_edit`
* `Verif.C107_edit_accepted_iff`
* `Verif.C107_edit_runs`
* `Verif.C107_init_into`
* `Verif.C107_init_accepted_iff`
* `Verif.C107_init_runs`
* `Verif.C108_spelling`
* `Verif.C108_refused`
* `Verif.C108_undisturbed`
* `Verif.C108_past`
* `Verif.C108_violated_taken`
* `Verif.C108_violated_lost`
* `Verif.C109_violated_refused`
* `Verif.C109_relinked`
* `Verif.C109_commits`
* `Verif.C109_work`
* `Verif.C109_commit`
* `Verif.C109_commit_accepted_iff`
* `Verif.C109_violated_long`
* `Verif.C110_reachable`
* `Verif.C110_snapshot`
* `Verif.C110_snapshot_one`
* `Verif.C110_restored`
* `Verif.C110_commits`
* `Verif.C110_violated_lost`
* `Verif.C111_commit`
* `Verif.C111_checkout`
* `Verif.C111_init`
* `Verif.C111_clone`
* `Verif.C111_edit`
* `Verif.C111_no_other`
* `Verif.C111_violated_killed`
* `Verif.C112_next_iff`
* `Verif.C112_possible_iff`
* `Verif.C112_new`
* `Verif.C112_violated_full`
* `Verif.C112_violated_left`
* `Verif.C112_violated_always`
* `Verif.C112_violated_written`
* `Verif.C112_violated_lost`
* `Verif.C113_repeated`
* `Verif.C113_checkout_repeated`
* `Verif.C113_violated_gone`
* `Verif.C113_violated_extra`
* `Verif.C113_violated_delete`
* `Verif.C113_violated_delete_branches`
* `Verif.C113_edit_repeated`
* `Verif.C113_init_repeated`
* `Verif.C113_clone_repeated`
* `Verif.C113_forced_repeated`
* `Verif.C114_forced`
* `Verif.C114_refused`
* `Verif.C115_tag_deleted`
* `Verif.C115_branch_deleted`
* `Verif.C115_tag_restored`
* `Verif.C115_branch_restored`
* `Verif.C116_once`
* `Verif.C116_any_way`
* `Verif.C116_there_and_back`
* `Verif.C117_either_order`
* `Verif.C118_new_branch`
* `Verif.C118_tag`
* `Verif.C119_others`
* `Verif.C119_same`
* `Verif.C119_current`
* `Verif.C119_violated`
* `Verif.C119_repair`
* `Verif.C120_tag`
* `Verif.C120_hand_over`
* `Verif.C120_id`
* `Verif.C121_start`
* `Verif.C121_id`
* `Verif.C121_name`
* `Verif.C122_same`
* `Verif.C122_clone`

## Quot.sound, propext

* `Verif.C01_hex_length`
* `Verif.C03_hex_ne_base32`
* `Verif.C06_hash_leading_bytes_partial`
* `Verif.C06_violated_short`
* `Verif.C07_draws_recoverable`
* `Verif.C07_new_injective`
* `Verif.C07_new_surjective`
* `Verif.C16_load_empty`
* `Verif.C16_violated_duplicate`
* `Verif.Ws.C23_history_members`
* `Verif.Layer.C40_get`
* `Verif.Layer.C40_get_foreign`
* `Verif.Prep.C47_succeeds`
* `Verif.Prep.C47_once`
* `Verif.Prep.C47_race`
* `Verif.Sig.C48_first_cancels`
* `Verif.Sig.C48_only_by_signal`
* `Verif.Sig.C48_exit_code`
* `Verif.Sig.C48_violated_second`
* `Verif.Sig.C48_second_not_lost_partial`
* `Verif.Alias.C53_caller_cannot_change`
* `Verif.Alias.C53_annotations`
* `Verif.Alias.C53_refs`
* `Verif.Alias.C53_data`
* `Verif.C89_violated_same_ids`
* `Verif.C96_violated_cycle`
* `Verif.C96_violated_duplicate`
* `Verif.Linear.C102_linearizable_partial`
* `Verif.Linear.C102_violated_links`
* `Verif.NodeLock.C105_linearizable_partial`
* `Verif.NodeLock.C105_linearizable_nil`
* `Verif.NodeLock.C105_no_crash`
* `Verif.Parents.C105_parent_partial`

## propext

* `Verif.C02_base32_length`
* `Verif.C35_violated_shared`
* `Verif.Prep.C47_ready`
* `Verif.Prep.C47_only_makes`
* `Verif.Prep.C47_idempotent`
* `Verif.Prep.C47_violated_retry`
* `Verif.Prep.C47_violated_nothing_there`
* `Verif.Alias.C99_new_node`
* `Verif.NodeLock.C105_violated_nil`
* `Verif.NodeLock.C105_alone`
* `Verif.Parents.C105_violated_parent`
