Verif.WriteBack.C01_conservation: propext, Classical.choice, Quot.sound
Verif.WriteBack.C01_never_overlent: propext, Classical.choice, Quot.sound
Verif.WriteBack.C01_assertion_holds: propext, Classical.choice, Quot.sound
Verif.WriteBack.C01_full_when_repaid_partial: propext, Classical.choice, Quot.sound
Verif.WriteBack.C01_dropped_future_leaks: propext
Verif.WriteBack.C02_waits_only_while_lent_partial: propext, Classical.choice, Quot.sound
Verif.WriteBack.C02_front_waits_only_if_short_partial: propext, Classical.choice, Quot.sound
Verif.WriteBack.C02_deadlock: propext, Classical.choice, Quot.sound
Verif.WriteBack.C02_deadlock_two_borrowers: propext
Verif.WriteBack.C03_total_preserved: propext, Quot.sound
Verif.WriteBack.C03_never_negative: propext, Classical.choice, Quot.sound
Verif.WriteBack.C03_amounts: propext, Classical.choice, Quot.sound
Verif.Cache.C04_refines_lru: propext, Classical.choice, Quot.sound
Verif.Cache.C04_size_exact: propext, Classical.choice, Quot.sound
Verif.Cache.C04_lookup_latest: propext, Classical.choice, Quot.sound
Verif.Cache.C04_kept: propext, Classical.choice, Quot.sound
Verif.Cache.C04_eviction_partial: propext, Classical.choice, Quot.sound
Verif.Cache.C04_duplicate_insert_evicts: none
Verif.Cache.C04_duplicate_insert_not_most_recent: none
Verif.Cache.Fill.C05_failed_fill_wedges: propext, Quot.sound
Verif.Cache.Fill.C05_evicted_before_poll_panics: propext
Verif.Cache.Fill.C05_cancelled_waiter_panics_filler: propext
Verif.Cache.Fill.C05_readers_served_partial: propext, Classical.choice, Quot.sound
Verif.PrimeS.C06_bijection_partial: propext, Classical.choice, Quot.sound
Verif.PrimeS.C06_new_accepts: propext, Classical.choice, Quot.sound
Verif.PrimeS.C06_overflow_panics: propext, Classical.choice, Quot.sound
Verif.PrimeS.C06_overflow_collides: propext, Classical.choice, Quot.sound
Verif.PrimeS.C06_overflow_new_panics: propext, Classical.choice, Quot.sound
Verif.PrimeS.C07_distinct_disks: propext, Classical.choice, Quot.sound
Verif.PrimeS.C07_always_placed: propext, Classical.choice, Quot.sound
Verif.PrimeS.C07_survives_f_losses: propext, Classical.choice, Quot.sound
Verif.PrimeS.C08_iterator_partial: propext, Classical.choice, Quot.sound
Verif.PrimeS.C08_rank_injective: propext, Classical.choice, Quot.sound
Verif.Codec.C09_decode: propext, Classical.choice, Quot.sound
Verif.Codec.C09_single_parity: propext, Classical.choice, Quot.sound
Verif.Codec.C09_encode_update: propext, Classical.choice, Quot.sound
Verif.Codec.C09_encodev: propext, Classical.choice, Quot.sound
Verif.Raid.C10_read: propext, Classical.choice, Quot.sound
Verif.Raid.C10_whole_stripes: propext, Classical.choice, Quot.sound
Verif.Raid.C10_in_order_partial: propext, Classical.choice, Quot.sound
Verif.Raid.C10_flush: propext, Classical.choice, Quot.sound
Verif.Raid.C10_out_of_order: propext, Classical.choice, Quot.sound
Verif.Raid.C11_exact: propext, Classical.choice, Quot.sound
Verif.Raid.C11_inside: propext, Classical.choice, Quot.sound
Verif.Raid.C11_ordered: propext, Classical.choice, Quot.sound
Verif.Raid.C11_lba2zone: propext, Classical.choice, Quot.sound
Verif.Raid.C11_primeS: propext, Classical.choice, Quot.sound
Verif.Raid.C12_ok_iff: propext, Classical.choice, Quot.sound
Verif.Raid.C12_error: propext
Verif.Raid.C12_recover_multi: propext, Classical.choice, Quot.sound
Verif.Raid.C12_recover_one: propext, Classical.choice, Quot.sound
Verif.Raid.C12_recover_onev: propext, Classical.choice, Quot.sound
Verif.Raid.C12_array_ok_iff: propext, Classical.choice, Quot.sound
Verif.Raid.C13_write: propext, Classical.choice, Quot.sound
Verif.Raid.C13_sync: propext, Classical.choice, Quot.sound
Verif.Raid.C13_label_spacemap_partial: propext, Classical.choice, Quot.sound
Verif.Raid.C13_label_spacemap_panic: propext, Quot.sound
Verif.Raid.C13_read_spacemap_partial: propext, Classical.choice, Quot.sound
Verif.Raid.C13_read_spacemap_panic: propext
Verif.Raid.C13_health: propext, Classical.choice, Quot.sound
Verif.Raid.C13_restore_count: propext
Verif.Raid.C13_read: propext, Classical.choice, Quot.sound
Verif.Mirror.C14_read: propext, Classical.choice, Quot.sound
Verif.Mirror.C14_round_robin: propext, Quot.sound
Verif.Mirror.C14_read_long: propext, Classical.choice, Quot.sound
Verif.Mirror.C15_nothing_else: propext, Quot.sound
Verif.Mirror.C15_copies: propext, Classical.choice, Quot.sound
Verif.Mirror.C15_agree: propext, Classical.choice, Quot.sound
Verif.Mirror.C15_no_read_error: propext, Quot.sound
Verif.Raid.C15_raid_closed_partial: none
Verif.Raid.C15_raid_open_short: propext, Classical.choice, Quot.sound
Verif.Raid.C15_raid_open_nothing: propext, Classical.choice, Quot.sound
Verif.Mirror.C16_in_service_current_partial: propext, Classical.choice, Quot.sound
Verif.Mirror.C16_import_partial: propext, Classical.choice, Quot.sound
Verif.Mirror.C16_import_succeeds: propext, Classical.choice, Quot.sound
Verif.Mirror.C16_counterexample: propext, Quot.sound
Verif.Mirror.C16_split_brain_counterexample: propext, Quot.sound
Verif.Label.C17_round_trip_partial: propext, Classical.choice, Quot.sound
Verif.Label.C17_write_total_partial: propext, Quot.sound
Verif.Label.C17_big_record_panics: propext
Verif.Label.C17_oversize_unreadable: propext, Classical.choice, Quot.sound
Verif.Label.C18_only_intact_accepted: propext, Classical.choice, Quot.sound
Verif.Label.C18_damage_rejected_partial: propext, Classical.choice, Quot.sound
Verif.Label.C18_never_panics_partial: propext, Quot.sound
Verif.Label.C18_overflow_panics: none
Verif.Label.C18_altered_accepted_collides: propext, Classical.choice, Quot.sound
Verif.Label.C18_second_label_used: propext, Quot.sound
Verif.Zone.C19_lba2zone_iff_partial: propext, Classical.choice, Quot.sound
Verif.Zone.C19_exactly_one_zone_partial: propext, Classical.choice, Quot.sound
Verif.Zone.C19_adjacent: propext
Verif.Zone.C19_disjoint_partial: propext, Classical.choice, Quot.sound
Verif.Zone.C19_reserved_outside_partial: propext, Classical.choice, Quot.sound
Verif.Zone.C19_reserved_parts: propext, Classical.choice, Quot.sound
Verif.Zone.C19_writes_separated: propext, Classical.choice, Quot.sound
Verif.Zone.C19_spacemap_big_enough: propext, Quot.sound
Verif.Zone.C19_small_zones_overlap: none
Verif.Zone.C19_last_zone_past_end: none
Verif.Zone.C19_zones_within_partial: propext, Quot.sound
Verif.Sched.C20_exactly_once: propext, Classical.choice, Quot.sound
Verif.Sched.C20_all_issued: propext, Classical.choice, Quot.sound
Verif.Sched.C20_never_stalls: propext, Classical.choice, Quot.sound
Verif.Sched.C20_quiet_complete: propext, Classical.choice, Quot.sound
Verif.Sched.C20_no_panic: propext, Classical.choice, Quot.sound
Verif.Sched.C21_sync_is_barrier: propext, Classical.choice, Quot.sound
Verif.Sched.C21_sync_requests: propext, Classical.choice, Quot.sound
Verif.Sched.C22_lba_order_partial: propext, Classical.choice, Quot.sound
Verif.Sched.C22_zone_order_partial: propext, Classical.choice, Quot.sound
Verif.Sched.C22_last_lba_first: propext, Quot.sound
Verif.Sched.C23_same_bytes: propext, Classical.choice, Quot.sound
Verif.Sched.C23_only_adjacent: propext, Classical.choice, Quot.sound
Verif.Sched.C23_iov_max: propext, Classical.choice, Quot.sound
Verif.Cluster.C24_alloc_disjoint: propext, Classical.choice, Quot.sound
Verif.Cluster.C24_log_disjoint: propext, Classical.choice, Quot.sound
Verif.Cluster.C25_no_panic: propext, Classical.choice, Quot.sound
Verif.Cluster.C25_used_exact: propext, Classical.choice, Quot.sound
Verif.Cluster.C25_counter_exact: propext, Classical.choice, Quot.sound
Verif.Cluster.C26_erased_unused: propext, Classical.choice, Quot.sound
Verif.Cluster.C26_live_survives: propext, Classical.choice, Quot.sound
Verif.Cluster.C26_not_reused_before_commit: propext, Classical.choice, Quot.sound
Verif.Cluster.C27_reclaimed_partial: propext, Classical.choice, Quot.sound
Verif.Cluster.C27_available: propext, Classical.choice, Quot.sound
Verif.Cluster.C27_leak: propext, Classical.choice, Quot.sound
Verif.Cluster.C27_leak_reachable: propext, Quot.sound
Verif.Cluster.C28_spacemap_roundtrip: propext, Classical.choice, Quot.sound
Verif.Cluster.C28_bad_checksum_rejected: propext, Quot.sound
Verif.Cluster.C29_first_copy_partial: propext, Classical.choice, Quot.sound
Verif.Cluster.C29_no_panic: propext, Classical.choice, Quot.sound
Verif.Cluster.C29_second_copy_stale: propext
Verif.Cluster.C30_list_closed_zones: propext, Classical.choice, Quot.sound
Verif.Cluster.C30_entries: propext, Classical.choice, Quot.sound
Verif.Cluster.C31_rebuild_complete_partial: propext, Classical.choice, Quot.sound
Verif.Cluster.C31_need_start: propext, Quot.sound
Verif.Cluster.C31_zone_missed: propext, Quot.sound
Verif.Crash.C32_crash_partial: propext, Classical.choice, Quot.sound
Verif.Crash.C32_label_partial: propext, Classical.choice, Quot.sound
Verif.Crash.C32_contents: propext, Classical.choice, Quot.sound
Verif.Crash.C32_no_panic: propext, Classical.choice, Quot.sound
Verif.Crash.C32_window_counterexample: propext, Classical.choice, Quot.sound
Verif.Crash.C32_torn_spacemap_counterexample: propext, Classical.choice, Quot.sound
Verif.Crash.C32_no_label_counterexample: propext, Classical.choice, Quot.sound
Verif.Ddml.C33_compress: propext, Quot.sound
Verif.Ddml.C33_history: propext, Classical.choice, Quot.sound
Verif.Ddml.C33_put_then_get: propext, Quot.sound
Verif.Ddml.C34_read: propext
Verif.Ddml.C34_history: propext, Classical.choice, Quot.sound
Verif.Ddml.C34_no_wrong_record: propext, Classical.choice, Quot.sound
Verif.Ddml.C35_over_raid_partial: propext, Classical.choice, Quot.sound
Verif.Ddml.C35_recovers_partial: propext, Quot.sound
Verif.Ddml.C35_partial_block_lost: propext, Quot.sound
Verif.Idml.C36_history_partial: propext, Classical.choice, Quot.sound
Verif.Idml.C36_tables_partial: propext, Classical.choice, Quot.sound
Verif.Idml.C36_check_passes_partial: propext, Classical.choice, Quot.sound
Verif.Idml.C36_clean: propext, Classical.choice, Quot.sound
Verif.Idml.C36_failed_clean: propext, Quot.sound
Verif.Idml.C36_failed_pop: propext, Quot.sound
Verif.Idml.C36_check_misses: propext
Verif.Idml.C36_check_sound: propext, Classical.choice, Quot.sound
Verif.Idml.C36_race_get_delete: propext, Quot.sound
Verif.Idml.C36_race_get_clean: propext, Quot.sound
Verif.Idml.C36_race_clean_delete: propext, Quot.sound
Verif.Idml.C37_unique: propext, Classical.choice, Quot.sound
Verif.Tree.C38_rangeDelete: propext, Classical.choice, Quot.sound
Verif.Tree.C38_rangeDelete_excluded_panics: propext, Quot.sound
Verif.Tree.C38_tight_limits_counterexample: propext, Quot.sound
Verif.Tree.C38_histories_partial: propext, Classical.choice, Quot.sound
Verif.Tree.C38_no_remove_no_panic: propext, Classical.choice, Quot.sound
Verif.Tree.C38_slender_remove_panics: propext
Verif.Tree.C38_history_partial: propext, Classical.choice, Quot.sound
Verif.Tree.C38_insert: propext, Classical.choice, Quot.sound
Verif.Tree.C38_remove: propext, Classical.choice, Quot.sound
Verif.Tree.C38_rangeDelete_partial: propext, Classical.choice, Quot.sound
Verif.Tree.C38_no_panic_partial: propext, Classical.choice, Quot.sound
Verif.Tree.C38_range: propext, Classical.choice, Quot.sound
Verif.Tree.C38_rangeDelete_panic_counterexample: propext, Quot.sound
Verif.Tree.C39_max_partial: propext, Classical.choice, Quot.sound
Verif.Tree.C39_history_counterexample: propext, Quot.sound
Verif.Tree.C39_order_partial: propext, Classical.choice, Quot.sound
Verif.Tree.C39_fanout_partial: propext, Classical.choice, Quot.sound
Verif.Tree.C39_rangeDelete_counterexample: propext, Classical.choice, Quot.sound
Verif.Tree.C40_resume: propext, Classical.choice, Quot.sound
Verif.Tree.C40_resume_value: propext, Classical.choice, Quot.sound
Verif.Crash.Dirty.C41_working_sync: propext
Verif.Crash.Dirty.C41_idle_sync_partial: propext, Quot.sound
Verif.Crash.Dirty.C41_overlap_counterexample: propext, Quot.sound
Verif.Crash.Dirty.C41_flag_counterexample: propext, Quot.sound
Verif.Crash.Dirty.C41_failed_counterexample: propext, Quot.sound
Verif.Crash.C41_synced_partial: propext, Classical.choice, Quot.sound
Verif.Forest.Race.C41_overlapping_opens_lose_write: propext
Verif.Forest.Race.C41_uninterrupted_opens_share: propext, Classical.choice, Quot.sound
Verif.Forest.C42_history_partial: propext, Classical.choice, Quot.sound
Verif.Forest.C42_create_find_partial: propext, Classical.choice, Quot.sound
Verif.Forest.C42_destroy_find_partial: propext, Classical.choice, Quot.sound
Verif.Forest.C42_second_root: propext, Classical.choice, Quot.sound
Verif.Forest.C42_no_root: propext
Verif.Forest.C42_hash_collision: propext
Verif.Forest.C42_trailing_slash: propext
Verif.Forest.C42_dead_mount_busy: propext
Verif.Forest.Race.C42_open_during_destroy: propext
Verif.Forest.C43_pages: propext, Classical.choice, Quot.sound
Verif.Forest.C43_pages_with_changes: propext, Classical.choice, Quot.sound
Verif.File.C44_file_is_byte_array_partial: propext, Classical.choice, Quot.sound
Verif.File.C44_read_never_panics: propext, Classical.choice, Quot.sound
Verif.File.C44_empty_write_extends_file: none
Verif.File.C45_bytes_is_sum_of_extents: propext, Classical.choice, Quot.sound
Verif.File.C45_empty_file_has_no_space: propext, Classical.choice, Quot.sound
Verif.File.C45_punch_frees_space: propext, Classical.choice, Quot.sound
Verif.File.C46_hole_reads_zero: propext, Classical.choice, Quot.sound
Verif.File.C46_seek_data: propext, Classical.choice, Quot.sound
Verif.File.C46_seek_hole_partial: propext, Classical.choice, Quot.sound
Verif.File.C46_seek_hole_in_final_hole: propext, Classical.choice, Quot.sound
Verif.File.C46_seek_hole_skips_final_hole: propext, Quot.sound
Verif.Dir.C47_name_map: propext, Classical.choice, Quot.sound
Verif.Dir.C47_lookup_after: propext, Classical.choice, Quot.sound
Verif.Dir.C48_link_adds_one_name_partial: propext, Classical.choice, Quot.sound
Verif.Dir.C48_link_destroys_other_name: propext
Verif.Dir.C48_link_destroys_bucket: propext
Verif.Dir.C49_pages_partial: propext, Classical.choice, Quot.sound
Verif.Dir.C49_one_page_complete: propext, Classical.choice, Quot.sound
Verif.Dir.C49_pages_with_changes_partial: propext, Classical.choice, Quot.sound
Verif.Dir.C49_removal_skips_other_entry: propext
Verif.Dir.C49_three_way_collision_loops: propext
Verif.Dir.C49_largest_hash_restarts: propext
Verif.Namespace.C50_consistent_partial: propext, Classical.choice, Quot.sound
Verif.Namespace.C50_effect: propext, Classical.choice, Quot.sound
Verif.Namespace.C50_root_link_count: none
Verif.Namespace.C51_in_use_partial: propext, Classical.choice, Quot.sound
Verif.Namespace.C51_records_partial: propext, Classical.choice, Quot.sound
Verif.Namespace.C51_release: propext, Classical.choice, Quot.sound
Verif.Namespace.C51_remount: propext, Classical.choice, Quot.sound
Verif.Namespace.C51_rename_destroys: none
Verif.Namespace.C51_link_of_dying: none
Verif.Namespace.C51_hash_collision: none
Verif.Namespace.C52_one_mount_partial: propext, Classical.choice, Quot.sound
Verif.Namespace.C52_never_shared: propext, Classical.choice, Quot.sound
Verif.Namespace.C52_reuse: propext
Verif.FSKey.C53_decode_partial: propext, Classical.choice, Quot.sound
Verif.FSKey.C53_injective_partial: propext, Classical.choice, Quot.sound
Verif.FSKey.C53_order_partial: propext, Classical.choice, Quot.sound
Verif.FSKey.C53_dirent_range: propext, Classical.choice, Quot.sound
Verif.FSKey.C53_extattr_range: propext, Classical.choice, Quot.sound
Verif.FSKey.C53_dying_inode_range: propext, Classical.choice, Quot.sound
Verif.FSKey.C53_obj_range: propext, Classical.choice, Quot.sound
Verif.FSKey.C53_extent_range_from: propext, Classical.choice, Quot.sound
Verif.FSKey.C53_extent_range_partial: propext, Classical.choice, Quot.sound
Verif.FSKey.C53_ranges_disjoint: propext, Classical.choice, Quot.sound
Verif.FSKey.C53_extent_aliases_xattr: propext, Quot.sound
Verif.FSKey.C53_extent_range_hits_xattrs: propext, Classical.choice, Quot.sound
Verif.Forest.C54_inherited_partial: propext, Classical.choice, Quot.sound
Verif.Forest.C54_set_get_partial: propext, Classical.choice, Quot.sound
Verif.Forest.C54_relative_mountpoint: propext, Classical.choice, Quot.sound
Verif.Forest.C54_deep_panics: propext, Classical.choice, Quot.sound
Verif.Forest.C54_base_mountpoint_renamed: propext
Verif.Forest.C54_set_mounted_panics: propext
Verif.Property.C55_round_trip_partial: propext, Quot.sound
Verif.Property.C55_largest_recordsize: propext, Quot.sound
Verif.Property.C55_parse_legal: propext
Verif.Property.C55_parse_stable_partial: propext, Quot.sound
Verif.Property.C55_names: none
Verif.Property.C55_sources_partial: none
Verif.Property.C55_sources_lost: propext
Verif.Property.C55_numbers: propext, Classical.choice, Quot.sound
Verif.Property.C55_accepted: propext, Classical.choice, Quot.sound
Verif.Forest.C56_resolves_partial: propext, Quot.sound
Verif.Forest.C56_extended_name_accepted: propext
Verif.Forest.C56_wrong_dataset_destroyed: propext
Verif.Forest.C56_double_slash: propext
Verif.Bytes.C57_checksum_bytes: propext
Verif.Bytes.C57_checksum_same: propext
Verif.Bytes.C57_len: propext
Verif.Bytes.C57_pad_preserves_partial: propext, Quot.sound
Verif.Bytes.C57_pad_total_partial: propext, Quot.sound
Verif.Bytes.C57_pad_panics: none
Verif.Bytes.C57_pad_unimplemented: none
Verif.Bytes.C57_zeros: propext, Quot.sound
Verif.Bytes.C57_zeros_empty_panics: none
Verif.Bytes.C57_cursor_next: propext, Quot.sound
Verif.Bytes.C57_cursor_run: propext, Quot.sound
Verif.Bytes.C57_cursor_empty_buffer: propext
Verif.Mirror.C58_commands: propext, Quot.sound
Verif.Mirror.C58_missing: propext, Classical.choice, Quot.sound
Verif.Mirror.C58_faulted: propext, Classical.choice, Quot.sound
Verif.Mirror.C58_through_rebuilding: propext, Quot.sound
Verif.Mirror.C58_status_partial: propext, Classical.choice, Quot.sound
Verif.Mirror.C58_status_counterexample: none
Verif.Mirror.C58_last_child_counterexample: propext
Verif.File.Conc.C59_size_partial: propext, Quot.sound
Verif.File.Conc.C59_never_shrinks: propext, Quot.sound
Verif.File.Conc.C59_size_upper: propext, Quot.sound
Verif.File.Conc.C59_disjoint_data: propext, Classical.choice, Quot.sound
Verif.File.Conc.C59_disjoint_reads_partial: propext, Classical.choice, Quot.sound
Verif.File.Conc.C59_lost_size_counterexample: propext, Quot.sound
Verif.File.Conc.C59_lost_bytes_counterexample: propext
Verif.File.Conc.C59_same_record_counterexample: propext, Quot.sound
Verif.Cluster.C60_pool_used_partial: propext, Classical.choice, Quot.sound
Verif.Cluster.C60_failed_write: propext
Verif.Sched.C61_remove_waits_partial: propext, Classical.choice, Quot.sound
Verif.Sched.C61_removed_too_early: propext
Verif.Raid.C62_read_multi_degraded: propext, Classical.choice, Quot.sound
Verif.Raid.C62_read_degraded_partial: propext, Classical.choice, Quot.sound
Verif.Raid.C62_history_partial: propext, Classical.choice, Quot.sound
Verif.Raid.C62_read_multi_healthy_partial: propext, Classical.choice, Quot.sound
Verif.Raid.C62_multi_counterexample: propext, Classical.choice, Quot.sound
Verif.Raid.C62_degraded_counterexample: propext, Classical.choice, Quot.sound
Verif.Raid.C62_read_one_degraded: propext, Classical.choice, Quot.sound
Verif.Raid.C62_read_one_healthy_partial: propext, Classical.choice, Quot.sound
Verif.Raid.C62_read_one_no_error: propext, Classical.choice, Quot.sound
Verif.Raid.C62_unaligned_panics: propext, Classical.choice, Quot.sound
Verif.Raid.C62_read_one_never_wrong_partial: propext, Classical.choice, Quot.sound
Verif.Raid.C63_parity_counterexample: propext, Classical.choice, Quot.sound
Verif.Raid.C63_index_counterexample: propext, Classical.choice, Quot.sound
Verif.Raid.C63_read_long_one: propext, Classical.choice, Quot.sound
Verif.Raid.C63_read_long_multi_partial: propext, Classical.choice, Quot.sound
Verif.Raid.C63_read_long_partial: propext, Classical.choice, Quot.sound
Verif.Tree.C64_clean_zone: propext, Classical.choice, Quot.sound
Verif.Tree.C64_no_panic_partial: propext, Classical.choice, Quot.sound
Verif.Tree.C64_finishes_partial: propext, Classical.choice, Quot.sound
Verif.Tree.C64_txgs: propext, Classical.choice, Quot.sound
Verif.Tree.C64_lower_tree_panics: propext, Classical.choice, Quot.sound
Verif.Tree.C64_recorded_needed: propext, Quot.sound
Verif.Cluster.C65_zone_txgs_partial: propext, Classical.choice, Quot.sound
Verif.Cluster.C65_recorded_partial: propext, Classical.choice, Quot.sound
Verif.Cluster.C65_stale_txg_counterexample: propext, Quot.sound
Verif.Cluster.C65_stale_txg_panics: propext, Quot.sound
Verif.Fuse.C66_no_panic_partial: propext, Classical.choice, Quot.sound
Verif.Fuse.C66_table_partial: propext, Classical.choice, Quot.sound
Verif.Fuse.C66_replies_partial: propext, Classical.choice, Quot.sound
Verif.Fuse.C66_tree_partial: propext, Classical.choice, Quot.sound
Verif.Fuse.C66_held_partial: propext, Classical.choice, Quot.sound
Verif.Fuse.C66_records_partial: propext, Classical.choice, Quot.sound
Verif.Fuse.C66_rename_over_open_file: propext
Verif.Fuse.C66_rename_forgotten_ancestor: propext
Verif.Fuse.C66_create_in_removed: propext
Verif.Fuse.C66_rename_into_itself: propext
Verif.Fuse.C66_link_not_counted: propext
Verif.Fuse.C66_concurrent_lookups: propext
Verif.Fuse.C66_concurrent_lookups_forgotten: propext
Verif.Fuse.C66_nfs_dot: propext
Verif.Fuse.C66_nfs_dotdot: propext
Verif.Fuse.C66_nfs_stale_dotdot: propext
Verif.Blob.C67_tree_holds_its_data: propext, Classical.choice, Quot.sound
Verif.Blob.C67_records_accounted: propext, Classical.choice, Quot.sound
Verif.Blob.C67_delete_all_frees_all: propext, Classical.choice, Quot.sound
Verif.Blob.C67_exactly_large_data_out_of_line: propext, Classical.choice, Quot.sound
Verif.Blob.C67_file_like_inline: propext, Classical.choice, Quot.sound
Verif.Blob.C67_file_is_byte_array_partial: propext, Classical.choice, Quot.sound
Verif.Blob.C67_attrs_partial: propext, Classical.choice, Quot.sound
Verif.Blob.C67_flush_during_set_loses_value: propext, Quot.sound
Verif.Share.C68_reads_see_completed_writes: propext, Classical.choice, Quot.sound
Verif.Share.C68_only_flush_panics: propext, Classical.choice, Quot.sound
Verif.Share.C68_flush_panics_iff: propext, Classical.choice, Quot.sound
Verif.Share.C68_no_one_gets_stuck: propext, Classical.choice, Quot.sound
Verif.Share.C68_idle_state: propext, Classical.choice, Quot.sound
Verif.Share.C68_flush_safe_when_quiet_partial: propext, Classical.choice, Quot.sound
Verif.Share.C68_flush_panics_during_read: propext, Classical.choice, Quot.sound
Verif.Share.C68_flush_panics_during_write: propext, Classical.choice, Quot.sound
Verif.Xattr.C69_names_round_trip: propext
Verif.Xattr.C69_attributes_are_a_map_partial: propext, Classical.choice, Quot.sound
Verif.Xattr.C69_size_then_fetch: propext, Classical.choice, Quot.sound
Verif.Xattr.C69_listed_names: propext
Verif.Xattr.C69_panics_iff: propext, Classical.choice, Quot.sound
Verif.Xattr.C69_create_flag_ignored: propext, Classical.choice, Quot.sound
Verif.Xattr.C69_unknown_namespace_panics: propext
Verif.Attrs.C70_attributes_are_last_given_partial: propext, Classical.choice, Quot.sound
Verif.Attrs.C70_files_are_created: propext, Classical.choice, Quot.sound
Verif.Attrs.C70_valid_histories: propext, Classical.choice, Quot.sound
Verif.Attrs.C70_set_then_get: propext, Classical.choice, Quot.sound
Verif.Attrs.C70_stat_partial: propext, Classical.choice, Quot.sound
Verif.Attrs.C70_chmod_then_stat: propext, Classical.choice, Quot.sound
Verif.Attrs.C70_blocks_are_wrong: propext, Quot.sound
Verif.Attrs.C70_symlink_size: propext, Classical.choice, Quot.sound
Verif.Attrs.C70_listing_leaves_atime: propext
Verif.Attrs.C70_empty_write: propext, Classical.choice, Quot.sound
Verif.Conc.C71_linearizable: propext, Classical.choice, Quot.sound
Verif.Conc.C71_no_deadlock: propext, Classical.choice, Quot.sound
Verif.Conc.C71_every_call_returns: propext, Classical.choice, Quot.sound
Verif.Conc.C71_range_delete_panics: propext
Verif.Conc.C71_range_delete_partial: propext, Quot.sound
Verif.Conc.C71_returns_match_calls: propext, Classical.choice, Quot.sound
Verif.Import.C72_import_partial: propext, Classical.choice, Quot.sound
Verif.Import.C72_import_agreeing_partial: propext, Classical.choice, Quot.sound
Verif.Import.C72_refused: propext, Classical.choice, Quot.sound
Verif.Import.C72_others_first: propext, Classical.choice, Quot.sound
Verif.Import.C72_listed: propext, Classical.choice, Quot.sound
Verif.Import.C72_by_name: propext, Classical.choice, Quot.sound
Verif.Import.C72_rolls_back: propext, Classical.choice, Quot.sound
Verif.Import.C72_too_few_members: propext, Quot.sound
Verif.Import.C72_no_second_try: propext
Verif.Import.C72_old_label_hides_disk: propext
Verif.TreeCredit.C73_exact: propext, Classical.choice, Quot.sound
Verif.TreeCredit.C73_conserved: propext, Classical.choice, Quot.sound
Verif.TreeCredit.C73_quiet: propext, Classical.choice, Quot.sound
Verif.TreeCredit.C73_no_panic_partial: propext, Classical.choice, Quot.sound
Verif.TreeCredit.C73_bounded_partial: propext, Classical.choice, Quot.sound
Verif.TreeCredit.C73_requirements: propext, Classical.choice, Quot.sound
Verif.TreeCredit.C73_range_delete: propext, Classical.choice, Quot.sound
Verif.TreeCredit.C73_read_error_panics: none
Verif.TreeCredit.C73_write_error_panics: none
Verif.TreeCredit.C73_range_delete_overdraws: propext, Quot.sound
Verif.Isol.C74_isolated_partial: propext, Classical.choice, Quot.sound
Verif.Isol.C74_serial_partial: propext, Classical.choice, Quot.sound
Verif.Isol.C74_own_parts_partial: propext, Classical.choice, Quot.sound
Verif.Isol.C74_can_finish: propext, Quot.sound
Verif.Isol.C74_link_loses_count: propext, Quot.sound
Verif.Isol.C74_mkdir_loses_count: propext, Quot.sound
Verif.Isol.C74_write_loses_size: propext, Quot.sound
Verif.Rpc.C75_list_partial: propext, Classical.choice, Quot.sound
Verif.Rpc.C75_resume_partial: propext, Classical.choice, Quot.sound
Verif.Rpc.C75_resume_skips: propext
Verif.Rpc.C75_missing_listed: propext
Verif.Rpc.C75_missing: propext, Classical.choice, Quot.sound
Verif.Rpc.C75_many_children_fail: propext
Verif.Rpc.C76_asking_changes_nothing: propext, Classical.choice, Quot.sound
Verif.Rpc.C76_strangers: propext, Classical.choice, Quot.sound
Verif.Rpc.C76_refusal_partial: propext
Verif.Rpc.C76_refusal_panics: propext
Verif.Rpc.C76_owner: propext
Verif.Rpc.C76_mount_partial: propext, Classical.choice, Quot.sound
Verif.Rpc.C76_pool: propext
Verif.Rpc.C76_fault_by_path: propext, Quot.sound
Verif.Rpc.C76_attach_by_path: propext, Quot.sound
Verif.Rpc.C76_create_with_props_partial: propext, Classical.choice, Quot.sound
Verif.Rpc.C76_failed_create_leaves_fs: propext
Verif.Rpc.C76_failed_mount_blocks_destroy: propext
Verif.PoolCmd.C77_grammar_partial: propext, Classical.choice, Quot.sound
Verif.PoolCmd.C77_unambiguous: propext, Classical.choice, Quot.sound
Verif.PoolCmd.C77_create_partial: propext, Classical.choice, Quot.sound
Verif.PoolCmd.C77_spaces_split: propext, Classical.choice, Quot.sound
Verif.PoolCmd.C77_number_runs_on: propext, Classical.choice, Quot.sound
Verif.PoolCmd.C77_paths_refused: propext, Classical.choice, Quot.sound
Verif.PoolCmd.C77_twice_hangs: propext, Classical.choice, Quot.sound
Verif.Check.C78_passes_iff_partial: propext, Quot.sound
Verif.Check.C78_detects_partial: propext, Quot.sound
Verif.Check.C78_lookup_partial: propext, Quot.sound
Verif.Check.C78_returns: propext, Classical.choice, Quot.sound
Verif.Check.C78_reached: propext, Classical.choice, Quot.sound
Verif.Check.C78_reached_returns: propext, Classical.choice, Quot.sound
Verif.Check.C78_no_false_alarm_partial: propext, Classical.choice, Quot.sound
Verif.Check.C78_database: propext, Quot.sound
Verif.Check.C78_misses_duplicate: propext
Verif.Check.C78_misses_separator: propext
Verif.Check.C78_empty_panics: propext
Verif.Check.C78_false_alarm: propext, Classical.choice, Quot.sound
Verif.Check.C78_command_silent: propext
Verif.Reserve.C79_same_steps: none
Verif.Reserve.C79_operations_partial: propext, Quot.sound
Verif.Reserve.C79_short_of_values_partial: propext, Classical.choice, Quot.sound
Verif.Reserve.C79_short_partial: propext, Classical.choice, Quot.sound
Verif.Reserve.C79_funded_partial: propext, Classical.choice, Quot.sound
Verif.Reserve.C79_link_unfunded: propext, Classical.choice, Quot.sound
Verif.Reserve.C79_link_example: propext, Quot.sound
Verif.Reserve.C79_unlink_unfunded: propext, Classical.choice, Quot.sound
Verif.Reserve.C79_unlink_example: propext, Quot.sound
Verif.Reserve.C79_mount_unfunded: propext, Classical.choice, Quot.sound
Verif.Reserve.C79_mount_example: propext, Quot.sound
Verif.Reserve.C79_inode_unpaid: propext, Classical.choice, Quot.sound
Verif.Reserve.C79_never_granted: propext, Classical.choice, Quot.sound
Verif.Reserve.C79_big_write_never_granted: propext, Classical.choice, Quot.sound
Verif.Reserve.C79_fits_partial: propext, Quot.sound
Verif.Progress.C80_sound: propext, Quot.sound
Verif.Progress.C80_progress_partial: propext, Classical.choice, Quot.sound
Verif.Progress.C80_progress_call_partial: propext, Classical.choice, Quot.sound
Verif.Progress.C80_destroy_hangs: propext, Quot.sound
Verif.Progress.C80_create_hangs: propext, Quot.sound
Verif.Progress.C80_flush_forgets: propext
Verif.Progress.C80_destroy_example: propext, Quot.sound
Verif.Progress.C80_create_example: propext, Quot.sound
Verif.Progress.C80_flush_example: propext
Verif.Wire.C81_fs_node: propext, Classical.choice, Quot.sound
Verif.Wire.C81_forest_node: propext, Classical.choice, Quot.sound
Verif.Wire.C81_ridt_node: propext, Quot.sound
Verif.Wire.C81_alloct_node: propext, Classical.choice, Quot.sound
Verif.Wire.C81_unambiguous: propext
Verif.Wire.C81_sizes: propext, Classical.choice, Quot.sound
Verif.Wire.C81_spacemap: propext, Classical.choice, Quot.sound
Verif.Wire.C81_label_partial: propext, Classical.choice, Quot.sound
Verif.Wire.C81_request: propext, Classical.choice, Quot.sound
Verif.Wire.C81_response: propext, Classical.choice, Quot.sound
Verif.Wire.C81_error_codes: propext, Quot.sound
Verif.Wire.C81_call_partial: propext, Classical.choice, Quot.sound
Verif.Wire.C81_long_request: propext, Classical.choice, Quot.sound
Verif.Wire.C81_long_answer: propext, Classical.choice, Quot.sound
Verif.Wire.C81_any_bytes: propext, Classical.choice, Quot.sound
Verif.Wire.C81_big_pool_status: propext, Classical.choice, Quot.sound
Verif.Wire.C81_stored_node: propext, Classical.choice, Quot.sound
Verif.Cleaner.C82_pass_partial: propext, Classical.choice, Quot.sound
Verif.Cleaner.C82_emptied_partial: propext, Classical.choice, Quot.sound
Verif.Cleaner.C82_stale_zone: propext, Classical.choice, Quot.sound
Verif.Cleaner.C82_selected: propext, Classical.choice, Quot.sound
Verif.Cleaner.C82_none_missed: propext, Classical.choice, Quot.sound
Verif.Cleaner.C82_rounding: propext, Classical.choice, Quot.sound
Verif.Cleaner.C82_order: propext, Classical.choice, Quot.sound
Verif.Cleaner.C82_order_equal: propext, Classical.choice, Quot.sound
Verif.Cleaner.C82_no_panic: propext, Classical.choice, Quot.sound
Verif.Cleaner.C82_no_new_data: propext, Classical.choice, Quot.sound
Verif.Cleaner.C82_reclaimed_partial: propext, Classical.choice, Quot.sound
Verif.Cleaner.C82_never_reclaimed: propext, Classical.choice, Quot.sound
Verif.Cleaner.C82_answers: propext, Quot.sound
Verif.Cleaner.C82_all_answered: propext, Classical.choice, Quot.sound
Verif.Cleaner.C82_shutdown: propext, Quot.sound
Verif.Cleaner.C82_error_is_final: propext, Quot.sound
Verif.Cluster.C83_resumable_partial: propext, Classical.choice, Quot.sound
Verif.Cluster.C83_resumes: propext, Classical.choice, Quot.sound
Verif.Cluster.C83_step_partial: propext, Classical.choice, Quot.sound
Verif.Cluster.C83_complete_partial: propext, Classical.choice, Quot.sound
Verif.Cluster.C83_reused_counterexample: propext, Quot.sound
Verif.Cluster.C83_panic_counterexample: propext, Quot.sound
Verif.Cluster.C83_crash_counterexample: propext, Quot.sound
Verif.Cluster.C83_ahead_counterexample: propext, Quot.sound
Verif.Cluster.C83_not_synced: propext
Verif.NullRaid.C84_copies: propext, Classical.choice, Quot.sound
Verif.NullRaid.C84_read: propext, Classical.choice, Quot.sound
Verif.NullRaid.C84_corrupt_partial: propext, Classical.choice, Quot.sound
Verif.NullRaid.C84_never_wrong: propext, Quot.sound
Verif.NullRaid.C84_partial_block_counterexample: propext, Quot.sound
Verif.NullRaid.C84_spreads_counterexample: propext, Classical.choice, Quot.sound
Verif.Conc.C85_other_calls_return_partial: propext, Classical.choice, Quot.sound
Verif.Conc.C85_no_deadlock_partial: propext, Classical.choice, Quot.sound
Verif.Conc.C85_comes_to_rest_partial: propext, Classical.choice, Quot.sound
Verif.Conc.C85_returns_exactly_once: propext, Classical.choice, Quot.sound
Verif.Conc.C85_every_query_returns_partial: propext, Classical.choice, Quot.sound
Verif.Conc.C85_steps_bounded: propext, Classical.choice, Quot.sound
Verif.Conc.C85_returns_at_most_once: propext, Classical.choice, Quot.sound
Verif.Conc.C85_chunk_atomic: propext, Classical.choice, Quot.sound
Verif.Conc.C85_whole_query: propext, Classical.choice, Quot.sound
