{
 "claims": [
  {
   "property": "C01",
   "status": "partial",
   "theorems": [
    "Verif.WriteBack.C01_conservation",
    "Verif.WriteBack.C01_never_overlent",
    "Verif.WriteBack.C01_assertion_holds",
    "Verif.WriteBack.C01_full_when_repaid_partial",
    "Verif.WriteBack.C01_dropped_future_leaks"
   ],
   "note": "Conservation, no over-lending and the debug assertion are proved for all schedules. Restitution needs that no granted future is dropped; C01_dropped_future_leaks shows it fails otherwise."
  },
  {
   "property": "C02",
   "status": "partial",
   "theorems": [
    "Verif.WriteBack.C02_waits_only_while_lent_partial",
    "Verif.WriteBack.C02_front_waits_only_if_short_partial",
    "Verif.WriteBack.C02_deadlock",
    "Verif.WriteBack.C02_deadlock_two_borrowers"
   ],
   "note": "False of the code: C02_deadlock. Proved for executions in which borrow and repay calls do not overlap."
  },
  {
   "property": "C03",
   "status": "proved",
   "theorems": [
    "Verif.WriteBack.C03_total_preserved",
    "Verif.WriteBack.C03_never_negative",
    "Verif.WriteBack.C03_amounts"
   ],
   "note": ""
  },
  {
   "property": "C04",
   "status": "partial",
   "theorems": [
    "Verif.Cache.C04_refines_lru",
    "Verif.Cache.C04_size_exact",
    "Verif.Cache.C04_lookup_latest",
    "Verif.Cache.C04_kept",
    "Verif.Cache.C04_eviction_partial",
    "Verif.Cache.C04_duplicate_insert_evicts",
    "Verif.Cache.C04_duplicate_insert_not_most_recent"
   ],
   "note": "Exact except for insertions of a value that is already cached: those evict entries needlessly and are not marked as most recently used (C04_duplicate_insert_evicts, C04_duplicate_insert_not_most_recent). Refinement, size, lookups proved for all histories."
  },
  {
   "property": "C05",
   "status": "partial",
   "theorems": [
    "Verif.Cache.Fill.C05_failed_fill_wedges",
    "Verif.Cache.Fill.C05_evicted_before_poll_panics",
    "Verif.Cache.Fill.C05_cancelled_waiter_panics_filler",
    "Verif.Cache.Fill.C05_readers_served_partial"
   ],
   "note": "False of the code: C05_failed_fill_wedges shows the second reader waits forever after a failed fill. Proved for executions without failing or cancelled fills."
  },
  {
   "property": "C06",
   "status": "partial",
   "theorems": [
    "Verif.PrimeS.C06_bijection_partial",
    "Verif.PrimeS.C06_new_accepts",
    "Verif.PrimeS.C06_overflow_panics",
    "Verif.PrimeS.C06_overflow_collides",
    "Verif.PrimeS.C06_overflow_new_panics"
   ],
   "note": "Proved for geometries with n(n-1) <= 32767 (n <= 181); with overflow checks also (n(n-1)-1)m <= 32767. False beyond: C06_overflow_collides (release build, 191 disks), C06_overflow_panics and C06_overflow_new_panics (checked build)."
  },
  {
   "property": "C07",
   "status": "proved",
   "theorems": [
    "Verif.PrimeS.C07_distinct_disks",
    "Verif.PrimeS.C07_always_placed",
    "Verif.PrimeS.C07_survives_f_losses"
   ],
   "note": "Without overflow checks for every geometry new accepts; with overflow checks C07_distinct_disks holds of every chunk that is placed without a panic."
  },
  {
   "property": "C08",
   "status": "partial",
   "theorems": [
    "Verif.PrimeS.C08_iterator_partial",
    "Verif.PrimeS.C08_rank_injective"
   ],
   "note": "Same geometries as C06."
  },
  {
   "property": "C09",
   "status": "proved",
   "theorems": [
    "Verif.Codec.C09_decode",
    "Verif.Codec.C09_single_parity",
    "Verif.Codec.C09_encode_update",
    "Verif.Codec.C09_encodev"
   ],
   "note": "Every code of at most 256 columns, every data, every erasure pattern of at most f columns: the field, the Cauchy argument and the row selection are proved; ISA-L's documented arithmetic and matrix inversion are the trusted base. Also encode_update and vectored encoding agree with encode."
  },
  {
   "property": "C10",
   "status": "partial",
   "theorems": [
    "Verif.Raid.C10_read",
    "Verif.Raid.C10_whole_stripes",
    "Verif.Raid.C10_in_order_partial",
    "Verif.Raid.C10_flush",
    "Verif.Raid.C10_out_of_order"
   ],
   "note": "Reads, whole stripes, each byte once and flush proved for all histories of writes of any lengths; order per disk proved for writes of whole LBAs, and C10_out_of_order shows that it fails for data ending inside the last LBA of a stripe"
  },
  {
   "property": "C11",
   "status": "proved",
   "theorems": [
    "Verif.Raid.C11_exact",
    "Verif.Raid.C11_inside",
    "Verif.Raid.C11_ordered",
    "Verif.Raid.C11_lba2zone",
    "Verif.Raid.C11_primeS"
   ],
   "note": "Limits proved exact (stripe in limits iff all its chunks inside the zone), ordered and in agreement with lba2zone, for every lawful layout, and PRIME-S proved lawful for every accepted geometry small enough for its 16-bit arithmetic (C06 covers overflow)."
  },
  {
   "property": "C12",
   "status": "proved",
   "theorems": [
    "Verif.Raid.C12_ok_iff",
    "Verif.Raid.C12_error",
    "Verif.Raid.C12_recover_multi",
    "Verif.Raid.C12_recover_one",
    "Verif.Raid.C12_recover_onev",
    "Verif.Raid.C12_array_ok_iff"
   ],
   "note": "Ok iff at most f failed; recovery of every chunk of every stripe for one-stripe, vectored and multi-stripe writes, through the codec of C09"
  },
  {
   "property": "C13",
   "status": "partial",
   "theorems": [
    "Verif.Raid.C13_write",
    "Verif.Raid.C13_sync",
    "Verif.Raid.C13_label_spacemap_partial",
    "Verif.Raid.C13_label_spacemap_panic",
    "Verif.Raid.C13_read_spacemap_partial",
    "Verif.Raid.C13_read_spacemap_panic",
    "Verif.Raid.C13_health",
    "Verif.Raid.C13_restore_count",
    "Verif.Raid.C13_read"
   ],
   "note": "Proved: degraded stripe writes, reads of any range (C13_read), syncs, zone operations, health. False: labels and spacemaps panic as soon as one child is absent (C13_label_spacemap_panic, C13_read_spacemap_panic); restoring a child leaves the count wrong (C13_restore_count)"
  },
  {
   "property": "C14",
   "status": "proved",
   "theorems": [
    "Verif.Mirror.C14_read",
    "Verif.Mirror.C14_round_robin",
    "Verif.Mirror.C14_read_long"
   ],
   "note": "Every read of a mirror, over all mirrors, round-robin positions and device answers; read_long too."
  },
  {
   "property": "C15",
   "status": "partial",
   "theorems": [
    "Verif.Mirror.C15_nothing_else",
    "Verif.Mirror.C15_copies",
    "Verif.Mirror.C15_agree",
    "Verif.Mirror.C15_no_read_error",
    "Verif.Raid.C15_raid_closed_partial",
    "Verif.Raid.C15_raid_open_short",
    "Verif.Raid.C15_raid_open_nothing"
   ],
   "note": "Proved for Mirror::repair_zone and closed RAID zones; C15_raid_open_short and C15_raid_open_nothing show that VdevRaid::repair_mirror_zone repairs too little of open zones"
  },
  {
   "property": "C16",
   "status": "partial",
   "theorems": [
    "Verif.Mirror.C16_in_service_current_partial",
    "Verif.Mirror.C16_import_partial",
    "Verif.Mirror.C16_import_succeeds",
    "Verif.Mirror.C16_counterexample",
    "Verif.Mirror.C16_split_brain_counterexample"
   ],
   "note": "Proved for histories in which one device is always there and no session ends after exactly one sync. A session of one sync and a split brain violate the property; both counterexamples are proved."
  },
  {
   "property": "C17",
   "status": "partial",
   "theorems": [
    "Verif.Label.C17_round_trip_partial",
    "Verif.Label.C17_write_total_partial",
    "Verif.Label.C17_big_record_panics",
    "Verif.Label.C17_oversize_unreadable"
   ],
   "note": "Round trip for every list of block, mirror and pool records and any trailing bytes whenever the write does not panic; C81_label_partial adds the RAID and IDML records. The full claim fails: a record of 4096 bytes or more panics (C17_big_record_panics), a label over 16 KiB cannot be read back (C17_oversize_unreadable)."
  },
  {
   "property": "C18",
   "status": "partial",
   "theorems": [
    "Verif.Label.C18_only_intact_accepted",
    "Verif.Label.C18_damage_rejected_partial",
    "Verif.Label.C18_never_panics_partial",
    "Verif.Label.C18_overflow_panics",
    "Verif.Label.C18_altered_accepted_collides",
    "Verif.Label.C18_second_label_used"
   ],
   "note": "Accepted iff intact; damage rejected; never panics without overflow checks. With overflow checks a length field near 2^64 panics (C18_overflow_panics)."
  },
  {
   "property": "C19",
   "status": "partial",
   "theorems": [
    "Verif.Zone.C19_lba2zone_iff_partial",
    "Verif.Zone.C19_exactly_one_zone_partial",
    "Verif.Zone.C19_adjacent",
    "Verif.Zone.C19_disjoint_partial",
    "Verif.Zone.C19_reserved_outside_partial",
    "Verif.Zone.C19_reserved_parts",
    "Verif.Zone.C19_writes_separated",
    "Verif.Zone.C19_spacemap_big_enough",
    "Verif.Zone.C19_small_zones_overlap",
    "Verif.Zone.C19_last_zone_past_end",
    "Verif.Zone.C19_zones_within_partial"
   ],
   "note": "Partition for every geometry whose zones hold the reserved area. Fails otherwise (C19_small_zones_overlap), and the last zone may run past the end of the device (C19_last_zone_past_end)."
  },
  {
   "property": "C20",
   "status": "proved",
   "theorems": [
    "Verif.Sched.C20_exactly_once",
    "Verif.Sched.C20_all_issued",
    "Verif.Sched.C20_never_stalls",
    "Verif.Sched.C20_quiet_complete",
    "Verif.Sched.C20_no_panic"
   ],
   "note": "All histories of submit/complete/EAGAIN/resched/remove, any heap tie-break; also progress: with optimum_queue_depth >= 2 (10 in the code) the scheduler never stalls."
  },
  {
   "property": "C21",
   "status": "proved",
   "theorems": [
    "Verif.Sched.C21_sync_is_barrier",
    "Verif.Sched.C21_sync_requests"
   ],
   "note": "Order in which operations leave the queues; merged sync requests contain only syncs."
  },
  {
   "property": "C22",
   "status": "partial",
   "theorems": [
    "Verif.Sched.C22_lba_order_partial",
    "Verif.Sched.C22_zone_order_partial",
    "Verif.Sched.C22_last_lba_first"
   ],
   "note": "Proved unless another operation with an LBA between the two was issued before; for a zone under write-pointer discipline up to its last LBA but one. C22_last_lba_first: erase_zone is queued under the zone's last LBA, so a write of that LBA can overtake earlier writes."
  },
  {
   "property": "C23",
   "status": "proved",
   "theorems": [
    "Verif.Sched.C23_same_bytes",
    "Verif.Sched.C23_only_adjacent",
    "Verif.Sched.C23_iov_max"
   ],
   "note": "Under LBA-multiple lengths, which VdevFile asserts."
  },
  {
   "property": "C24",
   "status": "proved",
   "theorems": [
    "Verif.Cluster.C24_alloc_disjoint",
    "Verif.Cluster.C24_log_disjoint"
   ],
   "note": "Every reachable history of writes, frees, flushes, transaction ends and reloads of a cluster over any disjoint zone geometry."
  },
  {
   "property": "C25",
   "status": "proved",
   "theorems": [
    "Verif.Cluster.C25_no_panic",
    "Verif.Cluster.C25_used_exact",
    "Verif.Cluster.C25_counter_exact"
   ],
   "note": "used = live blocks <= allocated <= capacity, counter = sum over zones, no legal call panics."
  },
  {
   "property": "C26",
   "status": "proved",
   "theorems": [
    "Verif.Cluster.C26_erased_unused",
    "Verif.Cluster.C26_live_survives",
    "Verif.Cluster.C26_not_reused_before_commit"
   ],
   "note": "Erased zones hold no live range; no block given out is given out again before the transaction ends."
  },
  {
   "property": "C27",
   "status": "partial",
   "theorems": [
    "Verif.Cluster.C27_reclaimed_partial",
    "Verif.Cluster.C27_available",
    "Verif.Cluster.C27_leak",
    "Verif.Cluster.C27_leak_reachable"
   ],
   "note": "Proved when the last live block of the zone is freed while the zone is closed. The code violates the rest: a zone whose blocks are all freed while it is still open is closed but never killed (C27_leak, C27_leak_reachable)."
  },
  {
   "property": "C28",
   "status": "proved",
   "theorems": [
    "Verif.Cluster.C28_spacemap_roundtrip",
    "Verif.Cluster.C28_bad_checksum_rejected"
   ],
   "note": "Over the decoded zone records; the byte encoding is C81_spacemap, MetroHash64 is a parameter."
  },
  {
   "property": "C29",
   "status": "partial",
   "theorems": [
    "Verif.Cluster.C29_first_copy_partial",
    "Verif.Cluster.C29_no_panic",
    "Verif.Cluster.C29_second_copy_stale"
   ],
   "note": "Copy 0 is exact after every sync. Copy 1 is violated: C29_second_copy_stale."
  },
  {
   "property": "C30",
   "status": "proved",
   "theorems": [
    "Verif.Cluster.C30_list_closed_zones",
    "Verif.Cluster.C30_entries"
   ],
   "note": "Any clusters in any state."
  },
  {
   "property": "C31",
   "status": "partial",
   "theorems": [
    "Verif.Cluster.C31_rebuild_complete_partial",
    "Verif.Cluster.C31_need_start",
    "Verif.Cluster.C31_zone_missed"
   ],
   "note": "Proved for any concurrent activity in which writes that can close a zone are in transactions not before the task's next_txg. Otherwise violated: C31_zone_missed."
  },
  {
   "property": "C32",
   "status": "partial",
   "theorems": [
    "Verif.Crash.C32_crash_partial",
    "Verif.Crash.C32_label_partial",
    "Verif.Crash.C32_contents",
    "Verif.Crash.C32_no_panic",
    "Verif.Crash.C32_window_counterexample",
    "Verif.Crash.C32_torn_spacemap_counterexample",
    "Verif.Crash.C32_no_label_counterexample"
   ],
   "note": "Proved for crashes at any point except between the first flush of the spacemap and the durable first label; in that window, with a torn spacemap, or with both labels torn, the claim is false (counterexamples). One cluster, one disk image; trees are represented by their records."
  },
  {
   "property": "C33",
   "status": "proved",
   "theorems": [
    "Verif.Ddml.C33_compress",
    "Verif.Ddml.C33_history",
    "Verif.Ddml.C33_put_then_get"
   ],
   "note": "For every history of put, get, pop, delete and evictions on devices that keep allocated blocks, under the assumption that the external codecs invert themselves; that the serialisers do is C81."
  },
  {
   "property": "C34",
   "status": "proved",
   "theorems": [
    "Verif.Ddml.C34_read",
    "Verif.Ddml.C34_history",
    "Verif.Ddml.C34_no_wrong_record"
   ],
   "note": "For every answer of the devices and every history; with a hash that separates the written bytes from all others no wrong record is ever returned."
  },
  {
   "property": "C35",
   "status": "partial",
   "theorems": [
    "Verif.Ddml.C35_over_raid_partial",
    "Verif.Ddml.C35_recovers_partial",
    "Verif.Ddml.C35_partial_block_lost"
   ],
   "note": "Proved for records that fill whole blocks. False otherwise: reconstructions are hashed with their padding, so such records are reported lost (C35_partial_block_lost). C35_over_raid_partial joins it to C63: with at most f bad disks the record itself is read."
  },
  {
   "property": "C36",
   "status": "partial",
   "theorems": [
    "Verif.Idml.C36_history_partial",
    "Verif.Idml.C36_tables_partial",
    "Verif.Idml.C36_check_passes_partial",
    "Verif.Idml.C36_clean",
    "Verif.Idml.C36_failed_clean",
    "Verif.Idml.C36_failed_pop",
    "Verif.Idml.C36_check_misses",
    "Verif.Idml.C36_check_sound",
    "Verif.Idml.C36_race_get_delete",
    "Verif.Idml.C36_race_get_clean",
    "Verif.Idml.C36_race_clean_delete"
   ],
   "note": "Proved for every history of puts, gets, deletes, pops, cleanings, evictions, exports and imports that run one after another without device errors during pop or cleaning. False with such errors (C36_failed_clean, C36_failed_pop) and for overlapping operations (C36_race_*). The RIDT and AllocT are seen as ordered maps (C38 proves the tree is one)."
  },
  {
   "property": "C37",
   "status": "proved",
   "theorems": [
    "Verif.Idml.C37_unique"
   ],
   "note": "For every history with any device failures; a crash goes back to the last committed label and may reissue ids that were never committed."
  },
  {
   "property": "C38",
   "status": "partial",
   "theorems": [
    "Verif.Tree.C38_rangeDelete",
    "Verif.Tree.C38_rangeDelete_excluded_panics",
    "Verif.Tree.C38_tight_limits_counterexample",
    "Verif.Tree.C38_histories_partial",
    "Verif.Tree.C38_no_remove_no_panic",
    "Verif.Tree.C38_slender_remove_panics",
    "Verif.Tree.C38_history_partial",
    "Verif.Tree.C38_insert",
    "Verif.Tree.C38_remove",
    "Verif.Tree.C38_rangeDelete_partial",
    "Verif.Tree.C38_no_panic_partial",
    "Verif.Tree.C38_range",
    "Verif.Tree.C38_rangeDelete_panic_counterexample"
   ],
   "note": "Every history of insert, remove, range_delete, get, last_key, range and flush whose calls return gives exactly an ordered map's answers and contents. range_delete returns from every ordered tree for every range but (Excluded k, Excluded k), which panics on every tree. A history either returns to its end or stops at a remove on a tree whose root has one child with one child; histories without remove, and histories without range_delete, never panic. Missing: whether such a slender tree is reachable, locks and I/O errors."
  },
  {
   "property": "C39",
   "status": "partial",
   "theorems": [
    "Verif.Tree.C39_max_partial",
    "Verif.Tree.C39_history_counterexample",
    "Verif.Tree.C39_order_partial",
    "Verif.Tree.C39_fanout_partial",
    "Verif.Tree.C39_rangeDelete_counterexample"
   ],
   "note": "Order, bounds and maximum fanout after every history; minimum fanout after every history without range_delete. Counterexamples, one from the empty tree: range_delete can leave a non-root node with fewer than the minimum number of children."
  },
  {
   "property": "C40",
   "status": "proved",
   "theorems": [
    "Verif.Tree.C40_resume",
    "Verif.Tree.C40_resume_value"
   ],
   "note": "Any sequence of polls with any ordered trees in between; get_range is one atomic step of the model. That it is atomic among other tasks is C85."
  },
  {
   "property": "C41",
   "status": "partial",
   "theorems": [
    "Verif.Crash.Dirty.C41_working_sync",
    "Verif.Crash.Dirty.C41_idle_sync_partial",
    "Verif.Crash.Dirty.C41_overlap_counterexample",
    "Verif.Crash.Dirty.C41_flag_counterexample",
    "Verif.Crash.Dirty.C41_failed_counterexample",
    "Verif.Crash.C41_synced_partial",
    "Verif.Forest.Race.C41_overlapping_opens_lose_write",
    "Verif.Forest.Race.C41_uninterrupted_opens_share"
   ],
   "note": "Proved for one writer outside that window, and for concurrent writers for every sync that has work to do; a sync that skips because the dirty flag is clear can return Ok before or without making a write durable (three counterexamples). Overlapping opens of one dataset can also lose writes (Forest.Race)."
  },
  {
   "property": "C42",
   "status": "partial",
   "theorems": [
    "Verif.Forest.C42_history_partial",
    "Verif.Forest.C42_create_find_partial",
    "Verif.Forest.C42_destroy_find_partial",
    "Verif.Forest.C42_second_root",
    "Verif.Forest.C42_no_root",
    "Verif.Forest.C42_hash_collision",
    "Verif.Forest.C42_trailing_slash",
    "Verif.Forest.C42_dead_mount_busy",
    "Verif.Forest.Race.C42_open_during_destroy"
   ],
   "note": "For all names without slash, empty component, zero hash or hash collision, and any history of calls, names behave as a map; second root, missing root, hash collisions, trailing slashes and dead mounts are counterexamples"
  },
  {
   "property": "C43",
   "status": "proved",
   "theorems": [
    "Verif.Forest.C43_pages",
    "Verif.Forest.C43_pages_with_changes"
   ],
   "note": "Any names and any history: paging through with the returned cookies gives each file system present throughout exactly once, also while others are created and destroyed"
  },
  {
   "property": "C44",
   "status": "partial",
   "theorems": [
    "Verif.File.C44_file_is_byte_array_partial",
    "Verif.File.C44_read_never_panics",
    "Verif.File.C44_empty_write_extends_file"
   ],
   "note": "Proved for all sequences without zero-byte writes; C44_empty_write_extends_file shows a zero-byte write past the end extends the file."
  },
  {
   "property": "C45",
   "status": "proved",
   "theorems": [
    "Verif.File.C45_bytes_is_sum_of_extents",
    "Verif.File.C45_empty_file_has_no_space",
    "Verif.File.C45_punch_frees_space"
   ],
   "note": ""
  },
  {
   "property": "C46",
   "status": "partial",
   "theorems": [
    "Verif.File.C46_hole_reads_zero",
    "Verif.File.C46_seek_data",
    "Verif.File.C46_seek_hole_partial",
    "Verif.File.C46_seek_hole_in_final_hole",
    "Verif.File.C46_seek_hole_skips_final_hole"
   ],
   "note": "SEEK_DATA exact. SEEK_HOLE exact except inside the final hole, where the code returns the end of the file (C46_seek_hole_skips_final_hole)."
  },
  {
   "property": "C47",
   "status": "proved",
   "theorems": [
    "Verif.Dir.C47_name_map",
    "Verif.Dir.C47_lookup_after"
   ],
   "note": ""
  },
  {
   "property": "C48",
   "status": "partial",
   "theorems": [
    "Verif.Dir.C48_link_adds_one_name_partial",
    "Verif.Dir.C48_link_destroys_other_name",
    "Verif.Dir.C48_link_destroys_bucket"
   ],
   "note": "False under hash collisions (C48_link_destroys_other_name); proved when no entry shares the new name's hash."
  },
  {
   "property": "C49",
   "status": "partial",
   "theorems": [
    "Verif.Dir.C49_pages_partial",
    "Verif.Dir.C49_one_page_complete",
    "Verif.Dir.C49_pages_with_changes_partial",
    "Verif.Dir.C49_removal_skips_other_entry",
    "Verif.Dir.C49_three_way_collision_loops",
    "Verif.Dir.C49_largest_hash_restarts"
   ],
   "note": "Proved when at most two names share a hash and no hash is 2^56-1; counterexamples for both. One-page listing is complete without restriction."
  },
  {
   "property": "C50",
   "status": "partial",
   "theorems": [
    "Verif.Namespace.C50_consistent_partial",
    "Verif.Namespace.C50_effect",
    "Verif.Namespace.C50_root_link_count"
   ],
   "note": "Every history of valid requests (remounts included) never panics and leaves link counts, entries and '..' right, with the exact effect of each request on the names; missing: the root directory, whose link count is one plus its subdirectories (C50_root_link_count)."
  },
  {
   "property": "C51",
   "status": "partial",
   "theorems": [
    "Verif.Namespace.C51_in_use_partial",
    "Verif.Namespace.C51_records_partial",
    "Verif.Namespace.C51_release",
    "Verif.Namespace.C51_remount",
    "Verif.Namespace.C51_rename_destroys",
    "Verif.Namespace.C51_link_of_dying",
    "Verif.Namespace.C51_hash_collision"
   ],
   "note": "Files in use survive, with their records, every history without a rename over a file in use; release on last use and at remount proved in full. Findings: rename over a file in use destroys it, a link to a nameless file is lost, hash collision of dying inodes panics."
  },
  {
   "property": "C52",
   "status": "partial",
   "theorems": [
    "Verif.Namespace.C52_one_mount_partial",
    "Verif.Namespace.C52_never_shared",
    "Verif.Namespace.C52_reuse"
   ],
   "note": "Numbers strictly increase within a mount and always exceed those of existing files; reuse after deleting the newest file and remounting is C52_reuse."
  },
  {
   "property": "C53",
   "status": "partial",
   "theorems": [
    "Verif.FSKey.C53_decode_partial",
    "Verif.FSKey.C53_injective_partial",
    "Verif.FSKey.C53_order_partial",
    "Verif.FSKey.C53_dirent_range",
    "Verif.FSKey.C53_extattr_range",
    "Verif.FSKey.C53_dying_inode_range",
    "Verif.FSKey.C53_obj_range",
    "Verif.FSKey.C53_extent_range_from",
    "Verif.FSKey.C53_extent_range_partial",
    "Verif.FSKey.C53_ranges_disjoint",
    "Verif.FSKey.C53_extent_aliases_xattr",
    "Verif.FSKey.C53_extent_range_hits_xattrs"
   ],
   "note": "Proved for extents below 2^56 bytes and for every other kind of key without restriction. Above that the code aliases extents with extended attributes (C53_extent_aliases_xattr, C53_extent_range_hits_xattrs)."
  },
  {
   "property": "C54",
   "status": "partial",
   "theorems": [
    "Verif.Forest.C54_inherited_partial",
    "Verif.Forest.C54_set_get_partial",
    "Verif.Forest.C54_relative_mountpoint",
    "Verif.Forest.C54_deep_panics",
    "Verif.Forest.C54_base_mountpoint_renamed",
    "Verif.Forest.C54_set_mounted_panics"
   ],
   "note": "Value set on the dataset or nearest ancestor and the number of levels; up to 255 levels, mount point not changed while mounted; counterexamples for the excluded cases"
  },
  {
   "property": "C55",
   "status": "partial",
   "theorems": [
    "Verif.Property.C55_round_trip_partial",
    "Verif.Property.C55_largest_recordsize",
    "Verif.Property.C55_parse_legal",
    "Verif.Property.C55_parse_stable_partial",
    "Verif.Property.C55_names",
    "Verif.Property.C55_sources_partial",
    "Verif.Property.C55_sources_lost",
    "Verif.Property.C55_numbers",
    "Verif.Property.C55_accepted"
   ],
   "note": "All legal values but the largest record size print and parse back, and the accepted texts are characterised exactly; the largest record size is misspelt in the parser's table"
  },
  {
   "property": "C56",
   "status": "partial",
   "theorems": [
    "Verif.Forest.C56_resolves_partial",
    "Verif.Forest.C56_extended_name_accepted",
    "Verif.Forest.C56_wrong_dataset_destroyed",
    "Verif.Forest.C56_double_slash"
   ],
   "note": "Names in the pool resolve to their dataset and names of other pools are refused unless the pool's name is a prefix; counterexamples show the prefix rule destroys the wrong dataset"
  },
  {
   "property": "C57",
   "status": "partial",
   "theorems": [
    "Verif.Bytes.C57_checksum_bytes",
    "Verif.Bytes.C57_checksum_same",
    "Verif.Bytes.C57_len",
    "Verif.Bytes.C57_pad_preserves_partial",
    "Verif.Bytes.C57_pad_total_partial",
    "Verif.Bytes.C57_pad_panics",
    "Verif.Bytes.C57_pad_unimplemented",
    "Verif.Bytes.C57_zeros",
    "Verif.Bytes.C57_zeros_empty_panics",
    "Verif.Bytes.C57_cursor_next",
    "Verif.Bytes.C57_cursor_run",
    "Verif.Bytes.C57_cursor_empty_buffer"
   ],
   "note": "Checksum, length, zero lists and cursor for every list; padding proved to preserve the bytes whenever it does not panic. Missing: padding panics for some shapes (C57_pad_panics), an empty buffer inside a list ends a cursor early (C57_cursor_empty_buffer)."
  },
  {
   "property": "C58",
   "status": "partial",
   "theorems": [
    "Verif.Mirror.C58_commands",
    "Verif.Mirror.C58_missing",
    "Verif.Mirror.C58_faulted",
    "Verif.Mirror.C58_through_rebuilding",
    "Verif.Mirror.C58_status_partial",
    "Verif.Mirror.C58_status_counterexample",
    "Verif.Mirror.C58_last_child_counterexample"
   ],
   "note": "State machine, reads, commands and repair proved for all histories. Status is proved for up to 256 children; with 256 sick children of 257 it reports Online, and faulting the last present child makes later calls panic (counterexamples proved)."
  },
  {
   "property": "C59",
   "status": "partial",
   "theorems": [
    "Verif.File.Conc.C59_size_partial",
    "Verif.File.Conc.C59_never_shrinks",
    "Verif.File.Conc.C59_size_upper",
    "Verif.File.Conc.C59_disjoint_data",
    "Verif.File.Conc.C59_disjoint_reads_partial",
    "Verif.File.Conc.C59_lost_size_counterexample",
    "Verif.File.Conc.C59_lost_bytes_counterexample",
    "Verif.File.Conc.C59_same_record_counterexample"
   ],
   "note": "The property does not hold: Fs::write writes back the inode it read before its transaction, so a write that began earlier and finishes later undoes the size update (C59_lost_size_counterexample). Proved for every interleaving of the tree accesses: completed writes that were not overtaken are within the size, the size never shrinks, and writes to different records leave the same extents (and, when none is overtaken, the same reads) as any serial order. Two writes to one record can lose data (C59_same_record_counterexample)."
  },
  {
   "property": "C60",
   "status": "partial",
   "theorems": [
    "Verif.Cluster.C60_pool_used_partial",
    "Verif.Cluster.C60_failed_write"
   ],
   "note": "Holds when no write fails; a failed write leaves its blocks allocated but uncounted (C60_failed_write)."
  },
  {
   "property": "C61",
   "status": "partial",
   "theorems": [
    "Verif.Sched.C61_remove_waits_partial",
    "Verif.Sched.C61_removed_too_early"
   ],
   "note": "Proved when no merged request is aborted. C61_removed_too_early: queue_depth is decremented once per waiter of a merged request, so remove() can return with I/O in flight."
  },
  {
   "property": "C62",
   "status": "partial",
   "theorems": [
    "Verif.Raid.C62_read_multi_degraded",
    "Verif.Raid.C62_read_degraded_partial",
    "Verif.Raid.C62_history_partial",
    "Verif.Raid.C62_read_multi_healthy_partial",
    "Verif.Raid.C62_multi_counterexample",
    "Verif.Raid.C62_degraded_counterexample",
    "Verif.Raid.C62_read_one_degraded",
    "Verif.Raid.C62_read_one_healthy_partial",
    "Verif.Raid.C62_read_one_no_error",
    "Verif.Raid.C62_unaligned_panics",
    "Verif.Raid.C62_read_one_never_wrong_partial"
   ],
   "note": "Proved for reads of part of one stripe from degraded arrays, of whole chunks of one stripe from healthy arrays, and of several stripes as long as no more disks fail than are known to be absent; never wrong data. False otherwise: C62_unaligned_panics, C62_multi_counterexample, C62_degraded_counterexample"
  },
  {
   "property": "C63",
   "status": "partial",
   "theorems": [
    "Verif.Raid.C63_parity_counterexample",
    "Verif.Raid.C63_index_counterexample",
    "Verif.Raid.C63_read_long_one",
    "Verif.Raid.C63_read_long_multi_partial",
    "Verif.Raid.C63_read_long_partial"
   ],
   "note": "Proved in full for data within one stripe. For several stripes, proved with single parity, or if no bad disk holds parity of the stripes, and if no disk reports an error or the stripes touch all disks. The code violates the rest: C63_parity_counterexample, C63_index_counterexample."
  },
  {
   "property": "C64",
   "status": "partial",
   "theorems": [
    "Verif.Tree.C64_clean_zone",
    "Verif.Tree.C64_no_panic_partial",
    "Verif.Tree.C64_finishes_partial",
    "Verif.Tree.C64_txgs",
    "Verif.Tree.C64_lower_tree_panics",
    "Verif.Tree.C64_recorded_needed"
   ],
   "note": "Contents, results, emptiness of the zone and termination are proved for every interleaving. The cleaner panics if the tree gets lower than the level it is at (C64_lower_tree_panics), so the absence of panics is proved only while it does not."
  },
  {
   "property": "C65",
   "status": "partial",
   "theorems": [
    "Verif.Cluster.C65_zone_txgs_partial",
    "Verif.Cluster.C65_recorded_partial",
    "Verif.Cluster.C65_stale_txg_counterexample",
    "Verif.Cluster.C65_stale_txg_panics"
   ],
   "note": "Proved for all histories in which the transaction numbers of writes never decrease. The cleaner itself may use a number whose transaction has ended (C65_stale_txg_counterexample)."
  },
  {
   "property": "C66",
   "status": "partial",
   "theorems": [
    "Verif.Fuse.C66_no_panic_partial",
    "Verif.Fuse.C66_table_partial",
    "Verif.Fuse.C66_replies_partial",
    "Verif.Fuse.C66_tree_partial",
    "Verif.Fuse.C66_held_partial",
    "Verif.Fuse.C66_records_partial",
    "Verif.Fuse.C66_rename_over_open_file",
    "Verif.Fuse.C66_rename_forgotten_ancestor",
    "Verif.Fuse.C66_create_in_removed",
    "Verif.Fuse.C66_rename_into_itself",
    "Verif.Fuse.C66_link_not_counted",
    "Verif.Fuse.C66_concurrent_lookups",
    "Verif.Fuse.C66_concurrent_lookups_forgotten",
    "Verif.Fuse.C66_nfs_dot",
    "Verif.Fuse.C66_nfs_dotdot",
    "Verif.Fuse.C66_nfs_stale_dotdot"
   ],
   "note": "Proved for kernels that keep to a stated protocol, which leaves out renames over files in use that are used afterwards, renames below forgotten directories, creates in removed directories, lookups of . and .., and overlapping requests; those make the daemon panic or answer wrongly (findings). Attributes and readdir are not modelled."
  },
  {
   "property": "C67",
   "status": "partial",
   "theorems": [
    "Verif.Blob.C67_tree_holds_its_data",
    "Verif.Blob.C67_records_accounted",
    "Verif.Blob.C67_delete_all_frees_all",
    "Verif.Blob.C67_exactly_large_data_out_of_line",
    "Verif.Blob.C67_file_like_inline",
    "Verif.Blob.C67_file_is_byte_array_partial",
    "Verif.Blob.C67_attrs_partial",
    "Verif.Blob.C67_flush_during_set_loses_value"
   ],
   "note": "all histories and flush schedules, except that a large value must not be flushed between the tree operations of a colliding setextattr; C67_flush_during_set_loses_value shows that the code loses the value then. File theorem in bytes leaves out zero-byte writes, as C44 does."
  },
  {
   "property": "C68",
   "status": "partial",
   "theorems": [
    "Verif.Share.C68_reads_see_completed_writes",
    "Verif.Share.C68_only_flush_panics",
    "Verif.Share.C68_flush_panics_iff",
    "Verif.Share.C68_no_one_gets_stuck",
    "Verif.Share.C68_idle_state",
    "Verif.Share.C68_flush_safe_when_quiet_partial",
    "Verif.Share.C68_flush_panics_during_read",
    "Verif.Share.C68_flush_panics_during_write"
   ],
   "note": "reads, no leak and no panics of reads and writes for all interleavings, and the exact condition for the flusher's panics; that the flusher never panics is false of the code: C68_flush_panics_during_read and C68_flush_panics_during_write are executions in which it does"
  },
  {
   "property": "C69",
   "status": "partial",
   "theorems": [
    "Verif.Xattr.C69_names_round_trip",
    "Verif.Xattr.C69_attributes_are_a_map_partial",
    "Verif.Xattr.C69_size_then_fetch",
    "Verif.Xattr.C69_listed_names",
    "Verif.Xattr.C69_panics_iff",
    "Verif.Xattr.C69_create_flag_ignored",
    "Verif.Xattr.C69_unknown_namespace_panics"
   ],
   "note": "all sequences of requests without flags for names in the two namespaces, with fewer than 2^32 bytes of names; the code ignores the flags (C69_create_flag_ignored) and panics at other namespaces (C69_panics_iff)"
  },
  {
   "property": "C70",
   "status": "partial",
   "theorems": [
    "Verif.Attrs.C70_attributes_are_last_given_partial",
    "Verif.Attrs.C70_files_are_created",
    "Verif.Attrs.C70_valid_histories",
    "Verif.Attrs.C70_set_then_get",
    "Verif.Attrs.C70_stat_partial",
    "Verif.Attrs.C70_chmod_then_stat",
    "Verif.Attrs.C70_blocks_are_wrong",
    "Verif.Attrs.C70_symlink_size",
    "Verif.Attrs.C70_listing_leaves_atime",
    "Verif.Attrs.C70_empty_write"
   ],
   "note": "Every attribute that getattr and stat report is the last one given, for every history and clock; valid histories never panic. Missing because the code violates it: st_blocks is 512 times the space instead of a 512th (C70_blocks_are_wrong), symbolic links have size 0 (C70_symlink_size), readdir and readlink never mark the access time (C70_listing_leaves_atime), empty writes mark and extend the file (C70_empty_write), and the daemon drops bits beyond 32 of link counts and device numbers."
  },
  {
   "property": "C71",
   "status": "partial",
   "theorems": [
    "Verif.Conc.C71_linearizable",
    "Verif.Conc.C71_no_deadlock",
    "Verif.Conc.C71_every_call_returns",
    "Verif.Conc.C71_range_delete_panics",
    "Verif.Conc.C71_range_delete_partial",
    "Verif.Conc.C71_returns_match_calls"
   ],
   "note": "Linearizability, freedom from deadlock, termination and one return for each call are proved for insert, remove, get, last_key, flush and rewrite_node in any interleaving, with no bound. range_delete's locking is only modelled where it violates the property: it panics if another task is in a leaf it deletes (C71_range_delete_panics). Range queries among these tasks are C85."
  },
  {
   "property": "C72",
   "status": "partial",
   "theorems": [
    "Verif.Import.C72_import_partial",
    "Verif.Import.C72_import_agreeing_partial",
    "Verif.Import.C72_refused",
    "Verif.Import.C72_others_first",
    "Verif.Import.C72_listed",
    "Verif.Import.C72_by_name",
    "Verif.Import.C72_rolls_back",
    "Verif.Import.C72_too_few_members",
    "Verif.Import.C72_no_second_try",
    "Verif.Import.C72_old_label_hides_disk"
   ],
   "note": "Devices, order, roles and identity are proved for all layouts, subsets of disks and orders; the data is that of a disk up to date in its mirror. False in the code, with counterexamples: newest in the pool, refusal when a RAID has too few members, retry, and old labels tasted last."
  },
  {
   "property": "C73",
   "status": "partial",
   "theorems": [
    "Verif.TreeCredit.C73_exact",
    "Verif.TreeCredit.C73_conserved",
    "Verif.TreeCredit.C73_quiet",
    "Verif.TreeCredit.C73_no_panic_partial",
    "Verif.TreeCredit.C73_bounded_partial",
    "Verif.TreeCredit.C73_requirements",
    "Verif.TreeCredit.C73_range_delete",
    "Verif.TreeCredit.C73_read_error_panics",
    "Verif.TreeCredit.C73_write_error_panics",
    "Verif.TreeCredit.C73_range_delete_overdraws"
   ],
   "note": "exactness and conservation hold for every execution, with any credit and with disk errors; no panic and no overdraft are proved for working disks, calls that bring at least what an insertion needs (less than credit_requirements says) and range deletions that meet at most three clean leaves; the rest is false of the code: disk errors drop credit and panic, and a range deletion may need a fourth leaf's credit"
  },
  {
   "property": "C74",
   "status": "partial",
   "theorems": [
    "Verif.Isol.C74_isolated_partial",
    "Verif.Isol.C74_serial_partial",
    "Verif.Isol.C74_own_parts_partial",
    "Verif.Isol.C74_can_finish",
    "Verif.Isol.C74_link_loses_count",
    "Verif.Isol.C74_mkdir_loses_count",
    "Verif.Isol.C74_write_loses_size"
   ],
   "note": "Proved for all calls but link, for any number of calls and any interleaving. link joins two updates of the same inode and can lose the new link count (C74_link_loses_count). Each tree operation is one step."
  },
  {
   "property": "C75",
   "status": "partial",
   "theorems": [
    "Verif.Rpc.C75_list_partial",
    "Verif.Rpc.C75_resume_partial",
    "Verif.Rpc.C75_resume_skips",
    "Verif.Rpc.C75_missing_listed",
    "Verif.Rpc.C75_missing",
    "Verif.Rpc.C75_many_children_fail"
   ],
   "note": "proved for all reachable forests of at most 255 levels, with C42's conditions on names; a response of 4096 bytes or more ends the listing with an error (C75_many_children_fail); resuming is proved for the first level, deeper offsets do not work (C75_resume_skips)"
  },
  {
   "property": "C76",
   "status": "partial",
   "theorems": [
    "Verif.Rpc.C76_asking_changes_nothing",
    "Verif.Rpc.C76_strangers",
    "Verif.Rpc.C76_refusal_partial",
    "Verif.Rpc.C76_refusal_panics",
    "Verif.Rpc.C76_owner",
    "Verif.Rpc.C76_mount_partial",
    "Verif.Rpc.C76_pool",
    "Verif.Rpc.C76_fault_by_path",
    "Verif.Rpc.C76_attach_by_path",
    "Verif.Rpc.C76_create_with_props_partial",
    "Verif.Rpc.C76_failed_create_leaves_fs",
    "Verif.Rpc.C76_failed_mount_blocks_destroy"
   ],
   "note": "authorisation holds for every request; four refusals make the client panic (C76_refusal_panics), and a failed creation or mount has effects (C76_failed_create_leaves_fs, C76_failed_mount_blocks_destroy)"
  },
  {
   "property": "C77",
   "status": "partial",
   "theorems": [
    "Verif.PoolCmd.C77_grammar_partial",
    "Verif.PoolCmd.C77_unambiguous",
    "Verif.PoolCmd.C77_create_partial",
    "Verif.PoolCmd.C77_spaces_split",
    "Verif.PoolCmd.C77_number_runs_on",
    "Verif.PoolCmd.C77_paths_refused",
    "Verif.PoolCmd.C77_twice_hangs"
   ],
   "note": "proved for arguments that reach the parser as one word each and RAIDs of at most 181 children; other arguments are not taken as meant (C77_spaces_split, C77_number_runs_on, C77_paths_refused), and a device given twice hangs instead of being refused (C77_twice_hangs)"
  },
  {
   "property": "C78",
   "status": "partial",
   "theorems": [
    "Verif.Check.C78_passes_iff_partial",
    "Verif.Check.C78_detects_partial",
    "Verif.Check.C78_lookup_partial",
    "Verif.Check.C78_returns",
    "Verif.Check.C78_reached",
    "Verif.Check.C78_reached_returns",
    "Verif.Check.C78_no_false_alarm_partial",
    "Verif.Check.C78_database",
    "Verif.Check.C78_misses_duplicate",
    "Verif.Check.C78_misses_separator",
    "Verif.Check.C78_empty_panics",
    "Verif.Check.C78_false_alarm",
    "Verif.Check.C78_command_silent"
   ],
   "note": "exact for trees in order within leaves and separated by the recorded keys; what the check does not look at is shown by C78_misses_duplicate and C78_misses_separator; panics on empty nodes (C78_empty_panics), fails after range_delete (C78_false_alarm), and the command's exit status ignores the answer (C78_command_silent)"
  },
  {
   "property": "C79",
   "status": "partial",
   "theorems": [
    "Verif.Reserve.C79_same_steps",
    "Verif.Reserve.C79_operations_partial",
    "Verif.Reserve.C79_short_of_values_partial",
    "Verif.Reserve.C79_short_partial",
    "Verif.Reserve.C79_funded_partial",
    "Verif.Reserve.C79_link_unfunded",
    "Verif.Reserve.C79_link_example",
    "Verif.Reserve.C79_unlink_unfunded",
    "Verif.Reserve.C79_unlink_example",
    "Verif.Reserve.C79_mount_unfunded",
    "Verif.Reserve.C79_mount_example",
    "Verif.Reserve.C79_inode_unpaid",
    "Verif.Reserve.C79_never_granted",
    "Verif.Reserve.C79_big_write_never_granted",
    "Verif.Reserve.C79_fits_partial"
   ],
   "note": "operations suffice for every call but link, and unlink only without hash collisions; values are short by at most the inode and directory overhead (exactly stated), which the slack in each operation's demand covers, so every operation gets what C73 needs (C79_funded_partial); link, unlink on collision, and mounting are under-reserved, and large writes ask for more than can ever be granted"
  },
  {
   "property": "C80",
   "status": "partial",
   "theorems": [
    "Verif.Progress.C80_sound",
    "Verif.Progress.C80_progress_partial",
    "Verif.Progress.C80_progress_call_partial",
    "Verif.Progress.C80_destroy_hangs",
    "Verif.Progress.C80_create_hangs",
    "Verif.Progress.C80_flush_forgets",
    "Verif.Progress.C80_destroy_example",
    "Verif.Progress.C80_create_example",
    "Verif.Progress.C80_flush_example"
   ],
   "note": "credit is conserved and locks exclude each other for all calls; progress is proved for all ordinary calls whenever the dirty flag is set or nobody waits for credit, against an adversary that chooses what calls do; the rest is false of the code: destroy_fs and create_fs can hang forever, and a sync can make the flusher forget waiting calls"
  },
  {
   "property": "C81",
   "status": "partial",
   "theorems": [
    "Verif.Wire.C81_fs_node",
    "Verif.Wire.C81_forest_node",
    "Verif.Wire.C81_ridt_node",
    "Verif.Wire.C81_alloct_node",
    "Verif.Wire.C81_unambiguous",
    "Verif.Wire.C81_sizes",
    "Verif.Wire.C81_spacemap",
    "Verif.Wire.C81_label_partial",
    "Verif.Wire.C81_request",
    "Verif.Wire.C81_response",
    "Verif.Wire.C81_error_codes",
    "Verif.Wire.C81_call_partial",
    "Verif.Wire.C81_long_request",
    "Verif.Wire.C81_long_answer",
    "Verif.Wire.C81_any_bytes",
    "Verif.Wire.C81_big_pool_status",
    "Verif.Wire.C81_stored_node"
   ],
   "note": "proved for everything stored in trees and spacemaps, for labels that are written, and for messages that fit the buffer of 4096 bytes; longer answers are lost (C81_long_answer), so that the status of a pool of 171 disks never arrives (C81_big_pool_status)"
  },
  {
   "property": "C82",
   "status": "partial",
   "theorems": [
    "Verif.Cleaner.C82_pass_partial",
    "Verif.Cleaner.C82_emptied_partial",
    "Verif.Cleaner.C82_stale_zone",
    "Verif.Cleaner.C82_selected",
    "Verif.Cleaner.C82_none_missed",
    "Verif.Cleaner.C82_rounding",
    "Verif.Cleaner.C82_order",
    "Verif.Cleaner.C82_order_equal",
    "Verif.Cleaner.C82_no_panic",
    "Verif.Cleaner.C82_no_new_data",
    "Verif.Cleaner.C82_reclaimed_partial",
    "Verif.Cleaner.C82_never_reclaimed",
    "Verif.Cleaner.C82_answers",
    "Verif.Cleaner.C82_all_answered",
    "Verif.Cleaner.C82_shutdown",
    "Verif.Cleaner.C82_error_is_final"
   ],
   "note": "Selection exact for zones below 2^24 blocks and never missing one of any size; order, passes and the task proved. The full claim fails: C82_stale_zone, C82_error_is_final, C82_never_reclaimed, C82_rounding. Positive part for zones that are still closed when their cleaning begins and devices that do not fail."
  },
  {
   "property": "C83",
   "status": "partial",
   "theorems": [
    "Verif.Cluster.C83_resumable_partial",
    "Verif.Cluster.C83_resumes",
    "Verif.Cluster.C83_step_partial",
    "Verif.Cluster.C83_complete_partial",
    "Verif.Cluster.C83_reused_counterexample",
    "Verif.Cluster.C83_panic_counterexample",
    "Verif.Cluster.C83_crash_counterexample",
    "Verif.Cluster.C83_ahead_counterexample",
    "Verif.Cluster.C83_not_synced"
   ],
   "note": "Proved for rebuilds during which no zone that is still to be copied loses all its data, transactions are not before the task's next_txg (as in C31) and devices do not fail. Otherwise violated: C83_reused_counterexample, C83_crash_counterexample, C83_panic_counterexample, C83_ahead_counterexample, C83_not_synced."
  },
  {
   "property": "C84",
   "status": "partial",
   "theorems": [
    "Verif.NullRaid.C84_copies",
    "Verif.NullRaid.C84_read",
    "Verif.NullRaid.C84_corrupt_partial",
    "Verif.NullRaid.C84_never_wrong",
    "Verif.NullRaid.C84_partial_block_counterexample",
    "Verif.NullRaid.C84_spreads_counterexample"
   ],
   "note": "Copies, reads from disks that deliver what they hold or an error, and the absence of wrong records proved in full. Recovery from wrong data for records that fill their blocks; otherwise violated: C84_partial_block_counterexample. Rebuilds assume that disks deliver what they hold, see C84_spreads_counterexample."
  },
  {
   "property": "C85",
   "status": "partial",
   "theorems": [
    "Verif.Conc.C85_other_calls_return_partial",
    "Verif.Conc.C85_no_deadlock_partial",
    "Verif.Conc.C85_comes_to_rest_partial",
    "Verif.Conc.C85_returns_exactly_once",
    "Verif.Conc.C85_every_query_returns_partial",
    "Verif.Conc.C85_steps_bounded",
    "Verif.Conc.C85_returns_at_most_once",
    "Verif.Conc.C85_chunk_atomic",
    "Verif.Conc.C85_whole_query"
   ],
   "note": "Each call of get_range is a snapshot of the map at the instant it gets the root pointer's lock, and what follows from it for whole queries; each call returns at most once; no deadlock; once no new calls are made a bounded number of steps leads to a state without waiting calls and locks, in which every call of get_range has returned exactly once, and every other call too. Missing: schedules in which a query holds the lock of one of two neighbours while it waits for the other (try_join in the code); the model takes both in one step, so these are not covered by the freedom from deadlock."
  }
 ]
}
