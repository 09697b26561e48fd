{
"C01": [
"partial",
"Conservation, no over-lending and the debug assertion are proved for all schedules. Restitution needs that no granted future is dropped; C01_dropped_future_leaks shows it fails otherwise."
],
"C02": [
"partial",
"False of the code: C02_deadlock. Proved for executions in which borrow and repay calls do not overlap."
],
"C03": [
"proved",
""
],
"C44": [
"partial",
"Proved for all sequences without zero-byte writes; C44_empty_write_extends_file shows a zero-byte write past the end extends the file."
],
"C45": [
"proved",
""
],
"C46": [
"partial",
"SEEK_DATA exact. SEEK_HOLE exact except inside the final hole, where the code returns the end of the file (C46_seek_hole_skips_final_hole)."
],
"C47": [
"proved",
""
],
"C48": [
"partial",
"False under hash collisions (C48_link_destroys_other_name); proved when no entry shares the new name's hash."
],
"C49": [
"partial",
"Proved when at most two names share a hash and no hash is 2^56-1; counterexamples for both. One-page listing is complete without restriction."
],
"C53": [
"partial",
"Proved for extents below 2^56 bytes and for every other kind of key without restriction. Above that the code aliases extents with extended attributes (C53_extent_aliases_xattr, C53_extent_range_hits_xattrs)."
],
"C04": [
"partial",
"Exact except for insertions of a value that is already cached: those evict entries needlessly and are not marked as most recently used (C04_duplicate_insert_evicts, C04_duplicate_insert_not_most_recent). Refinement, size, lookups proved for all histories."
],
"C05": [
"partial",
"False of the code: C05_failed_fill_wedges shows the second reader waits forever after a failed fill. Proved for executions without failing or cancelled fills."
],
"C06": [
"partial",
"Proved for geometries with n(n-1) <= 32767 (n <= 181); with overflow checks also (n(n-1)-1)m <= 32767. False beyond: C06_overflow_collides (release build, 191 disks), C06_overflow_panics and C06_overflow_new_panics (checked build)."
],
"C07": [
"proved",
"Without overflow checks for every geometry new accepts; with overflow checks C07_distinct_disks holds of every chunk that is placed without a panic."
],
"C08": [
"partial",
"Same geometries as C06."
],
"C24": [
"proved",
"Every reachable history of writes, frees, flushes, transaction ends and reloads of a cluster over any disjoint zone geometry."
],
"C25": [
"proved",
"used = live blocks <= allocated <= capacity, counter = sum over zones, no legal call panics."
],
"C26": [
"proved",
"Erased zones hold no live range; no block given out is given out again before the transaction ends."
],
"C27": [
"partial",
"Proved when the last live block of the zone is freed while the zone is closed. The code violates the rest: a zone whose blocks are all freed while it is still open is closed but never killed (C27_leak, C27_leak_reachable)."
],
"C28": [
"proved",
"Over the decoded zone records; the byte encoding is C81_spacemap, MetroHash64 is a parameter."
],
"C29": [
"partial",
"Copy 0 is exact after every sync. Copy 1 is violated: C29_second_copy_stale."
],
"C30": [
"proved",
"Any clusters in any state."
],
"C60": [
"partial",
"Holds when no write fails; a failed write leaves its blocks allocated but uncounted (C60_failed_write)."
],
"C31": [
"partial",
"Proved for any concurrent activity in which writes that can close a zone are in transactions not before the task's next_txg. Otherwise violated: C31_zone_missed."
],
"C20": [
"proved",
"All histories of submit/complete/EAGAIN/resched/remove, any heap tie-break; also progress: with optimum_queue_depth >= 2 (10 in the code) the scheduler never stalls."
],
"C21": [
"proved",
"Order in which operations leave the queues; merged sync requests contain only syncs."
],
"C22": [
"partial",
"Proved unless another operation with an LBA between the two was issued before; for a zone under write-pointer discipline up to its last LBA but one. C22_last_lba_first: erase_zone is queued under the zone's last LBA, so a write of that LBA can overtake earlier writes."
],
"C23": [
"proved",
"Under LBA-multiple lengths, which VdevFile asserts."
],
"C61": [
"partial",
"Proved when no merged request is aborted. C61_removed_too_early: queue_depth is decremented once per waiter of a merged request, so remove() can return with I/O in flight."
],
"C57": [
"partial",
"Checksum, length, zero lists and cursor for every list; padding proved to preserve the bytes whenever it does not panic. Missing: padding panics for some shapes (C57_pad_panics), an empty buffer inside a list ends a cursor early (C57_cursor_empty_buffer)."
],
"C17": [
"partial",
"Round trip for every list of block, mirror and pool records and any trailing bytes whenever the write does not panic; C81_label_partial adds the RAID and IDML records. The full claim fails: a record of 4096 bytes or more panics (C17_big_record_panics), a label over 16 KiB cannot be read back (C17_oversize_unreadable)."
],
"C18": [
"partial",
"Accepted iff intact; damage rejected; never panics without overflow checks. With overflow checks a length field near 2^64 panics (C18_overflow_panics)."
],
"C19": [
"partial",
"Partition for every geometry whose zones hold the reserved area. Fails otherwise (C19_small_zones_overlap), and the last zone may run past the end of the device (C19_last_zone_past_end)."
],
"C38": [
"partial",
"Every history of insert, remove, range_delete, get, last_key, range and flush whose calls return gives exactly an ordered map's answers and contents. range_delete returns from every ordered tree for every range but (Excluded k, Excluded k), which panics on every tree. A history either returns to its end or stops at a remove on a tree whose root has one child with one child; histories without remove, and histories without range_delete, never panic. Missing: whether such a slender tree is reachable, locks and I/O errors."
],
"C39": [
"partial",
"Order, bounds and maximum fanout after every history; minimum fanout after every history without range_delete. Counterexamples, one from the empty tree: range_delete can leave a non-root node with fewer than the minimum number of children."
],
"C40": [
"proved",
"Any sequence of polls with any ordered trees in between; get_range is one atomic step of the model. That it is atomic among other tasks is C85."
],
"C14": [
"proved",
"Every read of a mirror, over all mirrors, round-robin positions and device answers; read_long too."
],
"C15": [
"partial",
"Proved for Mirror::repair_zone and closed RAID zones; C15_raid_open_short and C15_raid_open_nothing show that VdevRaid::repair_mirror_zone repairs too little of open zones"
],
"C16": [
"partial",
"Proved for histories in which one device is always there and no session ends after exactly one sync. A session of one sync and a split brain violate the property; both counterexamples are proved."
],
"C58": [
"partial",
"State machine, reads, commands and repair proved for all histories. Status is proved for up to 256 children; with 256 sick children of 257 it reports Online, and faulting the last present child makes later calls panic (counterexamples proved)."
],
"C09": [
"proved",
"Every code of at most 256 columns, every data, every erasure pattern of at most f columns: the field, the Cauchy argument and the row selection are proved; ISA-L's documented arithmetic and matrix inversion are the trusted base. Also encode_update and vectored encoding agree with encode."
],
"C11": [
"proved",
"Limits proved exact (stripe in limits iff all its chunks inside the zone), ordered and in agreement with lba2zone, for every lawful layout, and PRIME-S proved lawful for every accepted geometry small enough for its 16-bit arithmetic (C06 covers overflow)."
],
"C10": [
"partial",
"Reads, whole stripes, each byte once and flush proved for all histories of writes of any lengths; order per disk proved for writes of whole LBAs, and C10_out_of_order shows that it fails for data ending inside the last LBA of a stripe"
],
"C12": [
"proved",
"Ok iff at most f failed; recovery of every chunk of every stripe for one-stripe, vectored and multi-stripe writes, through the codec of C09"
],
"C13": [
"partial",
"Proved: degraded stripe writes, reads of any range (C13_read), syncs, zone operations, health. False: labels and spacemaps panic as soon as one child is absent (C13_label_spacemap_panic, C13_read_spacemap_panic); restoring a child leaves the count wrong (C13_restore_count)"
],
"C50": [
"partial",
"Every history of valid requests (remounts included) never panics and leaves link counts, entries and '..' right, with the exact effect of each request on the names; missing: the root directory, whose link count is one plus its subdirectories (C50_root_link_count)."
],
"C51": [
"partial",
"Files in use survive, with their records, every history without a rename over a file in use; release on last use and at remount proved in full. Findings: rename over a file in use destroys it, a link to a nameless file is lost, hash collision of dying inodes panics."
],
"C52": [
"partial",
"Numbers strictly increase within a mount and always exceed those of existing files; reuse after deleting the newest file and remounting is C52_reuse."
],
"C33": [
"proved",
"For every history of put, get, pop, delete and evictions on devices that keep allocated blocks, under the assumption that the external codecs invert themselves; that the serialisers do is C81."
],
"C34": [
"proved",
"For every answer of the devices and every history; with a hash that separates the written bytes from all others no wrong record is ever returned."
],
"C35": [
"partial",
"Proved for records that fill whole blocks. False otherwise: reconstructions are hashed with their padding, so such records are reported lost (C35_partial_block_lost). C35_over_raid_partial joins it to C63: with at most f bad disks the record itself is read."
],
"C36": [
"partial",
"Proved for every history of puts, gets, deletes, pops, cleanings, evictions, exports and imports that run one after another without device errors during pop or cleaning. False with such errors (C36_failed_clean, C36_failed_pop) and for overlapping operations (C36_race_*). The RIDT and AllocT are seen as ordered maps (C38 proves the tree is one)."
],
"C37": [
"proved",
"For every history with any device failures; a crash goes back to the last committed label and may reissue ids that were never committed."
],
"C42": [
"partial",
"For all names without slash, empty component, zero hash or hash collision, and any history of calls, names behave as a map; second root, missing root, hash collisions, trailing slashes and dead mounts are counterexamples"
],
"C43": [
"proved",
"Any names and any history: paging through with the returned cookies gives each file system present throughout exactly once, also while others are created and destroyed"
],
"C54": [
"partial",
"Value set on the dataset or nearest ancestor and the number of levels; up to 255 levels, mount point not changed while mounted; counterexamples for the excluded cases"
],
"C55": [
"partial",
"All legal values but the largest record size print and parse back, and the accepted texts are characterised exactly; the largest record size is misspelt in the parser's table"
],
"C56": [
"partial",
"Names in the pool resolve to their dataset and names of other pools are refused unless the pool's name is a prefix; counterexamples show the prefix rule destroys the wrong dataset"
],
"C41": [
"partial",
"Proved for one writer outside that window, and for concurrent writers for every sync that has work to do; a sync that skips because the dirty flag is clear can return Ok before or without making a write durable (three counterexamples). Overlapping opens of one dataset can also lose writes (Forest.Race)."
],
"C32": [
"partial",
"Proved for crashes at any point except between the first flush of the spacemap and the durable first label; in that window, with a torn spacemap, or with both labels torn, the claim is false (counterexamples). One cluster, one disk image; trees are represented by their records."
],
"C59": [
"partial",
"The property does not hold: Fs::write writes back the inode it read before its transaction, so a write that began earlier and finishes later undoes the size update (C59_lost_size_counterexample). Proved for every interleaving of the tree accesses: completed writes that were not overtaken are within the size, the size never shrinks, and writes to different records leave the same extents (and, when none is overtaken, the same reads) as any serial order. Two writes to one record can lose data (C59_same_record_counterexample)."
],
"C62": [
"partial",
"Proved for reads of part of one stripe from degraded arrays, of whole chunks of one stripe from healthy arrays, and of several stripes as long as no more disks fail than are known to be absent; never wrong data. False otherwise: C62_unaligned_panics, C62_multi_counterexample, C62_degraded_counterexample"
],
"C63": [
"partial",
"Proved in full for data within one stripe. For several stripes, proved with single parity, or if no bad disk holds parity of the stripes, and if no disk reports an error or the stripes touch all disks. The code violates the rest: C63_parity_counterexample, C63_index_counterexample."
],
"C64": [
"partial",
"Contents, results, emptiness of the zone and termination are proved for every interleaving. The cleaner panics if the tree gets lower than the level it is at (C64_lower_tree_panics), so the absence of panics is proved only while it does not."
],
"C65": [
"partial",
"Proved for all histories in which the transaction numbers of writes never decrease. The cleaner itself may use a number whose transaction has ended (C65_stale_txg_counterexample)."
],
"C66": [
"partial",
"Proved for kernels that keep to a stated protocol, which leaves out renames over files in use that are used afterwards, renames below forgotten directories, creates in removed directories, lookups of . and .., and overlapping requests; those make the daemon panic or answer wrongly (findings). Attributes and readdir are not modelled."
],
"C67": [
"partial",
"all histories and flush schedules, except that a large value must not be flushed between the tree operations of a colliding setextattr; C67_flush_during_set_loses_value shows that the code loses the value then. File theorem in bytes leaves out zero-byte writes, as C44 does."
],
"C68": [
"partial",
"reads, no leak and no panics of reads and writes for all interleavings, and the exact condition for the flusher's panics; that the flusher never panics is false of the code: C68_flush_panics_during_read and C68_flush_panics_during_write are executions in which it does"
],
"C69": [
"partial",
"all sequences of requests without flags for names in the two namespaces, with fewer than 2^32 bytes of names; the code ignores the flags (C69_create_flag_ignored) and panics at other namespaces (C69_panics_iff)"
],
"C70": [
"partial",
"Every attribute that getattr and stat report is the last one given, for every history and clock; valid histories never panic. Missing because the code violates it: st_blocks is 512 times the space instead of a 512th (C70_blocks_are_wrong), symbolic links have size 0 (C70_symlink_size), readdir and readlink never mark the access time (C70_listing_leaves_atime), empty writes mark and extend the file (C70_empty_write), and the daemon drops bits beyond 32 of link counts and device numbers."
],
"C71": [
"partial",
"Linearizability, freedom from deadlock, termination and one return for each call are proved for insert, remove, get, last_key, flush and rewrite_node in any interleaving, with no bound. range_delete's locking is only modelled where it violates the property: it panics if another task is in a leaf it deletes (C71_range_delete_panics). Range queries among these tasks are C85."
],
"C72": [
"partial",
"Devices, order, roles and identity are proved for all layouts, subsets of disks and orders; the data is that of a disk up to date in its mirror. False in the code, with counterexamples: newest in the pool, refusal when a RAID has too few members, retry, and old labels tasted last."
],
"C73": [
"partial",
"exactness and conservation hold for every execution, with any credit and with disk errors; no panic and no overdraft are proved for working disks, calls that bring at least what an insertion needs (less than credit_requirements says) and range deletions that meet at most three clean leaves; the rest is false of the code: disk errors drop credit and panic, and a range deletion may need a fourth leaf's credit"
],
"C74": [
"partial",
"Proved for all calls but link, for any number of calls and any interleaving. link joins two updates of the same inode and can lose the new link count (C74_link_loses_count). Each tree operation is one step."
],
"C75": [
"partial",
"proved for all reachable forests of at most 255 levels, with C42's conditions on names; a response of 4096 bytes or more ends the listing with an error (C75_many_children_fail); resuming is proved for the first level, deeper offsets do not work (C75_resume_skips)"
],
"C76": [
"partial",
"authorisation holds for every request; four refusals make the client panic (C76_refusal_panics), and a failed creation or mount has effects (C76_failed_create_leaves_fs, C76_failed_mount_blocks_destroy)"
],
"C77": [
"partial",
"proved for arguments that reach the parser as one word each and RAIDs of at most 181 children; other arguments are not taken as meant (C77_spaces_split, C77_number_runs_on, C77_paths_refused), and a device given twice hangs instead of being refused (C77_twice_hangs)"
],
"C78": [
"partial",
"exact for trees in order within leaves and separated by the recorded keys; what the check does not look at is shown by C78_misses_duplicate and C78_misses_separator; panics on empty nodes (C78_empty_panics), fails after range_delete (C78_false_alarm), and the command's exit status ignores the answer (C78_command_silent)"
],
"C79": [
"partial",
"operations suffice for every call but link, and unlink only without hash collisions; values are short by at most the inode and directory overhead (exactly stated), which the slack in each operation's demand covers, so every operation gets what C73 needs (C79_funded_partial); link, unlink on collision, and mounting are under-reserved, and large writes ask for more than can ever be granted"
],
"C80": [
"partial",
"credit is conserved and locks exclude each other for all calls; progress is proved for all ordinary calls whenever the dirty flag is set or nobody waits for credit, against an adversary that chooses what calls do; the rest is false of the code: destroy_fs and create_fs can hang forever, and a sync can make the flusher forget waiting calls"
],
"C81": [
"partial",
"proved for everything stored in trees and spacemaps, for labels that are written, and for messages that fit the buffer of 4096 bytes; longer answers are lost (C81_long_answer), so that the status of a pool of 171 disks never arrives (C81_big_pool_status)"
],
"C82": [
"partial",
"Selection exact for zones below 2^24 blocks and never missing one of any size; order, passes and the task proved. The full claim fails: C82_stale_zone, C82_error_is_final, C82_never_reclaimed, C82_rounding. Positive part for zones that are still closed when their cleaning begins and devices that do not fail."
],
"C83": [
"partial",
"Proved for rebuilds during which no zone that is still to be copied loses all its data, transactions are not before the task's next_txg (as in C31) and devices do not fail. Otherwise violated: C83_reused_counterexample, C83_crash_counterexample, C83_panic_counterexample, C83_ahead_counterexample, C83_not_synced."
],
"C84": [
"partial",
"Copies, reads from disks that deliver what they hold or an error, and the absence of wrong records proved in full. Recovery from wrong data for records that fill their blocks; otherwise violated: C84_partial_block_counterexample. Rebuilds assume that disks deliver what they hold, see C84_spreads_counterexample."
],
"C85": [
"partial",
"Each call of get_range is a snapshot of the map at the instant it gets the root pointer's lock, and what follows from it for whole queries; each call returns at most once; no deadlock; once no new calls are made a bounded number of steps leads to a state without waiting calls and locks, in which every call of get_range has returned exactly once, and every other call too. Missing: schedules in which a query holds the lock of one of two neighbours while it waits for the other (try_join in the code); the model takes both in one step, so these are not covered by the freedom from deadlock."
]
}