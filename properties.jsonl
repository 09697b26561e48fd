{"id": "C01", "title": "Writeback credit is conserved and never over-lent", "statement": "For a WriteBack of capacity N, at every point of every interleaving of borrow, repay and wake-ups, the credit handed out (and not yet repaid) plus the remaining supply plus in-flight tentative subtractions equals N; hence the total credit held by callers never exceeds N, and once all is repaid the full N is available again.", "quantifier": "all capacities, all finite multisets of concurrent borrowers/repayers with arbitrary amounts, all interleavings of their atomic steps", "why_tests_cant": "the number of interleavings of the atomic fetch_sub/fetch_add/fetch_or steps is unbounded; tests see a handful of schedules", "anchors": ["bfffs-core/src/writeback/writeback.rs:WriteBack::borrow", "bfffs-core/src/writeback/writeback.rs:WriteBack::repay", "bfffs-core/src/writeback/writeback.rs:WriteBack::awaken"]}
{"id": "C02", "title": "A waiting borrower is woken when enough credit is repaid", "statement": "If a borrow of at most the capacity is waiting and every other holder repays, the waiting borrow eventually completes (no lost wake-up).", "quantifier": "all schedules of concurrent borrow/repay steps", "why_tests_cant": "a lost wake-up needs a repay to fall between two particular atomic steps of a borrow; tests do not control that", "anchors": ["bfffs-core/src/writeback/writeback.rs:WriteBack::borrow", "bfffs-core/src/writeback/writeback.rs:WriteBack::repay"]}
{"id": "C03", "title": "Dividing and merging credit loses nothing", "statement": "split, halve, take, extend and atomic_split move credit between two Credit objects: the sum of the two afterwards equals the sum before, the part split off is at most what was asked and at most what was there, and no part goes negative.", "quantifier": "all credit amounts and requests, all sequences of operations on any number of Credit objects", "why_tests_cant": "arithmetic over all integers incl. odd amounts and shifted representation", "anchors": ["bfffs-core/src/writeback/writeback.rs:Credit::split", "bfffs-core/src/writeback/writeback.rs:Credit::halve", "bfffs-core/src/writeback/writeback.rs:Credit::take", "bfffs-core/src/writeback/writeback.rs:Credit::extend", "bfffs-core/src/writeback/writeback.rs:Credit::atomic_split"]}
{"id": "C04", "title": "The block cache is an exact LRU cache within its capacity", "statement": "After any history of insert/get/get_ref/remove, the cache's reported size is the sum of the sizes of the entries it holds and does not exceed its capacity; a lookup returns exactly the value most recently inserted for that key unless it was removed or evicted since; the entries evicted by an insert are precisely the least recently used ones, and no more than needed.", "quantifier": "all capacities, keys, values and operation histories", "why_tests_cant": "the intrusive doubly linked list inside a hash map has pointer-surgery cases that depend on unbounded histories", "anchors": ["bfffs-core/src/cache/lru.rs:Cache::insert", "bfffs-core/src/cache/lru.rs:Cache::get", "bfffs-core/src/cache/lru.rs:Cache::remove", "bfffs-core/src/cache/lru.rs:Cache::expire"]}
{"id": "C05", "title": "A failed cache fill does not wedge later readers of the same block", "statement": "If the I/O that fills a cache entry fails, a later read of the same key issues a new I/O (or reports an error) instead of waiting forever.", "quantifier": "all histories of concurrent reads of one key with arbitrary I/O outcomes", "why_tests_cant": "depends on the order of failing I/O and concurrent readers over unbounded histories", "anchors": ["bfffs-core/src/cache/mod.rs:get_or_insert"]}
{"id": "C06", "title": "Declustered RAID placement is a bijection", "statement": "Mapping a chunk id (data or parity) to its disk and offset, then mapping that location back, yields the same chunk; distinct chunks never share a location; and every (disk, offset) location is used by exactly one chunk.", "quantifier": "every prime n, stripe width 1<k<=n, parity 0<f<k, every chunk id and every location", "why_tests_cant": "the layout's modular arithmetic ranges over infinitely many chunks and all legal geometries", "anchors": ["bfffs-core/src/raid/prime_s.rs:PrimeS::id2loc", "bfffs-core/src/raid/prime_s.rs:PrimeS::loc2id", "bfffs-core/src/raid/prime_s.rs:invmod"]}
{"id": "C07", "title": "Chunks of one stripe are on distinct disks", "statement": "For every legal geometry all k chunks of any stripe are stored on k different disks, so the loss of any f disks leaves at least m = k-f chunks of every stripe readable.", "quantifier": "all geometries (n prime), all stripes, all sets of at most f lost disks", "why_tests_cant": "quantifies over all stripes and all failure sets", "anchors": ["bfffs-core/src/raid/prime_s.rs:PrimeS::id2loc", "bfffs-core/src/raid/declust.rs:Locator"]}
{"id": "C08", "title": "Chunk iteration agrees with direct placement", "statement": "Iterating over a range of chunk ids yields each id of the range in order, exactly once, paired with the same location the direct placement function gives for it.", "quantifier": "all geometries, all start and end ids", "why_tests_cant": "the incremental state (a,b,r,s,y,z,o,\u2026) can drift from the closed form only after arbitrarily many steps", "anchors": ["bfffs-core/src/raid/prime_s.rs:PrimeSIter::next", "bfffs-core/src/raid/prime_s.rs:PrimeSIter::new", "bfffs-core/src/raid/prime_s.rs:PrimeS::iter"]}
{"id": "C09", "title": "Erasure code recovers any f losses", "statement": "For a code with m data columns and f parity columns, from any m surviving columns of a stripe the decoder recomputes every lost data column exactly.", "quantifier": "all m, f and column lengths within the field, all data, all erasure patterns of size at most f", "why_tests_cant": "number of erasure patterns and stripe contents is astronomical", "anchors": ["bfffs-core/src/raid/codec.rs:Codec::encode", "bfffs-core/src/raid/codec.rs:Codec::decode", "bfffs-core/src/raid/codec.rs:mk_decode_tables"]}
{"id": "C10", "title": "RAID zone writes are read back exactly", "statement": "For any sequence of sequential writes (of any lengths), flushes and zone finishes in an open RAID zone, reading any range already written returns the bytes written, whether they are still in the stripe buffer, on disk, or both; disks only ever receive whole stripes, in order, each LBA once.", "quantifier": "all chunk sizes, stripe widths, all sequences of write lengths and flushes", "why_tests_cant": "buffer/stripe boundary cases depend on the whole history of write lengths", "anchors": ["bfffs-core/src/raid/vdev_raid.rs:VdevRaid::write_at", "bfffs-core/src/raid/vdev_raid.rs:StripeBuffer", "bfffs-core/src/raid/vdev_raid.rs:VdevRaid::flush_zone", "bfffs-core/src/raid/vdev_raid.rs:VdevRaid::read_at"]}
{"id": "C11", "title": "RAID zones do not straddle device zones", "statement": "The LBA limits reported for a RAID zone only contain stripes all of whose chunks lie inside that zone on every child device; the limits of different zones are disjoint and ordered.", "quantifier": "all geometries, chunk sizes and child zone sizes", "why_tests_cant": "range over all geometries and zones", "anchors": ["bfffs-core/src/raid/vdev_raid.rs:VdevRaid::zone_limits"]}
{"id": "C12", "title": "A RAID write reports success exactly when the data is recoverable", "statement": "A stripe write returns Ok if and only if at most f of its child writes failed, in which case any reader can still recover every chunk of every stripe written.", "quantifier": "all stripe ranges, all sets of failing disks", "why_tests_cant": "all combinations of failing children", "anchors": ["bfffs-core/src/raid/vdev_raid.rs:VdevRaid::write_at_multi", "bfffs-core/src/raid/vdev_raid.rs:VdevRaid::write_at_one"]}
{"id": "C13", "title": "A degraded array stays usable with up to f missing children", "statement": "With at most f children missing or faulted, a RAID device still accepts syncs (label and spacemap writes) and reads.", "quantifier": "all sets of at most f missing children", "why_tests_cant": "all child-state combinations", "anchors": ["bfffs-core/src/raid/vdev_raid.rs:VdevRaid::write_label", "bfffs-core/src/raid/vdev_raid.rs:VdevRaid::write_spacemap", "bfffs-core/src/raid/vdev_raid.rs:VdevRaid::read_spacemap"]}
{"id": "C14", "title": "Mirror reads succeed whenever any healthy child can serve them", "statement": "A mirror read returns the data of some present child if at least one present child's read succeeds, tries every present child at most once, and returns an error only if all present children failed.", "quantifier": "all numbers of children, states, read positions, and all per-child I/O outcomes", "why_tests_cant": "all outcome combinations and starting indices", "anchors": ["bfffs-core/src/mirror.rs:Mirror::read_at", "bfffs-core/src/mirror.rs:Mirror::read_something", "bfffs-core/src/mirror.rs:ReadAt"]}
{"id": "C15", "title": "Mirror repair copies exactly the zone's used range", "statement": "Repairing a zone copies every LBA from the zone's start to its write pointer (or the whole zone when closed) from present children to every rebuilding child, and writes nothing outside that range.", "quantifier": "all zone sizes, write pointers and read rotations", "why_tests_cant": "block-size boundary cases over all lengths", "anchors": ["bfffs-core/src/mirror.rs:Mirror::repair_zone", "bfffs-core/src/raid/vdev_raid.rs:VdevRaid::repair_mirror_zone"]}
{"id": "C16", "title": "A stale mirror child is never used for reads after import", "statement": "When a mirror is opened, a child that missed writes while absent is not treated as a healthy member.", "quantifier": "all histories of sessions, syncs and child absences", "why_tests_cant": "needs histories of imports with different children present", "anchors": ["bfffs-core/src/mirror.rs:Mirror::open", "bfffs-core/src/idml/idml.rs:IDML::open", "bfffs-core/src/idml/idml.rs:IDML::advance_transaction"]}
{"id": "C17", "title": "Label round trip", "statement": "Whatever sequence of records is serialised into a label, reading back the bytes written to disk yields those records in reverse order of serialisation, regardless of what trailing padding or stale bytes follow.", "quantifier": "all sequences of records with a self-delimiting encoding, all trailing bytes", "why_tests_cant": "all contents and lengths", "anchors": ["bfffs-core/src/label.rs:LabelWriter::into_sglist", "bfffs-core/src/label.rs:LabelReader::new", "bfffs-core/src/label.rs:LabelReader::deserialize"]}
{"id": "C18", "title": "Damaged labels are rejected", "statement": "A buffer that is too short, has the wrong magic, a length running past its end, or a checksum that does not match its contents is rejected with an error and never yields records; opening never panics on any byte string.", "quantifier": "all byte strings", "why_tests_cant": "all byte strings", "anchors": ["bfffs-core/src/label.rs:LabelReader::new"]}
{"id": "C19", "title": "Device zones partition the usable space", "statement": "For every device size, each LBA belongs to exactly one zone, looking up the zone of an LBA inside a zone's limits yields that zone, consecutive zones are adjacent and disjoint, and the reserved label/spacemap area overlaps no zone and its parts do not overlap each other.", "quantifier": "all device sizes, zone sizes and LBAs", "why_tests_cant": "all sizes", "anchors": ["bfffs-core/src/vdev_file.rs:VdevFile::lba2zone", "bfffs-core/src/vdev_file.rs:VdevFile::zone_limits", "bfffs-core/src/vdev_file.rs:VdevFile::zones", "bfffs-core/src/vdev_file.rs:VdevFile::reserved_space", "bfffs-core/src/label.rs:spacemap_space"]}
{"id": "C20", "title": "The block scheduler issues each request exactly once", "statement": "For any sequence of submitted operations and any device progress, every operation is issued exactly once: none is lost or duplicated.", "quantifier": "all submission sequences interleaved with all issue points", "why_tests_cant": "queue state depends on unbounded histories", "anchors": ["bfffs-core/src/vdev_block.rs:Inner::sched", "bfffs-core/src/vdev_block.rs:Inner::pop_op", "bfffs-core/src/vdev_block.rs:Inner::issue_all"]}
{"id": "C21", "title": "sync_all is a barrier", "statement": "Every operation submitted before a sync_all is issued before it, and every operation submitted after it is issued after it.", "quantifier": "all submission/issue histories, any number of syncs", "why_tests_cant": "all interleavings of submissions with issue", "anchors": ["bfffs-core/src/vdev_block.rs:Inner::sched", "bfffs-core/src/vdev_block.rs:Inner::pop_op"]}
{"id": "C22", "title": "Writes submitted in LBA order are issued in LBA order", "statement": "If writes to a zone are submitted in increasing LBA order they reach the device in that order (required by zoned devices).", "quantifier": "all submission/issue histories", "why_tests_cant": "depends on scheduler head position reached by arbitrary histories", "anchors": ["bfffs-core/src/vdev_block.rs:Inner::sched", "bfffs-core/src/vdev_block.rs:Inner::pop_op"]}
{"id": "C23", "title": "Accumulated I/O transfers the same bytes", "statement": "When the scheduler coalesces adjacent queued operations into one device operation, the device sees exactly the same bytes at the same LBAs as it would from the separate operations, and only adjacent operations of the same kind are merged.", "quantifier": "all sequences of queued operations", "why_tests_cant": "all op sequences and buffer shapes", "anchors": ["bfffs-core/src/vdev_block.rs:BlockOp::can_accumulate", "bfffs-core/src/vdev_block.rs:BlockOp::accumulate"]}
{"id": "C24", "title": "Allocations never overlap live data", "statement": "Every LBA range handed out by the cluster's allocator lies inside one zone, and is disjoint from every range handed out earlier in that zone since the zone was last erased.", "quantifier": "all histories of write, free, flush, sync and reap", "why_tests_cant": "depends on unbounded allocation histories", "anchors": ["bfffs-core/src/cluster.rs:FreeSpaceMap::try_allocate", "bfffs-core/src/cluster.rs:FreeSpaceMap::open_zone", "bfffs-core/src/cluster.rs:Cluster::write"]}
{"id": "C25", "title": "Space accounting is exact", "statement": "The reported used space always equals the space allocated minus the space freed (including wasted tails of finished zones), never underflows, and never exceeds the size of the device.", "quantifier": "all histories of write/free/flush/finish", "why_tests_cant": "unbounded histories", "anchors": ["bfffs-core/src/cluster.rs:FreeSpaceMap::in_use", "bfffs-core/src/cluster.rs:FreeSpaceMap::in_use_total", "bfffs-core/src/cluster.rs:Cluster::used", "bfffs-core/src/cluster.rs:FreeSpaceMap::free"]}
{"id": "C26", "title": "Freed zones are not reused before the transaction that freed them commits", "statement": "A zone whose last live block is freed is not erased or allocated from until the transaction group in which it died has been committed; only closed, completely free zones are erased.", "quantifier": "all histories", "why_tests_cant": "unbounded histories", "anchors": ["bfffs-core/src/cluster.rs:FreeSpaceMap::kill_zone", "bfffs-core/src/cluster.rs:FreeSpaceMap::reap", "bfffs-core/src/cluster.rs:Cluster::advance_transaction", "bfffs-core/src/cluster.rs:Cluster::free"]}
{"id": "C27", "title": "Space is reclaimed: a completely free closed zone is eventually erased", "statement": "Once every block of a zone has been freed and the zone is closed, the zone becomes available for reuse after the next transaction.", "quantifier": "all histories", "why_tests_cant": "order of free and close over unbounded histories", "anchors": ["bfffs-core/src/cluster.rs:Cluster::free", "bfffs-core/src/cluster.rs:Cluster::close_zones", "bfffs-core/src/cluster.rs:FreeSpaceMap::finish_zone"]}
{"id": "C28", "title": "Spacemap round trip", "statement": "Serialising the free-space map and reading it back yields a map with the same zones, states, write pointers, freed counts and transaction ranges.", "quantifier": "all free-space maps reachable by the API", "why_tests_cant": "all zone-state combinations and counts", "anchors": ["bfffs-core/src/cluster.rs:FreeSpaceMap::serialize", "bfffs-core/src/cluster.rs:FreeSpaceMap::deserialize", "bfffs-core/src/cluster.rs:FreeSpaceMap::open"]}
{"id": "C29", "title": "Dirty-block tracking writes every changed spacemap block", "statement": "After each flush, the on-disk spacemap copy being written equals the in-memory map although only the blocks changed since the last flush are written.", "quantifier": "all histories of map operations and flushes", "why_tests_cant": "missing one dirty mark shows only after particular histories", "anchors": ["bfffs-core/src/cluster.rs:FreeSpaceMap::dirty_zone", "bfffs-core/src/cluster.rs:FreeSpaceMap::serialize", "bfffs-core/src/cluster.rs:Cluster::flush"]}
{"id": "C30", "title": "Listing closed zones is complete", "statement": "Enumerating a pool's closed zones yields every closed zone exactly once, in order, across clusters.", "quantifier": "all zone-state assignments, any number of clusters", "why_tests_cant": "all configurations", "anchors": ["bfffs-core/src/cluster.rs:FreeSpaceMap::find_closed_zone", "bfffs-core/src/pool.rs:Pool::find_closed_zone", "bfffs-core/src/ddml/ddml.rs:ListClosedZones"]}
{"id": "C31", "title": "Mirror rebuild covers every zone that held data", "statement": "When a mirror rebuild finishes and the child is returned to service, every zone containing data written while it was away has been repaired.", "quantifier": "all histories of zone openings/closings concurrent with the rebuild", "why_tests_cant": "needs particular relations between transaction numbers and concurrent zone closings", "anchors": ["bfffs-core/src/cluster.rs:Cluster::repair_mirror", "bfffs-core/src/cluster.rs:Cluster::repair_mirror_step", "bfffs-core/src/ddml/ddml.rs:MirrorRepairTask"]}
{"id": "C32", "title": "Crash at any point recovers a committed transaction", "statement": "If power is lost at any point during a sync, import finds a label and spacemap that belong to the same committed transaction, and no zone referenced by that transaction's trees is regarded as free.", "quantifier": "every crash point in every sync, every history", "why_tests_cant": "crash points between each pair of device writes, torn writes", "anchors": ["bfffs-core/src/database/database.rs:sync_transaction_priv", "bfffs-core/src/cluster.rs:Cluster::flush", "bfffs-core/src/cluster.rs:FreeSpaceMap::open", "bfffs-core/src/vdev_block.rs:VdevBlock::open"]}
{"id": "C33", "title": "Records read back as written", "statement": "A record stored through the data management layer and read back with the returned pointer has the same contents, whatever compression was chosen, and storing it never needs more blocks than storing it uncompressed.", "quantifier": "all record contents and sizes, all compression settings", "why_tests_cant": "all byte strings", "anchors": ["bfffs-core/src/ddml/ddml.rs:DDML::put_direct", "bfffs-core/src/ddml/ddml.rs:DDML::get_direct", "bfffs-core/src/dml.rs:Compression::compress", "bfffs-core/src/dml.rs:Compression::decompress"]}
{"id": "C34", "title": "Corrupt data is never returned", "statement": "A read never returns bytes whose checksum differs from the record's stored checksum, even after recovery attempts.", "quantifier": "all device contents, all reconstruction candidates", "why_tests_cant": "all corruptions", "anchors": ["bfffs-core/src/ddml/ddml.rs:DDML::read"]}
{"id": "C35", "title": "Corruption is repaired from redundancy when a good copy exists", "statement": "If the primary copy is corrupt but some reconstruction from redundancy equals the originally written blocks, the read returns the correct data.", "quantifier": "all record sizes and corruption patterns", "why_tests_cant": "all record sizes and positions of the good copy", "anchors": ["bfffs-core/src/ddml/ddml.rs:DDML::read", "bfffs-core/src/mirror.rs:Mirror::read_long", "bfffs-core/src/raid/vdev_raid.rs:VdevRaid::read_long"]}
{"id": "C36", "title": "Indirect records: reference counts and address tables agree", "statement": "After any history of put, get, delete, pop and zone cleaning, every live record is found under its id with the contents stored, deleted ids are not found, each physical address belongs to exactly one record, and the physical-to-logical table is the exact inverse of the logical-to-physical table.", "quantifier": "all histories of sequential operations", "why_tests_cant": "unbounded histories", "anchors": ["bfffs-core/src/idml/idml.rs:IDML::put", "bfffs-core/src/idml/idml.rs:IDML::delete", "bfffs-core/src/idml/idml.rs:IDML::pop", "bfffs-core/src/idml/idml.rs:IDML::move_record", "bfffs-core/src/idml/idml.rs:IDML::clean_zone"]}
{"id": "C37", "title": "Record ids are unique", "statement": "No two puts ever return the same record id, across any number of exports and imports.", "quantifier": "all histories incl. re-imports", "why_tests_cant": "unbounded histories", "anchors": ["bfffs-core/src/idml/idml.rs:IDML::put", "bfffs-core/src/idml/idml.rs:IDML::open", "bfffs-core/src/idml/idml.rs:IDML::write_label"]}
{"id": "C38", "title": "The B+tree behaves as an ordered map", "statement": "For any sequence of insert, remove, get, range, range_delete and last_key, the tree returns exactly what an ordered map would return.", "quantifier": "all key/value types, all fan-out limits the tree accepts, all operation sequences, trees of any height", "why_tests_cant": "tree shapes depend on unbounded histories; rebalancing cases are numerous", "anchors": ["bfffs-core/src/tree/tree/mod.rs:Tree::insert", "bfffs-core/src/tree/tree/mod.rs:Tree::get", "bfffs-core/src/tree/tree/mod.rs:Tree::remove", "bfffs-core/src/tree/tree/mod.rs:Tree::range_delete", "bfffs-core/src/tree/tree/mod.rs:RangeQuery", "bfffs-core/src/tree/tree/mod.rs:Tree::last_key", "bfffs-core/src/tree/node.rs"]}
{"id": "C39", "title": "The B+tree keeps its shape invariants", "statement": "After any sequence of operations all leaves are at the same depth, keys are sorted, each child's key bounds its contents, and every node other than the root has between min and max children.", "quantifier": "all operation sequences and fan-out limits", "why_tests_cant": "unbounded histories", "anchors": ["bfffs-core/src/tree/tree/mod.rs:Tree::check", "bfffs-core/src/tree/tree/mod.rs:Tree::fix_int", "bfffs-core/src/tree/node.rs:NodeData::split", "bfffs-core/src/tree/node.rs:NodeData::merge"]}
{"id": "C40", "title": "Range queries resume without gaps or repeats", "statement": "A range query that is paused and resumed between leaves while other keys are concurrently inserted or removed returns every key that was present throughout, in order, without duplicates.", "quantifier": "all trees, all ranges, all concurrent modifications between polls", "why_tests_cant": "resume points \u00d7 concurrent modifications unbounded", "anchors": ["bfffs-core/src/tree/tree/mod.rs:RangeQuery", "bfffs-core/src/tree/tree/mod.rs:Tree::get_range"]}
{"id": "C41", "title": "sync makes preceding writes durable", "statement": "If a write completed before sync_transaction was called and sync_transaction returns Ok, the write survives a crash.", "quantifier": "all interleavings of writers and syncs, including failing syncs", "why_tests_cant": "race between setting the dirty flag, the transaction lock and the sync", "anchors": ["bfffs-core/src/database/database.rs:Database::sync_transaction", "bfffs-core/src/database/database.rs:sync_transaction_priv", "bfffs-core/src/database/database.rs:Database::fswrite"]}
{"id": "C42", "title": "Filesystem names form a tree-shaped name map", "statement": "Creating, looking up, listing and destroying filesystems by name behaves as a map from path to tree; looking up after create finds it, after destroy does not, other names are unaffected.", "quantifier": "all sequences of create/destroy/lookup with any names", "why_tests_cant": "name histories and hash collisions", "anchors": ["bfffs-core/src/database/mod.rs:Forest::insert_tree", "bfffs-core/src/database/mod.rs:Forest::lookup", "bfffs-core/src/database/mod.rs:Forest::unlink"]}
{"id": "C43", "title": "Filesystem listing by pages is complete", "statement": "Listing the children of a dataset page by page, resuming from each returned cookie, yields every child exactly once.", "quantifier": "all sets of children, all page sizes", "why_tests_cant": "all cookie positions", "anchors": ["bfffs-core/src/database/mod.rs:Forest::readdir"]}
{"id": "C44", "title": "Files behave as byte arrays", "statement": "For any sequence of writes, truncations/extensions and hole punches, reading any range of a file returns exactly the bytes of the corresponding byte array (zeros in holes and extended regions, nothing past end of file).", "quantifier": "all record sizes, offsets, lengths, data, operation sequences", "why_tests_cant": "record-boundary cases \u00d7 unbounded histories", "anchors": ["bfffs-core/src/fs.rs:Fs::write", "bfffs-core/src/fs.rs:Fs::write_record", "bfffs-core/src/fs.rs:Fs::do_read", "bfffs-core/src/fs.rs:Fs::do_deallocate", "bfffs-core/src/fs.rs:Fs::do_setattr", "bfffs-core/src/fs.rs:Uio::into_chunks"]}
{"id": "C45", "title": "Reported file space equals stored extents", "statement": "A file's reported space consumption always equals the total length of its stored extents.", "quantifier": "all operation sequences on a file", "why_tests_cant": "unbounded histories", "anchors": ["bfffs-core/src/fs.rs:Fs::write", "bfffs-core/src/fs.rs:Fs::do_deallocate", "bfffs-core/src/fs.rs:Fs::write_record"]}
{"id": "C46", "title": "SEEK_DATA and SEEK_HOLE are correct", "statement": "lseek with SEEK_DATA (SEEK_HOLE) returns the least offset not before the given one that lies in a data extent (in a hole, with end of file counting as a hole).", "quantifier": "all extent layouts and offsets", "why_tests_cant": "all layouts", "anchors": ["bfffs-core/src/fs.rs:Fs::lseek"]}
{"id": "C47", "title": "Directory and xattr hash buckets implement a name map", "statement": "Inserting, looking up and removing directory entries or extended attributes by name behaves as a map keyed by the full name even when the 56-bit hashes of names collide.", "quantifier": "all hash functions (any collision pattern), names, and operation sequences", "why_tests_cant": "collisions of a 56-bit hash are practically never generated by tests", "anchors": ["bfffs-core/src/fs.rs:htable::get", "bfffs-core/src/fs.rs:htable::insert", "bfffs-core/src/fs.rs:htable::remove", "bfffs-core/src/fs_tree.rs:HTItem"]}
{"id": "C48", "title": "Hard links never destroy other names", "statement": "Creating a hard link adds one name and leaves every other directory entry reachable.", "quantifier": "all names and hash collision patterns", "why_tests_cant": "needs a hash collision", "anchors": ["bfffs-core/src/fs.rs:Fs::link"]}
{"id": "C49", "title": "readdir by pages lists each entry exactly once", "statement": "Reading a directory with any page sizes, resuming from the offset of the last returned entry, yields each entry exactly once.", "quantifier": "all directories incl. hash collisions, all page splits", "why_tests_cant": "resuming inside a collision bucket", "anchors": ["bfffs-core/src/fs.rs:Fs::readdir"]}
{"id": "C50", "title": "Link counts match the directory tree", "statement": "After any sequence of create, mkdir, link, unlink, rmdir and rename, a file's link count equals the number of directory entries naming it, a directory's link count equals two plus its number of subdirectories, every directory entry refers to an existing inode and each directory's '..' names its parent.", "quantifier": "all operation sequences with valid arguments", "why_tests_cant": "unbounded namespace histories", "anchors": ["bfffs-core/src/fs.rs:Fs::do_create", "bfffs-core/src/fs.rs:Fs::mkdir", "bfffs-core/src/fs.rs:Fs::link", "bfffs-core/src/fs.rs:Fs::do_unlink", "bfffs-core/src/fs.rs:Fs::rmdir", "bfffs-core/src/fs.rs:Fs::rename"]}
{"id": "C51", "title": "Open files survive removal of their last name until closed", "statement": "A file that is in use stays readable after its last name disappears (by unlink or by being replaced by rename), and its storage is released when the last user is done, or at the next mount after a crash.", "quantifier": "all sequences of open, unlink, rename, inactive, crash and remount", "why_tests_cant": "histories with crashes", "anchors": ["bfffs-core/src/fs.rs:Fs::unlink", "bfffs-core/src/fs.rs:Fs::rename", "bfffs-core/src/fs.rs:Fs::do_unlink", "bfffs-core/src/fs.rs:Fs::inactive", "bfffs-core/src/fs.rs:Fs::new"]}
{"id": "C52", "title": "Inode numbers are never reused", "statement": "No two files ever created in a file system share an inode number, across unmounts and remounts.", "quantifier": "all histories of create/delete/remount", "why_tests_cant": "unbounded histories", "anchors": ["bfffs-core/src/fs.rs:Fs::next_object", "bfffs-core/src/fs.rs:Fs::new"]}
{"id": "C53", "title": "Key encoding keeps objects apart and ordered", "statement": "The tree key built from an inode number, item kind and offset is injective and orders items by inode, then kind, then offset; the key ranges used for directory entries, extents, xattrs and whole objects contain exactly the items of that inode and kind (and offsets).", "quantifier": "all inode numbers, kinds, and 56-bit offsets", "why_tests_cant": "all 128-bit keys", "anchors": ["bfffs-core/src/fs_tree.rs:FSKey::compose", "bfffs-core/src/fs_tree.rs:FSKey::dirent_range", "bfffs-core/src/fs_tree.rs:FSKey::extent_range", "bfffs-core/src/fs_tree.rs:FSKey::obj_range"]}
{"id": "C54", "title": "Dataset properties are inherited from the nearest ancestor", "statement": "Reading a dataset property returns the value set on the dataset itself, else that of its nearest ancestor where it is set, else the default, and the reported source names that distance.", "quantifier": "all dataset trees, all sets of locally set properties", "why_tests_cant": "all tree shapes", "anchors": ["bfffs-core/src/fs.rs:Fs::get_prop_configurable", "bfffs-core/src/property.rs:PropertySource"]}
{"id": "C55", "title": "Property values print and parse consistently", "statement": "Every legal property value, printed, parses back to the same property.", "quantifier": "all property values", "why_tests_cant": "full value domain incl. all record sizes", "anchors": ["bfffs-core/src/property.rs:Property"]}
{"id": "C56", "title": "Dataset names resolve only within their pool", "statement": "A full dataset name is accepted only if its first component equals the pool name, and it resolves to exactly the path after that component.", "quantifier": "all pool and dataset name strings", "why_tests_cant": "all strings", "anchors": ["bfffs-core/src/controller.rs:Controller::strip_pool_name"]}
{"id": "C57", "title": "Scatter-gather helpers preserve bytes", "statement": "Checksums of a scatter-gather list depend only on the concatenated bytes; padding a list to whole blocks keeps all bytes and appends fewer than one block of zeros; a cursor over a list yields the same bytes in order in pieces no larger than requested.", "quantifier": "all scatter-gather lists and request sizes", "why_tests_cant": "all list shapes", "anchors": ["bfffs-core/src/util.rs:checksum_sglist", "bfffs-core/src/util.rs:copy_and_pad_sglist", "bfffs-core/src/raid/sgcursor.rs:SGCursor::next"]}
{"id": "C58", "title": "Mirror child states change only along legal transitions", "statement": "Faulted or missing children never serve reads or receive writes; a faulted child only returns to service through rebuilding; status reports Faulted exactly when no child is online, Degraded(n) when n are not.", "quantifier": "all sequences of fault, rebuild, restore, attach", "why_tests_cant": "unbounded histories", "anchors": ["bfffs-core/src/mirror.rs:Mirror::fault", "bfffs-core/src/mirror.rs:Mirror::rebuild", "bfffs-core/src/mirror.rs:Mirror::restore", "bfffs-core/src/mirror.rs:Mirror::status", "bfffs-core/src/mirror.rs:Mirror::attach"]}
{"id": "C59", "title": "Concurrent file writes do not lose size updates", "statement": "When several writes to the same file run concurrently, the final file size is at least the end of every completed write.", "quantifier": "all interleavings of concurrent writes", "why_tests_cant": "needs a particular interleaving of two writes", "anchors": ["bfffs-core/src/fs.rs:Fs::write"]}
{"id": "C60", "title": "Pool space usage is the sum over clusters", "statement": "The pool's reported used space equals the sum of what its clusters report after any completed sequence of writes and frees.", "quantifier": "all histories of writes/frees across clusters", "why_tests_cant": "unbounded histories", "anchors": ["bfffs-core/src/pool.rs:Pool::write", "bfffs-core/src/pool.rs:Pool::free", "bfffs-core/src/pool.rs:Pool::new"]}
{"id": "C61", "title": "Removing a device waits for its I/O", "statement": "remove() on a device resolves only once no request is still with the device; every operation not yet issued fails exactly once with ENXIO.", "quantifier": "all histories of submissions, completions and refusals before and during the removal", "why_tests_cant": "depends on which queued operations happen to be adjacent and on how full the device queue is", "anchors": ["bfffs-core/src/vdev_block.rs:VdevBlock::remove", "bfffs-core/src/vdev_block.rs:Inner::issue_fut", "bfffs-core/src/vdev_block.rs:Inner::issue_all"]}
{"id": "C62", "title": "RAID reads recover from failing disks", "statement": "A read of any range from a RAID device returns the bytes written as long as at most f disks of each stripe fail or are absent, whatever the failed disks left in the buffers; beyond that it returns an error. It never panics and never returns wrong data.", "quantifier": "all geometries, ranges, contents, sets of failed or absent disks, and histories of writes before", "why_tests_cant": "every combination of range alignment, stripe position and failed disks takes a different way through the buffer bookkeeping", "anchors": ["bfffs-core/src/raid/vdev_raid.rs:VdevRaid::read_at_one", "bfffs-core/src/raid/vdev_raid.rs:VdevRaid::read_at_multi", "bfffs-core/src/raid/vdev_raid.rs:VdevRaid::read_at_reconstruction"]}
{"id": "C63", "title": "Long reads of a RAID device offer the right data", "statement": "After a read returned data with a wrong checksum, the device offers alternatives reconstructed from other sets of disks. Each has the length asked for, and if at most f disks of the array fail, are absent or return wrong data without saying so, then one of the alternatives is the data that was written. The request is refused only if f disks are absent already.", "quantifier": "all geometries, ranges, contents, and all sets of disks with whatever wrong data they return", "why_tests_cant": "the wrong data is arbitrary, and which disks a range touches depends on its place in the layout", "anchors": ["bfffs-core/src/raid/vdev_raid.rs:VdevRaid::read_long", "bfffs-core/src/raid/vdev_raid.rs:VdevRaid::read_long_one", "bfffs-core/src/raid/vdev_raid.rs:VdevRaid::read_long_multi"]}
{"id": "C64", "title": "Cleaning a zone moves every tree node out of it and changes nothing else", "statement": "When the cleaning of a closed zone is done, no node of the tree is stored in that zone any more. What the tree contains, and what every other operation running meanwhile returns, is as if no cleaning had taken place. The cleaner does not panic and comes to an end, in whatever order it rewrites nodes.", "quantifier": "all trees that any history can lead to, including earlier cleanings, all zones, and all interleavings of the cleaner's lookups and rewritings with insertions, removals, range deletions, reads and flushes", "why_tests_cant": "nodes split, merge, move and are written back between the pass that lists the nodes of a zone and the pass that rewrites them", "anchors": ["bfffs-core/src/tree/tree/mod.rs:Tree::clean_zone", "bfffs-core/src/tree/tree/mod.rs:CleanZonePass1", "bfffs-core/src/tree/tree/mod.rs:Tree::get_dirty_nodes", "bfffs-core/src/tree/tree/mod.rs:Tree::rewrite_node"]}
{"id": "C65", "title": "The transactions recorded for a zone cover everything written to it", "statement": "For every closed zone that the pool lists, the range of transactions that comes with it includes the transaction of every block written to the zone since it was last erased. The cleaner relies on it to find what to move.", "quantifier": "all sequences of writes, frees, flushes, transaction ends and remounts, with any transaction numbers the callers use", "why_tests_cant": "a zone is opened and closed by whichever write happens to come first or not to fit, in the transaction of that write", "anchors": ["bfffs-core/src/cluster.rs:FreeSpaceMap::open_zone", "bfffs-core/src/cluster.rs:FreeSpaceMap::finish_zone", "bfffs-core/src/cluster.rs:Cluster::find_closed_zone", "bfffs-core/src/cleaner.rs:SyncCleaner::clean_now", "bfffs-core/src/idml/idml.rs:IDML::clean_zone"]}
{"id": "C66", "title": "The FUSE daemon keeps step with the kernel", "statement": "Whatever requests the kernel sends, whichever of them fail below, and whenever the daemon is killed and started again, the daemon does not panic. Its table holds the inodes that the kernel holds, with the same lookup counts, and the names both have cached are those in the file system. Every reply is true of the file system. Every directory stays reachable from the root. A file that the kernel holds keeps its records, with or without a name, until the kernel forgets it, and then a file without a name goes.", "quantifier": "all histories of requests that keep to the FUSE protocol, with any failures of the layers below, and remounts", "why_tests_cant": "the daemon's state depends on the whole history of lookups, forgets and renames, and a wrong count shows only when the kernel forgets the inode", "anchors": ["bfffs/src/bin/bfffsd/fs.rs:FuseFs", "bfffs/src/bin/bfffsd/fs.rs:FuseFs::lookup", "bfffs/src/bin/bfffsd/fs.rs:FuseFs::forget", "bfffs/src/bin/bfffsd/fs.rs:FuseFs::rename", "bfffs-core/src/fs.rs:FileDataMut", "bfffs-core/src/fs.rs:Fs::lookup", "bfffs-core/src/fs.rs:Fs::inactive"]}
{"id": "C67", "title": "Large values survive being moved out of the tree", "statement": "When a leaf is written to disk, file extents and extended attributes longer than a quarter of a block are moved into records of their own, and they are moved back when they are replaced or removed. Whatever is flushed, and between whichever steps of an operation, users see no difference: file contents, sizes, space and attributes are those of a tree that keeps its data in place. Every record moved out belongs to exactly one value; none is leaked, lost, or deleted twice; deleting everything gives all of them back; and after a full flush exactly the large values are out of line.", "quantifier": "all histories of tree, file and extended attribute operations, all hash functions, and all schedules of flushes between tree operations", "why_tests_cant": "whether a value is in the leaf or in a record depends on when the flusher ran, which may be between any two steps of any operation", "anchors": ["bfffs-core/src/fs_tree.rs:BLOB_THRESHOLD", "bfffs-core/src/fs_tree.rs:FSValue::flush", "bfffs-core/src/fs_tree.rs:FSValue::dpop", "bfffs-core/src/fs_tree.rs:FSValue::ddrop", "bfffs-core/src/fs_tree.rs:FSValue::needs_flush", "bfffs-core/src/tree/node.rs:LeafData::insert", "bfffs-core/src/tree/node.rs:LeafData::remove", "bfffs-core/src/tree/node.rs:LeafData::range_delete_unaccredited", "bfffs-core/src/fs.rs:Fs::do_read", "bfffs-core/src/fs.rs:Fs::do_deallocate", "bfffs-core/src/fs.rs:Fs::setextattr", "bfffs-core/src/fs.rs:htable::insert"]}
{"id": "C68", "title": "Readers, writers and the flusher can share a file's buffers", "statement": "While a file is read and written, the flusher may write its leaves at any moment, moving large extents out of the tree. Every read still answers with the data that the completed writes left, no read or write fails or panics, no record on disk is leaked or shared, and the flusher itself never panics because someone else is using an extent.", "quantifier": "all interleavings, at every await point, of any number of reads, of multi-record writes and of flushes of any set of leaves", "why_tests_cant": "the flusher runs every few seconds on other threads; whether it meets a buffer that a read or write has at that moment depends on the schedule", "anchors": ["bfffs-core/src/fs.rs:Fs::do_read", "bfffs-core/src/fs.rs:Fs::write_record", "bfffs-core/src/fs_tree.rs:InlineExtent::flush", "bfffs-core/src/fs_tree.rs:FSValue::dpop", "bfffs-core/src/tree/tree/mod.rs:RangeQuery", "bfffs-core/src/tree/tree/mod.rs:Tree::get_range", "bfffs-core/src/cache/mod.rs:Cacheable for DivBufShared"]}
{"id": "C69", "title": "Extended attributes over FUSE are a map from names to values", "statement": "Through the mounted file system, setting, getting, listing and removing extended attributes behaves as a map from names (with their namespace) to values: names are kept apart, a get returns the last value set or reports that there is none, the size reported for an empty buffer is the size of what a get or a list would return, a buffer that is too short gets ERANGE and a sufficient one gets everything, a list has exactly the names that are set, creating and replacing flags are obeyed, and no request stops the daemon.", "quantifier": "all sequences of requests with any names, values and buffer sizes, and all hash functions", "why_tests_cant": "names that collide, names with dots, buffers of exactly the needed size and unknown namespaces are corner cases over unbounded inputs", "anchors": ["bfffs/src/bin/bfffsd/fs.rs:FuseFs::split_xattr_name", "bfffs/src/bin/bfffsd/fs.rs:FuseFs::getxattr", "bfffs/src/bin/bfffsd/fs.rs:FuseFs::setxattr", "bfffs/src/bin/bfffsd/fs.rs:FuseFs::listxattr", "bfffs/src/bin/bfffsd/fs.rs:FuseFs::removexattr", "bfffs-core/src/fs.rs:Fs::getextattrlen", "bfffs-core/src/fs.rs:Fs::listextattr", "bfffs-core/src/fs.rs:Fs::listextattrlen"]}
{"id": "C70", "title": "A file's attributes are those last given to it", "statement": "The timestamps, owner, permissions, flags, size, type and device number that stat reports are the last ones that a request gave the file: a create gives the owner and permissions asked for and the current time; chmod, chown, utimes and truncate give what was asked; writes, deallocations and changes of directory entries mark the modification and change times of exactly the files POSIX says, links and unlinks mark the change time of the file, reads mark the access time if the atime property is on; no other request changes any attribute of any other file, and remounting changes none.  The reported number of blocks is the space the file uses in units of 512 bytes.", "quantifier": "all histories of requests, all files and all clocks, including ones that run backwards", "why_tests_cant": "which timestamps a request must not touch, on every other file and after every history, is a universal statement; tests look at one file after one request", "anchors": ["bfffs-core/src/fs.rs:Fs::do_setattr", "bfffs-core/src/fs.rs:Fs::do_getattr", "bfffs-core/src/fs.rs:Fs::do_create", "bfffs-core/src/fs.rs:Fs::link", "bfffs-core/src/fs.rs:Fs::unlink", "bfffs-core/src/fs.rs:Fs::rename", "bfffs-core/src/fs.rs:Fs::read", "bfffs-core/src/fs.rs:Fs::write", "bfffs-core/src/fs.rs:Fs::deallocate", "bfffs/src/bin/bfffsd/fs.rs:FuseFs::do_getattr", "bfffs/src/bin/bfffsd/fs.rs:FuseFs::setattr"]}
{"id": "C71", "title": "Concurrent calls on one tree are atomic, never deadlock, and all end", "statement": "While any number of tasks insert, remove, look up, ask for the last key and flush in the same tree at the same time, every call appears to take effect at one instant between its start and its end, with the results that the calls would have had one after another; whenever some call has not returned, some task can go on, and never only one that has yet to start; and once no new calls are made every call returns after finitely many steps, whatever the scheduler does.", "quantifier": "all numbers of tasks, all calls, all interleavings at lock acquisitions, all tree shapes and node sizes", "why_tests_cant": "the number of interleavings of lock-coupled descents is unbounded; a race needs a split, merge or root change at exactly the wrong time", "anchors": ["bfffs-core/src/tree/tree/mod.rs:Tree::insert", "bfffs-core/src/tree/tree/mod.rs:Tree::insert_int", "bfffs-core/src/tree/tree/mod.rs:Tree::remove", "bfffs-core/src/tree/tree/mod.rs:Tree::remove_int", "bfffs-core/src/tree/tree/mod.rs:Tree::fix_int", "bfffs-core/src/tree/tree/mod.rs:Tree::xlock_and_merge_root", "bfffs-core/src/tree/tree/mod.rs:Tree::get_r", "bfffs-core/src/tree/tree/mod.rs:Tree::last_key_r", "bfffs-core/src/tree/tree/mod.rs:Tree::flush_r", "bfffs-core/src/tree/tree/mod.rs:Tree::rewrite_node_r", "bfffs-core/src/tree/tree/mod.rs:Tree::range_delete_purge"]}
{"id": "C72", "title": "Importing a pool finds it again, whatever order its disks turn up in", "statement": "After the disks that are left of a pool have been tasted, in any order and among disks of other pools, importing the pool by uuid or by name gives back the pool with its name, all its RAID devices in order with all their mirrors in order, every disk that is there and up to date in service, older ones to be rebuilt and the others missing, and the data as of the newest transaction group on any of the disks; it does not matter in which order the imports of the devices complete or which other pools were imported before; and if the disks that are left do not suffice, the import is refused with an error.", "quantifier": "all pool layouts, all subsets of disks that are found or readable, all orders of tasting, all orders of completion, all other disks present", "why_tests_cant": "there are exponentially many subsets of disks and factorially many orders of tasting and completion", "anchors": ["bfffs-core/src/vdev_block.rs:Manager", "bfffs-core/src/mirror.rs:Manager::import", "bfffs-core/src/mirror.rs:Mirror::open", "bfffs-core/src/raid/mod.rs:Manager::import", "bfffs-core/src/raid/mod.rs:open", "bfffs-core/src/raid/null_raid.rs:NullRaid::open", "bfffs-core/src/raid/vdev_raid.rs:VdevRaid::open", "bfffs-core/src/cluster.rs:Manager::import", "bfffs-core/src/pool.rs:Manager", "bfffs-core/src/pool.rs:Pool::open", "bfffs-core/src/database/mod.rs:Manager::import_by_name"]}
{"id": "C73", "title": "A tree's dirty data is covered by writeback credit, and no credit is lost", "statement": "Every leaf of a tree that has changes not yet on disk holds exactly the writeback credit for the bytes it will write; what the writeback cache has left, what is with the leaves and what operations in progress have in hand always add up to its capacity; an insertion, removal or range deletion that brings what the tree says it requires never runs out and never makes the dirty data exceed the capacity; credit is never dropped, so the daemon does not panic, and once everything is on disk the cache has all its credit back.", "quantifier": "all trees, items and sizes of values, all interleavings of insertions, removals, range deletions, splits, merges, steals, flushes and drops of the tree, with any credit brought and any disk errors", "why_tests_cant": "the amounts depend on the sizes of all values in the leaves that happen to be on disk or in memory when a call passes, and on which siblings are merged; a test sees a few such histories", "anchors": ["bfffs-core/src/tree/node.rs:LeafData", "bfffs-core/src/tree/node.rs:NodeData::merge", "bfffs-core/src/tree/node.rs:NodeData::take_high_keys", "bfffs-core/src/tree/node.rs:NodeData::take_low_keys", "bfffs-core/src/tree/node.rs:TreeWriteGuard::xlock", "bfffs-core/src/tree/tree/mod.rs:Tree::credit_requirements", "bfffs-core/src/tree/tree/mod.rs:Tree::fix_int", "bfffs-core/src/tree/tree/mod.rs:Tree::range_delete_pass1", "bfffs-core/src/tree/tree/mod.rs:WriteLeaf", "bfffs-core/src/writeback/writeback.rs:Credit"]}
{"id": "C74", "title": "Calls about different files do not disturb each other", "statement": "Any number of file system calls (create, mkdir, link, unlink, rmdir, rename, inactive, setattr, deallocate, read, write, getattr, lookup and the extended attribute calls) may run at the same time. If no file or directory is involved in two of them, unless both only look at it, then each returns what it would have returned alone, each file ends up as the call about it would have left it alone, everything else is as it was, and the effect is that of running the calls one after the other in any order. In particular the order in which a single call's own concurrent tree operations happen makes no difference.", "quantifier": "all file systems, all numbers and kinds of calls with all arguments, all interleavings of their tree operations", "why_tests_cant": "every call is several tree operations, many of them started at the same time, so the interleavings even of two calls are too many to try, and a test cannot choose them", "anchors": ["bfffs-core/src/fs.rs:Fs::do_create", "bfffs-core/src/fs.rs:Fs::mkdir", "bfffs-core/src/fs.rs:Fs::link", "bfffs-core/src/fs.rs:Fs::do_unlink", "bfffs-core/src/fs.rs:Fs::do_rmdir", "bfffs-core/src/fs.rs:Fs::rename", "bfffs-core/src/fs.rs:Fs::do_setattr", "bfffs-core/src/fs.rs:Fs::do_deallocate", "bfffs-core/src/fs.rs:Fs::write_record", "bfffs-core/src/fs.rs:htable", "bfffs-core/src/fs_tree.rs:FSKey"]}
{"id": "C75", "title": "Listing a file system recursively gives it and all its descendants up to the depth asked for, each exactly once", "statement": "A recursive listing begins with the dataset given and then gives every descendant at most `depth` levels below it exactly once, level by level, with the full name and the properties asked for, and nothing else; it ends, and changes nothing. Resuming a listing of the children at the offset of one of its entries continues with the next. A dataset that does not exist is reported as such.", "quantifier": "all sets of file systems any history of creations, destructions, mounts and property changes can produce, all depths, lists of properties, offsets, and numbers of pages", "why_tests_cant": "the listing is assembled from any number of pages of any number of datasets by a state machine that goes on where the last entry was; what matters is the combination of page boundaries, depths and empty datasets", "anchors": ["bfffs/src/lib.rs:Bfffs::fs_list", "bfffs/src/bin/bfffsd/main.rs:Bfffsd::process_rpc", "bfffs-core/src/controller.rs:Controller::list_fs", "bfffs-core/src/controller.rs:Controller::get_prop"]}
{"id": "C76", "title": "Only the user who runs the daemon can change anything, and requests do what was asked", "statement": "Whatever another user sends, no file system, property, mount or device changes, and each request that would change something fails with EPERM, which the client library reports. Requests that only ask change nothing whoever sends them. For the user who runs the daemon, a request does what the call of the same name does, and reports its result: a file system created with properties has them, a failed request has no effect, and a device given by its path is the device at that path.", "quantifier": "all daemon states, users, requests and arguments, sizes of responses, outcomes of mount(2) and unmount(2), and orders in which the properties of a new file system are set", "why_tests_cant": "there is one check for each kind of request, and a response for each kind of failure, whose type the client must expect; the claim is about every user, request and state", "anchors": ["bfffs/src/bin/bfffsd/main.rs:Bfffsd::process_rpc", "bfffs/src/bin/bfffsd/main.rs:Bfffsd::mount", "bfffs-core/src/rpc.rs:Response", "bfffs/src/lib.rs:Bfffs", "bfffs/src/lib.rs:Device::into_uuid", "bfffs-core/src/controller.rs:Controller::unmount"]}
{"id": "C77", "title": "`bfffs pool create` makes exactly the pool its arguments describe, or none", "statement": "The vdev arguments of `bfffs pool create` are accepted exactly if they are one or more disks, mirrors or RAIDs (of disks or of mirrors) in the documented form, and then have only one meaning. The pool made has one cluster for each of them, in the order given, with the stripe size and redundancy given, and each mirror has exactly the disks given, in that order. It is made exactly if every disk can be opened, no device is used twice, the disks of a vdev have the same size, and every RAID has a legal geometry.", "quantifier": "all lists of arguments of any length, all sets of devices and sizes", "why_tests_cant": "the language has infinitely many specifications, with repetition nested three deep, and whether a word is a disk, a keyword or a number depends on its context and spelling", "anchors": ["bfffs/src/pool_create_parser.lalrpop:Pool", "bfffs/src/bin/bfffs/pool_create_ast.rs:Tlv", "bfffs/src/bin/bfffs/main.rs:pool::Create", "bfffs/src/bin/bfffs/main.rs:pool::Builder", "bfffs-core/src/raid/mod.rs:create", "bfffs-core/src/mirror.rs:Mirror::create"]}
{"id": "C78", "title": "The consistency check passes exactly the consistent trees", "statement": "A tree whose check returns true can be read completely, its nodes have permitted sizes, its keys are in order so that lookups find what listings show, and the transactions recorded for a node include those of its children; a tree without these properties does not pass. A pool that only this program has written passes, after any history of operations, flushes and cleanings. The check answers, without panicking, for any tree it can read, and the check of a database, and the exit status of `bfffs check`, say whether every part passed.", "quantifier": "all trees of any depth with any keys, sizes and recorded transactions, any set of unreadable nodes, and all histories of calls", "why_tests_cant": "a test damages one tree in one way; the claim is about every way a tree may be wrong and about every tree that histories make", "anchors": ["bfffs-core/src/tree/tree/mod.rs:Tree::check", "bfffs-core/src/tree/tree/mod.rs:Tree::check_r", "bfffs-core/src/tree/node.rs:NodeData::check", "bfffs-core/src/idml/idml.rs:IDML::check", "bfffs-core/src/database/database.rs:Database::check", "bfffs/src/bin/bfffs/main.rs:Check"]}
{"id": "C79", "title": "Every file system call reserves enough writeback credit for all that it writes", "statement": "Each file system call estimates, before it starts, how many insertions, removals and range deletions it will make and how many bytes it will write, and borrows that much writeback credit. The estimate suffices: whatever the file system holds and whatever other calls do meanwhile, each operation of the call gets the credit that the tree demands of it. The credit asked for can be granted, so that the call ends.", "quantifier": "all calls with any arguments, all contents of the file system, all interleavings with other calls, all record sizes", "why_tests_cant": "how many operations a call makes depends on the contents: on hash collisions, on records present and absent at either end of a range, on attributes, and on what other calls do between its steps; credit that is missing shows only if the leaves happen to be full and clean", "anchors": ["bfffs-core/src/fs.rs:Fs::write", "bfffs-core/src/fs.rs:Fs::link", "bfffs-core/src/fs.rs:Fs::unlink", "bfffs-core/src/fs.rs:Fs::rename", "bfffs-core/src/fs.rs:Fs::deallocate", "bfffs-core/src/fs.rs:Fs::do_setattr", "bfffs-core/src/fs.rs:Fs::new", "bfffs-core/src/database/database.rs:Database::fswrite", "bfffs-core/src/writeback/writeback.rs:WriteBack::borrow", "bfffs-core/src/tree/tree/mod.rs:CreditRequirements"]}
{"id": "C80", "title": "No call hangs: calls, the flusher, syncs, and the creation and destruction of file systems never wait for each other forever", "statement": "Calls wait for writeback credit, for the transaction lock and for the list of open file systems; credit comes back when dirty data are flushed, which the background flusher does. In every state that any calls can reach, all calls already made can be brought to an end, as long as each of them asks for no more credit than the cache has. While one task has the transaction lock for writing no other has it at all, and no credit is lost.", "quantifier": "all sizes of the cache, all numbers of concurrent calls of every kind with any demand for credit, all interleavings with the flusher and with syncs, and whatever calls do to their trees", "why_tests_cant": "a hang needs a full cache and a certain order of three or more tasks waiting for two locks and for credit; tests run with an empty cache and few tasks", "anchors": ["bfffs-core/src/database/database.rs:Inner::fswrite", "bfffs-core/src/database/database.rs:Inner::destroy_fs", "bfffs-core/src/database/database.rs:Database::create_fs", "bfffs-core/src/database/database.rs:Database::flush", "bfffs-core/src/database/database.rs:Database::sync_transaction_priv", "bfffs-core/src/database/database.rs:Syncer::run", "bfffs-core/src/idml/idml.rs:IDML::advance_transaction", "bfffs-core/src/writeback/writeback.rs:WriteBack"]}
{"id": "C81", "title": "What is stored or sent is read back exactly as it was written", "statement": "Every node of every tree with all the keys and values it can hold, every block of a spacemap, every record of a label, every request and every answer is read back as it was written, whatever bytes follow it; two different values are never written alike; nothing is read from data that lack their end; values have the sizes by which nodes are filled and credit is reserved; a full block of a spacemap fits its disk block; a command receives exactly the daemon's answer to exactly its request, and a request that does not arrive whole changes nothing.", "quantifier": "all values of all types that bfffs stores or sends, of any length below 2^32, all bytes that follow, and all bytes that a client may send", "why_tests_cant": "tests compare a few golden masters; the variants, the lengths, strings in any script and negative times are unbounded, and a field lost or swapped in one variant is seen only by a test of that variant", "anchors": ["bfffs-core/src/fs_tree.rs:FSValue", "bfffs-core/src/fs_tree.rs:FileType", "bfffs-core/src/fs_tree.rs:Inode", "bfffs-core/src/property.rs:Property", "bfffs-core/src/tree/node.rs:NodeData", "bfffs-core/src/tree/mod.rs:TreeOnDisk", "bfffs-core/src/ddml/mod.rs:DRP", "bfffs-core/src/database/mod.rs:ForestValue", "bfffs-core/src/cluster.rs:SpacemapOnDisk", "bfffs-core/src/idml/idml.rs:Label", "bfffs-core/src/raid/mod.rs:Label", "bfffs-core/src/rpc.rs:Request", "bfffs-core/src/rpc.rs:Response", "bfffs/src/lib.rs:Bfffs::call", "bfffs/src/bin/bfffsd/main.rs:Bfffsd::handle_client"]}
{"id": "C82", "title": "The cleaner empties the half empty zones and loses nothing", "statement": "A pass of the cleaner goes through exactly the closed zones of which at least half is free, the emptiest first. It moves what is still in use elsewhere, changes nothing that any reader sees, and the zones can be written again when the transaction has ended. Every request for cleaning is answered, in order, after a pass that began after the request was made, and a shutdown waits for all of them.", "quantifier": "all pools with any number of clusters and zones, all histories of writes and frees that lead to them, all records, everything that happens between the cleaning of two zones, and all sequences of requests, passes, failures and shutdowns", "why_tests_cant": "the unit tests run the selection on a few mock zones; which zones are listed, how their fractions are rounded and what other tasks do before the cleaner comes to a zone is unbounded", "anchors": ["bfffs-core/src/cleaner.rs:SyncCleaner::select_zones", "bfffs-core/src/cleaner.rs:SyncCleaner::clean_now", "bfffs-core/src/cleaner.rs:Cleaner::clean", "bfffs-core/src/cleaner.rs:Cleaner::run", "bfffs-core/src/cleaner.rs:Cleaner::shutdown", "bfffs-core/src/idml/idml.rs:IDML::clean_zone", "bfffs-core/src/database/database.rs:Database::clean"]}
{"id": "C83", "title": "An interrupted mirror rebuild can be taken up again without leaving anything out", "statement": "While a mirror child is rebuilt, the transaction recorded on its label tells a later rebuild where to start. At every moment, whether the pool is closed or the machine crashes, a rebuild that starts from that label covers everything that the child still lacks; the label is never ahead of the disks that are in service; no step of a rebuild panics; and a rebuild that runs to its end has copied everything, including what was written meanwhile.", "quantifier": "all histories of the cluster before the rebuild, all transactions the child may have missed, all writes, frees, flushes and transaction ends between its steps, and every point at which it may be interrupted", "why_tests_cant": "the unit tests step through a few fixed lists of mock zones; what happens to the listed zones between two steps and where the interruption falls is unbounded", "anchors": ["bfffs-core/src/cluster.rs:Cluster::repair_mirror", "bfffs-core/src/cluster.rs:Cluster::repair_mirror_step", "bfffs-core/src/cluster.rs:Cluster::order_zones_for_repair", "bfffs-core/src/cluster.rs:RepairMirrorTask", "bfffs-core/src/ddml/ddml.rs:MirrorRepairTask", "bfffs-core/src/mirror.rs:Mirror::open", "bfffs-core/src/mirror.rs:Mirror::sync_all"]}
{"id": "C84", "title": "A pool on a single mirror returns every record while one copy is good", "statement": "On a pool whose cluster is a single mirror, every disk in service holds every record that was written and not deleted, through any sequence of writes, deletions, erased zones, disks taken out of service, disks added and disks rebuilt. A record is read as it was stored as long as one disk in service delivers it, even if the others fail or deliver something else; a wrong record is never delivered.", "quantifier": "all mirrors of any number of disks, all sequences of these events, all records and block addresses, all answers of all disks to a read, and all positions of the round robin", "why_tests_cant": "the unit tests pass single calls to a mock mirror; the combinations of histories, states of the disks and answers are unbounded", "anchors": ["bfffs-core/src/raid/null_raid.rs:NullRaid", "bfffs-core/src/mirror.rs:Mirror::read_at", "bfffs-core/src/mirror.rs:Mirror::read_long", "bfffs-core/src/mirror.rs:Mirror::repair_zone", "bfffs-core/src/ddml/ddml.rs:DDML::read"]}
{"id": "C85", "title": "Each part of a range query is a snapshot, whatever other tasks do", "statement": "While other tasks insert, remove, look up and flush in the same tree, every call that delivers a part of a range query returns the first items of its range as they were in the map at one instant during the call, and where the rest begins. So a whole range query reports keys of its range in ascending order, each at most once; what it reports for a key, or that it does not report it, is what the map held for this key at one instant during the query. Each such call returns once, and neither it nor the other tasks wait forever.", "quantifier": "all runs of any number of tasks with any calls in any interleaving at lock acquisitions, all ranges, all trees and all lawful size limits", "why_tests_cant": "the tests query trees that nobody changes, or with a single schedule; the interleavings of several tasks with a query are unbounded", "anchors": ["bfffs-core/src/tree/tree/mod.rs:Tree::get_range", "bfffs-core/src/tree/tree/mod.rs:Tree::get_range_r", "bfffs-core/src/tree/tree/mod.rs:RangeQuery"]}
