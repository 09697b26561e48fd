# Formal model of bfffs in Lean 4: design

Source under study: /repo (bfffs at the pinned commit, Rust).  All model code
is in `lean/Verif/`.  Each area has

* `Model*.lean`  – definitions that transcribe the Rust, each with a citation,
* `Spec*.lean`   – (where useful) a small independent specification,
* `Lemmas*.lean` – helper lemmas,
* `Props*.lean`  – the property theorems (`Cnn_…`), non-vacuity examples, and
  counterexample theorems for properties the code violates.

Conventions: `&mut self` functions return the new state; panics/assertion
failures are explicit error results; unbounded `Nat`/`Int` stand for machine
integers except where the property is about overflow; asynchronous code is
modelled at the granularity of its atomic steps when the property is about
schedules, and as sequential functions otherwise (stated per property).

## Plan per property

| id | model | proof |
|---|---|---|
| C01 | `WriteBack` as a transition system: one transition per atomic instruction / critical section; any number of threads | invariant by induction over steps |
| C02 | same system | false: counterexample execution; partial: no lost wake-up when borrow's slow path is atomic w.r.t. repay |
| C03 | Credit arithmetic over Int in the doubled representation | algebraic laws |
| C04 | the hash map with embedded mru/lru links, function by function | refinement to a recency-ordered list |
| C05 | pending-insertion table of `get_or_insert` as a state machine | false: counterexample; partial: successful fills |
| C06 | `id2loc`, `loc2id`, `invmod`, over Nat/Int | number theory (inverse mod prime), round trip both ways |
| C07 | same | multiplication by a unit mod n is injective |
| C08 | `PrimeSIter` state | invariant linking incremental state to closed form |
| C09 | Cauchy coding matrix over a field, encode, decode by matrix inversion | linear algebra over any field (Mathlib matrices) |
| C10 | StripeBuffer + write_at/flush_zone/read_at on one zone | refinement to the byte string written so far |
| C11 | `zone_limits` arithmetic with the layout's monotonicity | arithmetic |
| C12 | write_at_multi's error count | counting + C07 |
| C13 | per-child state and the `as_present().unwrap()` calls | false: counterexample; partial: no child missing |
| C14 | `ReadAt` state machine over a list of outcomes | induction |
| C15 | repair_zone block loop | induction on the loop |
| C16 | sessions/txg history | false: counterexample (txg reuse after import); partial: at least two syncs missed |
| C17,C18 | bytes of the label, hash as parameter | round trip; case analysis; overflow counterexample |
| C19 | zone arithmetic of VdevFile, reserved space | arithmetic, induction-free |
| C20,C21,C22 | the scheduler's three queues | multiset invariant; ghost submission epoch; counterexample + partial for order |
| C23 | accumulate | byte-level equality |
| C24–C29 | FreeSpaceMap/Cluster state machine | invariants over operations; round trip |
| C30 | zone search iteration | completeness by induction |
| C31 | rebuild list + concurrent zone closing | false: counterexample; partial: quiescent rebuild |
| C32 | device write log with crash points | false: counterexample; partial: crash outside the spacemap window |
| C33–C35 | DDML put/read with checksum and codec parameters | round trip; decision logic; counterexample + partial |
| C36,C37 | RIDT/AllocT maps | invariant over operations |
| C38,C39 | the B+tree, function by function (sequential) | refinement to an ordered map, invariants |
| C40 | RangeQuery cursor over a changing map | induction over polls |
| C41 | dirty flag / txg lock transition system | false: counterexample; partial |
| C42,C43 | Forest as a map with tree ids and hashed names | refinement absent collisions; induction over pages |
| C44,C45 | extents map and file operations | refinement to byte arrays; invariant |
| C46 | lseek loop | induction over extents; counterexample for the final hole |
| C47–C49 | htable over a map with arbitrary hash | refinement; counterexamples for link and readdir |
| C50–C52 | namespace state machine | invariants; counterexamples |
| C53 | key arithmetic | arithmetic |
| C54–C56 | property lookup walk, parser/printer, name stripping | induction; finite tables; counterexamples |
| C57 | scatter-gather helpers | induction |
| C58 | mirror child states | invariant |
| C59 | two-step write transition system | false: counterexample; partial: serial writes |
| C60 | pool used counter | invariant |
| C61 | the scheduler's `remove` and its queue depth | invariant; counterexample for aborted merged requests |
| C62 | `read_at_one`, `read_at_multi` and `read_at_reconstruction`, with each disk's result and arbitrary bytes from failed disks | the recovered buffer equals the data position by position, from C09; counterexamples for healthy arrays |
| C63 | `read_long`, `read_long_one` and `read_long_multi`, with arbitrary bytes from bad disks; the iterator of candidates as a list | the combination that covers the bad disks gives the data, from C09; counterexamples for reads of several stripes |
| C64 | `clean_zone`, `get_dirty_nodes`, `rewrite_node`, as events interleaved with all other tree operations; each lookup and each rewriting is atomic | invariant: every node's address lies in the transaction ranges recorded above it, and every node of a finished level in the zone is on the list or behind the cursor; a measure for termination; counterexample when the tree gets lower |
| C65 | the cluster's histories of C24 with a log of the transaction of each write, and the zone that `IDML::clean_zone` passes to the trees | invariant on open and closed zones; joined to C64; counterexample with a stale transaction number, as the cleaner uses it |
| C66 | the FUSE daemon's table of inodes and name cache over the file system of C50, and what the kernel knows from the replies; the protocol the kernel keeps to is a hypothesis | invariant on daemon, kernel and file system; the loop check of rename ends by counting the table; counterexamples for what the protocol leaves out |
| C67 | the tree as a map whose values may have their data in records, and the file and attribute operations over it, with an arbitrary flush before each tree operation | invariant that the records are those of the tree, each used once; simulation of the models of C44–C47, which keep all data in place; counterexample for a flush inside a colliding setextattr |
| C68 | one file's tree with the identity of each buffer, reads and multi-record writes in steps between their await points, and a flusher that may run between any two of them | invariant over all interleavings: buffers and records are used once, reads in progress agree with the contents; exact condition for the flusher's panics; two counterexamples |
| C69 | the daemon's four xattr handlers, splitting and packing of names and both list functions, over the hash tables of C47 | refinement of a map specification that says which replies are allowed; induction over requests; counterexamples for flags and unknown namespaces |
| C70 | what every request does to inodes, over the names of C48-C51; getattr and the daemon's translation of it | each request gives each file what a table of POSIX marks says, by cases; induction over histories; projection to the names model shows valid histories never panic; counterexamples for blocks, symlink sizes, access times of directories and empty writes |
| C71 | the tree with a lock in every node; a lock says who holds it and what they do next; one step per lock acquisition | simulation: a call takes effect when it gets the lock of the root pointer (writers) or by what its path will lead it to (readers), so an abstraction function applies the pending work of the locks above a subtree; progress by following locks downwards; a measure that every step but a new call lowers; counts of calls and returns in the atomic map (`Conc/Returns`) |
| C72 | the maps that the managers of all layers fill when they taste a disk and empty when they import; a pool as a nested list of uuids; the order of completion of concurrent imports as a permutation | each layer's result is computed from the labels by showing that imports of different devices use different entries of the maps; then by the layer above, for any permutation |
| C73 | a bag of leaves (on disk, in memory, being written), each with the sizes of its items and its credit; calls as small programs with the credit in hand; the bank as one number | invariant over all steps: exact credit per leaf, conservation, and a lower bound on what each call has in hand at each stage |
| C74 | a call as a program of tree operations with `join` for `try_join`, over a map from keys to values; any number of programs take steps in any order; a call alone as an interpreter that notes which keys were used | frame lemma (a program does the same on maps that agree on what it uses) and an invariant over all steps; every call but `link` is shown to use only keys of its own files and to join only futures that use different keys |
| C75 | the client's listing as a state machine (queue of datasets and depths, page, offset) that sends requests to the model of the daemon over C42's file systems | invariant: what was given plus what is queued is a prefix-closed level order; the levels are shown to be exactly the descendants |
| C76 | one request as a function of the daemon's state, the user and what the kernel does, giving the response; the client library's calls on top, with the size of a response as a parameter | case analysis over the requests; creating with properties from the history theorem of C42 and C43 |
| C77 | the lexer (longest match, keywords first), the grammar as recursive descent, the builder over a set of devices that may be opened once | the grammar as relations between words and pools; the parser is sound and complete for them; the builder succeeds exactly on feasible pools (with C06 for the geometry) |
| C78 | `Tree::check`, `check_r` and `NodeData::check` over trees of which nothing is assumed, with a predicate for the nodes that can be read; errors and panics as results; the checks of IDML and database over the results of their parts | the check passes iff a relation `Passed` holds at every node (induction over the height); from it and the two things the check does not look at, the tree is ordered, and conversely; trees made by histories from the invariants of C39 and C64 |
| C79 | the programs of Isol with each write labelled, and a ledger of what each operation asked for and got, starting with the reservation the code makes for the call; the contents may be any store at each step | by recursion over each program, a bound on the operations still to come in units of leaves; with the bank of WriteBack, what can never be granted |
| C80 | a state machine of any number of calls and the syncer, over the two locks, the credit with its queue of sleepers, the credit of the dirty leaves of each tree, and the `dirty` flag; what a call does to its tree is arbitrary | conservation and exclusion as invariants; progress by a measure that every step lowers, with an adversary choosing what calls do; hangs by invariants closed under every step |
| C81 | every record as a pair of functions to and from bytes, built from the combinators that `speedy` derives; one exchange on the socket | round trips and locality closed under the combinators; sizes by computation; the golden masters of the code's tests as examples |
| C82 | the selection with single precision arithmetic over the listing of C30, a pass over the operations of C36 with anything in between, the task with its channel | error bounds of the rounding; the invariants of C24 to C27 for the zone being cleaned; C36 along a pass; an invariant of the task; a history of cluster and records together for the zone that is no longer closed |
| C83 | the label transactions of `repair_mirror_step` over the rebuild of C31, with the free-space map as last written and the zones still to be copied as ghost state | an invariant of the rebuild: every zone to be copied is on the list, whose order bounds the label, or starts no earlier than the lowest open zone; counterexamples for zones that die or are reused meanwhile, and for a full pool |
| C84 | the calls of `NullRaid` over the mirror of C14, C15 and C58, with blocks on disks, and the records of C35 above it | an invariant over histories: disks in service hold every live record, disks being rebuilt those of the zones copied since; reads with arbitrary answers by C14 and C35 |
| C85 | the tree of C71 with range queries as readers that go down with a lock on the node to the right (`Conc/Scan`) | simulation by the atomic map of C71 with a copy for each query: what is below a locked node cannot change, so the items of the node, of what is left of it and right of it are those of the copy taken when the query got the lock of the root pointer; a potential of the locks held, the calls and the splits that bounds the number of steps once nobody makes new calls (`Conc/ScanTerm`, `Conc/ScanLiveProps`); counts of the places a query occupies in the tree, so that it returns at most once (`Conc/ScanCount`, `Conc/ScanOnce`); progress at a lowest node where a task works: a query is never above its `next_guard`, so nothing below is locked (`Conc/ScanHeight`, `Conc/ScanProgress`, `Conc/ScanDone`); a query that will be sent to the next node has its `next_guard` there, so no query is lost and each returns exactly once (`Conc/ScanKeys`, `Conc/ScanExact`); the other tasks' calls by the counts of C71 (`Conc/Returns`) |

# Trusted base

## What has to be believed

1. **Lean's kernel** (4.33.0), which checks every proof.  No `sorry`, no
   `native_decide`, no `bv_decide`, no added axioms, no `implemented_by`, no
   `unsafe`.
2. **Axioms.**  `AXIOMS.txt` lists, for every theorem in `MANIFEST.json`, the
   output of `#print axioms` (regenerate with `tools/mk_axioms.py` after a
   build).  Only `propext`, `Classical.choice` and `Quot.sound` occur.
3. **Mathlib**, only where a module imports it (`Verif/Codec`, `Verif/PrimeS`, `Verif/Dir/Lemmas`:
   fields, matrices, modular arithmetic); its theorems are checked by the kernel too.
4. **That the definitions say what the Rust does.**  The model was written by
   reading the source; nothing was extracted mechanically and the code was not
   run.  Each definition cites the lines it models and names its
   simplifications.  The wrong programs in `seeded/LOG.jsonl` test that the
   theorems notice changes of the definitions.
5. **That the statements say what the English says.**  Each area has a small
   `Spec.lean` that does not use the model's helpers; the property theorems are
   in `Props*.lean` (and in the files of the races: `Crash/Dirty`,
   `Idml/Race`, `Forest/Race`, `File/ConcProps`).

## General simplifications

* Machine integers are `Nat` or `Int`, except where overflow is part of the
  property: C06–C08 (16-bit PRIME-S arithmetic), C17/C18 (label lengths), C53
  (56-bit keys), C54 (8-bit level count), C58 (8-bit counts).
* A panic, a failed assertion, an `unwrap` of `None` and an index out of
  range are the value `none` (or a constructor of their own), never skipped.
* Sequential functions stand for asynchronous ones unless the property is
  about schedules.  Schedules are modelled, at the granularity of atomic
  sections, for: `WriteBack` (C01, C02), the cache's pending fills (C05), the
  block scheduler (C20–C23, C61), mirror rebuild listing (C31), range queries (C40),
  sync against writers (C41), indirect-layer races (C36), overlapping opens
  (C41), file writes (C59), records of one write in any order (C44, C45), zone
  cleaning against other tree operations (C64), shared buffers (C68), all
  operations of one tree but range deletion (C71, C85).
* Memory safety, `unsafe` blocks, allocation failure and time are outside.

## External code that enters as a parameter or by its documentation

| code | where | what is assumed |
|---|---|---|
| ISA-L `ec_encode_data`, `gf_gen_cauchy1_matrix`, `gf_invert_matrix`, `gf_mul`, `xor_gen` | `Codec` | they compute what their documentation says: arithmetic of GF(2^8) mod 0x11d, the Cauchy matrix, the inverse of an invertible matrix.  The field laws and the invertibility of every selected submatrix are proved. |
| MetroHash64 | `Label`, `Cluster`, `Ddml`, `Bytes` | a function of the bytes; C34 and C18 state collision freedom as hypotheses of the theorems that need it |
| `speedy`, `bincode` serialisers | `Wire` (everything), `Label` (label records); `Cluster`, `Ddml`, `Idml` (parameters) | the derived implementations write a structure as its fields in order, an enum as its tag and fields, lengths in 32 bits, little-endian; given that, that deserialising gives back what was serialised is C81 |
| LZ4, Zstandard, byteshuffle | `Ddml` | decompressing what was compressed gives it back |
| name hash of directory entries, extended attributes and file system names | `Dir`, `Namespace`, `Forest` | any function; collisions are part of the theorems or of the counterexamples |
| `BinaryHeap`, `HashMap`, `BTreeMap`, `VecDeque`, `oneshot`, `Mutex`, `RwLock` | everywhere | their documented behaviour; ties in the heap are left open |
| the leaf devices | `Sched`, `Mirror`, `Raid`, `Ddml`, `Crash` | any answer to each request (the theorems quantify over them); `Crash` has a write cache that may persist any subset in any order |
| the operating system's name layer | `Namespace` | the calls are valid: parents exist, names are checked first (`Valid`) |

## What is modelled, and what is not

| area | files of /repo/bfffs-core/src | modelled | not modelled |
|---|---|---|---|
| WriteBack | writeback/writeback.rs | all | poisoning |
| Cache | cache/lru.rs, cache/mod.rs | all of `Cache`; pending fills | `Cacheable` implementations |
| Bytes | util.rs, raid/sgcursor.rs | checksums, lengths, zero lists, padding, cursor | `RangeBoundsExt` |
| Label | label.rs | writer and reader, block/mirror/pool records | RAID and IDML records, see Wire |
| Zone | vdev_file.rs, vdev.rs | zone arithmetic, reserved areas | system calls |
| Sched | vdev_block.rs | queues, merging, barrier, removal | latency heuristics |
| Mirror | mirror.rs | states, reads, long reads, zone repair, opening | partial label written by `repair_label` |
| PrimeS | raid/prime_s.rs, raid/declust.rs | all | |
| Codec | raid/codec.rs | all | ISA-L itself |
| Raid | raid/vdev_raid.rs, raid/mod.rs | stripe buffers, writes, healthy reads, zone limits, faults, labels, spacemaps, zone repair, reads that meet failing or absent disks (`ReconModel`, theorems in `ReconProps`, `ReconDegProps`, `ReconEnd`, `ReconUnaligned`, `ReconExamples`), long reads (`LongModel`, theorems in `LongProps`, `LongExamples`) | `create`, erasing and finishing beyond error counting |
| Cluster | cluster.rs, pool.rs | free-space map, allocation, frees, transaction end, flush, spacemap, listing, space counter, recorded transactions (`Dated*`), the rebuild of a mirror child and its label (`Rebuild*`, `Resume*`) | the encoding of zone records |
| Ddml | dml.rs, ddml/*.rs | put, get, pop, delete, long reads, compression choice (on a RAID device in `OverRaid`) | `MirrorRepairTask`'s loop |
| Idml | idml/*.rs | put, get, pop, delete, cleaning, tables, check | shutdown, statistics |
| Tree | tree/tree/mod.rs, tree/node.rs | insert, remove, get, range, range_delete, last_key, flush, zone cleaning (`Clean*`) | I/O errors; locks are in Conc |
| FSKey | fs_tree.rs | keys and ranges | values' serialisation |
| File | fs.rs, fs_tree.rs | write, read, truncate, deallocate, lseek, concurrent writes | `setattr` of other fields |
| Dir | fs.rs | htable get/insert/remove, readdir, link | |
| Namespace | fs.rs | create, mkdir, link, unlink, rmdir, rename, inactive, mount | permissions, times, concurrency |
| Forest | database/*.rs, controller.rs, fs.rs | names, creation, destruction, listing, properties | RPC, FUSE |
| Property | property.rs | all | |
| Fuse | /repo/bfffs/src/bin/bfffsd/fs.rs | lookup, forget, create, mkdir, link, unlink, rmdir, rename, getattr, write, with failures of the layers below | attributes, readdir, open/close, extended attributes, interleaving other than `lookup`'s |
| Blob | fs_tree.rs, tree/node.rs, fs.rs | needs_flush, flush, dpop, ddrop of extents and extended attributes, the tree operations that call them, write, truncate, deallocate, read, set/get/len/delete/listextattr over them | sharing of buffers between tasks (see Share), errors of the layers below, snapshots, writeback credit |
| Share | fs.rs, fs_tree.rs, tree/mod.rs, cache/mod.rs | do_read with RangeQuery, write_record, dpop, InlineExtent::flush and serialisation, as steps of concurrent tasks | deallocate and extended attributes (same pattern), the cache's copies of records, splitting of leaves (a flush chooses keys, a fetch chooses where the leaf ends); the kernel's vnode lock is assumed |
| Xattr | bfffsd/fs.rs, fs.rs | split_xattr_name, getxattr, setxattr, listxattr, removexattr, getextattrlen, listextattr, listextattrlen | the table of looked-up files (see Fuse), values out of line (see Blob) |
| Attrs | fs.rs, bfffsd/fs.rs | do_setattr, setattr, do_create, create, mkdir, symlink, mkfifo, mksock, mkchar, mkblock, link, unlink, rmdir, rename, inactive, read, write, deallocate, do_getattr, FileType::mode, the daemon's do_getattr and the arguments of its setattr | data and freed space (parameters; see File and C45), extended attributes (setextattr leaves the inode alone), the futures of one request run in program order |
| Conc | tree/tree/mod.rs, tree/node.rs | insert, insert_int, insert_leaf_no_split, remove, remove_int, remove_no_fix, fix_int, xlock_and_merge_root, get_r, last_key_r, get_range, get_range_r, the locking of flush_once, flush_r, rewrite_node_r; one step of range_delete_purge | range_delete with its locks, transactions, credit, I/O errors, `Arc` reference counts of nodes on disk |
| Import | vdev_block.rs, mirror.rs, raid/mod.rs, null_raid.rs, vdev_raid.rs, cluster.rs, pool.rs, database/mod.rs | Manager::taste, import, importable_pools, import_by_name, import_by_uuid; Mirror::open, raid::open, VdevRaid::open and new, Pool::open as far as they read labels | undecodable labels, opening the free space map, the tables' roots (one number stands for them) |
| TreeCredit | tree/node.rs, tree/tree/mod.rs, writeback/writeback.rs | LeafData::acredit, insert, remove, range_delete, range_delete_unaccredited, split, forget, take_credit, wb_space; merge, take_high_keys, take_low_keys; fix_int, credit_requirements, drop_r, WriteLeaf, the credit of xlock, xlock_nc, xlock_root, range_delete, range_delete_purge; repay, Credit::drop | interior nodes and locks (any leaf may be met at any time), key types without USES_CREDIT, errors of dpop and ddrop other than as a lost call |
| Isol | fs.rs, fs_tree.rs | htable::get, insert, remove; do_create, mkdir's callback, link, unlink, do_unlink, rmdir, do_rmdir, ok_to_rmdir, rename, inactive, do_delete_inode, setattr, do_setattr, deallocate, do_deallocate, write, write_record, into_chunks, read, getattr, lookup, setextattr, getextattr, deleteextattr, FSKey::compose | each tree operation is one step (C71); attributes and time stamps are one number; blobs are taken for inline extents; the caller's locks (the kernel holds a vnode lock during most calls), transactions and I/O errors are left out |
| Rpc | rpc.rs, bfffsd/main.rs, bfffs/src/lib.rs, controller.rs | Request, Response, into_*; process_rpc (all requests), mount, set; Bfffs (all calls), call, fs_list, Device::into_uuid; Controller::unmount | the encoding of messages is left out but for its size, see Wire; what the devices do when cleaned, faulted or attached is a parameter; one request at a time; the daemon's pages are computed in order |
| Wire | fs_tree.rs, property.rs, types.rs, vdev.rs, ddml/mod.rs, idml/mod.rs, idml/idml.rs, tree/mod.rs, tree/node.rs, database/mod.rs, database/database.rs, cluster.rs, raid/*.rs, rpc.rs, bfffs/src/lib.rs, bfffsd/main.rs | `Readable` and `Writable` of everything stored in tree nodes, spacemaps and labels and of all messages; `handle_client` and `call` | what `speedy` derives is taken from its documentation and checked against the golden masters of the tests; sends and receives do not fail; the human-readable (`serde`) encodings for dumps and tests |
| PoolCmd | pool_create_parser.lalrpop, pool_create_ast.rs, bin/bfffs/main.rs, mirror.rs, raid/mod.rs, vdev_raid.rs | the generated lexer and parser; pool::Create::main and Builder up to formatting; Mirror::create and new, raid::create, VdevRaid::create and new as far as they refuse | the LR automaton is written as recursive descent; zone sizes (all alike); properties; formatting |
| Check | tree/tree/mod.rs, tree/node.rs, idml/idml.rs, database/database.rs, bin/bfffs/main.rs | Tree::check, check_r, NodeData::check, IDML::check, Database::check and check_forest over the results of their parts, the exit status of `bfffs check` | check_ridt (see Idml); nodes that cannot be decoded; leaves at different depths; the order in which several errors are met; the forest's own tree, which the code does not check |
| Reserve | fs.rs, database/database.rs, tree/tree/mod.rs, writeback/writeback.rs | the four numbers each call passes to `fswrite`, the credit computed from them, the operations that draw on it in the order of the programs of Isol, the deletion of dying inodes on mount | readdir, lsextattr and the other calls that read; the concurrency inside one call (operations draw one after the other, as `Credit::split` is called in program order); sizes of encoded leaves are parameters |
| Progress | database/database.rs, idml/idml.rs, writeback/writeback.rs, cleaner.rs | the waiting of fswrite, create_fs, destroy_fs, flush, sync_transaction and the cleaner for locks and credit; Syncer::run | futures-locks is assumed to admit a reader whenever no writer has the lock; errors; the steps inside borrow and repay (see WriteBack); the message from sync_transaction to the syncer; tree operations are one step |
| Cleaner | cleaner.rs, idml/idml.rs, database/database.rs | select_zones, clean_now over IDML::clean_zone of Idml, Cleaner::clean, run and shutdown | the trees' own nodes in a zone (see C64); that a zone takes no data while it is cleaned is proved of the cluster (C82_no_new_data) and assumed of the allocator in a pass; `futures::channel::mpsc` is a queue that is never full for a new clone of the sender |
| NullRaid | raid/null_raid.rs | write_at with its padding, read_at, read_long, erase_zone, fault, attach, repair_mirror_zone, restore, over Mirror and under Ddml | writes that fail; labels (Label, C16) and spacemaps (Cluster); that records are written to free blocks and zones with live records are not erased is C24 and C27; that a rebuild is complete is C31 and C83 |
| Crash | database/database.rs, idml, cluster | sync order, labels, crash and import, dirty flag | several clusters, tree structure |

Not modelled at all: the `bfffs-fio` binary, and `bfffs` but for `pool create`
and `check`.

# Where the code does not have the property

Each line is a theorem that exhibits an execution of the model; the positive
theorem for the remaining cases carries the suffix `_partial`.

| theorem | what happens |
|---|---|
| C01_dropped_future_leaks | dropping a granted `borrow` future loses its credit |
| C02_deadlock, C02_deadlock_two_borrowers | a borrower sleeps although everything was repaid |
| C04_duplicate_insert_evicts, C04_duplicate_insert_not_most_recent | inserting a cached key evicts others needlessly |
| C05_failed_fill_wedges, C05_cancelled_waiter_panics_filler, C05_evicted_before_poll_panics | readers wait for ever or panic after a failed or cancelled fill |
| C06_overflow_collides, C06_overflow_panics, C06_overflow_new_panics | arrays of 191 disks map two chunks to one place |
| C10_out_of_order | data ending inside the last block of a stripe is written out of order |
| C13_label_spacemap_panic, C13_read_spacemap_panic, C13_restore_count | a degraded RAID panics writing labels or spacemaps |
| C15_raid_open_short, C15_raid_open_nothing | an open zone of a RAID's mirror is not repaired completely |
| C16_counterexample, C16_split_brain_counterexample | stale mirror children are taken for current ones |
| C17_big_record_panics, C17_oversize_unreadable | labels over their size |
| C18_overflow_panics | a damaged length field panics (overflow checks on) |
| C19_small_zones_overlap, C19_last_zone_past_end | zones smaller than the reserved area; last zone too long |
| C22_last_lba_first | a write of a zone's last block overtakes earlier ones |
| C27_leak, C27_leak_reachable | a zone emptied while open is never reclaimed |
| C29_second_copy_stale | the second spacemap copy is not written |
| C31_zone_missed | a rebuild misses a zone closed meanwhile |
| C32_window_counterexample, C32_torn_spacemap_counterexample, C32_no_label_counterexample | crashes after which the pool is not what was committed |
| C35_partial_block_lost | repairable records reported lost |
| C36_failed_clean, C36_failed_pop, C36_race_get_delete, C36_race_get_clean, C36_race_clean_delete, C36_check_misses | tables disagree after errors or overlaps |
| C38_rangeDelete_panic_counterexample, C38_rangeDelete_excluded_panics, C39_rangeDelete_counterexample, C39_history_counterexample | range_delete panics on an empty open range; leaves thin nodes |
| C41_overlap_counterexample, C41_flag_counterexample, C41_failed_counterexample, C41_overlapping_opens_lose_write | sync returns before data is durable |
| C42_second_root, C42_no_root, C42_hash_collision, C42_trailing_slash, C42_dead_mount_busy, C42_open_during_destroy | file system names |
| C44_empty_write_extends_file | a zero-byte write extends the file |
| C46_seek_hole_skips_final_hole | SEEK_HOLE in the final hole |
| C48_link_destroys_other_name, C48_link_destroys_bucket | link on a hash collision |
| C49_three_way_collision_loops, C49_largest_hash_restarts, C49_removal_skips_other_entry | readdir |
| C50_root_link_count | the root's link count is one short |
| C51_rename_destroys, C51_link_of_dying, C51_hash_collision | files in use are lost |
| C52_reuse | inode numbers are reused after a remount |
| C53_extent_aliases_xattr, C53_extent_range_hits_xattrs | offsets of 2^56 and more |
| C54_deep_panics, C54_set_mounted_panics, C54_base_mountpoint_renamed, C54_relative_mountpoint | properties |
| C55_largest_recordsize, C55_sources_lost | property texts |
| C56_extended_name_accepted, C56_wrong_dataset_destroyed, C56_double_slash | names of other pools |
| C57_pad_panics, C57_pad_unimplemented, C57_cursor_empty_buffer, C57_zeros_empty_panics | scatter-gather helpers |
| C58_status_counterexample, C58_last_child_counterexample | mirror status |
| C59_lost_size_counterexample, C59_lost_bytes_counterexample, C59_same_record_counterexample | concurrent writes |
| C60_failed_write | space of failed writes |
| C61_removed_too_early | removal of a device with I/O in flight |
| C62_unaligned_panics | a read of part of a chunk from a healthy RAID panics when a disk fails |
| C62_multi_counterexample, C62_degraded_counterexample | a read of several stripes fails although enough disks are left |
| C63_parity_counterexample | a long read of several stripes of a double parity RAID never takes parity as wrong, so the data isn't offered |
| C63_index_counterexample | a long read of several stripes takes a failed disk for another one, so only wrong data is offered |
| C64_lower_tree_panics | cleaning a zone panics if removals make the tree lower meanwhile, although a comment in the code says that this is fine |
| C65_stale_txg_counterexample, C65_stale_txg_panics | the cleaner goes on with a transaction number after the transaction has ended, and zones it closes that way are recorded wrongly; cleaning them panics |
| C66_rename_over_open_file | a rename over a file in use destroys it; then getattr answers ENOENT, and reads and writes panic |
| C66_rename_forgotten_ancestor, C66_create_in_removed | the daemon panics on a rename below a forgotten directory, and on a create in a removed one |
| C66_rename_into_itself | the loop check misses a rename of a directory into itself (the FreeBSD kernel does not send one) |
| C66_link_not_counted | a LINK reply is not counted as a lookup; a kernel that counts it makes the daemon panic |
| C66_concurrent_lookups, C66_concurrent_lookups_forgotten | two overlapping lookups of one name panic |
| C66_nfs_dot, C66_nfs_dotdot, C66_nfs_stale_dotdot | NFS lookups of "." and ".." panic or answer the former parent |
| C67_flush_during_set_loses_value | setextattr of a large value whose hash collides with another attribute: if its leaf is flushed between the insertion and the lookup that gets the value back, the value is lost, though setextattr reports success; getting, deleting or setting the attribute then fails |
| C68_flush_panics_during_read | a read that has fetched a leaf with a large inline extent and waits for an earlier one: a flush of that leaf panics in `Arc::try_unwrap(..).unwrap()` |
| C68_flush_panics_during_write | a partial write of a record keeps its mutable reference until after the record is back in the tree; a flush of the leaf in between panics, whatever the size of the record |
| C69_create_flag_ignored | setxattr ignores XATTR_CREATE and XATTR_REPLACE (FreeBSD's kernel does not send them) |
| C69_unknown_namespace_panics, C69_panics_iff | a name outside of `user.` and `system.` stops the daemon |
| C70_blocks_are_wrong | the daemon shifts the wrong way: st_blocks is 512 times the bytes used, not a 512th |
| C71_range_delete_panics | `range_delete` takes in-memory leaves out of their parent with `try_unwrap().unwrap()`, without waiting for their locks; a removal or lookup that is still in the leaf (its parent is unlocked already) makes that panic |
| C72_rolls_back | `raid::open` uses the label of the mirror that is opened first, whatever its transaction group, and puts a member that was away back in service as if it were up to date; depending on timing, the pool is rolled back to when that disk was taken away |
| C72_too_few_members | `VdevRaid::open` checks the number of children in the label, not of those that are there, so a RAID device that has lost more members than it can is imported |
| C72_no_second_try | a failed import has emptied the managers' maps; when the missing disk is tasted afterwards, importing fails although all disks are there |
| C72_old_label_hides_disk | the list of a mirror's disks is that of the label tasted last; if that is an old one, disks attached since are ignored, even if they are the only current ones |
| C73_read_error_panics | if a node cannot be read, `xlock` drops the caller's credit on its way out, and `Credit::drop` panics instead of the call failing with EIO |
| C73_write_error_panics | if a leaf cannot be written, `WriteLeaf` drops its credit, and the daemon panics |
| C73_range_delete_overdraws | `credit_requirements` covers three leaves for a range deletion, which may dirty four: one at each end and a sibling of each, after the credit of the deleted items has been repaid; the bank is overdrawn |
| C74_link_loses_count | `link` stores the new link count and, at the same time, reads and stores the inode for its time stamp; if the read comes before the first store and the second store after it, the count is lost (the order in which the tree's locks are asked for usually prevents it) |
| C74_mkdir_loses_count, C74_write_loses_size | calls on one file are not atomic: two mkdirs in one directory can count one link, and a write may cut off another that extends the file (the kernel's vnode locks prevent both; the library API does not) |
| C75_resume_skips | the offset of an entry deeper than the first level does not say where it is: resuming there leaves out most of the tree |
| C75_missing_listed | asked for no properties, the listing of a dataset that does not exist contains that dataset |
| C75_many_children_fail | a page has up to 64 entries whatever their size, and the client takes at most 4095 bytes: 64 children with long names cannot be listed |
| C76_refusal_panics | the daemon refuses `drop_cache`, `fs_create`, `fs_destroy` and `pool_fault` with a response of another type, so the client library panics instead of returning EPERM |
| C76_failed_create_leaves_fs | `fs_create` with an unacceptable property fails, but the file system is there |
| C76_failed_mount_blocks_destroy | when the FUSE mount fails, a dead entry stays in the table of mounted file systems: destroying says EBUSY, and unmounting fails because nothing is mounted |
| C77_spaces_split | arguments are joined with spaces before they are parsed, so a path with a space is taken for two disks |
| C77_number_runs_on | `raid 3 1/dev/da0 ...` is taken for `raid 3 1 /dev/da0 ...` |
| C77_paths_refused | relative paths like `./disk0` or `0disk`, and disks named `raid` or `mirror`, cannot be given; the command panics |
| C77_twice_hangs | a device given twice is not refused: opening it a second time with `O_EXLOCK` waits for ever for the same process |
| C78_misses_duplicate | a key that is the last of a leaf and the first of the next passes the check |
| C78_misses_separator | the key recorded for a leaf may be less than the keys of the leaf before it: the check passes, but lookups miss what is there |
| C78_empty_panics | the check of a tree with an empty node panics instead of answering `false` |
| C78_false_alarm | a healthy tree does not pass after `range_delete` |
| C78_command_silent | `bfffs check` exits with status 0 if the check answers `false` |
| C79_link_unfunded, C79_link_example | `link` reserves two insertions and makes at least three (four if the name collides): those after the second get no credit |
| C79_unlink_unfunded, C79_unlink_example | `unlink` of an open file whose name collides makes five operations on a reservation for four; the last gets no credit |
| C79_mount_unfunded, C79_mount_example | mounting reserves one range deletion, however many files were unlinked and open when the system went down; all but the first get no credit |
| C79_inode_unpaid | the reservation of `setattr` (and of others) has no bytes for the inode it stores, which the tree demands; with the leaves full the call is short by the size of an inode |
| C79_big_write_never_granted | with the default writeback size of 256 MiB a write of 24 or more records asks for more than the capacity, which is never granted: the call waits forever; 128 KiB with records of 4 KiB is enough |
| C80_destroy_hangs, C80_destroy_example | `destroy_fs` takes the tree out of `fs_trees`, so that it is no longer flushed, and then waits for credit while it has the transaction lock: if the dirty data of that tree take most of the cache it waits forever, and nothing is ever synced again |
| C80_create_hangs, C80_create_example | `create_fs` (and `destroy_fs`) waits for credit while it has the transaction lock: if the syncer then wants to sync, nobody flushes, and no call gets credit any more |
| C80_flush_forgets, C80_flush_example | a sync clears `dirty` although calls that set it are still waiting for credit; when one of them has written, the flusher sees nothing to do, and the others wait until somebody makes a new call that writes |
| C81_big_pool_status, C81_long_answer | the command's buffer has 4096 bytes and `pool status` answers with one message for the whole pool: with 171 disks or more (fewer, with real paths) the status cannot be shown at all |
| C82_stale_zone | the zones are listed once per pass and no lock is held between them: a listed zone may be freed by others, erased at the end of the transaction and written again before the cleaner comes to it; the cleaner then moves records within the zone and deletes the addresses of all that is there from the allocation table; later deletions panic |
| C82_error_is_final | an error during a pass ends the task by a panic: no later request is answered, every later request and the shutdown panic |
| C82_never_reclaimed | a closed zone without live data (C27_leak) is selected by every pass and never becomes available; a build with debug assertions panics in `assert_clean_zone` |
| C82_rounding | zones of 2^24 blocks and more: less than half free, but selected |
| C83_reused_counterexample | the label is set from the zone that comes next on the list; if that was erased and used again meanwhile, the label passes zones that have not been copied, and a rebuild after an interruption leaves them out |
| C83_crash_counterexample | a zone freed by a transaction that is not committed is not copied; after a crash it holds data again, and the label is past it |
| C83_panic_counterexample | the next zone on the list was the last one in use and has been erased: index out of range |
| C83_ahead_counterexample | the last zone was closed by a transaction that is not committed, on a full pool: the label of the child gets ahead of the others, and after a crash the child rebuilt in part is taken for the good one |
| C83_not_synced | the sync between the copied data and the label is never sent to the disk that is rebuilt |
| C84_partial_block_counterexample | a record that does not fill its last block, on a mirror with one disk that delivers wrong data: whether it can be read depends on whose turn it is, because `read_long` copies are hashed with their padding (as C35_partial_block_lost) |
| C84_spreads_counterexample | a rebuild copies from the disks in service in turn without a check; a wrong block is copied although another disk has the right one, and lost when that one fails |
| C70_symlink_size | st_size of a symbolic link is 0 |
| C70_listing_leaves_atime | readdir and readlink never mark the access time, whatever the atime property |
| C70_empty_write | writing no bytes marks the file modified and may extend it |
