import Verif.Fuse.History
import Verif.Fuse.Check

/-!
# C66: the FUSE daemon's tables

All theorems are about histories of requests that keep to the protocol `Kernel.Follows`, which
leaves out what the daemon does not survive or gets wrong (see the findings at the end).
-/

namespace Verif.Fuse

open Verif Verif.Namespace

/-- C66 for kernels that keep to `Follows`: the daemon never panics, whatever the requests, the
failures of the layers below, and the times at which it is killed and started again. -/
theorem C66_no_panic_partial (h : Nat → Nat) (es : List Event) (hd : Distinct h (es.length + 2))
    (hf : Sys.new.FollowsRun h es) : ∃ rs x, Sys.new.run h es = some (rs, x) := by
  obtain ⟨rs, x, h1, _⟩ := run_good new_good hd (by
    have : Sys.new.d.fs.next = 2 := rfl
    omega) hf
  exact ⟨rs, x, h1⟩

/-- C66 for kernels that keep to `Follows`: the daemon has exactly those inodes in its table that
the kernel holds, and counts their lookups as the kernel does; it and the kernel cache the same
names, and those are the names in the file system. -/
theorem C66_table_partial (h : Nat → Nat) (es : List Event) (hd : Distinct h (es.length + 2))
    (hf : Sys.new.FollowsRun h es) :
    ∃ rs x, Sys.new.run h es = some (rs, x) ∧
      (∀ i, i ≠ 1 → (x.d.files.get i).map (·.count) = (x.k.held.get i).map (·.1)) ∧
      (∀ p n i, x.d.names.get p n = some i ↔ x.k.Knows p n i) ∧
      (∀ p n i, x.k.Knows p n i → ∃ b, x.d.fs.Named p n i b) ∧
      (∀ p n, x.k.Free p n → ¬ x.d.fs.Taken p n) := by
  obtain ⟨rs, x, h1, G, _⟩ := run_good new_good hd (by
    have : Sys.new.d.fs.next = 2 := rfl
    omega) hf
  exact ⟨rs, x, h1, G.tab.table, G.nm.names, fun p n i h2 => (G.nm.known p n i h2).2,
    fun p n h2 => (G.nm.free p n h2).2⟩

/-- C66 for kernels that keep to `Follows`: at any point of any history, the daemon answers the
request, and the reply is true of the file system (`Answers`). -/
theorem C66_replies_partial (h : Nat → Nat) (es : List Event) (r : Req)
    (hd : Distinct h (es.length + 3)) (hf : Sys.new.FollowsRun h (es ++ [.req r])) :
    ∃ rs x a x', Sys.new.run h es = some (rs, x) ∧ x.step h (.req r) = some (a, x') ∧
      Answers x.d.fs x'.d.fs r a := by
  obtain ⟨rs, x, a, x', h1, _, h2, S⟩ := run_req hd hf
  exact ⟨rs, x, a, x', h1, h2, S.answers⟩

/-- C66 for kernels that keep to `Follows`: after any history the file system is consistent and
every directory can be reached from the root: renames make no loops. -/
theorem C66_tree_partial (h : Nat → Nat) (es : List Event) (hd : Distinct h (es.length + 2))
    (hf : Sys.new.FollowsRun h es) :
    ∃ rs x, Sys.new.run h es = some (rs, x) ∧ Consistent x.d.fs ∧
      ∀ i, x.d.fs.Dir i → FS.Rooted x.d.fs i := by
  obtain ⟨rs, x, h1, G, _⟩ := run_good new_good hd (by
    have : Sys.new.d.fs.next = 2 := rfl
    omega) hf
  exact ⟨rs, x, h1, consistent_of_inv G.fs, G.tree⟩

/-- C66 for kernels that keep to `Follows`: a file the kernel holds exists, with or without a
name, unless a rename replaced one of its names; a file without a name is held. -/
theorem C66_held_partial (h : Nat → Nat) (es : List Event) (hd : Distinct h (es.length + 2))
    (hf : Sys.new.FollowsRun h es) :
    ∃ rs x, Sys.new.run h es = some (rs, x) ∧
      (∀ i c, x.k.held.get i = some (c, false) → i ∉ x.k.replaced → x.d.fs.File i) ∧
      ∀ i, x.d.fs.File i → (∀ d n b, ¬ x.d.fs.Named d n i b) → ∃ c, x.k.held.get i = some (c, false) := by
  obtain ⟨rs, x, h1, G, _⟩ := run_good new_good hd (by
    have : Sys.new.d.fs.next = 2 := rfl
    omega) hf
  exact ⟨rs, x, h1, G.use.live, fun i h2 h3 => G.use.dead i ((nameless_iff G.fs).2 ⟨h2, h3⟩)⟩

/-- C66 for kernels that keep to `Follows`: and its records stay as they are until it is written
or forgotten. -/
theorem C66_records_partial (h : Nat → Nat) (es : List Event) (r : Req)
    (hd : Distinct h (es.length + 3)) (hf : Sys.new.FollowsRun h (es ++ [.req r])) :
    ∃ rs x a x', Sys.new.run h es = some (rs, x) ∧ x.step h (.req r) = some (a, x') ∧
      ∀ i c, x.k.held.get i = some (c, false) → i ∉ x'.k.replaced → (∀ n, r ≠ .forget i n) →
        (∀ k f, r ≠ .write i k f) → ∀ k, (i, k) ∈ x'.d.fs.items ↔ (i, k) ∈ x.d.fs.items := by
  obtain ⟨rs, x, a, x', h1, _, h2, S⟩ := run_req hd hf
  refine ⟨rs, x, a, x', h1, h2, fun i c h3 h4 h5 h6 k => ?_⟩
  have := S.items i c h3 h4 (by
    cases r with
    | forget j n => exact fun e => h5 n (by rw [← show j = i from e])
    | write j k f => exact fun e => h6 k f (by rw [← show j = i from e])
    | _ => exact id)
  have e : ∀ s : FS, (i, k) ∈ s.items ↔ (i, k) ∈ s.itemsOf i := by
    intro s; simp [FS.itemsOf]
  rw [e, e, this]

/-! ## Examples -/

/-- A hash. -/
def exHash : Nat → Nat := fun i => i * 7 % 1000003

theorem exHash_distinct (N : Nat) (hN : N ≤ 100000) : Distinct exHash N := by
  intro i j hi hj e
  simp only [exHash] at e
  omega

/-- A history with every kind of request: directories, a file, failures of the layers below, a
second name, a rename of a directory, one that is refused as it would make a loop, one that
replaces an empty directory, an unlink of a file that stays in use and is written, its release,
and a remount. -/
def exEvents : List Event :=
  [.req (.lookup 1 [97] .none), .req (.mkdir 1 [97] .none),         -- 2 = /a
   .req (.lookup 1 [98] .none), .req (.mkdir 1 [98] .none),         -- 3 = /b
   .req (.lookup 2 [120] .none), .req (.create 2 [120] .op),        -- fails
   .req (.lookup 2 [120] .none), .req (.create 2 [120] .attr),      -- happens, but fails
   .req (.lookup 2 [120] .none),                                    -- 5 = /a/x
   .req (.lookup 3 [121] .none), .req (.link 5 3 [121] .none),      -- 5 = /b/y
   .req (.write 5 7 .none),
   .req (.lookup 3 [99] .none), .req (.rename 1 [97] 3 [99] .none), -- 2 = /b/c
   .req (.lookup 2 [100] .none), .req (.rename 1 [98] 2 [100] .none), -- EINVAL
   .req (.lookup 1 [97] .none), .req (.mkdir 1 [97] .none),         -- 6 = /a
   .req (.rename 3 [99] 1 [97] .none),                              -- 2 = /a again, 6 gone
   .req (.unlink 2 [120] .none), .req (.unlink 3 [121] .none),
   .req (.write 5 8 .none), .req (.getattr 6 .none), .req (.rmdir 1 [97] .none),
   .req (.forget 5 1), .req (.rmdir 1 [98] .op), .remount true,
   .req (.lookup 1 [98] .none), .req (.lookup 1 [98] .attr), .req (.lookup 1 [98] .none),
   .req (.forget 3 2)]

/-- It keeps to the protocol. -/
theorem exEvents_follow : Sys.new.FollowsRun exHash exEvents :=
  followsRunB_ok (by decide +kernel)

/-- What the requests return. -/
example : (Sys.new.run exHash exEvents).map (·.1) = some
    [.err (.ofFs .ENOENT), .entry 2 true, .err (.ofFs .ENOENT), .entry 3 true, .err (.ofFs .ENOENT),
     .err .io, .err (.ofFs .ENOENT), .err .io, .entry 5 false, .err (.ofFs .ENOENT), .entry 5 false,
     .ok, .err (.ofFs .ENOENT), .ok, .err (.ofFs .ENOENT), .err (.ofFs .EINVAL),
     .err (.ofFs .ENOENT), .entry 6 true, .ok, .ok, .ok, .ok, .err (.ofFs .ENOENT), .ok, .ok,
     .err .io, .ok, .entry 3 true, .err .io, .entry 3 true, .ok] := by decide +kernel

example : ∃ rs x, Sys.new.run exHash exEvents = some (rs, x) :=
  C66_no_panic_partial exHash exEvents (exHash_distinct _ (by decide)) exEvents_follow

example := C66_table_partial exHash exEvents (exHash_distinct _ (by decide)) exEvents_follow
example := C66_tree_partial exHash exEvents (exHash_distinct _ (by decide)) exEvents_follow
example := C66_held_partial exHash exEvents (exHash_distinct _ (by decide)) exEvents_follow

/-- After 21 requests, the file has lost both names and is held. -/
example : (Sys.new.run exHash (exEvents.take 21)).map
    (fun y => (y.2.k.held.get 5, y.2.d.fs.inodes.get 5, y.2.d.fs.items)) =
    some (some (1, false), some ⟨false, 0⟩, [(5, 7)]) := by
  decide +kernel

/-- The refused rename is a request whose reply C66_replies_partial speaks of. -/
example := C66_replies_partial exHash (exEvents.take 15) (.rename 1 [98] 2 [100] .none)
  (exHash_distinct _ (by decide)) (followsRunB_ok (by decide +kernel))

/-- The unlink of the last name of a file in use is one C66_records_partial speaks of. -/
example := C66_records_partial exHash (exEvents.take 20) (.unlink 3 [121] .none)
  (exHash_distinct _ (by decide)) (followsRunB_ok (by decide +kernel))

/-! ## Findings: what the protocol leaves out -/

/-- The requests of a history, without checking the protocol. -/
def exRun (rs : List Req) : Option Sys := (Sys.new.run exHash (rs.map .req)).map (·.2)

/-- Finding: renaming a file over one that is in use destroys that file.  The daemon has it in its
table still, but says it does not exist, and panics when it is written (or read). -/
theorem C66_rename_over_open_file :
    ((exRun [.lookup 1 [97] .none, .create 1 [97] .none, .write 2 7 .none, .lookup 1 [98] .none,
      .create 1 [98] .none, .rename 1 [98] 1 [97] .none]).map
      fun x => (x.k.held.get 2, (x.d.serve exHash (.getattr 2 .none)).map (·.1),
        x.d.serve exHash (.write 2 8 .none))) =
    some (some (1, false), some (.err (.ofFs .ENOENT)), none) := by
  decide +kernel

/-- Finding: a rename into a directory below one that the kernel has forgotten panics
(`expect("Uncached parent directory")` in the loop check). -/
theorem C66_rename_forgotten_ancestor :
    ((exRun [.lookup 1 [97] .none, .mkdir 1 [97] .none, .lookup 2 [98] .none, .mkdir 2 [98] .none,
      .lookup 3 [99] .none, .mkdir 3 [99] .none, .lookup 1 [120] .none, .create 1 [120] .none,
      .lookup 4 [121] .none, .forget 2 1]).bind
      fun x => some (x.k.held, x.d.serve exHash (.rename 1 [120] 4 [121] .none))) =
    some ([(3, (1, true)), (4, (1, true)), (5, (1, false))], none) := by decide +kernel

/-- Finding: creating a file in a directory that has been removed but is still held panics. -/
theorem C66_create_in_removed :
    ((exRun [.lookup 1 [97] .none, .mkdir 1 [97] .none, .lookup 2 [98] .none, .rmdir 1 [97] .none]).bind
      fun x => some (x.k.held, x.d.serve exHash (.create 2 [98] .none))) =
    some ([(2, (1, true))], none) := by decide +kernel

/-- Finding: the loop check does not compare the directory with the destination itself.  A rename
of a directory into itself succeeds, and the directory is no longer below the root. -/
theorem C66_rename_into_itself :
    ((exRun [.lookup 1 [97] .none, .mkdir 1 [97] .none, .lookup 2 [98] .none]).bind
      fun x => (x.d.serve exHash (.rename 1 [97] 2 [98] .none)).map
        fun y => (y.1, y.2.fs.ents.filter fun e => e.ino = 2)) =
    some (.ok, [⟨2, dotdot, 2, true⟩, ⟨2, [98], 2, true⟩, ⟨2, dot, 2, true⟩]) := by decide +kernel

/-- Finding: when LINK's reply is counted as a lookup, as the FUSE protocol has it, the FORGET
that follows panics. -/
theorem C66_link_not_counted :
    ((exRun [.lookup 1 [97] .none, .create 1 [97] .none, .lookup 1 [98] .none, .link 2 1 [98] .none]).bind
      fun x => some (x.d.serve exHash (.forget 2 2))) = some none := by decide +kernel

/-- Finding: two lookups of the same name, each past its first await before either finishes,
panic when the name is not cached (the second one's `assert` in cache_file fails). -/
theorem C66_concurrent_lookups :
    ((exRun [.lookup 1 [97] .none, .create 1 [97] .attr]).bind fun x =>
      match lookupStart x.d 1 [97], lookupStart x.d 1 [97] with
      | some p1, some p2 =>
        (lookupEnd exHash x.d 1 [97] .none p1).map fun y =>
          (y.1, lookupEnd exHash y.2 1 [97] .none p2)
      | _, _ => none) = some (.entry 2 false, none) := by decide +kernel

/-- Finding: so do two lookups of a name that is cached, of an inode that was forgotten. -/
theorem C66_concurrent_lookups_forgotten :
    ((exRun [.lookup 1 [97] .none, .create 1 [97] .none, .forget 2 1]).bind fun x =>
      match lookupStart x.d 1 [97], lookupStart x.d 1 [97] with
      | some p1, some p2 =>
        (lookupEnd exHash x.d 1 [97] .none p1).map fun y =>
          (y.1, lookupEnd exHash y.2 1 [97] .none p2)
      | _, _ => none) = some (.entry 2 false, none) := by decide +kernel

/-- Finding: an NFS lookup of "." of a forgotten directory works once; after the directory has been
forgotten again it panics, since forget leaves the name "." in the cache. -/
theorem C66_nfs_dot :
    ((exRun [.lookup 1 [97] .none, .mkdir 1 [97] .none, .forget 2 1]).bind fun x =>
      (x.d.serve exHash (.lookup 2 dot .none)).bind fun y =>
        (y.2.serve exHash (.forget 2 1)).map fun z => (y.1, z.2.serve exHash (.lookup 2 dot .none))) =
    some (.entry 2 true, none) := by decide +kernel

/-- Finding: an NFS lookup of ".." in a directory whose parent is not in the table panics. -/
theorem C66_nfs_dotdot :
    ((exRun [.lookup 1 [97] .none, .mkdir 1 [97] .none, .lookup 2 [98] .none, .mkdir 2 [98] .none,
      .forget 2 1]).bind fun x => some (x.d.serve exHash (.lookup 3 dotdot .none))) = some none := by
  decide +kernel

/-- Finding: ".." is cached and stays when its directory is renamed, so that a later lookup finds
the old parent. -/
theorem C66_nfs_stale_dotdot :
    ((exRun [.lookup 1 [97] .none, .mkdir 1 [97] .none, .lookup 1 [98] .none, .mkdir 1 [98] .none,
      .lookup 2 [99] .none, .mkdir 2 [99] .none, .lookup 4 dotdot .none, .lookup 3 [100] .none,
      .rename 2 [99] 3 [100] .none]).bind fun x =>
      (x.d.serve exHash (.lookup 4 dotdot .none)).map fun y =>
        (y.1, (Namespace.lookup y.2.fs.ents 4 dotdot).map (·.ino))) =
    some (.entry 2 true, some 3) := by decide +kernel

end Verif.Fuse
