import Verif.Namespace.History

/-!
# C50, C51, C52: names, link counts, files in use, inode numbers

`h` is the 56-bit hash that keys the records of dying inodes.
-/

namespace Verif.Namespace

open Verif

/-! ## C50 -/

/-- C50, except for the root directory's link count, which is one plus its number of
subdirectories (`C50_root_link_count`): after every history of valid requests, remounts included,
nothing has panicked and the file system is consistent. -/
theorem C50_consistent_partial (h : Nat → Nat) (ops : List Op) (hv : ValidRun h Client.new ops) :
    ∃ rs c, Client.new.run h ops = some (rs, c) ∧ Consistent c.fs := by
  obtain ⟨rs, c, h1, I, _⟩ := run_ok new_inv hv
  exact ⟨rs, c, h1, consistent_of_inv I⟩

/-- C50: what each valid request does to the names, at any point of any history: exactly what
`Effect` says, and nothing else changes. -/
theorem C50_effect (h : Nat → Nat) (ops : List Op) (op : Op) (hv : ValidRun h Client.new ops)
    {rs : List Ret} {c : Client} (hr : Client.new.run h ops = some (rs, c)) (ho : Valid h c op) :
    ∃ r c', c.step h op = some (r, c') ∧ Effect c.fs c'.fs op r := by
  obtain ⟨rs', c1, h1, I, _⟩ := run_ok new_inv hv
  rw [hr] at h1; injection h1 with h1; injection h1 with _ h1; subst h1
  obtain ⟨r, c', h2, S⟩ := step_ok I ho
  exact ⟨r, c', h2, S.effect⟩

/-- Finding: a new file system's root directory has no subdirectory and link count one, not
two. -/
theorem C50_root_link_count :
    Client.new.fs.subdirs 1 = 0 ∧ Client.new.fs.inodes.get 1 = some ⟨true, 1⟩ := by decide

/-- An unequal hash for the examples. -/
def exHash : Nat → Nat := fun i => i % 1000

/-- A history with every kind of request: two directories, a file with two names, a rename of a
directory to another parent over an empty one, an unlink of a file in use, its release, and a
remount. -/
def exOps : List Op :=
  [.mkdir 1 [97],                                   -- 2 = /a
   .mkdir 1 [98],                                   -- 3 = /b
   .create 2 [120],                                 -- 4 = /a/x
   .store 4 7,
   .link 3 4 [121],                                 -- /b/y = 4
   .mkdir 2 [99],                                   -- 5 = /a/c
   .mkdir 3 [100],                                  -- 6 = /b/d
   .rename 2 5 [99] 3 (some 6) [100],               -- /a/c -> /b/d
   .rmdir 1 [98],                                   -- not empty
   .use 4,
   .unlink 2 (some 4) [120],
   .unlink 3 (some 4) [121],
   .failedCreate,
   .inactive 4,
   .rmdir 1 [97],
   .create 1 [122],
   .remount false]

/-- Where the example history leads. -/
def exEnd : Client :=
  ⟨{ inodes := [(1, ⟨true, 2⟩), (3, ⟨true, 3⟩), (5, ⟨true, 2⟩), (8, ⟨false, 1⟩)]
     ents := [⟨1, [122], 8, false⟩, ⟨5, dotdot, 3, true⟩, ⟨3, [100], 5, true⟩, ⟨5, dot, 5, true⟩,
       ⟨1, [98], 3, true⟩, ⟨3, dotdot, 1, true⟩, ⟨3, dot, 3, true⟩, ⟨1, dot, 1, true⟩,
       ⟨1, dotdot, 1, true⟩]
     items := []
     dying := []
     next := 9 }, []⟩

example : (Client.new.run exHash exOps).map (·.2) = some exEnd := by decide +kernel

/-! ## C51 -/

/-- C51, provided that no rename replaces a name of a file in use (`C51_rename_destroys`): after
every history of valid requests every file in use still exists, and every file that has lost its
last name is in use. -/
theorem C51_in_use_partial (h : Nat → Nat) (ops : List Op) (hv : ValidRun h Client.new ops)
    (hn : NoReplaceInUse h Client.new ops) :
    ∃ rs c, Client.new.run h ops = some (rs, c) ∧ (∀ i ∈ c.inUse, c.fs.File i) ∧
      ∀ i, c.fs.File i → (∀ d n b, ¬ c.fs.Named d n i b) → i ∈ c.inUse := by
  obtain ⟨rs, c, h1, I, U⟩ := run_ok new_inv hv
  have U := U new_used hn
  exact ⟨rs, c, h1, U.live, fun i h2 h3 => U.dead i ((nameless_iff I).2 ⟨h2, h3⟩)⟩

/-- C51: and its records stay as they are, whatever is requested except writing to it, letting go
of it, remounting, or the rename excluded above. -/
theorem C51_records_partial (h : Nat → Nat) (ops : List Op) (op : Op)
    (hv : ValidRun h Client.new ops) (hn : NoReplaceInUse h Client.new ops)
    {rs : List Ret} {c : Client} (hr : Client.new.run h ops = some (rs, c)) (ho : Valid h c op)
    (hno : ¬ ReplacesInUse c op) (i : Nat) (hi : i ∈ c.inUse) (ht : ¬ Touches i op) :
    ∃ r c', c.step h op = some (r, c') ∧ c'.fs.File i ∧
      ∀ k, (i, k) ∈ c'.fs.items ↔ (i, k) ∈ c.fs.items := by
  obtain ⟨rs', c1, h1, I, U⟩ := run_ok new_inv hv
  rw [hr] at h1; injection h1 with h1; injection h1 with _ h1; subst h1
  have U := U new_used hn
  obtain ⟨r, c', h2, S⟩ := step_ok I ho
  refine ⟨r, c', h2, ?_, ?_⟩
  · refine (S.used U hno).live i ?_
    revert h2
    cases op with
    | inactive j =>
      intro h2
      simp only [Client.step, Option.map_eq_some_iff] at h2
      obtain ⟨x, _, h3⟩ := h2
      injection h3 with _ h3; rw [← h3]
      exact List.mem_filter.2 ⟨hi, by simpa using fun h4 => ht h4.symm⟩
    | remount e => exact absurd trivial ht
    | use j => intro h2; injection h2 with h2; injection h2 with _ h2; rw [← h2]; simp [hi]
    | failedCreate => intro h2; injection h2 with h2; injection h2 with _ h2; rw [← h2]; exact hi
    | _ =>
      intro h2
      simp only [Client.step, Client.withFs, Option.map_eq_some_iff] at h2
      obtain ⟨x, _, h3⟩ := h2
      injection h3 with _ h3; rw [← h3]; exact hi
  · intro k
    have h3 := S.items U hno i hi ht
    have h4 : (i, k) ∈ c'.fs.itemsOf i ↔ (i, k) ∈ c.fs.itemsOf i := by rw [h3]
    simpa [FS.itemsOf] using h4

/-- C51: when the last user of a nameless file is done, its inode and all its records go, and no
other file is touched. -/
theorem C51_release (h : Nat → Nat) (ops : List Op) (hv : ValidRun h Client.new ops)
    {rs : List Ret} {c : Client} (hr : Client.new.run h ops = some (rs, c)) (i : Nat)
    (hf : c.fs.File i) (hd : ∀ d n b, ¬ c.fs.Named d n i b) (ho : Valid h c (.inactive i)) :
    ∃ r c', c.step h (.inactive i) = some (r, c') ∧ c'.fs.inodes.get i = none ∧
      (∀ k, (i, k) ∉ c'.fs.items) ∧
      ∀ j, j ≠ i → c'.fs.inodes.get j = c.fs.inodes.get j ∧
        ∀ k, (j, k) ∈ c'.fs.items ↔ (j, k) ∈ c.fs.items := by
  obtain ⟨rs', c1, h1, I, _⟩ := run_ok new_inv hv
  rw [hr] at h1; injection h1 with h1; injection h1 with _ h1; subst h1
  obtain ⟨t, g1, g2, g3, g4, g5, g6, g7⟩ := inactive_ok I ho
  obtain ⟨g8, g9⟩ := g5 ((nameless_iff I).2 ⟨hf, hd⟩)
  refine ⟨.ok 0, ⟨t, c.inUse.filter (· ≠ i)⟩, by simp only [Client.step, g1, Option.map_some], g8,
    ?_, ?_⟩
  · intro k hk
    have : (i, k) ∈ t.itemsOf i := by simpa [FS.itemsOf] using hk
    rw [g9] at this; cases this
  · intro j hj
    refine ⟨(g7 j hj).1, fun k => ?_⟩
    have h4 : (j, k) ∈ t.itemsOf j ↔ (j, k) ∈ c.fs.itemsOf j := by rw [(g7 j hj).2]
    simpa [FS.itemsOf] using h4

/-- C51: after a remount, whether or not the unmount was clean, no file is without a name and no
record is without a file; every file that had a name is still there with its records. -/
theorem C51_remount (h : Nat → Nat) (ops : List Op) (hv : ValidRun h Client.new ops)
    {rs : List Ret} {c : Client} (hr : Client.new.run h ops = some (rs, c)) (early : Bool) :
    ∃ r c', c.step h (.remount early) = some (r, c') ∧
      (∀ i, c'.fs.File i → ∃ d n b, c'.fs.Named d n i b) ∧
      (∀ i k, (i, k) ∈ c'.fs.items → c'.fs.File i) ∧
      ∀ d n i b, c.fs.Named d n i b → c'.fs.Named d n i b ∧
        c'.fs.inodes.get i = c.fs.inodes.get i ∧
        ∀ k, (i, k) ∈ c'.fs.items ↔ (i, k) ∈ c.fs.items := by
  obtain ⟨rs', c1, h1, I, _⟩ := run_ok new_inv hv
  rw [hr] at h1; injection h1 with h1; injection h1 with _ h1; subst h1
  obtain ⟨g1, g2, g3, g4⟩ := mount_ok I early
  refine ⟨.ok 0, ⟨mount c.fs early, []⟩, rfl, ?_, ?_, ?_⟩
  · rintro i ⟨n, h2⟩
    have h3 := ((g3 i _).1 h2).2
    refine Classical.not_not.1 fun h4 => ?_
    have h5 := (nameless_iff g1 (i := i)).2 ⟨⟨n, h2⟩, fun d m b h6 => h4 ⟨d, m, b, h6⟩⟩
    exact absurd rfl ((g3 i _).1 h5).2
  · intro i k hk; exact g1.items _ hk
  · intro d n i b h2
    have h3 : c.fs.inodes.get i ≠ some ⟨false, 0⟩ := fun h3 =>
      ((nameless_iff I).1 h3).2 d n b h2
    refine ⟨?_, ?_, ?_⟩
    · show (⟨d, n, i, b⟩ : Ent) ∈ (mount c.fs early).ents
      rw [g2]; exact h2
    · show (mount c.fs early).inodes.get i = _
      cases hx : c.fs.inodes.get i with
      | some x =>
        refine (g3 i x).2 ⟨hx, ?_⟩
        rintro rfl; exact h3 hx
      | none =>
        cases hy : (mount c.fs early).inodes.get i with
        | none => rfl
        | some y =>
          have := ((g3 i y).1 hy).1
          rw [hx] at this; cases this
    · intro k
      have h4 := g4 i
      rw [if_neg h3] at h4
      have h5 : (i, k) ∈ (mount c.fs early).itemsOf i ↔ (i, k) ∈ c.fs.itemsOf i := by rw [h4]
      simpa [FS.itemsOf] using h5

/-- A file in use without a name is reachable: the example history just before `inactive 4`. -/
example : (Client.new.run exHash (exOps.take 13)).map
    (fun x => (x.2.inUse, x.2.fs.inodes.get 4, x.2.fs.items, x.2.fs.dying)) =
    some ([4], some ⟨false, 0⟩, [(4, 7)], [(4, 4)]) := by decide +kernel

/-- Finding: renaming another file over a file in use destroys it at once, although its user is
not done. -/
theorem C51_rename_destroys :
    (Client.new.run exHash [.create 1 [97], .create 1 [98], .store 2 7, .use 2,
      .rename 1 3 [98] 1 (some 2) [97]]).map
      (fun x => (x.2.inUse, x.2.fs.inodes.get 2, x.2.fs.items)) = some ([2], none, []) := by
  decide +kernel

/-- The rename of the finding is a valid request. -/
example : ∀ c, (Client.new.run exHash [.create 1 [97], .create 1 [98], .store 2 7, .use 2]) =
    some ([.ok 2, .ok 3, .ok 0, .ok 0], c) →
    Valid exHash c (.rename 1 3 [98] 1 (some 2) [97]) := by
  intro c hc
  have e : Client.new.run exHash [.create 1 [97], .create 1 [98], .store 2 7, .use 2] =
    some ([.ok 2, .ok 3, .ok 0, .ok 0],
      ⟨{ inodes := [(1, ⟨true, 1⟩), (2, ⟨false, 1⟩), (3, ⟨false, 1⟩)]
         ents := [⟨1, [98], 3, false⟩, ⟨1, [97], 2, false⟩, ⟨1, dot, 1, true⟩, ⟨1, dotdot, 1, true⟩]
         items := [(2, 7)], dying := [], next := 4 }, [2]⟩) := by decide +kernel
  rw [e] at hc; injection hc with hc; injection hc with _ hc; subst hc
  refine ⟨⟨false, by simp [FS.Named], ?_⟩, ⟨1, by decide⟩, by decide, ?_⟩
  · intro j b' h1
    simp [FS.Named, dot, dotdot] at h1
    exact h1.2
  · intro j
    simp [FS.Named, dot, dotdot]
    exact eq_comm

/-- Finding: a link to a file in use that has lost its last name does not save it: when its user
is done the file is destroyed and the new name is left dangling. -/
theorem C51_link_of_dying :
    (Client.new.run exHash [.create 1 [97], .use 2, .unlink 1 (some 2) [97], .link 1 2 [98],
      .inactive 2]).map
      (fun x => (lookup x.2.fs.ents 1 [98], x.2.fs.inodes.get 2)) =
    some (some ⟨1, [98], 2, false⟩, none) := by
  decide +kernel

/-- Finding: two files in use whose inode numbers hash alike cannot both be unlinked: the second
unlink panics. -/
theorem C51_hash_collision :
    (Client.new.run (fun _ => 0) [.create 1 [97], .create 1 [98], .use 2, .use 3,
      .unlink 1 (some 2) [97]]).isSome = true ∧
    Client.new.run (fun _ => 0) [.create 1 [97], .create 1 [98], .use 2, .use 3,
      .unlink 1 (some 2) [97], .unlink 1 (some 3) [98]] = none := by
  decide +kernel

/-! ## C52 -/

/-- The inode numbers handed out in a history. -/
def created : List Op → List Ret → List Nat
  | .create _ _ :: ops, .ok i :: rs => i :: created ops rs
  | .mkdir _ _ :: ops, .ok i :: rs => i :: created ops rs
  | _ :: ops, _ :: rs => created ops rs
  | _, _ => []

/-- The counter only moves up, past every number it hands out. -/
theorem step_created (h : Nat → Nat) {c : Client} {op : Op} {r : Ret} {c' : Client}
    (I : Inv h c.fs) (hv : Valid h c op) (hs : c.step h op = some (r, c')) :
    (∀ b, op ≠ .remount b) → c.fs.next ≤ c'.fs.next ∧
      ∀ i, r = .ok i → ((∃ p n, op = .create p n) ∨ ∃ p n, op = .mkdir p n) →
        i = c.fs.next ∧ i < c'.fs.next := by
  intro hm
  obtain ⟨r', c1, h1, S⟩ := step_ok I hv
  rw [hs] at h1; injection h1 with h1; injection h1 with h0 h1; subst h1; subst h0
  refine ⟨S.next hm, ?_⟩
  rintro i rfl (⟨p, n, rfl⟩ | ⟨p, n, rfl⟩)
  · obtain ⟨t, g1, g2, g3, g4, g5⟩ := create_ok I hv.1 hv.2
    simp only [Client.step, Client.withFs, g1, Option.map_some] at hs
    injection hs with hs; injection hs with hs1 hs2
    injection hs1 with hs1
    rw [← hs2, ← hs1]
    exact ⟨rfl, by show c.fs.next < t.next; omega⟩
  · obtain ⟨t, g1, g2, g3, g4, g5⟩ := mkdir_ok I hv.1 hv.2
    simp only [Client.step, Client.withFs, g1, Option.map_some] at hs
    injection hs with hs; injection hs with hs1 hs2
    injection hs1 with hs1
    rw [← hs2, ← hs1]
    exact ⟨rfl, by show c.fs.next < t.next; omega⟩

theorem run_created (h : Nat → Nat) {c : Client} {ops : List Op} {rs : List Ret} {c' : Client}
    (I : Inv h c.fs) (hv : ValidRun h c ops) (hm : ∀ op ∈ ops, ∀ b, op ≠ .remount b)
    (hr : c.run h ops = some (rs, c')) :
    (∀ i ∈ created ops rs, c.fs.next ≤ i) ∧ (created ops rs).Pairwise (· < ·) := by
  induction ops generalizing c rs c' with
  | nil =>
    simp only [Client.run] at hr
    injection hr with hr; injection hr with hr _; subst hr
    simp [created]
  | cons op ops ih =>
    obtain ⟨v1, v2⟩ := hv
    obtain ⟨r, c1, h1, S⟩ := step_ok I v1
    simp only [Client.run, h1] at hr
    cases h2 : c1.run h ops with
    | none => simp [h2] at hr
    | some x =>
      obtain ⟨rs1, c2⟩ := x
      simp only [h2] at hr
      injection hr with hr; injection hr with hr _; subst hr
      obtain ⟨g1, g2⟩ := ih S.inv (v2 r c1 h1) (fun o ho => hm o (List.mem_cons_of_mem _ ho)) h2
      obtain ⟨g3, g4⟩ := step_created h I v1 h1 (hm op (List.mem_cons_self ..))
      have weak : ∀ i ∈ created ops rs1, c.fs.next ≤ i := fun i hi => Nat.le_trans g3 (g1 i hi)
      have strong : ∀ i, r = .ok i → ((∃ p n, op = .create p n) ∨ ∃ p n, op = .mkdir p n) →
          (∀ j ∈ i :: created ops rs1, c.fs.next ≤ j) ∧ (i :: created ops rs1).Pairwise (· < ·) := by
        intro i hi ho
        obtain ⟨a1, a2⟩ := g4 i hi ho
        refine ⟨?_, List.pairwise_cons.2 ⟨fun j hj => Nat.lt_of_lt_of_le a2 (g1 j hj), g2⟩⟩
        intro j hj
        rcases List.mem_cons.1 hj with rfl | hj
        · omega
        · exact weak j hj
      cases op with
      | create p n =>
        cases r with
        | ok i => exact strong i rfl (Or.inl ⟨p, n, rfl⟩)
        | error e => exact ⟨weak, g2⟩
      | mkdir p n =>
        cases r with
        | ok i => exact strong i rfl (Or.inr ⟨p, n, rfl⟩)
        | error e => exact ⟨weak, g2⟩
      | _ => cases r <;> exact ⟨weak, g2⟩

/-- C52 within one mount: starting from any reachable state, as long as the file system is not
remounted, the inode numbers handed out strictly increase and are larger than that of every file
that exists at the start.  What is missing is uniqueness across remounts, which does not hold
(`C52_reuse`). -/
theorem C52_one_mount_partial (h : Nat → Nat) (before ops : List Op)
    (hb : ValidRun h Client.new before) {rs0 : List Ret} {c : Client}
    (hc : Client.new.run h before = some (rs0, c)) (hv : ValidRun h c ops)
    (hm : ∀ op ∈ ops, ∀ b, op ≠ .remount b) {rs : List Ret} {c' : Client}
    (hr : c.run h ops = some (rs, c')) :
    (created ops rs).Pairwise (· < ·) ∧
      ∀ i ∈ created ops rs, ∀ j x, c.fs.inodes.get j = some x → j < i := by
  obtain ⟨rs', c1, h1, I, _⟩ := run_ok new_inv hb
  rw [hc] at h1; injection h1 with h1; injection h1 with _ h1; subst h1
  obtain ⟨g1, g2⟩ := run_created h I hv hm hr
  exact ⟨g2, fun i hi j x hj => Nat.lt_of_lt_of_le (I.next j x hj) (g1 i hi)⟩

/-- C52 across remounts: a number handed out is larger than that of every file existing at that
time, so at no time do two files share a number. -/
theorem C52_never_shared (h : Nat → Nat) (ops : List Op) (hb : ValidRun h Client.new ops)
    {rs : List Ret} {c : Client} (hc : Client.new.run h ops = some (rs, c)) {p : Nat} {n : Name}
    {dir : Bool} (hv : Valid h c (if dir then .mkdir p n else .create p n)) {i : Nat} {c' : Client}
    (hs : c.step h (if dir then .mkdir p n else .create p n) = some (.ok i, c')) :
    ∀ j x, c.fs.inodes.get j = some x → j < i := by
  obtain ⟨rs', c1, h1, I, _⟩ := run_ok new_inv hb
  rw [hc] at h1; injection h1 with h1; injection h1 with _ h1; subst h1
  obtain ⟨_, g2⟩ := step_created h I hv hs (by cases dir <;> simp)
  obtain ⟨g3, _⟩ := g2 i rfl (by cases dir <;> simp)
  intro j x hj
  rw [g3]; exact I.next j x hj

example : (Client.new.run exHash exOps).map (fun x => created exOps x.1) = some [2, 3, 4, 5, 6, 8]
    := by decide +kernel

/-- Finding: after the newest file is deleted and the file system is remounted, its inode number
is handed out again. -/
theorem C52_reuse (early : Bool) :
    (Client.new.run exHash [.create 1 [97], .unlink 1 none [97], .remount early,
      .create 1 [98]]).map (fun x => created [.create 1 [97], .unlink 1 none [97], .remount early,
      .create 1 [98]] x.1) = some [2, 2] := by
  cases early <;> decide +kernel

/-- `ValidRun` is met by a history with a nameless file in use. -/
example : ValidRun exHash Client.new [.create 1 [97], .use 2, .unlink 1 (some 2) [97],
    .inactive 2] := by
  have e1 : Client.new.step exHash (.create 1 [97]) = some (.ok 2,
      ⟨{ inodes := [(1, ⟨true, 1⟩), (2, ⟨false, 1⟩)]
         ents := [⟨1, [97], 2, false⟩, ⟨1, dot, 1, true⟩, ⟨1, dotdot, 1, true⟩]
         items := [], dying := [], next := 3 }, []⟩) := by decide +kernel
  refine ⟨⟨⟨1, by decide⟩, ?_⟩, ?_⟩
  · rintro ⟨i, b, h1⟩; simp [FS.Named, Client.new, createFs, dot, dotdot] at h1
  intro r c hc
  rw [e1] at hc; injection hc with hc; injection hc with _ hc; subst hc
  refine ⟨⟨0, by decide⟩, ?_⟩
  intro r c hc
  injection hc with hc; injection hc with _ hc; subst hc
  refine ⟨?_, ?_⟩
  · intro i b h1
    simp [FS.Named, dot, dotdot] at h1
    obtain ⟨rfl, rfl⟩ := h1
    refine ⟨rfl, fun _ => rfl, fun h2 => ?_, fun _ _ => rfl⟩
    simp at h2
  intro r c hc
  refine ⟨?_, fun _ _ _ => trivial⟩
  have e2 : (Client.step exHash
      ⟨{ inodes := [(1, ⟨true, 1⟩), (2, ⟨false, 1⟩)]
         ents := [⟨1, [97], 2, false⟩, ⟨1, dot, 1, true⟩, ⟨1, dotdot, 1, true⟩]
         items := [], dying := [], next := 3 }, [2]⟩ (.unlink 1 (some 2) [97])) = some (.ok 0,
      ⟨{ inodes := [(1, ⟨true, 1⟩), (2, ⟨false, 0⟩)]
         ents := [⟨1, dot, 1, true⟩, ⟨1, dotdot, 1, true⟩]
         items := [], dying := [(2, 2)], next := 3 }, [2]⟩) := by decide +kernel
  rw [e2] at hc; injection hc with hc; injection hc with _ hc; subst hc
  intro j hj
  have : (some 2 : Option Nat) = some j := hj
  injection this with this; exact this.symm

end Verif.Namespace
