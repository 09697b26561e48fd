import Verif.Import.Others

/-!
# C72: importing a pool finds it again, from whatever disks are there

The vocabulary is in `Spec.lean`: `PoolT` describes a pool, `State` says which transaction group and
which data each of its disks' labels speak of, `found` are the disks that were tasted, in order, and
`usable` says which of them can still be read.  `ord` is an order of arrival of the results of
imports that run at the same time.
-/

namespace Verif.Import

open Verif

/-- **C72, partial.**  If every RAID device of the pool has a usable disk, then importing the pool,
by whatever order its disks were found in among whatever others and however the imports of the
devices interleave, gives the pool with its uuid and name, all its RAID devices, in order, with all
their mirrors, in order: each mirror with every disk that is there and is up to date in service,
those that are there but older to be rebuilt, and the others missing.  The state of the data is that
of a usable disk that is up to date in its mirror.

Missing from the full statement: that it is also up to date in its pool, which is false
(`C72_rolls_back`), and that a RAID device with too few members is refused, which is false too
(`C72_too_few_members`). -/
theorem C72_import_partial (P : PoolT) (S : State) (found : List Disk) (rd : Nat → Bool)
    (ord : Nat → List Nat) (hP : P.Ok) (hf : Found P S found) (ho : P.Arrivals ord)
    (hu : ∀ R ∈ P.raids, R.usable (usable rd found) = true) :
    ∃ R ∈ P.raids, ∃ M ∈ R.mirrors, ∃ u ∈ M.disks,
      usable rd found u = true ∧ S.txg u = newest S (usable rd found) M ∧
      (importPool rd ord (tasted found) P.uuid).1 =
        some (.ok ⟨P.uuid, P.name, P.raids.map (·.expected S (usable rd found)), S.rest u⟩) := by
  obtain ⟨R, hR, M, hM, u, h1, h2, h3, h4⟩ := (pool_result hP hf ho).1 hu
  exact ⟨R, hR, M, hM, u, h1, h3, h4, h2⟩

/-- **C72, partial.**  Where the labels of the disks that are up to date in their mirrors agree,
that is the state of the pool, so nothing about it depends on the order of anything. -/
theorem C72_import_agreeing_partial (P : PoolT) (S : State) (found : List Disk) (rd : Nat → Bool)
    (ord : Nat → List Nat) (hP : P.Ok) (hf : Found P S found) (ho : P.Arrivals ord)
    (hu : ∀ R ∈ P.raids, R.usable (usable rd found) = true) (r : Nat)
    (hr : ∀ R ∈ P.raids, ∀ M ∈ R.mirrors, ∀ u ∈ M.disks, usable rd found u = true →
      S.txg u = newest S (usable rd found) M → S.rest u = r) :
    (importPool rd ord (tasted found) P.uuid).1 =
      some (.ok ⟨P.uuid, P.name, P.raids.map (·.expected S (usable rd found)), r⟩) := by
  obtain ⟨R, hR, M, hM, u, h1, h2, h3, h4⟩ := C72_import_partial P S found rd ord hP hf ho hu
  rw [h4, hr R hR M hM u h1 h2 h3]

/-- **C72.**  If some RAID device of the pool has no usable disk, importing is refused with an
error. -/
theorem C72_refused (P : PoolT) (S : State) (found : List Disk) (rd : Nat → Bool)
    (ord : Nat → List Nat) (hP : P.Ok) (hf : Found P S found) (ho : P.Arrivals ord)
    (hu : ∃ R ∈ P.raids, R.usable (usable rd found) = false) :
    ∃ e, (importPool rd ord (tasted found) P.uuid).1 = some (.error e) :=
  (pool_result hP hf ho).2 hu

/-- **C72.**  Importing any other pools first, successfully or not, changes nothing, if the labels
of the other disks do not name devices of this one. -/
theorem C72_others_first (P : PoolT) (S : State) (found : List Disk) (rd : Nat → Bool)
    (ord : Nat → List Nat) (hP : P.Ok) (hf : ∀ d ∈ found, P.Has S d ∨ P.Apart d) (us : List Nat)
    (hu : P.uuid ∉ us) :
    (importPool rd ord (importAll (importPool rd ord) (tasted found) us).2 P.uuid).1 =
      (importPool rd ord (tasted found) P.uuid).1 :=
  others_first hP hf us hu

theorem tasted_sorted (found : List Disk) : ∀ (m : OMap PoolLabel), OMap.Sorted m →
    OMap.Sorted (found.foldl (fun m d => OMap.insert m d.pool.uuid d.pool) m) := by
  induction found with
  | nil => exact fun m h => h
  | cons d ds ih => exact fun m h => ih _ (h.insert _ _)

theorem tasted_keys (found : List Disk) : ∀ (m : OMap PoolLabel),
    (∀ k l, OMap.get m k = some l → l.uuid = k) →
    ∀ k l, OMap.get (found.foldl (fun m d => OMap.insert m d.pool.uuid d.pool) m) k = some l →
      l.uuid = k := by
  induction found with
  | nil => exact fun m h => h
  | cons d ds ih =>
    intro m h
    refine ih _ fun k l hg => ?_
    rw [OMap.get_insert] at hg
    split at hg
    · next he => cases hg; exact he.symm
    · exact h k l hg

theorem importable_iff (found : List Disk) (n : String) (u : Nat) :
    (n, u) ∈ (tasted found).importable ↔
      ∃ l, OMap.get (tasted found).pools u = some l ∧ l.name = n := by
  have hs : OMap.Sorted (tasted found).pools := by
    unfold tasted
    rw [(tasted_fields found Mgr.empty).2.2.2]
    exact tasted_sorted found _ (by simp [Mgr.empty, OMap.Sorted])
  have hk : ∀ k l, OMap.get (tasted found).pools k = some l → l.uuid = k := by
    unfold tasted
    rw [(tasted_fields found Mgr.empty).2.2.2]
    exact tasted_keys found _ fun k l h => by cases h
  unfold Mgr.importable
  rw [List.mem_map]
  constructor
  · rintro ⟨⟨k, l⟩, hm, he⟩
    obtain ⟨h1, h2⟩ := Prod.mk.inj he
    have hg := (OMap.mem_iff_get hs).mp hm
    have := hk k l hg
    refine ⟨l, ?_, h1⟩
    rw [← h2, this]
    exact hg
  · rintro ⟨l, hg, hn⟩
    exact ⟨(u, l), (OMap.mem_iff_get hs).mpr hg, by rw [hn, hk u l hg]⟩

/-- **C72.**  The pool is listed as importable if one of its disks was found, and then under its
name. -/
theorem C72_listed (P : PoolT) (S : State) (found : List Disk) (hf : Found P S found) (n : String) :
    (n, P.uuid) ∈ (tasted found).importable ↔ n = P.name ∧ ∃ d ∈ found, P.Has S d := by
  rw [importable_iff, tasted_pool hf]
  have : found.any (fun d => decide (d.pool.uuid = P.uuid)) = true ↔ ∃ d ∈ found, P.Has S d := by
    rw [List.any_eq_true]
    constructor
    · rintro ⟨d, hd, he⟩
      rcases hf d hd with h | h
      · exact ⟨d, hd, h⟩
      · exact absurd (by simpa using he) h.pool
    · rintro ⟨d, hd, R, hR, M, hM, hu, he⟩
      refine ⟨d, hd, ?_⟩
      rw [he]
      simp [PoolT.disk]
  rw [← this]
  split
  · next h =>
    constructor
    · rintro ⟨l, hl, hn⟩; cases hl; exact ⟨hn.symm, h⟩
    · rintro ⟨hn, _⟩; exact ⟨_, rfl, hn.symm⟩
  · next h =>
    constructor
    · rintro ⟨l, hl, _⟩; cases hl
    · exact fun hh => absurd hh.2 h

/-- **C72.**  If a disk of the pool was found and no other disk's label has the name of the pool,
importing by name is importing that pool. -/
theorem C72_by_name (P : PoolT) (S : State) (found : List Disk) (rd : Nat → Bool)
    (ord : Nat → List Nat) (hf : Found P S found) (hd : ∃ d ∈ found, P.Has S d)
    (hn : ∀ d ∈ found, d.pool.name = P.name → P.Has S d) :
    importByName rd ord (tasted found) P.name = importPool rd ord (tasted found) P.uuid := by
  have hin := (C72_listed P S found hf P.name).mpr ⟨rfl, hd⟩
  unfold importByName
  cases hfi : (tasted found).importable.find? fun p => decide (p.1 = P.name) with
  | none =>
    have := List.find?_eq_none.mp hfi _ hin
    simp at this
  | some p =>
    obtain ⟨n, u⟩ := p
    have h1 := List.mem_of_find?_eq_some hfi
    have h2 : n = P.name := by simpa using List.find?_some hfi
    obtain ⟨l, hl, hln⟩ := (importable_iff found n u).mp h1
    -- the label comes from a disk
    have hdisk : ∀ (found : List Disk) (m : OMap PoolLabel) (l : PoolLabel),
        OMap.get (found.foldl (fun m d => OMap.insert m d.pool.uuid d.pool) m) u = some l →
        OMap.get m u = some l ∨ ∃ d ∈ found, d.pool = l ∧ d.pool.uuid = u := by
      intro found
      induction found with
      | nil => exact fun m l h => .inl h
      | cons d ds ih =>
        intro m l h
        rcases ih _ l h with h | ⟨d', h, h'⟩
        · rw [OMap.get_insert] at h
          split at h
          · next he => cases h; exact .inr ⟨d, List.mem_cons_self .., rfl, he.symm⟩
          · exact .inl h
        · exact .inr ⟨d', List.mem_cons_of_mem _ h, h'⟩
    unfold tasted at hl
    rw [(tasted_fields found Mgr.empty).2.2.2] at hl
    rcases hdisk found _ l hl with h | ⟨d, h3, h4, h5⟩
    · cases h
    · obtain ⟨R, hR, M, hM, hu, he⟩ := hn d h3 (by rw [h4, hln, h2])
      have : u = P.uuid := by rw [← h5, he]; rfl
      subst this
      rfl

/-! ## Concrete cases -/

/-- A pool of a RAID device of three mirrors, one of them of two disks, and a single disk. -/
def exP : PoolT :=
  ⟨1, "tank", [⟨2, some (3, 1), 100, 10, [⟨10, [20, 30]⟩, ⟨11, [21]⟩, ⟨12, [22]⟩]⟩,
    ⟨3, none, 50, 10, [⟨13, [23]⟩]⟩]⟩

/-- All disks, of a pool whose disk 30 was away when transaction group 9 was written. -/
def exS : State := ⟨fun u => if u = 30 then 5 else 9, fun u => if u = 30 then 5 else 9⟩

def PoolT.disks (P : PoolT) (S : State) : List Disk :=
  P.raids.flatMap fun R => R.mirrors.flatMap fun M => M.disks.map fun u => P.disk S R M u

theorem has_disks {P : PoolT} {S : State} : ∀ d ∈ P.disks S, P.Has S d := by
  intro d hd
  obtain ⟨R, hR, hd⟩ := List.mem_flatMap.mp hd
  obtain ⟨M, hM, hd⟩ := List.mem_flatMap.mp hd
  obtain ⟨u, hu, rfl⟩ := List.mem_map.mp hd
  exact ⟨R, hR, M, hM, hu, rfl⟩

/-- A disk of another pool. -/
def exOther : Disk := ⟨90, 7, 7, 3, 91, [90], .null 92 91, ⟨93, "other", [92]⟩, 4⟩

theorem exP_ok : exP.Ok where
  raids := by decide
  raids_ne := by decide
  mirrors := by decide
  mirrors_ne := by decide
  mirror_inj := by decide
  disks := by decide
  disks_ne := by decide
  disk_inj := by
    intro R hR M hM R' hR' M' hM' u hu hu'
    simp only [exP, List.mem_cons, List.not_mem_nil, or_false] at hR hR'
    rcases hR with rfl | rfl <;> rcases hR' with rfl | rfl <;>
      simp only [List.mem_cons, List.not_mem_nil, or_false] at hM hM'
    · rcases hM with rfl | rfl | rfl <;> rcases hM' with rfl | rfl | rfl <;>
        simp at hu hu' <;> first | omega | exact ⟨rfl, rfl⟩
    · subst hM'; rcases hM with rfl | rfl | rfl <;> simp at hu hu' <;> omega
    · subst hM; rcases hM' with rfl | rfl | rfl <;> simp at hu hu' <;> omega
    · subst hM; subst hM'; exact ⟨rfl, rfl⟩
  single := by decide
  wide := by
    intro R hR k f h
    simp only [exP, List.mem_cons, List.not_mem_nil, or_false] at hR
    rcases hR with rfl | rfl <;> simp at h
    obtain ⟨rfl, rfl⟩ := h
    decide

theorem exP_apart : exP.Apart exOther where
  foreign := ⟨by decide, by decide, by decide, by decide⟩
  siblings := by decide
  mirrors := by decide
  raids := by decide

def exOrd (u : Nat) : List Nat := if u = 1 ∨ u = 10 then [1, 0] else if u = 2 then [2, 0, 1] else [0]

theorem exP_arrivals : exP.Arrivals exOrd := ⟨by decide, by decide, by decide⟩

/-- The hypotheses of the theorems hold of this pool with disk 21 gone and disk 22 unreadable, and
with another pool's disk. -/
example :
    let found := exOther :: ((exP.disks exS).filter fun d => decide (d.uuid ≠ 21)).reverse
    let rd := fun u => decide (u ≠ 22)
    exP.Ok ∧ Found exP exS found ∧ (∀ d ∈ found, exP.Has exS d ∨ exP.Apart d) ∧
    exP.Arrivals exOrd ∧ (∀ R ∈ exP.raids, R.usable (usable rd found) = true) ∧
    (∀ R ∈ exP.raids, ∀ M ∈ R.mirrors, ∀ u ∈ M.disks, usable rd found u = true →
      exS.txg u = newest exS (usable rd found) M → exS.rest u = 9) ∧
    (∀ d ∈ found, d.pool.name = exP.name → exP.Has exS d) ∧
    (importPool rd exOrd (tasted found) 1).1 = some (.ok ⟨1, "tank",
      [⟨2, some (3, 1), [(10, some ⟨10, [⟨20, .present, 100, 10⟩, ⟨30, .rebuilding, 100, 10⟩]⟩),
        (11, none), (12, none)]⟩,
       ⟨3, none, [(13, some ⟨13, [⟨23, .present, 50, 10⟩]⟩)]⟩], 9⟩) := by
  have h : ∀ d ∈ exOther :: ((exP.disks exS).filter fun d => decide (d.uuid ≠ 21)).reverse,
      d = exOther ∨ exP.Has exS d := by
    intro d hd
    rcases List.mem_cons.mp hd with rfl | hd
    · exact .inl rfl
    · exact .inr (has_disks d (List.mem_filter.mp (List.mem_reverse.mp hd)).1)
  refine ⟨exP_ok, fun d hd => ?_, fun d hd => ?_, exP_arrivals, by decide, by decide,
    fun d hd hn => ?_, rfl⟩
  · rcases h d hd with rfl | h
    · exact .inr exP_apart.foreign
    · exact .inl h
  · rcases h d hd with rfl | h
    · exact .inr exP_apart
    · exact .inl h
  · rcases h d hd with rfl | h
    · simp [exOther, exP] at hn
    · exact h

/-- The single disk is needed. -/
example : (∃ R ∈ exP.raids,
      R.usable (usable (fun _ => true) ((exP.disks exS).take 4)) = false) ∧
    (importPool (fun _ => true) exOrd (tasted ((exP.disks exS).take 4)) 1).1 =
      some (.error .enoent) := ⟨by decide, rfl⟩

/-! ## Where the code does otherwise -/

/-- A pool of one RAID device of three disks, any two of which will do. -/
def exQ : PoolT := ⟨1, "tank", [⟨2, some (3, 1), 100, 10, [⟨10, [20]⟩, ⟨11, [21]⟩, ⟨12, [22]⟩]⟩]⟩

theorem exQ_ok : exQ.Ok where
  raids := by decide
  raids_ne := by decide
  mirrors := by decide
  mirrors_ne := by decide
  mirror_inj := by decide
  disks := by decide
  disks_ne := by decide
  disk_inj := by
    intro R hR M hM R' hR' M' hM' u hu hu'
    simp only [exQ, List.mem_cons, List.not_mem_nil, or_false] at hR hR'
    subst hR; subst hR'
    simp only [List.mem_cons, List.not_mem_nil, or_false] at hM hM'
    rcases hM with rfl | rfl | rfl <;> rcases hM' with rfl | rfl | rfl <;>
      simp at hu hu' <;> first | omega | exact ⟨rfl, rfl⟩
  single := by decide
  wide := by
    intro R hR k f h
    simp only [exQ, List.mem_cons, List.not_mem_nil, or_false] at hR
    subst hR
    simp at h
    obtain ⟨rfl, rfl⟩ := h
    decide

/-- Disk 22 was away when transaction groups 6 to 9 were written. -/
def exT : State := ⟨fun u => if u = 22 then 5 else 9, fun u => if u = 22 then 5 else 9⟩

/-- The label of the mirror that is imported first is used, even if it is old: all disks are there,
two of them are at transaction group 9, and the pool is imported as of transaction group 5, with the
old disk in service.  In another order it is imported as of transaction group 9. -/
theorem C72_rolls_back :
    exQ.Ok ∧ Found exQ exT (exQ.disks exT) ∧
    (∃ ord, exQ.Arrivals ord ∧
      (importPool (fun _ => true) ord (tasted (exQ.disks exT)) 1).1 =
        some (.ok ⟨1, "tank", exQ.raids.map (·.expected exT fun _ => true), 5⟩)) ∧
    (∃ ord, exQ.Arrivals ord ∧
      (importPool (fun _ => true) ord (tasted (exQ.disks exT)) 1).1 =
        some (.ok ⟨1, "tank", exQ.raids.map (·.expected exT fun _ => true), 9⟩)) :=
  ⟨exQ_ok, fun d hd => .inl (has_disks d hd),
    ⟨fun u => if u = 2 then [2, 0, 1] else [0], ⟨by decide, by decide, by decide⟩, rfl⟩,
    ⟨fun u => if u = 2 then [0, 1, 2] else [0], ⟨by decide, by decide, by decide⟩, rfl⟩⟩

/-- A RAID device of which any two of the three members are needed is imported with one. -/
theorem C72_too_few_members :
    Found exQ exS ((exQ.disks exS).take 1) ∧
    (importPool (fun _ => true) exOrd (tasted ((exQ.disks exS).take 1)) 1).1 =
      some (.ok ⟨1, "tank", [⟨2, some (3, 1),
        [(10, some ⟨10, [⟨20, .present, 100, 10⟩]⟩), (11, none), (12, none)]⟩], 9⟩) :=
  ⟨fun d hd => .inl (has_disks d (List.mem_of_mem_take hd)), rfl⟩

/-- An import that failed for want of a disk cannot be repeated when the disk was found: what was
known of the others is gone. -/
theorem C72_no_second_try :
    let m := (importPool (fun _ => true) exOrd (tasted ((exP.disks exS).take 4)) 1).2
    (∃ ps, (importPool (fun _ => true) exOrd (tasted (exP.disks exS)) 1).1 = some (.ok ps)) ∧
    (importPool (fun _ => true) exOrd (((exP.disks exS).drop 4).foldl Mgr.taste m) 1).1 =
      some (.error .enoent) :=
  ⟨⟨_, rfl⟩, rfl⟩

/-- Disks 2 and 3 are what is left of a mirror of three.  Disk 3 has been away since before disk 2
was attached.  If it is tasted last, the pool is imported from it alone, as of transaction group 5,
and disk 2, which is up to date, is not looked at. -/
theorem C72_old_label_hides_disk :
    let l : RaidLabel := .null 11 10
    let p : PoolLabel := ⟨12, "tank", [11]⟩
    let d2 : Disk := ⟨2, 100, 10, 9, 10, [1, 3, 2], l, p, 9⟩
    let d3 : Disk := ⟨3, 100, 10, 5, 10, [1, 3], l, p, 5⟩
    let ord := fun u => if u = 10 then [0, 1, 2] else [0]
    (importPool (fun _ => true) ord (tasted [d2, d3]) 12).1 = some (.ok ⟨12, "tank",
      [⟨11, none, [(10, some ⟨10, [⟨1, .missing, 0, 0⟩, ⟨3, .present, 100, 10⟩]⟩)]⟩], 5⟩) ∧
    (importPool (fun _ => true) ord (tasted [d3, d2]) 12).1 = some (.ok ⟨12, "tank",
      [⟨11, none, [(10, some ⟨10, [⟨1, .missing, 0, 0⟩, ⟨3, .rebuilding, 100, 10⟩,
        ⟨2, .present, 100, 10⟩]⟩)]⟩], 9⟩) := ⟨rfl, rfl⟩

end Verif.Import
