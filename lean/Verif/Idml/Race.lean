import Verif.Idml.Props

/-!
# Overlapping operations on the indirect layer

`Database::clean` and the filesystem operations hold the transaction lock for reading only, so a get,
a delete and a zone cleaning may be in progress together.  The steps below are the pieces of one
operation between which another may run.
-/

namespace Verif.Idml

open Verif.Bytes (Byte Buf lbaBytes)
open Verif.Ddml (Err Res Compression PBA DRP Env Pool readRec encode inExtent getDirect toyEnv)
open Verif (OMap)

variable {V : Type}

/-- `idml.rs:562-575`: the first half of a `get` that misses the cache, up to and including the RIDT
lookup. -/
def getStart (s : State V) (rid : Nat) : Option DRP :=
  match s.cache rid with
  | some _ => none
  | none => (s.ridt.get rid).map (·.drp)

/-- `idml.rs:575-578` and `cache/mod.rs` `get_or_insert`: the second half, the disk read and the cache
insertion. -/
def getFinish (en : Env V) (dk : Disk) (s : State V) (rid : Nat) (drp : DRP) : State V × Res V :=
  match getDirect en drp (dk.rd s.pool drp) (dk.rl s.pool drp) with
  | .ok v => ({ s with cache := setCache s.cache rid (some v) }, .ok v)
  | r => (s, r)

/-- The two halves together are `get`. -/
theorem get_eq (en : Env V) (dk : Disk) (s : State V) (rid : Nat) (drp : DRP)
    (h : getStart s rid = some drp) : get en dk s rid = getFinish en dk s rid drp := by
  unfold getStart at h
  split at h
  · cases h
  · rename_i hc
    cases he : s.ridt.get rid with
    | none => rw [he] at h; cases h
    | some e =>
      rw [he] at h
      simp only [Option.map_some, Option.some.injEq] at h
      subst h
      simp only [get, hc, he]
      rfl

/-- `idml.rs:321-337` `list_indirect_records`: what a zone cleaning has read from the AllocT before
it starts moving records. -/
def listed (s : State V) (z : PBA × Nat) : List Nat := (s.alloct.range z).map Prod.snd

/-- The state after one record `[5]` was stored and dropped from the cache. -/
def cold : State Buf := evict put1 0

/-- **C36 fails for a get that overlaps a delete.**  The get has looked the id up when the delete
runs, then reads the freed blocks and puts the record into the cache.  From then on the deleted id is
found. -/
theorem C36_race_get_delete : ∃ drp, getStart cold 0 = some drp ∧
    let s1 := delete cold 0
    s1.2 = .ok () ∧
    let s2 := getFinish toyEnv (goodDisk 0) s1.1 0 drp
    (get toyEnv (goodDisk 0) s2.1 0).2 = .ok [5] := by
  refine ⟨⟨⟨0, 0⟩, false, 1, 1, Ddml.toyHash [5]⟩, by decide +kernel, by decide +kernel, ?_⟩
  decide +kernel

/-- **C36 fails for a get that overlaps a zone cleaning.**  The cleaning moves the record after the
get has looked it up, and the emptied zone is erased before the get reads it.  The get reports
corruption of a record that is intact: asking again finds it. -/
theorem C36_race_get_clean : ∃ drp, getStart cold 0 = some drp ∧
    let s1 := cleanZone toyEnv (goodDisk 9) cold (⟨0, 0⟩, 100)
    s1.2 = .ok () ∧
    let wiped : PBA → Buf := fun q => if q.cluster = 0 then [] else s1.1.pool.block q
    let s2 := (step toyEnv (goodDisk 0) s1.1 (.disturb wiped)).1
    (getFinish toyEnv (goodDisk 0) s2 0 drp).2 = .err .eintegrity ∧
    (get toyEnv (goodDisk 0) s2 0).2 = .ok [5] := by
  refine ⟨⟨⟨0, 0⟩, false, 1, 1, Ddml.toyHash [5]⟩, by decide +kernel, by decide +kernel, ?_, ?_⟩
  · decide +kernel
  · decide +kernel

/-- **C36 fails for a delete that overlaps a zone cleaning.**  The cleaning reads the list of ids
first; if one of them is deleted before its turn comes, the cleaning panics. -/
theorem C36_race_clean_delete :
    let ids := listed put2 (⟨0, 0⟩, 100)
    let s1 := delete put2 1
    s1.2 = .ok () ∧ (moveAll toyEnv (goodDisk 9) s1.1 ids).2 = .panic ∧
    (cleanZone toyEnv (goodDisk 9) s1.1 (⟨0, 0⟩, 100)).2 = .ok () := by
  decide +kernel

end Verif.Idml
