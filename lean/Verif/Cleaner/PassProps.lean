import Verif.Cleaner.Props

/-!
# C82: a pass of the cleaner, and what it does to the records
-/

namespace Verif.Cleaner

open Verif.Idml
open Verif.Ddml (PBA Res Env inExtent Fresh Pool blocks DRP Err toyEnv toyEnv_good)
open Verif.Bytes (Buf)
open Verif (OMap)

variable {V : Type}

/-! ## What a cleaning moves -/

theorem encode_pba {en : Env V} {c : Ddml.Compression} {v : V} {b : Buf} {mk : PBA → DRP}
    (h : Ddml.encode en c v = some (b, mk)) (q : PBA) : (mk q).pba = q := by
  unfold Ddml.encode at h
  dsimp only at h
  split at h
  · cases h; rfl
  · cases h

/-- Entries keep their address or get one that the allocator chose. -/
theorem moveRecord_addr {en : Env V} {dk : Disk} {s : State V} {rid r : Nat} {e : Entry}
    (h : (moveRecord en dk s rid).1.ridt.get r = some e) :
    (∃ e', s.ridt.get r = some e' ∧ e'.drp.pba = e.drp.pba) ∨ ∃ p n, dk.wr p n = .ok e.drp.pba := by
  unfold moveRecord at h
  split at h
  · exact .inl ⟨e, h, rfl⟩
  · rename_i entry hget
    split at h
    · exact .inl ⟨e, h, rfl⟩
    · exact .inl ⟨e, h, rfl⟩
    · rename_i b keep hf
      split at h
      · exact .inl ⟨e, h, rfl⟩
      · rename_i b' mk henc
        split at h
        · exact .inl ⟨e, h, rfl⟩
        · rename_i pba hwr
          dsimp only at h
          split at h
          · exact .inl ⟨e, h, rfl⟩
          · simp only at h
            rw [OMap.get_insert] at h
            split at h
            · injection h with h
              right
              refine ⟨s.pool, blocks b'.length, ?_⟩
              rw [← h, hwr]
              simp only
              split
              · simp only [DRP.intoCompressed, encode_pba henc]
              · rw [encode_pba henc]
            · exact .inl ⟨e, h, rfl⟩

theorem moveAll_addr {en : Env V} {dk : Disk} {l : List Nat} {s : State V} {r : Nat} {e : Entry}
    (h : (moveAll en dk s l).1.ridt.get r = some e) :
    (∃ e', s.ridt.get r = some e' ∧ e'.drp.pba = e.drp.pba) ∨ ∃ p n, dk.wr p n = .ok e.drp.pba := by
  induction l generalizing s with
  | nil => exact .inl ⟨e, h, rfl⟩
  | cons rid l ih =>
    rw [moveAll] at h
    split at h
    · rename_i s1 u hm
      rcases ih h with ⟨e', h1, h2⟩ | h1
      · have : (moveRecord en dk s rid).1.ridt.get r = some e' := by rw [hm]; exact h1
        rcases moveRecord_addr this with ⟨e2, h3, h4⟩ | ⟨p, n, h3⟩
        · exact .inl ⟨e2, h3, h4.trans h2⟩
        · exact .inr ⟨p, n, by rw [h3, h2]⟩
      · exact .inr h1
    · exact moveRecord_addr h

theorem cleanZone_addr {en : Env V} {dk : Disk} {s : State V} {z : PBA × Nat} {r : Nat} {e : Entry}
    (h : (cleanZone en dk s z).1.ridt.get r = some e) :
    (∃ e', s.ridt.get r = some e' ∧ e'.drp.pba = e.drp.pba) ∨ ∃ p n, dk.wr p n = .ok e.drp.pba := by
  unfold cleanZone at h
  split at h
  · rename_i s1 u hm
    have : (moveAll en dk s ((s.alloct.range z).map Prod.snd)).1.ridt.get r = some e := by rw [hm]; exact h
    exact moveAll_addr this
  · exact moveAll_addr h

/-! ## A pass -/

/-- While zone `z` is cleaned the devices do not fail, and the allocator hands out free blocks and
none in the zones `zs`. -/
def Quiet (zs : List (PBA × Nat)) (dk : Disk) : Prop :=
  dk.Faithful ∧ dk.NoError ∧ ∀ p n pba, dk.wr p n = .ok pba → Fresh p pba n ∧ ∀ z ∈ zs, inExtent pba z = false

/-- **C82**, in part.  A pass succeeds, and afterwards as before every record is found with its
contents and the two tables are inverses of each other, whatever else happens between the cleanings of
its zones.  Missing: device errors, and zones that were closed when the cleaner listed them and are no
longer; see `C82_error_is_final` and `C82_stale_zone`. -/
theorem C82_pass_partial (en : Env V) (g : en.Good) {s s' : State V} {k k' : Client V} {zs : List (PBA × Nat)}
    {r : Res Unit} (hr : Reach en s k)
    (hp : Pass en (fun _ dk z => Quiet [z] dk) (fun s k dk op => Valid en dk k op ∧ Faithful dk s op ∧ NoFailure dk op)
      s k zs s' k' r) :
    r = .ok () ∧ Reach en s' k' ∧ Inverse s'.ridt s'.alloct ∧
    ∀ rid v, k'.held.get rid = some v → ∀ dk : Disk, dk.Faithful → dk.NoError → (Idml.get en dk s' rid).2 = .ok v := by
  have key : r = .ok () ∧ Reach en s' k' := by
    induction hp with
    | done => exact ⟨rfl, hr⟩
    | other dk op hB _ ih => exact ih (hr.step dk op hB.1 hB.2.1 hB.2.2)
    | @clean s k z zs s' k' r dk hA hok _ ih =>
      have hv : Valid en dk k (.clean z) := fun p n pba h =>
        ⟨(hA.2.2 p n pba h).1, (hA.2.2 p n pba h).2 z (List.mem_singleton.mpr rfl)⟩
      have := hr.step dk (.clean z) hv hA.1 hA.2.1
      exact ih this
    | @fail s k z zs r dk hA hres hne =>
      have hv : Valid en dk k (.clean z) := fun p n pba h =>
        ⟨(hA.2.2 p n pba h).1, (hA.2.2 p n pba h).2 z (List.mem_singleton.mpr rfl)⟩
      have := C36_history_partial en g s k hr dk (.clean z) hv hA.1 hA.2.1
      simp only [Expected, Idml.step, Out.done.injEq] at this
      rw [hres] at this
      exact absurd this hne
  refine ⟨key.1, key.2, (C36_tables_partial en g s' k' key.2).1, ?_⟩
  intro rid v hh dk hf hx
  have := C36_history_partial en g s' k' key.2 dk (.get rid) trivial hf trivial
  simp only [Expected, Idml.step, Out.val.injEq] at this
  obtain ⟨q, h1, h2⟩ := this
  rw [h1]
  unfold Finds at h2
  rw [hh] at h2
  rcases h2 with h2 | ⟨p, d, e, h2, -⟩
  · exact h2
  · exact absurd h2 (hx.1 p d e)

/-- **C82**, in part.  When a pass is done during which nothing else happened and no selected zone was
written to, no record is left in any of the zones. -/
theorem C82_emptied_partial (en : Env V) (g : en.Good) {s s' : State V} {k k' : Client V} {zs : List (PBA × Nat)}
    {r : Res Unit} (hr : Reach en s k)
    (hp : Pass en (fun _ dk _ => Quiet zs dk) (fun _ _ _ _ => False) s k zs s' k' r) :
    r = .ok () ∧ k' = k ∧ (∀ z ∈ zs, ∀ rid e, s'.ridt.get rid = some e → inExtent e.drp.pba z = false) ∧
    ∀ z ∈ zs, ∀ x ∈ s'.pool.live, inExtent x.1 z = false := by
  have key : ∀ {all zs : List (PBA × Nat)} {s s' : State V} {k k' : Client V} {r : Res Unit},
      (∀ z ∈ zs, z ∈ all) → Reach en s k →
      Pass en (fun _ dk _ => Quiet all dk) (fun _ _ _ _ => False) s k zs s' k' r →
      (∀ z ∈ all, z ∉ zs → ∀ rid e, s.ridt.get rid = some e → inExtent e.drp.pba z = false) →
      r = .ok () ∧ k' = k ∧ Reach en s' k' ∧
        ∀ z ∈ all, ∀ rid e, s'.ridt.get rid = some e → inExtent e.drp.pba z = false := by
    intro all zs s s' k k' r hsub hr hp hclean
    induction hp with
    | done => exact ⟨rfl, rfl, hr, fun z hz => hclean z hz (by simp)⟩
    | other dk op hB => exact hB.elim
    | @clean s k z zs s' k' r dk hA hok _ ih =>
      have hz := hsub z (List.mem_cons_self ..)
      have hv : Valid en dk k (.clean z) := fun p n pba h => ⟨(hA.2.2 p n pba h).1, (hA.2.2 p n pba h).2 z hz⟩
      have hr' : Reach en (cleanZone en dk s z).1 k := hr.step dk (.clean z) hv hA.1 hA.2.1
      refine ih (fun y hy => hsub y (List.mem_cons_of_mem _ hy)) hr' ?_
      intro y hy hny rid e he
      by_cases hyz : y = z
      · subst hyz
        exact (C36_clean en g s k hr dk y hv hA.1 hA.2.1).1 rid e he
      · rcases cleanZone_addr he with ⟨e', h1, h2⟩ | ⟨p, n, h1⟩
        · rw [← h2]
          exact hclean y hy (by simp [hyz, hny]) rid e' h1
        · exact (hA.2.2 p n _ h1).2 y hy
    | @fail s k z zs r dk hA hres hne =>
      have hz := hsub z (List.mem_cons_self ..)
      have hv : Valid en dk k (.clean z) := fun p n pba h => ⟨(hA.2.2 p n pba h).1, (hA.2.2 p n pba h).2 z hz⟩
      have := C36_history_partial en g s k hr dk (.clean z) hv hA.1 hA.2.1
      simp only [Expected, Idml.step, Out.done.injEq] at this
      rw [hres] at this
      exact absurd this hne
  obtain ⟨h1, h2, h3, h4⟩ := key (fun z hz => hz) hr hp (fun z hz hn => absurd hz hn)
  refine ⟨h1, h2, h4, ?_⟩
  intro z hz x hx
  obtain ⟨rid, e, h5, h6⟩ := ((reach_inv g h3).core.live x).1 hx
  rw [h6]
  exact h4 z hz rid e h5

/-- A pass over two zones, one of which holds two records. -/
theorem exPass : ∃ s', Reach toyEnv put2 ⟨[(0, [5]), (1, [6, 7])], [1, 0]⟩ ∧
    Pass toyEnv (fun _ dk _ => Quiet [(⟨0, 0⟩, 100), (⟨1, 0⟩, 100)] dk) (fun _ _ _ _ => False) put2
      ⟨[(0, [5]), (1, [6, 7])], [1, 0]⟩ [(⟨0, 0⟩, 100), (⟨1, 0⟩, 100)] s' ⟨[(0, [5]), (1, [6, 7])], [1, 0]⟩ (.ok ()) ∧
    s'.ridt.get 1 = some ⟨⟨⟨9, 3⟩, false, 2, 2, Ddml.toyHash [6, 7]⟩, 1⟩ := by
  have hq : Quiet [(⟨0, 0⟩, 100), (⟨1, 0⟩, 100)] (goodDisk 9) := by
    refine ⟨goodDisk_faithful 9, goodDisk_noError 9, fun p n pba h => ⟨(goodDisk_fresh 9 p n pba h).1, ?_⟩⟩
    intro z hz
    simp only [List.mem_cons, List.not_mem_nil, or_false] at hz
    rcases hz with rfl | rfl <;> simp [inExtent, (goodDisk_fresh 9 p n pba h).2]
  have r0 : Reach toyEnv (create fun _ => []) ⟨[], []⟩ := .create _
  have r1 := r0.step (goodDisk 0) (.put [5] .none)
    ⟨by decide, by decide, fun p n pba h => (goodDisk_fresh 0 p n pba h).1⟩
    (goodDisk_faithful 0) trivial
  have r2 := r1.step (goodDisk 0) (.put [6, 7] .none)
    ⟨by decide, by decide, fun p n pba h => (goodDisk_fresh 0 p n pba h).1⟩
    (goodDisk_faithful 0) trivial
  refine ⟨(cleanZone toyEnv (goodDisk 9) (cleanZone toyEnv (goodDisk 9) put2 (⟨0, 0⟩, 100)).1 (⟨1, 0⟩, 100)).1,
    r2, ?_, ?_⟩
  · exact .clean (goodDisk 9) hq (by decide +kernel) (.clean (goodDisk 9) hq (by decide +kernel) .done)
  · decide +kernel

/-! ## A zone that is no longer closed -/

open Verif.Cluster (Geo Hist Run Reachable GeoOk runOps exH closedOfAll TXG_MAX)

/-- Zones of two blocks. -/
def twoGeo (n : Nat) : Geo where
  limits z := (z * 2, z * 2 + 2)
  lba2zone lba := if lba < n * 2 then some (lba / 2) else none

theorem twoGeo_ok (n : Nat) : GeoOk (twoGeo n) n where
  size z _ := by simp only [twoGeo, Cluster.CLOSED]; omega
  zone lba z := by
    simp only [twoGeo]
    split
    · simp only [Option.some.injEq]; omega
    · simp; omega

/-- Records 0 and 1 fill zone 0; record 2 goes to zone 1, which closes zone 0; record 0 is deleted.
The cleaner lists the zones. -/
def listedHist : Hist := (runOps (twoGeo 3) exH (Hist.init 3) [.write 1 1, .write 1 1, .write 1 1, .free 0]).getD (Hist.init 3)

/-- Before it comes to zone 0, record 1 is deleted and the transaction ends, which erases the zone;
record 3 fills zone 1, and record 4 goes to zone 0. -/
def laterOps : List Cluster.Op := [.free 1, .advance, .write 1 2, .write 1 2]
def laterHist : Hist := (runOps (twoGeo 3) exH listedHist laterOps).getD listedHist

theorem listedHist_reachable : Reachable (twoGeo 3) exH 3 listedHist :=
  ⟨[.write 1 1, .write 1 1, .write 1 1, .free 0],
    .cons ⟨by omega, by unfold TXG_MAX; omega⟩ (by rfl) (.cons ⟨by omega, by unfold TXG_MAX; omega⟩ (by rfl)
      (.cons ⟨by omega, by unfold TXG_MAX; omega⟩ (by rfl) (.cons ⟨⟨0, 1, true⟩, by rfl, rfl⟩ (by rfl) (.nil _))))⟩

theorem later_run : Run (twoGeo 3) exH listedHist laterOps laterHist :=
  .cons ⟨⟨1, 1, true⟩, by rfl, rfl⟩ (by rfl) (.cons trivial (by rfl)
    (.cons ⟨by omega, by unfold TXG_MAX; omega⟩ (by rfl) (.cons ⟨by omega, by unfold TXG_MAX; omega⟩ (by rfl) (.nil _))))

/-- A disk that works and allocates at block `lba` of cluster 0, if the blocks there are free. -/
def diskAt (lba : Nat) : Disk where
  rd := fun p d => .ok (p.read d.pba d.asize)
  rl := fun _ _ => .ok []
  wr := fun p n =>
    if p.live.all (fun e => e.1.cluster ≠ 0 || decide (e.1.lba + e.2 ≤ lba) || decide (lba + n ≤ e.1.lba)) then
      .ok ⟨0, lba⟩
    else (goodDisk 0).wr p n

theorem diskAt_fresh (lba : Nat) (p : Pool) (n : Nat) (pba : PBA) (h : (diskAt lba).wr p n = .ok pba) :
    Fresh p pba n := by
  simp only [diskAt] at h
  split at h
  · rename_i hall
    cases h
    intro e he q hq
    have := List.all_eq_true.mp hall e he
    simp only [Bool.or_eq_true, decide_eq_true_eq] at this
    simp only [inExtent, Bool.and_eq_true, decide_eq_true_eq] at hq
    simp only [inExtent, Bool.and_eq_false_iff, decide_eq_false_iff_not]
    omega
  · exact (goodDisk_fresh 0 p n pba h).1

def op (lba : Nat) (o : Op Buf) (x : State Buf × Client Buf) : State Buf × Client Buf :=
  ((Idml.step toyEnv (diskAt lba) x.1 o).1, x.2.next o (Idml.step toyEnv (diskAt lba) x.1 o).2)

theorem op_put {x : State Buf × Client Buf} (lba : Nat) (b : Nat) (h : Reach toyEnv x.1 x.2)
    (hb : toyEnv.ser [UInt8.ofNat b] ≠ [] ∧ (toyEnv.ser [UInt8.ofNat b]).length < Ddml.u32Max) :
    Reach toyEnv (op lba (.put [UInt8.ofNat b] .none) x).1 (op lba (.put [UInt8.ofNat b] .none) x).2 :=
  h.step (diskAt lba) _ ⟨hb.1, hb.2, fun p n pba h => diskAt_fresh lba p n pba h⟩ (fun _ _ => .inl rfl) trivial

theorem op_delete {x : State Buf × Client Buf} (r : Nat) (h : Reach toyEnv x.1 x.2) (hr : (x.2.held.get r).isSome) :
    Reach toyEnv (op 0 (.delete r) x).1 (op 0 (.delete r) x).2 :=
  h.step (diskAt 0) (.delete r) hr (fun _ _ => .inl rfl) trivial

/-- The same history as the records see it, with the addresses that the cluster gave. -/
def staleState : State Buf × Client Buf :=
  op 0 (.put [4] .none) (op 3 (.put [3] .none) (op 0 (.delete 1) (op 0 (.delete 0)
    (op 2 (.put [2] .none) (op 1 (.put [1] .none) (op 0 (.put [0] .none) (create fun _ => [], ⟨[], []⟩)))))))

theorem staleState_reach : Reach toyEnv staleState.1 staleState.2 := by
  have r0 : Reach toyEnv (create fun _ => []) ⟨[], []⟩ := .create _
  have r1 := op_put (x := (_, _)) 0 0 r0 (by decide)
  have r2 := op_put 1 1 r1 (by decide)
  have r3 := op_put 2 2 r2 (by decide)
  have r4 := op_delete 0 r3 (by decide +kernel)
  have r5 := op_delete 1 r4 (by decide +kernel)
  have r6 := op_put 3 3 r5 (by decide)
  exact op_put 0 4 r6 (by decide)

/-- **C82 is violated** if a zone has been erased and is in use again when the cleaner comes to it: it
listed the zones at the beginning of the pass and holds no lock between them.  The zone is now the one
that is being written to, and the cleaner moves the record that it finds there to the next block of the
same zone; then it deletes all addresses of the zone from the allocation table, the new one included.
No error is reported, but the two tables no longer agree, and deleting the record panics.  (A build
with debug assertions panics already when the record is moved, `idml.rs:220`.) -/
theorem C82_stale_zone :
    Reachable (twoGeo 3) exH 3 listedHist ∧ Run (twoGeo 3) exH listedHist laterOps laterHist ∧
    (∃ x, closedOfAll [(twoGeo 3, listedHist.c)] 0 = [x] ∧ Selects DEFAULT_THRESHOLD [x] [x] ∧
      extent x = (⟨0, 0⟩, 2)) ∧
    Reach toyEnv staleState.1 staleState.2 ∧
    (∀ x, x ∈ staleState.1.pool.live ↔ ∃ r ∈ laterHist.recs, r.live = true ∧ x = (⟨0, r.lba⟩, r.len)) ∧
    ((laterHist.c.write (twoGeo 3) 1 2).map fun r => r.2) = some (some (0, 1)) ∧
    let s1 := cleanZone toyEnv (diskAt 1) staleState.1 (⟨0, 0⟩, 2)
    s1.2 = .ok () ∧ (s1.1.ridt.get 4).map (·.drp.pba) = some ⟨0, 1⟩ ∧ ¬ Inverse s1.1.ridt s1.1.alloct ∧
    checkRidt s1.1 (s1.1.pool.live.map Prod.snd).sum = false ∧ (delete s1.1 4).2 = .panic := by
  refine ⟨listedHist_reachable, later_run, ⟨(0, ⟨1, 0, 2, 1, 2, 0⟩), by decide +kernel, ⟨?_, List.pairwise_singleton _ _⟩,
    by decide +kernel⟩, staleState_reach, ?_, by decide +kernel, by decide +kernel, by decide +kernel, ?_,
    by decide +kernel, by decide +kernel⟩
  · rw [List.filter_cons, if_pos (by decide +kernel)]
    exact .refl _
  · intro x
    rw [show staleState.1.pool.live = [(⟨0, 0⟩, 1), (⟨0, 3⟩, 1), (⟨0, 2⟩, 1)] by decide +kernel,
      show laterHist.recs = [⟨2, 1, true⟩, ⟨3, 1, true⟩, ⟨0, 1, true⟩] by decide +kernel]
    simp
    constructor
    · rintro (h | h | h)
      · exact .inr (.inr h)
      · exact .inr (.inl h)
      · exact .inl h
    · rintro (h | h | h)
      · exact .inr (.inr h)
      · exact .inr (.inl h)
      · exact .inl h
  · intro h
    have h1 : ((cleanZone toyEnv (diskAt 1) staleState.1 (⟨0, 0⟩, 2)).1.ridt.get 4).map (·.drp.pba) = some ⟨0, 1⟩ := by
      decide +kernel
    rw [Option.map_eq_some_iff] at h1
    obtain ⟨e, h2, h3⟩ := h1
    have h4 := (h 4 ⟨0, 1⟩).1 ⟨e, h2, h3⟩
    have h5 : (cleanZone toyEnv (diskAt 1) staleState.1 (⟨0, 0⟩, 2)).1.alloct.get ⟨0, 1⟩ = none := by decide +kernel
    rw [h5] at h4
    cases h4

end Verif.Cleaner
