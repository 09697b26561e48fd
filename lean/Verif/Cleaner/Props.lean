import Verif.Cleaner.Lemmas
import Verif.Cleaner.Task
import Verif.Idml.Props

/-!
# C82: the cleaner
-/

namespace Verif.Cleaner

open Verif.Cluster

variable {H : Nat → List ZoneOnDisk → Nat}

/-! ## Which zones are selected -/

/-- The clusters of a pool, each with a history that can lead to its state. -/
def PoolOk (H : Nat → List ZoneOnDisk → Nat) (cs : List (Geo × Hist)) : Prop :=
  cs ≠ [] ∧ ∀ x ∈ cs, ∃ n, GeoOk x.1 n ∧ Reachable x.1 H n x.2

/-- As the listing sees them. -/
def clusters (cs : List (Geo × Hist)) : List (Geo × Cluster) := cs.map fun x => (x.1, x.2.c)

theorem listed_iff {cs : List (Geo × Hist)} (hp : PoolOk H cs) {xs : List (Nat × ClosedZone)}
    (hl : Lists (clusters cs) 0 0 xs) (x : Nat × ClosedZone) :
    x ∈ xs ↔ ∃ g h, cs[x.1]? = some (g, h) ∧ h.c.fsm.isClosed x.2.zid = true ∧
      x.2 = h.c.fsm.closedEntry x.2.zid (g.limits x.2.zid).1 := by
  have hne : clusters cs ≠ [] := by
    unfold clusters; intro h; exact hp.1 (List.map_eq_nil_iff.mp h)
  have hlen : 0 < (clusters cs).length := List.length_pos_iff.mpr hne
  have hrem := remaining_next (clusters cs) 0
  rw [List.drop_zero] at hrem
  have := hl.unique (lists_remaining (clusters cs) (closedOfAll (clusters cs) 0) 0 0 hlen hrem)
  subst this
  rw [mem_closedOfAll]
  constructor
  · rintro ⟨g, c, -, h1, h2, h3⟩
    unfold clusters at h1
    rw [List.getElem?_map, Option.map_eq_some_iff] at h1
    obtain ⟨y, h4, h5⟩ := h1
    cases h5
    rw [Nat.sub_zero] at h4
    exact ⟨y.1, y.2, h4, h2, h3⟩
  · rintro ⟨g, h, h1, h2, h3⟩
    refine ⟨g, h.c, Nat.zero_le _, ?_, h2, h3⟩
    unfold clusters
    rw [Nat.sub_zero, List.getElem?_map, h1]
    rfl

/-- Every listed zone has blocks, and no more free ones than it has. -/
theorem listed_ok {cs : List (Geo × Hist)} (hp : PoolOk H cs) {xs : List (Nat × ClosedZone)}
    (hl : Lists (clusters cs) 0 0 xs) {x : Nat × ClosedZone} (hx : x ∈ xs) :
    0 < x.2.total ∧ x.2.freed ≤ x.2.total := by
  obtain ⟨g, h, h1, h2, h3⟩ := (listed_iff hp hl x).1 hx
  obtain ⟨n, geo, hr⟩ := hp.2 _ (List.mem_of_getElem? h1)
  obtain ⟨h4, -, h5, -⟩ := closed_entry geo hr h2
  rw [← h3] at h4 h5
  omega

/-- **C82**: the cleaner selects exactly the closed zones of which at least half is free, each once,
for zones of fewer than `2 ^ 24` blocks (64 GiB); an entry says where the zone lies. -/
theorem C82_selected {cs : List (Geo × Hist)} (hp : PoolOk H cs) {xs out : List (Nat × ClosedZone)}
    (hl : Lists (clusters cs) 0 0 xs) (hs : Selects DEFAULT_THRESHOLD xs out) :
    (∀ (ci z : Nat) g h, cs[ci]? = some (g, h) → size g z < 2 ^ 24 →
      ((∃ x ∈ out, x.1 = ci ∧ x.2.zid = z) ↔ HalfFree g h z)) ∧
    (out.map fun x => (x.1, x.2.zid)).Nodup ∧
    ∀ x ∈ out, ∃ g h, cs[x.1]? = some (g, h) ∧ x.2.start = (g.limits x.2.zid).1 ∧ x.2.total = size g x.2.zid := by
  have hmem : ∀ x, x ∈ out ↔ x ∈ xs ∧ dirty DEFAULT_THRESHOLD x.2 = true := by
    intro x; rw [hs.perm.mem_iff, List.mem_filter]
  refine ⟨?_, ?_, ?_⟩
  · intro ci z g h hci hsz
    obtain ⟨n, geo, hr⟩ : ∃ n, GeoOk g n ∧ Reachable g H n h := hp.2 _ (List.mem_of_getElem? hci)
    constructor
    · rintro ⟨x, hx, rfl, rfl⟩
      obtain ⟨h1, h2⟩ := (hmem x).1 hx
      obtain ⟨g', h', h3, h4, h5⟩ := (listed_iff hp hl x).1 h1
      rw [hci] at h3
      cases h3
      obtain ⟨e1, e2, e3, -⟩ := closed_entry geo hr h4
      rw [← h5] at e1 e2 e3
      have := half_of_dirty (by omega) (by omega) h2
      exact ⟨h4, by omega⟩
    · rintro ⟨h1, h2⟩
      obtain ⟨e1, e2, e3, e4, e5⟩ := closed_entry geo hr h1
      refine ⟨(ci, h.c.fsm.closedEntry z (g.limits z).1), ?_, rfl, e4⟩
      rw [hmem]
      refine ⟨?_, ?_⟩
      · rw [listed_iff hp hl]
        refine ⟨g, h, hci, ?_, ?_⟩
        · simp only [e4]; exact h1
        · simp only [e4]
      · exact dirty_of_half e1 (by simp only; omega) (by simp only; omega)
  · have hne : clusters cs ≠ [] := by
      unfold clusters; intro h; exact hp.1 (List.map_eq_nil_iff.mp h)
    obtain ⟨ys, h1, h2, h3, -⟩ := C30_list_closed_zones (clusters cs) hne
    have := h2 _ hl
    subst this
    have h4 : ((xs.filter fun z => dirty DEFAULT_THRESHOLD z.2).map fun x => (x.1, x.2.zid)).Nodup := by
      rw [List.nodup_iff_pairwise_ne, List.pairwise_map]
      refine List.Pairwise.imp ?_ (List.Pairwise.filter _ h3)
      intro a b hab he
      simp only [Prod.mk.injEq] at he
      unfold Before at hab
      omega
    exact (hs.perm.map _).nodup_iff.mpr h4
  · intro x hx
    obtain ⟨h1, -⟩ := (hmem x).1 hx
    obtain ⟨g, h, h3, h4, h5⟩ := (listed_iff hp hl x).1 h1
    obtain ⟨n, geo, hr⟩ := hp.2 _ (List.mem_of_getElem? h3)
    obtain ⟨-, e2, -, -, e5⟩ := closed_entry geo hr h4
    rw [← h5] at e2 e5
    exact ⟨g, h, h3, e5, e2⟩

/-- **C82**: a closed zone of which at least half is free is selected, whatever its size. -/
theorem C82_none_missed {cs : List (Geo × Hist)} (hp : PoolOk H cs) {xs out : List (Nat × ClosedZone)}
    (hl : Lists (clusters cs) 0 0 xs) (hs : Selects DEFAULT_THRESHOLD xs out) {ci z : Nat} {g : Geo} {h : Hist}
    (hci : cs[ci]? = some (g, h)) (hf : HalfFree g h z) : ∃ x ∈ out, x.1 = ci ∧ x.2.zid = z := by
  obtain ⟨n, geo, hr⟩ : ∃ n, GeoOk g n ∧ Reachable g H n h := hp.2 _ (List.mem_of_getElem? hci)
  obtain ⟨h1, h2⟩ := hf
  obtain ⟨e1, e2, e3, e4, e5⟩ := closed_entry geo hr h1
  refine ⟨(ci, h.c.fsm.closedEntry z (g.limits z).1), ?_, rfl, e4⟩
  rw [hs.perm.mem_iff, List.mem_filter]
  refine ⟨?_, dirty_of_half e1 (by simp only; omega) (by simp only; omega)⟩
  rw [listed_iff hp hl]
  refine ⟨g, h, hci, ?_, ?_⟩
  · simp only [e4]; exact h1
  · simp only [e4]

/-- **C82 is violated** for zones of `2 ^ 24` blocks and more: single precision cannot tell them
apart, and a zone of which less than half is free is selected. -/
theorem C82_rounding : ∃ z : ClosedZone, z.freed ≤ z.total ∧ z.total < 2 ^ 32 ∧ 2 * z.freed < z.total ∧
    dirty DEFAULT_THRESHOLD z = true := by
  refine ⟨⟨2 ^ 24, 0, 2 ^ 25 + 1, 0, 0, 0⟩, by norm_num, by norm_num, by norm_num, ?_⟩
  decide +kernel

/-! ## The order -/

/-- **C82**: the zones are cleaned in the order of the fraction that is free, the largest first, up
to differences of `2 ^ -24`. -/
theorem C82_order {cs : List (Geo × Hist)} (hp : PoolOk H cs) {xs out : List (Nat × ClosedZone)}
    (hl : Lists (clusters cs) 0 0 xs) (hs : Selects DEFAULT_THRESHOLD xs out)
    (hsmall : ∀ x ∈ xs, x.2.total < 2 ^ 24) :
    out.Pairwise fun a b => (b.2.freed : Rat) / b.2.total ≤ a.2.freed / a.2.total + 1 / 2 ^ 24 := by
  refine List.Pairwise.imp_of_mem ?_ hs.sorted
  intro a b ha hb hab
  have hma := (List.mem_filter.mp ((hs.perm.mem_iff).1 ha)).1
  have hmb := (List.mem_filter.mp ((hs.perm.mem_iff).1 hb)).1
  obtain ⟨p, hp1, hp2, -⟩ := dirtiness_err (listed_ok hp hl hma).1 (listed_ok hp hl hma).2 (hsmall a hma)
  obtain ⟨q, hq1, hq2, -⟩ := dirtiness_err (listed_ok hp hl hmb).1 (listed_ok hp hl hmb).2 (hsmall b hmb)
  rw [compare_fin hp1 hq1] at hab
  have h1 := (abs_le.mp hp2).2
  have h2 := (abs_le.mp hq2).1
  have : (1 : Rat) / 2 ^ 24 = 1 / 2 ^ 25 + 1 / 2 ^ 25 := by norm_num
  rw [this]
  linarith

/-- **C82**: zones of the same size are cleaned in the order of the number of free blocks, the
largest first. -/
theorem C82_order_equal {cs : List (Geo × Hist)} (hp : PoolOk H cs) {xs out : List (Nat × ClosedZone)}
    (hl : Lists (clusters cs) 0 0 xs) (hs : Selects DEFAULT_THRESHOLD xs out) {n : Nat} (hn : n < 2 ^ 24)
    (hsize : ∀ x ∈ xs, x.2.total = n) : out.Pairwise fun a b => b.2.freed ≤ a.2.freed := by
  refine List.Pairwise.imp_of_mem ?_ (C82_order hp hl hs (fun x hx => by rw [hsize x hx]; exact hn))
  intro a b ha hb hab
  have hma := (List.mem_filter.mp ((hs.perm.mem_iff).1 ha)).1
  have hmb := (List.mem_filter.mp ((hs.perm.mem_iff).1 hb)).1
  have h0 := (listed_ok hp hl hma).1
  rw [hsize a hma] at h0
  rw [hsize a hma, hsize b hmb] at hab
  by_contra hc
  have h1 : (a.2.freed : Rat) + 1 ≤ b.2.freed := by exact_mod_cast (by omega : a.2.freed + 1 ≤ b.2.freed)
  have hnq : (0 : Rat) < n := by exact_mod_cast h0
  have hnl : (n : Rat) < 16777216 := by exact_mod_cast hn
  have h2 : (b.2.freed : Rat) / n - a.2.freed / n ≤ 1 / 16777216 := by norm_num at hab ⊢; linarith
  rw [← sub_div, div_le_iff₀ hnq] at h2
  have h3 : (1 : Rat) ≤ 1 / 16777216 * n := by linarith
  linarith

/-- The number, if it is one. -/
def F32.toRat : F32 → Rat
  | .fin q => q
  | _ => 0

/-- **C82**: the selection does not panic, although not all floating point numbers can be compared;
there is a result. -/
theorem C82_no_panic {cs : List (Geo × Hist)} (hp : PoolOk H cs) {xs : List (Nat × ClosedZone)}
    (hl : Lists (clusters cs) 0 0 xs) :
    (∀ a ∈ xs, ∀ b ∈ xs, compareZones a.2 b.2 ≠ none) ∧ ∃ out, Selects DEFAULT_THRESHOLD xs out := by
  have hfin : ∀ x ∈ xs, ∃ q, dirtiness x.2 = .fin q := by
    intro x hx
    by_cases h : x.2.freed = 0
    · exact ⟨_, dirtiness_zero (listed_ok hp hl hx).1 h⟩
    · exact ⟨_, dirtiness_pos (listed_ok hp hl hx).1 (by omega)⟩
  refine ⟨?_, ?_⟩
  · intro a ha b hb
    obtain ⟨p, h1⟩ := hfin a ha
    obtain ⟨q, h2⟩ := hfin b hb
    unfold compareZones
    rw [h1, h2]
    simp [F32.neg, F32.partialCmp]
  · let le : Nat × ClosedZone → Nat × ClosedZone → Bool := fun a b =>
      decide ((dirtiness b.2).toRat ≤ (dirtiness a.2).toRat)
    have hsorted := List.pairwise_mergeSort (le := le)
      (fun a b c h1 h2 => by
        simp only [le, decide_eq_true_eq] at *
        exact le_trans h2 h1)
      (fun a b => by
        simp only [le, Bool.or_eq_true, decide_eq_true_eq]
        exact le_total _ _)
      (xs.filter fun z => dirty DEFAULT_THRESHOLD z.2)
    refine ⟨_, List.mergeSort_perm _ le, ?_⟩
    refine List.Pairwise.imp_of_mem ?_ hsorted
    intro a b ha hb hab
    have hma := (List.mem_filter.mp (List.mem_mergeSort.mp ha)).1
    have hmb := (List.mem_filter.mp (List.mem_mergeSort.mp hb)).1
    obtain ⟨p, h1⟩ := hfin a hma
    obtain ⟨q, h2⟩ := hfin b hmb
    rw [compare_fin h1 h2]
    simpa [le, h1, h2, F32.toRat] using hab

/-! ### A concrete pool -/

/-- Three clusters: in the first, zone 0 is closed with 6 of 10 blocks free; the second is new; in the
third, zone 0 is closed and all free. -/
def exPool : List (Geo × Hist) := [(exGeo 3, exS), (exGeo 3, Hist.init 3), (exGeo 3, exLeak)]

theorem exPool_ok : PoolOk exH exPool := by
  refine ⟨by simp [exPool], ?_⟩
  intro x hx
  refine ⟨3, ?_⟩
  simp only [exPool, List.mem_cons, List.not_mem_nil, or_false] at hx
  rcases hx with rfl | rfl | rfl
  · exact ⟨exGeo_ok 3, exS_reachable⟩
  · exact ⟨exGeo_ok 3, [], .nil _⟩
  · exact ⟨exGeo_ok 3, C27_leak_reachable.1⟩

example : closedOfAll (clusters exPool) 0 = [(0, ⟨6, 0, 10, 1, 2, 0⟩), (2, ⟨10, 0, 10, 1, 2, 0⟩)] := by decide +kernel

/-- Both are selected, the emptier one first. -/
example : Selects DEFAULT_THRESHOLD [(0, ⟨6, 0, 10, 1, 2, 0⟩), (2, ⟨10, 0, 10, 1, 2, 0⟩), (3, ⟨4, 0, 10, 1, 2, 0⟩)]
    [(2, ⟨10, 0, 10, 1, 2, 0⟩), (0, ⟨6, 0, 10, 1, 2, 0⟩)] := by
  refine ⟨?_, ?_⟩
  · rw [show List.filter (fun z : Nat × ClosedZone => dirty DEFAULT_THRESHOLD z.2)
      [(0, ⟨6, 0, 10, 1, 2, 0⟩), (2, ⟨10, 0, 10, 1, 2, 0⟩), (3, ⟨4, 0, 10, 1, 2, 0⟩)] =
      [(0, ⟨6, 0, 10, 1, 2, 0⟩), (2, ⟨10, 0, 10, 1, 2, 0⟩)] from by decide +kernel]
    exact List.Perm.swap _ _ _
  · refine .cons (fun b hb => ?_) (List.pairwise_singleton _ _)
    rw [List.mem_singleton] at hb
    subst hb
    left
    decide +kernel

example : HalfFree (exGeo 3) exS 0 ∧ liveBlocks (exGeo 3) exS 0 = 4 ∧ size (exGeo 3) 0 = 10 := by
  unfold HalfFree
  decide +kernel

/-- One third, as the program computes it. -/
example : quotient 1 3 = 11184811 / 2 ^ 25 := by decide +kernel

/-- Ties go to the even number. -/
example : ofCount (2 ^ 24 + 1) = 2 ^ 24 ∧ ofCount (2 ^ 24 + 3) = 2 ^ 24 + 4 := by decide +kernel

/-! ## The zone that is being cleaned -/

variable {g : Geo} {n : Nat}

theorem closed_or_dead_run (geo : GeoOk g n) {s s' : Hist} {ops : List Op} (R : Run g H s ops s')
    (hna : Op.advance ∉ ops) (G : Good g n s) {z : Nat}
    (hv : (∃ zn, s.c.fsm.view z = .closed zn) ∨ s.c.fsm.view z = .dead) :
    (∃ zn, s'.c.fsm.view z = .closed zn) ∨ s'.c.fsm.view z = .dead := by
  induction R with
  | nil => exact hv
  | cons hl hs _ ih =>
    obtain ⟨s1, h1, G1⟩ := good_step (H := H) geo G hl
    rw [hs] at h1
    cases h1
    refine ih (fun h => hna (List.mem_cons_of_mem _ h)) G1 ?_
    rcases hv with ⟨zn, hv⟩ | hv
    · rcases closed_step geo G hl hs hv with ⟨zn', h2, -⟩ | ⟨-, h2, -⟩
      · exact .inl ⟨zn', h2⟩
      · exact .inr h2
    · exact .inr (dead_step geo G hl hs hv (fun e => hna (by simp [e])))

/-- **C82**: nothing is written to a zone that is closed when its cleaning begins until the
transaction ends, which it does not while the zone is cleaned: the cleaner holds the transaction's
lock.  So the cleaner does not write what it moves back to the same zone. -/
theorem C82_no_new_data (geo : GeoOk g n) {s s' : Hist} (hs : Reachable g H n s) {z : Nat}
    (hc : s.c.fsm.isClosed z = true) {ops : List Op} (R : Run g H s ops s') (hna : Op.advance ∉ ops)
    {space txg : Nat} (hpos : 0 < space) (ht : txg ≤ TXG_MAX) {c : Cluster} {z' lba : Nat}
    (hw : s'.c.write g space txg = some (c, some (z', lba))) :
    z' ≠ z ∧ ∀ q, lba ≤ q → q < lba + space → g.lba2zone q ≠ some z := by
  have G := good_reachable geo hs
  have hv := closed_or_dead_run geo R hna G (.inl ((FSM.isClosed_view z).mp hc))
  have G' := good_run geo R G
  rcases write_spec geo G' hpos ht with ⟨c', h, -⟩ | ⟨c', z2, lba2, h, hlba, hG, -, h4, -⟩
  · rw [hw] at h; cases h
  · rw [hw] at h
    cases h
    have hne : z' ≠ z := by
      rintro rfl
      rcases h4 with ⟨_, _, h4⟩ | h4 <;> rcases hv with ⟨_, hv⟩ | hv <;> rw [h4] at hv <;> cases hv
    refine ⟨hne, ?_⟩
    intro q h1 h2 h3
    obtain ⟨-, zz, h5, h6⟩ := hG.inv.recOk ⟨lba, space, true⟩ (by simp)
    simp only at h5 h6
    rw [hlba] at h5
    cases h5
    have a := (geo.zone lba z').mp hlba
    have b : g.lba2zone q = some z' := (geo.zone q z').mpr ⟨a.1, by omega, by omega⟩
    rw [h3] at b
    cases b
    exact hne rfl

/-- **C82**, in part.  If a closed zone with live data is cleaned, so that none of its ranges is live,
then it is erased when the transaction ends, and can be used again.  Missing: a closed zone without
live data; see `C82_never_reclaimed`. -/
theorem C82_reclaimed_partial (geo : GeoOk g n) {s s2 s3 : Hist} (hs : Reachable g H n s) {z : Nat}
    (hc : s.c.fsm.isClosed z = true) (hlive : 0 < liveBlocks g s z) {ops : List Op} (R : Run g H s ops s2)
    (hna : Op.advance ∉ ops) (hdone : liveBlocks g s2 z = 0) (ha : step g H s2 .advance = some s3) :
    z ∈ s2.c.advance.2 ∧ s3.c.fsm.isEmpty z = true ∧ ∀ x ∈ s3.recs, g.lba2zone x.lba ≠ some z := by
  have G := good_reachable geo hs
  obtain ⟨zn, hv⟩ := (FSM.isClosed_view z).mp hc
  rw [liveBlocks_eq] at hlive hdone
  have key : ∀ {s s' : Hist} {ops}, Run g H s ops s' → Op.advance ∉ ops → Good g n s →
      ((∃ zn, s.c.fsm.view z = .closed zn) ∧ 0 < liveIn g s.recs z ∨ s.c.fsm.view z = .dead) →
      (∃ zn, s'.c.fsm.view z = .closed zn) ∧ 0 < liveIn g s'.recs z ∨ s'.c.fsm.view z = .dead := by
    intro s s' ops R
    induction R with
    | nil => exact fun _ _ h => h
    | cons hl hs _ ih =>
      intro hna G h
      obtain ⟨s1, h1, G1⟩ := good_step (H := H) geo G hl
      rw [hs] at h1
      cases h1
      refine ih (fun h => hna (List.mem_cons_of_mem _ h)) G1 ?_
      rcases h with ⟨⟨zn, hv⟩, hp⟩ | hv
      · rcases closed_step geo G hl hs hv with ⟨zn', h2, h3, -⟩ | ⟨-, h2, -⟩
        · exact .inl ⟨⟨zn', h2⟩, h3 hp⟩
        · exact .inr h2
      · exact .inr (dead_step geo G hl hs hv (fun e => hna (by simp [e])))
  rcases key R hna G (.inl ⟨⟨zn, hv⟩, hlive⟩) with ⟨-, h⟩ | hd
  · omega
  · have G2 := good_run geo R G
    obtain ⟨G3, -, h4, h5⟩ := advance_spec G2
    have hin := (h4 z).mpr hd
    cases ha
    refine ⟨hin, ?_, ?_⟩
    · rw [FSM.isEmpty_view]
      simp only
      rw [h5, if_pos hd]
    · intro x hx
      simp only [List.mem_filter, decide_eq_true_eq] at hx
      exact hx.2 z hin

/-- The cleaner writes the four live blocks of zone 0 elsewhere (they do not fit in zone 1) and frees
them. -/
example : exS.c.fsm.isClosed 0 = true ∧ liveBlocks (exGeo 3) exS 0 = 4 ∧
    ((runOps (exGeo 3) exH exS [.write 4 2, .free 0]).map fun s =>
      (s.recs, liveBlocks (exGeo 3) s 0, s.c.advance.2)) =
    some ([⟨0, 4, false⟩, ⟨10, 8, true⟩, ⟨20, 4, true⟩], 0, [0]) := by decide +kernel

/-- **C82 is violated** by a closed zone without live data, which freeing a record before its zone is
full can lead to (`C27_leak_reachable`): every pass selects the zone, and no history makes it available
again, whatever the cleaner moves and frees. -/
theorem C82_never_reclaimed (geo : GeoOk g n) {s s' : Hist} (hs : Reachable g H n s) {z : Nat}
    (hc : s.c.fsm.isClosed z = true) (h0 : liveBlocks g s z = 0) {ops : List Op} (R : Run g H s ops s') :
    HalfFree g s' z ∧ liveBlocks g s' z = 0 ∧
    dirty DEFAULT_THRESHOLD (s'.c.fsm.closedEntry z (g.limits z).1) = true := by
  have hr' : Reachable g H n s' := hs.run R
  rw [liveBlocks_eq] at h0
  obtain ⟨h1, h2⟩ := C27_leak geo hs hc (dead_of_liveIn (fun r hr => ((good_reachable geo hs).inv.recOk r hr).1) h0) R
  have h3 : liveBlocks g s' z = 0 := by rw [liveBlocks_eq]; exact liveIn_zero h2
  obtain ⟨e1, e2, e3, -⟩ := closed_entry geo hr' h1
  refine ⟨⟨h1, by omega⟩, h3, dirty_of_half e1 (by omega) (by omega)⟩

example : Reachable (exGeo 3) exH 3 exLeak ∧ exLeak.c.fsm.isClosed 0 = true ∧ liveBlocks (exGeo 3) exLeak 0 = 0 :=
  ⟨C27_leak_reachable.1, by decide +kernel, by decide +kernel⟩

/-! ## The background task -/

/-- **C82**: as long as no pass fails, the requests are answered in the order in which they were made:
what has been answered is a beginning of what was requested, and the rest is waiting, but for at most
one that is being worked on.  Each request has a pass of its own, which begins after the request was
made (this holds for every prefix of the history). -/
theorem C82_answers {es : List Event} {t : Task} (h : Task.new.run es = some t) (hf : Event.fail ∉ es) :
    requests es = (requests es).take (finishes es) ++ t.busy.toList ++ t.queue ∧
    finishes es ≤ starts es ∧ starts es ≤ (requests es).length ∧ starts es ≤ finishes es + 1 ∧ t.panics = 0 := by
  have i := tinv_reach h
  have ha := i.failed.2 hf
  have h1 := i.order ha
  have h2 := i.begun ha
  have h3 := i.le ha
  refine ⟨?_, by omega, ?_, ?_, i.panics ha⟩
  · rw [List.append_assoc, h1, List.take_append_drop]
  · have := congrArg List.length h1
    rw [List.length_append, List.length_drop] at this
    omega
  · have : t.busy.toList.length ≤ 1 := by cases t.busy <;> simp
    omega

/-- **C82**: a request is not lost: while any is waiting or being worked on the task can go on, and
after enough steps every request has been answered. -/
theorem C82_all_answered {es : List Event} {t : Task} (h : Task.new.run es = some t) (hf : Event.fail ∉ es) :
    ∃ fs t', Event.fail ∉ fs ∧ requests fs = [] ∧ t.run fs = some t' ∧
      finishes (es ++ fs) = (requests (es ++ fs)).length := by
  have i := tinv_reach h
  have key : ∀ (m : Nat) (es : List Event) (t : Task), TInv es t → Event.fail ∉ es →
      (requests es).length - finishes es = m → ∃ fs t', Event.fail ∉ fs ∧ requests fs = [] ∧ t.run fs = some t' ∧
      finishes (es ++ fs) = (requests (es ++ fs)).length := by
    intro m
    induction m with
    | zero =>
      intro es t i hf hm
      refine ⟨[], t, by simp, rfl, rfl, ?_⟩
      have := i.le (i.failed.2 hf)
      rw [List.append_nil]
      omega
    | succ m ih =>
      intro es t i hf hm
      have ha := i.failed.2 hf
      have ho := i.order ha
      cases hb : t.busy with
      | some j =>
        have hs : t.step .finish = some { t with busy := none } := by
          unfold Task.step; simp only [hb]
        have i' := i.step hs
        obtain ⟨fs, t', f1, f2, f3, f4⟩ := ih (es ++ [.finish]) _ i' (by simp [hf]) (by
          rw [requests_snoc]
          unfold finishes at *
          rw [List.count_append]
          simp
          omega)
        refine ⟨.finish :: fs, t', by simp [f1], by simpa [requests] using f2, ?_, ?_⟩
        · rw [Task.run, hs]; exact f3
        · rw [List.append_cons]; exact f4
      | none =>
        cases hq : t.queue with
        | nil =>
          rw [hb, hq] at ho
          have := congrArg List.length ho
          rw [List.length_drop] at this
          simp at this
          omega
        | cons j q =>
          have hx : t.exited = false := by
            cases hx : t.exited with
            | false => rfl
            | true => have := (i.ended hx).2.1; rw [hq] at this; cases this
          have hs : t.step .start = some { t with busy := some j, queue := q } := by
            unfold Task.step; simp only [ha, hx, hb, hq, Bool.not_false, Bool.and_self]
          have i1 := i.step hs
          have hs2 : Task.step { t with busy := some j, queue := q } .finish =
              some { t with busy := none, queue := q } := by
            unfold Task.step; rfl
          have i' := i1.step hs2
          obtain ⟨fs, t', f1, f2, f3, f4⟩ := ih (es ++ [.start] ++ [.finish]) _ i' (by simp [hf]) (by
            rw [requests_snoc, requests_snoc]
            unfold finishes at *
            rw [List.count_append, List.count_append]
            simp
            omega)
          refine ⟨.start :: .finish :: fs, t', by simp [f1], by simpa [requests] using f2, ?_, ?_⟩
          · rw [Task.run, hs]
            simp only [Option.bind_some]
            rw [Task.run, hs2]; exact f3
          · rw [List.append_cons, List.append_cons]; exact f4
  exact key _ es t i hf rfl

/-- **C82**: when the shutdown has returned, every request has been answered. -/
theorem C82_shutdown {es : List Event} {t : Task} (h : Task.new.run es = some t)
    (hs : t.shutdownResult = some (.ok ())) : Event.fail ∉ es ∧ finishes es = (requests es).length := by
  have i := tinv_reach h
  unfold Task.shutdownResult at hs
  split at hs
  · cases hs
  · split at hs
    · cases hs
    · rename_i ha
      simp only [Bool.not_eq_false] at ha
      split at hs
      · rename_i hx
        obtain ⟨h1, h2, -⟩ := i.ended hx
        refine ⟨i.failed.1 ha, ?_⟩
        have h3 := i.order ha
        rw [h1, h2] at h3
        have := congrArg List.length h3
        rw [List.length_drop] at this
        have := i.le ha
        simp at *
        omega
      · cases hs

/-- **C82 is violated** once a pass has ended with an error (a device that fails is enough): no later
or waiting request is ever answered, every later call panics, and so does the shutdown. -/
theorem C82_error_is_final {es fs : List Event} {t t' : Task} (h : Task.new.run es = some t)
    (hf : Event.fail ∈ es) (h' : t.run fs = some t') :
    finishes (es ++ fs) = finishes es ∧ starts (es ++ fs) = starts es ∧
    t'.panics = t.panics + (requests fs).length ∧ (t'.opened = false → t'.shutdownResult = some .panic) := by
  have hdead : ∀ (fs es : List Event) (t t' : Task), TInv es t → t.alive = false → t.run fs = some t' →
      finishes (es ++ fs) = finishes es ∧ starts (es ++ fs) = starts es ∧
      t'.panics = t.panics + (requests fs).length ∧ t'.alive = false := by
    intro fs
    induction fs with
    | nil => intro es t t' _ ha h; cases h; simp [requests, ha]
    | cons e fs ih =>
      intro es t t' i ha h
      obtain ⟨hb, hq, hx⟩ := i.quiet ha
      rw [Task.run] at h
      cases h1 : t.step e with
      | none => rw [h1] at h; cases h
      | some t1 =>
        rw [h1] at h
        have i1 := i.step h1
        have hal : t1.alive = false := by
          cases hc : t1.alive with
          | false => rfl
          | true =>
            have := i1.failed.1 hc
            have h2 : Event.fail ∉ es := fun hm => this (List.mem_append_left _ hm)
            rw [i.failed.2 h2] at ha
            cases ha
        obtain ⟨r1, r2, r3, r4⟩ := ih (es ++ [e]) t1 t' i1 hal h
        rw [List.append_assoc, List.singleton_append] at r1 r2
        unfold Task.step at h1
        unfold finishes starts at *
        cases e with
        | request j =>
          dsimp only at h1
          split at h1
          · rw [if_neg (by simp [ha])] at h1
            cases h1
            refine ⟨by rw [r1, List.count_append]; rfl, by rw [r2, List.count_append]; rfl, ?_, r4⟩
            rw [r3]
            simp [requests]
            omega
          · cases h1
        | start => simp [ha] at h1
        | finish => simp [hb] at h1
        | fail => simp [hb] at h1
        | close =>
          dsimp only at h1
          split at h1
          · cases h1
            refine ⟨by rw [r1, List.count_append]; rfl, by rw [r2, List.count_append]; rfl, ?_, r4⟩
            rw [r3]; rfl
          · cases h1
        | exit => simp [ha] at h1
  have i := tinv_reach h
  have ha : t.alive = false := by
    cases hc : t.alive with
    | false => rfl
    | true => exact absurd hf (i.failed.1 hc)
  obtain ⟨r1, r2, r3, r4⟩ := hdead fs es t t' i ha h'
  refine ⟨r1, r2, r3, ?_⟩
  intro ho
  unfold Task.shutdownResult
  rw [if_neg (by simp [ho]), if_pos r4]

example : (Task.new.run [.request 7, .request 8, .start, .finish, .request 9, .start, .finish]).map
    (fun t => (t.busy, t.queue)) = some (none, [9]) := rfl

example : (Task.new.run [.request 7, .request 8, .start, .finish, .close, .start, .finish, .exit]).map
    Task.shutdownResult = some (some (.ok ())) := rfl

example : (Task.new.run [.request 7, .request 8, .start, .fail, .request 9, .close]).map
    (fun t => (t.panics, t.shutdownResult)) = some (1, some .panic) := rfl

end Verif.Cleaner
