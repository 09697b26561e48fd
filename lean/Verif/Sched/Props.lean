import Verif.Sched.Merge

/-!
# The block scheduler: C20–C23 and C61
-/

namespace Verif.Sched

theorem nodup_of_ids {l : List BlockOp} (h : ∀ (k : Nat) op, l[k]? = some op → op.senders = [k]) :
    l.Nodup := by
  rw [List.Nodup, List.pairwise_iff_getElem]
  intro i j hi hj hij heq
  have h1 := h i _ (List.getElem?_eq_getElem hi)
  have h2 := h j _ (List.getElem?_eq_getElem hj)
  rw [heq, h2] at h1
  simp at h1
  omega

theorem popped_eq (s : S) : popped s = handled s ++ refused s := by
  unfold popped handled refused logParts
  rfl

theorem SInv.perm {c s} (h : SInv c s) : (handled s ++ refused s ++ waiting s).Perm s.subm := by
  obtain ⟨m, h1, h2⟩ := h.q.split
  rw [popped_eq] at h2
  unfold waiting
  rw [← List.append_assoc, h1]
  have := List.Perm.append_right (s.subm.drop m) h2
  rwa [List.take_append_drop] at this

/-- C20: in every state reachable by any sequence of submissions, completions, device
refusals and reschedulings, the operations that were submitted are exactly those that
were handed to the device (or aborted by a removal), the one the device refused and that
will be retried, and those still waiting.  None is lost, and none appears twice. -/
theorem C20_exactly_once {c s} (h : Reach c s) :
    (handled s ++ refused s ++ waiting s).Perm s.subm ∧
    (handled s ++ refused s ++ waiting s).Nodup := by
  have hi := h.inv
  refine ⟨hi.perm, ?_⟩
  rw [hi.perm.nodup_iff]
  exact nodup_of_ids hi.q.ids

/-- C20: unless the device is removed, everything that left the scheduler was accepted by the
device; and the waiters told about a request are exactly those of the operations it was
made from, so every waiter hears exactly once. -/
theorem C20_all_issued {c s} (h : Reach c s) :
    (s.remover = false → s.removed = false → ∀ e ∈ s.log, e.1 = Fate.issued) ∧
    (s.flight ++ s.done).Perm ((s.log.filter (fun e => e.1 == .issued)).map (·.2)) ∧
    (∀ e ∈ s.log, e.2.op.senders = e.2.parts.flatMap BlockOp.senders) :=
  ⟨h.inv.noAbort, h.inv.account, fun e he => (h.inv.logMerged e he).facts.senders⟩

/-- C20: the scheduler never stops with work to do.  As long as an operation has not been
handed to the device, either the device is still busy with an earlier one, whose
completion runs the scheduler again, or a rescheduling is due.  (`optimum_queue_depth` is
10 for a `VdevFile`, vdev_file.rs:160-163.) -/
theorem C20_never_stalls {c s} (h : Reach c s) (hopt : 2 ≤ c.opt)
    (hr : s.remover = false) (hd : s.removed = false)
    (hp : ∃ op ∈ s.subm, op ∉ handled s) : s.flight ≠ [] ∨ 0 < s.wakes := by
  refine h.live hopt hr hd ?_
  obtain ⟨op, h1, h2⟩ := hp
  have h3 := (C20_exactly_once h).1.mem_iff.mpr h1
  rw [List.append_assoc] at h3
  rcases List.mem_append.mp h3 with h3 | h3
  · exact absurd h3 h2
  rcases List.mem_append.mp h3 with h3 | h3
  · right
    intro hn
    simp [refused, hn] at h3
  · left
    intro hn
    rw [show queued s.q = waiting s from rfl] at hn
    rw [hn] at h3; cases h3

/-- C20: once the device is idle and no rescheduling is due, every submitted operation has
been issued exactly once and its waiter has been told. -/
theorem C20_quiet_complete {c s} (h : Reach c s) (hopt : 2 ≤ c.opt)
    (hr : s.remover = false) (hd : s.removed = false)
    (hf : s.flight = []) (hw : s.wakes = 0) :
    (handled s).Perm s.subm ∧ (∀ e ∈ s.log, e.1 = Fate.issued ∧ e.2 ∈ s.done) := by
  have hall : ∀ op ∈ s.subm, op ∈ handled s := by
    intro op hop
    refine Decidable.byContradiction fun hn => ?_
    rcases C20_never_stalls h hopt hr hd ⟨op, hop, hn⟩ with h1 | h1
    · exact h1 hf
    · omega
  obtain ⟨h1, h2⟩ := C20_exactly_once h
  refine ⟨?_, ?_⟩
  · have h3 : refused s ++ waiting s = [] := by
      rcases hl : refused s ++ waiting s with _ | ⟨a, l⟩
      · rfl
      · exfalso
        rw [List.append_assoc, hl] at h1 h2
        have ha : a ∈ handled s := hall a (h1.mem_iff.mp (by simp))
        rw [List.nodup_append] at h2
        exact h2.2.2 a ha a (by simp) rfl
    rw [List.append_assoc, h3, List.append_nil] at h1
    exact h1
  · intro e he
    have h3 := h.inv.noAbort hr hd e he
    refine ⟨h3, ?_⟩
    have h4 := h.inv.account
    rw [hf, List.nil_append] at h4
    refine h4.mem_iff.mpr ?_
    refine List.mem_map.mpr ⟨e, List.mem_filter.mpr ⟨he, by simp [h3]⟩, rfl⟩

/-- C20: no `unwrap` of the queue code fails: `pop_op` never finds `after_sync` empty while
syncing, and whatever `peek_op` shows can be popped. -/
theorem C20_no_panic {c s} (h : Reach c s) :
    ¬ PopPanics s.q ∧ ∀ op, Peek s.q op → ∃ q', Pop s.q op q' :=
  ⟨h.inv.q.no_panic, fun _ hp => h.inv.q.pop_of_peek hp⟩

/-- The position of an operation in the order of submission names it. -/
theorem handled_split {s : S} {y} (hy : y ∈ handled s) :
    ∃ l1 l2, popped s = l1 ++ y :: l2 ∧ ∃ l3, handled s = l1 ++ y :: l3 := by
  obtain ⟨a, b, hab⟩ := List.append_of_mem hy
  exact ⟨a, b ++ refused s, by rw [popped_eq, hab]; simp, b, hab⟩

/-- C21: let `y` be submitted after `x`, and let one of them be a `sync_all`.  If `y` has
been issued, then `x` was issued before it. -/
theorem C21_sync_is_barrier {c s} (h : Reach c s) (i j : Nat) (x y : BlockOp)
    (hx : s.subm[i]? = some x) (hy : s.subm[j]? = some y) (hij : i < j)
    (hs : x.cmd = .syncAll ∨ y.cmd = .syncAll) (hyi : y ∈ handled s) :
    Before (handled s) x y := by
  obtain ⟨l1, l2, h1, l3, h2⟩ := handled_split hyi
  have := h.inv.q.barrier l1 y l2 h1 i j x hx hy hij
    (by rcases hs with hs | hs <;> rw [hs] <;> simp [Cmd.isSync])
  exact ⟨l1, y :: l3, h2, this, by simp⟩

/-- C21: a `sync_all` is never merged into a request together with anything else than
another `sync_all`. -/
theorem C21_sync_requests {c s} (h : Reach c s) (e : Fate × Io) (he : e ∈ s.log)
    (p : BlockOp) (hp : p ∈ e.2.parts) (hs : p.cmd = .syncAll) :
    e.2.op.cmd = .syncAll ∧ ∀ p' ∈ e.2.parts, p'.cmd = .syncAll := by
  have hf := (h.inv.logMerged e he).facts
  have hk : ∀ c : Cmd, kind c = .sync → c = .syncAll := by
    intro c hc; cases c <;> simp [kind] at hc; rfl
  have h1 : kind e.2.op.cmd = .sync := by rw [← hf.kinds p hp, hs]; rfl
  exact ⟨hk _ h1, fun p' hp' => hk _ ((hf.kinds p' hp').trans h1)⟩

/-- C22, the general statement: writes (or any other operations) submitted in increasing
LBA order are issued in that order, unless some other operation whose LBA lies between
them was issued before. -/
theorem C22_lba_order_partial {c s} (h : Reach c s) (i j : Nat) (x y : BlockOp)
    (hx : s.subm[i]? = some x) (hy : s.subm[j]? = some y) (hij : i < j)
    (hxs : x.cmd ≠ .syncAll) (hys : y.cmd ≠ .syncAll)
    (hl : x.lba < y.lba) (hyi : y ∈ handled s) :
    Before (handled s) x y ∨
    ∃ z, z.cmd ≠ .syncAll ∧ x.lba < z.lba ∧ z.lba ≤ y.lba ∧ z ≠ y ∧ Before (handled s) z y := by
  have hns : ∀ c : Cmd, c ≠ .syncAll → c.isSync = false := by
    intro c hc; cases c <;> simp_all [Cmd.isSync]
  obtain ⟨l1, l2, h1, l3, h2⟩ := handled_split hyi
  rcases h.inv.q.clook l1 y l2 h1 i j x hx hy hij (hns _ hxs) (hns _ hys) hl with h3 | ⟨z, h3, h4, h5, h6⟩
  · exact Or.inl ⟨l1, y :: l3, h2, h3, by simp⟩
  · refine Or.inr ⟨z, ?_, h5, h6, ?_, l1, y :: l3, h2, h3, by simp⟩
    · intro hc; rw [hc] at h4; simp [Cmd.isSync] at h4
    · rintro rfl
      have hnd : (handled s).Nodup := by
        have := (C20_exactly_once h).2
        rw [List.append_assoc, List.nodup_append] at this
        exact this.1
      rw [h2, List.nodup_append] at hnd
      exact hnd.2.2 z h3 z (by simp) rfl

/-- C22 for a zone: if nothing is submitted for an LBA of the range ahead of a pending or later
write below it (the discipline of a zone's write pointer), then the writes of that range, and
every operation beyond them, are issued in increasing LBA order.  What is missing for the full
claim: `erase_zone` and `finish_zone` are queued under the zone's last LBA, so the range must
leave that LBA out; `C22_last_lba_first` shows that it cannot be included. -/
theorem C22_zone_order_partial {c s} (h : Reach c s) (lo hi : Nat)
    (hw : WritePointerOrder s.subm lo hi) (i j : Nat) (x y : BlockOp)
    (hx : s.subm[i]? = some x) (hy : s.subm[j]? = some y)
    (hkx : kind x.cmd = .write) (hys : y.cmd ≠ .syncAll)
    (hlo : lo ≤ x.lba) (hl : x.lba < y.lba) (hhi : y.lba ≤ hi)
    (hyi : y ∈ handled s) : Before (handled s) x y := by
  have hns : ∀ c : Cmd, c ≠ .syncAll → c.isSync = false := by
    intro c hc; cases c <;> simp_all [Cmd.isSync]
  have hxs : x.cmd ≠ .syncAll := by intro hc; rw [hc] at hkx; cases hkx
  -- strong induction on the position of `y`
  have key : ∀ n : Nat, ∀ l1 y l2 (j : Nat), l1.length ≤ n → popped s = l1 ++ y :: l2 →
      s.subm[j]? = some y → y.cmd.isSync = false → x.lba < y.lba → y.lba ≤ hi → x ∈ l1 := by
    intro n
    induction n with
    | zero =>
      intro l1 y l2 j hn hp hj hsy hl hhi
      have hij := hw i j x y hx hj hkx hsy hlo hl hhi
      rcases h.inv.q.clook l1 y l2 hp i j x hx hj hij (hns _ hxs) hsy hl with h3 | ⟨z, h3, _⟩
      · exact h3
      · have : l1 = [] := List.eq_nil_of_length_eq_zero (by omega)
        rw [this] at h3; cases h3
    | succ n ih =>
      intro l1 y l2 j hn hp hj hsy hl hhi
      have hij := hw i j x y hx hj hkx hsy hlo hl hhi
      rcases h.inv.q.clook l1 y l2 hp i j x hx hj hij (hns _ hxs) hsy hl with
        h3 | ⟨z, h3, h4, h5, h6⟩
      · exact h3
      · obtain ⟨a, b, hab⟩ := List.append_of_mem h3
        have hz : z ∈ popped s := by rw [hp, hab]; simp
        obtain ⟨k, hk, _⟩ := h.inv.q.idx (x := z) (List.mem_append_left _ hz)
        have := ih a z (b ++ y :: l2) k (by rw [hab] at hn; simp at hn; omega)
          (by rw [hp, hab]; simp) hk h4 h5 (by omega)
        rw [hab]; simp [this]
  obtain ⟨l1, l2, h1, l3, h2⟩ := handled_split hyi
  exact ⟨l1, y :: l3, h2, key l1.length l1 y l2 j (Nat.le_refl _) h1 hy (hns _ hys) hl hhi, by simp⟩

/-- C23: every request the device receives has, for any contents of the device, the same
effect on the contents and fills the callers' buffers with the same bytes as the submitted
operations it stands for, performed one after the other.  (Lengths are whole numbers of
LBAs, which `VdevFile` asserts: vdev_file.rs:369, 468.) -/
theorem C23_same_bytes {c s} (h : Reach c s) (e : Fate × Io) (he : e ∈ s.log)
    (ha : ∀ op ∈ s.subm, bytes op.cmd % lbaBytes = 0) (disk : Disk) :
    perform disk e.2.op = performAll disk e.2.parts ∧ ∀ p ∈ e.2.parts, p ∈ s.subm := by
  have hsub : ∀ p ∈ e.2.parts, p ∈ s.subm := by
    intro p hp
    refine h.inv.perm.mem_iff.mp ?_
    refine List.mem_append_left _ (List.mem_append_left _ ?_)
    exact List.mem_flatMap.mpr ⟨e, he, hp⟩
  exact ⟨((h.inv.logMerged e he).facts.same disk (fun p hp => ha p (hsub p hp))).2, hsub⟩

/-- C23: only adjacent operations of the same kind are merged: all parts of a request have
its kind, and each read or write starts at the byte where the one before it ends.  An
operation that is neither read, write nor sync is issued unchanged. -/
theorem C23_only_adjacent {c s} (h : Reach c s) (e : Fate × Io) (he : e ∈ s.log)
    (ha : ∀ op ∈ s.subm, bytes op.cmd % lbaBytes = 0) :
    (∀ p ∈ e.2.parts, kind p.cmd = kind e.2.op.cmd) ∧
    (kind e.2.op.cmd ≠ .sync → ∀ l1 a b l2, e.2.parts = l1 ++ a :: b :: l2 →
      b.lba * lbaBytes = a.lba * lbaBytes + bytes a.cmd) ∧
    (kind e.2.op.cmd = .other → e.2.parts = [e.2.op]) := by
  have hm := h.inv.logMerged e he
  have hf := hm.facts
  have hb : ∀ p ∈ e.2.parts, bytes p.cmd % lbaBytes = 0 := fun p hp =>
    ha p ((C23_same_bytes h e he ha (fun _ => 0)).2 p hp)
  refine ⟨hf.kinds, fun hk => (hf.adjacent hb hk).1, ?_⟩
  intro hk
  generalize e.2 = io at hm hk
  cases hm with
  | one op => rfl
  | more hm hc =>
    exfalso
    simp only at hk
    rw [accumulate_kind hc] at hk
    rcases (canAccumulate_spec hc).2.1 with h1 | h1 | h1 <;> rw [h1] at hk <;> cases hk

/-- C23: merging never builds a request with more than `IOV_MAX` scatter-gather elements. -/
theorem C23_iov_max {c s} (h : Reach c s) (e : Fate × Io) (he : e ∈ s.log) (k : Nat)
    (hk : c.iovMax = some k) (h2 : 2 ≤ k) (ha : ∀ op ∈ s.subm, iovecs op.cmd ≤ k) :
    iovecs e.2.op.cmd ≤ k := by
  have hm := h.inv.logMerged e he
  have hsub : ∀ p ∈ e.2.parts, p ∈ s.subm := by
    intro p hp
    refine h.inv.perm.mem_iff.mp ?_
    refine List.mem_append_left _ (List.mem_append_left _ ?_)
    exact List.mem_flatMap.mpr ⟨e, he, hp⟩
  generalize e.2 = io at hm hsub
  cases hm with
  | one op => exact ha op (hsub op (by simp))
  | more hm hc => exact accumulate_iovecs hk h2 hc

/-! ## Concrete histories -/

section Examples

/-- A device with room for two requests. -/
def exCfg : Cfg := { iovMax := some 1024, opt := 2 }

def rd (n lba : Nat) : BlockOp := ⟨lba, .readAt 4096, [n]⟩
def wr (n lba : Nat) (d : List Byte) : BlockOp := ⟨lba, .writeAt d, [n]⟩
def er (n start last : Nat) : BlockOp := ⟨last, .eraseZone start, [n]⟩
def sy (n : Nat) : BlockOp := ⟨0, .syncAll, [n]⟩
def io1 (op : BlockOp) : Io := ⟨op, [op]⟩

/-- A read that is still running, an erase of the zone `[1, 3]` that has completed, a running
`sync_all`, and then two writes to the erased zone, in LBA order. -/
def exQueue (d1 d3 : List Byte) : S where
  q := { lastLba := 3, ahead := [wr 4 3 d3], behind := [wr 3 1 d1] }
  depth := 2
  flight := [io1 (rd 0 0), io1 (sy 2)]
  wakes := 1
  subm := [rd 0 0, er 1 1 3, sy 2, wr 3 1 d1, wr 4 3 d3]
  log := [(.issued, io1 (rd 0 0)), (.issued, io1 (er 1 1 3)), (.issued, io1 (sy 2))]
  done := [io1 (er 1 1 3)]

theorem isTop_singleton (op : BlockOp) : IsTop op [op] := by
  refine ⟨by simp, ?_⟩
  intro x hx
  have : x = op := by simpa using hx
  subst this
  simp [BlockOp.above]

theorem exQueue_reach (d1 d3 : List Byte) : Reach exCfg (exQueue d1 d3) := by
  have h1 : Reach exCfg
      { depth := 1, flight := [io1 (rd 0 0)], subm := [rd 0 0],
        log := [(.issued, io1 (rd 0 0))] } := by
    refine .step .init (.submit (rd 0 0) rfl ?_)
    refine .pending (io := io1 (rd 0 0)) (by decide)
      (.pop rfl (.ahead (isTop_singleton _)) (.none ⟨rfl, rfl, rfl⟩)) rfl ?_
    exact .idle (by decide) rfl ⟨rfl, rfl, rfl⟩
  have h2 : Reach exCfg
      { q := { lastLba := 3 }, depth := 2, flight := [io1 (rd 0 0), io1 (er 1 1 3)],
        subm := [rd 0 0, er 1 1 3],
        log := [(.issued, io1 (rd 0 0)), (.issued, io1 (er 1 1 3))] } := by
    refine .step h1 (.submit (er 1 1 3) rfl ?_)
    refine .pending (io := io1 (er 1 1 3)) (by decide)
      (.pop rfl (.ahead (isTop_singleton _)) (.none ⟨rfl, rfl, rfl⟩)) rfl ?_
    exact .full (by decide)
  have h3 : Reach exCfg
      { q := { lastLba := 3 }, depth := 1, flight := [io1 (rd 0 0)],
        subm := [rd 0 0, er 1 1 3], wakes := 1, done := [io1 (er 1 1 3)],
        log := [(.issued, io1 (rd 0 0)), (.issued, io1 (er 1 1 3))] } :=
    .step h2 (.complete (io1 (er 1 1 3)) (by simp) (by decide))
  have h4 : Reach exCfg
      { q := { lastLba := 3 }, depth := 2, flight := [io1 (rd 0 0), io1 (sy 2)],
        subm := [rd 0 0, er 1 1 3, sy 2], wakes := 1, done := [io1 (er 1 1 3)],
        log := [(.issued, io1 (rd 0 0)), (.issued, io1 (er 1 1 3)), (.issued, io1 (sy 2))] } := by
    refine .step h3 (.submit (sy 2) rfl ?_)
    refine .pending (io := io1 (sy 2)) (by decide)
      (.pop rfl (.sync rfl rfl rfl rfl) (.none ⟨rfl, rfl, rfl⟩)) rfl ?_
    exact .full (by decide)
  have h5 : Reach exCfg
      { q := { lastLba := 3, behind := [wr 3 1 d1] }, depth := 2,
        flight := [io1 (rd 0 0), io1 (sy 2)],
        subm := [rd 0 0, er 1 1 3, sy 2, wr 3 1 d1], wakes := 1, done := [io1 (er 1 1 3)],
        log := [(.issued, io1 (rd 0 0)), (.issued, io1 (er 1 1 3)), (.issued, io1 (sy 2))] } :=
    .step h4 (.submit (wr 3 1 d1) rfl (.full (Nat.le_refl 2)))
  exact .step h5 (.submit (wr 4 3 d3) rfl (.full (Nat.le_refl 2)))

/-- The state of `exQueue` is reachable and not trivial: three operations were issued and two
are waiting. -/
example : Reach exCfg (exQueue [] []) ∧ handled (exQueue [] []) = [rd 0 0, er 1 1 3, sy 2] ∧
    (∃ op ∈ (exQueue [] []).subm, op ∉ handled (exQueue [] [])) :=
  ⟨exQueue_reach _ _, by decide, wr 3 1 [], by decide, by decide⟩

/-- C22 fails: two writes to an erased zone, submitted in LBA order, reach the device in the
opposite order.  The erase left the head at the zone's last LBA, so the write of that LBA
counts as lying ahead of it and overtakes the earlier one. -/
theorem C22_last_lba_first (d1 d3 : List Byte) :
    ∃ s, Reach exCfg s ∧ s.subm[3]? = some (wr 3 1 d1) ∧ s.subm[4]? = some (wr 4 3 d3) ∧
      wr 4 3 d3 ∈ handled s ∧ wr 3 1 d1 ∉ handled s := by
  have h6 : Reach exCfg
      { q := { lastLba := 3, ahead := [wr 4 3 d3], behind := [wr 3 1 d1] }, depth := 1,
        flight := [io1 (sy 2)],
        subm := [rd 0 0, er 1 1 3, sy 2, wr 3 1 d1, wr 4 3 d3], wakes := 2,
        done := [io1 (er 1 1 3), io1 (rd 0 0)],
        log := [(.issued, io1 (rd 0 0)), (.issued, io1 (er 1 1 3)), (.issued, io1 (sy 2))] } :=
    .step (exQueue_reach d1 d3) (.complete (io1 (rd 0 0)) (by simp [exQueue]) (show 1 ≤ 2 by decide))
  have h7 : Reach exCfg
      { q := { lastLba := 3, behind := [wr 3 1 d1] }, depth := 2,
        flight := [io1 (sy 2), io1 (wr 4 3 d3)],
        subm := [rd 0 0, er 1 1 3, sy 2, wr 3 1 d1, wr 4 3 d3], wakes := 1,
        done := [io1 (er 1 1 3), io1 (rd 0 0)],
        log := [(.issued, io1 (rd 0 0)), (.issued, io1 (er 1 1 3)), (.issued, io1 (sy 2)),
          (.issued, io1 (wr 4 3 d3))] } := by
    refine .step h6 (.resched (show 0 < 2 by decide) ?_)
    have hq : Pop { lastLba := 3, ahead := [wr 4 3 d3], behind := [wr 3 1 d1] } (wr 4 3 d3)
        { lastLba := 3, ahead := [], behind := [wr 3 1 d1] } := by
      have := Pop.ahead (q := { lastLba := 3, ahead := [wr 4 3 d3], behind := [wr 3 1 d1] })
        (isTop_singleton (wr 4 3 d3))
      simpa [wr] using this
    refine .pending (io := io1 (wr 4 3 d3)) (show 1 < 2 by decide)
      (.pop rfl hq (.stop (.behind rfl (isTop_singleton _)) ?_)) rfl ?_
    · simp only [canAccumulate, wr]
      generalize d3.length / lbaBytes = n
      exact decide_eq_false (by omega)
    · exact .full (Nat.le_refl 2)
  refine ⟨_, h7, rfl, rfl, ?_, ?_⟩
  · simp [handled, io1]
  · simp [handled, io1, rd, er, sy, wr]

/-- The hypotheses of `C22_zone_order_partial` are met by writes that fill the zone up to its
last LBA but one. -/
example (d1 d2 : List Byte) :
    WritePointerOrder [rd 0 0, er 1 1 3, sy 2, wr 3 1 d1, wr 4 2 d2] 1 2 := by
  intro i j x c hi hj hk hs hlo hl hhi
  have hi' : i < 5 := by simpa using idx_lt hi
  have hj' : j < 5 := by simpa using idx_lt hj
  match i, j, hi', hj' with
  | 0, _, _, _ => simp at hi; subst hi; simp [rd, kind] at hk
  | 1, _, _, _ => simp at hi; subst hi; simp [er, kind] at hk
  | 2, _, _, _ => simp at hi; subst hi; simp [sy, kind] at hk
  | 4, 0, _, _ => simp at hi hj; subst hi hj; simp [rd, wr] at hl
  | 4, 1, _, _ => simp at hi hj; subst hi hj; simp [er] at hhi
  | 4, 2, _, _ => simp at hi hj; subst hi hj; simp [sy, wr] at hl
  | 4, 3, _, _ => simp at hi hj; subst hi hj; simp [wr] at hl
  | 4, 4, _, _ => simp at hi hj; subst hi hj; simp [wr] at hl
  | 3, 0, _, _ => simp at hi hj; subst hi hj; simp [rd, wr] at hl
  | 3, 1, _, _ => simp at hi hj; subst hi hj; simp [er] at hhi
  | 3, 2, _, _ => simp at hi hj; subst hi hj; simp [sy, wr] at hl
  | 3, 3, _, _ => simp at hi hj; subst hi hj; simp [wr] at hl
  | 3, 4, _, _ => decide

/-- Two adjacent reads are merged into one request that has both waiters. -/
example : ∃ s, Reach exCfg s ∧
    (.issued, ⟨⟨7, .readvAt [4096, 4096], [2, 3]⟩, [rd 2 7, rd 3 8]⟩) ∈ s.log := by
  have h1 : Reach exCfg
      { depth := 1, flight := [io1 (rd 0 0)], subm := [rd 0 0],
        log := [(.issued, io1 (rd 0 0))] } := by
    refine .step .init (.submit (rd 0 0) rfl ?_)
    refine .pending (io := io1 (rd 0 0)) (by decide)
      (.pop rfl (.ahead (isTop_singleton _)) (.none ⟨rfl, rfl, rfl⟩)) rfl ?_
    exact .idle (by decide) rfl ⟨rfl, rfl, rfl⟩
  have h2 : Reach exCfg
      { q := { lastLba := 3 }, depth := 2, flight := [io1 (rd 0 0), io1 (rd 1 3)],
        subm := [rd 0 0, rd 1 3],
        log := [(.issued, io1 (rd 0 0)), (.issued, io1 (rd 1 3))] } := by
    refine .step h1 (.submit (rd 1 3) rfl ?_)
    refine .pending (io := io1 (rd 1 3)) (by decide)
      (.pop rfl (.ahead (isTop_singleton _)) (.none ⟨rfl, rfl, rfl⟩)) rfl ?_
    exact .full (by decide)
  have h3 := Reach.step h2 (.submit (rd 2 7) rfl (.full (by decide)))
  have h4 := Reach.step h3 (.submit (rd 3 8) rfl (.full (by decide)))
  have h5 := Reach.step h4 (.complete (io1 (rd 1 3)) (by decide) (by decide))
  refine ⟨_, .step h5 (.resched (by decide) (.pending (by decide)
    (.pop (op := rd 2 7) rfl (.ahead ⟨by decide, ?_⟩)
      (.more (op2 := rd 3 8) (.ahead ⟨by decide, ?_⟩) (by decide) (.ahead ⟨by decide, ?_⟩)
        (.none ⟨rfl, rfl, rfl⟩))) rfl (.full (by decide)))), ?_⟩
  · intro x hx
    have : x = rd 3 8 ∨ x = rd 2 7 := by simpa [finish, sched, rd, Cmd.isSync] using hx
    rcases this with rfl | rfl <;> simp [BlockOp.above, rd]
  · intro x hx
    have : x = rd 3 8 := by simpa [finish, sched, rd, Cmd.isSync] using hx
    subst this; simp [BlockOp.above]
  · intro x hx
    have : x = rd 3 8 := by simpa [finish, sched, rd, Cmd.isSync] using hx
    subst this; simp [BlockOp.above]
  · simp only [finish]
    decide

end Examples

end Verif.Sched
