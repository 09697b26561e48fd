import Verif.Mirror.Session

/-!
# Mirrors: C14, C15, C16 and C58
-/

namespace Verif.Mirror

/-! ### C14 -/

/-- C14: for every mirror, every starting point of the round robin and every pattern of
device answers, a read tries only present children, none of them twice; it returns the data
of a child it tried; it returns data if any present child can; and it returns an error only
if every present child was tried and failed, the error being that of one of them, or `ENXIO`
if there are none. -/
theorem C14_read {D : Type} (m : Mirror) (idx : Nat) (io : Nat → Except Err D) :
    (read m idx io).2.Nodup ∧
    (∀ i ∈ (read m idx io).2, stAt m i = some .present) ∧
    (∀ d, (read m idx io).1 = .ok d → ∃ i ∈ (read m idx io).2, io i = .ok d) ∧
    ((∃ i d, stAt m i = some .present ∧ io i = .ok d) → ∃ d, (read m idx io).1 = .ok d) ∧
    (∀ e, (read m idx io).1 = .error e →
      (∀ i, stAt m i = some .present → i ∈ (read m idx io).2 ∧ ∃ e', io i = .error e') ∧
      ((∃ i ∈ (read m idx io).2, io i = .error e) ∨
        (e = .enxio ∧ ∀ i, stAt m i ≠ some .present))) := by
  have key : ∀ r, read m idx io = r →
      r.2.Nodup ∧ (∀ i ∈ r.2, stAt m i = some .present) ∧
      (∀ d, r.1 = .ok d → ∃ i ∈ r.2, io i = .ok d) ∧
      (∀ e, r.1 = .error e →
        (∀ i, stAt m i = some .present → i ∈ r.2 ∧ ∃ e', io i = .error e') ∧
        ((∃ i ∈ r.2, io i = .error e) ∨ (e = .enxio ∧ ∀ i, stAt m i ≠ some .present))) := by
    intro r hr
    unfold read at hr
    split at hr
    · rename_i rest h
      subst hr
      have hn := readSomething_none h
      refine ⟨List.nodup_nil, by simp, by simp, ?_⟩
      intro e he
      refine ⟨fun i hi => absurd hi (hn i), Or.inr ⟨?_, hn⟩⟩
      simpa using he.symm
    · rename_i i rest h
      subst hr
      obtain ⟨h1, h2⟩ := readSomething_some h
      obtain ⟨l1, l2, l3, l4⟩ := readLoop_spec io i rest h1
      refine ⟨l1, fun j hj => (h2 j).mp (l2 j hj), l3, ?_⟩
      intro e he
      obtain ⟨k1, k2⟩ := l4 e he
      exact ⟨fun j hj => k2 j ((h2 j).mpr hj), Or.inl k1⟩
  obtain ⟨k1, k2, k3, k4⟩ := key _ rfl
  refine ⟨k1, k2, k3, ?_, k4⟩
  rintro ⟨i, d, hp, hio⟩
  cases hr : (read m idx io).1 with
  | ok d' => exact ⟨d', rfl⟩
  | error e =>
    obtain ⟨-, e', he'⟩ := (k4 e hr).1 i hp
    rw [hio] at he'
    cases he'

/-- C14: over consecutive reads the round robin gives each position its turn to be asked
first: the read whose counter is congruent to `i` starts with child `i` when it is
present. -/
theorem C14_round_robin {D : Type} (m : Mirror) (idx : Nat) (io : Nat → Except Err D)
    (hp : stAt m (idx % m.length) = some .present) :
    ((read m idx io).2).head? = some (idx % m.length) := by
  have hlt := stAt_lt hp
  have hf : ((List.range m.length).map fun j => (idx % m.length + j) % m.length).find?
      (fun i => (m[i]?.map Child.isPresent).getD false) = some (idx % m.length) := by
    obtain ⟨n, hn⟩ : ∃ n, m.length = n + 1 := ⟨m.length - 1, by omega⟩
    have h0 : (idx % m.length + 0) % m.length = idx % m.length := by
      rw [Nat.add_zero, Nat.mod_eq_of_lt hlt]
    have hr : List.range m.length = 0 :: (List.range n).map Nat.succ := by
      rw [hn]; exact List.range_succ_eq_map
    rw [hr, List.map_cons, List.find?_cons_of_pos]
    · rw [h0]
    · show (m[(idx % m.length + 0) % m.length]?.map Child.isPresent).getD false = true
      rw [h0]; exact (stAt_present_iff m _).mpr hp
  unfold read readSomething
  simp only [hf]
  unfold readLoop
  split
  · rfl
  · split <;> rfl

/-- C14: `read_long`, used when a checksum fails, yields the copy of every present child
that can be read and nothing else, or fails: with `EINTEGRITY` when there is at most one
present child, otherwise only if every present child failed. -/
theorem C14_read_long {D : Type} (m : Mirror) (order : List Nat) (io : Nat → Except Err D)
    (ho : ∀ i : Nat, i ∈ order ↔ stAt m i = some .present) (hn : order.Nodup) :
    (order.length ≤ 1 → readLong m order io = .error .eintegrity) ∧
    (∀ ds, readLong m order io = .ok ds →
      ∀ d, d ∈ ds ↔ ∃ i, stAt m i = some .present ∧ io i = .ok d) ∧
    (∀ e, readLong m order io = .error e → order.length ≤ 1 ∨
      ∀ i, stAt m i = some .present → ∃ e', io i = .error e') := by
  have hlen : (m.filter Child.isPresent).length = order.length := by
    have h1 : order.Perm (positions m .present) := by
      have hnp : (positions m .present).Nodup := List.nodup_range.filter _
      rw [List.perm_ext_iff_of_nodup hn hnp]
      intro i
      rw [ho, mem_positions]
    rw [h1.length_eq]
    unfold positions
    clear ho hn h1
    induction m with
    | nil => rfl
    | cons c m ih =>
      rw [List.length_cons, List.range_succ_eq_map]
      rw [List.filter_cons (xs := List.map _ _), List.filter_map, List.filter_cons]
      have : ((List.range m.length).filter ((fun i => ((c :: m)[i]?.map fun c => decide (c.st = .present)).getD false) ∘ Nat.succ))
          = (List.range m.length).filter fun i => (m[i]?.map fun c => decide (c.st = .present)).getD false := by
        apply List.filter_congr
        intro i _
        simp
      rw [this]
      have e1 : c.isPresent = (((c :: m)[0]?.map fun c => decide (c.st = .present)).getD false) := by
        unfold Child.isPresent
        rw [List.getElem?_cons_zero, Option.map_some, Option.getD_some]
        cases c.st <;> rfl
      rw [← e1]
      split <;> simp [ih]
  have hmem : ∀ d, d ∈ (order.map io).filterMap
      (fun x => match x with | .error _ => none | .ok d => some d) ↔
      ∃ i, stAt m i = some .present ∧ io i = .ok d := by
    intro d
    rw [List.mem_filterMap]
    constructor
    · rintro ⟨x, hx, hd⟩
      obtain ⟨i, hi, rfl⟩ := List.mem_map.mp hx
      refine ⟨i, (ho i).mp hi, ?_⟩
      split at hd
      · cases hd
      · rename_i d' h
        simp only [Option.some.injEq] at hd
        rw [h, hd]
    · rintro ⟨i, hi, hd⟩
      exact ⟨io i, List.mem_map.mpr ⟨i, (ho i).mpr hi, rfl⟩, by rw [hd]⟩
  refine ⟨?_, ?_, ?_⟩
  · intro h
    unfold readLong
    rw [if_pos (by omega)]
  · intro ds hds
    unfold readLong at hds
    split at hds
    · cases hds
    · simp only at hds
      split at hds
      · split at hds
        · cases hds
        · simp only [Except.ok.injEq] at hds
          subst hds
          exact hmem
      · simp only [Except.ok.injEq] at hds
        subst hds
        exact hmem
  · intro e he
    unfold readLong at he
    split at he
    · left; omega
    · right
      simp only at he
      split at he
      · split at he
        · rename_i hall
          intro i hi
          have := List.all_eq_true.mp hall (io i) (List.mem_map.mpr ⟨i, (ho i).mpr hi, rfl⟩)
          cases hio : io i with
          | error e' => exact ⟨e', rfl⟩
          | ok d => rw [hio] at this; cases this
        · cases he
      · cases he

/-- Three children of a mirror, the middle one faulted. -/
def m3 : Mirror := [⟨10, .present, 100, 50⟩, ⟨11, .faulted, 100, 50⟩, ⟨12, .present, 100, 50⟩]

/-- The first child fails, the last one is read instead. -/
example : read m3 0 (fun i => if i = 0 then .error (.eio 5) else .ok i) = (.ok 2, [0, 2]) := by
  simp [read, readSomething, readLoop, m3, Child.isPresent, List.range, List.range.loop]

example : (∀ i : Nat, i ∈ [2, 0] ↔ stAt m3 i = some .present) := by
  intro i
  match i with
  | 0 => simp [m3, stAt]
  | 1 => simp [m3, stAt]
  | 2 => simp [m3, stAt]
  | i + 3 => simp [m3, stAt]

/-! ### C15 -/

theorem repairRange_some {lim : Nat × Nat} {lbas : Option Nat} {start end_ : Nat}
    (h : repairRange lim lbas = some (start, end_)) :
    start = lim.1 ∧ end_ = repairEnd lim lbas ∧ (end_ ≤ lim.2 ∨ end_ = start) := by
  cases lbas with
  | none =>
    simp only [repairRange, Option.some.injEq] at h
    subst h
    exact ⟨rfl, rfl, Or.inl (Nat.le_refl _)⟩
  | some n =>
    simp only [repairRange] at h
    split at h
    · simp only [Option.some.injEq, Prod.mk.injEq] at h
      refine ⟨h.1.symm, h.2.symm, ?_⟩
      omega
    · cases h

/-- C15: whatever the outcome, a repair of a zone changes no child that is not rebuilding,
and nothing outside the range from the zone's start to the given length (or to its end). -/
theorem C15_nothing_else {B : Type} {m : Mirror} {idx : Nat} {lim : Nat × Nat} {lbas : Option Nat}
    {d d' : Disks B} {rd : Nat → Nat → Nat → Option (List B)} (hf : Faithful d rd)
    {r : List (Wr B) × Bool} {ok : Bool} (hr : repairZone m idx lim lbas rd = some r)
    (hd : Repaired d r ok d') {c a : Nat}
    (h : stAt m c ≠ some .rebuilding ∨ a < lim.1 ∨
      repairEnd lim lbas ≤ a ∨ lim.2 ≤ a) :
    d' c a = d c a := by
  have key : ∀ w ∈ r.1, ¬w.covers c a := by
    unfold repairZone at hr
    split at hr
    · rename_i start end_ hfp hrange
      have hse := repairRange_some hrange
      obtain ⟨h1, h2, h3⟩ := hse
      simp only at hr
      split at hr
      · simp only [Option.some.injEq] at hr
        subst hr
        simp
      · simp only [Option.some.injEq] at hr
        subst hr
        intro w hw hcov
        obtain ⟨w1, w2, w3, -⟩ := repair_writes hf _ _ _ _ _ w hw
        obtain ⟨c1, c2, c3⟩ := hcov
        rw [c1, mem_positions] at w1
        rcases h with h | h | h | h
        · exact h w1
        · omega
        · omega
        · omega
    · cases hr
  cases hd with
  | ok ws => exact applyAll_not ws key d
  | failed ws ws' b hs => exact applyAll_not ws' (fun w hw => key w (hs.subset hw)) d

/-- C15: if a repair reports success, then every rebuilding child holds, at every LBA of the
range, what a present child holds there. -/
theorem C15_copies {B : Type} {m : Mirror} {idx : Nat} {lim : Nat × Nat} {lbas : Option Nat}
    {d d' : Disks B} {rd : Nat → Nat → Nat → Option (List B)} (hf : Faithful d rd)
    {r : List (Wr B) × Bool} (hr : repairZone m idx lim lbas rd = some r)
    (hd : Repaired d r true d') {c a : Nat} (hc : stAt m c = some .rebuilding) (h1 : lim.1 ≤ a)
    (h2 : a < repairEnd lim lbas) :
    ∃ s, stAt m s = some .present ∧ d' c a = d s a := by
  cases hd with
  | ok ws =>
    unfold repairZone at hr
    split at hr
    · rename_i start end_ hfp hrange
      have hse := repairRange_some hrange
      obtain ⟨e1, e2, -⟩ := hse
      simp only at hr
      split at hr
      · rename_i hnil
        have := mem_positions.mpr hc
        rw [hnil] at this
        simp at this
      · simp only [Option.some.injEq, Prod.mk.injEq] at hr
        obtain ⟨rfl, hok⟩ := hr
        refine applyAll_covered _ (fun b => ∃ s, stAt m s = some .present ∧ b = d s a) ?_ d ?_
        · intro w hw hcov
          obtain ⟨-, -, -, s, hs, hv⟩ := repair_writes hf _ _ _ _ _ w hw
          obtain ⟨c1, c2, c3⟩ := hcov
          refine ⟨_, hv (a - w.lba) (by omega), s, mem_positions.mp hs, ?_⟩
          rw [show w.lba + (a - w.lba) = a by omega]
        · right
          exact repair_cover hf _ _ _ _ _ hok (mem_positions.mpr hc) (by omega) (by omega)
    · cases hr

/-- C15: when the present children agree on the range, the rebuilding children end up with
exactly that. -/
theorem C15_agree {B : Type} {m : Mirror} {idx : Nat} {lim : Nat × Nat} {lbas : Option Nat}
    {d d' : Disks B} {rd : Nat → Nat → Nat → Option (List B)} (hf : Faithful d rd)
    {r : List (Wr B) × Bool} (hr : repairZone m idx lim lbas rd = some r)
    (hd : Repaired d r true d') {data : Nat → B}
    (hagree : ∀ s, stAt m s = some .present → ∀ a, lim.1 ≤ a →
      a < repairEnd lim lbas → d s a = data a)
    {c : Nat} (hc : stAt m c = some .rebuilding ∨ stAt m c = some .present) {a : Nat}
    (h1 : lim.1 ≤ a) (h2 : a < repairEnd lim lbas) :
    d' c a = data a := by
  rcases hc with hc | hc
  · obtain ⟨s, hs, he⟩ := C15_copies hf hr hd hc h1 h2
    rw [he, hagree s hs a h1 h2]
  · rw [C15_nothing_else hf hr hd (Or.inl (by rw [hc]; simp)), hagree c hc a h1 h2]

/-- C15: a repair whose length fits the zone does not panic as long as one child is present,
and if no read of a present child within the range fails, its reader reaches the end, so
that only a failed write can make it fail. -/
theorem C15_no_read_error {B : Type} {m : Mirror} (idx : Nat) {lim : Nat × Nat} {lbas : Option Nat}
    {rd : Nat → Nat → Nat → Option (List B)} {p : Nat} (hp : stAt m p = some .present)
    (hl : ∀ n, lbas = some n → n ≤ lim.2 - lim.1)
    (h : ∀ c, stAt m c = some .present → ∀ a n, lim.1 ≤ a →
      a + n ≤ repairEnd lim lbas → (rd c a n).isSome = true) :
    ∃ ws, repairZone m idx lim lbas rd = some (ws, true) := by
  obtain ⟨cp, hcp⟩ : ∃ c, firstPresent m = some c := by
    unfold stAt at hp
    obtain ⟨c, hc, hs⟩ := Option.map_eq_some_iff.mp hp
    cases hf : firstPresent m with
    | some c => exact ⟨c, rfl⟩
    | none =>
      have := List.find?_eq_none.mp hf c (List.mem_of_getElem? hc)
      simp [Child.isPresent, hs] at this
  have hrange : repairRange lim lbas =
      some (lim.1, repairEnd lim lbas) := by
    cases lbas with
    | none => rfl
    | some n => exact if_pos (hl n rfl)
  unfold repairZone
  simp only [hcp, hrange]
  split
  · exact ⟨_, rfl⟩
  · have hok : (repairRead rd (positions m .present) idx lim.1 (repairEnd lim lbas)).2 = true := by
      apply repairRead_ok
      · intro he
        have := mem_positions.mpr hp
        rw [he] at this
        simp at this
      · intro c hc
        exact h c (mem_positions.mp hc)
    rw [hok]
    exact ⟨_, rfl⟩

/-- A mirror with one child being rebuilt. -/
def mr : Mirror := [⟨10, .present, 400, 200⟩, ⟨11, .rebuilding, 400, 200⟩, ⟨12, .present, 400, 200⟩]

/-- Reading disks whose contents at LBA `a` of child `c` is `1000 * c + a`. -/
def mrRead (c a n : Nat) : Option (List Nat) :=
  some ((List.range n).map fun k => 1000 * c + (a + k))

example : Faithful (fun c a => 1000 * c + a) mrRead := by
  intro c a n b h
  simpa [mrRead] using h.symm

example : stAt mr 1 = some .rebuilding ∧ stAt mr 0 = some .present := ⟨rfl, rfl⟩

/-- A zone of 200 LBAs written up to LBA 350: 150 LBAs are copied in three blocks. -/
example : (repairZone mr 0 (200, 400) (some 150) mrRead).map
    (fun r => (r.1.map fun w => (w.child, w.lba, w.data.length), r.2)) =
    some ([(1, 200, 64), (1, 264, 64), (1, 328, 22)], true) := by
  simp [repairZone, mr, firstPresent, Child.isPresent, repairRange, positions, List.range,
    List.range.loop, repairRead, BLOCK, mrRead, repairWrites]

/-! ### C58 -/

/-- C58: a command reaches exactly the present children, except for the labels written
during a repair, which go to exactly the rebuilding ones.  In particular no command reaches
a faulted or missing child. -/
theorem C58_commands (m : Mirror) (c : Cmd) (i : Nat) :
    i ∈ targets m c ↔
      stAt m i = some (if c = .writeLabel true then .rebuilding else .present) := by
  unfold targets stAt
  rw [List.mem_filter, List.mem_range]
  cases hc : m[i]? with
  | none => simp
  | some ch =>
    have := (List.getElem?_eq_some_iff.mp hc).1
    cases c with
    | writeLabel r => cases r <;> cases hs : ch.st <;> simp [this, Child.takes, Child.isPresent, Child.isRebuilding, hs]
    | _ => cases hs : ch.st <;> simp [this, Child.takes, Child.isPresent, hs]

/-- The child at position `i` is out of service: no read tries it, no command is sent to it
and no repair writes to it. -/
def OutOfService (m : Mirror) (i : Nat) : Prop :=
  (∀ (D : Type) (idx : Nat) (io : Nat → Except Err D), i ∉ (read m idx io).2) ∧
  (∀ c, i ∉ targets m c) ∧
  (∀ (B : Type) (idx : Nat) (lim : Nat × Nat) (lbas : Option Nat)
    (rd : Nat → Nat → Nat → Option (List B)) (r : List (Wr B) × Bool),
    repairZone m idx lim lbas rd = some r → ∀ w ∈ r.1, w.child ≠ i)

theorem repairWrites_child {B : Type} (wc : List Nat) (bs : List (List B)) (s : Nat) :
    ∀ w ∈ repairWrites wc s bs, w.child ∈ wc := by
  induction bs generalizing s with
  | nil => simp [repairWrites]
  | cons b bs ih =>
    intro w hw
    rcases List.mem_append.mp hw with hw | hw
    · obtain ⟨c, hc, rfl⟩ := List.mem_map.mp hw
      exact hc
    · exact ih _ w hw

theorem outOfService_of {m : Mirror} {i : Nat} (h1 : stAt m i ≠ some .present)
    (h2 : stAt m i ≠ some .rebuilding) : OutOfService m i := by
  refine ⟨?_, ?_, ?_⟩
  · intro D idx io hi
    exact h1 ((C14_read m idx io).2.1 i hi)
  · intro c hi
    rw [C58_commands] at hi
    split at hi
    · exact h2 hi
    · exact h1 hi
  · intro B idx lim lbas rd r hr w hw hwi
    unfold repairZone at hr
    split at hr
    · simp only at hr
      split at hr
      · simp only [Option.some.injEq] at hr
        subst hr
        simp at hw
      · simp only [Option.some.injEq] at hr
        subst hr
        have := repairWrites_child _ _ _ w hw
        rw [hwi, mem_positions] at this
        exact h2 this
    · cases hr

/-- The child at a position has gone through a history without a `rebuild` of its uuid: if
it was faulted or missing it still is. -/
theorem run_out {m m' : Mirror} {os : List Op} (h : run m os = some m') {i : Nat} {c : Child}
    (hc : m[i]? = some c) (hs : c.st = .faulted ∨ c.st = .missing)
    (hno : c.st = .missing ∨ Op.rebuild c.uuid ∉ os) :
    ∃ c', m'[i]? = some c' ∧ c'.uuid = c.uuid ∧ c'.st = c.st := by
  induction os generalizing m c with
  | nil =>
    simp only [run, Option.some.injEq] at h
    subst h
    exact ⟨c, hc, rfl, rfl⟩
  | cons o os ih =>
    simp only [run] at h
    obtain ⟨m1, h1, h2⟩ := Option.bind_eq_some_iff.mp h
    obtain ⟨c1, e1, e2, e3⟩ := step_at h1 hc
    have hst : c1.st = c.st := by
      rcases e3 with rfl | ⟨-, rfl⟩ | ⟨rfl, rfl⟩ | ⟨-, h3, -⟩
      · rfl
      · unfold Child.fault
        rcases hs with hs | hs <;> simp [hs]
      · rcases hno with hno | hno
        · unfold Child.rebuild
          simp [hno]
        · exact absurd List.mem_cons_self hno
      · rcases hs with hs | hs <;> rw [hs] at h3 <;> cases h3
    obtain ⟨c2, f1, f2, f3⟩ := ih h2 e1 (by rw [hst]; exact hs) (by
      rw [hst, e2]
      rcases hno with hno | hno
      · exact Or.inl hno
      · exact Or.inr fun hm => hno (List.mem_cons_of_mem _ hm))
    exact ⟨c2, f1, by rw [f2, e2], by rw [f3, hst]⟩

/-- C58: a missing child stays out of service for the rest of the session, whatever commands
are given. -/
theorem C58_missing {m m' : Mirror} {os : List Op} (h : run m os = some m') {i : Nat}
    (hs : stAt m i = some .missing) : OutOfService m' i ∧ stAt m' i = some .missing := by
  unfold stAt at hs
  obtain ⟨c, hc, hs⟩ := Option.map_eq_some_iff.mp hs
  obtain ⟨c', h1, -, h3⟩ := run_out h hc (Or.inr hs) (Or.inl hs)
  have hst : stAt m' i = some .missing := by unfold stAt; rw [h1, Option.map_some, h3, hs]
  exact ⟨outOfService_of (by rw [hst]; simp) (by rw [hst]; simp), hst⟩

/-- C58: once a child has been faulted it is out of service until a `rebuild` of it is
asked for, whatever other commands are given. -/
theorem C58_faulted {m m1 m' : Mirror} {os : List Op} {u : Nat} (hf : fault m u = .ok m1)
    (h : run m1 os = some m') (hno : Op.rebuild u ∉ os) :
    ∃ (i : Nat) (c : Child), m'[i]? = some c ∧ c.uuid = u ∧ OutOfService m' i := by
  have hfirst : ∃ (i : Nat) (c : Child), m1[i]? = some c ∧ c.uuid = u ∧ (c.st = .faulted ∨ c.st = .missing) := by
    unfold fault at hf
    split at hf
    · rename_i m2 h2
      simp only [Except.ok.injEq] at hf
      subst hf
      clear h
      induction m generalizing m2 with
      | nil => simp [updFirst] at h2
      | cons c m ih =>
        unfold updFirst at h2
        split at h2
        · rename_i hu
          simp only [Option.some.injEq] at h2
          subst h2
          refine ⟨0, c.fault, rfl, by rw [fault_uuid, hu], ?_⟩
          unfold Child.fault
          split <;> simp
        · obtain ⟨m3, h3, rfl⟩ := Option.map_eq_some_iff.mp h2
          obtain ⟨i, c', a1, a2, a3⟩ := ih m3 h3
          exact ⟨i + 1, c', a1, a2, a3⟩
    · cases hf
  obtain ⟨i, c, h1, h2, h3⟩ := hfirst
  obtain ⟨c', f1, f2, f3⟩ := run_out h h1 h3 (Or.inr (by rw [h2]; exact hno))
  have hst : stAt m' i = some c.st := by unfold stAt; rw [f1, Option.map_some, f3]
  refine ⟨i, c', f1, by rw [f2, h2], outOfService_of ?_ ?_⟩
  · rw [hst]; rcases h3 with h3 | h3 <;> rw [h3] <;> simp
  · rw [hst]; rcases h3 with h3 | h3 <;> rw [h3] <;> simp

/-- A child that goes from rebuilding to present does so through a `restore`. -/
theorem run_restored {m m' : Mirror} {os : List Op} (h : run m os = some m') {i : Nat} {c c' : Child}
    (hc : m[i]? = some c) (hc' : m'[i]? = some c') (hs : c.st ≠ .present) (hs' : c'.st = .present) :
    Op.restore ∈ os := by
  induction os generalizing m c with
  | nil =>
    simp only [run, Option.some.injEq] at h
    subst h
    rw [hc] at hc'
    simp only [Option.some.injEq] at hc'
    subst hc'
    exact absurd hs' hs
  | cons o os ih =>
    simp only [run] at h
    obtain ⟨m1, h1, h2⟩ := Option.bind_eq_some_iff.mp h
    obtain ⟨c1, e1, e2, e3⟩ := step_at h1 hc
    by_cases hp : c1.st = .present
    · rcases e3 with rfl | ⟨-, rfl⟩ | ⟨-, rfl⟩ | ⟨rfl, -, -⟩
      · exact absurd hp hs
      · exact absurd hp (fault_not_present c)
      · exact absurd (rebuild_present.mp hp) hs
      · exact List.mem_cons_self
    · exact List.mem_cons_of_mem _ (ih h2 e1 hp)

/-- C58: a faulted child that is in service later got there by a `rebuild` of it and then a
`restore`. -/
theorem C58_through_rebuilding {m m' : Mirror} {os : List Op} (h : run m os = some m') {i : Nat}
    {c c' : Child} (hc : m[i]? = some c) (hc' : m'[i]? = some c') (hs : c.st = .faulted)
    (hs' : c'.st = .present) :
    ∃ pre post, os = pre ++ .rebuild c.uuid :: post ∧ Op.restore ∈ post := by
  induction os generalizing m c with
  | nil =>
    simp only [run, Option.some.injEq] at h
    subst h
    rw [hc] at hc'
    simp only [Option.some.injEq] at hc'
    subst hc'
    rw [hs] at hs'
    cases hs'
  | cons o os ih =>
    simp only [run] at h
    obtain ⟨m1, h1, h2⟩ := Option.bind_eq_some_iff.mp h
    obtain ⟨c1, e1, e2, e3⟩ := step_at h1 hc
    by_cases hf : c1.st = .faulted
    · obtain ⟨pre, post, h3, h4⟩ := ih h2 e1 hf
      exact ⟨o :: pre, post, by rw [h3, e2]; rfl, h4⟩
    · rcases e3 with rfl | ⟨-, rfl⟩ | ⟨rfl, rfl⟩ | ⟨-, h3, -⟩
      · exact absurd hs hf
      · exact absurd (by unfold Child.fault; simp [hs]) hf
      · refine ⟨[], os, rfl, run_restored h2 e1 hc' ?_ hs'⟩
        rw [Ne, rebuild_present, hs]
        simp
      · rw [hs] at h3; cases h3

theorem sick_length (m : Mirror) :
    (m.filter fun c => decide (c.health ≠ .online)).length =
      (m.filter fun c => decide (c.st ≠ .present)).length := by
  congr 1
  apply List.filter_congr
  intro c _
  unfold Child.health
  cases c.st <;> simp

/-- C58: for mirrors of at most 256 children, the status is `Faulted` exactly when no child
is online, `Degraded(n)` exactly when `n > 0` children are not online but some are, and
`Online` exactly when all are.  Missing for the full statement: mirrors of more children,
for which it is false, see `C58_status_counterexample`. -/
theorem C58_status_partial (m : Mirror) (hm : m ≠ []) (hl : m.length ≤ 256) :
    (status m = .faultedInsufficient ↔ ∀ c ∈ m, c.st ≠ .present) ∧
    (status m = .online ↔ ∀ c ∈ m, c.st = .present) ∧
    (∀ n, status m = .degraded n ↔
      (m.filter fun c => decide (c.st ≠ .present)).length = n ∧ n ≠ 0 ∧ ∃ c ∈ m, c.st = .present) := by
  have hle := List.length_filter_le (fun c : Child => decide (c.st ≠ .present)) m
  have hall : (m.filter fun c => decide (c.st ≠ .present)).length = m.length ↔
      ∀ c ∈ m, c.st ≠ .present := by
    rw [List.length_filter_eq_length_iff]
    simp
  have hnone : (m.filter fun c => decide (c.st ≠ .present)).length = 0 ↔ ∀ c ∈ m, c.st = .present := by
    rw [List.length_eq_zero_iff, List.filter_eq_nil_iff]
    simp
  have hpos := List.length_pos_iff.mpr hm
  have hex : (∃ c ∈ m, c.st = .present) ↔ ¬∀ c ∈ m, c.st ≠ .present := by
    constructor
    · rintro ⟨c, h1, h2⟩ h3
      exact h3 c h1 h2
    · intro h
      exact Classical.byContradiction fun hne => h fun c hc hp => hne ⟨c, hc, hp⟩
  rw [← hall, ← hnone]
  simp only [hex, ← hall]
  unfold status
  simp only [sick_length]
  generalize (m.filter fun c => decide (c.st ≠ .present)).length = k at *
  by_cases h1 : k = m.length
  · rw [if_pos h1]
    refine ⟨by simp [h1], by simp; omega, ?_⟩
    intro n
    simp [h1]
  · rw [if_neg h1]
    have hk : k % 256 = k := Nat.mod_eq_of_lt (by omega)
    rw [hk]
    by_cases h0 : k = 0
    · rw [if_pos h0]
      refine ⟨by simp [h1], by simp [h0], ?_⟩
      intro n
      simp
      omega
    · rw [if_neg h0]
      refine ⟨by simp [h1], by simp [h0], ?_⟩
      intro n
      simp [h1]
      omega

/-- C58 fails for big mirrors: with 256 of 257 children missing the status is `Online`,
because the count is cut down to eight bits. -/
theorem C58_status_counterexample :
    ∃ m : Mirror, (m.filter fun c => decide (c.st ≠ .present)).length = 256 ∧
      m.length = 257 ∧ status m = .online := by
  refine ⟨⟨0, .present, 1, 1⟩ :: List.replicate 256 ⟨1, .missing, 1, 1⟩, ?_, ?_, ?_⟩
  · decide +kernel
  · decide +kernel
  · decide +kernel

/-- C58: faulting the only present child is accepted, and leaves a mirror on which zone
lookups, attaching and zone repair panic. -/
theorem C58_last_child_counterexample :
    ∃ m m' : Mirror, fault m 7 = .ok m' ∧ firstPresent m ≠ none ∧ firstPresent m' = none ∧
      attach m' 9 1 1 = none := by
  refine ⟨[⟨7, .present, 1, 1⟩], [⟨7, .faulted, 1, 1⟩], rfl, by simp [firstPresent, Child.isPresent],
    rfl, rfl⟩

example : run m3 [.rebuild 11, .restore] =
    some [⟨10, .present, 100, 50⟩, ⟨11, .present, 100, 50⟩, ⟨12, .present, 100, 50⟩] := by decide
example : fault m3 10 = .ok [⟨10, .faulted, 100, 50⟩, ⟨11, .faulted, 100, 50⟩, ⟨12, .present, 100, 50⟩] := by
  rfl
example : status m3 = .degraded 1 := by decide
example : run m3 [.fault 12, .rebuild 11, .attach 13 100 50, .restore, .attach 14 100 50] =
    some [⟨10, .present, 100, 50⟩, ⟨11, .present, 100, 50⟩, ⟨12, .faulted, 100, 50⟩,
      ⟨14, .rebuilding, 100, 50⟩] := by decide

/-! ### C16 -/

/-- C16, for histories in which some device `a` is always there and no session ends after
exactly one sync: at any point of any session, after any number of imports with any other
devices present or absent, faulted, rebuilt or attached, the contents of every child that is
in service reflect every sync.  Missing for the full statement: sessions of exactly one
sync, for which it is false (`C16_counterexample`), and mirrors no device of which was there
all along (`C16_split_brain_counterexample`). -/
theorem C16_in_service_current_partial {a : Nat} {w : World} (h : Hist a w) {c : Child}
    (hc : c ∈ w.m) (hs : c.st = .present) : (w.dev c.uuid).ver = w.ver := by
  obtain ⟨ta, hi⟩ := h.inv
  exact hi.ok c hc hs

/-- C16: in the same histories, a device that missed a sync is never present right after an
import, and the label that the import uses comes from a device that missed none. -/
theorem C16_import_partial {a : Nat} {w w' : World} (h : Hist a w) {avail : List Nat} {l : Nat}
    (ha : a ∈ avail) (hn : w.nsync ≠ 1) (hr : w.reopen avail = some (w', l)) :
    (w.dev l).ver = w.ver ∧
    ∀ c ∈ w'.m, (w.dev c.uuid).ver ≠ w.ver → c.st ≠ .present := by
  obtain ⟨ta, hi⟩ := h.inv
  obtain ⟨⟨cs, hl, hcs, hw⟩, hh⟩ := hi.reopen_facts ha hr
  constructor
  · rcases hi.eq l cs hl with h1 | h1
    · exact h1
    · exact absurd h1 hn
  · intro c hc hv hs
    have := C16_in_service_current_partial (h.reopen ha hn hr) hc hs
    rw [hw] at this
    exact hv this

/-- C16: an import in those histories always finds device `a` present, so it never fails
for want of a usable child. -/
theorem C16_import_succeeds {a : Nat} {w : World} (h : Hist a w) {avail : List Nat}
    (ha : a ∈ avail) : ∃ w' l, w.reopen avail = some (w', l) := by
  obtain ⟨ta, hi⟩ := h.inv
  obtain ⟨cs, hla⟩ := hi.lab
  have hmem : (⟨a, 0, 0, ta, cs⟩ : Leaf) ∈ leaves w avail :=
    List.mem_filterMap.mpr ⟨a, ha, by rw [hla]; rfl⟩
  have hh : highestTxg (leaves w avail) = ta := by
    obtain ⟨-, f2, f3⟩ := foldl_max (leaves w avail) 0
    apply Nat.le_antisymm
    · refine f3 ta (Nat.zero_le _) fun lf' hlf => ?_
      exact hi.le _ _ _ (mem_leaves hlf).2
    · exact f2 _ hmem
  have hfind : ∃ l, labelLeaf (leaves w avail) = some l := by
    unfold labelLeaf
    cases hf : (leaves w avail).find? _ with
    | some l => exact ⟨l, rfl⟩
    | none =>
      have := List.find?_eq_none.mp hf _ hmem
      simp [hh] at this
  obtain ⟨l, hl⟩ := hfind
  have hl1 := List.mem_of_find?_eq_some hl
  have hl2 : l.txg = highestTxg (leaves w avail) := by simpa using List.find?_some hl
  have hal : a ∈ l.children := hi.mem _ _ _ (mem_leaves hl1).2
  have hpa : (openChild (leaves w avail) a).st = .present := by
    apply openChild_of_all ⟨_, hmem, rfl⟩
    intro lf hlf hu
    have := (mem_leaves hlf).2
    rw [hu, hla] at this
    simp only [Option.some.injEq, Prod.mk.injEq] at this
    rw [hh]; exact this.1.symm
  have hgeo : ∀ u, (openChild (leaves w avail) u).size = 0 ∧ (openChild (leaves w avail) u).lpz = 0 := by
    intro u
    unfold openChild
    split
    · rename_i lf hlf
      have : lf.size = 0 ∧ lf.lpz = 0 := by
        have := List.mem_of_find?_eq_some hlf
        unfold leaves at this
        obtain ⟨v, -, hv⟩ := List.mem_filterMap.mp this
        obtain ⟨p, -, rfl⟩ := Option.map_eq_some_iff.mp hv
        exact ⟨rfl, rfl⟩
      split <;> exact this
    · exact ⟨rfl, rfl⟩
  have hnew : new (l.children.map (openChild (leaves w avail))) =
      some (.ok (l.children.map (openChild (leaves w avail)))) := by
    have hin : openChild (leaves w avail) a ∈ l.children.map (openChild (leaves w avail)) :=
      List.mem_map.mpr ⟨a, hal, rfl⟩
    have hg : ∀ c ∈ l.children.map (openChild (leaves w avail)), c.size = 0 ∧ c.lpz = 0 := by
      intro c hc
      obtain ⟨u, -, rfl⟩ := List.mem_map.mp hc
      exact hgeo u
    generalize l.children.map (openChild (leaves w avail)) = cs' at *
    unfold new
    rw [if_neg (by intro he; rw [he] at hin; simp at hin)]
    simp only
    have hf : openChild (leaves w avail) a ∈ cs'.filter fun c => decide (c.st ≠ .missing) := by
      rw [List.mem_filter]
      exact ⟨hin, by rw [hpa]; rfl⟩
    have hg' : ∀ c ∈ cs'.filter fun c => decide (c.st ≠ .missing), c.size = 0 ∧ c.lpz = 0 :=
      fun c hc => hg c (List.mem_filter.mp hc).1
    generalize (cs'.filter fun c => decide (c.st ≠ .missing)) = vs at *
    cases vs with
    | nil => simp at hf
    | cons f rest =>
      have h1 : (rest.any fun c => decide (c.size ≠ f.size ∨ c.lpz ≠ f.lpz)) = false := by
        rw [List.any_eq_false]
        intro c hc
        have e1 := hg' c (List.mem_cons_of_mem _ hc)
        have e2 := hg' f List.mem_cons_self
        simp [e1, e2]
      have h2 : cs'.any Child.isPresent = true := by
        rw [List.any_eq_true]
        exact ⟨_, hin, by simp [Child.isPresent, hpa]⟩
      simp only [h1, h2]
      rfl
  have hopen : openMirror (leaves w avail) =
      some (.ok (l.children.map (openChild (leaves w avail)), l)) := by
    unfold openMirror
    simp only [hl, hnew]
  unfold World.reopen
  rw [hopen]
  exact ⟨_, _, rfl⟩

/-- The same steps as in `Hist`, without its restrictions. -/
inductive AnyHist : World → Prop
  | created (us : List Nat) : AnyHist (createdPool us)
  | sync {w : World} (h : AnyHist w) : AnyHist w.sync
  | reopen {w w' : World} (h : AnyHist w) {avail : List Nat} {l : Nat}
      (hr : w.reopen avail = some (w', l)) : AnyHist w'

/-- C16 fails for a session of one sync.  A pool on devices 1 and 2 is created; device 2 is
taken away; the pool is imported, written to, synced once and exported; device 2 is put back.
Because the import continues in the transaction group of the label, both labels carry the
same number: device 2 is in service although it missed the sync, and if it is found first
its label is used, so that the synced data is gone. -/
theorem C16_counterexample :
    ∃ w w' l, AnyHist w ∧ w.reopen [2, 1] = some (w', l) ∧ (w.dev 1).ver = 2 ∧ w.ver = 2 ∧
      (w.dev 2).ver = 1 ∧ l = 2 ∧ (∃ c ∈ w'.m, c.uuid = 2 ∧ c.st = .present) := by
  have h0 : AnyHist (createdPool [1, 2]) := .created _
  have h1 : ∃ w1 l1, (createdPool [1, 2]).reopen [1] = some (w1, l1) ∧
      w1 = { createdPool [1, 2] with
        m := [⟨1, .present, 0, 0⟩, ⟨2, .missing, 0, 0⟩], txg := 0, nsync := 0 } :=
    ⟨_, _, rfl, rfl⟩
  obtain ⟨w1, l1, e1, hw1⟩ := h1
  have h2 : AnyHist w1.sync := (h0.reopen e1).sync
  refine ⟨w1.sync, { w1.sync with
    m := [⟨1, .present, 0, 0⟩, ⟨2, .present, 0, 0⟩], txg := 0, nsync := 0 }, 2, h2, ?_, ?_, ?_, ?_, rfl, ?_⟩
  · subst hw1; rfl
  · subst hw1; rfl
  · subst hw1; rfl
  · subst hw1; rfl
  · exact ⟨⟨2, .present, 0, 0⟩, by simp, rfl, rfl⟩

/-- C16 fails too when each device was used without the other: both have missed a sync the
other took part in, and both are in service. -/
theorem C16_split_brain_counterexample :
    ∃ w w' l, AnyHist w ∧ w.reopen [1, 2] = some (w', l) ∧
      (∃ c ∈ w'.m, c.uuid = 1 ∧ c.st = .present ∧ (w.dev 1).ver < w.ver) ∧
      (∃ c ∈ w'.m, c.uuid = 2 ∧ c.st = .present ∧ (w.dev 1).ver ≠ (w.dev 2).ver) := by
  have h0 : AnyHist (createdPool [1, 2]) := .created _
  obtain ⟨w1, l1, e1, hw1⟩ : ∃ w1 l1, (createdPool [1, 2]).reopen [1] = some (w1, l1) ∧
      w1 = { createdPool [1, 2] with
        m := [⟨1, .present, 0, 0⟩, ⟨2, .missing, 0, 0⟩], txg := 0, nsync := 0 } :=
    ⟨_, _, rfl, rfl⟩
  have h2 : AnyHist w1.sync.sync := (h0.reopen e1).sync.sync
  obtain ⟨w3, l3, e3, hw3⟩ : ∃ w3 l3, w1.sync.sync.reopen [2] = some (w3, l3) ∧
      w3 = { w1.sync.sync with
        m := [⟨1, .missing, 0, 0⟩, ⟨2, .present, 0, 0⟩], txg := 0, nsync := 0 } := by
    subst hw1; exact ⟨_, _, rfl, rfl⟩
  have h4 : AnyHist w3.sync.sync := (h2.reopen e3).sync.sync
  refine ⟨w3.sync.sync, { w3.sync.sync with
    m := [⟨1, .present, 0, 0⟩, ⟨2, .present, 0, 0⟩], txg := 1, nsync := 0 }, 1, h4, ?_, ?_, ?_⟩
  · subst hw3; subst hw1; rfl
  · refine ⟨⟨1, .present, 0, 0⟩, by simp, rfl, rfl, ?_⟩
    subst hw3; subst hw1
    show (3 : Nat) < 5
    omega
  · refine ⟨⟨2, .present, 0, 0⟩, by simp, rfl, rfl, ?_⟩
    subst hw3; subst hw1
    show (3 : Nat) ≠ 5
    omega

/-- A history with an absent device and two syncs: on its return the device is rebuilt. -/
example : ∃ w w' l, Hist 1 w ∧ w.nsync ≠ 1 ∧ w.reopen [2, 1] = some (w', l) ∧
    (w.dev 2).ver ≠ w.ver ∧ w'.m = [⟨1, .present, 0, 0⟩, ⟨2, .rebuilding, 0, 0⟩] ∧ l = 1 := by
  have h0 : Hist 1 (createdPool [1, 2]) := .created _ (by simp)
  obtain ⟨w1, l1, e1, hw1⟩ : ∃ w1 l1, (createdPool [1, 2]).reopen [1] = some (w1, l1) ∧
      w1 = { createdPool [1, 2] with
        m := [⟨1, .present, 0, 0⟩, ⟨2, .missing, 0, 0⟩], txg := 0, nsync := 0 } :=
    ⟨_, _, rfl, rfl⟩
  have h2 : Hist 1 w1.sync.sync := (h0.reopen (by simp) (by decide) e1).sync.sync
  refine ⟨w1.sync.sync, { w1.sync.sync with
    m := [⟨1, .present, 0, 0⟩, ⟨2, .rebuilding, 0, 0⟩], txg := 1, nsync := 0 }, 1, h2, ?_, ?_, ?_, rfl, rfl⟩
  · subst hw1; decide
  · subst hw1; rfl
  · subst hw1; show (1 : Nat) ≠ 3; omega

end Verif.Mirror
