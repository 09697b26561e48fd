import Verif.Raid.ReconMulti

/-! What `read_at_multi` reads in a degraded array, and where it puts it. -/

namespace Verif.Raid

open Verif.Bytes Verif.Codec

variable {g : Geom}

/-- The place of position `p`. -/
def place (g : Geom) (p : Nat) : CR := ⟨posDisk g p, posOff g p * g.col, g.col⟩

/-- The buffers for position `p`. -/
def bufsAt (g : Geom) (u e p : Nat) : List (Bool × Nat) :=
  (degPlan g u e (leftAt g u e (p / g.Y.k) (p % g.Y.k)) (p / g.Y.k) (p % g.Y.k)).getD []

/-- What becomes of position `p`; `tl` are the parity chunks read although they aren't needed. -/
def slotAt (g : Geom) (w u e : Nat) (tl : Nat → Option CR) (p : Nat) : Option Slot :=
  if p % g.Y.k < g.Y.m + w then some ⟨p, place g p, bufsAt g u e p⟩
  else (tl p).map fun r => ⟨p, r, [(false, g.col)]⟩

theorem slotAt_congr {w u e : Nat} {tl tl' : Nat → Option CR} {l : List Nat}
    (h : ∀ p ∈ l, tl p = tl' p) : l.filterMap (slotAt g w u e tl) = l.filterMap (slotAt g w u e tl') := by
  induction l with
  | nil => rfl
  | cons p l ih =>
    rw [List.filterMap_cons, List.filterMap_cons, ih (fun x hx => h x (List.mem_cons_of_mem _ hx))]
    unfold slotAt
    rw [h p List.mem_cons_self]

theorem degReads_eq (h : g.Lawful) {w u e : Nat} (hmulti : (u / g.slbas + 1) * g.slbas < e) :
    ∀ (cnt p left : Nat) (q : Nat → Option Queue),
    (∀ x, p ≤ x → x < p + cnt → Wanted g u e (x / g.Y.k)) →
    (0 < cnt → left = leftAt g u e (p / g.Y.k) (p % g.Y.k)) → QueueOk g p q →
    ∃ tl, degReads g w u e left q (List.range' p cnt) =
      some ((List.range' p cnt).filterMap (slotAt g w u e tl)) := by
  have hk : 0 < g.Y.k := by have := h.layout.m_lt; omega
  have hmk := h.layout.m_lt
  intro cnt
  induction cnt with
  | zero => intro p left q _ _ _; exact ⟨fun _ => none, rfl⟩
  | succ cnt ih =>
    intro p left q hw hl hq
    have hwp := hw p (Nat.le_refl _) (by omega)
    have hl := hl (by omega)
    have hdk : g.Y.disk (p / g.Y.k) (p % g.Y.k) = posDisk g p := rfl
    have hpo : g.Y.off (p / g.Y.k) (p % g.Y.k) * g.cs * g.bpl = posOff g p * g.col := (mul_col _).symm
    have hnext1 : (posOff g p + 1) * g.col = posOff g p * g.col + g.col := by
      rw [Nat.add_mul, Nat.one_mul]
    obtain ⟨bufs, hb1, hb2, -⟩ := degPlan_ok h hwp (b := p % g.Y.k) hmulti
    -- what is left at the next position
    have hnext : ∀ left', left' = leftAt g u e (p / g.Y.k) (p % g.Y.k + 1) → 0 < cnt →
        left' = leftAt g u e ((p + 1) / g.Y.k) ((p + 1) % g.Y.k) := by
      intro left' hle hc
      rcases succ_divmod hk p with ⟨h1, h2, h3⟩ | ⟨h1, h2, h3⟩
      · rw [h2, h3, hle]
      · have hw' := hw (p + 1) (by omega) (by omega)
        rw [h2] at hw'
        rw [h2, h3, hle, leftAt_stripe h hwp hw' (by omega)]
    have hw1 : ∀ x, p + 1 ≤ x → x < p + 1 + cnt → Wanted g u e (x / g.Y.k) :=
      fun x h1 h2 => hw x (by omega) (by omega)
    rw [List.range'_succ]
    unfold degReads
    dsimp only
    rw [hdk, hpo]
    by_cases hd : p % g.Y.k < g.Y.m + w
    · rw [if_pos hd, hl, hb1]
      dsimp only
      generalize hqd : (q (posDisk g p)).getD ⟨posOff g p * g.col, 0, 0⟩ = qd
      have haddr : qd.start + qd.len + qd.plen = posOff g p * g.col := by
        cases hqx : q (posDisk g p) with
        | none => rw [hqx] at hqd; rw [← hqd]; rfl
        | some x =>
          rw [hqx] at hqd
          have hxq : x = qd := hqd
          subst hxq
          exact hq.at h hqx
      obtain ⟨tl, htl⟩ := ih (p + 1) _ (fun d' => if d' = posDisk g p then
          some ⟨qd.start, qd.len + qd.plen + g.col, 0⟩ else q d') hw1 (hnext _ hb2) (by
        apply hq.skip
        · intro d hd'; rw [if_neg hd']
        · intro x hx
          simp only [if_true, Option.some.injEq] at hx
          rw [← hx, hnext1]
          dsimp only
          omega)
      refine ⟨tl, ?_⟩
      rw [htl, haddr, List.filterMap_cons]
      unfold slotAt
      rw [if_pos hd]
      have : bufsAt g u e p = bufs := by unfold bufsAt; rw [hb1]; rfl
      rw [this]
      rfl
    · rw [if_neg hd]
      have hlp : left = leftAt g u e (p / g.Y.k) (p % g.Y.k + 1) := by
        rw [hl]
        unfold leftAt
        rw [leftB_end (hwp.inStripe h) (by omega), leftB_end (hwp.inStripe h) (by omega)]
      cases hqx : q (posDisk g p) with
      | none =>
        obtain ⟨tl, htl⟩ := ih (p + 1) left q hw1 (hnext _ hlp) (by
          apply hq.skip (fun d hd' => rfl)
          intro x hx; rw [hqx] at hx; cases hx)
        refine ⟨fun x => if x = p then none else tl x, ?_⟩
        dsimp only
        rw [htl, List.filterMap_cons]
        have : slotAt g w u e (fun x => if x = p then none else tl x) p = none := by
          unfold slotAt
          rw [if_neg hd]
          simp
        rw [this]
        congr 1
        apply slotAt_congr
        intro x hx
        rw [List.mem_range'_1] at hx
        rw [if_neg (by omega)]
      | some qd =>
        dsimp only
        have haddr := hq.at h hqx
        obtain ⟨tl, htl⟩ := ih (p + 1) left (fun d' => if d' = posDisk g p then
            some { qd with plen := qd.plen + g.col } else q d') hw1 (hnext _ hlp) (by
          apply hq.skip
          · intro d hd'; rw [if_neg hd']
          · intro x hx
            simp only [if_true, Option.some.injEq] at hx
            rw [← hx, hnext1]
            dsimp only
            omega)
        refine ⟨fun x => if x = p then some (place g p) else tl x, ?_⟩
        rw [htl, List.filterMap_cons]
        have : slotAt g w u e (fun x => if x = p then some (place g p) else tl x) p =
            some ⟨p, place g p, [(false, g.col)]⟩ := by
          unfold slotAt
          rw [if_neg hd]
          simp
        rw [this, haddr]
        dsimp only [Option.map_some]
        congr 2
        apply slotAt_congr
        intro x hx
        rw [List.mem_range'_1] at hx
        rw [if_neg (by omega)]

/-! ### Stripe by stripe -/

theorem div_pos' {k s b : Nat} (hb : b < k) : (s * k + b) / k = s ∧ (s * k + b) % k = b := by
  have hk : 0 < k := by omega
  constructor
  · rw [Nat.add_comm, Nat.add_mul_div_right _ _ hk, Nat.div_eq_of_lt hb, Nat.zero_add]
  · rw [Nat.add_comm, Nat.add_mul_mod_self_right, Nat.mod_eq_of_lt hb]

/-- The positions of stripes `s` to `s + n`, the last one only in part. -/
theorem positions_split (k c s : Nat) : ∀ n, List.range' (s * k) (n * k + c) =
    (List.range' s n).flatMap (fun t => List.range' (t * k) k) ++ List.range' ((s + n) * k) c := by
  intro n
  induction n generalizing s with
  | zero => simp
  | succ n ih =>
    rw [List.range'_succ, List.flatMap_cons, List.append_assoc,
      show s + (n + 1) = s + 1 + n by omega, ← ih (s + 1), Nat.add_mul s 1 k, Nat.one_mul,
      List.range'_append_1, Nat.add_mul n 1 k, Nat.one_mul]
    congr 1
    omega

/-- How many of the positions of stripe `s` are visited. -/
def visited (g : Geom) (w last s : Nat) : Nat := if s = last then g.Y.m + w else g.Y.k

theorem positions_stripes {w s last : Nat} (hle : s ≤ last) :
    List.range' (s * g.Y.k) ((last - s) * g.Y.k + g.Y.m + w) =
    (List.range' s (last - s + 1)).flatMap fun t => List.range' (t * g.Y.k) (visited g w last t) := by
  rw [Nat.add_assoc, positions_split, ← List.range'_append_1 (s := s) (m := last - s) (n := 1),
    List.flatMap_append]
  congr 1
  · simp only [List.flatMap]
    congr 1
    apply List.map_congr_left
    intro t ht
    rw [List.mem_range'_1] at ht
    unfold visited
    rw [if_neg (by omega)]
  · rw [show s + (last - s) = last by omega]
    simp [visited]

variable {w u e last : Nat} {tl : Nat → Option CR} {fill : CR → Buf}

/-- The buffers of a slot after the reads. -/
def slotBytes (fill : CR → Buf) (x : Slot) : Buf × List Buf := fillBufs x.bufs (fill x.read)

/-- What the chunks of a stripe read as. -/
def gotAt (g : Geom) (fill : CR → Buf) (s b : Nat) : Buf :=
  fill ⟨g.Y.disk s b, g.Y.off s b * g.col, g.col⟩

def slotsOf (g : Geom) (w u e last : Nat) (tl : Nat → Option CR) (s : Nat) : List Slot :=
  (List.range' (s * g.Y.k) (visited g w last s)).filterMap (slotAt g w u e tl)

theorem slotsOf_split (hwk : g.Y.m + w ≤ g.Y.k) (s : Nat) :
    slotsOf g w u e last tl s =
      (List.range' 0 (g.Y.m + w)).map (fun b => ⟨s * g.Y.k + b, place g (s * g.Y.k + b),
        bufsAt g u e (s * g.Y.k + b)⟩) ++
      (List.range' (s * g.Y.k + (g.Y.m + w)) (visited g w last s - (g.Y.m + w))).filterMap
        (slotAt g w u e tl) := by
  have hv : visited g w last s = g.Y.m + w + (visited g w last s - (g.Y.m + w)) := by
    unfold visited; split <;> omega
  unfold slotsOf
  conv => lhs; rw [hv, ← List.range'_append_1, List.filterMap_append]
  congr 1
  have hr : List.range' (s * g.Y.k) (g.Y.m + w) =
      (List.range' 0 (g.Y.m + w)).map fun b => s * g.Y.k + b := by
    rw [List.map_add_range', Nat.add_zero]
  rw [hr, List.filterMap_map]
  rw [← List.filterMap_eq_map]
  apply List.filterMap_congr
  intro b hb
  rw [List.mem_range'_1] at hb
  simp only [Function.comp_apply]
  unfold slotAt
  rw [if_pos (by
    rw [(div_pos' (show b < g.Y.k by omega)).2]; omega)]

theorem tail_slots {s : Nat} {x : Slot} (hwk : g.Y.m + w ≤ g.Y.k)
    (hx : x ∈ (List.range' (s * g.Y.k + (g.Y.m + w)) (visited g w last s - (g.Y.m + w))).filterMap
      (slotAt g w u e tl)) : x.pos / g.Y.k = s ∧ x.bufs = [(false, g.col)] := by
  obtain ⟨p, hp, hpx⟩ := List.mem_filterMap.mp hx
  rw [List.mem_range'_1] at hp
  have hlt : p < s * g.Y.k + g.Y.k := by
    have : visited g w last s ≤ g.Y.k := by unfold visited; split <;> omega
    omega
  obtain ⟨e1, e2⟩ := div_pos' (k := g.Y.k) (s := s) (b := p - s * g.Y.k) (by omega)
  rw [show s * g.Y.k + (p - s * g.Y.k) = p by omega] at e1 e2
  unfold slotAt at hpx
  rw [if_neg (by omega)] at hpx
  obtain ⟨r, -, rfl⟩ := Option.map_eq_some_iff.mp hpx
  exact ⟨e1, rfl⟩

theorem slot_pos {s : Nat} {x : Slot} (hwk : g.Y.m + w ≤ g.Y.k)
    (hx : x ∈ slotsOf g w u e last tl s) : x.pos / g.Y.k = s := by
  have hk : 0 < g.Y.k := by
    rcases Nat.eq_zero_or_pos g.Y.k with h0 | h0
    · have : visited g w last s = 0 := by unfold visited; split <;> omega
      unfold slotsOf at hx
      rw [this] at hx
      simp at hx
    · exact h0
  rw [slotsOf_split hwk, List.mem_append] at hx
  rcases hx with hx | hx
  · obtain ⟨b, hb, rfl⟩ := List.mem_map.mp hx
    rw [List.mem_range'_1] at hb
    exact (div_pos' (show b < g.Y.k by omega)).1
  · exact (tail_slots hwk hx).1

/-- The buffers of a stripe's slots hold what the recovery expects. -/
theorem slotsOf_bytes (h : g.Lawful) (hwk : g.Y.m + w ≤ g.Y.k) {s : Nat} (hw : Wanted g u e s)
    (hmulti : (u / g.slbas + 1) * g.slbas < e) (hfill : ∀ r, (fill r).length = r.len) :
    ((slotsOf g w u e last tl s).map fun x => (slotBytes fill x).1).flatten =
      usersB g.col (lo g (us g u s)) (hi g (us g u s) (es g e s)) (gotAt g fill s) 0 g.Y.m ∧
    ∃ tail, ((slotsOf g w u e last tl s).map fun x => (slotBytes fill x).2).flatten =
      exsB g.col (lo g (us g u s)) (hi g (us g u s) (es g e s)) (gotAt g fill s) 0 (g.Y.m + w) ++ tail := by
  have hone : ∀ b, b < g.Y.m + w → slotBytes fill ⟨s * g.Y.k + b, place g (s * g.Y.k + b),
      bufsAt g u e (s * g.Y.k + b)⟩ =
      (userB (lo g (us g u s)) (hi g (us g u s) (es g e s)) (b * g.col) (gotAt g fill s b),
        exB g.col (lo g (us g u s)) (hi g (us g u s) (es g e s)) (b * g.col) (gotAt g fill s b)) := by
    intro b hb
    obtain ⟨e1, e2⟩ := div_pos' (k := g.Y.k) (s := s) (b := b) (by omega)
    obtain ⟨bufs, hb1, -, hb3⟩ := degPlan_ok h hw (b := b) hmulti
    have hbufs : bufsAt g u e (s * g.Y.k + b) = bufs := by
      unfold bufsAt; rw [e1, e2, hb1]; rfl
    have hpl : place g (s * g.Y.k + b) = ⟨g.Y.disk s b, g.Y.off s b * g.col, g.col⟩ := by
      unfold place posDisk posOff; rw [e1, e2]
    unfold slotBytes
    dsimp only
    rw [hbufs, hpl]
    exact hb3 _ (hfill _)
  rw [slotsOf_split hwk]
  constructor
  · rw [List.map_append, List.flatten_append]
    have htail : (((List.range' (s * g.Y.k + (g.Y.m + w)) (visited g w last s - (g.Y.m + w))).filterMap
        (slotAt g w u e tl)).map fun x => (slotBytes fill x).1).flatten = [] := by
      rw [List.flatten_eq_nil_iff]
      intro b hb
      obtain ⟨x, hx, rfl⟩ := List.mem_map.mp hb
      unfold slotBytes
      rw [(tail_slots hwk hx).2]
      rfl
    rw [htail, List.append_nil, List.map_map]
    have : usersB g.col (lo g (us g u s)) (hi g (us g u s) (es g e s)) (gotAt g fill s) 0 g.Y.m =
        usersB g.col (lo g (us g u s)) (hi g (us g u s) (es g e s)) (gotAt g fill s) 0 (g.Y.m + w) := by
      rw [usersB_add, Nat.zero_add, usersB_nil w g.Y.m (hi_le (hw.inStripe h)), List.append_nil]
    rw [this]
    unfold usersB
    rw [List.flatMap]
    congr 1
    apply List.map_congr_left
    intro b hb
    rw [List.mem_range'_1] at hb
    simp only [Function.comp_apply]
    rw [hone b (by omega)]
  · rw [List.map_append, List.flatten_append]
    refine ⟨(((List.range' (s * g.Y.k + (g.Y.m + w)) (visited g w last s - (g.Y.m + w))).filterMap
        (slotAt g w u e tl)).map fun x => (slotBytes fill x).2).flatten, ?_⟩
    congr 1
    rw [List.map_map]
    unfold exsB
    rw [List.flatMap]
    congr 1
    apply List.map_congr_left
    intro b hb
    rw [List.mem_range'_1] at hb
    simp only [Function.comp_apply]
    rw [hone b (by omega)]

theorem filter_stripe (hwk : g.Y.m + w ≤ g.Y.k) {s0 n s : Nat} (h1 : s0 ≤ s) (h2 : s < s0 + n) :
    (((List.range' s0 n).flatMap (slotsOf g w u e last tl)).filter fun x => x.pos / g.Y.k == s) =
      slotsOf g w u e last tl s := by
  have hsplit : List.range' s0 n = List.range' s0 (s - s0) ++ (s :: List.range' (s + 1) (s0 + n - s - 1)) := by
    have e1 : n = (s - s0) + ((s0 + n - s - 1) + 1) := by omega
    conv => lhs; rw [e1, ← List.range'_append_1, show s0 + (s - s0) = s by omega, List.range'_succ]
  have hnone : ∀ l : List Nat, (∀ t ∈ l, t ≠ s) →
      (l.flatMap (slotsOf g w u e last tl)).filter (fun x => x.pos / g.Y.k == s) = [] := by
    intro l hl
    rw [List.filter_eq_nil_iff]
    intro x hx
    obtain ⟨t, ht, hxt⟩ := List.mem_flatMap.mp hx
    rw [slot_pos hwk hxt]
    simpa using hl t ht
  rw [hsplit, List.flatMap_append, List.flatMap_cons, List.filter_append, List.filter_append,
    hnone _ (by intro t ht; rw [List.mem_range'_1] at ht; omega),
    hnone _ (by intro t ht; rw [List.mem_range'_1] at ht; omega), List.nil_append, List.append_nil,
    List.filter_eq_self]
  intro x hx
  rw [slot_pos hwk hx]
  simp

end Verif.Raid
