import Verif.Raid.ZoneModel
import Verif.Raid.PrimeS
import Verif.Zone.Props

/-!
# Zones of a RAID vdev: C11
-/

namespace Verif.Raid

variable {Y : Layout}

theorem minMax_spec {l : List Nat} {lo hi : Nat} (h : minMax l = some (lo, hi)) :
    (∀ x ∈ l, lo ≤ x ∧ x ≤ hi) ∧ lo ∈ l ∧ hi ∈ l := by
  cases l with
  | nil => simp [minMax] at h
  | cons x xs =>
    simp only [minMax, Option.some.injEq] at h
    have key : ∀ (xs : List Nat) (a b : Nat), a ≤ b →
        let r := xs.foldl (fun acc i => (min acc.1 i, max acc.2 i)) (a, b)
        (r.1 ≤ a ∧ b ≤ r.2 ∧ ∀ y ∈ xs, r.1 ≤ y ∧ y ≤ r.2) ∧ (r.1 = a ∨ r.1 ∈ xs) ∧
        (r.2 = b ∨ r.2 ∈ xs) := by
      intro xs
      induction xs with
      | nil => intro a b _; simp
      | cons y ys ih =>
        intro a b hab
        obtain ⟨⟨h1, h2, h3⟩, h4, h5⟩ := ih (min a y) (max b y) (by omega)
        simp only [List.foldl_cons]
        refine ⟨⟨by omega, by omega, ?_⟩, ?_, ?_⟩
        · intro y' hy'
          rcases List.mem_cons.mp hy' with rfl | hy'
          · constructor <;> omega
          · exact h3 _ hy'
        · rcases h4 with h4 | h4
          · rw [h4]
            rcases Nat.le_total a y with hle | hle
            · exact Or.inl (Nat.min_eq_left hle)
            · right; rw [Nat.min_eq_right hle]; exact List.mem_cons_self
          · exact Or.inr (List.mem_cons_of_mem _ h4)
        · rcases h5 with h5 | h5
          · rw [h5]
            rcases Nat.le_total b y with hle | hle
            · right; rw [Nat.max_eq_right hle]; exact List.mem_cons_self
            · exact Or.inl (Nat.max_eq_left hle)
          · exact Or.inr (List.mem_cons_of_mem _ h5)
    obtain ⟨⟨h1, h2, h3⟩, h4, h5⟩ := key xs x x (Nat.le_refl _)
    rw [h] at h1 h2 h3 h4 h5
    simp only at h1 h2 h3 h4 h5
    refine ⟨?_, ?_, ?_⟩
    · intro y hy
      rcases List.mem_cons.mp hy with rfl | hy
      · exact ⟨h1, h2⟩
      · exact h3 _ hy
    · rcases h4 with h4 | h4
      · rw [h4]; exact List.mem_cons_self
      · exact List.mem_cons_of_mem _ h4
    · rcases h5 with h5 | h5
      · rw [h5]; exact List.mem_cons_self
      · exact List.mem_cons_of_mem _ h5

/-- Every chunk of stripe `s` is at or after offset `o`. -/
def AllGe (Y : Layout) (o s : Nat) : Prop := ∀ b < Y.k, o ≤ Y.off s b
/-- Every chunk of stripe `s` is at or before offset `o`. -/
def AllLe (Y : Layout) (o s : Nat) : Prop := ∀ b < Y.k, Y.off s b ≤ o

theorem lowStep_eq (o : Nat) (acc : Option Nat) (s : Nat) [Decidable (AllGe Y o s)] :
    lowStep Y o acc s = if AllGe Y o s then some (acc.getD s) else none := by
  unfold lowStep
  by_cases h : AllGe Y o s
  · rw [if_pos h]
    have : ((List.range Y.k).any fun b => decide (Y.off s b < o)) = false := by
      rw [List.any_eq_false]
      intro b hb
      have := h b (List.mem_range.mp hb)
      simp; omega
    rw [this]
    cases acc <;> simp
  · rw [if_neg h]
    have : ((List.range Y.k).any fun b => decide (Y.off s b < o)) = true := by
      rw [List.any_eq_true]
      unfold AllGe at h
      simp only [Classical.not_forall] at h
      obtain ⟨b, hb, h⟩ := h
      exact ⟨b, List.mem_range.mpr hb, by simp; omega⟩
    rw [this]
    simp

theorem highStep_eq (o : Nat) (acc : Option Nat) (s : Nat) [Decidable (AllLe Y o s)] :
    highStep Y o acc s = if AllLe Y o s then some s else acc := by
  unfold highStep
  by_cases h : AllLe Y o s
  · rw [if_pos h]
    have : ((List.range Y.k).any fun b => decide (o < Y.off s b)) = false := by
      rw [List.any_eq_false]
      intro b hb
      have := h b (List.mem_range.mp hb)
      simp; omega
    rw [this]
    simp
  · rw [if_neg h]
    have : ((List.range Y.k).any fun b => decide (o < Y.off s b)) = true := by
      rw [List.any_eq_true]
      unfold AllLe at h
      simp only [Classical.not_forall] at h
      obtain ⟨b, hb, h⟩ := h
      exact ⟨b, List.mem_range.mpr hb, by simp; omega⟩
    rw [this]
    simp

theorem AllGe.up (hY : Y.Lawful) {o s s' : Nat} (h : AllGe Y o s) (hs : s ≤ s') : AllGe Y o s' :=
  fun b hb => Nat.le_trans (h b hb) (hY.mono_le hs hb)

theorem AllLe.down (hY : Y.Lawful) {o s s' : Nat} (h : AllLe Y o s') (hs : s ≤ s') : AllLe Y o s :=
  fun b hb => Nat.le_trans (hY.mono_le hs hb) (h b hb)

theorem minMax_stripes (hY : Y.Lawful) (o : Nat) : ∃ lo hi,
    minMax ((List.range Y.n).map fun d => Y.stripeAt d o) = some (lo, hi) ∧ lo ≤ hi ∧
    (∀ d < Y.n, lo ≤ Y.stripeAt d o ∧ Y.stripeAt d o ≤ hi) := by
  have hne : (List.range Y.n).map (fun d => Y.stripeAt d o) ≠ [] := by
    have := hY.n_pos
    intro he
    have := congrArg List.length he
    simp at this
    omega
  cases h : (List.range Y.n).map fun d => Y.stripeAt d o with
  | nil => exact absurd h hne
  | cons x xs =>
    have e : minMax (x :: xs) = some ((xs.foldl (fun acc i => (min acc.1 i, max acc.2 i)) (x, x)).1,
      (xs.foldl (fun acc i => (min acc.1 i, max acc.2 i)) (x, x)).2) := rfl
    obtain ⟨h1, h2, -⟩ := minMax_spec e
    refine ⟨_, _, e, ?_, ?_⟩
    · exact (h1 _ h2).2
    · intro d hd
      rw [← h] at h1
      exact h1 _ (List.mem_map.mpr ⟨d, List.mem_range.mpr hd, rfl⟩)

/-- Stripes at or after all those that have a chunk at offset `o` are not before `o`. -/
theorem allGe_of_max (hY : Y.Lawful) {o hi : Nat} (h : ∀ d < Y.n, Y.stripeAt d o ≤ hi) :
    AllGe Y o hi := by
  intro b hb
  obtain ⟨c, hc, h1, h2⟩ := hY.at_spec (Y.disk hi b) o (hY.disk_lt hi b hb)
  have h3 := h _ (hY.disk_lt hi b hb)
  generalize Y.stripeAt (Y.disk hi b) o = t at *
  rcases Nat.lt_or_ge t hi with hlt | hge
  · have := hY.strict t hi c b hlt hc hb h1
    omega
  · have : t = hi := by omega
    subst this
    have := hY.disk_inj t c b hc hb h1
    subst this
    omega

theorem allLe_of_min (hY : Y.Lawful) {o lo : Nat} (h : ∀ d < Y.n, lo ≤ Y.stripeAt d o) :
    AllLe Y o lo := by
  intro b hb
  obtain ⟨c, hc, h1, h2⟩ := hY.at_spec (Y.disk lo b) o (hY.disk_lt lo b hb)
  have h3 := h _ (hY.disk_lt lo b hb)
  generalize Y.stripeAt (Y.disk lo b) o = t at *
  rcases Nat.lt_or_ge lo t with hlt | hge
  · have := hY.strict lo t b c hlt hb hc h1.symm
    omega
  · have : t = lo := by omega
    subst this
    have := hY.disk_inj t c b hc hb h1
    subst this
    omega

/-- Stripes before all those that have a chunk at offset `o` have a chunk before `o`. -/
theorem not_allGe_below (hY : Y.Lawful) {o lo s : Nat} (h : ∀ d < Y.n, lo ≤ Y.stripeAt d o)
    (hs : s < lo) : ¬ AllGe Y o s := by
  intro hge
  have hb : 0 < Y.k := by have := hY.m_lt; omega
  obtain ⟨c, hc, h1, h2⟩ := hY.at_spec (Y.disk s 0) o (hY.disk_lt s 0 hb)
  have h3 := h _ (hY.disk_lt s 0 hb)
  have := hY.strict s (Y.stripeAt (Y.disk s 0) o) 0 c (by omega) hb hc h1.symm
  have := hge 0 hb
  omega

theorem not_allLe_above (hY : Y.Lawful) {o hi s : Nat} (h : ∀ d < Y.n, Y.stripeAt d o ≤ hi)
    (hs : hi < s) : ¬ AllLe Y o s := by
  intro hle
  have hb : 0 < Y.k := by have := hY.m_lt; omega
  obtain ⟨c, hc, h1, h2⟩ := hY.at_spec (Y.disk s 0) o (hY.disk_lt s 0 hb)
  have h3 := h _ (hY.disk_lt s 0 hb)
  have := hY.strict (Y.stripeAt (Y.disk s 0) o) s c 0 (by omega) hc hb h1
  have := hle 0 hb
  omega

theorem foldl_low (hY : Y.Lawful) (o : Nat) (cnt : Nat) : ∀ (lo : Nat) (acc : Option Nat),
    (∀ s, acc = some s → s < lo ∧ AllGe Y o s ∧ ∀ t < s, ¬ AllGe Y o t) →
    (acc = none → ∀ t < lo, ¬ AllGe Y o t) →
    (match (List.range' lo cnt).foldl (lowStep Y o) acc with
     | some s => AllGe Y o s ∧ ∀ t < s, ¬ AllGe Y o t
     | none => ∀ t < lo + cnt, ¬ AllGe Y o t) := by
  classical
  induction cnt with
  | zero =>
    intro lo acc h1 h2
    simp only [List.range'_zero, List.foldl_nil]
    cases acc with
    | none => exact h2 rfl
    | some s => exact (h1 s rfl).2
  | succ cnt ih =>
    intro lo acc h1 h2
    rw [List.range'_succ, List.foldl_cons, show lo + (cnt + 1) = (lo + 1) + cnt by omega]
    apply ih
    · intro s hs
      rw [lowStep_eq] at hs
      split at hs
      · rename_i hge
        cases acc with
        | none =>
          simp only [Option.getD_none, Option.some.injEq] at hs
          subst hs
          exact ⟨by omega, hge, h2 rfl⟩
        | some s' =>
          simp only [Option.getD_some, Option.some.injEq] at hs
          subst hs
          obtain ⟨a, b⟩ := h1 s' rfl
          exact ⟨by omega, b⟩
      · cases hs
    · intro hn t ht
      rw [lowStep_eq] at hn
      split at hn
      · cases hn
      · rename_i hge
        intro h
        exact hge (h.up hY (by omega))

theorem foldl_high (o : Nat) (cnt : Nat) : ∀ (lo : Nat) (acc : Option Nat),
    (∀ s, acc = some s → s < lo ∧ AllLe Y o s ∧ ∀ t, s < t → t < lo → ¬ AllLe Y o t) →
    (acc = none → ∀ t < lo, ¬ AllLe Y o t) →
    (match (List.range' lo cnt).foldl (highStep Y o) acc with
     | some s => AllLe Y o s ∧ ∀ t, s < t → t < lo + cnt → ¬ AllLe Y o t
     | none => ∀ t < lo + cnt, ¬ AllLe Y o t) := by
  classical
  induction cnt with
  | zero =>
    intro lo acc h1 h2
    simp only [List.range'_zero, List.foldl_nil]
    cases acc with
    | none => exact h2 rfl
    | some s => exact (h1 s rfl).2
  | succ cnt ih =>
    intro lo acc h1 h2
    rw [List.range'_succ, List.foldl_cons, show lo + (cnt + 1) = (lo + 1) + cnt by omega]
    apply ih
    · intro s hs
      rw [highStep_eq] at hs
      split at hs
      · rename_i hle
        cases hs
        exact ⟨by omega, hle, fun t h3 h4 => by omega⟩
      · rename_i hle
        obtain ⟨a, b, c⟩ := h1 s hs
        refine ⟨by omega, b, ?_⟩
        intro t h3 h4
        rcases Nat.lt_or_ge t lo with h5 | h5
        · exact c t h3 h5
        · have : t = lo := by omega
          subst this
          exact hle
    · intro hn t ht
      rw [highStep_eq] at hn
      split at hn
      · cases hn
      · rename_i hle
        rcases Nat.lt_or_ge t lo with h5 | h5
        · exact h2 hn t h5
        · have : t = lo := by omega
          subst this
          exact hle

/-- The low end: the first stripe none of whose chunks is before `o`. -/
theorem innermost_low (hY : Y.Lawful) (o : Nat) :
    ∃ s, innermost Y (lowStep Y o) o = some s ∧ ∀ t, AllGe Y o t ↔ s ≤ t := by
  obtain ⟨lo, hi, h1, hle, h2⟩ := minMax_stripes hY o
  unfold innermost
  rw [h1]
  simp only
  have h3 := foldl_low hY o (hi + 1 - lo) lo none (by simp)
    (fun _ t ht => not_allGe_below hY (fun d hd => (h2 d hd).1) ht)
  cases hf : (List.range' lo (hi + 1 - lo)).foldl (lowStep Y o) none with
  | none =>
    rw [hf] at h3
    exact absurd (allGe_of_max hY fun d hd => (h2 d hd).2) (h3 hi (by omega))
  | some s =>
    rw [hf] at h3
    refine ⟨s, rfl, fun t => ⟨?_, fun h => h3.1.up hY h⟩⟩
    intro h
    rcases Nat.lt_or_ge t s with hlt | hge
    · exact absurd h (h3.2 t hlt)
    · exact hge

/-- The high end: the last stripe none of whose chunks is after `o`. -/
theorem innermost_high (hY : Y.Lawful) (o : Nat) :
    ∃ s, innermost Y (highStep Y o) o = some s ∧ ∀ t, AllLe Y o t ↔ t ≤ s := by
  obtain ⟨lo, hi, h1, hle, h2⟩ := minMax_stripes hY o
  unfold innermost
  rw [h1]
  simp only
  have hlo := allLe_of_min hY (o := o) fun d hd => (h2 d hd).1
  -- the fold starts with nothing, yet stripes before the first are fine: it meets a good one
  have h3 : match (List.range' lo (hi + 1 - lo)).foldl (highStep Y o) none with
     | some s => AllLe Y o s ∧ ∀ t, s < t → t < lo + (hi + 1 - lo) → ¬ AllLe Y o t
     | none => False := by
    classical
    rw [show hi + 1 - lo = (hi - lo) + 1 by omega, List.range'_succ, List.foldl_cons, highStep_eq,
      if_pos hlo]
    have := foldl_high o (hi - lo) (lo + 1) (some lo)
      (by
        intro s hs
        cases hs
        exact ⟨by omega, hlo, fun t h3 h4 => by omega⟩)
      (by simp)
    rw [show lo + (hi - lo + 1) = lo + 1 + (hi - lo) by omega]
    cases hf : (List.range' (lo + 1) (hi - lo)).foldl (highStep Y o) (some lo) with
    | some s => rw [hf] at this; exact this
    | none =>
      exfalso
      have hsome : ∀ (l : List Nat) (a : Nat), l.foldl (highStep Y o) (some a) ≠ none := by
        intro l
        induction l with
        | nil => simp
        | cons x l ih =>
          intro a
          rw [List.foldl_cons, highStep_eq]
          split
          · exact ih _
          · exact ih _
      exact hsome _ _ hf
  cases hf : (List.range' lo (hi + 1 - lo)).foldl (highStep Y o) none with
  | none => rw [hf] at h3; exact h3.elim
  | some s =>
    rw [hf] at h3
    refine ⟨s, rfl, fun t => ⟨?_, fun h => h3.1.down hY h⟩⟩
    intro h
    rcases Nat.lt_or_ge s t with hlt | hge
    · rcases Nat.lt_or_ge t (lo + (hi + 1 - lo)) with h5 | h5
      · exact absurd h (h3.2 t hlt h5)
      · exact absurd h (not_allLe_above hY (fun d hd => (h2 d hd).2) (by omega))
    · exact hge

/-- Chunk `b` of stripe `s` lies, on its disk, within the LBAs from `lo` up to `hi`. -/
def ChunkWithin (Y : Layout) (cs : Nat) (lo hi : Nat) (s b : Nat) : Prop :=
  lo ≤ Y.off s b * cs ∧ Y.off s b * cs + cs ≤ hi

theorem ceil_le {x cs o : Nat} (hcs : 0 < cs) : (x + cs - 1) / cs ≤ o ↔ x ≤ o * cs := by
  rw [← Nat.lt_succ_iff, Nat.div_lt_iff_lt_mul hcs, Nat.succ_mul]
  omega

theorem le_floor {x cs o : Nat} (hcs : 0 < cs) (hx : x / cs ≠ 0) :
    o ≤ x / cs - 1 ↔ o * cs + cs ≤ x := by
  rw [show o * cs + cs = (o + 1) * cs by rw [Nat.add_mul, Nat.one_mul], ← Nat.le_div_iff_mul_le hcs]
  generalize x / cs = q at *
  omega

theorem zoneLimits_spec (hY : Y.Lawful) {cs : Nat} (hcs : 0 < cs) (zl : Nat → Nat × Nat) (z : Nat)
    (hz : cs ≤ (zl z).2) : ∃ lo hi, zoneLimits Y cs zl z = some (lo * Y.m * cs, hi * Y.m * cs) ∧
      (∀ t, (∀ b < Y.k, (zl z).1 ≤ Y.off t b * cs) ↔ lo ≤ t) ∧
      (∀ t, (∀ b < Y.k, Y.off t b * cs + cs ≤ (zl z).2) ↔ t < hi) := by
  have h0 : (zl z).2 / cs ≠ 0 := by
    have := Nat.div_pos hz hcs
    omega
  obtain ⟨lo, h1, h2⟩ := innermost_low hY (((zl z).1 + cs - 1) / cs)
  obtain ⟨hi, h3, h4⟩ := innermost_high hY ((zl z).2 / cs - 1)
  refine ⟨lo, hi + 1, ?_, ?_, ?_⟩
  · unfold zoneLimits
    simp only
    rw [if_neg h0, h1, h3]
  · intro t
    rw [← h2]
    exact ⟨fun h b hb => (ceil_le hcs).mpr (h b hb), fun h b hb => (ceil_le hcs).mp (h b hb)⟩
  · intro t
    rw [Nat.lt_succ_iff, ← h4]
    exact ⟨fun h b hb => (le_floor hcs h0).mpr (h b hb), fun h b hb => (le_floor hcs h0).mp (h b hb)⟩

/-- C11: the limits of a zone that reaches beyond the first chunk are always computed, are
whole stripes, and a stripe is within them exactly if every one of its chunks, data and parity,
lies inside that zone on its disk. -/
theorem C11_exact (hY : Y.Lawful) {cs : Nat} (hcs : 0 < cs) (zl : Nat → Nat × Nat) (z : Nat)
    (hz : cs ≤ (zl z).2) : ∃ lo hi, zoneLimits Y cs zl z = some (lo * Y.m * cs, hi * Y.m * cs) ∧
      ∀ s, (lo ≤ s ∧ s < hi) ↔ ∀ b < Y.k, ChunkWithin Y cs (zl z).1 (zl z).2 s b := by
  obtain ⟨lo, hi, h1, h2, h3⟩ := zoneLimits_spec hY hcs zl z hz
  refine ⟨lo, hi, h1, fun s => ?_⟩
  rw [← h2 s, ← h3 s]
  exact ⟨fun h b hb => ⟨h.1 b hb, h.2 b hb⟩, fun h => ⟨fun b hb => (h b hb).1, fun b hb => (h b hb).2⟩⟩

/-- C11: every LBA within a zone's limits belongs to a chunk that lies inside that zone on its
disk, and so do all the other chunks of its stripe. -/
theorem C11_inside (hY : Y.Lawful) {cs : Nat} (hcs : 0 < cs) (zl : Nat → Nat × Nat) (z : Nat)
    (hz : cs ≤ (zl z).2) {lo hi lba : Nat} (h : zoneLimits Y cs zl z = some (lo, hi))
    (h1 : lo ≤ lba) (h2 : lba < hi) :
    ∀ b < Y.k, ChunkWithin Y cs (zl z).1 (zl z).2 (lba / (Y.m * cs)) b := by
  obtain ⟨lo', hi', h3, h4⟩ := C11_exact hY hcs zl z hz
  rw [h] at h3
  simp only [Option.some.injEq, Prod.mk.injEq] at h3
  have hp : 0 < Y.m * cs := Nat.mul_pos hY.m_pos hcs
  rw [← h4]
  rw [h3.1, Nat.mul_assoc] at h1
  rw [h3.2, Nat.mul_assoc] at h2
  exact ⟨(Nat.le_div_iff_mul_le hp).mpr h1, (Nat.div_lt_iff_lt_mul hp).mpr h2⟩

/-- C11: if one zone ends on the disks before another begins, so do the RAID zones: the limits
of the one end at or before the limits of the other begin. -/
theorem C11_ordered (hY : Y.Lawful) {cs : Nat} (hcs : 0 < cs) (zl : Nat → Nat × Nat) (z z' : Nat)
    (hz : cs ≤ (zl z).2) (hz' : cs ≤ (zl z').2) (hord : (zl z).2 ≤ (zl z').1) {lo hi lo' hi' : Nat}
    (h : zoneLimits Y cs zl z = some (lo, hi)) (h' : zoneLimits Y cs zl z' = some (lo', hi')) :
    hi ≤ lo' := by
  obtain ⟨a, b, h1, -, h3⟩ := zoneLimits_spec hY hcs zl z hz
  obtain ⟨a', b', h1', h2', -⟩ := zoneLimits_spec hY hcs zl z' hz'
  rw [h] at h1
  rw [h'] at h1'
  simp only [Option.some.injEq, Prod.mk.injEq] at h1 h1'
  rw [h1.2, h1'.1]
  apply Nat.mul_le_mul_right
  apply Nat.mul_le_mul_right
  -- otherwise stripe `a'` is in both
  rcases Nat.lt_or_ge a' b with hlt | hge
  · exfalso
    have hk : 0 < Y.k := by have := hY.m_lt; omega
    have e1 := (h3 a').mpr hlt 0 hk
    have e2 := (h2' a').mpr (Nat.le_refl _) 0 hk
    omega
  · exact hge

/-- C11: `lba2zone` and the zone limits agree. -/
theorem C11_lba2zone (hY : Y.Lawful) {cs : Nat} (hcs : 0 < cs) (zl : Nat → Nat × Nat)
    (l2z : Nat → Option Nat) (hchild : ∀ lba z, l2z lba = some z ↔ (zl z).1 ≤ lba ∧ lba < (zl z).2)
    (hz : ∀ z, cs ≤ (zl z).2) (lba z : Nat) :
    lba2zone Y cs zl l2z lba = some (some z) ↔
      ∃ lo hi, zoneLimits Y cs zl z = some (lo, hi) ∧ lo ≤ lba ∧ lba < hi := by
  unfold lba2zone
  simp only
  constructor
  · intro h
    split at h
    · cases h
    · rename_i z' hz'
      cases hl : zoneLimits Y cs zl z' with
      | none => rw [hl] at h; cases h
      | some lim =>
        rw [hl] at h
        simp only [Option.map_some, Option.some.injEq] at h
        split at h
        · rename_i hin
          cases h
          exact ⟨lim.1, lim.2, hl, hin⟩
        · cases h
  · rintro ⟨lo, hi, hl, h1, h2⟩
    have hin := C11_inside hY hcs zl z (hz z) hl h1 h2
    have hb : (lba / cs) % Y.m < Y.k := Nat.lt_trans (Nat.mod_lt _ hY.m_pos) hY.m_lt
    have hc := hin _ hb
    have hs : lba / (Y.m * cs) = lba / cs / Y.m := by
      rw [Nat.div_div_eq_div_mul, Nat.mul_comm cs]
    rw [hs] at hc
    have hcz : l2z (Y.off (lba / cs / Y.m) (lba / cs % Y.m) * cs) = some z :=
      (hchild _ _).mpr ⟨hc.1, by have := hc.2; omega⟩
    rw [hcz]
    simp only [hl, Option.map_some]
    rw [if_pos ⟨h1, h2⟩]

/-- C11 for the layout that the code uses, PRIME-S, with any numbers of disks, of chunks per
stripe and of parity chunks that it accepts and that are small enough for its 16-bit arithmetic
not to overflow (`Verif.PrimeS.C06_…` says what happens otherwise). -/
theorem C11_primeS {w : Bool} {n k f : Int} {L : Verif.PrimeS.PrimeS}
    (hnew : Verif.PrimeS.new w n k f = some L) (hsmall : n * (n - 1) ≤ 32767)
    (hchecked : w = false → (n * (n - 1) - 1) * (k - f) ≤ 32767) {cs : Nat} (hcs : 0 < cs)
    (zl : Nat → Nat × Nat) (hz : ∀ z, cs ≤ (zl z).2) :
    (∀ z, ∃ lo hi, zoneLimits (ofPrimeS w L) cs zl z =
        some (lo * (k - f).toNat * cs, hi * (k - f).toNat * cs) ∧
      ∀ s, (lo ≤ s ∧ s < hi) ↔
        ∀ b < k.toNat, ChunkWithin (ofPrimeS w L) cs (zl z).1 (zl z).2 s b) ∧
    (∀ z z' lo hi lo' hi', (zl z).2 ≤ (zl z').1 →
      zoneLimits (ofPrimeS w L) cs zl z = some (lo, hi) →
      zoneLimits (ofPrimeS w L) cs zl z' = some (lo', hi') → hi ≤ lo') := by
  obtain ⟨hY, -, hk, hm, -⟩ := primeS_lawful hnew hsmall hchecked
  refine ⟨fun z => ?_, fun z z' lo hi lo' hi' hord h h' =>
    C11_ordered hY hcs zl z z' (hz z) (hz z') hord h h'⟩
  have := C11_exact hY hcs zl z (hz z)
  rw [hm, hk] at this
  exact this

/-! ### Non-vacuity -/

/-- Five disks, stripes of three data chunks and a parity chunk. -/
def exL : Verif.PrimeS.PrimeS := ⟨5, 4, 3, 2, 1, 60, 20, 16⟩
/-- File-backed children of 1000 zones of 128 LBAs. -/
def exDev : Zone.Dev := Zone.Dev.set 128000 128

example : Verif.PrimeS.new false 5 4 1 = some exL := by decide +kernel

example : (ofPrimeS false exL).Lawful ∧ (∀ z, 5 ≤ (exDev.zoneLimits z).2) ∧
    (∀ lba z, exDev.lba2zone lba = some z ↔
      (exDev.zoneLimits z).1 ≤ lba ∧ lba < (exDev.zoneLimits z).2) := by
  refine ⟨(primeS_lawful (n := 5) (k := 4) (f := 1) (by decide +kernel) (by decide) (by decide)).1,
    ?_, ?_⟩
  · intro z
    unfold Zone.Dev.zoneLimits
    split
    · decide
    · show 5 ≤ (z + 1) * 128
      omega
  · intro lba z
    exact Zone.C19_lba2zone_iff_partial _ (by unfold Zone.Dev.Sane; decide) lba z

/-- With chunks of five LBAs some stripes cross zone boundaries and belong to no zone. -/
example : zoneLimits (ofPrimeS false exL) 5 exDev.zoneLimits 0 = some (75, 465) ∧
    zoneLimits (ofPrimeS false exL) 5 exDev.zoneLimits 1 = some (495, 945) := by
  decide +kernel

end Verif.Raid
