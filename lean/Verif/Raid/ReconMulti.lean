import Verif.Raid.ReconProps

/-! The reads of `read_at_multi` in a degraded array. -/

namespace Verif.Raid

open Verif.Bytes Verif.Codec

variable {g : Geom}

/-- The caller's part of stripe `s`. -/
def us (g : Geom) (u s : Nat) : Nat := max u (s * g.slbas)
def es (g : Geom) (e s : Nat) : Nat := min e ((s + 1) * g.slbas)

/-- Stripe `s` has a part that the caller wants. -/
structure Wanted (g : Geom) (u e s : Nat) : Prop where
  lt : u < e
  start : u < (s + 1) * g.slbas
  stop : s * g.slbas < e

theorem slbas_pos (h : g.Lawful) : 0 < g.slbas := Nat.mul_pos h.layout.m_pos h.cs

theorem Wanted.base (h : g.Lawful) {u e s : Nat} (hw : Wanted g u e s) :
    us g u s - us g u s % g.slbas = s * g.slbas := by
  have hp := slbas_pos h
  have h1 := hw.start
  rw [Nat.add_mul, Nat.one_mul] at h1
  have : us g u s = (us g u s - s * g.slbas) + s * g.slbas := by unfold us; omega
  have hlt : us g u s - s * g.slbas < g.slbas := by unfold us; omega
  have hm : us g u s % g.slbas = us g u s - s * g.slbas := by
    rw [this, Nat.add_mul_mod_self_right, Nat.mod_eq_of_lt (by omega)]; omega
  rw [hm]; omega

theorem Wanted.inStripe (h : g.Lawful) {u e s : Nat} (hw : Wanted g u e s) :
    InStripe g (us g u s) (es g e s) := by
  have hp := slbas_pos h
  have hb := hw.base h
  obtain ⟨h0, h1, h2⟩ := hw
  refine ⟨?_, ?_⟩
  · unfold us es
    rw [Nat.add_mul, Nat.one_mul] at *
    omega
  · rw [hb]; unfold es; rw [Nat.add_mul, Nat.one_mul]; omega

/-- What is left of the caller's buffer at position `b` of stripe `s`. -/
def leftAt (g : Geom) (u e s b : Nat) : Nat :=
  leftB g (us g u s) (es g e s) b + (e - es g e s) * g.bpl

theorem leftB_end {u e : Nat} (hr : InStripe g u e) {b : Nat} (hb : g.Y.m ≤ b) :
    leftB g u e b = 0 := by
  have h1 := hi_le hr
  have h2 : g.stripe ≤ b * g.col := Nat.mul_le_mul_right _ hb
  unfold leftB
  omega

theorem leftAt_stripe (h : g.Lawful) {u e s b : Nat} (hw : Wanted g u e s) (hw' : Wanted g u e (s + 1))
    (hb : g.Y.m ≤ b) : leftAt g u e s b = leftAt g u e (s + 1) 0 := by
  unfold leftAt
  rw [leftB_end (hw.inStripe h) hb, leftB_zero h (hw'.inStripe h), Nat.zero_add, ← Nat.add_mul]
  congr 1
  have := (hw'.inStripe h).lt
  obtain ⟨h0, h1, h2⟩ := hw
  obtain ⟨-, h3, h4⟩ := hw'
  unfold us es at *
  omega

theorem degPlan_ok (h : g.Lawful) {u e s b : Nat} (hw : Wanted g u e s)
    (hmulti : (u / g.slbas + 1) * g.slbas < e) :
    ∃ bufs, degPlan g u e (leftAt g u e s b) s b = some bufs ∧
      leftAt g u e s b - userLen bufs = leftAt g u e s (b + 1) ∧
      ∀ x : Buf, x.length = g.col → fillBufs bufs x =
        (userB (lo g (us g u s)) (hi g (us g u s) (es g e s)) (b * g.col) x,
          exB g.col (lo g (us g u s)) (hi g (us g u s) (es g e s)) (b * g.col) x) := by
  have hcol : 0 < g.col := Nat.mul_pos h.cs h.bpl
  have hr := hw.inStripe h
  have hbase := hw.base h
  have hLH := lo_lt_hi h hr
  have hH := hi_le hr
  have hp := slbas_pos h
  obtain ⟨c1, c2, c3, c4, c5⟩ := chunk_conds h hr b
  have hso := start_off (g := g) (u := us g u s) (b := b)
  have hm : g.Y.m ≤ b → hi g (us g u s) (es g e s) ≤ b * g.col := fun hb =>
    Nat.le_trans hH (Nat.mul_le_mul_right _ hb)
  rw [hbase] at c1 c2 c3 c4
  obtain ⟨h0, hs1, hs2⟩ := hw
  have hbm : ¬ g.Y.m ≤ b → b * g.cs + g.cs ≤ g.slbas := by
    intro hb
    have : (b + 1) * g.cs ≤ g.Y.m * g.cs := Nat.mul_le_mul_right _ (by omega)
    rw [Nat.add_mul, Nat.one_mul] at this
    exact this
  have hlba : (s * g.Y.m + b) * g.cs = s * g.slbas + b * g.cs := by
    rw [Nat.add_mul, Nat.mul_assoc]; rfl
  rw [Nat.add_mul, Nat.one_mul] at hs1
  have hes : es g e s = min e (s * g.slbas + g.slbas) := by
    unfold es; rw [Nat.add_mul, Nat.one_mul]
  have hus : us g u s = max u (s * g.slbas) := rfl
  -- the conditions on the whole range are those on the stripe's part
  have d1 : (s * g.slbas + b * g.cs + g.cs ≤ u) = (s * g.slbas + b * g.cs + g.cs ≤ us g u s) := by
    have := h.cs; apply propext; rw [hus]; omega
  have d2 : (s * g.slbas + b * g.cs < u) = (s * g.slbas + b * g.cs < us g u s) := by
    apply propext; rw [hus]; omega
  have d3 : ¬ g.Y.m ≤ b → (s * g.slbas + b * g.cs + g.cs ≤ e) =
      (s * g.slbas + b * g.cs + g.cs ≤ es g e s) := by
    intro hb; have := hbm hb; apply propext; rw [hes]; omega
  have d4 : ¬ g.Y.m ≤ b → (s * g.slbas + b * g.cs < e) =
      (s * g.slbas + b * g.cs < es g e s) := by
    intro hb; have := hbm hb; have := h.cs; apply propext; rw [hes]; omega
  -- when the range starts in this chunk it goes beyond the stripe
  have d5 : s * g.slbas + b * g.cs < u → us g u s = u ∧ es g e s = s * g.slbas + g.slbas := by
    intro hlt
    have e1 : us g u s = u := by rw [hus]; omega
    have e2 : u / g.slbas = s := by
      rw [Nat.div_eq_iff hp]
      omega
    rw [e2, Nat.add_mul, Nat.one_mul] at hmulti
    exact ⟨e1, by rw [hes]; omega⟩
  -- when it ends in this chunk nothing is left after it
  have d6 : ¬ g.Y.m ≤ b → ¬ s * g.slbas + b * g.cs + g.cs ≤ e → es g e s = e := by
    intro hb hne; have := hbm hb; rw [hes]; omega
  have hH5 : es g e s = s * g.slbas + g.slbas → hi g (us g u s) (es g e s) = g.stripe := by
    intro he
    unfold hi
    rw [hbase, he, stripe_eq]
    congr 1; omega
  have hcs : ¬ g.Y.m ≤ b → b * g.col + g.col ≤ g.stripe := by
    intro hb
    have : (b + 1) * g.col ≤ g.Y.m * g.col := Nat.mul_le_mul_right _ (by omega)
    rw [Nat.add_mul, Nat.one_mul] at this
    exact this
  have hstep : ∀ x : Buf, x.length = g.col → ∀ n,
      n = (userB (lo g (us g u s)) (hi g (us g u s) (es g e s)) (b * g.col) x).length →
      leftAt g u e s b - n = leftAt g u e s (b + 1) := by
    intro x hx n hn
    have h1 := leftB_step h hr (b := b) hx
    rw [← hn] at h1
    have h2 : n ≤ leftB g (us g u s) (es g e s) b := by
      rw [hn, userB_length hx]; unfold leftB; omega
    unfold leftAt
    omega
  have hul : ∀ x : Buf, x.length = g.col → _ := fun x hx =>
    userB_length (L := lo g (us g u s)) (H := hi g (us g u s) (es g e s)) (c := b * g.col) hx
  have hz : (List.replicate g.col (0 : UInt8)).length = g.col := List.length_replicate
  have hstep' := fun n hn => hstep _ hz n (by rw [hul _ hz]; exact hn)
  have hleft : leftAt g u e s b = hi g (us g u s) (es g e s) - min (max (b * g.col) (lo g (us g u s)))
      (hi g (us g u s) (es g e s)) + (e - es g e s) * g.bpl := rfl
  have hUlen : ∀ x : Buf, x.length = g.col →
      (userB (lo g (us g u s)) (hi g (us g u s) (es g e s)) (b * g.col) x).length = 0 →
      userB (lo g (us g u s)) (hi g (us g u s) (es g e s)) (b * g.col) x = [] :=
    fun x _ hh => List.eq_nil_of_length_eq_zero hh
  unfold degPlan
  rw [hlba]
  simp only [d1, d2, c1, c2]
  by_cases hb : g.Y.m ≤ b
  · have hm := hm hb
    rw [if_pos (Or.inl hb)]
    refine ⟨_, rfl, hstep' _ (by simp [userLen]; omega), ?_⟩
    intro x hx
    rw [hUlen x hx (by rw [hul x hx]; omega), exB_outside hcol hLH (Or.inr hm)]
    simp only [fillBufs, List.take_of_length_le (Nat.le_of_eq hx)]
  · simp only [hb, false_or, d3 hb, d4 hb, c3, c4]
    have hcs := hcs hb
    rw [d2, c2] at d5
    have d6 := d6 hb
    rw [d3 hb, c3] at d6
    rw [hleft] at hstep' ⊢
    generalize leftAt g u e s (b + 1) = next at *
    have hU5 : us g u s = u → lo g (us g u s) = lo g u := fun hh => by rw [hh]
    generalize hLg : lo g (us g u s) = L at *
    generalize hHg : hi g (us g u s) (es g e s) = H at *
    generalize b * g.col = c at *
    by_cases h1 : c + g.col ≤ L
    · rw [if_pos h1]
      refine ⟨_, rfl, hstep' _ (by simp [userLen]; omega), ?_⟩
      intro x hx
      rw [hUlen x hx (by rw [hul x hx]; omega), exB_outside hcol hLH (Or.inl h1)]
      simp only [fillBufs, List.take_of_length_le (Nat.le_of_eq hx)]
    · rw [if_neg h1]
      by_cases h2 : c < L
      · rw [if_pos h2]
        obtain ⟨s1, s2⟩ := hso h2 (by omega)
        obtain ⟨e1, e2⟩ := d5 h2
        have hHs := hH5 e2
        rw [e1] at s2
        simp only [s2]
        have hmin : min (c + g.col - L) (H - min (max c L) H + (e - es g e s) * g.bpl) =
            c + g.col - L := by
          have : c + g.col - L ≤ H - min (max c L) H := by omega
          omega
        rw [hmin, if_neg (by omega)]
        refine ⟨_, rfl, hstep' _ (by simp [userLen]; omega), ?_⟩
        intro x hx
        unfold exB userB
        rw [if_neg h1, if_pos h2, if_neg (by omega)]
        simp only [fillBufs, List.append_nil]
        rw [show g.col - (c + g.col - L) = L - c by omega, show max c L = L by omega,
          List.take_of_length_le (l := x.drop (L - c)) (by rw [List.length_drop]; omega),
          List.take_of_length_le (l := x.drop (L - c)) (by rw [List.length_drop]; omega)]
      · rw [if_neg h2]
        by_cases h3 : c + g.col ≤ H
        · rw [if_pos h3]
          have hge : ¬ H - min (max c L) H + (e - es g e s) * g.bpl < g.col := by
            have : g.col ≤ H - min (max c L) H := by omega
            omega
          rw [if_neg hge]
          refine ⟨_, rfl, hstep' _ (by simp [userLen]; omega), ?_⟩
          intro x hx
          unfold exB userB
          rw [if_neg h1, if_neg h2, if_pos h3]
          simp only [fillBufs, List.append_nil]
          rw [show L - c = 0 by omega, List.drop_zero, List.take_of_length_le (by omega),
            List.take_of_length_le (by omega)]
        · rw [if_neg h3]
          have e6 := d6 h3
          have hz0 : (e - es g e s) * g.bpl = 0 := by rw [e6, Nat.sub_self, Nat.zero_mul]
          rw [hz0] at hstep' ⊢
          by_cases h4 : c < H
          · rw [if_pos h4, if_neg (by omega)]
            refine ⟨_, rfl, hstep' _ (by simp [userLen]; omega), ?_⟩
            intro x hx
            unfold exB userB
            rw [if_neg h1, if_neg h2, if_neg h3, if_pos h4]
            simp only [fillBufs, List.append_nil]
            rw [show L - c = 0 by omega, List.drop_zero, show max c L = c by omega,
              show H - min c H + 0 = H - c by omega,
              List.take_of_length_le (l := x.drop (H - c)) (by rw [List.length_drop]; omega)]
          · rw [if_neg h4]
            refine ⟨_, rfl, hstep' _ (by simp [userLen]; omega), ?_⟩
            intro x hx
            rw [hUlen x hx (by rw [hul x hx]; omega), exB_outside hcol hLH (Or.inr (by omega))]
            simp only [fillBufs, List.take_of_length_le (Nat.le_of_eq hx)]

end Verif.Raid
