import Verif.Raid.Spec
import Verif.Bytes.Props

namespace Verif.Raid

open Verif.Bytes

variable {g : Geom}

theorem Geom.Lawful.col_pos (h : g.Lawful) : 0 < g.col := Nat.mul_pos h.cs h.bpl
theorem Geom.Lawful.stripe_pos (h : g.Lawful) : 0 < g.stripe := Nat.mul_pos h.layout.m_pos h.col_pos
theorem Geom.Lawful.slbas_pos (h : g.Lawful) : 0 < g.slbas := Nat.mul_pos h.layout.m_pos h.cs
theorem stripe_eq (g : Geom) : g.stripe = g.slbas * g.bpl := by
  unfold Geom.stripe Geom.slbas Geom.col; rw [Nat.mul_assoc]
theorem bpl_dvd_stripe (g : Geom) : g.bpl ∣ g.stripe := ⟨g.slbas, by rw [stripe_eq, Nat.mul_comm]⟩

/-! ### Cursors -/

theorem takeN_spec : ∀ (fuel : Nat) (c : Cursor) (n : Nat), c.Ok → n ≤ fuel → n ≤ c.rest.length →
    ∃ sg c', takeN fuel c n = some (sg, c') ∧ c'.Ok ∧ sg.flatten = c.rest.take n ∧
      c'.rest = c.rest.drop n := by
  intro fuel
  induction fuel with
  | zero =>
    intro c n hc hn _
    have : n = 0 := by omega
    subst this
    exact ⟨[], c, by simp [takeN], hc, by simp, by simp⟩
  | succ fuel ih =>
    intro c n hc hn hle
    unfold takeN
    by_cases h0 : n = 0
    · subst h0
      exact ⟨[], c, by simp, hc, by simp, by simp⟩
    · rw [if_neg h0]
      obtain ⟨h1, h2⟩ := C57_cursor_next c hc n
      rcases hx : c.next n with ⟨_ | b, c1⟩
      · rw [hx] at h2
        have := h2.1
        rw [this] at hle
        simp at hle
        omega
      · rw [hx] at h1 h2
        obtain ⟨h3, h4, h5⟩ := h2
        simp only at h1 h3 h4 h5
        have hb : 0 < b.length := by
          have := h5 (by omega)
          cases b with
          | nil => exact absurd rfl this
          | cons => simp
        have hlen : c.rest.length = b.length + c1.rest.length := by rw [h3, List.length_append]
        obtain ⟨sg, c', e1, e2, e3, e4⟩ := ih c1 (n - b.length) h1 (by omega) (by omega)
        refine ⟨b :: sg, c', by simp only [e1, Option.map_some], e2, ?_, ?_⟩
        · rw [List.flatten_cons, e3, h3, List.take_append, List.take_of_length_le h4]
        · rw [e4, h3, List.drop_append, List.drop_eq_nil_iff.mpr h4, List.nil_append]

theorem cursor_of_rest (l : SGList) : (Cursor.of l).rest = l.flatten := by
  cases l <;> simp [Cursor.of, Cursor.rest]

theorem takeCols_spec (len : Nat) : ∀ (n : Nat) (c : Cursor), c.Ok → n * len ≤ c.rest.length →
    ∃ cols, takeCols len n c = some cols ∧
      cols.map List.flatten = (List.range n).map fun i => (c.rest.drop (i * len)).take len := by
  intro n
  induction n with
  | zero => intro c _ _; exact ⟨[], rfl, rfl⟩
  | succ n ih =>
    intro c hc hle
    have hsz : (n + 1) * len = n * len + len := by rw [Nat.add_mul, Nat.one_mul]
    obtain ⟨sg, c', e1, e2, e3, e4⟩ := takeN_spec len c len hc (Nat.le_refl _) (by omega)
    obtain ⟨cols, f1, f2⟩ := ih c' e2 (by rw [e4, List.length_drop]; omega)
    refine ⟨sg :: cols, by unfold takeCols; simp only [e1, f1, Option.map_some], ?_⟩
    rw [List.map_cons, f2, e3, List.range_succ_eq_map, List.map_cons, List.map_map]
    congr 1
    · simp
    · apply List.map_congr_left
      intro i _
      simp only [Function.comp, Nat.succ_eq_add_one]
      rw [e4, List.drop_drop]
      congr 2
      rw [Nat.add_mul, Nat.one_mul]; omega

/-! ### Arithmetic of aligned LBAs -/

theorem aligned_div (h : g.Lawful) (S : Nat) : S * g.slbas / g.cs = S * g.Y.m := by
  unfold Geom.slbas
  rw [← Nat.mul_assoc, Nat.mul_div_cancel _ h.cs]

theorem aligned_mod (S : Nat) : S * g.slbas % g.cs = 0 := by
  unfold Geom.slbas
  rw [← Nat.mul_assoc, Nat.mul_mod_left]

theorem chunk_div (h : g.Lawful) (S : Nat) {i : Nat} (hi : i < g.Y.m) : (S * g.Y.m + i) / g.Y.m = S := by
  rw [Nat.add_comm, Nat.add_mul_div_right _ _ h.layout.m_pos, Nat.div_eq_of_lt hi, Nat.zero_add]

theorem chunk_mod (S : Nat) {i : Nat} (hi : i < g.Y.m) : (S * g.Y.m + i) % g.Y.m = i := by
  rw [Nat.add_comm, Nat.add_mul_mod_self_right, Nat.mod_eq_of_lt hi]

theorem stripeChunks_one (S : Nat) (x : Buf) : stripeChunks g S x 1 =
    (List.range g.Y.k).map fun b => ⟨g.Y.disk S b, g.Y.off S b * g.col, column g x b⟩ := by
  simp [stripeChunks, List.range_one]

theorem oneStripe (h : g.Lawful) (S : Nat) (x : Buf) :
    dataWrites g (S * g.slbas) ((List.range g.Y.m).map fun i => (x.drop (i * g.col)).take g.col) ++
    parityWrites g (S * g.slbas)
      (g.enc ((List.range g.Y.m).map fun i => (x.drop (i * g.col)).take g.col)) =
    stripeChunks g S x 1 := by
  rw [stripeChunks_one]
  have hk : g.Y.k = g.Y.m + (g.Y.k - g.Y.m) := by have := h.layout.m_lt; omega
  apply List.ext_getElem?
  intro j
  have hcol : ∀ o, o * g.cs * g.bpl = o * g.col := fun o => Nat.mul_assoc _ _ _
  have hl : (dataWrites g (S * g.slbas)
      ((List.range g.Y.m).map fun i => (x.drop (i * g.col)).take g.col)).length = g.Y.m := by
    simp [dataWrites]
  rcases Nat.lt_or_ge j g.Y.m with hj | hj
  · rw [List.getElem?_append_left (by rw [hl]; exact hj)]
    unfold dataWrites
    rw [List.getElem?_mapIdx, List.getElem?_map, List.getElem?_range hj, List.getElem?_map,
      List.getElem?_range (by omega)]
    simp only [Option.map_some, Option.some.injEq]
    rw [aligned_div h, chunk_div h S hj, chunk_mod S hj, aligned_mod]
    have : (if j = 0 then 0 else 0) = 0 := by split <;> rfl
    rw [this, Nat.add_zero, hcol, column, if_pos hj]
  · rw [List.getElem?_append_right (by rw [hl]; exact hj), hl]
    unfold parityWrites
    rw [List.getElem?_mapIdx, List.getElem?_map]
    rcases Nat.lt_or_ge j g.Y.k with hjk | hjk
    · have hlt : j - g.Y.m < (g.enc ((List.range g.Y.m).map fun i =>
          (x.drop (i * g.col)).take g.col)).length := by rw [h.enc_len]; omega
      rw [List.getElem?_range hjk, List.getElem?_eq_getElem hlt]
      simp only [Option.map_some, Option.some.injEq]
      have : (if j - g.Y.m = 0 then S * g.slbas % g.cs else 0) = 0 := by
        rw [aligned_mod]; split <;> rfl
      rw [this, aligned_div h, Nat.mul_div_cancel _ h.layout.m_pos, Nat.add_zero, hcol]
      have hadd : g.Y.m + (j - g.Y.m) = j := by omega
      rw [hadd, column, if_neg (by omega), List.getD_eq_getElem?_getD, List.getElem?_eq_getElem hlt]
      rfl
    · rw [List.getElem?_eq_none_iff.mpr (by rw [h.enc_len]; omega),
        List.getElem?_eq_none_iff.mpr (by rw [List.length_range]; omega)]
      rfl

/-- `writev_at_one` writes one stripe. -/
theorem writevAtOne_spec (h : g.Lawful) (S : Nat) (sg : SGList) (hne : ∀ b ∈ sg, b ≠ [])
    (hlen : sg.flatten.length = g.stripe) :
    writevAtOne g sg (S * g.slbas) = some (stripeChunks g S sg.flatten 1) := by
  unfold writevAtOne
  have hc : (Cursor.of sg).Ok := Cursor.ok_of sg hne
  obtain ⟨cols, e1, e2⟩ := takeCols_spec g.col g.Y.m (Cursor.of sg) hc
    (by rw [cursor_of_rest, hlen]; exact Nat.le_refl _)
  rw [e1, Option.map_some, e2, cursor_of_rest, oneStripe h]

theorem intoChunks_eq {len : Nat} (hl : 0 < len) (b : Buf) {m : Nat} (hb : b.length = m * len) :
    intoChunks len b = (List.range m).map fun i => (b.drop (i * len)).take len := by
  unfold intoChunks
  have : (b.length + len - 1) / len = m := by
    rw [hb, Nat.div_eq_of_lt_le (k := m)]
    · omega
    · rw [Nat.add_mul, Nat.one_mul]; omega
  rw [this]

/-- `write_at_one` writes one stripe. -/
theorem writeAtOne_spec (h : g.Lawful) (S : Nat) (b : Buf) (hlen : b.length = g.stripe) :
    writeAtOne g b (S * g.slbas) = stripeChunks g S b 1 := by
  unfold writeAtOne
  simp only
  rw [intoChunks_eq h.col_pos b hlen, oneStripe h]

theorem column_length (h : g.Lawful) {x : Buf} (hx : g.stripe ≤ x.length) {b : Nat}
    (hb : b < g.Y.k) : (column g x b).length = g.col := by
  have hcol : ∀ i < g.Y.m, ((x.drop (i * g.col)).take g.col).length = g.col := by
    intro i hi
    rw [List.length_take, List.length_drop]
    have : (i + 1) * g.col ≤ g.Y.m * g.col := Nat.mul_le_mul_right _ hi
    rw [Nat.add_mul, Nat.one_mul] at this
    unfold Geom.stripe at hx
    omega
  unfold column
  split
  · rename_i hm
    exact hcol b hm
  · have hlt : b - g.Y.m < (g.enc ((List.range g.Y.m).map fun i =>
        (x.drop (i * g.col)).take g.col)).length := by rw [h.enc_len]; omega
    rw [List.getD_eq_getElem?_getD, List.getElem?_eq_getElem hlt]
    apply h.enc_col ((List.range g.Y.m).map fun i => (x.drop (i * g.col)).take g.col)
    · simp
    · intro c hc
      obtain ⟨i, hi, rfl⟩ := List.mem_map.mp hc
      exact hcol i (List.mem_range.mp hi)
    · exact List.getElem_mem _

/-- The columns of a stripe only depend on the stripe's data. -/
theorem column_append (x y : Buf) (hx : g.stripe ≤ x.length) (b : Nat) :
    column g (x ++ y) b = column g x b := by
  have hcol : ∀ i < g.Y.m, ((x ++ y).drop (i * g.col)).take g.col = (x.drop (i * g.col)).take g.col := by
    intro i hi
    have : (i + 1) * g.col ≤ g.Y.m * g.col := Nat.mul_le_mul_right _ hi
    rw [Nat.add_mul, Nat.one_mul] at this
    unfold Geom.stripe at hx
    rw [List.drop_append_of_le_length (by omega), List.take_append_of_le_length
      (by rw [List.length_drop]; omega)]
  unfold column
  split
  · rename_i hm
    exact hcol b hm
  · have : (List.range g.Y.m).map (fun i => ((x ++ y).drop (i * g.col)).take g.col) =
        (List.range g.Y.m).map fun i => (x.drop (i * g.col)).take g.col :=
      List.map_congr_left fun i hi => hcol i (List.mem_range.mp hi)
    rw [this]

theorem multiItems_spec (h : g.Lawful) (S N : Nat) (x : Buf) (hx : x.length = N * g.stripe) :
    multiItems g x (S * g.slbas) = stripeChunks g S x N := by
  unfold multiItems stripeChunks
  have hN : x.length / g.col / g.Y.m = N := by
    rw [hx, Geom.stripe, ← Nat.mul_assoc, Nat.mul_div_cancel _ h.col_pos,
      Nat.mul_div_cancel _ h.layout.m_pos]
  have hcol : ∀ o, o * g.cs * g.bpl = o * g.col := fun o => Nat.mul_assoc _ _ _
  have hmc : ∀ t i, multiCol g x t i = ((x.drop (t * g.stripe)).drop (i * g.col)).take g.col := by
    intro t i
    unfold multiCol
    rw [List.drop_drop, Geom.stripe, Nat.add_mul, Nat.mul_assoc]
  rw [hN]
  congr 1
  funext t
  apply List.map_congr_left
  intro b _
  simp only
  rw [aligned_div h, Nat.mul_div_cancel _ h.layout.m_pos, hcol]
  congr 1
  unfold multiAny column
  simp only [hmc]

end Verif.Raid
