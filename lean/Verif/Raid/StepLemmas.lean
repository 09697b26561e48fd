import Verif.Raid.MultiLemmas

namespace Verif.Raid

open Verif.Bytes

variable {g : Geom}

theorem padTo_of_dvd {a : Nat} {b : Buf} (h : a ∣ b.length) : padTo a b = b := by
  unfold padTo
  rw [Nat.mod_eq_zero_of_dvd h]
  simp [zeros]

theorem padTo_ne_nil {a : Nat} {b : Buf} (h : b ≠ []) : padTo a b ≠ [] := by
  unfold padTo
  intro e
  exact h (List.append_eq_nil_iff.mp e).1

theorem padTo_dvd {a : Nat} (ha : 0 < a) (b : Buf) : a ∣ (padTo a b).length := by
  unfold padTo zeros
  rw [List.length_append, List.length_replicate]
  have h1 := Nat.div_add_mod b.length a
  by_cases h0 : b.length % a = 0
  · rw [h0, Nat.sub_zero, Nat.mod_self, Nat.add_zero]
    exact Nat.dvd_of_mod_eq_zero h0
  · have hlt := Nat.mod_lt b.length ha
    rw [Nat.mod_eq_of_lt (by omega)]
    refine ⟨b.length / a + 1, ?_⟩
    rw [Nat.mul_add, Nat.mul_one]
    omega

theorem padTo_le {a M : Nat} (ha : 0 < a) {b : Buf} (hM : a ∣ M) (hb : b.length ≤ M) :
    (padTo a b).length ≤ M := by
  obtain ⟨q, rfl⟩ := hM
  obtain ⟨r, hr⟩ := padTo_dvd ha b
  rw [hr]
  apply Nat.mul_le_mul_left
  have h2 : (padTo a b).length < b.length + a := by
    unfold padTo zeros
    rw [List.length_append, List.length_replicate]
    have := Nat.mod_lt (a - b.length % a) ha
    omega
  rw [hr] at h2
  rcases Nat.lt_or_ge q r with hlt | hge
  · have : a * (q + 1) ≤ a * r := Nat.mul_le_mul_left _ hlt
    rw [Nat.mul_add, Nat.mul_one] at this
    omega
  · exact hge

theorem padTo_append {a : Nat} (x y : Buf) (h : a ∣ x.length) : padTo a (x ++ y) = x ++ padTo a y := by
  unfold padTo
  obtain ⟨q, hq⟩ := h
  rw [List.length_append, hq, Nat.mul_add_mod, List.append_assoc]

theorem len_eq (sb : StripeBuffer) : sb.len = sb.buf.flatten.length := by
  unfold StripeBuffer.len
  rw [List.length_flatten]

/-- What `fill` does when there is something to add and room for it. -/
theorem fill_spec (h : g.Lawful) (sb : StripeBuffer) (v : Buf)
    (hlt : sb.buf.flatten.length < g.stripe) (hv : v ≠ []) (hne : ∀ b ∈ sb.buf, b ≠ []) :
    (sb.fill g v).1.lba = sb.lba ∧
    (sb.fill g v).1.buf.flatten = sb.buf.flatten ++
      padTo g.bpl (v.take (g.stripe - sb.buf.flatten.length)) ∧
    (sb.fill g v).2 = v.drop (g.stripe - sb.buf.flatten.length) ∧
    (∀ b ∈ (sb.fill g v).1.buf, b ≠ []) ∧ (sb.fill g v).1.buf ≠ [] := by
  have hvl : 0 < v.length := List.length_pos_iff.mpr hv
  unfold StripeBuffer.fill
  simp only [len_eq]
  generalize hW : g.stripe - sb.buf.flatten.length = W
  have hWpos : 0 < W := by omega
  have hget : 0 < min W v.length := by omega
  rw [if_pos hget]
  have htake : v.take (min W v.length) = v.take W := by
    rw [← List.take_take, List.take_length]
  have hdrop : v.drop (min W v.length) = v.drop W := by
    rcases Nat.le_total W v.length with h1 | h1
    · rw [Nat.min_eq_left h1]
    · rw [Nat.min_eq_right h1, List.drop_eq_nil_iff.mpr h1, List.drop_length]
  have htl : (v.take W).length = min W v.length := List.length_take
  have htne : v.take W ≠ [] := by
    intro e
    rw [e] at htl
    simp at htl
    omega
  split
  · rename_i hp
    have hlt' := Nat.mod_lt (min W v.length) h.bpl
    refine ⟨rfl, ?_, hdrop, ?_, by simp⟩
    · show (sb.buf ++ [v.take (min W v.length)] ++ [zeros _]).flatten = _
      rw [htake]
      unfold padTo
      rw [htl, Nat.mod_eq_of_lt (show g.bpl - min W v.length % g.bpl < g.bpl by omega)]
      simp [List.append_assoc]
    · intro b hb
      simp only [List.mem_append, List.mem_singleton] at hb
      rcases hb with (hb | rfl) | rfl
      · exact hne b hb
      · rw [htake]; exact htne
      · unfold zeros
        intro e
        have := congrArg List.length e
        rw [List.length_replicate] at this
        simp at this
        omega
  · rename_i hp
    have hp' : min W v.length % g.bpl = 0 := by omega
    refine ⟨rfl, ?_, hdrop, ?_, by simp⟩
    · show (sb.buf ++ [v.take (min W v.length)]).flatten = _
      rw [htake, padTo_of_dvd (by rw [htl]; exact Nat.dvd_of_mod_eq_zero hp')]
      simp
    · intro b hb
      simp only [List.mem_append, List.mem_singleton] at hb
      rcases hb with hb | rfl
      · exact hne b hb
      · rw [htake]; exact htne

theorem zeros_ne {n : Nat} (h : 0 < n) : zeros n ≠ [] := by
  intro e
  have := congrArg List.length e
  simp [zeros] at this
  omega

theorem zeros_length (n : Nat) : (zeros n).length = n := List.length_replicate

theorem fillZeros_spec (h : g.Lawful) : ∀ (n : Nat) (sb : StripeBuffer),
    sb.buf.flatten.length + n * g.zr < g.stripe → (∀ b ∈ sb.buf, b ≠ []) →
    (sb.fillZeros g n).lba = sb.lba ∧
    (sb.fillZeros g n).buf.flatten = sb.buf.flatten ++ zeros (n * g.zr) ∧
    (∀ b ∈ (sb.fillZeros g n).buf, b ≠ []) := by
  intro n
  induction n with
  | zero => intro sb _ hne; simp [StripeBuffer.fillZeros, zeros]; exact hne
  | succ n ih =>
    intro sb hle hne
    rw [Nat.add_mul, Nat.one_mul] at hle
    obtain ⟨h1, h2, -, h4, -⟩ := fill_spec h sb (zeros g.zr) (by omega) (zeros_ne h.zr) hne
    rw [List.take_of_length_le (by rw [zeros_length]; omega),
      padTo_of_dvd (by rw [zeros_length]; exact h.zr_bpl)] at h2
    unfold StripeBuffer.fillZeros
    obtain ⟨e1, e2, e3⟩ := ih (sb.fill g (zeros g.zr)).1 (by
      rw [h2, List.length_append, zeros_length]; omega) h4
    refine ⟨e1.trans h1, ?_, e3⟩
    rw [e2, h2, List.append_assoc]
    congr 1
    unfold zeros
    rw [List.replicate_append_replicate, Nat.add_mul, Nat.one_mul]
    congr 1; omega

theorem pad_spec (h : g.Lawful) (sb : StripeBuffer) (hlt : sb.buf.flatten.length < g.stripe)
    (hd : g.bpl ∣ sb.buf.flatten.length) (hne : ∀ b ∈ sb.buf, b ≠ []) :
    ∃ sb', sb.pad g = some (sb', (g.stripe - sb.buf.flatten.length) / g.bpl) ∧ sb'.lba = sb.lba ∧
      sb'.buf.flatten = sb.buf.flatten ++ zeros (g.stripe - sb.buf.flatten.length) ∧
      (∀ b ∈ sb'.buf, b ≠ []) := by
  unfold StripeBuffer.pad
  simp only [len_eq]
  generalize hP : g.stripe - sb.buf.flatten.length = P
  have hPpos : 0 < P := by omega
  have hzb : 0 < (P + g.zr - 1) / g.zr := Nat.div_pos (by have := h.zr; omega) h.zr
  rw [if_neg (by omega)]
  generalize hq : (P + g.zr - 1) / g.zr = q at hzb
  have hlow : (q - 1) * g.zr < P := by
    have : q * g.zr ≤ P + g.zr - 1 := by rw [← hq]; exact Nat.div_mul_le_self _ _
    rw [Nat.sub_mul, Nat.one_mul]
    have := h.zr
    omega
  have hhigh : P ≤ q * g.zr := by
    have := Nat.lt_mul_div_succ (P + g.zr - 1) h.zr
    rw [hq, Nat.mul_add, Nat.mul_one, Nat.mul_comm] at this
    omega
  have hqz : q * g.zr = (q - 1) * g.zr + g.zr := by
    rw [Nat.sub_mul, Nat.one_mul]
    have : g.zr ≤ q * g.zr := Nat.le_mul_of_pos_left _ hzb
    omega
  obtain ⟨e1, e2, e3⟩ := fillZeros_spec h (q - 1) sb (by omega) hne
  have hdP : g.bpl ∣ P := by rw [← hP]; exact Nat.dvd_sub (bpl_dvd_stripe g) hd
  have hdq : g.bpl ∣ (q - 1) * g.zr := Nat.dvd_trans h.zr_bpl ⟨q - 1, Nat.mul_comm _ _⟩
  have hlen : (sb.fillZeros g (q - 1)).buf.flatten.length =
      sb.buf.flatten.length + (q - 1) * g.zr := by rw [e2, List.length_append, zeros_length]
  obtain ⟨f1, f2, -, f4, -⟩ := fill_spec h (sb.fillZeros g (q - 1)) (zeros (P - (q - 1) * g.zr))
    (by omega) (zeros_ne (by omega)) e3
  refine ⟨_, rfl, f1.trans e1, ?_, f4⟩
  rw [f2, e2, List.length_append, zeros_length, List.take_of_length_le
    (by rw [zeros_length]; omega), padTo_of_dvd (by rw [zeros_length]; exact Nat.dvd_sub hdP hdq),
    List.append_assoc]
  congr 1
  unfold zeros
  rw [List.replicate_append_replicate]
  congr 1; omega

/-! ### The log -/

theorem stripeChunks_append (S : Nat) (x y : Buf) : ∀ (N : Nat), N * g.stripe ≤ x.length →
    stripeChunks g S (x ++ y) N = stripeChunks g S x N := by
  intro N hN
  unfold stripeChunks
  rw [List.flatMap_def, List.flatMap_def]
  congr 1
  apply List.map_congr_left
  intro t ht
  have ht' : (t + 1) * g.stripe ≤ N * g.stripe := Nat.mul_le_mul_right _ (List.mem_range.mp ht)
  rw [Nat.add_mul, Nat.one_mul] at ht'
  apply List.map_congr_left
  intro b _
  rw [List.drop_append_of_le_length (by omega), column_append _ _ (by rw [List.length_drop]; omega)]

theorem stripeChunks_add (S : Nat) (x : Buf) (N : Nat) : ∀ (M : Nat), stripeChunks g S x (N + M) =
    stripeChunks g S x N ++ stripeChunks g (S + N) (x.drop (N * g.stripe)) M := by
  intro M
  induction M with
  | zero => simp [stripeChunks]
  | succ M ih =>
    rw [← Nat.add_assoc, stripeChunks_succ S x (N + M), ih, stripeChunks_succ (S + N) _ M,
      List.append_assoc, List.drop_drop, ← Nat.add_mul, Nat.add_assoc S N M]

/-- The log holds, byte for byte, the stripes that `F` fills, from stripe `Z` on. -/
def Cov (g : Geom) (Z T : Nat) (F : Buf) (log : List CW) : Prop :=
  F.length = T * g.stripe ∧ (bytesOf log).Perm (bytesOf (stripeChunks g Z F T))

theorem Cov.add {Z T N : Nat} {F x : Buf} {log ws : List CW} (h : Cov g Z T F log)
    (hx : x.length = N * g.stripe)
    (hw : (bytesOf ws).Perm (bytesOf (stripeChunks g (Z + T) x N))) :
    Cov g Z (T + N) (F ++ x) (log ++ ws) := by
  refine ⟨by rw [List.length_append, h.1, hx, Nat.add_mul], ?_⟩
  rw [stripeChunks_add, bytesOf_append, bytesOf_append,
    stripeChunks_append Z F x T (by rw [h.1]; exact Nat.le_refl _), List.drop_append_of_le_length
    (by rw [h.1]; exact Nat.le_refl _), List.drop_eq_nil_iff.mpr (by rw [h.1]; exact Nat.le_refl _),
    List.nil_append]
  exact h.2.append hw

theorem mem_bytesOf {ws : List CW} {d a : Nat} {v : UInt8} : (d, a, v) ∈ bytesOf ws ↔
    ∃ w ∈ ws, d = w.disk ∧ w.addr ≤ a ∧ w.data[a - w.addr]? = some v := by
  unfold bytesOf
  rw [List.mem_flatMap]
  constructor
  · rintro ⟨w, hw, h⟩
    rw [List.mem_mapIdx] at h
    obtain ⟨i, hi, h⟩ := h
    simp only [Prod.mk.injEq] at h
    obtain ⟨h1, h2, h3⟩ := h
    subst h1 h2
    refine ⟨w, hw, rfl, by omega, ?_⟩
    have : w.addr + i - w.addr = i := by omega
    rw [this, List.getElem?_eq_getElem hi, h3]
  · rintro ⟨w, hw, rfl, h1, h2⟩
    obtain ⟨hi, h3⟩ := List.getElem?_eq_some_iff.mp h2
    refine ⟨w, hw, List.mem_mapIdx.mpr ⟨a - w.addr, hi, ?_⟩⟩
    rw [h3]
    have : w.addr + (a - w.addr) = a := by omega
    rw [this]

/-- Every byte of a stripe is in one of its chunks. -/
theorem mem_stripe (h : g.Lawful) {S N : Nat} {x : Buf} (hx : N * g.stripe ≤ x.length) {d a : Nat}
    {v : UInt8} (hm : (d, a, v) ∈ bytesOf (stripeChunks g S x N)) :
    ∃ t b, t < N ∧ b < g.Y.k ∧ d = g.Y.disk (S + t) b ∧ g.Y.off (S + t) b * g.col ≤ a ∧
      a < (g.Y.off (S + t) b + 1) * g.col := by
  obtain ⟨w, hw, h1, h2, h3⟩ := mem_bytesOf.mp hm
  unfold stripeChunks at hw
  obtain ⟨t, ht, hw⟩ := List.mem_flatMap.mp hw
  obtain ⟨b, hb, rfl⟩ := List.mem_map.mp hw
  have ht := List.mem_range.mp ht
  have hb := List.mem_range.mp hb
  have hlt := (List.getElem?_eq_some_iff.mp h3).1
  simp only at h1 h2 hlt
  have hlen : (column g (x.drop (t * g.stripe)) b).length = g.col := by
    apply column_length h _ hb
    have : (t + 1) * g.stripe ≤ N * g.stripe := Nat.mul_le_mul_right _ ht
    rw [Nat.add_mul, Nat.one_mul] at this
    rw [List.length_drop]
    omega
  rw [hlen] at hlt
  refine ⟨t, b, ht, hb, h1, h2, ?_⟩
  rw [Nat.add_mul, Nat.one_mul]
  omega

/-- Later stripes go after earlier ones. -/
theorem Cov.ordered (h : g.Lawful) {Z T N : Nat} {F x : Buf} {log ws : List CW} (hc : Cov g Z T F log)
    (hx : x.length = N * g.stripe)
    (hw : (bytesOf ws).Perm (bytesOf (stripeChunks g (Z + T) x N))) (h1 : Ordered log)
    (h2 : Ordered ws) : Ordered (log ++ ws) := by
  unfold Ordered
  rw [List.pairwise_append]
  refine ⟨h1, h2, fun w hm w' hm' hd i hi j hj => ?_⟩
  have e1 : (w.disk, w.addr + i, w.data[i]) ∈ bytesOf log := mem_bytesOf.mpr
    ⟨w, hm, rfl, by omega, by rw [Nat.add_sub_cancel_left]; exact List.getElem?_eq_getElem hi⟩
  have e2 : (w'.disk, w'.addr + j, w'.data[j]) ∈ bytesOf ws := mem_bytesOf.mpr
    ⟨w', hm', rfl, by omega, by rw [Nat.add_sub_cancel_left]; exact List.getElem?_eq_getElem hj⟩
  obtain ⟨t, b, ht, hb, f1, f2, f3⟩ := mem_stripe h (by rw [hc.1]; exact Nat.le_refl _)
    (hc.2.mem_iff.mp e1)
  obtain ⟨t', b', ht', hb', f1', f2', f3'⟩ := mem_stripe h (by rw [hx]; exact Nat.le_refl _)
    (hw.mem_iff.mp e2)
  have := h.layout.strict (Z + t) (Z + T + t') b b' (by omega) hb hb' (by rw [← f1, ← f1', hd])
  have : (g.Y.off (Z + t) b + 1) * g.col ≤ g.Y.off (Z + T + t') b' * g.col :=
    Nat.mul_le_mul_right _ this
  omega

theorem ordered_one (h : g.Lawful) (S : Nat) (x : Buf) : Ordered (stripeChunks g S x 1) := by
  rw [stripeChunks_one]
  unfold Ordered
  rw [List.pairwise_map]
  apply List.Pairwise.imp_of_mem _ (List.nodup_iff_pairwise_ne.mp (List.nodup_range (n := g.Y.k)))
  intro b b' hb hb' hne hd
  exact absurd (h.layout.disk_inj S b b' (List.mem_range.mp hb) (List.mem_range.mp hb') hd) hne

theorem ordered_multi (x : Buf) (lba : Nat) : Ordered (writeAtMulti g x lba) := by
  have hdisk : ∀ {items : List CW} {d : Nat} {w : CW}, diskWrite items d = some w → w.disk = d := by
    intro items d w hw
    unfold diskWrite at hw
    split at hw
    · cases hw
    · simp only [Option.some.injEq] at hw
      rw [← hw]
  unfold Ordered writeAtMulti
  rw [List.pairwise_filterMap]
  apply List.Pairwise.imp _ (List.nodup_iff_pairwise_ne.mp (List.nodup_range (n := g.Y.n)))
  intro d d' hne w hw w' hw' he
  rw [hdisk hw, hdisk hw'] at he
  exact absurd he hne

theorem ordered_nil : Ordered [] := List.Pairwise.nil

/-- The state of an open zone that starts with stripe `Z` and holds `data`.
`al` says that only whole LBAs were written. -/
structure Inv (al : Prop) (g : Geom) (Z : Nat) (data : Buf) (st : St) : Prop where
  ex : ∃ T F, Cov g Z T F st.log ∧ st.sb.lba = (Z + T) * g.slbas ∧ data = F ++ st.sb.buf.flatten
  lt : st.sb.buf.flatten.length < g.stripe
  dvd : g.bpl ∣ st.sb.buf.flatten.length
  ne : ∀ b ∈ st.sb.buf, b ≠ []
  ord : al → Ordered st.log

theorem next_lba_full {sb : StripeBuffer} {S : Nat} (h : g.Lawful)
    (hl : sb.buf.flatten.length = g.stripe) (hlba : sb.lba = S * g.slbas) :
    sb.nextLba g = (S + 1) * g.slbas := by
  unfold StripeBuffer.nextLba
  rw [len_eq, hl, stripe_eq, Nat.mul_div_cancel _ h.bpl, hlba, Nat.add_mul, Nat.one_mul]

/-- The second half of `write_at`, with an empty stripe buffer. -/
theorem writeRest_spec (h : g.Lawful) {Z T : Nat} {F : Buf} {log : List CW} (hcov : Cov g Z T F log)
    (sb : StripeBuffer) (hsb : sb.buf = []) (hlba : sb.lba = (Z + T) * g.slbas) (buf : Buf)
    {al : Prop} (hal : al → g.bpl ∣ buf.length) (hord : al → Ordered log) :
    ∃ r, writeRest g sb ((Z + T) * g.slbas) buf = some r ∧
      Inv al g Z (F ++ padTo g.bpl buf) ⟨r.1, log ++ r.2⟩ := by
  unfold writeRest
  by_cases hb : buf = []
  · subst hb
    refine ⟨_, if_pos rfl, ⟨⟨T, F, by simpa using hcov, hlba, ?_⟩, ?_, ?_, ?_, by simpa using hord⟩⟩
    · rw [hsb]; simp [padTo_of_dvd]
    · rw [hsb]; simpa using h.stripe_pos
    · rw [hsb]; simp
    · rw [hsb]; simp
  · rw [if_neg hb]
    simp only
    have hemp : sb.isEmpty = true := by simp [StripeBuffer.isEmpty, hsb]
    rw [if_pos hemp]
    generalize hN : buf.length / g.stripe = N
    have hNle : N * g.stripe ≤ buf.length := by rw [← hN]; exact Nat.div_mul_le_self _ _
    have hNlt : buf.length < N * g.stripe + g.stripe := by
      rw [← hN]
      have := Nat.lt_div_mul_add h.stripe_pos (a := buf.length)
      exact this
    have hwl : (buf.take (N * g.stripe)).length = N * g.stripe := by
      rw [List.length_take]; omega
    -- the whole stripes
    have hmain : (bytesOf (if N = 1 then writeAtOne g (buf.take (N * g.stripe)) ((Z + T) * g.slbas)
        else writeAtMulti g (buf.take (N * g.stripe)) ((Z + T) * g.slbas))).Perm
        (bytesOf (stripeChunks g (Z + T) (buf.take (N * g.stripe)) N)) := by
      split
      · rename_i h1
        subst h1
        rw [writeAtOne_spec h _ _ (by rw [hwl, Nat.one_mul])]
      · exact writeAtMulti_spec h _ _ _ hwl
    generalize hm : (if N = 1 then writeAtOne g (buf.take (N * g.stripe)) ((Z + T) * g.slbas)
        else writeAtMulti g (buf.take (N * g.stripe)) ((Z + T) * g.slbas)) = main at hmain
    have hmo : Ordered main := by
      rw [← hm]
      split
      · rename_i h1
        subst h1
        rw [writeAtOne_spec h _ _ (by rw [hwl, Nat.one_mul])]
        exact ordered_one h _ _
      · exact ordered_multi _ _
    have hord1 : al → Ordered (log ++ main) := fun a => hcov.ordered h hwl hmain (hord a) hmo
    have hcov1 := hcov.add hwl hmain
    have hlba0 : (Z + T) * g.slbas + N * g.Y.m * g.cs = (Z + (T + N)) * g.slbas := by
      unfold Geom.slbas
      rw [Nat.mul_assoc N, ← Nat.add_mul, Nat.add_assoc]
    have hsplit : padTo g.bpl buf = buf.take (N * g.stripe) ++ padTo g.bpl (buf.drop (N * g.stripe)) := by
      rw [← padTo_append _ _ (by rw [hwl]; exact Nat.dvd_trans (bpl_dvd_stripe g) ⟨N, Nat.mul_comm _ _⟩),
        List.take_append_drop]
    rw [hlba0, hsplit]
    have hrl : (buf.drop (N * g.stripe)).length < g.stripe := by rw [List.length_drop]; omega
    generalize hr : buf.drop (N * g.stripe) = rest at hrl
    by_cases hrest : rest = []
    · rw [if_pos hrest]
      subst hrest
      refine ⟨_, rfl, ⟨⟨T + N, _, hcov1, rfl, ?_⟩, ?_, ?_, ?_, hord1⟩⟩
      · simp [hsb, padTo_of_dvd]
      · simpa [hsb] using h.stripe_pos
      · simp [hsb]
      · simp [hsb]
    · rw [if_neg hrest]
      obtain ⟨f1, f2, -, f4, -⟩ := fill_spec h { sb with lba := (Z + (T + N)) * g.slbas } rest
        (by simpa [hsb] using h.stripe_pos) hrest (by simp [hsb])
      have f2' : (({ sb with lba := (Z + (T + N)) * g.slbas } : StripeBuffer).fill g rest).1.buf.flatten
          = padTo g.bpl rest := by
        rw [f2, List.take_of_length_le (by simp [hsb]; omega)]
        simp [hsb]
      generalize (({ sb with lba := (Z + (T + N)) * g.slbas } : StripeBuffer).fill g rest).1 = sb1
        at f1 f2' f4
      have hple : (padTo g.bpl rest).length ≤ g.stripe :=
        padTo_le h.bpl (bpl_dvd_stripe g) (Nat.le_of_lt hrl)
      simp only at f1
      by_cases hfull : sb1.isFull g = true
      · rw [if_pos hfull]
        have hfl : sb1.buf.flatten.length = g.stripe := by
          simpa [StripeBuffer.isFull, len_eq] using hfull
        simp only [StripeBuffer.pop]
        rw [f1, writevAtOne_spec h _ _ f4 hfl, Option.map_some]
        refine ⟨_, rfl, ⟨⟨T + N + 1, F ++ buf.take (N * g.stripe) ++ padTo g.bpl rest, ?_, ?_, ?_⟩, ?_, ?_, ?_, ?_⟩⟩
        · have := hcov1.add (N := 1) (x := padTo g.bpl rest)
            (ws := stripeChunks g (Z + (T + N)) sb1.buf.flatten 1)
            (by rw [← f2', hfl, Nat.one_mul]) (by rw [f2'])
          refine ⟨this.1, List.Perm.trans ?_ this.2⟩
          simp only [bytesOf_append, List.append_assoc]
          exact List.Perm.append_left _ List.perm_append_comm
        · simp only
          rw [next_lba_full h hfl f1, Nat.add_assoc Z]
        · simp
        · simpa using h.stripe_pos
        · simp
        · simp
        · intro a
          exfalso
          have : g.bpl ∣ rest.length := by
            rw [← hr, List.length_drop]
            exact Nat.dvd_sub (hal a) (Nat.dvd_trans (bpl_dvd_stripe g) ⟨N, Nat.mul_comm _ _⟩)
          rw [f2', padTo_of_dvd this] at hfl
          omega
      · rw [if_neg hfull]
        have hfl : sb1.buf.flatten.length ≠ g.stripe := by
          simpa [StripeBuffer.isFull, len_eq] using hfull
        refine ⟨_, rfl, ⟨⟨T + N, _, hcov1, f1, ?_⟩, ?_, ?_, f4, hord1⟩⟩
        · simp only; rw [f2', List.append_assoc]
        · simp only; rw [f2'] at hfl ⊢; omega
        · simp only; rw [f2']; exact padTo_dvd h.bpl _

theorem writeAt_spec (h : g.Lawful) {al : Prop} {Z : Nat} {data : Buf} {st : St}
    (hinv : Inv al g Z data st) (buf : Buf) (hb : buf ≠ []) (hal : al → g.bpl ∣ buf.length) :
    ∃ r, writeAt g st.sb buf (st.sb.nextLba g) = some r ∧
      Inv al g Z (data ++ padTo g.bpl buf) ⟨r.1, st.log ++ r.2⟩ := by
  obtain ⟨⟨T, F, hcov, hlba, hdata⟩, hlt, hdvd, hne, hord⟩ := hinv
  have hnext : st.sb.nextLba g = (Z + T) * g.slbas + st.sb.buf.flatten.length / g.bpl := by
    unfold StripeBuffer.nextLba
    rw [hlba, len_eq]
  unfold writeAt
  rw [if_pos rfl]
  unfold topUp
  by_cases hc : ¬ st.sb.isEmpty = true ∨ buf.length < g.stripe
  · rw [if_pos hc]
    obtain ⟨f1, f2, f3, f4, -⟩ := fill_spec h st.sb buf hlt hb hne
    rcases hfill : st.sb.fill g buf with ⟨sb1, buf2⟩
    rw [hfill] at f1 f2 f3 f4
    simp only at f1 f2 f3 f4 ⊢
    by_cases hshort : buf.length ≤ g.stripe - st.sb.buf.flatten.length
    · -- everything fits
      rw [List.take_of_length_le hshort] at f2
      have f3' : buf2 = [] := by rw [f3]; exact List.drop_eq_nil_iff.mpr hshort
      subst f3'
      have hple : (padTo g.bpl buf).length ≤ g.stripe - st.sb.buf.flatten.length :=
        padTo_le h.bpl (Nat.dvd_sub (bpl_dvd_stripe g) hdvd) hshort
      by_cases hfull : sb1.isFull g = true
      · rw [if_pos hfull]
        have hfl : sb1.buf.flatten.length = g.stripe := by
          simpa [StripeBuffer.isFull, len_eq] using hfull
        simp only [StripeBuffer.pop]
        rw [f1, hlba, writevAtOne_spec h _ _ f4 hfl, Option.map_some]
        simp only [writeRest, if_true, Option.map_some, List.append_nil]
        refine ⟨_, rfl, ⟨⟨T + 1, F ++ sb1.buf.flatten, hcov.add (by rw [hfl, Nat.one_mul])
          (List.Perm.refl _), ?_, ?_⟩, ?_, ?_, ?_, fun a => hcov.ordered h (by rw [hfl, Nat.one_mul])
          (List.Perm.refl _) (hord a) (ordered_one h _ _)⟩⟩
        · simp only
          rw [next_lba_full h hfl (f1.trans hlba), Nat.add_assoc]
        · simp [hdata, f2]
        · simpa using h.stripe_pos
        · simp
        · simp
      · rw [if_neg hfull]
        have hfl : sb1.buf.flatten.length ≠ g.stripe := by
          simpa [StripeBuffer.isFull, len_eq] using hfull
        simp only [writeRest, if_true, Option.map_some, List.append_nil]
        refine ⟨_, rfl, ⟨⟨T, F, by simpa using hcov, f1.trans hlba, ?_⟩, ?_, ?_, f4,
          by simpa using hord⟩⟩
        · simp only; rw [hdata, f2, List.append_assoc]
        · simp only
          rw [f2, List.length_append] at hfl ⊢
          omega
        · simp only
          rw [f2, List.length_append]
          exact Nat.dvd_add hdvd (padTo_dvd h.bpl _)
    · -- the buffer fills up and something is left
      generalize hW : g.stripe - st.sb.buf.flatten.length = W at *
      have hWd : g.bpl ∣ W := by rw [← hW]; exact Nat.dvd_sub (bpl_dvd_stripe g) hdvd
      have htl : (buf.take W).length = W := by rw [List.length_take]; omega
      rw [padTo_of_dvd (by rw [htl]; exact hWd)] at f2
      have hfl : sb1.buf.flatten.length = g.stripe := by
        rw [f2, List.length_append, htl]; omega
      have hfull : sb1.isFull g = true := by simp [StripeBuffer.isFull, len_eq, hfl]
      rw [if_pos hfull]
      simp only [StripeBuffer.pop]
      rw [f1, hlba, writevAtOne_spec h _ _ f4 hfl, Option.map_some]
      simp only
      have hlba1 : st.sb.nextLba g + (buf.length - buf2.length) / g.bpl = (Z + (T + 1)) * g.slbas := by
        have e1 : buf.length - buf2.length = W := by rw [f3, List.length_drop]; omega
        rw [e1, hnext]
        obtain ⟨q, hq⟩ := hdvd
        obtain ⟨r, hr⟩ := hWd
        have : g.bpl * (q + r) = g.bpl * g.slbas := by
          rw [Nat.mul_comm g.bpl g.slbas, ← stripe_eq, Nat.mul_add, ← hq, ← hr]; omega
        have := Nat.eq_of_mul_eq_mul_left h.bpl this
        rw [hq, hr, Nat.mul_div_cancel_left _ h.bpl, Nat.mul_div_cancel_left _ h.bpl,
          ← Nat.add_assoc Z, Nat.add_mul (Z + T), Nat.one_mul]
        omega
      have hcov1 := hcov.add (N := 1) (x := sb1.buf.flatten) (by rw [hfl, Nat.one_mul])
        (List.Perm.refl (bytesOf (stripeChunks g (Z + T) sb1.buf.flatten 1)))
      obtain ⟨r, e1, e2⟩ := writeRest_spec h hcov1 ⟨[], sb1.nextLba g⟩ rfl
        (by simp only; rw [next_lba_full h hfl (f1.trans hlba), Nat.add_assoc]) buf2
        (al := al) (fun a => by
          rw [f3, List.length_drop]; exact Nat.dvd_sub (hal a) hWd)
        (fun a => hcov.ordered h (by rw [hfl, Nat.one_mul]) (List.Perm.refl _) (hord a)
          (ordered_one h _ _))
      rw [hlba1, e1, Option.map_some]
      refine ⟨_, rfl, ?_⟩
      rw [← List.append_assoc]
      have hd' : F ++ sb1.buf.flatten ++ padTo g.bpl buf2 = data ++ padTo g.bpl buf := by
        rw [f2, hdata, f3]
        have : padTo g.bpl buf = buf.take W ++ padTo g.bpl (buf.drop W) := by
          rw [← padTo_append _ _ (by rw [htl]; exact hWd), List.take_append_drop]
        rw [this]
        simp [List.append_assoc]
      rw [← hd']
      exact e2
  · rw [if_neg hc]
    have hemp : st.sb.buf = [] := by
      have : st.sb.isEmpty = true := by
        cases he : st.sb.isEmpty
        · exact absurd (Or.inl (by simp [he])) hc
        · rfl
      simpa [StripeBuffer.isEmpty] using this
    simp only
    have hn : st.sb.nextLba g = (Z + T) * g.slbas := by rw [hnext, hemp]; simp
    obtain ⟨r, e1, e2⟩ := writeRest_spec h hcov st.sb hemp hlba buf hal hord
    rw [hn, e1, Option.map_some]
    refine ⟨_, rfl, ?_⟩
    simp only [List.nil_append]
    rw [hdata, hemp]
    simpa using e2

theorem flushZone_spec (h : g.Lawful) {al : Prop} {Z : Nat} {data : Buf} {st : St} (hinv : Inv al g Z data st) :
    ∃ r, flushZone g st.sb = some r ∧ Inv al g Z (padTo g.stripe data) ⟨r.1, st.log ++ r.2.2⟩ ∧
      r.1.buf = [] ∧ data.length + r.2.1 * g.bpl = (padTo g.stripe data).length := by
  obtain ⟨⟨T, F, hcov, hlba, hdata⟩, hlt, hdvd, hne, hord⟩ := hinv
  have hFd : g.stripe ∣ F.length := by rw [hcov.1]; exact ⟨T, Nat.mul_comm _ _⟩
  unfold flushZone
  by_cases he : st.sb.isEmpty = true
  · rw [if_pos he]
    have hemp : st.sb.buf = [] := by simpa [StripeBuffer.isEmpty] using he
    have hd : padTo g.stripe data = data := padTo_of_dvd (by rw [hdata, hemp]; simpa using hFd)
    refine ⟨_, rfl, ?_, hemp, by simp [hd]⟩
    rw [hd]
    exact ⟨⟨T, F, by simpa using hcov, hlba, hdata⟩, hlt, hdvd, hne, by simpa using hord⟩
  · rw [if_neg he]
    obtain ⟨sb', e1, e2, e3, e4⟩ := pad_spec h st.sb hlt hdvd hne
    rw [e1]
    simp only [StripeBuffer.pop]
    have hfl : sb'.buf.flatten.length = g.stripe := by
      rw [e3, List.length_append, zeros_length]; omega
    rw [e2, hlba, writevAtOne_spec h _ _ e4 hfl, Option.map_some]
    have hpos : 0 < st.sb.buf.flatten.length := by
      cases hbuf : st.sb.buf with
      | nil => simp [StripeBuffer.isEmpty, hbuf] at he
      | cons b bs =>
        have := hne b (by rw [hbuf]; simp)
        have := List.length_pos_iff.mpr this
        simp
        omega
    have hpad : padTo g.stripe data = F ++ sb'.buf.flatten := by
      rw [hdata, padTo_append _ _ hFd, e3]
      unfold padTo
      rw [Nat.mod_eq_of_lt hlt, Nat.mod_eq_of_lt (show g.stripe - st.sb.buf.flatten.length < g.stripe
        by omega)]
    refine ⟨_, rfl, ⟨⟨T + 1, F ++ sb'.buf.flatten, hcov.add (by rw [hfl, Nat.one_mul])
      (List.Perm.refl _), ?_, ?_⟩, ?_, ?_, ?_, fun a => hcov.ordered h (by rw [hfl, Nat.one_mul])
      (List.Perm.refl _) (hord a) (ordered_one h _ _)⟩, rfl, ?_⟩
    · simp only
      rw [next_lba_full h hfl (e2.trans hlba), Nat.add_assoc]
    · simp [hpad]
    · simpa using h.stripe_pos
    · simp
    · simp
    · simp only
      rw [hpad, Nat.div_mul_cancel (Nat.dvd_sub (bpl_dvd_stripe g) hdvd), hdata, List.length_append,
        List.length_append, hfl]
      omega

end Verif.Raid
