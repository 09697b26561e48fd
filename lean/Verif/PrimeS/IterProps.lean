import Verif.PrimeS.Iter
import Verif.PrimeS.Props

/-! # C08: the chunk iterator -/

namespace Verif.PrimeS

/-! ## Specification -/

/-- The place of a chunk in the order of the array: stripe by stripe, in a stripe
the data chunks first. -/
def rank (m f : Int) : ChunkId → Int
  | .data i => i / m * (m + f) + i % m
  | .parity i j => i / m * (m + f) + m + j

/-! ## Proof -/

variable {L : PrimeS}

/-- The offsets held when the next chunk is the `b`th of stripe `s` of iteration `z`. -/
def OInv (L : PrimeS) (z : Int) (s : Nat) (b : Int) (o : Int → Int) : Prop :=
  ∀ e, 0 ≤ e → e < L.n → o ((e * (z + 1)) % L.n) =
    L.k * z + cnt L.n L.m L.k e s + if (e - s * L.m) % L.n < b then 1 else 0

theorem pos_self {n m b : Int} {s : Nat} (hb0 : 0 ≤ b) (hb : b < n) :
    ((s * m + b) % n - s * m) % n = b := by
  obtain ⟨t, ht⟩ := emod_ex (s * m + b) n
  rw [ht]
  conv_rhs => rw [← Int.emod_eq_of_lt hb0 hb]
  exact emod_congr (-t) (by ring)

theorem oinv_bump (g : Good L) {z b : Int} {s : Nat} {o : Int → Int} (hz0 : 0 ≤ z) (hz : z < L.n - 1)
    (hb0 : 0 ≤ b) (hb : b < L.n) (h : OInv L z s b o) :
    OInv L z s (b + 1) (bump o (((s * L.m + b) * (z + 1)) % L.n)) := by
  have hn := g.n2
  intro e he0 hen
  have h1 := h e he0 hen
  obtain ⟨yi, -, -, -, hyi⟩ := inv_exists (a := z + 1) g.prime hn (by omega) (by omega)
  have hE0 := Int.emod_nonneg (s * L.m + b) (show L.n ≠ 0 by omega)
  have hEn := Int.emod_lt_of_pos (s * L.m + b) (show 0 < L.n by omega)
  have hiff : (e * (z + 1)) % L.n = ((s * L.m + b) * (z + 1)) % L.n ↔ e = (s * L.m + b) % L.n := by
    have hc : ((s * L.m + b) * (z + 1)) % L.n = (((s * L.m + b) % L.n) * (z + 1)) % L.n := by
      obtain ⟨t, ht⟩ := emod_ex (s * L.m + b) L.n
      exact emod_congr (t * (z + 1)) (by rw [ht]; ring)
    rw [hc]
    exact ⟨fun h => cancel hyi he0 hen hE0 hEn h, fun h => by rw [h]⟩
  have hpos : e = (s * L.m + b) % L.n ↔ (e - s * L.m) % L.n = b := by
    constructor
    · rintro rfl; exact pos_self hb0 hb
    · intro hp
      obtain ⟨t, ht⟩ := emod_ex (e - s * L.m) L.n
      rw [hp] at ht
      rw [← Int.emod_eq_of_lt he0 hen]
      exact emod_congr t (by linarith)
  unfold bump
  by_cases hc : (e - s * L.m) % L.n = b
  · rw [if_pos (hiff.mpr (hpos.mpr hc)), h1, hc, if_neg (by omega), if_pos (by omega)]
    omega
  · rw [if_neg (fun h => hc (hpos.mp (hiff.mp h))), h1]
    by_cases h2 : (e - s * L.m) % L.n < b
    · rw [if_pos h2, if_pos (by omega)]
    · rw [if_neg h2, if_neg (by omega)]

theorem oinv_next_stripe (g : Good L) {z : Int} {s : Nat} {o : Int → Int} (h : OInv L z s L.k o) :
    OInv L z (s + 1) 0 o := by
  have hn := g.n2
  intro e he0 hen
  rw [h e he0 hen, cnt_succ]
  have := Int.emod_nonneg (e - ((s + 1 : Nat) : Int) * L.m) (show L.n ≠ 0 by omega)
  rw [if_neg (show ¬(e - ((s + 1 : Nat) : Int) * L.m) % L.n < 0 by omega)]
  split
  · push_cast; omega
  · push_cast; omega

theorem oinv_const (g : Good L) (z : Int) : OInv L z 0 0 (fun _ => L.k * z) := by
  have hn := g.n2
  intro e he0 hen
  have := Int.emod_nonneg (e - ((0 : Nat) : Int) * L.m) (show L.n ≠ 0 by omega)
  rw [if_neg (by omega)]
  simp [cnt]

theorem oinv_next_iter (g : Good L) {z : Int} {s : Nat} {o : Int → Int} (hz0 : 0 ≤ z)
    (hz : z + 1 < L.n - 1) (hs : (s : Int) + 1 = L.n) (h : OInv L z s L.k o) :
    OInv L (z + 1) 0 0 o := by
  have hn := g.n2
  have h' := oinv_next_stripe g h
  -- all the disks are equally full
  have hall : ∀ d, 0 ≤ d → d < L.n → o d = L.k * (z + 1) := by
    intro d hd0 hdn
    obtain ⟨yi, -, yi0, yin, q, hq⟩ := inv_exists (a := z + 1) g.prime hn (by omega) (by omega)
    have he0 := Int.emod_nonneg (d * yi) (show L.n ≠ 0 by omega)
    have hen := Int.emod_lt_of_pos (d * yi) (show 0 < L.n by omega)
    have hd : ((d * yi) % L.n * (z + 1)) % L.n = d := by
      conv_rhs => rw [← Int.emod_eq_of_lt hd0 hdn]
      obtain ⟨t, ht⟩ := emod_ex (d * yi) L.n
      refine emod_congr (d * q - t * (z + 1)) ?_
      rw [ht]
      linear_combination d * hq
    have h1 := h' _ he0 hen
    have h2 := cnt_full g he0 hen
    rw [show L.n.toNat = s + 1 by omega] at h2
    rw [hd, h2] at h1
    have := Int.emod_nonneg ((d * yi) % L.n - ((s + 1 : Nat) : Int) * L.m) (show L.n ≠ 0 by omega)
    rw [if_neg (by omega)] at h1
    rw [h1]; ring
  intro e he0 hen
  rw [oinv_const g (z + 1) e he0 hen |>.symm]
  exact hall _ (Int.emod_nonneg _ (by omega)) (Int.emod_lt_of_pos _ (by omega))

theorem oinv_bumpStripe (g : Good L) {z : Int} {s : Nat} {o : Int → Int} (hz0 : 0 ≤ z)
    (hz : z < L.n - 1) (h : OInv L z s 0 o) (c : Nat) (hc : (c : Int) ≤ L.k) :
    OInv L z s c (bumpStripe L (z + 1) o s c) := by
  have hkn := g.kn
  induction c with
  | zero => exact h
  | succ c ih =>
    unfold bumpStripe
    rw [List.range_succ, List.foldl_append]
    have := oinv_bump g hz0 hz (Int.natCast_nonneg c) (by omega) (ih (by omega))
    exact this

theorem oinv_bumpStripes (g : Good L) {z b : Int} {o : Int → Int} (hz0 : 0 ≤ z)
    (hz : z < L.n - 1) (hb0 : 0 ≤ b) (hb : b < L.k) (h : OInv L z 0 0 o) (s : Nat) :
    OInv L z s b (bumpStripes L (z + 1) b s o) := by
  have hk1 := g.k1
  have pre : ∀ t : Nat, t ≤ s → OInv L z t 0 ((List.range t).foldl
      (fun o (x : Nat) => bumpStripe L (z + 1) o x (if x = s then b.toNat else L.k.toNat)) o) := by
    intro t ht
    induction t with
    | zero => exact h
    | succ t ih =>
      rw [List.range_succ, List.foldl_append]
      simp only [List.foldl_cons, List.foldl_nil]
      rw [if_neg (by omega)]
      apply oinv_next_stripe g
      have := oinv_bumpStripe g hz0 hz (ih (by omega)) L.k.toNat (by omega)
      rwa [Int.toNat_of_nonneg (by omega)] at this
  unfold bumpStripes
  rw [List.range_succ, List.foldl_append]
  simp only [List.foldl_cons, List.foldl_nil, if_pos]
  have := oinv_bumpStripe g hz0 hz (pre s (le_refl _)) b.toNat (by omega)
  rwa [Int.toNat_of_nonneg hb0] at this

/-- The state of an iterator about to return the `b`th chunk of stripe `s` of
iteration `z` of repetition `r`. -/
structure At (L : PrimeS) (it : Iter) (r z b : Int) (s : Nat) : Prop where
  hr : 0 ≤ r
  hz0 : 0 ≤ z
  hz : z < L.n - 1
  hs : (s : Int) < L.n
  hb0 : 0 ≤ b
  hb : b < L.k
  id : it.id = mkId L r (z * L.n + s) b
  a : it.a = (z * L.n + s) * L.m + if b < L.m then b else 0
  f : it.f = L.f
  depth : it.depth = L.depth
  m : it.m = L.m
  n : it.n = L.n
  o : OInv L z s b it.o
  er : it.r = r
  stripe : it.stripe = z * L.n + s
  stripeIter : it.stripeIter = s
  y : it.y = z + 1
  ez : it.z = z

theorem ows_mkId {w : Bool} (g : Good L) (hfit : Fits w L.n L.m) {S b r : Int} (hS0 : 0 ≤ S)
    (hS : S < L.n * (L.n - 1)) (hb0 : 0 ≤ b) (hb : b < L.k) :
    offsetWithinStripe w (mkId L r S b) (S * L.m + if b < L.m then b else 0) S L.m = some b := by
  have hkn := g.kn
  have h215 := g.n215
  have hmp := g.mpos
  unfold mkId
  by_cases hbm : b < L.m
  · rw [if_pos hbm, if_pos hbm]
    have h16m : ∃ sm, i16 w (S * L.m) = some sm := by
      cases w with
      | true => exact i16_true _
      | false =>
        unfold i16
        have := hfit.2 rfl
        have : 0 ≤ S * L.m := by positivity
        rw [if_pos ⟨by omega, by nlinarith⟩]
        exact ⟨_, rfl⟩
    obtain ⟨sm, hsm⟩ := h16m
    obtain ⟨q, hq⟩ := i16_ex hsm
    simp only [offsetWithinStripe, hsm, Option.bind_eq_bind, Option.bind_some]
    congr 1
    omega
  · rw [if_neg hbm, if_neg hbm]
    simp only [offsetWithinStripe]
    congr 1
    omega

theorem id2locInt_mkId {w : Bool} (g : Good L) (hfit : Fits w L.n L.m) {z b r : Int} {s : Nat}
    (hs : (s : Int) < L.n) (hz0 : 0 ≤ z) (hz : z < L.n - 1) (hb0 : 0 ≤ b) :
    id2locInt w L (mkId L r (z * L.n + s) b) =
      some ⟨(z * L.n + s) * L.m + (if b < L.m then b else 0), r, z * L.n + s, z + 1, z⟩ := by
  have hn := g.n2
  have hmp := g.mpos
  have hS0 : 0 ≤ z * L.n + s := by positivity
  have hS := stripe_lt hz hs hn
  have h16 : i16 w (z * L.n + s) = some (z * L.n + s) := by
    unfold i16; rw [if_pos ⟨by omega, by have := hfit.1; omega⟩]
  have key : ∀ c, 0 ≤ c → c < L.m →
      (r * L.datachunks + (z * L.n + s) * L.m + c) % L.datachunks = (z * L.n + s) * L.m + c ∧
      (r * L.datachunks + (z * L.n + s) * L.m + c) / L.datachunks = r ∧
      ((z * L.n + s) * L.m + c) / (L.m * L.n) = z ∧ ((z * L.n + s) * L.m + c) / L.m = z * L.n + s := by
    intro c hc0 hc
    have h0 : 0 ≤ (z * L.n + s) * L.m + c := by positivity
    have hlt : (z * L.n + s) * L.m + c < L.datachunks := by
      rw [g.datachunks]; nlinarith
    have hre : r * L.datachunks + (z * L.n + s) * L.m + c =
      ((z * L.n + s) * L.m + c) + L.datachunks * r := by ring
    refine ⟨?_, ?_, ?_, ?_⟩
    · rw [hre, Int.add_mul_emod_self_left]; exact Int.emod_eq_of_lt h0 hlt
    · rw [hre, Int.add_mul_ediv_left _ _ (by omega),
        Int.ediv_eq_zero_of_lt (a := (z * L.n + s) * L.m + c) (b := L.datachunks) h0 hlt]; simp
    · have : (z * L.n + s) * L.m + c = (s * L.m + c) + (L.m * L.n) * z := by ring
      rw [this, Int.add_mul_ediv_left _ _ (by nlinarith),
        Int.ediv_eq_zero_of_lt (a := s * L.m + c) (b := L.m * L.n) (by positivity) (by nlinarith)]
      simp
    · rw [Int.add_comm, Int.add_mul_ediv_right _ _ (by omega),
        Int.ediv_eq_zero_of_lt (a := c) (b := L.m) (by omega) (by omega)]; simp
  have hy : z % (L.n - 1) + 1 = z + 1 := by rw [Int.emod_eq_of_lt hz0 hz]
  unfold mkId
  by_cases hbm : b < L.m
  · rw [if_pos hbm, if_pos hbm]
    obtain ⟨k1, k2, k3, k4⟩ := key b hb0 hbm
    simp only [id2locInt, ChunkId.address, k1, k2, k3, k4, h16, hy, Option.bind_eq_bind,
      Option.bind_some]
  · rw [if_neg hbm, if_neg hbm]
    obtain ⟨k1, k2, k3, k4⟩ := key 0 (le_refl _) hmp
    simp only [Int.add_zero] at k1 k2 k3 k4
    simp only [id2locInt, ChunkId.address, k1, k2, k3, k4, h16, hy, Option.bind_eq_bind,
      Option.bind_some, Int.add_zero]

theorem new_at {w : Bool} (g : Good L) (hfit : Fits w L.n L.m) {start : ChunkId} (endId : ChunkId)
    (hv : ValidId L.m L.f start) :
    ∃ it r z b s, Iter.new w L start endId = some it ∧ At L it r z b s ∧ it.id = start ∧
      it.endId = endId := by
  have hn := g.n2
  obtain ⟨r, z, b, s, hr, hz0, hz, hs, hb0, hb, rfl⟩ := coords g hv
  have hS0 : 0 ≤ z * L.n + s := by positivity
  have hS := stripe_lt hz hs hn
  have hsz : (z * L.n + s) % L.n = s := by
    rw [Int.add_comm, Int.add_mul_emod_self_right]; exact Int.emod_eq_of_lt (by omega) hs
  simp only [Iter.new, id2locInt_mkId g hfit hs hz0 hz hb0, Option.bind_eq_bind, Option.bind_some,
    ows_mkId g hfit hS0 hS hb0 hb, hsz, Int.toNat_natCast]
  exact ⟨_, r, z, b, s, rfl, ⟨hr, hz0, hz, hs, hb0, hb, rfl, rfl, rfl, rfl, rfl, rfl,
    oinv_bumpStripes g hz0 hz hb0 hb (oinv_const g z) s, rfl, rfl, rfl, rfl, rfl⟩, rfl, rfl⟩

/-- The iterator's location is that of `id2loc`. -/
theorem nextElem_at {w : Bool} (g : Good L) (hfit : Fits w L.n L.m) {it : Iter} {r z b : Int} {s : Nat}
    (h : At L it r z b s) :
    it.nextElem w = id2loc w L it.id ∧
    ∃ off, it.nextElem w = some ⟨((s * L.m + b) * (z + 1)) % L.n, off⟩ := by
  have hn := g.n2
  have hkn := g.kn
  have hz0 := h.hz0
  have hS0 : 0 ≤ z * L.n + s := by positivity
  have hS := stripe_lt h.hz h.hs hn
  have hE0 := Int.emod_nonneg (s * L.m + b) (show L.n ≠ 0 by omega)
  have hEn := Int.emod_lt_of_pos (s * L.m + b) (show 0 < L.n by omega)
  have hdisk : (((z * L.n + s) * L.m + b) * (z + 1)) % L.n = ((s * L.m + b) * (z + 1)) % L.n :=
    emod_congr (z * L.m * (z + 1)) (by ring)
  have hdisk' : ((s * L.m + b) * (z + 1)) % L.n = ((s * L.m + b) % L.n * (z + 1)) % L.n := by
    obtain ⟨t, ht⟩ := emod_ex (s * L.m + b) L.n
    exact emod_congr (t * (z + 1)) (by rw [ht]; ring)
  have ho := h.o _ hE0 hEn
  rw [pos_self h.hb0 (by have := h.hb; omega), if_neg (by omega), ← hdisk'] at ho
  have hnext : it.nextElem w = some ⟨((s * L.m + b) * (z + 1)) % L.n,
      L.k * z + cnt L.n L.m L.k ((s * L.m + b) % L.n) s + 0 + r * L.depth⟩ := by
    simp only [Iter.nextElem, h.id, h.a, h.stripe, h.m, h.n, h.y, h.er, h.depth,
      ows_mkId g hfit hS0 hS h.hb0 h.hb, Option.bind_eq_bind, Option.bind_some, hdisk, ho]
  refine ⟨?_, _, hnext⟩
  rw [hnext, h.id, id2loc_mkId (r := r) g hfit rfl h.hs h.hz0 h.hz h.hb0 h.hb]
  congr 2
  ring

/-- The coordinates of the following chunk. -/
def Succ (L : PrimeS) (r z b : Int) (s : Nat) (r' z' b' : Int) (s' : Nat) : Prop :=
  if b + 1 < L.k then r' = r ∧ z' = z ∧ b' = b + 1 ∧ s' = s
  else if (s : Int) + 1 < L.n then r' = r ∧ z' = z ∧ b' = 0 ∧ s' = s + 1
  else if z + 1 < L.n - 1 then r' = r ∧ z' = z + 1 ∧ b' = 0 ∧ s' = 0
  else r' = r + 1 ∧ z' = 0 ∧ b' = 0 ∧ s' = 0

theorem advance_at (g : Good L) {it : Iter} {r z b : Int} {s : Nat} (h : At L it r z b s) :
    ∃ r' z' b' s', At L (it.advance (((s * L.m + b) * (z + 1)) % L.n)) r' z' b' s' ∧
      Succ L r z b s r' z' b' s' ∧
      (it.advance (((s * L.m + b) * (z + 1)) % L.n)).endId = it.endId := by
  have hn := g.n2
  have hkn := g.kn
  have hk1 := g.k1
  have hm := g.m
  have hf0 := g.f0
  have hmp := g.mpos
  obtain ⟨hr, hz0, hz, hs, hb0, hb, hid, ha, hf, hdepth, hm', hn', ho, her, hst, hsi, hy, hez⟩ := h
  have ho' := oinv_bump g hz0 hz hb0 (by omega) ho
  unfold Iter.advance
  rw [hid]
  unfold mkId
  by_cases hbm : b < L.m
  · simp only [if_pos hbm]
    by_cases hlast : it.a < (it.stripe + 1) * it.m - 1
    · rw [if_pos hlast]
      have hb1 : b + 1 < L.m := by
        rw [ha, hst, hm', if_pos hbm] at hlast
        nlinarith
      refine ⟨r, z, b + 1, s, ⟨hr, hz0, hz, hs, by omega, by omega, ?_, ?_, by first | rfl | assumption, hdepth, by first | rfl | assumption, by first | rfl | assumption, ho',
        her, hst, hsi, hy, by first | rfl | assumption⟩, by unfold Succ; rw [if_pos (by omega)]; exact ⟨rfl, rfl, rfl, rfl⟩, rfl⟩
      · unfold mkId; rw [if_pos hb1]; simp only; congr 1; ring
      · simp only; rw [ha, if_pos hbm, if_pos hb1]; ring
    · rw [if_neg hlast]
      have hb1 : b + 1 = L.m := by
        rw [ha, hst, hm', if_pos hbm] at hlast
        have : (z * L.n + ↑s + 1) * L.m = (z * L.n + s) * L.m + L.m := by ring
        omega
      refine ⟨r, z, b + 1, s, ⟨hr, hz0, hz, hs, by omega, by omega, ?_, ?_, by first | rfl | assumption, hdepth, by first | rfl | assumption, by first | rfl | assumption, ho',
        her, hst, hsi, hy, by first | rfl | assumption⟩, by unfold Succ; rw [if_pos (by omega)]; exact ⟨rfl, rfl, rfl, rfl⟩, rfl⟩
      · unfold mkId; rw [if_neg (by omega)]
        simp only [hm']
        congr 1 <;> omega
      · simp only; rw [if_neg (by omega), hst, hm']; ring
  · simp only [if_neg hbm]
    rw [if_neg hbm] at ha
    rw [hf]
    by_cases hlast : b - L.m < L.f - 1
    · rw [if_pos hlast]
      refine ⟨r, z, b + 1, s, ⟨hr, hz0, hz, hs, by omega, by omega, ?_, ?_, by first | rfl | assumption, hdepth, by first | rfl | assumption, by first | rfl | assumption, ho',
        her, hst, hsi, hy, by first | rfl | assumption⟩, by unfold Succ; rw [if_pos (by omega)]; exact ⟨rfl, rfl, rfl, rfl⟩, rfl⟩
      · unfold mkId; rw [if_neg (by omega)]; simp only; congr 1; ring
      · simp only; rw [ha, if_neg (by omega)]
    · rw [if_neg hlast]
      have hbk : b + 1 = L.k := by omega
      rw [hbk] at ho'
      rw [hsi, hn', hez, hm']
      by_cases hsl : (s : Int) = L.n - 1
      · rw [if_pos hsl]
        by_cases hzl : z = L.n - 1 - 1
        · rw [if_pos hzl]
          refine ⟨r + 1, 0, 0, 0, ⟨by omega, le_refl _, by omega, by simp; omega, le_refl _, by omega, ?_, ?_,
            by first | rfl | assumption, hdepth, by first | rfl | assumption, by first | rfl | assumption, ?_, by simp only; rw [her], by simp, by simp, by simp, rfl⟩, ?_, rfl⟩
          · unfold mkId; rw [if_pos hmp]
            simp only
            congr 1
            rw [g.datachunks, hsl, hzl]
            push_cast
            ring
          · simp [hmp]
          · have := oinv_const g 0
            simpa using this
          · unfold Succ
            rw [if_neg (by omega), if_neg (by omega), if_neg (by omega)]
            exact ⟨rfl, rfl, rfl, rfl⟩
        · rw [if_neg hzl]
          refine ⟨r, z + 1, 0, 0, ⟨by omega, by omega, by omega, by simp; omega, le_refl _, by omega, ?_, ?_,
            by first | rfl | assumption, hdepth, by first | rfl | assumption, by first | rfl | assumption, ?_, her, ?_, by simp, ?_, rfl⟩, ?_, rfl⟩
          · unfold mkId; rw [if_pos hmp]
            simp only
            congr 1
            rw [hsl]
            push_cast
            ring
          · simp only
            rw [ha, if_pos hmp, hsl]; push_cast; ring
          · exact oinv_next_iter g hz0 (by omega) (by omega) ho'
          · simp only
            rw [hst, hsl]; push_cast; ring
          · simp only
            rw [Int.emod_eq_of_lt (by omega) (by omega)]
          · unfold Succ
            rw [if_neg (by omega), if_neg (by omega), if_pos (by omega)]
            exact ⟨rfl, rfl, rfl, rfl⟩
      · rw [if_neg hsl]
        refine ⟨r, z, 0, s + 1, ⟨hr, hz0, hz, by push_cast; omega, le_refl _, by omega, ?_, ?_,
          by first | rfl | assumption, hdepth, by first | rfl | assumption, by first | rfl | assumption, ?_, her, ?_, by push_cast; rfl, hy, by first | rfl | assumption⟩, ?_, rfl⟩
        · unfold mkId; rw [if_pos hmp]
          simp only
          congr 1
          push_cast
          ring
        · simp only
          rw [ha, if_pos hmp]; push_cast; ring
        · exact oinv_next_stripe g ho'
        · simp only
          rw [hst]; push_cast; ring
        · unfold Succ
          rw [if_neg (by omega), if_pos (by omega)]
          exact ⟨rfl, rfl, rfl, rfl⟩

/-! ## The order -/

theorem rank_mkId (g : Good L) {S r b : Int} (hb0 : 0 ≤ b) :
    rank L.m L.f (mkId L r S b) = (r * (L.n * (L.n - 1)) + S) * L.k + b := by
  have hmp := g.mpos
  have hk : L.m + L.f = L.k := by have := g.m; omega
  have hS : r * L.datachunks + S * L.m = L.m * (r * (L.n * (L.n - 1)) + S) := by rw [g.datachunks]; ring
  unfold mkId
  by_cases hbm : b < L.m
  · rw [if_pos hbm]
    unfold rank
    simp only
    rw [hS, Int.add_comm _ b, Int.add_mul_ediv_left _ _ (by omega), Int.add_mul_emod_self_left,
      Int.ediv_eq_zero_of_lt (a := b) (b := L.m) hb0 hbm, Int.emod_eq_of_lt hb0 hbm, hk]
    ring
  · rw [if_neg hbm]
    unfold rank
    simp only
    rw [hS, Int.mul_ediv_cancel_left _ (show L.m ≠ 0 by omega), hk]
    ring

theorem rank_succ (g : Good L) {r z b r' z' b' : Int} {s s' : Nat} (hb0 : 0 ≤ b) (hb : b < L.k)
    (hs : (s : Int) < L.n) (hz : z < L.n - 1) (h : Succ L r z b s r' z' b' s') :
    rank L.m L.f (mkId L r' (z' * L.n + s') b') = rank L.m L.f (mkId L r (z * L.n + s) b) + 1 := by
  unfold Succ at h
  split at h
  · obtain ⟨rfl, rfl, rfl, rfl⟩ := h
    rw [rank_mkId g hb0, rank_mkId g (by omega)]; ring
  · have hbk : b = L.k - 1 := by omega
    split at h
    · obtain ⟨rfl, rfl, rfl, rfl⟩ := h
      rw [rank_mkId g hb0, rank_mkId g (by omega), hbk]; push_cast; ring
    · have hsn : (s : Int) = L.n - 1 := by omega
      split at h
      · obtain ⟨rfl, rfl, rfl, rfl⟩ := h
        rw [rank_mkId g hb0, rank_mkId g (by omega), hbk, hsn]; push_cast; ring
      · have hzn : z = L.n - 2 := by omega
        obtain ⟨rfl, rfl, rfl, rfl⟩ := h
        rw [rank_mkId g hb0, rank_mkId g (by omega), hbk, hsn, hzn]; push_cast; ring

/-- A rank determines the chunk. -/
theorem rank_inj {m f : Int} (hm : 0 < m) (hf : 0 < f) {id id' : ChunkId} (hv : ValidId m f id)
    (hv' : ValidId m f id') (h : rank m f id = rank m f id') : id = id' := by
  -- the stripe and the position
  have dec : ∀ q q' p p' : Int, 0 ≤ p → p < m + f → 0 ≤ p' → p' < m + f →
      q * (m + f) + p = q' * (m + f) + p' → q = q' ∧ p = p' := by
    intro q q' p p' h1 h2 h3 h4 h5
    have hq : q = q' := by
      by_contra hne
      rcases Int.lt_or_gt_of_ne hne with hlt | hlt
      · have : (q + 1) * (m + f) ≤ q' * (m + f) :=
          Int.mul_le_mul_of_nonneg_right (by omega) (by omega)
        linarith [add_mul q 1 (m + f)]
      · have : (q' + 1) * (m + f) ≤ q * (m + f) :=
          Int.mul_le_mul_of_nonneg_right (by omega) (by omega)
        linarith [add_mul q' 1 (m + f)]
    subst hq
    exact ⟨rfl, by linarith⟩
  have hmod : ∀ i : Int, 0 ≤ i % m ∧ i % m < m := fun i =>
    ⟨Int.emod_nonneg i (by omega), Int.emod_lt_of_pos i hm⟩
  cases id with
  | data i =>
    cases id' with
    | data i' =>
      obtain ⟨e1, e2⟩ := dec (i / m) (i' / m) (i % m) (i' % m) (hmod i).1 (by have := (hmod i).2; omega)
        (hmod i').1 (by have := (hmod i').2; omega) h
      have h1 := Int.emod_add_mul_ediv i m
      have h2 := Int.emod_add_mul_ediv i' m
      rw [e1, e2, h2] at h1
      rw [h1]
    | parity i' j' =>
      obtain ⟨-, -, hj0, hj⟩ := hv'
      obtain ⟨e1, e2⟩ := dec (i / m) (i' / m) (i % m) (m + j') (hmod i).1 (by have := (hmod i).2; omega)
        (by omega) (by omega) (by simpa [rank, add_assoc] using h)
      have := (hmod i).2
      omega
  | parity i j =>
    obtain ⟨hi0, hi, hj0, hj⟩ := hv
    cases id' with
    | data i' =>
      obtain ⟨e1, e2⟩ := dec (i / m) (i' / m) (m + j) (i' % m) (by omega) (by omega) (hmod i').1
        (by have := (hmod i').2; omega) (by simpa [rank, add_assoc] using h)
      have := (hmod i').2
      omega
    | parity i' j' =>
      obtain ⟨hi0', hi', hj0', hj'⟩ := hv'
      obtain ⟨e1, e2⟩ := dec (i / m) (i' / m) (m + j) (m + j') (by omega) (by omega) (by omega) (by omega)
        (by simpa [rank, add_assoc] using h)
      have h1 := Int.emod_add_mul_ediv i m
      have h2 := Int.emod_add_mul_ediv i' m
      rw [e1, hi] at h1
      rw [hi'] at h2
      rw [show i = i' by omega, show j = j' by omega]

theorem collect_at {w : Bool} (g : Good L) (hfit : Fits w L.n L.m) {endId : ChunkId}
    (hve : ValidId L.m L.f endId) (d : Nat) :
    ∀ (it : Iter) (r z b : Int) (s : Nat) (fuel : Nat), At L it r z b s → it.endId = endId →
      rank L.m L.f endId = rank L.m L.f it.id + d → d < fuel →
      ∃ items, Iter.collect w fuel it = some items ∧
        items.map (fun x => rank L.m L.f x.1) =
          (List.range d).map (fun t : Nat => rank L.m L.f it.id + t) ∧
        ∀ x ∈ items, ValidId L.m L.f x.1 ∧ id2loc w L x.1 = some x.2 := by
  have hf0 := g.f0
  induction d with
  | zero =>
    intro it r z b s fuel h hend hrank hfuel
    have heq : it.id = endId := by
      refine rank_inj g.mpos hf0 ?_ hve (by simpa using hrank.symm)
      rw [h.id]
      exact mkId_valid g h.hr h.hz0 h.hb0 h.hb
    obtain ⟨fuel, rfl⟩ : ∃ n, fuel = n + 1 := ⟨fuel - 1, by omega⟩
    refine ⟨[], ?_, rfl, by simp⟩
    simp only [Iter.collect, Iter.next]
    rw [if_pos (by rw [heq, hend])]
  | succ d ih =>
    intro it r z b s fuel h hend hrank hfuel
    obtain ⟨fuel, rfl⟩ : ∃ n, fuel = n + 1 := ⟨fuel - 1, by omega⟩
    have hne : it.id ≠ it.endId := by
      intro hc
      rw [hc, hend] at hrank
      omega
    obtain ⟨hloc, off, hsome⟩ := nextElem_at g hfit h
    obtain ⟨r', z', b', s', h', hsucc, hend'⟩ := advance_at g h
    have hrk := rank_succ g h.hb0 h.hb h.hs h.hz hsucc
    rw [← h.id, ← h'.id] at hrk
    obtain ⟨items, hc, hmap, hall⟩ := ih _ r' z' b' s' fuel h' (by rw [hend', hend])
      (by rw [hrk, hrank]; push_cast; ring) (by omega)
    refine ⟨(it.id, ⟨((s * L.m + b) * (z + 1)) % L.n, off⟩) :: items, ?_, ?_, ?_⟩
    · simp only [Iter.collect, Iter.next, if_neg hne, hsome, hc, Option.map_some]
    · rw [List.map_cons, hmap, List.range_succ_eq_map, List.map_cons, List.map_map, hrk]
      simp only [Int.natCast_zero, Int.add_zero, List.cons.injEq, true_and]
      apply List.map_congr_left
      intro t _
      simp only [Function.comp]
      push_cast
      ring
    · intro x hx
      rcases List.mem_cons.mp hx with rfl | hx
      · refine ⟨?_, by rw [← hloc, hsome]⟩
        simp only
        rw [h.id]
        exact mkId_valid g h.hr h.hz0 h.hb0 h.hb
      · exact hall x hx

/-- Iterating from `start` to `endId` returns the chunks from `start` up to but
not including `endId`, in the order of the array and each exactly once, every
one with the location that mapping it directly would give; and the iteration
ends.  (The ranks determine the chunks: `C08_rank_injective`.)

As for C06, the geometries whose stripes cannot be numbered with an `i16` are
missing. -/
theorem C08_iterator_partial (w : Bool) (n k f : Int) (L : PrimeS) (hnew : new w n k f = some L)
    (hsmall : n * (n - 1) ≤ 32767) (hchecked : w = false → (n * (n - 1) - 1) * (k - f) ≤ 32767)
    (start endId : ChunkId) (hs : ValidId (k - f) f start) (he : ValidId (k - f) f endId) (count : Nat)
    (hle : rank (k - f) f endId = rank (k - f) f start + count) :
    ∃ it items, Iter.new w L start endId = some it ∧
      (∀ fuel, count < fuel → Iter.collect w fuel it = some items) ∧
      items.map (fun x => rank (k - f) f x.1) =
        (List.range count).map (fun t : Nat => rank (k - f) f start + t) ∧
      ∀ x ∈ items, ValidId (k - f) f x.1 ∧ id2loc w L x.1 = some x.2 := by
  obtain ⟨g, rfl, rfl, rfl⟩ := new_good ⟨hsmall, hchecked⟩ hnew
  rw [← g.m] at *
  have hfit : Fits w L.n L.m := ⟨hsmall, hchecked⟩
  obtain ⟨it, r, z, b, s, hit, hat, hid, hend⟩ := new_at g hfit endId hs
  have hcol := fun fuel hf => collect_at g hfit he count it r z b s fuel hat hend
    (by rw [hid]; exact hle) hf
  obtain ⟨items, hc, hmap, hall⟩ := hcol (count + 1) (by omega)
  refine ⟨it, items, hit, ?_, by rw [hmap, hid], hall⟩
  intro fuel hf
  obtain ⟨items', hc', hmap', hall'⟩ := hcol fuel hf
  -- same ranks, so same chunks
  have : items' = items := by
    clear hc hc'
    rw [← hmap] at hmap'
    clear hmap
    induction items generalizing items' with
    | nil => simpa using hmap'
    | cons x xs ih =>
      cases items' with
      | nil => simp at hmap'
      | cons y ys =>
        rw [List.map_cons, List.map_cons, List.cons.injEq] at hmap'
        have h1 := hall x (List.mem_cons_self ..)
        have h2 := hall' y (List.mem_cons_self ..)
        have e1 := rank_inj g.mpos g.f0 h2.1 h1.1 hmap'.1
        have e2 : y.2 = x.2 := by
          have := h2.2; rw [e1, h1.2] at this; exact (Option.some.inj this).symm
        rw [ih (fun x hx => hall x (List.mem_cons_of_mem _ hx)) ys
          hmap'.2 (fun x hx => hall' x (List.mem_cons_of_mem _ hx))]
        rw [show y = x from Prod.ext e1 e2]
  rw [hc', this]

/-- Distinct chunks have distinct ranks. -/
theorem C08_rank_injective (m f : Int) (hm : 0 < m) (hf : 0 < f) (id id' : ChunkId)
    (hv : ValidId m f id) (hv' : ValidId m f id') (h : rank m f id = rank m f id') : id = id' :=
  rank_inj hm hf hv hv' h

/-- Iterating over a repetition boundary of a 5-disk array. -/
example : (new false 5 4 1).isSome = true ∧ (5 : Int) * (5 - 1) ≤ 32767 ∧
    (5 * (5 - 1) - 1) * (4 - 1) ≤ (32767 : Int) ∧
    rank 3 1 (.parity 63 0) = rank 3 1 (.data 55) + 14 := by decide +kernel

end Verif.PrimeS
