import Verif.Raid.Layout
import Verif.PrimeS.Props
import Verif.PrimeS.IterProps

/-!
# PRIME-S is a lawful layout
-/

namespace Verif.Raid

open Verif.PrimeS

/-- Chunk `b` of stripe `s`. -/
def chunkId (m : Int) (s b : Nat) : ChunkId :=
  if (b : Int) < m then .data (s * m + b) else .parity (s * m) (b - m)

/-- The layout a PRIME-S locator computes (`Verif.PrimeS.Model`, modelling
`/repo/bfffs-core/src/raid/prime_s.rs`). -/
def ofPrimeS (w : Bool) (L : PrimeS) : Layout where
  n := L.n.toNat
  k := L.k.toNat
  m := L.m.toNat
  disk s b := ((id2loc w L (chunkId L.m s b)).getD ⟨0, 0⟩).disk.toNat
  off s b := ((id2loc w L (chunkId L.m s b)).getD ⟨0, 0⟩).offset.toNat
  stripeAt d o := (((loc2id w L ⟨d, o⟩).getD (.data 0)).address / L.m).toNat

variable {L : PrimeS} {w : Bool}

/-- Repetition, iteration and place in the iteration of a stripe. -/
structure Coord (L : PrimeS) (S : Nat) (r z : Int) (s : Nat) : Prop where
  r0 : 0 ≤ r
  z0 : 0 ≤ z
  zn : z < L.n - 1
  sn : (s : Int) < L.n
  eq : (S : Int) = r * (L.n * (L.n - 1)) + (z * L.n + s)

theorem coord_exists (g : Good L) (S : Nat) : ∃ r z s, Coord L S r z s := by
  have hn := g.n2
  have hN : 0 < L.n * (L.n - 1) := by
    have : 0 < L.n - 1 := by omega
    positivity
  have h1 := Int.emod_add_mul_ediv (S : Int) (L.n * (L.n - 1))
  have h2 := Int.emod_nonneg (S : Int) (show L.n * (L.n - 1) ≠ 0 by omega)
  have h3 := Int.emod_lt_of_pos (S : Int) hN
  have h4 : 0 ≤ (S : Int) / (L.n * (L.n - 1)) := Int.ediv_nonneg (by omega) (by omega)
  generalize (S : Int) % (L.n * (L.n - 1)) = q at *
  generalize (S : Int) / (L.n * (L.n - 1)) = r at *
  have h5 := Int.emod_add_mul_ediv q L.n
  have h6 := Int.emod_nonneg q (show L.n ≠ 0 by omega)
  have h7 := Int.emod_lt_of_pos q (show 0 < L.n by omega)
  have h8 : 0 ≤ q / L.n := Int.ediv_nonneg h2 (by omega)
  generalize q % L.n = s at *
  generalize q / L.n = z at *
  refine ⟨r, z, s.toNat, h4, h8, ?_, by omega, ?_⟩
  · by_contra hc
    have : L.n * (L.n - 1) ≤ L.n * z := Int.mul_le_mul_of_nonneg_left (by omega) (by omega)
    omega
  · rw [Int.toNat_of_nonneg h6, ← h1, ← h5]; ring

theorem chunkId_eq {S : Nat} {r z : Int} {s : Nat} (g : Good L) (hc : Coord L S r z s) (b : Nat) :
    chunkId L.m S b = mkId L r (z * L.n + s) b := by
  unfold chunkId mkId
  have : (S : Int) * L.m = r * L.datachunks + (z * L.n + s) * L.m := by
    rw [hc.eq, g.datachunks]; ring
  rw [this]

/-- Where a chunk is, by its coordinates. -/
theorem loc_eq (g : Good L) (hfit : Fits w L.n L.m) {S b : Nat} {r z : Int} {s : Nat}
    (hc : Coord L S r z s) (hb : (b : Int) < L.k) :
    ((ofPrimeS w L).disk S b : Int) = ((s * L.m + b) * (z + 1)) % L.n ∧
    ((ofPrimeS w L).off S b : Int) =
      r * L.depth + L.k * z + cnt L.n L.m L.k ((s * L.m + b) % L.n) s := by
  have hn := g.n2
  have h1 := id2loc_mkId (r := r) g hfit rfl hc.sn hc.z0 hc.zn (show (0 : Int) ≤ b by omega) hb
  unfold ofPrimeS
  simp only
  rw [chunkId_eq g hc, h1]
  simp only [Option.getD_some]
  constructor
  · exact Int.toNat_of_nonneg (Int.emod_nonneg _ (by omega))
  · have : 0 ≤ L.depth := by
      rw [g.depth]
      have : 0 ≤ L.n - 1 := by omega
      have := g.k1
      positivity
    have h2 : 0 ≤ r * L.depth := by have := hc.r0; positivity
    have h3 : 0 ≤ L.k * z := by have := hc.z0; have := g.k1; positivity
    exact Int.toNat_of_nonneg (by omega)

theorem cnt_mono {n m w e : Int} {s s' : Nat} (h : s ≤ s') : cnt n m w e s ≤ cnt n m w e s' := by
  induction h with
  | refl => exact Nat.le_refl _
  | step _ ih => rw [cnt_succ]; omega

theorem cnt_le (g : Good L) {e : Int} (he0 : 0 ≤ e) (hen : e < L.n) {s : Nat} (hs : (s : Int) ≤ L.n) :
    (cnt L.n L.m L.k e s : Int) ≤ L.k := by
  have h1 := cnt_full g he0 hen
  have h2 : cnt L.n L.m L.k e s ≤ cnt L.n L.m L.k e L.n.toNat := cnt_mono (by omega)
  omega

theorem cnt_lt (g : Good L) {b : Nat} (hb : (b : Int) < L.k) {s : Nat} (hs : (s : Int) < L.n) :
    (cnt L.n L.m L.k ((s * L.m + b) % L.n) s : Int) < L.k := by
  have hn := g.n2
  have hkn := g.kn
  have he0 := Int.emod_nonneg ((s : Int) * L.m + b) (show L.n ≠ 0 by omega)
  have hen := Int.emod_lt_of_pos ((s : Int) * L.m + b) (show 0 < L.n by omega)
  have h1 := cnt_le g he0 hen (s := s + 1) (by omega)
  rw [cnt_succ, pos_self (by omega) (by omega), if_pos hb] at h1
  omega

/-- Position `b` of a stripe, one stripe on: the disk has at least as many earlier chunks. -/
theorem cnt_shift {n m w : Int} {b : Int} {s : Nat} :
    cnt n m w ((s * m + b) % n) s ≤ cnt n m w ((((s + 1 : Nat) : Int) * m + b) % n) (s + 1) := by
  unfold cnt
  rw [List.range_succ_eq_map, List.filter_cons]
  have h : (List.filter (fun x : Nat => decide (((((s + 1 : Nat) : Int) * m + b) % n - x * m) % n < w))
      (List.map Nat.succ (List.range s))).length =
      (List.filter (fun x : Nat => decide (((s * m + b) % n - x * m) % n < w)) (List.range s)).length := by
    rw [List.filter_map, List.length_map]
    congr 1
    apply List.filter_congr
    intro x _
    simp only [Function.comp, decide_eq_decide]
    obtain ⟨t1, h1⟩ := emod_ex (s * m + b) n
    obtain ⟨t2, h2⟩ := emod_ex (((s + 1 : Nat) : Int) * m + b) n
    have : ((((s + 1 : Nat) : Int) * m + b) % n - (Nat.succ x : Nat) * m) % n =
        ((s * m + b) % n - x * m) % n := by
      rw [h1, h2]
      refine emod_congr (t1 - t2) ?_
      push_cast
      ring
    rw [this]
  rw [← h]
  split
  · simp
  · exact Nat.le_refl _

theorem coord_lt (g : Good L) {S S' : Nat} {r z r' z' : Int} {s s' : Nat} (h : Coord L S r z s)
    (h' : Coord L S' r' z' s') (hlt : S < S') :
    r < r' ∨ (r = r' ∧ z < z') ∨ (r = r' ∧ z = z' ∧ s < s') := by
  have hn := g.n2
  have e1 := h.eq
  have e2 := h'.eq
  have a1 := h.sn; have a2 := h'.sn; have b1 := h.zn; have b2 := h'.zn
  have c1 := h.z0; have c2 := h'.z0
  have hS := stripe_lt b1 a1 hn
  have hS' := stripe_lt b2 a2 hn
  have hp : 0 ≤ z * L.n := by positivity
  have hp' : 0 ≤ z' * L.n := by positivity
  rcases lt_trichotomy r r' with hr | hr | hr
  · exact Or.inl hr
  · subst hr
    rcases lt_trichotomy z z' with hz | hz | hz
    · exact Or.inr (Or.inl ⟨rfl, hz⟩)
    · subst hz
      exact Or.inr (Or.inr ⟨rfl, rfl, by omega⟩)
    · exfalso
      have : (z' + 1) * L.n ≤ z * L.n := Int.mul_le_mul_of_nonneg_right (by omega) (by omega)
      nlinarith
  · exfalso
    have hN : 0 ≤ L.n * (L.n - 1) := by
      have : 0 ≤ L.n - 1 := by omega
      positivity
    have : (r' + 1) * (L.n * (L.n - 1)) ≤ r * (L.n * (L.n - 1)) :=
      Int.mul_le_mul_of_nonneg_right (by omega) hN
    nlinarith

theorem cancel_y (g : Good L) {z x y : Int} (hz0 : 0 ≤ z) (hz : z < L.n - 1)
    (h : (x * (z + 1)) % L.n = (y * (z + 1)) % L.n) : x % L.n = y % L.n := by
  have hn := g.n2
  obtain ⟨yi, -, -, -, q, hq⟩ := inv_exists (a := z + 1) g.prime hn (by omega) (by omega)
  obtain ⟨t, ht⟩ := emod_eq_ex h
  refine emod_congr (t * yi - q * (x - y)) ?_
  linear_combination yi * ht - (x - y) * hq

theorem primeS_lawful' (g : Good L) (hfit : Fits w L.n L.m) : (ofPrimeS w L).Lawful := by
  have hn := g.n2
  have hk1 := g.k1
  have hkn := g.kn
  have hmp := g.mpos
  have hm := g.m
  have hf0 := g.f0
  have hk : ∀ {b : Nat}, b < (ofPrimeS w L).k → (b : Int) < L.k := by
    intro b hb
    have : b < L.k.toNat := hb
    omega
  have hdep : L.depth = L.k * (L.n - 1) := g.depth
  refine ⟨by show 0 < L.n.toNat; omega, by show 0 < L.m.toNat; omega,
    by show L.m.toNat < L.k.toNat; omega, ?_, ?_, ?_, ?_, ?_⟩
  · intro S b hb
    obtain ⟨r, z, s, hc⟩ := coord_exists g S
    have h1 := (loc_eq g hfit hc (hk hb)).1
    have h2 := Int.emod_lt_of_pos ((s * L.m + b) * (z + 1)) (show 0 < L.n by omega)
    show _ < L.n.toNat
    omega
  · intro S b b' hb hb' hd
    obtain ⟨r, z, s, hc⟩ := coord_exists g S
    have h1 := (loc_eq g hfit hc (hk hb)).1
    have h2 := (loc_eq g hfit hc (hk hb')).1
    rw [hd, h2] at h1
    have h3 := cancel_y g hc.z0 hc.zn h1
    have hb1 := hk hb; have hb2 := hk hb'
    have e1 := pos_self (n := L.n) (m := L.m) (b := b) (s := s) (by omega) (by omega)
    have e2 := pos_self (n := L.n) (m := L.m) (b := b') (s := s) (by omega) (by omega)
    rw [h3, e1] at e2
    omega
  · intro S S' b b' hlt hb hb' hd
    obtain ⟨r, z, s, hc⟩ := coord_exists g S
    obtain ⟨r', z', s', hc'⟩ := coord_exists g S'
    obtain ⟨d1, o1⟩ := loc_eq g hfit hc (hk hb)
    obtain ⟨d2, o2⟩ := loc_eq g hfit hc' (hk hb')
    have hb1 := hk hb; have hb2 := hk hb'
    have hlt1 := cnt_lt g hb1 hc.sn
    have hz1 := hc.zn; have hz2 := hc'.zn; have hz3 := hc.z0; have hz4 := hc'.z0
    rcases coord_lt g hc hc' hlt with hr | ⟨hr, hz⟩ | ⟨hr, hz, hs⟩
    · have h1 : (r + 1) * L.depth ≤ r' * L.depth := by
        apply Int.mul_le_mul_of_nonneg_right (by omega)
        rw [hdep]
        have : 0 ≤ L.n - 1 := by omega
        positivity
      have h2 : L.k * z + L.k ≤ L.depth := by
        rw [hdep]
        have : L.k * (z + 1) ≤ L.k * (L.n - 1) := Int.mul_le_mul_of_nonneg_left (by omega) (by omega)
        linarith
      have h3 : 0 ≤ L.k * z' := by positivity
      have h4 : (r + 1) * L.depth = r * L.depth + L.depth := by ring
      omega
    · subst hr
      have h2 : L.k * z + L.k ≤ L.k * z' := by
        have : L.k * (z + 1) ≤ L.k * z' := Int.mul_le_mul_of_nonneg_left (by omega) (by omega)
        linarith
      omega
    · subst hr; subst hz
      have he : (s * L.m + b) % L.n = (s' * L.m + b') % L.n := by
        apply cancel_y g hc.z0 hc.zn
        rw [← d1, ← d2, hd]
      rw [he] at o1
      have h1 : cnt L.n L.m L.k ((s' * L.m + b') % L.n) (s + 1) ≤
          cnt L.n L.m L.k ((s' * L.m + b') % L.n) s' := cnt_mono hs
      rw [cnt_succ, ← he, pos_self (by omega) (by omega), if_pos hb1, he] at h1
      omega
  · intro S b hb
    obtain ⟨r, z, s, hc⟩ := coord_exists g S
    have hb1 := hk hb
    obtain ⟨-, o1⟩ := loc_eq g hfit hc hb1
    have hz1 := hc.zn; have hz3 := hc.z0
    have hlt1 := cnt_lt g hb1 hc.sn
    have hs := hc.sn
    by_cases h1 : (s : Int) + 1 < L.n
    · have hc' : Coord L (S + 1) r z (s + 1) :=
        ⟨hc.r0, hc.z0, hc.zn, by push_cast; omega, by push_cast; rw [hc.eq]; ring⟩
      obtain ⟨-, o2⟩ := loc_eq g hfit hc' hb1
      have := cnt_shift (n := L.n) (m := L.m) (w := L.k) (b := b) (s := s)
      omega
    · by_cases h2 : z + 1 < L.n - 1
      · have hc' : Coord L (S + 1) r (z + 1) 0 :=
          ⟨hc.r0, by omega, h2, by push_cast; omega, by
            have : (s : Int) = L.n - 1 := by omega
            push_cast; rw [hc.eq, this]; ring⟩
        obtain ⟨-, o2⟩ := loc_eq g hfit hc' hb1
        have : L.k * (z + 1) = L.k * z + L.k := by ring
        omega
      · have hc' : Coord L (S + 1) (r + 1) 0 0 :=
          ⟨by have := hc.r0; omega, by omega, by omega, by push_cast; omega, by
            have e1 : (s : Int) = L.n - 1 := by omega
            have e2 : z = L.n - 2 := by omega
            push_cast; rw [hc.eq, e1, e2]; ring⟩
        obtain ⟨-, o2⟩ := loc_eq g hfit hc' hb1
        have e2 : z = L.n - 2 := by omega
        have : (r + 1) * L.depth = r * L.depth + L.k * z + L.k := by rw [hdep, e2]; ring
        have h0 : L.k * 0 = 0 := by ring
        omega
  · intro d o hd
    have hd' : (d : Int) < L.n := by
      have : d < L.n.toNat := hd
      omega
    obtain ⟨id, h1, hv, h2⟩ := roundtrip_loc (w := w) g hfit (loc := ⟨d, o⟩) ⟨by simp, hd', by simp⟩
    obtain ⟨r, z, b, s, hr, hz0, hz, hs, hb0, hb, rfl⟩ := coords g hv
    have hN : 0 ≤ r * (L.n * (L.n - 1)) := by
      have : 0 ≤ L.n - 1 := by omega
      positivity
    have hzn : 0 ≤ z * L.n := by positivity
    have haddr : (ofPrimeS w L).stripeAt d o = (r * (L.n * (L.n - 1)) + (z * L.n + s)).toNat := by
      show (((loc2id w L ⟨d, o⟩).getD (.data 0)).address / L.m).toNat = _
      rw [h1]
      simp only [Option.getD_some]
      congr 1
      have hmul : r * L.datachunks + (z * L.n + s) * L.m =
          L.m * (r * (L.n * (L.n - 1)) + (z * L.n + s)) := by rw [g.datachunks]; ring
      unfold mkId
      split
      · show (r * L.datachunks + (z * L.n + s) * L.m + b) / L.m = _
        rw [hmul, Int.add_comm, Int.add_mul_ediv_left _ _ (by omega), Int.ediv_eq_zero_of_lt hb0 (by assumption)]
        omega
      · show (r * L.datachunks + (z * L.n + s) * L.m) / L.m = _
        rw [hmul, Int.mul_ediv_cancel_left _ (by omega)]
    have hc : Coord L ((ofPrimeS w L).stripeAt d o) r z s := by
      refine ⟨hr, hz0, hz, hs, ?_⟩
      rw [haddr]
      exact Int.toNat_of_nonneg (by omega)
    have hbb : ((b.toNat : Nat) : Int) = b := Int.toNat_of_nonneg hb0
    refine ⟨b.toNat, by show b.toNat < L.k.toNat; omega, ?_, ?_⟩
    · show ((id2loc w L (chunkId L.m _ _)).getD ⟨0, 0⟩).disk.toNat = d
      rw [chunkId_eq g hc, hbb, h2]
      simp
    · show ((id2loc w L (chunkId L.m _ _)).getD ⟨0, 0⟩).offset.toNat = o
      rw [chunkId_eq g hc, hbb, h2]
      simp

/-- Every PRIME-S layout that `new` makes, with few enough disks that it does not overflow,
is lawful, and places chunks as `id2loc` says. -/
theorem primeS_lawful {w : Bool} {n k f : Int} {L : PrimeS} (hnew : new w n k f = some L)
    (hsmall : n * (n - 1) ≤ 32767) (hchecked : w = false → (n * (n - 1) - 1) * (k - f) ≤ 32767) :
    (ofPrimeS w L).Lawful ∧ (ofPrimeS w L).n = n.toNat ∧ (ofPrimeS w L).k = k.toNat ∧
    (ofPrimeS w L).m = (k - f).toNat ∧
    ∀ (s b : Nat), (b : Int) < k → ∃ loc, id2loc w L (chunkId (k - f) s b) = some loc ∧
      loc.disk = ((ofPrimeS w L).disk s b : Int) ∧ loc.offset = ((ofPrimeS w L).off s b : Int) := by
  obtain ⟨g, rfl, rfl, rfl⟩ := new_good ⟨hsmall, hchecked⟩ hnew
  rw [← g.m] at hchecked ⊢
  have hfit : Fits w L.n L.m := ⟨hsmall, hchecked⟩
  refine ⟨primeS_lawful' g hfit, rfl, rfl, rfl, ?_⟩
  intro S b hb
  obtain ⟨r, z, s, hc⟩ := coord_exists g S
  have h1 := id2loc_mkId (r := r) g hfit rfl hc.sn hc.z0 hc.zn (show (0 : Int) ≤ b by omega) hb
  obtain ⟨h2, h3⟩ := loc_eq g hfit hc hb
  rw [chunkId_eq g hc]
  exact ⟨_, h1, h2.symm, h3.symm⟩

end Verif.Raid
