import Verif.PrimeS.Layout

/-! # C06, C07: placement of chunks -/

namespace Verif.PrimeS

/-- A chunk id a layout with `m` data and `f` parity chunks per stripe can have:
any data chunk, or one of the `f` parity chunks of a stripe, named after the
stripe's first data chunk. -/
def ValidId (m f : Int) : ChunkId → Prop
  | .data i => 0 ≤ i
  | .parity i j => 0 ≤ i ∧ i % m = 0 ∧ 0 ≤ j ∧ j < f

/-- A location on one of `n` disks. -/
def ValidLoc (n : Int) (loc : Chunkloc) : Prop := 0 ≤ loc.disk ∧ loc.disk < n ∧ 0 ≤ loc.offset

variable {L : PrimeS}

/-- Every valid chunk has coordinates. -/
theorem coords (g : Good L) {id : ChunkId} (hv : ValidId L.m L.f id) :
    ∃ (r z b : Int) (s : Nat), 0 ≤ r ∧ 0 ≤ z ∧ z < L.n - 1 ∧ (s : Int) < L.n ∧ 0 ≤ b ∧ b < L.k ∧
      id = mkId L r (z * L.n + s) b := by
  have hn := g.n2
  have hmp := g.mpos
  have hm := g.m
  have hf0 := g.f0
  have hdc : 0 < L.datachunks := by rw [g.datachunks]; have : 0 < L.n - 1 := by omega
                                    positivity
  have base : ∀ i, 0 ≤ i → ∃ (r z c : Int) (s : Nat), 0 ≤ r ∧ 0 ≤ z ∧ z < L.n - 1 ∧ (s : Int) < L.n ∧
      0 ≤ c ∧ c < L.m ∧ i = r * L.datachunks + (z * L.n + s) * L.m + c := by
    intro i hi
    have h1 := Int.emod_add_mul_ediv i L.datachunks
    have h2 := Int.emod_nonneg i (show L.datachunks ≠ 0 by omega)
    have h3 := Int.emod_lt_of_pos i hdc
    have h4 : 0 ≤ i / L.datachunks := Int.ediv_nonneg hi (by omega)
    generalize i % L.datachunks = a at *
    generalize i / L.datachunks = r at *
    have h5 := Int.emod_add_mul_ediv a L.m
    have h6 := Int.emod_nonneg a (show L.m ≠ 0 by omega)
    have h7 := Int.emod_lt_of_pos a hmp
    have h8 : 0 ≤ a / L.m := Int.ediv_nonneg h2 (by omega)
    generalize a % L.m = c at *
    generalize a / L.m = S at *
    have hS : S < L.n * (L.n - 1) := by
      rw [g.datachunks] at h3
      by_contra hc
      have : L.n * (L.n - 1) * L.m ≤ S * L.m := Int.mul_le_mul_of_nonneg_right (by omega) (by omega)
      nlinarith
    have h9 := Int.emod_add_mul_ediv S L.n
    have h10 := Int.emod_nonneg S (show L.n ≠ 0 by omega)
    have h11 := Int.emod_lt_of_pos S (show 0 < L.n by omega)
    have h12 : 0 ≤ S / L.n := Int.ediv_nonneg h8 (by omega)
    generalize S % L.n = x at *
    generalize S / L.n = z at *
    refine ⟨r, z, c, x.toNat, h4, h12, ?_, by omega, h6, h7, ?_⟩
    · by_contra hc
      have : L.n * (L.n - 1) ≤ L.n * z := Int.mul_le_mul_of_nonneg_left (by omega) (by omega)
      omega
    · rw [Int.toNat_of_nonneg h10, ← h1, ← h5, ← h9]; ring
  cases id with
  | data i =>
    obtain ⟨r, z, c, s, hr, hz0, hz, hs, hc0, hc, he⟩ := base i hv
    refine ⟨r, z, c, s, hr, hz0, hz, hs, hc0, by omega, ?_⟩
    unfold mkId
    rw [if_pos hc, ← he]
  | parity i j =>
    obtain ⟨hi, hmod, hj0, hj⟩ := hv
    obtain ⟨r, z, c, s, hr, hz0, hz, hs, hc0, hc, he⟩ := base i hi
    have hc' : c = 0 := by
      have : i % L.m = c := by
        rw [he, g.datachunks,
          show r * (L.n * (L.n - 1) * L.m) + (z * L.n + ↑s) * L.m + c =
            c + L.m * (r * (L.n * (L.n - 1)) + (z * L.n + s)) by ring, Int.add_mul_emod_self_left]
        exact Int.emod_eq_of_lt hc0 hc
      omega
    subst hc'
    refine ⟨r, z, L.m + j, s, hr, hz0, hz, hs, by omega, by omega, ?_⟩
    unfold mkId
    rw [if_neg (by omega), he]
    congr 1 <;> ring

theorem mkId_valid (g : Good L) {r z b : Int} {s : Nat} (hr : 0 ≤ r) (hz : 0 ≤ z)
    (hb0 : 0 ≤ b) (hb : b < L.k) : ValidId L.m L.f (mkId L r (z * L.n + s) b) := by
  have hn := g.n2
  have hmp := g.mpos
  have hdc : 0 < L.datachunks := by rw [g.datachunks]; have : 0 < L.n - 1 := by omega
                                    positivity
  have hS : 0 ≤ z * L.n + s := by positivity
  have h1 : 0 ≤ r * L.datachunks := by positivity
  have h2 : 0 ≤ (z * L.n + s) * L.m := by positivity
  unfold mkId
  split
  · show (0 : Int) ≤ _; omega
  · refine ⟨by omega, ?_, by omega, by have := g.m; omega⟩
    rw [g.datachunks, show r * (L.n * (L.n - 1) * L.m) + (z * L.n + ↑s) * L.m =
      L.m * (r * (L.n * (L.n - 1)) + (z * L.n + s)) by ring]
    exact Int.mul_emod_right _ _

theorem roundtrip_id {w : Bool} (g : Good L) (hfit : Fits w L.n L.m) {id : ChunkId}
    (hv : ValidId L.m L.f id) :
    ∃ loc, id2loc w L id = some loc ∧ ValidLoc L.n loc ∧ loc2id w L loc = some id := by
  have hn := g.n2
  have hkn := g.kn
  have hk1 := g.k1
  obtain ⟨r, z, b, s, hr, hz0, hz, hs, hb0, hb, rfl⟩ := coords g hv
  have h1 := id2loc_mkId (r := r) g hfit rfl hs hz0 hz hb0 hb
  refine ⟨_, h1, ⟨Int.emod_nonneg _ (by omega), Int.emod_lt_of_pos _ (by omega), ?_⟩, ?_⟩
  · have : 0 ≤ L.depth := by rw [g.depth]; have : 0 ≤ L.n - 1 := by omega
                             positivity
    have : 0 ≤ r * L.depth := by positivity
    have : 0 ≤ L.k * z := by positivity
    simp only
    omega
  · obtain ⟨yi, ey, yi0, yin, q, hq⟩ := inv_exists (a := z + 1) g.prime hn (by omega) (by omega)
    have he0 := Int.emod_nonneg ((s : Int) * L.m + b) (show L.n ≠ 0 by omega)
    have hen := Int.emod_lt_of_pos ((s : Int) * L.m + b) (show 0 < L.n by omega)
    have hpos : ((s * L.m + b) % L.n - s * L.m) % L.n = b := by
      obtain ⟨t, ht⟩ := emod_ex (s * L.m + b) L.n
      rw [ht]
      conv_rhs => rw [← Int.emod_eq_of_lt hb0 (show b < L.n by omega)]
      exact emod_congr (-t) (by ring)
    have := loc2id_spec (D := ((s * L.m + b) * (z + 1)) % L.n) (r := r) (w := w) g hfit rfl hs hz0 hz
      ey he0 hen ?_ (by rw [hpos]; exact hb)
    · rw [hpos] at this; exact this
    · obtain ⟨t1, h1⟩ := emod_ex ((s * L.m + b) * (z + 1)) L.n
      obtain ⟨t2, h2⟩ := emod_ex (s * L.m + b) L.n
      refine ⟨(s * L.m + b) * q - t1 * yi + t2, ?_⟩
      rw [h1, h2]
      linear_combination (s * L.m + b) * hq

theorem roundtrip_loc {w : Bool} (g : Good L) (hfit : Fits w L.n L.m) {loc : Chunkloc}
    (hv : ValidLoc L.n loc) :
    ∃ id, loc2id w L loc = some id ∧ ValidId L.m L.f id ∧ id2loc w L id = some loc := by
  have hn := g.n2
  have hkn := g.kn
  have hk1 := g.k1
  obtain ⟨D, O⟩ := loc
  obtain ⟨hD0, hDn, hO⟩ := hv
  simp only at hD0 hDn hO
  have hdep : 0 < L.depth := by
    rw [g.depth]; have : 0 < L.n - 1 := by omega
    positivity
  -- coordinates of the location
  have h1 := Int.emod_add_mul_ediv O L.depth
  have h2 := Int.emod_nonneg O (show L.depth ≠ 0 by omega)
  have h3 := Int.emod_lt_of_pos O hdep
  have h4 : 0 ≤ O / L.depth := Int.ediv_nonneg hO (by omega)
  generalize O % L.depth = o at *
  generalize O / L.depth = r at *
  have h5 := Int.emod_add_mul_ediv o L.k
  have h6 := Int.emod_nonneg o (show L.k ≠ 0 by omega)
  have h7 := Int.emod_lt_of_pos o (show 0 < L.k by omega)
  have h8 : 0 ≤ o / L.k := Int.ediv_nonneg h2 (by omega)
  generalize o % L.k = c at *
  generalize o / L.k = z at *
  have hz : z < L.n - 1 := by
    rw [g.depth] at h3
    by_contra hc
    have : L.k * (L.n - 1) ≤ L.k * z := Int.mul_le_mul_of_nonneg_left (by omega) (by omega)
    omega
  obtain ⟨yi, ey, yi0, yin, q, hq⟩ := inv_exists (a := z + 1) g.prime hn (by omega) (by omega)
  have he0 := Int.emod_nonneg (D * yi) (show L.n ≠ 0 by omega)
  have hen := Int.emod_lt_of_pos (D * yi) (show 0 < L.n by omega)
  obtain ⟨t, ht⟩ := emod_ex (D * yi) L.n
  generalize he : (D * yi) % L.n = e at *
  -- the stripe
  have hfull := cnt_full g he0 hen
  have hget : ∃ s, ((List.range L.n.toNat).filter
      (fun x : Nat => decide ((e - x * L.m) % L.n < L.k)))[c.toNat]? = some s := by
    rw [← Option.isSome_iff_exists, isSome_getElem?]
    unfold cnt at hfull
    omega
  obtain ⟨s, hs⟩ := hget
  obtain ⟨hp, hsn, hlen⟩ := filter_range_get hs
  simp only [decide_eq_true_eq] at hp
  have hcnt : (cnt L.n L.m L.k e s : Int) = c := by unfold cnt; omega
  have hb0 := Int.emod_nonneg (e - s * L.m) (show L.n ≠ 0 by omega)
  have hsn' : (s : Int) < L.n := by omega
  have hloc := loc2id_spec (D := D) (r := r) (w := w) g hfit rfl hsn' h8 hz ey he0 hen
    ⟨t, by linarith⟩ hp
  rw [hcnt] at hloc
  have hO' : r * L.depth + L.k * z + c = O := by linarith
  rw [hO'] at hloc
  refine ⟨_, hloc, mkId_valid g h4 h8 hb0 hp, ?_⟩
  rw [id2loc_mkId (r := r) g hfit rfl hsn' h8 hz hb0 hp]
  have hback : (s * L.m + (e - s * L.m) % L.n) % L.n = e := by
    obtain ⟨t2, h2⟩ := emod_ex (e - s * L.m) L.n
    rw [h2]
    conv_rhs => rw [← Int.emod_eq_of_lt he0 hen]
    exact emod_congr (-t2) (by ring)
  rw [hback, hcnt, hO']
  congr 2
  -- the disk
  conv_rhs => rw [← Int.emod_eq_of_lt hD0 hDn]
  obtain ⟨t2, h2⟩ := emod_ex (e - s * L.m) L.n
  rw [h2]
  refine emod_congr (D * q - (z + 1) * t - (z + 1) * t2) ?_
  rw [ht]
  linear_combination D * hq

/-- Mapping a chunk to its location and back gives the same chunk, and mapping a
location to its chunk and back gives the same location.  So distinct chunks
never share a location and every location is used by exactly one chunk.

Holds for every geometry `new` accepts whose stripes can be numbered with an
`i16` (`n ≤ 181`), in builds without overflow checks; builds with overflow
checks additionally need the chunks of a repetition to be so numbered.  Missing
are the larger geometries, for which it is false: see below. -/
theorem C06_bijection_partial (w : Bool) (n k f : Int) (L : PrimeS) (hnew : new w n k f = some L)
    (hsmall : n * (n - 1) ≤ 32767) (hchecked : w = false → (n * (n - 1) - 1) * (k - f) ≤ 32767) :
    (∀ id, ValidId (k - f) f id → ∃ loc, id2loc w L id = some loc ∧ ValidLoc n loc ∧
      loc2id w L loc = some id) ∧
    (∀ loc, ValidLoc n loc → ∃ id, loc2id w L loc = some id ∧ ValidId (k - f) f id ∧
      id2loc w L id = some loc) ∧
    (∀ id id', ValidId (k - f) f id → ValidId (k - f) f id' → id2loc w L id = id2loc w L id' →
      id = id') := by
  obtain ⟨g, rfl, rfl, rfl⟩ := new_good ⟨hsmall, hchecked⟩ hnew
  rw [← g.m] at hchecked ⊢
  have hfit : Fits w L.n L.m := ⟨hsmall, hchecked⟩
  refine ⟨fun id hv => roundtrip_id g hfit hv, fun loc hv => roundtrip_loc g hfit hv, ?_⟩
  intro id id' hv hv' he
  obtain ⟨l1, e1, -, b1⟩ := roundtrip_id g hfit hv
  obtain ⟨l2, e2, -, b2⟩ := roundtrip_id g hfit hv'
  rw [e1, e2] at he
  cases he
  rw [b1] at b2
  exact Option.some.inj b2

/-- `new` accepts exactly the legal geometries, as long as `n * (n - 1)` fits. -/
theorem C06_new_accepts (w : Bool) (n k f : Int) (hsmall : n * (n - 1) ≤ 32767) :
    (new w n k f).isSome = true ↔
      (n.toNat.Prime ∧ 0 < n ∧ n ≤ 215 ∧ 1 < k ∧ k ≤ n ∧ 0 < f ∧ f < k) := by
  unfold new
  constructor
  · intro h
    split at h
    · rename_i hc
      obtain ⟨hp, h1⟩ := hc
      rw [isPrime_spec] at hp
      have := hp.2.two_le
      exact ⟨hp.2, by omega, h1⟩
    · cases h
  · rintro ⟨hp, h0, h1, h2, h3, h4, h5⟩
    rw [if_pos ⟨(isPrime_spec n).mpr ⟨by omega, hp⟩, h1, h2, h3, h4, h5⟩]
    have hn2 : 2 ≤ n := by have := hp.two_le; omega
    obtain ⟨x, e, -⟩ := inv_exists (a := k - f) hp hn2 (by omega) (by omega)
    have hd : i16 w (k * (n - 1)) = some (k * (n - 1)) := by
      unfold i16
      rw [if_pos ⟨by nlinarith, by nlinarith⟩]
    simp [hd, e]

/-- A concrete geometry: 7 disks, stripes of 4 data and 1 parity chunk. -/
example : (new false 7 5 1).isSome = true ∧ (7 : Int) * (7 - 1) ≤ 32767 ∧
    (7 * (7 - 1) - 1) * (5 - 1) ≤ (32767 : Int) := by decide +kernel

example : ValidId 4 1 (.data 1000) ∧ ValidId 4 1 (.parity 1000 0) ∧ ValidLoc 7 ⟨6, 12345⟩ := by
  simp [ValidId, ValidLoc]

/-- With overflow checks, a legal 47-disk array panics when it places some of its
data chunks. -/
theorem C06_overflow_panics :
    ∃ L, new false 47 20 3 = some L ∧ ValidId 17 3 (.data 36000) ∧
      id2loc false L (.data 36000) = none := by
  refine ⟨⟨47, 20, 17, 36, 3, 36754, 2162, 920⟩, ?_, by simp [ValidId], by decide⟩
  decide +kernel

/-- Without overflow checks, in a legal 191-disk array two data chunks are placed
at the same location: writing the one overwrites the other. -/
theorem C06_overflow_collides :
    ∃ L, new true 191 2 1 = some L ∧ ValidId 1 1 (.data 123) ∧ ValidId 1 1 (.data 32768) ∧
      id2loc true L (.data 123) = some ⟨123, 1⟩ ∧ id2loc true L (.data 32768) = some ⟨123, 1⟩ := by
  refine ⟨⟨191, 2, 1, 1, 1, 36290, 36290, 380⟩, ?_, by simp [ValidId], by simp [ValidId], ?_, ?_⟩ <;>
    decide +kernel

/-- With overflow checks, `new` panics for a legal 211-disk geometry. -/
theorem C06_overflow_new_panics : isPrime 211 = true ∧ new false 211 200 2 = none := by
  decide +kernel

/-! ## Distinct disks -/

/-- The `k` chunks of the stripe whose first data chunk is `a`. -/
def stripeChunks (m f a : Int) : List ChunkId :=
  (List.range m.toNat).map (fun i : Nat => .data (a + i)) ++
  (List.range f.toNat).map (fun j : Nat => .parity a j)

/-- What `new` guarantees whatever overflows. -/
theorem new_geo {w : Bool} {n k f : Int} {L : PrimeS} (h : new w n k f = some L) :
    n.toNat.Prime ∧ 2 ≤ n ∧ n ≤ 215 ∧ 1 < k ∧ k ≤ n ∧ 0 < f ∧ f < k ∧ L.n = n ∧ L.k = k ∧ L.f = f ∧
      L.m = k - f ∧ L.datachunks = n * (n - 1) * (k - f) := by
  unfold new at h
  split at h
  · rename_i hc
    obtain ⟨hp, h1, h2, h3, h4, h5⟩ := hc
    rw [isPrime_spec] at hp
    have hn2 : 2 ≤ n := by have := hp.2.two_le; omega
    cases hd : i16 w (k * (n - 1)) with
    | none => simp [hd] at h
    | some d =>
      cases hi : invmod (k - f) n with
      | none => simp [hd, hi] at h
      | some x =>
        simp only [hd, Option.bind_eq_bind, Option.bind_some, hi, Option.some.injEq] at h
        subst h
        exact ⟨hp.2, hn2, h1, h2, h3, h4, h5, rfl, rfl, rfl, rfl, rfl⟩
  · cases h

theorem i16_ex {w : Bool} {x y : Int} (h : i16 w x = some y) : ∃ q, y = x + 65536 * q := by
  unfold i16 at h
  split at h
  · cases h; exact ⟨0, by ring⟩
  · split at h
    · cases h
      refine ⟨(x.bmod 65536 - x) / 65536, ?_⟩
      have h1 : x.bmod 65536 % 65536 = x % 65536 := Int.bmod_emod
      omega
    · cases h

theorem i16_true (x : Int) : ∃ y, i16 true x = some y := by
  unfold i16
  split
  · exact ⟨_, rfl⟩
  · exact ⟨_, rfl⟩

/-- The disk of the `b`th chunk of a stripe. -/
theorem disk_of {w : Bool} {n k f a : Int} {L : PrimeS} (h : new w n k f = some L)
    (hm : a % (k - f) = 0) :
    ∃ S z, 0 ≤ z ∧ z < n - 1 ∧
      (∀ i loc, 0 ≤ i → i < k - f → id2loc w L (.data (a + i)) = some loc →
        loc.disk = ((S * (k - f) + i) * (z + 1)) % n) ∧
      (∀ j loc, 0 ≤ j → j < f → id2loc w L (.parity a j) = some loc →
        loc.disk = ((S * (k - f) + (k - f + j)) * (z + 1)) % n) := by
  obtain ⟨hp, hn2, h215, hk1, hkn, hf0, hfk, eN, eK, eF, eM, eD⟩ := new_geo h
  generalize hmdef : k - f = m at *
  have hmp : 0 < m := by omega
  have hdc : 0 < L.datachunks := by
    rw [eD]; have : 0 < n - 1 := by omega
    positivity
  -- the stripe, within its repetition
  have hA0 := Int.emod_nonneg a (show L.datachunks ≠ 0 by omega)
  have hA1 := Int.emod_lt_of_pos a hdc
  obtain ⟨q, hq⟩ := emod_ex a L.datachunks
  have hAm : (a % L.datachunks) % m = 0 := by
    rw [hq, eD, show a - n * (n - 1) * m * q = a + m * (-(n * (n - 1) * q)) by ring,
      Int.add_mul_emod_self_left, hm]
  obtain ⟨S, hS⟩ : ∃ S, a % L.datachunks = m * S :=
    ⟨(a % L.datachunks) / m, by have := Int.emod_add_mul_ediv (a % L.datachunks) m; omega⟩
  have hS0 : 0 ≤ S := by
    by_contra hc
    nlinarith
  have hSlt : S < n * (n - 1) := by
    by_contra hc
    have : n * (n - 1) * m ≤ S * m := Int.mul_le_mul_of_nonneg_right (by omega) (by omega)
    rw [hS, eD] at hA1
    linarith [mul_comm m S]
  have hkey : ∀ c, 0 ≤ c → c < m → (a + c) % L.datachunks = m * S + c ∧ (m * S + c) / m = S ∧
      (m * S + c) / (m * n) = S / n := by
    intro c hc0 hc
    have hin : m * S + c < L.datachunks := by rw [eD]; nlinarith
    have h2 : (m * S + c) / m = S := by
      rw [Int.add_comm, Int.add_mul_ediv_left _ _ (by omega),
        Int.ediv_eq_zero_of_lt (a := c) (b := m) hc0 hc]; simp
    refine ⟨?_, h2, ?_⟩
    · rw [← Int.emod_eq_of_lt (show 0 ≤ m * S + c by have : 0 ≤ m * S := by positivity
                                                     omega) hin]
      exact emod_congr q (by rw [← hS, hq]; ring)
    · rw [← Int.ediv_ediv_of_nonneg (by omega), h2]
  have hz0 : 0 ≤ S / n := Int.ediv_nonneg hS0 (by omega)
  have hz : S / n < n - 1 := Int.ediv_lt_of_lt_mul (by omega) (by linarith [mul_comm n (n - 1)])
  cases hs16 : i16 w S with
  | none =>
    refine ⟨0, 0, le_refl _, by omega, ?_, ?_⟩
    · intro i loc hi0 hi hl
      obtain ⟨k1, k2, k3⟩ := hkey i hi0 hi
      simp [id2loc, id2locInt, ChunkId.address, k1, eM, k2, hs16] at hl
    · intro j loc hj0 hj hl
      obtain ⟨k1, k2, k3⟩ := hkey 0 (le_refl _) hmp
      rw [Int.add_zero] at k1 k2
      simp only [id2loc, id2locInt, ChunkId.address, k1, eM, k2, hs16, Int.add_zero] at hl
      cases hl
  | some s =>
    obtain ⟨qs, hqs⟩ := i16_ex hs16
    refine ⟨s, S / n, hz0, hz, ?_, ?_⟩
    · intro i loc hi0 hi hl
      obtain ⟨k1, k2, k3⟩ := hkey i hi0 hi
      cases hsm : i16 w (s * m) with
      | none =>
        simp [id2loc, id2locInt, ChunkId.address, k1, eM, k2, hs16, offsetWithinStripe, hsm] at hl
      | some sm =>
        obtain ⟨qm, hqm⟩ := i16_ex hsm
        have hb8 : (m * S + i - sm) % 256 = i := by
          rw [hqm, hqs]
          have : m * S + i - ((S + 65536 * qs) * m + 65536 * qm) =
            i + 256 * (-256 * (qs * m + qm)) := by ring
          rw [this, Int.add_mul_emod_self_left]
          exact Int.emod_eq_of_lt hi0 (by omega)
        simp only [id2loc, id2locInt, ChunkId.address, k1, eM, eN, k2, k3, hs16, offsetWithinStripe,
          hsm, Option.bind_eq_bind, Option.bind_some, hb8, Int.emod_eq_of_lt hz0 hz] at hl
        cases ho : offsetWithinIteration L ⟨m * S + i, (a + i) / L.datachunks, s, S / n + 1, S / n⟩ i
          (((s * m + i) * (S / n + 1)) % n) with
        | none => simp [ho] at hl
        | some o =>
          simp only [ho, Option.bind_some, Option.some.injEq] at hl
          rw [← hl]
    · intro j loc hj0 hj hl
      obtain ⟨k1, k2, k3⟩ := hkey 0 (le_refl _) hmp
      rw [Int.add_zero] at k1
      simp only [Int.add_zero] at k1 k2 k3
      have hb8 : (m + j) % 256 = m + j := Int.emod_eq_of_lt (by omega) (by omega)
      simp only [id2loc, id2locInt, ChunkId.address, k1, eM, eN, k2, k3, hs16, offsetWithinStripe,
        Option.bind_eq_bind, Option.bind_some, hb8, Int.emod_eq_of_lt hz0 hz] at hl
      cases ho : offsetWithinIteration L ⟨m * S, a / L.datachunks, s, S / n + 1, S / n⟩ (m + j)
          (((s * m + (m + j)) * (S / n + 1)) % n) with
      | none => simp [ho] at hl
      | some o =>
        simp only [ho, Option.bind_some, Option.some.injEq] at hl
        rw [← hl]

/-- Two chunks of a stripe are never on the same disk, in any legal geometry. -/
theorem C07_distinct_disks (w : Bool) (n k f a : Int) (L : PrimeS) (hnew : new w n k f = some L)
    (hstripe : a % (k - f) = 0) (id id' : ChunkId) (hid : id ∈ stripeChunks (k - f) f a)
    (hid' : id' ∈ stripeChunks (k - f) f a) (hne : id ≠ id') (loc loc' : Chunkloc)
    (hloc : id2loc w L id = some loc) (hloc' : id2loc w L id' = some loc') :
    loc.disk ≠ loc'.disk := by
  obtain ⟨hp, hn2, h215, hk1, hkn, hf0, hfk, -⟩ := new_geo hnew
  obtain ⟨S, z, hz0, hz, hd, hpar⟩ := disk_of hnew hstripe
  -- every chunk of the stripe has a position
  have pos : ∀ id loc, id ∈ stripeChunks (k - f) f a → id2loc w L id = some loc →
      ∃ b, 0 ≤ b ∧ b < k ∧ loc.disk = ((S * (k - f) + b) * (z + 1)) % n ∧
        id = (if b < k - f then .data (a + b) else .parity a (b - (k - f))) := by
    intro id loc hm hl
    rcases List.mem_append.mp hm with hm | hm
    · obtain ⟨i, hi, rfl⟩ := List.mem_map.mp hm
      rw [List.mem_range] at hi
      exact ⟨i, by omega, by omega, hd i loc (by omega) (by omega) hl, by rw [if_pos (by omega)]⟩
    · obtain ⟨j, hj, rfl⟩ := List.mem_map.mp hm
      rw [List.mem_range] at hj
      refine ⟨k - f + j, by omega, by omega, hpar j loc (by omega) (by omega) hl, ?_⟩
      rw [if_neg (by omega)]
      congr 1; ring
  obtain ⟨b, hb0, hbk, hb, e1⟩ := pos id loc hid hloc
  obtain ⟨b', hb0', hbk', hb', e2⟩ := pos id' loc' hid' hloc'
  intro he
  apply hne
  have hbb : b = b' := by
    obtain ⟨yi, -, -, -, hyi⟩ := inv_exists (a := z + 1) hp hn2 (by omega) (by omega)
    refine cancel hyi hb0 (by omega) hb0' (by omega) ?_
    rw [hb, hb'] at he
    obtain ⟨q, hq⟩ := emod_eq_ex he
    exact emod_congr q (by linear_combination hq)
  rw [e1, e2, hbb]

/-- In builds without overflow checks every chunk is placed, in any legal
geometry. -/
theorem C07_always_placed (n k f : Int) (L : PrimeS) (hnew : new true n k f = some L)
    (id : ChunkId) (hid : 0 ≤ id.address) : (id2loc true L id).isSome = true := by
  obtain ⟨hp, hn2, h215, hk1, hkn, hf0, hfk, eN, -⟩ := new_geo hnew
  unfold id2loc id2locInt
  obtain ⟨s, hs⟩ := i16_true (id.address % L.datachunks / L.m)
  simp only [hs, Option.bind_eq_bind, Option.bind_some]
  have hb : ∃ b, offsetWithinStripe true id (id.address % L.datachunks) s L.m = some b := by
    unfold offsetWithinStripe
    cases id with
    | parity => exact ⟨_, rfl⟩
    | data i =>
      obtain ⟨sm, hsm⟩ := i16_true (s * L.m)
      simp [hsm]
  obtain ⟨b, hb⟩ := hb
  have h1 := Int.emod_nonneg (id.address % L.datachunks / (L.m * L.n)) (show L.n - 1 ≠ 0 by omega)
  have h2 := Int.emod_lt_of_pos (id.address % L.datachunks / (L.m * L.n)) (show 0 < L.n - 1 by omega)
  obtain ⟨yi, hyi, -⟩ := inv_exists
    (a := id.address % L.datachunks / (L.m * L.n) % (L.n - 1) + 1) hp hn2 (by omega) (by omega)
  rw [← eN] at hyi
  simp only [hb, Option.bind_some, offsetWithinIteration, hyi, Option.isSome_some, Option.bind_eq_bind]

/-- The disk `id` is on is not among the `lost` ones. -/
def survives (w : Bool) (L : PrimeS) (lost : List Int) (id : ChunkId) : Bool :=
  match id2loc w L id with
  | some loc => !lost.contains loc.disk
  | none => false

theorem countP_ge {w : Bool} {L : PrimeS} (ids : List ChunkId) (hnd : ids.Nodup)
    (hsome : ∀ id ∈ ids, (id2loc w L id).isSome = true)
    (hinj : ∀ id ∈ ids, ∀ id' ∈ ids, id ≠ id' → ∀ loc loc', id2loc w L id = some loc →
      id2loc w L id' = some loc' → loc.disk ≠ loc'.disk) (lost : List Int) :
    ids.length ≤ ids.countP (survives w L lost) + lost.length := by
  induction ids generalizing lost with
  | nil => simp
  | cons a ids ih =>
    have hnd' := List.nodup_cons.mp hnd
    have ih' := ih hnd'.2 (fun id h => hsome id (List.mem_cons_of_mem _ h))
      (fun id h id' h' => hinj id (List.mem_cons_of_mem _ h) id' (List.mem_cons_of_mem _ h'))
    by_cases hs : survives w L lost a = true
    · have := ih' lost
      rw [List.countP_cons, if_pos hs, List.length_cons]
      omega
    · -- the lost disk holds none of the other chunks
      obtain ⟨loc, hloc⟩ := Option.isSome_iff_exists.mp (hsome a (List.mem_cons_self ..))
      have hmem : loc.disk ∈ lost := by
        unfold survives at hs
        rw [hloc] at hs
        simpa using hs
      have hlen := List.length_erase_of_mem hmem
      have hpos := List.length_pos_of_mem hmem
      have hsame : ids.countP (survives w L (lost.erase loc.disk)) ≤ ids.countP (survives w L lost) := by
        apply List.countP_mono_left
        intro id hid hsv
        obtain ⟨loc', hloc'⟩ := Option.isSome_iff_exists.mp (hsome id (List.mem_cons_of_mem _ hid))
        have hne : loc.disk ≠ loc'.disk := by
          refine hinj a (List.mem_cons_self ..) id (List.mem_cons_of_mem _ hid) ?_ loc loc' hloc hloc'
          rintro rfl
          exact hnd'.1 hid
        unfold survives at hsv ⊢
        rw [hloc'] at hsv ⊢
        simp only [Bool.not_eq_true', List.contains_eq_mem, decide_eq_false_iff_not] at hsv ⊢
        intro hc
        exact hsv ((List.mem_erase_of_ne (Ne.symm hne)).mpr hc)
      have := ih' (lost.erase loc.disk)
      rw [List.countP_cons, if_neg hs, List.length_cons]
      omega

theorem stripeChunks_nodup (m f a : Int) : (stripeChunks m f a).Nodup := by
  unfold stripeChunks
  rw [List.nodup_append]
  refine ⟨?_, ?_, ?_⟩
  · rw [List.Nodup, List.pairwise_map]
    refine List.Pairwise.imp ?_ (List.nodup_range (n := _))
    intro x y hne h
    injection h
    omega
  · rw [List.Nodup, List.pairwise_map]
    refine List.Pairwise.imp ?_ (List.nodup_range (n := _))
    intro x y hne h
    injection h
    omega
  · intro x hx y hy
    obtain ⟨i, -, rfl⟩ := List.mem_map.mp hx
    obtain ⟨j, -, rfl⟩ := List.mem_map.mp hy
    intro h
    cases h

/-- The `k` chunks of every stripe are on `k` distinct disks, so the loss of any
`f` disks leaves at least `m = k - f` chunks of every stripe. -/
theorem C07_survives_f_losses (n k f a : Int) (L : PrimeS) (hnew : new true n k f = some L)
    (ha : 0 ≤ a) (hstripe : a % (k - f) = 0) (lost : List Int) (hlost : (lost.length : Int) ≤ f) :
    ((stripeChunks (k - f) f a).length : Int) = k ∧
    k - f ≤ ((stripeChunks (k - f) f a).countP (survives true L lost) : Int) := by
  obtain ⟨hp, hn2, h215, hk1, hkn, hf0, hfk, -⟩ := new_geo hnew
  have hlen : ((stripeChunks (k - f) f a).length : Int) = k := by
    simp [stripeChunks]
    omega
  refine ⟨hlen, ?_⟩
  have := countP_ge (w := true) (L := L) (stripeChunks (k - f) f a) (stripeChunks_nodup _ _ _)
    (fun id hid => C07_always_placed n k f L hnew id (by
      rcases List.mem_append.mp hid with hm | hm
      · obtain ⟨i, -, rfl⟩ := List.mem_map.mp hm
        simp only [ChunkId.address]; omega
      · obtain ⟨i, -, rfl⟩ := List.mem_map.mp hm
        exact ha))
    (fun id h id' h' hne loc loc' hl hl' =>
      C07_distinct_disks true n k f a L hnew hstripe id id' h h' hne loc loc' hl hl') lost
  omega

example : (new true 7 5 2).isSome = true ∧ (42 : Int) % (5 - 2) = 0 ∧
    (([3, 6] : List Int).length : Int) ≤ 2 := by decide +kernel

end Verif.PrimeS
