import Verif.PrimeS.Count

/-! # Coordinates: repetition, iteration, stripe in the iteration, position in the stripe -/

namespace Verif.PrimeS

theorem emod_ex (a n : Int) : ∃ q, a % n = a - n * q :=
  ⟨a / n, by have := Int.emod_add_mul_ediv a n; linarith⟩

theorem emod_congr {a b n : Int} (q : Int) (h : a = b + n * q) : a % n = b % n := by
  rw [h, Int.add_mul_emod_self_left]

theorem emod_eq_ex {a b n : Int} (h : a % n = b % n) : ∃ q, a = b + n * q := by
  obtain ⟨q1, h1⟩ := emod_ex a n
  obtain ⟨q2, h2⟩ := emod_ex b n
  exact ⟨q1 - q2, by rw [h1, h2] at h; linarith [mul_sub n q1 q2]⟩

/-- What `new` guarantees. -/
structure Good (L : PrimeS) : Prop where
  prime : L.n.toNat.Prime
  n2 : 2 ≤ L.n
  n215 : L.n ≤ 215
  k1 : 1 < L.k
  kn : L.k ≤ L.n
  f0 : 0 < L.f
  fk : L.f < L.k
  m : L.m = L.k - L.f
  mInv0 : 0 ≤ L.mInv
  mInvn : L.mInv < L.n
  mInv : ∃ q, L.mInv * L.m = 1 + L.n * q
  stripes : L.stripes = L.n * (L.n - 1)
  datachunks : L.datachunks = L.n * (L.n - 1) * L.m
  depth : L.depth = L.k * (L.n - 1)

/-- The stripes of a repetition can be numbered with an `i16`; and, where
overflow panics, so can its chunks (`s * m`). -/
def Fits (w : Bool) (n m : Int) : Prop :=
  n * (n - 1) ≤ 32767 ∧ (w = false → (n * (n - 1) - 1) * m ≤ 32767)

theorem inv_exists {p a : Int} (hp : p.toNat.Prime) (h2 : 2 ≤ p) (h1 : 0 < a) (hlt : a < p) :
    ∃ x, invmod a p = some x ∧ 0 ≤ x ∧ x < p ∧ ∃ q, x * a = 1 + p * q := by
  obtain ⟨n, rfl⟩ := Int.eq_ofNat_of_zero_le (show 0 ≤ p by omega)
  obtain ⟨x, e, h3, h4, h5⟩ := invmod_spec h1 hlt (gcd_prime (by simpa using hp) h1 hlt)
  refine ⟨x, e, h3, h4, ?_⟩
  obtain ⟨q, hq⟩ := emod_ex (x * a) n
  exact ⟨q, by rw [h5] at hq; linarith⟩

theorem new_good {w : Bool} {n k f : Int} {L : PrimeS} (hfit : Fits w n (k - f))
    (h : new w n k f = some L) :
    Good L ∧ L.n = n ∧ L.k = k ∧ L.f = f := by
  unfold new at h
  split at h
  · rename_i hc
    obtain ⟨hp, h1, h2, h3, h4, h5⟩ := hc
    rw [isPrime_spec] at hp
    have hn2 : 2 ≤ n := by have := hp.2.two_le; omega
    obtain ⟨x, e, x0, x1, x2⟩ := inv_exists (a := k - f) hp.2 hn2 (by omega) (by omega)
    have hd : i16 w (k * (n - 1)) = some (k * (n - 1)) := by
      unfold i16
      rw [if_pos ⟨by nlinarith, by have := hfit.1; nlinarith⟩]
    simp only [hd, Option.bind_eq_bind, Option.bind_some, e, Option.some.injEq] at h
    have hmod : x % 256 = x := Int.emod_eq_of_lt x0 (by omega)
    rw [hmod] at h
    subst h
    exact ⟨⟨hp.2, hn2, h1, h2, h3, h4, h5, rfl, x0, x1, x2, rfl, rfl, rfl⟩, rfl, rfl, rfl⟩
  · cases h

variable {L : PrimeS}

theorem Good.mpos (g : Good L) : 0 < L.m := by have := g.m; have := g.fk; omega
theorem Good.mlt (g : Good L) : L.m < L.n := by
  have := g.m; have := g.f0; have := g.kn; omega

/-- Cancelling a unit modulo `n`. -/
theorem cancel {n c ci x y : Int} (hi : ∃ q, ci * c = 1 + n * q) (hx0 : 0 ≤ x) (hxn : x < n)
    (hy0 : 0 ≤ y) (hyn : y < n) (h : (x * c) % n = (y * c) % n) : x = y := by
  obtain ⟨q, hq⟩ := hi
  obtain ⟨r, hr⟩ := emod_eq_ex h
  have : x % n = y % n := by
    refine emod_congr (r * ci - q * (x - y)) ?_
    linear_combination (ci) * hr - (x - y) * hq
  rwa [Int.emod_eq_of_lt hx0 hxn, Int.emod_eq_of_lt hy0 hyn] at this

/-- The position in the stripe is an injective function of the stripe. -/
theorem Good.inj (g : Good L) (e : Int) : ∀ x y : Int, 0 ≤ x → x < L.n → 0 ≤ y → y < L.n →
    (e - x * L.m) % L.n = (e - y * L.m) % L.n → x = y := by
  intro x y hx0 hxn hy0 hyn h
  refine cancel g.mInv hx0 hxn hy0 hyn ?_
  obtain ⟨q, hq⟩ := emod_eq_ex h
  exact emod_congr (-q) (by linear_combination -hq)

theorem foldl_count (p : Nat → Prop) [DecidablePred p] (f : Nat) (a : Int) :
    (List.range f).foldl (fun acc (j : Nat) => (if p j then 1 else 0) + acc) a =
      a + ((List.range f).map (fun j => if p j then (1 : Int) else 0)).sum := by
  induction f with
  | zero => simp
  | succ f ih =>
    rw [List.range_succ, List.foldl_append, List.map_append, List.sum_append, ih]
    simp only [List.foldl_cons, List.foldl_nil, List.map_cons, List.map_nil, List.sum_cons,
      List.sum_nil]
    ring

theorem sum_map_cast (l : List Nat) (f : Nat → Nat) :
    ((l.map f).sum : Int) = (l.map (fun j => (f j : Int))).sum := by
  induction l with
  | nil => rfl
  | cons a l ih => simp [ih]

/-- The offset inside an iteration counts the earlier stripes on the disk. -/
theorem offset_spec (g : Good L) {x z b r a : Int} {s : Nat} (hs : (s : Int) = x)
    (hx : x < L.n) (hz0 : 0 ≤ z) (hz : z < L.n - 1) (hb0 : 0 ≤ b) (hb : b < L.k) :
    offsetWithinIteration L ⟨a, r, z * L.n + x, z + 1, z⟩ b
      ((((z * L.n + x) * L.m + b) * (z + 1)) % L.n) =
      some (L.k * z + cnt L.n L.m L.k ((x * L.m + b) % L.n) s) := by
  have hn := g.n2
  have hkn := g.kn
  have hmp := g.mpos
  have hmn := g.mlt
  have hx0 : 0 ≤ x := by omega
  obtain ⟨yi, ey, yi0, yin, q, hq⟩ := inv_exists (a := z + 1) g.prime hn (by omega) (by omega)
  unfold offsetWithinIteration
  simp only [ey, Option.bind_eq_bind, Option.bind_some, Option.some.injEq]
  generalize hD : (((z * L.n + x) * L.m + b) * (z + 1)) % L.n = D
  generalize he : (x * L.m + b) % L.n = e
  have he0 : 0 ≤ e := by rw [← he]; exact Int.emod_nonneg _ (by omega)
  have hen : e < L.n := by rw [← he]; exact Int.emod_lt_of_pos _ (by omega)
  -- the residue of the disk
  have hDe : ∃ t, D * yi = e + L.n * t := by
    obtain ⟨t1, h1⟩ := emod_ex (((z * L.n + x) * L.m + b) * (z + 1)) L.n
    obtain ⟨t2, h2⟩ := emod_ex (x * L.m + b) L.n
    rw [hD] at h1
    rw [he] at h2
    refine ⟨((z * L.n + x) * L.m + b) * q + z * L.m - t1 * yi + t2, ?_⟩
    linear_combination yi * h1 - h2 + ((z * L.n + x) * L.m + b) * hq
  have hsn : (z * L.n + x) % L.n = x := by
    rw [Int.add_comm, Int.add_mul_emod_self_right]; exact Int.emod_eq_of_lt hx0 hx
  -- o0
  have ho0 : ((z * L.n + x) * L.m + b).tdiv L.n = z * L.m + cnt L.n L.m L.m e s := by
    rw [Int.tdiv_eq_ediv_of_nonneg (by positivity)]
    have : (z * L.n + x) * L.m + b = ((s : Int) * L.m + b) + L.n * (z * L.m) := by rw [hs]; ring
    rw [this, Int.add_mul_ediv_left _ _ (by omega),
      ediv_eq_cnt hmp (by omega) he0 hen hb0 (by omega) (by rw [hs]; exact he)]
    ring
  -- o2
  have ho2 : ((List.range L.f.toNat).map (fun (j : Nat) =>
      if (z * L.n + x) % L.n > cbStripe L D yi j then (1 : Int) else 0)).sum =
      (((List.range L.f.toNat).map (fun j : Nat => cntEq L.n L.m (L.m + j) e s)).sum : Nat) := by
    rw [sum_map_cast]
    congr 1
    apply List.map_congr_left
    intro j hj
    rw [List.mem_range] at hj
    rw [hsn, ← hs]
    rw [cntEq_unique (cb := cbStripe L D yi j) ?_ ?_ ?_ (g.inj e) s (by omega)]
    · obtain ⟨t, ht⟩ := hDe
      obtain ⟨mq, hmq⟩ := g.mInv
      obtain ⟨t1, h1⟩ := emod_ex ((D * yi - j) * L.mInv - 1) L.n
      have hcb : cbStripe L D yi j = (D * yi - j) * L.mInv - 1 - L.n * t1 := h1
      have hrange : L.m + (j : Int) = (L.m + j) % L.n := by
        rw [Int.emod_eq_of_lt (by omega)]
        have := g.m; omega
      rw [hrange]
      refine emod_congr (-t - (D * yi - j) * mq + t1 * L.m) ?_
      rw [hcb]
      linear_combination -ht - (D * yi - j) * hmq
    · exact Int.emod_nonneg _ (by omega)
    · exact Int.emod_lt_of_pos _ (by omega)
  rw [foldl_count, ho2, ho0, Int.zero_add]
  have hf : L.k = L.m + (L.f.toNat : Int) := by
    have := g.m; have := g.f0; omega
  have hsplit := cnt_split (n := L.n) (m := L.m) (e := e) s L.f.toNat
  rw [← hf] at hsplit
  rw [hsplit]
  push_cast
  have : L.f = L.k - L.m := by have := g.m; omega
  rw [this]
  ring

/-- A chunk, by its coordinates. -/
def mkId (L : PrimeS) (r s b : Int) : ChunkId :=
  if b < L.m then .data (r * L.datachunks + s * L.m + b)
  else .parity (r * L.datachunks + s * L.m) (b - L.m)

theorem stripe_lt {n z x : Int} (hz : z < n - 1) (hx : x < n) (hn : 2 ≤ n) :
    z * n + x < n * (n - 1) := by
  nlinarith

theorem id2loc_mkId {w : Bool} (g : Good L) (hfit : Fits w L.n L.m) {x z b r : Int} {s : Nat} (hs : (s : Int) = x)
    (hx : x < L.n) (hz0 : 0 ≤ z) (hz : z < L.n - 1) (hb0 : 0 ≤ b) (hb : b < L.k) :
    id2loc w L (mkId L r (z * L.n + x) b) =
      some ⟨((x * L.m + b) * (z + 1)) % L.n,
        r * L.depth + L.k * z + cnt L.n L.m L.k ((x * L.m + b) % L.n) s⟩ := by
  have hn := g.n2
  have hmp := g.mpos
  have hmn := g.mlt
  have hkn := g.kn
  have h215 := g.n215
  have hx0 : 0 ≤ x := by omega
  have hS0 : 0 ≤ z * L.n + x := by nlinarith
  have hS := stripe_lt hz hx hn
  generalize hSe : z * L.n + x = S at *
  have hSm : w = false → S * L.m ≤ 32767 := by
    intro hw
    have := hfit.2 hw
    nlinarith
  have hSm0 : 0 ≤ S * L.m := by positivity
  have hS16 : S ≤ 32767 := by have := hfit.1; omega
  -- the address within the repetition
  have key : ∀ c, 0 ≤ c → c < L.m →
      (r * L.datachunks + S * L.m + c) % L.datachunks = S * L.m + c ∧
      (r * L.datachunks + S * L.m + c) / L.datachunks = r ∧
      (S * L.m + c) / (L.m * L.n) = z ∧ (S * L.m + c) / L.m = S := by
    intro c hc0 hc
    have hlt : S * L.m + c < L.datachunks := by
      rw [g.datachunks]; nlinarith
    have hre : r * L.datachunks + S * L.m + c = (S * L.m + c) + L.datachunks * r := by ring
    refine ⟨?_, ?_, ?_, ?_⟩
    · rw [hre, Int.add_mul_emod_self_left]; exact Int.emod_eq_of_lt (by omega) hlt
    · rw [hre, Int.add_mul_ediv_left _ _ (by omega),
        Int.ediv_eq_zero_of_lt (a := S * L.m + c) (b := L.datachunks) (by omega) hlt]; simp
    · have : S * L.m + c = (x * L.m + c) + (L.m * L.n) * z := by rw [← hSe]; ring
      rw [this, Int.add_mul_ediv_left _ _ (by nlinarith),
        Int.ediv_eq_zero_of_lt (a := x * L.m + c) (b := L.m * L.n) (by nlinarith) (by nlinarith)]
      simp
    · rw [Int.add_comm, Int.add_mul_ediv_right _ _ (by omega),
        Int.ediv_eq_zero_of_lt (a := c) (b := L.m) (by omega) (by omega)]; simp
  have hy : z % (L.n - 1) + 1 = z + 1 := by rw [Int.emod_eq_of_lt hz0 hz]
  have h16 : i16 w S = some S := by unfold i16; rw [if_pos ⟨by omega, by omega⟩]
  -- a wrapped product is off by a multiple of 65536, which the cast to `u8` removes
  have h16m : ∃ sm q, i16 w (S * L.m) = some sm ∧ sm = S * L.m + 65536 * q := by
    unfold i16
    by_cases hr : -32768 ≤ S * L.m ∧ S * L.m ≤ 32767
    · rw [if_pos hr]; exact ⟨_, 0, rfl, by ring⟩
    · rw [if_neg hr]
      cases w with
      | false => exact absurd (hSm rfl) (by omega)
      | true =>
        refine ⟨_, ((S * L.m).bmod 65536 - S * L.m) / 65536, rfl, ?_⟩
        have h1 : (S * L.m).bmod 65536 % 65536 = (S * L.m) % 65536 := Int.bmod_emod
        omega
  have hoff := fun a => offset_spec g hs hx hz0 hz hb0 hb (r := r) (a := a)
  simp only [hSe] at hoff
  have hdisk : ((S * L.m + b) * (z + 1)) % L.n = ((x * L.m + b) * (z + 1)) % L.n :=
    emod_congr (z * L.m * (z + 1)) (by rw [← hSe]; ring)
  simp only [hdisk] at hoff
  have hu : toU64 (L.k * z + cnt L.n L.m L.k ((x * L.m + b) % L.n) s) =
      L.k * z + cnt L.n L.m L.k ((x * L.m + b) % L.n) s := by
    have h1 : cnt L.n L.m L.k ((x * L.m + b) % L.n) s ≤ s := by
      unfold cnt
      exact le_trans (List.length_filter_le _ _) (by simp)
    have h2 : L.k * z ≤ L.n * (L.n - 1) := by
      have := g.kn
      have := g.k1
      apply Int.mul_le_mul <;> omega
    have h3 : 0 ≤ L.k * z := by
      have := g.k1
      positivity
    have h4 := hfit.1
    have h5 := hfit.1
    have h6 : L.n ≤ 32768 := by nlinarith [g.n2]
    unfold toU64
    apply Int.emod_eq_of_lt <;> omega
  unfold mkId
  by_cases hbm : b < L.m
  · rw [if_pos hbm]
    obtain ⟨k1, k2, k3, k4⟩ := key b hb0 hbm
    obtain ⟨sm, q, h16m, hsm⟩ := h16m
    have hb8 : (S * L.m + b - sm) % 256 = b := by
      rw [hsm]; omega
    simp only [id2loc, id2locInt, ChunkId.address, k1, k2, k3, k4, h16, hy, offsetWithinStripe, h16m,
      Option.bind_eq_bind, Option.bind_some, hb8, hdisk, hoff, hu]
    congr 2; ring
  · rw [if_neg hbm]
    obtain ⟨k1, k2, k3, k4⟩ := key 0 (le_refl _) hmp
    simp only [Int.add_zero] at k1 k2 k3 k4
    have hb8 : (L.m + (b - L.m)) % 256 = b := by
      rw [show L.m + (b - L.m) = b by ring]; exact Int.emod_eq_of_lt hb0 (by omega)
    simp only [id2loc, id2locInt, ChunkId.address, k1, k2, k3, k4, h16, hy, offsetWithinStripe,
      Option.bind_eq_bind, Option.bind_some, hb8, hdisk, hoff, hu]
    congr 2; ring

/-! ## The inverse direction -/

/-- Membership of the bit set: the stripe's position on the disk is below `k`. -/
theorem stripesOnDisk_eq (g : Good L) {disk yi e : Int}
    (hde : ∃ t, disk * yi = e + L.n * t) :
    stripesOnDisk L disk yi =
      (List.range L.n.toNat).filter (fun x : Nat => (e - x * L.m) % L.n < L.k) := by
  have hn := g.n2
  unfold stripesOnDisk
  apply List.filter_congr
  intro x hx
  rw [List.mem_range] at hx
  rw [Bool.eq_iff_iff]
  simp only [List.contains_iff_mem, List.mem_map, List.mem_range, decide_eq_true_eq]
  obtain ⟨t, ht⟩ := hde
  obtain ⟨mq, hmq⟩ := g.mInv
  constructor
  · rintro ⟨i, hi, hix⟩
    have : (e - x * L.m) % L.n = i := by
      obtain ⟨t1, h1⟩ := emod_ex ((disk * yi - i) * L.mInv) L.n
      rw [hix] at h1
      have hi' : (i : Int) = i % L.n := by
        rw [Int.emod_eq_of_lt (by omega)]; have := g.kn; omega
      rw [hi']
      refine emod_congr (-t - (disk * yi - i) * mq + t1 * L.m) ?_
      rw [h1]
      linear_combination -ht - (disk * yi - i) * hmq
    omega
  · intro h
    have h0 := Int.emod_nonneg (e - x * L.m) (show L.n ≠ 0 by omega)
    refine ⟨((e - x * L.m) % L.n).toNat, by omega, ?_⟩
    rw [Int.toNat_of_nonneg h0]
    obtain ⟨t2, h2⟩ := emod_ex (e - x * L.m) L.n
    have hx' : (x : Int) = x % L.n := by
      rw [Int.emod_eq_of_lt (by omega) (by omega)]
    rw [h2]
    conv_rhs => rw [hx']
    refine emod_congr (t * L.mInv + x * mq + t2 * L.mInv) ?_
    rw [ht]
    linear_combination (x : Int) * hmq

/-- The disk appears in exactly `k` stripes of an iteration. -/
theorem cnt_full (g : Good L) {e : Int} (he0 : 0 ≤ e) (hen : e < L.n) :
    (cnt L.n L.m L.k e L.n.toNat : Int) = L.k := by
  have hn := g.n2
  have hmp := g.mpos
  have hmn := g.mlt
  have hf : L.k = L.m + (L.f.toNat : Int) := by
    have := g.m; have := g.f0; omega
  have hsplit := cnt_split (n := L.n) (m := L.m) (e := e) L.n.toNat L.f.toNat
  rw [← hf] at hsplit
  rw [hsplit]
  push_cast
  rw [cnt_data hmp (by omega) he0 hen]
  have h1 : ((L.n.toNat : Int) * L.m + L.n - 1 - e) / L.n = L.m := by
    have : (L.n.toNat : Int) * L.m + L.n - 1 - e = (L.n - 1 - e) + L.n * L.m := by
      rw [Int.toNat_of_nonneg (by omega)]; ring
    rw [this, Int.add_mul_ediv_left _ _ (by omega),
      Int.ediv_eq_zero_of_lt (a := L.n - 1 - e) (b := L.n) (by omega) (by omega)]; simp
  rw [h1]
  have h2 : (((List.range L.f.toNat).map (fun j : Nat => cntEq L.n L.m (L.m + j) e L.n.toNat)).sum : Nat) =
      L.f.toNat := by
    have : ∀ j ∈ List.range L.f.toNat, cntEq L.n L.m (L.m + j) e L.n.toNat = 1 := by
      intro j hj
      rw [List.mem_range] at hj
      obtain ⟨mq, hmq⟩ := g.mInv
      obtain ⟨t1, h1⟩ := emod_ex ((e - (L.m + j)) * L.mInv) L.n
      have := cntEq_unique (n := L.n) (m := L.m) (c := L.m + j) (e := e)
        (cb := ((e - (L.m + j)) * L.mInv) % L.n) ?_ (Int.emod_nonneg _ (by omega))
        (Int.emod_lt_of_pos _ (by omega)) (g.inj e) L.n.toNat (by omega)
      · rw [if_pos] at this
        · omega
        · rw [Int.toNat_of_nonneg (by omega)]; exact Int.emod_lt_of_pos _ (by omega)
      · have hr : L.m + (j : Int) = (L.m + j) % L.n := by
          rw [Int.emod_eq_of_lt (by omega)]; have := g.m; have := g.kn; omega
        conv_rhs => rw [hr]
        refine emod_congr (- (e - (L.m + j)) * mq + t1 * L.m) ?_
        rw [h1]
        linear_combination -(e - (L.m + j)) * hmq
    rw [List.map_congr_left (g := fun _ => 1) this]
    generalize L.f.toNat = N
    induction N with
    | zero => rfl
    | succ N ih => rw [List.range_succ, List.map_append, List.sum_append, ih]; rfl
  have h3 := sum_map_cast (List.range L.f.toNat) (fun j => cntEq L.n L.m (L.m + j) e L.n.toNat)
  rw [h2] at h3
  omega

theorem loc2id_spec {w : Bool} (g : Good L) (hfit : Fits w L.n L.m) {D yi e x z r : Int} {s : Nat} (hs : (s : Int) = x)
    (hx : x < L.n) (hz0 : 0 ≤ z) (hz : z < L.n - 1)
    (hyi : invmod (z + 1) L.n = some yi) (he0 : 0 ≤ e) (hen : e < L.n)
    (hde : ∃ t, D * yi = e + L.n * t) (hmem : (e - x * L.m) % L.n < L.k) :
    loc2id w L ⟨D, r * L.depth + L.k * z + cnt L.n L.m L.k e s⟩ =
      some (mkId L r (z * L.n + x) ((e - x * L.m) % L.n)) := by
  have hn := g.n2
  have hmp := g.mpos
  have hk := g.k1
  have hx0 : 0 ≤ x := by omega
  have hS0 : 0 ≤ z * L.n + x := by nlinarith
  have hS := stripe_lt hz hx hn
  have hS16 : z * L.n + x ≤ 32767 := by have := hfit.1; omega
  -- the offset inside the iteration is below `k`
  have hget := filter_range_get_of (p := fun x : Nat => decide ((e - x * L.m) % L.n < L.k))
    (N := L.n.toNat) (s := s) (by simpa [hs] using hmem) (by omega)
  have hclt : (cnt L.n L.m L.k e s : Int) < L.k := by
    have h1 := (List.getElem?_eq_some_iff.mp hget).1
    have h2 := cnt_full g he0 hen
    unfold cnt at h2 ⊢
    omega
  generalize hc : cnt L.n L.m L.k e s = c at *
  have hzk : L.k * z + c < L.depth := by
    rw [g.depth]; nlinarith
  have hzk0 : 0 ≤ L.k * z + c := by positivity
  have hre : r * L.depth + L.k * z + c = (L.k * z + c) + L.depth * r := by ring
  have e1 : (r * L.depth + L.k * z + c) / L.depth = r := by
    rw [hre, Int.add_mul_ediv_left _ _ (by omega),
      Int.ediv_eq_zero_of_lt (a := L.k * z + c) (b := L.depth) hzk0 hzk]; simp
  have e2 : (r * L.depth + L.k * z + c) % L.depth = L.k * z + c := by
    rw [hre, Int.add_mul_emod_self_left]; exact Int.emod_eq_of_lt hzk0 hzk
  have e3 : (L.k * z + c) / L.k = z := by
    rw [show L.k * z + (c : Int) = c + L.k * z by ring, Int.add_mul_ediv_left _ _ (by omega),
      Int.ediv_eq_zero_of_lt (a := (c : Int)) (b := L.k) (by omega) hclt]; simp
  have e4 : z % (L.n - 1) + 1 = z + 1 := by rw [Int.emod_eq_of_lt hz0 hz]
  have e5 : (L.k * z + c - L.k * z).toNat = c := by
    rw [show L.k * z + (c : Int) - L.k * z = c by ring]; simp
  have e6 : (stripesOnDisk L D yi)[c]? = some s := by
    rw [stripesOnDisk_eq g hde, ← hc]; exact hget
  have e7 : i16 w (L.n * z) = some (L.n * z) := by
    unfold i16; rw [if_pos ⟨by nlinarith, by nlinarith⟩]
  have e8 : i16 w ((s : Int) + L.n * z) = some (z * L.n + x) := by
    unfold i16; rw [hs, if_pos ⟨by nlinarith, by nlinarith⟩]; congr 1; ring
  have e9 : (D * yi - (z * L.n + x) * L.m) % L.n = (e - x * L.m) % L.n := by
    obtain ⟨t, ht⟩ := hde
    exact emod_congr (t - z * L.m) (by rw [ht]; ring)
  unfold loc2id
  simp only [e1, e2, e3, e4, hyi, e5, e6, e7, e8, e9, Option.bind_eq_bind, Option.bind_some]
  unfold mkId
  by_cases hb : (e - x * L.m) % L.n < L.m
  · rw [if_neg (by omega), if_pos hb]
  · rw [if_pos (by omega), if_neg hb]

end Verif.PrimeS
