import Verif.Codec.Spec
import Mathlib.LinearAlgebra.Lagrange
import Mathlib.LinearAlgebra.Matrix.ToLinearEquiv
import Mathlib.LinearAlgebra.Matrix.NonsingularInverse

/-!
# The erasure codec: lemmas
-/

namespace Verif.Codec

open GF

/-! ### Which rows are selected -/

/-- The columns from `r` up that are not erased. -/
def aliveFrom (er : Nat → Bool) (m r : Nat) : List Nat :=
  (List.range' r (m - r)).filter fun i => !er i

theorem aliveFrom_step (er : Nat → Bool) {m r : Nat} (h : r < m) :
    aliveFrom er m r = if er r then aliveFrom er m (r + 1) else r :: aliveFrom er m (r + 1) := by
  unfold aliveFrom
  rw [show m - r = (m - (r + 1)) + 1 by omega, List.range'_succ, List.filter_cons]
  cases er r <;> simp

theorem skipErased_spec (er : Nat → Bool) (m r : Nat) (h : aliveFrom er m r ≠ []) :
    r ≤ skipErased er m r ∧
    aliveFrom er m r = skipErased er m r :: aliveFrom er m (skipErased er m r + 1) := by
  fun_induction skipErased er m r with
  | case1 r hr he ih =>
    rw [aliveFrom_step er hr, if_pos he] at h ⊢
    obtain ⟨h1, h2⟩ := ih h
    exact ⟨by omega, h2⟩
  | case2 r hr he =>
    rw [aliveFrom_step er hr, if_neg he]
    exact ⟨Nat.le_refl _, rfl⟩
  | case3 r hr =>
    unfold aliveFrom at h
    rw [show m - r = 0 by omega] at h
    simp at h

theorem selRows_eq (er : Nat → Bool) (m n i s : Nat) (h : n ≤ (aliveFrom er m (i + s)).length) :
    selRows er m n i s = (aliveFrom er m (i + s)).take n := by
  induction n generalizing i s with
  | zero => simp [selRows]
  | succ n ih =>
    have hne : aliveFrom er m (i + s) ≠ [] := by
      intro he
      rw [he] at h
      simp at h
    obtain ⟨h1, h2⟩ := skipErased_spec er m (i + s) hne
    simp only [selRows]
    generalize hrow : skipErased er m (i + s) = row at *
    have e : i + 1 + (row - i) = row + 1 := by omega
    have hlen : n ≤ (aliveFrom er m (row + 1)).length := by
      rw [h2] at h
      simpa using h
    have := ih (i + 1) (row - i) (by rw [e]; exact hlen)
    rw [this, e, h2, List.take_succ_cons]

theorem filter_not_length (er : Nat → Bool) (l : List Nat) :
    (l.filter fun i => !er i).length + (l.filter er).length = l.length := by
  induction l with
  | nil => rfl
  | cons a l ih =>
    rw [List.filter_cons, List.filter_cons]
    cases er a <;> simp <;> omega

theorem selRows_survivors {er : Nat → Bool} {k f : Nat} (h : erasedCount er (k + f) ≤ f) :
    selRows er (k + f) k 0 0 = survivors er k f := by
  have h1 := filter_not_length er (List.range (k + f))
  have h2 : aliveFrom er (k + f) (0 + 0) = (List.range (k + f)).filter fun i => !er i := by
    unfold aliveFrom
    rw [List.range_eq_range']
    simp
  rw [selRows_eq]
  · rw [h2]; rfl
  · rw [h2]
    unfold erasedCount at h
    simp only [List.length_range] at h1
    omega

theorem survivors_length {er : Nat → Bool} {k f : Nat} (h : erasedCount er (k + f) ≤ f) :
    (survivors er k f).length = k := by
  have h1 := filter_not_length er (List.range (k + f))
  unfold survivors erasedCount at *
  rw [List.length_take]
  simp only [List.length_range] at h1
  omega

theorem survivors_split (er : Nat → Bool) (k f : Nat) :
    survivors er k f = ((List.range k).filter fun i => !er i) ++
      ((List.range' k f).filter fun i => !er i).take (lostData er k).length := by
  unfold survivors
  have hr : List.range (k + f) = List.range k ++ List.range' k f := by
    rw [List.range_eq_range', List.range_eq_range', ← List.range'_append_1]
    simp
  have hl := filter_not_length er (List.range k)
  rw [List.length_range] at hl
  rw [hr, List.filter_append, List.take_append]
  congr 1
  · rw [List.take_of_length_le]
    omega
  · congr 1
    unfold lostData
    omega

theorem survivors_nodup (er : Nat → Bool) (k f : Nat) : (survivors er k f).Nodup :=
  ((List.nodup_range).filter _).sublist (List.take_sublist _ _)

theorem mem_survivors_lt {er : Nat → Bool} {k f i : Nat} (h : i ∈ survivors er k f) :
    i < k + f ∧ er i = false := by
  have := List.mem_filter.mp (List.mem_of_mem_take h)
  exact ⟨List.mem_range.mp this.1, by simpa using this.2⟩

/-! ### Cauchy matrices -/

open Polynomial in
/-- The kernel of a Cauchy matrix with at least as many rows as columns is zero. -/
theorem cauchy_ker {F : Type} [Field F] [DecidableEq F] (U T : Finset F) (hc : U.card ≤ T.card)
    (hd : ∀ x ∈ T, x ∉ U) (v : F → F)
    (h : ∀ x ∈ T, ∑ y ∈ U, (x - y)⁻¹ * v y = 0) : ∀ y ∈ U, v y = 0 := by
  intro y0 hy0
  let P : F[X] := ∑ y ∈ U, C (v y) * ∏ z ∈ U.erase y, (X - C z)
  have heval : ∀ x, P.eval x = ∑ y ∈ U, v y * ∏ z ∈ U.erase y, (x - z) := by
    intro x
    simp [P, eval_finsetSum, eval_prod]
  have hcard : 0 < U.card := Finset.card_pos.mpr ⟨y0, hy0⟩
  have hdeg : P.degree < (U.card : WithBot ℕ) := by
    apply lt_of_le_of_lt (degree_sum_le _ _)
    rw [Finset.sup_lt_iff (by exact_mod_cast WithBot.bot_lt_coe _)]
    intro y hy
    have hle : (C (v y) * ∏ z ∈ U.erase y, (X - C z)).degree ≤ (∏ z ∈ U.erase y, (X - C z)).degree := by
      refine le_trans (degree_mul_le _ _) ?_
      refine le_trans (add_le_add degree_C_le le_rfl) ?_
      rw [zero_add]
    apply lt_of_le_of_lt hle
    rw [degree_prod]
    simp only [degree_X_sub_C, Finset.sum_const, Finset.card_erase_of_mem hy]
    simp only [nsmul_eq_mul, mul_one]
    exact_mod_cast (by omega : U.card - 1 < U.card)
  have hP : P = 0 := by
    apply eq_zero_of_degree_lt_of_eval_finset_eq_zero T
    · apply lt_of_lt_of_le hdeg
      exact_mod_cast hc
    · intro x hx
      rw [heval]
      have : ∑ y ∈ U, v y * ∏ z ∈ U.erase y, (x - z) =
          (∏ z ∈ U, (x - z)) * ∑ y ∈ U, (x - y)⁻¹ * v y := by
        rw [Finset.mul_sum]
        apply Finset.sum_congr rfl
        intro y hy
        have hne : x - y ≠ 0 := by
          intro he
          exact hd x hx (sub_eq_zero.mp he ▸ hy)
        rw [← Finset.mul_prod_erase U _ hy]
        field_simp
      rw [this, h x hx, mul_zero]
  have := heval y0
  rw [hP, eval_zero] at this
  rw [Finset.sum_eq_single y0] at this
  · have hprod : ∏ z ∈ U.erase y0, (y0 - z) ≠ 0 := by
      rw [Finset.prod_ne_zero_iff]
      intro z hz he
      exact (Finset.ne_of_mem_erase hz) (sub_eq_zero.mp he).symm
    rcases mul_eq_zero.mp this.symm with h1 | h1
    · exact h1
    · exact absurd h1 hprod
  · intro y hy hne
    have : ∏ z ∈ U.erase y, (y0 - z) = 0 := by
      apply Finset.prod_eq_zero (Finset.mem_erase.mpr ⟨Ne.symm hne, hy0⟩)
      exact sub_self _
    rw [this, mul_zero]
  · intro hn
    exact absurd hy0 hn

/-- A square matrix with trivial kernel has a left inverse. -/
theorem leftInv_of_ker {k : Nat} {m : Mat}
    (h : ∀ v : Nat → GF, (∀ i < k, ∑ j ∈ Finset.range k, m i j * v j = 0) → ∀ j < k, v j = 0) :
    ∃ d, LeftInv k d m := by
  let M : Matrix (Fin k) (Fin k) GF := fun i j => m i j
  have hdet : M.det ≠ 0 := by
    intro h0
    obtain ⟨v, hv, hM⟩ := Matrix.exists_mulVec_eq_zero_iff.mpr h0
    apply hv
    funext j
    have := h (fun j => if hj : j < k then v ⟨j, hj⟩ else 0) ?_ j j.isLt
    · simpa using this
    · intro i hi
      have hi' := congrFun hM ⟨i, hi⟩
      simp only [Matrix.mulVec, dotProduct, Pi.zero_apply] at hi'
      rw [Finset.sum_range]
      rw [← hi']
      apply Finset.sum_congr rfl
      intro j _
      simp [M]
  refine ⟨fun i l => if hi : i < k then if hl : l < k then M⁻¹ ⟨i, hi⟩ ⟨l, hl⟩ else 0 else 0, ?_⟩
  intro i hi j hj
  have hinv : M⁻¹ * M = 1 := Matrix.nonsing_inv_mul _ (isUnit_iff_ne_zero.mpr hdet)
  have := congrFun (congrFun hinv ⟨i, hi⟩) ⟨j, hj⟩
  rw [Matrix.mul_apply, Matrix.one_apply] at this
  rw [Finset.sum_range]
  simp only [Fin.mk.injEq] at this
  rw [← this]
  apply Finset.sum_congr rfl
  intro l _
  simp [hi, M]

/-- The rows of the encoding matrix that belong to the lowest `k` surviving columns have
trivial kernel. -/
theorem sel_ker {er : Nat → Bool} {k f : Nat} (hkf : k + f ≤ 256)
    (h : erasedCount er (k + f) ≤ f) (v : Nat → GF)
    (hv : ∀ r ∈ survivors er k f, ∑ j ∈ Finset.range k, encMatrix k f r j * v j = 0) :
    ∀ j < k, v j = 0 := by
  -- surviving data columns
  have hdata : ∀ j < k, er j = false → v j = 0 := by
    intro j hj he
    have hm : j ∈ survivors er k f := by
      rw [survivors_split]
      apply List.mem_append_left
      rw [List.mem_filter]
      exact ⟨List.mem_range.mpr hj, by simp [he]⟩
    have := hv j hm
    rw [Finset.sum_eq_single j] at this
    · simpa [encMatrix, hj] using this
    · intro b _ hb
      simp [encMatrix, hj, Ne.symm hb]
    · intro hn
      exact absurd (Finset.mem_range.mpr hj) hn
  have hrest : ∀ r ∈ survivors er k f, k ≤ r →
      ∑ j ∈ (lostData er k).toFinset, encMatrix k f r j * v j = 0 := by
    intro r hr hkr
    rw [← hv r hr]
    apply Finset.sum_subset
    · intro j hj
      rw [List.mem_toFinset] at hj
      exact Finset.mem_range.mpr (List.mem_range.mp (List.mem_filter.mp hj).1)
    · intro j hj hn
      rw [Finset.mem_range] at hj
      have : er j = false := by
        cases he : er j with
        | false => rfl
        | true => exact absurd (List.mem_toFinset.mpr (List.mem_filter.mpr ⟨List.mem_range.mpr hj, he⟩)) hn
      rw [hdata j hj this, mul_zero]
  -- the parity rows in use
  let par := ((List.range' k f).filter fun i => !er i).take (lostData er k).length
  have hpar : ∀ r ∈ par, r ∈ survivors er k f ∧ k ≤ r ∧ r < k + f := by
    intro r hr
    refine ⟨by rw [survivors_split]; exact List.mem_append_right _ hr, ?_⟩
    have := List.mem_range'_1.mp (List.mem_filter.mp (List.mem_of_mem_take hr)).1
    omega
  have hparlen : par.length = (lostData er k).length := by
    have h1 := survivors_length h
    rw [survivors_split, List.length_append] at h1
    have h2 := filter_not_length er (List.range k)
    rw [List.length_range] at h2
    show (List.take _ _).length = _
    unfold lostData at *
    omega
  have hparnd : par.Nodup :=
    ((List.nodup_range' (s := k) (n := f)).filter _).sublist (List.take_sublist _ _)
  intro j hj
  cases hej : er j with
  | false => exact hdata j hj hej
  | true =>
    have hjl : j ∈ lostData er k := List.mem_filter.mpr ⟨List.mem_range.mpr hj, hej⟩
    by_cases hf1 : f = 1
    · -- one parity column: exactly one data column is lost
      have hlen1 : (lostData er k).length ≤ 1 := by
        rw [← hparlen]
        show (List.take _ _).length ≤ 1
        rw [List.length_take]
        have := List.length_filter_le (fun i => !er i) (List.range' k f)
        rw [List.length_range', hf1] at this
        rw [hf1]
        omega
      obtain ⟨a, ha⟩ : ∃ a, lostData er k = [a] := by
        cases hl : lostData er k with
        | nil => rw [hl] at hjl; simp at hjl
        | cons a t =>
          rw [hl] at hlen1
          have : t = [] := List.length_eq_zero_iff.mp (by simpa using hlen1)
          exact ⟨a, by rw [this]⟩
      rw [ha] at hjl
      have hja : j = a := by simpa using hjl
      obtain ⟨r, hr⟩ : ∃ r, r ∈ par := by
        rw [ha] at hparlen
        exact List.exists_mem_of_length_pos (by rw [hparlen]; simp)
      obtain ⟨h1, h2, h3⟩ := hpar r hr
      have := hrest r h1 h2
      rw [ha] at this
      simp only [List.toFinset_cons, List.toFinset_nil, insert_empty_eq, Finset.sum_singleton] at this
      rw [hja]
      have hr' : ¬r < k := by omega
      simpa [encMatrix, hf1, hr'] using this
    · -- Cauchy rows
      have hlt : ∀ i ∈ lostData er k, i < k := fun i hi => List.mem_range.mp (List.mem_filter.mp hi).1
      have hinjU : Set.InjOn pt ((lostData er k).toFinset : Set Nat) := by
        intro a ha b hb hab
        have ha' := hlt a (by simpa using ha)
        have hb' := hlt b (by simpa using hb)
        exact pt_inj (by omega) (by omega) hab
      have hinjT : Set.InjOn pt (par.toFinset : Set Nat) := by
        intro a ha b hb hab
        have ha' := hpar a (by simpa using ha)
        have hb' := hpar b (by simpa using hb)
        exact pt_inj (by omega) (by omega) hab
      let U := (lostData er k).toFinset.image pt
      let T := par.toFinset.image pt
      have hnd : (lostData er k).Nodup := List.nodup_range.filter _
      have hcard : U.card ≤ T.card := by
        rw [Finset.card_image_of_injOn hinjU, Finset.card_image_of_injOn hinjT,
          List.toFinset_card_of_nodup hnd, List.toFinset_card_of_nodup hparnd, hparlen]
      let w : GF → GF := fun y => v y.v.toNat
      have hw : ∀ i, i < 256 → w (pt i) = v i := by
        intro i hi
        show v (BitVec.toNat (BitVec.ofNat 8 i)) = v i
        rw [BitVec.toNat_ofNat, Nat.mod_eq_of_lt hi]
      have key := cauchy_ker U T hcard ?_ w ?_ (pt j)
        (Finset.mem_image.mpr ⟨j, List.mem_toFinset.mpr hjl, rfl⟩)
      · rw [hw j (by omega)] at key
        exact key
      · intro x hx hxU
        obtain ⟨r, hr, rfl⟩ := Finset.mem_image.mp hx
        obtain ⟨i, hi, hir⟩ := Finset.mem_image.mp hxU
        have h1 := hpar r (List.mem_toFinset.mp hr)
        have h2 := hlt i (List.mem_toFinset.mp hi)
        have := pt_inj (by omega) (by omega) hir
        omega
      · intro x hx
        obtain ⟨r, hr, rfl⟩ := Finset.mem_image.mp hx
        obtain ⟨h1, h2, h3⟩ := hpar r (List.mem_toFinset.mp hr)
        rw [Finset.sum_image hinjU]
        rw [← hrest r h1 h2]
        apply Finset.sum_congr rfl
        intro i hi
        have hi' := hlt i (List.mem_toFinset.mp hi)
        rw [hw i (by omega)]
        have hr' : ¬r < k := by omega
        simp [encMatrix, hr', hf1, add_eq_sub]

end Verif.Codec
