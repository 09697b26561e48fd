import Verif.Raid.ReconModel
import Verif.Raid.Spec

/-!
The arithmetic of the recovery in bytes instead of LBAs.  `L` and `H` are the ends of the
caller's range, counted from the start of the stripe.
-/

namespace Verif.Raid

open Verif.Bytes

def cbPre (col L H : Nat) : Nat := if H % col ≠ 0 then min (L % col) (H % col) else L % col

def cbPost (col L H : Nat) : Nat := if H % col = 0 then 0
    else if H % col > L % col then col - H % col
    else col - L % col

def cbB (col L H : Nat) : Nat × Nat × Nat :=
  (cbPre col L H, col - cbPre col L H - cbPost col L H, cbPost col L H)

def colPiecesB (col L H c : Nat) (data : Piece) (ex : List Buf) :
    Option (List Piece × Piece × List Buf) :=
  if c + col ≤ L then (nextEx ex).map fun (x, ex) => ([x], data, ex)
  else if c < L then
    if cbPre col L H = 0 then none
    else
      match nextEx ex with
      | none => none
      | some (x, ex) =>
        match data.splitTo (min (H - L) (c + col - L)) with
        | none => none
        | some (d, data) =>
          if col < min (H - L) (c + col - L) + x.bytes.length then none
          else if 0 < col - min (H - L) (c + col - L) - x.bytes.length then
            (nextEx ex).map fun (x', ex) => ([x, d, x'], data, ex)
          else some ([x, d], data, ex)
  else if c + col ≤ H then (data.splitTo col).map fun (d, data) => ([d], data, ex)
  else if c < H then
    if cbPost col L H = 0 then none
    else
      match nextEx ex with
      | none => none
      | some (x, ex) =>
        if data.bytes.length = H - c ∧ data.bytes.length < col then
          (data.splitTo data.bytes.length).map fun (d, data) => ([d, x], data, ex)
        else none
  else (nextEx ex).map fun (x, ex) => ([x], data, ex)

/-- The ends of the caller's range, from the start of its stripe, in bytes. -/
def lo (g : Geom) (u : Nat) : Nat := u % g.slbas * g.bpl
def hi (g : Geom) (u e : Nat) : Nat := (e - (u - u % g.slbas)) * g.bpl

/-- The range is not empty and in one stripe. -/
structure InStripe (g : Geom) (u e : Nat) : Prop where
  lt : u < e
  le : e ≤ u - u % g.slbas + g.slbas

variable {g : Geom} {u e : Nat}

theorem mod_slbas_mod (u : Nat) : u % g.slbas % g.cs = u % g.cs := by
  unfold Geom.slbas
  exact Nat.mod_mul_left_mod _ _ _

theorem base_dvd (u : Nat) : g.cs ∣ (u - u % g.slbas) := by
  have h1 : g.slbas ∣ (u - u % g.slbas) := Nat.dvd_sub_mod u
  exact Nat.dvd_trans ⟨g.Y.m, by unfold Geom.slbas; rw [Nat.mul_comm]⟩ h1

theorem mod_lo : lo g u % g.col = u % g.cs * g.bpl := by
  unfold lo Geom.col
  rw [Nat.mul_mod_mul_right, mod_slbas_mod]

theorem mod_hi (hr : InStripe g u e) : hi g u e % g.col = e % g.cs * g.bpl := by
  unfold hi Geom.col
  rw [Nat.mul_mod_mul_right]
  congr 1
  obtain ⟨q, hq⟩ := base_dvd (g := g) u
  have h1 := hr.lt
  have h2 := Nat.mod_le u g.slbas
  have : e = e - (u - u % g.slbas) + g.cs * q := by omega
  rw [this, hq, Nat.add_sub_cancel, Nat.add_mul_mod_self_left]

theorem mulmin (a b k : Nat) : min a b * k = min (a * k) (b * k) := by
  exact (Nat.mul_min_mul_right a b k).symm

theorem codecBytes_eq (h : g.Lawful) (hr : InStripe g u e) :
    codecBytes g u e = cbB g.col (lo g u) (hi g u e) := by
  have hb := h.bpl
  have z : ∀ a, (a * g.bpl = 0) = (a = 0) := fun a => by
    apply propext; constructor
    · intro hh; rcases Nat.mul_eq_zero.1 hh with hh | hh <;> omega
    · intro hh; rw [hh, Nat.zero_mul]
  have gt : ∀ a b, (a * g.bpl > b * g.bpl) = (a > b) := fun a b => by
    apply propext; exact Nat.mul_lt_mul_right hb
  have e1 : cbPre g.col (lo g u) (hi g u e) =
      (if e % g.cs ≠ 0 then min (u % g.cs) (e % g.cs) else u % g.cs) * g.bpl := by
    unfold cbPre
    rw [mod_lo, mod_hi hr]
    simp only [Ne, z]
    split
    · rw [mulmin]
    · rfl
  have e2 : cbPost g.col (lo g u) (hi g u e) = (if e % g.cs = 0 then 0
    else if e % g.cs > u % g.cs then g.cs - e % g.cs
    else g.cs - u % g.cs) * g.bpl := by
    unfold cbPost
    rw [mod_lo, mod_hi hr]
    simp only [z, gt]
    split
    · rw [Nat.zero_mul]
    · split <;> rw [Nat.sub_mul] <;> rfl
  unfold codecBytes cbB
  rw [e1, e2]

theorem base_add (u : Nat) : u - u % g.slbas + u % g.slbas = u := by
  have := Nat.mod_le u g.slbas
  omega

theorem colPieces_eq (h : g.Lawful) (hr : InStripe g u e) (i : Nat) (data : Piece) (ex : List Buf) :
    colPieces g u e i data ex = colPiecesB g.col (lo g u) (hi g u e) (i * g.col) data ex := by
  have hb := h.bpl
  have hle : ∀ a b, (a ≤ b) = (a * g.bpl ≤ b * g.bpl) := fun a b =>
    propext (Nat.mul_le_mul_right_iff hb).symm
  have hlt : ∀ a b, (a < b) = (a * g.bpl < b * g.bpl) := fun a b =>
    propext (Nat.mul_lt_mul_right hb).symm
  have hu := base_add (g := g) u
  have h1 := hr.lt
  have hcol : i * g.col = i * g.cs * g.bpl := by unfold Geom.col; rw [Nat.mul_assoc]
  generalize hs0 : u - u % g.slbas = s0 at *
  generalize hr0 : u % g.slbas = r at *
  have c1 : (s0 + i * g.cs + g.cs ≤ u) = (i * g.col + g.col ≤ lo g u) := by
    rw [show (s0 + i * g.cs + g.cs ≤ u) = (i * g.cs + g.cs ≤ r) by apply propext; omega, hle,
      Nat.add_mul, hcol, lo, hr0]; rfl
  have c2 : (s0 + i * g.cs < u) = (i * g.col < lo g u) := by
    rw [show (s0 + i * g.cs < u) = (i * g.cs < r) by apply propext; omega, hlt, hcol, lo, hr0]
  have c3 : (s0 + i * g.cs + g.cs ≤ e) = (i * g.col + g.col ≤ hi g u e) := by
    rw [show (s0 + i * g.cs + g.cs ≤ e) = (i * g.cs + g.cs ≤ e - s0) by apply propext; omega, hle,
      Nat.add_mul, hcol, hi, hr0, hs0]; rfl
  have c4 : (s0 + i * g.cs < e) = (i * g.col < hi g u e) := by
    rw [show (s0 + i * g.cs < e) = (i * g.cs < e - s0) by apply propext; omega, hlt, hcol, hi, hr0,
      hs0]
  have d1 : min (e - u) (s0 + i * g.cs + g.cs - u) * g.bpl =
      min (hi g u e - lo g u) (i * g.col + g.col - lo g u) := by
    rw [mulmin, hi, lo, hr0, hs0, ← Nat.sub_mul, hcol]
    have : g.col = g.cs * g.bpl := rfl
    rw [this, ← Nat.add_mul, ← Nat.sub_mul, show e - s0 - r = e - u by omega,
      show i * g.cs + g.cs - r = s0 + i * g.cs + g.cs - u by omega]
  have d2 : (e - (s0 + i * g.cs)) * g.bpl = hi g u e - i * g.col := by
    rw [hi, hr0, hs0, hcol, ← Nat.sub_mul, Nat.sub_add_eq]
  unfold colPieces colPiecesB
  simp only [hr0, hs0, c1, c2, c3, c4, d1, d2, codecBytes_eq h hr, cbB]
  rfl

end Verif.Raid
