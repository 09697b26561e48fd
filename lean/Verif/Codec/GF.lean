import Mathlib.Algebra.Field.MinimalAxioms

/-!
# The field GF(2^8) of ISA-L

The erasure code of `/repo/bfffs-core/src/raid/codec.rs` computes in GF(2^8) through
`bfffs_isa_l`, a binding to the ISA-L library, which is not part of the repository.  ISA-L
represents the field by bytes modulo the polynomial `x^8 + x^4 + x^3 + x^2 + 1` (0x11d).
This file builds that field; that ISA-L's tables implement it is part of the trusted base.
-/

namespace Verif.Codec

/-- A byte as an element of the field. -/
structure GF where
  v : BitVec 8
deriving DecidableEq

namespace GF

/-- Multiplication by `x`: shift, and reduce by the polynomial if the top bit falls out. -/
def xt (b : BitVec 8) : BitVec 8 := (b <<< 1) ^^^ (if b.msb then 0x1d#8 else 0#8)

/-- The multiple of a byte by one bit. -/
def sel (c : Bool) (b : BitVec 8) : BitVec 8 := if c then b else 0#8

/-- The product of two bytes, by shifting and adding. -/
def mulB (a b : BitVec 8) : BitVec 8 :=
  let b1 := xt b; let b2 := xt b1; let b3 := xt b2; let b4 := xt b3
  let b5 := xt b4; let b6 := xt b5; let b7 := xt b6
  sel (a.getLsbD 0) b ^^^ sel (a.getLsbD 1) b1 ^^^ sel (a.getLsbD 2) b2 ^^^ sel (a.getLsbD 3) b3 ^^^
    sel (a.getLsbD 4) b4 ^^^ sel (a.getLsbD 5) b5 ^^^ sel (a.getLsbD 6) b6 ^^^ sel (a.getLsbD 7) b7

/-- The inverse of a byte as its 254th power, by squaring. -/
def invB (a : BitVec 8) : BitVec 8 :=
  let a2 := mulB a a
  let a4 := mulB a2 a2
  let a8 := mulB a4 a4
  let a16 := mulB a8 a8
  let a32 := mulB a16 a16
  let a64 := mulB a32 a32
  let a128 := mulB a64 a64
  mulB a2 (mulB a4 (mulB a8 (mulB a16 (mulB a32 (mulB a64 a128)))))

theorem xt_xor (a b : BitVec 8) : xt (a ^^^ b) = xt a ^^^ xt b := by
  unfold xt
  rw [BitVec.shiftLeft_xor_distrib, BitVec.msb_xor]
  cases a.msb <;> cases b.msb <;> simp
  · rw [BitVec.xor_assoc]
  · rw [BitVec.xor_assoc, BitVec.xor_assoc]
    congr 1
    rw [BitVec.xor_comm]
  · rw [BitVec.xor_assoc, BitVec.xor_comm 29#8, BitVec.xor_assoc, BitVec.xor_self, BitVec.xor_zero]

theorem sel_xor_right (c : Bool) (a b : BitVec 8) : sel c (a ^^^ b) = sel c a ^^^ sel c b := by
  cases c <;> simp [sel]

theorem sel_xor_left (c d : Bool) (b : BitVec 8) : sel (c ^^ d) b = sel c b ^^^ sel d b := by
  cases c <;> cases d <;> simp [sel]

/-- A function on bytes that respects exclusive or. -/
def Lin (f : BitVec 8 → BitVec 8) : Prop := ∀ a b, f (a ^^^ b) = f a ^^^ f b

theorem xor_swap8 (a b c d e f g h a' b' c' d' e' f' g' h' : BitVec 8) :
    (a ^^^ a') ^^^ (b ^^^ b') ^^^ (c ^^^ c') ^^^ (d ^^^ d') ^^^ (e ^^^ e') ^^^ (f ^^^ f') ^^^
      (g ^^^ g') ^^^ (h ^^^ h') =
    (a ^^^ b ^^^ c ^^^ d ^^^ e ^^^ f ^^^ g ^^^ h) ^^^
      (a' ^^^ b' ^^^ c' ^^^ d' ^^^ e' ^^^ f' ^^^ g' ^^^ h') := by
  ac_rfl

theorem mulB_lin_right (a : BitVec 8) : Lin (mulB a) := by
  intro b c
  simp only [mulB, xt_xor, sel_xor_right]
  exact xor_swap8 ..

theorem mulB_lin_left (c : BitVec 8) : Lin (fun a => mulB a c) := by
  intro a b
  simp only [mulB, BitVec.getLsbD_xor, sel_xor_left]
  exact xor_swap8 ..

/-- The one-bit bytes. -/
def basis : List (BitVec 8) := [1, 2, 4, 8, 16, 32, 64, 128]

theorem expand : ∀ a : BitVec 8, a = sel (a.getLsbD 0) 1 ^^^ sel (a.getLsbD 1) 2 ^^^
    sel (a.getLsbD 2) 4 ^^^ sel (a.getLsbD 3) 8 ^^^ sel (a.getLsbD 4) 16 ^^^ sel (a.getLsbD 5) 32 ^^^
    sel (a.getLsbD 6) 64 ^^^ sel (a.getLsbD 7) 128 := by decide +kernel

theorem Lin.zero {f : BitVec 8 → BitVec 8} (h : Lin f) : f 0#8 = 0#8 := by
  have := h 0#8 0#8
  rw [BitVec.xor_self] at this
  rw [this, BitVec.xor_self]

theorem Lin.sel {f : BitVec 8 → BitVec 8} (h : Lin f) (c : Bool) (b : BitVec 8) :
    f (sel c b) = GF.sel c (f b) := by
  cases c
  · exact h.zero
  · rfl

/-- Two such functions that agree on the one-bit bytes are equal. -/
theorem Lin.ext {f g : BitVec 8 → BitVec 8} (hf : Lin f) (hg : Lin g)
    (h : ∀ b ∈ basis, f b = g b) (a : BitVec 8) : f a = g a := by
  have h0 := h 1 (by simp [basis])
  have h1 := h 2 (by simp [basis])
  have h2 := h 4 (by simp [basis])
  have h3 := h 8 (by simp [basis])
  have h4 := h 16 (by simp [basis])
  have h5 := h 32 (by simp [basis])
  have h6 := h 64 (by simp [basis])
  have h7 := h 128 (by simp [basis])
  rw [expand a]
  simp only [hf _ _, hg _ _, hf.sel, hg.sel, h0, h1, h2, h3, h4, h5, h6, h7]

theorem mulB_comm (a b : BitVec 8) : mulB a b = mulB b a := by
  refine Lin.ext (mulB_lin_left b) (mulB_lin_right b) ?_ a
  intro a ha
  refine Lin.ext (mulB_lin_right a) (mulB_lin_left a) ?_ b
  intro b hb
  have : ∀ a ∈ basis, ∀ b ∈ basis, mulB a b = mulB b a := by decide +kernel
  exact this a ha b hb

theorem Lin.comp {f g : BitVec 8 → BitVec 8} (hf : Lin f) (hg : Lin g) : Lin (fun x => f (g x)) := by
  intro a b
  show f (g (a ^^^ b)) = _
  rw [hg, hf]

theorem mulB_assoc (a b c : BitVec 8) : mulB (mulB a b) c = mulB a (mulB b c) := by
  refine Lin.ext (f := fun a => mulB (mulB a b) c) (g := fun a => mulB a (mulB b c))
    ((mulB_lin_left c).comp (mulB_lin_left b)) (mulB_lin_left _) ?_ a
  intro a ha
  refine Lin.ext (f := fun b => mulB (mulB a b) c) (g := fun b => mulB a (mulB b c))
    ((mulB_lin_left c).comp (mulB_lin_right a)) ((mulB_lin_right a).comp (mulB_lin_left c)) ?_ b
  intro b hb
  refine Lin.ext (f := fun c => mulB (mulB a b) c) (g := fun c => mulB a (mulB b c))
    (mulB_lin_right _) ((mulB_lin_right a).comp (mulB_lin_right b)) ?_ c
  intro c hc
  have : ∀ a ∈ basis, ∀ b ∈ basis, ∀ c ∈ basis, mulB (mulB a b) c = mulB a (mulB b c) := by
    decide +kernel
  exact this a ha b hb c hc

theorem one_mulB (a : BitVec 8) : mulB 1 a = a := by
  refine Lin.ext (f := mulB 1) (g := fun a => a) (mulB_lin_right 1) (fun _ _ => rfl) ?_ a
  decide +kernel

theorem mulB_inv : ∀ a : BitVec 8, a ≠ 0 → mulB a (invB a) = 1 := by decide +kernel

instance : Add GF := ⟨fun a b => ⟨a.v ^^^ b.v⟩⟩
instance : Mul GF := ⟨fun a b => ⟨mulB a.v b.v⟩⟩
instance : Neg GF := ⟨fun a => a⟩
instance : Inv GF := ⟨fun a => ⟨invB a.v⟩⟩
instance : Zero GF := ⟨⟨0⟩⟩
instance : One GF := ⟨⟨1⟩⟩

instance : Field GF := Field.ofMinimalAxioms GF
  (by
    intro a b c
    show GF.mk _ = GF.mk _
    congr 1
    exact BitVec.xor_assoc _ _ _)
  (by
    intro a
    show GF.mk _ = a
    obtain ⟨a⟩ := a
    congr 1
    exact BitVec.zero_xor)
  (by
    intro a
    show GF.mk _ = GF.mk _
    congr 1
    exact BitVec.xor_self)
  (by
    intro a b c
    show GF.mk _ = GF.mk _
    congr 1
    exact mulB_assoc _ _ _)
  (by
    intro a b
    show GF.mk _ = GF.mk _
    congr 1
    exact mulB_comm _ _)
  (by
    intro a
    show GF.mk _ = a
    obtain ⟨a⟩ := a
    congr 1
    exact one_mulB _)
  (by
    intro a ha
    show GF.mk _ = GF.mk _
    congr 1
    apply mulB_inv
    intro h
    apply ha
    obtain ⟨a⟩ := a
    show GF.mk a = GF.mk 0
    rw [show a = 0 from h])
  (by
    show GF.mk (invB 0) = GF.mk 0
    rw [show invB 0 = 0 by decide +kernel])
  (by
    intro a b c
    show GF.mk _ = GF.mk _
    congr 1
    exact mulB_lin_right _ _ _)
  ⟨⟨0⟩, ⟨1⟩, by decide⟩

theorem add_eq_sub (a b : GF) : a + b = a - b := by
  rw [sub_eq_add_neg]
  rfl

/-- The byte with a given number. -/
def pt (i : Nat) : GF := ⟨BitVec.ofNat 8 i⟩

theorem pt_inj {i j : Nat} (hi : i < 256) (hj : j < 256) (h : pt i = pt j) : i = j := by
  have : BitVec.ofNat 8 i = BitVec.ofNat 8 j := by
    simpa [pt] using h
  have := congrArg BitVec.toNat this
  simp only [BitVec.toNat_ofNat] at this
  omega

end GF
end Verif.Codec
