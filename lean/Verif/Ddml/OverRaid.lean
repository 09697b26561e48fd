import Verif.Ddml.Props
import Verif.Raid.LongExamples

/-!
# C35: records on a RAID device whose disks return wrong data

Joins the data management layer to the model of the RAID device's long reads.
-/

namespace Verif.Ddml

open Verif.Bytes (Byte Buf lbaBytes)
open Verif.Raid (Geom CR Disks OnDisks Honest readLong codecDec codecEnc)
open Verif.Codec (Mat Inverts)

variable {V : Type}

/-- A good copy is accepted. -/
theorem getDirect_copy {en : Env V} (g : en.Good) {d : DRP} {v : V} {b : Buf} (hw : Written en d v b)
    {full : Buf} (hfull : full.take d.csize = b) (rl : Except Err (List Buf)) :
    getDirect en d (.ok full) rl = .ok v := by
  obtain ⟨c, mk, he, hd⟩ := hw
  have f := encode_facts g he d.pba
  rw [← hd] at f
  obtain ⟨_, hcs, hck, _, hdec, _⟩ := f
  unfold getDirect readRec
  dsimp only
  rw [hfull, if_pos hck.symm]
  rcases hdec with ⟨h1, h2⟩ | ⟨h1, h2⟩
  · simp [h1, h2, g.ser]
  · simp [h1, h2, g.ser]

/-- **C35 (partial).** A record that fills its blocks lies on a RAID device, and at most `f` of the
disks fail or return wrong data.  Whatever the first read delivers, the record is read as it was
stored, if its blocks are in one stripe or in the cases of `C63_read_long_multi_partial`, if fewer
than `f` children are absent, and if the hash separates the record's bytes from all others.

Full statement: the same for all records, see `C35_partial_block_lost`,
`C63_parity_counterexample` and `C63_index_counterexample`. -/
theorem C35_over_raid_partial (en : Env V) (gd : en.Good) (d : DRP) (v : V) (b : Buf)
    (hw : Written en d v b) (nc : NoCollision en b) (h0 : b ≠ []) (hwhole : b.length % lbaBytes = 0)
    {g : Geom} (h : g.Lawful) (hlba : g.bpl = lbaBytes) {f : Nat} (hf : g.Y.k = g.Y.m + f)
    (hk : g.Y.k ≤ 256) (hE : g.enc = codecEnc g.Y.m f g.col) {invert : Nat → Mat → Option Mat}
    (hI : Inverts invert)
    -- what was written is on the disks
    {D : Disks} {Z T : Nat} {F : Buf} (hD : OnDisks g D Z T F) (hZ : Z * g.slbas ≤ d.pba.lba)
    (hT : d.pba.lba + d.asize ≤ (Z + T) * g.slbas)
    (hb : (F.drop ((d.pba.lba - Z * g.slbas) * lbaBytes)).take (d.asize * lbaBytes) = b)
    -- what the disks return
    {fill : CR → Buf} {res : Nat → Raid.Res} (hlen : ∀ r, (fill r).length = r.len)
    {bad : Nat → Bool} (hbad : (List.range g.Y.n).countP bad ≤ f)
    (hgood : ∀ i < g.Y.n, bad i = false → res i = .ok ∧ Honest D fill i)
    (hcase : d.pba.lba / g.slbas = (d.pba.lba + d.asize - 1) / g.slbas ∨
      ((f = 1 ∨ ∀ t, d.pba.lba / g.slbas ≤ t → t ≤ (d.pba.lba + d.asize - 1) / g.slbas →
        ∀ i < g.Y.k, g.Y.m ≤ i → bad (g.Y.disk t i) = false) ∧
      ((∀ i < g.Y.n, res i = .ok) ∨ ∀ i < g.Y.n, ∃ t, d.pba.lba / g.slbas ≤ t ∧
        t ≤ (d.pba.lba + d.asize - 1) / g.slbas ∧ ∃ j < g.Y.k, g.Y.disk t j = i)))
    {nf : Nat} (hnf : nf < f) (full : Buf) :
    ∃ cs, readLong g f (codecDec invert g.Y.m f) nf d.pba.lba d.asize fill res = some cs ∧
      getDirect en d (.ok full) (.ok (cs.filterMap id)) = .ok v := by
  have hck : d.checksum = en.hash b ∧ d.csize = b.length := by
    obtain ⟨c, mk, he, hd⟩ := hw
    have f := encode_facts gd he d.pba
    rw [← hd] at f
    exact ⟨f.2.2.1, f.2.1⟩
  have hpos : 0 < d.asize := by
    have : 0 < b.length := List.length_pos_iff.mpr h0
    unfold DRP.asize blocks
    rw [hck.2]
    unfold lbaBytes at *
    omega
  obtain ⟨cs, h1, -, h2⟩ := (Raid.C63_read_long_partial h hf hk hE hI hlen (res := res)
    (u := d.pba.lba) (n := d.asize) hpos nf).2 hnf
  refine ⟨cs, h1, ?_⟩
  have hm := h2 D Z T F hD hZ hT bad hbad hgood hcase
  rw [hlba, hb] at hm
  by_cases hh : en.hash (full.take d.csize) = en.hash b
  · exact getDirect_copy gd hw (nc _ hh) _
  · apply C35_recovers_partial en gd d v b hw full _ hh _ (fun r _ hr => nc r hr) hwhole
    have hpad : pad b = b := by
      have : blocks b.length * lbaBytes = b.length := by unfold blocks lbaBytes at *; omega
      simp [pad, this]
    rw [hpad]
    exact List.mem_filterMap.mpr ⟨_, hm, rfl⟩

/-! ### A case that meets the hypotheses -/

/-- Five disks, single parity, with blocks of the real size. -/
def exR : Geom := ⟨Raid.exC.Y, 2, lbaBytes, 8 * lbaBytes, codecEnc 3 1 (2 * lbaBytes)⟩

theorem exR_lawful : exR.Lawful where
  layout := Raid.exC_lawful.layout
  cs := by decide
  bpl := by decide
  zr := by decide
  zr_bpl := by decide
  enc_len := by
    intro cols
    have h1 : exR.Y.k - exR.Y.m = 1 := by decide +kernel
    rw [h1]
    simp [exR, codecEnc, Codec.encode, Codec.ecEncode]
  enc_col := by
    intro cols _ _ c hc
    have h1 : exR.col = 2 * lbaBytes := rfl
    rw [h1]
    simp only [exR, codecEnc, Codec.encode, Codec.ecEncode, List.mem_map] at hc
    obtain ⟨c', ⟨i, hi, rfl⟩, rfl⟩ := hc
    simp

/-- One stripe of data -/
def exRBuf : Buf := List.replicate exR.stripe 9

theorem exR_onDisks : ∃ D, OnDisks exR D 0 1 exRBuf := by
  have hst : exR.stripe = 6 * lbaBytes := by decide +kernel
  obtain ⟨st, e1, e2⟩ := Raid.run_inv exR_lawful [.write exRBuf] [] (Raid.opened exR 0) (al := False)
    (fun b hb => ⟨by
      have : b = exRBuf := by simpa using hb
      rw [this]
      unfold exRBuf
      rw [hst]
      apply List.ne_nil_of_length_pos
      rw [List.length_replicate]
      decide, fun hf => hf.elim⟩) (Raid.opened_inv exR_lawful 0 False)
  obtain ⟨⟨T, F, hcov, hlba, hdata⟩, hlt, -, -, -⟩ := e2
  have hd : exRBuf = F ++ st.sb.buf.flatten := by
    rw [← hdata, List.foldl_cons, List.foldl_nil]
    show exRBuf = [] ++ Raid.padTo lbaBytes exRBuf
    have : exRBuf.length % lbaBytes = 0 := by
      unfold exRBuf
      rw [List.length_replicate, hst]
      decide
    unfold Raid.padTo
    simp [this, Raid.zeros]
  have h1 : exR.stripe = F.length + st.sb.buf.flatten.length := by
    rw [← List.length_append, ← hd]; simp [exRBuf]
  have h3 : st.sb.buf.flatten.length < exR.stripe := hlt
  have h4 : F.length = T * exR.stripe := hcov.1
  have hT : T = 1 := by
    rw [hst] at h1 h3 h4
    unfold lbaBytes at *
    omega
  have hF : F = exRBuf := by
    rw [hd]
    have : st.sb.buf.flatten = [] := by
      apply List.length_eq_zero_iff.mp
      rw [hT] at h4
      omega
    rw [this, List.append_nil]
  rw [hT, hF] at hcov
  exact ⟨_, hcov.onDisks exR_lawful (fun _ _ => none)⟩

/-- A hash that separates one block of nines from everything else. -/
def nineEnv : Env Buf :=
  { toyEnv with hash := fun b => if b = List.replicate lbaBytes 9 then 1 else 0 }

/-- A record of one block, whose disk returns zeros: it is read as stored. -/
example {invert : Nat → Mat → Option Mat} (hI : Inverts invert) :
    ∃ (fill : CR → Buf) (cs : List (Option Buf)),
      readLong exR 1 (codecDec invert exR.Y.m 1) 0 1 1 fill (fun _ => .ok) = some cs ∧
      getDirect nineEnv ⟨⟨0, 1⟩, false, 4096, 4096, 1⟩ (.ok (List.replicate 4096 0))
        (.ok (cs.filterMap id)) = .ok (List.replicate 4096 9) := by
  obtain ⟨D, hD⟩ := exR_onDisks
  have h := C35_over_raid_partial nineEnv ⟨toyCodec_good, fun _ => rfl⟩
    ⟨⟨0, 1⟩, false, 4096, 4096, 1⟩ (List.replicate lbaBytes 9) (List.replicate lbaBytes 9)
    (by
      have := written_plain nineEnv (List.replicate lbaBytes 9) ⟨0, 1⟩ (by
        show (List.replicate lbaBytes (9 : Byte)).length < _
        rw [List.length_replicate]; decide)
      have e : (nineEnv.ser (List.replicate lbaBytes 9)).length = 4096 := List.length_replicate
      have e' : nineEnv.hash (nineEnv.ser (List.replicate lbaBytes 9)) = 1 := by
        simp [nineEnv, toyEnv]
      rwa [e, e'] at this)
    (by
      intro r hr
      simp only [nineEnv] at hr
      split at hr
      · assumption
      · simp at hr)
    (by
      apply List.ne_nil_of_length_pos
      rw [List.length_replicate]
      decide) (by rw [List.length_replicate]; decide) exR_lawful rfl (f := 1)
    (by decide +kernel) (by decide +kernel) rfl hI hD (by simp) (by decide +kernel)
    (by
      have : exR.stripe = 6 * lbaBytes := by decide +kernel
      unfold exRBuf
      rw [List.drop_replicate, List.take_replicate, this]
      exact congrArg (fun n => List.replicate n (9 : Byte)) (by decide +kernel))
    (fill := Raid.fillAll fun d a => if d = 0 then some 0 else D d a) (Raid.fillAll_length _)
    (res := fun _ => .ok) (bad := fun d => d == 0) (by decide +kernel) ?_ (Or.inl (by decide +kernel))
    (nf := 0) (by omega) (List.replicate 4096 0)
  · obtain ⟨cs, h1, h2⟩ := h
    exact ⟨_, cs, h1, h2⟩
  · intro i _ hi
    refine ⟨rfl, Raid.fillAll_honest fun a => ?_⟩
    have : i ≠ 0 := by simpa using hi
    rw [if_neg this]

end Verif.Ddml
