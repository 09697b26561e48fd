import Verif.Raid.ReconUnaligned

/-!
# C62: violations, and cases that meet the hypotheses
-/

namespace Verif.Raid

open Verif.Bytes Verif.Codec

/-- The buffers after reads from disks of which those with an error leave zeros. -/
def fillOf (D : Disks) (res : Nat → Res) (r : CR) : Buf :=
  if res r.disk = .ok then (D.read r).getD (List.replicate r.len 0) else List.replicate r.len 0

/-- Whatever is on the disks, and whichever fail, there is an answer. -/
theorem answers_fillOf (D : Disks) (res : Nat → Res) : Answers D res (fillOf D res) where
  len := by
    intro r
    unfold fillOf
    split
    · cases h : D.read r with
      | none => simp
      | some x => exact read_length h
    · simp
  good := by
    intro r x hr hx
    unfold fillOf
    rw [if_pos hr, hx]
    rfl

/-- The disks after the operations `ops` on the first zone. -/
def exDisks (g : Geom) (ops : List Op) : Disks :=
  Disks.writes (fun _ _ => none) ((run g (opened g 0) ops).elim [] fun st => st.log)

/-- Disk `i` fails. -/
def exFail (is : List Nat) (d : Nat) : Res := if is.contains d then .err ENXIO else .ok

/-! ### Single parity over five disks -/

def exBuf (n : Nat) : Buf := (List.range n).map fun i => UInt8.ofNat (i * 7 + 1)

theorem exC_onDisks : OnDisks exC (exDisks exC [.write (exBuf 24)]) 0 2 (exBuf 24) where
  len := by decide +kernel
  chunk := by decide +kernel

/-- C62, violated: one disk of a healthy single parity array fails.  A read of two stripes returns
its error, although the data could be recovered. -/
theorem C62_multi_counterexample (dec : Decoder) (ex : Nat → List Buf) :
    ∃ D F res fill, OnDisks exC D 0 2 F ∧ Answers D res fill ∧
      (∀ s < 2, failedIn exC res s exC.Y.k ≤ 1) ∧ exC.Y.k = exC.Y.m + 1 ∧
      readAtMultiOk exC dec 0 12 fill ex res = .err ENXIO := by
  refine ⟨exDisks exC [.write (exBuf 24)], exBuf 24, exFail [1], _, exC_onDisks, answers_fillOf _ _,
    by decide +kernel, by decide +kernel, ?_⟩
  obtain ⟨st, e1, e2⟩ := run_inv exC_lawful [.write (exBuf 24)] [] (opened exC 0) (al := False)
    (fun b hb => ⟨by
      have : b = exBuf 24 := by simpa using hb
      rw [this]; decide, fun hf => hf.elim⟩) (opened_inv exC_lawful 0 False)
  obtain ⟨⟨T, F, hcov, hlba, hdata⟩, hlt, -, -, -⟩ := e2
  have hT : T = 2 := by
    have h1 : (exBuf 24).length = F.length + st.sb.buf.flatten.length := by
      have : exBuf 24 = F ++ st.sb.buf.flatten := by rw [← hdata]; decide +kernel
      rw [this, List.length_append]
    have h2 : exC.stripe = 12 := by decide
    have h3 : st.sb.buf.flatten.length < exC.stripe := hlt
    have h4 : F.length = T * exC.stripe := hcov.1
    rw [h2] at h3 h4
    have h5 : (exBuf 24).length = 24 := by decide
    omega
  have hlog : exDisks exC [.write (exBuf 24)] = Disks.writes (fun _ _ => none) st.log := by
    unfold exDisks
    rw [e1]
    rfl
  rw [hlog]
  obtain ⟨rs, h1, h2⟩ := C62_read_multi_healthy_partial exC_lawful dec hcov (fun _ _ => none)
    (answers_fillOf _ (exFail [1])) ex (u := 0) (e := 12) (by omega) (by simp)
    (by rw [hT]; decide)
  have hrs : ∃ r ∈ rs, r.disk = 1 := by
    have : (diskReads exC 0 12).any fun rs => rs.any fun r => r.disk == 1 := by decide +kernel
    rw [h1] at this
    obtain ⟨r, hr, hd⟩ := List.any_eq_true.mp this
    exact ⟨r, hr, by simpa using hd⟩
  rcases h2 with ⟨h2, -⟩ | ⟨-, r, hr, n, h2, h3⟩
  · obtain ⟨r, hr, hd⟩ := hrs
    have := h2 r hr
    rw [hd] at this
    exact absurd this (by decide)
  · rw [h3]
    unfold exFail at h2
    split at h2
    · rw [Res.err.inj h2]
    · cases h2

/-- Double parity over five disks. -/
def exC2 : Geom := ⟨ofPrimeS false ⟨5, 4, 2, 3, 2, 40, 20, 16⟩, 2, 2, 8, codecEnc 2 2 4⟩

theorem exC2_lawful : exC2.Lawful where
  layout := (primeS_lawful (n := 5) (k := 4) (f := 2) (by decide +kernel) (by decide) (by decide)).1
  cs := by decide
  bpl := by decide
  zr := by decide
  zr_bpl := by decide
  enc_len := by
    intro cols
    have h1 : exC2.Y.k - exC2.Y.m = 2 := by decide +kernel
    rw [h1]
    simp [exC2, codecEnc, encode, ecEncode]
  enc_col := by
    intro cols _ _ c hc
    have h1 : exC2.col = 4 := by decide
    rw [h1]
    simp only [exC2, codecEnc, encode, ecEncode, List.mem_map] at hc
    obtain ⟨c', ⟨i, hi, rfl⟩, rfl⟩ := hc
    simp

theorem exC2_onDisks : OnDisks exC2 (exDisks exC2 [.write (exBuf 16)]) 0 2 (exBuf 16) where
  len := by decide +kernel
  chunk := by decide +kernel

/-- C62, violated in an array with double parity: disk 2 is absent and disk 3 fails.  A read of two
stripes returns the error, although the data could be recovered. -/
theorem C62_degraded_counterexample {invert : Nat → Mat → Option Mat} (hI : Inverts invert) :
    ∃ D F res fill, OnDisks exC2 D 0 2 F ∧ Answers D res fill ∧
      (∀ s < 2, failedIn exC2 res s exC2.Y.k ≤ 2) ∧ exC2.Y.k = exC2.Y.m + 2 ∧
      ∃ n, readDeg exC2 2 (codecDec invert exC2.Y.m 2) 1 0 8 fill res = .err n := by
  refine ⟨exDisks exC2 [.write (exBuf 16)], exBuf 16, exFail [2, 3], _, exC2_onDisks,
    answers_fillOf _ _, by decide +kernel, by decide +kernel, ?_⟩
  unfold readDeg
  dsimp only
  rw [if_neg (by decide)]
  rcases C62_read_multi_degraded exC2_lawful (f := 2) (by decide +kernel) (by decide +kernel) rfl hI exC2_onDisks
    (answers_fillOf _ (exFail [2, 3])) (u := 0) (e := 8) (by omega) (by simp) (by decide)
    (by decide) 1 with ⟨h1, -⟩ | ⟨-, d, n, -, h2⟩
  · exact absurd (h1 1 (by decide) (by decide)) (by decide +kernel)
  · exact ⟨n, h2⟩

/-! ### Cases that meet the hypotheses -/

/-- The second stripe of a single parity array whose disk 4 fails. -/
theorem exC_stripe : Stripe exC ((exBuf 24).drop 12)
    (gotAt exC (fillOf (exDisks exC [.write (exBuf 24)]) (exFail [4])) 1)
    fun b => exFail [4] (exC.Y.disk 1 b) := by
  have := exC_onDisks.stripe (answers_fillOf _ (exFail [4])) (t := 1) (by omega)
  exact this

/-- Disk 4 holds a data chunk of the second stripe.  Reading LBAs 7 to 11 of it with the disk
absent returns the data; in a healthy array it panics; reading whole chunks returns the data. -/
example {invert : Nat → Mat → Option Mat} (hI : Inverts invert) :
    let got := gotAt exC (fillOf (exDisks exC [.write (exBuf 24)]) (exFail [4])) 1
    let res := fun b => exFail [4] (exC.Y.disk 1 b)
    failures exC res = 1 ∧
    readAtOne exC 1 (codecDec invert 3 1) 1 7 11 got res =
      .ok (((exBuf 24).drop 14).take 8) ∧
    readAtOne exC 1 (codecDec invert 3 1) 0 7 11 got res = .panic ∧
    readAtOne exC 1 (codecDec invert 3 1) 0 6 10 got res =
      .ok (((exBuf 24).drop 12).take 8) := by
  have hf : failures exC (fun b => exFail [4] (exC.Y.disk 1 b)) = 1 := by decide +kernel
  have hr : InStripe exC 7 11 := ⟨by decide, by decide +kernel⟩
  have hr' : InStripe exC 6 10 := ⟨by decide, by decide +kernel⟩
  refine ⟨hf, ?_, ?_, ?_⟩
  · refine Eq.trans ((C62_read_one_degraded exC_lawful (f := 1) (by decide +kernel)
      (by decide +kernel) rfl hI exC_stripe hr (nf := 1) (by omega)).ok (by omega)) ?_
    congr 1
  · exact C62_unaligned_panics exC_lawful exC_stripe hr (f := 1) (by decide +kernel)
      (by decide +kernel) (by omega) ⟨1, ⟨by decide +kernel, by decide +kernel, by decide +kernel⟩,
        by decide +kernel⟩
  · refine Eq.trans ((C62_read_one_healthy_partial exC_lawful (f := 1) (by decide +kernel)
      (by decide +kernel) rfl hI exC_stripe hr' (by decide +kernel) (by decide +kernel)).ok
      (by omega)) ?_
    congr 1

/-- Disk 1 is missing.  Any range of the two stripes reads as written. -/
example {invert : Nat → Mat → Option Mat} (hI : Inverts invert) :
    let a : Vdev := ⟨4, 1, [.present, .missing, .present, .present, .present], 1⟩
    let res := fun d => (a.children.getD d .missing).io .ok
    readDeg exC 1 (codecDec invert 3 1) a.absent 1 11
      (fillOf (exDisks exC [.write (exBuf 24)]) res) res = .ok (((exBuf 24).drop 2).take 20) := by
  intro a res
  exact C13_read exC_lawful (f := 1) (by decide +kernel) (by decide +kernel) rfl hI a (by decide)
    (by decide) (by decide) (r := fun _ => .ok) (fun _ => rfl) exC_onDisks (answers_fillOf _ res)
    (by omega) (by simp) (by decide +kernel)

end Verif.Raid
