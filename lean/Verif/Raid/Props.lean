import Verif.Raid.MultiRead
import Verif.Raid.ZoneProps

/-!
# C10: what is written to a RAID zone reads back
-/

namespace Verif.Raid

open Verif.Bytes

variable {g : Geom}

theorem opened_inv (h : g.Lawful) (Z : Nat) (al : Prop) : Inv al g Z [] (opened g Z) :=
  ⟨⟨0, [], ⟨by simp, by simp [opened, stripeChunks]⟩, by simp [opened], by simp [opened]⟩,
    by simpa [opened] using h.stripe_pos, by simp [opened], by simp [opened],
    fun _ => by simpa [opened] using ordered_nil⟩

theorem run_inv (h : g.Lawful) {al : Prop} {Z : Nat} : ∀ (ops : List Op) (data : Buf) (st : St),
    (∀ b, Op.write b ∈ ops → b ≠ [] ∧ (al → g.bpl ∣ b.length)) → Inv al g Z data st →
    ∃ st', run g st ops = some st' ∧ Inv al g Z (ops.foldl (specStep g) data) st' := by
  intro ops
  induction ops with
  | nil => intro data st _ hi; exact ⟨st, rfl, hi⟩
  | cons op ops ih =>
    intro data st hne hi
    have hstep : ∃ st1, step g st op = some st1 ∧ Inv al g Z (specStep g data op) st1 := by
      cases op with
      | write b =>
        obtain ⟨r, e1, e2⟩ := writeAt_spec h hi b (hne b (by simp)).1 (hne b (by simp)).2
        exact ⟨_, by simp [step, e1], e2⟩
      | flush =>
        obtain ⟨r, e1, e2, -⟩ := flushZone_spec h hi
        exact ⟨_, by simp [step, e1], e2⟩
    obtain ⟨st1, e1, e2⟩ := hstep
    obtain ⟨st2, e3, e4⟩ := ih _ _ (fun b hb => hne b (List.mem_cons_of_mem _ hb)) e2
    refine ⟨st2, ?_, e4⟩
    unfold run
    rw [List.foldlM_cons, e1]
    exact e3

theorem Inv.next {al : Prop} {Z : Nat} {data : Buf} {st : St} (h : g.Lawful)
    (hi : Inv al g Z data st) : st.sb.nextLba g = Z * g.slbas + data.length / g.bpl := by
  obtain ⟨⟨T, F, hcov, hlba, hdata⟩, -, -, -, -⟩ := hi
  unfold StripeBuffer.nextLba
  rw [hlba, len_eq, hdata, List.length_append, hcov.1, stripe_eq, ← Nat.mul_assoc,
    Nat.add_comm (T * g.slbas * g.bpl), Nat.add_mul_div_right _ _ h.bpl, Nat.add_mul]
  omega

theorem Inv.read {al : Prop} {Z : Nat} {data : Buf} {st : St} (h : g.Lawful)
    (hi : Inv al g Z data st) (D : Disks) {lba n : Nat} (h1 : Z * g.slbas ≤ lba) (hn : 0 < n)
    (h2 : (lba + n - Z * g.slbas) * g.bpl ≤ data.length) :
    readAt g st.sb (D.writes st.log) lba n =
      some ((data.drop ((lba - Z * g.slbas) * g.bpl)).take (n * g.bpl)) := by
  have hnext := hi.next h
  obtain ⟨⟨T, F, hcov, hlba, hdata⟩, hlt, hdvd, hne, -⟩ := hi
  have hFl : F.length = (T * g.slbas) * g.bpl := by rw [hcov.1, stripe_eq, Nat.mul_assoc]
  obtain ⟨q, hq⟩ := hdvd
  have hdl : data.length = (T * g.slbas + q) * g.bpl := by
    rw [hdata, List.length_append, hFl, hq, Nat.add_mul, Nat.mul_comm g.bpl]
  have hend : lba + n - Z * g.slbas ≤ T * g.slbas + q := by
    rw [hdl] at h2
    exact Nat.le_of_mul_le_mul_right h2 h.bpl
  rw [hdl, Nat.mul_div_cancel _ h.bpl] at hnext
  have hZT : (Z + T) * g.slbas = Z * g.slbas + T * g.slbas := Nat.add_mul _ _ _
  have hok : (Cursor.of st.sb.buf).Ok := Cursor.ok_of _ hne
  have hrest := cursor_of_rest st.sb.buf
  have hql : st.sb.buf.flatten.length = q * g.bpl := by rw [hq, Nat.mul_comm]
  unfold readAt
  by_cases hc : ¬ st.sb.isEmpty = true ∧ lba < st.sb.nextLba g ∧ st.sb.lba ≤ lba + n - 1
  · rw [if_pos hc]
    by_cases hd : lba < st.sb.lba
    · -- both
      rw [if_pos hd]
      simp only
      generalize hN : n - (st.sb.lba - lba) = N
      have hNq : N ≤ q := by omega
      obtain ⟨sg, c', e1, -, e3, -⟩ := takeN_spec (N * g.bpl) (Cursor.of st.sb.buf) (N * g.bpl) hok
        (Nat.le_refl _) (by rw [hrest, hql]; exact Nat.mul_le_mul_right _ hNq)
      rw [e1]
      simp only
      rw [readDisks_spec h hcov D h1 (by omega) hd, Option.map_some, e3, hrest, hdata]
      congr 1
      have hle : (lba - Z * g.slbas) * g.bpl ≤ F.length := by
        rw [hFl]; apply Nat.mul_le_mul_right; omega
      have hd1 : (F.drop ((lba - Z * g.slbas) * g.bpl)).length = (st.sb.lba - lba) * g.bpl := by
        rw [List.length_drop, hFl, ← Nat.sub_mul]
        congr 1
        omega
      rw [List.drop_append_of_le_length hle, List.take_append, hd1]
      congr 1
      · rw [List.take_of_length_le (by omega), List.take_of_length_le]
        rw [hd1]; apply Nat.mul_le_mul_right; omega
      · congr 1
        rw [← Nat.sub_mul]
        congr 1
        omega
    · -- the stripe buffer only
      rw [if_neg hd]
      simp only
      generalize hK : lba - st.sb.lba = K
      have hKq : K + n ≤ q := by omega
      have hKn : K * g.bpl + n * g.bpl ≤ q * g.bpl := by
        rw [← Nat.add_mul]; exact Nat.mul_le_mul_right _ hKq
      obtain ⟨sg, c', e1, e2, e3, e4⟩ := takeN_spec (K * g.bpl) (Cursor.of st.sb.buf) (K * g.bpl) hok
        (Nat.le_refl _) (by rw [hrest, hql]; omega)
      rw [e1]
      simp only
      obtain ⟨sg2, c2, f1, -, f3, -⟩ := takeN_spec (n * g.bpl) c' (n * g.bpl) e2 (Nat.le_refl _)
        (by rw [e4, hrest, List.length_drop, hql]; omega)
      rw [f1, Option.map_some, f3, e4, hrest, hdata]
      congr 1
      have : (lba - Z * g.slbas) * g.bpl = F.length + K * g.bpl := by
        rw [hFl, ← Nat.add_mul]; congr 1; omega
      rw [this, ← List.drop_drop, List.drop_left]
  · rw [if_neg hc]
    -- the disks only
    have hle : lba + n ≤ (Z + T) * g.slbas := by
      rcases Nat.lt_or_ge ((Z + T) * g.slbas) (lba + n) with hgt | hle
      · exfalso
        apply hc
        refine ⟨?_, by omega, by omega⟩
        intro he
        have hemp : st.sb.buf = [] := by simpa [StripeBuffer.isEmpty] using he
        rw [hemp] at hql
        simp at hql
        have : q = 0 := by
          rcases hql with h0 | h0
          · exact h0
          · have := h.bpl; omega
        omega
      · exact hle
    rw [readDisks_spec h hcov D h1 hle (by omega), hdata]
    congr 1
    have e1 : lba + n - lba = n := by omega
    rw [e1]
    have hle1 : (lba - Z * g.slbas) * g.bpl ≤ F.length := by
      rw [hFl]; apply Nat.mul_le_mul_right; omega
    rw [List.drop_append_of_le_length hle1, List.take_append_of_le_length]
    rw [List.length_drop, hFl, ← Nat.sub_mul]
    apply Nat.mul_le_mul_right
    omega

/-- C10: after any writes and flushes in an open zone, of any lengths, none of which panics,
every range of LBAs that was written reads back as the bytes written, whether they are still in
the stripe buffer, on the disks, or both.  `D` is what the disks held before. -/
theorem C10_read (h : g.Lawful) (Z : Nat) (ops : List Op) (hne : ∀ b, Op.write b ∈ ops → b ≠ [])
    (D : Disks) : ∃ st, run g (opened g Z) ops = some st ∧
      st.sb.nextLba g = Z * g.slbas + (specRun g ops).length / g.bpl ∧
      ∀ lba n, Z * g.slbas ≤ lba → 0 < n →
        (lba + n - Z * g.slbas) * g.bpl ≤ (specRun g ops).length →
        readAt g st.sb (D.writes st.log) lba n =
          some (((specRun g ops).drop ((lba - Z * g.slbas) * g.bpl)).take (n * g.bpl)) := by
  obtain ⟨st, e1, e2⟩ := run_inv h ops [] (opened g Z) (al := False)
    (fun b hb => ⟨hne b hb, fun hf => hf.elim⟩) (opened_inv h Z False)
  exact ⟨st, e1, e2.next h, fun lba n h1 h2 h3 => e2.read h D h1 h2 h3⟩

/-- C10: what the disks receive is, byte for byte, the whole stripes written so far, with their
parity, each at its place, and no byte of any disk twice. -/
theorem C10_whole_stripes (h : g.Lawful) (Z : Nat) (ops : List Op)
    (hne : ∀ b, Op.write b ∈ ops → b ≠ []) : ∃ st, run g (opened g Z) ops = some st ∧
      (bytesOf st.log).Perm
        (bytesOf (stripeChunks g Z (specRun g ops) ((specRun g ops).length / g.stripe))) ∧
      ((bytesOf st.log).map fun x => (x.1, x.2.1)).Nodup := by
  obtain ⟨st, e1, e2⟩ := run_inv h ops [] (opened g Z) (al := False)
    (fun b hb => ⟨hne b hb, fun hf => hf.elim⟩) (opened_inv h Z False)
  refine ⟨st, e1, ?_⟩
  obtain ⟨⟨T, F, hcov, hlba, hdata⟩, hlt, -, -, -⟩ := e2
  have hdata' : specRun g ops = F ++ st.sb.buf.flatten := hdata
  have hT : (specRun g ops).length / g.stripe = T := by
    rw [hdata', List.length_append, hcov.1, Nat.add_comm, Nat.add_mul_div_right _ _ h.stripe_pos,
      Nat.div_eq_of_lt hlt, Nat.zero_add]
  refine ⟨?_, hcov.nodup h⟩
  rw [hT, hdata', stripeChunks_append Z F _ T (Nat.le_of_eq hcov.1.symm)]
  exact hcov.2

/-- C10: if all the writes are of whole LBAs, each disk gets its bytes in increasing order.
(`C10_out_of_order` shows what happens otherwise.) -/
theorem C10_in_order_partial (h : g.Lawful) (Z : Nat) (ops : List Op)
    (hne : ∀ b, Op.write b ∈ ops → b ≠ [] ∧ g.bpl ∣ b.length) :
    ∃ st, run g (opened g Z) ops = some st ∧ Ordered st.log := by
  obtain ⟨st, e1, e2⟩ := run_inv h ops [] (opened g Z) (al := True)
    (fun b hb => ⟨(hne b hb).1, fun _ => (hne b hb).2⟩) (opened_inv h Z True)
  exact ⟨st, e1, e2.ord trivial⟩

/-- C10: once the zone is flushed or finished, everything in it is on the disks, and `flush_zone`
returns by how much it padded the zone. -/
theorem C10_flush (h : g.Lawful) (Z : Nat) (ops : List Op) (hne : ∀ b, Op.write b ∈ ops → b ≠ [])
    (D : Disks) : ∃ st sb pad ws, run g (opened g Z) ops = some st ∧
      flushZone g st.sb = some (sb, pad, ws) ∧ sb.buf = [] ∧
      (specRun g ops).length + pad * g.bpl = (specRun g (ops ++ [.flush])).length ∧
      ∀ lba n, Z * g.slbas ≤ lba → 0 < n →
        (lba + n - Z * g.slbas) * g.bpl ≤ (specRun g (ops ++ [.flush])).length →
        readDisks g (D.writes (st.log ++ ws)) lba (lba + n) =
          some (((specRun g (ops ++ [.flush])).drop ((lba - Z * g.slbas) * g.bpl)).take
            (n * g.bpl)) := by
  obtain ⟨st, e1, e2⟩ := run_inv h ops [] (opened g Z) (al := False)
    (fun b hb => ⟨hne b hb, fun hf => hf.elim⟩) (opened_inv h Z False)
  obtain ⟨⟨sb, pad, ws⟩, f1, f2, f3, f4⟩ := flushZone_spec h e2
  have hs : specRun g (ops ++ [.flush]) = padTo g.stripe (specRun g ops) := by
    unfold specRun
    rw [List.foldl_append]
    rfl
  refine ⟨st, sb, pad, ws, e1, f1, f3, by rw [hs]; exact f4, ?_⟩
  intro lba n h1 h2 h3
  rw [hs] at h3 ⊢
  have hr := f2.read h D h1 h2 h3
  unfold readAt at hr
  simp only at hr f3
  rw [if_neg (by simp [StripeBuffer.isEmpty, f3])] at hr
  exact hr

/-! ### Non-vacuity, and writes out of order -/

/-- Single parity: the sum of the data columns. -/
def xorEnc (col : Nat) (cols : List Buf) : List Buf :=
  [(List.range col).map fun i => cols.foldl (fun acc c => acc ^^^ c.getD i 0) 0]

/-- Five disks, stripes of three data chunks and a parity chunk, two LBAs per chunk, two bytes
per LBA. -/
def exG : Geom := ⟨ofPrimeS false exL, 2, 2, 8, xorEnc 4⟩

theorem exG_lawful : exG.Lawful where
  layout := (primeS_lawful (n := 5) (k := 4) (f := 1) (by decide +kernel) (by decide) (by decide)).1
  cs := by decide
  bpl := by decide
  zr := by decide
  zr_bpl := by decide
  enc_len := by
    intro cols
    show 1 = exG.Y.k - exG.Y.m
    decide +kernel
  enc_col := by
    intro cols _ _ c hc
    have : c = (List.range 4).map fun i => cols.foldl (fun acc c => acc ^^^ c.getD i 0) 0 := by
      simpa [exG, xorEnc] using hc
    rw [this]
    rfl

/-- Three stripes and five LBAs, the last one partial, then a flush, then another write: reads
across the stripe buffer's boundary. -/
def exOps : List Op :=
  [.write [1, 2, 3], .write ((List.range 43).map fun i => UInt8.ofNat (i + 10)), .flush, .write [7]]

example : ((run exG (opened exG 7) exOps).bind fun st =>
    readAt exG st.sb (Disks.writes (fun _ _ => none) st.log) 42 25) = some (specRun exG exOps) ∧
    (specRun exG exOps).length = 50 := by
  decide +kernel

instance (ws : List CW) : Decidable (Ordered ws) := by unfold Ordered; infer_instance

/-- **The statement fails for partial LBAs**: if the data ends within the last LBA of a stripe,
that stripe is sent to the disks before the whole stripes that precede it. -/
theorem C10_out_of_order : ∃ st, run exG (opened exG 0)
    [.write ((List.range 47).map fun i => UInt8.ofNat i)] = some st ∧ ¬ Ordered st.log := by
  have key : (run exG (opened exG 0) [.write ((List.range 47).map fun i => UInt8.ofNat i)]).map
      (fun st => decide (Ordered st.log)) = some false := by decide +kernel
  obtain ⟨st, h1, h2⟩ := Option.map_eq_some_iff.mp key
  exact ⟨st, h1, of_decide_eq_false h2⟩

end Verif.Raid
