import Verif.Raid.LongProps
import Verif.Raid.ReconExamples

/-!
# C63: violations, and cases that meet the hypotheses
-/

namespace Verif.Raid

open Verif.Bytes Verif.Codec

/-- The buffers after reads from disks that hold `D`. -/
def fillAll (D : Disks) (r : CR) : Buf :=
  (List.range r.len).map fun i => (D r.disk (r.addr + i)).getD 0

theorem fillAll_length (D : Disks) (r : CR) : (fillAll D r).length = r.len := by simp [fillAll]

theorem fillAll_honest {D D' : Disks} {d : Nat} (h : ∀ a, D' d a = D d a) :
    Honest D (fillAll D') d := by
  intro r hr i hi v hv
  unfold fillAll
  rw [List.getElem?_map, List.getElem?_range hi, Option.map_some, hr, h, hv]
  rfl

/-- The disks `D`, with the byte at `a` of disk `d` changed. -/
def corrupt (D : Disks) (d a : Nat) (v : UInt8) : Disks :=
  fun d' a' => if d' = d ∧ a' = a then some v else D d' a'

theorem corrupt_other {D : Disks} {d a : Nat} {v : UInt8} {d' : Nat} (h : d' ≠ d) (a' : Nat) :
    corrupt D d a v d' a' = D d' a' := by
  unfold corrupt
  rw [if_neg (by omega)]

/-! ### Double parity: wrong parity is trusted -/

/-- Disk 0 returns a wrong byte of data, and disk 2 a wrong byte of parity. -/
def exRot : Disks := corrupt (corrupt (exDisks exC2 [.write (exBuf 16)]) 0 0 0) 2 0 88

/-- The chunks of the first stripe. -/
def exRotGot : List Buf := [[0, 8, 15, 22], [29, 36, 43, 50], [88, 24, 144, 238], [116, 225, 158, 224]]

theorem exRot_chunks : (List.range exC2.Y.k).mapM (longChunk exC2 0 2 (fillAll exRot) 0) =
    some exRotGot := by decide +kernel

/-- However many columns of the first stripe are taken as erased, it is not recovered. -/
theorem exRot_wrong {invert : Nat → Mat → Option Mat} (hI : Inverts invert) (erased : List Nat) :
    ∀ x, longMultiStripe exC2 (codecDec invert exC2.Y.m 2) 0 2 (fillAll exRot) erased 0 = some x →
      x.take 8 ≠ exBuf 8 := by
  intro x hx
  unfold longMultiStripe at hx
  rw [exRot_chunks] at hx
  dsimp only at hx
  have hd : (List.range exC2.Y.m).filter (fun b => erased.contains (exC2.Y.disk 0 b)) =
      (if erased.contains 0 then [0] else []) ++ (if erased.contains 1 then [1] else []) := by
    have h1 : List.range exC2.Y.m = [0, 1] := by decide +kernel
    have h2 : exC2.Y.disk 0 0 = 0 := by decide +kernel
    have h3 : exC2.Y.disk 0 1 = 1 := by decide +kernel
    rw [h1, List.filter_cons, List.filter_cons, h2, h3]
    cases erased.contains 0 <;> cases erased.contains 1 <;> rfl
  rw [hd] at hx
  have hspec : ∀ er : List Nat, erasedCount (fun b => er.contains b) exC2.Y.k ≤ 2 → _ := fun er he =>
    longStripe_spec exC2_lawful (f := 2) (by decide +kernel) (by decide +kernel) rfl hI
      (got := fun b => exRotGot.getD b []) (by decide +kernel) (erased := er) he
  cases h0 : erased.contains 0 <;> cases h1 : erased.contains 1 <;> rw [h0, h1] at hx
  · obtain ⟨x', e1, -, e3⟩ := hspec [] (by decide +kernel)
    rw [show (if false = true then [0] else []) ++ (if false = true then [1] else []) =
      ([] : List Nat) from rfl] at hx
    rw [hx] at e1
    rw [Option.some.inj e1, e3 [0, 8, 15, 22, 29, 36, 43, 50] (by decide +kernel) (by decide +kernel)
      (Or.inl (by simp))]
    decide +kernel
  · obtain ⟨x', e1, -, e3⟩ := hspec [1] (by decide +kernel)
    rw [show (if false = true then [0] else []) ++ (if true = true then [1] else []) =
      [1] from rfl] at hx
    rw [hx] at e1
    rw [Option.some.inj e1, e3 [0, 8, 15, 22, 232, 36, 43, 50] (by decide +kernel)
      (by decide +kernel) (Or.inr (by decide +kernel))]
    decide +kernel
  · obtain ⟨x', e1, -, e3⟩ := hspec [0] (by decide +kernel)
    rw [show (if true = true then [0] else []) ++ (if false = true then [1] else []) =
      [0] from rfl] at hx
    rw [hx] at e1
    rw [Option.some.inj e1, e3 [166, 8, 15, 22, 29, 36, 43, 50] (by decide +kernel)
      (by decide +kernel) (Or.inr (by decide +kernel))]
    decide +kernel
  · obtain ⟨x', e1, -, e3⟩ := hspec [0, 1] (by decide +kernel)
    rw [show (if true = true then [0] else []) ++ (if true = true then [1] else []) =
      [0, 1] from rfl] at hx
    rw [hx] at e1
    rw [Option.some.inj e1, e3 [0, 8, 15, 22, 232, 36, 43, 50] (by decide +kernel)
      (by decide +kernel) (Or.inr (by decide +kernel))]
    decide +kernel

/-- C63, violated in an array with double parity: two of the five disks return wrong data of a
stripe, one of its data and one of its first parity chunk.  A long read of two stripes doesn't
offer the data written, since a parity chunk is never taken as erased. -/
theorem C63_parity_counterexample {invert : Nat → Mat → Option Mat} (hI : Inverts invert) :
    ∃ (D : Disks) (F : Buf) (fill : CR → Buf) (bad : Nat → Bool), OnDisks exC2 D 0 2 F ∧
      (∀ r, (fill r).length = r.len) ∧ exC2.Y.k = exC2.Y.m + 2 ∧
      (List.range exC2.Y.n).countP bad ≤ 2 ∧ (∀ d, bad d = false → Honest D fill d) ∧
      F.length = 8 * exC2.bpl ∧
      some F ∉ readLongMulti exC2 2 (codecDec invert exC2.Y.m 2) 0 8 fill fun _ => .ok := by
  refine ⟨_, _, fillAll exRot, fun d => d == 0 || d == 2, exC2_onDisks, fillAll_length _,
    by decide +kernel, by decide +kernel, ?_, by decide +kernel, ?_⟩
  · intro d hd
    apply fillAll_honest
    intro a
    simp only [Bool.or_eq_false_iff, beq_eq_false_iff_ne] at hd
    unfold exRot
    rw [corrupt_other hd.2, corrupt_other hd.1]
  · intro hm
    unfold readLongMulti at hm
    dsimp only at hm
    obtain ⟨c, hcm, hc⟩ := List.mem_map.mp hm
    have hcl : c.length ≤ 2 :=
      Nat.le_of_eq (combinations_mem _ _ _ (List.mem_filter.mp hcm).1).2
    rw [show (0 + 8 - 1) / exC2.slbas - 0 / exC2.slbas + 1 = 2 by decide +kernel,
      show 0 / exC2.slbas = 0 by decide +kernel, show List.range' 0 2 = [0, 1] from rfl,
      List.mapM_cons, List.mapM_cons, List.mapM_nil] at hc
    cases hx : longMultiStripe exC2 (codecDec invert exC2.Y.m 2) 0 2 (fillAll exRot) c 0 with
    | none => rw [hx] at hc; cases hc
    | some x =>
      cases hx' : longMultiStripe exC2 (codecDec invert exC2.Y.m 2) 0 2 (fillAll exRot) c 1 with
      | none => rw [hx, hx'] at hc; cases hc
      | some x' =>
        rw [hx, hx'] at hc
        apply exRot_wrong hI c x hx
        obtain ⟨x0, e1, e2, -⟩ := longMultiStripe_spec exC2_lawful (f := 2) (by decide +kernel)
          (by decide +kernel) rfl hI (fillAll_length exRot) (s := 0) (n := 2) (t := 0) (by omega)
          (by omega) (erased := c) hcl
        have hxl : x.length = 8 := by
          rw [hx] at e1
          rw [Option.some.inj e1, e2]
          decide +kernel
        have hc' := Option.some.inj hc
        have : (exBuf 16).take 8 = x.take 8 := by
          rw [← hc']
          dsimp only
          rw [show 0 % exC2.slbas * exC2.bpl = 0 by decide +kernel, List.drop_zero,
            List.flatten_cons, List.take_take, show min 8 (8 * exC2.bpl) = 8 by decide +kernel,
            List.take_append_of_le_length (by omega)]
        rw [← this]
        decide +kernel

/-! ### Disks that hold none of the stripes: errors are misattributed -/

/-- Seven disks, single parity over stripes of three chunks. -/
def exC7 : Geom := ⟨ofPrimeS false ⟨7, 3, 2, 4, 1, 84, 42, 18⟩, 2, 2, 8, codecEnc 2 1 4⟩

theorem exC7_lawful : exC7.Lawful where
  layout := (primeS_lawful (n := 7) (k := 3) (f := 1) (by decide +kernel) (by decide) (by decide)).1
  cs := by decide
  bpl := by decide
  zr := by decide
  zr_bpl := by decide
  enc_len := by
    intro cols
    have h1 : exC7.Y.k - exC7.Y.m = 1 := by decide +kernel
    rw [h1]
    simp [exC7, codecEnc, encode, ecEncode]
  enc_col := by
    intro cols _ _ c hc
    have h1 : exC7.col = 4 := by decide
    rw [h1]
    simp only [exC7, codecEnc, encode, ecEncode, List.mem_map] at hc
    obtain ⟨c', ⟨i, hi, rfl⟩, rfl⟩ := hc
    simp

theorem exC7_onDisks : OnDisks exC7 (exDisks exC7 [.write (exBuf 24)]) 0 3 (exBuf 24) where
  len := by decide +kernel
  chunk := by decide +kernel

/-- Without erased data, the decoder isn't used. -/
theorem longMultiStripe_none {g : Geom} (dec dec' : Decoder) (s n : Nat) (fill : CR → Buf)
    {erased : List Nat} {t : Nat} (h : ∀ b < g.Y.m, g.Y.disk t b ∉ erased) :
    longMultiStripe g dec s n fill erased t = longMultiStripe g dec' s n fill erased t := by
  have h0 : (List.range g.Y.m).filter (fun b => erased.contains (g.Y.disk t b)) = [] := by
    rw [List.filter_eq_nil_iff]
    intro b hb
    simpa using h b (List.mem_range.mp hb)
  have h1 : ∀ (dec : Decoder) (got : Nat → Buf), longStripe g.Y.m g.Y.k dec g.col got [] =
      some ((List.range g.Y.m).map got).flatten := by
    intro dec got
    unfold longStripe
    dsimp only
    rw [if_pos (by simp)]
  unfold longMultiStripe
  rw [h0]
  simp only [h1]

/-- C63, violated in an array with single parity: only disk 2 fails, and says so.  A long read of
the second and third stripe offers nothing but wrong data, since disk 2 is the first of the disks
that these stripes are on, and is taken for disk 0. -/
theorem C63_index_counterexample (dec : Decoder) :
    ∃ (D : Disks) (F : Buf) (fill : CR → Buf) (res : Nat → Res), OnDisks exC7 D 0 3 F ∧
      Answers D res fill ∧ exC7.Y.k = exC7.Y.m + 1 ∧
      (∀ d, d ≠ 2 → res d = .ok) ∧ res 2 = .err ENXIO ∧
      ∃ x, readLongMulti exC7 1 dec 4 8 fill res = [some x] ∧
        x ≠ (F.drop (4 * exC7.bpl)).take (8 * exC7.bpl) := by
  refine ⟨_, _, _, exFail [2], exC7_onDisks, answers_fillOf _ _, by decide +kernel, ?_,
    by decide, ?_⟩
  · intro d hd
    unfold exFail
    rw [if_neg (by simpa using hd)]
  · unfold readLongMulti
    dsimp only
    rw [show (4 + 8 - 1) / exC7.slbas - 4 / exC7.slbas + 1 = 2 by decide +kernel,
      show 4 / exC7.slbas = 1 by decide +kernel, show List.range' 1 2 = [1, 2] from rfl,
      show (combinations 1 (List.range exC7.Y.n)).filter (fun erased =>
        (longFailures exC7 1 2 (exFail [2])).all erased.contains) = [[0]] by decide +kernel,
      List.map_cons, List.map_nil, List.mapM_cons, List.mapM_cons, List.mapM_nil,
      longMultiStripe_none dec (fun _ _ _ => none) 1 2 _ (t := 1) (by decide +kernel),
      longMultiStripe_none dec (fun _ _ _ => none) 1 2 _ (t := 2) (by decide +kernel)]
    refine ⟨[0, 0, 0, 0] ++ (exBuf 24).drop 12, ?_, ?_⟩ <;> decide +kernel

/-! ### Cases that meet the hypotheses -/

/-- The same two disks with wrong bytes, and a read within the first stripe: the data is offered. -/
example {invert : Nat → Mat → Option Mat} (hI : Inverts invert) :
    ∃ cs, readLong exC2 2 (codecDec invert exC2.Y.m 2) 1 1 2 (fillAll exRot) (fun _ => .ok) = some cs ∧
      some (((exBuf 16).drop 2).take 4) ∈ cs := by
  obtain ⟨cs, h1, -, h2⟩ := (C63_read_long_partial exC2_lawful (f := 2) (by decide +kernel)
    (by decide +kernel) rfl hI (fillAll_length exRot) (res := fun _ => .ok) (u := 1) (n := 2)
    (by omega) 1).2 (by omega)
  refine ⟨cs, h1, ?_⟩
  have := h2 _ 0 2 _ exC2_onDisks (by simp) (by decide +kernel) (fun d => d == 0 || d == 2)
    (by decide +kernel) ?_ (Or.inl (by decide +kernel))
  · rwa [show (1 - 0 * exC2.slbas) * exC2.bpl = 2 by decide +kernel,
      show 2 * exC2.bpl = 4 by decide +kernel] at this
  · intro d _ hd
    refine ⟨rfl, fillAll_honest fun a => ?_⟩
    simp only [Bool.or_eq_false_iff, beq_eq_false_iff_ne] at hd
    unfold exRot
    rw [corrupt_other hd.2, corrupt_other hd.1]

/-- Single parity, with a wrong byte on disk 1 in the first stripe: the data of both is offered. -/
example {invert : Nat → Mat → Option Mat} (hI : Inverts invert) :
    ∃ cs, readLong exC 1 (codecDec invert exC.Y.m 1) 0 1 10
        (fillAll (corrupt (exDisks exC [.write (exBuf 24)]) 1 2 77)) (fun _ => .ok) = some cs ∧
      some (((exBuf 24).drop 2).take 20) ∈ cs := by
  obtain ⟨cs, h1, -, h2⟩ := (C63_read_long_partial exC_lawful (f := 1) (by decide +kernel)
    (by decide +kernel) rfl hI (fillAll_length (corrupt (exDisks exC [.write (exBuf 24)]) 1 2 77))
    (res := fun _ => .ok) (u := 1) (n := 10) (by omega) 0).2 (by omega)
  refine ⟨cs, h1, ?_⟩
  have := h2 _ 0 2 _ exC_onDisks (by simp) (by decide +kernel) (fun d => d == 1)
    (by decide +kernel) ?_ (Or.inr ⟨Or.inl rfl, Or.inl fun _ _ => rfl⟩)
  · rwa [show (1 - 0 * exC.slbas) * exC.bpl = 2 by decide +kernel,
      show 10 * exC.bpl = 20 by decide +kernel] at this
  · intro d _ hd
    refine ⟨rfl, fillAll_honest fun a => ?_⟩
    exact corrupt_other (by simpa using hd) a

/-- The same byte, and disk 1 also reports an error: every disk holds some of the two stripes. -/
example {invert : Nat → Mat → Option Mat} (hI : Inverts invert) :
    some (((exBuf 24).drop 2).take 20) ∈ readLongMulti exC 1 (codecDec invert exC.Y.m 1) 1 10
      (fillAll (corrupt (exDisks exC [.write (exBuf 24)]) 1 2 77)) (exFail [1]) := by
  have := (C63_read_long_multi_partial exC_lawful (f := 1) (by decide +kernel)
    (by decide +kernel) rfl hI (fillAll_length (corrupt (exDisks exC [.write (exBuf 24)]) 1 2 77))
    (res := exFail [1]) (u := 1) (n := 10) (by omega)).2 _ 0 2 _ exC_onDisks (by simp)
    (by decide +kernel) (fun d => d == 1) (by decide +kernel) ?_ (Or.inl rfl) (Or.inr ?_)
  · rwa [show (1 - 0 * exC.slbas) * exC.bpl = 2 by decide +kernel,
      show 10 * exC.bpl = 20 by decide +kernel] at this
  · intro d _ hd
    have hd : d ≠ 1 := by simpa using hd
    refine ⟨?_, fillAll_honest (corrupt_other hd)⟩
    unfold exFail
    rw [if_neg (by simpa using hd)]
  · rw [show 1 / exC.slbas = 0 by decide +kernel, show (1 + 10 - 1) / exC.slbas = 1 by decide +kernel]
    have : ∀ d < exC.Y.n, ∃ t < 2, ∃ b < exC.Y.k, exC.Y.disk t b = d := by decide +kernel
    intro d hd
    obtain ⟨t, ht, hb⟩ := this d hd
    exact ⟨t, by omega, by omega, hb⟩

end Verif.Raid
