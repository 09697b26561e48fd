import Verif.Bytes.Model

/-! # Scatter-gather helpers: C57 -/

namespace Verif.Bytes

/-- A hasher is a *byte stream* hasher if splitting the input does not matter.  MetroHash64 and
the standard hasher's `write` are (trusted; the unit tests of util.rs check instances). -/
def Hasher.Streaming (h : Hasher) : Prop :=
  (∀ st, h.write st [] = st) ∧ ∀ st a b, h.write (h.write st a) b = h.write st (a ++ b)

/-- C57: the checksum of a scatter-gather list depends only on the concatenated bytes. -/
theorem C57_checksum_bytes (h : Hasher) (hs : h.Streaming) (st : h.State) (l : SGList) :
    checksumSglist h st l = checksumIovec h st l.flatten := by
  unfold checksumSglist checksumIovec
  induction l generalizing st with
  | nil => simp [hs.1]
  | cons b l ih => simp [ih, hs.2]

theorem C57_checksum_same (h : Hasher) (hs : h.Streaming) (st : h.State) (l l' : SGList)
    (he : l.flatten = l'.flatten) : checksumSglist h st l = checksumSglist h st l' := by
  rw [C57_checksum_bytes h hs, C57_checksum_bytes h hs, he]

/-- The hypothesis is met, e.g. by a polynomial hash. -/
example : Hasher.Streaming
    ⟨UInt64, 7, fun st b => b.foldl (fun s x => s * 31 + x.toUInt64) st, id⟩ :=
  ⟨fun _ => rfl, fun _ a b => by simp [List.foldl_append]⟩

theorem C57_len (l : SGList) : sglistLen l = l.flatten.length := by
  have : ∀ n, l.foldl (fun acc (b : Buf) => acc + b.length) n = n + l.flatten.length := by
    induction l with
    | nil => intro n; simp
    | cons b l ih => intro n; simp [ih, Nat.add_assoc]
  simpa [sglistLen] using this 0

theorem padLoop_spec (l : SGList) : ∀ (out : SGList) (acc : Option Buf) out' acc',
    padLoop l out acc = some (out', acc') →
    (∀ b ∈ out, b.length % lbaBytes = 0) →
    (∀ a, acc = some a → a.length % lbaBytes ≠ 0) →
    (∀ b ∈ out', b.length % lbaBytes = 0) ∧
    (∀ a, acc' = some a → a.length % lbaBytes ≠ 0) ∧
    out'.flatten ++ acc'.getD [] = out.flatten ++ acc.getD [] ++ l.flatten := by
  induction l with
  | nil =>
    intro out acc out' acc' h ho ha
    simp only [padLoop, Option.some.injEq, Prod.mk.injEq] at h
    obtain ⟨h1, h2⟩ := h
    subst h1 h2
    exact ⟨ho, ha, by simp⟩
  | cons db rest ih =>
    intro out acc out' acc' h ho ha
    unfold padLoop at h
    split at h
    · rename_i hm
      cases acc with
      | some a => cases h
      | none =>
        simp only at h
        obtain ⟨h1, h2, h3⟩ := ih _ _ _ _ h
          (by intro b hb; rcases List.mem_append.mp hb with hb | hb
              · exact ho b hb
              · have : b = db := by simpa using hb
                subst this; exact hm) (by simp)
        exact ⟨h1, h2, by rw [h3]; simp⟩
    · rename_i hm
      cases acc with
      | some a =>
        simp only at h
        split at h
        · cases h
        · split at h
          · rename_i hz
            obtain ⟨h1, h2, h3⟩ := ih _ _ _ _ h
              (by intro b hb; rcases List.mem_append.mp hb with hb | hb
                  · exact ho b hb
                  · have : b = a ++ db := by simpa using hb
                    subst this; exact hz) (by simp)
            exact ⟨h1, h2, by rw [h3]; simp⟩
          · rename_i hz
            obtain ⟨h1, h2, h3⟩ := ih _ _ _ _ h ho
              (by intro a' he; cases he; exact hz)
            exact ⟨h1, h2, by rw [h3]; simp⟩
      | none =>
        simp only at h
        split at h
        · rename_i hgt
          have hle : db.length / lbaBytes * lbaBytes ≤ db.length := Nat.div_mul_le_self _ _
          obtain ⟨h1, h2, h3⟩ := ih _ _ _ _ h
            (by intro b hb; rcases List.mem_append.mp hb with hb | hb
                · exact ho b hb
                · have : b = db.take (db.length / lbaBytes * lbaBytes) := by simpa using hb
                  subst this
                  rw [List.length_take, Nat.min_eq_left hle]
                  exact Nat.mul_mod_left _ _)
            (by intro a' he; cases he
                rw [List.length_drop]
                simp only [lbaBytes] at *
                omega)
          exact ⟨h1, h2, by rw [h3]; simp [List.take_append_drop]⟩
        · obtain ⟨h1, h2, h3⟩ := ih _ _ _ _ h ho
            (by intro a' he; cases he; exact hm)
          exact ⟨h1, h2, by rw [h3]; simp⟩

/-- C57: a list prepared for writing consists of whole blocks, holds all the bytes in order,
and has fewer than one block of zeros appended. -/
theorem C57_pad_preserves_partial (l out : SGList) (h : copyAndPad l = some out) :
    (∀ b ∈ out, b.length % lbaBytes = 0) ∧
    ∃ k, k < lbaBytes ∧ out.flatten = l.flatten ++ List.replicate k 0 := by
  unfold copyAndPad at h
  split at h
  · split at h
    · cases h
    · rename_i out' hp
      cases h
      obtain ⟨h1, _, h3⟩ := padLoop_spec l [] none _ _ hp (by simp) (by simp)
      exact ⟨h1, 0, by decide, by simpa using h3⟩
    · rename_i out' a hp
      obtain ⟨h1, h2, h3⟩ := padLoop_spec l [] none _ _ hp (by simp) (by simp)
      have ha := h2 a rfl
      simp only [Option.some.injEq] at h
      subst h
      refine ⟨?_, (a.length + (lbaBytes - 1)) / lbaBytes * lbaBytes - a.length, ?_, ?_⟩
      · intro b hb
        rcases List.mem_append.mp hb with hb | hb
        · exact h1 b hb
        · have : b = a ++ List.replicate
              ((a.length + (lbaBytes - 1)) / lbaBytes * lbaBytes - a.length) 0 := by simpa using hb
          subst this
          rw [List.length_append, List.length_replicate]
          simp only [lbaBytes] at *
          omega
      · simp only [lbaBytes] at *
        omega
      · have h3' : out'.flatten ++ a = l.flatten := by simpa using h3
        simp [← h3']
  · rename_i hn
    cases h
    refine ⟨?_, 0, by decide, by simp⟩
    intro b hb
    have : ¬ ∃ x ∈ l, x.length % lbaBytes ≠ 0 := by simpa using hn
    exact Decidable.byContradiction fun hne => this ⟨b, hb, hne⟩

/-- C57: it cannot fail when every buffer but the last is a whole number of blocks, nor when
every buffer is shorter than a block and not empty. -/
theorem C57_pad_total_partial (l : SGList)
    (h : (∃ l1 b, l = l1 ++ [b] ∧ ∀ x ∈ l1, x.length % lbaBytes = 0) ∨
      (∀ x ∈ l, 0 < x.length ∧ x.length < lbaBytes)) :
    ∃ out, copyAndPad l = some out := by
  have key : ∃ r, padLoop l [] none = some r := by
    rcases h with ⟨l1, b, h1, h2⟩ | h
    · subst h1
      have : ∀ out, ∃ r, padLoop (l1 ++ [b]) out none = some r := by
        induction l1 with
        | nil =>
          intro out
          simp only [List.nil_append, padLoop]
          split
          · exact ⟨_, rfl⟩
          · split <;> exact ⟨_, rfl⟩
        | cons x l1 ih =>
          intro out
          have hx := h2 x (by simp)
          obtain ⟨r, hr⟩ := ih (fun y hy => h2 y (by simp [hy])) (out ++ [x])
          exact ⟨r, by simp only [List.cons_append, padLoop, if_pos hx]; exact hr⟩
      exact this []
    · have : ∀ out acc, ∃ r, padLoop l out acc = some r := by
        induction l with
        | nil => intro out acc; exact ⟨_, rfl⟩
        | cons x l ih =>
          intro out acc
          have hx := h x (by simp)
          have hm : ¬ x.length % lbaBytes = 0 := by simp only [lbaBytes] at *; omega
          have hg : ¬ x.length > lbaBytes := by omega
          have ih := ih (fun y hy => h y (by simp [hy]))
          simp only [padLoop, if_neg hm, if_neg hg]
          cases acc with
          | none => exact ih _ _
          | some a =>
            simp only
            split
            · exact ih _ _
            · exact ih _ _
      exact this [] none
  obtain ⟨⟨out, acc⟩, hr⟩ := key
  unfold copyAndPad
  split
  · rw [hr]
    cases acc
    · exact ⟨_, rfl⟩
    · exact ⟨_, rfl⟩
  · exact ⟨_, rfl⟩

/-- C57 fails for some shapes: a partial block followed by a whole one makes the helper panic
(assertion at util.rs:90). -/
theorem C57_pad_panics : ∃ l : SGList, copyAndPad l = none :=
  ⟨[List.replicate 100 1, List.replicate 4096 2], by decide +kernel⟩

/-- The other panic: a buffer longer than a block after a partial one (util.rs:96). -/
theorem C57_pad_unimplemented : copyAndPad [List.replicate 100 1, List.replicate 5000 2] = none := by
  decide +kernel

/-- Non-trivial case: a header and two records, as in a label. -/
example : (copyAndPad [List.replicate 32 1, List.replicate 44 2, List.replicate 60 3]).map
    (List.map List.length) = some [4096] := by decide +kernel

/-- C57: `zero_sglist(len)` consists of exactly `len` zeros, for `len > 0`. -/
theorem C57_zeros (len : Nat) (h : 0 < len) :
    ∃ out, zeroSglist len = some out ∧ out.flatten = List.replicate len 0 := by
  unfold zeroSglist
  have hz : ¬ (len + (zeroRegionLen - 1)) / zeroRegionLen = 0 := by
    simp only [zeroRegionLen, lbaBytes]; omega
  simp only [if_neg hz]
  refine ⟨_, rfl, ?_⟩
  have hf : ∀ n m : Nat, (List.replicate n (List.replicate m (0 : Byte))).flatten =
      List.replicate (n * m) 0 := by
    intro n m
    induction n with
    | zero => simp
    | succ n ih =>
      rw [List.replicate_succ, List.flatten_cons, ih, List.replicate_append_replicate,
        Nat.succ_mul, Nat.add_comm]
  rw [List.flatten_append, hf]
  simp only [List.flatten_cons, List.flatten_nil, List.append_nil,
    List.replicate_append_replicate]
  congr 1
  simp only [zeroRegionLen, lbaBytes]
  omega

theorem C57_zeros_empty_panics : zeroSglist 0 = none := by decide

/-! ## The cursor -/

/-- The bytes a cursor has not yet returned. -/
def Cursor.rest (c : Cursor) : Buf :=
  match c.sglist.drop c.sglistIdx with
  | [] => []
  | b :: bs => b.drop c.iovecIdx ++ bs.flatten

/-- A cursor as built by `From` and moved by `next` over a list of non-empty buffers. -/
def Cursor.Ok (c : Cursor) : Prop :=
  (∀ b ∈ c.sglist, b ≠ []) ∧
  (match c.sglist[c.sglistIdx]? with
   | some b => c.iovecIdx < b.length
   | none => c.iovecIdx = 0)

theorem Cursor.ok_of (l : SGList) (h : ∀ b ∈ l, b ≠ []) : (Cursor.of l).Ok := by
  refine ⟨h, ?_⟩
  cases l with
  | nil => simp [Cursor.of]
  | cons b l =>
    simp only [Cursor.of, List.getElem?_cons_zero]
    exact List.length_pos_iff.mpr (h b (by simp))

theorem Cursor.ok_zero {c : Cursor} (h : ∀ b ∈ c.sglist, b ≠ []) (h0 : c.iovecIdx = 0) : c.Ok := by
  refine ⟨h, ?_⟩
  cases hb : c.sglist[c.sglistIdx]? with
  | none => exact h0
  | some b =>
    simp only [h0]
    exact List.length_pos_iff.mpr (h b (List.mem_of_getElem? hb))

theorem drop_of_getElem? {α} {l : List α} {i : Nat} {b : α} (h : l[i]? = some b) :
    l.drop i = b :: l.drop (i + 1) := by
  have hi : i < l.length := by
    rcases Nat.lt_or_ge i l.length with h1 | h1
    · exact h1
    · rw [List.getElem?_eq_none h1] at h; cases h
  rw [List.drop_eq_getElem_cons hi]
  rw [List.getElem?_eq_getElem hi] at h
  simp at h; rw [h]

theorem rest_of_zero (c : Cursor) (h : c.iovecIdx = 0) : c.rest = (c.sglist.drop c.sglistIdx).flatten := by
  unfold Cursor.rest
  split
  · rename_i hd; rw [hd]; rfl
  · rename_i b bs hd; rw [hd, h]; simp

/-- C57: each request to a cursor returns the next bytes of the list, in order; the piece is
not longer than requested and, for a request of at least one byte, not empty.  The cursor is
exhausted exactly when it returns nothing. -/
theorem C57_cursor_next (c : Cursor) (hc : c.Ok) (max : Nat) :
    (c.next max).2.Ok ∧
    (match (c.next max).1 with
     | none => c.rest = [] ∧ (c.next max).2 = c
     | some b => c.rest = b ++ (c.next max).2.rest ∧ b.length ≤ max ∧ (0 < max → b ≠ [])) := by
  obtain ⟨hne, hidx⟩ := hc
  cases hb : c.sglist[c.sglistIdx]? with
  | none =>
    rw [hb] at hidx
    have hp : c.peekLen = 0 := by simp [Cursor.peekLen, hb]
    have hn : c.next max = (none, c) := by simp [Cursor.next, hp]
    rw [hn]
    refine ⟨⟨hne, by rw [hb]; exact hidx⟩, ?_, rfl⟩
    rw [rest_of_zero c hidx, List.drop_eq_nil_iff.mpr (List.getElem?_eq_none_iff.mp hb)]
    rfl
  | some b =>
    rw [hb] at hidx
    simp only at hidx
    have hp : c.peekLen = b.length - c.iovecIdx := by simp [Cursor.peekLen, hb]
    have hg : c.sglist.getD c.sglistIdx [] = b := by simp [List.getD, hb]
    have hrest : c.rest = b.drop c.iovecIdx ++ (c.sglist.drop (c.sglistIdx + 1)).flatten := by
      unfold Cursor.rest
      rw [drop_of_getElem? hb]
    have h0 : ¬ (b.length - c.iovecIdx = 0) := by omega
    by_cases hm : max < b.length - c.iovecIdx
    · have hn : c.next max = (some ((b.drop c.iovecIdx).take max),
          { c with iovecIdx := c.iovecIdx + max }) := by
        simp only [Cursor.next, hp, hg, if_neg h0, if_pos hm]
      rw [hn]
      refine ⟨⟨hne, ?_⟩, ?_, ?_, ?_⟩
      · simp only [hb]; omega
      · have hr2 : Cursor.rest { c with iovecIdx := c.iovecIdx + max } =
            b.drop (c.iovecIdx + max) ++ (c.sglist.drop (c.sglistIdx + 1)).flatten := by
          unfold Cursor.rest
          simp only [drop_of_getElem? hb]
        have hd : b.drop (c.iovecIdx + max) = (b.drop c.iovecIdx).drop max := by
          rw [List.drop_drop]
        rw [hr2, hrest, ← List.append_assoc, hd, List.take_append_drop]
      · rw [List.length_take]; omega
      · intro h1 he
        have := congrArg List.length he
        simp only [List.length_take, List.length_drop, List.length_nil] at this
        omega
    · by_cases hi : 0 < c.iovecIdx
      · have hn : c.next max = (some (b.drop c.iovecIdx),
            { c with iovecIdx := 0, sglistIdx := c.sglistIdx + 1 }) := by
          simp only [Cursor.next, hp, hg, if_neg h0, if_neg hm, if_pos hi]
        rw [hn]
        refine ⟨Cursor.ok_zero hne rfl, ?_, ?_, ?_⟩
        · rw [hrest]; simp only; rw [rest_of_zero { c with iovecIdx := 0, sglistIdx := c.sglistIdx + 1 } rfl]
        · rw [List.length_drop]; omega
        · intro h1 he
          have := congrArg List.length he
          simp only [List.length_drop, List.length_nil] at this
          omega
      · have hn : c.next max = (some b, { c with sglistIdx := c.sglistIdx + 1 }) := by
          simp only [Cursor.next, hp, hg, if_neg h0, if_neg hm, if_neg hi]
        have hi0 : c.iovecIdx = 0 := by omega
        rw [hn]
        refine ⟨Cursor.ok_zero hne hi0, ?_, ?_, ?_⟩
        · rw [hrest]; simp only; rw [rest_of_zero { c with sglistIdx := c.sglistIdx + 1 } hi0, hi0]; rfl
        · omega
        · intro h1 he
          rw [he] at hidx; simp at hidx

/-- C57: whatever the requests, the pieces returned so far followed by what is left are the
bytes of the list; once a request of a positive size is refused, everything was returned. -/
theorem C57_cursor_run (l : SGList) (hl : ∀ b ∈ l, b ≠ []) (ms : List Nat) :
    ((Cursor.of l).run ms).1.flatten ++ ((Cursor.of l).run ms).2.rest = l.flatten ∧
    ∀ m, (((Cursor.of l).run ms).2.next m).1 = none →
      ((Cursor.of l).run ms).1.flatten = l.flatten := by
  have key : ∀ (ms : List Nat) (c : Cursor), c.Ok →
      (c.run ms).1.flatten ++ (c.run ms).2.rest = c.rest ∧ (c.run ms).2.Ok := by
    intro ms
    induction ms with
    | nil => intro c hc; exact ⟨by simp [Cursor.run], hc⟩
    | cons m ms ih =>
      intro c hc
      obtain ⟨h1, h2⟩ := C57_cursor_next c hc m
      unfold Cursor.run
      rcases hn : c.next m with ⟨_ | b, c'⟩
      · rw [hn] at h1 h2
        simp only at h2 ⊢
        refine ⟨?_, h1⟩
        rw [h2.2]; simp
      · rw [hn] at h1 h2
        simp only at h1 h2 ⊢
        obtain ⟨h3, h4⟩ := ih c' h1
        refine ⟨?_, h4⟩
        rw [h2.1, List.flatten_cons, List.append_assoc, h3]
  have hok := Cursor.ok_of l hl
  obtain ⟨h1, h2⟩ := key ms _ hok
  have hr : (Cursor.of l).rest = l.flatten := by
    rw [rest_of_zero _ rfl]; simp [Cursor.of]
  rw [hr] at h1
  refine ⟨h1, ?_⟩
  intro m hm
  obtain ⟨_, h4⟩ := C57_cursor_next _ h2 m
  rw [hm] at h4
  rw [h4.1, List.append_nil] at h1
  exact h1

/-- The hypothesis is needed: an empty buffer in the middle ends the iteration early, and the
bytes behind it are never returned. -/
theorem C57_cursor_empty_buffer :
    ((Cursor.of [[1, 2], [], [3]]).run [10, 10, 10]).1 = [[1, 2]] := by decide

example : ((Cursor.of [[1, 2, 3], [4, 5]]).run [2, 2, 1, 5, 1]).1 = [[1, 2], [3], [4], [5]] := by
  decide

end Verif.Bytes
