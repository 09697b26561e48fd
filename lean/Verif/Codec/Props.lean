import Verif.Codec.Lemmas
import Verif.Bytes.Props

/-!
# The erasure codec: C09
-/

namespace Verif.Codec

open GF

theorem ecEncode_getD {len k rows : Nat} {a : Mat} {input : List (List GF)} {i p : Nat}
    (hi : i < rows) (hp : p < len) : ((ecEncode len k rows a input).getD i []).getD p 0 =
      ∑ j ∈ Finset.range k, a i j * ((input.getD j []).getD p 0) := by
  simp [ecEncode, List.getD_eq_getElem?_getD, hi, hp]

theorem col_ext {a b : List GF} {len : Nat} (ha : a.length = len) (hb : b.length = len)
    (h : ∀ p < len, a.getD p 0 = b.getD p 0) : a = b := by
  apply List.ext_getElem (by omega)
  intro p h1 h2
  have := h p (by omega)
  rw [List.getD_eq_getElem?_getD, List.getD_eq_getElem?_getD, List.getElem?_eq_getElem h1,
    List.getElem?_eq_getElem h2] at this
  simpa using this

/-- Every column of a stripe is its row of the encoding matrix times the data. -/
theorem stripe_getD {k f len : Nat} {data : List (List GF)} (hk : data.length = k) {r p : Nat}
    (hr : r < k + f) (hp : p < len) : ((stripe k f len data).getD r []).getD p 0 =
      ∑ j ∈ Finset.range k, encMatrix k f r j * ((data.getD j []).getD p 0) := by
  unfold stripe
  by_cases h : r < k
  · have e : (data ++ encode k f len data).getD r [] = data.getD r [] := by
      rw [List.getD_eq_getElem?_getD, List.getElem?_append_left (by omega),
        ← List.getD_eq_getElem?_getD]
    rw [e, Finset.sum_eq_single r]
    · simp [encMatrix, h]
    · intro j _ hj
      simp [encMatrix, h, Ne.symm hj]
    · intro hn
      exact absurd (Finset.mem_range.mpr h) hn
  · have e : (data ++ encode k f len data).getD r [] = (encode k f len data).getD (r - k) [] := by
      rw [List.getD_eq_getElem?_getD, List.getElem?_append_right (by omega),
        ← List.getD_eq_getElem?_getD, hk]
    rw [e]
    unfold encode
    rw [ecEncode_getD (by omega) hp]
    rw [show k + (r - k) = r by omega]

/-- C09: for every code with at most 256 columns, every stripe contents and every set of at
most `f` erased columns of which at least one is a data column, decoding the lowest `k`
surviving columns does not panic and returns exactly the lost data columns, in order.  The
hypothesis on `invert` is what ISA-L promises of its matrix inversion. -/
theorem C09_decode {invert : Nat → Mat → Option Mat} (hI : Inverts invert) {k f len : Nat}
    (hkf : k + f ≤ 256) {data : List (List GF)} (hk : data.length = k)
    (hlen : ∀ c ∈ data, c.length = len) {er : Nat → Bool} (hn : erasedCount er (k + f) ≤ f)
    (hl : ∃ j < k, er j = true) :
    decode invert k f len er ((survivors er k f).map fun i => (stripe k f len data).getD i []) =
      some ((lostData er k).map fun j => data.getD j []) := by
  have hsl := survivors_length hn
  have hrow : ∀ i < k, (survivors er k f).getD i 0 ∈ survivors er k f := by
    intro i hi
    rw [List.getD_eq_getElem?_getD, List.getElem?_eq_getElem (by omega)]
    exact List.getElem_mem _
  have hker : ∃ d, LeftInv k d (fun i j => encMatrix k f ((survivors er k f).getD i 0) j) := by
    apply leftInv_of_ker
    intro v hv
    apply sel_ker hkf hn v
    intro r hr
    obtain ⟨i, hi, rfl⟩ := List.getElem_of_mem hr
    have := hv i (by omega)
    rw [List.getD_eq_getElem?_getD, List.getElem?_eq_getElem hi] at this
    exact this
  obtain ⟨d, hd1, hd2⟩ := hI _ _ hker
  unfold decode
  simp only
  rw [selRows_survivors hn]
  have hne : lostData er k ≠ [] := by
    obtain ⟨j, hj, he⟩ := hl
    exact List.ne_nil_of_mem (List.mem_filter.mpr ⟨List.mem_range.mpr hj, he⟩)
  rw [if_neg hne]
  have hany : ((survivors er k f).any fun r => decide (k + f ≤ r)) = false := by
    rw [List.any_eq_false]
    intro r hr
    have := (mem_survivors_lt hr).1
    simpa using this
  rw [hany]
  rw [if_neg (by simp), hd1]
  simp only [Option.some.injEq]
  apply List.ext_getElem (by simp [ecEncode])
  intro i h1 h2
  have hi : i < (lostData er k).length := by simpa using h2
  have hlk : (lostData er k)[i] < k :=
    List.mem_range.mp (List.mem_filter.mp (List.getElem_mem hi)).1
  have hl1 : (((lostData er k).map fun j => data.getD j [])[i]).length = len := by
    rw [List.getElem_map, List.getD_eq_getElem?_getD, List.getElem?_eq_getElem (by omega)]
    exact hlen _ (List.getElem_mem _)
  refine col_ext (len := len) (by simp [ecEncode]) hl1 ?_
  intro p hp
  have e1 : ∀ (l : List (List GF)) (h : i < l.length), l[i] = l.getD i [] := by
    intro l h
    rw [List.getD_eq_getElem?_getD, List.getElem?_eq_getElem h]
    rfl
  rw [e1 _ h1, ecEncode_getD hi hp, List.getElem_map]
  have e2 : (lostData er k).getD i 0 = (lostData er k)[i] := by
    rw [List.getD_eq_getElem?_getD, List.getElem?_eq_getElem hi]
    rfl
  rw [e2]
  generalize (lostData er k)[i] = lost at *
  have e3 : ∀ l ∈ Finset.range k,
      d lost l * ((((survivors er k f).map fun i => (stripe k f len data).getD i []).getD l []).getD p 0) =
      ∑ j ∈ Finset.range k, (d lost l * encMatrix k f ((survivors er k f).getD l 0) j) *
        ((data.getD j []).getD p 0) := by
    intro l hl
    rw [Finset.mem_range] at hl
    have hlt : ((survivors er k f).getD l 0) < k + f := (mem_survivors_lt (hrow l hl)).1
    have : ((survivors er k f).map fun i => (stripe k f len data).getD i []).getD l [] =
        (stripe k f len data).getD ((survivors er k f).getD l 0) [] := by
      simp only [List.getD_eq_getElem?_getD]
      rw [List.getElem?_map, List.getElem?_eq_getElem (by omega)]
      rfl
    rw [this, stripe_getD hk hlt hp, Finset.mul_sum]
    apply Finset.sum_congr rfl
    intro j _
    rw [mul_assoc]
  rw [Finset.sum_congr rfl e3, Finset.sum_comm]
  have e4 : ∀ j ∈ Finset.range k,
      ∑ l ∈ Finset.range k, d lost l * encMatrix k f ((survivors er k f).getD l 0) j *
        ((data.getD j []).getD p 0) = (if lost = j then 1 else 0) * ((data.getD j []).getD p 0) := by
    intro j hj
    rw [← Finset.sum_mul, hd2 lost hlk j (Finset.mem_range.mp hj)]
  rw [Finset.sum_congr rfl e4, Finset.sum_eq_single lost]
  · simp
  · intro j _ hj
    simp [Ne.symm hj]
  · intro hnm
    exact absurd (Finset.mem_range.mpr hlk) hnm

/-- C09: with one parity column, the parity is the exclusive or of the data columns. -/
theorem C09_single_parity {k len : Nat} {data : List (List GF)} {p : Nat} (hp : p < len) :
    ((encode k 1 len data).getD 0 []).getD p 0 =
      ∑ j ∈ Finset.range k, (data.getD j []).getD p 0 := by
  unfold encode
  rw [ecEncode_getD (by omega) hp]
  apply Finset.sum_congr rfl
  intro j _
  simp [encMatrix]

/-- C09: feeding the data columns one by one to `encode_update`, starting from parity columns
of zeroes, gives the parity of `encode`. -/
theorem C09_encode_update {k f len : Nat} (data : List (List GF)) :
    (List.range k).foldl (fun par j => encodeUpdate k f (data.getD j []) par j)
      (List.replicate f (List.replicate len 0)) = encode k f len data := by
  have key : ∀ n, (List.range n).foldl (fun par j => encodeUpdate k f (data.getD j []) par j)
      (List.replicate f (List.replicate len 0)) =
      (List.range f).map fun i => (List.range len).map fun p =>
        ∑ j ∈ Finset.range n, encMatrix k f (k + i) j * ((data.getD j []).getD p 0) := by
    intro n
    induction n with
    | zero =>
      apply List.ext_getElem (by simp)
      intro i h1 h2
      apply List.ext_getElem (by simp)
      intro p h3 h4
      simp
    | succ n ih =>
      rw [List.range_succ, List.foldl_append, ih]
      simp only [List.foldl_cons, List.foldl_nil, encodeUpdate]
      apply List.ext_getElem (by simp)
      intro i h1 h2
      apply List.ext_getElem (by simp)
      intro p h3 h4
      simp [Finset.sum_range_succ]
  rw [key]
  rfl

/-! ### Vectored encoding -/

theorem encode_append {k f a b : Nat} {A B : List (List GF)} (hA : A.length = k) (hB : B.length = k)
    (hAl : ∀ c ∈ A, c.length = a) :
    encode k f (a + b) (List.zipWith (· ++ ·) A B) =
      List.zipWith (· ++ ·) (encode k f a A) (encode k f b B) := by
  have hg : ∀ j < k, (List.zipWith (· ++ ·) A B).getD j [] = A.getD j [] ++ B.getD j [] := by
    intro j hj
    simp [List.getD_eq_getElem?_getD, List.getElem?_zipWith, List.getElem?_eq_getElem (show j < A.length by omega),
      List.getElem?_eq_getElem (show j < B.length by omega)]
  have hAj : ∀ j < k, (A.getD j []).length = a := by
    intro j hj
    rw [List.getD_eq_getElem?_getD, List.getElem?_eq_getElem (by omega)]
    exact hAl _ (List.getElem_mem _)
  apply List.ext_getElem (by simp [encode, ecEncode])
  intro i h1 h2
  have hi : i < f := by simpa [encode, ecEncode] using h1
  apply List.ext_getElem (by simp [encode, ecEncode])
  intro p h3 h4
  have hp : p < a + b := by simpa [encode, ecEncode] using h3
  simp only [encode, ecEncode, List.getElem_map, List.getElem_range, List.getElem_zipWith]
  by_cases hpa : p < a
  · rw [List.getElem_append_left (by simpa using hpa)]
    simp only [List.getElem_map, List.getElem_range]
    apply Finset.sum_congr rfl
    intro j hj
    rw [Finset.mem_range] at hj
    rw [hg j hj]
    congr 1
    rw [List.getD_eq_getElem?_getD, List.getElem?_append_left (by rw [hAj j hj]; exact hpa),
      ← List.getD_eq_getElem?_getD]
  · rw [List.getElem_append_right (by simp; omega)]
    simp only [List.getElem_map, List.getElem_range, List.length_map, List.length_range]
    apply Finset.sum_congr rfl
    intro j hj
    rw [Finset.mem_range] at hj
    rw [hg j hj]
    congr 1
    rw [List.getD_eq_getElem?_getD, List.getElem?_append_right (by rw [hAj j hj]; omega),
      ← List.getD_eq_getElem?_getD, hAj j hj]

open Verif.Bytes in
theorem next_of_peek {c : Cursor} {n : Nat} (hn : 0 < n) (hle : n ≤ c.peekLen) :
    ∃ b, (c.next n).1 = some b ∧ b.length = n := by
  unfold Cursor.next
  simp only
  rw [if_neg (by omega)]
  have hlen : c.peekLen = (c.sglist.getD c.sglistIdx []).length - c.iovecIdx := by
    unfold Cursor.peekLen
    cases hb : c.sglist[c.sglistIdx]? with
    | some b => simp [List.getD_eq_getElem?_getD, hb]
    | none => simp [List.getD_eq_getElem?_getD, hb]
  split
  · refine ⟨_, rfl, ?_⟩
    rw [List.length_take, List.length_drop]
    omega
  · split
    · refine ⟨_, rfl, ?_⟩
      rw [List.length_drop]
      omega
    · refine ⟨_, rfl, ?_⟩
      omega

open Verif.Bytes in
theorem rest_of_peek_zero {c : Cursor} (hc : c.Ok) (h : c.peekLen = 0) : c.rest = [] := by
  have := C57_cursor_next c hc 1
  unfold Cursor.next at this
  simp only [h, if_true] at this
  exact this.2.1

theorem mapM_id_some {α : Type} {l : List (Option α)} (h : ∀ x ∈ l, x ≠ none) :
    ∃ r, l.mapM id = some r ∧ l = r.map some := by
  induction l with
  | nil => exact ⟨[], rfl, rfl⟩
  | cons x l ih =>
    obtain ⟨r, h1, h2⟩ := ih fun y hy => h y (List.mem_cons_of_mem _ hy)
    cases x with
    | none => exact absurd rfl (h none List.mem_cons_self)
    | some a =>
      refine ⟨a :: r, ?_, by rw [h2]; rfl⟩
      rw [List.mapM_cons, h1]
      rfl

theorem min?_le_all {l : List Nat} {m : Nat} (h : l.min? = some m) : (∀ x ∈ l, m ≤ x) ∧ m ∈ l := by
  rw [List.min?_eq_some_iff] at h
  exact ⟨h.2, h.1⟩

open Verif.Bytes in
theorem encodevLoop_ok {k f left : Nat} {cs : List Cursor} (hk : cs.length = k) (hk0 : 0 < k)
    (hok : ∀ c ∈ cs, c.Ok) (hr : ∀ c ∈ cs, c.rest.length = left) :
    encodevLoop k f left cs = some (encode k f left (cs.map fun c => c.rest.map ofByte)) := by
  induction left using Nat.strong_induction_on generalizing cs with
  | _ left ih =>
    unfold encodevLoop
    by_cases h0 : left = 0
    · rw [if_pos h0, h0]
      congr 1
      apply List.ext_getElem (by simp [encode, ecEncode])
      intro i h1 h2
      simp [encode, ecEncode]
    · rw [if_neg h0]
      cases hm : (cs.map Cursor.peekLen).min? with
      | none =>
        rw [List.min?_eq_none_iff, List.map_eq_nil_iff] at hm
        rw [hm] at hk
        simp at hk
        omega
      | some ncl =>
        simp only
        obtain ⟨hle, hmem⟩ := min?_le_all hm
        have hle' : ∀ c ∈ cs, ncl ≤ c.peekLen := fun c hc => hle _ (List.mem_map.mpr ⟨c, hc, rfl⟩)
        have hpk : ∀ c ∈ cs, 0 < c.peekLen := by
          intro c hc
          apply Nat.pos_of_ne_zero
          intro hz
          have := rest_of_peek_zero (hok c hc) hz
          have h2 := hr c hc
          rw [this] at h2
          simp at h2
          omega
        have hncl : 0 < ncl := by
          obtain ⟨c, hc, he⟩ := List.mem_map.mp hmem
          have := hpk c hc
          omega
        have hnext : ∀ c ∈ cs, ∃ b, (c.next ncl).1 = some b ∧ b.length = ncl ∧
            c.rest = b ++ (c.next ncl).2.rest ∧ (c.next ncl).2.Ok := by
          intro c hc
          obtain ⟨b, hb, hbl⟩ := next_of_peek hncl (hle' c hc)
          have := C57_cursor_next c (hok c hc) ncl
          rw [hb] at this
          exact ⟨b, hb, hbl, this.2.1, this.1⟩
        have hleft : ncl ≤ left := by
          obtain ⟨c, hc, he⟩ := List.mem_map.mp hmem
          obtain ⟨b, -, hbl, hrest, -⟩ := hnext c hc
          have := hr c hc
          rw [hrest, List.length_append] at this
          omega
        rw [if_neg (by omega)]
        obtain ⟨bufs, hb1, hb2⟩ := mapM_id_some (l := cs.map fun c => (c.next ncl).1) (by
          intro x hx
          obtain ⟨c, hc, rfl⟩ := List.mem_map.mp hx
          obtain ⟨b, hb, -⟩ := hnext c hc
          rw [hb]; simp)
        rw [hb1]
        simp only
        have hbl : bufs.length = k := by
          have := congrArg List.length hb2
          simp at this
          omega
        have hbi : ∀ (i : Nat) (c : Cursor), cs[i]? = some c → ∃ b, bufs[i]? = some b ∧
            b.length = ncl ∧ c.rest = b ++ (c.next ncl).2.rest := by
          intro i c hc
          obtain ⟨b, h1, h2, h3, -⟩ := hnext c (List.mem_of_getElem? hc)
          have := congrArg (fun l : List (Option Buf) => l[i]?) hb2
          simp only [List.getElem?_map, hc, Option.map_some, h1] at this
          obtain ⟨b', hb', he⟩ := Option.map_eq_some_iff.mp this.symm
          simp only [Option.some.injEq] at he
          subst he
          exact ⟨b', hb', h2, h3⟩
        rw [ih (left - ncl) (by omega) (by simpa using hk)
          (by
            intro c' hc'
            obtain ⟨c, hc, rfl⟩ := List.mem_map.mp hc'
            exact (hnext c hc).choose_spec.2.2.2)
          (by
            intro c' hc'
            obtain ⟨c, hc, rfl⟩ := List.mem_map.mp hc'
            obtain ⟨b, -, h2, h3, -⟩ := hnext c hc
            have := hr c hc
            rw [h3, List.length_append] at this
            omega)]
        simp only [Option.map_some, Option.some.injEq]
        rw [← encode_append (by simpa using hbl) (by simpa using hk)]
        · rw [show ncl + (left - ncl) = left by omega]
          congr 1
          apply List.ext_getElem?
          intro i
          simp only [List.getElem?_zipWith, List.getElem?_map]
          cases hc : cs[i]? with
          | none => cases bufs[i]? <;> simp
          | some c =>
            obtain ⟨b, h1, -, h3⟩ := hbi i c hc
            rw [h1]
            simp only [Option.map_some]
            rw [h3, List.map_append]
        · intro c hc
          obtain ⟨b, hb, rfl⟩ := List.mem_map.mp hc
          obtain ⟨i, hi⟩ := List.getElem?_of_mem hb
          have hil : i < cs.length := by
            have := (List.getElem?_eq_some_iff.mp hi).1
            omega
          obtain ⟨b', h1, h2, -⟩ := hbi i _ (List.getElem?_eq_getElem hil)
          rw [hi] at h1
          simp only [Option.some.injEq] at h1
          rw [h1, List.length_map, h2]

open Verif.Bytes in
/-- C09: encoding columns given as scatter-gather lists, each cut up in its own way, does not
panic and gives the same parity as encoding the flat columns. -/
theorem C09_encodev {k f len : Nat} (hk0 : 0 < k) {data : List SGList} (hk : data.length = k)
    (hne : ∀ l ∈ data, ∀ b ∈ l, b ≠ []) (hlen : ∀ l ∈ data, l.flatten.length = len) :
    encodev k f len data = some (encode k f len (data.map fun l => l.flatten.map ofByte)) := by
  unfold encodev
  have hrest : ∀ l, (Cursor.of l).rest = l.flatten := by
    intro l
    rw [rest_of_zero _ rfl]
    rfl
  rw [encodevLoop_ok (by simpa using hk) hk0]
  · rw [List.map_map]
    congr 2
    apply List.map_congr_left
    intro l _
    show List.map ofByte (Cursor.of l).rest = _
    rw [hrest]
  · intro c hc
    obtain ⟨l, hl, rfl⟩ := List.mem_map.mp hc
    exact Cursor.ok_of l (hne l hl)
  · intro c hc
    obtain ⟨l, hl, rfl⟩ := List.mem_map.mp hc
    rw [hrest]; exact hlen l hl

/-! ### Non-vacuity -/

/-- Some function inverts matrices. -/
example : ∃ invert, Inverts invert := by
  classical
  refine ⟨fun k m => if h : ∃ d, LeftInv k d m then some h.choose else none, ?_⟩
  intro k m h
  exact ⟨h.choose, dif_pos h, h.choose_spec⟩

/-- A 3+2 stripe, with data columns 0 and 2 erased. -/
def er02 (i : Nat) : Bool := i == 0 || i == 2

example : erasedCount er02 (3 + 2) ≤ 2 ∧ (∃ j < 3, er02 j = true) ∧ lostData er02 3 = [0, 2] ∧
    survivors er02 3 2 = [1, 3, 4] := by decide

example : pt 0x80 * pt 2 = pt 0x1d := by decide +kernel
example : (encode 2 1 2 [[pt 3, pt 5], [pt 6, pt 5]]) = [[pt 5, pt 0]] := by decide +kernel

example : encodev 2 2 3 [[[1, 2], [3]], [[4], [5, 6]]] =
    some (encode 2 2 3 [[pt 1, pt 2, pt 3], [pt 4, pt 5, pt 6]]) :=
  C09_encodev (by omega) rfl (by decide) (by decide)

end Verif.Codec
