import Verif.Raid.ReconGather
import Verif.Raid.FaultProps

/-! What `read_at_reconstruction` makes of the columns it gathers. -/

namespace Verif.Raid

open Verif.Bytes Verif.Codec

/-- The decoder of a RAID vdev: the codec's (`codec.rs:107-115`), on bytes. -/
def codecDec (invert : Nat → Mat → Option Mat) (m f : Nat) : Decoder := fun len er surviving =>
  (decode invert m f len er (surviving.map fun c => c.map ofByte)).map fun cs =>
    cs.map fun c => c.map toByte

def slice (a n : Nat) (x : Buf) : Buf := (x.drop a).take n

theorem toByte_ofByte (x : UInt8) : toByte (ofByte x) = x := rfl

variable {g : Geom}

theorem slice_column (h : g.Lawful) {f : Nat} (hf : g.Y.k = g.Y.m + f)
    (hE : g.enc = codecEnc g.Y.m f g.col) {y : Buf} (hy : g.stripe ≤ y.length) {a n : Nat}
    (han : a + n ≤ g.col) {b : Nat} (hb : b < g.Y.m + f) :
    (slice a n (column g y b)).map ofByte =
      (stripe g.Y.m f n ((List.range g.Y.m).map fun j =>
        (slice a n (column g y j)).map ofByte)).getD b [] := by
  have hcl : ∀ b < g.Y.m + f, (column g y b).length = g.col := fun b hb =>
    column_length h hy (by omega)
  have hsl : ∀ b < g.Y.m + f, (slice a n (column g y b)).length = n := fun b hb => by
    unfold slice
    rw [List.length_take, List.length_drop, hcl b hb]
    omega
  have hget : ∀ b < g.Y.m + f, ∀ p < n, ((slice a n (column g y b)).map ofByte).getD p 0 =
      ((column g y b).map ofByte).getD (a + p) 0 := fun b hb p hp => by
    unfold slice
    rw [List.getD_eq_getElem?_getD, List.getD_eq_getElem?_getD, List.getElem?_map,
      List.getElem?_map, List.getElem?_take, if_pos hp, List.getElem?_drop]
  apply col_ext (len := n) (by rw [List.length_map]; exact hsl b hb)
  · unfold stripe
    rw [List.getD_eq_getElem?_getD, List.getElem?_append]
    split
    · rename_i hlt
      simp only [List.length_map, List.length_range] at hlt
      simp [hlt, hsl b hb]
    · rename_i hlt
      simp only [List.length_map, List.length_range] at hlt
      simp [encode, ecEncode, show b - g.Y.m < f by omega]
  · intro p hp
    rw [hget b hb p hp, column_codec hE, stripe_getD (by simp) hb (by omega),
      stripe_getD (by simp) hb hp]
    apply Finset.sum_congr rfl
    intro j hj
    have hj := Finset.mem_range.mp hj
    congr 1
    have e1 : ((List.range g.Y.m).map fun j => (slice a n (column g y j)).map ofByte).getD j [] =
        (slice a n (column g y j)).map ofByte := by
      simp [List.getD_eq_getElem?_getD, hj]
    have e2 : ((List.range g.Y.m).map fun j =>
        ((y.drop (j * g.col)).take g.col).map ofByte).getD j [] = (column g y j).map ofByte := by
      simp [List.getD_eq_getElem?_getD, hj, column]
    rw [e1, e2, hget j (by omega) p hp]

/-- Decoding corresponding parts of the surviving columns gives those parts of the lost ones. -/
theorem dec_slice (h : g.Lawful) {f : Nat} (hf : g.Y.k = g.Y.m + f) (hk : g.Y.k ≤ 256)
    (hE : g.enc = codecEnc g.Y.m f g.col) {invert : Nat → Mat → Option Mat} (hI : Inverts invert)
    {y : Buf} (hy : g.stripe ≤ y.length) {er : Nat → Bool}
    (hn : erasedCount er (g.Y.m + f) ≤ f) (hl : ∃ j < g.Y.m, er j = true) {a n : Nat}
    (han : a + n ≤ g.col) :
    codecDec invert g.Y.m f n er
      ((survivors er g.Y.m f).map fun b => slice a n (column g y b)) =
    some ((lostData er g.Y.m).map fun j => slice a n (column g y j)) := by
  unfold codecDec
  have e1 : ((survivors er g.Y.m f).map fun b => slice a n (column g y b)).map
        (fun c => c.map ofByte) =
      (survivors er g.Y.m f).map fun b => (stripe g.Y.m f n ((List.range g.Y.m).map fun j =>
        (slice a n (column g y j)).map ofByte)).getD b [] := by
    rw [List.map_map]
    apply List.map_congr_left
    intro b hb
    exact slice_column h hf hE hy han (mem_survivors_lt hb).1
  rw [e1, C09_decode hI (by omega) (by simp) _ hn hl]
  · simp only [Option.map_some, List.map_map]
    congr 1
    apply List.map_congr_left
    intro j hj
    have := List.mem_range.mp (List.mem_filter.mp hj).1
    simp [List.getD_eq_getElem?_getD, this, List.map_map, Function.comp_def, toByte_ofByte]
  · intro c hc
    obtain ⟨j, hj, rfl⟩ := List.mem_map.mp hc
    have hj := List.mem_range.mp hj
    rw [List.length_map]
    unfold slice
    rw [List.length_take, List.length_drop, column_length h hy (by omega)]
    omega

/-! ### Writing the decoded parts -/

theorem patch_spec {T : Buf} : ∀ (ws : List (Option Nat × Buf)) (d : Buf), d.length = T.length →
    (∀ w ∈ ws, ∀ o, w.1 = some o → o + w.2.length ≤ T.length ∧ w.2 = slice o w.2.length T) →
    (ws.foldl patch d).length = T.length ∧
    ∀ p, (d[p]? = T[p]? ∨ ∃ w ∈ ws, ∃ o, w.1 = some o ∧ o ≤ p ∧ p < o + w.2.length) →
      (ws.foldl patch d)[p]? = T[p]? := by
  intro ws
  induction ws with
  | nil =>
    intro d hd _
    refine ⟨hd, ?_⟩
    rintro p (hp | ⟨w, hw, _⟩)
    · exact hp
    · cases hw
  | cons w ws ih =>
    intro d hd hw
    rw [List.foldl_cons]
    cases ho : w.1 with
    | none =>
      have e : patch d w = d := by unfold patch; rw [ho]
      rw [e]
      obtain ⟨h1, h2⟩ := ih d hd (fun w' hw' => hw w' (List.mem_cons_of_mem _ hw'))
      refine ⟨h1, ?_⟩
      rintro p (hp | ⟨w', hw', o, ho', hp⟩)
      · exact h2 p (Or.inl hp)
      · rcases List.mem_cons.mp hw' with rfl | hw'
        · rw [ho] at ho'; cases ho'
        · exact h2 p (Or.inr ⟨w', hw', o, ho', hp⟩)
    | some o =>
      obtain ⟨k1, k2⟩ := hw w List.mem_cons_self o ho
      have e : patch d w = d.take o ++ w.2 ++ d.drop (o + w.2.length) := by unfold patch; rw [ho]
      have hlen : (patch d w).length = T.length := by
        rw [e]; simp only [List.length_append, List.length_take, List.length_drop]; omega
      have hget : ∀ p, (d[p]? = T[p]? ∨ (o ≤ p ∧ p < o + w.2.length)) → (patch d w)[p]? = T[p]? := by
        intro p hp
        rw [e]
        have hlt : (d.take o).length = o := by rw [List.length_take]; omega
        by_cases h1 : p < o
        · rw [List.append_assoc, List.getElem?_append_left (by omega), List.getElem?_take, if_pos h1]
          rcases hp with hp | hp
          · exact hp
          · omega
        · by_cases h2 : p < o + w.2.length
          · rw [List.append_assoc, List.getElem?_append_right (by omega), hlt,
              List.getElem?_append_left (by omega), k2]
            unfold slice
            rw [List.getElem?_take, if_pos (by omega), List.getElem?_drop]
            congr 1; omega
          · rw [List.getElem?_append_right (by rw [List.length_append]; omega),
              List.getElem?_drop, List.length_append, hlt]
            rcases hp with hp | hp
            · rw [← hp]; congr 1; omega
            · omega
      obtain ⟨h1, h2⟩ := ih (patch d w) hlen (fun w' hw' => hw w' (List.mem_cons_of_mem _ hw'))
      refine ⟨h1, ?_⟩
      rintro p (hp | ⟨w', hw', o', ho', hp⟩)
      · exact h2 p (Or.inl (hget p (Or.inl hp)))
      · rcases List.mem_cons.mp hw' with rfl | hw'
        · rw [ho] at ho'
          cases ho'
          exact h2 p (Or.inl (hget p (Or.inr hp)))
        · exact h2 p (Or.inr ⟨w', hw', o', ho', hp⟩)

/-- A part of a chunk is either wanted by the caller or not. -/
theorem seg_inside {col L H i a n : Nat} (hcol : 0 < col) (hLH : L < H)
    (han : (a = 0 ∧ n = cbPre col L H) ∨
      (a = cbPre col L H ∧ n = col - cbPre col L H - cbPost col L H) ∨
      (a = col - cbPost col L H ∧ n = cbPost col L H)) :
    a + n ≤ col ∧ (L ≤ i * col + a ∧ i * col + a + n ≤ H ∨ i * col + a + n ≤ L ∨
      H ≤ i * col + a) := by
  have hs := @cb_start col L H i hcol
  have he := @cb_end col L H i hcol
  have hf := @cb_facts col L H hcol
  generalize i * col = c at *
  generalize cbPre col L H = p at *
  generalize cbPost col L H = t at *
  by_cases h1 : c < L ∧ L < c + col
  · obtain ⟨s1, s2, s3⟩ := hs h1.1 h1.2
    by_cases h2 : H < c + col
    · have := s3 h2 hLH
      omega
    · omega
  · by_cases h2 : c < H ∧ H < c + col
    · have := he h2.1 h2.2
      omega
    · omega

/-! ### One part -/

/-- The positions of `v` that are good. -/
theorem zip_filter {α : Type} (segs : List α) (v : List Res) (hl : segs.length = v.length)
    (d : α) (q : Res → Bool) (F : α → α) :
    ((segs.zip v).filter fun x => q x.2).map (fun x => F x.1) =
      ((List.range v.length).filter fun i => q (v.getD i .ok)).map fun i => F (segs.getD i d) := by
  have e : segs.zip v = (List.range v.length).map fun i => (segs.getD i d, v.getD i .ok) := by
    apply List.ext_getElem (by simp [hl])
    intro i h1 h2
    have hi : i < v.length := by simpa using h2
    simp [List.getD_eq_getElem?_getD, hi, show i < segs.length by omega]
  rw [e, List.filter_map, List.map_map]
  rfl

theorem range_filter_take_zip {α : Type} (l : List α) (m : Nat) (h : m ≤ l.length) (d : α) :
    l.take m = (List.range m).map fun i => l.getD i d := by
  apply List.ext_getElem (by simp; omega)
  intro i h1 h2
  have hi : i < m := by simpa using h2
  simp [List.getD_eq_getElem?_getD, show i < l.length by omega]

theorem slice_slice {L N o n : Nat} (y : Buf) (h : o + n ≤ N) :
    slice o n (slice L N y) = slice (L + o) n y := by
  unfold slice
  rw [List.drop_take, List.take_take, List.drop_drop, Nat.min_eq_left (by omega)]

theorem slice_length {a n : Nat} {x : Buf} (h : a + n ≤ x.length) : (slice a n x).length = n := by
  unfold slice
  rw [List.length_take, List.length_drop]
  omega

/-- The errors, by position. -/
def errAt (v : List Res) (i : Nat) : Bool := (v.getD i .ok).isErr

theorem errAt_ge {v : List Res} {i : Nat} (h : v.length ≤ i) : errAt v i = false := by
  unfold errAt
  rw [List.getD_eq_getElem?_getD, List.getElem?_eq_none h]
  rfl

theorem range_add_filter (p : Nat → Bool) (n d : Nat) :
    (List.range (n + d)).filter p = (List.range n).filter p ++ (List.range' n d).filter p := by
  rw [← List.filter_append, List.range_eq_range', List.range_eq_range', ← List.range'_append_1]
  simp

theorem erased_need {m f : Nat} {v : List Res} (h1 : v.length ≤ m + f)
    (hm : ((List.range v.length).filter fun i => !errAt v i).length = m) :
    erasedCount (errAt v) (m + f) ≤ f ∧
    survivors (errAt v) m f = (List.range v.length).filter fun i => !errAt v i := by
  have hr := filter_not_length (errAt v) (List.range v.length)
  rw [List.length_range] at hr
  have hd : m + f = v.length + (m + f - v.length) := by omega
  constructor
  · unfold erasedCount
    rw [hd, range_add_filter, List.length_append]
    have : (List.range' v.length (m + f - v.length)).filter (errAt v) = [] := by
      rw [List.filter_eq_nil_iff]
      intro i hi
      rw [List.mem_range'_1] at hi
      rw [errAt_ge hi.1]
      simp
    rw [this, List.length_nil]
    omega
  · unfold survivors
    rw [hd, range_add_filter, List.take_append_of_le_length (by omega),
      List.take_of_length_le (by omega)]

theorem decodePart_ok (h : g.Lawful) {f : Nat} (hf : g.Y.k = g.Y.m + f) (hk : g.Y.k ≤ 256)
    (hE : g.enc = codecEnc g.Y.m f g.col) {invert : Nat → Mat → Option Mat} (hI : Inverts invert)
    {y : Buf} (hy : g.stripe ≤ y.length) {L H : Nat} (hLH : L < H) (hH : H ≤ g.stripe)
    {got : Nat → Buf} {v : List Res} (hv1 : v.length ≤ g.Y.m + f) (hv2 : g.Y.m ≤ v.length)
    (hm : ((List.range v.length).filter fun i => !errAt v i).length = g.Y.m)
    (hgot : ∀ i < v.length, errAt v i = false → got i = column g y i)
    {a n : Nat}
    (han : (a = 0 ∧ n = cbPre g.col L H) ∨
      (a = cbPre g.col L H ∧ n = g.col - cbPre g.col L H - cbPost g.col L H) ∨
      (a = g.col - cbPost g.col L H ∧ n = cbPost g.col L H))
    {segs : List Piece} (hsl : segs.length = v.length)
    (hseg : ∀ i < v.length, SegOk L H (i * g.col) a n (got i) (segs.getD i ⟨[], none⟩))
    {data : Buf} (hd : data.length = H - L) :
    ∃ data', decodePart g.Y.m (codecDec invert g.Y.m f) v (errAt v) n segs data = some data' ∧
      data'.length = H - L ∧
      ∀ p, (data[p]? = (slice L (H - L) y)[p]? ∨ ∃ j < g.Y.m, errAt v j = true ∧
          j * g.col + a ≤ L + p ∧ L + p < j * g.col + a + n ∧ p < H - L) →
        data'[p]? = (slice L (H - L) y)[p]? := by
  have hcol : 0 < g.col := Nat.mul_pos h.cs h.bpl
  obtain ⟨hn, hsv⟩ := erased_need hv1 hm
  have hTl : (slice L (H - L) y).length = H - L := slice_length (by omega)
  have hmiss : (((segs.zip v).take g.Y.m).filter fun x => x.2.isErr).map (fun x => x.1.off) =
      (lostData (errAt v) g.Y.m).map fun j => (segs.getD j ⟨[], none⟩).off := by
    have e : (segs.zip v).take g.Y.m =
        (List.range g.Y.m).map fun i => (segs.getD i ⟨[], none⟩, v.getD i .ok) := by
      rw [range_filter_take_zip (segs.zip v) g.Y.m (by simp; omega) (⟨[], none⟩, .ok)]
      apply List.map_congr_left
      intro i hi
      have hi := List.mem_range.mp hi
      simp [List.getD_eq_getElem?_getD, List.zip_eq_zipWith, List.getElem?_zipWith,
        List.getElem?_eq_getElem (show i < segs.length by omega),
        List.getElem?_eq_getElem (show i < v.length by omega)]
    rw [e, List.filter_map, List.map_map]
    rfl
  have hsurv : ((segs.zip v).filter fun x => !x.2.isErr).map (fun x => x.1.bytes) =
      ((List.range v.length).filter fun i => !errAt v i).map
        fun i => (segs.getD i ⟨[], none⟩).bytes := by
    have := zip_filter segs v hsl ⟨[], none⟩ (fun r => !r.isErr) id
    have h2 := congrArg (List.map Piece.bytes) this
    rw [List.map_map, List.map_map] at h2
    exact h2
  unfold decodePart
  dsimp only
  rw [hmiss, hsurv]
  by_cases h0 : (lostData (errAt v) g.Y.m).map (fun j => (segs.getD j ⟨[], none⟩).off) = [] ∨ n = 0
  · rw [if_pos h0]
    refine ⟨data, rfl, hd, ?_⟩
    rintro p (hp | ⟨j, hj, hej, hp1, hp2, hp3⟩)
    · exact hp
    · rcases h0 with h0 | h0
      · rw [List.map_eq_nil_iff] at h0
        have : j ∈ lostData (errAt v) g.Y.m :=
          List.mem_filter.mpr ⟨List.mem_range.mpr hj, hej⟩
        rw [h0] at this
        cases this
      · omega
  · rw [if_neg h0]
    have hn0 : n ≠ 0 := fun hh => h0 (Or.inr hh)
    have hlost : ∃ j < g.Y.m, errAt v j = true := by
      have hne : lostData (errAt v) g.Y.m ≠ [] := fun hh => h0 (Or.inl (by rw [hh]; rfl))
      obtain ⟨j, hj⟩ := List.exists_mem_of_ne_nil _ hne
      obtain ⟨h1, h2⟩ := List.mem_filter.mp hj
      exact ⟨j, List.mem_range.mp h1, h2⟩
    have hin := fun i => seg_inside (i := i) hcol hLH han
    have han' := (hin 0).1
    have hb : ((List.range v.length).filter fun i => !errAt v i).map
          (fun i => (segs.getD i ⟨[], none⟩).bytes) =
        (survivors (errAt v) g.Y.m f).map fun b => slice a n (column g y b) := by
      rw [hsv]
      apply List.map_congr_left
      intro i hi
      obtain ⟨h1, h2⟩ := List.mem_filter.mp hi
      have h1 := List.mem_range.mp h1
      rcases hseg i h1 with h3 | ⟨h3, _⟩
      · exact absurd h3 hn0
      · rw [h3, hgot i h1 (by simpa using h2)]
        rfl
    rw [hb, dec_slice h hf hk hE hI hy hn hlost han', Option.map_some]
    have hz : ((lostData (errAt v) g.Y.m).map fun j => (segs.getD j ⟨[], none⟩).off).zip
        ((lostData (errAt v) g.Y.m).map fun j => slice a n (column g y j)) =
        (lostData (errAt v) g.Y.m).map fun j =>
          ((segs.getD j ⟨[], none⟩).off, slice a n (column g y j)) := by
      rw [List.zip_map']
    rw [hz]
    have hjl : ∀ j < g.Y.m, (slice a n (column g y j)).length = n := fun j hj =>
      slice_length (by rw [column_length h hy (by omega)]; exact han')
    have hoff : ∀ j < g.Y.m, (segs.getD j ⟨[], none⟩).off =
        if L ≤ j * g.col + a ∧ j * g.col + a + n ≤ H then some (j * g.col + a - L) else none := by
      intro j hj
      rcases hseg j (by omega) with h3 | ⟨_, h3⟩
      · exact absurd h3 hn0
      · exact h3
    obtain ⟨p1, p2⟩ := patch_spec (T := slice L (H - L) y) ((lostData (errAt v) g.Y.m).map fun j =>
          ((segs.getD j ⟨[], none⟩).off, slice a n (column g y j))) data (by rw [hd, hTl]) (by
      intro w hw o ho
      obtain ⟨j, hj, rfl⟩ := List.mem_map.mp hw
      have hj := List.mem_range.mp (List.mem_filter.mp hj).1
      dsimp only at ho ⊢
      rw [hjl j hj, hTl]
      rw [hoff j hj] at ho
      split at ho
      · rename_i hc
        cases ho
        refine ⟨by omega, ?_⟩
        rw [slice_slice _ (by omega)]
        have : column g y j = slice (j * g.col) g.col y := by unfold column; rw [if_pos hj]; rfl
        rw [this, slice_slice _ han']
        congr 1; omega
      · cases ho)
    refine ⟨_, rfl, by rw [p1, hTl], ?_⟩
    rintro p (hp | ⟨j, hj, hej, hp1, hp2, hp3⟩)
    · exact p2 p (Or.inl hp)
    · refine p2 p (Or.inr ⟨_, List.mem_map.mpr ⟨j, List.mem_filter.mpr
        ⟨List.mem_range.mpr hj, hej⟩, rfl⟩, j * g.col + a - L, ?_, ?_, ?_⟩)
      · have := (hin j).2
        dsimp only
        rw [hoff j hj, if_pos (by omega)]
      · omega
      · have := (hin j).2
        dsimp only
        rw [hjl j hj]; omega

/-! ### The caller's buffer before the recovery -/

theorem usersB_length {col L H : Nat} {got : Nat → Buf} : ∀ (n i : Nat),
    (∀ j, i ≤ j → j < i + n → (got j).length = col) →
    (usersB col L H got i n).length =
      min (max ((i + n) * col) L) H - min (max (i * col) L) H := by
  intro n
  induction n with
  | zero => intro i _; simp [usersB]
  | succ n ih =>
    intro i hg
    have := ih (i + 1) (fun j h1 h2 => hg j (by omega) (by omega))
    unfold usersB at *
    rw [List.range'_succ, List.flatMap_cons, List.length_append, this,
      userB_length (hg i (Nat.le_refl _) (by omega))]
    rw [show i + 1 + n = i + (n + 1) by omega]
    have hmono : (i + 1) * col ≤ (i + (n + 1)) * col := Nat.mul_le_mul_right _ (by omega)
    have e1 : (i + 1) * col = i * col + col := by rw [Nat.add_mul, Nat.one_mul]
    rw [e1] at hmono ⊢
    generalize (i + (n + 1)) * col = d at *
    generalize i * col = c at *
    omega

/-- A byte of the caller's buffer comes from the chunk it belongs to. -/
theorem usersB_get {col L H : Nat} {got : Nat → Buf} : ∀ (n i p j : Nat),
    (∀ j, i ≤ j → j < i + n → (got j).length = col) → min (max (i * col) L) H - L ≤ p → p < H - L →
    i ≤ j → j < i + n → j * col ≤ L + p → L + p < j * col + col →
    (usersB col L H got i n)[p - (min (max (i * col) L) H - L)]? = (got j)[L + p - j * col]? := by
  intro n
  induction n with
  | zero => intro i p j _ _ _ h1 h2; omega
  | succ n ih =>
    intro i p j hg hp hpH h1 h2 h3 h4
    have hx := hg i (Nat.le_refl _) (by omega)
    have hul := userB_length (L := L) (H := H) (c := i * col) hx
    have hih := ih (i + 1) p j (fun j h1 h2 => hg j (by omega) (by omega))
    unfold usersB at *
    rw [List.range'_succ, List.flatMap_cons]
    by_cases hj : j = i
    · subst hj
      generalize j * col = c at *
      rw [List.getElem?_append_left (by omega)]
      unfold userB
      rw [List.getElem?_take, if_pos (by omega), List.getElem?_drop]
      congr 1
      omega
    · have hmono : (i + 1) * col ≤ j * col := Nat.mul_le_mul_right _ (by omega)
      rw [Nat.add_mul, Nat.one_mul] at *
      generalize i * col = c at *
      rw [List.getElem?_append_right (by omega), hul, ← hih (by omega) hpH (by omega) (by omega) h3 h4]
      congr 1
      omega

theorem column_get {y : Buf} {j p : Nat} (hj : j < g.Y.m) (hp : p < g.col) :
    (column g y j)[p]? = y[j * g.col + p]? := by
  unfold column
  rw [if_pos hj, List.getElem?_take, if_pos hp, List.getElem?_drop]

end Verif.Raid
