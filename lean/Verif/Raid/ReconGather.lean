import Verif.Raid.ReconBytes

/-! The columns that `read_at_reconstruction` gathers are the chunks that were read. -/

namespace Verif.Raid

open Verif.Bytes

/-- The part of a chunk, starting `c` bytes into the stripe, that the caller wants. -/
def userB (L H c : Nat) (x : Buf) : Buf := (x.drop (L - c)).take (H - max c L)

/-- The parts that the caller does not want. -/
def exB (col L H c : Nat) (x : Buf) : List Buf :=
  if c + col ≤ L then [x]
  else if c < L then x.take (L - c) :: (if H < c + col then [x.drop (H - c)] else [])
  else if c + col ≤ H then []
  else if c < H then [x.drop (H - c)]
  else [x]

/-- The pieces of a column. -/
def piecesB (col L H c : Nat) (x : Buf) (o : Nat) : List Piece :=
  if c + col ≤ L then [⟨x, none⟩]
  else if c < L then
    [⟨x.take (L - c), none⟩, ⟨userB L H c x, some o⟩] ++
      (if H < c + col then [⟨x.drop (H - c), none⟩] else [])
  else if c + col ≤ H then [⟨x, some o⟩]
  else if c < H then [⟨userB L H c x, some o⟩, ⟨x.drop (H - c), none⟩]
  else [⟨x, none⟩]

theorem cb_facts {col L H : Nat} (hcol : 0 < col) :
    cbPre col L H + cbPost col L H ≤ col := by
  have h1 := Nat.mod_lt L hcol
  have h2 := Nat.mod_lt H hcol
  unfold cbPre cbPost
  by_cases h : H % col = 0
  · simp only [h, ne_eq, not_true_eq_false, if_false, if_true]; omega
  · simp only [h, ne_eq, not_false_eq_true, if_true, if_false]
    split <;> omega

theorem mod_mid {col i x : Nat} (h1 : i * col < x) (h2 : x < i * col + col) :
    x % col = x - i * col := by
  have : x = x - i * col + i * col := by omega
  rw [this, Nat.add_mul_mod_self_right, Nat.add_sub_cancel]
  exact Nat.mod_eq_of_lt (by omega)

/-- If the range starts inside the chunk, it starts at the end of the first or of the second
part. -/
theorem cb_start {col L H i : Nat} (hcol : 0 < col) (h1 : i * col < L) (h2 : L < i * col + col) :
    0 < cbPre col L H ∧ (L - i * col = cbPre col L H ∨
      (L - i * col = col - cbPost col L H ∧ 0 < cbPost col L H)) ∧
    (H < i * col + col → L < H → H - i * col = col - cbPost col L H ∧ 0 < cbPost col L H ∧
      L - i * col = cbPre col L H) := by
  have hm := mod_mid h1 h2
  have hH := Nat.mod_lt H hcol
  have hHm : L < H → H < i * col + col → H % col = H - i * col := fun a b =>
    mod_mid (by omega) b
  unfold cbPre cbPost
  rw [hm]
  generalize i * col = c at *
  by_cases h : H % col = 0
  · simp only [h, ne_eq, not_true_eq_false, if_false, if_true]
    refine ⟨by omega, Or.inl trivial, fun a b => ?_⟩
    have := hHm b a
    omega
  · simp only [h, ne_eq, not_false_eq_true, if_true, if_false]
    refine ⟨by omega, ?_, fun a b => ?_⟩
    · split <;> omega
    · have := hHm b a
      split <;> omega

theorem cb_end {col L H i : Nat} (hcol : 0 < col) (h1 : i * col < H)
    (h2 : H < i * col + col) :
    0 < cbPost col L H ∧ (H - i * col = cbPre col L H ∨ H - i * col = col - cbPost col L H) := by
  have hm := mod_mid h1 h2
  have hl := Nat.mod_lt L hcol
  unfold cbPre cbPost
  rw [hm]
  generalize i * col = c at *
  have hne : ¬ (H - c = 0) := by omega
  simp only [hne, ne_eq, not_false_eq_true, if_true, if_false]
  split <;> omega

theorem splitTo_append (a b : Buf) (o n : Nat) (h : a.length = n) :
    (⟨a ++ b, some o⟩ : Piece).splitTo n = some (⟨a, some o⟩, ⟨b, some (o + n)⟩) := by
  unfold Piece.splitTo
  rw [if_pos (by rw [List.length_append]; omega)]
  subst h
  simp

theorem userB_length {col L H c : Nat} {x : Buf} (hx : x.length = col) :
    (userB L H c x).length = min (H - max c L) (col - (L - c)) := by
  unfold userB
  rw [List.length_take, List.length_drop, hx]

theorem colPiecesB_eq {col L H i : Nat} (hcol : 0 < col) (hLH : L < H) {x : Buf}
    (hx : x.length = col) (rest : Buf) (o : Nat) (ex : List Buf)
    (hrest : H < i * col + col → rest = []) :
    colPiecesB col L H (i * col) ⟨userB L H (i * col) x ++ rest, some o⟩
        (exB col L H (i * col) x ++ ex) =
      some (piecesB col L H (i * col) x o,
        ⟨rest, some (o + (userB L H (i * col) x).length)⟩, ex) := by
  have hs := @cb_start col L H i hcol
  have he := @cb_end col L H i hcol
  generalize i * col = c at *
  have hul := userB_length (L := L) (H := H) (c := c) hx
  unfold colPiecesB exB piecesB
  by_cases h1 : c + col ≤ L
  · simp only [h1, if_true]
    have h0 : userB L H c x = [] := List.eq_nil_of_length_eq_zero (by omega)
    simp [h0, nextEx]
  simp only [h1, if_false]
  by_cases h2 : c < L
  · obtain ⟨s1, s2, s3⟩ := hs h2 (by omega)
    simp only [h2, if_true, show ¬ cbPre col L H = 0 by omega, if_false, List.cons_append, nextEx]
    have hlen : (userB L H c x).length = min (H - L) (c + col - L) := by omega
    rw [splitTo_append _ _ _ _ hlen]
    have ht : (x.take (L - c)).length = L - c := by rw [List.length_take]; omega
    simp only [ht]
    rw [if_neg (by omega)]
    by_cases h3 : H < c + col
    · rw [if_pos h3, if_pos (by omega), if_pos h3]
      simp [hlen]
    · rw [if_neg h3, if_neg (by omega), if_neg h3]
      simp [hlen]
  simp only [h2, if_false]
  by_cases h3 : c + col ≤ H
  · simp only [h3, if_true]
    have hU : userB L H c x = x := by
      unfold userB
      rw [show L - c = 0 by omega, List.drop_zero, List.take_of_length_le (by omega)]
    rw [hU, splitTo_append _ _ _ _ hx]
    simp [hx]
  simp only [h3, if_false]
  by_cases h4 : c < H
  · obtain ⟨p1, _⟩ := he h4 (by omega)
    have hr := hrest (by omega)
    subst hr
    simp only [h4, if_true, show ¬ cbPost col L H = 0 by omega, if_false, List.cons_append, nextEx,
      List.append_nil, List.nil_append]
    have hlen : (userB L H c x).length = H - c := by omega
    rw [if_pos ⟨hlen, by omega⟩]
    have := splitTo_append (userB L H c x) [] o _ rfl
    rw [List.append_nil] at this
    rw [this]
    rfl
  · simp only [h4, if_false]
    have h0 : userB L H c x = [] := List.eq_nil_of_length_eq_zero (by omega)
    simp [h0, nextEx]

/-- What the part of `n` bytes from `a` on of a column should be. -/
def SegOk (L H c a n : Nat) (x : Buf) (p : Piece) : Prop :=
  n = 0 ∨ (p.bytes = (x.drop a).take n ∧
    p.off = if L ≤ c + a ∧ c + a + n ≤ H then some (c + a - L) else none)

theorem seg1 {x : Buf} {off : Option Nat} {p r t : Nat} (hx : x.length = p + r + t)
    (h0 : 0 < r + t) :
    segments (p, r, t) [⟨x, off⟩] = some
      (if 0 < p then ⟨x.take p, off⟩ else ⟨[], none⟩,
       ⟨(x.drop p).take r, if 0 < p then off.map (· + p) else off⟩,
       if 0 < t then ⟨(x.drop (p + r)).take t, if 0 < p then off.map (· + p + r) else off.map (· + r)⟩
       else ⟨[], none⟩) := by
  have hne : ∀ n, n < x.length → ¬ x.drop n = [] := fun n hn h => by
    have := congrArg List.length h
    rw [List.length_drop] at this
    simp only [List.length_nil] at this
    omega
  unfold segments segPre
  dsimp only
  by_cases hp : 0 < p
  · simp only [hp, if_true, Piece.splitTo, show p ≤ x.length by omega, Option.map_some, skipEmpty,
      hne p (by omega), if_false, List.length_drop, show r ≤ x.length - p by omega]
    by_cases ht : 0 < t
    · simp only [ht, if_true, List.drop_drop, hne (p + r) (by omega), if_false, List.length_drop,
        show t ≤ x.length - (p + r) by omega]
      cases off <;> rfl
    · simp only [ht, if_false]
  · have hp0 : p = 0 := by omega
    subst hp0
    have hx0 : ¬ x = [] := fun h => by rw [h] at hx; simp at hx; omega
    simp only [hp, if_false, skipEmpty, hx0, Piece.splitTo, show r ≤ x.length by omega, if_true]
    by_cases ht : 0 < t
    · simp only [ht, if_true, hne r (by omega), if_false, List.length_drop,
        show t ≤ x.length - r by omega, List.drop_zero, Nat.zero_add]
    · simp only [ht, if_false, List.drop_zero]

theorem ne_nil_of_pos {b : Buf} (h : 0 < b.length) : ¬ b = [] := fun hh => by
  rw [hh] at h; simp at h

theorem seg2a {a b : Buf} {oa ob : Option Nat} {p r t : Nat} (rest : List Piece)
    (ha : a.length = p) (hp : 0 < p) (hb : b.length = r + t) :
    segments (p, r, t) (⟨a, oa⟩ :: ⟨b, ob⟩ :: rest) = 
      if 0 < t then some (⟨a, oa⟩, ⟨b.take r, ob⟩, ⟨b.drop r, ob.map (· + r)⟩)
      else some (⟨a, oa⟩, ⟨b.take r, ob⟩, ⟨[], none⟩) := by
  unfold segments segPre
  subst ha
  simp only [hp, if_true, Piece.splitTo, Nat.le_refl, Option.map_some, skipEmpty, List.drop_length,
    List.take_length, show r ≤ b.length by omega]
  by_cases ht : 0 < t
  · have hd : (b.drop r).length = t := by rw [List.length_drop]; omega
    simp only [ht, if_true, ne_nil_of_pos (show 0 < (b.drop r).length by omega), if_false, hd,
      Nat.le_refl]
    rw [List.take_of_length_le (l := b.drop r) (by omega)]
  · simp only [ht, if_false]

theorem seg2b {a b : Buf} {oa ob : Option Nat} {p r t : Nat} (ha : a.length = p + r) (hr : 0 < r)
    (hb : b.length = t) (ht : 0 < t) :
    segments (p, r, t) [⟨a, oa⟩, ⟨b, ob⟩] = some
      (if 0 < p then ⟨a.take p, oa⟩ else ⟨[], none⟩,
       ⟨a.drop p, if 0 < p then oa.map (· + p) else oa⟩, ⟨b, ob⟩) := by
  unfold segments segPre
  dsimp only
  have hbt : b.take t = b := List.take_of_length_le (by omega)
  by_cases hp : 0 < p
  · have hd : (a.drop p).length = r := by rw [List.length_drop]; omega
    have hdd : (a.drop p).drop r = [] := by rw [← hd, List.drop_length]
    simp only [hp, if_true, Piece.splitTo, show p ≤ a.length by omega, Option.map_some, skipEmpty,
      ne_nil_of_pos (show 0 < (a.drop p).length by omega), if_false, hd, Nat.le_refl, ht, hdd, hb,
      hbt]
    rw [List.take_of_length_le (l := a.drop p) (by omega)]
  · have hp0 : p = 0 := by omega
    subst hp0
    have hal : a.length = r := by omega
    have hdd : a.drop r = [] := by rw [← hal, List.drop_length]
    simp only [hp, if_false, skipEmpty, ne_nil_of_pos (show 0 < a.length by omega), Piece.splitTo,
      hal, Nat.le_refl, if_true, ht, hdd, hb, hbt, List.drop_zero]
    rw [List.take_of_length_le (by omega)]

theorem seg3 {a b c : Buf} {oa ob oc : Option Nat} {p r t : Nat} (ha : a.length = p) (hp : 0 < p)
    (hb : b.length = r) (hc : c.length = t) (ht : 0 < t) :
    segments (p, r, t) [⟨a, oa⟩, ⟨b, ob⟩, ⟨c, oc⟩] = some (⟨a, oa⟩, ⟨b, ob⟩, ⟨c, oc⟩) := by
  unfold segments segPre
  subst ha hb hc
  simp only [hp, if_true, Piece.splitTo, Nat.le_refl, Option.map_some, skipEmpty, List.drop_length,
    List.take_length, ht]

theorem segments_ok {col L H i : Nat} (hcol : 0 < col) (hLH : L < H) {x : Buf} (hx : x.length = col) :
    ∃ s1 s2 s3, segments (cbB col L H)
        (piecesB col L H (i * col) x (max (i * col) L - L)) = some (s1, s2, s3) ∧
      SegOk L H (i * col) 0 (cbPre col L H) x s1 ∧
      SegOk L H (i * col) (cbPre col L H) (col - cbPre col L H - cbPost col L H) x s2 ∧
      SegOk L H (i * col) (col - cbPost col L H) (cbPost col L H) x s3 := by
  have hs := @cb_start col L H i hcol
  have he := @cb_end col L H i hcol
  have hf := @cb_facts col L H hcol
  have hpc : cbPre col L H < col := by
    have h1 := Nat.mod_lt L hcol
    unfold cbPre
    split <;> omega
  generalize i * col = c at *
  unfold cbB
  generalize cbPre col L H = p at *
  generalize ht : cbPost col L H = t at *
  clear ht
  have hul := userB_length (L := L) (H := H) (c := c) hx
  have single : ∀ off : Option Nat,
      (∀ a n, 0 < n → a + n ≤ col → off.map (· + a) =
        if L ≤ c + a ∧ c + a + n ≤ H then some (c + a - L) else none) →
      ∃ s1 s2 s3, segments (p, col - p - t, t) [⟨x, off⟩] = some (s1, s2, s3) ∧
      SegOk L H c 0 p x s1 ∧ SegOk L H c p (col - p - t) x s2 ∧ SegOk L H c (col - t) t x s3 := by
    intro off ho
    rw [seg1 (by omega) (by omega)]
    refine ⟨_, _, _, rfl, ?_, ?_, ?_⟩
    · by_cases hp : 0 < p
      · right
        rw [if_pos hp]
        refine ⟨by simp, ?_⟩
        have := ho 0 p hp (by omega)
        simpa using this
      · left; omega
    · by_cases hr : 0 < col - p - t
      · right
        refine ⟨rfl, ?_⟩
        dsimp only
        rw [← ho p _ hr (by omega)]
        split
        · rfl
        · rw [show p = 0 by omega]; cases off <;> rfl
      · left; omega
    · by_cases ht : 0 < t
      · right
        rw [if_pos ht]
        have hq : p + (col - p - t) = col - t := by omega
        refine ⟨by rw [hq], ?_⟩
        dsimp only
        rw [← ho (col - t) t ht (by omega)]
        cases off with
        | none => simp
        | some o =>
          simp only [Option.map_some]
          split
          · congr 1; omega
          · congr 1; omega
      · left; omega
  unfold piecesB
  by_cases h1 : c + col ≤ L
  · simp only [h1, if_true]
    refine single none (fun a n hn han => ?_)
    rw [if_neg (by omega)]; rfl
  simp only [h1, if_false]
  by_cases h2 : c < L
  · obtain ⟨s1, s2, s3⟩ := hs h2 (by omega)
    simp only [h2, if_true]
    have ht1 : (x.take (L - c)).length = L - c := by rw [List.length_take]; omega
    have ho : max c L - L = 0 := by omega
    rw [ho]
    by_cases h3 : H < c + col
    · obtain ⟨q1, q2, q3⟩ := s3 h3 hLH
      simp only [h3, if_true, List.cons_append, List.nil_append]
      rw [seg3 (by omega) s1 (by omega) (by rw [List.length_drop]; omega) q2]
      refine ⟨_, _, _, rfl, Or.inr ⟨by rw [q3]; simp, ?_⟩, ?_, Or.inr ⟨?_, ?_⟩⟩
      · dsimp only; rw [if_neg (by omega)]
      · right
        refine ⟨?_, ?_⟩
        · dsimp only
          unfold userB
          rw [q3, show H - max c L = col - p - t by omega]
        · dsimp only; rw [if_pos (by omega)]; congr 1; omega
      · dsimp only
        rw [q1, List.take_of_length_le (by rw [List.length_drop]; omega)]
      · dsimp only; rw [if_neg (by omega)]
    · simp only [h3, if_false, List.append_nil]
      rcases s2 with s2 | ⟨s2, s4⟩
      · rw [seg2a [] (by omega) s1 (by omega)]
        have hU : userB L H c x = x.drop p := by
          unfold userB
          rw [s2, List.take_of_length_le (by rw [List.length_drop]; omega)]
        rw [hU]
        have e1 : SegOk L H c 0 p x ⟨x.take (L - c), none⟩ :=
          Or.inr ⟨by rw [s2]; simp, by dsimp only; rw [if_neg (by omega)]⟩
        have e2 : SegOk L H c p (col - p - t) x ⟨(x.drop p).take (col - p - t), some 0⟩ :=
          Or.inr ⟨rfl, by dsimp only; rw [if_pos (by omega)]; congr 1; omega⟩
        split
        · refine ⟨_, _, _, rfl, e1, e2, Or.inr ⟨?_, ?_⟩⟩
          · dsimp only
            rw [List.drop_drop, show p + (col - p - t) = col - t by omega,
              List.take_of_length_le (by rw [List.length_drop]; omega)]
          · dsimp only; rw [if_pos (by omega)]; simp only [Option.map_some]; congr 1; omega
        · exact ⟨_, _, _, rfl, e1, e2, Or.inl (by omega)⟩
      · by_cases hr : 0 < col - p - t
        · rw [seg2b (by omega) hr (by omega) s4, if_pos s1, if_pos s1]
          refine ⟨_, _, _, rfl, Or.inr ⟨?_, ?_⟩, Or.inr ⟨?_, ?_⟩, Or.inr ⟨?_, ?_⟩⟩
          · dsimp only
            rw [List.take_take, List.drop_zero, Nat.min_eq_left (by omega)]
          · dsimp only; rw [if_neg (by omega)]
          · dsimp only
            rw [List.drop_take, show L - c - p = col - p - t by omega]
          · dsimp only; rw [if_neg (by omega)]; rfl
          · dsimp only
            unfold userB
            rw [s2, List.take_of_length_le (by rw [List.length_drop]; omega),
              List.take_of_length_le (by rw [List.length_drop]; omega)]
          · dsimp only; rw [if_pos (by omega)]; congr 1; omega
        · rw [seg2a [] (by omega) s1 (by omega), if_pos s4]
          refine ⟨_, _, _, rfl, Or.inr ⟨?_, ?_⟩, Or.inl (by omega), Or.inr ⟨?_, ?_⟩⟩
          · dsimp only
            rw [List.drop_zero, show L - c = p by omega]
          · dsimp only; rw [if_neg (by omega)]
          · dsimp only
            unfold userB
            rw [show col - p - t = 0 by omega, List.drop_zero, s2,
              List.take_of_length_le (by rw [List.length_drop]; omega),
              List.take_of_length_le (by rw [List.length_drop]; omega)]
          · dsimp only; rw [if_pos (by omega)]; simp only [Option.map_some]; congr 1; omega
  simp only [h2, if_false]
  by_cases h3 : c + col ≤ H
  · simp only [h3, if_true]
    refine single _ (fun a n hn han => ?_)
    rw [if_pos (by omega)]; simp only [Option.map_some]; congr 1; omega
  simp only [h3, if_false]
  by_cases h4 : c < H
  · obtain ⟨p1, p2⟩ := he h4 (by omega)
    simp only [h4, if_true]
    have hU : userB L H c x = x.take (H - c) := by
      unfold userB
      rw [show L - c = 0 by omega, List.drop_zero, show max c L = c by omega]
    rw [hU]
    have ht1 : (x.take (H - c)).length = H - c := by rw [List.length_take]; omega
    by_cases hr : H - c = col - t ∧ 0 < col - p - t
    · rw [seg2b (by omega) hr.2 (by rw [List.length_drop]; omega) p1]
      refine ⟨_, _, _, rfl, ?_, Or.inr ⟨?_, ?_⟩, Or.inr ⟨?_, ?_⟩⟩
      · by_cases hp : 0 < p
        · rw [if_pos hp]
          refine Or.inr ⟨?_, ?_⟩
          · dsimp only
            rw [List.take_take, List.drop_zero, Nat.min_eq_left (by omega)]
          · dsimp only; rw [if_pos (by omega)]; congr 1; omega
        · left; omega
      · dsimp only
        rw [List.drop_take, show H - c - p = col - p - t by omega]
      · dsimp only
        rw [if_pos (show L ≤ c + p ∧ c + p + (col - p - t) ≤ H by omega)]
        split
        · simp only [Option.map_some]; congr 1; omega
        · congr 1; omega
      · dsimp only
        rw [hr.1, List.take_of_length_le (by rw [List.length_drop]; omega)]
      · dsimp only; rw [if_neg (by omega)]
    · have hp : H - c = p := by omega
      rw [seg2a [] (by omega) (by omega) (by rw [List.length_drop]; omega), if_pos p1]
      refine ⟨_, _, _, rfl, Or.inr ⟨?_, ?_⟩, ?_, Or.inr ⟨?_, ?_⟩⟩
      · dsimp only; rw [hp, List.drop_zero]
      · dsimp only; rw [if_pos (by omega)]; congr 1; omega
      · by_cases hr0 : 0 < col - p - t
        · right
          refine ⟨by rw [hp], ?_⟩
          dsimp only; rw [if_neg (by omega)]
        · left; omega
      · dsimp only
        rw [List.drop_drop, show H - c + (col - p - t) = col - t by omega,
          List.take_of_length_le (by rw [List.length_drop]; omega)]
      · dsimp only; rw [if_neg (by omega)]; rfl
  · simp only [h4, if_false]
    refine single none (fun a n hn han => ?_)
    rw [if_neg (by omega)]; rfl

/-- All the parts of the columns from `i` on. -/
def SegsOk (col L H : Nat) (got : Nat → Buf) (i : Nat) (l : List (Piece × Piece × Piece)) : Prop :=
  ∀ j (s : Piece × Piece × Piece), l[j]? = some s →
    SegOk L H ((i + j) * col) 0 (cbPre col L H) (got (i + j)) s.1 ∧
    SegOk L H ((i + j) * col) (cbPre col L H) (col - cbPre col L H - cbPost col L H) (got (i + j)) s.2.1 ∧
    SegOk L H ((i + j) * col) (col - cbPost col L H) (cbPost col L H) (got (i + j)) s.2.2

/-- The caller's part of `n` chunks from `i` on. -/
def usersB (col L H : Nat) (got : Nat → Buf) (i n : Nat) : Buf :=
  (List.range' i n).flatMap fun j => userB L H (j * col) (got j)

def exsB (col L H : Nat) (got : Nat → Buf) (i n : Nat) : List Buf :=
  (List.range' i n).flatMap fun j => exB col L H (j * col) (got j)

theorem usersB_nil {col L H : Nat} {got : Nat → Buf} : ∀ (n i : Nat), H ≤ i * col →
    usersB col L H got i n = [] := by
  intro n
  induction n with
  | zero => intro i _; rfl
  | succ n ih =>
    intro i hi
    unfold usersB at *
    rw [List.range'_succ, List.flatMap_cons, ih (i + 1) (by rw [Nat.add_mul]; omega)]
    unfold userB
    rw [show H - max (i * col) L = 0 by omega, List.take_zero]
    rfl

theorem gather_ok {g : Geom} (h : g.Lawful) {u e : Nat} (hr : InStripe g u e) {got : Nat → Buf}
    (tail : List Buf) : ∀ (n n' i : Nat), n ≤ n' →
    (∀ j, i ≤ j → j < i + n' → (got j).length = g.col) →
    ∃ l, gather g u e n i
        ⟨usersB g.col (lo g u) (hi g u e) got i n', some (min (max (i * g.col) (lo g u)) (hi g u e) - lo g u)⟩
        (exsB g.col (lo g u) (hi g u e) got i n' ++ tail) = some l ∧ l.length = n ∧
      SegsOk g.col (lo g u) (hi g u e) got i l := by
  have hcol : 0 < g.col := Nat.mul_pos h.cs h.bpl
  have hLH : lo g u < hi g u e := by
    unfold lo hi
    have h1 := hr.lt
    have h2 := Nat.mod_le u g.slbas
    exact (Nat.mul_lt_mul_right h.bpl).2 (by omega)
  intro n
  induction n with
  | zero => intro n' i _ _; exact ⟨[], rfl, rfl, fun j s hj => by simp at hj⟩
  | succ n ih =>
    intro n' i hn hgot
    obtain ⟨n', rfl⟩ : ∃ k, n' = k + 1 := ⟨n' - 1, by omega⟩
    have hx := hgot i (Nat.le_refl _) (by omega)
    have eu : usersB g.col (lo g u) (hi g u e) got i (n' + 1) =
        userB (lo g u) (hi g u e) (i * g.col) (got i) ++
          usersB g.col (lo g u) (hi g u e) got (i + 1) n' := by
      unfold usersB; rw [List.range'_succ, List.flatMap_cons]
    have ee : exsB g.col (lo g u) (hi g u e) got i (n' + 1) ++ tail =
        exB g.col (lo g u) (hi g u e) (i * g.col) (got i) ++
          (exsB g.col (lo g u) (hi g u e) got (i + 1) n' ++ tail) := by
      unfold exsB; rw [List.range'_succ, List.flatMap_cons, List.append_assoc]
    rw [eu, ee, gather, colPieces_eq h hr, colPiecesB_eq hcol hLH hx]
    · obtain ⟨l, hl1, hl2, hl3⟩ := ih n' (i + 1) (by omega)
        (fun j h1 h2 => hgot j (by omega) (by omega))
      have hoff : min (max (i * g.col) (lo g u)) (hi g u e) - lo g u +
          (userB (lo g u) (hi g u e) (i * g.col) (got i)).length =
          min (max ((i + 1) * g.col) (lo g u)) (hi g u e) - lo g u := by
        rw [userB_length hx, Nat.add_mul, Nat.one_mul]
        generalize i * g.col = c
        omega
      rw [hoff]
      rw [codecBytes_eq h hr]
      dsimp only
      by_cases hc : i * g.col < hi g u e
      · obtain ⟨s1, s2, s3, hs, k1, k2, k3⟩ := segments_ok (i := i) hcol hLH hx
        have : min (max (i * g.col) (lo g u)) (hi g u e) - lo g u = max (i * g.col) (lo g u) - lo g u := by
          omega
        rw [this, hs]
        dsimp only
        rw [hl1]
        refine ⟨_, rfl, by rw [List.length_cons, hl2], ?_⟩
        intro j s hj
        cases j with
        | zero =>
          simp only [List.getElem?_cons_zero, Option.some.injEq] at hj
          subst hj
          exact ⟨k1, k2, k3⟩
        | succ j =>
          rw [List.getElem?_cons_succ] at hj
          have := hl3 j s hj
          rw [show i + 1 + j = i + (j + 1) by omega] at this
          exact this
      · obtain ⟨s1, s2, s3, hs, k1, k2, k3⟩ := segments_ok (i := i) hcol hLH hx
        have hpe : piecesB g.col (lo g u) (hi g u e) (i * g.col) (got i)
            (min (max (i * g.col) (lo g u)) (hi g u e) - lo g u) =
            piecesB g.col (lo g u) (hi g u e) (i * g.col) (got i)
            (max (i * g.col) (lo g u) - lo g u) := by
          unfold piecesB
          rw [if_neg (by omega), if_neg (by omega), if_neg (by omega), if_neg hc,
            if_neg (by omega), if_neg (by omega), if_neg (by omega), if_neg hc]
        rw [hpe, hs]
        dsimp only
        rw [hl1]
        refine ⟨_, rfl, by rw [List.length_cons, hl2], ?_⟩
        intro j s hj
        cases j with
        | zero =>
          simp only [List.getElem?_cons_zero, Option.some.injEq] at hj
          subst hj
          exact ⟨k1, k2, k3⟩
        | succ j =>
          rw [List.getElem?_cons_succ] at hj
          have := hl3 j s hj
          rw [show i + 1 + j = i + (j + 1) by omega] at this
          exact this
    · intro hlt
      exact usersB_nil _ _ (by rw [Nat.add_mul, Nat.one_mul]; omega)

end Verif.Raid
