import Verif.Raid.ReconLemmas

/-! The reads of `read_at_one` fill the buffers as the recovery expects. -/

namespace Verif.Raid

open Verif.Bytes Verif.Codec

variable {g : Geom}

theorem mul_col (b : Nat) : b * g.col = b * g.cs * g.bpl := by
  unfold Geom.col; rw [Nat.mul_assoc]

/-- The conditions of `read_at_one` on a chunk, in bytes. -/
theorem chunk_conds (h : g.Lawful) {u e : Nat} (hr : InStripe g u e) (b : Nat) :
    ((u - u % g.slbas + b * g.cs + g.cs ≤ u) = (b * g.col + g.col ≤ lo g u)) ∧
    ((u - u % g.slbas + b * g.cs < u) = (b * g.col < lo g u)) ∧
    ((u - u % g.slbas + b * g.cs + g.cs ≤ e) = (b * g.col + g.col ≤ hi g u e)) ∧
    ((u - u % g.slbas + b * g.cs < e) = (b * g.col < hi g u e)) ∧
    ((u - (u - u % g.slbas + b * g.cs)) * g.bpl = lo g u - b * g.col) := by
  have hb := h.bpl
  have hle : ∀ a b, (a ≤ b) = (a * g.bpl ≤ b * g.bpl) := fun a b =>
    propext (Nat.mul_le_mul_right_iff hb).symm
  have hlt : ∀ a b, (a < b) = (a * g.bpl < b * g.bpl) := fun a b =>
    propext (Nat.mul_lt_mul_right hb).symm
  have hu := base_add (g := g) u
  have h1 := hr.lt
  have hcol := mul_col (g := g) b
  generalize hs0 : u - u % g.slbas = s0 at *
  generalize hr0 : u % g.slbas = r at *
  refine ⟨?_, ?_, ?_, ?_, ?_⟩
  · rw [show (s0 + b * g.cs + g.cs ≤ u) = (b * g.cs + g.cs ≤ r) by apply propext; omega, hle,
      Nat.add_mul, hcol, lo, hr0]; rfl
  · rw [show (s0 + b * g.cs < u) = (b * g.cs < r) by apply propext; omega, hlt, hcol, lo, hr0]
  · rw [show (s0 + b * g.cs + g.cs ≤ e) = (b * g.cs + g.cs ≤ e - s0) by apply propext; omega, hle,
      Nat.add_mul, hcol, hi, hr0, hs0]; rfl
  · rw [show (s0 + b * g.cs < e) = (b * g.cs < e - s0) by apply propext; omega, hlt, hcol, hi, hr0,
      hs0]
  · rw [lo, hr0, hcol, ← Nat.sub_mul]
    congr 1
    omega

/-- Where the range starts in its first chunk. -/
theorem start_off {u b : Nat} (h1 : b * g.col < lo g u) (h2 : lo g u < b * g.col + g.col) :
    u % g.cs * g.bpl = lo g u - b * g.col ∧ (g.cs - u % g.cs) * g.bpl = b * g.col + g.col - lo g u := by
  have := mod_mid h1 h2
  rw [mod_lo] at this
  refine ⟨this, ?_⟩
  rw [Nat.sub_mul, this]
  unfold Geom.col at *
  omega

/-- The bytes of the caller's buffer left when position `b` is reached. -/
def leftB (g : Geom) (u e b : Nat) : Nat := hi g u e - min (max (b * g.col) (lo g u)) (hi g u e)

theorem leftB_step (h : g.Lawful) {u e b : Nat} (hr : InStripe g u e) {x : Buf}
    (hx : x.length = g.col) :
    leftB g u e b - (userB (lo g u) (hi g u e) (b * g.col) x).length = leftB g u e (b + 1) := by
  have hLH := lo_lt_hi h hr
  unfold leftB
  rw [userB_length hx, Nat.add_mul, Nat.one_mul]
  omega

theorem plan_deg (h : g.Lawful) {u e b : Nat} (hr : InStripe g u e) {x : Buf}
    (hx : x.length = g.col) :
    ∃ p, chunkPlan g true u e (leftB g u e b) b = some p ∧ fillBufs p.bufs (x.drop p.start) =
      (userB (lo g u) (hi g u e) (b * g.col) x, exB g.col (lo g u) (hi g u e) (b * g.col) x) := by
  have hcol : 0 < g.col := Nat.mul_pos h.cs h.bpl
  have hLH := lo_lt_hi h hr
  have hH := hi_le hr
  obtain ⟨c1, c2, c3, c4, c5⟩ := chunk_conds h hr b
  have hso := start_off (g := g) (u := u) (b := b)
  have hul := userB_length (L := lo g u) (H := hi g u e) (c := b * g.col) hx
  have hm : g.Y.m ≤ b → hi g u e ≤ b * g.col := fun hb =>
    Nat.le_trans hH (Nat.mul_le_mul_right _ hb)
  unfold chunkPlan
  simp only [c1, c2, c3, c4, c5]
  unfold leftB
  generalize b * g.col = c at *
  generalize lo g u = L at *
  generalize hi g u e = H at *
  have hxt : x.take g.col = x := List.take_of_length_le (by omega)
  have all : userB L H c x = [] → exB g.col L H c x = [x] →
      ∃ p, some (⟨0, [(false, g.col)]⟩ : Plan) = some p ∧
        fillBufs p.bufs (x.drop p.start) = (userB L H c x, exB g.col L H c x) := by
    intro e1 e2
    refine ⟨_, rfl, ?_⟩
    rw [e1, e2]
    simp only [fillBufs, List.drop_zero, hxt]
  by_cases h1 : g.Y.m ≤ b ∨ c + g.col ≤ L
  · simp only [h1, if_true]
    apply all
    · apply List.eq_nil_of_length_eq_zero
      rcases h1 with h1 | h1
      · have := hm h1; omega
      · omega
    · unfold exB
      rcases h1 with h1 | h1
      · have := hm h1
        rw [if_neg (by omega), if_neg (by omega), if_neg (by omega), if_neg (by omega)]
      · rw [if_pos h1]
  · simp only [h1, if_false]
    have h1' : L < c + g.col := by omega
    by_cases h2 : c < L
    · obtain ⟨s1, s2⟩ := hso h2 h1'
      simp only [h2, true_and, if_true, s2]
      rw [if_neg (by omega)]
      refine ⟨_, rfl, ?_⟩
      have hex : exB g.col L H c x =
          x.take (L - c) :: (if H < c + g.col then [x.drop (H - c)] else []) := by
        unfold exB
        rw [if_neg (by omega), if_pos h2]
      rw [hex]
      have hmin : min (c + g.col - L) (H - min (max c L) H) = min (H - L) (c + g.col - L) := by omega
      have hU : userB L H c x = (x.drop (L - c)).take (min (H - L) (c + g.col - L)) := by
        unfold userB
        rw [show max c L = L by omega]
        by_cases hh : H - L ≤ c + g.col - L
        · rw [Nat.min_eq_left hh]
        · rw [Nat.min_eq_right (by omega), List.take_of_length_le (by rw [List.length_drop]; omega),
            List.take_of_length_le (by rw [List.length_drop]; omega)]
      rw [hmin]
      by_cases h3 : H < c + g.col
      · rw [if_pos h3, if_pos (show 0 < g.col - min (H - L) (c + g.col - L) - (L - c) by omega)]
        simp only [List.cons_append, List.nil_append, fillBufs, List.drop_zero, List.append_nil, hU]
        rw [List.drop_drop, show L - c + min (H - L) (c + g.col - L) = H - c by omega,
          List.take_of_length_le (l := x.drop (H - c)) (by rw [List.length_drop]; omega)]
      · rw [if_neg h3, if_neg (show ¬ 0 < g.col - min (H - L) (c + g.col - L) - (L - c) by omega)]
        simp only [List.append_nil, fillBufs, List.drop_zero, hU]
    · simp only [h2, false_and, if_false]
      have hU : userB L H c x = x.take (H - c) := by
        unfold userB
        rw [show L - c = 0 by omega, List.drop_zero, show max c L = c by omega]
      by_cases h3 : c + g.col ≤ H
      · simp only [h3, if_true]
        refine ⟨_, rfl, ?_⟩
        unfold exB
        rw [if_neg (by omega), if_neg h2, if_pos h3, hU]
        simp only [fillBufs, List.drop_zero, List.append_nil]
        rw [show min g.col (H - min (max c L) H) = g.col by omega, hxt,
          List.take_of_length_le (by omega)]
      · simp only [h3, if_false]
        by_cases h4 : c < H
        · simp only [h4, not_true_eq_false, and_false, if_false, if_true]
          rw [if_neg (by omega)]
          refine ⟨_, rfl, ?_⟩
          unfold exB
          rw [if_neg (by omega), if_neg h2, if_neg h3, if_pos h4, hU]
          simp only [fillBufs, List.drop_zero, List.append_nil]
          rw [show H - min (max c L) H = H - c by omega,
            List.take_of_length_le (l := x.drop (H - c)) (by rw [List.length_drop]; omega)]
        · simp only [h4, false_and, if_false, if_true]
          apply all
          · apply List.eq_nil_of_length_eq_zero; omega
          · unfold exB
            rw [if_neg (by omega), if_neg (by omega), if_neg h3, if_neg h4]

theorem usersB_succ (col L H : Nat) (got : Nat → Buf) (b n : Nat) :
    usersB col L H got b (n + 1) = userB L H (b * col) (got b) ++ usersB col L H got (b + 1) n := by
  unfold usersB; rw [List.range'_succ, List.flatMap_cons]

theorem exsB_succ (col L H : Nat) (got : Nat → Buf) (b n : Nat) :
    exsB col L H got b (n + 1) = exB col L H (b * col) (got b) ++ exsB col L H got (b + 1) n := by
  unfold exsB; rw [List.range'_succ, List.flatMap_cons]

theorem exsB_add (col L H : Nat) (got : Nat → Buf) (b n n' : Nat) :
    exsB col L H got b (n + n') = exsB col L H got b n ++ exsB col L H got (b + n) n' := by
  unfold exsB; rw [← List.range'_append_1, List.flatMap_append]

theorem usersB_add (col L H : Nat) (got : Nat → Buf) (b n n' : Nat) :
    usersB col L H got b (n + n') = usersB col L H got b n ++ usersB col L H got (b + n) n' := by
  unfold usersB; rw [← List.range'_append_1, List.flatMap_append]

theorem firstReads_deg (h : g.Lawful) {u e : Nat} (hr : InStripe g u e) {got : Nat → Buf} :
    ∀ (n b : Nat), (∀ j, b ≤ j → j < b + n → (got j).length = g.col) →
    firstReads g true u e got n b (leftB g u e b) =
      some (usersB g.col (lo g u) (hi g u e) got b n, exsB g.col (lo g u) (hi g u e) got b n) := by
  intro n
  induction n with
  | zero => intro b _; rfl
  | succ n ih =>
    intro b hg
    have hx := hg b (Nat.le_refl _) (by omega)
    obtain ⟨p, hp, hfill⟩ := plan_deg h hr (b := b) hx
    unfold firstReads
    rw [hp]
    dsimp only
    rw [hfill]
    dsimp only
    rw [leftB_step h hr hx, ih (b + 1) (fun j h1 h2 => hg j (by omega) (by omega)), usersB_succ,
      exsB_succ]
    rfl

/-- Position `b` has bytes that the caller wants. -/
def Touches (g : Geom) (u e b : Nat) : Prop :=
  b < g.Y.m ∧ lo g u < b * g.col + g.col ∧ b * g.col < hi g u e

theorem plan_healthy (h : g.Lawful) {u e b : Nat} (hr : InStripe g u e) (ht : Touches g u e b)
    {x : Buf} (hx : x.length = g.col) :
    ∃ p, chunkPlan g false u e (leftB g u e b) b = some p ∧ fillBufs p.bufs (x.drop p.start) =
      (userB (lo g u) (hi g u e) (b * g.col) x, []) := by
  have hcol : 0 < g.col := Nat.mul_pos h.cs h.bpl
  have hLH := lo_lt_hi h hr
  obtain ⟨c1, c2, c3, c4, c5⟩ := chunk_conds h hr b
  have hso := start_off (g := g) (u := u) (b := b)
  obtain ⟨t1, t2, t3⟩ := ht
  unfold chunkPlan
  simp only [c1, c2, c3, c4, c5]
  unfold leftB
  generalize b * g.col = c at *
  generalize lo g u = L at *
  generalize hi g u e = H at *
  rw [if_neg (by omega)]
  by_cases h2 : c < L
  · obtain ⟨s1, s2⟩ := hso h2 t2
    simp only [h2, Bool.false_eq_true, and_false, if_false, if_true, s1, s2]
    refine ⟨_, rfl, ?_⟩
    simp only [fillBufs, List.append_nil]
    have hmin : min (c + g.col - L) (H - min (max c L) H) = min (H - L) (c + g.col - L) := by omega
    rw [hmin]
    unfold userB
    rw [show max c L = L by omega]
    by_cases hh : H - L ≤ c + g.col - L
    · rw [Nat.min_eq_left hh]
    · rw [Nat.min_eq_right (by omega), List.take_of_length_le (by rw [List.length_drop]; omega),
        List.take_of_length_le (by rw [List.length_drop]; omega)]
  · simp only [h2, false_and, if_false]
    have hU : userB L H c x = x.take (H - c) := by
      unfold userB
      rw [show L - c = 0 by omega, List.drop_zero, show max c L = c by omega]
    by_cases h3 : c + g.col ≤ H
    · simp only [h3, if_true]
      refine ⟨_, rfl, ?_⟩
      rw [hU]
      simp only [fillBufs, List.drop_zero, List.append_nil]
      rw [show min g.col (H - min (max c L) H) = g.col by omega, List.take_of_length_le (by omega),
          List.take_of_length_le (by omega)]
    · simp only [h3, if_false, t3, Bool.false_eq_true, not_false_eq_true, and_self, if_true]
      refine ⟨_, rfl, ?_⟩
      rw [hU]
      simp only [fillBufs, List.drop_zero, List.append_nil]
      rw [show H - min (max c L) H = H - c by omega]

theorem firstReads_healthy (h : g.Lawful) {u e : Nat} (hr : InStripe g u e) {got : Nat → Buf} :
    ∀ (n b : Nat), (∀ j, b ≤ j → j < b + n → Touches g u e j) →
    (∀ j, b ≤ j → j < b + n → (got j).length = g.col) →
    firstReads g false u e got n b (leftB g u e b) =
      some (usersB g.col (lo g u) (hi g u e) got b n, []) := by
  intro n
  induction n with
  | zero => intro b _ _; rfl
  | succ n ih =>
    intro b ht hg
    have hx := hg b (Nat.le_refl _) (by omega)
    obtain ⟨p, hp, hfill⟩ := plan_healthy h hr (ht b (Nat.le_refl _) (by omega)) hx
    unfold firstReads
    rw [hp]
    dsimp only
    rw [hfill]
    dsimp only
    rw [leftB_step h hr hx, ih (b + 1) (fun j h1 h2 => ht j (by omega) (by omega))
      (fun j h1 h2 => hg j (by omega) (by omega)), usersB_succ]
    rfl

/-! ### Reading more -/

theorem exB_outside {col L H c : Nat} (hcol : 0 < col) (hLH : L < H)
    (hc : c + col ≤ L ∨ H ≤ c) (x : Buf) : exB col L H c x = [x] := by
  unfold exB
  rcases hc with hc | hc
  · rw [if_pos hc]
  · rw [if_neg (by omega), if_neg (by omega), if_neg (by omega), if_neg (by omega)]

theorem exsB_outside {col L H : Nat} (hcol : 0 < col) (hLH : L < H) (got : Nat → Buf) : ∀ (n b : Nat),
    H ≤ b * col → exsB col L H got b n = (List.range' b n).map got := by
  intro n
  induction n with
  | zero => intro b _; rfl
  | succ n ih =>
    intro b hb
    rw [exsB_succ, exB_outside hcol hLH (Or.inr hb), ih (b + 1) (by rw [Nat.add_mul]; omega),
      List.range'_succ, List.map_cons]
    rfl

theorem range_split (a n : Nat) : List.range (a + n) = List.range a ++ List.range' a n := by
  rw [List.range_eq_range', List.range_eq_range', ← List.range'_append_1, Nat.zero_add]

theorem nErr_range (res : Nat → Res) (n : Nat) :
    nErr ((List.range n).map res) ≤ n := by
  have := List.countP_le_length (p := Res.isErr) (l := (List.range n).map res)
  simpa [nErr] using this

theorem zip_map_self {α β : Type} (l : List α) (f : α → β) :
    l.zip (l.map f) = l.map fun x => (x, f x) := by
  rw [List.zip_map_right, show l.zip l = l.map fun x => (x, x) by
    induction l with
    | nil => rfl
    | cons a l ih => simp [ih], List.map_map]
  rfl

theorem mapM_some' {α β : Type} {F : α → Option β} {G : α → β} {l : List α}
    (h : ∀ x ∈ l, F x = some (G x)) : l.mapM F = some (l.map G) := mapM_some h

/-- After the first round, all data chunks and `w` parity chunks have been read. -/
theorem moreReads_whole {m f : Nat} {got : Nat → Buf} {res : Nat → Res} {col L H : Nat}
    (hm : 0 < m) (hcol : 0 < col) (hLH : L < H) (hH : H ≤ m * col) : ∀ (fuel old w : Nat),
    (w = old ∧ w ≤ f ∨ w = f ∧ f ≤ old) → f < fuel + old →
    ∃ w', w ≤ w' ∧ w' ≤ f ∧
      (nErr ((List.range (m + w')).map res) ≤ w' ∨ f < nErr ((List.range (m + w')).map res)) ∧
      moreReads m f got res fuel old 0 ((List.range (m + w)).map res) (exsB col L H got 0 (m + w)) =
        some (nErr ((List.range (m + w')).map res), (List.range (m + w')).map res,
          exsB col L H got 0 (m + w')) := by
  intro fuel
  induction fuel with
  | zero =>
    intro old w hw hfuel
    refine ⟨w, Nat.le_refl _, by omega, ?_, ?_⟩
    · omega
    · unfold moreReads
      show (if nErr _ ≤ old then _ else _) = _
      split
      · rfl
      · rename_i hh
        have hmlt : ¬ m ≤ ((List.range (m + w)).map res).length - nErr ((List.range (m + w)).map res) := by
          simp only [List.length_map, List.length_range]; omega
        show (if m ≤ _ - nErr _ then _ else _) = _
        rw [if_neg hmlt]
        show (if f < nErr _ then _ else _) = _
        rw [if_pos (by omega)]
        rfl
  | succ fuel ih =>
    intro old w hw hfuel
    have hle := nErr_range res (m + w)
    by_cases h1 : nErr ((List.range (m + w)).map res) ≤ old
    · refine ⟨w, Nat.le_refl _, by omega, by omega, ?_⟩
      unfold moreReads
      show (if nErr _ ≤ old then _ else _) = _
      rw [if_pos h1]
      rfl
    · have hmlt : ¬ m ≤ ((List.range (m + w)).map res).length - nErr ((List.range (m + w)).map res) := by
        simp only [List.length_map, List.length_range]; omega
      by_cases h2 : f < nErr ((List.range (m + w)).map res)
      · refine ⟨w, Nat.le_refl _, by omega, Or.inr h2, ?_⟩
        unfold moreReads
        show (if nErr _ ≤ old then _ else _) = _
        rw [if_neg h1]
        show (if m ≤ _ - nErr _ then _ else _) = _
        rw [if_neg hmlt]
        show (if f < nErr _ then _ else _) = _
        rw [if_pos h2]
        rfl
      · have hwo : w = old := by omega
        subst hwo
        generalize hN : nErr ((List.range (m + w)).map res) = N at *
        obtain ⟨w', k1, k2, k3, k4⟩ := ih N N (by omega) (by omega)
        refine ⟨w', by omega, k2, k3, ?_⟩
        have hN' : ((List.range (m + w)).map res).countP Res.isErr = N := hN
        have hmore : (List.range (m + N)).mapM (moreOne m w 0 ((List.range (m + w)).map res) res) =
            some ((List.range (m + N)).map fun b => (res b, decide (m + w ≤ b))) := by
          apply mapM_some'
          intro b hb
          have hb := List.mem_range.mp hb
          unfold moreOne
          by_cases hbm : m ≤ b
          · rw [if_pos hbm]
            by_cases hbo : b - m < w
            · rw [if_pos hbo, List.getElem?_map, List.getElem?_range (by omega),
                decide_eq_false (by omega)]
              rfl
            · rw [if_neg hbo, decide_eq_true (by omega)]
          · rw [if_neg hbm, if_neg (by omega), Nat.sub_zero, if_pos (by simp; omega),
              List.getElem?_map, List.getElem?_range (by omega), decide_eq_false (by omega)]
            rfl
        unfold moreReads
        dsimp only
        rw [hN', if_neg h1, if_neg hmlt, if_neg h2, hmore]
        dsimp only
        rw [List.map_map, zip_map_self, List.filter_map, List.map_map]
        have e1 : (List.range (m + N)).map ((fun r : Res × Bool => r.1) ∘
            fun b => (res b, decide (m + w ≤ b))) = (List.range (m + N)).map res := rfl
        have e2 : ((List.range (m + N)).filter ((fun x : Nat × Res × Bool => x.2.2) ∘
            fun b => (b, res b, decide (m + w ≤ b)))) = List.range' (m + w) (N - w) := by
          rw [show m + N = m + w + (N - w) by omega, range_split, List.filter_append]
          have f1 : (List.range (m + w)).filter ((fun x : Nat × Res × Bool => x.2.2) ∘
              fun b => (b, res b, decide (m + w ≤ b))) = [] := by
            rw [List.filter_eq_nil_iff]
            intro b hb
            have := List.mem_range.mp hb
            simp; omega
          have f2 : (List.range' (m + w) (N - w)).filter ((fun x : Nat × Res × Bool => x.2.2) ∘
              fun b => (b, res b, decide (m + w ≤ b))) = List.range' (m + w) (N - w) := by
            rw [List.filter_eq_self]
            intro b hb
            rw [List.mem_range'_1] at hb
            simp; omega
          rw [f1, f2, List.nil_append]
        rw [e1, e2]
        have e3 : exsB col L H got 0 (m + w) ++ (List.range' (m + w) (N - w)).map
            ((fun x : Nat × Res × Bool => got x.1) ∘ fun b => (b, res b, decide (m + w ≤ b))) =
            exsB col L H got 0 (m + N) := by
          have hmw : m * col ≤ (m + w) * col := Nat.mul_le_mul_right _ (by omega)
          rw [show m + N = m + w + (N - w) by omega, exsB_add col L H got 0 (m + w) (N - w),
            Nat.zero_add, exsB_outside hcol hLH got _ _ (Nat.le_trans hH hmw)]
          rfl
        rw [e3]
        exact k4

/-! ### Healthy arrays -/

theorem slbas_eq : g.slbas = g.Y.m * g.cs := by unfold Geom.slbas; first | rfl | rw [Nat.mul_comm]

/-- The positions read at first in a healthy array are those with bytes that the caller wants. -/
theorem firstRange_healthy (h : g.Lawful) {u e : Nat} (hr : InStripe g u e) (f : Nat) :
    ∃ b s, firstRange g f 0 u e = (b, s - b) ∧ b < s ∧ s ≤ g.Y.m ∧
      b * g.col ≤ lo g u ∧ lo g u < b * g.col + g.col ∧
      (s - 1) * g.col < hi g u e ∧ hi g u e ≤ s * g.col := by
  have hcs := h.cs
  have hb := h.bpl
  have hm := h.layout.m_pos
  have hu := base_add (g := g) u
  have h1 := hr.lt
  have h2 := hr.le
  have hS := slbas_eq (g := g)
  have hSpos : 0 < g.slbas := by rw [hS]; exact Nat.mul_pos hm hcs
  have hrl := Nat.mod_lt u hSpos
  have hdvd : g.slbas ∣ (u - u % g.slbas) := Nat.dvd_sub_mod u
  have hrem : e % g.slbas = (e - (u - u % g.slbas)) % g.slbas := by
    obtain ⟨q, hq⟩ := hdvd
    conv => lhs; rw [show e = e - (u - u % g.slbas) + (u - u % g.slbas) by omega]
    rw [hq, Nat.add_mul_mod_self_left]
  unfold firstRange
  simp only [Nat.lt_irrefl, if_false]
  rw [hrem]
  have key : ∀ b s, b = u % g.slbas / g.cs → b < s → s ≤ g.Y.m →
      (s - 1) * g.cs < e - (u - u % g.slbas) → e - (u - u % g.slbas) ≤ s * g.cs →
      b < s ∧ s ≤ g.Y.m ∧ b * g.col ≤ lo g u ∧ lo g u < b * g.col + g.col ∧
      (s - 1) * g.col < hi g u e ∧ hi g u e ≤ s * g.col := by
    intro b s hbe hbs hsm k1 k2
    refine ⟨hbs, hsm, ?_, ?_, ?_, ?_⟩
    · rw [mul_col, lo, hbe]
      exact Nat.mul_le_mul_right _ (Nat.div_mul_le_self _ _)
    · rw [mul_col, lo, hbe, Geom.col, ← Nat.add_mul]
      exact (Nat.mul_lt_mul_right hb).2 (Nat.lt_div_mul_add hcs)
    · rw [mul_col, hi]
      exact (Nat.mul_lt_mul_right hb).2 k1
    · rw [mul_col, hi]
      exact Nat.mul_le_mul_right _ k2
  have hbm : u % g.slbas / g.cs < g.Y.m := by
    rw [Nat.div_lt_iff_lt_mul hcs, ← hS]; exact hrl
  have hdl : u % g.slbas / g.cs * g.cs ≤ u % g.slbas := Nat.div_mul_le_self _ _
  generalize hE : e - (u - u % g.slbas) = E at *
  have hpred : (g.Y.m - 1) * g.cs + g.cs = g.slbas := by
    rw [hS, Nat.sub_mul, Nat.one_mul]
    have : 1 * g.cs ≤ g.Y.m * g.cs := Nat.mul_le_mul_right _ hm
    omega
  by_cases hfull : E = g.slbas
  · rw [hfull, Nat.mod_self, if_pos (Or.inl rfl)]
    exact ⟨_, g.Y.m, rfl, key _ _ rfl hbm (Nat.le_refl _) (by omega) (by omega)⟩
  · have hE' : E % g.slbas = E := Nat.mod_eq_of_lt (by omega)
    rw [hE']
    by_cases hlast : E = 0 ∨ g.slbas - E < g.cs
    · rw [if_pos hlast]
      exact ⟨_, g.Y.m, rfl, key _ _ rfl hbm (Nat.le_refl _) (by omega) (by omega)⟩
    · rw [if_neg hlast]
      refine ⟨_, (E + g.cs - 1) / g.cs, rfl, key _ _ rfl ?_ ?_ ?_ ?_⟩
      · rw [Nat.lt_div_iff_mul_lt hcs]
        omega
      · apply Nat.le_of_lt_succ
        rw [Nat.div_lt_iff_lt_mul hcs, Nat.succ_mul, ← hS]
        omega
      · have := Nat.div_mul_le_self (E + g.cs - 1) g.cs
        rw [Nat.sub_mul]
        omega
      · have := Nat.lt_div_mul_add hcs (a := E + g.cs - 1)
        omega

theorem usersB_before {col L H : Nat} {got : Nat → Buf} : ∀ (n i : Nat),
    (∀ j, i ≤ j → j < i + n → (got j).length = col) → (i + n) * col ≤ L →
    usersB col L H got i n = [] := by
  intro n i hg hL
  apply List.eq_nil_of_length_eq_zero
  rw [usersB_length n i hg]
  have : i * col ≤ (i + n) * col := Nat.mul_le_mul_right _ (by omega)
  omega

theorem usersB_touched {col L H : Nat} {got : Nat → Buf} {m b s : Nat}
    (hg : ∀ j < m, (got j).length = col) (hbs : b < s) (hsm : s ≤ m) (h1 : b * col ≤ L)
    (h2 : H ≤ s * col) : usersB col L H got b (s - b) = usersB col L H got 0 m := by
  rw [show m = b + (s - b) + (m - s) by omega, usersB_add, usersB_add, Nat.zero_add,
    usersB_before b 0 (fun j _ hj => hg j (by omega)) (by rw [Nat.zero_add]; exact h1),
    show b + (s - b) = s by omega, Nat.zero_add s, usersB_nil (m - s) s h2]
  simp

theorem exsB_inside {col L H : Nat} {got : Nat → Buf} : ∀ (n b : Nat), 0 < col → L < H →
    L ≤ b * col → (b + n) * col ≤ H → exsB col L H got b n = [] := by
  intro n
  induction n with
  | zero => intros; rfl
  | succ n ih =>
    intro b hcol hLH h1 h2
    have h3 : (b + 1) * col ≤ (b + (n + 1)) * col := Nat.mul_le_mul_right _ (by omega)
    have h4 : (b + 1) * col = b * col + col := by rw [Nat.add_mul, Nat.one_mul]
    rw [exsB_succ, ih (b + 1) hcol hLH (by omega)
      (by rw [show b + 1 + n = b + (n + 1) by omega]; exact h2)]
    unfold exB
    rw [if_neg (by omega), if_neg (by omega), if_pos (by omega)]
    rfl

theorem exsB_before {col L H : Nat} {got : Nat → Buf} : ∀ (n b : Nat), 0 < col → L < H →
    (b + n) * col ≤ L → exsB col L H got b n = (List.range' b n).map got := by
  intro n
  induction n with
  | zero => intros; rfl
  | succ n ih =>
    intro b hcol hLH h1
    have h3 : (b + 1) * col ≤ (b + (n + 1)) * col := Nat.mul_le_mul_right _ (by omega)
    have h4 : (b + 1) * col = b * col + col := by rw [Nat.add_mul, Nat.one_mul]
    rw [exsB_succ, ih (b + 1) hcol hLH
      (by rw [show b + 1 + n = b + (n + 1) by omega]; exact h1),
      exB_outside hcol hLH (Or.inl (by omega)), List.range'_succ, List.map_cons]
    rfl

/-- The first further round, in a healthy array with a range of whole chunks. -/
theorem moreReads_first {m f : Nat} {got : Nat → Buf} {res : Nat → Res} {col L H b s : Nat}
    (hcol : 0 < col) (hLH : L < H) (hbs : b < s) (hsm : s ≤ m) (hL : L = b * col) (hH : H = s * col)
    {fuel : Nat} :
    let N := nErr ((List.range' b (s - b)).map res)
    0 < N → N ≤ f →
    moreReads m f got res (fuel + 1) 0 b ((List.range' b (s - b)).map res) [] =
      moreReads m f got res fuel N 0 ((List.range (m + N)).map res)
        (exsB col L H got 0 (m + N)) := by
  intro N h0 hf
  have hNl : N ≤ s - b := by
    have := List.countP_le_length (p := Res.isErr) (l := (List.range' b (s - b)).map res)
    simpa [N, nErr] using this
  have hN' : ((List.range' b (s - b)).map res).countP Res.isErr = N := rfl
  have hlen : ((List.range' b (s - b)).map res).length = s - b := by simp
  have hmore : (List.range (m + N)).mapM (moreOne m 0 b ((List.range' b (s - b)).map res) res) =
      some ((List.range (m + N)).map fun i => (res i, decide (i < b ∨ s ≤ i))) := by
    apply mapM_some'
    intro i hi
    unfold moreOne
    by_cases him : m ≤ i
    · rw [if_pos him, if_neg (by omega), decide_eq_true (by omega)]
    · rw [if_neg him]
      by_cases hib : i < b
      · rw [if_pos hib, decide_eq_true (by omega)]
      · rw [if_neg hib, hlen]
        by_cases his : i - b < s - b
        · rw [if_pos his, List.getElem?_map, List.getElem?_range' his, Option.map_some,
            Option.map_some, decide_eq_false (by omega)]
          congr 3
          omega
        · rw [if_neg his, decide_eq_true (by omega)]
  conv => lhs; unfold moreReads
  dsimp only
  rw [hN', if_neg (by omega), hlen, if_neg (by omega), if_neg (by omega), hmore]
  dsimp only
  rw [List.map_map, zip_map_self, List.filter_map, List.map_map]
  have e1 : (List.range (m + N)).map ((fun r : Res × Bool => r.1) ∘
      fun i => (res i, decide (i < b ∨ s ≤ i))) = (List.range (m + N)).map res := rfl
  have e2 : ((List.range (m + N)).filter ((fun x : Nat × Res × Bool => x.2.2) ∘
      fun i => (i, res i, decide (i < b ∨ s ≤ i)))) =
      List.range' 0 b ++ List.range' s (m + N - s) := by
    rw [show m + N = b + (s - b) + (m + N - s) by omega, range_split, range_split,
      List.filter_append, List.filter_append, List.range_eq_range', show b + (s - b) = s by omega,
      show s + (m + N - s) - s = m + N - s by omega]
    have f1 : (List.range' 0 b).filter ((fun x : Nat × Res × Bool => x.2.2) ∘
        fun i => (i, res i, decide (i < b ∨ s ≤ i))) = List.range' 0 b := by
      rw [List.filter_eq_self]
      intro i hi
      rw [List.mem_range'_1] at hi
      simp; omega
    have f2 : (List.range' b (s - b)).filter ((fun x : Nat × Res × Bool => x.2.2) ∘
        fun i => (i, res i, decide (i < b ∨ s ≤ i))) = [] := by
      rw [List.filter_eq_nil_iff]
      intro i hi
      rw [List.mem_range'_1] at hi
      simp; omega
    have f3 : (List.range' s (m + N - s)).filter ((fun x : Nat × Res × Bool => x.2.2) ∘
        fun i => (i, res i, decide (i < b ∨ s ≤ i))) = List.range' s (m + N - s) := by
      rw [List.filter_eq_self]
      intro i hi
      rw [List.mem_range'_1] at hi
      simp; omega
    rw [f1, f2, f3, List.append_nil]
  rw [e1, e2]
  have e3 : exsB col L H got 0 (m + N) = (List.range' 0 b ++ List.range' s (m + N - s)).map got := by
    rw [show m + N = b + (s - b) + (m + N - s) by omega, exsB_add col L H got 0 (b + (s - b)),
      exsB_add col L H got 0 b, Nat.zero_add, exsB_before b 0 hcol hLH (by rw [Nat.zero_add]; omega),
      exsB_inside (s - b) b hcol hLH (by omega) (by rw [show b + (s - b) = s by omega]; omega),
      Nat.zero_add, show b + (s - b) = s by omega, exsB_outside hcol hLH got _ _ (by omega),
      List.append_nil, List.map_append, show s + (m + N - s) - s = m + N - s by omega]
  rw [e3, List.nil_append]
  rfl

end Verif.Raid
