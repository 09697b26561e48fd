import Verif.Raid.LongLemmas

/-!
# C63: long reads
-/

namespace Verif.Raid

open Verif.Bytes Verif.Codec

variable {g : Geom}

/-- Disk `d` reads as what it holds. -/
def Honest (D : Disks) (fill : CR → Buf) (d : Nat) : Prop :=
  ∀ r : CR, r.disk = d → ∀ i < r.len, ∀ v, D d (r.addr + i) = some v → (fill r)[i]? = some v

/-- No candidate panics, and all have the right length. -/
def AllSized (n : Nat) (cs : List (Option Buf)) : Prop := ∀ c ∈ cs, ∃ x, c = some x ∧ x.length = n

theorem erased_count (c : List Nat) {k : Nat}
    {p : Nat → Nat} (hp : ∀ b b', b < k → b' < k → p b = p b' → b = b') :
    (List.range k).countP (fun b => c.contains (p b)) ≤ c.length := by
  rw [List.countP_eq_length_filter]
  have hnd : (((List.range k).filter fun b => c.contains (p b)).map p).Nodup := by
    apply List.Nodup.map_on
    · intro b hb b' hb' he
      exact hp b b' (List.mem_range.mp (List.mem_filter.mp hb).1)
        (List.mem_range.mp (List.mem_filter.mp hb').1) he
    · exact List.nodup_range.filter _
  have hsub : (((List.range k).filter fun b => c.contains (p b)).map p) ⊆ c := by
    intro d hd
    obtain ⟨b, hb, rfl⟩ := List.mem_map.mp hd
    simpa using (List.mem_filter.mp hb).2
  have := (List.subperm_of_subset hnd hsub).length_le
  simpa using this

/-- C63: after a checksum failure of data within one stripe, `read_long` offers only candidates of
the right length, and if at most `f` of the stripe's disks failed or returned wrong data, one of
them is the data written. -/
theorem C63_read_long_one (h : g.Lawful) {f : Nat} (hf : g.Y.k = g.Y.m + f) (hk : g.Y.k ≤ 256)
    (hE : g.enc = codecEnc g.Y.m f g.col) {invert : Nat → Mat → Option Mat} (hI : Inverts invert)
    {got : Nat → Buf} {res : Nat → Res} (hlen : ∀ b < g.Y.k, (got b).length = g.col) {u n : Nat}
    (hr : InStripe g u (u + n)) :
    AllSized (n * g.bpl) (readLongOne g f (codecDec invert g.Y.m f) u n got res) ∧
    ∀ (y : Buf) (bad : Nat → Bool), g.stripe ≤ y.length → (List.range g.Y.k).countP bad ≤ f →
      (∀ b < g.Y.k, bad b = false → res b = .ok ∧ got b = column g y b) →
      some (wanted g u (u + n) y) ∈ readLongOne g f (codecDec invert g.Y.m f) u n got res := by
  have hmk := h.layout.m_lt
  have hp := slbas_pos h
  have hlt := hr.lt
  have hle := hr.le
  have hmod := Nat.mod_le u g.slbas
  -- the caller's part of a stripe
  have hcut : ∀ s : Buf, s.length = g.stripe →
      (if n = g.slbas then s else (s.drop (u % g.slbas * g.bpl)).take (n * g.bpl)) =
        (s.drop (u % g.slbas * g.bpl)).take (n * g.bpl) := by
    intro s hs
    split
    · rename_i hn
      have h0 : u % g.slbas = 0 := by omega
      rw [h0, Nat.zero_mul, List.drop_zero, List.take_of_length_le]
      rw [hs, stripe_eq, hn]
    · rfl
  have hroom : u % g.slbas * g.bpl + n * g.bpl ≤ g.stripe := by
    rw [stripe_eq, ← Nat.add_mul]
    apply Nat.mul_le_mul_right
    omega
  have hspec : ∀ c ∈ combinations f (List.range g.Y.k), _ := fun c hc =>
    longStripe_spec h hf hk hE hI hlen (erased := c) (by
      obtain ⟨h1, h2⟩ := combinations_mem _ _ _ hc
      have := erased_count c (k := g.Y.k) (p := id) (fun b b' _ _ he => he)
      unfold erasedCount
      rw [← List.countP_eq_length_filter]
      rw [h2] at this
      exact this)
  unfold readLongOne
  refine ⟨?_, ?_⟩
  · intro c hc
    obtain ⟨erased, he, rfl⟩ := List.mem_map.mp hc
    obtain ⟨x, h1, h2, -⟩ := hspec erased (List.mem_filter.mp he).1
    rw [h1]
    refine ⟨_, rfl, ?_⟩
    dsimp only
    rw [hcut x h2, List.length_take, List.length_drop, h2]
    omega
  · intro y bad hy hcount hgood
    obtain ⟨c, hc, hcov⟩ := combinations_cover bad (List.range g.Y.k) f hcount (by simp; omega)
    have hgood' : ∀ b < g.Y.k, b ∉ c → res b = .ok ∧ got b = column g y b := by
      intro b hb hbc
      apply hgood b hb
      cases hbb : bad b with
      | false => rfl
      | true => exact absurd (hcov b (List.mem_range.mpr hb) hbb) hbc
    obtain ⟨x, h1, h2, h3⟩ := hspec c hc
    have hx := h3 y hy (fun b hb hbc => (hgood' b (by omega) hbc).2)
      (Or.inr fun b hb _ => by
        obtain ⟨h1, h2⟩ := mem_survivors_lt hb
        exact (hgood' b (by omega) (by simpa using h2)).2)
    refine List.mem_map.mpr ⟨c, List.mem_filter.mpr ⟨hc, ?_⟩, ?_⟩
    · rw [List.all_eq_true]
      intro b hb
      by_cases hbc : b ∈ c
      · simp [hbc]
      · rw [(hgood' b (List.mem_range.mp hb) hbc).1]
        simp [Res.isErr]
    · rw [h1]
      simp only [Option.map_some]
      rw [hcut x h2, hx]
      congr 1
      unfold wanted
      rw [List.drop_take, List.take_take, Nat.add_sub_cancel_left]
      congr 1
      omega

/-! ### Several stripes -/

theorem posOff_strict (h : g.Lawful) {p p' : Nat} (hlt : p' < p) (hd : posDisk g p' = posDisk g p) :
    posOff g p' < posOff g p := by
  have hk : 0 < g.Y.k := by have := h.layout.m_lt; omega
  have hb := Nat.mod_lt p hk
  have hb' := Nat.mod_lt p' hk
  have e := Nat.div_add_mod p g.Y.k
  have e' := Nat.div_add_mod p' g.Y.k
  have hle : p' / g.Y.k ≤ p / g.Y.k := Nat.div_le_div_right (Nat.le_of_lt hlt)
  rcases Nat.eq_or_lt_of_le hle with heq | hs
  · unfold posDisk at hd
    rw [heq] at hd e'
    have := h.layout.disk_inj _ _ _ hb' hb hd
    omega
  · exact h.layout.strict _ _ _ _ hs hb' hb hd

/-- The fold of `longSpan`. -/
def spanStep (g : Geom) (d : Nat) (a : Option (Nat × Nat)) (p : Nat) : Option (Nat × Nat) :=
  if posDisk g p = d then
    match a with
    | none => some (posOff g p, posOff g p + 1)
    | some (o, _) => some (o, posOff g p + 1)
  else a

theorem longSpan_eq (g : Geom) (s n d : Nat) :
    longSpan g s n d = (List.range' (s * g.Y.k) (n * g.Y.k)).foldl (spanStep g d) none := rfl

theorem span_fold (h : g.Lawful) (d a : Nat) : ∀ n,
    (∀ p, a ≤ p → p < a + n → posDisk g p = d →
      ∃ o z, (List.range' a n).foldl (spanStep g d) none = some (o, z) ∧ o ≤ posOff g p ∧
        posOff g p < z) ∧
    (∀ o z, (List.range' a n).foldl (spanStep g d) none = some (o, z) →
      ∃ p, a ≤ p ∧ p < a + n ∧ posDisk g p = d ∧ posOff g p = o) := by
  intro n
  induction n with
  | zero => exact ⟨fun p h1 h2 => by omega, fun o z h1 => by simp at h1⟩
  | succ n ih =>
    obtain ⟨ih1, ih2⟩ := ih
    rw [List.range'_1_concat, List.foldl_append]
    simp only [List.foldl_cons, List.foldl_nil]
    generalize (List.range' a n).foldl (spanStep g d) none = r at *
    unfold spanStep
    by_cases hd : posDisk g (a + n) = d
    · rw [if_pos hd]
      cases r with
      | none =>
        refine ⟨?_, ?_⟩
        · intro p h1 h2 h3
          rcases Nat.lt_or_ge p (a + n) with hlt | hge
          · obtain ⟨o, z, h4, -⟩ := ih1 p h1 hlt h3
            cases h4
          · have : p = a + n := by omega
            subst this
            exact ⟨_, _, rfl, Nat.le_refl _, by omega⟩
        · intro o z h1
          simp only [Option.some.injEq, Prod.mk.injEq] at h1
          exact ⟨a + n, by omega, by omega, hd, h1.1⟩
      | some x =>
        obtain ⟨o, z⟩ := x
        obtain ⟨p0, g1, g2, g3, g4⟩ := ih2 o z rfl
        refine ⟨?_, ?_⟩
        · intro p h1 h2 h3
          refine ⟨_, _, rfl, ?_⟩
          rcases Nat.lt_or_ge p (a + n) with hlt | hge
          · obtain ⟨o', z', h4, h5, h6⟩ := ih1 p h1 hlt h3
            simp only [Option.some.injEq, Prod.mk.injEq] at h4
            have := posOff_strict h hlt (by rw [h3, hd])
            omega
          · have : p = a + n := by omega
            subst this
            have := posOff_strict h g2 (by rw [g3, hd])
            omega
        · intro o' z' h1
          simp only [Option.some.injEq, Prod.mk.injEq] at h1
          exact ⟨p0, g1, by omega, g3, by omega⟩
    · rw [if_neg hd]
      refine ⟨?_, ?_⟩
      · intro p h1 h2 h3
        rcases Nat.lt_or_ge p (a + n) with hlt | hge
        · exact ih1 p h1 hlt h3
        · have : p = a + n := by omega
          subst this
          exact absurd h3 hd
      · intro o z h1
        obtain ⟨p, g1, g2, g3⟩ := ih2 o z h1
        exact ⟨p, g1, by omega, g3⟩

/-- The chunk is within what is read from its disk. -/
theorem longSpan_in (h : g.Lawful) {s n t b : Nat} (h1 : s ≤ t) (h2 : t < s + n) (hb : b < g.Y.k) :
    ∃ o z, longSpan g s n (g.Y.disk t b) = some (o, z) ∧ o ≤ g.Y.off t b ∧ g.Y.off t b < z := by
  obtain ⟨e1, e2⟩ := div_pos' (k := g.Y.k) (s := t) (b := b) hb
  have e3 : s * g.Y.k ≤ t * g.Y.k := Nat.mul_le_mul_right _ h1
  have e4 : (t + 1) * g.Y.k ≤ (s + n) * g.Y.k := Nat.mul_le_mul_right _ h2
  rw [Nat.add_mul, Nat.add_mul, Nat.one_mul] at e4
  have hd : posDisk g (t * g.Y.k + b) = g.Y.disk t b := by unfold posDisk; rw [e1, e2]
  have ho : posOff g (t * g.Y.k + b) = g.Y.off t b := by unfold posOff; rw [e1, e2]
  obtain ⟨o, z, h4, h5, h6⟩ := (span_fold h (g.Y.disk t b) (s * g.Y.k) (n * g.Y.k)).1
    (t * g.Y.k + b) (by omega) (by omega) hd
  rw [ho] at h5 h6
  exact ⟨o, z, by rw [longSpan_eq]; exact h4, h5, h6⟩

theorem read_get {D : Disks} {r : CR} {x : Buf} (hx : D.read r = some x) :
    ∀ i < r.len, D r.disk (r.addr + i) = x[i]? := by
  have key : ∀ (l : List Nat) (x : Buf), l.mapM (fun i => D r.disk (r.addr + i)) = some x →
      ∀ j (hj : j < l.length), D r.disk (r.addr + l[j]) = x[j]? := by
    intro l
    induction l with
    | nil => intro x _ j hj; simp at hj
    | cons i l ih =>
      intro x h j hj
      rw [List.mapM_cons] at h
      cases hi : D r.disk (r.addr + i) with
      | none => rw [hi] at h; simp at h
      | some b =>
        rw [hi] at h
        cases hl : l.mapM (fun i => D r.disk (r.addr + i)) with
        | none => rw [hl] at h; simp at h
        | some bs =>
          rw [hl] at h
          simp at h
          cases j with
          | zero => rw [← h]; simpa using hi
          | succ j =>
            rw [← h, List.getElem?_cons_succ, List.getElem_cons_succ]
            exact ih bs hl j (by simpa using hj)
  intro i hi
  have := key _ x hx i (by simpa using hi)
  simpa using this

/-- Every chunk can be cut out; one from an honest disk is as written. -/
theorem longChunk_spec (h : g.Lawful) {fill : CR → Buf} (hlen : ∀ r, (fill r).length = r.len)
    {s n t b : Nat} (h1 : s ≤ t) (h2 : t < s + n) (hb : b < g.Y.k) :
    ∃ x, longChunk g s n fill t b = some x ∧ x.length = g.col ∧
      ∀ D y, Honest D fill (g.Y.disk t b) → y.length = g.col → seen g D t b = some y → x = y := by
  obtain ⟨o, z, h3, h4, h5⟩ := longSpan_in h h1 h2 hb
  have hroom : (g.Y.off t b - o) * g.col + g.col ≤ (z - o) * g.col := by
    have : (g.Y.off t b - o + 1) * g.col ≤ (z - o) * g.col := Nat.mul_le_mul_right _ (by omega)
    rwa [Nat.add_mul, Nat.one_mul] at this
  unfold longChunk
  rw [h3]
  dsimp only
  rw [if_pos ⟨h4, by rw [hlen]; exact hroom⟩]
  refine ⟨_, rfl, ?_, ?_⟩
  · rw [List.length_take, List.length_drop, hlen]
    dsimp only
    omega
  · intro D y hH hyl hseen
    apply List.ext_getElem?
    intro i
    rcases Nat.lt_or_ge i g.col with hi | hi
    · rw [List.getElem?_take, if_pos hi, List.getElem?_drop]
      have hb1 := read_get hseen i hi
      dsimp only at hb1
      rw [List.getElem?_eq_getElem (show i < y.length by omega)] at hb1 ⊢
      apply hH ⟨g.Y.disk t b, o * g.col, (z - o) * g.col⟩ rfl
      · dsimp only; omega
      · dsimp only
        rw [← hb1]
        congr 1
        rw [← Nat.add_assoc, ← Nat.add_mul]
        congr 2
        omega
    · rw [List.getElem?_eq_none (by rw [List.length_take]; omega),
        List.getElem?_eq_none (by omega)]

theorem mapM_all {α β : Type} {f : α → Option β} : ∀ (l : List α), (∀ a ∈ l, ∃ b, f a = some b) →
    ∃ bs, l.mapM f = some bs ∧ bs.length = l.length ∧
      ∀ i (hi : i < l.length), f l[i] = bs[i]? := by
  intro l
  induction l with
  | nil => intro _; exact ⟨[], rfl, rfl, fun i hi => by simp at hi⟩
  | cons a l ih =>
    intro hall
    obtain ⟨b, hb⟩ := hall a List.mem_cons_self
    obtain ⟨bs, h1, h2, h3⟩ := ih (fun a ha => hall a (List.mem_cons_of_mem _ ha))
    refine ⟨b :: bs, ?_, by simp [h2], ?_⟩
    · rw [List.mapM_cons, hb, h1]; rfl
    · intro i hi
      cases i with
      | zero => simpa using hb
      | succ i =>
        rw [List.getElem_cons_succ, List.getElem?_cons_succ]
        exact h3 i (by simpa using hi)

/-- A stripe of a candidate of a long read of several. -/
theorem longMultiStripe_spec (h : g.Lawful) {f : Nat} (hf : g.Y.k = g.Y.m + f) (hk : g.Y.k ≤ 256)
    (hE : g.enc = codecEnc g.Y.m f g.col) {invert : Nat → Mat → Option Mat} (hI : Inverts invert)
    {fill : CR → Buf} (hlen : ∀ r, (fill r).length = r.len) {s n t : Nat} (h1 : s ≤ t)
    (h2 : t < s + n) {erased : List Nat} (he : erased.length ≤ f) :
    ∃ x, longMultiStripe g (codecDec invert g.Y.m f) s n fill erased t = some x ∧
      x.length = g.stripe ∧
      ∀ D y, g.stripe ≤ y.length → (∀ b < g.Y.k, seen g D t b = some (column g y b)) →
        (∀ b < g.Y.m, g.Y.disk t b ∉ erased → Honest D fill (g.Y.disk t b)) →
        ((∀ b < g.Y.m, g.Y.disk t b ∉ erased) ∨
          ∀ b < g.Y.k, g.Y.m ≤ b → Honest D fill (g.Y.disk t b)) →
        x = y.take g.stripe := by
  have hmk := h.layout.m_lt
  obtain ⟨cs, k1, k2, k3⟩ := mapM_all (f := longChunk g s n fill t) (List.range g.Y.k) (by
    intro b hb
    obtain ⟨x, hx, -⟩ := longChunk_spec h hlen h1 h2 (List.mem_range.mp hb)
    exact ⟨x, hx⟩)
  have hcs : ∀ b < g.Y.k, longChunk g s n fill t b = some (cs.getD b []) := by
    intro b hb
    rw [List.length_range] at k2
    have := k3 b (by simpa using hb)
    rw [List.getElem_range] at this
    rw [this, List.getD_eq_getElem?_getD, List.getElem?_eq_getElem (by omega)]
    rfl
  have hmem : ∀ b, b ∈ (List.range g.Y.m).filter (fun b => erased.contains (g.Y.disk t b)) ↔
      b < g.Y.m ∧ g.Y.disk t b ∈ erased := by
    intro b; simp [List.mem_filter]
  unfold longMultiStripe
  rw [k1]
  dsimp only
  obtain ⟨x, x1, x2, x3⟩ := longStripe_spec h hf hk hE hI (got := fun b => cs.getD b []) (by
    intro b hb
    obtain ⟨x, e1, e2, -⟩ := longChunk_spec h hlen h1 h2 hb
    rw [hcs b hb] at e1
    rw [Option.some.inj e1]
    exact e2)
    (erased := (List.range g.Y.m).filter fun b => erased.contains (g.Y.disk t b)) (by
      unfold erasedCount
      rw [← List.countP_eq_length_filter]
      refine Nat.le_trans ?_ (Nat.le_trans (erased_count erased (k := g.Y.k) (p := g.Y.disk t)
        (fun b b' hb hb' => h.layout.disk_inj t b b' hb hb')) he)
      apply List.countP_mono_left
      intro b hb hc
      rw [List.contains_iff_mem] at hc ⊢
      exact ((hmem b).mp hc).2)
  refine ⟨x, x1, x2, ?_⟩
  intro D y hy hseen hdata hpar
  have hgood : ∀ b < g.Y.k, Honest D fill (g.Y.disk t b) → cs.getD b [] = column g y b := by
    intro b hb hH
    obtain ⟨x, e1, e2, e3⟩ := longChunk_spec h hlen h1 h2 hb
    rw [hcs b hb] at e1
    rw [Option.some.inj e1]
    exact e3 D _ hH (column_length h hy hb) (hseen b hb)
  apply x3 y hy
  · intro b hb hnot
    apply hgood b (by omega)
    apply hdata b hb
    intro hm
    exact hnot ((hmem b).mpr ⟨hb, hm⟩)
  · rcases hpar with hpar | hpar
    · left
      intro b hb hm
      exact hpar b hb ((hmem b).mp hm).2
    · right
      intro b hb hmb
      have h1 := (mem_survivors_lt hb).1
      exact hgood b (by omega) (hpar b (by omega) hmb)

/-- The whole stripes of a range. -/
theorem stripes_flatten {F : Buf} {Z : Nat} : ∀ (n s : Nat), Z ≤ s →
    ((List.range' s n).map fun t => (F.drop ((t - Z) * g.stripe)).take g.stripe).flatten =
      (F.drop ((s - Z) * g.stripe)).take (n * g.stripe) := by
  intro n
  induction n with
  | zero => intro s _; simp
  | succ n ih =>
    intro s h1
    rw [List.range'_succ, List.map_cons, List.flatten_cons, ih (s + 1) (by omega),
      show (n + 1) * g.stripe = g.stripe + n * g.stripe by rw [Nat.add_mul, Nat.one_mul, Nat.add_comm],
      List.take_add, List.drop_drop]
    congr 3
    rw [show s + 1 - Z = s - Z + 1 by omega, Nat.add_mul, Nat.one_mul]

/-- C63: after a checksum failure of data in several stripes, `read_long` offers only candidates of
the right length.  If at most `f` disks failed or return wrong data, then one of them is the data
written, provided that the array has single parity or that none of those disks holds parity of
these stripes, and that none of them reports an error or all disks hold some of these stripes.
Missing: the other cases (`C63_parity_counterexample`, `C63_index_counterexample`). -/
theorem C63_read_long_multi_partial (h : g.Lawful) {f : Nat} (hf : g.Y.k = g.Y.m + f) (hk : g.Y.k ≤ 256)
    (hE : g.enc = codecEnc g.Y.m f g.col) {invert : Nat → Mat → Option Mat} (hI : Inverts invert)
    {fill : CR → Buf} {res : Nat → Res} (hlen : ∀ r, (fill r).length = r.len) {u n : Nat}
    (hn : 0 < n) :
    AllSized (n * g.bpl) (readLongMulti g f (codecDec invert g.Y.m f) u n fill res) ∧
    ∀ (D : Disks) (Z T : Nat) (F : Buf), OnDisks g D Z T F → Z * g.slbas ≤ u →
      u + n ≤ (Z + T) * g.slbas →
      ∀ bad : Nat → Bool, (List.range g.Y.n).countP bad ≤ f →
      (∀ d < g.Y.n, bad d = false → res d = .ok ∧ Honest D fill d) →
      (f = 1 ∨ ∀ t, u / g.slbas ≤ t → t ≤ (u + n - 1) / g.slbas → ∀ b < g.Y.k, g.Y.m ≤ b →
        bad (g.Y.disk t b) = false) →
      ((∀ d < g.Y.n, res d = .ok) ∨ ∀ d < g.Y.n, ∃ t, u / g.slbas ≤ t ∧ t ≤ (u + n - 1) / g.slbas ∧
        ∃ b < g.Y.k, g.Y.disk t b = d) →
      some ((F.drop ((u - Z * g.slbas) * g.bpl)).take (n * g.bpl)) ∈
        readLongMulti g f (codecDec invert g.Y.m f) u n fill res := by
  have hp := slbas_pos h
  have hmk := h.layout.m_lt
  have hle : u / g.slbas ≤ (u + n - 1) / g.slbas := Nat.div_le_div_right (by omega)
  unfold readLongMulti
  dsimp only
  generalize hs : u / g.slbas = s at *
  generalize hl : (u + n - 1) / g.slbas = last at *
  have hu1 : s * g.slbas + u % g.slbas = u := by
    rw [← hs, Nat.mul_comm]; exact Nat.div_add_mod _ _
  have hend : u + n ≤ (last + 1) * g.slbas := by
    have := Nat.lt_div_mul_add (a := u + n - 1) hp
    rw [hl] at this
    rw [Nat.add_mul, Nat.one_mul]
    omega
  -- what a candidate is
  have hcand : ∀ erased : List Nat, erased.length ≤ f →
      ∃ l, (List.range' s (last - s + 1)).mapM (longMultiStripe g (codecDec invert g.Y.m f) s
        (last - s + 1) fill erased) = some l ∧ l.length = last - s + 1 ∧
        ∀ i (_ : i < last - s + 1), longMultiStripe g (codecDec invert g.Y.m f) s
          (last - s + 1) fill erased (s + i) = l[i]? := by
    intro erased he
    obtain ⟨l, h1, h2, h3⟩ := mapM_all (f := longMultiStripe g (codecDec invert g.Y.m f) s
      (last - s + 1) fill erased) (List.range' s (last - s + 1)) (by
        intro t ht
        rw [List.mem_range'_1] at ht
        obtain ⟨x, hx, -⟩ := longMultiStripe_spec h hf hk hE hI hlen ht.1 ht.2 he
        exact ⟨x, hx⟩)
    rw [List.length_range'] at h2
    refine ⟨l, h1, h2, ?_⟩
    intro i hi
    have := h3 i (by simpa using hi)
    rwa [List.getElem_range', Nat.one_mul] at this
  refine ⟨?_, ?_⟩
  · intro c hc
    obtain ⟨erased, he, rfl⟩ := List.mem_map.mp hc
    obtain ⟨-, hel⟩ := combinations_mem _ _ _ (List.mem_filter.mp he).1
    obtain ⟨l, h1, h2, h3⟩ := hcand erased (by omega)
    rw [h1]
    refine ⟨_, rfl, ?_⟩
    have hflat : l.flatten.length = (last - s + 1) * g.stripe := by
      have hx : ∀ x ∈ l, x.length = g.stripe := by
        intro x hx
        obtain ⟨i, hi, rfl⟩ := List.getElem_of_mem hx
        obtain ⟨x, e1, e2, -⟩ := longMultiStripe_spec h hf hk hE hI hlen (s := s) (n := last - s + 1)
          (t := s + i) (by omega) (by omega) (erased := erased) (by omega)
        have := h3 i (by omega)
        rw [e1, List.getElem?_eq_getElem hi] at this
        rw [← Option.some.inj this]
        exact e2
      rw [List.length_flatten, List.map_congr_left hx, List.map_const', List.sum_replicate_nat, h2]
    rw [List.length_take, List.length_drop, hflat, stripe_eq, ← Nat.mul_assoc, ← Nat.sub_mul]
    apply Nat.min_eq_left
    apply Nat.mul_le_mul_right
    have : (last + 1) * g.slbas = (last - s + 1) * g.slbas + s * g.slbas := by
      rw [← Nat.add_mul]; congr 1; omega
    omega
  · intro D Z T F hD hZ hT bad hcount hgood hpar herr
    have hZs : Z ≤ s := by rw [← hs]; exact (Nat.le_div_iff_mul_le hp).mpr hZ
    have hTs : last < Z + T := by rw [← hl, Nat.div_lt_iff_lt_mul hp]; omega
    have hfn : f ≤ g.Y.n := by
      -- the chunks of a stripe are on different disks
      have hnd : ((List.range g.Y.k).map (g.Y.disk 0)).Nodup := by
        apply List.Nodup.map_on
        · intro b hb b' hb' he
          exact h.layout.disk_inj _ _ _ (List.mem_range.mp hb) (List.mem_range.mp hb') he
        · exact List.nodup_range
      have hsub : ((List.range g.Y.k).map (g.Y.disk 0)) ⊆ List.range g.Y.n := by
        intro d hd
        obtain ⟨b, hb, rfl⟩ := List.mem_map.mp hd
        exact List.mem_range.mpr (h.layout.disk_lt _ _ (List.mem_range.mp hb))
      have := (List.subperm_of_subset hnd hsub).length_le
      simp at this
      omega
    obtain ⟨c, hc, hcov⟩ := combinations_cover bad (List.range g.Y.n) f hcount (by simpa using hfn)
    obtain ⟨-, hcl⟩ := combinations_mem _ _ _ hc
    have hnb : ∀ d < g.Y.n, d ∉ c → bad d = false := by
      intro d hd hdc
      cases hb : bad d with
      | false => rfl
      | true => exact absurd (hcov d (List.mem_range.mpr hd) hb) hdc
    refine List.mem_map.mpr ⟨c, List.mem_filter.mpr ⟨hc, ?_⟩, ?_⟩
    · -- the failures that the code sees are among the erased disks
      rw [List.all_eq_true]
      intro i hi
      unfold longFailures at hi
      obtain ⟨hi1, hi2⟩ := List.mem_filter.mp hi
      have hi1 := List.mem_range.mp hi1
      rw [List.getD_eq_getElem?_getD, List.getElem?_eq_getElem hi1] at hi2
      have hdm : (longDisks g s (last - s + 1))[i] ∈ longDisks g s (last - s + 1) :=
        List.getElem_mem _
      have hdn := List.mem_range.mp (List.mem_filter.mp hdm).1
      simp only [Option.getD_some] at hi2
      rcases herr with herr | herr
      · rw [herr _ hdn] at hi2
        simp [Res.isErr] at hi2
      · have hall : longDisks g s (last - s + 1) = List.range g.Y.n := by
          unfold longDisks
          rw [List.filter_eq_self]
          intro d hd
          obtain ⟨t, h1, h2, b, hb, rfl⟩ := herr d (List.mem_range.mp hd)
          obtain ⟨o, z, h3, -⟩ := longSpan_in h (n := last - s + 1) h1 (by omega) hb
          rw [h3]
          rfl
        simp only [hall] at hi2 hi1
        rw [List.getElem_range] at hi2
        rw [List.length_range] at hi1
        rw [List.contains_iff_mem]
        apply Classical.byContradiction
        intro hnot
        rw [(hgood i hi1 (hnb i hi1 hnot)).1] at hi2
        simp [Res.isErr] at hi2
    · obtain ⟨l, h1, h2, h3⟩ := hcand c (by omega)
      rw [h1]
      simp only [Option.map_some]
      congr 1
      have hlist : l = (List.range' s (last - s + 1)).map fun t =>
          (F.drop ((t - Z) * g.stripe)).take g.stripe := by
        apply List.ext_getElem?
        intro i
        rcases Nat.lt_or_ge i (last - s + 1) with hi | hi
        · rw [← h3 i hi, List.getElem?_map, List.getElem?_range' hi]
          obtain ⟨x, e1, e2, e3⟩ := longMultiStripe_spec h hf hk hE hI hlen (s := s)
            (n := last - s + 1) (t := s + i) (by omega) (by omega) (erased := c) (by omega)
          rw [e1, Nat.one_mul]
          simp only [Option.map_some]
          congr 1
          have hti : s + i - Z < T := by omega
          have hy : g.stripe ≤ (F.drop ((s + i - Z) * g.stripe)).length := by
            have : (s + i - Z + 1) * g.stripe ≤ T * g.stripe := Nat.mul_le_mul_right _ hti
            rw [Nat.add_mul, Nat.one_mul] at this
            have := hD.len
            rw [List.length_drop]
            omega
          apply e3 D _ hy
          · intro b hb
            have := hD.chunk (s + i - Z) hti b hb
            rwa [show Z + (s + i - Z) = s + i by omega] at this
          · intro b hb hnot
            have hdn := h.layout.disk_lt (s + i) b (by omega)
            exact (hgood _ hdn (hnb _ hdn hnot)).2
          · by_cases hlost : ∀ b < g.Y.m, g.Y.disk (s + i) b ∉ c
            · exact Or.inl hlost
            · right
              intro b hb hmb
              have hdn := h.layout.disk_lt (s + i) b hb
              refine (hgood _ hdn ?_).2
              rcases hpar with hpar | hpar
              · -- single parity: the erased disk is that of a data chunk
                apply hnb _ hdn
                intro hbc
                apply hlost
                intro b' hb' hbc'
                rw [hpar] at hcl
                obtain ⟨d, rfl⟩ := List.length_eq_one_iff.mp hcl
                rw [List.mem_singleton] at hbc hbc'
                have := h.layout.disk_inj (s + i) b b' hb (by omega) (by rw [hbc, hbc'])
                omega
              · exact hpar (s + i) (by omega) (by omega) b hb hmb
        · rw [List.getElem?_eq_none (by omega), List.getElem?_eq_none (by simp; omega)]
      rw [hlist, stripes_flatten (last - s + 1) s hZs, List.drop_take, List.take_take,
        List.drop_drop]
      have e1 : (s - Z) * g.stripe + u % g.slbas * g.bpl = (u - Z * g.slbas) * g.bpl := by
        rw [stripe_eq, ← Nat.mul_assoc, ← Nat.add_mul]
        congr 1
        have : s * g.slbas = (s - Z) * g.slbas + Z * g.slbas := by
          rw [← Nat.add_mul]; congr 1; omega
        omega
      have e2 : n * g.bpl ≤ (last - s + 1) * g.stripe - u % g.slbas * g.bpl := by
        rw [stripe_eq, ← Nat.mul_assoc, ← Nat.sub_mul]
        apply Nat.mul_le_mul_right
        have : (last + 1) * g.slbas = (last - s + 1) * g.slbas + s * g.slbas := by
          rw [← Nat.add_mul]; congr 1; omega
        omega
      rw [e1, Nat.min_eq_left e2]

/-- C63: `read_long` is refused if `f` children are absent already.  Otherwise all its candidates
have the right length, and if at most `f` disks are absent, failed or return wrong data, the data
written is among them, if it lies in one stripe or in the cases of `C63_read_long_multi_partial`. -/
theorem C63_read_long_partial (h : g.Lawful) {f : Nat} (hf : g.Y.k = g.Y.m + f) (hk : g.Y.k ≤ 256)
    (hE : g.enc = codecEnc g.Y.m f g.col) {invert : Nat → Mat → Option Mat} (hI : Inverts invert)
    {fill : CR → Buf} {res : Nat → Res} (hlen : ∀ r, (fill r).length = r.len) {u n : Nat}
    (hn : 0 < n) (nf : Nat) :
    (f ≤ nf → readLong g f (codecDec invert g.Y.m f) nf u n fill res = none) ∧
    (nf < f → ∃ cs, readLong g f (codecDec invert g.Y.m f) nf u n fill res = some cs ∧
      AllSized (n * g.bpl) cs ∧
      ∀ (D : Disks) (Z T : Nat) (F : Buf), OnDisks g D Z T F → Z * g.slbas ≤ u →
        u + n ≤ (Z + T) * g.slbas →
        ∀ bad : Nat → Bool, (List.range g.Y.n).countP bad ≤ f →
        (∀ d < g.Y.n, bad d = false → res d = .ok ∧ Honest D fill d) →
        u / g.slbas = (u + n - 1) / g.slbas ∨
        ((f = 1 ∨ ∀ t, u / g.slbas ≤ t → t ≤ (u + n - 1) / g.slbas → ∀ b < g.Y.k, g.Y.m ≤ b →
          bad (g.Y.disk t b) = false) ∧
        ((∀ d < g.Y.n, res d = .ok) ∨ ∀ d < g.Y.n, ∃ t, u / g.slbas ≤ t ∧
          t ≤ (u + n - 1) / g.slbas ∧ ∃ b < g.Y.k, g.Y.disk t b = d)) →
        some ((F.drop ((u - Z * g.slbas) * g.bpl)).take (n * g.bpl)) ∈ cs) := by
  have hp := slbas_pos h
  have hmk := h.layout.m_lt
  unfold readLong
  dsimp only
  refine ⟨fun hnf => if_pos hnf, fun hnf => ?_⟩
  rw [if_neg (by omega)]
  by_cases hone : u / g.slbas = (u + n - 1) / g.slbas
  · rw [if_pos hone]
    have hin : u + n ≤ u - u % g.slbas + g.slbas := by
      have h1 := Nat.lt_div_mul_add (a := u + n - 1) hp
      rw [← hone] at h1
      have h2 := Nat.div_add_mod u g.slbas
      rw [Nat.mul_comm] at h2
      omega
    obtain ⟨h1, h2⟩ := C63_read_long_one h hf hk hE hI (u := u) (n := n)
      (got := fun b => fill ⟨g.Y.disk (u / g.slbas) b, g.Y.off (u / g.slbas) b * g.col, g.col⟩)
      (res := fun b => res (g.Y.disk (u / g.slbas) b)) (fun b _ => hlen _) ⟨by omega, hin⟩
    refine ⟨_, rfl, h1, ?_⟩
    intro D Z T F hD hZ hT bad hcount hgood _
    have hZs : Z ≤ u / g.slbas := (Nat.le_div_iff_mul_le hp).mpr hZ
    have hTs : u / g.slbas < Z + T := by rw [Nat.div_lt_iff_lt_mul hp]; omega
    have hu1 : u / g.slbas * g.slbas + u % g.slbas = u := by
      rw [Nat.mul_comm]; exact Nat.div_add_mod _ _
    have hst : g.stripe = g.slbas * g.bpl := stripe_eq g
    generalize u / g.slbas = s at *
    have hyl : g.stripe ≤ (F.drop ((s - Z) * g.stripe)).length := by
      have h3 : (s - Z + 1) * g.stripe ≤ T * g.stripe := Nat.mul_le_mul_right _ (by omega)
      have h4 := hD.len
      rw [Nat.add_mul, Nat.one_mul] at h3
      rw [List.length_drop]
      omega
    have hw := h2 (F.drop ((s - Z) * g.stripe)) (fun b => bad (g.Y.disk s b)) hyl ?_ ?_
    · unfold wanted at hw
      rw [List.drop_drop, Nat.add_sub_cancel_left, hst, ← Nat.mul_assoc, ← Nat.add_mul] at hw
      rw [show u - Z * g.slbas = (s - Z) * g.slbas + u % g.slbas by
        have := Nat.mul_le_mul_right g.slbas hZs
        rw [Nat.sub_mul]
        omega]
      exact hw
    · refine Nat.le_trans ?_ hcount
      have := erased_count ((List.range g.Y.n).filter bad) (k := g.Y.k) (p := g.Y.disk s)
        (fun b b' hb hb' => h.layout.disk_inj s b b' hb hb')
      rw [← List.countP_eq_length_filter] at this
      refine Nat.le_trans (List.countP_mono_left ?_) this
      intro b hb hbad
      rw [List.contains_iff_mem, List.mem_filter]
      exact ⟨List.mem_range.mpr (h.layout.disk_lt _ _ (List.mem_range.mp hb)), hbad⟩
    · intro b hb hbad
      obtain ⟨h3, h4⟩ := hgood _ (h.layout.disk_lt s b hb) hbad
      refine ⟨h3, ?_⟩
      have hs := hD.chunk (s - Z) (by omega) b hb
      rw [show Z + (s - Z) = s by omega] at hs
      have hcl := column_length h hyl hb
      apply List.ext_getElem?
      intro i
      rcases Nat.lt_or_ge i g.col with hi | hi
      · have h5 := read_get hs i hi
        rw [List.getElem?_eq_getElem (show i < (column g (F.drop ((s - Z) * g.stripe)) b).length by omega)] at h5 ⊢
        exact h4 ⟨g.Y.disk s b, g.Y.off s b * g.col, g.col⟩ rfl i hi _ h5
      · rw [List.getElem?_eq_none (by rw [hlen]; exact hi), List.getElem?_eq_none (by omega)]
  · rw [if_neg hone]
    obtain ⟨h1, h2⟩ := C63_read_long_multi_partial h hf hk hE hI hlen (res := res) (u := u) hn
    refine ⟨_, rfl, h1, ?_⟩
    intro D Z T F hD hZ hT bad hcount hgood hcase
    rcases hcase with hcase | ⟨c1, c2⟩
    · exact absurd hcase hone
    · exact h2 D Z T F hD hZ hT bad hcount hgood c1 c2

end Verif.Raid
