import Verif.Raid.ReadLemmas

namespace Verif.Raid

open Verif.Bytes

variable {g : Geom}

/-- How many data chunks come before position `p`. -/
def upto (g : Geom) (p : Nat) : Nat := p / g.Y.k * g.Y.m + min (p % g.Y.k) g.Y.m

theorem succ_divmod {k : Nat} (hk : 0 < k) (p : Nat) :
    (p % k + 1 < k ∧ (p + 1) / k = p / k ∧ (p + 1) % k = p % k + 1) ∨
    (p % k + 1 = k ∧ (p + 1) / k = p / k + 1 ∧ (p + 1) % k = 0) := by
  have h1 := Nat.div_add_mod p k
  have h2 := Nat.mod_lt p hk
  generalize p / k = q at *
  generalize p % k = r at *
  rcases Nat.lt_or_ge (r + 1) k with hlt | hge
  · left
    have : p + 1 = r + 1 + k * q := by omega
    rw [this]
    refine ⟨hlt, ?_, ?_⟩
    · rw [Nat.add_mul_div_left _ _ hk, Nat.div_eq_of_lt hlt, Nat.zero_add]
    · rw [Nat.add_mul_mod_self_left, Nat.mod_eq_of_lt hlt]
  · right
    have hr : r + 1 = k := by omega
    have : p + 1 = k * (q + 1) := by rw [Nat.mul_add, Nat.mul_one]; omega
    rw [this]
    exact ⟨hr, Nat.mul_div_cancel_left _ hk, Nat.mul_mod_right _ _⟩

theorem upto_data (h : g.Lawful) {p : Nat} (hp : p % g.Y.k < g.Y.m) :
    upto g (p + 1) = upto g p + 1 ∧ p / g.Y.k * g.Y.m + p % g.Y.k = upto g p := by
  have hk : 0 < g.Y.k := by have := h.layout.m_lt; omega
  have hmk := h.layout.m_lt
  unfold upto
  rcases succ_divmod hk p with ⟨h1, h2, h3⟩ | ⟨h1, h2, h3⟩
  · rw [h2, h3]; omega
  · omega

theorem upto_parity (h : g.Lawful) {p : Nat} (hp : ¬ p % g.Y.k < g.Y.m) :
    upto g (p + 1) = upto g p := by
  have hk : 0 < g.Y.k := by have := h.layout.m_lt; omega
  unfold upto
  rcases succ_divmod hk p with ⟨h1, h2, h3⟩ | ⟨h1, h2, h3⟩
  · rw [h2, h3]; omega
  · rw [h2, h3, Nat.add_mul, Nat.one_mul]; omega

theorem upto_pos (h : g.Lawful) (c : Nat) : upto g (c / g.Y.m * g.Y.k + c % g.Y.m) = c := by
  have hk : 0 < g.Y.k := by have := h.layout.m_lt; omega
  have h1 := Nat.mod_lt c h.layout.m_pos
  have h2 : c % g.Y.m < g.Y.k := Nat.lt_trans h1 h.layout.m_lt
  unfold upto
  rw [Nat.add_comm (_ * g.Y.k), Nat.add_mul_div_right _ _ hk, Nat.div_eq_of_lt h2, Nat.add_mul_mod_self_right,
    Nat.mod_eq_of_lt h2, Nat.zero_add]
  have := Nat.div_add_mod c g.Y.m
  rw [Nat.mul_comm] at this
  omega

theorem upto_end (h : g.Lawful) (s : Nat) : upto g (s * g.Y.k + g.Y.m) = (s + 1) * g.Y.m := by
  have hk : 0 < g.Y.k := by have := h.layout.m_lt; omega
  unfold upto
  rw [Nat.add_comm (_ * g.Y.k), Nat.add_mul_div_right _ _ hk, Nat.div_eq_of_lt h.layout.m_lt,
    Nat.add_mul_mod_self_right, Nat.mod_eq_of_lt h.layout.m_lt, Nat.zero_add, Nat.add_mul, Nat.one_mul]
  omega

theorem upto_mono (h : g.Lawful) (p : Nat) : ∀ n, upto g p ≤ upto g (p + n) := by
  intro n
  induction n with
  | zero => exact Nat.le_refl _
  | succ n ih =>
    apply Nat.le_trans ih
    by_cases hd : (p + n) % g.Y.k < g.Y.m
    · have := (upto_data h hd).1
      rw [← Nat.add_assoc]
      omega
    · rw [← Nat.add_assoc, upto_parity h hd]
      exact Nat.le_refl _

def posDisk (g : Geom) (p : Nat) : Nat := g.Y.disk (p / g.Y.k) (p % g.Y.k)
def posOff (g : Geom) (p : Nat) : Nat := g.Y.off (p / g.Y.k) (p % g.Y.k)

/-- Positions that follow each other on a disk are at consecutive offsets. -/
theorem posOff_adjacent (h : g.Lawful) {p p' : Nat} (hlt : p' < p) (hd : posDisk g p' = posDisk g p)
    (hno : ∀ x, p' < x → x < p → posDisk g x ≠ posDisk g p) : posOff g p = posOff g p' + 1 := by
  have hk : 0 < g.Y.k := by have := h.layout.m_lt; omega
  have hb := Nat.mod_lt p hk
  have hb' := Nat.mod_lt p' hk
  have e := Nat.div_add_mod p g.Y.k
  have e' := Nat.div_add_mod p' g.Y.k
  have hs : p' / g.Y.k < p / g.Y.k := by
    rcases Nat.lt_or_ge (p' / g.Y.k) (p / g.Y.k) with hs | hs
    · exact hs
    · have hle : p' / g.Y.k ≤ p / g.Y.k := Nat.div_le_div_right (Nat.le_of_lt hlt)
      have heq : p' / g.Y.k = p / g.Y.k := Nat.le_antisymm hle hs
      unfold posDisk at hd
      rw [heq] at hd e'
      have := h.layout.disk_inj _ _ _ hb' hb hd
      omega
  apply h.layout.adjacent hs hb' hb hd
  intro t c h1 h2 hc he
  have hdiv : (t * g.Y.k + c) / g.Y.k = t := by
    rw [Nat.add_comm, Nat.add_mul_div_right _ _ hk, Nat.div_eq_of_lt hc, Nat.zero_add]
  have hmod : (t * g.Y.k + c) % g.Y.k = c := by
    rw [Nat.add_comm, Nat.add_mul_mod_self_right, Nat.mod_eq_of_lt hc]
  refine hno (t * g.Y.k + c) ?_ ?_ ?_
  · have : (p' / g.Y.k + 1) * g.Y.k ≤ t * g.Y.k := Nat.mul_le_mul_right _ h1
    rw [Nat.add_mul, Nat.one_mul, Nat.mul_comm] at this
    omega
  · have : (t + 1) * g.Y.k ≤ p / g.Y.k * g.Y.k := Nat.mul_le_mul_right _ h2
    rw [Nat.add_mul, Nat.one_mul, Nat.mul_comm (p / g.Y.k)] at this
    omega
  · unfold posDisk at hd ⊢
    rw [hdiv, hmod, he, hd]

/-- What is queued for each disk ends where the disk's next chunk begins. -/
def QueueOk (g : Geom) (p : Nat) (q : Nat → Option Queue) : Prop :=
  ∀ d x, q d = some x → ∃ p', p' < p ∧ posDisk g p' = d ∧
    x.start + x.len + x.plen = (posOff g p' + 1) * g.col ∧
    ∀ y, p' < y → y < p → posDisk g y ≠ d

theorem QueueOk.at (h : g.Lawful) {p : Nat} {q : Nat → Option Queue} (hq : QueueOk g p q) {x : Queue}
    (hx : q (posDisk g p) = some x) : x.start + x.len + x.plen = posOff g p * g.col := by
  obtain ⟨p', h1, h2, h3, h4⟩ := hq _ x hx
  rw [h3, posOff_adjacent h h1 h2 h4]

theorem QueueOk.skip {p : Nat} {q q' : Nat → Option Queue} (hq : QueueOk g p q)
    (hother : ∀ d, d ≠ posDisk g p → q' d = q d)
    (hthis : ∀ x, q' (posDisk g p) = some x → x.start + x.len + x.plen = (posOff g p + 1) * g.col) :
    QueueOk g (p + 1) q' := by
  intro d x hx
  by_cases hd : d = posDisk g p
  · subst hd
    exact ⟨p, by omega, rfl, hthis x hx, fun y h1 h2 => by omega⟩
  · rw [hother d hd] at hx
    obtain ⟨p', h1, h2, h3, h4⟩ := hq d x hx
    refine ⟨p', by omega, h2, h3, fun y h5 h6 => ?_⟩
    rcases Nat.lt_or_ge y p with hlt | hge
    · exact h4 y h5 hlt
    · have : y = p := by omega
      subst this
      exact fun e => hd e.symm

/-- The loop of `read_at_multi` reads the same places as the simple loop over the data chunks. -/
theorem multiReads_eq (h : g.Lawful) {u e : Nat} (hue : u < e) : ∀ (cnt p left : Nat)
    (q : Nat → Option Queue), u < upto g p * g.cs + g.cs →
    (upto g p < upto g (p + cnt) → (upto g (p + cnt) - 1) * g.cs < e) →
    (upto g p < upto g (p + cnt) → left = (e - max u (upto g p * g.cs)) * g.bpl) →
    (upto g p < upto g (p + cnt) → QueueOk g p q) →
    ((∀ d, q d = none) ∨ u ≤ upto g p * g.cs) →
    multiReads g u e left q (List.range' p cnt) =
      some ((List.range' (upto g p) (upto g (p + cnt) - upto g p)).map (pieceRead g u e)) := by
  have hk : 0 < g.Y.k := by have := h.layout.m_lt; omega
  intro cnt
  induction cnt with
  | zero =>
    intro p left q _ _ _ _ _
    simp [multiReads]
  | succ cnt ih =>
    intro p left q h1 h2 h3 h4 h5
    rw [List.range'_succ]
    unfold multiReads
    simp only
    have hp1 : p + (cnt + 1) = p + 1 + cnt := by omega
    rw [hp1] at h2 h3 h4 ⊢
    by_cases hd : p % g.Y.k < g.Y.m
    · rw [if_pos hd]
      obtain ⟨hu1, hu2⟩ := upto_data h hd
      have hmono := upto_mono h (p + 1) cnt
      have hlt : upto g p < upto g (p + 1 + cnt) := by omega
      have h2' := h2 hlt
      have h3' := h3 hlt
      have h4' := h4 hlt
      have hcur : upto g p * g.cs < e := by
        have : upto g p * g.cs ≤ (upto g (p + 1 + cnt) - 1) * g.cs := Nat.mul_le_mul_right _ (by omega)
        omega
      rw [hu2, chunkRead_eq hue h1 hcur h3']
      simp only
      have hcs := h.cs
      have hnext : (upto g p + 1) * g.cs = upto g p * g.cs + g.cs := by rw [Nat.add_mul, Nat.one_mul]
      -- where the chunk is
      have hdiv : upto g p / g.Y.m = p / g.Y.k := by rw [← hu2, chunk_div h _ hd]
      have hmod : upto g p % g.Y.m = p % g.Y.k := by rw [← hu2, chunk_mod _ hd]
      have hpr : pieceRead g u e (upto g p) = ⟨posDisk g p,
          (posOff g p * g.cs + (max u (upto g p * g.cs) - upto g p * g.cs)) * g.bpl,
          (min (upto g p * g.cs + g.cs) e - max u (upto g p * g.cs)) * g.bpl⟩ := by
        unfold pieceRead posDisk posOff
        rw [hdiv, hmod]
      have hdk : g.Y.disk (p / g.Y.k) (p % g.Y.k) = posDisk g p := rfl
      rw [hdk]
      generalize hqd : (q (posDisk g p)).getD ⟨(pieceRead g u e (upto g p)).addr, 0, 0⟩ = qd
      have haddr : qd.start + qd.len + qd.plen = (pieceRead g u e (upto g p)).addr := by
        cases hqx : q (posDisk g p) with
        | none => rw [hqx] at hqd; rw [← hqd]; rfl
        | some x =>
          rw [hqx] at hqd
          have hxq : x = qd := hqd
          subst hxq
          rw [h4'.at h hqx, hpr]
          simp only
          rcases h5 with h5 | h5
          · rw [h5] at hqx; cases hqx
          · rw [Nat.max_eq_right h5, Nat.sub_self, Nat.add_zero, Geom.col, Nat.mul_assoc]
      have hr' : (⟨posDisk g p, qd.start + qd.len + qd.plen, (pieceRead g u e (upto g p)).len⟩ : CR) =
          pieceRead g u e (upto g p) := by
        rw [haddr, hpr]
      rw [hr']
      have hcnt : upto g (p + 1 + cnt) - upto g p = (upto g (p + 1 + cnt) - upto g (p + 1)) + 1 := by
        omega
      rw [hcnt, List.range'_succ, List.map_cons]
      rw [ih (p + 1)]
      · rw [hu1]; rfl
      · rw [hu1, hnext]; omega
      · intro _; exact h2'
      · intro hm
        have hlt2 : (upto g p + 1) * g.cs < e := by
          have : (upto g p + 1) * g.cs ≤ (upto g (p + 1 + cnt) - 1) * g.cs :=
            Nat.mul_le_mul_right _ (by omega)
          omega
        rw [h3', hpr, hu1, hnext]
        simp only
        rw [hnext] at hlt2
        rw [← Nat.sub_mul]
        congr 1
        omega
      · intro hm
        have hlt2 : (upto g p + 1) * g.cs < e := by
          have : (upto g p + 1) * g.cs ≤ (upto g (p + 1 + cnt) - 1) * g.cs :=
            Nat.mul_le_mul_right _ (by omega)
          omega
        rw [hnext] at hlt2
        apply h4'.skip
        · intro d hd'; rw [if_neg hd']
        · intro x hx
          simp only [if_true, Option.some.injEq] at hx
          rw [← hx]
          simp only
          have e1 : qd.start + (qd.len + qd.plen + (pieceRead g u e (upto g p)).len) + 0 =
              (pieceRead g u e (upto g p)).addr + (pieceRead g u e (upto g p)).len := by omega
          rw [e1, hpr]
          simp only
          rw [← Nat.add_mul, Geom.col, ← Nat.mul_assoc]
          congr 1
          rw [Nat.add_mul, Nat.one_mul]
          omega
      · right
        rw [hu1, hnext]
        omega
    · rw [if_neg hd]
      have hu := upto_parity h hd
      have hdk : g.Y.disk (p / g.Y.k) (p % g.Y.k) = posDisk g p := rfl
      rw [hdk]
      rw [← hu] at h1 h2 h3 h5 ⊢
      apply ih (p + 1) left _ h1 h2 h3
      · intro hm
        have h4' := h4 (by rw [← hu]; exact hm)
        apply h4'.skip
        · intro d hd'; rw [if_neg hd']
        · intro x hx
          simp only [if_true] at hx
          obtain ⟨y, hy, rfl⟩ := Option.map_eq_some_iff.mp hx
          have := h4'.at h hy
          simp only
          rw [Nat.add_mul, Nat.one_mul]
          omega
      · rcases h5 with h5 | h5
        · left
          intro d
          split
          · rw [h5]; rfl
          · exact h5 d
        · right; exact h5

/-- Both read functions read the chunks that overlap the range, each exactly where it is. -/
theorem diskReads_eq (h : g.Lawful) {u e : Nat} (hue : u < e) :
    ∃ cend, diskReads g u e = some ((List.range' (u / g.cs) (cend - u / g.cs)).map (pieceRead g u e)) ∧
      u / g.cs < cend ∧ (cend - 1) * g.cs < e ∧ e ≤ cend * g.cs := by
  have hcs := h.cs
  have hsp := h.slbas_pos
  have hmp := h.layout.m_pos
  have hcsl : g.cs ≤ g.slbas := by unfold Geom.slbas; exact Nat.le_mul_of_pos_left _ hmp
  have hu0 : u / g.cs * g.cs ≤ u := Nat.div_mul_le_self _ _
  have hu1 : u < u / g.cs * g.cs + g.cs := Nat.lt_div_mul_add hcs
  have huc : max u (u / g.cs * g.cs) = u := Nat.max_eq_left hu0
  -- the end of the last chunk, when it is the last of its stripe
  have hlast : ∀ last, last * g.slbas < e → e ≤ (last + 1) * g.slbas →
      (e = (last + 1) * g.slbas ∨ (last + 1) * g.slbas - e < g.cs) →
      ((last + 1) * g.Y.m - 1) * g.cs < e ∧ e ≤ (last + 1) * g.Y.m * g.cs := by
    intro last h1 h2 h3
    have e1 : (last + 1) * g.Y.m * g.cs = (last + 1) * g.slbas := by unfold Geom.slbas; rw [Nat.mul_assoc]
    rw [Nat.sub_mul, Nat.one_mul, e1]
    have : g.cs ≤ (last + 1) * g.slbas := Nat.le_trans hcsl (Nat.le_mul_of_pos_left _ (by omega))
    omega
  have hceil : ((e + g.cs - 1) / g.cs - 1) * g.cs < e ∧ e ≤ (e + g.cs - 1) / g.cs * g.cs := by
    have h1 : (e + g.cs - 1) / g.cs * g.cs ≤ e + g.cs - 1 := Nat.div_mul_le_self _ _
    have h2 : e + g.cs - 1 < (e + g.cs - 1) / g.cs * g.cs + g.cs := Nat.lt_div_mul_add hcs
    rw [Nat.sub_mul, Nat.one_mul]
    omega
  have hfin : ∀ cend, e ≤ cend * g.cs → u / g.cs < cend := by
    intro cend hc
    apply (Nat.div_lt_iff_lt_mul hcs).mpr
    omega
  have hl1 : (e - 1) / g.slbas * g.slbas ≤ e - 1 := Nat.div_mul_le_self _ _
  have hl2 : e - 1 < (e - 1) / g.slbas * g.slbas + g.slbas := Nat.lt_div_mul_add hsp
  have hl3 : ((e - 1) / g.slbas + 1) * g.slbas = (e - 1) / g.slbas * g.slbas + g.slbas := by
    rw [Nat.add_mul, Nat.one_mul]
  -- the remainder of `e` within its stripe
  have hrem : (e % g.slbas = 0 ∧ e = (e - 1) / g.slbas * g.slbas + g.slbas) ∨
      (e % g.slbas ≠ 0 ∧ e = (e - 1) / g.slbas * g.slbas + e % g.slbas) := by
    generalize (e - 1) / g.slbas = l at *
    rcases Nat.lt_or_ge e (l * g.slbas + g.slbas) with hlt | hge
    · right
      have : e = (e - l * g.slbas) + l * g.slbas := by omega
      have hm : e % g.slbas = e - l * g.slbas := by
        rw [this, Nat.add_mul_mod_self_right, Nat.mod_eq_of_lt (by omega)]
        omega
      omega
    · left
      have : e = (l + 1) * g.slbas := by omega
      refine ⟨?_, by omega⟩
      rw [this]; exact Nat.mul_mod_left _ _
  unfold diskReads
  by_cases hone : u / g.slbas = (e - 1) / g.slbas
  · rw [if_pos hone]
    have hstart : (u - u % g.slbas) / g.cs + g.Y.m = ((e - 1) / g.slbas + 1) * g.Y.m := by
      have : u - u % g.slbas = u / g.slbas * g.slbas := by
        have := Nat.div_add_mod u g.slbas
        rw [Nat.mul_comm] at this
        omega
      rw [this, hone, aligned_div h, Nat.add_mul, Nat.one_mul]
    unfold oneChunks
    simp only
    rw [hstart]
    generalize hc : (if e % g.slbas = 0 ∨ g.slbas - e % g.slbas < g.cs then
      ((e - 1) / g.slbas + 1) * g.Y.m else (e + g.cs - 1) / g.cs) = cend
    have hcend : (cend - 1) * g.cs < e ∧ e ≤ cend * g.cs := by
      rw [← hc]
      split
      · rename_i hcond
        apply hlast _ (by omega) (by omega)
        rw [hl3]
        omega
      · exact hceil
    have hlt := hfin cend hcend.2
    refine ⟨cend, ?_, hlt, hcend⟩
    apply oneReads_eq h hue
    · exact hu1
    · intro _
      have : u / g.cs + (cend - u / g.cs) - 1 = cend - 1 := by omega
      rw [this]; exact hcend.1
    · intro _; rw [huc]
  · rw [if_neg hone]
    unfold multiPositions
    simp only
    generalize hc : (if g.slbas - g.cs < e % g.slbas then (e - 1) / g.slbas * g.Y.k + g.Y.m
      else (e + g.cs - 1) / g.cs / g.Y.m * g.Y.k + (e + g.cs - 1) / g.cs % g.Y.m) = stop
    have hcend : (upto g stop - 1) * g.cs < e ∧ e ≤ upto g stop * g.cs := by
      rw [← hc]
      split
      · rename_i hcond
        rw [upto_end h]
        apply hlast _ (by omega) (by omega)
        rw [hl3]
        omega
      · rw [upto_pos h]; exact hceil
    have hlt := hfin _ hcend.2
    generalize hp0 : u / g.cs / g.Y.m * g.Y.k + u / g.cs % g.Y.m = p0
    have hup0 : upto g p0 = u / g.cs := by rw [← hp0, upto_pos h]
    have hle : p0 ≤ stop := by
      rcases Nat.lt_or_ge stop p0 with hgt | hle
      · have := upto_mono h stop (p0 - stop)
        rw [show stop + (p0 - stop) = p0 by omega, hup0] at this
        omega
      · exact hle
    refine ⟨upto g stop, ?_, hlt, hcend⟩
    have hstop : p0 + (stop - p0) = stop := by omega
    have := multiReads_eq h hue (stop - p0) p0 ((e - u) * g.bpl) (fun _ => none)
      (by rw [hup0]; exact hu1) (by rw [hstop]; intro _; exact hcend.1)
      (by intro _; rw [hup0, huc]) (by intro _ d x hx; cases hx) (Or.inl fun _ => rfl)
    rw [hstop, hup0] at this
    exact this

theorem readDisks_spec (h : g.Lawful) {Z T : Nat} {F : Buf} {log : List CW} (hc : Cov g Z T F log)
    (D : Disks) {u e : Nat} (hu : Z * g.slbas ≤ u) (he : e ≤ (Z + T) * g.slbas) (hue : u < e) :
    readDisks g (D.writes log) u e =
      some ((F.drop ((u - Z * g.slbas) * g.bpl)).take ((e - u) * g.bpl)) := by
  obtain ⟨cend, h1, h2, h3, h4⟩ := diskReads_eq h hue
  unfold readDisks
  rw [h1]
  simp only
  have hu0 : u / g.cs * g.cs ≤ u := Nat.div_mul_le_self _ _
  obtain ⟨bs, e1, e2⟩ := reads_data h hc D hu he hue (cend - u / g.cs) (u / g.cs)
    (Nat.lt_div_mul_add h.cs) (by
      intro _
      have : u / g.cs + (cend - u / g.cs) - 1 = cend - 1 := by omega
      rw [this]; exact h3)
  rw [e1, Option.map_some, e2, Nat.max_eq_left hu0]
  have : u / g.cs + (cend - u / g.cs) = cend := by omega
  rw [this, Nat.min_eq_right h4]

end Verif.Raid
