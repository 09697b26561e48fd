import Verif.Raid.StepLemmas

namespace Verif.Raid

open Verif.Bytes

variable {g : Geom}

/-! ### Disks after a list of writes -/

def key (x : Nat × Nat × UInt8) : Nat × Nat := (x.1, x.2.1)

theorem bytesOf_cons (w : CW) (ws : List CW) : bytesOf (w :: ws) = bytesOf [w] ++ bytesOf ws := by
  rw [← bytesOf_append]; rfl

theorem writes_not_mem {d a : Nat} : ∀ (ws : List CW) (D : Disks), (d, a) ∉ (bytesOf ws).map key →
    D.writes ws d a = D d a := by
  intro ws
  induction ws with
  | nil => intro D _; rfl
  | cons w ws ih =>
    intro D h
    rw [bytesOf_cons, List.map_append, List.mem_append] at h
    show Disks.writes (D.write w) ws d a = _
    rw [ih _ (fun hm => h (Or.inr hm))]
    unfold Disks.write
    split
    · rename_i hc
      exfalso
      apply h
      left
      obtain ⟨h1, h2, h3⟩ := hc
      have hlt : a - w.addr < w.data.length := by omega
      exact List.mem_map.mpr ⟨(d, a, w.data[a - w.addr]), mem_bytesOf.mpr
        ⟨w, by simp, h1, h2, List.getElem?_eq_getElem hlt⟩, rfl⟩
    · rfl

theorem writes_mem {d a : Nat} {v : UInt8} : ∀ (ws : List CW) (D : Disks),
    ((bytesOf ws).map key).Nodup → (d, a, v) ∈ bytesOf ws → D.writes ws d a = some v := by
  intro ws
  induction ws with
  | nil => intro D _ h; simp [bytesOf] at h
  | cons w ws ih =>
    intro D hn hm
    rw [bytesOf_cons, List.map_append, List.nodup_append] at hn
    rw [bytesOf_cons, List.mem_append] at hm
    show Disks.writes (D.write w) ws d a = _
    rcases hm with hm | hm
    · have hk : (d, a) ∈ (bytesOf [w]).map key := List.mem_map.mpr ⟨_, hm, rfl⟩
      rw [writes_not_mem ws _ (fun h => hn.2.2 _ hk _ h rfl)]
      obtain ⟨w', hw', h1, h2, h3⟩ := mem_bytesOf.mp hm
      have : w' = w := by simpa using hw'
      subst this
      have hlt := (List.getElem?_eq_some_iff.mp h3).1
      unfold Disks.write
      rw [if_pos ⟨h1, h2, by omega⟩, h3]
    · exact ih _ hn.2.1 hm

/-- No byte is written twice. -/
theorem stripeChunks_nodup (h : g.Lawful) (S : Nat) (x : Buf) (N : Nat) (hx : N * g.stripe ≤ x.length) :
    ((bytesOf (stripeChunks g S x N)).map key).Nodup := by
  have hsame : ∀ (c : Nat) {o o' i i' : Nat}, i < c → i' < c → o * c + i = o' * c + i' → o = o' := by
    intro c o o' i i' hi hi' he
    have hc : 0 < c := by omega
    have h1 : (o * c + i) / c = o := by
      rw [Nat.add_comm, Nat.add_mul_div_right _ _ hc, Nat.div_eq_of_lt hi, Nat.zero_add]
    have h2 : (o' * c + i') / c = o' := by
      rw [Nat.add_comm, Nat.add_mul_div_right _ _ hc, Nat.div_eq_of_lt hi', Nat.zero_add]
    rw [← h1, he, h2]
  -- different chunks
  have hdiff : ∀ {t t' b b' : Nat}, t < N → t' < N → b < g.Y.k → b' < g.Y.k → (t ≠ t' ∨ b ≠ b') →
      ∀ p ∈ ((column g (x.drop (t * g.stripe)) b).mapIdx fun i v =>
        (g.Y.disk (S + t) b, g.Y.off (S + t) b * g.col + i, v)),
      ∀ q ∈ ((column g (x.drop (t' * g.stripe)) b').mapIdx fun i v =>
        (g.Y.disk (S + t') b', g.Y.off (S + t') b' * g.col + i, v)), key p ≠ key q := by
    intro t t' b b' ht ht' hb hb' hne p hp q hq he
    have hlen : ∀ {t b : Nat}, t < N → b < g.Y.k → (column g (x.drop (t * g.stripe)) b).length = g.col := by
      intro t b ht hb
      apply column_length h _ hb
      have : (t + 1) * g.stripe ≤ N * g.stripe := Nat.mul_le_mul_right _ ht
      rw [Nat.add_mul, Nat.one_mul] at this
      rw [List.length_drop]
      omega
    obtain ⟨i, hi, rfl⟩ := List.mem_mapIdx.mp hp
    obtain ⟨j, hj, rfl⟩ := List.mem_mapIdx.mp hq
    rw [hlen ht hb] at hi
    rw [hlen ht' hb'] at hj
    simp only [key, Prod.mk.injEq] at he
    have ho := hsame g.col hi hj he.2
    have := h.layout.inj hb hb' he.1 ho
    omega
  rw [List.nodup_iff_pairwise_ne, List.pairwise_map]
  unfold bytesOf stripeChunks
  rw [List.pairwise_flatMap]
  constructor
  · intro w hw
    rw [List.pairwise_iff_getElem]
    intro i j hi hj hij he
    rw [List.getElem_mapIdx, List.getElem_mapIdx] at he
    simp only [key, Prod.mk.injEq] at he
    omega
  · rw [List.pairwise_flatMap]
    constructor
    · intro t ht
      have ht := List.mem_range.mp ht
      rw [List.pairwise_map]
      apply List.Pairwise.imp_of_mem _ (List.nodup_iff_pairwise_ne.mp (List.nodup_range (n := g.Y.k)))
      intro b b' hb hb' hne
      exact hdiff ht ht (List.mem_range.mp hb) (List.mem_range.mp hb') (Or.inr hne)
    · apply List.Pairwise.imp_of_mem _ (List.nodup_iff_pairwise_ne.mp (List.nodup_range (n := N)))
      intro t t' ht ht' hne w hw w' hw'
      obtain ⟨b, hb, rfl⟩ := List.mem_map.mp hw
      obtain ⟨b', hb', rfl⟩ := List.mem_map.mp hw'
      exact hdiff (List.mem_range.mp ht) (List.mem_range.mp ht') (List.mem_range.mp hb)
        (List.mem_range.mp hb') (Or.inl hne)

theorem Cov.nodup (h : g.Lawful) {Z T : Nat} {F : Buf} {log : List CW} (hc : Cov g Z T F log) :
    ((bytesOf log).map key).Nodup :=
  (hc.2.map key).nodup_iff.mpr (stripeChunks_nodup h Z F T (by rw [hc.1]; exact Nat.le_refl _))

/-- Every column of every stripe is where it should be. -/
theorem Cov.disk (h : g.Lawful) {Z T : Nat} {F : Buf} {log : List CW} (hc : Cov g Z T F log)
    (D : Disks) {t b i : Nat} (ht : t < T) (hb : b < g.Y.k) (hi : i < g.col) :
    D.writes log (g.Y.disk (Z + t) b) (g.Y.off (Z + t) b * g.col + i) =
      (column g (F.drop (t * g.stripe)) b)[i]? := by
  have hlen : (column g (F.drop (t * g.stripe)) b).length = g.col := by
    apply column_length h _ hb
    have : (t + 1) * g.stripe ≤ T * g.stripe := Nat.mul_le_mul_right _ ht
    rw [Nat.add_mul, Nat.one_mul] at this
    rw [List.length_drop, hc.1]
    omega
  have hi' : i < (column g (F.drop (t * g.stripe)) b).length := by rw [hlen]; exact hi
  rw [List.getElem?_eq_getElem hi']
  apply writes_mem _ _ (hc.nodup h)
  apply hc.2.mem_iff.mpr
  apply mem_bytesOf.mpr
  refine ⟨⟨g.Y.disk (Z + t) b, g.Y.off (Z + t) b * g.col, column g (F.drop (t * g.stripe)) b⟩, ?_,
    rfl, by simp, ?_⟩
  · unfold stripeChunks
    exact List.mem_flatMap.mpr ⟨t, List.mem_range.mpr ht, List.mem_map.mpr
      ⟨b, List.mem_range.mpr hb, rfl⟩⟩
  · simp only
    rw [Nat.add_sub_cancel_left]
    exact List.getElem?_eq_getElem hi'

/-- Data chunk `c` of the array holds the bytes of the zone that belong there. -/
theorem Cov.data (h : g.Lawful) {Z T : Nat} {F : Buf} {log : List CW} (hc : Cov g Z T F log)
    (D : Disks) {c i : Nat} (h1 : Z * g.Y.m ≤ c) (h2 : c < (Z + T) * g.Y.m) (hi : i < g.col) :
    D.writes log (g.Y.disk (c / g.Y.m) (c % g.Y.m)) (g.Y.off (c / g.Y.m) (c % g.Y.m) * g.col + i) =
      F[(c - Z * g.Y.m) * g.col + i]? := by
  have hm := h.layout.m_pos
  have hd1 : Z ≤ c / g.Y.m := (Nat.le_div_iff_mul_le hm).mpr h1
  have hd2 : c / g.Y.m < Z + T := (Nat.div_lt_iff_lt_mul hm).mpr h2
  have hb := Nat.mod_lt c hm
  have ht : c / g.Y.m = Z + (c / g.Y.m - Z) := by omega
  have := hc.disk h D (t := c / g.Y.m - Z) (b := c % g.Y.m) (by omega)
    (Nat.lt_trans hb h.layout.m_lt) hi
  rw [← ht] at this
  rw [this, column, if_pos hb, List.getElem?_take_of_lt hi, List.drop_drop, List.getElem?_drop]
  congr 1
  have hdm := Nat.div_add_mod c g.Y.m
  generalize c / g.Y.m = q at *
  generalize c % g.Y.m = r at *
  have : c - Z * g.Y.m = (q - Z) * g.Y.m + r := by
    rw [← hdm, Nat.sub_mul, Nat.mul_comm g.Y.m q]
    have : Z * g.Y.m ≤ q * g.Y.m := Nat.mul_le_mul_right _ hd1
    omega
  rw [this, Nat.add_mul, Geom.stripe, Nat.mul_assoc]

/-! ### Reading -/

theorem mapM_some {α β : Type} {f : α → Option β} {v : α → β} : ∀ {l : List α},
    (∀ x ∈ l, f x = some (v x)) → l.mapM f = some (l.map v) := by
  intro l
  induction l with
  | nil => intro _; rfl
  | cons x xs ih =>
    intro h
    rw [List.mapM_cons, h x (by simp), ih fun y hy => h y (List.mem_cons_of_mem _ hy)]
    rfl

theorem read_of {D : Disks} {r : CR} {b : Buf} (hl : b.length = r.len)
    (h : ∀ i < r.len, D r.disk (r.addr + i) = b[i]?) : D.read r = some b := by
  unfold Disks.read
  rw [mapM_some (v := fun i => b.getD i 0)]
  · congr 1
    apply List.ext_getElem?
    intro i
    rw [List.getElem?_map]
    rcases Nat.lt_or_ge i r.len with hi | hi
    · rw [List.getElem?_range hi, Option.map_some, List.getD_eq_getElem?_getD,
        List.getElem?_eq_getElem (by omega)]
      rfl
    · rw [List.getElem?_eq_none_iff.mpr (by rw [List.length_range]; exact hi),
        List.getElem?_eq_none_iff.mpr (by omega)]
      rfl
  · intro i hi
    have hi := List.mem_range.mp hi
    rw [h i hi, List.getD_eq_getElem?_getD, List.getElem?_eq_getElem (by omega)]
    rfl

/-- The read of chunk `c` for LBAs `u` to `e`, in closed form. -/
def pieceRead (g : Geom) (u e c : Nat) : CR :=
  ⟨g.Y.disk (c / g.Y.m) (c % g.Y.m),
    (g.Y.off (c / g.Y.m) (c % g.Y.m) * g.cs + (max u (c * g.cs) - c * g.cs)) * g.bpl,
    (min (c * g.cs + g.cs) e - max u (c * g.cs)) * g.bpl⟩

theorem chunkRead_eq {u e c left : Nat} (hue : u < e) (h1 : u < c * g.cs + g.cs) (h2 : c * g.cs < e)
    (hleft : left = (e - max u (c * g.cs)) * g.bpl) :
    chunkRead g u e left c = some (pieceRead g u e c) := by
  unfold chunkRead pieceRead
  simp only
  rw [if_neg (by omega)]
  have hmin : ∀ a b : Nat, min (a * g.bpl) (b * g.bpl) = min a b * g.bpl := fun a b =>
    Nat.mul_min_mul_right a b g.bpl
  split
  · rename_i hlt
    have hmod : u % g.cs = u - c * g.cs := by
      have : u = (u - c * g.cs) + c * g.cs := by omega
      rw [this, Nat.add_mul_mod_self_right, Nat.mod_eq_of_lt (by omega)]
      omega
    rw [Nat.max_eq_left (Nat.le_of_lt hlt)] at hleft ⊢
    rw [hleft, hmin, hmod]
    congr 3
    omega
  · rename_i hge
    rw [Nat.max_eq_right (by omega)] at hleft ⊢
    rw [Nat.sub_self, Nat.add_zero]
    split
    · rename_i hle
      rw [hleft, Geom.col, hmin]
      congr 3
      omega
    · rw [hleft]
      congr 3
      omega

/-- The loop of `read_at_one`, in closed form. -/
theorem oneReads_eq (h : g.Lawful) {u e : Nat} (hue : u < e) : ∀ (cnt c0 left : Nat),
    u < c0 * g.cs + g.cs → (cnt ≠ 0 → (c0 + cnt - 1) * g.cs < e) →
    (cnt ≠ 0 → left = (e - max u (c0 * g.cs)) * g.bpl) →
    oneReads g u e left (List.range' c0 cnt) =
      some ((List.range' c0 cnt).map (pieceRead g u e)) := by
  intro cnt
  induction cnt with
  | zero => intro c0 left _ _ _; rfl
  | succ cnt ih =>
    intro c0 left h1 h2 h3
    have h2' := h2 (by omega)
    have h3' := h3 (by omega)
    have hc0 : c0 * g.cs < e := by
      have : c0 * g.cs ≤ (c0 + (cnt + 1) - 1) * g.cs := Nat.mul_le_mul_right _ (by omega)
      omega
    rw [List.range'_succ, List.map_cons]
    unfold oneReads
    rw [chunkRead_eq hue h1 hc0 h3']
    simp only
    have hnext : (c0 + 1) * g.cs = c0 * g.cs + g.cs := by rw [Nat.add_mul, Nat.one_mul]
    rw [ih (c0 + 1) _ (by omega)]
    · rfl
    · intro _
      have : c0 + 1 + cnt - 1 = c0 + (cnt + 1) - 1 := by omega
      rw [this]; exact h2'
    · intro hc
      have hlt : (c0 + 1) * g.cs < e := by
        have : (c0 + 1) * g.cs ≤ (c0 + (cnt + 1) - 1) * g.cs := Nat.mul_le_mul_right _ (by omega)
        omega
      rw [h3', pieceRead]
      simp only
      rw [hnext] at hlt ⊢
      rw [← Nat.sub_mul]
      congr 1
      have := h.cs
      omega

/-- The reads of consecutive chunks give consecutive data. -/
theorem reads_data (h : g.Lawful) {Z T : Nat} {F : Buf} {log : List CW} (hc : Cov g Z T F log)
    (D : Disks) {u e : Nat} (hu : Z * g.slbas ≤ u) (he : e ≤ (Z + T) * g.slbas) (hue : u < e) :
    ∀ (cnt c0 : Nat), u < c0 * g.cs + g.cs → (cnt ≠ 0 → (c0 + cnt - 1) * g.cs < e) →
    ∃ bs, ((List.range' c0 cnt).map (pieceRead g u e)).mapM (D.writes log).read = some bs ∧
      bs.flatten = ((F.drop ((max u (c0 * g.cs) - Z * g.slbas) * g.bpl)).take
        ((min ((c0 + cnt) * g.cs) e - max u (c0 * g.cs)) * g.bpl)) := by
  intro cnt
  induction cnt with
  | zero =>
    intro c0 h1 _
    refine ⟨[], rfl, ?_⟩
    have : min ((c0 + 0) * g.cs) e - max u (c0 * g.cs) = 0 := by rw [Nat.add_zero]; omega
    rw [this]
    simp
  | succ cnt ih =>
    intro c0 h1 h2
    have h2' := h2 (by omega)
    have hc0 : c0 * g.cs < e := by
      have : c0 * g.cs ≤ (c0 + (cnt + 1) - 1) * g.cs := Nat.mul_le_mul_right _ (by omega)
      omega
    have hnext : (c0 + 1) * g.cs = c0 * g.cs + g.cs := by rw [Nat.add_mul, Nat.one_mul]
    obtain ⟨bs, e1, e2⟩ := ih (c0 + 1) (by omega) (by
      intro _
      have : c0 + 1 + cnt - 1 = c0 + (cnt + 1) - 1 := by omega
      rw [this]; exact h2')
    rw [List.range'_succ, List.map_cons, List.mapM_cons, e1]
    -- the first read
    have hZ : Z * g.slbas = Z * g.Y.m * g.cs := by unfold Geom.slbas; rw [Nat.mul_assoc]
    have hZT : (Z + T) * g.slbas = (Z + T) * g.Y.m * g.cs := by unfold Geom.slbas; rw [Nat.mul_assoc]
    have hcZ : Z * g.Y.m ≤ c0 := by
      rcases Nat.lt_or_ge c0 (Z * g.Y.m) with hlt | hge
      · have : (c0 + 1) * g.cs ≤ Z * g.Y.m * g.cs := Nat.mul_le_mul_right _ hlt
        omega
      · exact hge
    have hcT : c0 < (Z + T) * g.Y.m := by
      rcases Nat.lt_or_ge c0 ((Z + T) * g.Y.m) with hlt | hge
      · exact hlt
      · have : (Z + T) * g.Y.m * g.cs ≤ c0 * g.cs := Nat.mul_le_mul_right _ hge
        omega
    have hFl : F.length = (T * g.slbas) * g.bpl := by rw [hc.1, stripe_eq, Nat.mul_assoc]
    generalize hP : max u (c0 * g.cs) = P
    generalize hL : min (c0 * g.cs + g.cs) e - P = L
    have hPl : P + L = min (c0 * g.cs + g.cs) e := by omega
    have hread : (D.writes log).read (pieceRead g u e c0) =
        some ((F.drop ((P - Z * g.slbas) * g.bpl)).take (L * g.bpl)) := by
      apply read_of
      · rw [List.length_take, List.length_drop, hFl, ← Nat.sub_mul, Nat.mul_min_mul_right, pieceRead]
        simp only
        rw [hP, hL]
        congr 1
        have : (Z + T) * g.slbas = Z * g.slbas + T * g.slbas := Nat.add_mul _ _ _
        omega
      · intro i hi
        have hi' : i < L * g.bpl := by
          rw [pieceRead] at hi; simp only at hi; rw [hP, hL] at hi; exact hi
        rw [pieceRead]
        simp only
        rw [hP, Nat.add_mul, Nat.mul_assoc, Nat.add_assoc]
        have hin : (P - c0 * g.cs) * g.bpl + i < g.cs * g.bpl := by
          have : (P - c0 * g.cs) * g.bpl + L * g.bpl ≤ g.cs * g.bpl := by
            rw [← Nat.add_mul]
            apply Nat.mul_le_mul_right
            omega
          omega
        have := hc.data h D hcZ hcT hin
        rw [Geom.col] at this
        rw [this, List.getElem?_take_of_lt hi', List.getElem?_drop]
        congr 1
        rw [← Nat.mul_assoc, ← Nat.add_assoc, ← Nat.add_mul]
        congr 2
        rw [Nat.sub_mul, ← hZ]
        have : Z * g.Y.m * g.cs ≤ c0 * g.cs := Nat.mul_le_mul_right _ hcZ
        omega
    rw [hread]
    refine ⟨_, rfl, ?_⟩
    rw [List.flatten_cons, e2]
    have hcnt : (c0 + 1 + cnt) = c0 + (cnt + 1) := by omega
    rw [hcnt]
    by_cases hz : cnt = 0
    · subst hz
      have e3 : min ((c0 + (0 + 1)) * g.cs) e - max u ((c0 + 1) * g.cs) = 0 := by
        rw [hnext]; omega
      rw [e3, Nat.zero_mul, List.take_zero, List.append_nil, hnext, hL]
    · have hlt : (c0 + 1) * g.cs < e := by
        have : (c0 + 1) * g.cs ≤ (c0 + (cnt + 1) - 1) * g.cs := Nat.mul_le_mul_right _ (by omega)
        omega
      rw [hnext] at hlt ⊢
      have e3 : max u (c0 * g.cs + g.cs) = P + L := by omega
      have hge : c0 * g.cs + g.cs ≤ (c0 + (cnt + 1)) * g.cs := by
        rw [← hnext]; exact Nat.mul_le_mul_right _ (by omega)
      rw [e3]
      generalize (c0 + (cnt + 1)) * g.cs = E at *
      have e4 : min E e - P = L + (min E e - (P + L)) := by omega
      have e5 : (P + L - Z * g.slbas) * g.bpl = (P - Z * g.slbas) * g.bpl + L * g.bpl := by
        rw [← Nat.add_mul]; congr 1; omega
      rw [e4, e5, Nat.add_mul, List.take_add, List.drop_drop]

end Verif.Raid
