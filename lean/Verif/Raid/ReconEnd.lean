import Verif.Raid.ReconDegProps

/-!
# C62, C13: reads after any history, of degraded and of healthy arrays
-/

namespace Verif.Raid

open Verif.Bytes Verif.Codec

variable {g : Geom}

theorem failedIn_mono (res : Nat → Res) (s : Nat) {n n' : Nat} (h : n ≤ n') :
    failedIn g res s n ≤ failedIn g res s n' := by
  unfold failedIn
  rw [show n' = n + (n' - n) by omega, range_split, List.countP_append]
  exact Nat.le_add_right _ _

/-- C62: a read of any range from an array with absent disks never panics.  It returns the data,
whatever the failed disks left in the buffers, or the error of a disk; the latter only if in one
of the stripes more than `min nf f` disks failed, where `nf` is the number of absent disks.
Missing: with fewer absent disks than `f`, a read of several stripes doesn't tolerate `f` failures
(`C62_multi_counterexample`). -/
theorem C62_read_degraded_partial (h : g.Lawful) {f : Nat} (hf : g.Y.k = g.Y.m + f) (hk : g.Y.k ≤ 256)
    (hE : g.enc = codecEnc g.Y.m f g.col) {invert : Nat → Mat → Option Mat} (hI : Inverts invert)
    {D : Disks} {Z T : Nat} {F : Buf} (hD : OnDisks g D Z T F) {res : Nat → Res} {fill : CR → Buf}
    (hA : Answers D res fill) {u e : Nat} (hue : u < e) (hZ : Z * g.slbas ≤ u)
    (hT : e ≤ (Z + T) * g.slbas) {nf : Nat} (hnf : 0 < nf) :
    readDeg g f (codecDec invert g.Y.m f) nf u e fill res =
      .ok ((F.drop ((u - Z * g.slbas) * g.bpl)).take ((e - u) * g.bpl)) ∨
    ((∃ s, u / g.slbas ≤ s ∧ s ≤ (e - 1) / g.slbas ∧ min nf f < failedIn g res s g.Y.k) ∧
      ∃ d n, res d = .err n ∧
        readDeg g f (codecDec invert g.Y.m f) nf u e fill res = .err n) := by
  have hp := slbas_pos h
  have hle : u / g.slbas ≤ (e - 1) / g.slbas := Nat.div_le_div_right (by omega)
  unfold readDeg
  dsimp only
  by_cases hone : u / g.slbas = (e - 1) / g.slbas
  · rw [if_pos hone]
    have hZs : Z ≤ u / g.slbas := (Nat.le_div_iff_mul_le hp).mpr hZ
    have hTs : (e - 1) / g.slbas < Z + T := by rw [Nat.div_lt_iff_lt_mul hp]; omega
    have hst := hD.stripe hA (t := u / g.slbas - Z) (by omega)
    rw [show Z + (u / g.slbas - Z) = u / g.slbas by omega] at hst
    have hum : u / g.slbas * g.slbas + u % g.slbas = u := by
      rw [Nat.mul_comm]; exact Nat.div_add_mod _ _
    have hin : InStripe g u e := by
      refine ⟨hue, ?_⟩
      have := Nat.lt_div_mul_add (a := e - 1) hp
      rw [← hone] at this
      omega
    rcases C62_read_one_degraded h hf hk hE hI hst hin hnf with h1 | ⟨h1, b, hb, n, h2, h3⟩
    · left
      refine Eq.trans h1 ?_
      congr 1
      unfold wanted
      rw [List.drop_drop]
      congr 2
      rw [stripe_eq, ← Nat.mul_assoc, ← Nat.add_mul]
      congr 1
      have : u / g.slbas * g.slbas = (u / g.slbas - Z) * g.slbas + Z * g.slbas := by
        rw [← Nat.add_mul]; congr 1; omega
      omega
    · right
      refine ⟨⟨u / g.slbas, by omega, by omega, ?_⟩, _, n, h2, h3⟩
      have : failures g (fun b => res (g.Y.disk (u / g.slbas) b)) =
          failedIn g res (u / g.slbas) g.Y.k := rfl
      omega
  · rw [if_neg hone]
    rcases C62_read_multi_degraded h hf hk hE hI hD hA hue hZ hT (by omega) nf with
      ⟨-, h1⟩ | ⟨⟨s, h1, h2, h3⟩, h4⟩
    · exact Or.inl h1
    · right
      have := failedIn_mono (g := g) res s (show g.Y.m + min nf f ≤ g.Y.k by omega)
      exact ⟨⟨s, h1, h2, by omega⟩, h4⟩

theorem Cov.onDisks (h : g.Lawful) {Z T : Nat} {F : Buf} {log : List CW} (hc : Cov g Z T F log)
    (D : Disks) : OnDisks g (D.writes log) Z T F := by
  refine ⟨by rw [hc.1], ?_⟩
  intro t ht b hb
  apply read_of
  · apply column_length h _ hb
    have : (t + 1) * g.stripe ≤ T * g.stripe := Nat.mul_le_mul_right _ ht
    rw [Nat.add_mul, Nat.one_mul] at this
    rw [List.length_drop, hc.1]
    omega
  · intro i hi
    exact hc.disk h D ht hb hi

/-- C62: after any writes and flushes in a zone, every range of the whole stripes written reads
back, from an array with `nf > 0` absent disks, as the bytes written, unless in one of its stripes
more than `min nf f` disks fail; then the read reports the error of a disk. -/
theorem C62_history_partial (h : g.Lawful) {f : Nat} (hf : g.Y.k = g.Y.m + f) (hk : g.Y.k ≤ 256)
    (hE : g.enc = codecEnc g.Y.m f g.col) {invert : Nat → Mat → Option Mat} (hI : Inverts invert)
    (Z : Nat) (ops : List Op) (hne : ∀ b, Op.write b ∈ ops → b ≠ []) (D : Disks) :
    ∃ st, run g (opened g Z) ops = some st ∧
      ∀ res fill, Answers (D.writes st.log) res fill → ∀ u e nf, u < e → Z * g.slbas ≤ u → 0 < nf →
        e ≤ (Z + (specRun g ops).length / g.stripe) * g.slbas →
        readDeg g f (codecDec invert g.Y.m f) nf u e fill res =
          .ok (((specRun g ops).drop ((u - Z * g.slbas) * g.bpl)).take ((e - u) * g.bpl)) ∨
        ((∃ s, u / g.slbas ≤ s ∧ s ≤ (e - 1) / g.slbas ∧ min nf f < failedIn g res s g.Y.k) ∧
          ∃ d n, res d = .err n ∧
            readDeg g f (codecDec invert g.Y.m f) nf u e fill res = .err n) := by
  obtain ⟨st, e1, e2⟩ := run_inv h ops [] (opened g Z) (al := False)
    (fun b hb => ⟨hne b hb, fun hf => hf.elim⟩) (opened_inv h Z False)
  refine ⟨st, e1, ?_⟩
  obtain ⟨⟨T, F, hcov, hlba, hdata⟩, hlt, -, -, -⟩ := e2
  have hdata' : specRun g ops = F ++ st.sb.buf.flatten := hdata
  have hT : (specRun g ops).length / g.stripe = T := by
    rw [hdata', List.length_append, hcov.1, Nat.add_comm, Nat.add_mul_div_right _ _ h.stripe_pos,
      Nat.div_eq_of_lt hlt, Nat.zero_add]
  intro res fill hA u e nf hue hZ hnf he
  rw [hT] at he
  have hspec : ((specRun g ops).drop ((u - Z * g.slbas) * g.bpl)).take ((e - u) * g.bpl) =
      (F.drop ((u - Z * g.slbas) * g.bpl)).take ((e - u) * g.bpl) := by
    have hFl : F.length = T * g.slbas * g.bpl := by rw [hcov.1, stripe_eq, Nat.mul_assoc]
    rw [Nat.add_mul] at he
    have hle : (u - Z * g.slbas) * g.bpl + (e - u) * g.bpl ≤ F.length := by
      rw [hFl, ← Nat.add_mul]
      apply Nat.mul_le_mul_right
      omega
    rw [hdata', List.drop_append_of_le_length (by omega), List.take_append_of_le_length]
    rw [List.length_drop]
    omega
  rw [hspec]
  exact C62_read_degraded_partial h hf hk hE hI (hcov.onDisks h D) hA hue hZ he hnf

/-- C13: with at least one child and at most `f` children missing or faulted, reads of any range
of what is on the disks succeed and return the data, if the present children's reads do. -/
theorem C13_read (h : g.Lawful) {f : Nat} (hf : g.Y.k = g.Y.m + f) (hk : g.Y.k ≤ 256)
    (hE : g.enc = codecEnc g.Y.m f g.col) {invert : Nat → Mat → Option Mat} (hI : Inverts invert)
    (a : Vdev) (hn : a.children.length = g.Y.n) (ha0 : 0 < a.absent) (haf : a.absent ≤ f)
    {r : Nat → Res} (hr : ∀ d, r d = .ok)
    {D : Disks} {Z T : Nat} {F : Buf} (hD : OnDisks g D Z T F) {fill : CR → Buf}
    (hA : Answers D (fun d => (a.children.getD d .missing).io (r d)) fill) {u e : Nat} (hue : u < e)
    (hZ : Z * g.slbas ≤ u) (hT : e ≤ (Z + T) * g.slbas) :
    readDeg g f (codecDec invert g.Y.m f) a.absent u e fill
        (fun d => (a.children.getD d .missing).io (r d)) =
      .ok ((F.drop ((u - Z * g.slbas) * g.bpl)).take ((e - u) * g.bpl)) := by
  rcases C62_read_degraded_partial h hf hk hE hI hD hA hue hZ hT ha0 with h1 | ⟨⟨s, -, -, h1⟩, -⟩
  · exact h1
  · exfalso
    have hmin : min a.absent f = a.absent := by omega
    rw [hmin] at h1
    have hc := absent_count (cs := a.children) (ds := (List.range g.Y.k).map (g.Y.disk s)) (by
      apply List.Nodup.map_on
      · intro b hb b' hb' he
        exact h.layout.disk_inj _ _ _ (List.mem_range.mp hb) (List.mem_range.mp hb') he
      · exact List.nodup_range) (by
      intro d hd
      obtain ⟨b, hb, rfl⟩ := List.mem_map.mp hd
      rw [hn]
      exact h.layout.disk_lt _ _ (List.mem_range.mp hb))
    rw [List.countP_map] at hc
    unfold failedIn at h1
    dsimp only at h1
    have : (List.range g.Y.k).countP (fun b =>
        ((a.children.getD (g.Y.disk s b) .missing).io (r (g.Y.disk s b))).isErr) =
        (List.range g.Y.k).countP ((fun d => !(a.children.getD d .missing).isPresent) ∘ g.Y.disk s) := by
      apply List.countP_congr
      intro b _
      simp only [Function.comp_apply]
      rw [hr]
      cases a.children.getD (g.Y.disk s b) .missing <;> simp [Child.io, Child.isPresent, Res.isErr]
    unfold Vdev.absent at h1
    omega

/-! ### Several stripes of a healthy array -/

theorem recoverStripe_zero (h : g.Lawful) (dec : Decoder) (u : Nat) (data : Buf) (ex : List Buf)
    (res : Nat → Res) :
    ((∀ b < g.Y.m, res b = .ok) ∧ recoverStripe g 0 dec u data ex res = .ok data) ∨
    ((∃ b < g.Y.m, (res b).isErr = true) ∧ ∃ b n, res b = .err n ∧
      recoverStripe g 0 dec u data ex res = .err n) := by
  have hm := h.layout.m_pos
  unfold recoverStripe reconstruct
  rw [Nat.add_zero]
  by_cases h0 : nErr ((List.range g.Y.m).map res) = 0
  · left
    refine ⟨?_, ?_⟩
    · intro b hb
      unfold nErr at h0
      rw [List.countP_eq_zero] at h0
      exact isErr_false (by
        simpa using h0 (res b) (List.mem_map.mpr ⟨b, List.mem_range.mpr hb, rfl⟩))
    · obtain ⟨need, h1, h2, h3, -⟩ := disksNeeded_some (v := (List.range g.Y.m).map res) hm
        (by simp; omega)
      simp only [List.length_map, List.length_range] at h3
      rw [h1]
      dsimp only
      rw [if_pos h3]
  · right
    rw [disksNeeded_none hm (by simp; omega)]
    obtain ⟨n, e1, e2⟩ := firstErr_spec (v := (List.range g.Y.m).map res) (by omega)
    obtain ⟨b, hb, hbe⟩ := List.mem_map.mp e2
    exact ⟨⟨b, List.mem_range.mp hb, by rw [hbe]; rfl⟩, b, n, hbe, e1⟩

theorem recoverAll_zero (h : g.Lawful) (dec : Decoder) {u e : Nat} (ex : Nat → List Buf)
    (R : Nat → Res) : ∀ (n s0 : Nat) (data : Buf), (∀ s, s0 ≤ s → s < s0 + n → Wanted g u e s) →
    (min e ((s0 + n) * g.slbas) - max u (s0 * g.slbas)) * g.bpl ≤ data.length →
    ((∀ s, s0 ≤ s → s < s0 + n → ∀ b < g.Y.m, R (g.Y.disk s b) = .ok) ∧
      ∃ b, recoverAll g 0 dec u e ex R (List.range' s0 n) data = .ok b) ∨
    ∃ d k, R d = .err k ∧ recoverAll g 0 dec u e ex R (List.range' s0 n) data = .err k := by
  intro n
  induction n with
  | zero => intro s0 data _ _; left; exact ⟨fun s h1 h2 => by omega, [], rfl⟩
  | succ n ih =>
    intro s0 data hall hlen
    have hw0 := hall s0 (Nat.le_refl _) (by omega)
    have hlt := (hw0.inStripe h).lt
    have e1 : min e ((s0 + 1) * g.slbas) - max u (s0 * g.slbas) = es g e s0 - us g u s0 := rfl
    have hsub : (min e ((s0 + 1 + n) * g.slbas) - max u ((s0 + 1) * g.slbas)) +
        (es g e s0 - us g u s0) ≤ min e ((s0 + (n + 1)) * g.slbas) - max u (s0 * g.slbas) := by
      have h2 := hw0.start
      have h3 : (s0 + 1) * g.slbas ≤ (s0 + 1 + n) * g.slbas := Nat.mul_le_mul_right _ (by omega)
      rw [show s0 + (n + 1) = s0 + 1 + n by omega]
      unfold es us at *
      omega
    have hmul : (min e ((s0 + 1 + n) * g.slbas) - max u ((s0 + 1) * g.slbas)) * g.bpl +
        (es g e s0 - us g u s0) * g.bpl ≤ data.length := by
      rw [← Nat.add_mul]
      exact Nat.le_trans (Nat.mul_le_mul_right _ hsub) hlen
    have ih := ih (s0 + 1) (data.drop ((es g e s0 - us g u s0) * g.bpl))
      (fun s h1 h2 => hall s (by omega) (by omega)) (by rw [List.length_drop]; omega)
    rw [List.range'_succ]
    unfold recoverAll
    dsimp only
    rw [e1, if_neg (by omega)]
    rcases recoverStripe_zero h dec (max u (s0 * g.slbas))
      (data.take ((es g e s0 - us g u s0) * g.bpl)) (ex s0) (fun b => R (g.Y.disk s0 b)) with
      ⟨h1, h2⟩ | ⟨-, b, k, h2, h3⟩
    · rw [h2]
      rcases ih with ⟨i1, b', i2⟩ | ⟨d, k, i1, i2⟩
      · left
        refine ⟨?_, _, by rw [i2]⟩
        intro s g1 g2
        rcases Nat.eq_or_lt_of_le g1 with rfl | g3
        · exact h1
        · exact i1 s (by omega) (by omega)
      · right
        exact ⟨d, k, i1, by rw [i2]⟩
    · right
      refine ⟨_, k, h2, ?_⟩
      rw [h3]
      rcases ih with ⟨i1, b', i2⟩ | ⟨d, k', i1, i2⟩
      · rw [i2]
      · rw [i2]

theorem mapM_fill {D : Disks} {fill : CR → Buf} : ∀ (rs : List CR) (bs : List Buf),
    rs.mapM D.read = some bs → (∀ r ∈ rs, ∀ x, D.read r = some x → fill r = x) → rs.map fill = bs := by
  intro rs
  induction rs with
  | nil => intro bs h _; simp at h; rw [h]; rfl
  | cons r rs ih =>
    intro bs h hf
    rw [List.mapM_cons] at h
    cases hr : D.read r with
    | none => rw [hr] at h; simp at h
    | some x =>
      rw [hr] at h
      cases hrs : rs.mapM D.read with
      | none => rw [hrs] at h; simp at h
      | some xs =>
        rw [hrs] at h
        simp at h
        rw [List.map_cons, hf r List.mem_cons_self x hr,
          ih xs hrs (fun r hr => hf r (List.mem_cons_of_mem _ hr)), ← h]

theorem read_length {D : Disks} {r : CR} {x : Buf} (h : D.read r = some x) : x.length = r.len := by
  have key : ∀ (l : List Nat) (x : Buf), l.mapM (fun i => D r.disk (r.addr + i)) = some x →
      x.length = l.length := by
    intro l
    induction l with
    | nil => intro x h; simp at h; rw [h]; rfl
    | cons i l ih =>
      intro x h
      rw [List.mapM_cons] at h
      cases hi : D r.disk (r.addr + i) with
      | none => rw [hi] at h; simp at h
      | some b =>
        rw [hi] at h
        cases hl : l.mapM (fun i => D r.disk (r.addr + i)) with
        | none => rw [hl] at h; simp at h
        | some bs =>
          rw [hl] at h
          simp at h
          rw [← h, List.length_cons, List.length_cons, ih bs hl]
  have := key _ x h
  rwa [List.length_range] at this

theorem mapM_length {D : Disks} {fill : CR → Buf} (hfill : ∀ r, (fill r).length = r.len) :
    ∀ (rs : List CR) (bs : List Buf), rs.mapM D.read = some bs →
    (rs.map fill).flatten.length = bs.flatten.length := by
  intro rs
  induction rs with
  | nil => intro bs h; simp at h; rw [h]; rfl
  | cons r rs ih =>
    intro bs h
    rw [List.mapM_cons] at h
    cases hr : D.read r with
    | none => rw [hr] at h; simp at h
    | some x =>
      rw [hr] at h
      cases hrs : rs.mapM D.read with
      | none => rw [hrs] at h; simp at h
      | some xs =>
        rw [hrs] at h
        simp at h
        rw [← h, List.map_cons, List.flatten_cons, List.flatten_cons, List.length_append,
          List.length_append, ih xs hrs, hfill, read_length hr]

/-- C62: a read of several stripes from an array without absent disks never panics.  It
returns the data if all the disks that it reads from succeed, and otherwise the error of one of
them.  Missing: the data if at most `f` disks fail (`C62_multi_counterexample`). -/
theorem C62_read_multi_healthy_partial (h : g.Lawful) (dec : Decoder) {Z T : Nat} {F : Buf}
    {log : List CW} (hc : Cov g Z T F log) (D : Disks) {res : Nat → Res} {fill : CR → Buf}
    (hA : Answers (D.writes log) res fill) (ex : Nat → List Buf) {u e : Nat} (hue : u < e)
    (hZ : Z * g.slbas ≤ u) (hT : e ≤ (Z + T) * g.slbas) :
    ∃ rs, diskReads g u e = some rs ∧
    (((∀ r ∈ rs, res r.disk = .ok) ∧ readAtMultiOk g dec u e fill ex res =
      .ok ((F.drop ((u - Z * g.slbas) * g.bpl)).take ((e - u) * g.bpl))) ∨
    ((∃ r ∈ rs, res r.disk ≠ .ok) ∧ ∃ r ∈ rs, ∃ n, res r.disk = .err n ∧
      readAtMultiOk g dec u e fill ex res = .err n)) := by
  have hp := slbas_pos h
  obtain ⟨cend, h1, h2, h3, h4⟩ := diskReads_eq h hue
  have hread := readDisks_spec h hc D hZ hT hue
  unfold readDisks at hread
  rw [h1] at hread
  dsimp only at hread
  obtain ⟨bs, hbs, hflat⟩ := Option.map_eq_some_iff.mp hread
  refine ⟨_, h1, ?_⟩
  generalize hrs : (List.range' (u / g.cs) (cend - u / g.cs)).map (pieceRead g u e) = rs at *
  unfold readAtMultiOk
  rw [h1]
  dsimp only
  have hlen : (rs.map fill).flatten.length = (e - u) * g.bpl := by
    rw [mapM_length hA.len rs bs hbs, hflat, List.length_take, List.length_drop, hc.1, stripe_eq,
      ← Nat.mul_assoc, ← Nat.sub_mul]
    rw [Nat.add_mul] at hT
    apply Nat.min_eq_left
    apply Nat.mul_le_mul_right
    omega
  by_cases hok : ∀ r ∈ rs, res r.disk = .ok
  · left
    refine ⟨hok, ?_⟩
    rw [if_pos, mapM_fill rs bs hbs (fun r hr x hx => hA.good r x (hok r hr) hx), hflat]
    rw [List.all_eq_true]
    intro d _
    split
    · rename_i hany
      obtain ⟨r, hr, hrd⟩ := List.any_eq_true.mp hany
      rw [beq_iff_eq] at hrd
      rw [← hrd, hok r hr]
      rfl
    · rfl
  · right
    have hbad : ∃ r ∈ rs, res r.disk ≠ .ok := by
      apply Classical.byContradiction
      intro hno
      apply hok
      intro r hr
      apply Classical.byContradiction
      intro hne
      exact hno ⟨r, hr, hne⟩
    refine ⟨hbad, ?_⟩
    obtain ⟨r, hr, hne⟩ := hbad
    -- the chunk that failed
    rw [← hrs] at hr
    obtain ⟨c, hcm, rfl⟩ := List.mem_map.mp hr
    rw [List.mem_range'_1] at hcm
    have hdisk : (pieceRead g u e c).disk = g.Y.disk (c / g.Y.m) (c % g.Y.m) := rfl
    have hcm2 := Nat.mod_lt c h.layout.m_pos
    have hmk := h.layout.m_lt
    have hany : rs.any (fun r => r.disk == (pieceRead g u e c).disk) = true := by
      rw [List.any_eq_true]
      refine ⟨pieceRead g u e c, ?_, by simp⟩
      rw [← hrs]
      exact hr
    rw [if_neg]
    · have hs1 : u / g.slbas ≤ c / g.Y.m := by
        have : u / g.cs / g.Y.m = u / g.slbas := by
          rw [Nat.div_div_eq_div_mul, slbas_eq, Nat.mul_comm]
        rw [← this]
        exact Nat.div_le_div_right hcm.1
      have hs2 : c / g.Y.m ≤ (e - 1) / g.slbas := by
        have e1 : c * g.cs ≤ e - 1 := by
          have : c * g.cs ≤ (cend - 1) * g.cs := Nat.mul_le_mul_right _ (by omega)
          omega
        have e2 : c ≤ (e - 1) / g.cs := (Nat.le_div_iff_mul_le h.cs).mpr e1
        have : (e - 1) / g.cs / g.Y.m = (e - 1) / g.slbas := by
          rw [Nat.div_div_eq_div_mul, slbas_eq, Nat.mul_comm]
        rw [← this]
        exact Nat.div_le_div_right e2
      rcases recoverAll_zero h dec (u := u) (e := e) ex
        (fun d => if rs.any fun r => r.disk == d then res d else .ok)
        ((e - 1) / g.slbas - u / g.slbas + 1) (u / g.slbas) (rs.map fill).flatten
        (fun s k1 k2 => wanted_of h hue k1 (by omega))
        (by
          rw [hlen]
          apply Nat.mul_le_mul_right
          have := Nat.div_mul_le_self u g.slbas
          omega) with ⟨i1, -⟩ | ⟨d, n, i1, i2⟩
      · exfalso
        have := i1 (c / g.Y.m) hs1 (by omega) (c % g.Y.m) hcm2
        rw [← hdisk, hany, if_pos rfl] at this
        exact hne this
      · by_cases hd : rs.any (fun r => r.disk == d) = true
        · rw [if_pos hd] at i1
          obtain ⟨r', hr', hrd⟩ := List.any_eq_true.mp hd
          rw [beq_iff_eq] at hrd
          refine ⟨r', hr', n, by rw [hrd]; exact i1, i2⟩
        · rw [if_neg hd] at i1
          cases i1
    · intro hall
      rw [List.all_eq_true] at hall
      have := hall (pieceRead g u e c).disk (List.mem_range.mpr (by
        rw [hdisk]; exact h.layout.disk_lt _ _ (by omega)))
      rw [hany, if_pos rfl] at this
      exact hne (isErr_false (by simpa using this))

end Verif.Raid
