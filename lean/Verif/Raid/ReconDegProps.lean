import Verif.Raid.ReconQueue

/-!
# C62, C13: reads of any range from a degraded array
-/

namespace Verif.Raid

open Verif.Bytes Verif.Codec

variable {g : Geom}

/-- The disks hold the data `F` in `T` stripes from stripe `Z` on, with its parity. -/
structure OnDisks (g : Geom) (D : Disks) (Z T : Nat) (F : Buf) : Prop where
  len : T * g.stripe ≤ F.length
  chunk : ∀ t < T, ∀ b < g.Y.k, seen g D (Z + t) b = some (column g (F.drop (t * g.stripe)) b)

/-- What reads from the disks leave in the buffers: `res` tells which disks succeed.  A disk that
succeeds returns what it holds, one that fails may leave anything. -/
structure Answers (D : Disks) (res : Nat → Res) (fill : CR → Buf) : Prop where
  len : ∀ r, (fill r).length = r.len
  good : ∀ r x, res r.disk = .ok → D.read r = some x → fill r = x

/-- The failed disks among those of the first `n` chunks of stripe `s`. -/
def failedIn (g : Geom) (res : Nat → Res) (s n : Nat) : Nat :=
  (List.range n).countP fun b => (res (g.Y.disk s b)).isErr

theorem nErr_failedIn (res : Nat → Res) (s n : Nat) :
    nErr ((List.range n).map fun b => res (g.Y.disk s b)) = failedIn g res s n := by
  unfold nErr failedIn
  rw [List.countP_map]
  rfl

theorem OnDisks.stripe {D : Disks} {Z T : Nat} {F : Buf} (hD : OnDisks g D Z T F)
    {res : Nat → Res} {fill : CR → Buf} (hA : Answers D res fill) {t : Nat} (ht : t < T) :
    Stripe g (F.drop (t * g.stripe)) (gotAt g fill (Z + t)) fun b => res (g.Y.disk (Z + t) b) := by
  refine ⟨?_, fun b _ => hA.len _, fun b hb hr => hA.good _ _ hr (hD.chunk t ht b hb)⟩
  have : (t + 1) * g.stripe ≤ T * g.stripe := Nat.mul_le_mul_right _ ht
  rw [Nat.add_mul, Nat.one_mul] at this
  have := hD.len
  rw [List.length_drop]
  omega

theorem recoverStripe_spec (h : g.Lawful) {f : Nat} (hf : g.Y.k = g.Y.m + f) (hk : g.Y.k ≤ 256)
    (hE : g.enc = codecEnc g.Y.m f g.col) {invert : Nat → Mat → Option Mat} (hI : Inverts invert)
    {y : Buf} {got : Nat → Buf} {res : Nat → Res} (hs : Stripe g y got res) {u e : Nat}
    (hr : InStripe g u e) {w : Nat} (hw : w ≤ f) (tail : List Buf) :
    (nErr ((List.range (g.Y.m + w)).map res) ≤ w ∧
      recoverStripe g w (codecDec invert g.Y.m f) u (usersB g.col (lo g u) (hi g u e) got 0 g.Y.m)
        (exsB g.col (lo g u) (hi g u e) got 0 (g.Y.m + w) ++ tail) res = .ok (wanted g u e y)) ∨
    (w < nErr ((List.range (g.Y.m + w)).map res) ∧ ∃ b < g.Y.m + w, ∃ n, res b = .err n ∧
      recoverStripe g w (codecDec invert g.Y.m f) u (usersB g.col (lo g u) (hi g u e) got 0 g.Y.m)
        (exsB g.col (lo g u) (hi g u e) got 0 (g.Y.m + w) ++ tail) res = .err n) := by
  by_cases hn : nErr ((List.range (g.Y.m + w)).map res) ≤ w
  · left
    refine ⟨hn, ?_⟩
    have := reconstruct_ok h hf hk hE hI hs.data hr (got := got)
      (v := (List.range (g.Y.m + w)).map res) (by simp; omega) (by simp; omega)
      (fun i hi => by
        simp only [List.length_map, List.length_range] at hi
        exact hs.len i (by omega))
      (fun i hi he => by
        simp only [List.length_map, List.length_range] at hi
        rw [errAt_range hi] at he
        exact hs.good i (by omega) (isErr_false he)) tail
    simp only [List.length_map, List.length_range] at this
    exact this
  · right
    refine ⟨by omega, ?_⟩
    unfold recoverStripe reconstruct
    rw [disksNeeded_none h.layout.m_pos (by simp; omega)]
    obtain ⟨n, e1, e2⟩ := firstErr_spec (v := (List.range (g.Y.m + w)).map res) (by omega)
    obtain ⟨b, hb, hbe⟩ := List.mem_map.mp e2
    exact ⟨b, List.mem_range.mp hb, n, hbe, e1⟩

theorem recoverAll_spec (h : g.Lawful) {f : Nat} (hf : g.Y.k = g.Y.m + f) (hk : g.Y.k ≤ 256)
    (hE : g.enc = codecEnc g.Y.m f g.col) {invert : Nat → Mat → Option Mat} (hI : Inverts invert)
    {w : Nat} (hw : w ≤ f) {u e : Nat} {y : Nat → Buf} {fill : CR → Buf} {res R : Nat → Res}
    {ex : Nat → List Buf} : ∀ (n s0 : Nat),
    (∀ s, s0 ≤ s → s < s0 + n → Wanted g u e s ∧
      Stripe g (y s) (gotAt g fill s) (fun b => res (g.Y.disk s b)) ∧
      (∀ b < g.Y.m + w, R (g.Y.disk s b) = res (g.Y.disk s b)) ∧
      ∃ tail, ex s = exsB g.col (lo g (us g u s)) (hi g (us g u s) (es g e s)) (gotAt g fill s) 0
        (g.Y.m + w) ++ tail) →
    ((∀ s, s0 ≤ s → s < s0 + n → failedIn g res s (g.Y.m + w) ≤ w) ∧
      recoverAll g w (codecDec invert g.Y.m f) u e ex R (List.range' s0 n)
        ((List.range' s0 n).flatMap fun s => usersB g.col (lo g (us g u s))
          (hi g (us g u s) (es g e s)) (gotAt g fill s) 0 g.Y.m) =
        .ok ((List.range' s0 n).flatMap fun s => wanted g (us g u s) (es g e s) (y s))) ∨
    ((∃ s, s0 ≤ s ∧ s < s0 + n ∧ w < failedIn g res s (g.Y.m + w)) ∧ ∃ d k, res d = .err k ∧
      recoverAll g w (codecDec invert g.Y.m f) u e ex R (List.range' s0 n)
        ((List.range' s0 n).flatMap fun s => usersB g.col (lo g (us g u s))
          (hi g (us g u s) (es g e s)) (gotAt g fill s) 0 g.Y.m) = .err k) := by
  have hmk := h.layout.m_lt
  intro n
  induction n with
  | zero =>
    intro s0 _
    left
    exact ⟨fun s h1 h2 => by omega, rfl⟩
  | succ n ih =>
    intro s0 hall
    obtain ⟨hw0, hs0, hR0, tail, htail⟩ := hall s0 (Nat.le_refl _) (by omega)
    have ih := ih (s0 + 1) (fun s h1 h2 => hall s (by omega) (by omega))
    have hin := hw0.inStripe h
    have hlen := users_length h hin (fun j hj => hs0.len j (by omega))
    have hn : (min e ((s0 + 1) * g.slbas) - max u (s0 * g.slbas)) * g.bpl =
        hi g (us g u s0) (es g e s0) - lo g (us g u s0) := (hi_sub_lo hin).symm
    rw [List.range'_succ, List.flatMap_cons]
    unfold recoverAll
    dsimp only
    rw [hn, List.take_left' hlen, List.drop_left' hlen, if_neg (by rw [List.length_append]; omega), htail]
    have hst := recoverStripe_spec h hf hk hE hI hs0 hin hw tail
    have hRR : recoverStripe g w (codecDec invert g.Y.m f) (max u (s0 * g.slbas))
        (usersB g.col (lo g (us g u s0)) (hi g (us g u s0) (es g e s0)) (gotAt g fill s0) 0 g.Y.m)
        (exsB g.col (lo g (us g u s0)) (hi g (us g u s0) (es g e s0)) (gotAt g fill s0) 0
          (g.Y.m + w) ++ tail) (fun b => R (g.Y.disk s0 b)) =
        recoverStripe g w (codecDec invert g.Y.m f) (us g u s0)
        (usersB g.col (lo g (us g u s0)) (hi g (us g u s0) (es g e s0)) (gotAt g fill s0) 0 g.Y.m)
        (exsB g.col (lo g (us g u s0)) (hi g (us g u s0) (es g e s0)) (gotAt g fill s0) 0
          (g.Y.m + w) ++ tail) (fun b => res (g.Y.disk s0 b)) := by
      unfold recoverStripe
      congr 1
      apply List.map_congr_left
      intro b hb
      exact hR0 b (List.mem_range.mp hb)
    rw [hRR]
    rw [nErr_failedIn] at hst
    rcases hst with ⟨e1, e2⟩ | ⟨e1, b, hb, k, e2, e3⟩
    · rw [e2]
      rcases ih with ⟨f1, f2⟩ | ⟨⟨s, g1, g2, g3⟩, d, k, f2, f3⟩
      · left
        refine ⟨?_, by rw [f2]; rfl⟩
        intro s h1 h2
        rcases Nat.eq_or_lt_of_le h1 with rfl | h3
        · exact e1
        · exact f1 s (by omega) (by omega)
      · right
        exact ⟨⟨s, by omega, by omega, g3⟩, d, k, f2, by rw [f3]⟩
    · rw [e3]
      right
      refine ⟨⟨s0, by omega, by omega, e1⟩, _, k, e2, ?_⟩
      rcases ih with ⟨f1, f2⟩ | ⟨-, d, k, f2, f3⟩
      · rw [f2]
      · rw [f3]

/-- The caller's parts of the stripes make up the range. -/
theorem wanted_all (h : g.Lawful) {Z : Nat} {F : Buf} {u e : Nat} (hZ : Z * g.slbas ≤ u) : ∀ (n s0 : Nat), Z ≤ s0 →
    (∀ s, s0 ≤ s → s < s0 + n → Wanted g u e s) →
    ((List.range' s0 n).flatMap fun s => wanted g (us g u s) (es g e s) (F.drop ((s - Z) * g.stripe))) =
      (F.drop ((max u (s0 * g.slbas) - Z * g.slbas) * g.bpl)).take
        ((min e ((s0 + n) * g.slbas) - max u (s0 * g.slbas)) * g.bpl) := by
  intro n
  induction n with
  | zero =>
    intro s0 _ _
    rw [Nat.add_zero, show min e (s0 * g.slbas) - max u (s0 * g.slbas) = 0 by omega]
    simp
  | succ n ih =>
    intro s0 hs hall
    have hw := hall s0 (Nat.le_refl _) (by omega)
    have hin := hw.inStripe h
    have hbase := hw.base h
    rw [List.range'_succ, List.flatMap_cons, ih (s0 + 1) (by omega) (fun s h1 h2 =>
      hall s (by omega) (by omega))]
    have hsZ : s0 * g.slbas = (s0 - Z) * g.slbas + Z * g.slbas := by
      rw [← Nat.add_mul]; congr 1; omega
    have hone : wanted g (us g u s0) (es g e s0) (F.drop ((s0 - Z) * g.stripe)) =
        (F.drop ((max u (s0 * g.slbas) - Z * g.slbas) * g.bpl)).take
          ((es g e s0 - us g u s0) * g.bpl) := by
      unfold wanted
      rw [List.drop_drop]
      congr 2
      rw [stripe_eq, ← Nat.mul_assoc, ← Nat.add_mul]
      congr 1
      have : us g u s0 % g.slbas = us g u s0 - s0 * g.slbas := by
        have := Nat.mod_le (us g u s0) g.slbas
        omega
      rw [this]
      unfold us
      omega
    rw [hone]
    rcases Nat.eq_zero_or_pos n with rfl | hpos
    · have hes : es g e s0 = min e ((s0 + 1) * g.slbas) := rfl
      have e0 : min e ((s0 + 1 + 0) * g.slbas) - max u ((s0 + 1) * g.slbas) = 0 := by
        rw [Nat.add_zero]; omega
      rw [e0, Nat.zero_mul, List.take_zero, List.append_nil, hes]
      rfl
    · have hw' := hall (s0 + 1) (by omega) (by omega)
      have hes : es g e s0 = (s0 + 1) * g.slbas := by
        have := hw'.stop
        unfold es; omega
      have hmax : max u ((s0 + 1) * g.slbas) = (s0 + 1) * g.slbas := by
        have := hw.start; omega
      have hlt := hin.lt
      rw [hes] at hlt ⊢
      rw [hmax]
      have hend : (s0 + 1) * g.slbas ≤ min e ((s0 + 1 + n) * g.slbas) := by
        have h1 := hw'.stop
        have h2 : (s0 + 1) * g.slbas ≤ (s0 + 1 + n) * g.slbas := Nat.mul_le_mul_right _ (by omega)
        omega
      have hus : us g u s0 = max u (s0 * g.slbas) := rfl
      have hge : Z * g.slbas ≤ max u (s0 * g.slbas) := by omega
      rw [show s0 + (n + 1) = s0 + 1 + n by omega, hus]
      generalize max u (s0 * g.slbas) = a at *
      generalize (s0 + 1) * g.slbas = b at *
      generalize min e ((s0 + 1 + n) * g.slbas) = c at *
      have e1 : (c - a) * g.bpl = (b - a) * g.bpl + (c - b) * g.bpl := by
        rw [← Nat.add_mul]; congr 1; omega
      have e2 : (b - Z * g.slbas) * g.bpl = (a - Z * g.slbas) * g.bpl + (b - a) * g.bpl := by
        rw [← Nat.add_mul]; congr 1; omega
      rw [e1, List.take_add, List.drop_drop, e2]

theorem mem_slots {w u e last : Nat} {tl : Nat → Option CR} (hwk : g.Y.m + w ≤ g.Y.k) {s0 n s b : Nat}
    (h1 : s0 ≤ s) (h2 : s < s0 + n) (hb : b < g.Y.m + w) :
    (((List.range' s0 n).flatMap (slotsOf g w u e last tl)).any fun x => x.read.disk == g.Y.disk s b) =
      true := by
  rw [List.any_eq_true]
  refine ⟨⟨s * g.Y.k + b, place g (s * g.Y.k + b), bufsAt g u e (s * g.Y.k + b)⟩, ?_, ?_⟩
  · apply List.mem_flatMap.mpr
    refine ⟨s, by rw [List.mem_range'_1]; omega, ?_⟩
    rw [slotsOf_split hwk]
    apply List.mem_append_left
    exact List.mem_map.mpr ⟨b, by rw [List.mem_range'_1]; omega, rfl⟩
  · obtain ⟨e1, e2⟩ := div_pos' (k := g.Y.k) (s := s) (b := b) (by omega)
    unfold place posDisk
    dsimp only
    rw [e1, e2, beq_iff_eq]

/-- Every stripe of the range is wanted. -/
theorem wanted_of (h : g.Lawful) {u e s : Nat} (hue : u < e) (h1 : u / g.slbas ≤ s)
    (h2 : s ≤ (e - 1) / g.slbas) : Wanted g u e s := by
  have hp := slbas_pos h
  refine ⟨hue, ?_, ?_⟩
  · have e1 := Nat.lt_div_mul_add (a := u) hp
    have e2 : (u / g.slbas + 1) * g.slbas ≤ (s + 1) * g.slbas := Nat.mul_le_mul_right _ (by omega)
    rw [Nat.add_mul, Nat.one_mul] at e2
    omega
  · have e1 := Nat.div_mul_le_self (e - 1) g.slbas
    have e2 : s * g.slbas ≤ (e - 1) / g.slbas * g.slbas := Nat.mul_le_mul_right _ h2
    omega

/-- C62: a read of several stripes from an array with absent disks never panics.  It returns the
data, whatever the failed disks left in the buffers, if in each of the stripes at most `min nf f`
of the disks it reads from failed, and otherwise the error of a disk. -/
theorem C62_read_multi_degraded (h : g.Lawful) {f : Nat} (hf : g.Y.k = g.Y.m + f) (hk : g.Y.k ≤ 256)
    (hE : g.enc = codecEnc g.Y.m f g.col) {invert : Nat → Mat → Option Mat} (hI : Inverts invert)
    {D : Disks} {Z T : Nat} {F : Buf} (hD : OnDisks g D Z T F) {res : Nat → Res} {fill : CR → Buf}
    (hA : Answers D res fill) {u e : Nat} (hue : u < e) (hZ : Z * g.slbas ≤ u)
    (hT : e ≤ (Z + T) * g.slbas) (hmulti : u / g.slbas < (e - 1) / g.slbas) (nf : Nat) :
    ((∀ s, u / g.slbas ≤ s → s ≤ (e - 1) / g.slbas →
        failedIn g res s (g.Y.m + min nf f) ≤ min nf f) ∧
      readAtMultiDeg g f (codecDec invert g.Y.m f) nf u e fill res =
        .ok ((F.drop ((u - Z * g.slbas) * g.bpl)).take ((e - u) * g.bpl))) ∨
    ((∃ s, u / g.slbas ≤ s ∧ s ≤ (e - 1) / g.slbas ∧
        min nf f < failedIn g res s (g.Y.m + min nf f)) ∧
      ∃ d n, res d = .err n ∧
        readAtMultiDeg g f (codecDec invert g.Y.m f) nf u e fill res = .err n) := by
  have hp := slbas_pos h
  have hk0 : 0 < g.Y.k := by have := h.layout.m_lt; omega
  have hwf : min nf f ≤ f := by omega
  generalize hw : min nf f = w at *
  have hwk : g.Y.m + w ≤ g.Y.k := by omega
  generalize hs0 : u / g.slbas = s0 at *
  generalize hlast : (e - 1) / g.slbas = last at *
  have hwant : ∀ s, s0 ≤ s → s < s0 + (last - s0 + 1) → Wanted g u e s := by
    intro s h1 h2
    exact wanted_of h hue (by omega) (by omega)
  have hmul : (u / g.slbas + 1) * g.slbas < e := by
    rw [hs0]
    have := (hwant (s0 + 1) (by omega) (by omega)).stop
    exact this
  -- the stripes are within the zone
  have hsZ : ∀ s, s0 ≤ s → s < s0 + (last - s0 + 1) → Z ≤ s ∧ s - Z < T := by
    intro s h1 h2
    have hZs : Z ≤ s0 := by rw [← hs0]; exact (Nat.le_div_iff_mul_le hp).mpr hZ
    have hTs : last < Z + T := by
      rw [← hlast, Nat.div_lt_iff_lt_mul hp]; omega
    omega
  have hstripe : ∀ s, s0 ≤ s → s < s0 + (last - s0 + 1) →
      Stripe g (F.drop ((s - Z) * g.stripe)) (gotAt g fill s) fun b => res (g.Y.disk s b) := by
    intro s h1 h2
    obtain ⟨h3, h4⟩ := hsZ s h1 h2
    have := hD.stripe hA h4
    rw [show Z + (s - Z) = s by omega] at this
    exact this
  -- the reads
  obtain ⟨tl, htl⟩ := degReads_eq h (w := w) hmul ((last - s0) * g.Y.k + g.Y.m + w) (s0 * g.Y.k)
    ((e - u) * g.bpl) (fun _ => none)
    (by
      intro x h1 h2
      apply hwant
      · exact (Nat.le_div_iff_mul_le hk0).mpr h1
      · rw [Nat.div_lt_iff_lt_mul hk0]
        have : (s0 + (last - s0 + 1)) * g.Y.k = s0 * g.Y.k + (last - s0) * g.Y.k + g.Y.k := by
          rw [← Nat.add_assoc, Nat.add_mul, Nat.add_mul, Nat.one_mul]
        omega)
    (by
      intro _
      obtain ⟨e1, e2⟩ := div_pos' (k := g.Y.k) (s := s0) (b := 0) hk0
      rw [Nat.add_zero] at e1 e2
      have hw0 := hwant s0 (by omega) (by omega)
      have hlt := (hw0.inStripe h).lt
      rw [e1, e2]
      unfold leftAt
      rw [leftB_zero h (hw0.inStripe h), ← Nat.add_mul]
      congr 1
      have hu : s0 * g.slbas ≤ u := by rw [← hs0]; exact Nat.div_mul_le_self _ _
      unfold us es at *
      omega)
    (by intro d x hx; cases hx)
  have hpos := positions_stripes (g := g) (w := w) (s := s0) (last := last) (by omega)
  have hslots : (List.range' (s0 * g.Y.k) ((last - s0) * g.Y.k + g.Y.m + w)).filterMap
      (slotAt g w u e tl) = (List.range' s0 (last - s0 + 1)).flatMap (slotsOf g w u e last tl) := by
    rw [hpos, List.filterMap_flatMap]
    rfl
  rw [hslots] at htl
  -- the data
  have hdata : (((List.range' s0 (last - s0 + 1)).flatMap (slotsOf g w u e last tl)).map
      fun x => (slotBytes fill x).1).flatten =
      (List.range' s0 (last - s0 + 1)).flatMap fun s => usersB g.col (lo g (us g u s))
          (hi g (us g u s) (es g e s)) (gotAt g fill s) 0 g.Y.m := by
    have : ∀ l : List Nat, (∀ s ∈ l, Wanted g u e s) →
        ((l.flatMap (slotsOf g w u e last tl)).map fun x => (slotBytes fill x).1).flatten =
        l.flatMap fun s => usersB g.col (lo g (us g u s))
          (hi g (us g u s) (es g e s)) (gotAt g fill s) 0 g.Y.m := by
      intro l
      induction l with
      | nil => intro _; rfl
      | cons s l ih =>
        intro hl
        rw [List.flatMap_cons, List.flatMap_cons, List.map_append, List.flatten_append,
          ih (fun s hs => hl s (List.mem_cons_of_mem _ hs)),
          (slotsOf_bytes h hwk (hl s List.mem_cons_self) hmul hA.len).1]
    apply this
    intro s hs
    rw [List.mem_range'_1] at hs
    exact hwant s hs.1 hs.2
  have hall := wanted_all h (F := F) hZ (last - s0 + 1) s0 (hsZ s0 (by omega) (by omega)).1 hwant
  have hu : max u (s0 * g.slbas) = u := by
    have : s0 * g.slbas ≤ u := by rw [← hs0]; exact Nat.div_mul_le_self _ _
    omega
  have hend : min e ((s0 + (last - s0 + 1)) * g.slbas) = e := by
    have h1 := Nat.lt_div_mul_add (a := e - 1) hp
    rw [hlast] at h1
    have : (s0 + (last - s0 + 1)) * g.slbas = last * g.slbas + g.slbas := by
      rw [show s0 + (last - s0 + 1) = last + 1 by omega, Nat.add_mul, Nat.one_mul]
    omega
  rw [hu, hend] at hall
  have hR : ∀ s, s0 ≤ s → s < s0 + (last - s0 + 1) → ∀ b < g.Y.m + w,
      diskRes ((List.range' s0 (last - s0 + 1)).flatMap (slotsOf g w u e last tl)) res
        (g.Y.disk s b) = res (g.Y.disk s b) := by
    intro s h1 h2 b hb
    unfold diskRes
    rw [mem_slots hwk h1 h2 hb, if_pos rfl]
  unfold readAtMultiDeg degPositions
  dsimp only
  rw [hw, hs0, hlast, htl]
  dsimp only
  simp only [slotBytes] at hdata
  rw [hdata]
  split
  · -- no disk failed
    rename_i hok
    left
    refine ⟨?_, ?_⟩
    · intro s h1 h2
      have : failedIn g res s (g.Y.m + w) = 0 := by
        unfold failedIn
        rw [List.countP_eq_zero]
        intro b hb
        have hb := List.mem_range.mp hb
        rw [List.all_eq_true] at hok
        have := hok (g.Y.disk s b) (List.mem_range.mpr (h.layout.disk_lt _ _ (by omega)))
        rw [hR s h1 (by omega) b hb] at this
        simpa using this
      omega
    congr 1
    rw [← hall]
    have : ∀ l : List Nat, (∀ s ∈ l, s0 ≤ s ∧ s < s0 + (last - s0 + 1)) →
        (l.flatMap fun s => usersB g.col (lo g (us g u s))
          (hi g (us g u s) (es g e s)) (gotAt g fill s) 0 g.Y.m) =
        l.flatMap fun s => wanted g (us g u s) (es g e s) (F.drop ((s - Z) * g.stripe)) := by
      intro l hl
      simp only [List.flatMap]
      congr 1
      apply List.map_congr_left
      intro s hs
      obtain ⟨h1, h2⟩ := hl s hs
      have hst := hstripe s h1 h2
      apply users_all h ((hwant s h1 h2).inStripe h) hst.data
      intro j hj
      apply hst.good j (by omega)
      rw [List.all_eq_true] at hok
      have := hok (g.Y.disk s j) (List.mem_range.mpr (h.layout.disk_lt _ _ (by omega)))
      rw [hR s h1 h2 j (by omega)] at this
      exact isErr_false (by simpa using this)
    apply this
    intro s hs
    rw [List.mem_range'_1] at hs
    exact hs
  · rcases recoverAll_spec h hf hk hE hI hwf (u := u) (e := e)
      (y := fun s => F.drop ((s - Z) * g.stripe)) (fill := fill) (res := res)
      (R := diskRes ((List.range' s0 (last - s0 + 1)).flatMap (slotsOf g w u e last tl)) res)
      (ex := fun s => ((((List.range' s0 (last - s0 + 1)).flatMap (slotsOf g w u e last tl)).filter
        fun x => x.pos / g.Y.k == s).map fun x => (fillBufs x.bufs (fill x.read)).2).flatten)
      (last - s0 + 1) s0 (by
        intro s h1 h2
        refine ⟨hwant s h1 h2, hstripe s h1 h2, hR s h1 h2, ?_⟩
        rw [filter_stripe hwk h1 h2]
        exact (slotsOf_bytes h hwk (hwant s h1 h2) hmul hA.len).2) with ⟨h1, h2⟩ | ⟨h1, d, n, h2, h3⟩
    · left
      exact ⟨fun s k1 k2 => h1 s k1 (by omega), by rw [h2, hall]⟩
    · right
      obtain ⟨s, k1, k2, k3⟩ := h1
      exact ⟨⟨s, k1, by omega, k3⟩, d, n, h2, h3⟩

end Verif.Raid
