import Verif.Ddml.Lemmas

namespace Verif.Ddml

open Verif.Bytes (Byte Buf lbaBytes)

variable {V : Type} {en : Env V} {s : State V} {h : Held V}

theorem perm_filter {h : Held V} {d : DRP} {v : V} (hu : h.Pairwise fun x y => x.1 ≠ y.1)
    (hm : (d, v) ∈ h) : h.Perm ((d, v) :: h.filter fun x => x.1 ≠ d) := by
  induction h with
  | nil => cases hm
  | cons z t ih =>
    rw [List.pairwise_cons] at hu
    rcases List.mem_cons.1 hm with rfl | hm'
    · have : (List.filter (fun x : DRP × V => decide (x.1 ≠ d)) ((d, v) :: t)) = t := by
        rw [List.filter_cons_of_neg (by simp)]
        apply List.filter_eq_self.2
        intro x hx
        simpa using fun e => hu.1 x hx e.symm
      rw [this]
    · have hz : z.1 ≠ d := hu.1 _ hm'
      rw [List.filter_cons_of_pos (by simpa using hz)]
      exact ((ih hu.2 hm').cons z).trans (List.Perm.swap _ _ _)

theorem Inv.distinct (g : en.Good) (i : Inv en s h) : h.Pairwise fun x y => x.1 ≠ y.1 := by
  apply List.Pairwise.imp_of_mem _ i.apart
  intro x y hx hy ha e
  have px := i.asize_pos g hx
  have h1 := ha x.1.pba (by simp [inExtent, ext]; omega)
  have e2 : ext y = ext x := by simp [ext, e]
  rw [e2] at h1
  simp [inExtent, ext] at h1
  omega

theorem Inv.free (g : en.Good) (i : Inv en s h) {d : DRP} {v : V} (hm : (d, v) ∈ h) :
    ∃ p, s.pool.free d.pba d.asize = some p ∧ p.block = s.pool.block ∧
      p.live.Perm ((h.filter fun x => x.1 ≠ d).map ext) := by
  have hl : (d.pba, d.asize) ∈ s.pool.live :=
    i.live.mem_iff.2 (List.mem_map.2 ⟨(d, v), hm, rfl⟩)
  refine ⟨_, if_pos hl, rfl, ?_⟩
  show (s.pool.live.erase (d.pba, d.asize)).Perm _
  have p1 := (i.live.trans ((perm_filter (i.distinct g) hm).map ext))
  have p2 := p1.erase (d.pba, d.asize)
  simpa [ext] using p2

/-- Forgetting a record and its cache entry keeps the invariant. -/
theorem Inv.remove (i : Inv en s h) {d : DRP} {p : Pool}
    (hp : p.live.Perm ((h.filter fun x => x.1 ≠ d).map ext)) (c : PBA → Option V)
    (hc : ∀ q w, c q = some w → s.cache q = some w ∧ q ≠ d.pba) :
    Inv en { cache := c, pool := p } (h.filter fun x => x.1 ≠ d) where
  live := hp
  apart := i.apart.sublist List.filter_sublist
  written := fun x hx => i.written x (List.mem_filter.1 hx).1
  cached := by
    intro q w hq
    obtain ⟨h1, h2⟩ := hc q w hq
    obtain ⟨x, hx, e, hv⟩ := i.cached q w h1
    refine ⟨x, List.mem_filter.2 ⟨hx, ?_⟩, e, hv⟩
    simp only [decide_eq_true_eq]
    intro e2
    exact h2 (by rw [← e, e2])

theorem Good.remove (i : Good en s h) {d : DRP} {p : Pool}
    (hb : p.block = s.pool.block)
    (hp : p.live.Perm ((h.filter fun x => x.1 ≠ d).map ext)) (c : PBA → Option V)
    (hc : ∀ q w, c q = some w → s.cache q = some w ∧ q ≠ d.pba) :
    Good en { cache := c, pool := p } (h.filter fun x => x.1 ≠ d) where
  inv := i.inv.remove hp c hc
  data := by
    intro x hx
    obtain ⟨b, h1, h2⟩ := i.data x (List.mem_filter.1 hx).1
    refine ⟨b, h1, ?_⟩
    rw [← h2]
    exact read_congr fun q _ => by rw [hb]
  cached := by
    intro q w hq
    obtain ⟨h1, h2⟩ := hc q w hq
    obtain ⟨x, hx, e, hv⟩ := i.cached q w h1
    refine ⟨x, List.mem_filter.2 ⟨hx, ?_⟩, e, hv⟩
    simp only [decide_eq_true_eq]
    intro e2
    exact h2 (by rw [← e, e2])

theorem setCache_none {c : PBA → Option V} {k q : PBA} {w : V} (hq : setCache c k none q = some w) :
    c q = some w ∧ q ≠ k := by
  unfold setCache at hq
  split at hq
  · cases hq
  · exact ⟨hq, by assumption⟩

theorem live_apart {p : Pool} {hl : p.live.Perm (h.map ext)} {pba : PBA} {n : Nat}
    (hf : Fresh p pba n) : ∀ x ∈ h, Apart (ext x) (pba, n) := by
  intro x hx q hq
  exact hf _ (hl.mem_iff.2 (List.mem_map_of_mem hx)) q hq

/-- Storing a record. -/
theorem Inv.put (g : en.Good) (i : Inv en s h) {v : V} {c : Compression} {b : Buf}
    {mk : PBA → DRP} {pba : PBA} (he : encode en c v = some (b, mk)) (hne : en.ser v ≠ [])
    (hf : Fresh s.pool pba (blocks b.length)) :
    Inv en { cache := setCache s.cache pba (some v), pool := s.pool.write b pba }
      ((mk pba, v) :: h) := by
  obtain ⟨f1, f2, f3, f4, f5, f6⟩ := encode_facts g he pba
  have hw : Written en (mk pba) v b := ⟨c, mk, he, by rw [f1]⟩
  have ha := live_apart (hl := i.live) hf
  have hext : ext (mk pba, v) = (pba, blocks b.length) := by
    simp [ext, DRP.asize, f1, f2]
  refine ⟨?_, ?_, ?_, ?_⟩
  · show ((pba, blocks b.length) :: s.pool.live).Perm _
    rw [List.map_cons, hext]
    exact i.live.cons _
  · refine List.pairwise_cons.2 ⟨?_, i.apart⟩
    intro x hx
    rw [hext]
    exact (ha x hx).symm
  · intro x hx
    rcases List.mem_cons.1 hx with rfl | hx
    · exact ⟨b, hw, f6 hne⟩
    · exact i.written x hx
  · intro q w hq
    simp only [setCache] at hq
    split at hq
    · rename_i e
      injection hq with hq
      subst hq
      exact ⟨_, List.mem_cons_self, by simp [f1, e], verified_written g hw⟩
    · obtain ⟨x, hx, y⟩ := i.cached q w hq
      exact ⟨x, by simp [hx], y⟩

theorem Good.put (g : en.Good) (i : Good en s h) {v : V} {c : Compression} {b : Buf}
    {mk : PBA → DRP} {pba : PBA} (he : encode en c v = some (b, mk)) (hne : en.ser v ≠ [])
    (hf : Fresh s.pool pba (blocks b.length)) :
    Good en { cache := setCache s.cache pba (some v), pool := s.pool.write b pba }
      ((mk pba, v) :: h) := by
  obtain ⟨f1, f2, f3, f4, f5, f6⟩ := encode_facts g he pba
  have hw : Written en (mk pba) v b := ⟨c, mk, he, by rw [f1]⟩
  have ha := live_apart (hl := i.inv.live) hf
  refine ⟨i.inv.put g he hne hf, ?_, ?_⟩
  · intro x hx
    rcases List.mem_cons.1 hx with rfl | hx
    · refine ⟨b, hw, ?_⟩
      show (s.pool.write b pba).read (mk pba).pba (blocks (mk pba).csize) = _
      rw [f1, f2]
      exact read_write_same _ _ _
    · obtain ⟨b', h1, h2⟩ := i.data x hx
      refine ⟨b', h1, ?_⟩
      rw [← h2]
      apply read_congr
      intro q hq
      show (if inExtent q (pba, blocks b.length) then _ else _) = _
      rw [ha x hx q hq]
      rfl
  · intro q w hq
    simp only [setCache] at hq
    split at hq
    · rename_i e
      injection hq with hq
      exact ⟨_, List.mem_cons_self, by simp [f1, e], hq⟩
    · obtain ⟨x, hx, y⟩ := i.cached q w hq
      exact ⟨x, by simp [hx], y⟩

theorem encode_some {v : V} {c : Compression} (hl : (en.ser v).length < u32Max) :
    ∃ b mk, encode en c v = some (b, mk) := by
  unfold encode
  rw [if_pos hl]
  exact ⟨_, _, rfl⟩

theorem fresh_pba (g : en.Good) (i : Inv en s h) {pba : PBA} {n : Nat} (hn : 0 < n)
    (hf : Fresh s.pool pba n) : ∀ x ∈ h, x.1.pba ≠ pba := by
  intro x hx e
  have px := i.asize_pos g hx
  have := live_apart (hl := i.live) hf x hx pba (by simp [inExtent, ext, e]; omega)
  simp [inExtent] at this
  omega

/-- Every valid call, whatever the devices answer, keeps the invariant. -/
theorem Inv.step (g : en.Good) (i : Inv en s h) (op : Op V) (hv : Valid en s h op) :
    Inv en (step en s op).1 (h.next op (step en s op).2) := by
  cases op with
  | put v c wr =>
    obtain ⟨h1, h2, h3⟩ := hv
    obtain ⟨b, mk, he⟩ := encode_some (en := en) (c := c) h2
    cases wr with
    | error e => simpa [Ddml.step, Ddml.put, he, Held.next] using i
    | ok pba =>
      simpa [Ddml.step, Ddml.put, he, Held.next] using i.put g he h1 (h3 pba b mk rfl he)
  | get d rd rl =>
    obtain ⟨v, hm⟩ := hv
    simp only [Ddml.step, Ddml.get, Held.next]
    split
    · exact i
    · split
      · rename_i w hw
        refine ⟨i.live, i.apart, i.written, ?_⟩
        intro q u hq
        simp only [setCache] at hq
        split at hq
        · rename_i e
          injection hq with hq
          subst hq
          exact ⟨_, hm, e.symm, getDirect_verified hw⟩
        · exact i.cached q u hq
      · exact i
  | pop d rd rl =>
    obtain ⟨v, hm⟩ := hv
    obtain ⟨p, hp, hb, hl⟩ := i.free g hm
    simp only [Ddml.step, Ddml.pop]
    split
    · rename_i w hw
      simp only [hp, Held.next]
      exact i.remove hl _ fun q u hq => setCache_none hq
    · rename_i hw
      simp only [popDirect, hp]
      split
      · simp only [Held.next]
        refine i.remove hl _ fun q u hq => ⟨hq, ?_⟩
        intro e
        rw [e, hw] at hq
        cases hq
      · rename_i hg
        cases hr : getDirect en d rd rl with
        | ok a => exact absurd hr (hg a)
        | err e => simp only [Held.next]; exact i
        | panic => simp only [Held.next]; exact i
  | delete d =>
    obtain ⟨v, hm⟩ := hv
    obtain ⟨p, hp, hb, hl⟩ := i.free g hm
    simp only [Ddml.step, Ddml.delete, hp, Held.next]
    exact i.remove hl _ fun q u hq => setCache_none hq
  | evict p =>
    refine ⟨i.live, i.apart, i.written, ?_⟩
    intro q w hq
    exact i.cached q w (setCache_none hq).1
  | disturb f => exact ⟨i.live, i.apart, i.written, i.cached⟩

theorem getDirect_good (g : en.Good) (i : Good en s h) {d : DRP} {v : V} (hm : (d, v) ∈ h)
    {rd : Except Err Buf} {rl : Except Err (List Buf)}
    (hf : rd = .ok (s.pool.read d.pba d.asize) ∨ ∃ e, rd = .error e) :
    getDirect en d rd rl = .ok v ∨ ∃ e, rd = .error e ∧ getDirect en d rd rl = .err e := by
  rcases hf with rfl | ⟨e, rfl⟩
  · left
    obtain ⟨b, h1, h2⟩ := i.data _ hm
    have h2 : s.pool.read d.pba d.asize = pad b := h2
    unfold getDirect
    rw [h2, readRec_written g h1]
    simp [g.ser]
  · exact Or.inr ⟨e, rfl, rfl⟩

/-- With faithful devices, contents are kept too. -/
theorem Good.step (g : en.Good) (i : Good en s h) (op : Op V) (hv : Valid en s h op)
    (hf : Faithful s op) : Good en (step en s op).1 (h.next op (step en s op).2) := by
  have hi := i.inv.step g op hv
  cases op with
  | put v c wr =>
    obtain ⟨h1, h2, h3⟩ := hv
    obtain ⟨b, mk, he⟩ := encode_some (en := en) (c := c) h2
    cases wr with
    | error e => simpa [Ddml.step, Ddml.put, he, Held.next] using i
    | ok pba =>
      simpa [Ddml.step, Ddml.put, he, Held.next] using i.put g he h1 (h3 pba b mk rfl he)
  | get d rd rl =>
    refine ⟨hi, ?_, ?_⟩
    · intro x hx
      have : (Ddml.step en s (.get d rd rl)).1.pool = s.pool := by
        simp only [Ddml.step, Ddml.get]
        split
        · rfl
        · split <;> rfl
      rw [this]
      exact i.data x (by simpa [Held.next] using hx)
    · obtain ⟨v, hm⟩ := hv
      simp only [Ddml.step, Ddml.get, Held.next]
      split
      · exact i.cached
      · rcases getDirect_good g i hm (rl := rl) hf with e | ⟨e, _, e2⟩
        · simp only [e]
          intro q u hq
          simp only [setCache] at hq
          split at hq
          · rename_i e
            injection hq with hq
            exact ⟨_, hm, e.symm, hq⟩
          · exact i.cached q u hq
        · simp only [e2]
          exact i.cached
  | pop d rd rl =>
    obtain ⟨v, hm⟩ := hv
    obtain ⟨p, hp, hb, hl⟩ := i.inv.free g hm
    simp only [Ddml.step, Ddml.pop]
    split
    · rename_i w hw
      simp only [hp, Held.next]
      exact i.remove hb hl _ fun q u hq => setCache_none hq
    · rename_i hw
      simp only [popDirect, hp]
      split
      · simp only [Held.next]
        refine i.remove hb hl _ fun q u hq => ⟨hq, ?_⟩
        intro e
        rw [e, hw] at hq
        cases hq
      · rename_i hg
        cases hr : getDirect en d rd rl with
        | ok a => exact absurd hr (hg a)
        | err e => simp only [Held.next]; exact i
        | panic => simp only [Held.next]; exact i
  | delete d =>
    obtain ⟨v, hm⟩ := hv
    obtain ⟨p, hp, hb, hl⟩ := i.inv.free g hm
    simp only [Ddml.step, Ddml.delete, hp, Held.next]
    exact i.remove hb hl _ fun q u hq => setCache_none hq
  | evict p =>
    refine ⟨hi, i.data, ?_⟩
    intro q w hq
    exact i.cached q w (setCache_none hq).1
  | disturb f =>
    refine ⟨hi, ?_, i.cached⟩
    intro x hx
    obtain ⟨b, h1, h2⟩ := i.data x hx
    refine ⟨b, h1, ?_⟩
    rw [← h2]
    apply read_congr
    intro q hq
    exact hf q ⟨_, i.inv.live.mem_iff.2 (List.mem_map_of_mem hx), hq⟩

theorem inv_init (blk : PBA → Buf) : Inv en (init blk) [] :=
  ⟨by simp [init], List.Pairwise.nil, by simp, by simp [init]⟩

theorem good_init (blk : PBA → Buf) : Good en (init blk) [] :=
  ⟨inv_init blk, by simp, by simp [init]⟩

theorem reach_inv {F : State V → Op V → Prop} (g : en.Good) (r : Reach en F s h) :
    Inv en s h := by
  induction r with
  | init blk => exact inv_init blk
  | step op _ hv _ ih => exact ih.step g op hv

theorem reach_good (g : en.Good) (r : Reach en Faithful s h) : Good en s h := by
  induction r with
  | init blk => exact good_init blk
  | step op _ hv hf ih => exact ih.step g op hv hf

end Verif.Ddml
