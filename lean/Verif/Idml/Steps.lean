import Verif.Idml.Lemmas

namespace Verif.Idml

open Verif.Bytes (Byte Buf lbaBytes)
open Verif.Ddml (Err Res Compression PBA DRP Env Pool readRec encode inExtent getDirect blocks u32Max
  Fresh pad Apart decompress encode_facts blocks_pos read_congr read_write_same take_pad encode_some)
open Verif (OMap)

variable {V : Type} {en : Env V} {s : State V} {k : Client V}

/-- Changes that leave the tables and the contents of records alone. -/
theorem Core.frame (i : Core en s k) (c : Nat → Option V) (n : Nat) (f : PBA → Buf)
    (hc : ∀ rid w, c rid = some w → k.held.get rid = some w) (hn : s.next ≤ n)
    (hf : ∀ q, (∃ e ∈ s.pool.live, inExtent q e = true) → f q = s.pool.block q) :
    Core en { s with cache := c, next := n, pool := { s.pool with block := f } } k where
  sorted := i.sorted
  keyed := i.keyed
  entry := by
    intro rid e h
    obtain ⟨v, b, h1, h2, h3⟩ := i.entry rid e h
    refine ⟨v, b, h1, h2, ?_⟩
    rw [← h3]
    apply read_congr
    intro q hq
    exact hf q ⟨_, (i.live _).2 ⟨rid, e, h, rfl⟩, hq⟩
  back := i.back
  ref := i.ref
  bound := fun rid e h => Nat.lt_of_lt_of_le (i.bound rid e h) hn
  issued := fun r hr => Nat.lt_of_lt_of_le (i.issued r hr) hn
  cache := hc
  live := i.live
  nodup := i.nodup
  apart := i.apart
  fwd := i.fwd

theorem Inv.frame (i : Inv en s k) (c : Nat → Option V) (n : Nat)
    (hc : ∀ rid w, c rid = some w → k.held.get rid = some w) (hn : s.next ≤ n) :
    Inv en { s with cache := c, next := n } k :=
  ⟨i.core.frame c n s.pool.block hc hn fun _ _ => rfl, i.bwd⟩

/-- Reading a record through the table. -/
theorem Core.fetchOk (g : en.Good) (i : Core en s k) {dk : Disk} (hd : dk.Faithful) {rid : Nat}
    {e : Entry} (h : s.ridt.get rid = some e) {v : V} (hv : k.held.get rid = some v) :
    getDirect en e.drp (dk.rd s.pool e.drp) (dk.rl s.pool e.drp) = .ok v ∨
    ∃ p d x, dk.rd p d = .error x ∧
      getDirect en e.drp (dk.rd s.pool e.drp) (dk.rl s.pool e.drp) = .err x := by
  obtain ⟨v', b, h1, h2, h3⟩ := i.entry rid e h
  rw [hv] at h1
  injection h1 with h1
  subst h1
  rcases hd s.pool e.drp with hr | ⟨x, hr⟩
  · left
    rw [hr, h3]
    exact h2.read g _
  · right
    refine ⟨_, _, x, hr, ?_⟩
    rw [hr]
    rfl

/-- Moving one record succeeds without device errors, keeps the invariant and the ids, and puts the
record at an address the allocator chose. -/
theorem Core.moveRecord (i : Core en s k) {dk : Disk} (hd : dk.Faithful)
    (hn : dk.NoError) (z : PBA × Nat)
    (hw : ∀ p n pba, dk.wr p n = .ok pba → Fresh p pba n ∧ inExtent pba z = false)
    {rid : Nat} {e : Entry} (h : s.ridt.get rid = some e) :
    ∃ d s', moveRecord en dk s rid = (s', .ok ()) ∧ Core en s' k ∧
      inExtent d.pba z = false ∧
      (∀ r, s'.ridt.get r = if r = rid then some { e with drp := d } else s.ridt.get r) ∧
      (∀ p, s'.alloct.get p = if p = d.pba then some rid else s.alloct.get p) ∧
      (∀ r e', s.ridt.get r = some e' → e'.drp.pba ≠ d.pba) := by
  obtain ⟨v, b, hv, hs, hr⟩ := i.entry rid e h
  -- what is fetched
  have hfetch : ∃ keep, fetch en dk s rid e = .ok (b, keep) ∧
      (keep = false → e.drp.compressed = false) := by
    have hmiss : getDirect (raw en) e.drp.asUncompressed (dk.rd s.pool e.drp.asUncompressed)
        (dk.rl s.pool e.drp.asUncompressed) = .ok b := by
      rcases hd s.pool e.drp.asUncompressed with h1 | ⟨x, h1⟩
      · rw [h1]
        have : s.pool.read e.drp.asUncompressed.pba e.drp.asUncompressed.asize = pad b := hr
        rw [this]
        exact hs.readRaw _
      · exact absurd h1 (hn.1 _ _ _)
    unfold fetch
    simp only [hmiss]
    cases hc : e.drp.compressed with
    | true => exact ⟨true, by simp, by simp⟩
    | false =>
      simp only [Bool.false_eq_true, if_false]
      cases hcc : s.cache rid with
      | none => exact ⟨true, rfl, by simp⟩
      | some t =>
        refine ⟨false, ?_, by simp⟩
        have := i.cache rid t hcc
        rw [hv] at this
        injection this with this
        subst this
        rcases hs.decode with ⟨_, h2⟩ | ⟨h1, _⟩
        · simp [h2]
        · rw [hc] at h1; cases h1
  obtain ⟨keep, hfe, hkeep⟩ := hfetch
  obtain ⟨mk, hmk, hmk2⟩ := encode_raw en hs.short
  cases hwr : dk.wr s.pool (blocks b.length) with
  | error x => exact absurd hwr (hn.2 _ _ _)
  | ok pba =>
    obtain ⟨hf, hz⟩ := hw _ _ _ hwr
    let d : DRP := if keep then (mk pba).intoCompressed e.drp else mk pba
    have hdp : d.pba = pba := by
      simp only [d, hmk2]
      cases keep <;> rfl
    have hds : Stores en d v b := by
      refine ⟨?_, ?_, ?_, hs.ne, hs.short⟩
      · simp only [d, hmk2]; cases keep <;> rfl
      · simp only [d, hmk2]; cases keep <;> rfl
      · cases hk : keep with
        | true =>
          have hdec := hs.decode
          simpa [d, hmk2, hk, DRP.intoCompressed] using hdec
        | false =>
          left
          refine ⟨by simp [d, hmk2, hk], ?_⟩
          rcases hs.decode with ⟨_, h2⟩ | ⟨h1, _⟩
          · exact h2
          · rw [hkeep hk] at h1; cases h1
    have hpos : 0 < blocks b.length := by rw [← hs.asize]; exact hs.pos
    have hfree : (s.pool.write b pba).free e.drp.pba e.drp.asize =
        some { s.pool.write b pba with
          live := ((pba, blocks b.length) :: s.pool.live).erase (e.drp.pba, e.drp.asize) } := by
      apply if_pos
      show _ ∈ (pba, blocks b.length) :: s.pool.live
      exact List.mem_cons_of_mem _ ((i.live _).2 ⟨rid, e, h, rfl⟩)
    have hcore := i.move h hv hds (by rw [hdp]; exact hf)
    rw [hdp] at hcore
    refine ⟨d, _, ?_, hcore, by rw [hdp]; exact hz, ?_, ?_, ?_⟩
    · unfold Idml.moveRecord
      have hdp' : (if keep then (mk pba).intoCompressed e.drp else mk pba).pba = pba := hdp
      simp only [h, hfe, hmk, hwr, hfree, hdp']
      rfl
    · intro r; simp only [OMap.get_insert]
    · intro p; simp only [AMap.get_insert, hdp]
    · intro r e' h'
      rw [hdp]
      exact Apart.pba_ne (i.fresh h' hf) (i.pos h') hpos

/-- Moving a list of records. -/
theorem Core.moveAll {dk : Disk} (hd : dk.Faithful)
    (hn : dk.NoError) (z : PBA × Nat)
    (hw : ∀ p n pba, dk.wr p n = .ok pba → Fresh p pba n ∧ inExtent pba z = false)
    (l : List Nat) : ∀ (s : State V), Core en s k → Bwd s z →
    l.Nodup → (∀ r ∈ l, ∃ e, s.ridt.get r = some e ∧ inExtent e.drp.pba z = true) →
    (∀ r e, s.ridt.get r = some e → inExtent e.drp.pba z = true → r ∈ l) →
    ∃ s', moveAll en dk s l = (s', .ok ()) ∧ Core en s' k ∧ Bwd s' z ∧
      ∀ r e, s'.ridt.get r = some e → inExtent e.drp.pba z = false := by
  induction l with
  | nil =>
    intro s i hb _ _ h2
    refine ⟨s, rfl, i, hb, ?_⟩
    intro r e hr
    cases hx : inExtent e.drp.pba z with
    | false => rfl
    | true => cases h2 r e hr hx
  | cons rid rest ih =>
    intro s i hb h0 h1 h2
    obtain ⟨e, he, hez⟩ := h1 rid (by simp)
    rw [List.nodup_cons] at h0
    obtain ⟨d, s', hm, hc, hz, hr, ha, hne⟩ := i.moveRecord hd hn z hw he
    suffices hh : Bwd s' z ∧ (∀ r ∈ rest, ∃ e, s'.ridt.get r = some e ∧ inExtent e.drp.pba z = true) ∧
        ∀ r e, s'.ridt.get r = some e → inExtent e.drp.pba z = true → r ∈ rest by
      obtain ⟨s'', h3, h4⟩ := ih s' hc hh.1 h0.2 hh.2.1 hh.2.2
      refine ⟨s'', ?_, h4⟩
      simp only [Idml.moveAll, hm]
      exact h3
    refine ⟨?_, ?_, ?_⟩
    · intro p r hp hpz
      rw [ha] at hp
      split at hp
      · rename_i hpd
        injection hp with hp
        subst hp
        exact ⟨_, by rw [hr, if_pos rfl], hpd.symm⟩
      · obtain ⟨e', h5, h6⟩ := hb p r hp hpz
        by_cases hrr : r = rid
        · subst hrr
          rw [he] at h5
          injection h5 with h5
          subst h5
          rw [h6, hpz] at hez
          cases hez
        · exact ⟨e', by rw [hr, if_neg hrr]; exact h5, h6⟩
    · intro r hr'
      obtain ⟨e', h5⟩ := h1 r (by simp [hr'])
      have hrr : r ≠ rid := fun x => h0.1 (by rw [← x]; exact hr')
      rw [hr, if_neg hrr]
      exact ⟨e', h5⟩
    · intro r e' h5 h6
      rw [hr] at h5
      split at h5
      · injection h5 with h5
        subst h5
        rw [hz] at h6
        cases h6
      · rename_i hrr
        have := h2 r e' h5 h6
        rcases List.mem_cons.1 this with h7 | h7
        · exact absurd h7 hrr
        · exact h7

theorem Inv.cleanZone {dk : Disk} (i : Inv en s k) (hd : dk.Faithful) (hn : dk.NoError)
    (z : PBA × Nat)
    (hw : ∀ p n pba, dk.wr p n = .ok pba → Fresh p pba n ∧ inExtent pba z = false) :
    ∃ s', cleanZone en dk s z = (s', .ok ()) ∧ Inv en s' k ∧
      ∀ r e, s'.ridt.get r = some e → inExtent e.drp.pba z = false := by
  have c := i.core
  have hin : ∀ p r, (p, r) ∈ s.alloct.range z →
      ∃ e, s.ridt.get r = some e ∧ e.drp.pba = p ∧ inExtent p z = true := by
    intro p r h
    obtain ⟨h1, h2⟩ := List.mem_filter.1 h
    obtain ⟨e, h3, h4⟩ := i.bwd p r (AMap.get_of_mem c.keyed h1)
    exact ⟨e, h3, h4, h2⟩
  have hnd : ((s.alloct.range z).map Prod.snd).Nodup := by
    rw [List.nodup_iff_pairwise_ne, List.pairwise_map]
    refine List.Pairwise.imp_of_mem ?_ (c.keyed.filter fun x => inExtent x.1 z)
    intro x y hx hy hxy he
    obtain ⟨e1, a1, a2, _⟩ := hin x.1 x.2 hx
    obtain ⟨e2, b1, b2, _⟩ := hin y.1 y.2 hy
    rw [he, b1] at a1
    injection a1 with a1
    subst a1
    exact hxy (by rw [← a2, ← b2])
  obtain ⟨s', h1, h2, h3, h4⟩ := Core.moveAll hd hn z hw ((s.alloct.range z).map Prod.snd) s c
    (fun p r hp _ => i.bwd p r hp) hnd (by
      intro r hr
      obtain ⟨x, hx, rfl⟩ := List.mem_map.1 hr
      obtain ⟨e, a1, a2, a3⟩ := hin x.1 x.2 hx
      exact ⟨e, a1, by rw [a2]; exact a3⟩) (by
      intro r e he hz
      have := AMap.mem_of_get (c.fwd r e he)
      exact List.mem_map.2 ⟨_, List.mem_filter.2 ⟨this, hz⟩, rfl⟩)
  refine ⟨{ s' with alloct := s'.alloct.rangeDelete z }, ?_, ⟨?_, ?_⟩, h4⟩
  · simp only [Idml.cleanZone, h1]
  · refine ⟨h2.sorted, h2.keyed.filter _, h2.entry, h2.back, h2.ref, h2.bound, h2.issued, h2.cache,
      h2.live, h2.nodup, h2.apart, ?_⟩
    intro r e he
    simp only [AMap.get_rangeDelete]
    rw [h4 r e he]
    exact h2.fwd r e he
  · intro p r hp
    simp only [AMap.get_rangeDelete] at hp
    split at hp
    · cases hp
    · rename_i hz
      exact h3 p r hp (by simpa using hz)

theorem Inv.init (blk : PBA → Buf) : Inv en (create blk) ⟨[], []⟩ := by
  refine ⟨⟨List.Pairwise.nil, List.Pairwise.nil, ?_, ?_, ?_, ?_, ?_, ?_, ?_, List.nodup_nil, ?_, ?_⟩, ?_⟩ <;>
    simp [create, OMap.get, AMap.get]

/-- What `get` and the cached or direct part of `pop` deliver. -/
theorem Inv.lookup (g : en.Good) (i : Inv en s k) {dk : Disk} (hd : dk.Faithful) {rid : Nat}
    {e : Entry} (h : s.ridt.get rid = some e) :
    ∃ v, k.held.get rid = some v ∧ (∀ w, s.cache rid = some w → w = v) ∧
      (getDirect en e.drp (dk.rd s.pool e.drp) (dk.rl s.pool e.drp) = .ok v ∨
       ∃ p d x, dk.rd p d = .error x ∧
        getDirect en e.drp (dk.rd s.pool e.drp) (dk.rl s.pool e.drp) = .err x) := by
  obtain ⟨v, b, hv, _, _⟩ := i.core.entry rid e h
  refine ⟨v, hv, ?_, i.core.fetchOk g hd h hv⟩
  intro w hw
  have := i.core.cache rid w hw
  rw [hv] at this
  injection this with this
  exact this.symm

theorem setCache_none {c : Nat → Option V} {r q : Nat} {w : V} (hq : setCache c r none q = some w) :
    c q = some w := by
  unfold setCache at hq
  split at hq
  · cases hq
  · exact hq

theorem held_none (i : Inv en s k) {rid : Nat} (h : s.ridt.get rid = none) :
    k.held.get rid = none := by
  cases hh : k.held.get rid with
  | none => rfl
  | some v =>
    obtain ⟨e, he⟩ := i.core.back rid v hh
    rw [h] at he
    cases he

theorem Inv.step (g : en.Good) (i : Inv en s k) (dk : Disk) (op : Op V) (hv : Valid en dk k op)
    (hf : Faithful dk s op) (hx : NoFailure dk op) :
    Inv en (step en dk s op).1 (k.next op (step en dk s op).2) ∧
      Expected k dk op (step en dk s op).2 := by
  cases op with
  | put v c =>
    obtain ⟨h1, h2, h3⟩ := hv
    obtain ⟨b, mk, he⟩ := encode_some (en := en) (c := c) h2
    have hp : ∀ p, (mk p).pba = p := fun p => (encode_facts g he p).1
    have hn : 0 < blocks b.length := by
      rw [← (stores_encode g he h1 ⟨0, 0⟩).asize]; exact (stores_encode g he h1 _).pos
    have hi := i.frame s.cache (s.next + 1) i.core.cache (Nat.le_succ _)
    cases hw : dk.wr s.pool (blocks b.length) with
    | error e =>
      simp only [Idml.step, Idml.put, he, hw, Client.next]
      exact ⟨hi, Or.inr ⟨_, _, e, hw, rfl⟩⟩
    | ok pba =>
      have hfr := h3 _ _ _ hw
      have ha : s.alloct.get (mk pba).pba = none := by
        rw [hp]; exact i.alloct_fresh hn hfr
      have hr : s.ridt.get s.next = none := by
        cases h : s.ridt.get s.next with
        | none => rfl
        | some e => exact absurd (i.core.bound _ _ h) (Nat.lt_irrefl _)
      simp only [Idml.step, Idml.put, he, hw, ha, hr, Option.isSome_none, Bool.false_eq_true,
        or_self, if_false, Client.next]
      refine ⟨i.put g he h1 hfr, Or.inl ⟨_, rfl, ?_⟩⟩
      intro hm
      exact absurd (i.core.issued _ hm) (Nat.lt_irrefl _)
  | get rid =>
    simp only [Idml.step, Idml.get, Client.next]
    cases hc : s.cache rid with
    | some v =>
      refine ⟨i, _, rfl, ?_⟩
      simp only [Finds, i.core.cache rid v hc]
      exact Or.inl trivial
    | none =>
      cases hr : s.ridt.get rid with
      | none =>
        refine ⟨i, _, rfl, ?_⟩
        simp only [Finds, held_none i hr]
      | some e =>
        obtain ⟨v, h1, h2, h3⟩ := i.lookup g hf hr
        rcases h3 with h3 | ⟨p, d, x, h3, h4⟩
        · simp only [h3]
          refine ⟨i.frame _ _ ?_ (Nat.le_refl _), _, rfl, ?_⟩
          · intro r w hw
            simp only [setCache] at hw
            split at hw
            · rename_i hrr; rw [hrr, ← hw]; exact h1
            · exact i.core.cache r w hw
          · simp only [Finds, h1]; exact Or.inl trivial
        · simp only [h4]
          refine ⟨i, _, rfl, ?_⟩
          simp only [Finds, h1]
          exact Or.inr ⟨p, d, x, h3, rfl⟩
  | delete rid =>
    have hv : (k.held.get rid).isSome := hv
    obtain ⟨v, hv⟩ := Option.isSome_iff_exists.1 hv
    obtain ⟨e, he⟩ := i.core.back rid v hv
    have href := i.core.ref rid e he
    simp only [Idml.step, Idml.delete, he, href, Nat.sub_self, if_true, i.core.freed he,
      i.core.fwd rid e he, Option.isSome_some, Client.next]
    exact ⟨i.remove he, rfl⟩
  | pop rid a b =>
    have hf : dk.Faithful := hf
    have hx : dk.NoError := hx
    simp only [Idml.step, Idml.pop]
    cases hr : s.ridt.get rid with
    | none =>
      refine ⟨i, _, rfl, ?_⟩
      simp only [Finds, held_none i hr]
    | some e =>
      have href := i.core.ref rid e hr
      obtain ⟨v, h1, h2, h3⟩ := i.lookup g hf hr
      have h3 : getDirect en e.drp (dk.rd s.pool e.drp) (dk.rl s.pool e.drp) = .ok v := by
        rcases h3 with h3 | ⟨p, d, x, h3, h4⟩
        · exact h3
        · exact absurd h3 (hx.1 _ _ _)
      have hm : ∀ n, cachedOrDirect en dk s rid { e with refcount := n } = .ok v := by
        intro n
        unfold cachedOrDirect
        cases hc : s.cache rid with
        | some w => rw [h2 w hc]
        | none => exact h3
      simp only [href, Nat.sub_self, if_true, hm, i.core.freed hr, i.core.fwd rid e hr,
        Option.isSome_some, Client.next]
      refine ⟨i.remove hr, _, rfl, ?_⟩
      simp only [Finds, h1]
      exact Or.inl trivial
  | clean z =>
    obtain ⟨s', h1, h2, _⟩ := i.cleanZone hf hx z hv
    simp only [Idml.step, h1, Client.next]
    exact ⟨h2, rfl⟩
  | evict rid =>
    exact ⟨i.frame _ _ (fun r w hw => i.core.cache r w (setCache_none hw)) (Nat.le_refl _), trivial⟩
  | reopen => exact ⟨i.frame _ _ (fun r w hw => by cases hw) (Nat.le_refl _), trivial⟩
  | disturb f =>
    exact ⟨⟨i.core.frame _ _ f i.core.cache (Nat.le_refl _) hf, i.bwd⟩, trivial⟩

theorem reach_inv (g : en.Good) (r : Reach en s k) : Inv en s k := by
  induction r with
  | create blk => exact Inv.init blk
  | step dk op _ hv hf hx ih => exact (ih.step g dk op hv hf hx).1

end Verif.Idml
