import Verif.Idml.Spec
import Verif.Ddml.Steps

namespace Verif.Idml

open Verif.Bytes (Byte Buf lbaBytes)
open Verif.Ddml (Err Res Compression PBA DRP Env Pool readRec encode inExtent getDirect blocks u32Max
  Fresh pad Apart decompress encode_facts blocks_pos read_congr read_write_same take_pad)
open Verif (OMap)

variable {V : Type}

/-! ## The AllocT as a map -/

theorem AMap.get_filter (m : AMap) (p : PBA → Bool) (q : PBA) :
    AMap.get (m.filter fun x => p x.1) q = if p q then AMap.get m q else none := by
  induction m with
  | nil => simp [AMap.get]
  | cons e m ih =>
    obtain ⟨a, r⟩ := e
    simp only [List.filter_cons]
    split
    · simp only [AMap.get, ih]; grind
    · simp only [AMap.get, ih]; grind

theorem AMap.get_remove (m : AMap) (p q : PBA) :
    AMap.get (m.remove p) q = if q = p then none else AMap.get m q := by
  have := AMap.get_filter m (fun x => decide (x ≠ p)) q
  simp only [AMap.remove, this]
  grind

theorem AMap.get_insert (m : AMap) (p : PBA) (r : Nat) (q : PBA) :
    AMap.get (m.insert p r) q = if q = p then some r else AMap.get m q := by
  simp only [AMap.insert, AMap.get, AMap.get_remove]
  grind

theorem AMap.get_rangeDelete (m : AMap) (z : PBA × Nat) (q : PBA) :
    AMap.get (m.rangeDelete z) q = if inExtent q z then none else AMap.get m q := by
  have := AMap.get_filter m (fun x => ! inExtent x z) q
  simp only [AMap.rangeDelete, this]
  grind

theorem AMap.mem_of_get {m : AMap} {p : PBA} {r : Nat} (h : AMap.get m p = some r) :
    (p, r) ∈ m := by
  induction m with
  | nil => cases h
  | cons e m ih =>
    obtain ⟨a, x⟩ := e
    simp only [AMap.get] at h
    grind

/-- Each key occurs once. -/
def AMap.Keyed (m : AMap) : Prop := m.Pairwise fun x y => x.1 ≠ y.1

theorem AMap.get_of_mem {m : AMap} (hk : m.Keyed) {p : PBA} {r : Nat} (h : (p, r) ∈ m) :
    AMap.get m p = some r := by
  induction m with
  | nil => cases h
  | cons e m ih =>
    obtain ⟨a, x⟩ := e
    have hk := List.pairwise_cons.1 hk
    simp only [AMap.get]
    rcases List.mem_cons.1 h with e | h
    · simp only [Prod.mk.injEq] at e; simp [e.1, e.2]
    · have := hk.1 _ h
      rw [if_neg this]
      exact ih hk.2 h

theorem AMap.Keyed.filter {m : AMap} (h : m.Keyed) (p : PBA × Nat → Bool) :
    AMap.Keyed (m.filter p) := h.sublist List.filter_sublist

theorem AMap.Keyed.insert {m : AMap} (h : m.Keyed) (p : PBA) (r : Nat) :
    (m.insert p r).Keyed := by
  refine List.pairwise_cons.2 ⟨?_, h.filter _⟩
  intro x hx
  have := (List.mem_filter.1 hx).2
  simp only [decide_eq_true_eq] at this
  exact fun e => this e.symm

/-! ## What a pointer stores -/

/-- The pointer `d` is to bytes `b`, which decode to `v`. -/
structure Stores (en : Env V) (d : DRP) (v : V) (b : Buf) : Prop where
  csize : d.csize = b.length
  checksum : d.checksum = en.hash b
  decode : (d.compressed = false ∧ b = en.ser v) ∨
    (d.compressed = true ∧ decompress en.cd b d.lsize = .ok (en.ser v))
  ne : b ≠ []
  short : b.length < u32Max

theorem Stores.asize {en : Env V} {d : DRP} {v : V} {b : Buf} (h : Stores en d v b) :
    d.asize = blocks b.length := by
  show blocks d.csize = _
  rw [h.csize]

theorem Stores.pos {en : Env V} {d : DRP} {v : V} {b : Buf} (h : Stores en d v b) :
    0 < d.asize := by
  rw [h.asize]; exact blocks_pos (List.length_pos_iff.2 h.ne)

theorem Stores.read {en : Env V} (g : en.Good) {d : DRP} {v : V} {b : Buf} (h : Stores en d v b)
    (rl : Except Err (List Buf)) : getDirect en d (.ok (pad b)) rl = .ok v := by
  unfold getDirect readRec
  simp only [h.csize, take_pad, h.checksum, if_true]
  rcases h.decode with ⟨h1, h2⟩ | ⟨h1, h2⟩
  · simp [h1, h2, g.ser]
  · simp [h1, h2, g.ser]

theorem Stores.readRaw {en : Env V} {d : DRP} {v : V} {b : Buf} (h : Stores en d v b)
    (rl : Except Err (List Buf)) : getDirect (raw en) d.asUncompressed (.ok (pad b)) rl = .ok b := by
  unfold getDirect readRec
  simp [DRP.asUncompressed, h.csize, take_pad, h.checksum, raw]

theorem encode_short {en : Env V} {c : Compression} {v : V} {b : Buf}
    {mk : PBA → DRP} (h : encode en c v = some (b, mk)) : b.length < u32Max := by
  unfold encode at h
  dsimp only at h
  split at h
  · rename_i hlen
    rcases Ddml.compress_cases en.cd c (en.ser v) with e | ⟨x, t, hx, ht, hc, e, hlt⟩
    · simp only [e, Option.some.injEq, Prod.mk.injEq] at h
      rw [← h.1]; exact hlen
    · simp only [e, Option.some.injEq, Prod.mk.injEq] at h
      rw [← h.1]
      unfold blocks lbaBytes at hlt
      omega
  · cases h

theorem stores_encode {en : Env V} (g : en.Good) {c : Compression} {v : V} {b : Buf}
    {mk : PBA → DRP} (h : encode en c v = some (b, mk)) (hne : en.ser v ≠ []) (p : PBA) :
    Stores en (mk p) v b := by
  obtain ⟨f1, f2, f3, f4, f5, f6⟩ := encode_facts g h p
  exact ⟨f2, f3, f5, f6 hne, encode_short h⟩

theorem encode_raw (en : Env V) {b : Buf} (h : b.length < u32Max) :
    ∃ mk, encode (raw en) .none b = some (b, mk) ∧
      ∀ p, mk p = ⟨p, false, b.length, b.length, en.hash b⟩ := by
  have e : b.length % 2 ^ 32 = b.length := Nat.mod_eq_of_lt (by unfold u32Max at h; omega)
  refine ⟨fun p => ⟨p, false, b.length, b.length, en.hash b⟩, ?_, fun _ => rfl⟩
  simp [encode, raw, h, Compression.compress, Compression.isCompressed, e]

/-! ## The invariant -/

def ext (e : Entry) : PBA × Nat := (e.drp.pba, e.drp.asize)

/-- Everything but the direction from addresses to ids. -/
structure Core (en : Env V) (s : State V) (k : Client V) : Prop where
  sorted : s.ridt.Sorted
  keyed : s.alloct.Keyed
  entry : ∀ rid e, s.ridt.get rid = some e → ∃ v b, k.held.get rid = some v ∧
    Stores en e.drp v b ∧ s.pool.read e.drp.pba e.drp.asize = pad b
  back : ∀ rid v, k.held.get rid = some v → ∃ e, s.ridt.get rid = some e
  ref : ∀ rid e, s.ridt.get rid = some e → e.refcount = 1
  bound : ∀ rid e, s.ridt.get rid = some e → rid < s.next
  issued : ∀ r ∈ k.issued, r < s.next
  cache : ∀ rid w, s.cache rid = some w → k.held.get rid = some w
  live : ∀ x, x ∈ s.pool.live ↔ ∃ rid e, s.ridt.get rid = some e ∧ x = ext e
  nodup : s.pool.live.Nodup
  apart : ∀ r1 r2 e1 e2, s.ridt.get r1 = some e1 → s.ridt.get r2 = some e2 → r1 ≠ r2 →
    Apart (ext e1) (ext e2)
  fwd : ∀ rid e, s.ridt.get rid = some e → s.alloct.get e.drp.pba = some rid

/-- Addresses outside the zone `z` lead back. -/
def Bwd (s : State V) (z : PBA × Nat) : Prop :=
  ∀ p rid, s.alloct.get p = some rid → inExtent p z = false →
    ∃ e, s.ridt.get rid = some e ∧ e.drp.pba = p

structure Inv (en : Env V) (s : State V) (k : Client V) : Prop where
  core : Core en s k
  bwd : ∀ p rid, s.alloct.get p = some rid → ∃ e, s.ridt.get rid = some e ∧ e.drp.pba = p

theorem inExtent_self {p : PBA} {n : Nat} (h : 0 < n) : inExtent p (p, n) = true := by
  simp [inExtent]; omega

theorem Core.pos {en : Env V} {s : State V} {k : Client V} (i : Core en s k) {rid : Nat} {e : Entry}
    (h : s.ridt.get rid = some e) : 0 < e.drp.asize := by
  obtain ⟨v, b, _, hs, _⟩ := i.entry rid e h
  exact hs.pos

/-- A fresh extent is apart from every record. -/
theorem Core.fresh {en : Env V} {s : State V} {k : Client V} (i : Core en s k) {rid : Nat}
    {e : Entry} (h : s.ridt.get rid = some e) {pba : PBA} {n : Nat} (hf : Fresh s.pool pba n) :
    Apart (ext e) (pba, n) :=
  fun q hq => hf _ ((i.live _).2 ⟨rid, e, h, rfl⟩) q hq

theorem Apart.pba_ne {e : Entry} {p : PBA} {n : Nat} (h : Apart (ext e) (p, n))
    (he : 0 < e.drp.asize) (hn : 0 < n) : e.drp.pba ≠ p := by
  intro x
  have := h e.drp.pba (inExtent_self he)
  rw [x, inExtent_self hn] at this
  cases this

theorem Apart.ne {e : Entry} {x : PBA × Nat} (h : Apart (ext e) x)
    (he : 0 < e.drp.asize) : ext e ≠ x := by
  intro y
  rw [← y] at h
  have := h e.drp.pba (inExtent_self he)
  rw [show ext e = (e.drp.pba, e.drp.asize) from rfl, inExtent_self he] at this
  cases this

theorem Core.pba_ne {en : Env V} {s : State V} {k : Client V} (i : Core en s k) {r1 r2 : Nat}
    {e1 e2 : Entry} (h1 : s.ridt.get r1 = some e1) (h2 : s.ridt.get r2 = some e2) (hr : r1 ≠ r2) :
    e1.drp.pba ≠ e2.drp.pba :=
  Apart.pba_ne (i.apart r1 r2 e1 e2 h1 h2 hr) (i.pos h1) (i.pos h2)

theorem Core.ext_ne {en : Env V} {s : State V} {k : Client V} (i : Core en s k) {r1 r2 : Nat}
    {e1 e2 : Entry} (h1 : s.ridt.get r1 = some e1) (h2 : s.ridt.get r2 = some e2) (hr : r1 ≠ r2) :
    ext e1 ≠ ext e2 :=
  Apart.ne (i.apart r1 r2 e1 e2 h1 h2 hr) (i.pos h1)

theorem Core.inj {en : Env V} {s : State V} {k : Client V} (i : Core en s k) {r1 r2 : Nat}
    {e1 e2 : Entry} (h1 : s.ridt.get r1 = some e1) (h2 : s.ridt.get r2 = some e2)
    (he : ext e1 = ext e2) : r1 = r2 := by
  by_cases hr : r1 = r2
  · exact hr
  · exact absurd he (i.ext_ne h1 h2 hr)

/-! ## Storing -/

theorem Core.put {en : Env V} (g : en.Good) {s : State V} {k : Client V} (i : Core en s k)
    {v : V} {c : Compression} {b : Buf} {mk : PBA → DRP} {pba : PBA}
    (he : encode en c v = some (b, mk)) (hne : en.ser v ≠ [])
    (hf : Fresh s.pool pba (blocks b.length)) :
    Core en { s with
        next := s.next + 1
        alloct := s.alloct.insert (mk pba).pba s.next
        ridt := s.ridt.insert s.next (Entry.new (mk pba))
        pool := s.pool.write b pba
        cache := setCache s.cache s.next (some v) }
      { held := k.held.insert s.next v, issued := s.next :: k.issued } := by
  have hs := stores_encode g he hne pba
  have hp : (mk pba).pba = pba := (encode_facts g he pba).1
  have hn : 0 < blocks b.length := by rw [← hs.asize]; exact hs.pos
  have hex : ext (Entry.new (mk pba)) = (pba, blocks b.length) := by
    simp [ext, Entry.new, hp, hs.asize]
  have hnew : ∀ rid e, s.ridt.get rid = some e → rid ≠ s.next := by
    intro rid e h1 h2
    have := i.bound rid e h1
    omega
  have hap : ∀ rid e, s.ridt.get rid = some e → Apart (ext e) (pba, blocks b.length) :=
    fun rid e h => i.fresh h hf
  refine ⟨i.sorted.insert _ _, i.keyed.insert _ _, ?_, ?_, ?_, ?_, ?_, ?_, ?_, ?_, ?_, ?_⟩
  · intro rid e h
    simp only [OMap.get_insert] at h ⊢
    split at h
    · rename_i hr
      injection h with h
      subst h
      refine ⟨v, b, by simp [hr], hs, ?_⟩
      show (s.pool.write b pba).read (mk pba).pba (mk pba).asize = _
      rw [hp, hs.asize]
      exact read_write_same _ _ _
    · rename_i hr
      obtain ⟨v', b', h1, h2, h3⟩ := i.entry rid e h
      refine ⟨v', b', by simp [hr, h1], h2, ?_⟩
      rw [← h3]
      apply read_congr
      intro q hq
      show (if inExtent q (pba, blocks b.length) then _ else _) = _
      rw [hap rid e h q hq]
      rfl
  · intro rid w h
    simp only [OMap.get_insert] at h ⊢
    split
    · exact ⟨_, rfl⟩
    · rename_i hr
      rw [if_neg hr] at h
      exact i.back rid w h
  · intro rid e h
    simp only [OMap.get_insert] at h
    split at h
    · injection h with h; subst h; rfl
    · exact i.ref rid e h
  · intro rid e h
    simp only [OMap.get_insert] at h
    show rid < s.next + 1
    split at h
    · omega
    · have := i.bound rid e h; omega
  · intro r hr
    show r < s.next + 1
    rcases List.mem_cons.1 hr with e | hr
    · omega
    · have := i.issued r hr; omega
  · intro rid w h
    simp only [setCache] at h
    simp only [OMap.get_insert]
    split at h
    · rename_i hr; simp [hr, h]
    · rename_i hr; rw [if_neg hr]; exact i.cache rid w h
  · intro x
    show x ∈ (pba, blocks b.length) :: s.pool.live ↔ _
    rw [List.mem_cons, i.live]
    constructor
    · rintro (h | ⟨rid, e, h1, h2⟩)
      · exact ⟨s.next, Entry.new (mk pba), by simp [OMap.get_insert], by rw [hex, h]⟩
      · refine ⟨rid, e, ?_, h2⟩
        simp only [OMap.get_insert, if_neg (hnew rid e h1), h1]
    · rintro ⟨rid, e, h1, h2⟩
      simp only [OMap.get_insert] at h1
      split at h1
      · injection h1 with h1; subst h1; exact Or.inl (by rw [h2, hex])
      · exact Or.inr ⟨rid, e, h1, h2⟩
  · refine List.nodup_cons.2 ⟨?_, i.nodup⟩
    intro h
    obtain ⟨rid, e, h1, h2⟩ := (i.live _).1 h
    exact Apart.ne (hap rid e h1) (i.pos h1) h2.symm
  · intro r1 r2 e1 e2 h1 h2 hr
    simp only [OMap.get_insert] at h1 h2
    split at h1 <;> split at h2
    · omega
    · injection h1 with h1; subst h1; rw [hex]; exact (hap r2 e2 h2).symm
    · injection h2 with h2; subst h2; rw [hex]; exact hap r1 e1 h1
    · exact i.apart r1 r2 e1 e2 h1 h2 hr
  · intro rid e h
    simp only [OMap.get_insert] at h
    simp only [AMap.get_insert]
    split at h
    · rename_i hr
      injection h with h; subst h
      simp [Entry.new, hr]
    · have := Apart.pba_ne (hap rid e h) (i.pos h) hn
      rw [if_neg (by rw [hp]; exact this)]
      exact i.fwd rid e h

theorem Inv.put {en : Env V} (g : en.Good) {s : State V} {k : Client V} (i : Inv en s k)
    {v : V} {c : Compression} {b : Buf} {mk : PBA → DRP} {pba : PBA}
    (he : encode en c v = some (b, mk)) (hne : en.ser v ≠ [])
    (hf : Fresh s.pool pba (blocks b.length)) :
    Inv en { s with
        next := s.next + 1
        alloct := s.alloct.insert (mk pba).pba s.next
        ridt := s.ridt.insert s.next (Entry.new (mk pba))
        pool := s.pool.write b pba
        cache := setCache s.cache s.next (some v) }
      { held := k.held.insert s.next v, issued := s.next :: k.issued } := by
  refine ⟨i.core.put g he hne hf, ?_⟩
  intro p rid h
  simp only [AMap.get_insert] at h
  simp only [OMap.get_insert]
  split at h
  · rename_i hp
    injection h with h
    subst h
    exact ⟨_, if_pos rfl, hp.symm⟩
  · obtain ⟨e, h1, h2⟩ := i.bwd p rid h
    have := i.core.bound rid e h1
    exact ⟨e, by rw [if_neg (by omega)]; exact h1, h2⟩

/-- There is no entry for a fresh address. -/
theorem Inv.alloct_fresh {en : Env V} {s : State V} {k : Client V} (i : Inv en s k) {pba : PBA}
    {n : Nat} (hn : 0 < n) (hf : Fresh s.pool pba n) : s.alloct.get pba = none := by
  cases h : s.alloct.get pba with
  | none => rfl
  | some rid =>
    obtain ⟨e, h1, h2⟩ := i.bwd pba rid h
    exact absurd h2 (Apart.pba_ne (i.core.fresh h1 hf) (i.core.pos h1) hn)

/-! ## Deleting -/

theorem Core.freed {en : Env V} {s : State V} {k : Client V} (i : Core en s k) {rid : Nat}
    {e : Entry} (h : s.ridt.get rid = some e) :
    s.pool.free e.drp.pba e.drp.asize =
      some { s.pool with live := s.pool.live.erase (e.drp.pba, e.drp.asize) } :=
  if_pos ((i.live _).2 ⟨rid, e, h, rfl⟩)

theorem Inv.remove {en : Env V} {s : State V} {k : Client V} (i : Inv en s k) {rid : Nat}
    {e : Entry} (h : s.ridt.get rid = some e) :
    Inv en { s with
        cache := setCache s.cache rid none
        pool := { s.pool with live := s.pool.live.erase (e.drp.pba, e.drp.asize) }
        alloct := s.alloct.remove e.drp.pba
        ridt := s.ridt.remove rid }
      { k with held := k.held.remove rid } := by
  have c := i.core
  refine ⟨⟨c.sorted.remove _, c.keyed.filter _, ?_, ?_, ?_, ?_, ?_, ?_, ?_, ?_, ?_, ?_⟩, ?_⟩
  · intro r e' h'
    simp only [OMap.get_remove] at h' ⊢
    split at h'
    · cases h'
    · rename_i hr
      rw [if_neg hr]
      exact c.entry r e' h'
  · intro r v h'
    simp only [OMap.get_remove] at h' ⊢
    split at h'
    · cases h'
    · rename_i hr; rw [if_neg hr]; exact c.back r v h'
  · intro r e' h'
    simp only [OMap.get_remove] at h'
    split at h'
    · cases h'
    · exact c.ref r e' h'
  · intro r e' h'
    simp only [OMap.get_remove] at h'
    split at h'
    · cases h'
    · exact c.bound r e' h'
  · exact c.issued
  · intro r w h'
    simp only [setCache] at h'
    simp only [OMap.get_remove]
    split at h'
    · cases h'
    · rename_i hr; rw [if_neg hr]; exact c.cache r w h'
  · intro x
    show x ∈ s.pool.live.erase (e.drp.pba, e.drp.asize) ↔ _
    rw [c.nodup.mem_erase_iff, c.live]
    simp only [OMap.get_remove]
    constructor
    · rintro ⟨h1, r, e', h2, h3⟩
      refine ⟨r, e', ?_, h3⟩
      rw [if_neg]
      · exact h2
      · intro hr
        subst hr
        rw [h] at h2
        injection h2 with h2
        subst h2
        exact h1 h3
    · rintro ⟨r, e', h2, h3⟩
      split at h2
      · cases h2
      · rename_i hr
        refine ⟨?_, r, e', h2, h3⟩
        rw [h3]
        exact c.ext_ne h2 h hr
  · exact c.nodup.sublist List.erase_sublist
  · intro r1 r2 e1 e2 h1 h2 hr
    simp only [OMap.get_remove] at h1 h2
    split at h1
    · cases h1
    · split at h2
      · cases h2
      · exact c.apart r1 r2 e1 e2 h1 h2 hr
  · intro r e' h'
    simp only [OMap.get_remove] at h'
    simp only [AMap.get_remove]
    split at h'
    · cases h'
    · rename_i hr
      rw [if_neg (c.pba_ne h' h hr)]
      exact c.fwd r e' h'
  · intro p r h'
    simp only [AMap.get_remove] at h'
    simp only [OMap.get_remove]
    split at h'
    · cases h'
    · rename_i hp
      obtain ⟨e', h1, h2⟩ := i.bwd p r h'
      refine ⟨e', ?_, h2⟩
      rw [if_neg]
      · exact h1
      · intro hr
        subst hr
        rw [h] at h1
        injection h1 with h1
        subst h1
        exact hp h2.symm

/-! ## Moving -/

/-- Replace the record's copy by one at a fresh address. -/
theorem Core.move {en : Env V} {s : State V} {k : Client V} (i : Core en s k) {rid : Nat}
    {e : Entry} (h : s.ridt.get rid = some e) {v : V} {b : Buf} (hv : k.held.get rid = some v)
    {d : DRP} (hs : Stores en d v b) (hf : Fresh s.pool d.pba (blocks b.length)) :
    Core en { s with
        pool := { s.pool.write b d.pba with
          live := ((d.pba, blocks b.length) :: s.pool.live).erase (e.drp.pba, e.drp.asize) }
        ridt := s.ridt.insert rid { e with drp := d }
        alloct := s.alloct.insert d.pba rid } k := by
  have hn : 0 < blocks b.length := by rw [← hs.asize]; exact hs.pos
  have hap : ∀ r e, s.ridt.get r = some e → Apart (ext e) (d.pba, blocks b.length) :=
    fun r e h => i.fresh h hf
  have hex : ext { e with drp := d } = (d.pba, blocks b.length) := by
    simp [ext, hs.asize]
  have hnd : ((d.pba, blocks b.length) :: s.pool.live).Nodup := by
    refine List.nodup_cons.2 ⟨?_, i.nodup⟩
    intro h
    obtain ⟨r, e, h1, h2⟩ := (i.live _).1 h
    exact Apart.ne (hap r e h1) (i.pos h1) h2.symm
  refine ⟨i.sorted.insert _ _, i.keyed.insert _ _, ?_, ?_, ?_, ?_, i.issued, i.cache, ?_, ?_, ?_, ?_⟩
  · intro r e' h'
    simp only [OMap.get_insert] at h'
    split at h'
    · rename_i hr
      injection h' with h'
      subst h'
      refine ⟨v, b, by rw [hr]; exact hv, hs, ?_⟩
      show Pool.read _ d.pba d.asize = _
      rw [hs.asize]
      exact (read_congr fun q _ => rfl).trans (read_write_same s.pool b d.pba)
    · obtain ⟨v', b', h1, h2, h3⟩ := i.entry r e' h'
      refine ⟨v', b', h1, h2, ?_⟩
      rw [← h3]
      apply read_congr
      intro q hq
      show (if inExtent q (d.pba, blocks b.length) then _ else _) = _
      rw [hap r e' h' q hq]
      rfl
  · intro r w h'
    obtain ⟨e', h1⟩ := i.back r w h'
    simp only [OMap.get_insert]
    split
    · exact ⟨_, rfl⟩
    · exact ⟨e', h1⟩
  · intro r e' h'
    simp only [OMap.get_insert] at h'
    split at h'
    · injection h' with h'; subst h'; exact i.ref rid e h
    · exact i.ref r e' h'
  · intro r e' h'
    simp only [OMap.get_insert] at h'
    split at h'
    · rename_i hr; rw [hr]; exact i.bound rid e h
    · exact i.bound r e' h'
  · intro x
    show x ∈ ((d.pba, blocks b.length) :: s.pool.live).erase (e.drp.pba, e.drp.asize) ↔ _
    rw [hnd.mem_erase_iff, List.mem_cons, i.live]
    simp only [OMap.get_insert]
    constructor
    · rintro ⟨h1, h2 | ⟨r, e', h2, h3⟩⟩
      · exact ⟨rid, _, if_pos rfl, by rw [h2, hex]⟩
      · refine ⟨r, e', ?_, h3⟩
        rw [if_neg]
        · exact h2
        · intro hr
          subst hr
          rw [h] at h2
          injection h2 with h2
          subst h2
          exact h1 h3
    · rintro ⟨r, e', h2, h3⟩
      split at h2
      · injection h2 with h2
        subst h2
        rw [hex] at h3
        refine ⟨?_, Or.inl h3⟩
        rw [h3]
        exact fun y => Apart.ne (hap rid e h) (i.pos h) y.symm
      · rename_i hr
        refine ⟨?_, Or.inr ⟨r, e', h2, h3⟩⟩
        rw [h3]
        exact i.ext_ne h2 h hr
  · exact hnd.sublist List.erase_sublist
  · intro r1 r2 e1 e2 h1 h2 hr
    simp only [OMap.get_insert] at h1 h2
    split at h1 <;> split at h2
    · omega
    · injection h1 with h1; subst h1; rw [hex]; exact (hap r2 e2 h2).symm
    · injection h2 with h2; subst h2; rw [hex]; exact hap r1 e1 h1
    · exact i.apart r1 r2 e1 e2 h1 h2 hr
  · intro r e' h'
    simp only [OMap.get_insert] at h'
    simp only [AMap.get_insert]
    split at h'
    · rename_i hr
      injection h' with h'; subst h'
      simp [hr]
    · have := Apart.pba_ne (hap r e' h') (i.pos h') hn
      rw [if_neg this]
      exact i.fwd r e' h'

end Verif.Idml
