import Verif.Ddml.Spec

namespace Verif.Ddml

open Verif.Bytes (Byte Buf lbaBytes)

theorem Tag.read_write (t : Tag) : Tag.read t.write = some t := by
  cases t <;> simp [Tag.read, Tag.write]

theorem Tag.length_write (t : Tag) : t.write.length = tagSize := by
  cases t <;> rfl

theorem tsOf_tsByte (ts : Option NZ) : tsOf (tsByte ts) = ts := by
  cases ts with
  | none => rfl
  | some b => simp [tsOf, tsByte, b.2]

theorem ofTag_tag {c : Compression} {t : Tag} (h : c.tag = some t) : Compression.ofTag t = c := by
  cases c <;> simp [Compression.tag] at h <;> subst h <;> simp [Compression.ofTag, tsOf_tsByte]

theorem unshuf_shuf {cd : Codecs} (g : cd.Good) (ts : Option NZ) (b : Buf) :
    unshuf cd ts (shuf cd ts b) = b := by
  cases ts with
  | none => rfl
  | some t => exact g.shuffle t.1 b t.2

theorem length_shuf {cd : Codecs} (g : cd.Good) (ts : Option NZ) (b : Buf) :
    (shuf cd ts b).length = b.length := by
  cases ts with
  | none => rfl
  | some t => exact g.shuffle_len t.1 b

theorem decompress_run {cd : Codecs} (g : cd.Good) {c : Compression} {input b : Buf} {t : Tag}
    (hb : c.run cd input = some b) (ht : c.tag = some t) :
    decompress cd (b ++ t.write) input.length = .ok input := by
  unfold decompress
  have h5 := Tag.length_write t
  rw [if_neg (by simp [h5])]
  have e : (b ++ t.write).length - tagSize = b.length := by simp [h5]
  simp only [e, List.drop_left, List.take_left, Tag.read_write, ofTag_tag ht]
  cases c with
  | none => simp [Compression.tag] at ht
  | lz4 ts =>
    simp only [Compression.run, Option.some.injEq] at hb
    subst hb
    have := g.lz4 (shuf cd ts input)
    rw [length_shuf g] at this
    simp [this, unshuf_shuf g]
  | zstd ts =>
    simp only [Compression.run, Option.some.injEq] at hb
    subst hb
    have := g.zstd (shuf cd ts input)
    rw [length_shuf g] at this
    simp [this, unshuf_shuf g]

/-- The two ways compression can end. -/
theorem compress_cases (cd : Codecs) (c : Compression) (input : Buf) :
    c.compress cd input = (input, .none) ∨
    ∃ b t, c.run cd input = some b ∧ c.tag = some t ∧ c ≠ .none ∧
      c.compress cd input = (b ++ t.write, c) ∧
      blocks (b ++ t.write).length < blocks input.length := by
  unfold Compression.compress
  split
  · exact Or.inl rfl
  · rename_i hn
    split
    · rename_i b t hb ht
      dsimp only
      split
      · rename_i hlt
        exact Or.inr ⟨b, t, hb, ht, fun e => hn (Or.inl e), rfl, hlt⟩
      · exact Or.inl rfl
    · exact Or.inl rfl

theorem blocks_mono {a b : Nat} (h : a ≤ b) : blocks a ≤ blocks b := by
  unfold blocks lbaBytes
  omega

theorem le_blocks (a : Nat) : a ≤ blocks a * lbaBytes := by
  unfold blocks lbaBytes; omega

theorem blocks_pos {a : Nat} (h : 0 < a) : 0 < blocks a := by
  unfold blocks lbaBytes; omega

/-- Everything there is to know about what is written for a record. -/
theorem encode_facts {V : Type} {en : Env V} (g : en.Good) {c : Compression} {v : V} {b : Buf}
    {mk : PBA → DRP} (h : encode en c v = some (b, mk)) (p : PBA) :
    (mk p).pba = p ∧ (mk p).csize = b.length ∧ (mk p).checksum = en.hash b ∧
    blocks b.length ≤ blocks (en.ser v).length ∧
    (((mk p).compressed = false ∧ b = en.ser v) ∨
     ((mk p).compressed = true ∧ decompress en.cd b (mk p).lsize = .ok (en.ser v))) ∧
    (en.ser v ≠ [] → b ≠ []) := by
  unfold encode at h
  dsimp only at h
  split at h
  · rename_i hlen
    have hlen' : (en.ser v).length % 2 ^ 32 = (en.ser v).length :=
      Nat.mod_eq_of_lt (by unfold u32Max at hlen; omega)
    rcases compress_cases en.cd c (en.ser v) with e | ⟨x, t, hx, ht, hc, e, hlt⟩
    · simp only [e, Option.some.injEq, Prod.mk.injEq] at h
      obtain ⟨rfl, rfl⟩ := h
      exact ⟨rfl, hlen', rfl, Nat.le_refl _, Or.inl ⟨rfl, rfl⟩, fun h => h⟩
    · simp only [e, Option.some.injEq, Prod.mk.injEq] at h
      obtain ⟨rfl, rfl⟩ := h
      have hb : (x ++ t.write).length % 2 ^ 32 = (x ++ t.write).length := by
        apply Nat.mod_eq_of_lt
        unfold u32Max at hlen
        unfold blocks lbaBytes at hlt
        omega
      refine ⟨rfl, hb, rfl, Nat.le_of_lt hlt, Or.inr ⟨?_, ?_⟩, ?_⟩
      · simp [Compression.isCompressed, hc]
      · show decompress en.cd _ ((en.ser v).length % 2 ^ 32) = _
        rw [hlen']
        exact decompress_run g.cd hx ht
      · intro _ h0
        have := Tag.length_write t
        have h0' := congrArg List.length h0
        simp [this, tagSize] at h0'
  · cases h

theorem length_pad (b : Buf) : (pad b).length = blocks b.length * lbaBytes := by
  have := le_blocks b.length
  simp [pad]; omega

theorem take_pad (b : Buf) : (pad b).take b.length = b := by
  simp [pad]

theorem flatMap_chunks (l : Buf) (n : Nat) (h : l.length = n * lbaBytes) :
    ((List.range n).flatMap fun i => (l.drop (i * lbaBytes)).take lbaBytes) = l := by
  induction n generalizing l with
  | zero => simp at h; simp [h]
  | succ n ih =>
    rw [List.range_succ_eq_map, List.flatMap_cons, List.flatMap_map]
    have h2 : (l.drop lbaBytes).length = n * lbaBytes := by
      rw [List.length_drop, h, Nat.succ_mul]; omega
    have := ih (l.drop lbaBytes) h2
    simp only [List.drop_drop] at this
    have e : (fun i => List.take lbaBytes (List.drop (i.succ * lbaBytes) l)) =
        fun i => List.take lbaBytes (List.drop (lbaBytes + i * lbaBytes) l) := by
      funext i
      rw [Nat.succ_mul, Nat.add_comm]
    rw [e, this]
    simp

theorem inExtent_plus {p : PBA} {n i : Nat} (h : i < n) : inExtent (p.plus i) (p, n) = true := by
  simp [inExtent, PBA.plus]; omega

theorem read_congr {p p' : Pool} {pba : PBA} {n : Nat}
    (h : ∀ q, inExtent q (pba, n) = true → p.block q = p'.block q) :
    p.read pba n = p'.read pba n := by
  unfold Pool.read
  rw [List.flatMap_def, List.flatMap_def]
  congr 1
  apply List.map_congr_left
  intro i hi
  exact h _ (inExtent_plus (List.mem_range.1 hi))

theorem read_write_same (p : Pool) (b : Buf) (pba : PBA) :
    (p.write b pba).read pba (blocks b.length) = pad b := by
  rw [← flatMap_chunks (pad b) _ (length_pad b)]
  unfold Pool.read
  rw [List.flatMap_def, List.flatMap_def]
  congr 1
  apply List.map_congr_left
  intro i hi
  show (if inExtent (pba.plus i) (pba, blocks b.length) then _ else _) = _
  rw [if_pos (inExtent_plus (List.mem_range.1 hi))]
  simp [PBA.plus, padBlock]

theorem readRec_written {V : Type} {en : Env V} (g : en.Good) {d : DRP} {v : V} {b : Buf}
    (h : Written en d v b) (rl : Except Err (List Buf)) :
    readRec en d (.ok (pad b)) rl = .ok (en.ser v) := by
  obtain ⟨c, mk, he, hd⟩ := h
  have f := encode_facts g he d.pba
  rw [← hd] at f
  obtain ⟨_, hcs, hck, _, hdec, _⟩ := f
  unfold readRec
  simp only [hcs, take_pad, hck, if_true]
  rcases hdec with ⟨h1, h2⟩ | ⟨h1, h2⟩
  · simp [h1, h2]
  · simp [h1, h2]

/-- Whatever the pool answers, a record that is returned was checked. -/
theorem tryRecon_verified {V : Type} {en : Env V} {d : DRP} {recs : List Buf} {out : Buf}
    (h : tryRecon en d recs = .ok out) :
    ∃ raw, raw ∈ recs ∧ en.hash raw = d.checksum ∧
      ((d.compressed = false ∧ out = raw) ∨
       (d.compressed = true ∧ decompress en.cd raw d.lsize = .ok out)) := by
  induction recs with
  | nil => cases h
  | cons r rest ih =>
    unfold tryRecon at h
    split at h
    · rename_i hh
      split at h
      · rename_i hc
        split at h
        · rename_i b hb
          injection h with h
          subst h
          exact ⟨r, by simp, hh, Or.inr ⟨hc, hb⟩⟩
        · obtain ⟨raw, hm, x⟩ := ih h
          exact ⟨raw, by simp [hm], x⟩
        · cases h
      · rename_i hc
        split at h
        · injection h with h
          subst h
          exact ⟨r, by simp, hh, Or.inl ⟨by simpa using hc, rfl⟩⟩
        · cases h
    · obtain ⟨raw, hm, x⟩ := ih h
      exact ⟨raw, by simp [hm], x⟩

theorem readRec_verified {V : Type} {en : Env V} {d : DRP} {rd : Except Err Buf}
    {rl : Except Err (List Buf)} {out : Buf} (h : readRec en d rd rl = .ok out) :
    ∃ raw, en.hash raw = d.checksum ∧
      ((∃ full, rd = .ok full ∧ raw = full.take d.csize) ∨ (∃ recs, rl = .ok recs ∧ raw ∈ recs)) ∧
      ((d.compressed = false ∧ out = raw) ∨
       (d.compressed = true ∧ decompress en.cd raw d.lsize = .ok out)) := by
  unfold readRec at h
  split at h
  · cases h
  · rename_i full
    dsimp only at h
    split at h
    · rename_i hh
      refine ⟨_, hh, Or.inl ⟨full, rfl, rfl⟩, ?_⟩
      split at h
      · rename_i hc; exact Or.inr ⟨hc, h⟩
      · rename_i hc
        injection h with h
        exact Or.inl ⟨by simpa using hc, h.symm⟩
    · split at h
      · rename_i recs
        obtain ⟨raw, hm, hh, x⟩ := tryRecon_verified h
        exact ⟨raw, hh, Or.inr ⟨recs, rfl, hm⟩, x⟩
      · cases h

theorem getDirect_verified {V : Type} {en : Env V} {d : DRP} {rd : Except Err Buf}
    {rl : Except Err (List Buf)} {v : V} (h : getDirect en d rd rl = .ok v) : Verified en d v := by
  unfold getDirect at h
  split at h
  · rename_i b hb
    injection h with h
    obtain ⟨raw, hh, _, x⟩ := readRec_verified hb
    exact ⟨raw, b, hh, h.symm, x⟩
  · cases h
  · cases h

theorem verified_written {V : Type} {en : Env V} (g : en.Good) {d : DRP} {v : V} {b : Buf}
    (h : Written en d v b) : Verified en d v := by
  obtain ⟨c, mk, he, hd⟩ := h
  have f := encode_facts g he d.pba
  rw [← hd] at f
  refine ⟨b, en.ser v, f.2.2.1.symm, (g.ser v).symm, ?_⟩
  rcases f.2.2.2.2.1 with ⟨h1, h2⟩ | ⟨h1, h2⟩
  · exact Or.inl ⟨h1, h2.symm⟩
  · exact Or.inr ⟨h1, h2⟩

/-- A checked record is the one written, unless the hash collides. -/
theorem verified_eq {V : Type} {en : Env V} (g : en.Good) {d : DRP} {v w : V} {b : Buf}
    (h : Written en d v b) (nc : NoCollision en b) (hw : Verified en d w) : w = v := by
  obtain ⟨c, mk, he, hd⟩ := h
  have f := encode_facts g he d.pba
  rw [← hd] at f
  obtain ⟨raw, bytes, hh, hv, x⟩ := hw
  have : raw = b := nc raw (by rw [hh, f.2.2.1])
  subst this
  have hb : bytes = en.ser v := by
    rcases f.2.2.2.2.1 with ⟨h1, h2⟩ | ⟨h1, h2⟩ <;> rcases x with ⟨x1, x2⟩ | ⟨x1, x2⟩
    · rw [x2, h2]
    · simp [h1] at x1
    · simp [h1] at x1
    · rw [h2] at x2; injection x2 with x2; exact x2.symm
  rw [hv, hb, g.ser]

/-! ## The invariant -/

/-- Two extents share no block. -/
def Apart (a b : PBA × Nat) : Prop := ∀ q, inExtent q a = true → inExtent q b = false

def ext {V : Type} (x : DRP × V) : PBA × Nat := (x.1.pba, x.1.asize)

structure Inv {V : Type} (en : Env V) (s : State V) (h : Held V) : Prop where
  live : s.pool.live.Perm (h.map ext)
  apart : h.Pairwise fun x y => Apart (ext x) (ext y)
  written : ∀ x ∈ h, ∃ b, Written en x.1 x.2 b ∧ b ≠ []
  cached : ∀ p w, s.cache p = some w → ∃ x ∈ h, x.1.pba = p ∧ Verified en x.1 w

/-- With faithful devices -/
structure Good {V : Type} (en : Env V) (s : State V) (h : Held V) : Prop where
  inv : Inv en s h
  data : ∀ x ∈ h, ∃ b, Written en x.1 x.2 b ∧ s.pool.read x.1.pba x.1.asize = pad b
  cached : ∀ p w, s.cache p = some w → ∃ x ∈ h, x.1.pba = p ∧ x.2 = w

theorem Apart.symm {a b : PBA × Nat} (h : Apart a b) : Apart b a := by
  intro q hq
  cases hh : inExtent q a with
  | false => rfl
  | true => rw [h q hh] at hq; cases hq

theorem pairwise_mem {α : Type} {R : α → α → Prop} (sy : ∀ a b, R a b → R b a) {l : List α}
    (h : l.Pairwise R) {x y : α} (hx : x ∈ l) (hy : y ∈ l) : x = y ∨ R x y := by
  induction h with
  | nil => cases hx
  | cons hz _ ih =>
    rcases List.mem_cons.1 hx with rfl | hx' <;> rcases List.mem_cons.1 hy with rfl | hy'
    · exact Or.inl rfl
    · exact Or.inr (hz _ hy')
    · exact Or.inr (sy _ _ (hz _ hx'))
    · exact ih hx' hy'

theorem written_asize {V : Type} {en : Env V} (g : en.Good) {d : DRP} {v : V} {b : Buf}
    (h : Written en d v b) : d.asize = blocks b.length := by
  obtain ⟨c, mk, he, hd⟩ := h
  have f := encode_facts g he d.pba
  rw [← hd] at f
  show blocks d.csize = _
  rw [f.2.1]

theorem Inv.asize_pos {V : Type} {en : Env V} (g : en.Good) {s : State V} {h : Held V}
    (i : Inv en s h) {x : DRP × V} (hx : x ∈ h) : 0 < x.1.asize := by
  obtain ⟨b, hw, hb⟩ := i.written x hx
  rw [written_asize g hw]
  exact blocks_pos (List.length_pos_iff.2 hb)

theorem Inv.eq_of_pba {V : Type} {en : Env V} (g : en.Good) {s : State V} {h : Held V}
    (i : Inv en s h) {x y : DRP × V} (hx : x ∈ h) (hy : y ∈ h) (e : x.1.pba = y.1.pba) :
    x = y := by
  have hp := i.apart
  have px := i.asize_pos g hx
  have py := i.asize_pos g hy
  have key : ¬ Apart (ext x) (ext y) := by
    intro ha
    have h1 := ha x.1.pba (by simp [inExtent, ext]; omega)
    rw [e] at h1
    simp [inExtent, ext] at h1
    omega
  rcases pairwise_mem (fun _ _ => Apart.symm) hp hx hy with h1 | h1
  · exact h1
  · exact absurd h1 key

end Verif.Ddml
