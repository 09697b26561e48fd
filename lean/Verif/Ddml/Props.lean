import Verif.Ddml.Steps

/-!
# Properties of the data management layer: C33, C34, C35
-/

namespace Verif.Ddml

open Verif.Bytes (Byte Buf lbaBytes)

variable {V : Type}

/-! ## A concrete environment for the examples

`toyCodec` shortens buffers that consist of sevens only. -/

def toyComp (b : Buf) : Buf := if b = List.replicate b.length 7 then [0] else 1 :: b

def toyDec (c : Buf) (n : Nat) : Option Buf :=
  match c with
  | [0] => some (List.replicate n 7)
  | 1 :: b => some b
  | _ => none

def toyCodec : Codecs where
  lz4c := toyComp
  lz4d := toyDec
  zstdc := toyComp
  zstdd := toyDec
  shuffle := fun _ b => b.reverse
  unshuffle := fun _ b => b.reverse

theorem toy_inv (b : Buf) : toyDec (toyComp b) b.length = some b := by
  unfold toyComp
  split
  · rename_i h; exact congrArg some h.symm
  · rfl

theorem toyCodec_good : toyCodec.Good :=
  ⟨toy_inv, toy_inv, fun _ b _ => List.reverse_reverse b, fun _ b => by simp [toyCodec]⟩

def toyHash (b : Buf) : UInt64 := b.foldl (fun a x => a * 257 + x.toUInt64 + 1) 0

def toyEnv : Env Buf where
  cd := toyCodec
  hash := toyHash
  ser := id
  deser := id

theorem toyEnv_good : toyEnv.Good := ⟨toyCodec_good, fun _ => rfl⟩

/-! ## C33: records read back -/

/-- **C33.** Compression loses nothing and never costs blocks: what `compress` returns is either the
input, marked uncompressed, or something in strictly fewer blocks that decompresses to the input,
for every algorithm, type size and input. -/
theorem C33_compress (cd : Codecs) (g : cd.Good) (c : Compression) (input : Buf) :
    let r := c.compress cd input
    blocks r.1.length ≤ blocks input.length ∧
    (r.2.isCompressed = false → r.1 = input) ∧
    (r.2.isCompressed = true → blocks r.1.length < blocks input.length ∧
      decompress cd r.1 input.length = .ok input) := by
  rcases compress_cases cd c input with e | ⟨b, t, hb, ht, hc, e, hlt⟩
  · simp [e, Compression.isCompressed]
  · simp only [e]
    refine ⟨Nat.le_of_lt hlt, ?_, fun _ => ⟨hlt, decompress_run g hb ht⟩⟩
    simp [Compression.isCompressed, hc]

theorem toy_shrinks (n : Nat) (h : 4096 < n) : (Compression.lz4 none).compress toyCodec
    (List.replicate n 7) = ([0, 0, 0, 0, 0, 0], .lz4 none) := by
  have e : toyComp (List.replicate n 7) = [0] := if_pos (by simp)
  have hb : blocks 6 < blocks n := by unfold blocks lbaBytes; omega
  have h' : ¬ n ≤ lbaBytes := by unfold lbaBytes; omega
  simp [Compression.compress, Compression.run, Compression.tag, toyCodec, shuf, e, Tag.write,
    tsByte, hb, h']

/-- Both cases occur: two blocks of sevens are compressed into one, and a buffer of one block is
left alone. -/
example : ((Compression.lz4 none).compress toyCodec (List.replicate 8192 7)).2.isCompressed = true ∧
    ((Compression.zstd none).compress toyCodec (List.replicate 4096 7)).2.isCompressed = false := by
  rw [toy_shrinks 8192 (by omega)]
  refine ⟨by decide, ?_⟩
  have : List.length (List.replicate 4096 (7 : Byte)) ≤ lbaBytes := by
    rw [List.length_replicate]; decide
  unfold Compression.compress
  rw [if_pos (Or.inr this)]
  rfl

/-- **C33.** After every history of stores, reads, pops, deletions and cache evictions, on devices
that keep what was written, each call does what the client expects: a store yields a new address and
uses no more blocks than the uncompressed record, and a read or pop through a held pointer returns
the record stored under it (or the device's own error); nothing panics and no space is freed
twice. -/
theorem C33_history (en : Env V) (g : en.Good) (s : State V) (h : Held V)
    (r : Reach en Faithful s h) (op : Op V) (hv : Valid en s h op) (hf : Faithful s op) :
    Expected en h op (step en s op).2 := by
  have i := reach_good g r
  cases op with
  | put v c wr =>
    obtain ⟨h1, h2, h3⟩ := hv
    obtain ⟨b, mk, he⟩ := encode_some (en := en) (c := c) h2
    cases wr with
    | error e => exact Or.inr ⟨e, rfl, by simp [step, put, he]⟩
    | ok pba =>
      obtain ⟨f1, f2, f3, f4, f5, f6⟩ := encode_facts g he pba
      refine Or.inl ⟨mk pba, by rw [f1], by simp [step, put, he], ?_, ?_⟩
      · show blocks (mk pba).csize ≤ _
        rw [f2]; exact f4
      · rw [f1]
        exact fresh_pba g i.inv (blocks_pos (List.length_pos_iff.2 (f6 h1))) (h3 pba b mk rfl he)
  | get d rd rl =>
    obtain ⟨v, hm⟩ := hv
    refine ⟨v, hm, ?_⟩
    simp only [step, get]
    split
    · rename_i w hw
      obtain ⟨x, hx, e1, e2⟩ := i.cached _ _ hw
      have := i.inv.eq_of_pba g hx hm e1
      subst this
      exact Or.inl (by rw [← e2])
    · rcases getDirect_good g i hm (rl := rl) hf with e | ⟨e, e1, e2⟩
      · exact Or.inl (by rw [e])
      · exact Or.inr ⟨e, e1, by rw [e2]⟩
  | pop d rd rl =>
    obtain ⟨v, hm⟩ := hv
    obtain ⟨p, hp, hb, hl⟩ := i.inv.free g hm
    refine ⟨v, hm, ?_⟩
    simp only [step, pop]
    split
    · rename_i w hw
      obtain ⟨x, hx, e1, e2⟩ := i.cached _ _ hw
      have := i.inv.eq_of_pba g hx hm e1
      subst this
      exact Or.inl (by simp only [hp]; rw [← e2])
    · rcases getDirect_good g i hm (rl := rl) hf with e | ⟨e, e1, e2⟩
      · exact Or.inl (by simp [popDirect, e, hp])
      · exact Or.inr ⟨e, e1, by simp [popDirect, e2]⟩
  | delete d =>
    obtain ⟨v, hm⟩ := hv
    obtain ⟨p, hp, hb, hl⟩ := i.inv.free g hm
    simp [Expected, step, delete, hp]
  | evict p => trivial
  | disturb f => trivial

/-- **C33.** In particular: a record that was stored, evicted from the cache and left alone is read
from disk with its contents. -/
theorem C33_put_then_get (en : Env V) (g : en.Good) (s : State V) (v : V) (c : Compression)
    (pba : PBA) (hne : (en.ser v).length < u32Max) (rl : Except Err (List Buf)) :
    ∃ d, (put en s v c (.ok pba)).2 = .ok d ∧
      let s' := evict (put en s v c (.ok pba)).1 d.pba
      (get en s' d (.ok (s'.pool.read d.pba d.asize)) rl).2 = .ok v := by
  obtain ⟨b, mk, he⟩ := encode_some (en := en) (c := c) hne
  obtain ⟨f1, f2, f3, f4, f5, f6⟩ := encode_facts g he pba
  refine ⟨mk pba, by simp [put, he], ?_⟩
  have hr := read_write_same s.pool b pba
  have hx : readRec en (mk pba) (.ok (pad b)) rl = .ok (en.ser v) :=
    readRec_written g ⟨c, mk, he, by rw [f1]⟩ rl
  have : (evict (put en s v c (.ok pba)).1 (mk pba).pba).pool = s.pool.write b pba := by
    simp [evict, put, he]
  have hc : (evict (put en s v c (.ok pba)).1 (mk pba).pba).cache (mk pba).pba = none := by
    simp [evict, setCache]
  simp only [this]
  show (get en _ (mk pba) (.ok ((s.pool.write b pba).read (mk pba).pba (blocks (mk pba).csize)))
    rl).2 = _
  rw [show (s.pool.write b pba).read (mk pba).pba (blocks (mk pba).csize) = pad b by
    rw [f1, f2, hr]]
  unfold get
  rw [hc]
  simp [getDirect, hx, g.ser]

/-- The hypotheses of `C33_history` are met: two records are stored, one compressed, and one is
popped. -/
example : ∃ s h, Reach toyEnv Faithful s h ∧ h.length = 1 ∧
    ∃ d, Valid toyEnv s h (.get d (.ok (s.pool.read d.pba d.asize)) (.ok [])) ∧
      d.compressed = true := by
  obtain ⟨v1, hv1⟩ : ∃ v1 : Buf, v1 = List.replicate 8192 7 := ⟨_, rfl⟩
  let v2 : Buf := [1, 2, 3]
  have hl1 : v1.length = 8192 := by rw [hv1, List.length_replicate]
  have e1 : ∃ b mk, encode toyEnv (.lz4 none) v1 = some (b, mk) ∧
      (mk ⟨0, 10⟩).compressed = true ∧ b.length = 6 := by
    have h1 : (toyEnv.ser v1).length < u32Max := by
      show v1.length < _
      rw [hl1]; decide
    have h2 : (Compression.lz4 none).compress toyEnv.cd (toyEnv.ser v1) =
        ([0, 0, 0, 0, 0, 0], .lz4 none) := by
      show (Compression.lz4 none).compress toyCodec v1 = _
      rw [hv1]; exact toy_shrinks 8192 (by omega)
    simp only [encode, if_pos h1, h2]
    exact ⟨_, _, rfl, rfl, rfl⟩
  obtain ⟨b1, mk1, he1, hc1, hb1⟩ := e1
  have r0 : Reach toyEnv Faithful (init fun _ => []) [] := .init _
  have r1 := r0.step (.put v1 (.lz4 none) (.ok ⟨0, 10⟩))
    ⟨fun e => by
      have : v1.length = 0 := congrArg List.length e
      omega, by show v1.length < u32Max; rw [hl1]; decide,
     fun _ _ _ _ _ e he => absurd he (by simp [init])⟩ trivial
  have f := encode_facts toyEnv_good he1 ⟨0, 10⟩
  simp only [step, put, he1, Held.next] at r1
  have hb2 : encode toyEnv .none v2 = some (v2, fun pba =>
      { pba := pba, compressed := false, lsize := 3, csize := 3, checksum := toyHash v2 }) := by
    simp [encode, Compression.compress, toyEnv, v2, u32Max, Compression.isCompressed]
  have r2 := r1.step (.put v2 .none (.ok ⟨1, 0⟩)) ⟨by simp [toyEnv, v2], by
    simp [toyEnv, v2, u32Max], by
    intro pba b mk e he x hx q hq
    injection e with e
    subst e
    simp only [Pool.write, init, List.mem_cons, List.not_mem_nil, or_false] at hx
    subst hx
    simp only [inExtent, Bool.and_eq_true, decide_eq_true_eq] at hq
    simp [inExtent, hq.1.1]⟩ trivial
  simp only [step, put, hb2, Held.next] at r2
  have r3 := r2.step (.pop ⟨⟨1, 0⟩, false, 3, 3, toyHash v2⟩ (.error (.other 5)) (.ok []))
    ⟨v2, by simp⟩ (Or.inr ⟨_, rfl⟩)
  have hp : ∀ c, (mk1 ⟨0, 10⟩).pba = c → (mk1 ⟨0, 10⟩).pba = ⟨0, 10⟩ := fun _ _ => f.1
  refine ⟨_, _, r3, ?_, mk1 ⟨0, 10⟩, ⟨v1, ?_⟩, hc1⟩
  · have hd : (mk1 ⟨0, 10⟩) ≠ ⟨⟨1, 0⟩, false, 3, 3, toyHash v2⟩ := by
      intro e; rw [e] at hc1; cases hc1
    simp [step, pop, setCache, Pool.free, DRP.asize, Pool.write, Held.next, blocks, v2, lbaBytes, hd]
  · have hd : (mk1 ⟨0, 10⟩) ≠ ⟨⟨1, 0⟩, false, 3, 3, toyHash v2⟩ := by
      intro e; rw [e] at hc1; cases hc1
    simp [step, pop, setCache, Pool.free, DRP.asize, Pool.write, Held.next, blocks, v2, lbaBytes, hd]

/-! ## C34: corrupt data is never returned -/

/-- **C34.** Whatever the pool delivers, from the primary copy or from any reconstruction, a read
that succeeds returns bytes with the pointer's checksum (or, for a compressed record, the
decompression of such bytes), and these are bytes the pool delivered. -/
theorem C34_read (en : Env V) (d : DRP) (rd : Except Err Buf) (rl : Except Err (List Buf))
    (out : Buf) (h : readRec en d rd rl = .ok out) :
    ∃ raw, en.hash raw = d.checksum ∧
      ((∃ full, rd = .ok full ∧ raw = full.take d.csize) ∨ (∃ recs, rl = .ok recs ∧ raw ∈ recs)) ∧
      ((d.compressed = false ∧ out = raw) ∨
       (d.compressed = true ∧ decompress en.cd raw d.lsize = .ok out)) :=
  readRec_verified h

/-- **C34.** After every history on devices that may answer anything at all and change their
contents at any time, a record returned through a held pointer was decoded from bytes with the
pointer's checksum. -/
theorem C34_history (en : Env V) (g : en.Good) (s : State V) (h : Held V)
    (r : Reach en (fun _ _ => True) s h) (d : DRP) (v : V) (hm : (d, v) ∈ h)
    (rd : Except Err Buf) (rl : Except Err (List Buf)) (w : V)
    (ho : (get en s d rd rl).2 = .ok w ∨ (pop en s d rd rl).2 = .ok w) : Verified en d w := by
  have i := reach_inv g r
  have key : ∀ u, s.cache d.pba = some u → Verified en d u := by
    intro u hu
    obtain ⟨x, hx, e, hv⟩ := i.cached _ _ hu
    have := i.eq_of_pba g hx hm e
    subst this
    exact hv
  rcases ho with ho | ho
  · unfold get at ho
    split at ho
    · rename_i u hu
      injection ho with ho
      subst ho
      exact key _ hu
    · split at ho
      · rename_i u hu
        injection ho with ho
        subst ho
        exact getDirect_verified hu
      · exact getDirect_verified ho
  · unfold pop at ho
    split at ho
    · rename_i u hu
      split at ho
      · injection ho with ho
        subst ho
        exact key _ hu
      · cases ho
    · dsimp only [popDirect] at ho
      split at ho
      · rename_i u hu
        split at ho
        · injection ho with ho
          subst ho
          exact getDirect_verified hu
        · cases ho
      · exact getDirect_verified ho

/-- **C34.** So if the hash separates the written bytes from all others, no corruption of the disks
ever makes a read return anything but the record that was stored. -/
theorem C34_no_wrong_record (en : Env V) (g : en.Good) (s : State V) (h : Held V)
    (r : Reach en (fun _ _ => True) s h) (d : DRP) (v : V) (hm : (d, v) ∈ h)
    (nc : ∀ b, Written en d v b → NoCollision en b)
    (rd : Except Err Buf) (rl : Except Err (List Buf)) (w : V)
    (ho : (get en s d rd rl).2 = .ok w ∨ (pop en s d rd rl).2 = .ok w) : w = v := by
  obtain ⟨b, hw, _⟩ := (reach_inv g r).written _ hm
  exact verified_eq g hw (nc b hw) (C34_history en g s h r d v hm rd rl w ho)

/-- A hash under which the one-byte buffer `[5]` collides with nothing. -/
def fiveEnv : Env Buf := { toyEnv with hash := fun b => if b = [5] then 1 else 0 }

theorem fiveEnv_good : fiveEnv.Good := ⟨toyCodec_good, fun _ => rfl⟩

/-- The hypotheses are met by a stored record; the disk then delivers garbage and one good
reconstruction.  The garbage is refused. -/
example : NoCollision fiveEnv [5] ∧
    (∃ s h d, Reach fiveEnv (fun _ _ => True) s h ∧ (d, [5]) ∈ h ∧ Written fiveEnv d [5] [5]) ∧
    readRec fiveEnv ⟨⟨0, 0⟩, false, 1, 1, 1⟩ (.ok [6]) (.ok [[7], [5]]) = .ok [5] ∧
    readRec fiveEnv ⟨⟨0, 0⟩, false, 1, 1, 1⟩ (.ok [6]) (.ok [[7]]) = .err .eintegrity := by
  have he : encode fiveEnv .none [5] = some ([5], fun pba =>
      { pba := pba, compressed := false, lsize := 1, csize := 1, checksum := 1 }) := by
    simp [encode, Compression.compress, fiveEnv, toyEnv, u32Max, Compression.isCompressed]
  refine ⟨?_, ?_, by decide, by decide⟩
  · intro r hr
    simp only [fiveEnv] at hr
    split at hr
    · assumption
    · simp at hr
  · have r0 : Reach fiveEnv (fun _ _ => True) (init fun _ => []) [] := .init _
    have r1 := r0.step (.put [5] .none (.ok ⟨0, 0⟩))
      ⟨by decide, by decide, fun _ _ _ _ _ e he => absurd he (by simp [init])⟩ trivial
    simp only [step, put, he, Held.next] at r1
    exact ⟨_, _, _, r1, List.mem_cons_self, .none, _, he, rfl⟩

/-! ## C35: recovery from redundancy -/

/-- **C35 (partial).** If the primary copy is corrupt and one of the reconstructions is the blocks
originally written, then the read returns the record, provided the written bytes fill whole blocks
and the hash separates them from the other candidates.

Full statement: the same without the proviso on whole blocks.  That is false, see
`C35_partial_block_lost`. -/
theorem C35_recovers_partial (en : Env V) (g : en.Good) (d : DRP) (v : V) (b : Buf)
    (hw : Written en d v b) (full : Buf) (recs : List Buf)
    (hbad : en.hash (full.take d.csize) ≠ en.hash b)
    (hrec : pad b ∈ recs) (nc : ∀ r ∈ recs, en.hash r = en.hash b → r = b)
    (hwhole : b.length % lbaBytes = 0) :
    getDirect en d (.ok full) (.ok recs) = .ok v := by
  have hpad : pad b = b := by
    have : blocks b.length * lbaBytes = b.length := by unfold blocks lbaBytes at *; omega
    simp [pad, this]
  rw [hpad] at hrec
  have key : tryRecon en d recs = .ok (en.ser v) := by
    obtain ⟨c, mk, he, hd⟩ := hw
    have f := encode_facts g he d.pba
    rw [← hd] at f
    obtain ⟨_, hcs, hck, _, hdec, _⟩ := f
    clear hbad
    induction recs with
    | nil => cases hrec
    | cons r rest ih =>
      unfold tryRecon
      by_cases hh : en.hash r = en.hash b
      · have := nc r List.mem_cons_self hh
        subst this
        rw [if_pos hck.symm]
        rcases hdec with ⟨h1, h2⟩ | ⟨h1, h2⟩
        · simp [h1, hcs, h2]
        · simp [h1, h2]
      · rw [if_neg (by rw [hck]; exact hh)]
        refine ih ?_ fun r hr => nc r (List.mem_cons_of_mem _ hr)
        rcases List.mem_cons.1 hrec with e | e
        · exact absurd (by rw [e]) hh
        · exact e
  have hck : d.checksum = en.hash b := by
    obtain ⟨c, mk, he, hd⟩ := hw
    have f := encode_facts g he d.pba
    rw [← hd] at f
    exact f.2.2.1
  simp [getDirect, readRec, hck, hbad, key, g.ser]

/-- A hash of the first byte -/
def headEnv : Env Buf := { toyEnv with hash := fun b => (b.headD 0).toUInt64 }

theorem written_plain (en : Env V) (v : V) (p : PBA) (h : (en.ser v).length < u32Max) :
    Written en ⟨p, false, (en.ser v).length, (en.ser v).length, en.hash (en.ser v)⟩ v (en.ser v) := by
  have e : (en.ser v).length % 2 ^ 32 = (en.ser v).length :=
    Nat.mod_eq_of_lt (by unfold u32Max at h; omega)
  refine ⟨.none, fun p => ⟨p, false, (en.ser v).length, (en.ser v).length, en.hash (en.ser v)⟩,
    ?_, rfl⟩
  simp [encode, h, Compression.compress, Compression.isCompressed, e]

theorem head_recovers (n : Nat) (hn : n = 4096) :
    ∃ d, Written headEnv d (List.replicate n 9) (List.replicate n 9) ∧
    getDirect headEnv d (.ok (List.replicate n 8))
      (.ok [List.replicate n 1, List.replicate n 9]) = .ok (List.replicate n 9) := by
  have hw := written_plain headEnv (List.replicate n 9) ⟨3, 4⟩ (by
    show (List.replicate n 9).length < _
    rw [List.length_replicate, hn]; decide)
  have hp : pad (List.replicate n (9 : Byte)) = List.replicate n 9 := by
    have h0 : blocks n * lbaBytes - n = 0 := by unfold blocks lbaBytes; omega
    simp [pad, h0]
  have h9 : headEnv.hash (List.replicate n 9) = 9 := by
    subst hn; rfl
  refine ⟨_, hw, C35_recovers_partial headEnv ⟨toyCodec_good, fun _ => rfl⟩ _ _ _ hw _ _ ?_ ?_ ?_ ?_⟩
  · show headEnv.hash ((List.replicate n 8).take (List.replicate n 9).length) ≠
      headEnv.hash (List.replicate n 9)
    rw [List.length_replicate, List.take_replicate, Nat.min_self, h9]
    subst hn
    show ((8 : Byte).toUInt64) ≠ 9
    decide
  · show pad (List.replicate n 9) ∈ _
    rw [hp]; simp
  · intro r hr hh
    have hh : headEnv.hash r = headEnv.hash (List.replicate n 9) := hh
    rcases List.mem_cons.1 hr with rfl | hr
    · rw [h9] at hh
      subst hn
      exact absurd hh (show (1 : Byte).toUInt64 ≠ 9 by decide)
    · exact List.mem_singleton.1 hr
  · show (List.replicate n 9).length % lbaBytes = 0
    rw [List.length_replicate, hn]; decide

/-- A concrete use: an uncompressed record of one block, a corrupt primary and two reconstructions,
the second of them good. -/
example : ∃ d, Written headEnv d (List.replicate 4096 9) (List.replicate 4096 9) ∧
    getDirect headEnv d (.ok (List.replicate 4096 8))
      (.ok [List.replicate 4096 1, List.replicate 4096 9]) = .ok (List.replicate 4096 9) :=
  head_recovers 4096 rfl

/-- A hash that sees the length -/
def lenEnv : Env Buf := { toyEnv with hash := fun b => .ofNat b.length }

/-- **C35 fails for records that do not fill their last block.**  Reconstructions are hashed with
their padding, so even if every one of them is exactly the blocks that were written, the read
reports an integrity error; only a hash collision between the bytes and the padded bytes could save
it. -/
theorem C35_partial_block_lost (en : Env V) (g : en.Good) (d : DRP) (v : V) (b : Buf)
    (hw : Written en d v b) (full : Buf) (n : Nat)
    (hbad : en.hash (full.take d.csize) ≠ en.hash b)
    (hh : en.hash (pad b) ≠ en.hash b) :
    getDirect en d (.ok full) (.ok (List.replicate n (pad b))) = .err .eintegrity := by
  have hck : d.checksum = en.hash b := by
    obtain ⟨c, mk, he, hd⟩ := hw
    have f := encode_facts g he d.pba
    rw [← hd] at f
    exact f.2.2.1
  have key : tryRecon en d (List.replicate n (pad b)) = .err .eintegrity := by
    induction n with
    | zero => rfl
    | succ n ih =>
      rw [List.replicate_succ]
      unfold tryRecon
      rw [if_neg (by rw [hck]; exact hh)]
      exact ih
  simp [getDirect, readRec, hck, hbad, key]

/-- It happens to every compressed record in practice; here to a three-byte record. -/
example : ∃ d, Written lenEnv d [1, 2, 3] [1, 2, 3] ∧
    getDirect lenEnv d (.ok []) (.ok (List.replicate 2 (pad [1, 2, 3]))) = .err .eintegrity := by
  have hw : Written lenEnv _ [1, 2, 3] [1, 2, 3] :=
    written_plain lenEnv [1, 2, 3] ⟨3, 4⟩ (by decide)
  refine ⟨_, hw, C35_partial_block_lost lenEnv ⟨toyCodec_good, fun _ => rfl⟩ _ _ _ hw _ 2
    (by decide) ?_⟩
  show UInt64.ofNat (pad [1, 2, 3]).length ≠ _
  rw [length_pad]
  decide

end Verif.Ddml
