import Verif.Label.Model
import Verif.Bytes.Props

/-! # Labels: C17 and C18 -/

namespace Verif.Label
open Verif.Bytes

/-! ## Helpers -/

theorem le_length (k n : Nat) : (le k n).length = k := by
  induction k generalizing n with
  | zero => rfl
  | succ k ih => simp [le, ih]

theorem readLe_le (k n : Nat) (h : n < 256 ^ k) : readLe (le k n) = n := by
  induction k generalizing n with
  | zero => simp at h; subst h; rfl
  | succ k ih =>
    simp only [le, readLe]
    rw [ih (n / 256) (by rw [Nat.pow_succ] at h; omega)]
    simp only [UInt8.toNat_ofNat']
    omega

theorem le_readLe (b : Buf) : le b.length (readLe b) = b := by
  induction b with
  | nil => rfl
  | cons x b ih =>
    simp only [List.length_cons, le, readLe]
    have h1 : (x.toNat + 256 * readLe b) / 256 = readLe b := by
      have := x.toNat_lt; omega
    rw [h1, ih]
    congr 1
    apply UInt8.toNat.inj
    simp only [UInt8.toNat_ofNat']
    have := x.toNat_lt; omega

theorem readLe_lt (b : Buf) : readLe b < 256 ^ b.length := by
  induction b with
  | nil => simp [readLe]
  | cons x b ih =>
    simp only [readLe, List.length_cons, Nat.pow_succ]
    have := x.toNat_lt
    omega

theorem be64_length (n : Nat) : (be64 n).length = 8 := by simp [be64, le_length]

theorem readBe64_be64 (n : Nat) (h : n < 2 ^ 64) : readBe64 (be64 n) = n := by
  unfold readBe64 be64
  rw [List.reverse_reverse, readLe_le]
  exact Nat.lt_of_lt_of_eq h (by decide)

theorem be64_readBe64 (b : Buf) (h : b.length = 8) : be64 (readBe64 b) = b := by
  unfold readBe64 be64
  have := le_readLe b.reverse
  rw [List.length_reverse, h] at this
  rw [this, List.reverse_reverse]

theorem readBe64_lt (b : Buf) (h : b.length = 8) : readBe64 b < 2 ^ 64 := by
  have := readLe_lt b.reverse
  rw [List.length_reverse, h] at this
  exact Nat.lt_of_lt_of_eq this (by decide)

theorem sum_map_length (l : SGList) : (l.map List.length).sum = l.flatten.length := by
  induction l with
  | nil => rfl
  | cons b l ih => simp

/-! ## Specification -/

/-- The bytes of a label holding `contents`. -/
def labelBytes (hash : Buf → UInt64) (contents : Buf) : Buf :=
  magic ++ be64 (hash (be64 contents.length ++ contents)).toNat ++ be64 contents.length ++ contents

/-- A buffer starts with an intact label. -/
def Intact (hash : Buf → UInt64) (buf contents : Buf) : Prop :=
  ∃ tail, buf = labelBytes hash contents ++ tail

/-- A record type's encoding can be read back, whatever follows. -/
def Codec.RoundTrips {α} (c : Codec α) (ok : α → Prop) : Prop :=
  ∀ a, ok a → ∀ rest, c.dec (c.enc a ++ rest) = some (a, rest)

/-! ## Record encodings -/

theorem uint_rt (k : Nat) : (uint k).RoundTrips (· < 256 ^ k) := by
  intro a ha rest
  have hl : k ≤ (le k a ++ rest).length := by simp [le_length]
  have ht : (le k a ++ rest).take k = le k a := List.take_left' (le_length k a)
  have hd : (le k a ++ rest).drop k = rest := List.drop_left' (le_length k a)
  simp only [uint, if_pos hl, ht, hd, readLe_le k a ha]

theorem uuid_rt : uuid.RoundTrips (fun b => b.length = 16) := by
  intro a ha rest
  have hl : 16 ≤ (a ++ rest).length := by simp [ha]
  simp only [uuid, if_pos hl, List.take_left' ha, List.drop_left' ha]

theorem pair_rt {α β} {a : Codec α} {b : Codec β} {p q} (ha : a.RoundTrips p)
    (hb : b.RoundTrips q) : (pair a b).RoundTrips (fun x => p x.1 ∧ q x.2) := by
  intro x hx rest
  simp only [pair, List.append_assoc]
  rw [ha x.1 hx.1]
  simp only
  rw [hb x.2 hx.2]

theorem decMany_rt {α} {a : Codec α} {p} (ha : a.RoundTrips p) (xs : List α)
    (h : ∀ x ∈ xs, p x) (rest : Buf) :
    decMany a.dec xs.length ((xs.map a.enc).flatten ++ rest) = some (xs, rest) := by
  induction xs with
  | nil => rfl
  | cons x xs ih =>
    simp only [List.length_cons, decMany, List.map_cons, List.flatten_cons, List.append_assoc]
    rw [ha x (h x (by simp))]
    simp only
    rw [ih (fun y hy => h y (by simp [hy]))]

theorem vec_rt {α} {a : Codec α} {p} (ha : a.RoundTrips p) :
    (vec a).RoundTrips (fun xs => xs.length < 2 ^ 32 ∧ ∀ x ∈ xs, p x) := by
  intro xs hx rest
  have := uint_rt 4 xs.length (Nat.lt_of_lt_of_eq hx.1 (by decide))
    ((xs.map a.enc).flatten ++ rest)
  simp only [vec, List.append_assoc]
  rw [show (uint 4).enc xs.length = le 4 xs.length from rfl] at this
  rw [this]
  simp only
  exact decMany_rt ha xs hx.2 rest

theorem byte_rt : byteC.RoundTrips (fun _ => True) := by
  intro a _ rest; rfl

/-- What the Rust types guarantee: UUIDs have 16 bytes, integers fit their width, vectors have
fewer than 2³² elements. -/
def Rec.Typed : Rec → Prop
  | .block (u, a, b, c, t) =>
      u.length = 16 ∧ a < 256 ^ 8 ∧ b < 256 ^ 8 ∧ c < 256 ^ 8 ∧ t < 256 ^ 4
  | .mirror (u, cs) => u.length = 16 ∧ cs.length < 2 ^ 32 ∧ ∀ c ∈ cs, c.length = 16
  | .pool (n, u, cs) => (n.length < 2 ^ 32 ∧ ∀ c ∈ n, True) ∧ u.length = 16 ∧
      cs.length < 2 ^ 32 ∧ ∀ c ∈ cs, c.length = 16

theorem Rec.rt (r : Rec) (h : r.Typed) (rest : Buf) :
    decTy r.ty (r.enc ++ rest) = some (r, rest) := by
  cases r with
  | block l =>
    have := pair_rt uuid_rt (pair_rt (uint_rt 8) (pair_rt (uint_rt 8)
      (pair_rt (uint_rt 8) (uint_rt 4)))) l h rest
    simp only [Rec.ty, Rec.enc, decTy, blockLabel] at *
    rw [this]; rfl
  | mirror l =>
    have := pair_rt uuid_rt (vec_rt uuid_rt) l h rest
    simp only [Rec.ty, Rec.enc, decTy, mirrorLabel] at *
    rw [this]; rfl
  | pool l =>
    have := pair_rt (vec_rt byte_rt) (pair_rt uuid_rt (vec_rt uuid_rt)) l h rest
    simp only [Rec.ty, Rec.enc, decTy, poolLabel] at *
    rw [this]; rfl

theorem decAll_rt (rs : List Rec) (h : ∀ r ∈ rs, r.Typed) (rest : Buf) :
    decAll (rs.map Rec.ty) ((rs.map Rec.enc).flatten ++ rest) = some (rs, rest) := by
  induction rs with
  | nil => rfl
  | cons r rs ih =>
    simp only [List.map_cons, decAll, List.flatten_cons, List.append_assoc]
    rw [r.rt (h r (by simp))]
    simp only
    rw [ih (fun x hx => h x (by simp [hx]))]

/-! ## C18 -/

/-- `readerNew` with its constants written out. -/
theorem readerNew_eq (checks : Bool) (hash : Buf → UInt64) (buf : Buf) :
    readerNew checks hash buf =
      if buf.length < 16 + 8 + 8 then .err .einval
      else if magic ≠ buf.take 16 then .err .einval
      else if checks ∧ 2 ^ 64 ≤ 16 + 8 + 8 + readBe64 ((buf.drop (16 + 8)).take 8) then .panic
      else if 16 + 8 + 8 ≤ (16 + 8 + 8 + readBe64 ((buf.drop (16 + 8)).take 8)) % 2 ^ 64 ∧
          (16 + 8 + 8 + readBe64 ((buf.drop (16 + 8)).take 8)) % 2 ^ 64 ≤ buf.length then
        if UInt64.ofNat (readBe64 ((buf.drop 16).take 8)) ≠
            hash (be64 (readBe64 ((buf.drop (16 + 8)).take 8)) ++ (buf.drop (16 + 8 + 8)).take
              ((16 + 8 + 8 + readBe64 ((buf.drop (16 + 8)).take 8)) % 2 ^ 64 - (16 + 8 + 8)))
        then .err .eintegrity
        else .ok (buf.drop (16 + 8 + 8))
      else .err .einval := rfl

/-- `LabelReader::new` in full: with overflow checks off it accepts exactly the buffers that
start with an intact label of less than 2⁶⁴ − 32 bytes. -/
theorem readerNew_ok (checks : Bool) (hash : Buf → UInt64) (buf : Buf) (r : Buf) :
    readerNew checks hash buf = .ok r ↔
      ∃ contents, Intact hash buf contents ∧ contents.length < 2 ^ 64 - 32 ∧ r = buf.drop 32 := by
  constructor
  · intro h
    rw [readerNew_eq] at h
    split at h
    · cases h
    rename_i hlen
    split at h
    · cases h
    rename_i hmag
    have hlen' : 32 ≤ buf.length := Nat.le_of_not_lt hlen
    have hmag' : magic = buf.take 16 := by
      refine Decidable.byContradiction fun hne => hmag hne
    split at h
    · cases h
    rename_i hov
    split at h
    · rename_i hrange
      split at h
      · cases h
      rename_i hsum
      cases h
      generalize hn : readBe64 ((buf.drop (16 + 8)).take 8) = n at *
      generalize hst : readBe64 ((buf.drop 16).take 8) = st at *
      have hl8 : ((buf.drop (16 + 8)).take 8).length = 8 := by
        rw [List.length_take, List.length_drop]; omega
      have hl8' : ((buf.drop 16).take 8).length = 8 := by
        rw [List.length_take, List.length_drop]; omega
      have hn64 : n < 2 ^ 64 := by rw [← hn]; exact readBe64_lt _ hl8
      have hst64 : st < 2 ^ 64 := by rw [← hst]; exact readBe64_lt _ hl8'
      have hno : 16 + 8 + 8 + n < 2 ^ 64 := by
        have hr1 := hrange.1
        rcases Nat.lt_or_ge (16 + 8 + 8 + n) (2 ^ 64) with h1 | h1
        · exact h1
        · have : (16 + 8 + 8 + n) % 2 ^ 64 = 16 + 8 + 8 + n - 2 ^ 64 := by
            rw [Nat.mod_eq_sub_mod h1, Nat.mod_eq_of_lt (by omega)]
          omega
      rw [Nat.mod_eq_of_lt hno] at hrange hsum
      have hsub : 16 + 8 + 8 + n - (16 + 8 + 8) = n := by omega
      rw [hsub] at hsum
      have hsum' : UInt64.ofNat st = hash (be64 n ++ (buf.drop (16 + 8 + 8)).take n) := by
        refine Decidable.byContradiction fun hne => hsum hne
      have hcl : ((buf.drop (16 + 8 + 8)).take n).length = n := by
        rw [List.length_take, List.length_drop]; omega
      refine ⟨(buf.drop 32).take n, ⟨(buf.drop 32).drop n, ?_⟩, ?_, rfl⟩
      · unfold labelBytes
        have e1 : (List.take n (List.drop 32 buf)).length = n := hcl
        rw [e1]
        have e2 : (hash (be64 n ++ List.take n (List.drop 32 buf))).toNat = st := by
          rw [show (32 : Nat) = 16 + 8 + 8 from rfl, ← hsum']
          rw [UInt64.toNat_ofNat']
          exact Nat.mod_eq_of_lt hst64
        rw [e2, ← hn, ← hst, be64_readBe64 _ hl8', be64_readBe64 _ hl8, hmag']
        simp only [List.append_assoc, List.take_append_drop]
        have d1 : buf.drop (16 + 8) = (buf.drop (16 + 8)).take 8 ++ buf.drop 32 := by
          conv => lhs; rw [← List.take_append_drop 8 (buf.drop (16 + 8))]
          rw [List.drop_drop]
        rw [← d1]
        have d2 : buf.drop 16 = (buf.drop 16).take 8 ++ buf.drop (16 + 8) := by
          conv => lhs; rw [← List.take_append_drop 8 (buf.drop 16)]
          rw [List.drop_drop]
        rw [← d2, List.take_append_drop]
      · rw [show ((buf.drop 32).take n).length = n from hcl]; omega
    · cases h
  · rintro ⟨contents, ⟨tail, hb⟩, hlt, rfl⟩
    have hb' : buf = magic ++ (be64 (hash (be64 contents.length ++ contents)).toNat ++
        (be64 contents.length ++ (contents ++ tail))) := by
      rw [hb]; simp [labelBytes]
    have hm : magic.length = 16 := rfl
    have t1 : buf.take 16 = magic := by rw [hb']; exact List.take_left' hm
    have d1 : buf.drop 16 = be64 (hash (be64 contents.length ++ contents)).toNat ++
        (be64 contents.length ++ (contents ++ tail)) := by rw [hb']; exact List.drop_left' hm
    have t2 : (buf.drop 16).take 8 = be64 (hash (be64 contents.length ++ contents)).toNat := by
      rw [d1]; exact List.take_left' (be64_length _)
    have d2 : buf.drop (16 + 8) = be64 contents.length ++ (contents ++ tail) := by
      rw [← List.drop_drop, d1]; exact List.drop_left' (be64_length _)
    have t3 : (buf.drop (16 + 8)).take 8 = be64 contents.length := by
      rw [d2]; exact List.take_left' (be64_length _)
    have d3 : buf.drop (16 + 8 + 8) = contents ++ tail := by
      rw [← List.drop_drop, d2]; exact List.drop_left' (be64_length _)
    have hlen : buf.length = 32 + contents.length + tail.length := by
      rw [hb']; simp [be64_length, hm]; omega
    have hn : readBe64 (be64 contents.length) = contents.length :=
      readBe64_be64 _ (by omega)
    rw [readerNew_eq, t1, t2, t3, hn, readBe64_be64 _ (UInt64.toNat_lt _), d3]
    rw [if_neg (by omega), if_neg (by simp), if_neg (by omega), Nat.mod_eq_of_lt (by omega), if_pos (by omega)]
    have hsub : 16 + 8 + 8 + contents.length - (16 + 8 + 8) = contents.length := by omega
    rw [hsub, List.take_left' rfl, if_neg (by simp)]

/-- C18: a buffer is accepted only if it starts with an intact label: the magic, a length that
does not run past the end, and a checksum that matches. -/
theorem C18_only_intact_accepted (checks : Bool) (hash : Buf → UInt64) (buf r : Buf)
    (h : readerNew checks hash buf = .ok r) :
    ∃ contents, Intact hash buf contents ∧ ∃ tail, r = contents ++ tail := by
  obtain ⟨contents, ⟨tail, hi⟩, _, hr⟩ := (readerNew_ok checks hash buf r).mp h
  refine ⟨contents, ⟨tail, hi⟩, tail, ?_⟩
  rw [hr, hi]
  unfold labelBytes
  rw [show magic ++ be64 (hash (be64 contents.length ++ contents)).toNat ++
    be64 contents.length ++ contents ++ tail = (magic ++
      be64 (hash (be64 contents.length ++ contents)).toNat ++ be64 contents.length) ++
        (contents ++ tail) by simp]
  exact List.drop_left' (by simp [be64_length, magic])

/-- C18: the four kinds of damage are rejected with an error, and nothing is read. -/
theorem C18_damage_rejected_partial (hash : Buf → UInt64) (buf : Buf)
    (h : buf.length < 32 ∨ buf.take 16 ≠ magic ∨
      buf.length < 32 + readBe64 ((buf.drop 24).take 8) ∨
      hash (be64 (readBe64 ((buf.drop 24).take 8)) ++
          (buf.drop 32).take (readBe64 ((buf.drop 24).take 8))) ≠
        UInt64.ofNat (readBe64 ((buf.drop 16).take 8)))
    : ∃ e, readerNew false hash buf = .err e := by
  have hnp : readerNew false hash buf ≠ .panic := by
    unfold readerNew
    split
    · simp
    · split
      · simp
      · simp only [Bool.false_eq_true, false_and, if_false]
        split
        · split <;> simp
        · simp
  cases hr : readerNew false hash buf with
  | err e => exact ⟨e, rfl⟩
  | panic => exact absurd hr hnp
  | ok r =>
    exfalso
    obtain ⟨contents, ⟨tail, hi⟩, hlt, _⟩ := (readerNew_ok false hash buf r).mp hr
    have hb' : buf = magic ++ (be64 (hash (be64 contents.length ++ contents)).toNat ++
        (be64 contents.length ++ (contents ++ tail))) := by
      rw [hi]; simp [labelBytes]
    have hm : magic.length = 16 := rfl
    have t1 : buf.take 16 = magic := by rw [hb']; exact List.take_left' hm
    have d1 : buf.drop 16 = be64 (hash (be64 contents.length ++ contents)).toNat ++
        (be64 contents.length ++ (contents ++ tail)) := by rw [hb']; exact List.drop_left' hm
    have t2 : (buf.drop 16).take 8 = be64 (hash (be64 contents.length ++ contents)).toNat := by
      rw [d1]; exact List.take_left' (be64_length _)
    have d2 : buf.drop 24 = be64 contents.length ++ (contents ++ tail) := by
      rw [show (24 : Nat) = 16 + 8 from rfl, ← List.drop_drop, d1]
      exact List.drop_left' (be64_length _)
    have t3 : (buf.drop 24).take 8 = be64 contents.length := by
      rw [d2]; exact List.take_left' (be64_length _)
    have d3 : buf.drop 32 = contents ++ tail := by
      rw [show (32 : Nat) = 24 + 8 from rfl, ← List.drop_drop, d2]
      exact List.drop_left' (be64_length _)
    have hlen : buf.length = 32 + contents.length + tail.length := by
      rw [hb']; simp [be64_length, hm]; omega
    have hn : readBe64 (be64 contents.length) = contents.length :=
      readBe64_be64 _ (by omega)
    rw [t3, hn, d3, t2, readBe64_be64 _ (UInt64.toNat_lt _), List.take_left' rfl] at h
    rcases h with h | h | h | h
    · omega
    · exact h t1
    · omega
    · exact h (by simp)

/-- C18: in a build without overflow checks, and in any build when the length field is below
2⁶⁴ − 32, opening never panics. -/
theorem C18_never_panics_partial (checks : Bool) (hash : Buf → UInt64) (buf : Buf)
    (h : checks = false ∨ 32 + readBe64 ((buf.drop 24).take 8) < 2 ^ 64) :
    readerNew checks hash buf ≠ .panic := by
  rw [readerNew_eq]
  split
  · simp
  · split
    · simp
    · split
      · rename_i hov
        rcases h with h | h
        · rw [h] at hov; simp at hov
        · have := hov.2
          simp only [Nat.reduceAdd] at this
          omega
      · split
        · split <;> simp
        · simp

/-- C18 fails in a build with overflow checks: a label whose length field is 2⁶⁴ − 1 makes
`LabelReader::new` panic, whatever the checksum function. -/
theorem C18_overflow_panics (hash : Buf → UInt64) :
    readerNew true hash (magic ++ be64 0 ++ be64 (2 ^ 64 - 1)) = .panic := by
  unfold readerNew
  rw [if_neg (by decide), if_neg (by decide), if_pos (by decide)]

/-- C18: if a label that was intact is altered anywhere in its length or contents and is still
accepted with its stored checksum unchanged, then the checksum function collides. -/
theorem C18_altered_accepted_collides (checks : Bool) (hash : Buf → UInt64)
    (c c' tail' r : Buf) (hne : c ≠ c')
    (hc' : c'.length < 2 ^ 64)
    (h : readerNew checks hash (magic ++ be64 (hash (be64 c.length ++ c)).toNat ++
        be64 c'.length ++ c' ++ tail') = .ok r) :
    ∃ x y, x ≠ y ∧ hash x = hash y := by
  obtain ⟨d, ⟨t, hd⟩, hdl, hr⟩ := (readerNew_ok checks hash _ r).mp h
  have e : magic ++ (be64 (hash (be64 c.length ++ c)).toNat ++ (be64 c'.length ++ (c' ++ tail'))) =
      magic ++ (be64 (hash (be64 d.length ++ d)).toNat ++ (be64 d.length ++ (d ++ t))) := by
    simpa [labelBytes] using hd
  have e1 := List.append_cancel_left e
  obtain ⟨e2, e3⟩ := List.append_inj e1 (by simp [be64_length])
  obtain ⟨e4, e5⟩ := List.append_inj e3 (by simp [be64_length])
  have hl : c'.length = d.length := by
    have := congrArg readBe64 e4
    rwa [readBe64_be64 _ hc', readBe64_be64 _ (by omega)] at this
  obtain ⟨e6, _⟩ := List.append_inj e5 hl
  subst e6
  have hh : hash (be64 c.length ++ c) = hash (be64 c'.length ++ c') := by
    have := congrArg readBe64 e2
    rw [readBe64_be64 _ (UInt64.toNat_lt _), readBe64_be64 _ (UInt64.toNat_lt _)] at this
    exact UInt64.toNat.inj this
  refine ⟨_, _, ?_, hh⟩
  intro heq
  obtain ⟨_, h2⟩ := List.append_inj heq (by simp [be64_length])
  exact hne h2

/-! ## C17 -/

/-- What is written can be read back, whatever the records are. -/
theorem writeLabel_readable (checks : Bool) (hash : Buf → UInt64) (bufs : SGList) (disk stale : Buf)
    (hw : writeLabel hash bufs = some disk) (hsz : bufs.flatten.length < 2 ^ 64 - 32) :
    ∃ tail, readerNew checks hash (disk ++ stale) = .ok (bufs.reverse.flatten ++ tail) := by
  unfold writeLabel at hw
  cases hc : copyAndPad (intoSglist hash bufs) with
  | none => rw [hc] at hw; cases hw
  | some out =>
    rw [hc] at hw
    simp only [Option.map_some, Option.some.injEq] at hw
    obtain ⟨_, k, _, hk⟩ := C57_pad_preserves_partial _ _ hc
    rw [hw] at hk
    have hlen : bufs.reverse.flatten.length = bufs.flatten.length := by
      rw [← sum_map_length, ← sum_map_length, List.map_reverse, List.sum_reverse]
    have hb : disk ++ stale = labelBytes hash bufs.reverse.flatten ++
        (List.replicate k 0 ++ stale) := by
      rw [hk]
      simp only [intoSglist, labelBytes, List.flatten_cons, sum_map_length, List.append_assoc]
    have hok := (readerNew_ok checks hash (disk ++ stale) ((disk ++ stale).drop 32)).mpr
      ⟨_, ⟨_, hb⟩, by rw [hlen]; exact hsz, rfl⟩
    refine ⟨List.replicate k 0 ++ stale, ?_⟩
    rw [hok]
    congr 1
    rw [hb]
    unfold labelBytes
    generalize bufs.reverse.flatten = c
    rw [show magic ++ be64 (hash (be64 c.length ++ c)).toNat ++ be64 c.length ++ c ++
      (List.replicate k 0 ++ stale) = (magic ++ be64 (hash (be64 c.length ++ c)).toNat ++
        be64 c.length) ++ (c ++ (List.replicate k 0 ++ stale)) by simp]
    exact List.drop_left' (by simp [be64_length, magic])

/-- C17: whatever records are serialised, and whatever follows the label on the disk, the bytes
written are accepted and reading them yields the records in reverse order of serialisation.
What is missing for the full claim: `writeLabel` must not panic, see
`C17_write_total_partial` and `C17_big_record_panics`. -/
theorem C17_round_trip_partial (checks : Bool) (hash : Buf → UInt64) (rs : List Rec)
    (ht : ∀ r ∈ rs, r.Typed) (disk stale : Buf)
    (hw : writeLabel hash (rs.map Rec.enc) = some disk)
    (hsz : ((rs.map Rec.enc).flatten).length < 2 ^ 64 - 32) :
    ∃ s rest, readerNew checks hash (disk ++ stale) = .ok s ∧
      decAll (rs.reverse.map Rec.ty) s = some (rs.reverse, rest) := by
  obtain ⟨tail, h⟩ := writeLabel_readable checks hash _ disk stale hw hsz
  refine ⟨_, tail, h, ?_⟩
  rw [← List.map_reverse]
  exact decAll_rt _ (fun r hr => ht r (List.mem_reverse.mp hr)) _

theorem Rec.enc_pos (r : Rec) (h : r.Typed) : 0 < r.enc.length := by
  cases r with
  | block l =>
    obtain ⟨u, a, b, c, t⟩ := l
    have := h.1
    simp only [Rec.enc, blockLabel, pair, uuid, List.length_append]
    omega
  | mirror l =>
    obtain ⟨u, cs⟩ := l
    have := h.1
    simp only [Rec.enc, mirrorLabel, pair, uuid, List.length_append]
    omega
  | pool l =>
    obtain ⟨n, u, cs⟩ := l
    have := h.2.1
    simp only [Rec.enc, poolLabel, pair, vec, List.length_append, le_length]
    omega

/-- C17: writing does not panic if every record takes less than one block. -/
theorem C17_write_total_partial (hash : Buf → UInt64) (rs : List Rec)
    (ht : ∀ r ∈ rs, r.Typed) (hs : ∀ r ∈ rs, r.enc.length < lbaBytes) :
    ∃ disk, writeLabel hash (rs.map Rec.enc) = some disk := by
  obtain ⟨out, ho⟩ := C57_pad_total_partial (intoSglist hash (rs.map Rec.enc)) (Or.inr (by
    intro x hx
    simp only [intoSglist, List.mem_cons] at hx
    rcases hx with hx | hx
    · subst hx
      simp [be64_length, magic, lbaBytes]
    · rw [List.mem_reverse, List.mem_map] at hx
      obtain ⟨r, hr, rfl⟩ := hx
      exact ⟨r.enc_pos (ht r hr), hs r hr⟩))
  exact ⟨out.flatten, by simp [writeLabel, ho]⟩

/-- C17 fails for a pool (or mirror) with many children: a record longer than a block makes
`write_label` panic.  Here a mirror record with 300 children. -/
theorem C17_big_record_panics (hash : Buf → UInt64) :
    ∃ r : Rec, r.Typed ∧ writeLabel hash [r.enc] = none := by
  let u : Buf := List.replicate 16 7
  refine ⟨.mirror (u, List.replicate 300 u), ⟨rfl, by rw [List.length_replicate]; decide, ?_⟩, ?_⟩
  · intro c hc
    have := (List.mem_replicate.mp hc).2
    subst this; rfl
  · have hlen : (Rec.enc (.mirror (u, List.replicate 300 u))).length = 4820 := by
      decide +kernel
    generalize Rec.enc (.mirror (u, List.replicate 300 u)) = e at hlen
    have hm : magic.length = 16 := rfl
    simp [writeLabel, intoSglist, copyAndPad, padLoop, be64_length, hm, hlen, lbaBytes]

/-- C17 fails for a label that is longer than its 16 KiB: nothing checks its size when it is
written, and reading it back (`LABEL_SIZE` bytes) reports an error. -/
theorem C17_oversize_unreadable (hash : Buf → UInt64) (contents stale : Buf)
    (h : labelSize < 32 + contents.length) (h64 : contents.length < 2 ^ 64) :
    ∃ e, readerNew false hash ((labelBytes hash contents ++ stale).take labelSize) = .err e := by
  apply C18_damage_rejected_partial
  right; right; left
  have hl : labelSize = 16384 := rfl
  have e : (labelBytes hash contents ++ stale).take labelSize =
      (magic ++ be64 (hash (be64 contents.length ++ contents)).toNat) ++ (be64 contents.length ++
        (contents ++ stale).take (16384 - 32)) := by
    rw [hl]
    unfold labelBytes
    rw [show magic ++ be64 (hash (be64 contents.length ++ contents)).toNat ++
      be64 contents.length ++ contents ++ stale = (magic ++
        be64 (hash (be64 contents.length ++ contents)).toNat ++ be64 contents.length) ++
          (contents ++ stale) by simp]
    rw [List.take_append, List.take_of_length_le (by simp [be64_length, magic])]
    have : (magic ++ be64 (hash (be64 contents.length ++ contents)).toNat ++
      be64 contents.length).length = 32 := by simp [be64_length, magic]
    rw [this]
    simp
  rw [e]
  have hh : (magic ++ be64 (hash (be64 contents.length ++ contents)).toNat).length = 24 := by
    simp [be64_length, magic]
  rw [List.drop_left' hh, List.take_left' (be64_length _), readBe64_be64 _ h64]
  simp only [List.length_append, be64_length, List.length_take] at hh ⊢
  omega

/-- C18: `Manager::read_label` uses the second label when the first is damaged, and fails only
when both are. -/
theorem C18_second_label_used (hash : Buf → UInt64) (b0 b1 : Option Buf) (r : Buf) :
    readLabel false hash b0 b1 = .ok r ↔
      (∃ b, b0 = some b ∧ readerNew false hash b = .ok r) ∨
      ((∀ b s, b0 = some b → readerNew false hash b ≠ .ok s) ∧
        ∃ b, b1 = some b ∧ readerNew false hash b = .ok r) := by
  have hnp : ∀ b, readerNew false hash b ≠ .panic := fun b =>
    C18_never_panics_partial false hash b (Or.inl rfl)
  have h1 : readLabel1 false hash b1 = .ok r ↔
      ∃ b, b1 = some b ∧ readerNew false hash b = .ok r := by
    cases b1 with
    | none => simp [readLabel1]
    | some b => simp [readLabel1]
  cases b0 with
  | none => simp [readLabel, h1]
  | some b =>
    cases hb : readerNew false hash b with
    | panic => exact absurd hb (hnp b)
    | ok s =>
      simp only [readLabel, hb, Option.some.injEq]
      constructor
      · rintro h; exact Or.inl ⟨b, rfl, by rw [hb]; exact h⟩
      · rintro (⟨b', rfl, h⟩ | ⟨h, _⟩)
        · rw [hb] at h; exact h
        · exact absurd hb (h b s rfl)
    | err e =>
      simp only [readLabel, hb, h1, Option.some.injEq]
      constructor
      · rintro h
        exact Or.inr ⟨fun b' s hb' => by subst hb'; rw [hb]; simp, h⟩
      · rintro (⟨b', rfl, h⟩ | ⟨_, h⟩)
        · rw [hb] at h; cases h
        · exact h

/-- The hypotheses of C17 are met by a realistic label: a pool of one mirror of two disks. -/
example : ∃ rs : List Rec, rs.length = 3 ∧ (∀ r ∈ rs, r.Typed) ∧
    (∀ r ∈ rs, r.enc.length < lbaBytes) ∧ ((rs.map Rec.enc).flatten).length < 2 ^ 64 - 32 := by
  let u : Nat → Buf := fun n => List.replicate 16 (UInt8.ofNat n)
  refine ⟨[.pool ([112, 111, 111, 108], u 1, [u 2]), .mirror (u 2, [u 3, u 4]),
    .block (u 3, 65536, 262144, 1, 17)], rfl, ?_, ?_, ?_⟩
  · intro r hr
    simp only [List.mem_cons, List.not_mem_nil, or_false] at hr
    rcases hr with rfl | rfl | rfl
    · exact ⟨by decide, rfl, by decide, by decide⟩
    · exact ⟨rfl, by decide, by decide⟩
    · exact ⟨rfl, by decide, by decide, by decide, by decide⟩
  · decide +kernel
  · decide +kernel

end Verif.Label
