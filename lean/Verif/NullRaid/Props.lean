import Verif.NullRaid.Model
import Verif.Mirror.Props
import Verif.Ddml.OverRaid

/-!
# C84: records on a single mirror
-/

namespace Verif.NullRaid

open Verif.Bytes (Byte Buf lbaBytes)
open Verif.Mirror (Mirror Disks Wr applyAll targets stAt)
open Verif.Ddml (pad padBlock blocks DRP Env Written NoCollision getDirect)

/-- The zones of the device do not overlap and are not empty. -/
structure Zones (lim : Nat → Nat × Nat) : Prop where
  size : ∀ z, (lim z).1 < (lim z).2
  apart : ∀ z z', z ≠ z' → (lim z).2 ≤ (lim z').1 ∨ (lim z').2 ≤ (lim z).1

/-! ### Lemmas -/

theorem padded_eq (b : Buf) : padded b = pad b := by
  unfold padded pad blocks
  split
  · rename_i h
    have : (b.length + lbaBytes - 1) / lbaBytes * lbaBytes - b.length = 0 := by unfold lbaBytes at *; omega
    rw [this]
    simp
  · congr 2
    unfold lbaBytes at *
    omega

theorem chop_length (b : Buf) : (chop (padded b)).length = blocks b.length := by
  rw [padded_eq, chop, List.length_map, List.length_range, Ddml.length_pad, Nat.mul_div_cancel _ (by decide)]

theorem chop_get (b : Buf) {i : Nat} (h : i < blocks b.length) : (chop (padded b))[i]? = some (padBlock b i) := by
  have h' : i < (pad b).length / lbaBytes := by rw [Ddml.length_pad, Nat.mul_div_cancel _ (by decide)]; exact h
  rw [padded_eq, chop, List.getElem?_map, List.getElem?_range h']
  rfl

theorem mem_targets_write {m : Mirror} {c : Nat} : c ∈ targets m .writeAt ↔ stAt m c = some .present := by
  unfold Mirror.targets
  rw [List.mem_filter, List.mem_range]
  have : ∀ o : Option Mirror.Child, (Option.map (fun ch => ch.takes .writeAt) o).getD false =
    (o.map Mirror.Child.isPresent).getD false := fun o => by cases o <;> rfl
  rw [this, Mirror.stAt_present_iff]
  exact ⟨fun h => h.2, fun h => ⟨Mirror.stAt_lt h, h⟩⟩

/-- What the children hold for a record. -/
def Holds (d : Disks Buf) (c : Nat) (r : Nat × Nat × Buf) : Prop :=
  ∀ i < blocks r.2.2.length, d c (r.2.1 + i) = padBlock r.2.2 i

theorem write_new (m : Mirror) (b : Buf) (lba : Nat) (d : Disks Buf) {c i : Nat} (hc : stAt m c = some .present)
    (hi : i < blocks b.length) : applyAll (writes m b lba) d c (lba + i) = padBlock b i := by
  apply Mirror.applyAll_covered (writes m b lba) (fun x => x = padBlock b i)
  · intro w hw hcov
    obtain ⟨c', -, rfl⟩ := List.mem_map.mp hw
    refine ⟨_, ?_, rfl⟩
    show (chop (padded b))[lba + i - lba]? = _
    rw [Nat.add_sub_cancel_left, chop_get b hi]
  · right
    refine ⟨_, List.mem_map.mpr ⟨c, mem_targets_write.mpr hc, rfl⟩, rfl, ?_, ?_⟩
    · exact Nat.le_add_right _ _
    · show lba + i < lba + (chop (padded b)).length
      rw [chop_length]
      omega

theorem write_old (m : Mirror) (b : Buf) (lba : Nat) (d : Disks Buf) {c a : Nat}
    (h : a < lba ∨ lba + blocks b.length ≤ a) : applyAll (writes m b lba) d c a = d c a := by
  apply Mirror.applyAll_not
  intro w hw hcov
  obtain ⟨c', -, rfl⟩ := List.mem_map.mp hw
  obtain ⟨-, h1, h2⟩ := hcov
  have h1 : lba ≤ a := h1
  have h2 : a < lba + (chop (padded b)).length := h2
  rw [chop_length] at h2
  omega

theorem held_of_holds {d : Disks Buf} {c : Nat} {r : Nat × Nat × Buf} (h : Holds d c r) :
    held d c r.2.1 (blocks r.2.2.length) = pad r.2.2 := by
  unfold held
  rw [← Ddml.flatMap_chunks (pad r.2.2) (blocks r.2.2.length) (Ddml.length_pad _)]
  rw [List.flatMap_def, List.flatMap_def]
  congr 1
  apply List.map_congr_left
  intro i hi
  exact h i (List.mem_range.mp hi)

/-- The invariant. -/
structure Inv (lim : Nat → Nat × Nat) (s : State) : Prop where
  zone : ∀ r ∈ s.live, (lim r.1).1 ≤ (ext r).1 ∧ (ext r).2 ≤ (lim r.1).2
  present : ∀ r ∈ s.live, ∀ c, stAt s.m c = some .present → Holds s.d c r
  copied : ∀ r ∈ s.live, r.1 ∈ s.copied → ∀ c, stAt s.m c = some .rebuilding → Holds s.d c r

/-- Commands other than `restore` bring no child into service. -/
theorem present_of {m m' : Mirror} {o : Mirror.Op} (h : Mirror.step m o = some m') (ho : o ≠ .restore) {c : Nat}
    (hc : stAt m' c = some .present) : stAt m c = some .present := by
  unfold stAt at hc
  obtain ⟨ch, h1, h2⟩ := Option.map_eq_some_iff.mp hc
  cases hm : m[c]? with
  | some c0 =>
    obtain ⟨c', e1, -, e3⟩ := Mirror.step_at h hm
    rw [h1] at e1
    cases e1
    unfold stAt
    rw [hm]
    rcases e3 with rfl | ⟨-, rfl⟩ | ⟨-, rfl⟩ | ⟨h3, -⟩
    · simp [h2]
    · unfold Mirror.Child.fault at h2
      cases hs : c0.st <;> rw [hs] at h2 <;> simp at h2
    · unfold Mirror.Child.rebuild at h2
      cases hs : c0.st <;> rw [hs] at h2 <;> simp at h2
      simp [hs]
    · exact absurd h3 ho
  | none =>
    cases o with
    | restore => exact absurd rfl ho
    | fault u =>
      simp only [Mirror.step, Option.some.injEq] at h
      subst h
      unfold Mirror.fault at h1
      split at h1
      · rename_i m2 hu
        rcases Mirror.updFirst_at hu c with h3 | ⟨c2, h3, -⟩
        · simp only [Except.toOption, Option.getD_some] at h1; rw [h3, hm] at h1; cases h1
        · rw [hm] at h3; cases h3
      · simp only [Except.toOption, Option.getD_none] at h1; rw [hm] at h1; cases h1
    | rebuild u =>
      simp only [Mirror.step, Option.some.injEq] at h
      subst h
      unfold Mirror.rebuild at h1
      split at h1
      · rename_i m2 hu
        rcases Mirror.updFirst_at hu c with h3 | ⟨c2, h3, -⟩
        · simp only [Except.toOption, Option.getD_some] at h1; rw [h3, hm] at h1; cases h1
        · rw [hm] at h3; cases h3
      · simp only [Except.toOption, Option.getD_none] at h1; rw [hm] at h1; cases h1
    | attach u size lpz =>
      simp only [Mirror.step] at h
      obtain ⟨x, hx, rfl⟩ := Option.map_eq_some_iff.mp h
      cases x with
      | error e => simp only [Except.toOption, Option.getD_none] at h1; rw [hm] at h1; cases h1
      | ok m2 =>
        simp only [Except.toOption, Option.getD_some] at h1
        rcases Mirror.attach_at hx c with h3 | ⟨-, h3⟩
        · rw [h3, hm] at h1; cases h1
        · rw [h3] at h1; cases h1; cases h2

theorem rebuilding_of_fault {m m' : Mirror} {u : Nat} (h : Mirror.fault m u = .ok m') {c : Nat}
    (hc : stAt m' c = some .rebuilding) : stAt m c = some .rebuilding := by
  unfold Mirror.fault at h
  split at h
  · rename_i m2 hu
    cases h
    unfold stAt at *
    rcases Mirror.updFirst_at hu c with h3 | ⟨c2, h3, -, h4⟩
    · rwa [h3] at hc
    · rw [h4] at hc
      simp only [Option.map_some, Option.some.injEq] at hc
      unfold Mirror.Child.fault at hc
      cases hs : c2.st <;> rw [hs] at hc <;> simp at hc
  · cases h

theorem inv_step {uuid mu : Nat} {lim : Nat → Nat × Nat} (zs : Zones lim) {s s' : State} (I : Inv lim s)
    (h : Step uuid mu lim s s') : Inv lim s' := by
  cases h with
  | @write z lba b h1 h2 h3 =>
    refine ⟨?_, ?_, ?_⟩
    · intro r hr
      rcases List.mem_cons.mp hr with rfl | hr
      · exact ⟨h1, h2⟩
      · exact I.zone r hr
    · intro r hr c hc i hi
      rcases List.mem_cons.mp hr with rfl | hr
      · exact write_new _ _ _ _ hc hi
      · have h4 := h3 r hr
        unfold ext at h4
        dsimp only at h4 ⊢
        rw [write_old _ _ _ _ (by omega)]
        exact I.present r hr c hc i hi
    · intro r hr hcp c hc i hi
      dsimp only at hcp hc ⊢
      rw [List.mem_filter] at hcp
      rcases List.mem_cons.mp hr with rfl | hr
      · simp at hcp
      · have h4 := h3 r hr
        unfold ext at h4
        dsimp only at h4
        rw [write_old _ _ _ _ (by omega)]
        exact I.copied r hr hcp.1 c hc i hi
  | delete h1 =>
    exact ⟨fun r hr => I.zone r (h1 r hr), fun r hr => I.present r (h1 r hr), fun r hr => I.copied r (h1 r hr)⟩
  | @erase z junk h1 =>
    have key : ∀ r ∈ s.live, ∀ c, ∀ i < blocks r.2.2.length,
        eraseZone s.m lim z junk s.d c (r.2.1 + i) = s.d c (r.2.1 + i) := by
      intro r hr c i hi
      unfold eraseZone mirrorErase
      rw [if_neg]
      rintro ⟨-, h2, h3⟩
      have h4 := I.zone r hr
      unfold ext at h4
      dsimp only at h4
      have h5 := zs.size z
      rcases zs.apart r.1 z (h1 r hr) with h6 | h6 <;> omega
    refine ⟨I.zone, ?_, ?_⟩
    · intro r hr c hc i hi
      exact (key r hr c i hi).trans (I.present r hr c hc i hi)
    · intro r hr hcp c hc i hi
      exact (key r hr c i hi).trans (I.copied r hr hcp c hc i hi)
  | @fault u m' h1 =>
    unfold fault at h1
    split at h1
    · cases h1
    have h2 : Mirror.step s.m (.fault u) = some m' := by simp [Mirror.step, h1, Except.toOption]
    exact ⟨I.zone, fun r hr c hc => I.present r hr c (present_of h2 (by simp) hc),
      fun r hr hcp c hc => I.copied r hr hcp c (rebuilding_of_fault h1 hc)⟩
  | @attach u new size lpz m' h1 =>
    unfold attach at h1
    split at h1
    · have h2 : Mirror.step s.m (.attach new size lpz) = some m' := by simp [Mirror.step, h1, Except.toOption]
      exact ⟨I.zone, fun r hr c hc => I.present r hr c (present_of h2 (by simp) hc), fun r hr hcp => by cases hcp⟩
    · cases h1
  | @rebuild u m' h1 =>
    have h2 : Mirror.step s.m (.rebuild u) = some m' := by simp [Mirror.step, h1, Except.toOption]
    exact ⟨I.zone, fun r hr c hc => I.present r hr c (present_of h2 (by simp) hc), fun r hr hcp => by cases hcp⟩
  | @repair z idx lbas rd r ok d' hf hend hr hd =>
    have key : ∀ x ∈ s.live, ∀ c, Holds s.d c x → Holds d' c x := by
      intro x hx c hh i hi
      by_cases hc : stAt s.m c = some .rebuilding
      · by_cases hz : x.1 = z
        · have h4 := I.zone x hx
          have h5 := hend x hx hz
          unfold ext at h4 h5
          dsimp only at h4 h5
          rw [hz] at h4
          cases ok with
          | true =>
            obtain ⟨s0, h6, h7⟩ := Mirror.C15_copies hf hr hd hc (a := x.2.1 + i) (by omega) (by omega)
            rw [h7]
            exact I.present x hx s0 h6 i hi
          | false =>
            cases hd with
            | failed ws ws' b hs =>
              unfold Mirror.repairZone at hr
              split at hr
              · rename_i start end_ hfp hrange
                simp only at hr
                split at hr
                · cases hr
                  cases hs
                  exact hh i hi
                · cases hr
                  refine Mirror.applyAll_covered _ (fun y => y = padBlock x.2.2 i) ?_ _ (Or.inl (hh i hi))
                  intro w hw hcov
                  obtain ⟨-, -, -, s0, hs0, hv⟩ := Mirror.repair_writes hf _ _ _ _ _ w (hs.subset hw)
                  obtain ⟨c1, c2, c3⟩ := hcov
                  refine ⟨_, hv (x.2.1 + i - w.lba) (by omega), ?_⟩
                  rw [show w.lba + (x.2.1 + i - w.lba) = x.2.1 + i by omega]
                  exact I.present x hx s0 (Mirror.mem_positions.mp hs0) i hi
              · cases hr
        · have h4 := I.zone x hx
          unfold ext at h4
          dsimp only at h4
          have h5 := zs.size z
          rw [Mirror.C15_nothing_else hf hr hd (Or.inr ?_)]
          · exact hh i hi
          · rcases zs.apart x.1 z hz with h6 | h6
            · exact Or.inl (by omega)
            · exact Or.inr (Or.inr (by omega))
      · rw [Mirror.C15_nothing_else hf hr hd (Or.inl hc)]
        exact hh i hi
    refine ⟨I.zone, fun x hx c hc => key x hx c (I.present x hx c hc), ?_⟩
    intro x hx hcp c hc
    by_cases hz : ok = true ∧ x.1 = z
    · obtain ⟨rfl, hz⟩ := hz
      intro i hi
      have h4 := I.zone x hx
      have h5 := hend x hx hz
      unfold ext at h4 h5
      dsimp only at h4 h5
      rw [hz] at h4
      obtain ⟨s0, h6, h7⟩ := Mirror.C15_copies hf hr hd hc (a := x.2.1 + i) (by omega) (by omega)
      exact h7.trans (I.present x hx s0 h6 i hi)
    · refine key x hx c (I.copied x hx ?_ c hc)
      dsimp only at hcp
      split at hcp
      · rename_i ho
        rcases List.mem_cons.mp hcp with h | h
        · exact absurd ⟨ho, h⟩ hz
        · exact h
      · exact hcp
  | @restore m' h1 h2 =>
    have key : ∀ c, (stAt m' c = some .present → stAt s.m c = some .present ∨ stAt s.m c = some .rebuilding) ∧
        stAt m' c ≠ some .rebuilding := by
      intro c
      have h3 := Mirror.restore_at h2 c
      unfold stAt
      rw [h3]
      cases hm : s.m[c]? with
      | none => simp
      | some ch => cases hs : ch.st <;> simp [Mirror.Child.isRebuilding, hs]
    refine ⟨I.zone, ?_, fun r hr hcp c hc => absurd hc (key c).2⟩
    intro r hr c hc
    rcases (key c).1 hc with h3 | h3
    · exact I.present r hr c h3
    · exact I.copied r hr (h1 r hr) c h3

theorem inv_reach {uuid mu : Nat} {lim : Nat → Nat × Nat} (zs : Zones lim) {m0 : Mirror} {s : State}
    (h : Reach uuid mu lim m0 s) : Inv lim s := by
  induction h with
  | new d => exact ⟨fun r hr => (by cases hr), fun r hr => (by cases hr), fun r hr => (by cases hr)⟩
  | step _ h ih => exact inv_step zs ih h

/-! ### Properties -/

variable {V : Type}

/-- C84: whatever was written, deleted and erased, and whatever disks were taken out of service,
added and rebuilt, every disk that is in service holds every record, padded with zeros. -/
theorem C84_copies {uuid mu : Nat} {lim : Nat → Nat × Nat} (zs : Zones lim) {m0 : Mirror} {s : State}
    (h : Reach uuid mu lim m0 s) {z lba : Nat} {b : Buf} (hr : (z, lba, b) ∈ s.live) {c : Nat}
    (hc : stAt s.m c = some .present) : held s.d c lba (blocks b.length) = pad b :=
  held_of_holds (r := (z, lba, b)) ((inv_reach zs h).present _ hr c hc)

theorem written_facts {en : Env V} (gd : en.Good) {p : DRP} {v : V} {b : Buf} (hw : Written en p v b) :
    p.checksum = en.hash b ∧ p.csize = b.length := by
  obtain ⟨c, mk, he, hd⟩ := hw
  have f := Ddml.encode_facts gd he p.pba
  rw [← hd] at f
  exact ⟨f.2.2.1, f.2.1⟩

/-- C84: a record is read as it was stored, if the disks deliver what they hold or an error, and
one in service delivers. -/
theorem C84_read {uuid mu : Nat} {lim : Nat → Nat × Nat} (zs : Zones lim) {m0 : Mirror} {s : State}
    (h : Reach uuid mu lim m0 s) {z lba : Nat} {b : Buf} (hr : (z, lba, b) ∈ s.live)
    {en : Env V} (gd : en.Good) {p : DRP} {v : V} (hw : Written en p v b) (idx : Nat)
    {dev : Nat → Except Mirror.Err Buf}
    (hdev : ∀ c, stAt s.m c = some .present → dev c = .ok (held s.d c lba p.asize) ∨ ∃ e, dev c = .error e)
    (hone : ∃ c x, stAt s.m c = some .present ∧ dev c = .ok x) (rl : Except Ddml.Err (List Buf)) :
    getDirect en p (readAt s.m idx dev) rl = .ok v := by
  have hcs := (written_facts gd hw).2
  obtain ⟨-, h2, h3, h4, -⟩ := Mirror.C14_read s.m idx dev
  obtain ⟨x, hx⟩ := h4 hone
  obtain ⟨c, hc, he⟩ := h3 x hx
  have hp := h2 c hc
  have hx2 : x = pad b := by
    rcases hdev c hp with h5 | ⟨e, h5⟩
    · rw [h5] at he
      cases he
      have := C84_copies zs h hr hp
      rw [← this, DRP.asize, hcs]
    · rw [h5] at he
      cases he
  unfold readAt lift
  rw [hx]
  exact Ddml.getDirect_copy gd hw (by rw [hx2, hcs, Ddml.take_pad]) rl

/-- **C84, in part.**  Disks may also deliver anything else.  If one of those in service, of which
there are at least two, delivers what it holds, the record is read as it was stored, provided that
it fills its blocks and that the hash separates it from all else.  Missing: other records, see
`C84_partial_block_counterexample`. -/
theorem C84_corrupt_partial {uuid mu : Nat} {lim : Nat → Nat × Nat} (zs : Zones lim) {m0 : Mirror} {s : State}
    (h : Reach uuid mu lim m0 s) {z lba : Nat} {b : Buf} (hr : (z, lba, b) ∈ s.live)
    {en : Env V} (gd : en.Good) {p : DRP} {v : V} (hw : Written en p v b) (nc : NoCollision en b)
    (hwhole : b.length % lbaBytes = 0) (idx : Nat) {order : List Nat} (hn : order.Nodup)
    (ho : ∀ c, c ∈ order ↔ stAt s.m c = some .present) (h2 : 2 ≤ order.length)
    {dev dev2 : Nat → Except Mirror.Err Buf}
    {c0 : Nat} (hc0 : stAt s.m c0 = some .present) (hd1 : dev c0 = .ok (held s.d c0 lba p.asize))
    (hd2 : dev2 c0 = .ok (held s.d c0 lba p.asize)) :
    getDirect en p (readAt s.m idx dev) (readLong s.m order dev2) = .ok v := by
  obtain ⟨hck, hcs⟩ := written_facts gd hw
  have hheld : held s.d c0 lba p.asize = pad b := by
    rw [DRP.asize, hcs]; exact C84_copies zs h hr hc0
  obtain ⟨-, -, -, h4, -⟩ := Mirror.C14_read s.m idx dev
  obtain ⟨full, hx⟩ := h4 ⟨c0, _, hc0, hd1⟩
  obtain ⟨-, h5, h6⟩ := Mirror.C14_read_long s.m order dev2 ho hn
  unfold readAt readLong lift
  rw [hx]
  dsimp only
  cases hl : Mirror.readLong s.m order dev2 with
  | error e =>
    exfalso
    rcases h6 e hl with h7 | h7
    · omega
    · obtain ⟨e', he⟩ := h7 c0 hc0
      rw [hd2] at he
      cases he
  | ok recs =>
    dsimp only
    by_cases hh : en.hash (full.take p.csize) = en.hash b
    · exact Ddml.getDirect_copy gd hw (nc _ hh) _
    · exact Ddml.C35_recovers_partial en gd p v b hw full recs hh
        ((h5 recs hl _).mpr ⟨c0, hc0, by rw [hd2, hheld]⟩) (fun r _ hr => nc r hr) hwhole

theorem tryRecon_cases {en : Env V} (gd : en.Good) {p : DRP} {v : V} {b : Buf} (hw : Written en p v b)
    (nc : NoCollision en b) (recs : List Buf) :
    Ddml.tryRecon en p recs = .ok (en.ser v) ∨ Ddml.tryRecon en p recs = .err .eintegrity := by
  obtain ⟨c, mk, he, hd⟩ := hw
  have f := Ddml.encode_facts gd he p.pba
  rw [← hd] at f
  obtain ⟨-, hcs, hck, -, hdec, -⟩ := f
  induction recs with
  | nil => exact Or.inr rfl
  | cons r rest ih =>
    unfold Ddml.tryRecon
    by_cases hh : en.hash r = p.checksum
    · rw [if_pos hh]
      have hb : r = b := nc r (by rw [hh, hck])
      subst hb
      rcases hdec with ⟨h1, h2⟩ | ⟨h1, h2⟩
      · rw [h1, if_neg (by simp), if_pos hcs.symm, h2]; exact Or.inl rfl
      · rw [h1, if_pos rfl, h2]; exact Or.inl rfl
    · rw [if_neg hh]
      exact ih

/-- C84: whatever the disks deliver, the client never gets a wrong record, if the hash separates
the right one from all else. -/
theorem C84_never_wrong {en : Env V} (gd : en.Good) {p : DRP} {v : V} {b : Buf} (hw : Written en p v b)
    (nc : NoCollision en b) (m : Mirror) (idx : Nat) (order : List Nat) (dev dev2 : Nat → Except Mirror.Err Buf) :
    getDirect en p (readAt m idx dev) (readLong m order dev2) = .ok v ∨
      ∃ e, getDirect en p (readAt m idx dev) (readLong m order dev2) = .err e := by
  cases hr : readAt m idx dev with
  | error e => exact Or.inr ⟨e, rfl⟩
  | ok full =>
    by_cases hh : en.hash (full.take p.csize) = en.hash b
    · exact Or.inl (Ddml.getDirect_copy gd hw (nc _ hh) _)
    · have hck := (written_facts gd hw).1
      unfold getDirect Ddml.readRec
      dsimp only
      rw [hck, if_neg hh]
      cases readLong m order dev2 with
      | error e => exact Or.inr ⟨e, rfl⟩
      | ok recs =>
        dsimp only
        rcases tryRecon_cases gd hw nc recs with h | h
        · rw [h]; left; simp [gd.ser]
        · rw [h]; exact Or.inr ⟨_, rfl⟩

/-! ### A case that meets the hypotheses -/

def exLim (z : Nat) : Nat × Nat := (z * 10, z * 10 + 10)

theorem exLim_zones : Zones exLim := ⟨fun z => by simp [exLim], fun z z' h => by simp only [exLim]; omega⟩

/-- Two disks in service. -/
def exM : Mirror := [⟨10, .present, 100, 10⟩, ⟨11, .present, 100, 10⟩]

def exRec : Buf := List.replicate lbaBytes 9

/-- After a record was written. -/
def ex1 (d : Disks Buf) : State :=
  { m := exM, d := applyAll (writes exM exRec 23) d, live := [(2, 23, exRec)], copied := [] }

theorem ex1_reach (d : Disks Buf) : Reach 1 2 exLim exM (ex1 d) :=
  .step (.new d) (.write (z := 2) (by decide) (by decide +kernel) (fun r hr => by cases hr))

/-- Disk 11 is taken out of service and then rebuilt: the zone is copied, and it is restored. -/
example (d : Disks Buf) : ∃ s, Reach 1 2 exLim exM s ∧ (2, 23, exRec) ∈ s.live ∧
    stAt s.m 1 = some .present ∧ s.copied = [2] := by
  let rd : Disks Buf → Nat → Nat → Nat → Option (List Buf) := fun d c a n => some ((List.range n).map fun k => d c (a + k))
  have hf : ∀ d, Mirror.Faithful d (rd d) := fun d c a n b h => by cases h; rfl
  have h1 : Reach 1 2 exLim exM { ex1 d with m := [⟨10, .present, 100, 10⟩, ⟨11, .faulted, 100, 10⟩] } :=
    .step (ex1_reach d) (.fault (u := 11) (by rfl))
  have h2 : Reach 1 2 exLim exM { ex1 d with m := [⟨10, .present, 100, 10⟩, ⟨11, .rebuilding, 100, 10⟩], copied := [] } :=
    .step h1 (.rebuild (u := 11) (by rfl))
  obtain ⟨ws, hws⟩ := Mirror.C15_no_read_error (m := [⟨10, .present, 100, 10⟩, ⟨11, .rebuilding, 100, 10⟩]) 0
    (lim := exLim 2) (lbas := some 4) (rd := rd (ex1 d).d) (p := 0) rfl (fun n h => by cases h; decide) (fun _ _ _ _ _ _ => rfl)
  have h3 := Reach.step h2 (.repair (z := 2) (hf _) (fun x hx _ => by
    have hx : x ∈ [(2, 23, exRec)] := hx
    rw [List.mem_singleton] at hx
    subst hx
    decide +kernel) hws (.ok ws))
  refine ⟨_, .step h3 (.restore (fun r hr => ?_) (by rfl)), List.mem_singleton.mpr rfl, rfl, rfl⟩
  have hr : r ∈ [(2, 23, exRec)] := hr
  rw [List.mem_singleton] at hr
  subst hr
  exact List.mem_singleton.mpr rfl

theorem exRec_written : Written Ddml.nineEnv ⟨⟨0, 23⟩, false, 4096, 4096, 1⟩ exRec exRec := by
  have := Ddml.written_plain Ddml.nineEnv exRec ⟨0, 23⟩ (by
    show exRec.length < _
    unfold exRec
    rw [List.length_replicate]; decide)
  have e : (Ddml.nineEnv.ser exRec).length = 4096 := List.length_replicate
  have e' : Ddml.nineEnv.hash (Ddml.nineEnv.ser exRec) = 1 := by simp [Ddml.nineEnv, Ddml.toyEnv, exRec]
  rwa [e, e'] at this

theorem exRec_noCollision : NoCollision Ddml.nineEnv exRec := by
  intro r hr
  simp only [Ddml.nineEnv, exRec, if_true] at hr
  split at hr
  · assumption
  · simp at hr

/-- The first disk delivers zeros, the second what it holds: the record is read. -/
example (d : Disks Buf) : getDirect Ddml.nineEnv ⟨⟨0, 23⟩, false, 4096, 4096, 1⟩
    (readAt exM 0 fun c => if c = 0 then .ok (List.replicate 4096 0) else .ok (held (ex1 d).d c 23 1))
    (readLong exM [1, 0] fun c => if c = 0 then .ok (List.replicate 4096 0) else .ok (held (ex1 d).d c 23 1)) =
      .ok exRec := by
  have ha : DRP.asize ⟨⟨0, 23⟩, false, 4096, 4096, 1⟩ = 1 := by decide
  refine C84_corrupt_partial exLim_zones (ex1_reach d) (List.mem_singleton.mpr rfl) ⟨Ddml.toyCodec_good, fun _ => rfl⟩
    exRec_written exRec_noCollision (by unfold exRec; rw [List.length_replicate]; decide) 0 (by decide) ?_ (by decide)
    (c0 := 1) rfl ?_ ?_
  · intro c
    show c ∈ [1, 0] ↔ stAt exM c = some .present
    match c with
    | 0 => decide
    | 1 => decide
    | c + 2 => simp [stAt, exM]
  · rw [ha]; rfl
  · rw [ha]; rfl

/-! ### What the code does not do -/

/-- **C84 is violated** for a record that does not fill its last block.  One disk of two delivers
bytes of a wrong hash, the other the record.  If it happens to be the first one's turn, the record
cannot be read.  (`read_long` delivers whole blocks, which are hashed with their padding.) -/
theorem C84_partial_block_counterexample {en : Env V} (gd : en.Good) {p : DRP} {v : V} {b : Buf} (hw : Written en p v b)
    (nc : NoCollision en b) (hpart : b.length % lbaBytes ≠ 0) {bad : Buf} (hbad : bad.take b.length ≠ b)
    (hl : bad.length = blocks b.length * lbaBytes) :
    getDirect en p (readAt exM 0 fun c => if c = 0 then .ok bad else .ok (pad b))
      (readLong exM [0, 1] fun c => if c = 0 then .ok bad else .ok (pad b)) = .err .eintegrity ∧
    getDirect en p (readAt exM 1 fun c => if c = 0 then .ok bad else .ok (pad b))
      (readLong exM [0, 1] fun c => if c = 0 then .ok bad else .ok (pad b)) = .ok v := by
  obtain ⟨hck, hcs⟩ := written_facts gd hw
  have r0 : ∀ dev : Nat → Except Mirror.Err Buf, dev 0 = .ok bad → readAt exM 0 dev = .ok bad := by
    intro dev h
    have h1 : Mirror.readSomething exM 0 = (some 0, [1]) := by decide
    unfold readAt Mirror.read
    rw [h1]
    dsimp only
    unfold Mirror.readLoop
    rw [h]
    rfl
  have r1 : ∀ dev : Nat → Except Mirror.Err Buf, dev 1 = .ok (pad b) → readAt exM 1 dev = .ok (pad b) := by
    intro dev h
    have h1 : Mirror.readSomething exM 1 = (some 1, [0]) := by decide
    unfold readAt Mirror.read
    rw [h1]
    dsimp only
    unfold Mirror.readLoop
    rw [h]
    rfl
  have rl : readLong exM [0, 1] (fun c => if c = 0 then .ok bad else .ok (pad b)) = .ok [bad, pad b] := rfl
  refine ⟨?_, ?_⟩
  · rw [r0 _ rfl, rl]
    unfold getDirect Ddml.readRec
    dsimp only
    rw [hcs, hck, if_neg (fun h => hbad (nc _ h))]
    have hne : ∀ r : Buf, r.length = blocks b.length * lbaBytes → ¬ en.hash r = p.checksum := by
      intro r hr h
      rw [hck] at h
      have := nc r h
      rw [this] at hr
      unfold blocks lbaBytes at *
      omega
    unfold Ddml.tryRecon
    rw [if_neg (hne bad hl)]
    unfold Ddml.tryRecon
    rw [if_neg (hne _ (Ddml.length_pad b))]
    rfl
  · rw [r1 _ rfl]
    exact Ddml.getDirect_copy gd hw (by rw [hcs, Ddml.take_pad]) _

/-- Such records exist. -/
example : ∃ (en : Env Buf) (p : DRP) (b : Buf), en.Good ∧ Written en p b b ∧ NoCollision en b ∧ b.length % lbaBytes ≠ 0 := by
  let en : Env Buf := { Ddml.toyEnv with hash := fun b => if b = [7] then 1 else 0 }
  refine ⟨en, ⟨⟨0, 0⟩, false, 1, 1, 1⟩, [7], ⟨Ddml.toyCodec_good, fun _ => rfl⟩, ?_, ?_, by decide⟩
  · have := Ddml.written_plain en [7] ⟨0, 0⟩ (by decide)
    exact this
  · intro r hr
    have hr : (if r = [7] then (1 : UInt64) else 0) = (if ([7] : Buf) = [7] then 1 else 0) := hr
    split at hr
    · assumption
    · simp at hr

/-- **A rebuild spreads a wrong copy.**  Of the two disks in service the first holds a wrong block
where the second holds the right one.  A third is rebuilt; the copy is made from the first disk,
without a check.  When the second disk is lost, so is the block, although there were two disks when
it was rebuilt and only one was bad. -/
theorem C84_spreads_counterexample (good bad : Buf) (h : bad ≠ good) :
    ∃ (m m1 m2 : Mirror) (d d' : Disks Buf) (rd : Nat → Nat → Nat → Option (List Buf)) (r : List (Wr Buf) × Bool),
      (∃ c, stAt m c = some .present ∧ d c 0 = good) ∧ Mirror.Faithful d rd ∧
      Mirror.repairZone m 0 (0, 1) none rd = some r ∧ Mirror.Repaired d r true d' ∧
      Mirror.restore m = some m1 ∧ fault 1 m1 11 = .ok m2 ∧
      (∃ c, stAt m2 c = some .present) ∧ ∀ c, stAt m2 c = some .present → d' c 0 ≠ good := by
  let rd : Nat → Nat → Nat → Option (List Buf) := fun c a n =>
    some ((List.range n).map fun k => if c = 1 then good else bad)
  have hr : Mirror.repairZone [⟨10, .present, 100, 10⟩, ⟨11, .present, 100, 10⟩, ⟨12, .rebuilding, 100, 10⟩] 0 (0, 1) none rd =
      some ([⟨2, 0, [bad]⟩], true) := by
    have e1 : Mirror.repairRead rd [0, 1] 0 0 1 = ([[bad]], true) := by
      unfold Mirror.repairRead
      unfold Mirror.repairRead
      rfl
    have e2 : Mirror.positions [⟨10, .present, 100, 10⟩, ⟨11, .present, 100, 10⟩, ⟨12, .rebuilding, 100, 10⟩] .present = [0, 1] := by
      decide
    have e3 : Mirror.positions [⟨10, .present, 100, 10⟩, ⟨11, .present, 100, 10⟩, ⟨12, .rebuilding, 100, 10⟩] .rebuilding = [2] := by
      decide
    have e0 : Mirror.firstPresent [⟨10, .present, 100, 10⟩, ⟨11, .present, 100, 10⟩, ⟨12, .rebuilding, 100, 10⟩] =
        some ⟨10, .present, 100, 10⟩ := by decide
    simp only [Mirror.repairZone, Mirror.repairRange, e0, e1, e2, e3]
    rfl
  refine ⟨_, _, _, fun c _ => if c = 1 then good else bad, _, rd, _, ⟨1, rfl, rfl⟩, ?_, hr, .ok _, rfl, rfl, ⟨0, rfl⟩, ?_⟩
  · intro c a n b hb
    cases hb
    rfl
  · intro c hc
    match c with
    | 0 => exact h
    | 1 => cases hc
    | 2 => exact h
    | c + 3 => simp [stAt, Mirror.Child.fault, Mirror.Child.isRebuilding] at hc

end Verif.NullRaid
