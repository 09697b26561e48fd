import Verif.Idml.Steps
import Verif.Ddml.Props

/-!
# Properties of the indirect layer: C36, C37
-/

namespace Verif.Idml

open Verif.Bytes (Byte Buf lbaBytes)
open Verif.Ddml (Err Res Compression PBA DRP Env Pool readRec encode inExtent getDirect blocks u32Max
  Fresh Apart toyEnv toyEnv_good)
open Verif (OMap)

variable {V : Type}

/-! ## C36 -/

/-- **C36 (partial).** After every history of put, get, delete, pop, zone cleaning, cache evictions,
exports and imports, each call does what a map from ids to records does: a live record is found under
its id with the contents stored, wherever cleaning has moved it; an id that was deleted or popped is
not found; nothing panics.

Full statement: the same with device errors during pop and cleaning, and with operations that
overlap.  Both are false: `C36_failed_clean`, `C36_failed_pop`. -/
theorem C36_history_partial (en : Env V) (g : en.Good) (s : State V) (k : Client V)
    (r : Reach en s k) (dk : Disk) (op : Op V) (hv : Valid en dk k op) (hf : Faithful dk s op)
    (hx : NoFailure dk op) : Expected k dk op (step en dk s op).2 :=
  ((reach_inv g r).step g dk op hv hf hx).2

/-- **C36 (partial).** After every such history the two tables are exact inverses of each other, no
two records share a block, and the table's ids are exactly the client's. -/
theorem C36_tables_partial (en : Env V) (g : en.Good) (s : State V) (k : Client V)
    (r : Reach en s k) :
    Inverse s.ridt s.alloct ∧
    (∀ r1 r2 e1 e2, s.ridt.get r1 = some e1 → s.ridt.get r2 = some e2 → r1 ≠ r2 →
      ∀ q, ¬ (inExtent q (e1.drp.pba, e1.drp.asize) = true ∧
              inExtent q (e2.drp.pba, e2.drp.asize) = true)) ∧
    ∀ rid, (s.ridt.get rid).isSome = (k.held.get rid).isSome := by
  have i := reach_inv g r
  refine ⟨?_, ?_, ?_⟩
  · intro rid pba
    constructor
    · rintro ⟨e, h1, h2⟩
      rw [← h2]
      exact i.core.fwd rid e h1
    · exact i.bwd pba rid
  · intro r1 r2 e1 e2 h1 h2 hr q ⟨h3, h4⟩
    have := i.core.apart r1 r2 e1 e2 h1 h2 hr q h3
    rw [show ext e2 = (e2.drp.pba, e2.drp.asize) from rfl, h4] at this
    cases this
  · intro rid
    cases h : s.ridt.get rid with
    | none => rw [held_none i h]; rfl
    | some e =>
      obtain ⟨v, b, h1, _⟩ := i.core.entry rid e h
      rw [h1]; rfl

theorem mapM_ext_perm {en : Env V} {s : State V} {k : Client V} (i : Inv en s k) :
    s.pool.live.Perm (s.ridt.map fun x => ext x.2) := by
  have hnd : (s.ridt.map fun x => ext x.2).Nodup := by
    rw [List.nodup_iff_pairwise_ne, List.pairwise_map]
    refine List.Pairwise.imp_of_mem ?_ i.core.sorted
    intro x y hx hy hlt
    exact i.core.ext_ne (OMap.get_of_mem i.core.sorted hx) (OMap.get_of_mem i.core.sorted hy)
      (Nat.ne_of_lt hlt)
  rw [List.perm_ext_iff_of_nodup i.core.nodup hnd]
  intro x
  rw [i.core.live, List.mem_map]
  constructor
  · rintro ⟨rid, e, h1, h2⟩
    exact ⟨(rid, e), OMap.mem_of_get h1, h2.symm⟩
  · rintro ⟨y, h1, h2⟩
    exact ⟨y.1, y.2, OMap.get_of_mem i.core.sorted h1, h2.symm⟩

/-- **C36 (partial).** So the consistency check passes after every such history, with the space the
pool counts as allocated. -/
theorem C36_check_passes_partial (en : Env V) (g : en.Good) (s : State V) (k : Client V)
    (r : Reach en s k) : checkRidt s (s.pool.live.map Prod.snd).sum = true := by
  have i := reach_inv g r
  unfold checkRidt
  simp only [Bool.and_eq_true, List.all_eq_true, decide_eq_true_eq]
  refine ⟨⟨?_, ?_⟩, ?_⟩
  · intro x hx
    obtain ⟨e, h1, h2⟩ := i.bwd x.1 x.2 (AMap.get_of_mem i.core.keyed hx)
    simp [h1, h2]
  · intro x hx
    have := OMap.get_of_mem i.core.sorted hx
    rw [i.core.fwd x.1 x.2 this]
    rfl
  · have := ((mapM_ext_perm i).map Prod.snd).sum_nat
    rw [this, List.map_map]
    rfl

/-- **C36.** Cleaning a zone moves every record out of it and changes no record. -/
theorem C36_clean (en : Env V) (g : en.Good) (s : State V) (k : Client V) (r : Reach en s k)
    (dk : Disk) (z : PBA × Nat) (hv : Valid en dk k (.clean z)) (hf : dk.Faithful)
    (hx : dk.NoError) :
    let s' := (cleanZone en dk s z).1
    (∀ rid e, s'.ridt.get rid = some e → inExtent e.drp.pba z = false) ∧
    (∀ p, inExtent p z = true → s'.alloct.get p = none) ∧
    ∀ rid v, k.held.get rid = some v → ∀ dk', dk'.Faithful → dk'.NoError →
      (get en dk' s' rid).2 = .ok v := by
  have i := reach_inv g r
  obtain ⟨s', h1, h2, h3⟩ := i.cleanZone hf hx z hv
  simp only [h1]
  refine ⟨h3, ?_, ?_⟩
  · intro p hp
    cases h : s'.alloct.get p with
    | none => rfl
    | some rid =>
      obtain ⟨e, h4, h5⟩ := h2.bwd p rid h
      have := h3 rid e h4
      rw [h5, hp] at this
      cases this
  · intro rid v hh dk' hf' hx'
    have := (h2.step g dk' (.get rid) trivial hf' trivial).2
    obtain ⟨r, h4, h5⟩ := this
    simp only [step] at h4
    injection h4 with h4
    rw [h4]
    simp only [Finds, hh] at h5
    rcases h5 with h5 | ⟨p, d, e, h5, _⟩
    · exact h5
    · exact absurd h5 (hx'.1 _ _ _)

/-! ### A concrete history -/

/-- A disk that works and allocates at the first block of cluster `c` after all allocated ones. -/
def goodDisk (c : Nat) : Disk where
  rd := fun p d => .ok (p.read d.pba d.asize)
  rl := fun _ _ => .ok []
  wr := fun p _ => .ok ⟨c, (p.live.map fun e => e.1.lba + e.2).sum⟩

theorem goodDisk_fresh (c : Nat) (p : Pool) (n : Nat) (pba : PBA)
    (h : (goodDisk c).wr p n = .ok pba) : Fresh p pba n ∧ pba.cluster = c := by
  simp only [goodDisk, Except.ok.injEq] at h
  subst h
  refine ⟨?_, rfl⟩
  intro e he q hq
  have key : ∀ l : List (PBA × Nat), e ∈ l → e.1.lba + e.2 ≤ (l.map fun e => e.1.lba + e.2).sum := by
    intro l
    induction l with
    | nil => intro h; cases h
    | cons a t ih =>
      intro h
      rw [List.map_cons, List.sum_cons]
      rcases List.mem_cons.1 h with rfl | h
      · omega
      · have := ih h; omega
  have := key _ he
  simp only [inExtent, Bool.and_eq_true, decide_eq_true_eq] at hq
  simp only [inExtent, Bool.and_eq_false_iff, decide_eq_false_iff_not]
  omega

theorem goodDisk_faithful (c : Nat) : (goodDisk c).Faithful := fun _ _ => Or.inl rfl

theorem goodDisk_noError (c : Nat) : (goodDisk c).NoError :=
  ⟨fun _ _ _ h => (nomatch h), fun _ _ _ h => (nomatch h)⟩

/-- The hypotheses are met by: store two records, clean their zone into another cluster, delete one.
The other is then found at its new address. -/
example : ∃ s k, Reach toyEnv s k ∧ k.held.get 1 = some [6, 7] ∧ k.held.get 0 = none ∧
    (∃ e, s.ridt.get 1 = some e ∧ e.drp.pba.cluster = 9) ∧ k.issued = [1, 0] := by
  have r0 : Reach toyEnv (create fun _ => []) ⟨[], []⟩ := .create _
  have r1 := r0.step (goodDisk 0) (.put [5] .none)
    ⟨by decide, by decide, fun p n pba h => (goodDisk_fresh 0 p n pba h).1⟩
    (goodDisk_faithful 0) trivial
  have r2 := r1.step (goodDisk 0) (.put [6, 7] .none)
    ⟨by decide, by decide, fun p n pba h => (goodDisk_fresh 0 p n pba h).1⟩
    (goodDisk_faithful 0) trivial
  have r3 := r2.step (goodDisk 9) (.clean (⟨0, 0⟩, 100))
    (fun p n pba h => ⟨(goodDisk_fresh 9 p n pba h).1, by
      simp [inExtent, (goodDisk_fresh 9 p n pba h).2]⟩)
    (goodDisk_faithful 9) (goodDisk_noError 9)
  have r4 := r3.step (goodDisk 0) (.delete 0)
    (show Option.isSome _ = true by decide +kernel)
    (goodDisk_faithful 0) trivial
  refine ⟨_, _, r4, by decide +kernel, by decide +kernel, ?_, by decide +kernel⟩
  refine ⟨⟨⟨⟨9, 3⟩, false, 2, 2, Ddml.toyHash [6, 7]⟩, 1⟩, by decide +kernel, rfl⟩

/-! ### What goes wrong -/

def put1 : State Buf := (put toyEnv (goodDisk 0) (create fun _ => []) [5] .none).1

def put2 : State Buf := (put toyEnv (goodDisk 0) put1 [6, 7] .none).1

/-- A disk on which only the first write to cluster 9 succeeds. -/
def flakyDisk : Disk where
  rd := fun p d => .ok (p.read d.pba d.asize)
  rl := fun _ _ => .ok []
  wr := fun p _ => if p.live.any (fun e => e.1.cluster = 9) then .error (.other 5) else .ok ⟨9, 0⟩

/-- **C36 fails after an I/O error during cleaning.**  Cleaning stops at the first failed write and
leaves the AllocT's old entries in place.  The record moved before the failure is then listed under
two addresses, and the consistency check fails.  If that record is deleted and the zone cleaned
again, without any further error, the program panics. -/
theorem C36_failed_clean :
    let s1 := cleanZone toyEnv flakyDisk put2 (⟨0, 0⟩, 100)
    s1.2 = .err (.other 5) ∧ ¬ Inverse s1.1.ridt s1.1.alloct ∧
    checkRidt s1.1 (s1.1.pool.live.map Prod.snd).sum = false ∧
    let s2 := delete s1.1 1
    s2.2 = .ok () ∧ (cleanZone toyEnv (goodDisk 8) s2.1 (⟨0, 0⟩, 100)).2 = .panic := by
  refine ⟨by decide +kernel, ?_, by decide +kernel, by decide +kernel, by decide +kernel⟩
  intro h
  have h1 : (cleanZone toyEnv flakyDisk put2 (⟨0, 0⟩, 100)).1.alloct.get ⟨0, 1⟩ = some 1 := by
    decide +kernel
  obtain ⟨e, h2, h3⟩ := (h 1 ⟨0, 1⟩).2 h1
  have h4 : ((cleanZone toyEnv flakyDisk put2 (⟨0, 0⟩, 100)).1.ridt.get 1).map (·.drp.pba) =
      some ⟨9, 0⟩ := by decide +kernel
  rw [h2] at h4
  simp [h3] at h4

/-- A disk whose reads fail. -/
def deadDisk : Disk where
  rd := fun _ _ => .error (.other 5)
  rl := fun _ _ => .error (.other 5)
  wr := fun _ _ => .error (.other 5)

/-- **C36 fails after a read error during a pop.**  The removals from the two tables run alongside
the read and are not undone.  If both happened the id is gone although the pop failed, and its blocks
are never freed; if only one happened the tables disagree. -/
theorem C36_failed_pop :
    let s := evict put1 0
    (pop toyEnv deadDisk true true s 0).2 = .err (.other 5) ∧
    (get toyEnv (goodDisk 0) (pop toyEnv deadDisk true true s 0).1 0).2 = .err .enoent ∧
    checkRidt (pop toyEnv deadDisk true true s 0).1
      ((pop toyEnv deadDisk true true s 0).1.pool.live.map Prod.snd).sum = false ∧
    ¬ Inverse (pop toyEnv deadDisk true false s 0).1.ridt
      (pop toyEnv deadDisk true false s 0).1.alloct := by
  refine ⟨by decide +kernel, by decide +kernel, by decide +kernel, ?_⟩
  intro h
  have h1 : ((pop toyEnv deadDisk true false (evict put1 0) 0).1.ridt.get 0).map (·.drp.pba) =
      some ⟨0, 0⟩ := by decide +kernel
  have h2 : (pop toyEnv deadDisk true false (evict put1 0) 0).1.alloct.get ⟨0, 0⟩ = none := by
    decide +kernel
  cases h3 : (pop toyEnv deadDisk true false (evict put1 0) 0).1.ridt.get 0 with
  | none => rw [h3] at h1; cases h1
  | some e =>
    rw [h3] at h1
    have h1 : e.drp.pba = ⟨0, 0⟩ := by simpa using h1
    have := (h 0 ⟨0, 0⟩).1 ⟨e, h3, h1⟩
    rw [h2] at this
    cases this

/-- **The check is not complete.**  It looks at each direction, but for an id only asks whether its
address has some entry, not whether that entry is this id's.  Two ids that share one address pass, as
long as the block count fits. -/
theorem C36_check_misses : ∃ s : State Buf,
    checkRidt s 2 = true ∧ ¬ Inverse s.ridt s.alloct := by
  refine ⟨{ cache := fun _ => none
            ridt := [(0, ⟨⟨⟨0, 0⟩, false, 1, 1, 0⟩, 1⟩), (1, ⟨⟨⟨0, 0⟩, false, 1, 1, 0⟩, 1⟩)]
            alloct := [(⟨0, 0⟩, 0)], next := 2
            pool := ⟨fun _ => [], [(⟨0, 0⟩, 1), (⟨0, 1⟩, 1)]⟩ }, by decide, ?_⟩
  intro h
  have := (h 1 ⟨0, 0⟩).1 ⟨_, rfl, rfl⟩
  simp [AMap.get] at this

/-- But a state that passes with distinct addresses is consistent. -/
theorem C36_check_sound (s : State V) (used : Nat) (h : checkRidt s used = true)
    (hd : ∀ r1 r2 e1 e2, s.ridt.get r1 = some e1 → s.ridt.get r2 = some e2 →
      e1.drp.pba = e2.drp.pba → r1 = r2) : Inverse s.ridt s.alloct := by
  unfold checkRidt at h
  simp only [Bool.and_eq_true, List.all_eq_true, decide_eq_true_eq] at h
  obtain ⟨⟨h1, h2⟩, _⟩ := h
  have hb : ∀ p r, s.alloct.get p = some r → ∃ e, s.ridt.get r = some e ∧ e.drp.pba = p := by
    intro p r hp
    have := h1 _ (AMap.mem_of_get hp)
    dsimp only at this
    split at this
    · rename_i e he
      exact ⟨e, he, by simpa using this⟩
    · cases this
  intro rid pba
  constructor
  · rintro ⟨e, h3, h4⟩
    have := h2 _ (OMap.mem_of_get h3)
    obtain ⟨r, hr⟩ := Option.isSome_iff_exists.1 this
    obtain ⟨e', h5, h6⟩ := hb _ r hr
    have := hd rid r e e' h3 h5 h6.symm
    rw [← h4, hr, this]
  · exact hb pba rid

/-! ## C37: ids are never reused -/

/-- Any history at all: every operation, on devices that may answer anything. -/
inductive AnyReach (en : Env V) : State V → Client V → Prop where
  | create (blk : PBA → Buf) : AnyReach en (create blk) ⟨[], []⟩
  | step {s k} (dk : Disk) (op : Op V) : AnyReach en s k →
      AnyReach en (step en dk s op).1 (k.next op (step en dk s op).2)

theorem moveRecord_next (en : Env V) (dk : Disk) (s : State V) (rid : Nat) :
    (moveRecord en dk s rid).1.next = s.next := by
  unfold moveRecord
  repeat' split
  all_goals rfl

theorem moveAll_next (en : Env V) (dk : Disk) (l : List Nat) (s : State V) :
    (moveAll en dk s l).1.next = s.next := by
  induction l generalizing s with
  | nil => rfl
  | cons r t ih =>
    have h := moveRecord_next en dk s r
    unfold moveAll
    split
    · rename_i s' _ he
      rw [he] at h
      rw [ih]; exact h
    · exact h

theorem next_step (en : Env V) (dk : Disk) (s : State V) (op : Op V) :
    s.next ≤ (step en dk s op).1.next ∧
    ∀ r, (step en dk s op).2 = .rid (.ok r) → r = s.next ∧ s.next < (step en dk s op).1.next := by
  cases op with
  | put v c =>
    simp only [step, put]
    repeat' split
    all_goals simp
    all_goals (try omega)
    all_goals (intro r h; omega)
  | get rid =>
    refine ⟨?_, fun r h => by simp [step] at h⟩
    simp only [step, get]
    repeat' split
    all_goals exact Nat.le_refl _
  | delete rid =>
    refine ⟨?_, fun r h => by simp [step] at h⟩
    simp only [step, delete]
    repeat' split
    all_goals exact Nat.le_refl _
  | pop rid a b =>
    refine ⟨?_, fun r h => by simp [step] at h⟩
    simp only [step, pop]
    repeat' split
    all_goals exact Nat.le_refl _
  | clean z =>
    refine ⟨?_, fun r h => by simp [step] at h⟩
    have h := moveAll_next en dk ((s.alloct.range z).map Prod.snd) s
    simp only [step, cleanZone]
    split
    · rename_i he
      rw [he] at h
      exact Nat.le_of_eq h.symm
    · exact Nat.le_of_eq h.symm
  | evict rid => exact ⟨Nat.le_refl _, fun r h => by simp [step] at h⟩
  | reopen => exact ⟨Nat.le_refl _, fun r h => by simp [step] at h⟩
  | disturb f => exact ⟨Nat.le_refl _, fun r h => by simp [step] at h⟩

/-- **C37.** No two puts return the same id, in any history of operations, exports and imports, with
any device failures. -/
theorem C37_unique (en : Env V) (s : State V) (k : Client V) (r : AnyReach en s k) :
    k.issued.Nodup := by
  suffices h : k.issued.Nodup ∧ ∀ x ∈ k.issued, x < s.next from h.1
  induction r with
  | create blk => simp
  | @step s k dk op _ ih =>
    obtain ⟨h1, h2⟩ := next_step en dk s op
    by_cases hp : ∃ r, (step en dk s op).2 = .rid (.ok r)
    · obtain ⟨r, hr⟩ := hp
      obtain ⟨h3, h4⟩ := h2 r hr
      have : ((k.next op (step en dk s op).2).issued = r :: k.issued) ∨
          (k.next op (step en dk s op).2).issued = k.issued := by
        rw [hr]
        cases op <;> simp [Client.next]
      rcases this with e | e
      · rw [e]
        refine ⟨List.nodup_cons.2 ⟨?_, ih.1⟩, ?_⟩
        · intro hm; have := ih.2 _ hm; omega
        · intro x hx
          rcases List.mem_cons.1 hx with rfl | hx
          · omega
          · have := ih.2 x hx; omega
      · rw [e]; exact ⟨ih.1, fun x hx => Nat.lt_of_lt_of_le (ih.2 x hx) h1⟩
    · have : (k.next op (step en dk s op).2).issued = k.issued := by
        cases op with
        | put v c =>
          simp only [step, Client.next] at hp ⊢
          split <;> rename_i h1 h2 <;> simp_all
        | _ => simp only [step, Client.next] <;> (repeat' split) <;> simp_all
      rw [this]
      exact ⟨ih.1, fun x hx => Nat.lt_of_lt_of_le (ih.2 x hx) h1⟩

/-- **C37.** A store is answered with the id of the counter, also after a failed one: three stores,
the second of which fails, and an export between them, give ids 0 and 2. -/
example : ∃ s k, AnyReach toyEnv s k ∧ k.issued = [2, 0] := by
  have r0 : AnyReach toyEnv (create fun _ => []) ⟨[], []⟩ := .create _
  have r1 := r0.step (goodDisk 0) (.put [5] .none)
  have r2 := r1.step deadDisk (.put [6] .none)
  have r3 := r2.step deadDisk .reopen
  have r4 := r3.step (goodDisk 0) (.put [7] .none)
  exact ⟨_, _, r4, by decide +kernel⟩

end Verif.Idml
