import Verif.Sched.Steps
import Verif.Sched.Spec

/-! Helper lemmas: a merged request does what its parts would do. -/

namespace Verif.Sched

theorem putv_append (disk : Disk) (off : Nat) (l1 l2 : List (List Byte)) :
    putv disk off (l1 ++ l2) =
      putv (putv disk off l1) (off + (l1.map List.length).sum) l2 := by
  induction l1 generalizing disk off with
  | nil => simp [putv]
  | cons d ds ih => simp [putv, ih, Nat.add_assoc]

theorem fetchv_append (disk : Disk) (off : Nat) (l1 l2 : List Nat) :
    fetchv disk off (l1 ++ l2) = fetchv disk off l1 ++ fetchv disk (off + l1.sum) l2 := by
  induction l1 generalizing off with
  | nil => simp [fetchv]
  | cons d ds ih => simp [fetchv, ih, Nat.add_assoc]

theorem performAll_append (disk : Disk) (l1 l2 : List BlockOp) :
    performAll disk (l1 ++ l2) =
      ((performAll (performAll disk l1).1 l2).1,
        (performAll disk l1).2 ++ (performAll (performAll disk l1).1 l2).2) := by
  induction l1 generalizing disk with
  | nil => simp [performAll]
  | cons d ds ih => simp [performAll, ih]

/-- The facts that `can_accumulate` establishes. -/
theorem canAccumulate_spec {m a b} (h : canAccumulate m a b = true) :
    kind a.cmd = kind b.cmd ∧ (kind a.cmd = .read ∨ kind a.cmd = .write ∨ kind a.cmd = .sync) ∧
    (kind a.cmd ≠ .sync → b.lba = a.lba + bytes a.cmd / lbaBytes) := by
  unfold canAccumulate at h
  split at h <;> rename_i h1 h2 <;>
    simp_all [kind, bytes, sglistLen, lbaBytes] <;>
    (first | exact of_decide_eq_true h | exact of_decide_eq_true h.1)

theorem accumulate_kind {m a b} (h : canAccumulate m a b = true) :
    kind (accumulate a b).cmd = kind a.cmd := by
  obtain ⟨l, ca, sa⟩ := a
  obtain ⟨l', cb, sb⟩ := b
  cases ca <;> cases cb <;> first | rfl | (simp [canAccumulate] at h)

theorem accumulate_bytes {m a b} (h : canAccumulate m a b = true) :
    bytes (accumulate a b).cmd = bytes a.cmd + bytes b.cmd := by
  obtain ⟨l, ca, sa⟩ := a
  obtain ⟨l', cb, sb⟩ := b
  cases ca <;> cases cb <;> first
    | (simp [canAccumulate] at h; done)
    | simp [accumulate, mergeCmd, bytes]

theorem accumulate_perform {m a b} (h : canAccumulate m a b = true)
    (hb : bytes a.cmd % lbaBytes = 0) (disk : Disk) :
    perform disk (accumulate a b) =
      ((perform (perform disk a).1 b).1, (perform disk a).2 ++ (perform (perform disk a).1 b).2) := by
  have hs := canAccumulate_spec h
  obtain ⟨l, ca, sa⟩ := a
  obtain ⟨l', cb, sb⟩ := b
  simp only at hs hb
  by_cases hsync : kind ca = .sync
  · cases ca <;> simp [kind] at hsync
    cases cb <;> simp [canAccumulate] at h
    simp [accumulate, mergeCmd, perform]
  · have hl := hs.2.2 hsync
    have hoff : l' * lbaBytes = l * lbaBytes + bytes ca := by
      rw [hl, Nat.add_mul]
      have := Nat.div_add_mod (bytes ca) lbaBytes
      rw [hb, Nat.add_zero, Nat.mul_comm] at this
      rw [this]
    cases ca <;> cases cb <;> first
      | (simp [canAccumulate] at h; done)
      | (exfalso; exact hsync rfl)
      | (simp only [bytes] at hoff
         simp [accumulate, mergeCmd, perform, putv, fetchv, putv_append, fetchv_append, hoff])

theorem accumulate_iovecs {m k a b} (hm : m = some k) (h2 : 2 ≤ k)
    (h : canAccumulate m a b = true) : iovecs (accumulate a b).cmd ≤ k := by
  subst hm
  obtain ⟨l, ca, sa⟩ := a
  obtain ⟨l', cb, sb⟩ := b
  cases ca <;> cases cb <;> first
    | (simp [canAccumulate] at h; done)
    | (simp [canAccumulate, iovMaxOk] at h; simp [accumulate, mergeCmd, iovecs]; omega)
    | (simp [accumulate, mergeCmd, iovecs]; omega)

/-- Everything about a merged request. -/
structure MergedFacts (io : Io) : Prop where
  ne : io.parts ≠ []
  senders : io.op.senders = io.parts.flatMap BlockOp.senders
  kinds : ∀ p ∈ io.parts, kind p.cmd = kind io.op.cmd
  same : ∀ disk, (∀ p ∈ io.parts, bytes p.cmd % lbaBytes = 0) →
    (io.parts.length = 1 → io.parts = [io.op]) ∧
    perform disk io.op = performAll disk io.parts
  total : bytes io.op.cmd = (io.parts.map (fun p => bytes p.cmd)).sum
  adjacent : (∀ p ∈ io.parts, bytes p.cmd % lbaBytes = 0) → kind io.op.cmd ≠ .sync →
    (∀ l1 a b l2, io.parts = l1 ++ a :: b :: l2 → b.lba * lbaBytes = a.lba * lbaBytes + bytes a.cmd)
    ∧ (∀ l1 a, io.parts = l1 ++ [a] →
        a.lba * lbaBytes + bytes a.cmd = io.op.lba * lbaBytes + bytes io.op.cmd)

theorem sum_mod (l : List BlockOp) (h : ∀ p ∈ l, bytes p.cmd % lbaBytes = 0) :
    (l.map (fun p => bytes p.cmd)).sum % lbaBytes = 0 := by
  induction l with
  | nil => rfl
  | cons a l ih =>
    have h1 := h a (by simp)
    have h2 := ih (fun p hp => h p (by simp [hp]))
    simp only [List.map_cons, List.sum_cons]
    simp only [lbaBytes] at *
    omega

theorem Merged.facts {m io} (h : Merged m io) : MergedFacts io := by
  induction h with
  | one op =>
    refine ⟨by simp, by simp, by simp, ?_, by simp, ?_⟩
    · intro disk _
      refine ⟨fun _ => rfl, ?_⟩
      simp [performAll]
    · intro _ _
      refine ⟨?_, ?_⟩
      · intro l1 a b l2 he
        have := congrArg List.length he
        simp at this; omega
      · intro l1 a he
        have h1 : l1 = [] := by
          have := congrArg List.length he
          simp only [List.length_append, List.length_cons, List.length_nil] at this
          exact List.eq_nil_of_length_eq_zero (by omega)
        subst h1
        simp at he
        subst he; rfl
  | @more io op2 h hc ih =>
    obtain ⟨hk, _, hadj⟩ := canAccumulate_spec hc
    refine ⟨by simp, ?_, ?_, ?_, ?_, ?_⟩
    · simp [accumulate, ih.senders]
    · intro p hp
      simp only at hp ⊢
      rw [accumulate_kind hc]
      rcases List.mem_append.mp hp with hp | hp
      · exact ih.kinds p hp
      · have : p = op2 := by simpa using hp
        subst this; exact hk.symm
    · intro disk hb
      have hbi : ∀ p ∈ io.parts, bytes p.cmd % lbaBytes = 0 := fun p hp => hb p (by simp [hp])
      have hmod : bytes io.op.cmd % lbaBytes = 0 := by rw [ih.total]; exact sum_mod _ hbi
      refine ⟨?_, ?_⟩
      · intro hl
        have : 0 < io.parts.length := List.length_pos_iff.mpr ih.ne
        simp only [List.length_append, List.length_cons, List.length_nil] at hl
        omega
      · simp only
        rw [accumulate_perform hc hmod, performAll_append, ← (ih.same disk hbi).2]
        simp [performAll]
    · simp only [List.map_append, List.sum_append]
      rw [accumulate_bytes hc, ih.total]; simp
    · intro hb hns
      simp only at hns
      rw [accumulate_kind hc] at hns
      have hbi : ∀ p ∈ io.parts, bytes p.cmd % lbaBytes = 0 := fun p hp => hb p (by simp [hp])
      have hmod : bytes io.op.cmd % lbaBytes = 0 := by rw [ih.total]; exact sum_mod _ hbi
      obtain ⟨ha, hlast⟩ := ih.adjacent hbi hns
      have hoff : op2.lba * lbaBytes = io.op.lba * lbaBytes + bytes io.op.cmd := by
        rw [hadj hns, Nat.add_mul]
        have := Nat.div_add_mod (bytes io.op.cmd) lbaBytes
        rw [hmod, Nat.add_zero, Nat.mul_comm] at this
        rw [this]
      refine ⟨?_, ?_⟩
      · intro l1 a b l2 he
        rcases List.eq_nil_or_concat l2 with h2 | ⟨l2', w, h2⟩
        · subst h2
          have he' : io.parts ++ [op2] = (l1 ++ [a]) ++ [b] := by simpa using he
          obtain ⟨h3, h4⟩ := List.append_inj' he' rfl
          have h5 : op2 = b := by simpa using h4
          subst h5
          rw [hoff, hlast l1 a h3]
        · subst h2
          have he' : io.parts ++ [op2] = (l1 ++ a :: b :: l2') ++ [w] := by simpa using he
          obtain ⟨h3, _⟩ := List.append_inj' he' rfl
          exact ha l1 a b l2' h3
      · intro l1 a he
        obtain ⟨h3, h4⟩ := List.append_inj' he rfl
        have h5 : op2 = a := by simpa using h4
        subst h5
        rw [hoff, accumulate_bytes hc]
        simp only [accumulate]
        omega

end Verif.Sched
