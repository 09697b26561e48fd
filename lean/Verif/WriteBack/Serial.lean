import Verif.WriteBack.Inv

/-! Lemmas about serial executions, and about the deadlocked states. -/

namespace Verif.WriteBack

/-- What holds between method calls: the flag says whether somebody sleeps, and
the supply does not cover the request of the front sleeper. -/
def Rest (supply : Int) (q : List Sleeper) : Prop :=
  (q ≠ [] ↔ supply % 2 = 1) ∧ ∀ x q', q = x :: q' → supply < x.wants

/-- The condition on supply and queue, given what the one active thread does. -/
def PCInv (supply : Int) (q : List Sleeper) : PC → Prop
  | .idle | .sleeping _ | .woken _ | .borrowTry _ => Rest supply q
  | .borrowFailed w old | .borrowLocked w old =>
    old = supply + w ∧ (old < w ∨ old % 2 = 1) ∧ Rest old q
  | .borrowAdded w => (supply < w ∨ supply % 2 = 1) ∧ Rest supply q
  | .borrowQueued _ => ∃ x q', q = x :: q' ∧ orFlag supply < x.wants
  | .repayWake | .awakening | .awakeGot _ | .awakeRefund _ => supply % 2 = 1
  | .awakeShort w => supply % 2 = 1 ∧ ∃ x q', q = x :: q' ∧ supply + w < x.wants
  | .panicked => True

structure SInv (s : St) : Prop where
  inv : Inv s
  /-- at most one thread is active -/
  one : ∀ (i j : Nat) (t u : Thread), s.threads[i]? = some t → s.threads[j]? = some u →
    t.pc.active = true → u.pc.active = true → i = j
  rest : (∀ (i : Nat) (t : Thread), s.threads[i]? = some t → t.pc.active = false) →
    Rest s.supply s.sleepers
  act : ∀ (i : Nat) (t : Thread), s.threads[i]? = some t → t.pc.active = true →
    PCInv s.supply s.sleepers t.pc

theorem sinv_init (cap n : Nat) : SInv (init cap n) := by
  have hrep : ∀ (i : Nat) t, (init cap n).threads[i]? = some t → t = ⟨.idle, 0⟩ := by
    intro i t h
    simp only [init] at h
    rw [List.getElem?_replicate] at h
    split at h <;> simp_all
  refine ⟨inv_init cap n, ?_, ?_, ?_⟩
  · intro i j t u hi _ ha; rw [hrep i t hi] at ha; simp [PC.active] at ha
  · intro _; simp [Rest, init]
  · intro i t hi ha; rw [hrep i t hi] at ha; simp [PC.active] at ha

/-- The invariant follows for the new state when only thread `i`'s program
counter may be active there. -/
theorem sinv_of {s' : St} {i : Nat} (hinv : Inv s')
    (hoth : ∀ (j : Nat) (u : Thread), j ≠ i → s'.threads[j]? = some u → u.pc.active = false)
    {t' : Thread} (ht' : s'.threads[i]? = some t')
    (hpc : PCInv s'.supply s'.sleepers t'.pc) : SInv s' := by
  refine ⟨hinv, ?_, ?_, ?_⟩
  · intro a b t u ha hb hta hub
    have h1 : a = i := Classical.byContradiction fun e => by simp [hoth a t e ha] at hta
    have h2 : b = i := Classical.byContradiction fun e => by simp [hoth b u e hb] at hub
    omega
  · intro hall
    have := hall i t' ht'
    cases hp : t'.pc <;> simp_all [PC.active, PCInv]
  · intro j u hj hu
    have h1 : j = i := Classical.byContradiction fun e => by simp [hoth j u e hj] at hu
    subst h1
    rw [ht'] at hj; simp at hj; subst hj; exact hpc

theorem pcinv_of {s : St} (h : SInv s) {i : Nat} {t : Thread} (ht : s.threads[i]? = some t)
    (hoth : ∀ (j : Nat) (u : Thread), j ≠ i → s.threads[j]? = some u → u.pc.active = false) :
    PCInv s.supply s.sleepers t.pc := by
  cases ha : t.pc.active with
  | true => exact h.act i t ht ha
  | false =>
    have hr : Rest s.supply s.sleepers := h.rest (by
      intro j u hj
      by_cases e : j = i
      · subst e; rw [ht] at hj; simp at hj; subst hj; exact ha
      · exact hoth j u e hj)
    cases hp : t.pc <;> simp_all [PC.active, PCInv]

theorem get_set_self {l : List α} {i : Nat} {a b : α} (h : l[i]? = some a) :
    (l.set i b)[i]? = some b := by rw [get_set _ _ _ _ _ h]; simp

theorem oth_set {s : St} {i : Nat} {t t' : Thread} (ht : s.threads[i]? = some t)
    (hoth : ∀ (j : Nat) (u : Thread), j ≠ i → s.threads[j]? = some u → u.pc.active = false) :
    ∀ (j : Nat) (u : Thread), j ≠ i → (s.threads.set i t')[j]? = some u →
      u.pc.active = false := by
  intro j u hj hu
  rw [get_set _ _ _ _ _ ht, if_neg (fun e => hj e.symm)] at hu
  exact hoth j u hj hu

theorem Rest.nil {x : Int} (h : Rest x []) : x % 2 = 0 := by
  have := h.1; simp at this; omega

theorem sinv_stepPC {s s' : St} {i : Nat} {t : Thread} (h : SInv s)
    (ht : s.threads[i]? = some t)
    (hoth : ∀ (j : Nat) (u : Thread), j ≠ i → s.threads[j]? = some u → u.pc.active = false)
    (hs : stepPC s i t.pc = some s') : SInv s' := by
  have hinv' := inv_stepPC h.inv ht hs
  have hP := pcinv_of h ht hoth
  have hamt := h.inv.amts i t ht
  have hL := h.inv.lockHolder i t ht
  obtain ⟨pc, held⟩ := t
  cases pc with
  | idle => simp [stepPC] at hs
  | sleeping w => simp [stepPC] at hs
  | woken w => simp [stepPC] at hs
  | panicked => simp [stepPC] at hs
  | borrowTry w =>
    simp only [stepPC] at hs
    split at hs
    · rename_i hc
      rw [setPC_eq (t := ⟨.borrowTry w, held⟩) (by exact ht)] at hs
      simp at hs
      subst hs
      refine sinv_of hinv' (oth_set ht hoth) (get_set_self ht) ?_
      simp only [PCInv] at hP ⊢
      exact ⟨by omega, hc, hP⟩
    · rename_i hc
      simp [ht] at hs
      subst hs
      refine sinv_of hinv' (oth_set ht hoth) (get_set_self ht) ?_
      simp only [PCInv, PC.amt] at hP hamt ⊢
      have he : s.sleepers = [] := by
        by_cases e : s.sleepers = []
        · exact e
        · have := hP.1.1 e; omega
      rw [he] at hP ⊢
      have := hP.nil
      refine ⟨⟨by simp, fun h => by omega⟩, by simp⟩
  | borrowFailed w old =>
    simp only [stepPC] at hs
    split at hs <;> simp at hs
    rename_i hc
    rw [setPC_eq (t := ⟨.borrowFailed w old, held⟩) (by exact ht)] at hs
    subst hs
    exact sinv_of hinv' (oth_set ht hoth) (get_set_self ht) hP
  | borrowLocked w old =>
    simp only [PCInv] at hP
    simp only [stepPC] at hs
    split at hs
    · rename_i hc; omega
    · rw [setPC_eq (t := ⟨.borrowLocked w old, held⟩) (by exact ht)] at hs
      simp at hs
      subst hs
      refine sinv_of hinv' (oth_set ht hoth) (get_set_self ht) ?_
      simp only [PCInv]
      rw [← hP.1]
      exact ⟨hP.2.1, hP.2.2⟩
  | borrowAdded w =>
    simp only [PCInv, PC.amt] at hP hamt
    simp only [stepPC] at hs
    rw [setPC_eq (t := ⟨.borrowAdded w, held⟩) (by exact ht)] at hs
    simp at hs
    subst hs
    refine sinv_of hinv' (oth_set ht hoth) (get_set_self ht) ?_
    simp only [PCInv]
    cases hq : s.sleepers with
    | nil =>
      rw [hq] at hP
      have := hP.2.nil
      refine ⟨⟨i, w, true⟩, [], rfl, ?_⟩
      simp only [orFlag]; split <;> omega
    | cons x q =>
      rw [hq] at hP
      refine ⟨x, q ++ [⟨i, w, true⟩], rfl, ?_⟩
      have h1 := hP.2.1.1 (by simp)
      have h2 := hP.2.2 x q rfl
      simp only [orFlag]; split <;> omega
  | borrowQueued w =>
    simp only [PCInv] at hP
    simp only [stepPC] at hs
    rw [setPC_eq (t := ⟨.borrowQueued w, held⟩) (by exact ht)] at hs
    simp at hs
    subst hs
    refine sinv_of hinv' (oth_set ht hoth) (get_set_self ht) ?_
    obtain ⟨x, q, hq, hx⟩ := hP
    simp only [PCInv, Rest]
    rw [hq]
    refine ⟨⟨fun _ => ?_, by simp⟩, ?_⟩
    · simp only [orFlag]; split <;> omega
    · intro y q' e; simp at e; rw [← e.1]; exact hx
  | repayWake =>
    simp only [stepPC] at hs
    split at hs <;> simp at hs
    rw [setPC_eq (t := ⟨.repayWake, held⟩) (by exact ht)] at hs
    subst hs
    exact sinv_of hinv' (oth_set ht hoth) (get_set_self ht) hP
  | awakening =>
    simp only [PCInv] at hP
    simp only [stepPC] at hs
    split at hs
    · rename_i hq
      rw [setPC_eq (t := ⟨.awakening, held⟩) (by exact ht)] at hs
      simp at hs
      subst hs
      refine sinv_of hinv' (oth_set ht hoth) (get_set_self ht) ?_
      simp only [PCInv, hq, clearFlag]
      refine ⟨⟨by simp, fun h => by omega⟩, by simp⟩
    · rename_i x q hq
      have hx := h.inv.qamts x (by simp [hq])
      split at hs
      · rw [setPC_eq (t := ⟨.awakening, held⟩) (by exact ht)] at hs
        simp at hs
        subst hs
        refine sinv_of hinv' (oth_set ht hoth) (get_set_self ht) ?_
        simp only [PCInv]
        exact ⟨by omega, x, q, hq, by omega⟩
      · rw [setPC_eq (t := ⟨.awakening, held⟩) (by exact ht)] at hs
        simp at hs
        subst hs
        refine sinv_of hinv' (oth_set ht hoth) (get_set_self ht) ?_
        simp only [PCInv]; omega
  | awakeShort w =>
    simp only [PCInv, PC.amt] at hP hamt
    simp only [stepPC] at hs
    rw [setPC_eq (t := ⟨.awakeShort w, held⟩) (by exact ht)] at hs
    simp at hs
    subst hs
    refine sinv_of hinv' (oth_set ht hoth) (get_set_self ht) ?_
    obtain ⟨hf, x, q, hq, hx⟩ := hP
    simp only [PCInv, Rest]
    rw [hq]
    refine ⟨⟨fun _ => by omega, by simp⟩, ?_⟩
    intro y q' e; simp at e; rw [← e.1]; exact hx
  | awakeRefund w =>
    simp only [PCInv, PC.amt] at hP hamt
    simp only [stepPC] at hs
    rw [setPC_eq (t := ⟨.awakeRefund w, held⟩) (by exact ht)] at hs
    simp at hs
    subst hs
    refine sinv_of hinv' (oth_set ht hoth) (get_set_self ht) ?_
    simp only [PCInv]; omega
  | awakeGot w =>
    simp only [PCInv] at hP
    simp only [stepPC] at hs
    split at hs
    · simp at hs
    rename_i x q hq
    split at hs
    · rename_i hal
      obtain ⟨u, hu, hp⟩ := h.inv.live x (by simp [hq]) hal
      have hA := setPC_eq (s := { s with sleepers := q }) (pc := PC.woken x.wants) (by exact hu)
      rw [hA] at hs
      have hne : x.tid ≠ i := by
        intro e; rw [e, ht] at hu; simp at hu; subst hu; simp at hp
      have hgi : (s.threads.set x.tid { u with pc := .woken x.wants })[i]? =
          some ⟨.awakeGot w, held⟩ := by
        rw [get_set _ _ _ _ _ hu, if_neg hne]; exact ht
      rw [setPC_eq (t := ⟨.awakeGot w, held⟩) (by exact hgi)] at hs
      simp at hs
      subst hs
      refine sinv_of hinv' ?_ (get_set_self hgi) hP
      intro j v hj hv
      rw [get_set _ _ _ _ _ hgi, if_neg (fun e => hj e.symm), get_set _ _ _ _ _ hu] at hv
      split at hv
      · simp at hv; subst hv; rfl
      · exact hoth j v hj hv
    · rw [setPC_eq (t := ⟨.awakeGot w, held⟩) (by exact ht)] at hs
      simp at hs
      subst hs
      exact sinv_of hinv' (oth_set ht hoth) (get_set_self ht) hP

theorem serial_oth {s : St} {i : Nat}
    (h : (s.threads.zipIdx.all fun (t, k) => k == i || !t.pc.active) = true) :
    ∀ (j : Nat) (u : Thread), j ≠ i → s.threads[j]? = some u → u.pc.active = false := by
  intro j u hj hu
  rw [List.all_eq_true] at h
  have hm : (u, j) ∈ s.threads.zipIdx := by
    rw [List.mk_mem_zipIdx_iff_getElem?]; exact hu
  have := h _ hm
  simpa [hj] using this

theorem sinv_step {s s' : St} {a : Action} (h : SInv s) (hs : serialStep s a = some s') :
    SInv s' := by
  unfold serialStep at hs
  split at hs
  rotate_left
  · simp at hs
  rename_i hser
  have hoth := serial_oth hser
  have hinv' := inv_step h.inv hs
  cases a with
  | borrow i size =>
    simp only [step] at hs
    split at hs <;> simp at hs
    rename_i t ht
    obtain ⟨⟨hpc, hcap⟩, rfl⟩ := hs
    have hP := pcinv_of h ht hoth
    rw [setPC_eq ht] at hinv' ⊢
    refine sinv_of hinv' (oth_set ht hoth) (get_set_self ht) ?_
    rw [hpc] at hP; exact hP
  | repay i bytes =>
    simp only [step] at hs
    split at hs
    · simp at hs
    rename_i t ht
    have hP := pcinv_of h ht hoth
    split at hs
    rotate_left
    · simp at hs
    rename_i hc
    obtain ⟨hpc, hc⟩ := hc
    split at hs
    · simp at hs; subst hs; exact h
    simp only [Option.some.injEq] at hs
    subst hs
    have hnp := (hinv'.helds i _ (get_set_self ht)).2
    refine sinv_of hinv' (oth_set ht hoth) (get_set_self ht) ?_
    rw [hpc] at hP
    simp only [PCInv] at hP
    dsimp only at hnp ⊢
    split
    · simp [PCInv]
    · split
      · simp only [PCInv]; omega
      · rename_i hev
        have he : s.sleepers = [] := by
          by_cases e : s.sleepers = []
          · exact e
          · exact absurd (hP.1.1 e) hev
        simp only [PCInv, he] at hP ⊢
        have := hP.nil
        refine ⟨⟨by simp, fun h => by omega⟩, by simp⟩
  | step i =>
    simp only [step] at hs
    split at hs
    · simp at hs
    rename_i t ht
    exact sinv_stepPC h ht hoth hs
  | cancel i =>
    simp only [step] at hs
    split at hs
    · simp at hs
    rename_i t ht
    have hP := pcinv_of h ht hoth
    split at hs <;> simp at hs
    rename_i w hpc
    rw [setPC_eq (t := t) (by exact ht)] at hs
    subst hs
    refine sinv_of hinv' (oth_set ht hoth) (get_set_self ht) ?_
    rw [hpc] at hP
    simp only [PCInv] at hP ⊢
    refine ⟨by simpa [abandon] using hP.1, ?_⟩
    intro x q' e
    cases hq : s.sleepers with
    | nil => rw [hq] at e; simp [abandon] at e
    | cons y q =>
      rw [hq] at e
      have := hP.2 y q hq
      simp only [abandon, List.map_cons, List.cons.injEq] at e
      rw [← e.1]
      split <;> simpa using this
  | poll i =>
    simp only [step] at hs
    split at hs
    · simp at hs
    rename_i t ht
    have hP := pcinv_of h ht hoth
    split at hs <;> simp at hs
    rename_i w hpc
    subst hs
    refine sinv_of hinv' (oth_set ht hoth) (get_set_self ht) ?_
    rw [hpc] at hP; exact hP
  | dropWoken i =>
    simp only [step] at hs
    split at hs
    · simp at hs
    rename_i t ht
    have hP := pcinv_of h ht hoth
    split at hs <;> simp at hs
    rename_i w hpc
    rw [setPC_eq ht] at hs
    subst hs
    refine sinv_of hinv' (oth_set ht hoth) (get_set_self ht) ?_
    rw [hpc] at hP; exact hP
  | give i j bytes =>
    simp only [step] at hs
    split at hs
    · simp at hs
    rename_i hij
    split at hs
    rotate_left
    · simp at hs
    rename_i t u ht hu
    have hP := pcinv_of h ht hoth
    split at hs
    rotate_left
    · simp at hs
    rename_i hc
    obtain ⟨hpt, hpu, hc⟩ := hc
    simp only [Option.some.injEq] at hs
    subst hs
    have hu' : (s.threads.set i { t with held := t.held - (bytes : Int) * 2 })[j]? = some u := by
      rw [get_set _ _ _ _ _ ht, if_neg hij]; exact hu
    refine sinv_of (i := i) (t' := { t with held := t.held - (bytes : Int) * 2 }) hinv' ?_ ?_ ?_
    · intro k v hk hv
      rw [get_set _ _ _ _ _ hu'] at hv
      split at hv
      · simp at hv; subst hv; simp [hpu, PC.active]
      · exact oth_set ht hoth k v hk hv
    · rw [get_set _ _ _ _ _ hu', if_neg (fun e => hij e.symm)]; exact get_set_self ht
    · exact hP

theorem sinv_run {s s' : St} {as : List Action} (h : SInv s) (hs : serialRun s as = some s') :
    SInv s' := by
  induction as generalizing s with
  | nil => simp [serialRun] at hs; exact hs ▸ h
  | cons a as ih =>
    simp only [serialRun] at hs
    cases h1 : serialStep s a with
    | none => simp [h1] at hs
    | some s1 => simp [h1] at hs; exact ih (sinv_step h h1) hs

/-! ### Deadlocked states -/

/-- No credit is out, the flag is set, and nobody is about to wake anyone. -/
def PC.quiet : PC → Bool
  | .repayWake | .awakening | .awakeShort _ | .awakeGot _ | .awakeRefund _ | .woken _ => false
  | _ => true

structure Dead (s : St) : Prop where
  flag : s.supply % 2 = 1
  inv : Inv s
  quiet : ∀ (i : Nat) (t : Thread), s.threads[i]? = some t → t.held = 0 ∧ t.pc.quiet = true

theorem dead_set {s s' : St} {i : Nat} {t t' : Thread} (h : Dead s) (hi : Inv s')
    (ht : s.threads[i]? = some t) (hth : s'.threads = s.threads.set i t')
    (hf : s'.supply % 2 = 1) (hq : t'.held = 0 ∧ t'.pc.quiet = true) : Dead s' := by
  refine ⟨hf, hi, ?_⟩
  intro j u hj
  rw [hth, get_set _ _ _ _ _ ht] at hj
  split at hj
  · simp at hj; subst hj; exact hq
  · exact h.quiet j u hj

theorem dead_step {s s' : St} {a : Action} (h : Dead s) (hs : step s a = some s') : Dead s' := by
  have hinv' := inv_step h.inv hs
  have hf := h.flag
  cases a with
  | borrow i size =>
    simp only [step] at hs
    split at hs <;> simp at hs
    rename_i t ht
    obtain ⟨⟨hpc, hcap⟩, rfl⟩ := hs
    rw [setPC_eq ht] at hinv' ⊢
    exact dead_set h hinv' ht rfl hf ⟨(h.quiet i t ht).1, rfl⟩
  | repay i bytes =>
    simp only [step] at hs
    split at hs
    · simp at hs
    rename_i t ht
    have h0 := (h.quiet i t ht).1
    split at hs
    rotate_left
    · simp at hs
    rename_i hc
    split at hs
    · simp at hs; subst hs; exact h
    · omega
  | step i =>
    simp only [step] at hs
    split at hs
    · simp at hs
    rename_i t ht
    have h0 := h.quiet i t ht
    have hamt := h.inv.amts i t ht
    obtain ⟨pc, held⟩ := t
    cases pc <;> simp only [PC.quiet, PC.amt] at h0 hamt <;> simp only [stepPC] at hs
    case borrowTry w =>
      rw [if_pos (Or.inr hf), setPC_eq (t := ⟨.borrowTry w, held⟩) (by exact ht)] at hs
      simp at hs; subst hs
      exact dead_set h hinv' ht rfl (by dsimp only; omega) ⟨h0.1, rfl⟩
    case borrowFailed w old =>
      split at hs <;> simp at hs
      rw [setPC_eq (t := ⟨.borrowFailed w old, held⟩) (by exact ht)] at hs
      subst hs
      exact dead_set h hinv' ht rfl hf ⟨h0.1, rfl⟩
    case borrowLocked w old =>
      split at hs
      all_goals
        rw [setPC_eq (t := ⟨.borrowLocked w old, held⟩) (by exact ht)] at hs
        simp at hs; subst hs
        exact dead_set h hinv' ht rfl (by dsimp only; omega) ⟨h0.1, rfl⟩
    case borrowAdded w =>
      rw [setPC_eq (t := ⟨.borrowAdded w, held⟩) (by exact ht)] at hs
      simp at hs; subst hs
      exact dead_set h hinv' ht rfl hf ⟨h0.1, rfl⟩
    case borrowQueued w =>
      rw [setPC_eq (t := ⟨.borrowQueued w, held⟩) (by exact ht)] at hs
      simp at hs; subst hs
      exact dead_set h hinv' ht rfl (by simp only [orFlag]; split <;> omega) ⟨h0.1, rfl⟩
    all_goals simp at hs h0
  | cancel i =>
    simp only [step] at hs
    split at hs
    · simp at hs
    rename_i t ht
    split at hs <;> simp at hs
    rw [setPC_eq (t := t) (by exact ht)] at hs
    subst hs
    exact dead_set h hinv' ht rfl hf ⟨(h.quiet i t ht).1, rfl⟩
  | poll i =>
    simp only [step] at hs
    split at hs
    · simp at hs
    rename_i t ht
    have h0 := h.quiet i t ht
    split at hs <;> simp at hs
    rename_i w hpc
    simp [hpc, PC.quiet] at h0
  | dropWoken i =>
    simp only [step] at hs
    split at hs
    · simp at hs
    rename_i t ht
    have h0 := h.quiet i t ht
    split at hs <;> simp at hs
    rename_i w hpc
    simp [hpc, PC.quiet] at h0
  | give i j bytes =>
    simp only [step] at hs
    split at hs
    · simp at hs
    rename_i hij
    split at hs
    rotate_left
    · simp at hs
    rename_i t u ht hu
    have h0 := h.quiet i t ht
    have h1 := h.quiet j u hu
    split at hs
    rotate_left
    · simp at hs
    rename_i hc
    obtain ⟨hpt, hpu, hc⟩ := hc
    simp only [Option.some.injEq] at hs
    subst hs
    have hb : (bytes : Int) * 2 = 0 := by omega
    refine ⟨hf, hinv', ?_⟩
    intro k v hk
    have hu' : (s.threads.set i { t with held := t.held - (bytes : Int) * 2 })[j]? = some u := by
      rw [get_set _ _ _ _ _ ht, if_neg hij]; exact hu
    rw [get_set _ _ _ _ _ hu'] at hk
    split at hk
    · simp at hk; subst hk; exact ⟨by dsimp only; omega, h1.2⟩
    · rw [get_set _ _ _ _ _ ht] at hk
      split at hk
      · simp at hk; subst hk; exact ⟨by dsimp only; omega, h0.2⟩
      · exact h.quiet k v hk

theorem dead_run {s s' : St} {as : List Action} (h : Dead s) (hs : run s as = some s') :
    Dead s' := by
  induction as generalizing s with
  | nil => simp [run] at hs; exact hs ▸ h
  | cons a as ih =>
    simp only [run] at hs
    cases h1 : step s a with
    | none => simp [h1] at hs
    | some s1 => simp [h1] at hs; exact ih (dead_step h h1) hs

end Verif.WriteBack
