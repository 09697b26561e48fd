import Verif.WriteBack.Serial

/-! Every waiting thread has a live entry in the queue. -/

namespace Verif.WriteBack

def PC.waits : PC → Option Int
  | .sleeping w | .borrowQueued w => some w
  | _ => none

def Queued (s : St) : Prop :=
  ∀ (i : Nat) (t : Thread) (w : Int), s.threads[i]? = some t → t.pc.waits = some w →
    ∃ x ∈ s.sleepers, x.tid = i ∧ x.alive = true ∧ x.wants = w

theorem queued_set {s s' : St} {i : Nat} {t t' : Thread} (h : Queued s)
    (ht : s.threads[i]? = some t) (hth : s'.threads = s.threads.set i t')
    (hsub : ∀ x ∈ s.sleepers, x.alive = true → x.tid ≠ i → x ∈ s'.sleepers)
    (hi : ∀ w, t'.pc.waits = some w → ∃ x ∈ s'.sleepers, x.tid = i ∧ x.alive = true ∧ x.wants = w) :
    Queued s' := by
  intro j u w hj hw
  rw [hth, get_set _ _ _ _ _ ht] at hj
  split at hj
  · rename_i e; simp at hj; subst hj; subst e; exact hi w hw
  · rename_i e
    obtain ⟨x, hx, h1, h2, h3⟩ := h j u w hj hw
    exact ⟨x, hsub x hx h2 (by omega), h1, h2, h3⟩

theorem queued_stepPC {s s' : St} {i : Nat} {t : Thread} (hI : Inv s) (h : Queued s)
    (ht : s.threads[i]? = some t) (hs : stepPC s i t.pc = some s') : Queued s' := by
  obtain ⟨pc, held⟩ := t
  cases pc <;> simp only [stepPC] at hs
  case borrowTry w =>
    split at hs
    · rw [setPC_eq (t := ⟨.borrowTry w, held⟩) (by exact ht)] at hs
      simp at hs; subst hs
      exact queued_set h ht rfl (fun x hx _ _ => hx) (by simp [PC.waits])
    · simp [ht] at hs; subst hs
      exact queued_set h ht rfl (fun x hx _ _ => hx) (by simp [PC.waits])
  case borrowFailed w old =>
    split at hs <;> simp at hs
    rw [setPC_eq (t := ⟨.borrowFailed w old, held⟩) (by exact ht)] at hs
    subst hs
    exact queued_set h ht rfl (fun x hx _ _ => hx) (by simp [PC.waits])
  case borrowLocked w old =>
    split at hs
    all_goals
      rw [setPC_eq (t := ⟨.borrowLocked w old, held⟩) (by exact ht)] at hs
      simp at hs; subst hs
      exact queued_set h ht rfl (fun x hx _ _ => hx) (by simp [PC.waits])
  case borrowAdded w =>
    rw [setPC_eq (t := ⟨.borrowAdded w, held⟩) (by exact ht)] at hs
    simp at hs; subst hs
    refine queued_set h ht rfl (fun x hx _ _ => by simp [hx]) ?_
    intro w' hw'
    simp [PC.waits] at hw'
    exact ⟨⟨i, w, true⟩, by simp, rfl, rfl, hw'⟩
  case borrowQueued w =>
    rw [setPC_eq (t := ⟨.borrowQueued w, held⟩) (by exact ht)] at hs
    simp at hs; subst hs
    refine queued_set h ht rfl (fun x hx _ _ => hx) ?_
    intro w' hw'
    exact h i _ w' ht hw'
  case repayWake =>
    split at hs <;> simp at hs
    rw [setPC_eq (t := ⟨.repayWake, held⟩) (by exact ht)] at hs
    subst hs
    exact queued_set h ht rfl (fun x hx _ _ => hx) (by simp [PC.waits])
  case awakening =>
    split at hs
    · rw [setPC_eq (t := ⟨.awakening, held⟩) (by exact ht)] at hs
      simp at hs; subst hs
      exact queued_set h ht rfl (fun x hx _ _ => hx) (by simp [PC.waits])
    · split at hs
      all_goals
        rw [setPC_eq (t := ⟨.awakening, held⟩) (by exact ht)] at hs
        simp at hs; subst hs
        exact queued_set h ht rfl (fun x hx _ _ => hx) (by simp [PC.waits])
  case awakeShort w =>
    rw [setPC_eq (t := ⟨.awakeShort w, held⟩) (by exact ht)] at hs
    simp at hs; subst hs
    exact queued_set h ht rfl (fun x hx _ _ => hx) (by simp [PC.waits])
  case awakeRefund w =>
    rw [setPC_eq (t := ⟨.awakeRefund w, held⟩) (by exact ht)] at hs
    simp at hs; subst hs
    exact queued_set h ht rfl (fun x hx _ _ => hx) (by simp [PC.waits])
  case awakeGot w =>
    split at hs
    · simp at hs
    rename_i x q hq
    split at hs
    · rename_i hal
      obtain ⟨u, hu, hp⟩ := hI.live x (by simp [hq]) hal
      have hA := setPC_eq (s := { s with sleepers := q }) (pc := PC.woken x.wants) (by exact hu)
      rw [hA] at hs
      have hne : x.tid ≠ i := by
        intro e; rw [e, ht] at hu; simp at hu; subst hu; simp at hp
      have hgi : (s.threads.set x.tid { u with pc := .woken x.wants })[i]? =
          some ⟨.awakeGot w, held⟩ := by
        rw [get_set _ _ _ _ _ hu, if_neg hne]; exact ht
      rw [setPC_eq (t := ⟨.awakeGot w, held⟩) (by exact hgi)] at hs
      simp at hs
      subst hs
      have h1 : Queued { s with sleepers := q,
                                threads := s.threads.set x.tid { u with pc := .woken x.wants } } := by
        refine queued_set h hu rfl ?_ (by simp [PC.waits])
        intro y hy _ hyt
        rw [hq] at hy
        simp at hy
        rcases hy with rfl | hy
        · exact absurd rfl hyt
        · exact hy
      exact queued_set h1 hgi rfl (fun x hx _ _ => hx) (by simp [PC.waits])
    · rename_i hal
      rw [setPC_eq (t := ⟨.awakeGot w, held⟩) (by exact ht)] at hs
      simp at hs
      subst hs
      refine queued_set h ht rfl ?_ (by simp [PC.waits])
      intro y hy hya _
      rw [hq] at hy
      simp at hy
      rcases hy with rfl | hy
      · exact absurd hya hal
      · exact hy
  all_goals simp at hs

theorem queued_step {s s' : St} {a : Action} (hI : Inv s) (h : Queued s)
    (hs : step s a = some s') : Queued s' := by
  cases a with
  | borrow i size =>
    simp only [step] at hs
    split at hs <;> simp at hs
    rename_i t ht
    obtain ⟨⟨hpc, hcap⟩, rfl⟩ := hs
    rw [setPC_eq ht]
    exact queued_set h ht rfl (fun x hx _ _ => hx) (by simp [PC.waits])
  | repay i bytes =>
    simp only [step] at hs
    split at hs
    · simp at hs
    rename_i t ht
    split at hs
    rotate_left
    · simp at hs
    split at hs
    · simp at hs; subst hs; exact h
    simp only [Option.some.injEq] at hs
    subst hs
    refine queued_set h ht rfl (fun x hx _ _ => hx) ?_
    dsimp only
    repeat' split
    all_goals simp [PC.waits]
  | step i =>
    simp only [step] at hs
    split at hs
    · simp at hs
    rename_i t ht
    exact queued_stepPC hI h ht hs
  | cancel i =>
    simp only [step] at hs
    split at hs
    · simp at hs
    rename_i t ht
    split at hs <;> simp at hs
    rw [setPC_eq (t := t) (by exact ht)] at hs
    subst hs
    refine queued_set h ht rfl ?_ (by simp [PC.waits])
    intro x hx _ hne
    simp only [abandon, List.mem_map]
    exact ⟨x, hx, by simp [hne]⟩
  | poll i =>
    simp only [step] at hs
    split at hs
    · simp at hs
    rename_i t ht
    split at hs <;> simp at hs
    subst hs
    exact queued_set h ht rfl (fun x hx _ _ => hx) (by simp [PC.waits])
  | dropWoken i =>
    simp only [step] at hs
    split at hs
    · simp at hs
    rename_i t ht
    split at hs <;> simp at hs
    rw [setPC_eq ht] at hs
    subst hs
    exact queued_set h ht rfl (fun x hx _ _ => hx) (by simp [PC.waits])
  | give i j bytes =>
    simp only [step] at hs
    split at hs
    · simp at hs
    rename_i hij
    split at hs
    rotate_left
    · simp at hs
    rename_i t u ht hu
    split at hs
    rotate_left
    · simp at hs
    rename_i hc
    obtain ⟨hpt, hpu, hc⟩ := hc
    simp only [Option.some.injEq] at hs
    subst hs
    have hu' : (s.threads.set i { t with held := t.held - (bytes : Int) * 2 })[j]? = some u := by
      rw [get_set _ _ _ _ _ ht, if_neg hij]; exact hu
    have h1 : Queued { s with
        threads := s.threads.set i { t with held := t.held - (bytes : Int) * 2 } } :=
      queued_set h ht rfl (fun x hx _ _ => hx) (by simp [PC.waits, hpt])
    exact queued_set h1 hu' rfl (fun x hx _ _ => hx) (by simp [PC.waits, hpu])

theorem queued_init (cap n : Nat) : Queued (init cap n) := by
  intro i t w hi hw
  simp only [init, List.getElem?_replicate] at hi
  split at hi <;> simp at hi
  subst hi
  simp [PC.waits] at hw

theorem serialStep_step {s s' : St} {a : Action} (h : serialStep s a = some s') :
    step s a = some s' := by
  unfold serialStep at h; split at h
  · exact h
  · simp at h

theorem queued_serialRun {s s' : St} {as : List Action} (hI : SInv s) (h : Queued s)
    (hs : serialRun s as = some s') : Queued s' := by
  induction as generalizing s with
  | nil => simp [serialRun] at hs; exact hs ▸ h
  | cons a as ih =>
    simp only [serialRun] at hs
    cases h1 : serialStep s a with
    | none => simp [h1] at hs
    | some s1 =>
      simp [h1] at hs
      exact ih (sinv_step hI h1) (queued_step hI.inv h (serialStep_step h1)) hs

/-- `leaked` only grows when a granted future is dropped unpolled. -/
theorem leaked_step {s s' : St} {a : Action} (hs : step s a = some s')
    (ha : ∀ i, a ≠ .dropWoken i) : s'.leaked = s.leaked := by
  have hset : ∀ (s : St) i pc, (setPC s i pc).leaked = s.leaked := by
    intro s i pc; simp only [setPC]; split <;> rfl
  cases a with
  | dropWoken i => exact absurd rfl (ha i)
  | step i =>
    simp only [step] at hs
    split at hs
    · simp at hs
    rename_i t ht
    revert hs
    cases t.pc <;> simp only [stepPC] <;> intro hs
    all_goals (try (simp at hs; done))
    all_goals (repeat' split at hs)
    all_goals first
      | (simp only [Option.some.injEq] at hs; subst hs; simp [hset])
      | simp at hs
  | borrow i n =>
    simp only [step] at hs
    repeat' split at hs
    all_goals first
      | (simp only [Option.some.injEq] at hs; subst hs; simp [hset])
      | simp at hs
  | repay i n =>
    simp only [step] at hs
    split at hs
    · simp at hs
    split at hs
    rotate_left
    · simp at hs
    split at hs <;> (simp only [Option.some.injEq] at hs; subst hs; rfl)
  | cancel i =>
    simp only [step] at hs
    repeat' split at hs
    all_goals first
      | (simp only [Option.some.injEq] at hs; subst hs; simp [hset])
      | simp at hs
  | poll i =>
    simp only [step] at hs
    repeat' split at hs
    all_goals first
      | (simp only [Option.some.injEq] at hs; subst hs; simp)
      | simp at hs
  | give i j n =>
    simp only [step] at hs
    repeat' split at hs
    all_goals first
      | (simp only [Option.some.injEq] at hs; subst hs; simp)
      | simp at hs

theorem leaked_run {s s' : St} {as : List Action} (hs : run s as = some s')
    (ha : ∀ a ∈ as, ∀ i, a ≠ .dropWoken i) : s'.leaked = s.leaked := by
  induction as generalizing s with
  | nil => simp [run] at hs; rw [hs]
  | cons a as ih =>
    simp only [run] at hs
    cases h1 : step s a with
    | none => simp [h1] at hs
    | some s1 =>
      simp [h1] at hs
      rw [ih hs (fun b hb => ha b (List.mem_cons_of_mem _ hb)),
        leaked_step h1 (ha a List.mem_cons_self)]

theorem serialRun_run {s s' : St} {as : List Action} (hs : serialRun s as = some s') :
    run s as = some s' := by
  induction as generalizing s with
  | nil => exact hs
  | cons a as ih =>
    simp only [serialRun] at hs
    cases h1 : serialStep s a with
    | none => simp [h1] at hs
    | some s1 => simp [h1] at hs; simp [run, serialStep_step h1, ih hs]

end Verif.WriteBack
