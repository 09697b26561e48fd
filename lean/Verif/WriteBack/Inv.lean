import Verif.WriteBack.Lemmas

/-! Preservation of the WriteBack invariant by every transition. -/

namespace Verif.WriteBack

/-- `inv_update` specialised to an unchanged queue, where thread `i` was not
and is not a sleeper. -/
theorem inv_update_q {s s' : St} {i : Nat} {t t' : Thread} (h : Inv s)
    (ht : s.threads[i]? = some t)
    (hth : s'.threads = s.threads.set i t')
    (hcap : s'.capacity = s.capacity) (hleak : 0 ≤ s'.leaked)
    (hsl : s'.sleepers = s.sleepers)
    (hl1 : t'.pc.locked = true ↔ s'.lock = some i)
    (hl2 : ∀ j, j ≠ i → (s'.lock = some j ↔ s.lock = some j))
    (hns : ∀ w, t.pc ≠ PC.sleeping w) (hnq : ∀ w, t.pc ≠ PC.borrowQueued w)
    (hgot : ∀ w, t'.pc = .awakeGot w → ∃ x q, s.sleepers = x :: q ∧ x.wants = w)
    (hamt : 0 ≤ t'.pc.amt ∧ t'.pc.amt % 2 = 0 ∧ t'.pc.amt ≤ s.capacity)
    (hheld : 0 ≤ t'.held ∧ t'.pc ≠ PC.panicked)
    (hmoney : even s' + t'.held + tent t'.pc + sent t'.pc + s'.leaked =
      even s + t.held + tent t.pc + sent t.pc + s.leaked)
    (hsolv : 0 ≤ even s + tsum (fun t => res t.pc) s →
      0 ≤ even s' + (tsum (fun t => res t.pc) s - res t.pc + res t'.pc)) : Inv s' := by
  refine inv_update h ht hth hcap hleak hl1 hl2 ?_ ?_ ?_ ?_ hamt ?_ hheld hmoney hsolv
  · rw [hsl]
    intro x hx ha
    exact Or.inr (h.live_ne ht hns hnq x hx ha)
  · rw [hsl]; exact h.liveNodup
  · rw [hsl]; exact hgot
  · rw [hsl]; intro j u w _ hj hp; exact h.gotHead j u w hj hp
  · rw [hsl]; exact h.qamts

theorem even_sub (x w : Int) (hw : w % 2 = 0) : (x - w) - (x - w) % 2 = (x - x % 2) - w := by
  omega
theorem even_add (x w : Int) (hw : w % 2 = 0) : (x + w) - (x + w) % 2 = (x - x % 2) + w := by
  omega

theorem lock_none_of {s : St} (h : Inv s) {i : Nat} {t : Thread} (ht : s.threads[i]? = some t)
    (hn : t.pc.locked = false) : s.lock ≠ some i := by
  intro e
  have := (h.lockHolder i t ht).2 e
  simp [hn] at this

theorem tsum_nonneg {f : Thread → Int} {s : St}
    (hf : ∀ (j : Nat) (u : Thread), s.threads[j]? = some u → 0 ≤ f u) : 0 ≤ tsum f s := by
  unfold tsum
  generalize s.threads = l at hf
  induction l with
  | nil => simp
  | cons b l ih =>
    have := hf 0 b rfl
    have := ih (fun j u hj => hf (j+1) u hj)
    simp; omega

theorem le_tsum {f : Thread → Int} {s : St} {i : Nat} {t : Thread}
    (hf : ∀ (j : Nat) (u : Thread), s.threads[j]? = some u → 0 ≤ f u)
    (ht : s.threads[i]? = some t) : f t ≤ tsum f s := by
  -- drop thread `i`'s contribution and use non-negativity of the rest
  have h0 : ∀ (l : List Thread) (i : Nat),
      (∀ (j : Nat) (u : Thread), l[j]? = some u → 0 ≤ f u) → l[i]? = some t →
      f t ≤ (l.map f).sum := by
    intro l
    induction l with
    | nil => intro i _ h; simp at h
    | cons a l ih =>
      intro i hall hi
      have h0 := hall 0 a rfl
      cases i with
      | zero =>
        simp at hi; subst hi
        have := tsum_nonneg (f := f) (s := { s with threads := l })
          (fun j u hj => hall (j+1) u hj)
        simp [tsum] at *; omega
      | succ i =>
        have := ih i (fun j u hj => hall (j+1) u hj) hi
        simp; omega
  exact h0 _ _ hf ht

theorem Inv.tent_nonneg {s : St} (h : Inv s) :
    ∀ (j : Nat) (u : Thread), s.threads[j]? = some u → 0 ≤ tent u.pc := by
  intro j u hj
  have := (h.amts j u hj).1
  cases hp : u.pc <;> simp_all [tent, PC.amt]

theorem Inv.res_nonneg {s : St} (h : Inv s) :
    ∀ (j : Nat) (u : Thread), s.threads[j]? = some u → 0 ≤ res u.pc := by
  intro j u hj
  have := (h.amts j u hj).1
  cases hp : u.pc <;> simp_all [res, PC.amt]

theorem Inv.sent_nonneg {s : St} (h : Inv s) :
    ∀ (j : Nat) (u : Thread), s.threads[j]? = some u → 0 ≤ sent u.pc := by
  intro j u hj
  have := (h.amts j u hj).1
  cases hp : u.pc <;> simp_all [sent, PC.amt]

theorem inv_stepPC {s s' : St} {i : Nat} {t : Thread} (h : Inv s) (ht : s.threads[i]? = some t)
    (hs : stepPC s i t.pc = some s') : Inv s' := by
  obtain ⟨pc, held⟩ := t
  have hamt := h.amts i _ ht
  have hheld := (h.helds i _ ht).1
  have hlk := h.lockHolder i _ ht
  have hle := h.leak
  cases pc with
  | idle => simp [stepPC] at hs
  | sleeping w => simp [stepPC] at hs
  | woken w => simp [stepPC] at hs
  | panicked => simp [stepPC] at hs
  | borrowTry w =>
    simp only [PC.amt] at hamt
    simp only [stepPC] at hs
    split at hs
    · rename_i hc
      rw [setPC_eq (t := ⟨.borrowTry w, held⟩) (by exact ht)] at hs
      simp at hs
      subst hs
      refine inv_update_q h ht (t' := ⟨.borrowFailed w s.supply, held⟩) rfl rfl hle rfl ?_
        (fun _ _ => Iff.rfl) (by simp) (by simp) (by simp) hamt ⟨hheld, by simp⟩ ?_ ?_
      · simpa [PC.locked] using hlk
      · simp only [even, tent, sent]; omega
      · simp only [even, res]; omega
    · rename_i hc
      simp [ht] at hs
      subst hs
      refine inv_update_q h ht (t' := ⟨.idle, held + w⟩) rfl rfl hle rfl ?_
        (fun _ _ => Iff.rfl) (by simp) (by simp) (by simp) ?_ ⟨?_, by simp⟩ ?_ ?_
      · simpa [PC.locked] using hlk
      · simp [PC.amt]; omega
      · simp at hheld ⊢; omega
      · simp only [even, tent, sent]; omega
      · have := tsum_nonneg h.res_nonneg
        simp only [even, res] at *; omega
  | borrowFailed w old =>
    simp only [PC.amt] at hamt
    simp only [stepPC] at hs
    split at hs <;> simp at hs
    rename_i hc
    rw [setPC_eq (t := ⟨.borrowFailed w old, held⟩) (by exact ht)] at hs
    subst hs
    refine inv_update_q h ht (t' := ⟨.borrowLocked w old, held⟩) rfl rfl hle rfl ?_
      (fun j hj => ?_) (by simp) (by simp) (by simp) hamt ⟨hheld, by simp⟩ ?_ ?_
    · simp [PC.locked]
    · simp [hc]; exact fun e => hj e.symm
    · simp only [even, tent, sent]
    · simp only [even, res]; omega
  | borrowLocked w old =>
    simp only [PC.amt] at hamt
    have hL : s.lock = some i := hlk.1 rfl
    simp only [stepPC] at hs
    split at hs
    · rw [setPC_eq (t := ⟨.borrowLocked w old, held⟩) (by exact ht)] at hs
      simp at hs
      subst hs
      refine inv_update_q h ht (t' := ⟨.borrowTry w, held⟩) rfl rfl hle rfl ?_
        (fun j hj => ?_) (by simp) (by simp) (by simp) hamt ⟨hheld, by simp⟩ ?_ ?_
      · simp [PC.locked]
      · simp [hL]; exact fun e => hj e.symm
      · simp only [even, tent, sent]; omega
      · simp only [even, res]; omega
    · rw [setPC_eq (t := ⟨.borrowLocked w old, held⟩) (by exact ht)] at hs
      simp at hs
      subst hs
      refine inv_update_q h ht (t' := ⟨.borrowAdded w, held⟩) rfl rfl hle rfl ?_
        (fun _ _ => Iff.rfl) (by simp) (by simp) (by simp) hamt ⟨hheld, by simp⟩ ?_ ?_
      · simp [PC.locked, hL]
      · simp only [even, tent, sent]; omega
      · simp only [even, res]; omega
  | borrowAdded w =>
    simp only [PC.amt] at hamt
    have hL : s.lock = some i := hlk.1 rfl
    simp only [stepPC] at hs
    rw [setPC_eq (t := ⟨.borrowAdded w, held⟩) (by exact ht)] at hs
    simp at hs
    subst hs
    have hne := h.live_ne ht (by simp) (by simp)
    refine inv_update h ht (t' := ⟨.borrowQueued w, held⟩) rfl rfl hle ?_
        (fun _ _ => Iff.rfl) ?_ ?_ (by simp) ?_ hamt ?_ ⟨hheld, by simp⟩ ?_ ?_
    · simp [PC.locked, hL]
    · intro x hx ha
      simp at hx
      rcases hx with hx | hx
      · exact Or.inr (hne x hx ha)
      · subst hx; exact Or.inl ⟨rfl, Or.inr rfl⟩
    · simp only [List.filter_append, List.map_append]
      rw [List.nodup_append]
      refine ⟨h.liveNodup, by simp, ?_⟩
      intro a ha b hb
      simp at ha hb
      obtain ⟨x, ⟨hx, hal⟩, rfl⟩ := ha
      subst hb
      exact (hne x hx hal).1
    · intro j u w' hj hu hp
      obtain ⟨x, q, hq, hw⟩ := h.gotHead j u w' hu hp
      exact ⟨x, q ++ [⟨i, w, true⟩], by simp [hq], hw⟩
    · intro x hx
      simp at hx
      rcases hx with hx | hx
      · exact h.qamts x hx
      · subst hx; exact hamt
    · simp only [even, tent, sent]
    · simp only [even, res]; omega
  | borrowQueued w =>
    simp only [PC.amt] at hamt
    have hL : s.lock = some i := hlk.1 rfl
    simp only [stepPC] at hs
    rw [setPC_eq (t := ⟨.borrowQueued w, held⟩) (by exact ht)] at hs
    simp at hs
    subst hs
    refine inv_update h ht (t' := ⟨.sleeping w, held⟩) rfl rfl hle ?_
        (fun j hj => ?_) ?_ h.liveNodup (by simp)
        (fun j u w' _ hu hp => h.gotHead j u w' hu hp) hamt h.qamts ⟨hheld, by simp⟩ ?_ ?_
    · simp [PC.locked]
    · simp [hL]; exact fun e => hj e.symm
    · intro x hx ha
      obtain ⟨u, hu, hp⟩ := h.live x hx ha
      by_cases e : x.tid = i
      · rw [e, ht] at hu
        simp at hu
        subst hu
        simp at hp
        exact Or.inl ⟨e, Or.inl (by simp [hp])⟩
      · exact Or.inr ⟨e, u, hu, hp⟩
    · simp only [even, tent, sent, orFlag]; split <;> omega
    · simp only [even, res, orFlag]; split <;> omega
  | repayWake =>
    simp only [stepPC] at hs
    split at hs <;> simp at hs
    rename_i hc
    rw [setPC_eq (t := ⟨.repayWake, held⟩) (by exact ht)] at hs
    subst hs
    refine inv_update_q h ht (t' := ⟨.awakening, held⟩) rfl rfl hle rfl ?_
      (fun j hj => ?_) (by simp) (by simp) (by simp) hamt ⟨hheld, by simp⟩ ?_ ?_
    · simp [PC.locked]
    · simp [hc]; exact fun e => hj e.symm
    · simp only [even, tent, sent]
    · simp only [even, res]; omega
  | awakening =>
    have hL : s.lock = some i := hlk.1 rfl
    simp only [stepPC] at hs
    split at hs
    · rw [setPC_eq (t := ⟨.awakening, held⟩) (by exact ht)] at hs
      simp at hs
      subst hs
      refine inv_update_q h ht (t' := ⟨.idle, held⟩) rfl rfl hle rfl ?_
        (fun j hj => ?_) (by simp) (by simp) (by simp) hamt ⟨hheld, by simp⟩ ?_ ?_
      · simp [PC.locked]
      · simp [hL]; exact fun e => hj e.symm
      · simp only [even, tent, sent, clearFlag]; omega
      · simp only [even, res, clearFlag]; omega
    · rename_i x q hq
      have hx := h.qamts x (by simp [hq])
      split at hs
      · rw [setPC_eq (t := ⟨.awakening, held⟩) (by exact ht)] at hs
        simp at hs
        subst hs
        refine inv_update_q h ht (t' := ⟨.awakeShort x.wants, held⟩) rfl rfl hle rfl ?_
          (fun _ _ => Iff.rfl) (by simp) (by simp) (by simp) hx ⟨hheld, by simp⟩ ?_ ?_
        · simp [PC.locked, hL]
        · simp only [even, tent, sent]; omega
        · simp only [even, res]; omega
      · rw [setPC_eq (t := ⟨.awakening, held⟩) (by exact ht)] at hs
        simp at hs
        subst hs
        refine inv_update_q h ht (t' := ⟨.awakeGot x.wants, held⟩) rfl rfl hle rfl ?_
          (fun _ _ => Iff.rfl) (by simp) (by simp) ?_ hx ⟨hheld, by simp⟩ ?_ ?_
        · simp [PC.locked, hL]
        · intro w hw; simp at hw; exact ⟨x, q, hq, hw⟩
        · simp only [even, tent, sent]; omega
        · have := tsum_nonneg h.res_nonneg
          simp only [even, res] at *; omega
  | awakeShort w =>
    simp only [PC.amt] at hamt
    have hL : s.lock = some i := hlk.1 rfl
    simp only [stepPC] at hs
    rw [setPC_eq (t := ⟨.awakeShort w, held⟩) (by exact ht)] at hs
    simp at hs
    subst hs
    refine inv_update_q h ht (t' := ⟨.idle, held⟩) rfl rfl hle rfl ?_
      (fun j hj => ?_) (by simp) (by simp) (by simp) ?_ ⟨hheld, by simp⟩ ?_ ?_
    · simp [PC.locked]
    · simp [hL]; exact fun e => hj e.symm
    · simp [PC.amt]; omega
    · simp only [even, tent, sent]; omega
    · simp only [even, res]; omega
  | awakeRefund w =>
    simp only [PC.amt] at hamt
    have hL : s.lock = some i := hlk.1 rfl
    simp only [stepPC] at hs
    rw [setPC_eq (t := ⟨.awakeRefund w, held⟩) (by exact ht)] at hs
    simp at hs
    subst hs
    refine inv_update_q h ht (t' := ⟨.awakening, held⟩) rfl rfl hle rfl ?_
      (fun _ _ => Iff.rfl) (by simp) (by simp) (by simp) ?_ ⟨hheld, by simp⟩ ?_ ?_
    · simp [PC.locked, hL]
    · simp [PC.amt]; omega
    · simp only [even, tent, sent]; omega
    · simp only [even, res]; omega
  | awakeGot w =>
    simp only [PC.amt] at hamt
    have hL : s.lock = some i := hlk.1 rfl
    obtain ⟨x0, q0, hq0, hw0⟩ := h.gotHead i _ w ht rfl
    simp only [stepPC, hq0] at hs
    have hothers : ∀ (j : Nat) (u : Thread) (w' : Int), j ≠ i → s.threads[j]? = some u →
        u.pc = .awakeGot w' → False := by
      intro j u w' hj hu hp
      exact hj (h.uniq hu ht (by simp [hp, PC.locked]) rfl)
    have hnd0 := h.liveNodup
    rw [hq0] at hnd0
    have hqa : ∀ x ∈ q0, 0 ≤ x.wants ∧ x.wants % 2 = 0 ∧ x.wants ≤ s.capacity :=
      fun x hx => h.qamts x (by rw [hq0]; exact List.mem_cons_of_mem _ hx)
    split at hs
    · rename_i hal
      obtain ⟨u, hu, hp⟩ := h.live x0 (by simp [hq0]) hal
      have hne : x0.tid ≠ i := by
        intro e; rw [e, ht] at hu; simp at hu; subst hu; simp at hp
      have hup : u.pc = .sleeping x0.wants := by
        rcases hp with hp | hp
        · exact hp
        · exact absurd (h.uniq hu ht (by simp [hp, PC.locked]) rfl) hne
      -- step A: pop the queue and mark the sleeper woken; step B: back to the loop
      simp only [List.filter_cons, hal, if_true, List.map_cons, List.nodup_cons] at hnd0
      have hpop : ∀ x ∈ q0, x.alive = true → x.tid ≠ x0.tid := by
        intro x hx ha e
        apply hnd0.1
        rw [← e]
        exact List.mem_map.2 ⟨x, List.mem_filter.2 ⟨hx, ha⟩, rfl⟩
      have hA := setPC_eq (s := { s with sleepers := q0 }) (pc := PC.woken x0.wants) (by exact hu)
      rw [hA] at hs
      have hgi : (s.threads.set x0.tid { u with pc := .woken x0.wants })[i]? =
          some ⟨.awakeGot w, held⟩ := by
        rw [get_set _ _ _ _ _ hu, if_neg hne]; exact ht
      rw [setPC_eq (t := ⟨.awakeGot w, held⟩) (by exact hgi)] at hs
      simp at hs
      subst hs
      -- go through an intermediate state in which thread `i` is already back at the loop head
      have hI : Inv { s with
          sleepers := q0, threads := s.threads.set i ⟨.awakening, held⟩,
          leaked := s.leaked + w } := by
        refine inv_update h ht (t' := ⟨.awakening, held⟩) rfl rfl ?_ ?_ (fun _ _ => Iff.rfl)
          ?_ hnd0.2 (by simp) ?_ ?_ hqa ⟨hheld, by simp⟩ ?_ ?_
        · simp; omega
        · simp [PC.locked, hL]
        · intro x hx ha
          have := h.live_ne ht (by simp) (by simp) x (by rw [hq0]; exact List.mem_cons_of_mem _ hx) ha
          exact Or.inr this
        · intro j u w' hj hu hp; exact (hothers j u w' hj hu hp).elim
        · simp [PC.amt]; omega
        · simp only [even, tent, sent]; omega
        · simp only [even, res]; omega
      have hu' : (s.threads.set i ⟨.awakening, held⟩)[x0.tid]? = some u := by
        rw [get_set _ _ _ _ _ ht, if_neg (fun e => hne e.symm)]; exact hu
      have hxa := h.qamts x0 (by simp [hq0])
      have huh := (h.helds _ _ hu).1
      refine inv_update hI hu' (t' := { u with pc := .woken x0.wants }) ?_ rfl ?_ ?_
        (fun _ _ => Iff.rfl) ?_ hnd0.2 (by simp) ?_ hxa hqa ⟨huh, by simp⟩ ?_ ?_
      · simp; rw [List.set_comm]; exact fun e => hne e
      · simp; exact hle
      · simp [PC.locked, hL]; exact fun e => hne e.symm
      · intro x hx ha
        refine Or.inr ⟨hpop x hx ha, ?_⟩
        obtain ⟨v, hv, hp'⟩ := hI.live x hx ha
        exact ⟨v, hv, hp'⟩
      · intro j v w' hj hv hp'
        exfalso
        rw [get_set _ _ _ _ _ ht] at hv
        split at hv
        · simp at hv; subst hv; simp at hp'
        · rename_i e; exact hothers j v w' (fun e' => e e'.symm) hv hp'
      · simp only [even, tent, sent, hup]; omega
      · simp only [even, res, hup]; omega
    · rw [setPC_eq (t := ⟨.awakeGot w, held⟩) (by exact ht)] at hs
      simp at hs
      subst hs
      refine inv_update h ht (t' := ⟨.awakeRefund w, held⟩) rfl rfl hle ?_ (fun _ _ => Iff.rfl)
          ?_ ?_ (by simp) ?_ hamt hqa ⟨hheld, by simp⟩ ?_ ?_
      · simp [PC.locked, hL]
      · intro x hx ha
        exact Or.inr (h.live_ne ht (by simp) (by simp) x
          (by rw [hq0]; exact List.mem_cons_of_mem _ hx) ha)
      · rename_i hal
        simpa [List.filter_cons, hal] using hnd0
      · intro j u w' hj hu hp; exact (hothers j u w' hj hu hp).elim
      · simp only [even, tent, sent]
      · simp only [even, res]; omega

/-- Every transition preserves the invariant. -/
theorem inv_step {s s' : St} {a : Action} (h : Inv s) (hs : step s a = some s') : Inv s' := by
  have hle := h.leak
  cases a with
  | borrow i size =>
    simp only [step] at hs
    split at hs <;> simp at hs
    rename_i t ht
    obtain ⟨⟨hpc, hcap⟩, rfl⟩ := hs
    have hlk := h.lockHolder i t ht
    rw [setPC_eq ht]
    refine inv_update_q h ht rfl rfl hle rfl ?_ (fun _ _ => Iff.rfl) (by simp [hpc])
      (by simp [hpc]) (by simp) ?_ ⟨(h.helds i t ht).1, by simp⟩ ?_ ?_
    · simpa [hpc, PC.locked] using hlk
    · simp [PC.amt]; omega
    · simp only [even, tent, sent, hpc]
    · simp only [even, res, hpc]; omega
  | repay i bytes =>
    simp only [step] at hs
    split at hs
    · simp at hs
    rename_i t ht
    split at hs
    rotate_left
    · simp at hs
    rename_i hc
    obtain ⟨hpc, hc⟩ := hc
    split at hs
    · simp at hs; subst hs; exact h
    simp only [Option.some.injEq] at hs
    have hlk := h.lockHolder i t ht
    have hH := le_tsum (fun j u hj => (h.helds j u hj).1) ht
    have hT := tsum_nonneg h.tent_nonneg
    have hS := tsum_nonneg h.sent_nonneg
    have hm := h.money
    have hok : ¬ ¬ (s.capacity ≥ (s.supply - s.supply % 2) + (bytes : Int) * 2) := by
      have hH' : t.held ≤ tsum (fun t => t.held) s := hH
      simp only [even] at hm; omega
    rw [if_neg hok] at hs
    subst hs
    refine inv_update_q h ht rfl rfl hle rfl ?_ (fun _ _ => Iff.rfl) (by simp [hpc])
      (by simp [hpc]) ?_ ?_ ⟨?_, ?_⟩ ?_ ?_
    · simp only [hpc, PC.locked] at hlk
      dsimp only
      split <;> simpa [PC.locked] using hlk
    · intro w; dsimp only; split <;> simp
    · have := h.capEven
      have := h.solvent
      have := h.money
      have : 0 ≤ s.capacity := by
        have h1 := (h.amts i t ht)
        omega
      dsimp only; split <;> simp [PC.amt] <;> omega
    · dsimp only; omega
    · dsimp only; split <;> simp
    · dsimp only; rw [hpc]
      split <;> simp only [even, tent, sent] <;> omega
    · dsimp only; rw [hpc]
      split <;> simp only [even, res] <;> omega
  | step i =>
    simp only [step] at hs
    split at hs
    · simp at hs
    rename_i t ht
    exact inv_stepPC h ht hs
  | cancel i =>
    simp only [step] at hs
    split at hs
    · simp at hs
    rename_i t ht
    split at hs <;> simp at hs
    rename_i w hpc
    have hlk := h.lockHolder i t ht
    rw [setPC_eq (t := t) (by exact ht)] at hs
    subst hs
    have hab : ∀ x ∈ abandon i s.sleepers, x.alive = true → x ∈ s.sleepers ∧ x.tid ≠ i := by
      intro x hx ha
      simp only [abandon, List.mem_map] at hx
      obtain ⟨y, hy, rfl⟩ := hx
      split at ha
      · simp at ha
      · rename_i e; simp [e, hy]
    have hfil : (abandon i s.sleepers).filter (·.alive) =
        (s.sleepers.filter (·.alive)).filter (fun x => decide (x.tid ≠ i)) := by
      simp only [abandon]
      generalize s.sleepers = q
      induction q with
      | nil => rfl
      | cons y q ih =>
        by_cases e : y.tid = i <;> by_cases ha : y.alive = true <;>
          simp_all
    refine inv_update h ht rfl rfl hle ?_ (fun _ _ => Iff.rfl) ?_ ?_ (by simp) ?_ ?_ ?_
      ⟨(h.helds i t ht).1, by simp⟩ ?_ ?_
    · simpa [hpc, PC.locked] using hlk
    · intro x hx ha
      obtain ⟨hm, hne⟩ := hab x hx ha
      exact Or.inr ⟨hne, h.live x hm ha⟩
    · dsimp only
      rw [hfil]
      exact (List.filter_sublist.map _).nodup h.liveNodup
    · intro j u w' _ hu hp
      obtain ⟨x, q, hq, hw⟩ := h.gotHead j u w' hu hp
      dsimp only
      rw [hq]
      refine ⟨_, abandon i q, rfl, ?_⟩
      dsimp only; split <;> simp [hw]
    · have := h.amts i t ht
      simp [PC.amt]; omega
    · intro x hx
      simp only [abandon, List.mem_map] at hx
      obtain ⟨y, hy, rfl⟩ := hx
      have := h.qamts y hy
      split <;> simpa using this
    · simp only [even, tent, sent, hpc]
    · simp only [even, res, hpc]; omega
  | poll i =>
    simp only [step] at hs
    split at hs
    · simp at hs
    rename_i t ht
    split at hs <;> simp at hs
    rename_i w hpc
    have hlk := h.lockHolder i t ht
    have ha := h.amts i t ht
    have hh := (h.helds i t ht).1
    simp only [hpc, PC.amt] at ha
    subst hs
    refine inv_update_q h ht rfl rfl hle rfl ?_ (fun _ _ => Iff.rfl) (by simp [hpc])
      (by simp [hpc]) (by simp) ?_ ⟨?_, by simp⟩ ?_ ?_
    · simpa [hpc, PC.locked] using hlk
    · simp [PC.amt]; omega
    · dsimp only; omega
    · simp only [even, tent, sent, hpc]; omega
    · simp only [even, res, hpc]; omega
  | dropWoken i =>
    simp only [step] at hs
    split at hs
    · simp at hs
    rename_i t ht
    split at hs <;> simp at hs
    rename_i w hpc
    have hlk := h.lockHolder i t ht
    have ha := h.amts i t ht
    have hh := (h.helds i t ht).1
    simp only [hpc, PC.amt] at ha
    rw [setPC_eq ht] at hs
    subst hs
    refine inv_update_q h ht rfl rfl ?_ rfl ?_ (fun _ _ => Iff.rfl) (by simp [hpc])
      (by simp [hpc]) (by simp) ?_ ⟨hh, by simp⟩ ?_ ?_
    · dsimp only; omega
    · simpa [hpc, PC.locked] using hlk
    · simp [PC.amt]; omega
    · simp only [even, tent, sent, hpc]; omega
    · simp only [even, res, hpc]; omega
  | give i j bytes =>
    simp only [step] at hs
    split at hs
    · simp at hs
    rename_i hij
    split at hs
    rotate_left
    · simp at hs
    rename_i t u ht hu
    split at hs
    rotate_left
    · simp at hs
    rename_i hc
    obtain ⟨hpt, hpu, hc⟩ := hc
    simp only [Option.some.injEq] at hs
    have hI : Inv { s with threads := s.threads.set i { t with held := t.held - (bytes : Int) * 2 },
                           leaked := s.leaked + (bytes : Int) * 2 } := by
      have hlk := h.lockHolder i t ht
      refine inv_update_q h ht rfl rfl ?_ rfl ?_ (fun _ _ => Iff.rfl) (by simp [hpt])
        (by simp [hpt]) (by simp [hpt]) ?_ ⟨?_, by simp [hpt]⟩ ?_ ?_
      · dsimp only; omega
      · simpa [hpt, PC.locked] using hlk
      · exact h.amts i t ht
      · dsimp only; omega
      · simp only [even, tent, sent, hpt]; omega
      · simp only [even, res, hpt]; omega
    have hu' : (s.threads.set i { t with held := t.held - (bytes : Int) * 2 })[j]? = some u := by
      rw [get_set _ _ _ _ _ ht, if_neg hij]; exact hu
    have hlk := hI.lockHolder j u hu'
    have hh := (h.helds j u hu).1
    subst hs
    refine inv_update_q hI hu' rfl rfl ?_ rfl ?_ (fun _ _ => Iff.rfl) (by simp [hpu])
        (by simp [hpu]) (by simp [hpu]) ?_ ⟨?_, by simp [hpu]⟩ ?_ ?_
    · exact hle
    · simpa [hpu, PC.locked] using hlk
    · exact h.amts j u hu
    · dsimp only; omega
    · simp only [even, tent, sent, hpu]; omega
    · simp only [even, res, hpu]; omega

theorem inv_run {s s' : St} {as : List Action} (h : Inv s) (hs : run s as = some s') : Inv s' := by
  induction as generalizing s with
  | nil => simp [run] at hs; exact hs ▸ h
  | cons a as ih =>
    simp only [run] at hs
    cases h1 : step s a with
    | none => simp [h1] at hs
    | some s1 => simp [h1] at hs; exact ih (inv_step h h1) hs

end Verif.WriteBack
