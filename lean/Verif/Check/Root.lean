import Verif.Check.Complete
import Verif.Tree.CleanProps

/-!
# The transactions recorded for the root

`Verif.Tree.Txgs` says that they are right for the nodes below the root, after any history.  Here:
for the root too.
-/

namespace Verif.Check

open Verif (OMap)
open Verif.Tree

variable {V : Type} {L : Limits}

structure Rooted (T : Nat) (t : Tree V) : Prop where
  start : t.info.start ≤ T
  stop : t.info.stop ≤ T + 1
  spans : Spans Any t.h t.info.start t.info.stop t.root

theorem Rooted.now {T txg : Nat} (hT : T ≤ txg) {t : Tree V} (ht : Rooted T t) :
    Spans Any t.h t.info.start (txg + 1) t.root :=
  spans_mono (Nat.le_refl _) (Nat.le_trans ht.stop (by omega)) ht.spans

theorem insert_rooted {seq : Bool} {T txg : Nat} (hT : T ≤ txg) {t t' : Tree V} (ht : Rooted T t)
    {k : Nat} {v : V} {old : Option V} (hr : t.insert L seq txg k v = some (t', old)) :
    Rooted txg t' := by
  have h0 : Spans Any (t.xlockRoot txg).h (t.xlockRoot txg).info.start (txg + 1)
    (t.xlockRoot txg).root := ht.now hT
  have hs : (t.xlockRoot txg).info.start ≤ txg := Nat.le_trans ht.start hT
  have he : (t.xlockRoot txg).info.stop = txg + 1 := rfl
  unfold Tree.insert at hr
  simp only at hr
  generalize t.xlockRoot txg = t at *
  by_cases hsp : shouldSplit L t.h t.root k = true
  · rw [if_pos hsp] at hr
    obtain ⟨⟨l, k', r⟩, h1, hr⟩ := Option.bind_eq_some_iff.mp hr
    obtain ⟨hl, hrr⟩ := split_mem h1
    obtain ⟨⟨m, o⟩, hrec, hr⟩ := Option.map_eq_some_iff.mp hr
    simp only [Prod.mk.injEq] at hr
    obtain ⟨rfl, -⟩ := hr
    refine ⟨hs, Nat.le_of_eq he, ?_⟩
    show Spans Any (t.h + 1) t.info.start t.info.stop m
    rw [he]
    refine insertInt_spans (t.h + 1) 2 hs ?_ hrec
    obtain ⟨a1, a2, a3⟩ := startTxg_spec t.h (spans_sub h0 hl) hs
    obtain ⟨b1, b2, b3⟩ := startTxg_spec t.h (spans_sub h0 hrr) hs
    rw [spans_cons, spans_cons]
    exact ⟨within_el ⟨a1, a2, rfl, rfl⟩ a3, within_el ⟨b1, b2, rfl, rfl⟩ b3, spans_nil⟩
  · rw [if_neg hsp] at hr
    obtain ⟨⟨m, o⟩, hrec, hr⟩ := Option.map_eq_some_iff.mp hr
    simp only [Prod.mk.injEq] at hr
    obtain ⟨rfl, -⟩ := hr
    obtain ⟨h, info, root⟩ := t
    cases h with
    | zero => exact ⟨Nat.le_refl _, Nat.le_refl _, fun _ _ => trivial⟩
    | succ h =>
      refine ⟨hs, Nat.le_of_eq he, ?_⟩
      show Spans Any (h + 1) info.start info.stop m
      have he : info.stop = txg + 1 := he
      rw [he]
      exact insertInt_spans (h + 1) 2 hs h0 hrec

theorem mergeRoot_rooted {T txg : Nat} (hT : T ≤ txg) {t : Tree V} (ht : Rooted T t) :
    Rooted txg (t.mergeRoot txg) := by
  have h0 := ht.now hT
  have hs : t.info.start ≤ txg := Nat.le_trans ht.start hT
  obtain ⟨h, info, n⟩ := t
  match h, n, h0 with
  | 0, _, h0 => exact ⟨hs, Nat.le_refl _, fun _ _ => trivial⟩
  | _ + 1, [], _ => exact ⟨Nat.zero_le _, Nat.le_refl _, fun _ _ => trivial⟩
  | h + 1, [(k, c)], h0 =>
    obtain ⟨-, w2, w3, -, w5⟩ := h0 (k, c) (by simp)
    exact ⟨by show c.info.start ≤ txg; omega, Nat.le_refl _, spans_mono (Nat.le_refl _) w3 w5⟩
  | h + 1, a :: b :: es, h0 => exact ⟨hs, Nat.le_refl _, h0⟩

theorem remove_rooted {T txg : Nat} (hT : T ≤ txg) {t t' : Tree V} (ht : Rooted T t)
    {k : Nat} {old : Option V} (hr : t.remove L txg k = some (t', old)) : Rooted txg t' := by
  have h1 := mergeRoot_rooted hT ht
  unfold Tree.remove at hr
  simp only at hr
  obtain ⟨⟨n, o⟩, h2, h3⟩ := Option.map_eq_some_iff.mp hr
  simp only [Prod.mk.injEq] at h3
  obtain ⟨rfl, -⟩ := h3
  have h4 : (t.mergeRoot txg).info.stop = txg + 1 := by
    unfold Tree.mergeRoot
    split <;> rfl
  refine ⟨h1.start, h1.stop, ?_⟩
  show Spans Any (t.mergeRoot txg).h (t.mergeRoot txg).info.start (t.mergeRoot txg).info.stop n
  rw [h4]
  exact removeR_spans _ h1.start (by rw [← h4]; exact h1.spans) h2

theorem mergeDown_rooted {txg : Nat} : ∀ (h : Nat) (info : Meta) {n : Node V h},
    info.start ≤ txg → Spans Any h info.start (txg + 1) n →
    Rooted txg (mergeDown txg h info n) ∧ (mergeDown txg h info n).info.stop = txg + 1
  | 0, info, _, h1, _ => ⟨⟨h1, Nat.le_refl _, fun _ _ => trivial⟩, rfl⟩
  | _ + 1, _, [], _, _ => by
    simp only [mergeDown]
    exact ⟨⟨Nat.zero_le _, Nat.le_refl _, fun _ _ => trivial⟩, rfl⟩
  | h + 1, _, [(k, c)], h1, h2 => by
    simp only [mergeDown]
    obtain ⟨-, w2, w3, -, w5⟩ := h2 (k, c) (by simp)
    exact mergeDown_rooted h c.info (by omega) (spans_mono (Nat.le_refl _) w3 w5)
  | h + 1, info, a :: b :: es, h1, h2 => by
    simp only [mergeDown]
    exact ⟨⟨h1, Nat.le_refl _, h2⟩, rfl⟩

theorem rangeDelete_rooted {T txg : Nat} (hT : T ≤ txg) {t t' : Tree V} (ht : Rooted T t)
    {s e : Bnd Nat} (hr : t.rangeDelete L txg s e = some t') : Rooted txg t' := by
  have h0 := ht.now hT
  have hs : t.info.start ≤ txg := Nat.le_trans ht.start hT
  unfold Tree.rangeDelete at hr
  split at hr
  · simp only [Option.some.injEq] at hr
    rw [← hr]
    exact ⟨hs, Nat.le_trans ht.stop (by omega), ht.spans⟩
  · simp only [Tree.xlockRoot] at hr
    obtain ⟨⟨n, d⟩, h1, hr⟩ := Option.bind_eq_some_iff.mp hr
    have hn := pass1_spans t.h hs (unmark_spans t.h h0) h1
    obtain ⟨n2, h2, hr⟩ := Option.map_eq_some_iff.mp hr
    rw [← hr]
    obtain ⟨m1, m2⟩ := mergeDown_rooted (txg := txg) t.h
      { t.info with stop := txg + 1, addr := none } hs hn
    have m3 := m1.spans
    rw [m2] at m3
    exact (mergeDown_rooted _ _ m1.start (pass2R_spans _ m1.start m3 h2)).1

theorem flush_rooted {T txg next : Nat} (hT : T ≤ txg) {t : Tree V} (ht : Rooted T t) :
    Rooted txg (t.flush txg next) := by
  have h0 := ht.now hT
  have hs : t.info.start ≤ txg := Nat.le_trans ht.start hT
  unfold Tree.flush
  split
  · exact ⟨hs, Nat.le_trans ht.stop (by omega), ht.spans⟩
  · have := flushR_spans t.h next hs (fun _ _ _ _ _ => trivial) h0
    obtain ⟨-, a2, a3⟩ := startTxg_spec t.h this hs
    exact ⟨a2, Nat.le_refl _, a3⟩

theorem rewrite_rooted {T txg pba e key : Nat} (hT : T ≤ txg) {t t' : Tree V} (ht : Rooted T t)
    (hr : t.rewrite txg pba e key = some t') : Rooted txg t' := by
  have h0 := ht.now hT
  have hs : t.info.start ≤ txg := Nat.le_trans ht.start hT
  unfold Tree.rewrite at hr
  split at hr
  · split at hr
    · simp only [Option.some.injEq] at hr
      subst hr
      exact ⟨hs, Nat.le_trans ht.stop (by omega), ht.spans⟩
    · simp only [Option.some.injEq] at hr
      subst hr
      exact ⟨hs, Nat.le_trans ht.stop (by show T + 1 ≤ txg + 1; omega), ht.spans⟩
  · simp only [Tree.xlockRoot] at hr
    obtain ⟨n, hn, hr⟩ := Option.map_eq_some_iff.mp hr
    subst hr
    exact ⟨hs, Nat.le_refl _, rewriteR_spans (fun _ _ => trivial) t.h hs h0 hn⟩

theorem reached_rooted {seq : Bool} {T : Nat} {t : Tree V} (hr : Reached L seq T t) : Rooted T t := by
  induction hr with
  | empty => exact ⟨Nat.le_refl _, Nat.zero_le _, spans_nil⟩
  | @op T t t' op r _ hT hs ih =>
    cases op with
    | insert txg k v =>
      obtain ⟨p, h1, h2⟩ := Option.map_eq_some_iff.mp hs
      simp only [Prod.mk.injEq] at h2
      rw [← h2.1]
      exact insert_rooted hT ih h1
    | remove txg k =>
      obtain ⟨p, h1, h2⟩ := Option.map_eq_some_iff.mp hs
      simp only [Prod.mk.injEq] at h2
      rw [← h2.1]
      exact remove_rooted hT ih h1
    | rangeDelete txg s e =>
      obtain ⟨p, h1, h2⟩ := Option.map_eq_some_iff.mp hs
      simp only [Prod.mk.injEq] at h2
      rw [← h2.1]
      exact rangeDelete_rooted hT ih h1
    | get k =>
      obtain ⟨p, h1, h2⟩ := Option.map_eq_some_iff.mp hs
      simp only [Prod.mk.injEq] at h2
      rw [← h2.1]
      exact ih
    | lastKey =>
      obtain ⟨p, h1, h2⟩ := Option.map_eq_some_iff.mp hs
      simp only [Prod.mk.injEq] at h2
      rw [← h2.1]
      exact ih
    | range s e =>
      obtain ⟨p, h1, h2⟩ := Option.map_eq_some_iff.mp hs
      simp only [Prod.mk.injEq] at h2
      rw [← h2.1]
      exact ih
    | flush txg next =>
      simp only [step, Option.some.injEq, Prod.mk.injEq] at hs
      rw [← hs.1]
      exact flush_rooted hT ih
  | rewrite _ hT hs ih => exact rewrite_rooted hT ih hs

theorem spans_covered : ∀ (h : Nat) {lo hi : Nat} {n : Node V h}, Spans Any h lo hi n →
    Covered lo hi h n ∧ CoveredBelow h n
  | 0, _, _, _, _ => ⟨trivial, trivial⟩
  | h + 1, lo, hi, n, hs => by
    refine ⟨fun e he => ⟨(hs e he).1, (hs e he).2.2.1⟩, fun e he => ?_⟩
    exact spans_covered h (hs e he).2.2.2.2

theorem reached_covering {seq : Bool} {T : Nat} {t : Tree V} (hr : Reached L seq T t) : Covering t :=
  spans_covered t.h (reached_rooted hr).spans

end Verif.Check
