import Verif.Share.Steps

/-! Every record belongs to an extent. -/

namespace Verif.Share
open Verif (OMap)
open OMap

def NoLeak (s : St) : Prop := ∀ r, s.recs.get r ≠ none → r ∈ tr s.tree

theorem flushEnt_leak {s : St} {e e' : Ent} {recs : OMap Bytes} {n : Nat}
    (h : flushEnt s e = some (e', recs, n)) :
    (∀ r, recs.get r ≠ none → s.recs.get r ≠ none ∨ r ∈ er e') ∧ (∀ r ∈ er e, r ∈ er e') := by
  cases e with
  | inline b d =>
    simp only [flushEnt] at h
    split at h
    · simp at h
    · split at h
      · split at h
        · simp at h
        · simp only [Option.some.injEq, Prod.mk.injEq] at h
          obtain ⟨rfl, rfl, rfl⟩ := h
          refine ⟨?_, by simp [er]⟩
          intro r hr
          rw [get_insert] at hr
          split at hr
          · rename_i he; right; simp [er, he]
          · exact Or.inl hr
      · simp only [Option.some.injEq, Prod.mk.injEq] at h
        obtain ⟨rfl, rfl, rfl⟩ := h
        exact ⟨fun _ hr => Or.inl hr, fun _ hr => hr⟩
  | blob x =>
    simp only [flushEnt, Option.some.injEq, Prod.mk.injEq] at h
    obtain ⟨rfl, rfl, rfl⟩ := h
    exact ⟨fun _ hr => Or.inl hr, fun _ hr => hr⟩

theorem flushItems_leak (p : Nat → Bool) (t : OMap Ent) : ∀ {s : St} {t' : OMap Ent}
    {recs : OMap Bytes} {n : Nat}, flushItems p s t = some (t', recs, n) →
    (∀ r, recs.get r ≠ none → s.recs.get r ≠ none ∨ r ∈ tr t') ∧ (∀ r ∈ tr t, r ∈ tr t') := by
  induction t with
  | nil =>
    intro s t' recs n h
    simp only [flushItems, Option.some.injEq, Prod.mk.injEq] at h
    obtain ⟨rfl, rfl, rfl⟩ := h
    exact ⟨fun _ hr => Or.inl hr, fun _ hr => hr⟩
  | cons x t ih =>
    obtain ⟨k', e⟩ := x
    intro s t' recs n h
    simp only [flushItems] at h
    split at h
    · cases he : flushEnt s e with
      | none => rw [he] at h; simp at h
      | some q =>
        obtain ⟨e', recs', n'⟩ := q
        rw [he] at h
        simp only at h
        cases ht : flushItems p { s with recs := recs', nextRid := n' } t with
        | none => rw [ht] at h; simp at h
        | some q =>
          obtain ⟨m', x⟩ := q
          rw [ht] at h
          simp only [Option.some.injEq, Prod.mk.injEq] at h
          obtain ⟨rfl, rfl⟩ := h
          obtain ⟨a1, a2⟩ := flushEnt_leak he
          obtain ⟨b1, b2⟩ := ih ht
          refine ⟨?_, ?_⟩
          · intro r hr
            change _ ∨ r ∈ er e' ++ tr m'
            rcases b1 r hr with hr | hr
            · rcases a1 r hr with hr | hr
              · exact Or.inl hr
              · exact Or.inr (List.mem_append_left _ hr)
            · exact Or.inr (List.mem_append_right _ hr)
          · intro r hr
            change r ∈ er e' ++ tr m'
            rcases List.mem_append.1 (show r ∈ er e ++ tr t from hr) with hr | hr
            · exact List.mem_append_left _ (a2 r hr)
            · exact List.mem_append_right _ (b2 r hr)
    · cases ht : flushItems p s t with
      | none => rw [ht] at h; simp at h
      | some q =>
        obtain ⟨m', x⟩ := q
        rw [ht] at h
        simp only [Option.some.injEq, Prod.mk.injEq] at h
        obtain ⟨rfl, rfl⟩ := h
        obtain ⟨b1, b2⟩ := ih ht
        refine ⟨?_, ?_⟩
        · intro r hr
          rcases b1 r hr with hr | hr
          · exact Or.inl hr
          · exact Or.inr (List.mem_append_right _ hr)
        · intro r hr
          change r ∈ er e ++ tr m'
          rcases List.mem_append.1 (show r ∈ er e ++ tr t from hr) with hr | hr
          · exact List.mem_append_left _ hr
          · exact List.mem_append_right _ (b2 r hr)

theorem dpop_leak {s s' : St} {k b : Nat} {d : Bytes} {e : Ent} (hs : Sorted s.tree) (h : NoLeak s)
    (hg : OMap.get s.tree k = some e) (hd : dpop s e = some (s', b, d)) :
    s'.tree = s.tree ∧ ∀ r, s'.recs.get r ≠ none → r ∈ tr (OMap.remove s.tree k) := by
  have hp := perm_flat_remove er hs hg
  cases e with
  | inline b' d' =>
    simp only [dpop, Option.some.injEq, Prod.mk.injEq] at hd
    obtain ⟨rfl, rfl, rfl⟩ := hd
    exact ⟨rfl, fun r hr => hp.mem_iff.1 (h r hr)⟩
  | blob x =>
    simp only [dpop] at hd
    split at hd
    · simp at hd
    · simp only [Option.some.injEq, Prod.mk.injEq] at hd
      obtain ⟨rfl, rfl, rfl⟩ := hd
      refine ⟨rfl, ?_⟩
      intro r hr
      simp only [get_remove] at hr
      split at hr
      · simp at hr
      · rename_i hne
        rcases List.mem_append.1 (hp.mem_iff.1 (h r hr)) with hm | hm
        · exact absurd (by simpa [er] using hm) hne
        · exact hm

theorem popRec_leak {s s' : St} {k : Nat} {ph : Phase} (hs : Sorted s.tree) (h : NoLeak s)
    (hp : popRec s k = some (s', ph)) : NoLeak s' := by
  simp only [popRec] at hp
  split at hp
  · simp only [Option.some.injEq, Prod.mk.injEq] at hp
    obtain ⟨rfl, rfl⟩ := hp
    exact h
  · rename_i e hg
    split at hp
    · simp at hp
    · rename_i s1 b d hd
      simp only [Option.some.injEq, Prod.mk.injEq] at hp
      obtain ⟨rfl, rfl⟩ := hp
      obtain ⟨a1, a2⟩ := dpop_leak hs h hg hd
      intro r hr
      rw [a1]
      exact a2 r hr

theorem placeBuf_leak {s s' : St} {k b : Nat} {d : Bytes} (hs : Sorted s.tree) (h : NoLeak s)
    (hp : placeBuf s k b d = some s') : NoLeak s' := by
  have hins := perm_flat_insert er hs k (.inline b d)
  simp only [placeBuf] at hp
  split at hp
  · rename_i hg
    simp only [Option.some.injEq] at hp
    subst hp
    intro r hr
    refine hins.mem_iff.2 ?_
    rw [remove_of_none hg]
    exact h r hr
  · rename_i e hg
    split at hp
    · simp at hp
    · rename_i s1 b' d' hd
      simp only [Option.some.injEq] at hp
      subst hp
      obtain ⟨a1, a2⟩ := dpop_leak hs h hg hd
      intro r hr
      simp only [a1]
      exact hins.mem_iff.2 (a2 r hr)

theorem advance_leak {s s' : St} {w w' : RecW} (hs : Sorted s.tree) (h : NoLeak s)
    (ha : advance s w = .ok s' w') : NoLeak s' := by
  simp only [advance] at ha
  split at ha
  · split at ha
    · split at ha
      · simp at ha
      · rename_i hp
        simp only [StepRes.ok.injEq] at ha
        obtain ⟨rfl, -⟩ := ha
        exact placeBuf_leak (s := { s with nextBuf := s.nextBuf + 1 }) hs h hp
    · split at ha
      · simp at ha
      · rename_i hp
        simp only [StepRes.ok.injEq] at ha
        obtain ⟨rfl, -⟩ := ha
        exact popRec_leak hs h hp
  · split at ha
    · simp at ha
    · split at ha
      · simp at ha
      · rename_i hp
        simp only [StepRes.ok.injEq] at ha
        obtain ⟨rfl, -⟩ := ha
        exact placeBuf_leak hs h hp
  · simp only [StepRes.ok.injEq] at ha
    obtain ⟨rfl, -⟩ := ha
    exact h
  · simp only [StepRes.ok.injEq] at ha
    obtain ⟨rfl, -⟩ := ha
    exact h

theorem step_leak {s s' : St} {ev : Ev} {o : Option (List (Nat × Bytes))} (hs : Sorted s.tree)
    (h : NoLeak s) (hst : step s ev = some (.ok s' o)) : NoLeak s' := by
  cases ev with
  | openR id lo hi =>
    simp only [step] at hst
    split at hst
    · simp only [Option.some.injEq, Res.ok.injEq] at hst
      obtain ⟨rfl, -⟩ := hst; exact h
    · simp at hst
  | fill id n =>
    simp only [step] at hst
    split at hst
    · simp at hst
    · split at hst
      · simp only [Option.some.injEq, Res.ok.injEq] at hst
        obtain ⟨rfl, -⟩ := hst; exact h
      · simp at hst
  | next id =>
    simp only [step] at hst
    split at hst
    · simp at hst
    · split at hst
      · simp at hst
      · split at hst
        · simp only [Option.some.injEq, Res.ok.injEq] at hst
          obtain ⟨rfl, -⟩ := hst; exact h
        · simp at hst
        · simp at hst
  | closeR id =>
    simp only [step] at hst
    split at hst
    · simp at hst
    · split at hst
      · simp only [Option.some.injEq, Res.ok.injEq] at hst
        obtain ⟨rfl, -⟩ := hst; exact h
      · simp at hst
  | openW l =>
    simp only [step] at hst
    split at hst
    · simp only [Option.some.injEq, Res.ok.injEq] at hst
      obtain ⟨rfl, -⟩ := hst; exact h
    · simp at hst
  | advance i =>
    simp only [step] at hst
    split at hst
    · simp at hst
    · split at hst
      · simp at hst
      · split at hst
        · rename_i ha
          simp only [Option.some.injEq, Res.ok.injEq] at hst
          obtain ⟨rfl, -⟩ := hst
          have hx := advance_leak hs h ha
          exact hx
        · simp at hst
        · simp at hst
  | closeW =>
    simp only [step] at hst
    split at hst
    · simp at hst
    · split at hst
      · simp only [Option.some.injEq, Res.ok.injEq] at hst
        obtain ⟨rfl, -⟩ := hst; exact h
      · simp at hst
  | flush p =>
    simp only [step] at hst
    split at hst
    · simp at hst
    · rename_i hf
      simp only [Option.some.injEq, Res.ok.injEq] at hst
      obtain ⟨rfl, -⟩ := hst
      obtain ⟨b1, b2⟩ := flushItems_leak p s.tree hf
      intro r hr
      rcases b1 r hr with hr | hr
      · exact b2 r (h r hr)
      · exact hr

end Verif.Share
