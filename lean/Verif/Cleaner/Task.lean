import Verif.Cleaner.Model

/-! # Lemmas about the background task -/

namespace Verif.Cleaner

/-- The requests of a history, in order. -/
def requests (es : List Event) : List Nat :=
  es.filterMap fun e => match e with
    | .request i => some i
    | _ => none

/-- How many passes have begun, and how many have ended well. -/
def starts (es : List Event) : Nat := es.count .start
def finishes (es : List Event) : Nat := es.count .finish

theorem run_append (t : Task) (es fs : List Event) : t.run (es ++ fs) = (t.run es).bind fun t => t.run fs := by
  induction es generalizing t with
  | nil => rfl
  | cons e es ih =>
    rw [List.cons_append, Task.run, Task.run]
    cases t.step e with
    | none => rfl
    | some t' => exact ih t'

/-- While the task lives. -/
structure TInv (es : List Event) (t : Task) : Prop where
  /-- what is waiting or worked on is what has not been answered -/
  order : t.alive = true → t.busy.toList ++ t.queue = (requests es).drop (finishes es)
  begun : t.alive = true → starts es = finishes es + t.busy.toList.length
  le : t.alive = true → finishes es ≤ (requests es).length
  failed : t.alive = true ↔ Event.fail ∉ es
  quiet : t.alive = false → t.busy = none ∧ t.queue = [] ∧ t.exited = false
  ended : t.exited = true → t.busy = none ∧ t.queue = [] ∧ t.opened = false
  panics : t.alive = true → t.panics = 0

theorem requests_snoc (es : List Event) (e : Event) : requests (es ++ [e]) = requests es ++
    (match e with | .request i => [i] | _ => []) := by
  unfold requests
  rw [List.filterMap_append]
  cases e <;> rfl

theorem TInv.step {es : List Event} {t t' : Task} (i : TInv es t) {e : Event} (h : t.step e = some t') :
    TInv (es ++ [e]) t' := by
  have hs : starts (es ++ [e]) = starts es + (if e = .start then 1 else 0) := by
    unfold starts; rw [List.count_append]; cases e <;> rfl
  have hf : finishes (es ++ [e]) = finishes es + (if e = .finish then 1 else 0) := by
    unfold finishes; rw [List.count_append]; cases e <;> rfl
  have hm : Event.fail ∈ es ++ [e] ↔ Event.fail ∈ es ∨ e = .fail := by
    simp [eq_comm]
  cases e with
  | request j =>
    unfold Task.step at h
    dsimp only at h
    split at h
    · split at h
      · rename_i ho ha
        cases h
        refine ⟨?_, ?_, ?_, ?_, ?_, ?_, ?_⟩
        · intro _
          rw [requests_snoc, hf, if_neg (by simp), Nat.add_zero, List.drop_append_of_le_length (i.le ha), ← i.order ha]
          simp
        · intro _
          rw [hs, hf]; simpa using i.begun ha
        · intro _
          rw [requests_snoc, hf, List.length_append]
          have := i.le ha
          simp; omega
        · rw [hm]; simp only [reduceCtorEq, or_false]; exact i.failed
        · intro h; simp only at h; rw [ha] at h; cases h
        · intro h
          have := (i.ended h).2.2
          rw [ho] at this; cases this
        · exact i.panics
      · rename_i ho ha
        cases h
        refine ⟨fun h => absurd h ha, fun h => absurd h ha, fun h => absurd h ha, ?_, i.quiet, i.ended,
          fun h => absurd h ha⟩
        rw [hm]; simp only [reduceCtorEq, or_false]; exact i.failed
    · cases h
  | start =>
    unfold Task.step at h
    dsimp only at h
    split at h
    · rename_i j q ha hb hq
      simp only [Bool.and_eq_true, Bool.not_eq_true'] at ha
      cases h
      refine ⟨?_, ?_, ?_, ?_, ?_, ?_, ?_⟩
      · intro _
        have := i.order ha.1
        rw [hb, hq] at this
        rw [requests_snoc, hf, if_neg (by simp), Nat.add_zero]
        simpa using this
      · intro _
        have := i.begun ha.1
        rw [hb] at this
        rw [hs, hf]
        simp at this ⊢
        omega
      · intro _
        rw [requests_snoc, hf]
        simpa using i.le ha.1
      · rw [hm]; simp only [reduceCtorEq, or_false]; exact i.failed
      · intro h; simp only at h; rw [ha.1] at h; cases h
      · intro h; simp only at h; rw [ha.2] at h; cases h
      · exact i.panics
    · cases h
  | finish =>
    unfold Task.step at h
    dsimp only at h
    split at h
    · rename_i j hb
      cases h
      have ha : t.alive = true := by
        cases h : t.alive with
        | true => rfl
        | false => have := (i.quiet h).1; rw [hb] at this; cases this
      have hx : t.exited = false := by
        cases h : t.exited with
        | false => rfl
        | true => have := (i.ended h).1; rw [hb] at this; cases this
      have ho := i.order ha
      rw [hb] at ho
      simp only [Option.toList_some, List.singleton_append] at ho
      have hlt : finishes es < (requests es).length := by
        have := congrArg List.length ho
        rw [List.length_drop, List.length_cons] at this
        omega
      refine ⟨?_, ?_, ?_, ?_, ?_, ?_, ?_⟩
      · intro _
        rw [requests_snoc, hf, if_pos rfl]
        simp only [Option.toList_none, List.nil_append, List.append_nil]
        rw [← List.tail_drop, ← ho, List.tail_cons]
      · intro _
        have := i.begun ha
        rw [hb] at this
        rw [hs, hf]
        simp at this ⊢
        omega
      · intro _
        rw [requests_snoc, hf]
        simp; omega
      · rw [hm]; simp only [reduceCtorEq, or_false]; exact i.failed
      · intro h; simp only at h; rw [ha] at h; cases h
      · intro h; simp only at h; rw [hx] at h; cases h
      · exact i.panics
    · cases h
  | fail =>
    unfold Task.step at h
    dsimp only at h
    split at h
    · rename_i j hb
      cases h
      have hx : t.exited = false := by
        cases h : t.exited with
        | false => rfl
        | true => have := (i.ended h).1; rw [hb] at this; cases this
      refine ⟨fun h => (by cases h), fun h => (by cases h), fun h => (by cases h), ?_, fun _ => ⟨rfl, rfl, hx⟩, ?_,
        fun h => (by cases h)⟩
      · rw [hm]; simp
      · intro h; simp only at h; rw [hx] at h; cases h
    · cases h
  | close =>
    unfold Task.step at h
    dsimp only at h
    split at h
    · rename_i ho
      cases h
      refine ⟨?_, ?_, ?_, ?_, ?_, ?_, ?_⟩
      · intro ha
        rw [requests_snoc, hf]
        simpa using i.order ha
      · intro ha
        rw [hs, hf]
        simpa using i.begun ha
      · intro ha
        rw [requests_snoc, hf]
        simpa using i.le ha
      · rw [hm]; simp only [reduceCtorEq, or_false]; exact i.failed
      · exact i.quiet
      · intro h
        exact ⟨(i.ended h).1, (i.ended h).2.1, rfl⟩
      · exact i.panics
    · cases h
  | exit =>
    unfold Task.step at h
    dsimp only at h
    split at h
    · rename_i hc
      obtain ⟨c1, c2, c3, c4, c5⟩ := hc
      cases h
      refine ⟨?_, ?_, ?_, ?_, ?_, ?_, ?_⟩
      · intro ha
        rw [requests_snoc, hf]
        simpa using i.order ha
      · intro ha
        rw [hs, hf]
        simpa using i.begun ha
      · intro ha
        rw [requests_snoc, hf]
        simpa using i.le ha
      · rw [hm]; simp only [reduceCtorEq, or_false]; exact i.failed
      · intro h; simp only at h; rw [c4] at h; cases h
      · intro _
        exact ⟨c2, c3, c1⟩
      · exact i.panics
    · cases h

theorem tinv_new : TInv [] Task.new :=
  ⟨fun _ => rfl, fun _ => rfl, fun _ => Nat.le_refl _, by simp [Task.new], fun h => (by cases h),
    fun h => (by cases h), fun _ => rfl⟩

theorem tinv_run (es fs : List Event) (t t' : Task) (i : TInv es t) (h : t.run fs = some t') : TInv (es ++ fs) t' := by
  induction fs generalizing es t with
  | nil => cases h; rwa [List.append_nil]
  | cons e fs ih =>
    rw [Task.run] at h
    cases h1 : t.step e with
    | none => rw [h1] at h; cases h
    | some t1 =>
      rw [h1] at h
      have := ih (es ++ [e]) t1 (i.step h1) h
      rwa [List.append_assoc, List.singleton_append] at this

theorem tinv_reach {es : List Event} {t : Task} (h : Task.new.run es = some t) : TInv es t :=
  tinv_run [] es _ _ tinv_new h

end Verif.Cleaner
