import Verif.Fuse.Ops

/-!
# Histories
-/

namespace Verif.Fuse

open Verif Verif.Namespace

variable {h : Nat → Nat} {N : Nat}

/-- The invariant holds after every history that keeps to the protocol. -/
theorem run_good {x : Sys} {es : List Event} (G : Good h x) (hd : Distinct h N)
    (hN : x.d.fs.next + es.length ≤ N) (hf : x.FollowsRun h es) :
    ∃ rs x', x.run h es = some (rs, x') ∧ Good h x' ∧ x'.d.fs.next ≤ x.d.fs.next + es.length := by
  induction es generalizing x with
  | nil => exact ⟨[], x, rfl, G, Nat.le_refl _⟩
  | cons e es ih =>
    obtain ⟨h1, h2⟩ := hf
    rw [List.length_cons] at hN
    have key : ∃ a x', x.step h e = some (a, x') ∧ Good h x' ∧ x'.d.fs.next ≤ x.d.fs.next + 1 := by
      cases e with
      | req r =>
        obtain ⟨a, x', h3, S⟩ := step_req G hd (by omega) h1
        exact ⟨a, x', h3, S.good, S.next⟩
      | remount b =>
        exact ⟨_, _, rfl, remount_good G b, Nat.le_trans (mount_next G.fs b) (Nat.le_succ _)⟩
    obtain ⟨a, x', h3, h4, h5⟩ := key
    obtain ⟨rs, x'', h6, h7, h8⟩ := ih h4 (by omega) (h2 a x' h3)
    refine ⟨a :: rs, x'', by simp only [Sys.run, h3, h6], h7, ?_⟩
    rw [List.length_cons]; omega

theorem FollowsRun.left {x : Sys} {es fs : List Event} (hf : x.FollowsRun h (es ++ fs)) :
    x.FollowsRun h es ∧ ∀ rs x', x.run h es = some (rs, x') → x'.FollowsRun h fs := by
  induction es generalizing x with
  | nil => exact ⟨trivial, fun rs x' h1 => by cases h1; exact hf⟩
  | cons e es ih =>
    obtain ⟨h1, h2⟩ := hf
    refine ⟨⟨h1, fun r x' h3 => (ih (h2 r x' h3)).1⟩, ?_⟩
    intro rs x' h3
    simp only [Sys.run] at h3
    split at h3
    · cases h3
    · rename_i r y h4
      split at h3
      · cases h3
      · rename_i rs' y' h5
        injection h3 with h3; injection h3 with _ h3; subst h3
        exact (ih (h2 r y h4)).2 _ _ h5

/-- A history and one more request. -/
theorem run_req {es : List Event} {r : Req} (hd : Distinct h (es.length + 3))
    (hf : Sys.new.FollowsRun h (es ++ [.req r])) :
    ∃ rs x a x', Sys.new.run h es = some (rs, x) ∧ Good h x ∧ x.step h (.req r) = some (a, x') ∧
      StepOk h x r a x' := by
  obtain ⟨h1, h2⟩ := FollowsRun.left hf
  have h0 : Sys.new.d.fs.next = 2 := rfl
  obtain ⟨rs, x, h3, h4, h5⟩ := run_good new_good hd (by omega) h1
  obtain ⟨a, x', h6, h7⟩ := step_req h4 hd (by omega) (h2 _ _ h3).1
  exact ⟨rs, x, a, x', h3, h4, h6, h7⟩

end Verif.Fuse
