import Verif.Fuse.Spec

/-!
# A checker for the protocol, used by the examples only
-/

namespace Verif.Fuse

open Verif Verif.Namespace

/-- Does the kernel hold the inode? -/
def hasB (k : Kernel) (i : Nat) (b : Bool) : Bool :=
  (i == 1 && b) || (match k.held.get i with | some x => x.2 == b | none => false)

theorem hasB_ok {k : Kernel} {i : Nat} {b : Bool} (h : hasB k i b = true) : k.Has i b := by
  simp only [hasB, Bool.or_eq_true, Bool.and_eq_true, beq_iff_eq] at h
  rcases h with h | h
  · exact Or.inl h
  · right
    cases hg : k.held.get i with
    | none => rw [hg] at h; cases h
    | some x =>
      rw [hg] at h
      obtain ⟨c, b'⟩ := x
      have h : b' = b := by simpa using h
      exact ⟨c, by rw [h]⟩

/-- Does the kernel know this name of the inode? -/
def knowsB (k : Kernel) (p : Nat) (n : Name) (i : Nat) : Bool := k.dcache.get p n == some (some i)

/-- The name under which the kernel knows the inode. -/
def nameOf (k : Kernel) (i : Nat) : Option (Nat × Name) :=
  (k.dcache.find? fun e => e.2 == some i && knowsB k e.1.1 e.1.2 i).map (·.1)

theorem nameOf_ok {k : Kernel} {i p : Nat} {n : Name} (h : nameOf k i = some (p, n)) :
    k.Knows p n i := by
  obtain ⟨e, h1, h2⟩ := Option.map_eq_some_iff.1 h
  have h3 := List.find?_some h1
  simp only [Bool.and_eq_true] at h3
  rw [h2] at h3
  simpa [knowsB, Kernel.Knows] using h3.2

/-- Does the kernel know a name of the inode? -/
def linkedB (k : Kernel) (i : Nat) : Bool := i == 1 || (nameOf k i).isSome

theorem linkedB_ok {k : Kernel} {i : Nat} (h : linkedB k i = true) : k.Linked i := by
  simp only [linkedB, Bool.or_eq_true, beq_iff_eq] at h
  rcases h with h | h
  · exact Or.inl h
  · cases hn : nameOf k i with
    | none => rw [hn] at h; cases h
    | some x => exact Or.inr ⟨x.1, x.2, nameOf_ok hn⟩

/-- Does the kernel hold all directories above the inode? -/
def rootedB (k : Kernel) : Nat → Nat → Bool
  | 0, i => i == 1
  | fuel + 1, i => i == 1 ||
      match nameOf k i with
      | none => false
      | some (p, _) => hasB k p true && rootedB k fuel p

theorem rootedB_ok {k : Kernel} {fuel i : Nat} (h : rootedB k fuel i = true) : k.Rooted i := by
  induction fuel generalizing i with
  | zero =>
    have h : i = 1 := by simpa [rootedB] using h
    rw [h]; exact .root
  | succ f ih =>
    simp only [rootedB, Bool.or_eq_true, beq_iff_eq] at h
    rcases h with h | h
    · rw [h]; exact .root
    · cases hn : nameOf k i with
      | none => rw [hn] at h; cases h
      | some x =>
        obtain ⟨p, n⟩ := x
        rw [hn] at h
        simp only [Bool.and_eq_true] at h
        exact .child (ih h.2) (hasB_ok h.1) (nameOf_ok hn)

/-- Does the request keep to the protocol? -/
def followsB (k : Kernel) : Req → Bool
  | .lookup p n _ => decide (Proper n) && hasB k p true
  | .forget i c => i == 1 || (match k.held.get i with | some x => x.1 == c | none => false)
  | .create p n _ => decide (Proper n) && hasB k p true && linkedB k p && k.dcache.get p n == some none
  | .mkdir p n _ => decide (Proper n) && hasB k p true && linkedB k p && k.dcache.get p n == some none
  | .link i p n _ => decide (Proper n) && hasB k p true && linkedB k p &&
      k.dcache.get p n == some none && hasB k i false && linkedB k i
  | .unlink p n _ => hasB k p true &&
      (match k.dcache.get p n with | some (some i) => hasB k i false | _ => false)
  | .rmdir p n _ => hasB k p true &&
      (match k.dcache.get p n with | some (some i) => hasB k i true | _ => false)
  | .rename p n np nn _ => decide (Proper nn) && hasB k p true && hasB k np true && rootedB k 9 np &&
      (match k.dcache.get p n with
      | some (some i) => [true, false].any fun b => hasB k i b && np != i &&
          (match k.dcache.get np nn with
          | some none => true
          | some (some j) => hasB k j b && j != i
          | none => false)
      | _ => false)
  | .getattr i _ => hasB k i true || hasB k i false
  | .write i _ _ => hasB k i false && decide (i ∉ k.replaced)

theorem followsB_ok {k : Kernel} {r : Req} (h : followsB k r = true) : k.Follows r := by
  cases r with
  | lookup p n f =>
    simp only [followsB, Bool.and_eq_true, decide_eq_true_eq] at h
    exact ⟨h.1, hasB_ok h.2⟩
  | forget i c =>
    simp only [followsB, Bool.or_eq_true, beq_iff_eq] at h
    rcases h with h | h
    · exact Or.inl h
    · cases hg : k.held.get i with
      | none => rw [hg] at h; cases h
      | some x =>
        rw [hg] at h
        obtain ⟨c', b⟩ := x
        have h : c' = c := by simpa using h
        exact Or.inr ⟨b, by rw [hg, h]⟩
  | create p n f =>
    simp only [followsB, Bool.and_eq_true, decide_eq_true_eq, beq_iff_eq] at h
    exact ⟨h.1.1.1, hasB_ok h.1.1.2, linkedB_ok h.1.2, h.2⟩
  | mkdir p n f =>
    simp only [followsB, Bool.and_eq_true, decide_eq_true_eq, beq_iff_eq] at h
    exact ⟨h.1.1.1, hasB_ok h.1.1.2, linkedB_ok h.1.2, h.2⟩
  | link i p n f =>
    simp only [followsB, Bool.and_eq_true, decide_eq_true_eq, beq_iff_eq] at h
    obtain ⟨⟨⟨⟨⟨h1, h2⟩, h3⟩, h4⟩, h5⟩, h6⟩ := h
    exact ⟨h1, hasB_ok h2, linkedB_ok h3, h4, hasB_ok h5, linkedB_ok h6⟩
  | unlink p n f =>
    simp only [followsB, Bool.and_eq_true] at h
    refine ⟨hasB_ok h.1, ?_⟩
    obtain ⟨_, h⟩ := h
    split at h
    · rename_i i h2; exact ⟨i, h2, hasB_ok h⟩
    · cases h
  | rmdir p n f =>
    simp only [followsB, Bool.and_eq_true] at h
    refine ⟨hasB_ok h.1, ?_⟩
    obtain ⟨_, h⟩ := h
    split at h
    · rename_i i h2; exact ⟨i, h2, hasB_ok h⟩
    · cases h
  | rename p n np nn f =>
    simp only [followsB, Bool.and_eq_true, decide_eq_true_eq] at h
    obtain ⟨⟨⟨⟨h1, h2⟩, h3⟩, h4⟩, h5⟩ := h
    refine ⟨h1, hasB_ok h2, hasB_ok h3, rootedB_ok h4, ?_⟩
    split at h5
    · rename_i i h6
      obtain ⟨b, _, h7⟩ := List.any_eq_true.1 h5
      simp only [Bool.and_eq_true, bne_iff_ne] at h7
      obtain ⟨⟨h7, h8⟩, h9⟩ := h7
      refine ⟨i, b, h6, hasB_ok h7, h8, ?_⟩
      split at h9
      · rename_i h10; exact Or.inl h10
      · rename_i j h10
        simp only [Bool.and_eq_true, bne_iff_ne] at h9
        exact Or.inr ⟨j, h10, hasB_ok h9.1, h9.2⟩
      · cases h9
    · cases h5
  | getattr i f =>
    simp only [followsB, Bool.or_eq_true] at h
    rcases h with h | h
    · exact ⟨true, hasB_ok h⟩
    · exact ⟨false, hasB_ok h⟩
  | write i key f =>
    simp only [followsB, Bool.and_eq_true, decide_eq_true_eq] at h
    exact ⟨hasB_ok h.1, h.2⟩

/-- Does the whole history keep to the protocol? -/
def followsRunB (h : Nat → Nat) (x : Sys) : List Event → Bool
  | [] => true
  | e :: es =>
    (match e with | .req r => followsB x.k r | .remount _ => true) &&
    (match x.step h e with | none => true | some (_, x') => followsRunB h x' es)

theorem followsRunB_ok {h : Nat → Nat} {x : Sys} {es : List Event}
    (hf : followsRunB h x es = true) : x.FollowsRun h es := by
  induction es generalizing x with
  | nil => trivial
  | cons e es ih =>
    simp only [followsRunB, Bool.and_eq_true] at hf
    refine ⟨?_, ?_⟩
    · cases e with
      | req r => exact followsB_ok hf.1
      | remount b => trivial
    · intro r x' hs
      have h2 := hf.2
      rw [hs] at h2
      exact ih h2

end Verif.Fuse
