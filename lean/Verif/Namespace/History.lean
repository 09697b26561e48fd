import Verif.Namespace.StepLemmas

/-! Histories of valid requests. -/

namespace Verif.Namespace

open Verif

variable {h : Nat → Nat}

/-- C51's state condition: files in use exist, and a file without a name is in use. -/
structure Used (c : Client) : Prop where
  live : ∀ i ∈ c.inUse, c.fs.File i
  dead : ∀ i, c.fs.inodes.get i = some ⟨false, 0⟩ → i ∈ c.inUse

/-- The request writes to, lets go of, or unmounts the file. -/
def Touches (i : Nat) : Op → Prop
  | .store j _ => j = i
  | .inactive j => j = i
  | .remount _ => True
  | _ => False

/-- What one valid request does. -/
structure StepOk (h : Nat → Nat) (c : Client) (op : Op) (r : Ret) (c' : Client) : Prop where
  inv : Inv h c'.fs
  effect : Effect c.fs c'.fs op r
  used : Used c → ¬ ReplacesInUse c op → Used c'
  items : Used c → ¬ ReplacesInUse c op → ∀ i ∈ c.inUse, ¬ Touches i op →
    c'.fs.itemsOf i = c.fs.itemsOf i
  next : (∀ b, op ≠ .remount b) → c.fs.next ≤ c'.fs.next

theorem names_cons {s t : FS} {p i : Nat} {n : Name} {b : Bool}
    (ht : t.ents = ⟨p, n, i, b⟩ :: s.ents) :
    NamesChange s t (fun _ _ => False) fun d m j b' => d = p ∧ m = n ∧ j = i ∧ b' = b := by
  intro d m j b' _
  simp only [FS.Named, ht, List.mem_cons, Ent.mk.injEq]
  grind

theorem names_same {s t : FS} (ht : t.ents = s.ents) :
    NamesChange s t (fun _ _ => False) fun _ _ _ _ => False := by
  intro d m j b _
  simp [FS.Named, ht]

/-- A frame without exceptions keeps the in-use condition. -/
theorem used_frame {s t : FS} {u : List Nat} {exc dead : Nat → Prop} (F : Frame s t exc dead)
    (U : Used ⟨s, u⟩) (he : ∀ i ∈ u, ¬ exc i) (hd : ∀ i, dead i → i ∈ u) : Used ⟨t, u⟩ := by
  constructor
  · intro i hi
    obtain ⟨n, h1⟩ := U.live i hi
    exact F.keep i n h1 (he i hi)
  · intro i hi
    rcases F.dead i hi with h1 | h1
    · exact U.dead i h1
    · exact hd i h1

theorem step_ok {c : Client} {op : Op} (I : Inv h c.fs) (hv : Valid h c op) :
    ∃ r c', c.step h op = some (r, c') ∧ StepOk h c op r c' := by
  obtain ⟨s, u⟩ := c
  have I : Inv h s := I
  cases op with
  | create p n =>
    obtain ⟨t, h1, h2, h3, h4, h5⟩ := create_ok I hv.1 hv.2
    refine ⟨.ok s.next, ⟨t, u⟩, by simp only [Client.step, Client.withFs, h1, Option.map_some], h2,
      ⟨I.fresh (Nat.le_refl _), names_cons h5⟩, ?_, ?_, fun _ => h3.next⟩
    · intro U _; exact used_frame h3 U (fun _ _ h => h) (fun _ h => h.elim)
    · intro _ _ i _ _; exact h3.items i fun h => h
  | mkdir p n =>
    obtain ⟨t, h1, h2, h3, h4, h5⟩ := mkdir_ok I hv.1 hv.2
    refine ⟨.ok s.next, ⟨t, u⟩, by simp only [Client.step, Client.withFs, h1, Option.map_some], h2,
      ⟨I.fresh (Nat.le_refl _), ?_⟩, ?_, ?_, fun _ => h3.next⟩
    · intro d m j b hm
      have a1 : m ≠ dot := hm.1
      have a2 : m ≠ dotdot := hm.2
      simp only [FS.Named, h5, List.mem_cons, Ent.mk.injEq]
      grind
    · intro U _; exact used_frame h3 U (fun _ _ h => h) (fun _ h => h.elim)
    · intro _ _ i _ _; exact h3.items i fun h => h
  | link p i n =>
    obtain ⟨v1, v2, k, v3⟩ := hv
    obtain ⟨t, h1, h2, h3, h4, h5⟩ := link_ok I v1 v2 v3
    refine ⟨.ok 0, ⟨t, u⟩, by simp only [Client.step, Client.withFs, h1, Option.map_some], h2,
      names_cons h5, ?_, ?_, fun _ => h3.next⟩
    · intro U _; exact used_frame h3 U (fun _ _ h => h) (fun _ h => h.elim)
    · intro _ _ i _ _; exact h3.items i fun h => h
  | unlink p fd n =>
    by_cases ht : s.Taken p n
    · obtain ⟨i, b, hn⟩ := ht
      obtain ⟨v1, v2, v3, v4⟩ := hv i b hn
      subst v1
      have hfd : fd = some i ∨ fd = none := by
        by_cases hi : i ∈ u
        · exact Or.inl (v2 hi)
        · exact Or.inr (v3 hi)
      obtain ⟨t, h1, h2, h3, h4, h5⟩ := unlink_ok I hn hfd (by
        intro a1
        refine v4 ?_
        by_cases hi : i ∈ u
        · exact hi
        · rw [v3 hi] at a1; cases a1)
      refine ⟨.ok 0, ⟨t, u⟩, by simp only [Client.step, Client.withFs, h1, Option.map_some], h2,
        ⟨⟨i, false, hn⟩, ?_⟩, ?_, ?_, fun _ => h3.next⟩
      · intro d m j b _
        simp only [FS.Named, h5, mem_erase]
        simp
      · intro U _
        refine used_frame h3 U ?_ ?_
        · rintro j hj ⟨rfl, a2⟩
          rw [v2 hj] at a2; cases a2
        · rintro j ⟨rfl, a2⟩
          refine Classical.not_not.1 fun a3 => ?_
          rw [v3 a3] at a2; cases a2
      · intro _ _ j hj _
        refine h3.items j ?_
        rintro ⟨rfl, a2⟩
        rw [v2 hj] at a2; cases a2
    · refine ⟨.error .ENOENT, ⟨s, u⟩, by
        simp only [Client.step, Client.withFs, unlink_enoent ht, Option.map_some], I,
        ⟨rfl, ht, rfl⟩, fun U _ => U, fun _ _ _ _ _ => rfl, fun _ => Nat.le_refl _⟩
  | rmdir p n =>
    obtain ⟨v1, v2⟩ := hv
    by_cases ht : s.Taken p n
    · obtain ⟨i, b, hn⟩ := ht
      have := v2 i b hn
      subst this
      by_cases hemp : ∃ e ∈ s.ents, e.dir = i ∧ Proper e.name
      · refine ⟨.error .ENOTEMPTY, ⟨s, u⟩, by
          simp only [Client.step, Client.withFs, rmdir_notempty I v1 hn hemp, Option.map_some], I,
          ⟨rfl, Or.inr ⟨rfl, i, hn, ?_⟩⟩, fun U _ => U, fun _ _ _ _ _ => rfl, fun _ => Nat.le_refl _⟩
        obtain ⟨⟨d, m, k, b⟩, a1, a2, a3⟩ := hemp
        have a2 : d = i := a2
        subst a2
        exact ⟨m, a3, k, b, a1⟩
      · obtain ⟨t, h1, h2, h3, h4, h5, h6⟩ := rmdir_ok I v1 hn hemp
        refine ⟨.ok 0, ⟨t, u⟩, by simp only [Client.step, Client.withFs, h1, Option.map_some], h2,
          ⟨⟨i, true, hn⟩, ?_⟩, ?_, ?_, fun _ => h3.next⟩
        · intro d m j b hm
          simp only [FS.Named, h6, List.mem_filter, mem_erase]
          constructor
          · intro a1; exact Or.inr a1.1
          · rintro (a1 | a1)
            · exact a1.elim
            · refine ⟨a1, ?_⟩
              simp only [ne_eq, decide_not, Bool.not_eq_true', decide_eq_false_iff_not]
              exact fun a2 => hemp ⟨_, a1.1, a2, hm⟩
        · intro U _; exact used_frame h3 U (fun _ _ h => h) (fun _ h => h.elim)
        · intro _ _ i _ _; exact h3.items i fun h => h
    · refine ⟨.error .ENOENT, ⟨s, u⟩, by
        simp only [Client.step, Client.withFs, rmdir_enoent ht, Option.map_some], I,
        ⟨rfl, Or.inl ⟨rfl, ht⟩⟩, fun U _ => U, fun _ _ _ _ _ => rfl, fun _ => Nat.le_refl _⟩
  | rename p i n np ni nn =>
    obtain ⟨⟨b, v1, v2⟩, v3, v4, v5⟩ := hv
    by_cases hn : Proper n
    · rcases rename_ok I hn v1 v2 v3 v4 v5 with ⟨h1, h2⟩ | ⟨t, h1, h2, h3, h4, h5⟩
      · exact ⟨.error .ENOTEMPTY, ⟨s, u⟩, by simp only [Client.step, Client.withFs, h1, Option.map_some], I,
          ⟨rfl, Or.inr ⟨rfl, h2⟩⟩, fun U _ => U, fun _ _ _ _ _ => rfl, fun _ => Nat.le_refl _⟩
      · refine ⟨.ok i, ⟨t, u⟩, by simp only [Client.step, Client.withFs, h1, Option.map_some], h2,
          ⟨rfl, ?_⟩, ?_, ?_, fun _ => h3.next⟩
        · intro d m j b' hm
          have a1 := h5 ⟨d, m, j, b'⟩ hm
          have v1' : (⟨p, n, i, b⟩ : Ent) ∈ s.ents := v1
          have huniq : ∀ b2, s.Named p n i b2 ↔ b2 = b := by
            intro b2
            constructor
            · intro a2
              have := I.mem_key (a := ⟨p, n, i, b2⟩) a2 v1' rfl rfl
              injection this
            · rintro rfl; exact v1
          show (⟨d, m, j, b'⟩ : Ent) ∈ t.ents ↔ _
          rw [a1]
          simp only [huniq, mem_erase, Ent.mk.injEq]
          show _ ↔ _ ∨ ((⟨d, m, j, b'⟩ : Ent) ∈ s.ents ∧ _)
          grind
        · intro U hr
          refine used_frame h3 U ?_ (fun _ h => h.elim)
          rintro k hk ⟨a1, a2⟩
          exact hr ⟨k, false, a1, a2, hk⟩
        · intro _ hr k hk _
          refine h3.items k ?_
          rintro ⟨a1, a2⟩
          exact hr ⟨k, false, a1, a2, hk⟩
    · have : rename h s p i n np ni nn = some (.error .EINVAL, s) := by
        have hn' : n = dot ∨ n = dotdot := by
          by_cases h1 : n = dot
          · exact Or.inl h1
          · exact Or.inr (Classical.not_not.1 fun h2 => hn ⟨h1, h2⟩)
        simp only [rename, if_pos hn']
      exact ⟨.error .EINVAL, ⟨s, u⟩, by simp only [Client.step, Client.withFs, this, Option.map_some], I,
        ⟨rfl, Or.inl ⟨rfl, hn⟩⟩, fun U _ => U, fun _ _ _ _ _ => rfl, fun _ => Nat.le_refl _⟩
  | store i k =>
    obtain ⟨t, h1, h2, h3, h4, h5, h6, _, _⟩ := store_ok (k := k) I hv
    refine ⟨.ok 0, ⟨t, u⟩, by simp only [Client.step, Client.withFs, h1, Option.map_some], h2,
      names_same h4, ?_, ?_, fun _ => Nat.le_of_eq h3.symm⟩
    · intro U _
      constructor
      · intro j hj
        obtain ⟨n, a1⟩ := U.live j hj
        exact ⟨n, by rw [h5]; exact a1⟩
      · intro j hj
        have hj : t.inodes.get j = some ⟨false, 0⟩ := hj
        rw [h5] at hj; exact U.dead j hj
    · intro _ _ j _ hj
      exact h6 j fun a1 => hj a1.symm
  | failedCreate =>
    exact ⟨.ok 0, ⟨burn s, u⟩, rfl, burn_ok I, names_same rfl, fun U _ => ⟨U.live, U.dead⟩,
      fun _ _ _ _ _ => rfl, fun _ => Nat.le_succ _⟩
  | use i =>
    refine ⟨.ok 0, ⟨s, i :: u⟩, rfl, I, names_same rfl, fun U _ => ⟨?_, ?_⟩, fun _ _ _ _ _ => rfl,
      fun _ => Nat.le_refl _⟩
    · intro j hj
      rcases List.mem_cons.1 hj with rfl | hj
      · obtain ⟨k, a1⟩ := hv; exact ⟨k + 1, a1⟩
      · exact U.live j hj
    · intro j hj; exact List.mem_cons_of_mem _ (U.dead j hj)
  | inactive i =>
    obtain ⟨t, h1, h2, h3, h4, h5, h6, h7⟩ := inactive_ok I hv
    refine ⟨.ok 0, ⟨t, u.filter (· ≠ i)⟩, by simp only [Client.step, h1, Option.map_some], h2,
      names_same h4, fun U _ => ⟨?_, ?_⟩, ?_, fun _ => Nat.le_of_eq h3.symm⟩
    · intro j hj
      obtain ⟨a1, a2⟩ := List.mem_filter.1 hj
      have a2 : j ≠ i := by simpa using a2
      obtain ⟨n, a3⟩ := U.live j a1
      exact ⟨n, by rw [(h7 j a2).1]; exact a3⟩
    · intro j hj
      have hj : t.inodes.get j = some ⟨false, 0⟩ := hj
      by_cases a2 : j = i
      · subst a2
        by_cases a3 : s.inodes.get j = some ⟨false, 0⟩
        · rw [(h5 a3).1] at hj; cases hj
        · rw [h6 a3] at hj; exact absurd hj a3
      · rw [(h7 j a2).1] at hj
        exact List.mem_filter.2 ⟨U.dead j hj, by simpa using a2⟩
    · intro _ _ j _ hj
      exact (h7 j fun a1 => hj a1.symm).2
  | remount early =>
    obtain ⟨h1, h2, h3, h4⟩ := mount_ok I early
    refine ⟨.ok 0, ⟨mount s early, []⟩, rfl, h1, names_same h2, fun U _ => ⟨?_, ?_⟩, ?_, ?_⟩
    · intro j hj; cases hj
    · intro j hj
      exact absurd rfl ((h3 j _).1 hj).2
    · intro _ _ j _ hj; exact absurd trivial hj
    · intro hr; exact absurd rfl (hr early)

instance (a b : Ent) : Decidable (Apart a b) := by unfold Apart; infer_instance

theorem new_inv : Inv h Client.new.fs := by
  have hg : ∀ i, OMap.get Client.new.fs.inodes i = if i = 1 then some ⟨true, 1⟩ else none := by
    intro i
    by_cases hi : i = 1
    · subst hi; rfl
    · rw [if_neg hi]; simp [Client.new, createFs, OMap.get, Ne.symm hi]
  constructor
  · decide
  · intro e he
    rw [hg]
    simp [Client.new, createFs] at he
    rcases he with rfl | rfl <;> exact ⟨1, rfl⟩
  · intro e he
    rw [hg]
    simp [Client.new, createFs] at he
    rcases he with rfl | rfl <;> exact ⟨1, rfl⟩
  · intro i n h1; rw [hg] at h1; split at h1 <;> simp at h1
  · intro i n h1; rw [hg] at h1
    split at h1
    · rename_i h2; subst h2
      injection h1 with h1; injection h1 with _ h1; subst h1; decide
    · cases h1
  · intro i n h1; rw [hg] at h1
    split at h1
    · rename_i h2; subst h2; decide
    · cases h1
  · intro i n h1; rw [hg] at h1
    split at h1
    · rename_i h2; subst h2; decide
    · cases h1
  · intro i n h1 h2; rw [hg, if_neg h2] at h1; cases h1
  · decide
  · exact ⟨1, rfl⟩
  · intro i x h1; rw [hg] at h1
    split at h1
    · rename_i h2; subst h2; decide
    · cases h1
  · intro x hx; cases hx
  · intro i h1; rw [hg] at h1; split at h1 <;> simp at h1
  · intro k i h1; cases h1
  · exact List.pairwise_singleton _ _
  · exact OMap.sorted_nil

theorem new_used : Used Client.new := by
  constructor
  · intro i hi; cases hi
  · intro i hi
    simp only [Client.new, createFs, OMap.get] at hi
    split at hi <;> simp at hi

theorem run_ok {c : Client} {ops : List Op} (I : Inv h c.fs) (hv : ValidRun h c ops) :
    ∃ rs c', c.run h ops = some (rs, c') ∧ Inv h c'.fs ∧
      (Used c → NoReplaceInUse h c ops → Used c') := by
  induction ops generalizing c with
  | nil => exact ⟨[], c, rfl, I, fun U _ => U⟩
  | cons op ops ih =>
    obtain ⟨v1, v2⟩ := hv
    obtain ⟨r, c1, h1, S⟩ := step_ok I v1
    obtain ⟨rs, c2, h2, I2, U2⟩ := ih S.inv (v2 r c1 h1)
    refine ⟨r :: rs, c2, by simp only [Client.run, h1, h2], I2, ?_⟩
    rintro U ⟨n1, n2⟩
    exact U2 (S.used U n1) (n2 r c1 h1)

theorem consistent_of_inv {s : FS} (I : Inv h s) : Consistent s := by
  constructor
  · exact I.keys
  · intro d n i b h1; exact I.entDir _ h1
  · intro d n i b h1; exact I.entIno _ h1
  · intro i k h1
    rw [I.files i k h1]
    apply List.countP_congr
    intro e he
    simp only [decide_eq_true_eq]
    refine ⟨fun h2 => h2.1, fun h2 => ⟨h2, ?_⟩⟩
    obtain ⟨m, h3⟩ := I.entIno e he
    rw [h2, h1] at h3
    have hf : e.isDir = false := by grind
    exact (I.file_pos he hf).1
  · intro i k h1 h2
    have := I.dirs i k h1
    rw [if_neg h2] at this; exact this
  · obtain ⟨k, h1⟩ := I.root
    exact ⟨k, h1, by have := I.dirs 1 k h1; rw [if_pos rfl] at this; exact this⟩
  · rintro d ⟨k, h1⟩; exact I.dots d k h1
  · obtain ⟨k, h1⟩ := I.root
    exact ⟨I.rootdd, by have := I.names 1 k h1; rw [if_pos rfl] at this; exact this⟩
  · rintro d ⟨k, h1⟩ h2
    obtain ⟨p, n, a, b, c⟩ := I.dotdots d k h1 h2
    exact ⟨p, n, a, b, c, by have := I.names d k h1; rw [if_neg h2] at this; exact this⟩

/-- A file without a name. -/
theorem nameless_iff {s : FS} (I : Inv h s) {i : Nat} :
    s.inodes.get i = some ⟨false, 0⟩ ↔ s.File i ∧ ∀ d n b, ¬ s.Named d n i b := by
  constructor
  · intro h1
    refine ⟨⟨0, h1⟩, fun d n b h2 => ?_⟩
    obtain ⟨m, h3⟩ := I.entIno _ h2
    have h3 : s.inodes.get i = some ⟨b, m⟩ := h3
    rw [h1] at h3
    injection h3 with h3; injection h3 with h3 _
    subst h3
    obtain ⟨_, k, h4⟩ := I.file_pos h2 rfl
    have h4 : s.inodes.get i = some ⟨false, k + 1⟩ := h4
    rw [h1] at h4; simp at h4
  · rintro ⟨⟨n, h1⟩, h2⟩
    have h3 := I.files i n h1
    have h4 : cI s.ents i = 0 := cI_zero fun e he h5 => h2 e.dir e.name e.isDir (by
      subst h5; exact he)
    rw [h1, h3, h4]

end Verif.Namespace
