import Verif.Mirror.Spec

/-!
# Mirrors: lemmas about reads, repair and child states
-/

namespace Verif.Mirror

/-! ### Reads -/

theorem stAt_present_iff (m : Mirror) (i : Nat) :
    (m[i]?.map Child.isPresent).getD false = true ↔ stAt m i = some .present := by
  unfold stAt Child.isPresent
  cases m[i]? with
  | none => simp
  | some c => simp

theorem stAt_lt {m : Mirror} {i : Nat} {s : St} (h : stAt m i = some s) : i < m.length := by
  unfold stAt at h
  obtain ⟨c, hc, -⟩ := Option.map_eq_some_iff.mp h
  exact (List.getElem?_eq_some_iff.mp hc).1

theorem cyclic {n idx j : Nat} (hj : j < n) : ∃ t, t < n ∧ (idx % n + t) % n = j := by
  have hi : idx % n < n := Nat.mod_lt _ (by omega)
  by_cases h : idx % n ≤ j
  · exact ⟨j - idx % n, by omega, by rw [show idx % n + (j - idx % n) = j by omega, Nat.mod_eq_of_lt hj]⟩
  · refine ⟨n + j - idx % n, by omega, ?_⟩
    rw [show idx % n + (n + j - idx % n) = j + n by omega, Nat.add_mod_right, Nat.mod_eq_of_lt hj]

theorem readSomething_none {m : Mirror} {idx : Nat} {r : List Nat}
    (h : readSomething m idx = (none, r)) (i : Nat) : stAt m i ≠ some .present := by
  intro hp
  unfold readSomething at h
  simp only at h
  split at h
  · simp at h
  · rename_i hf
    obtain ⟨t, ht, hti⟩ := cyclic (idx := idx) (stAt_lt hp)
    have := List.find?_eq_none.mp hf i (List.mem_map.mpr ⟨t, List.mem_range.mpr ht, hti⟩)
    exact this ((stAt_present_iff m i).mpr hp)

theorem readSomething_some {m : Mirror} {idx i : Nat} {r : List Nat}
    (h : readSomething m idx = (some i, r)) :
    (i :: r).Nodup ∧ ∀ j : Nat, j ∈ i :: r ↔ stAt m j = some .present := by
  unfold readSomething at h
  simp only at h
  split at h
  · rename_i i' hf
    simp only [Prod.mk.injEq, Option.some.injEq] at h
    obtain ⟨rfl, rfl⟩ := h
    have hp := List.find?_some hf
    have hp' := (stAt_present_iff m i').mp hp
    constructor
    · rw [List.nodup_cons]
      refine ⟨?_, List.nodup_range.filter _⟩
      intro hm
      have := (List.mem_filter.mp hm).2
      simp at this
    · intro j
      rw [List.mem_cons]
      constructor
      · rintro (rfl | hm)
        · exact hp'
        · have := (List.mem_filter.mp hm).2
          rw [Bool.and_eq_true] at this
          exact (stAt_present_iff m j).mp this.2
      · intro hj
        by_cases hji : j = i'
        · exact Or.inl hji
        · right
          rw [List.mem_filter, Bool.and_eq_true]
          exact ⟨List.mem_range.mpr (stAt_lt hj), by simpa using hji, (stAt_present_iff m j).mpr hj⟩
  · simp at h

theorem readLoop_spec {D : Type} (io : Nat → Except Err D) (cur : Nat) (rest : List Nat)
    (hn : (cur :: rest).Nodup) :
    (readLoop io cur rest).2.Nodup ∧
    (∀ i ∈ (readLoop io cur rest).2, i ∈ cur :: rest) ∧
    (∀ d, (readLoop io cur rest).1 = .ok d → ∃ i ∈ (readLoop io cur rest).2, io i = .ok d) ∧
    (∀ e, (readLoop io cur rest).1 = .error e →
      (∃ i ∈ (readLoop io cur rest).2, io i = .error e) ∧
      ∀ i ∈ cur :: rest, i ∈ (readLoop io cur rest).2 ∧ ∃ e', io i = .error e') := by
  fun_induction readLoop io cur rest with
  | case1 cur rest d hio =>
    refine ⟨by simp, by simp, ?_, by simp⟩
    intro d' hd
    exact ⟨cur, by simp, by simpa using hio.trans hd⟩
  | case2 cur e hio =>
    refine ⟨by simp, by simp, by simp, ?_⟩
    intro e' he
    refine ⟨⟨cur, by simp, by simpa using hio.trans he⟩, ?_⟩
    intro i hi
    rw [List.mem_singleton] at hi
    subst hi
    exact ⟨by simp, e, hio⟩
  | case3 cur rest e hio h r ih =>
    have hsplit : rest = rest.dropLast ++ [rest.getLast h] := (List.dropLast_concat_getLast h).symm
    have hperm : (rest.getLast h :: rest.dropLast).Perm rest := by
      refine List.Perm.trans ?_ (List.Perm.of_eq hsplit.symm)
      exact (List.perm_append_singleton _ _).symm
    have hnr : (rest.getLast h :: rest.dropLast).Nodup :=
      hperm.nodup_iff.mpr (List.nodup_cons.mp hn).2
    obtain ⟨h1, h2, h3, h4⟩ := ih hnr
    refine ⟨?_, ?_, ?_, ?_⟩
    · show (cur :: r.2).Nodup
      rw [List.nodup_cons]
      exact ⟨fun hc => (List.nodup_cons.mp hn).1 (hperm.mem_iff.mp (h2 cur hc)), h1⟩
    · intro i hi
      rcases List.mem_cons.mp hi with rfl | hi
      · exact List.mem_cons_self
      · exact List.mem_cons_of_mem _ (hperm.mem_iff.mp (h2 i hi))
    · intro d hd
      obtain ⟨i, hi, hio'⟩ := h3 d hd
      exact ⟨i, List.mem_cons_of_mem _ hi, hio'⟩
    · intro e' he
      obtain ⟨⟨i, hi, hio'⟩, hall⟩ := h4 e' he
      refine ⟨⟨i, List.mem_cons_of_mem _ hi, hio'⟩, ?_⟩
      intro j hj
      rcases List.mem_cons.mp hj with rfl | hj
      · exact ⟨List.mem_cons_self, e, hio⟩
      · obtain ⟨a, b⟩ := hall j (hperm.mem_iff.mpr hj)
        exact ⟨List.mem_cons_of_mem _ a, b⟩

/-! ### Repair -/

theorem mem_positions {m : Mirror} {s : St} {i : Nat} : i ∈ positions m s ↔ stAt m i = some s := by
  unfold positions
  rw [List.mem_filter, List.mem_range]
  constructor
  · rintro ⟨-, h⟩
    unfold stAt
    cases hc : m[i]? with
    | none => simp [hc] at h
    | some c => simpa [hc] using h
  · intro h
    refine ⟨stAt_lt h, ?_⟩
    unfold stAt at h
    obtain ⟨c, hc, hs⟩ := Option.map_eq_some_iff.mp h
    simp [hc, hs]

/-- A write covers an LBA of a child. -/
def Wr.covers {B : Type} (w : Wr B) (c a : Nat) : Prop :=
  w.child = c ∧ w.lba ≤ a ∧ a < w.lba + w.data.length

theorem Wr.apply_not {B : Type} {w : Wr B} {c a : Nat} (h : ¬w.covers c a) (d : Disks B) :
    w.apply d c a = d c a := by
  unfold Wr.apply
  split
  · rename_i hc
    have : w.data.length ≤ a - w.lba := by
      unfold Wr.covers at h
      have := hc.1.symm
      have := hc.2
      by_cases hl : a < w.lba + w.data.length
      · exact absurd ⟨hc.1.symm, hc.2, hl⟩ h
      · omega
    rw [List.getElem?_eq_none this]
    rfl
  · rfl

theorem applyAll_not {B : Type} (ws : List (Wr B)) {c a : Nat}
    (h : ∀ w ∈ ws, ¬w.covers c a) (d : Disks B) : applyAll ws d c a = d c a := by
  induction ws generalizing d with
  | nil => rfl
  | cons w ws ih =>
    show applyAll ws (w.apply d) c a = d c a
    rw [ih (fun w' hw => h w' (List.mem_cons_of_mem _ hw)), Wr.apply_not (h w List.mem_cons_self)]

theorem applyAll_covered {B : Type} (ws : List (Wr B)) {c a : Nat} (P : B → Prop)
    (hv : ∀ w ∈ ws, w.covers c a → ∃ b, w.data[a - w.lba]? = some b ∧ P b) (d : Disks B)
    (h : P (d c a) ∨ ∃ w ∈ ws, w.covers c a) : P (applyAll ws d c a) := by
  induction ws generalizing d with
  | nil =>
    rcases h with h | ⟨w, hw, -⟩
    · exact h
    · simp at hw
  | cons w ws ih =>
    show P (applyAll ws (w.apply d) c a)
    apply ih (fun w' hw => hv w' (List.mem_cons_of_mem _ hw))
    by_cases hc : w.covers c a
    · left
      obtain ⟨b, hb, hp⟩ := hv w List.mem_cons_self hc
      have : w.apply d c a = b := by
        unfold Wr.apply
        rw [if_pos ⟨hc.1.symm, hc.2.1⟩, hb]
        rfl
      rw [this]; exact hp
    · rw [Wr.apply_not hc]
      rcases h with h | ⟨w', hw', hc'⟩
      · exact Or.inl h
      · rcases List.mem_cons.mp hw' with rfl | hw'
        · exact absurd hc' hc
        · exact Or.inr ⟨w', hw', hc'⟩

/-- Everything the writer of a repair issues comes from a read of a source child, at the
same address, inside the range, and goes to a target child. -/
theorem repair_writes {B : Type} {d : Disks B} {rd : Nat → Nat → Nat → Option (List B)}
    (hf : Faithful d rd) (rc wc : List Nat) (idx start end_ : Nat) :
    ∀ w ∈ repairWrites wc start (repairRead rd rc idx start end_).1,
      w.child ∈ wc ∧ start ≤ w.lba ∧ w.lba + w.data.length ≤ end_ ∧
      ∃ c ∈ rc, ∀ k, k < w.data.length → w.data[k]? = some (d c (w.lba + k)) := by
  fun_induction repairRead rd rc idx start end_ with
  | case1 => simp [repairWrites]
  | case2 => simp [repairWrites]
  | case3 idx start hlt c hc b hb r ih =>
    intro w hw
    rcases List.mem_append.mp hw with hw | hw
    · obtain ⟨c', hc', rfl⟩ := List.mem_map.mp hw
      have hbe := hf _ _ _ _ hb
      have hl : b.length = min BLOCK (end_ - start) := by rw [hbe]; simp
      refine ⟨hc', Nat.le_refl _, ?_, c, List.mem_of_getElem? hc, ?_⟩
      · show start + b.length ≤ end_
        rw [hl]
        have := Nat.min_le_right BLOCK (end_ - start)
        omega
      · intro k hk
        show b[k]? = some (d c (start + k))
        have hk' : k < b.length := hk
        rw [hl] at hk'
        rw [hbe, List.getElem?_map, List.getElem?_range hk']
        rfl
    · obtain ⟨h1, h2, h3⟩ := ih w hw
      exact ⟨h1, by omega, h3⟩
  | case4 => simp [repairWrites]

/-- A repair whose reader reached the end has issued a write for every LBA of the range to
every target. -/
theorem repair_cover {B : Type} {d : Disks B} {rd : Nat → Nat → Nat → Option (List B)}
    (hf : Faithful d rd) (rc wc : List Nat) (idx start end_ : Nat)
    (hok : (repairRead rd rc idx start end_).2 = true) {c a : Nat} (hc : c ∈ wc)
    (h1 : start ≤ a) (h2 : a < end_) :
    ∃ w ∈ repairWrites wc start (repairRead rd rc idx start end_).1, w.covers c a := by
  fun_induction repairRead rd rc idx start end_ with
  | case1 => simp at hok
  | case2 => simp at hok
  | case3 idx start hlt s hs b hb r ih =>
    have hl : b.length = min BLOCK (end_ - start) := by rw [hf _ _ _ _ hb]; simp
    by_cases ha : a < start + BLOCK
    · refine ⟨⟨c, start, b⟩, ?_, rfl, h1, ?_⟩
      · exact List.mem_append_left _ (List.mem_map.mpr ⟨c, hc, rfl⟩)
      · show a < start + b.length
        rw [hl]; omega
    · obtain ⟨w, hw, hcov⟩ := ih hok (by omega)
      exact ⟨w, List.mem_append_right _ hw, hcov⟩
  | case4 => omega

/-- If no source read fails, the reader reaches the end. -/
theorem repairRead_ok {B : Type} (rd : Nat → Nat → Nat → Option (List B)) (rc : List Nat)
    (hne : rc ≠ []) (idx start end_ : Nat)
    (h : ∀ c ∈ rc, ∀ a n, start ≤ a → a + n ≤ end_ → (rd c a n).isSome = true) :
    (repairRead rd rc idx start end_).2 = true := by
  fun_induction repairRead rd rc idx start end_ with
  | case1 idx start hlt hnone =>
    rw [List.getElem?_eq_none_iff] at hnone
    have := Nat.mod_lt idx (List.length_pos_iff.mpr hne)
    omega
  | case2 idx start hlt c hc hrd =>
    have hm := Nat.min_le_right BLOCK (end_ - start)
    have := h c (List.mem_of_getElem? hc) start (min BLOCK (end_ - start)) (Nat.le_refl _) (by omega)
    simp [hrd] at this
  | case3 idx start hlt c hc b hb r ih =>
    exact ih (fun c' hc' a n ha hn => h c' hc' a n (by omega) hn)
  | case4 => rfl

/-! ### Child states -/

theorem updFirst_at {f : Child → Child} {u : Nat} {m m' : Mirror} (h : updFirst f u m = some m')
    (i : Nat) : m'[i]? = m[i]? ∨ ∃ c, m[i]? = some c ∧ c.uuid = u ∧ m'[i]? = some (f c) := by
  induction m generalizing m' i with
  | nil => simp [updFirst] at h
  | cons c m ih =>
    unfold updFirst at h
    split at h
    · rename_i hu
      simp only [Option.some.injEq] at h
      subst h
      cases i with
      | zero => exact Or.inr ⟨c, rfl, hu, rfl⟩
      | succ i => exact Or.inl rfl
    · obtain ⟨m1, h1, rfl⟩ := Option.map_eq_some_iff.mp h
      cases i with
      | zero => exact Or.inl rfl
      | succ i =>
        rcases ih h1 i with h2 | h2
        · exact Or.inl h2
        · exact Or.inr h2

theorem restore_at {m m' : Mirror} (h : restore m = some m') (i : Nat) :
    m'[i]? = m[i]?.map fun c => if c.isRebuilding then { c with st := .present } else c := by
  unfold restore at h
  induction m generalizing m' i with
  | nil =>
    simp at h
    subst h
    rfl
  | cons c m ih =>
    rw [List.mapM_cons] at h
    obtain ⟨c', hc', h⟩ := Option.bind_eq_some_iff.mp h
    obtain ⟨m1, h1, h⟩ := Option.bind_eq_some_iff.mp h
    simp only [Option.pure_def, Option.some.injEq] at h
    subst h
    cases i with
    | zero =>
      simp only [List.getElem?_cons_zero, Option.map_some, Option.some.injEq]
      split at hc'
      · rename_i hr
        rw [if_pos hr]
        have : c.st = .rebuilding := by simpa [Child.isRebuilding] using hr
        unfold Child.restore at hc'
        rw [this] at hc'
        simpa using hc'.symm
      · rename_i hr
        rw [if_neg hr]
        simpa using hc'.symm
    | succ i => exact ih h1 i

theorem attach_at {m m' : Mirror} {u s l : Nat} (h : attach m u s l = some (.ok m')) (i : Nat) :
    m'[i]? = m[i]? ∨ (i = m.length ∧ m'[i]? = some ⟨u, .rebuilding, s, l⟩) := by
  unfold attach at h
  split at h
  · simp at h
  · split at h
    · simp at h
    · split at h
      · simp at h
      · simp only [Option.some.injEq, Except.ok.injEq] at h
        subst h
        by_cases hi : i < m.length
        · exact Or.inl (List.getElem?_append_left hi)
        · by_cases he : i = m.length
          · subst he
            right
            refine ⟨rfl, ?_⟩
            rw [List.getElem?_append_right (Nat.le_refl _)]
            simp
          · left
            rw [List.getElem?_append_right (by omega), List.getElem?_eq_none (by simp; omega),
              List.getElem?_eq_none (by omega)]

/-- How one command can change the child at a position. -/
theorem step_at {m m' : Mirror} {o : Op} (h : step m o = some m') {i : Nat} {c : Child}
    (hc : m[i]? = some c) :
    ∃ c', m'[i]? = some c' ∧ c'.uuid = c.uuid ∧
      (c' = c ∨ (o = .fault c.uuid ∧ c' = c.fault) ∨ (o = .rebuild c.uuid ∧ c' = c.rebuild) ∨
        (o = .restore ∧ c.st = .rebuilding ∧ c'.st = .present)) := by
  cases o with
  | fault u =>
    simp only [step, Option.some.injEq] at h
    unfold fault at h
    split at h
    · rename_i m1 h1
      have h' : m1 = m' := h
      subst h'
      rcases updFirst_at h1 i with h2 | ⟨c1, h2, h3, h4⟩
      · exact ⟨c, h2.trans hc, rfl, Or.inl rfl⟩
      · rw [hc] at h2
        simp only [Option.some.injEq] at h2
        subst h2
        refine ⟨_, h4, ?_, Or.inr (Or.inl ⟨by rw [h3], rfl⟩)⟩
        unfold Child.fault
        split <;> rfl
    · have h' : m = m' := h
      subst h'
      exact ⟨c, hc, rfl, Or.inl rfl⟩
  | rebuild u =>
    simp only [step, Option.some.injEq] at h
    unfold rebuild at h
    split at h
    · rename_i m1 h1
      have h' : m1 = m' := h
      subst h'
      rcases updFirst_at h1 i with h2 | ⟨c1, h2, h3, h4⟩
      · exact ⟨c, h2.trans hc, rfl, Or.inl rfl⟩
      · rw [hc] at h2
        simp only [Option.some.injEq] at h2
        subst h2
        refine ⟨_, h4, ?_, Or.inr (Or.inr (Or.inl ⟨by rw [h3], rfl⟩))⟩
        unfold Child.rebuild
        split <;> rfl
    · have h' : m = m' := h
      subst h'
      exact ⟨c, hc, rfl, Or.inl rfl⟩
  | restore =>
    have h1 := restore_at h i
    rw [hc] at h1
    simp only [Option.map_some] at h1
    by_cases hr : c.isRebuilding
    · rw [if_pos hr] at h1
      exact ⟨_, h1, rfl, Or.inr (Or.inr (Or.inr ⟨rfl, by simpa [Child.isRebuilding] using hr, rfl⟩))⟩
    · rw [if_neg hr] at h1
      exact ⟨_, h1, rfl, Or.inl rfl⟩
  | attach u s l =>
    simp only [step] at h
    obtain ⟨r, h1, h2⟩ := Option.map_eq_some_iff.mp h
    cases r with
    | error e =>
      have h' : m = m' := h2
      subst h'
      exact ⟨c, hc, rfl, Or.inl rfl⟩
    | ok m1 =>
      have h' : m1 = m' := h2
      subst h'
      rcases attach_at h1 i with h3 | ⟨h3, -⟩
      · exact ⟨c, h3.trans hc, rfl, Or.inl rfl⟩
      · have := (List.getElem?_eq_some_iff.mp hc).1
        omega

end Verif.Mirror
