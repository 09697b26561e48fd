import Verif.Cluster.Restore

/-! # Whole histories -/

namespace Verif.Cluster

open Verif

variable {g : Geo} {n : Nat} {H : Nat → List ZoneOnDisk → Nat}

/-- No legal call panics, and each preserves the invariant. -/
theorem good_step (geo : GeoOk g n) {s : Hist} (G : Good g n s) {op : Op} (hl : op.Legal s) :
    ∃ s', step g H s op = some s' ∧ Good g n s' := by
  cases op with
  | write space txg =>
    rcases write_spec geo G hl.1 hl.2 with ⟨c, h, hG, -⟩ | ⟨c, z, lba, h, -, hG, -⟩
    · exact ⟨_, by unfold step; simp only [h], hG⟩
    · exact ⟨_, by unfold step; simp only [h], hG⟩
  | free i =>
    obtain ⟨r, hr, hlive⟩ := hl
    obtain ⟨c, z, h, -, hG, -⟩ := free_spec geo G hr hlive
    exact ⟨_, by unfold step; simp only [hr, h, Option.map_some], hG⟩
  | flush gap =>
    obtain ⟨c, -, h, -, hG, -⟩ := flush_spec (H := H) G hl
    exact ⟨_, by unfold step; simp only [h, Option.map_some], hG⟩
  | advance => exact ⟨_, rfl, (advance_spec G).1⟩
  | reload =>
    obtain ⟨f, c, h1, h2, -, -, hG, -⟩ := reload_spec geo H G
    refine ⟨_, ?_, hG⟩
    unfold step
    simp only [G.total, h1, h2, Option.map_some]

theorem good_run (geo : GeoOk g n) {s s' : Hist} {ops : List Op} (R : Run g H s ops s') (G : Good g n s) :
    Good g n s' := by
  induction R with
  | nil => exact G
  | cons hl hs _ ih =>
    obtain ⟨s1, h1, G1⟩ := good_step (H := H) geo G hl
    rw [hs] at h1
    cases h1
    exact ih G1

theorem good_reachable (geo : GeoOk g n) {s : Hist} (h : Reachable g H n s) : Good g n s := by
  obtain ⟨ops, R⟩ := h
  exact good_run geo R (good_init g n)

/-! ## What each call does to a zone that is not open -/

/-- What a call may do to the state `st` and the number `l` of live blocks of a
closed zone. -/
theorem closed_step (geo : GeoOk g n) {s s' : Hist} (G : Good g n s) {op : Op} (hl : op.Legal s)
    (hs : step g H s op = some s') {z : Nat} {zn : Zone} (hv : s.c.fsm.view z = .closed zn) :
    (∃ zn', s'.c.fsm.view z = .closed zn' ∧
      (0 < liveIn g s.recs z → 0 < liveIn g s'.recs z) ∧ (liveIn g s.recs z = 0 → liveIn g s'.recs z = 0)) ∨
    (0 < liveIn g s.recs z ∧ s'.c.fsm.view z = .dead ∧ liveIn g s'.recs z = 0 ∧ ∃ i, op = .free i) := by
  cases op with
  | write space txg =>
    left
    unfold step at hs
    rcases write_spec geo G hl.1 hl.2 with ⟨c, h, -, -, -, hk⟩ | ⟨c, z', lba, h, hlba, -, -, hz', hk, -⟩
    · simp only [h] at hs
      cases hs
      refine ⟨zn, ?_, id, id⟩
      rcases hk z with h | ⟨_, _, _, h, -⟩
      · exact h.trans hv
      · rw [hv] at h; cases h
    · simp only [h] at hs
      cases hs
      have hne : z ≠ z' := by
        intro e
        rw [← e] at hz'
        rcases hz' with ⟨_, _, h⟩ | h <;> rw [hv] at h <;> cases h
      have hlv : liveIn g (s.recs ++ [⟨lba, space, true⟩]) z = liveIn g s.recs z := by
        rw [liveIn_append]
        have : liveIn g [(⟨lba, space, true⟩ : Rec)] z = 0 := by
          apply liveIn_zero
          intro x hx hzx
          rw [List.mem_singleton] at hx
          subst hx
          rw [hlba] at hzx
          exact absurd (by simpa using hzx.symm) hne
        omega
      refine ⟨zn, ?_, by simp only; rw [hlv]; exact id, by simp only; rw [hlv]; exact id⟩
      rcases hk z hne with h | ⟨_, _, _, h, -⟩
      · exact h.trans hv
      · rw [hv] at h; cases h
  | free i =>
    obtain ⟨r, hr, hlive⟩ := hl
    obtain ⟨c, z', h, hz', -, -, hk, hcase⟩ := free_spec geo G hr hlive
    unfold step at hs
    simp only [hr, h, Option.map_some] at hs
    cases hs
    have hL := liveIn_set (g := g) hr hlive z
    by_cases e : z = z'
    · subst e
      rcases hcase with ⟨_, _, _, h, -⟩ | ⟨zn', -, ⟨zn2, h1, h2, -⟩ | ⟨h1, h2⟩⟩
      · rw [hv] at h; cases h
      · left
        rw [if_pos hz'] at hL
        have := (G.inv.recOk r (List.mem_of_getElem? hr)).1
        exact ⟨zn2, h1, fun _ => h2, fun h0 => by simp only; omega⟩
      · right
        rw [if_pos hz'] at hL
        have := (G.inv.recOk r (List.mem_of_getElem? hr)).1
        exact ⟨by omega, h1, h2, i, rfl⟩
    · left
      have hne : g.lba2zone r.lba ≠ some z := by
        rw [hz']; simp; omega
      rw [if_neg hne] at hL
      exact ⟨zn, (hk z e).trans hv, fun h0 => by simp only; omega, fun h0 => by simp only; omega⟩
  | flush gap =>
    left
    obtain ⟨c, -, h, -, -, -, hw⟩ := flush_spec (H := H) G hl
    unfold step at hs
    simp only [h, Option.map_some] at hs
    cases hs
    refine ⟨zn, ?_, id, id⟩
    rcases hw z with h | ⟨_, _, _, _, h, -⟩
    · exact h.trans hv
    · rw [hv] at h; cases h
  | advance =>
    left
    obtain ⟨-, -, he, hva⟩ := advance_spec (g := g) G
    cases hs
    have hlv : liveIn g (s.recs.filter (fun x => decide (∀ z ∈ s.c.advance.2, g.lba2zone x.lba ≠ some z))) z
        = liveIn g s.recs z := by
      apply liveIn_filter
      intro r _ hr
      rw [decide_eq_true_eq]
      intro z' hz' hc
      rw [hr] at hc
      have : z = z' := by simpa using hc
      rw [he z', ← this, hv] at hz'
      cases hz'
    refine ⟨zn, ?_, by simp only; rw [hlv]; exact id, by simp only; rw [hlv]; exact id⟩
    simp only
    rw [hva, if_neg (by rw [hv]; simp)]
    exact hv
  | reload =>
    left
    obtain ⟨f, c, h1, h2, hc, -, -, hvw, -⟩ := reload_spec geo H G
    unfold step at hs
    simp only [G.total, h1, h2, Option.map_some] at hs
    cases hs
    refine ⟨zn, ?_, id, id⟩
    simp only
    rw [hc, hvw]
    exact hv

theorem dead_step (geo : GeoOk g n) {s s' : Hist} (G : Good g n s) {op : Op} (hl : op.Legal s)
    (hs : step g H s op = some s') {z : Nat} (hv : s.c.fsm.view z = .dead) (hna : op ≠ .advance) :
    s'.c.fsm.view z = .dead := by
  cases op with
  | write space txg =>
    unfold step at hs
    rcases write_spec geo G hl.1 hl.2 with ⟨c, h, -, -, -, hk⟩ | ⟨c, z', lba, h, hlba, -, -, hz', hk, -⟩
    · simp only [h] at hs
      cases hs
      rcases hk z with h | ⟨_, _, _, h, -⟩
      · exact h.trans hv
      · rw [hv] at h; cases h
    · simp only [h] at hs
      cases hs
      have hne : z ≠ z' := by
        intro e
        rw [← e] at hz'
        rcases hz' with ⟨_, _, h⟩ | h <;> rw [hv] at h <;> cases h
      rcases hk z hne with h | ⟨_, _, _, h, -⟩
      · exact h.trans hv
      · rw [hv] at h; cases h
  | free i =>
    obtain ⟨r, hr, hlive⟩ := hl
    obtain ⟨c, z', h, hz', -, -, hk, hcase⟩ := free_spec geo G hr hlive
    unfold step at hs
    simp only [hr, h, Option.map_some] at hs
    cases hs
    by_cases e : z = z'
    · subst e
      rcases hcase with ⟨_, _, _, h, -⟩ | ⟨zn', h, -⟩ <;> rw [hv] at h <;> cases h
    · exact (hk z e).trans hv
  | flush gap =>
    obtain ⟨c, -, h, -, -, -, hw⟩ := flush_spec (H := H) G hl
    unfold step at hs
    simp only [h, Option.map_some] at hs
    cases hs
    rcases hw z with h | ⟨_, _, _, _, h, -⟩
    · exact h.trans hv
    · rw [hv] at h; cases h
  | advance => exact absurd rfl hna
  | reload =>
    obtain ⟨f, c, h1, h2, hc, -, -, hvw, -⟩ := reload_spec geo H G
    unfold step at hs
    simp only [G.total, h1, h2, Option.map_some] at hs
    cases hs
    simp only
    rw [hc, hvw]
    exact hv

/-- Only `advance` removes ranges from the log. -/
theorem log_step {s s' : Hist} {op : Op} (hs : step g H s op = some s') (hna : op ≠ .advance) :
    s.recs.length ≤ s'.recs.length ∧
    ∀ (i : Nat) r, s.recs[i]? = some r → ∃ r', s'.recs[i]? = some r' ∧ r'.lba = r.lba ∧ r'.len = r.len := by
  unfold step at hs
  cases op with
  | write space txg =>
    simp only at hs
    split at hs
    · cases hs
    · cases hs
      exact ⟨Nat.le_refl _, fun i r h => ⟨r, h, rfl, rfl⟩⟩
    · cases hs
      refine ⟨by simp, fun i r h => ⟨r, ?_, rfl, rfl⟩⟩
      simp only
      rw [List.getElem?_append_left (List.getElem?_eq_some_iff.mp h).1]
      exact h
  | free i =>
    simp only at hs
    split at hs
    · cases hs
    · rename_i r hr
      rw [Option.map_eq_some_iff] at hs
      obtain ⟨c, -, hs⟩ := hs
      cases hs
      refine ⟨by simp, fun j x h => ?_⟩
      by_cases e : j = i
      · subst e
        rw [hr] at h
        cases h
        exact ⟨_, List.getElem?_set_self (List.getElem?_eq_some_iff.mp hr).1, rfl, rfl⟩
      · exact ⟨x, by simp only; rw [List.getElem?_set_ne (by omega)]; exact h, rfl, rfl⟩
  | flush gap =>
    simp only [Option.map_eq_some_iff] at hs
    obtain ⟨c, -, hs⟩ := hs
    cases hs
    exact ⟨Nat.le_refl _, fun i r h => ⟨r, h, rfl, rfl⟩⟩
  | advance => exact absurd rfl hna
  | reload =>
    simp only at hs
    split at hs
    · rw [Option.map_eq_some_iff] at hs
      obtain ⟨c, -, hs⟩ := hs
      cases hs
      exact ⟨Nat.le_refl _, fun i r h => ⟨r, h, rfl, rfl⟩⟩
    · cases hs

end Verif.Cluster
