import Verif.Import.Lemmas

/-!
# What importing each layer gives
-/

namespace Verif.Import

open Verif

section
variable {P : PoolT} {S : State} {found : List Disk} {rd : Nat → Bool} {ord : Nat → List Nat}

theorem found_disk (hP : P.Ok) (hf : Found P S found) {R : RaidT} {M : MirrorT} {d : Disk} {u : Nat}
    (hR : R ∈ P.raids) (hM : M ∈ R.mirrors) (hu : u ∈ M.disks) (hd : d ∈ found) (h : d.uuid = u) :
    d = P.disk S R M u := by
  subst h
  rcases hf d hd with ⟨R', hR', M', hM', hu', he⟩ | hx
  · obtain ⟨rfl, rfl⟩ := hP.disk_inj R hR M hM R' hR' M' hM' d.uuid hu hu'
    exact he
  · exact absurd hu (hx.disk R hR M hM)

theorem found_mirror (hP : P.Ok) (hf : Found P S found) {R : RaidT} {M : MirrorT} {d : Disk}
    (hR : R ∈ P.raids) (hM : M ∈ R.mirrors) (hd : d ∈ found) (h : d.mirror = M.uuid) :
    d.uuid ∈ M.disks ∧ d.siblings = M.disks := by
  rcases hf d hd with ⟨R', hR', M', hM', hu', he⟩ | hx
  · rw [he] at h
    obtain ⟨rfl, rfl⟩ := hP.mirror_inj R hR M hM R' hR' M' hM' h.symm
    exact ⟨hu', by rw [he]; rfl⟩
  · exact absurd h (hx.mirror R hR M hM)

theorem label_uuid (R : RaidT) : R.label.uuid = R.uuid := by
  unfold RaidT.label
  split <;> rfl

theorem label_children (hP : P.Ok) {R : RaidT} (hR : R ∈ P.raids) :
    R.label.children = R.mirrors.map (·.uuid) := by
  unfold RaidT.label
  split
  · rfl
  · next h =>
    have h1 := hP.single R hR h
    cases hm : R.mirrors with
    | nil => rw [hm] at h1; simp at h1
    | cons M Ms =>
      rw [hm] at h1
      cases Ms with
      | nil => rfl
      | cons _ _ => simp at h1

theorem raid_inj (hP : P.Ok) {R R' : RaidT} (hR : R ∈ P.raids) (hR' : R' ∈ P.raids)
    (h : R.uuid = R'.uuid) : R = R' := by
  have hnd := hP.raids
  generalize P.raids = l at hR hR' hnd
  induction l with
  | nil => simp at hR
  | cons a l ih =>
    rw [List.map_cons, List.nodup_cons] at hnd
    rcases List.mem_cons.mp hR with rfl | h1 <;> rcases List.mem_cons.mp hR' with rfl | h2
    · rfl
    · exact absurd (h ▸ List.mem_map_of_mem h2) hnd.1
    · exact absurd (h ▸ List.mem_map_of_mem h1) hnd.1
    · exact ih h1 h2 hnd.2

theorem found_raid (hP : P.Ok) (hf : Found P S found) {R : RaidT} {d : Disk} (hR : R ∈ P.raids)
    (hd : d ∈ found) (h : d.raid.uuid = R.uuid) :
    d.raid = R.label ∧ ∃ M ∈ R.mirrors, d.uuid ∈ M.disks := by
  rcases hf d hd with ⟨R', hR', M', hM', hu', he⟩ | hx
  · have h1 : d.raid = R'.label := by rw [he]; rfl
    rw [h1, label_uuid] at h
    obtain rfl := raid_inj hP hR' hR h
    exact ⟨h1, M', hM', hu'⟩
  · exact absurd h (hx.raid R hR)

theorem found_pool (hf : Found P S found) {d : Disk} (hd : d ∈ found) (h : d.pool.uuid = P.uuid) :
    d.pool = ⟨P.uuid, P.name, P.raids.map (·.uuid)⟩ ∧ P.Has S d := by
  rcases hf d hd with hx | hx
  · obtain ⟨R', hR', M', hM', hu', he⟩ := id hx
    exact ⟨by rw [he]; rfl, hx⟩
  · exact absurd h hx.pool

/-! ## Leaves -/

theorem tasted_device (hP : P.Ok) (hf : Found P S found) {R : RaidT} {M : MirrorT} {u : Nat}
    (hR : R ∈ P.raids) (hM : M ∈ R.mirrors) (hu : u ∈ M.disks) :
    (tasted found).devices u =
      if found.any (fun d => decide (d.uuid = u)) then some (P.disk S R M u) else none := by
  unfold tasted
  rw [(tasted_fields found Mgr.empty).1]
  exact foldl_insert found (·.uuid) id _ u _ fun d hd h => found_disk hP hf hR hM hu hd h

theorem tasted_mirror (hP : P.Ok) (hf : Found P S found) {R : RaidT} {M : MirrorT}
    (hR : R ∈ P.raids) (hM : M ∈ R.mirrors) :
    (tasted found).mirrors M.uuid =
      if found.any (fun d => decide (d.mirror = M.uuid)) then some M.disks else none := by
  unfold tasted
  rw [(tasted_fields found Mgr.empty).2.1]
  exact foldl_insert found (·.mirror) (·.siblings) _ _ _
    fun d hd h => (found_mirror hP hf hR hM hd h).2

theorem tasted_raid (hP : P.Ok) (hf : Found P S found) {R : RaidT} (hR : R ∈ P.raids) :
    (tasted found).raids R.uuid =
      if found.any (fun d => decide (d.raid.uuid = R.uuid)) then some R.label else none := by
  unfold tasted
  rw [(tasted_fields found Mgr.empty).2.2.1]
  exact foldl_insert found (·.raid.uuid) (·.raid) _ _ _ fun d hd h => (found_raid hP hf hR hd h).1

theorem tasted_pool (hf : Found P S found) :
    OMap.get (tasted found).pools P.uuid =
      if found.any (fun d => decide (d.pool.uuid = P.uuid))
        then some ⟨P.uuid, P.name, P.raids.map (·.uuid)⟩ else none := by
  unfold tasted
  rw [(tasted_fields found Mgr.empty).2.2.2]
  exact pools_get found _ _ _ fun d hd h => (found_pool hf hd h).1

theorem leaf_result (hP : P.Ok) (hf : Found P S found) {R : RaidT} {M : MirrorT} {u : Nat}
    (hR : R ∈ P.raids) (hM : M ∈ R.mirrors) (hu : u ∈ M.disks) :
    (usable rd found u = true → (importLeaf rd (tasted found) u).1 = .ok (P.disk S R M u)) ∧
    (usable rd found u = false → ∃ e, (importLeaf rd (tasted found) u).1 = .error e) := by
  unfold importLeaf
  rw [tasted_device hP hf hR hM hu]
  unfold usable
  cases found.any fun d => decide (d.uuid = u) with
  | true => cases rd u <;> simp
  | false => simp

/-! ## Mirrors -/

theorem oks_leaves (hP : P.Ok) (hf : Found P S found) {R : RaidT} {M : MirrorT}
    (hR : R ∈ P.raids) (hM : M ∈ R.mirrors) :
    oks (M.disks.map fun u => (importLeaf rd (tasted found) u).1) =
      (M.disks.filter (usable rd found)).map (P.disk S R M) := by
  have h : ∀ us : List Nat, (∀ u ∈ us, u ∈ M.disks) →
      oks (us.map fun u => (importLeaf rd (tasted found) u).1) =
        (us.filter (usable rd found)).map (P.disk S R M) := by
    intro us
    induction us with
    | nil => intro _; rfl
    | cons u us ih =>
      intro h
      have h1 := ih fun v hv => h v (List.mem_cons_of_mem _ hv)
      have h2 := leaf_result (rd := rd) hP hf hR hM (h u (List.mem_cons_self ..))
      unfold oks at h1 ⊢
      rw [List.map_cons, List.filterMap_cons]
      cases hu : usable rd found u with
      | true => rw [h2.1 hu, List.filter_cons_of_pos hu, List.map_cons, ← h1]
      | false =>
        obtain ⟨e, he⟩ := h2.2 hu
        rw [he, List.filter_cons_of_neg (by simp [hu]), ← h1]
  exact h M.disks fun _ h => h

theorem foldl_max_nat (l : List Nat) (x : Nat) :
    x ≤ l.foldl max x ∧ (∀ a ∈ l, a ≤ l.foldl max x) ∧
      ∀ y, x ≤ y → (∀ a ∈ l, a ≤ y) → l.foldl max x ≤ y := by
  induction l generalizing x with
  | nil => exact ⟨Nat.le_refl _, by simp, fun y h _ => h⟩
  | cons b l ih =>
    obtain ⟨h1, h2, h3⟩ := ih (max x b)
    simp only [List.foldl_cons]
    refine ⟨by omega, ?_, ?_⟩
    · intro a ha
      rcases List.mem_cons.mp ha with rfl | ha
      · omega
      · exact h2 a ha
    · intro y hy ha
      refine h3 y ?_ fun a h => ha a (List.mem_cons_of_mem _ h)
      have := ha b (List.mem_cons_self ..)
      omega

theorem foldl_max_mem (l : List Nat) (h : l ≠ []) : l.foldl max 0 ∈ l := by
  suffices hs : ∀ (l : List Nat) (x : Nat), l.foldl max x = x ∨ l.foldl max x ∈ l by
    rcases hs l 0 with h1 | h1
    · cases l with
      | nil => exact absurd rfl h
      | cons a l =>
        have h2 := (foldl_max_nat (a :: l) 0).2.1 a (List.mem_cons_self ..)
        rw [h1] at h2 ⊢
        have : a = 0 := by omega
        rw [this]
        exact List.mem_cons_self ..
    · exact h1
  intro l
  induction l with
  | nil => intro x; exact Or.inl rfl
  | cons a l ih =>
    intro x
    simp only [List.foldl_cons]
    rcases ih (max x a) with h | h
    · rw [h]
      by_cases hx : a ≤ x
      · left; omega
      · right
        have : max x a = a := by omega
        rw [this]; exact List.mem_cons_self ..
    · exact Or.inr (List.mem_cons_of_mem _ h)

/-- What opening a mirror from its usable disks gives, in whatever order they come. -/
theorem open_mirror (hP : P.Ok) {R : RaidT} {M : MirrorT} (hR : R ∈ P.raids) (hM : M ∈ R.mirrors)
    {use : Nat → Bool} {ds : List Disk}
    (hds : ds.Perm ((M.disks.filter use).map (P.disk S R M))) (hne : ds ≠ []) :
    ∃ m u, openMirror M.uuid ds = some (.ok (m, P.disk S R M u)) ∧
      M.expected S use R = some m ∧ u ∈ M.disks ∧ use u = true ∧ S.txg u = newest S use M := by
  have hmem : ∀ {d}, d ∈ ds ↔ ∃ u, u ∈ M.disks ∧ use u = true ∧ P.disk S R M u = d := by
    intro d
    rw [hds.mem_iff, List.mem_map]
    simp only [List.mem_filter]
    constructor
    · rintro ⟨u, ⟨h1, h2⟩, h3⟩; exact ⟨u, h1, h2, h3⟩
    · rintro ⟨u, h1, h2, h3⟩; exact ⟨u, ⟨h1, h2⟩, h3⟩
  have hany : M.disks.any use = true := by
    obtain ⟨d, hd⟩ := List.exists_mem_of_ne_nil ds hne
    obtain ⟨u, h1, h2, _⟩ := hmem.mp hd
    exact List.any_eq_true.mpr ⟨u, h1, h2⟩
  have hhigh : Mirror.highestTxg (ds.map Disk.leaf) = newest S use M := by
    have h1 := Mirror.foldl_max (ds.map Disk.leaf) 0
    have h2 := foldl_max_nat ((M.disks.filter use).map S.txg) 0
    apply Nat.le_antisymm
    · refine h1.2.2 _ (Nat.zero_le _) fun l hl => ?_
      obtain ⟨d, hd, rfl⟩ := List.mem_map.mp hl
      obtain ⟨u, a1, a2, rfl⟩ := hmem.mp hd
      exact h2.2.1 _ (List.mem_map_of_mem (List.mem_filter.mpr ⟨a1, a2⟩))
    · refine h2.2.2 _ (Nat.zero_le _) fun x hx => ?_
      obtain ⟨u, hu, rfl⟩ := List.mem_map.mp hx
      have hu := List.mem_filter.mp hu
      exact h1.2.1 (P.disk S R M u).leaf (List.mem_map_of_mem (hmem.mpr ⟨u, hu.1, hu.2, rfl⟩))
  obtain ⟨u0, hu0, hx0⟩ : ∃ u, u ∈ M.disks.filter use ∧ S.txg u = newest S use M := by
    have h1 := foldl_max_mem ((M.disks.filter use).map S.txg) (by
      intro h
      have h3 := List.map_eq_nil_iff.mp h
      obtain ⟨u, a1, a2⟩ := List.any_eq_true.mp hany
      have : u ∈ M.disks.filter use := List.mem_filter.mpr ⟨a1, a2⟩
      rw [h3] at this
      simp at this)
    obtain ⟨u, hu, h⟩ := List.mem_map.mp h1
    exact ⟨u, hu, h⟩
  have hu0' := List.mem_filter.mp hu0
  -- the label
  obtain ⟨l, hl⟩ : ∃ l, Mirror.labelLeaf (ds.map Disk.leaf) = some l := by
    unfold Mirror.labelLeaf
    cases hf : (ds.map Disk.leaf).find? fun l =>
        decide (l.txg = Mirror.highestTxg (ds.map Disk.leaf)) with
    | some l => exact ⟨l, rfl⟩
    | none =>
      have := List.find?_eq_none.mp hf (P.disk S R M u0).leaf
        (List.mem_map_of_mem (hmem.mpr ⟨u0, hu0'.1, hu0'.2, rfl⟩))
      rw [hhigh] at this
      simp [Disk.leaf, PoolT.disk, hx0] at this
  have hl1 : l ∈ ds.map Disk.leaf := List.mem_of_find?_eq_some hl
  have hl2 : l.txg = newest S use M := by
    have := List.find?_some hl
    rw [hhigh] at this
    simpa using this
  obtain ⟨d0, hd0, rfl⟩ := List.mem_map.mp hl1
  obtain ⟨u1, b1, b2, rfl⟩ := hmem.mp hd0
  -- the children
  have hchild : ∀ v ∈ M.disks, Mirror.openChild (ds.map Disk.leaf) v =
      if use v then
        ⟨v, if S.txg v = newest S use M then .present else .rebuilding, R.size, R.lpz⟩
      else ⟨v, .missing, 0, 0⟩ := by
    intro v hv
    unfold Mirror.openChild
    cases hf : (ds.map Disk.leaf).find? fun l => decide (l.uuid = v) with
    | some l =>
      have h1 := List.mem_of_find?_eq_some hf
      have h2 : l.uuid = v := by simpa using List.find?_some hf
      obtain ⟨d, hd, rfl⟩ := List.mem_map.mp h1
      obtain ⟨w, c1, c2, rfl⟩ := hmem.mp hd
      have h2 : w = v := h2
      subst h2
      simp only [hhigh, c2, if_true]
      show (if S.txg w = newest S use M then _ else _) = _
      by_cases hx : S.txg w = newest S use M
      · rw [if_pos hx, if_pos hx]; rfl
      · rw [if_neg hx, if_neg hx]; rfl
    | none =>
      have h1 := List.find?_eq_none.mp hf
      cases hu : use v with
      | false => simp
      | true =>
        have := h1 (P.disk S R M v).leaf (List.mem_map_of_mem (hmem.mpr ⟨v, hv, hu, rfl⟩))
        simp [Disk.leaf, PoolT.disk] at this
  have hcs : M.disks.map (Mirror.openChild (ds.map Disk.leaf)) = M.disks.map fun v =>
      if use v then
        ⟨v, if S.txg v = newest S use M then .present else .rebuilding, R.size, R.lpz⟩
      else ⟨v, .missing, 0, 0⟩ := List.map_congr_left hchild
  have hnew : Mirror.new (M.disks.map (Mirror.openChild (ds.map Disk.leaf))) =
      some (.ok (M.disks.map (Mirror.openChild (ds.map Disk.leaf)))) := by
    rw [hcs]
    generalize hcl : (M.disks.map fun v =>
      if use v then
        (⟨v, if S.txg v = newest S use M then .present else .rebuilding, R.size, R.lpz⟩ : Mirror.Child)
      else ⟨v, .missing, 0, 0⟩) = cl
    have hpres : ∃ c ∈ cl, c.st = .present := by
      refine ⟨⟨u0, .present, R.size, R.lpz⟩, ?_, rfl⟩
      rw [← hcl]
      refine List.mem_map.mpr ⟨u0, hu0'.1, ?_⟩
      rw [if_pos hu0'.2, if_pos hx0]
    have hgeo : ∀ c ∈ cl, c.st ≠ .missing → c.size = R.size ∧ c.lpz = R.lpz := by
      intro c hc hm
      rw [← hcl] at hc
      obtain ⟨v, _, rfl⟩ := List.mem_map.mp hc
      cases hu : use v with
      | true => simp
      | false => simp [hu] at hm
    obtain ⟨c, hc, hcp⟩ := hpres
    unfold Mirror.new
    rw [if_neg (fun h => by rw [h] at hc; simp at hc)]
    simp only
    cases hv : cl.filter fun c => decide (c.st ≠ .missing) with
    | nil =>
      have : c ∈ cl.filter fun c => decide (c.st ≠ .missing) :=
        List.mem_filter.mpr ⟨hc, by simp [hcp]⟩
      rw [hv] at this
      simp at this
    | cons f rest =>
      have hall : ∀ x ∈ f :: rest, x.size = R.size ∧ x.lpz = R.lpz := by
        intro x hx
        rw [← hv] at hx
        have := List.mem_filter.mp hx
        exact hgeo x this.1 (by simpa using this.2)
      simp only
      rw [if_neg, if_pos]
      · exact List.any_eq_true.mpr ⟨c, hc, by simp [Mirror.Child.isPresent, hcp]⟩
      · rw [List.any_eq_true]
        rintro ⟨x, hx, hne⟩
        have h1 := hall x (List.mem_cons_of_mem _ hx)
        have h2 := hall f (List.mem_cons_self ..)
        simp [h1.1, h1.2, h2.1, h2.2] at hne
  refine ⟨⟨M.uuid, M.disks.map (Mirror.openChild (ds.map Disk.leaf))⟩, u1, ?_, ?_, b1, b2, hl2⟩
  · unfold openMirror
    rw [if_neg (by
      rw [List.any_eq_true]
      rintro ⟨d, hd, hx⟩
      obtain ⟨w, _, _, rfl⟩ := hmem.mp hd
      simp [PoolT.disk] at hx)]
    have : Mirror.openMirror (ds.map Disk.leaf) = some (.ok
        (M.disks.map (Mirror.openChild (ds.map Disk.leaf)), (P.disk S R M u1).leaf)) := by
      unfold Mirror.openMirror
      rw [hl]
      show (match Mirror.new (M.disks.map _) with | none => _ | some (.error e) => _ | some (.ok m) => _) = _
      rw [hnew]
    rw [this]
    simp only
    cases hf : ds.find? fun d => decide (d.leaf = (P.disk S R M u1).leaf) with
    | none =>
      have := List.find?_eq_none.mp hf _ hd0
      simp at this
    | some d =>
      have h1 := List.mem_of_find?_eq_some hf
      have h2 : d.leaf = (P.disk S R M u1).leaf := by simpa using List.find?_some hf
      obtain ⟨w, _, _, rfl⟩ := hmem.mp h1
      have h3 : w = u1 := congrArg Mirror.Leaf.uuid h2
      subst h3
      rfl
  · unfold MirrorT.expected
    rw [if_pos hany, hcs]

/-- Importing a mirror. -/
theorem mirror_result (hP : P.Ok) (hf : Found P S found) {R : RaidT} {M : MirrorT}
    (hR : R ∈ P.raids) (hM : M ∈ R.mirrors) (ho : (ord M.uuid).Perm (List.range M.disks.length)) :
    (M.disks.any (usable rd found) = true → ∃ m u,
      (importMirror rd ord (tasted found) M.uuid).1 = some (.ok (m, P.disk S R M u)) ∧
      M.expected S (usable rd found) R = some m ∧ u ∈ M.disks ∧ usable rd found u = true ∧
      S.txg u = newest S (usable rd found) M) ∧
    (M.disks.any (usable rd found) = false →
      ∃ e, (importMirror rd ord (tasted found) M.uuid).1 = some (.error e)) := by
  have hfm : M.disks.any (usable rd found) = true →
      found.any (fun d => decide (d.mirror = M.uuid)) = true := by
    intro h
    obtain ⟨u, h1, h2⟩ := List.any_eq_true.mp h
    unfold usable at h2
    rw [Bool.and_eq_true] at h2
    obtain ⟨d, hd, h3⟩ := List.any_eq_true.mp h2.2
    have := found_disk hP hf hR hM h1 hd (by simpa using h3)
    refine List.any_eq_true.mpr ⟨d, hd, ?_⟩
    rw [this]
    simp [PoolT.disk]
  have hres : found.any (fun d => decide (d.mirror = M.uuid)) = true →
      ∃ rs : List (Except Err Disk),
        (oks rs).Perm ((M.disks.filter (usable rd found)).map (P.disk S R M)) ∧
        (importMirror rd ord (tasted found) M.uuid).1 =
          if oks rs = [] then some (.error (lastErr rs)) else openMirror M.uuid (oks rs) := by
    intro h
    unfold importMirror
    rw [tasted_mirror hP hf hR hM, if_pos h]
    simp only
    refine ⟨_, ?_, rfl⟩
    rw [leaves_res (m := { tasted found with mirrors := (tasted found).mirrors.remove M.uuid })
      (hP.disks R hR M hM) (t := tasted found) (fun _ _ => rfl), ← oks_leaves hP hf hR hM]
    exact oks_perm (arrive_perm (by rw [List.length_map]; exact ho))
  constructor
  · intro h
    obtain ⟨rs, h1, h2⟩ := hres (hfm h)
    have hne : oks rs ≠ [] := by
      intro h3
      rw [h3] at h1
      have h4 := List.map_eq_nil_iff.mp h1.nil_eq.symm
      obtain ⟨u, a1, a2⟩ := List.any_eq_true.mp h
      have : u ∈ M.disks.filter (usable rd found) := List.mem_filter.mpr ⟨a1, a2⟩
      rw [h4] at this
      simp at this
    rw [h2, if_neg hne]
    exact open_mirror hP hR hM h1 hne
  · intro h
    cases hm : found.any (fun d => decide (d.mirror = M.uuid)) with
    | true =>
      obtain ⟨rs, h1, h2⟩ := hres hm
      have h3 : M.disks.filter (usable rd found) = [] := by
        rw [List.filter_eq_nil_iff]
        intro u hu hx
        rw [List.any_eq_false] at h
        exact h u hu hx
      rw [h3, List.map_nil] at h1
      rw [h2, if_pos h1.eq_nil]
      exact ⟨_, rfl⟩
    | false =>
      unfold importMirror
      rw [tasted_mirror hP hf hR hM, hm]
      exact ⟨_, rfl⟩

/-! ## RAID devices -/

/-- The manager still has all there is to know about the mirrors of `R`. -/
def MirrorsKept (t m : Mgr) (R : RaidT) : Prop :=
  ∀ M ∈ R.mirrors, m.mirrors M.uuid = t.mirrors M.uuid ∧ ∀ u ∈ M.disks, m.devices u = t.devices u

theorem mirror_inj (hP : P.Ok) {R : RaidT} (hR : R ∈ P.raids) {M M' : MirrorT} (hM : M ∈ R.mirrors)
    (hM' : M' ∈ R.mirrors) (h : M.uuid = M'.uuid) : M = M' :=
  (hP.mirror_inj R hR M hM R hR M' hM' h).2

theorem tasted_mirror_eq (hP : P.Ok) (hf : Found P S found) {R : RaidT} {M : MirrorT}
    (hR : R ∈ P.raids) (hM : M ∈ R.mirrors) (l : List Nat)
    (h : (tasted found).mirrors M.uuid = some l) : l = M.disks := by
  rw [tasted_mirror hP hf hR hM] at h
  split at h
  · cases h; rfl
  · simp at h

/-- Importing the mirror `M'` leaves everything about a different mirror `M` as it was. -/
theorem mirror_apart (hP : P.Ok) {R R' : RaidT} {M M' : MirrorT} {m : Mgr}
    (hR : R ∈ P.raids) (hM : M ∈ R.mirrors) (hR' : R' ∈ P.raids) (hM' : M' ∈ R'.mirrors)
    (hne : M ≠ M') (hm' : ∀ l, m.mirrors M'.uuid = some l → l = M'.disks)
    (h : m.mirrors M.uuid = (tasted found).mirrors M.uuid ∧
      ∀ u ∈ M.disks, m.devices u = (tasted found).devices u) :
    (importMirror rd ord m M'.uuid).2.mirrors M.uuid = (tasted found).mirrors M.uuid ∧
      ∀ u ∈ M.disks, (importMirror rd ord m M'.uuid).2.devices u = (tasted found).devices u := by
  have hk := mirror_keep (rd := rd) (ord := ord) (m := m) (t := tasted found) (u := M'.uuid)
    (cs := M'.disks) (ds := (· ∈ M.disks)) (ms := (· = M.uuid)) (rs := fun _ => False)
    hm'
    (fun he => hne (hP.mirror_inj R hR M hM R' hR' M' hM' he.symm).2)
    (fun v hv hv' => hne (hP.disk_inj R hR M hM R' hR' M' hM' v hv' hv).2)
    ⟨fun u hu => h.2 u hu, fun u hu => hu ▸ h.1, fun _ hx => hx.elim⟩
  exact ⟨hk.mirrors _ rfl, hk.devices⟩

theorem mirrors_res (hP : P.Ok) (hf : Found P S found) {R : RaidT} (hR : R ∈ P.raids) {m : Mgr}
    (h : MirrorsKept (tasted found) m R) :
    (importAll (importMirror rd ord) m (R.mirrors.map (·.uuid))).1 =
      R.mirrors.map fun M => (importMirror rd ord (tasted found) M.uuid).1 := by
  rw [importAll_res (res := fun u => (importMirror rd ord (tasted found) u).1)
    (ok := fun m u => ∀ M ∈ R.mirrors, M.uuid = u →
      m.mirrors M.uuid = (tasted found).mirrors M.uuid ∧
        ∀ v ∈ M.disks, m.devices v = (tasted found).devices v) _ m (hP.mirrors R hR), List.map_map]
  · rfl
  · intro m u hu hok
    obtain ⟨M, hM, rfl⟩ := List.mem_map.mp hu
    have h1 := hok M hM rfl
    exact mirror_res (hP.disks R hR M hM) h1.1 (tasted_mirror_eq hP hf hR hM) h1.2
  · intro m u v hu hv hne hu1 hok M hM he
    obtain ⟨M', hM', rfl⟩ := List.mem_map.mp hu
    refine mirror_apart hP hR hM hR hM' (fun h => hne ?_) (fun l hl => ?_) (hok M hM he)
    · rw [← h, he]
    · exact tasted_mirror_eq hP hf hR hM' l ((hu1 M' hM' rfl).1 ▸ hl)
  · intro u hu M hM _
    exact h M hM

/-- The mirrors of `R'` are as labelled, or gone. -/
def AsLabelled (m : Mgr) (R' : RaidT) : Prop :=
  ∀ M ∈ R'.mirrors, ∀ l, m.mirrors M.uuid = some l → l = M.disks

theorem raid_res (hP : P.Ok) (hf : Found P S found) {R : RaidT} (hR : R ∈ P.raids) {m : Mgr}
    (h1 : m.raids R.uuid = (tasted found).raids R.uuid) (h : MirrorsKept (tasted found) m R) :
    (importRaid rd ord m R.uuid).1 = (importRaid rd ord (tasted found) R.uuid).1 := by
  unfold importRaid
  rw [h1]
  have ht := tasted_raid hP hf hR
  cases hr : (tasted found).raids R.uuid with
  | none => rfl
  | some rl =>
    have : rl = R.label := by
      rw [ht] at hr
      split at hr
      · cases hr; rfl
      · simp at hr
    subst this
    simp only
    rw [label_children hP hR, mirrors_res (m := { m with raids := m.raids.remove R.uuid }) hP hf hR h,
      mirrors_res (m := { tasted found with raids := (tasted found).raids.remove R.uuid }) hP hf hR
        (fun M _ => ⟨rfl, fun _ _ => rfl⟩)]

/-- Importing `R'` leaves everything about `R` as it was. -/
theorem raid_apart (hP : P.Ok) (hf : Found P S found) {R R' : RaidT} {m : Mgr} (hR : R ∈ P.raids)
    (hR' : R' ∈ P.raids) (hne : R ≠ R') (hr' : m.raids R'.uuid = (tasted found).raids R'.uuid)
    (hl : AsLabelled m R') (h1 : m.raids R.uuid = (tasted found).raids R.uuid)
    (h2 : MirrorsKept (tasted found) m R) :
    (importRaid rd ord m R'.uuid).2.raids R.uuid = (tasted found).raids R.uuid ∧
      MirrorsKept (tasted found) (importRaid rd ord m R'.uuid).2 R := by
  unfold importRaid
  cases hr : m.raids R'.uuid with
  | none => exact ⟨h1, h2⟩
  | some rl =>
    have : rl = R'.label := by
      rw [hr', tasted_raid hP hf hR'] at hr
      split at hr
      · cases hr; rfl
      · simp at hr
    subst this
    simp only
    rw [label_children hP hR']
    have hk := importAll_keep (f := importMirror rd ord)
      (Q := fun m => m.raids R.uuid = (tasted found).raids R.uuid ∧
        MirrorsKept (tasted found) m R ∧ AsLabelled m R') (R'.mirrors.map (·.uuid))
      { m with raids := m.raids.remove R'.uuid } (by
        intro m u hu hQ
        obtain ⟨M', hM', rfl⟩ := List.mem_map.mp hu
        have hs := mirror_sub rd ord m M'.uuid
        refine ⟨by rw [hs.2]; exact hQ.1, fun M hM => ?_, fun M hM l hl => ?_⟩
        · refine mirror_apart hP hR hM hR' hM' (fun h => ?_) (hQ.2.2 M' hM') (hQ.2.1 M hM)
          exact hne (hP.mirror_inj R hR M hM R' hR' M' hM' (by rw [h])).1
        · exact hQ.2.2 M hM l (hs.1 _ _ hl)) ⟨by
        show (if R.uuid = R'.uuid then none else m.raids R.uuid) = _
        rw [if_neg (fun h => hne (raid_inj hP hR hR' h))]
        exact h1, h2, hl⟩
    exact ⟨hk.1, hk.2.1⟩

theorem raid_asLabelled {R R' : RaidT} {m : Mgr} (rd : Nat → Bool) (ord : Nat → List Nat)
    (hl : AsLabelled m R) : AsLabelled (importRaid rd ord m R'.uuid).2 R := by
  unfold importRaid
  cases hr : m.raids R'.uuid with
  | none => exact hl
  | some rl =>
    simp only
    exact importAll_keep (f := importMirror rd ord) (Q := fun m => AsLabelled m R) rl.children _
      (fun m u _ hQ M hM l h => hQ M hM l ((mirror_sub rd ord m u).1 _ _ h)) hl

theorem raids_res (hP : P.Ok) (hf : Found P S found) {m : Mgr}
    (h : ∀ R ∈ P.raids, m.raids R.uuid = (tasted found).raids R.uuid ∧
      MirrorsKept (tasted found) m R) :
    (importAll (importRaid rd ord) m (P.raids.map (·.uuid))).1 =
      P.raids.map fun R => (importRaid rd ord (tasted found) R.uuid).1 := by
  have hlab : ∀ {m : Mgr} {R : RaidT}, R ∈ P.raids → MirrorsKept (tasted found) m R →
      AsLabelled m R := by
    intro m R hR hm M hM l hl
    exact tasted_mirror_eq hP hf hR hM l ((hm M hM).1 ▸ hl)
  rw [importAll_res (res := fun u => (importRaid rd ord (tasted found) u).1)
    (ok := fun m u => ∀ R ∈ P.raids, R.uuid = u →
      m.raids R.uuid = (tasted found).raids R.uuid ∧ MirrorsKept (tasted found) m R) _ m hP.raids,
    List.map_map]
  · rfl
  · intro m u hu hok
    obtain ⟨R, hR, rfl⟩ := List.mem_map.mp hu
    have h1 := hok R hR rfl
    exact raid_res hP hf hR h1.1 h1.2
  · intro m u v hu hv hne hu1 hok R hR he
    obtain ⟨R', hR', rfl⟩ := List.mem_map.mp hu
    have h1 := hu1 R' hR' rfl
    have h2 := hok R hR he
    exact raid_apart hP hf hR hR' (fun h => hne (by rw [← h, he])) h1.1 (hlab hR' h1.2) h2.1 h2.2
  · intro u hu R hR _
    exact h R hR

/-- Importing a RAID device. -/
theorem raid_result (hP : P.Ok) (hf : Found P S found) {R : RaidT} (hR : R ∈ P.raids)
    (ho : P.Arrivals ord) :
    (R.usable (usable rd found) = true → ∃ M ∈ R.mirrors, ∃ u ∈ M.disks,
      (importRaid rd ord (tasted found) R.uuid).1 =
        some (.ok (R.expected S (usable rd found), P.disk S R M u)) ∧
      usable rd found u = true ∧ S.txg u = newest S (usable rd found) M) ∧
    (R.usable (usable rd found) = false →
      ∃ e, (importRaid rd ord (tasted found) R.uuid).1 = some (.error e)) := by
  -- the results of the mirrors
  have hmr := fun M (hM : M ∈ R.mirrors) => mirror_result (rd := rd) (ord := ord) hP hf hR hM
    (ho.2.2 R hR M hM)
  let mres : MirrorT → Except Err (MDev × Disk) := fun M =>
    ((importMirror rd ord (tasted found) M.uuid).1).getD (.error .enoent)
  have hsome : (R.mirrors.map fun M => (importMirror rd ord (tasted found) M.uuid).1) =
      (R.mirrors.map mres).map some := by
    rw [List.map_map]
    refine List.map_congr_left fun M hM => ?_
    show _ = some (mres M)
    cases hu : M.disks.any (Import.usable rd found) with
    | true =>
      obtain ⟨m, u, h, _⟩ := (hmr M hM).1 hu
      simp only [mres, h, Option.getD_some]
    | false =>
      obtain ⟨e, h⟩ := (hmr M hM).2 hu
      simp only [mres, h, Option.getD_some]
  have hok : ∀ M ∈ R.mirrors, M.disks.any (Import.usable rd found) = true → ∃ m u,
      mres M = .ok (m, P.disk S R M u) ∧ M.expected S (Import.usable rd found) R = some m ∧
      u ∈ M.disks ∧ Import.usable rd found u = true ∧
      S.txg u = newest S (Import.usable rd found) M := by
    intro M hM hu
    obtain ⟨m, u, h, h2⟩ := (hmr M hM).1 hu
    exact ⟨m, u, by simp only [mres, h, Option.getD_some], h2⟩
  have herr : ∀ M ∈ R.mirrors, M.disks.any (Import.usable rd found) = false → ∃ e,
      mres M = .error e := by
    intro M hM hu
    obtain ⟨e, h⟩ := (hmr M hM).2 hu
    exact ⟨e, by simp only [mres, h, Option.getD_some]⟩
  have hfr : R.usable (Import.usable rd found) = true →
      found.any (fun d => decide (d.raid.uuid = R.uuid)) = true := by
    intro h
    obtain ⟨M, hM, h⟩ := List.any_eq_true.mp h
    obtain ⟨u, h1, h2⟩ := List.any_eq_true.mp h
    unfold Import.usable at h2
    rw [Bool.and_eq_true] at h2
    obtain ⟨d, hd, h3⟩ := List.any_eq_true.mp h2.2
    have := found_disk hP hf hR hM h1 hd (by simpa using h3)
    refine List.any_eq_true.mpr ⟨d, hd, ?_⟩
    rw [this]
    simp [PoolT.disk, label_uuid]
  have hres : found.any (fun d => decide (d.raid.uuid = R.uuid)) = true →
      ∃ rs : List (Except Err (MDev × Disk)), rs.Perm (R.mirrors.map mres) ∧
        (importRaid rd ord (tasted found) R.uuid).1 =
          if oks rs = [] then some (.error (lastErr rs)) else (openRaid R.uuid (oks rs)).map .ok := by
    intro h
    refine ⟨arrive (ord R.uuid) (R.mirrors.map mres),
      arrive_perm (by rw [List.length_map]; exact ho.2.1 R hR), ?_⟩
    unfold importRaid
    rw [tasted_raid hP hf hR, if_pos h]
    simp only
    rw [label_children hP hR, mirrors_res
      (m := { tasted found with raids := (tasted found).raids.remove R.uuid }) hP hf hR
        (fun M _ => ⟨rfl, fun _ _ => rfl⟩), hsome, arrive_map, noPanic_map]
    rfl
  constructor
  · intro hu
    obtain ⟨rs, h1, h2⟩ := hres (hfr hu)
    have hmem : ∀ {p}, p ∈ oks rs ↔ ∃ M ∈ R.mirrors, mres M = .ok p := by
      intro p
      rw [mem_oks, h1.mem_iff, List.mem_map]
    have hne : oks rs ≠ [] := by
      obtain ⟨M, hM, h⟩ := List.any_eq_true.mp hu
      obtain ⟨m, u, h3, _⟩ := hok M hM h
      intro h4
      have := hmem.mpr ⟨M, hM, h3⟩
      rw [h4] at this
      simp at this
    -- what is in the list
    have hin : ∀ p ∈ oks rs, ∃ M ∈ R.mirrors, ∃ u ∈ M.disks,
        p.2 = P.disk S R M u ∧ M.expected S (Import.usable rd found) R = some p.1 ∧
        Import.usable rd found u = true ∧ S.txg u = newest S (Import.usable rd found) M := by
      intro p hp
      obtain ⟨M, hM, h⟩ := hmem.mp hp
      cases hx : M.disks.any (Import.usable rd found) with
      | true =>
        obtain ⟨m, u, h3, h4, h5, h6, h7⟩ := hok M hM hx
        rw [h3] at h
        cases h
        exact ⟨M, hM, u, h5, rfl, h4, h6, h7⟩
      | false =>
        obtain ⟨e, h3⟩ := herr M hM hx
        rw [h3] at h
        cases h
    have hexp : ∀ {M : MirrorT} {m : MDev}, M.expected S (Import.usable rd found) R = some m → m.uuid = M.uuid ∧
        m.geometry = some (R.size, R.lpz) := by
      intro M m h
      unfold MirrorT.expected at h
      split at h
      · next hx =>
        cases h
        refine ⟨rfl, ?_⟩
        obtain ⟨u, h1, h2⟩ := List.any_eq_true.mp hx
        unfold MDev.geometry
        simp only
        cases hfi : List.find? (fun c => decide (c.st ≠ .missing)) (M.disks.map fun u =>
          if Import.usable rd found u = true then
            (⟨u, if S.txg u = newest S (Import.usable rd found) M then .present else .rebuilding,
              R.size, R.lpz⟩ : Mirror.Child)
          else ⟨u, .missing, 0, 0⟩) with
        | none =>
          have := List.find?_eq_none.mp hfi _ (List.mem_map_of_mem h1)
          rw [h2] at this
          simp only [if_true] at this
          split at this <;> simp at this
        | some c =>
          have h3 := List.mem_of_find?_eq_some hfi
          have h4 := List.find?_some hfi
          obtain ⟨v, _, rfl⟩ := List.mem_map.mp h3
          cases hv : Import.usable rd found v with
          | true => simp
          | false => simp [hv] at h4
      · simp at h
    have hfind : ∀ M ∈ R.mirrors,
        ((oks rs).find? fun p => decide (p.1.uuid = M.uuid)).map (·.1) =
          M.expected S (Import.usable rd found) R := by
      intro M hM
      cases hfi : (oks rs).find? fun p => decide (p.1.uuid = M.uuid) with
      | some p =>
        have h3 := List.mem_of_find?_eq_some hfi
        have h4 : p.1.uuid = M.uuid := by simpa using List.find?_some hfi
        obtain ⟨M', hM', u, _, _, h5, _⟩ := hin p h3
        obtain rfl := mirror_inj hP hR hM' hM ((hexp h5).1.symm.trans h4)
        exact h5.symm
      | none =>
        cases hx : M.disks.any (Import.usable rd found) with
        | true =>
          obtain ⟨m, u, h3, h4, _⟩ := hok M hM hx
          have := List.find?_eq_none.mp hfi _ (hmem.mpr ⟨M, hM, h3⟩)
          simp [(hexp h4).1] at this
        | false =>
          unfold MirrorT.expected
          rw [hx]
          rfl
    rw [h2, if_neg hne]
    -- open it
    unfold openRaid
    rw [if_neg (by
      rw [List.any_eq_true]
      rintro ⟨p, hp, hx⟩
      obtain ⟨M, hM, u, _, h5, _⟩ := hin p hp
      rw [h5] at hx
      simp [PoolT.disk, label_uuid] at hx)]
    cases hl : oks rs with
    | nil => exact absurd hl hne
    | cons p ps =>
      obtain ⟨m, d⟩ := p
      obtain ⟨M, hM, u, h5, h6, h7, h8, h9⟩ := hin (m, d) (by rw [hl]; exact List.mem_cons_self ..)
      simp only at h6
      subst h6
      refine ⟨M, hM, u, h5, ?_, h8, h9⟩
      simp only
      cases hs : R.shape with
      | none =>
        have hlab : (P.disk S R M u).raid = .null R.uuid ((R.mirrors.head?.map (·.uuid)).getD 0) := by
          show R.label = _
          unfold RaidT.label
          rw [hs]
        rw [hlab]
        simp only
        have h1' := hP.single R hR hs
        have hlen : (oks rs).length ≤ 1 := by
          have h3 := h1.length_eq
          rw [List.length_map, h1'] at h3
          rw [← h3]
          exact List.length_filterMap_le ..
        have hps : ps = [] := by
          rw [hl] at hlen
          cases ps with
          | nil => rfl
          | cons _ _ => simp at hlen
        rw [if_pos hps]
        have hmir : R.mirrors = [M] := by
          cases hm : R.mirrors with
          | nil => rw [hm] at hM; simp at hM
          | cons M' Ms =>
            rw [hm] at h1' hM
            cases Ms with
            | nil => rcases List.mem_cons.mp hM with rfl | h; rfl; simp at h
            | cons _ _ => simp at h1'
        simp only [Option.map_some]
        unfold RaidT.expected
        rw [hs, hmir, (hexp h7).1]
        simp [h7]
      | some kf =>
        obtain ⟨k, f⟩ := kf
        have hlab : (P.disk S R M u).raid = .raid R.uuid (R.mirrors.map (·.uuid)) k f := by
          show R.label = _
          unfold RaidT.label
          rw [hs]
        rw [hlab]
        simp only
        have hch : ((R.mirrors.map (·.uuid)).map fun c =>
            (c, (((m, P.disk S R M u) :: ps).find? fun p => decide (p.1.uuid = c)).map (·.1))) =
            R.mirrors.map fun M => (M.uuid, M.expected S (Import.usable rd found) R) := by
          rw [List.map_map]
          refine List.map_congr_left fun M' hM' => ?_
          have := hfind M' hM'
          rw [hl] at this
          simp only [Function.comp_apply, this]
        rw [hch, if_neg (by
          have := hP.wide R hR k f hs
          simp only [List.length_map]
          omega)]
        have hgeo : ∀ g ∈ ((R.mirrors.map fun M =>
            (M.uuid, M.expected S (Import.usable rd found) R)).filterMap (·.2)).map MDev.geometry,
            g = some (R.size, R.lpz) := by
          intro g hg
          obtain ⟨x, hx, rfl⟩ := List.mem_map.mp hg
          obtain ⟨y, hy, hxy⟩ := List.mem_filterMap.mp hx
          obtain ⟨M', hM', rfl⟩ := List.mem_map.mp hy
          exact (hexp hxy).2
        cases hgs : ((R.mirrors.map fun M =>
            (M.uuid, M.expected S (Import.usable rd found) R)).filterMap (·.2)).map MDev.geometry with
        | nil =>
          have hx : m.geometry ∈ ((R.mirrors.map fun M =>
            (M.uuid, M.expected S (Import.usable rd found) R)).filterMap (·.2)).map MDev.geometry :=
            List.mem_map_of_mem (List.mem_filterMap.mpr
              ⟨(M.uuid, M.expected S (Import.usable rd found) R), List.mem_map_of_mem hM, h7⟩)
          rw [hgs] at hx
          simp at hx
        | cons g gs =>
          simp only
          rw [hgs] at hgeo
          rw [if_pos (by
            rw [List.all_eq_true]
            intro x hx
            rw [hgeo x (List.mem_cons_of_mem _ hx), hgeo g (List.mem_cons_self ..)]
            simp)]
          simp only [Option.map_some]
          unfold RaidT.expected
          rw [hs]
  · intro hu
    cases hm : found.any (fun d => decide (d.raid.uuid = R.uuid)) with
    | true =>
      obtain ⟨rs, h1, h2⟩ := hres hm
      have h3 : oks rs = [] := by
        apply List.eq_nil_iff_forall_not_mem.mpr
        intro p hp
        rw [mem_oks, h1.mem_iff, List.mem_map] at hp
        obtain ⟨M, hM, h⟩ := hp
        have : M.disks.any (Import.usable rd found) = false := by
          cases hx : M.disks.any (Import.usable rd found) with
          | false => rfl
          | true =>
            have : R.usable (Import.usable rd found) = true := List.any_eq_true.mpr ⟨M, hM, hx⟩
            rw [hu] at this
            simp at this
        obtain ⟨e, he⟩ := herr M hM this
        rw [he] at h
        cases h
      rw [h2, if_pos h3]
      exact ⟨_, rfl⟩
    | false =>
      unfold importRaid
      rw [tasted_raid hP hf hR, hm]
      exact ⟨_, rfl⟩

theorem allOk_ok {α : Type} (ps : List α) : allOk (ps.map (Except.ok (ε := Err))) = .ok ps := by
  induction ps with
  | nil => rfl
  | cons p ps ih => simp only [List.map_cons, allOk, ih]

theorem allOk_error {α : Type} : ∀ (rs : List (Except Err α)) (e : Err), Except.error e ∈ rs →
    ∃ e', allOk rs = .error e'
  | [], _, h => by simp at h
  | .error e' :: rs, _, _ => ⟨e', rfl⟩
  | .ok a :: rs, e, h => by
    obtain ⟨e', h'⟩ := allOk_error rs e (by simpa using h)
    exact ⟨e', by simp only [allOk, h']⟩

/-- Importing a pool. -/
theorem pool_result (hP : P.Ok) (hf : Found P S found) (ho : P.Arrivals ord) :
    ((∀ R ∈ P.raids, R.usable (usable rd found) = true) →
      ∃ R ∈ P.raids, ∃ M ∈ R.mirrors, ∃ u ∈ M.disks,
        (importPool rd ord (tasted found) P.uuid).1 =
          some (.ok ⟨P.uuid, P.name, P.raids.map (·.expected S (usable rd found)), S.rest u⟩) ∧
        usable rd found u = true ∧ S.txg u = newest S (usable rd found) M) ∧
    ((∃ R ∈ P.raids, R.usable (usable rd found) = false) →
      ∃ e, (importPool rd ord (tasted found) P.uuid).1 = some (.error e)) := by
  have hrr := fun R (hR : R ∈ P.raids) => raid_result (rd := rd) (ord := ord) hP hf hR ho
  let rres : RaidT → Except Err (RDev × Disk) := fun R =>
    ((importRaid rd ord (tasted found) R.uuid).1).getD (.error .enoent)
  have hsome : (P.raids.map fun R => (importRaid rd ord (tasted found) R.uuid).1) =
      (P.raids.map rres).map some := by
    rw [List.map_map]
    refine List.map_congr_left fun R hR => ?_
    show _ = some (rres R)
    cases hu : R.usable (usable rd found) with
    | true =>
      obtain ⟨_, _, _, _, h, _⟩ := (hrr R hR).1 hu
      simp only [rres, h, Option.getD_some]
    | false =>
      obtain ⟨e, h⟩ := (hrr R hR).2 hu
      simp only [rres, h, Option.getD_some]
  have hres : found.any (fun d => decide (d.pool.uuid = P.uuid)) = true →
      ∃ rs : List (Except Err (RDev × Disk)), rs.Perm (P.raids.map rres) ∧
        (importPool rd ord (tasted found) P.uuid).1 =
          match allOk rs with
          | .error e => some (.error e)
          | .ok ps => (openPool P.uuid ps).map .ok := by
    intro h
    refine ⟨arrive (ord P.uuid) (P.raids.map rres),
      arrive_perm (by rw [List.length_map]; exact ho.1), ?_⟩
    unfold importPool
    rw [tasted_pool hf, if_pos h]
    simp only
    rw [raids_res (m := { tasted found with pools := OMap.remove (tasted found).pools P.uuid }) hP hf
        (fun R _ => ⟨rfl, fun M _ => ⟨rfl, fun _ _ => rfl⟩⟩), hsome, arrive_map, noPanic_map]
    rfl
  constructor
  · intro hu
    -- every RAID device's result
    have hok : ∀ R ∈ P.raids, ∃ M ∈ R.mirrors, ∃ u ∈ M.disks,
        rres R = .ok (R.expected S (usable rd found), P.disk S R M u) ∧
        usable rd found u = true ∧ S.txg u = newest S (usable rd found) M := by
      intro R hR
      obtain ⟨M, hM, u, h1, h2, h3⟩ := (hrr R hR).1 (hu R hR)
      exact ⟨M, hM, u, h1, by simp only [rres, h2, Option.getD_some], h3⟩
    have hfp : found.any (fun d => decide (d.pool.uuid = P.uuid)) = true := by
      cases hr : P.raids with
      | nil => exact absurd hr hP.raids_ne
      | cons R Rs =>
        have hR : R ∈ P.raids := by rw [hr]; exact List.mem_cons_self ..
        obtain ⟨M, hM, u, h1, _, h2, _⟩ := hok R hR
        unfold usable at h2
        rw [Bool.and_eq_true] at h2
        obtain ⟨d, hd, h3⟩ := List.any_eq_true.mp h2.2
        have := found_disk hP hf hR hM h1 hd (by simpa using h3)
        refine List.any_eq_true.mpr ⟨d, hd, ?_⟩
        rw [this]
        simp [PoolT.disk]
    obtain ⟨rs, h1, h2⟩ := hres hfp
    have hrs : ∃ ps : List (RDev × Disk), rs = ps.map .ok := by
      have : ∀ r ∈ rs, ∃ p, r = Except.ok p := by
        intro r hr
        obtain ⟨R, hR, rfl⟩ := List.mem_map.mp (h1.mem_iff.mp hr)
        obtain ⟨_, _, _, _, h, _⟩ := hok R hR
        exact ⟨_, h⟩
      clear h1 h2
      induction rs with
      | nil => exact ⟨[], rfl⟩
      | cons r rs ih =>
        obtain ⟨ps, rfl⟩ := ih fun r hr => this r (List.mem_cons_of_mem _ hr)
        obtain ⟨p, rfl⟩ := this r (List.mem_cons_self ..)
        exact ⟨p :: ps, rfl⟩
    obtain ⟨ps, rfl⟩ := hrs
    rw [allOk_ok] at h2
    simp only at h2
    have hin : ∀ p, p ∈ ps ↔ ∃ R ∈ P.raids, rres R = .ok p := by
      intro p
      rw [← List.mem_map, ← h1.mem_iff]
      simp
    have hin' : ∀ p ∈ ps, ∃ R ∈ P.raids, ∃ M ∈ R.mirrors, ∃ u ∈ M.disks,
        p = (R.expected S (usable rd found), P.disk S R M u) ∧
        usable rd found u = true ∧ S.txg u = newest S (usable rd found) M := by
      intro p hp
      obtain ⟨R, hR, h⟩ := (hin p).mp hp
      obtain ⟨M, hM, u, h3, h4, h5⟩ := hok R hR
      rw [h4] at h
      cases h
      exact ⟨R, hR, M, hM, u, h3, rfl, h5⟩
    have hlen : ps.length = P.raids.length := by
      have := h1.length_eq
      simpa using this
    have hfind : ∀ R ∈ P.raids, (ps.find? fun p => decide (p.1.uuid = R.uuid)).map (·.1) =
        some (R.expected S (usable rd found)) := by
      intro R hR
      cases hfi : ps.find? fun p => decide (p.1.uuid = R.uuid) with
      | some p =>
        have h3 := List.mem_of_find?_eq_some hfi
        have h4 : p.1.uuid = R.uuid := by simpa using List.find?_some hfi
        obtain ⟨R', hR', M, hM, u, _, rfl, _⟩ := hin' p h3
        obtain rfl := raid_inj hP hR' hR h4
        rfl
      | none =>
        obtain ⟨M, hM, u, _, h4, _⟩ := hok R hR
        have := List.find?_eq_none.mp hfi _ ((hin _).mpr ⟨R, hR, h4⟩)
        simp [RaidT.expected] at this
    cases hps : ps with
    | nil =>
      rw [hps] at hlen
      exact absurd (List.length_eq_zero_iff.mp hlen.symm) hP.raids_ne
    | cons p qs =>
      obtain ⟨R, hR, M, hM, u, h3, h4, h5, h6⟩ := hin' p (by rw [hps]; exact List.mem_cons_self ..)
      refine ⟨R, hR, M, hM, u, h3, ?_, h5, h6⟩
      rw [h2]
      unfold openPool
      rw [if_neg (by
        rw [List.any_eq_true]
        rintro ⟨q, hq, hx⟩
        obtain ⟨_, _, _, _, _, _, rfl, _⟩ := hin' q hq
        simp [PoolT.disk] at hx)]
      have hch : noPanic ((P.raids.map (·.uuid)).map fun c =>
          (ps.find? fun p => decide (p.1.uuid = c)).map (·.1)) =
          some (P.raids.map (·.expected S (usable rd found))) := by
        rw [← noPanic_map, List.map_map, List.map_map]
        congr 1
        exact List.map_congr_left hfind
      rw [hps] at hch hlen
      obtain ⟨r, d⟩ := p
      obtain ⟨-, hd⟩ := Prod.mk.inj h4
      have hdp : d.pool = ⟨P.uuid, P.name, P.raids.map (·.uuid)⟩ := by rw [hd]; rfl
      have hdr : d.rest = S.rest u := by rw [hd]; rfl
      rw [hps]
      simp only
      rw [if_neg (by rw [hdp, List.length_map]; simpa using hlen), hdp, hch, hdr]
      rfl
  · rintro ⟨R, hR, hu⟩
    cases hm : found.any (fun d => decide (d.pool.uuid = P.uuid)) with
    | true =>
      obtain ⟨rs, h1, h2⟩ := hres hm
      obtain ⟨e, he⟩ := (hrr R hR).2 hu
      obtain ⟨e', he'⟩ := allOk_error rs e (h1.mem_iff.mpr (List.mem_map.mpr
        ⟨R, hR, by simp only [rres, he, Option.getD_some]⟩))
      rw [h2, he']
      exact ⟨_, rfl⟩
    | false =>
      unfold importPool
      rw [tasted_pool hf, hm]
      exact ⟨_, rfl⟩

end

end Verif.Import
