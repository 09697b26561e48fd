import Verif.Import.Spec
import Verif.Mirror.Session

/-!
# Lemmas for importing pools
-/

namespace Verif.Import

open Verif

/-! ## Lists -/

theorem arrive_range {R : Type} (rs : List R) : arrive (List.range rs.length) rs = rs := by
  unfold arrive
  induction rs with
  | nil => rfl
  | cons r rs ih =>
    rw [List.length_cons, List.range_succ_eq_map, List.filterMap_cons]
    simp only [List.getElem?_cons_zero, List.filterMap_map]
    congr 1

theorem arrive_perm {R : Type} {ord : List Nat} {rs : List R}
    (h : ord.Perm (List.range rs.length)) : (arrive ord rs).Perm rs := by
  have h1 : (arrive ord rs).Perm (arrive (List.range rs.length) rs) := h.filterMap _
  rwa [arrive_range] at h1

theorem arrive_map {R R' : Type} (g : R → R') (ord : List Nat) (rs : List R) :
    arrive ord (rs.map g) = (arrive ord rs).map g := by
  unfold arrive
  induction ord with
  | nil => rfl
  | cons i ord ih =>
    simp only [List.filterMap_cons, List.getElem?_map]
    cases rs[i]? with
    | none => simpa using ih
    | some a => simpa using ih

theorem noPanic_map {α : Type} (rs : List α) : noPanic (rs.map some) = some rs := by
  induction rs with
  | nil => rfl
  | cons a rs ih => simp [noPanic, ih]

theorem oks_perm {ε α : Type} {a b : List (Except ε α)} (h : a.Perm b) : (oks a).Perm (oks b) :=
  h.filterMap _

theorem mem_oks {ε α : Type} {a : α} {rs : List (Except ε α)} : a ∈ oks rs ↔ .ok a ∈ rs := by
  unfold oks
  rw [List.mem_filterMap]
  constructor
  · rintro ⟨r, hr, h⟩
    cases r with
    | ok b => cases h; exact hr
    | error e => cases h
  · exact fun h => ⟨_, h, rfl⟩

/-! ## Taking things out of the maps -/

theorem importAll_res {R : Type} {f : Mgr → Nat → R × Mgr} {res : Nat → R}
    {ok : Mgr → Nat → Prop} : ∀ (us : List Nat) (m : Mgr), us.Nodup →
      (∀ m u, u ∈ us → ok m u → (f m u).1 = res u) →
      (∀ m u v, u ∈ us → v ∈ us → u ≠ v → ok m u → ok m v → ok (f m u).2 v) → (∀ u ∈ us, ok m u) →
      (importAll f m us).1 = us.map res := by
  intro us
  induction us with
  | nil => intros; rfl
  | cons u us ih =>
    intro m hnd h1 h2 h3
    rw [List.nodup_cons] at hnd
    simp only [importAll, List.map_cons]
    rw [h1 m u (List.mem_cons_self ..) (h3 u (List.mem_cons_self ..))]
    rw [ih (f m u).2 hnd.2 (fun m v hv => h1 m v (List.mem_cons_of_mem _ hv))
      (fun m v w hv hw => h2 m v w (List.mem_cons_of_mem _ hv) (List.mem_cons_of_mem _ hw))
      (fun v hv => h2 m u v (List.mem_cons_self ..) (List.mem_cons_of_mem _ hv)
        (fun h => hnd.1 (h ▸ hv)) (h3 u (List.mem_cons_self ..)) (h3 v (List.mem_cons_of_mem _ hv)))]

theorem importAll_keep {R : Type} {f : Mgr → Nat → R × Mgr} {Q : Mgr → Prop} :
    ∀ (us : List Nat) (m : Mgr), (∀ m u, u ∈ us → Q m → Q (f m u).2) → Q m →
      Q (importAll f m us).2 := by
  intro us
  induction us with
  | nil => exact fun m _ h => h
  | cons u us ih =>
    intro m h1 h2
    simp only [importAll]
    exact ih _ (fun m v hv => h1 m v (List.mem_cons_of_mem _ hv)) (h1 m u (List.mem_cons_self ..) h2)

/-- Two managers agree on some disks, mirrors and RAID devices. -/
structure Same (m m' : Mgr) (ds ms rs : Nat → Prop) : Prop where
  devices : ∀ u, ds u → m.devices u = m'.devices u
  mirrors : ∀ u, ms u → m.mirrors u = m'.mirrors u
  raids : ∀ u, rs u → m.raids u = m'.raids u

theorem leaf_res {rd : Nat → Bool} {m t : Mgr} {u : Nat} (h : m.devices u = t.devices u) :
    (importLeaf rd m u).1 = (importLeaf rd t u).1 := by
  unfold importLeaf
  rw [h]
  cases t.devices u <;> rfl

theorem leaf_keep {rd : Nat → Bool} {m t : Mgr} {u : Nat} {ds ms rs : Nat → Prop} (hu : ¬ ds u)
    (h : Same m t ds ms rs) : Same (importLeaf rd m u).2 t ds ms rs := by
  unfold importLeaf
  cases m.devices u with
  | none => exact h
  | some d =>
    refine ⟨fun v hv => ?_, h.mirrors, h.raids⟩
    show (if v = u then none else m.devices v) = _
    rw [if_neg (fun (he : v = u) => hu (he ▸ hv))]
    exact h.devices v hv

theorem leaves_res {rd : Nat → Bool} {m t : Mgr} {us : List Nat} (hnd : us.Nodup)
    (h : ∀ u ∈ us, m.devices u = t.devices u) :
    (importAll (importLeaf rd) m us).1 = us.map fun u => (importLeaf rd t u).1 := by
  refine importAll_res (ok := fun m u => m.devices u = t.devices u) us m hnd
    (fun m u _ hu => leaf_res hu) (fun m u v _ _ hne _ hv => ?_) h
  have := leaf_keep (rd := rd) (u := u) (ds := fun x => x = v) (ms := fun _ => False)
    (rs := fun _ => False) (m := m) (t := t) hne
    ⟨fun x hx => hx ▸ hv, fun _ h => h.elim, fun _ h => h.elim⟩
  exact this.devices v rfl

theorem mirror_res {rd : Nat → Bool} {ord : Nat → List Nat} {m t : Mgr} {u : Nat}
    {cs : List Nat} (hnd : cs.Nodup) (h1 : m.mirrors u = t.mirrors u)
    (h2 : ∀ l, t.mirrors u = some l → l = cs) (h3 : ∀ v ∈ cs, m.devices v = t.devices v) :
    (importMirror rd ord m u).1 = (importMirror rd ord t u).1 := by
  unfold importMirror
  rw [h1]
  cases ht : t.mirrors u with
  | none => rfl
  | some l =>
    rw [h2 l ht]
    simp only
    rw [leaves_res hnd (t := t) (m := { m with mirrors := m.mirrors.remove u }) h3,
      leaves_res hnd (t := t) (m := { t with mirrors := t.mirrors.remove u }) (fun _ _ => rfl)]

theorem mirror_keep {rd : Nat → Bool} {ord : Nat → List Nat} {m t : Mgr} {u : Nat}
    {cs : List Nat} {ds ms rs : Nat → Prop} (h1 : ∀ l, m.mirrors u = some l → l = cs)
    (hu : ¬ ms u) (hc : ∀ v ∈ cs, ¬ ds v) (h : Same m t ds ms rs) :
    Same (importMirror rd ord m u).2 t ds ms rs := by
  unfold importMirror
  cases hm : m.mirrors u with
  | none => exact h
  | some l =>
    rw [h1 l hm]
    simp only
    refine importAll_keep (Q := fun m => Same m t ds ms rs) cs _ (fun m v hv => leaf_keep (hc v hv)) ?_
    refine ⟨h.devices, fun v hv => ?_, h.raids⟩
    show (if v = u then none else m.mirrors v) = _
    rw [if_neg (fun (he : v = u) => hu (he ▸ hv))]
    exact h.mirrors v hv

/-- Importing never adds anything. -/
theorem leaf_sub (rd : Nat → Bool) (m : Mgr) (u : Nat) :
    (importLeaf rd m u).2.mirrors = m.mirrors ∧ (importLeaf rd m u).2.raids = m.raids := by
  unfold importLeaf
  cases m.devices u <;> exact ⟨rfl, rfl⟩

theorem mirror_sub (rd : Nat → Bool) (ord : Nat → List Nat) (m : Mgr) (u : Nat) :
    (∀ v l, (importMirror rd ord m u).2.mirrors v = some l → m.mirrors v = some l) ∧
      (importMirror rd ord m u).2.raids = m.raids := by
  unfold importMirror
  cases hm : m.mirrors u with
  | none => exact ⟨fun _ _ h => h, rfl⟩
  | some cs =>
    simp only
    have h := importAll_keep (f := importLeaf rd)
      (Q := fun m' => m'.mirrors = m.mirrors.remove u ∧ m'.raids = m.raids) cs
      { m with mirrors := m.mirrors.remove u }
      (fun m' v _ h => ⟨(leaf_sub rd m' v).1.trans h.1, (leaf_sub rd m' v).2.trans h.2⟩) ⟨rfl, rfl⟩
    refine ⟨fun v l hv => ?_, h.2⟩
    rw [h.1] at hv
    unfold Map.remove at hv
    split at hv
    · simp at hv
    · exact hv

/-! ## Tasting -/

theorem foldl_insert {α : Type} (found : List Disk) (key : Disk → Nat) (val : Disk → α) (m : Map α)
    (u : Nat) (v : α) (h : ∀ d ∈ found, key d = u → val d = v) :
    (found.foldl (fun m d => Map.insert m (key d) (val d)) m) u =
      if found.any (fun d => decide (key d = u)) then some v else m u := by
  induction found generalizing m with
  | nil => rfl
  | cons d ds ih =>
    rw [List.foldl_cons, ih _ (fun d hd => h d (List.mem_cons_of_mem _ hd)), List.any_cons]
    by_cases hk : key d = u
    · have := h d (List.mem_cons_self ..) hk
      simp only [hk, decide_true, Bool.true_or, if_true, Map.insert, this]
      split <;> rfl
    · have hk' : ¬ u = key d := fun h => hk h.symm
      simp only [hk, decide_false, Bool.false_or, Map.insert, if_neg hk']

theorem tasted_fields (found : List Disk) (m : Mgr) :
    (found.foldl Mgr.taste m).devices =
      found.foldl (fun m d => Map.insert m d.uuid d) m.devices ∧
    (found.foldl Mgr.taste m).mirrors =
      found.foldl (fun m d => Map.insert m d.mirror d.siblings) m.mirrors ∧
    (found.foldl Mgr.taste m).raids =
      found.foldl (fun m d => Map.insert m d.raid.uuid d.raid) m.raids ∧
    (found.foldl Mgr.taste m).pools =
      found.foldl (fun m d => OMap.insert m d.pool.uuid d.pool) m.pools := by
  induction found generalizing m with
  | nil => exact ⟨rfl, rfl, rfl, rfl⟩
  | cons d ds ih => exact ih (m.taste d)

theorem pools_get (found : List Disk) (m : OMap PoolLabel) (u : Nat) (v : PoolLabel)
    (h : ∀ d ∈ found, d.pool.uuid = u → d.pool = v) :
    OMap.get (found.foldl (fun m d => OMap.insert m d.pool.uuid d.pool) m) u =
      if found.any (fun d => decide (d.pool.uuid = u)) then some v else OMap.get m u := by
  induction found generalizing m with
  | nil => rfl
  | cons d ds ih =>
    rw [List.foldl_cons, ih _ (fun d hd => h d (List.mem_cons_of_mem _ hd)), List.any_cons,
      OMap.get_insert]
    by_cases hk : d.pool.uuid = u
    · have := h d (List.mem_cons_self ..) hk
      have hv : v.uuid = u := this ▸ hk
      simp [this, hv]
    · simp only [hk, decide_false, Bool.false_or]
      split
      · rfl
      · rw [if_neg]
        first
          | exact hk
          | exact fun h => hk h.symm

end Verif.Import
