import Verif.Import.Steps

/-!
# Importing other pools first

Importing another pool takes nothing away that this one needs.
-/

namespace Verif.Import

open Verif

/-- Uuids of block devices, mirrors, RAID devices and pools. -/
structure Keys where
  dev : Nat → Prop
  mir : Nat → Prop
  raid : Nat → Prop
  pool : Nat → Prop

/-- Nothing outside of `K` leads into it, in `m`. -/
structure Closed (K : Keys) (m : Mgr) : Prop where
  mirrors : ∀ u l, ¬ K.mir u → m.mirrors u = some l → ∀ v ∈ l, ¬ K.dev v
  raids : ∀ u l, ¬ K.raid u → m.raids u = some l → ∀ v ∈ l.children, ¬ K.mir v
  pools : ∀ u l, ¬ K.pool u → OMap.get m.pools u = some l → ∀ v ∈ l.children, ¬ K.raid v

/-- `m` knows of `K` what `t` knows. -/
structure Agree (K : Keys) (t m : Mgr) : Prop where
  devices : ∀ u, K.dev u → m.devices u = t.devices u
  mirrors : ∀ u, K.mir u → m.mirrors u = t.mirrors u
  raids : ∀ u, K.raid u → m.raids u = t.raids u
  pools : ∀ u, K.pool u → OMap.get m.pools u = OMap.get t.pools u

variable {K : Keys} {t m : Mgr} {rd : Nat → Bool} {ord : Nat → List Nat}

theorem remove_some {α : Type} {f : Map α} {k u : Nat} {l : α} (h : f.remove k u = some l) :
    f u = some l := by
  unfold Map.remove at h
  split at h
  · simp at h
  · exact h

theorem remove_ne {α : Type} {f : Map α} {k u : Nat} (h : u ≠ k) : f.remove k u = f u :=
  if_neg h

theorem other_leaf (u : Nat) (hu : ¬ K.dev u) (h : Closed K m ∧ Agree K t m) :
    Closed K (importLeaf rd m u).2 ∧ Agree K t (importLeaf rd m u).2 := by
  unfold importLeaf
  cases m.devices u with
  | none => exact h
  | some d =>
    refine ⟨⟨h.1.mirrors, h.1.raids, h.1.pools⟩, ⟨fun v hv => ?_, h.2.mirrors, h.2.raids, h.2.pools⟩⟩
    exact (remove_ne fun (he : v = u) => hu (he ▸ hv)).trans (h.2.devices v hv)

theorem other_mirror (u : Nat) (hu : ¬ K.mir u) (h : Closed K m ∧ Agree K t m) :
    Closed K (importMirror rd ord m u).2 ∧ Agree K t (importMirror rd ord m u).2 := by
  unfold importMirror
  cases hm : m.mirrors u with
  | none => exact h
  | some l =>
    simp only
    refine importAll_keep (f := importLeaf rd) (Q := fun m => Closed K m ∧ Agree K t m) l _
      (fun m v hv hQ => other_leaf v (h.1.mirrors u l hu hm v hv) hQ) ⟨?_, ?_⟩
    · exact ⟨fun v l' hv hl => h.1.mirrors v l' hv (remove_some hl), h.1.raids, h.1.pools⟩
    · exact ⟨h.2.devices, fun v hv => (remove_ne fun (he : v = u) => hu (he ▸ hv)).trans
        (h.2.mirrors v hv), h.2.raids, h.2.pools⟩

theorem other_raid (u : Nat) (hu : ¬ K.raid u) (h : Closed K m ∧ Agree K t m) :
    Closed K (importRaid rd ord m u).2 ∧ Agree K t (importRaid rd ord m u).2 := by
  unfold importRaid
  cases hm : m.raids u with
  | none => exact h
  | some l =>
    simp only
    refine importAll_keep (f := importMirror rd ord) (Q := fun m => Closed K m ∧ Agree K t m)
      l.children _ (fun m v hv hQ => other_mirror v (h.1.raids u l hu hm v hv) hQ) ⟨?_, ?_⟩
    · exact ⟨h.1.mirrors, fun v l' hv hl => h.1.raids v l' hv (remove_some hl), h.1.pools⟩
    · exact ⟨h.2.devices, h.2.mirrors, fun v hv =>
        (remove_ne fun (he : v = u) => hu (he ▸ hv)).trans (h.2.raids v hv), h.2.pools⟩

theorem other_pool (u : Nat) (hu : ¬ K.pool u) (h : Closed K m ∧ Agree K t m) :
    Closed K (importPool rd ord m u).2 ∧ Agree K t (importPool rd ord m u).2 := by
  unfold importPool
  cases hm : OMap.get m.pools u with
  | none => exact h
  | some l =>
    simp only
    refine importAll_keep (f := importRaid rd ord) (Q := fun m => Closed K m ∧ Agree K t m)
      l.children _ (fun m v hv hQ => other_raid v (h.1.pools u l hu hm v hv) hQ) ⟨?_, ?_⟩
    · refine ⟨h.1.mirrors, h.1.raids, fun v l' hv hl => ?_⟩
      by_cases he : v = u
      · rw [OMap.get_remove, if_pos he] at hl
        simp at hl
      · rw [OMap.get_remove, if_neg he] at hl
        exact h.1.pools v l' hv hl
    · refine ⟨h.2.devices, h.2.mirrors, h.2.raids, fun v hv => ?_⟩
      show OMap.get (OMap.remove m.pools u) v = _
      rw [OMap.get_remove, if_neg fun (he : v = u) => hu (he ▸ hv)]
      exact h.2.pools v hv

/-- The devices of a pool. -/
def PoolT.keys (P : PoolT) : Keys where
  dev u := ∃ R ∈ P.raids, ∃ M ∈ R.mirrors, u ∈ M.disks
  mir u := ∃ R ∈ P.raids, ∃ M ∈ R.mirrors, u = M.uuid
  raid u := ∃ R ∈ P.raids, u = R.uuid
  pool u := u = P.uuid

/-- Tasting disks whose labels do not lead from elsewhere into `K`. -/
theorem closed_taste (d : Disk) (h : Closed K m)
    (h1 : ¬ K.mir d.mirror → ∀ v ∈ d.siblings, ¬ K.dev v)
    (h2 : ¬ K.raid d.raid.uuid → ∀ v ∈ d.raid.children, ¬ K.mir v)
    (h3 : ¬ K.pool d.pool.uuid → ∀ v ∈ d.pool.children, ¬ K.raid v) : Closed K (m.taste d) := by
  refine ⟨fun u l hu hl => ?_, fun u l hu hl => ?_, fun u l hu hl => ?_⟩
  · simp only [Mgr.taste, Map.insert] at hl
    split at hl
    · next he => cases hl; exact h1 (he ▸ hu)
    · exact h.mirrors u l hu hl
  · simp only [Mgr.taste, Map.insert] at hl
    split at hl
    · next he => cases hl; exact h2 (he ▸ hu)
    · exact h.raids u l hu hl
  · simp only [Mgr.taste] at hl
    rw [OMap.get_insert] at hl
    split at hl
    · next he => cases hl; exact h3 (he ▸ hu)
    · exact h.pools u l hu hl

theorem closed_tasted {P : PoolT} {S : State} (found : List Disk) (m : Mgr) (h : Closed P.keys m)
    (hf : ∀ d ∈ found, P.Has S d ∨ P.Apart d) : Closed P.keys (found.foldl Mgr.taste m) := by
  induction found generalizing m with
  | nil => exact h
  | cons d ds ih =>
    refine ih _ ?_ fun d' hd => hf d' (List.mem_cons_of_mem _ hd)
    rcases hf d (List.mem_cons_self ..) with ⟨R, hR, M, hM, hu, he⟩ | hx
    · refine closed_taste d h (fun hn => absurd ⟨R, hR, M, hM, by rw [he]; rfl⟩ hn)
        (fun hn => absurd ⟨R, hR, by rw [he]; exact label_uuid R⟩ hn)
        (fun hn => absurd (show d.pool.uuid = P.uuid by rw [he]; rfl) hn)
    · refine closed_taste d h (fun _ v hv ⟨R, hR, M, hM, h⟩ => hx.siblings v hv R hR M hM h)
        (fun _ v hv ⟨R, hR, M, hM, h⟩ => hx.mirrors v hv R hR M hM h)
        (fun _ v hv ⟨R, hR, h⟩ => hx.raids v hv R hR h)

/-- Importing other pools first changes nothing. -/
theorem others_first {P : PoolT} {S : State} {found : List Disk} (hP : P.Ok)
    (hf : ∀ d ∈ found, P.Has S d ∨ P.Apart d) (us : List Nat) (hu : P.uuid ∉ us) :
    (importPool rd ord (importAll (importPool rd ord) (tasted found) us).2 P.uuid).1 =
      (importPool rd ord (tasted found) P.uuid).1 := by
  have hf' : Found P S found := fun d hd => (hf d hd).imp id (·.foreign)
  have hk := importAll_keep (f := importPool rd ord)
    (Q := fun m => Closed P.keys m ∧ Agree P.keys (tasted found) m) us (tasted found)
    (fun m v hv hQ => other_pool v (fun (he : v = P.uuid) => hu (he ▸ hv)) hQ)
    ⟨closed_tasted found Mgr.empty ⟨fun _ _ _ h => (by cases h), fun _ _ _ h => (by cases h),
      fun _ _ _ h => (by cases h)⟩ hf, fun _ _ => rfl, fun _ _ => rfl, fun _ _ => rfl, fun _ _ => rfl⟩
  generalize (importAll (importPool rd ord) (tasted found) us).2 = m at hk
  obtain ⟨-, hk⟩ := hk
  have ht := tasted_pool hf'
  unfold importPool
  rw [hk.pools P.uuid rfl]
  cases hp : OMap.get (tasted found).pools P.uuid with
  | none => rfl
  | some l =>
    have : l = ⟨P.uuid, P.name, P.raids.map (·.uuid)⟩ := by
      rw [ht] at hp
      split at hp
      · cases hp; rfl
      · simp at hp
    subst this
    simp only
    rw [raids_res (m := { m with pools := OMap.remove m.pools P.uuid }) hP hf'
        (fun R hR => ⟨hk.raids _ ⟨R, hR, rfl⟩, fun M hM =>
          ⟨hk.mirrors _ ⟨R, hR, M, hM, rfl⟩, fun u hu => hk.devices _ ⟨R, hR, M, hM, hu⟩⟩⟩),
      raids_res (m := { tasted found with pools := OMap.remove (tasted found).pools P.uuid }) hP hf'
        (fun R _ => ⟨rfl, fun M _ => ⟨rfl, fun _ _ => rfl⟩⟩)]

end Verif.Import
