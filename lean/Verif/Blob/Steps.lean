import Verif.Blob.Lemmas

/-! The tree operations, with flushes, are those of a plain map. -/

namespace Verif.Blob
open Verif (OMap)
open OMap
open Spec (Plain)

variable {N : Type}

/-- A data management layer that is not in use by the tree yet. -/
def Fresh (d0 : Dml) : Prop := ∀ r, d0.next ≤ r → d0.recs.get r = none

/-- The tree's records are accounted for. -/
structure Good (d0 : Dml) (s : St N) : Prop where
  fresh : Fresh d0
  sorted : Sorted s.tree
  inv : Inv d0 s.dml (treeRefs s.tree)

theorem sorted_of_keys {V W : Type} {m : OMap V} {n : OMap W} (h : m.map (·.1) = n.map (·.1))
    (hs : Sorted n) : Sorted m := by
  have h1 : (n.map (·.1)).Pairwise (· < ·) := List.pairwise_map.2 hs
  rw [← h] at h1
  exact List.pairwise_map.1 h1

theorem flush_good {d0 : Dml} {s : St N} (h : Good d0 s) (p : Nat → Bool) :
    Good d0 (flush p s) ∧ view (flush p s) = view s := by
  have := flushItems_spec p s.tree (d := s.dml) (L := []) (by simpa using h.inv)
  refine ⟨⟨h.fresh, sorted_of_keys this.2.2.2 h.sorted, ?_⟩, this.2.2.1⟩
  simpa [flush] using this.1

theorem flush_ext {d0 : Dml} {s : St N} (h : Good d0 s) (p : Nat → Bool) :
    Ext s.dml (flush p s).dml :=
  (flushItems_spec p s.tree (d := s.dml) (L := []) (by simpa using h.inv)).2.1

/-! Where the records of a tree are. -/

theorem perm_remove {t : OMap (Val N)} (hs : Sorted t) {k : Nat} {v : Val N}
    (hg : OMap.get t k = some v) : (treeRefs t).Perm (lrefs v ++ treeRefs (OMap.remove t k)) := by
  induction t with
  | nil => simp at hg
  | cons e t ih =>
    obtain ⟨k', v'⟩ := e
    simp only [OMap.get] at hg
    split at hg
    · rename_i hk
      subst hk
      obtain rfl : v' = v := by simpa using hg
      have hn : OMap.get t k' = none := by
        cases hx : OMap.get t k' with
        | none => rfl
        | some w =>
          have := List.rel_of_pairwise_cons hs (mem_of_get hx)
          simp at this
      have : OMap.remove ((k', v') :: t) k' = t := by
        have := remove_of_none hn
        simp only [OMap.remove] at this ⊢
        rw [List.filter_cons]
        simp only [ne_eq, not_true_eq_false, decide_false, Bool.false_eq_true, if_false]
        exact this
      rw [this]
      simp [treeRefs]
    · rename_i hk
      have h1 := ih hs.tail hg
      have : OMap.remove ((k', v') :: t) k = (k', v') :: OMap.remove t k := by
        simp only [OMap.remove, List.filter_cons]
        rw [if_pos (by simpa using hk)]
      rw [this]
      simp only [treeRefs, List.flatMap_cons] at h1 ⊢
      exact (List.Perm.append_left _ h1).trans (perm_swap3 _ _ _)

theorem perm_insert {t : OMap (Val N)} (hs : Sorted t) (k : Nat) (v : Val N) :
    (treeRefs (OMap.insert t k v)).Perm (lrefs v ++ treeRefs (OMap.remove t k)) := by
  have h1 := perm_remove (hs.insert k v) (k := k) (v := v) (by simp [get_insert])
  have h2 : OMap.remove (OMap.insert t k v) k = OMap.remove t k := by
    apply OMap.ext ((hs.insert k v).remove k) (hs.remove k)
    intro k'
    simp only [get_remove, get_insert]
    split <;> rfl
  rwa [h2] at h1

theorem perm_filter (t : OMap (Val N)) (p : Nat × Val N → Bool) :
    (treeRefs t).Perm (treeRefs (t.filter p) ++ treeRefs (t.filter fun e => !p e)) := by
  induction t with
  | nil => exact List.Perm.refl _
  | cons e t ih =>
    simp only [treeRefs, List.filter_cons, List.flatMap_cons] at ih ⊢
    cases hp : p e
    · simp only [Bool.not_false, if_true, Bool.false_eq_true, if_false, List.flatMap_cons]
      exact (List.Perm.append_left _ ih).trans (perm_swap3 _ _ _)
    · simp only [Bool.not_true, if_true, Bool.false_eq_true, if_false, List.flatMap_cons,
        List.append_assoc]
      exact List.Perm.append_left _ ih

theorem mem_treeRefs {t : OMap (Val N)} {k : Nat} {v : Val N} (h : OMap.get t k = some v) :
    ∀ e ∈ lrefs v, e ∈ treeRefs t := fun _ he =>
  List.mem_flatMap.2 ⟨(k, v), mem_of_get h, he⟩

/-- The view of a tree in which the records of `R`, none of them the tree's,
changed. -/
theorem view_agree {d d' : Dml} {t : OMap (Val N)} {R : List (Nat × Nat)}
    (h : Agree R d d') (hn : ((R ++ treeRefs t).map (·.2)).Nodup) :
    mapV (plain d') t = mapV (plain d) t := by
  apply mapV_congr
  intro x hx
  apply plain_congr
  intro e he
  exact h.same _ (disj_of_nodup hn e (List.mem_flatMap.2 ⟨x, hx, he⟩))

theorem dpop_at {d0 : Dml} {s : St N} (h : Good d0 s) {k : Nat} {v : Val N}
    (hg : OMap.get s.tree k = some v) :
    ∃ d', v.dpop s.dml = some (ofPlain (plain s.dml v), d') ∧
      Inv d0 d' (treeRefs (OMap.remove s.tree k)) ∧
      mapV (plain d') (OMap.remove s.tree k) = mapV (plain s.dml) (OMap.remove s.tree k) := by
  have hi := h.inv.perm (perm_remove h.sorted hg)
  obtain ⟨d', h1, h2, h3⟩ := dpopV_spec h.fresh hi
  exact ⟨d', h1, h2, view_agree h3 hi.nodup⟩

/-! ## The tree operations -/

theorem remove_good {d0 : Dml} {s : St N} (h : Good d0 s) (k : Nat) :
    Good d0 (remove s k).1 ∧ view (remove s k).1 = OMap.remove (view s) k ∧
    (remove s k).2 = .ok ((OMap.get (view s) k).map ofPlain) := by
  rw [view, view, get_mapV, ← remove_mapV]
  cases hg : OMap.get s.tree k with
  | none =>
    simp only [remove, hg, Option.map_none]
    rw [remove_of_none hg]
    exact ⟨h, by simp⟩
  | some v =>
    obtain ⟨d', h1, h2, h3⟩ := dpop_at h hg
    simp only [remove, hg, h1, Option.map_some]
    exact ⟨⟨h.fresh, h.sorted.remove k, h2⟩, h3, trivial⟩

theorem insert_remove_same {V : Type} {m m' : OMap V} (hs : Sorted m) (hs' : Sorted m') (k : Nat)
    (h : OMap.remove m k = OMap.remove m' k) (v : V) : OMap.insert m k v = OMap.insert m' k v := by
  apply OMap.ext (hs.insert k v) (hs'.insert k v)
  intro k'
  simp only [get_insert]
  split
  · rfl
  · rename_i hk
    have h1 := get_remove m k k'
    have h2 := get_remove m' k k'
    rw [if_neg hk] at h1 h2
    rw [← h1, ← h2, h]

theorem insert_good {d0 : Dml} {s : St N} (h : Good d0 s) (k : Nat) (p : Plain N) :
    Good d0 (insert s k (ofPlain p)).1 ∧
    view (insert s k (ofPlain p)).1 = OMap.insert (view s) k p ∧
    (insert s k (ofPlain p)).2 = .ok ((OMap.get (view s) k).map ofPlain) := by
  rw [view, view, get_mapV]
  have hperm := perm_insert h.sorted k (ofPlain p)
  rw [lrefs_ofPlain, List.nil_append] at hperm
  cases hg : OMap.get s.tree k with
  | none =>
    simp only [insert, hg, Option.map_none]
    refine ⟨⟨h.fresh, h.sorted.insert k _, ?_⟩, ?_, trivial⟩
    · have := h.inv
      rw [← remove_of_none hg] at this
      exact this.perm hperm.symm
    · rw [insert_mapV, plain_ofPlain]
  | some v =>
    obtain ⟨d', h1, h2, h3⟩ := dpop_at h hg
    simp only [insert, hg, h1, Option.map_some]
    refine ⟨⟨h.fresh, h.sorted.insert k _, h2.perm hperm.symm⟩, ?_, trivial⟩
    rw [insert_mapV, plain_ofPlain]
    apply insert_remove_same (sorted_mapV h.sorted) (sorted_mapV h.sorted)
    rw [← remove_mapV, ← remove_mapV, h3]

theorem rangeDelete_good {d0 : Dml} {s : St N} (h : Good d0 s) (p : Nat → Bool) :
    Good d0 (rangeDelete s p).1 ∧
    view (rangeDelete s p).1 = (view s).filter (fun e => !p e.1) ∧
    (rangeDelete s p).2 = .ok () := by
  have hi := h.inv.perm (perm_filter s.tree fun e => p e.1)
  obtain ⟨d', h1, h2, h3⟩ := ddropItems_spec h.fresh _ hi
  simp only [rangeDelete, h1]
  refine ⟨⟨h.fresh, h.sorted.filter _, h2⟩, ?_, trivial⟩
  rw [view, view]
  rw [← filter_mapV (plain s.dml) s.tree (fun k => !p k)]
  exact view_agree h3 hi.nodup

/-! The same, preceded by a flush. -/

theorem tick_good {d0 : Dml} {fl : Sched} {s : Run N} (h : Good d0 s.st) :
    Good d0 (tick fl s).st ∧ view (tick fl s).st = view s.st :=
  flush_good h _

theorem tInsert_good {d0 : Dml} (fl : Sched) {s : Run N} (h : Good d0 s.st) (k : Nat)
    (p : Plain N) :
    ∃ s', tInsert fl s k (ofPlain p) = (s', .ok ((OMap.get (view s.st) k).map ofPlain)) ∧
      Good d0 s'.st ∧ view s'.st = OMap.insert (view s.st) k p := by
  have h1 := tick_good (fl := fl) h
  have h2 := insert_good h1.1 k p
  rw [h1.2] at h2
  exact ⟨(tInsert fl s k (ofPlain p)).1, Prod.ext rfl h2.2.2, h2.1, h2.2.1⟩

theorem tRemove_good {d0 : Dml} (fl : Sched) {s : Run N} (h : Good d0 s.st) (k : Nat) :
    ∃ s', tRemove fl s k = (s', .ok ((OMap.get (view s.st) k).map ofPlain)) ∧
      Good d0 s'.st ∧ view s'.st = OMap.remove (view s.st) k := by
  have h1 := tick_good (fl := fl) h
  have h2 := remove_good h1.1 k
  rw [h1.2] at h2
  exact ⟨(tRemove fl s k).1, Prod.ext rfl h2.2.2, h2.1, h2.2.1⟩

theorem tRangeDelete_good {d0 : Dml} (fl : Sched) {s : Run N} (h : Good d0 s.st) (p : Nat → Bool) :
    ∃ s', tRangeDelete fl s p = (s', .ok ()) ∧
      Good d0 s'.st ∧ view s'.st = (view s.st).filter (fun e => !p e.1) := by
  have h1 := tick_good (fl := fl) h
  have h2 := rangeDelete_good h1.1 p
  rw [h1.2] at h2
  exact ⟨(tRangeDelete fl s p).1, Prod.ext rfl h2.2.2, h2.1, h2.2.1⟩

theorem tGet_good {d0 : Dml} (fl : Sched) {s : Run N} (h : Good d0 s.st) (k : Nat) :
    Good d0 (tGet fl s k).1.st ∧ view (tGet fl s k).1.st = view s.st ∧
    (tGet fl s k).2 = OMap.get (tGet fl s k).1.st.tree k ∧
    (tGet fl s k).2.map (plain (tGet fl s k).1.st.dml) = OMap.get (view s.st) k := by
  have h1 := tick_good (fl := fl) h
  refine ⟨h1.1, h1.2, rfl, ?_⟩
  rw [← h1.2, view, get_mapV]
  rfl

theorem tRange_good {d0 : Dml} (fl : Sched) {s : Run N} (h : Good d0 s.st) (p : Nat → Bool) :
    Good d0 (tRange fl s p).1.st ∧ view (tRange fl s p).1.st = view s.st ∧
    (∀ e ∈ (tRange fl s p).2, e ∈ (tRange fl s p).1.st.tree) ∧
    mapV (plain (tRange fl s p).1.st.dml) (tRange fl s p).2 =
      (view s.st).filter (fun e => p e.1) := by
  have h1 := tick_good (fl := fl) h
  refine ⟨h1.1, h1.2, fun e he => (List.mem_filter.1 he).1, ?_⟩
  rw [← h1.2]
  exact filter_mapV _ _ p

/-- A record of a value that was in the tree is still there, unchanged, as long
as there are only flushes. -/
theorem tGetBlob_good {d0 : Dml} (fl : Sched) {s : Run N} (h : Good d0 s.st) (r : Nat) :
    Good d0 (tGetBlob fl s r).1.st ∧ view (tGetBlob fl s r).1.st = view s.st ∧
    Ext s.st.dml (tGetBlob fl s r).1.st.dml ∧
    (r < s.st.dml.next → (tGetBlob fl s r).2 = s.st.dml.recs.get r) := by
  have h1 := tick_good (fl := fl) h
  have h2 := flush_ext h (fl s.n)
  exact ⟨h1.1, h1.2, h2, fun hr => h2.same r hr⟩

/-- A value found in the tree has its records. -/
theorem lref_here {d0 : Dml} {s : St N} (h : Good d0 s) {e : Nat × Val N} (he : e ∈ s.tree)
    {x : Nat × Nat} (hx : x ∈ lrefs e.2) :
    x.2 < s.dml.next ∧ ∃ b, s.dml.recs.get x.2 = some b ∧ x.1 = u32 b.length ∧ threshold < b.length := by
  have hm : x ∈ treeRefs s.tree := List.mem_flatMap.2 ⟨e, he, hx⟩
  exact ⟨(h.inv.range x hm).2, h.inv.here x hm⟩

theorem good_empty {d0 : Dml} (h : Fresh d0) : Good d0 (⟨[], d0⟩ : St N) :=
  ⟨h, sorted_nil, ⟨List.nodup_nil, by simp [treeRefs], Nat.le_refl _, by simp [treeRefs],
    fun _ _ => rfl⟩⟩

/-! ## Histories of tree operations -/

/-- One tree operation of the code, after a flush. -/
def exec (fl : Nat → Bool) (s : St N) : Spec.Op N → St N × Res (Option (Val N))
  | .insert k p => insert (flush fl s) k (ofPlain p)
  | .remove k => remove (flush fl s) k
  | .get k => (flush fl s, .ok ((flush fl s).tree.get k))
  | .rangeDelete lo hi =>
    match rangeDelete (flush fl s) (inRange lo hi) with
    | (s', .ok ()) => (s', .ok none)
    | (s', .err) => (s', .err)
    | (s', .panic) => (s', .panic)

/-- What the user gets to see of an answer: out-of-line data is fetched from the
records. -/
def answer (s : St N) : Res (Option (Val N)) → Option (Option (Plain N))
  | .ok v => some (v.map (plain s.dml))
  | .err => none
  | .panic => none

/-- A history, with the keys flushed before each operation. -/
def execAll (s : St N) : List ((Nat → Bool) × Spec.Op N) → St N × List (Option (Option (Plain N)))
  | [] => (s, [])
  | (fl, op) :: ops =>
    let r := exec fl s op
    let rs := execAll r.1 ops
    (rs.1, answer r.1 r.2 :: rs.2)

theorem inRange_eq (lo : Nat) (hi : Option Nat) : inRange lo hi = Spec.within lo hi := by
  funext k
  cases hi with
  | none => simp [inRange, Spec.within]
  | some h => simp only [inRange, Spec.within]; exact Bool.decide_and _ _

theorem map_plain_ofPlain (d : Dml) (o : Option (Plain N)) :
    (o.map ofPlain).map (plain d) = o := by
  cases o with
  | none => rfl
  | some p => simp [plain_ofPlain]

theorem exec_good {d0 : Dml} {s : St N} (h : Good d0 s) (fl : Nat → Bool) (op : Spec.Op N) :
    Good d0 (exec fl s op).1 ∧ view (exec fl s op).1 = (Spec.apply (view s) op).1 ∧
    answer (exec fl s op).1 (exec fl s op).2 = some (Spec.apply (view s) op).2 := by
  have hf := flush_good h fl
  cases op with
  | insert k p =>
    have h1 := insert_good hf.1 k p
    rw [hf.2] at h1
    refine ⟨h1.1, h1.2.1, ?_⟩
    simp only [exec, h1.2.2, answer, map_plain_ofPlain, Spec.apply]
  | remove k =>
    have h1 := remove_good hf.1 k
    rw [hf.2] at h1
    refine ⟨h1.1, h1.2.1, ?_⟩
    simp only [exec, h1.2.2, answer, map_plain_ofPlain, Spec.apply]
  | get k =>
    refine ⟨hf.1, hf.2, ?_⟩
    simp only [exec, answer, Spec.apply]
    rw [← hf.2, view, get_mapV]
  | rangeDelete lo hi =>
    have h1 := rangeDelete_good hf.1 (inRange lo hi)
    rw [hf.2, inRange_eq] at h1
    have he : exec fl s (.rangeDelete lo hi) =
        ((rangeDelete (flush fl s) (Spec.within lo hi)).1, .ok none) := by
      simp only [exec, inRange_eq]
      rw [show rangeDelete (flush fl s) (Spec.within lo hi) =
        ((rangeDelete (flush fl s) (Spec.within lo hi)).1, .ok ()) from Prod.ext rfl h1.2.2]
    rw [he]
    exact ⟨h1.1, h1.2.1, rfl⟩

theorem execAll_good {d0 : Dml} (ops : List ((Nat → Bool) × Spec.Op N)) : ∀ {s : St N},
    Good d0 s →
    Good d0 (execAll s ops).1 ∧
    view (execAll s ops).1 = (Spec.run (view s) (ops.map (·.2))).1 ∧
    (execAll s ops).2 = (Spec.run (view s) (ops.map (·.2))).2.map some := by
  induction ops with
  | nil => intro s h; exact ⟨h, rfl, rfl⟩
  | cons o ops ih =>
    obtain ⟨fl, op⟩ := o
    intro s h
    obtain ⟨h1, h2, h3⟩ := exec_good h fl op
    obtain ⟨h4, h5, h6⟩ := ih h1
    rw [h2] at h5 h6
    exact ⟨h4, h5, by simp only [execAll, List.map_cons, Spec.run, h3, h6]⟩

end Verif.Blob
