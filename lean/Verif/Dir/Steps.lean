import Verif.Dir.ReaddirLemmas
import Verif.Dir.Spec

/-! Sequences of hash table operations and their simulation by a name map. -/

namespace Verif.Dir
open OMap

variable {α N : Type} [DecidableEq N]

/-- The answer the caller gets: an item, nothing, or a crash. -/
def answerItem : Res α → Option (Option α)
  | .ok a => some (some a)
  | .err => some none
  | .panic => none

def answerOld : Res (Option α) → Option (Option α)
  | .ok a => some a
  | .err => some none
  | .panic => none

/-- One operation of the code; the answer is `none` if it panicked. -/
def exec (name : α → N) (hash : N → Nat) (t : Table α) :
    Spec.Op α N → Table α × Option (Option α)
  | .get n => (t, answerItem (htGet name hash t n))
  | .insert a => let r := htInsert name hash t a; (r.1, answerOld r.2)
  | .remove n => let r := htRemove name hash t n; (r.1, answerItem r.2)

def execAll (name : α → N) (hash : N → Nat) (t : Table α) :
    List (Spec.Op α N) → Table α × List (Option (Option α))
  | [] => (t, [])
  | op :: ops =>
    let r := exec name hash t op
    let rs := execAll name hash r.1 ops
    (rs.1, r.2 :: rs.2)

omit [DecidableEq N] in
theorem wf_nil (name : α → N) (hash : N → Nat) : WF name hash ([] : Table α) :=
  ⟨sorted_nil, by intro k v h; simp at h⟩

theorem exec_spec {name : α → N} {hash : N → Nat} {t : Table α} (h : WF name hash t)
    (op : Spec.Op α N) :
    WF name hash (exec name hash t op).1 ∧
    (exec name hash t op).2 = some (Spec.apply name (lookup name hash t) op).2 ∧
    lookup name hash (exec name hash t op).1 = (Spec.apply name (lookup name hash t) op).1 := by
  cases op with
  | get n =>
    refine ⟨h, ?_, rfl⟩
    simp only [exec, Spec.apply, htGet_spec h]
    cases lookup name hash t n <;> rfl
  | insert a =>
    have := htInsert_spec h a
    refine ⟨this.1, ?_, funext this.2.2⟩
    simp only [exec, Spec.apply, this.2.1, answerOld]
  | remove n =>
    have := htRemove_spec h n
    refine ⟨this.1, ?_, funext this.2.2⟩
    simp only [exec, Spec.apply, this.2.1]
    cases lookup name hash t n <;> rfl

theorem execAll_spec {name : α → N} {hash : N → Nat} (ops : List (Spec.Op α N)) :
    ∀ t : Table α, WF name hash t →
    WF name hash (execAll name hash t ops).1 ∧
    (execAll name hash t ops).2 = (Spec.run name (lookup name hash t) ops).2.map some ∧
    lookup name hash (execAll name hash t ops).1 = (Spec.run name (lookup name hash t) ops).1 := by
  induction ops with
  | nil => intro t h; exact ⟨h, rfl, rfl⟩
  | cons op ops ih =>
    intro t h
    obtain ⟨h1, h2, h3⟩ := exec_spec h op
    obtain ⟨g1, g2, g3⟩ := ih _ h1
    simp only [execAll, Spec.run, List.map_cons]
    refine ⟨g1, ?_, ?_⟩
    · rw [h2, g2, h3]
    · rw [g3, h3]

theorem lookup_nil (name : α → N) (hash : N → Nat) :
    lookup name hash ([] : Table α) = Spec.empty := by
  funext n; simp [lookup, slot, Spec.empty]

/-! ### The listing of a well-formed table -/

theorem mem_items_iff {name : α → N} {hash : N → Nat} {t : Table α} (h : WF name hash t) (a : α) :
    a ∈ t.flatMap (fun e => e.2.items.reverse) ↔ lookup name hash t (name a) = some a := by
  rw [List.mem_flatMap]
  constructor
  · rintro ⟨e, he, ha⟩
    rw [List.mem_reverse] at ha
    have hg := get_of_mem h.sorted (k := e.1) (v := e.2) he
    have hgood := h.good _ _ hg
    have hk := hgood.1 a ha
    simp only [lookup, slot, hk, hg, Option.map_some, Option.getD_some]
    exact (find_iff hgood.2.1).2 ⟨ha, rfl⟩
  · intro hl
    simp only [lookup, slot] at hl
    cases hg : get t (hash (name a)) with
    | none => rw [hg] at hl; simp at hl
    | some v =>
      rw [hg] at hl
      simp only [Option.map_some, Option.getD_some] at hl
      have := (find_iff (h.good _ _ hg).2.1).1 hl
      exact ⟨(hash (name a), v), mem_of_get hg, by simpa using this.1⟩

omit [DecidableEq N] in
theorem nodup_items {name : α → N} {hash : N → Nat} {t : Table α} (h : WF name hash t) :
    ((t.flatMap (fun e => e.2.items.reverse)).map name).Nodup := by
  have hgood : ∀ e ∈ t, GoodVal name hash e.1 e.2 := fun e he =>
    h.good _ _ (get_of_mem h.sorted he)
  have hs := h.sorted
  clear h
  induction t with
  | nil => simp
  | cons e t ih =>
    simp only [List.flatMap_cons, List.map_append, List.nodup_append]
    have he := hgood e (by simp)
    refine ⟨?_, ih (fun e' he' => hgood e' (by simp [he'])) hs.tail, ?_⟩
    · rw [List.map_reverse]; exact (List.reverse_perm _).nodup_iff.2 he.2.1
    · intro x hx y hy hxy
      simp only [List.mem_map, List.mem_reverse, List.mem_flatMap] at hx hy
      obtain ⟨a, ha, rfl⟩ := hx
      obtain ⟨b, ⟨e', he', hb⟩, rfl⟩ := hy
      have h1 := he.1 a ha
      have h2 := (hgood e' (by simp [he'])).1 b hb
      have h3 := (List.pairwise_cons.1 hs).1 e' he'
      rw [hxy] at h1
      omega

end Verif.Dir
