import Verif.Dir.Model
import Mathlib.Data.List.Perm.Basic

/-! Lemmas about hash tables in the tree. -/

namespace Verif.Dir
open OMap

variable {α N : Type} [DecidableEq N]

/-- All items under one key. -/
def Val.items : Val α → List α
  | .single a => [a]
  | .bucket l => l

/-- A legal stored value: single items, or buckets of at least two items with
different names, all of them hashing to the key. -/
def GoodVal (name : α → N) (hash : N → Nat) (k : Nat) (v : Val α) : Prop :=
  (∀ a ∈ v.items, hash (name a) = k) ∧ (v.items.map name).Nodup ∧
  match v with
  | .single _ => True
  | .bucket l => 2 ≤ l.length

structure WF (name : α → N) (hash : N → Nat) (t : Table α) : Prop where
  sorted : Sorted t
  good : ∀ (k : Nat) (v : Val α), get t k = some v → GoodVal name hash k v

/-- Items stored under `k`. -/
def slot (t : Table α) (k : Nat) : List α := ((get t k).map Val.items).getD []

/-- The item with full name `n`. -/
def lookup (name : α → N) (hash : N → Nat) (t : Table α) (n : N) : Option α :=
  (slot t (hash n)).find? (fun x => name x = n)

theorem find_iff {name : α → N} {l : List α} (hnd : (l.map name).Nodup) {n : N} {a : α} :
    l.find? (fun x => name x = n) = some a ↔ a ∈ l ∧ name a = n := by
  induction l with
  | nil => simp
  | cons x l ih =>
    simp only [List.map_cons, List.nodup_cons, List.mem_map, not_exists, not_and] at hnd
    rw [List.find?_cons]
    by_cases hx : name x = n
    · simp only [hx, decide_true, List.mem_cons, Option.some.injEq]
      constructor
      · rintro rfl; exact ⟨Or.inl rfl, hx⟩
      · rintro ⟨rfl | ha, h2⟩
        · rfl
        · exact absurd (h2.trans hx.symm) (hnd.1 a ha)
    · simp only [hx, decide_false, List.mem_cons]
      rw [ih hnd.2]
      constructor
      · rintro ⟨h1, h2⟩; exact ⟨Or.inr h1, h2⟩
      · rintro ⟨rfl | ha, h2⟩
        · exact absurd h2 hx
        · exact ⟨ha, h2⟩

theorem find_none {name : α → N} {l : List α} {n : N} :
    l.find? (fun x => name x = n) = none ↔ ∀ a ∈ l, name a ≠ n := by
  simp [List.find?_eq_none]

/-- `find?` by name only depends on the members. -/
theorem find_congr {name : α → N} {l l' : List α} (h : (l.map name).Nodup)
    (h' : (l'.map name).Nodup) {n : N} (hm : ∀ a, name a = n → (a ∈ l ↔ a ∈ l')) :
    l.find? (fun x => name x = n) = l'.find? (fun x => name x = n) := by
  cases hf : l'.find? (fun x => name x = n) with
  | some a =>
    rw [find_iff h'] at hf
    rw [find_iff h]
    exact ⟨(hm a hf.2).2 hf.1, hf.2⟩
  | none =>
    rw [find_none] at hf ⊢
    intro a ha hn
    exact hf a ((hm a hn).1 ha) hn

theorem lookup_of_get {name : α → N} {hash : N → Nat} {t t' : Table α} {n : N}
    (h : get t' (hash n) = get t (hash n)) : lookup name hash t' n = lookup name hash t n := by
  simp only [lookup, slot, h]

theorem swapRemove_perm {l : List α} {i : Nat} (h : i < l.length) :
    (swapRemove l i).Perm (l.eraseIdx i) := by
  have hne : l ≠ [] := by rintro rfl; simp at h
  simp only [swapRemove, List.getLast?_eq_some_getLast hne]
  generalize hz : l.getLast hne = z
  have hs : (l.set i z) ≠ [] := by
    intro he; have := congrArg List.length he; simp at this; exact hne this
  have hlast : (l.set i z).getLast hs = z := by
    rw [List.getLast_eq_getElem, List.getElem_set]
    split
    · rfl
    · have : l[(l.set i z).length - 1]'(by simp; omega) = l.getLast hne := by
        rw [List.getLast_eq_getElem]; simp only [List.length_set]
      rw [this, hz]
  have h1 : (l.set i z).Perm (z :: l.eraseIdx i) := List.set_perm_cons_eraseIdx h z
  have h2 : (l.set i z).Perm (z :: (l.set i z).dropLast) := by
    conv => lhs; rw [← List.dropLast_append_getLast hs, hlast]
    exact List.perm_append_singleton _ _
  exact (List.perm_cons z).1 (h2.symm.trans h1)

omit [DecidableEq N] in
theorem wf_insert {name : α → N} {hash : N → Nat} {t : Table α} (h : WF name hash t) {k : Nat}
    {v : Val α} (hv : GoodVal name hash k v) : WF name hash (t.insert k v) := by
  refine ⟨h.sorted.insert k v, ?_⟩
  intro k' v' hk
  rw [get_insert] at hk
  split at hk
  · rename_i he; subst he; simp at hk; subst hk; exact hv
  · exact h.good k' v' hk

omit [DecidableEq N] in
theorem wf_remove {name : α → N} {hash : N → Nat} {t : Table α} (h : WF name hash t) (k : Nat) :
    WF name hash (t.remove k) := by
  refine ⟨h.sorted.remove k, ?_⟩
  intro k' v' hk
  rw [get_remove] at hk
  split at hk
  · simp at hk
  · exact h.good k' v' hk

theorem insert_insert {t : Table α} (h : Sorted t) (k : Nat) (v v' : Val α) :
    (t.insert k v).insert k v' = t.insert k v' := by
  apply OMap.ext ((h.insert k v).insert k v') (h.insert k v')
  intro k'
  simp only [get_insert]; split <;> rfl

theorem insert_same {t : Table α} (h : Sorted t) {k : Nat} {v : Val α} (hg : get t k = some v) :
    t.insert k v = t := by
  apply OMap.ext (h.insert k v) h
  intro k'
  simp only [get_insert]; split
  · rename_i he; subst he; exact hg.symm
  · rfl

theorem lookup_insert_other {name : α → N} {hash : N → Nat} {t : Table α} {k : Nat} {v : Val α}
    {n : N} (h : hash n ≠ k) : lookup name hash (t.insert k v) n = lookup name hash t n :=
  lookup_of_get (by rw [get_insert, if_neg h])

theorem lookup_remove_other {name : α → N} {hash : N → Nat} {t : Table α} {k : Nat}
    {n : N} (h : hash n ≠ k) : lookup name hash (t.remove k) n = lookup name hash t n :=
  lookup_of_get (by rw [get_remove, if_neg h])

theorem lookup_insert_same {name : α → N} {hash : N → Nat} {t : Table α} {k : Nat} {v : Val α}
    {n : N} (h : hash n = k) :
    lookup name hash (t.insert k v) n = v.items.find? (fun x => name x = n) := by
  simp [lookup, slot, get_insert, h]

theorem lookup_remove_same {name : α → N} {hash : N → Nat} {t : Table α} {k : Nat}
    {n : N} (h : hash n = k) : lookup name hash (t.remove k) n = none := by
  simp [lookup, slot, get_remove, h]

theorem htGet_spec {name : α → N} {hash : N → Nat} {t : Table α} (h : WF name hash t) (n : N) :
    htGet name hash t n = match lookup name hash t n with
      | some a => .ok a
      | none => .err := by
  simp only [htGet, lookup, slot]
  cases hg : get t (hash n) with
  | none => rfl
  | some v =>
    cases v with
    | single a =>
      simp only [Option.map_some, Val.items, Option.getD_some, List.find?_cons, List.find?_nil]
      by_cases ha : name a = n <;> simp [ha]
    | bucket l =>
      have := (h.good _ _ hg).2.2
      simp only at this
      simp only [Option.map_some, Val.items, Option.getD_some]
      rw [if_pos (by omega)]
      cases l.find? (fun x => decide (name x = n)) <;> rfl

/-- What inserting does to the map of names. -/
theorem htInsert_spec {name : α → N} {hash : N → Nat} {t : Table α} (h : WF name hash t) (a : α) :
    WF name hash (htInsert name hash t a).1 ∧
    (htInsert name hash t a).2 = .ok (lookup name hash t (name a)) ∧
    ∀ n, lookup name hash (htInsert name hash t a).1 n =
      if n = name a then some a else lookup name hash t n := by
  have hself : ∀ t' : Table α, get (t'.insert (hash (name a)) (Val.single a)) (hash (name a)) =
      some (.single a) := by intro t'; rw [get_insert, if_pos rfl]
  have gs : GoodVal name hash (hash (name a)) (.single a) := by
    simp [GoodVal, Val.items]
  simp only [htInsert]
  cases hg : get t (hash (name a)) with
  | none =>
    simp only
    refine ⟨wf_insert h gs, by simp [lookup, slot, hg], ?_⟩
    intro n
    by_cases hn : hash n = hash (name a)
    · rw [lookup_insert_same hn]
      have : lookup name hash t n = none := by simp [lookup, slot, hn, hg]
      by_cases he : n = name a
      · subst he; simp [Val.items]
      · simp [Val.items, this, he, Ne.symm he]
    · rw [lookup_insert_other hn, if_neg (by rintro rfl; exact hn rfl)]
  | some v =>
    have hgood := h.good _ _ hg
    cases v with
    | single old =>
      simp only
      have hold : hash (name old) = hash (name a) := hgood.1 old (by simp [Val.items])
      by_cases he : name old = name a
      · rw [if_pos he]
        refine ⟨wf_insert h gs, by simp [lookup, slot, hg, Val.items, he], ?_⟩
        intro n
        by_cases hn : hash n = hash (name a)
        · rw [lookup_insert_same hn]
          by_cases hna : n = name a
          · subst hna; simp [Val.items]
          · simp [Val.items, lookup, slot, hn, hg, he, hna, Ne.symm hna]
        · rw [lookup_insert_other hn, if_neg (by rintro rfl; exact hn rfl)]
      · rw [if_neg he]
        simp only [hself]
        rw [insert_insert h.sorted]
        refine ⟨wf_insert h ?_, by simp [lookup, slot, hg, Val.items, he], ?_⟩
        · refine ⟨?_, ?_, by simp⟩
          · intro x hx
            simp [Val.items] at hx
            rcases hx with rfl | rfl
            · exact hold
            · rfl
          · simp [Val.items, he]
        · intro n
          by_cases hn : hash n = hash (name a)
          · rw [lookup_insert_same hn]
            simp only [lookup, slot, hn, hg, Val.items, Option.map_some, Option.getD_some,
              List.find?_cons, List.find?_nil]
            by_cases hna : n = name a
            · subst hna; simp [he]
            · by_cases hno : name old = n
              · simp [hno, hna]
              · simp [hno, hna, Ne.symm hna]
          · rw [lookup_insert_other hn, if_neg (by rintro rfl; exact hn rfl)]
    | bucket l =>
      simp only [hself]
      have hlen : 2 ≤ l.length := hgood.2.2
      have hnd : (l.map name).Nodup := hgood.2.1
      have hh : ∀ x ∈ l, hash (name x) = hash (name a) := hgood.1
      cases hi : l.findIdx? (fun x => decide (name x = name a)) with
      | none =>
        simp only
        rw [List.findIdx?_eq_none_iff] at hi
        simp at hi
        rw [insert_insert h.sorted]
        have hnd' : ((l ++ [a]).map name).Nodup := by
          rw [List.map_append, List.nodup_append]
          refine ⟨hnd, by simp, ?_⟩
          intro x hx y hy
          simp at hx hy
          obtain ⟨z, hz, rfl⟩ := hx
          subst hy
          exact hi z hz
        refine ⟨wf_insert h ⟨?_, hnd', by simp; omega⟩, ?_, ?_⟩
        · intro x hx
          simp [Val.items] at hx
          rcases hx with hx | rfl
          · exact hh x hx
          · rfl
        · congr 1
          symm
          simp only [lookup, slot, hg, Option.map_some, Option.getD_some, Val.items]
          rw [find_none]; exact hi
        · intro n
          by_cases hn : hash n = hash (name a)
          · rw [lookup_insert_same hn]
            simp only [lookup, slot, hn, hg, Val.items, Option.map_some, Option.getD_some]
            split
            · rename_i hna; subst hna
              rw [find_iff hnd']; simp
            · rename_i hna
              apply find_congr hnd' hnd
              intro x hx; subst hx
              simp
              rintro rfl; exact absurd rfl hna
          · rw [lookup_insert_other hn, if_neg (by rintro rfl; exact hn rfl)]
      | some i =>
        simp only
        rw [List.findIdx?_eq_some_iff_getElem] at hi
        obtain ⟨hil, hin, _⟩ := hi
        simp at hin
        rw [insert_insert h.sorted]
        have hp : (l.set i a).Perm (a :: l.eraseIdx i) := List.set_perm_cons_eraseIdx hil a
        have hp0 : (l[i] :: l.eraseIdx i).Perm l := List.getElem_cons_eraseIdx_perm hil
        have hnd0 : ((l[i] :: l.eraseIdx i).map name).Nodup := (hp0.map name).nodup_iff.2 hnd
        have hnd' : ((l.set i a).map name).Nodup := by
          rw [(hp.map name).nodup_iff]
          rw [List.map_cons, hin] at hnd0
          exact hnd0
        have hmem : ∀ x, x ∈ l ↔ x = l[i] ∨ x ∈ l.eraseIdx i := by
          intro x; rw [← hp0.mem_iff]; simp
        have hmem' : ∀ x, x ∈ l.set i a ↔ x = a ∨ x ∈ l.eraseIdx i := by
          intro x; rw [hp.mem_iff]; simp
        refine ⟨wf_insert h ⟨?_, hnd', by simp; omega⟩, ?_, ?_⟩
        · intro x hx
          rcases (hmem' x).1 hx with rfl | hx
          · rfl
          · exact hh x ((hmem x).2 (Or.inr hx))
        · congr 1
          rw [List.getElem?_eq_getElem hil]
          symm
          simp only [lookup, slot, hg, Option.map_some, Option.getD_some, Val.items]
          rw [find_iff hnd]
          exact ⟨List.getElem_mem hil, hin⟩
        · intro n
          by_cases hn : hash n = hash (name a)
          · rw [lookup_insert_same hn]
            simp only [lookup, slot, hn, hg, Val.items, Option.map_some, Option.getD_some]
            split
            · rename_i hna; subst hna
              rw [find_iff hnd']; exact ⟨(hmem' a).2 (Or.inl rfl), rfl⟩
            · rename_i hna
              apply find_congr hnd' hnd
              intro x hx; subst hx
              rw [hmem, hmem']
              constructor
              · rintro (rfl | h); exact absurd rfl hna; exact Or.inr h
              · rintro (rfl | h); exact absurd hin hna; exact Or.inr h
          · rw [lookup_insert_other hn, if_neg (by rintro rfl; exact hn rfl)]

/-- What removing does to the map of names. -/
theorem htRemove_spec {name : α → N} {hash : N → Nat} {t : Table α} (h : WF name hash t) (n0 : N) :
    WF name hash (htRemove name hash t n0).1 ∧
    ((htRemove name hash t n0).2 = match lookup name hash t n0 with
      | some a => .ok a
      | none => .err) ∧
    ∀ n, lookup name hash (htRemove name hash t n0).1 n =
      if n = n0 then none else lookup name hash t n := by
  simp only [htRemove]
  cases hg : get t (hash n0) with
  | none =>
    simp only [remove_of_none hg]
    have hl : lookup name hash t n0 = none := by simp [lookup, slot, hg]
    refine ⟨h, by rw [hl], ?_⟩
    intro n
    split
    · rename_i he; subst he; exact hl
    · rfl
  | some v =>
    have hgood := h.good _ _ hg
    -- putting the value back
    have hback : (OMap.insert (OMap.remove t (hash n0)) (hash n0) v) = t := by
      rw [insert_remove h.sorted, insert_same h.sorted hg]
    cases v with
    | single old =>
      simp only
      have hold : hash (name old) = hash n0 := hgood.1 old (by simp [Val.items])
      by_cases he : name old = n0
      · rw [if_pos he]
        refine ⟨wf_remove h _, by simp [lookup, slot, hg, Val.items, he], ?_⟩
        intro n
        by_cases hn : hash n = hash n0
        · rw [lookup_remove_same hn]
          split
          · rfl
          · rename_i hne
            simp [lookup, slot, hn, hg, Val.items, he, Ne.symm hne]
        · rw [lookup_remove_other hn, if_neg (by rintro rfl; exact hn rfl)]
      · rw [if_neg he, hback]
        have hl : lookup name hash t n0 = none := by simp [lookup, slot, hg, Val.items, he]
        refine ⟨h, by rw [hl], ?_⟩
        intro n
        split
        · rename_i he; subst he; exact hl
        · rfl
    | bucket l =>
      have hlen : 2 ≤ l.length := hgood.2.2
      have hnd : (l.map name).Nodup := hgood.2.1
      have hh : ∀ x ∈ l, hash (name x) = hash n0 := hgood.1
      simp only
      cases hi : l.findIdx? (fun x => decide (name x = n0)) with
      | none =>
        simp only [hback]
        rw [List.findIdx?_eq_none_iff] at hi
        simp at hi
        have hl : lookup name hash t n0 = none := by
          simp only [lookup, slot, hg, Option.map_some, Option.getD_some, Val.items]
          rw [find_none]; exact hi
        refine ⟨h, by rw [hl], ?_⟩
        intro n
        split
        · rename_i he; subst he; exact hl
        · rfl
      | some i =>
        rw [List.findIdx?_eq_some_iff_getElem] at hi
        obtain ⟨hil, hin, _⟩ := hi
        simp at hin
        have hp := swapRemove_perm hil
        have hp0 : (l[i] :: l.eraseIdx i).Perm l := List.getElem_cons_eraseIdx_perm hil
        have hnd0 : ((l[i] :: l.eraseIdx i).map name).Nodup := (hp0.map name).nodup_iff.2 hnd
        have hlk : lookup name hash t n0 = some l[i] := by
          simp only [lookup, slot, hg, Option.map_some, Option.getD_some, Val.items]
          rw [find_iff hnd]
          exact ⟨List.getElem_mem hil, hin⟩
        have hlen' : (swapRemove l i).length = l.length - 1 := by
          rw [hp.length_eq, List.length_eraseIdx_of_lt hil]
        -- whatever constructor is used, the items are `swapRemove l i`
        have key : ∀ v' : Val α, v'.items = swapRemove l i →
            (match v' with | .single _ => True | .bucket l => 2 ≤ l.length) →
            WF name hash (OMap.insert (OMap.remove t (hash n0)) (hash n0) v') ∧
            ∀ n, lookup name hash (OMap.insert (OMap.remove t (hash n0)) (hash n0) v') n =
              if n = n0 then none else lookup name hash t n := by
          intro v' hv' hlong
          rw [insert_remove h.sorted]
          have hnd' : (v'.items.map name).Nodup := by
            rw [hv', (hp.map name).nodup_iff]
            rw [List.map_cons, List.nodup_cons] at hnd0
            exact hnd0.2
          have hmem : ∀ x, x ∈ l ↔ x = l[i] ∨ x ∈ v'.items := by
            intro x; rw [hv', hp.mem_iff, ← hp0.mem_iff]; simp
          refine ⟨wf_insert h ⟨fun x hx => hh x ((hmem x).2 (Or.inr hx)), hnd', hlong⟩, ?_⟩
          intro n
          by_cases hn : hash n = hash n0
          · rw [lookup_insert_same hn]
            split
            · rename_i he; subst he
              rw [find_none]
              intro x hx
              rw [hv', hp.mem_iff] at hx
              rw [List.map_cons, List.nodup_cons, hin] at hnd0
              intro hxn
              exact hnd0.1 (by rw [← hxn]; exact List.mem_map_of_mem hx)
            · rename_i hne
              simp only [lookup, slot, hn, hg, Option.map_some, Option.getD_some]
              apply find_congr hnd' hnd
              intro x hx; subst hx
              show x ∈ v'.items ↔ x ∈ l
              rw [hmem]
              constructor
              · exact Or.inr
              · rintro (rfl | h); exact absurd hin hne; exact h
          · rw [lookup_insert_other hn, if_neg (by rintro rfl; exact hn rfl)]
        simp only [List.getElem?_eq_getElem hil, hlk]
        cases hsr : swapRemove l i with
        | nil => rw [hsr] at hlen'; simp at hlen'; omega
        | cons x xs =>
          cases xs with
          | nil =>
            have := key (.single x) (by rw [hsr]; rfl) trivial
            exact ⟨this.1, rfl, this.2⟩
          | cons y ys =>
            have := key (.bucket (x :: y :: ys)) (by rw [hsr]; rfl) (by simp)
            exact ⟨this.1, rfl, this.2⟩

end Verif.Dir
