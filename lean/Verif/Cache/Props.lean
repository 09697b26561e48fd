import Verif.Cache.Steps

/-! # C04: the block cache is an exact LRU cache -/

namespace Verif.Cache

open Spec (Op)

variable {K V : Type} [DecidableEq K] [DecidableEq V]

/-- Every history of calls gives the results the specification gives, and
panics only where the specification says so. -/
theorem C04_refines_lru (sz : V → Nat) (cap : Nat) (os : List (Op K V)) :
    (run sz (withCapacity cap) os).map (·.2) = (Spec.run sz cap [] os).map (·.2) := by
  have := run_rep os (rep_empty (K := K) (V := V) sz cap)
  rw [show (withCapacity cap : Lru K V).capacity = cap from rfl] at this
  cases h : Spec.run sz cap [] os with
  | none => rw [h] at this; simp [this]
  | some p =>
    obtain ⟨l, rs⟩ := p
    rw [h] at this
    obtain ⟨c, e, -⟩ := this
    simp [e]

/-- The state after a history that did not panic. -/
theorem run_state {sz : V → Nat} {cap : Nat} {os : List (Op K V)} {c : Lru K V}
    {rs : List (Option V)} (h : run sz (withCapacity cap) os = some (c, rs)) :
    ∃ l, Spec.run sz cap [] os = some (l, rs) ∧ Rep sz c l ∧ c.capacity = cap := by
  have := run_rep os (rep_empty (K := K) (V := V) sz cap)
  rw [show (withCapacity cap : Lru K V).capacity = cap from rfl] at this
  cases hs : Spec.run sz cap [] os with
  | none => rw [hs, h] at this; cases this
  | some p =>
    obtain ⟨l, rs'⟩ := p
    rw [hs, h] at this
    obtain ⟨c', e, r, hc⟩ := this
    cases e
    exact ⟨l, rfl, r, hc⟩

omit [DecidableEq V] in
theorem Rep.getRef {sz : V → Nat} {c : Lru K V} {l : List (K × V)} (h : Rep sz c l) (k : K) :
    getRef c k = Spec.find l k := by
  unfold Verif.Cache.getRef
  rw [h.get]
  by_cases hk : k ∈ keys l
  · obtain ⟨a, v, b, rfl⟩ := mem_split hk
    obtain ⟨ha, hb, -⟩ := nodup_split h.nodup
    rw [find_split ha, ent_split h.nodup]; rfl
  · rw [find_eq_none.mpr hk, (ent_eq_none _ _ _ _).mpr hk]; rfl

/-! ## Size -/

theorem HMap.mem_of_get {E : Type} {m : HMap K E} {k : K} {e : E} (h : HMap.get m k = some e) :
    (k, e) ∈ m := by
  induction m with
  | nil => cases h
  | cons p m ih =>
    obtain ⟨q, e'⟩ := p
    simp only [HMap.get] at h
    split at h
    · rename_i hq; cases h; subst hq; simp
    · exact List.mem_cons_of_mem _ (ih h)

theorem HMap.get_of_mem {E : Type} {m : HMap K E} {k : K} {e : E} (hn : HMap.NodupKeys m)
    (h : (k, e) ∈ m) : HMap.get m k = some e := by
  induction m with
  | nil => cases h
  | cons p m ih =>
    obtain ⟨q, e'⟩ := p
    simp only [HMap.NodupKeys, List.map_cons, List.nodup_cons] at hn
    simp only [HMap.get]
    rcases List.mem_cons.mp h with h | h
    · cases h; simp
    · rw [if_neg, ih hn.2 h]
      rintro rfl
      exact hn.1 (List.mem_map_of_mem (f := Prod.fst) h)

omit [DecidableEq V] in
theorem Rep.contents {sz : V → Nat} {c : Lru K V} {l : List (K × V)} (h : Rep sz c l) :
    (c.store.map (fun p => (p.1, p.2.buf))).Perm l := by
  have key : (c.store.map (fun p => (p.1, p.2.buf))).map Prod.fst = c.store.map Prod.fst := by
    simp [List.map_map, Function.comp_def]
  rw [List.perm_ext_iff_of_nodup]
  · rintro ⟨k, v⟩
    constructor
    · intro hm
      simp only [List.mem_map, Prod.mk.injEq] at hm
      obtain ⟨⟨k', e⟩, hm, rfl, rfl⟩ := hm
      have hg := HMap.get_of_mem h.snodup hm
      rw [h.get] at hg
      have hk : k' ∈ keys l := Decidable.byContradiction fun hk => by
        rw [(ent_eq_none _ _ _ _).mpr hk] at hg; cases hg
      obtain ⟨a, v, b, rfl⟩ := mem_split hk
      rw [ent_split h.nodup] at hg
      cases hg
      simp
    · intro hm
      obtain ⟨a, b, rfl⟩ := List.append_of_mem hm
      have hg : HMap.get c.store k = some ⟨v, firstKey b none, lastKey none a⟩ := by
        rw [h.get, ent_split h.nodup]
      simp only [List.mem_map, Prod.mk.injEq]
      exact ⟨_, HMap.mem_of_get hg, rfl, rfl⟩
  · have := h.snodup
    unfold HMap.NodupKeys at this
    rw [← key] at this
    exact List.Pairwise.of_map Prod.fst (fun a b hab e => hab (by rw [e])) this
  · have := h.nodup
    unfold keys at this
    exact List.Pairwise.of_map Prod.fst (fun a b hab e => hab (by rw [e])) this

theorem spec_step_inv {sz : V → Nat} {cap : Nat} {o : Op K V} {l l1 : List (K × V)} {r : Option V}
    (hnd : (keys l).Nodup) (hl : Spec.bytes sz l ≤ cap) (hs : Spec.step sz cap l o = some (l1, r)) :
    (keys l1).Nodup ∧ Spec.bytes sz l1 ≤ cap := by
  have hsub : ∀ k, (keys (Spec.without l k)).Nodup := fun k =>
    hnd.sublist ((List.filter_sublist).map _)
  have hwb : ∀ k, Spec.bytes sz (Spec.without l k) ≤ Spec.bytes sz l := by
    intro k
    unfold Spec.bytes Spec.without
    clear hnd hl hs hsub
    induction l with
    | nil => simp
    | cons q l ih =>
      simp only [List.filter_cons]
      split <;> simp only [List.map_cons, List.sum_cons] <;> omega
  cases o with
  | get k =>
    simp only [Spec.step] at hs
    by_cases hk : k ∈ keys l
    · obtain ⟨a, v, b, rfl⟩ := mem_split hk
      obtain ⟨ha, hb, na, nb, hab⟩ := nodup_split hnd
      rw [find_split ha, without_split ha hb] at hs
      simp only [Option.some.injEq, Prod.mk.injEq] at hs
      rw [← hs.1]
      constructor
      · simp only [keys, List.map_append, List.map_cons, List.nodup_cons, List.nodup_append,
          List.mem_append]
        exact ⟨fun h => h.elim ha hb, na, nb, fun x hx y hy e => hab x hx (e ▸ hy)⟩
      · simp only [Spec.bytes, List.map_append, List.map_cons, List.sum_append,
          List.sum_cons] at hl ⊢
        omega
    · rw [find_eq_none.mpr hk] at hs
      simp only [Option.some.injEq, Prod.mk.injEq] at hs
      rw [← hs.1]; exact ⟨hnd, hl⟩
  | getRef k =>
    simp only [Spec.step, Option.some.injEq, Prod.mk.injEq] at hs
    rw [← hs.1]; exact ⟨hnd, hl⟩
  | remove k =>
    simp only [Spec.step, Option.some.injEq, Prod.mk.injEq] at hs
    rw [← hs.1]; exact ⟨hsub k, Nat.le_trans (hwb k) hl⟩
  | drop =>
    simp only [Spec.step, Option.some.injEq, Prod.mk.injEq] at hs
    rw [← hs.1]; simp [keys, Spec.bytes]
  | insert k v =>
    simp only [Spec.step] at hs
    by_cases hv : sz v ≤ cap
    · rw [if_pos hv] at hs
      have hb := fit_le (sz := sz) (room := cap - sz v) (l := l)
      have hn : (keys (Spec.fit sz (cap - sz v) l)).Nodup :=
        hnd.sublist ((fit_prefix.sublist).map _)
      cases hf : Spec.find (Spec.fit sz (cap - sz v) l) k with
      | none =>
        rw [hf] at hs
        simp only [Option.some.injEq, Prod.mk.injEq] at hs
        rw [← hs.1]
        constructor
        · simp only [keys, List.map_cons, List.nodup_cons]
          exact ⟨find_eq_none.mp hf, hn⟩
        · simp only [Spec.bytes, List.map_cons, List.sum_cons] at hb ⊢
          omega
      | some old =>
        rw [hf] at hs
        simp only at hs
        split at hs
        · simp only [Option.some.injEq, Prod.mk.injEq] at hs
          rw [← hs.1]; exact ⟨hn, by omega⟩
        · cases hs
    · rw [if_neg hv] at hs; cases hs

theorem bytes_le_cap {sz : V → Nat} {cap : Nat} (os : List (Op K V)) :
    ∀ {l l' : List (K × V)} {rs : List (Option V)}, (keys l).Nodup → Spec.bytes sz l ≤ cap →
      Spec.run sz cap l os = some (l', rs) → Spec.bytes sz l' ≤ cap := by
  induction os with
  | nil =>
    intro l l' rs _ hl h
    simp only [Spec.run, Option.some.injEq, Prod.mk.injEq] at h
    rw [← h.1]; exact hl
  | cons o os ih =>
    intro l l' rs hnd hl h
    simp only [Spec.run] at h
    cases hs : Spec.step sz cap l o with
    | none => rw [hs] at h; cases h
    | some p =>
      obtain ⟨l1, r⟩ := p
      rw [hs] at h
      simp only [Option.map_eq_some_iff] at h
      obtain ⟨⟨l2, rs2⟩, h2, h3⟩ := h
      simp only [Prod.mk.injEq] at h3
      obtain ⟨rfl, -⟩ := h3
      have key := spec_step_inv hnd hl hs
      exact ih key.1 key.2 h2

/-- After any history the reported size is the sum of the sizes of the entries
in the hash map, each key is there once, and the size is within the capacity. -/
theorem C04_size_exact (sz : V → Nat) (cap : Nat) (os : List (Op K V)) (c : Lru K V)
    (rs : List (Option V)) (h : run sz (withCapacity cap) os = some (c, rs)) :
    c.size = (c.store.map (fun p => sz p.2.buf)).sum ∧ (c.store.map Prod.fst).Nodup ∧
      c.size ≤ cap := by
  obtain ⟨l, hs, r, -⟩ := run_state h
  have hp := (r.contents.map (fun p => sz p.2)).sum_nat
  rw [List.map_map] at hp
  have hsz : c.size = Spec.bytes sz l := r.size
  refine ⟨?_, r.snodup, ?_⟩
  · rw [hsz]; exact hp.symm
  · rw [hsz]; exact bytes_le_cap os (by simp [keys]) (by simp [Spec.bytes]) hs

/-! ## Lookups -/

omit [DecidableEq V] in
theorem find_without (l : List (K × V)) (k k' : K) :
    Spec.find (Spec.without l k) k' = if k = k' then none else Spec.find l k' := by
  induction l with
  | nil => simp [Spec.find, Spec.without]
  | cons p l ih =>
    obtain ⟨q, v⟩ := p
    unfold Spec.without at ih ⊢
    by_cases h : q = k
    · simp only [List.filter_cons, h, ne_eq, not_true_eq_false, decide_false, Bool.false_eq_true,
        if_false, ih]
      by_cases h' : k = k' <;> simp [Spec.find, h']
    · simp only [List.filter_cons, h, ne_eq, not_false_eq_true, decide_true, if_true, Spec.find, ih]
      by_cases h1 : q = k' <;> by_cases h2 : k = k' <;> simp [h1, h2] <;> grind

omit [DecidableEq V] in
theorem find_prefix {l l' : List (K × V)} (h : l' <+: l) (k : K) :
    Spec.find l' k = none ∨ Spec.find l' k = Spec.find l k := by
  obtain ⟨t, rfl⟩ := h
  induction l' with
  | nil => exact Or.inl rfl
  | cons p l' ih =>
    obtain ⟨q, v⟩ := p
    simp only [List.cons_append, Spec.find]
    split
    · exact Or.inr rfl
    · exact ih

theorem lookup_latest_aux {sz : V → Nat} {cap : Nat} (k : K) (os : List (Op K V)) :
    ∀ {l l' : List (K × V)} {rs : List (Option V)} {cur : Option V},
      Spec.find l k = none ∨ Spec.find l k = cur → Spec.run sz cap l os = some (l', rs) →
      Spec.find l' k = none ∨ Spec.find l' k = Spec.latest k os cur := by
  induction os with
  | nil =>
    intro l l' rs cur hl h
    simp only [Spec.run, Option.some.injEq, Prod.mk.injEq] at h
    rw [← h.1]; exact hl
  | cons o os ih =>
    intro l l' rs cur hl h
    simp only [Spec.run] at h
    cases hs : Spec.step sz cap l o with
    | none => rw [hs] at h; cases h
    | some p =>
      obtain ⟨l1, r⟩ := p
      rw [hs] at h
      simp only [Option.map_eq_some_iff] at h
      obtain ⟨⟨l2, rs2⟩, h2, h3⟩ := h
      simp only [Prod.mk.injEq] at h3
      obtain ⟨rfl, -⟩ := h3
      cases o with
      | get k' =>
        refine ih (cur := cur) ?_ h2
        simp only [Spec.step] at hs
        cases hf : Spec.find l k' with
        | none =>
          rw [hf] at hs; simp only [Option.some.injEq, Prod.mk.injEq] at hs
          rw [← hs.1]; exact hl
        | some v =>
          rw [hf] at hs; simp only [Option.some.injEq, Prod.mk.injEq] at hs
          rw [← hs.1]
          simp only [Spec.find, find_without]
          by_cases hk : k' = k
          · subst hk; rw [hf] at hl; simpa using hl
          · simpa [hk] using hl
      | getRef k' =>
        refine ih (cur := cur) ?_ h2
        simp only [Spec.step, Option.some.injEq, Prod.mk.injEq] at hs
        rw [← hs.1]; exact hl
      | remove k' =>
        refine ih ?_ h2
        simp only [Spec.step, Option.some.injEq, Prod.mk.injEq] at hs
        rw [← hs.1, find_without]
        by_cases hk : k' = k
        · simp [hk]
        · simpa [hk] using hl
      | drop =>
        refine ih ?_ h2
        simp only [Spec.step, Option.some.injEq, Prod.mk.injEq] at hs
        rw [← hs.1]; simp [Spec.find]
      | insert k' v =>
        refine ih ?_ h2
        simp only [Spec.step] at hs
        split at hs
        · have hp := find_prefix (fit_prefix (sz := sz) (room := cap - sz v) (l := l)) k
          cases hf : Spec.find (Spec.fit sz (cap - sz v) l) k' with
          | none =>
            rw [hf] at hs
            simp only [Option.some.injEq, Prod.mk.injEq] at hs
            rw [← hs.1]
            simp only [Spec.find]
            by_cases hk : k' = k
            · simp [hk]
            · simp only [if_neg hk]
              rcases hp with hp | hp
              · exact Or.inl hp
              · rw [hp]; exact hl
          | some old =>
            rw [hf] at hs
            simp only at hs
            split at hs
            · rename_i heq
              simp only [Option.some.injEq, Prod.mk.injEq] at hs
              rw [← hs.1]
              by_cases hk : k' = k
              · right; rw [← hk, hf, heq]; simp
              · simp only [if_neg hk]
                rcases hp with hp | hp
                · exact Or.inl hp
                · rw [hp]; exact hl
            · cases hs
        · cases hs

/-- A lookup after any history returns the value most recently inserted for
that key, or nothing.  It returns nothing if the key was removed since or never
inserted; that it otherwise returns nothing only after an eviction is
`C04_kept` and `C04_eviction_partial`. -/
theorem C04_lookup_latest (sz : V → Nat) (cap : Nat) (os : List (Op K V)) (c : Lru K V)
    (rs : List (Option V)) (h : run sz (withCapacity cap) os = some (c, rs)) (k : K) :
    (∃ c', get c k = some (c', getRef c k)) ∧
    (getRef c k = none ∨ getRef c k = Spec.latest k os none) := by
  obtain ⟨l, hs, r, hc⟩ := run_state h
  rw [r.getRef]
  refine ⟨?_, lookup_latest_aux k os (Or.inl rfl) hs⟩
  by_cases hk : k ∈ keys l
  · obtain ⟨a, v, b, rfl⟩ := mem_split hk
    obtain ⟨ha, -⟩ := nodup_split r.nodup
    obtain ⟨c', e, -⟩ := get_rep r
    rw [find_split ha]; exact ⟨c', e⟩
  · rw [find_eq_none.mpr hk]; exact ⟨c, get_rep_none r hk⟩

/-- No operation but `insert` and `remove` (and `drop_cache`) makes a cached key
disappear, and `remove` only the key it names. -/
theorem C04_kept (sz : V → Nat) (cap : Nat) (os : List (Op K V)) (c c' : Lru K V)
    (rs : List (Option V)) (r : Option V) (h : run sz (withCapacity cap) os = some (c, rs))
    (o : Op K V) (hs : step sz c o = some (c', r)) :
    match o with
    | .get _ | .getRef _ => ∀ x, getRef c' x = getRef c x
    | .remove k => r = getRef c k ∧ ∀ x, getRef c' x = if k = x then none else getRef c x
    | .drop => ∀ x, getRef c' x = none
    | .insert k v => getRef c' k = some v := by
  obtain ⟨l, -, rep, hc⟩ := run_state h
  have hst := step_rep rep o
  cases hsp : Spec.step sz c.capacity l o with
  | none => rw [hsp, hs] at hst; cases hst
  | some p =>
    obtain ⟨l', r'⟩ := p
    rw [hsp, hs] at hst
    obtain ⟨c1, e, rep', -⟩ := hst
    cases e
    cases o with
    | get k =>
      intro x
      rw [rep.getRef, rep'.getRef]
      simp only [Spec.step] at hsp
      cases hf : Spec.find l k with
      | none => rw [hf] at hsp; simp only [Option.some.injEq, Prod.mk.injEq] at hsp; rw [← hsp.1]
      | some v =>
        rw [hf] at hsp; simp only [Option.some.injEq, Prod.mk.injEq] at hsp
        rw [← hsp.1]
        simp only [Spec.find, find_without]
        by_cases hk : k = x
        · subst hk; simp [hf]
        · simp [hk]
    | getRef k =>
      intro x
      rw [rep.getRef, rep'.getRef]
      simp only [Spec.step, Option.some.injEq, Prod.mk.injEq] at hsp
      rw [hsp.1]
    | remove k =>
      simp only [Spec.step, Option.some.injEq, Prod.mk.injEq] at hsp
      refine ⟨by rw [rep.getRef, hsp.2], fun x => ?_⟩
      rw [rep.getRef, rep'.getRef, ← hsp.1, find_without]
    | drop =>
      intro x
      simp only [Spec.step, Option.some.injEq, Prod.mk.injEq] at hsp
      rw [rep'.getRef, ← hsp.1]; rfl
    | insert k v =>
      show getRef c' k = some v
      rw [rep'.getRef]
      simp only [Spec.step] at hsp
      split at hsp
      · cases hf : Spec.find (Spec.fit sz (c.capacity - sz v) l) k with
        | none =>
          rw [hf] at hsp; simp only [Option.some.injEq, Prod.mk.injEq] at hsp
          rw [← hsp.1]; simp [Spec.find]
        | some old =>
          rw [hf] at hsp; simp only at hsp
          split at hsp
          · rename_i heq
            simp only [Option.some.injEq, Prod.mk.injEq] at hsp
            rw [← hsp.1, hf, heq]
          · cases hsp
      · cases hsp

/-! ## Recency -/

theorem idxOf_cons_ne' {log : List K} {k x : K} (h : k ≠ x) :
    (k :: log).idxOf x = log.idxOf x + 1 := by
  rw [List.idxOf_cons]
  have : (k == x) = false := by simpa using h
  simp [this]

theorem recency_aux {sz : V → Nat} {cap : Nat} (os : List (Op K V)) :
    ∀ {l l' : List (K × V)} {rs : List (Option V)} {log : List K},
      (keys l).Nodup → Spec.bytes sz l ≤ cap →
      (keys l).Pairwise (Spec.moreRecent log) → Spec.run sz cap l os = some (l', rs) →
      (keys l').Pairwise (Spec.moreRecent (Spec.useLog sz cap l os log)) := by
  induction os with
  | nil =>
    intro l l' rs log _ _ hl h
    simp only [Spec.run, Option.some.injEq, Prod.mk.injEq] at h
    rw [← h.1]; exact hl
  | cons o os ih =>
    intro l l' rs log hnd hb hl h
    simp only [Spec.run] at h
    cases hs : Spec.step sz cap l o with
    | none => rw [hs] at h; cases h
    | some p =>
      obtain ⟨l1, r⟩ := p
      rw [hs] at h
      simp only [Option.map_eq_some_iff] at h
      obtain ⟨⟨l2, rs2⟩, h2, h3⟩ := h
      simp only [Prod.mk.injEq] at h3
      obtain ⟨rfl, -⟩ := h3
      obtain ⟨hnd1, hb1⟩ := spec_step_inv hnd hb hs
      simp only [Spec.useLog, hs]
      refine ih hnd1 hb1 ?_ h2
      have push : ∀ {k : K} {v : V} {m : List (K × V)}, k ∉ keys m →
          (keys m).Pairwise (Spec.moreRecent log) →
          (keys ((k, v) :: m)).Pairwise (Spec.moreRecent (k :: log)) := by
        intro k v m hk hm
        simp only [keys, List.map_cons, List.pairwise_cons]
        constructor
        · intro x hx
          have : k ≠ x := by rintro rfl; exact hk hx
          unfold Spec.moreRecent
          rw [idxOf_cons_ne' this]; simp
        · refine List.Pairwise.imp_of_mem (R := Spec.moreRecent log) ?_ hm
          intro a b ha hb hab
          have h1 : k ≠ a := by rintro rfl; exact hk ha
          have h2 : k ≠ b := by rintro rfl; exact hk hb
          unfold Spec.moreRecent at hab ⊢
          rw [idxOf_cons_ne' h1, idxOf_cons_ne' h2]
          omega
      have hwo : ∀ k, (keys (Spec.without l k)).Pairwise (Spec.moreRecent log) := fun k =>
        hl.sublist ((List.filter_sublist).map _)
      cases o with
      | get k =>
        simp only [Spec.step] at hs
        cases hf : Spec.find l k with
        | none =>
          rw [hf] at hs; simp only [Option.some.injEq, Prod.mk.injEq] at hs
          rw [← hs.1]; simpa [Spec.uses, hf] using hl
        | some v =>
          rw [hf] at hs; simp only [Option.some.injEq, Prod.mk.injEq] at hs
          rw [← hs.1]
          simp only [Spec.uses, hf, Option.map_some, Option.toList_some, List.cons_append,
            List.nil_append]
          refine push ?_ (hwo k)
          rw [← find_eq_none, find_without]; simp
      | getRef k =>
        simp only [Spec.step, Option.some.injEq, Prod.mk.injEq] at hs
        rw [← hs.1]; exact hl
      | remove k =>
        simp only [Spec.step, Option.some.injEq, Prod.mk.injEq] at hs
        rw [← hs.1]; exact hwo k
      | drop =>
        simp only [Spec.step, Option.some.injEq, Prod.mk.injEq] at hs
        rw [← hs.1]; simp [keys]
      | insert k v =>
        simp only [Spec.step] at hs
        split at hs
        · have hfit : (keys (Spec.fit sz (cap - sz v) l)).Pairwise (Spec.moreRecent log) :=
            hl.sublist ((fit_prefix.sublist).map _)
          cases hf : Spec.find (Spec.fit sz (cap - sz v) l) k with
          | none =>
            rw [hf] at hs; simp only [Option.some.injEq, Prod.mk.injEq] at hs
            rw [← hs.1]
            simp only [Spec.uses, hf, if_true, Option.toList_some, List.cons_append,
              List.nil_append]
            exact push (find_eq_none.mp hf) hfit
          | some old =>
            rw [hf] at hs; simp only at hs
            split at hs
            · simp only [Option.some.injEq, Prod.mk.injEq] at hs
              rw [← hs.1]
              simpa [Spec.uses, hf] using hfit
            · cases hs
        · cases hs

/-- An `insert` of a key that is not cached, after any history, evicts only
entries less recently used than every entry it keeps; and it evicts no more
than needed: if it evicts anything, it could not also have kept the most
recently used of the evicted entries. -/
theorem C04_eviction_partial (sz : V → Nat) (cap : Nat) (os : List (Op K V)) (c c' : Lru K V)
    (rs : List (Option V)) (h : run sz (withCapacity cap) os = some (c, rs)) (k : K) (v : V)
    (hk : getRef c k = none) (hi : insert sz c k v = some c') :
    getRef c' k = some v ∧
    (∀ x, x ≠ k → getRef c' x = none ∨ getRef c' x = getRef c x) ∧
    (∀ x y, getRef c x ≠ none → getRef c' x = none → getRef c' y ≠ none → y ≠ k →
      Spec.moreRecent (Spec.log sz cap os) y x) ∧
    ((∃ x, getRef c x ≠ none ∧ getRef c' x = none) →
      ∃ x w, getRef c x = some w ∧ getRef c' x = none ∧ cap < c'.size + sz w ∧
        ∀ y, y ≠ x → getRef c y ≠ none → getRef c' y = none →
          Spec.moreRecent (Spec.log sz cap os) x y) := by
  obtain ⟨l, hs, rep, hcap⟩ := run_state h
  have hb := bytes_le_cap (sz := sz) (cap := cap) os (l := []) (by simp [keys]) (by simp [Spec.bytes]) hs
  have hrec := recency_aux (sz := sz) (cap := cap) os (l := []) (log := []) (by simp [keys])
    (by simp [Spec.bytes]) (by simp [keys]) hs
  change (keys l).Pairwise (Spec.moreRecent (Spec.log sz cap os)) at hrec
  generalize Spec.log sz cap os = log at *
  have hst := insert_spec (k := k) (v := v) rep
  rw [hcap] at hst
  simp only [Spec.step] at hst
  rw [rep.getRef] at hk
  by_cases hv : sz v ≤ cap
  · rw [if_pos hv] at hst
    have hkl := find_eq_none.mp hk
    have hpre := fit_prefix (sz := sz) (room := cap - sz v) (l := l)
    have hmax := fun p r => fit_maximal (sz := sz) (room := cap - sz v) (l := l) (p := p) (r := r)
    have hle := fit_le (sz := sz) (room := cap - sz v) (l := l)
    generalize Spec.fit sz (cap - sz v) l = m at *
    have hkm : k ∉ keys m := fun hc => hkl ((hpre.sublist.map _).subset hc)
    rw [find_eq_none.mpr hkm] at hst
    obtain ⟨c1, e, rep', -⟩ := hst
    rw [hi] at e
    cases e
    obtain ⟨t, ht⟩ := hpre
    have hnd := rep.nodup
    -- memberships
    have hc' : ∀ x, x ≠ k → (getRef c' x ≠ none ↔ x ∈ keys m) := by
      intro x hx
      rw [rep'.getRef]
      simp only [Spec.find, if_neg (Ne.symm hx), ne_eq, find_eq_none, Decidable.not_not]
    have hc : ∀ x, (getRef c x ≠ none ↔ x ∈ keys l) := by
      intro x
      rw [rep.getRef]
      simp only [ne_eq, find_eq_none, Decidable.not_not]
    have hkt : keys l = keys m ++ keys t := by rw [← ht]; simp [keys]
    rw [hkt, List.pairwise_append] at hrec
    obtain ⟨-, hrt, hcross⟩ := hrec
    have hne : ∀ x, getRef c x ≠ none → x ≠ k := by
      rintro x hx rfl
      exact hkl ((hc x).mp hx)
    have ev : ∀ x, getRef c x ≠ none → getRef c' x = none → x ∈ keys t := by
      intro x hx hx'
      have h1 := (hc x).mp hx
      rw [hkt, List.mem_append] at h1
      rcases h1 with h1 | h1
      · exact absurd hx' ((hc' x (hne x hx)).mpr h1)
      · exact h1
    refine ⟨?_, ?_, ?_, ?_⟩
    · rw [rep'.getRef]; simp [Spec.find]
    · intro x hx
      rw [rep'.getRef, rep.getRef]
      simp only [Spec.find, if_neg (Ne.symm hx)]
      exact find_prefix ⟨t, ht⟩ x
    · intro x y hx hx' hy hyk
      exact hcross y ((hc' y hyk).mp hy) x (ev x hx hx')
    · rintro ⟨x, hx, hx'⟩
      have hxt := ev x hx hx'
      cases t with
      | nil => simp [keys] at hxt
      | cons q t =>
        obtain ⟨z, w⟩ := q
        have hzm : z ∉ keys m := by
          intro hc
          rw [hkt, List.nodup_append] at hnd
          exact hnd.2.2 z hc z (by simp [keys]) rfl
        have hzl : z ∈ keys l := by rw [hkt]; simp [keys]
        have hzk : z ≠ k := by rintro rfl; exact hkl hzl
        refine ⟨z, w, ?_, ?_, ?_, ?_⟩
        · rw [rep.getRef, ← ht, find_split hzm]
        · rw [rep'.getRef]
          simp only [Spec.find, if_neg (Ne.symm hzk)]
          exact find_eq_none.mpr hzm
        · have h1 := hmax (z, w) t ht.symm
          have h2 := rep'.size
          simp only [total, Spec.bytes, List.map_cons, List.sum_cons, List.map_append,
            List.sum_append, List.map_nil, List.sum_nil] at h1 h2
          omega
        · intro y hyz hy hy'
          have := ev y hy hy'
          simp only [keys, List.map_cons, List.mem_cons, List.pairwise_cons] at this hrt
          rcases this with rfl | this
          · exact absurd rfl hyz
          · exact hrt.1 y this
  · rw [if_neg hv] at hst
    rw [hst] at hi; cases hi

/-- What is missing from `C04_eviction_partial`: the insertion of a value that
is already cached evicts entries although no room is needed... -/
theorem C04_duplicate_insert_evicts :
    ∃ c c' : Lru Nat Nat,
      run (fun _ => 1) (withCapacity 2) [.insert 1 10, .insert 2 20] = some (c, [none, none]) ∧
      insert (fun _ => 1) c 2 20 = some c' ∧ getRef c 1 = some 10 ∧ getRef c' 1 = none ∧
      c'.size = 1 := by
  refine ⟨_, _, rfl, rfl, ?_⟩
  decide

/-- ... and does not mark it as the most recently used: here key 1 is inserted
after key 2, yet is evicted first. -/
theorem C04_duplicate_insert_not_most_recent :
    ∃ c : Lru Nat Nat,
      run (fun _ => 1) (withCapacity 3)
        [.insert 1 10, .insert 2 20, .insert 1 10, .insert 3 30, .insert 4 40] =
        some (c, [none, none, none, none, none]) ∧
      getRef c 1 = none ∧ getRef c 2 = some 20 := by
  refine ⟨_, rfl, ?_⟩
  decide

/-- A history with hits, an eviction of two entries and a removal. -/
example : ∃ c : Lru Nat Nat,
    run id (withCapacity 10)
      [.insert 1 4, .insert 2 3, .insert 3 2, .get 1, .insert 4 6, .remove 9] =
      some (c, [none, none, none, some 4, none, none]) ∧
    getRef c 1 = some 4 ∧ getRef c 2 = none ∧ getRef c 3 = none ∧ getRef c 4 = some 6 ∧
    c.size = 10 := by
  refine ⟨_, rfl, ?_⟩
  decide

example : Spec.log (K := Nat) id 10 [.insert 1 4, .insert 2 3, .insert 3 2, .get 1] = [1, 3, 2, 1] := by
  decide

end Verif.Cache
