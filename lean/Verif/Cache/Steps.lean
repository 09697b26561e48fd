import Verif.Cache.Lemmas
import Verif.Cache.Spec

/-! # Every operation of the code refines the specification -/

namespace Verif.Cache

variable {K V : Type} [DecidableEq K]

omit [DecidableEq K] in
theorem nodup_split {a b : List (K × V)} {k : K} {v : V} (hn : (keys (a ++ (k, v) :: b)).Nodup) :
    k ∉ keys a ∧ k ∉ keys b ∧ (keys a).Nodup ∧ (keys b).Nodup ∧ (∀ x, x ∈ keys a → x ∉ keys b) := by
  simp only [keys, List.map_append, List.map_cons, List.nodup_append, List.nodup_cons] at hn ⊢
  exact ⟨fun h => hn.2.2 k h k (by simp) rfl, hn.2.1.1, hn.1, hn.2.1.2,
    fun x hx hb => hn.2.2 x hx x (List.mem_cons_of_mem _ hb) rfl⟩

theorem ent_isSome {l : List (K × V)} {p n : Option K} {x : K} (hx : x ∈ keys l) :
    ent p l n x ≠ none := fun h => (ent_eq_none _ _ _ _).mp h hx

theorem get_rep {sz : V → Nat} {c : Lru K V} {a b : List (K × V)} {k : K} {v : V}
    (h : Rep sz c (a ++ (k, v) :: b)) :
    ∃ c', get c k = some (c', some v) ∧ Rep sz c' ((k, v) :: (a ++ b)) ∧
      c'.capacity = c.capacity := by
  have hn := h.nodup
  obtain ⟨hka, hkb, hna, hnb, hab⟩ := nodup_split hn
  have hg : HMap.get c.store k = some ⟨v, firstKey b none, lastKey none a⟩ := by
    rw [h.get, ent_split hn]
  have hmru : c.mru = firstKey (a ++ (k, v) :: b) none := h.mru
  have hlru : c.lru = lastKey none (a ++ (k, v) :: b) := h.lru
  cases a with
  | nil =>
    refine ⟨c, ?_, h, rfl⟩
    unfold Verif.Cache.get
    rw [if_pos (by simp [hmru, firstKey]), hg]
  | cons q a =>
    obtain ⟨k0, v0⟩ := q
    have hmru' : c.mru = some k0 := by simp [hmru, firstKey]
    have hk0 : k0 ≠ k := by intro hc; exact hka (by simp [keys, hc])
    have hne : ∀ x, x ∈ keys ((k0, v0) :: a) → k ≠ x := fun x hx hk => hka (hk ▸ hx)
    have hneb : ∀ x, x ∈ keys b → k ≠ x := fun x hx hk => hkb (hk ▸ hx)
    obtain ⟨z, hz⟩ : ∃ z, lastKey none ((k0, v0) :: a) = some z := by
      cases hc : lastKey none ((k0, v0) :: a) with
      | none => exact absurd (lastKey_none.mp hc).2 (by simp)
      | some z => exact ⟨z, rfl⟩
    have hza : z ∈ keys ((k0, v0) :: a) := by simpa using lastKey_mem hz
    have hf : ∀ y, firstKey b none = some y → y ∈ keys b := fun y hy => by
      have := firstKey_mem hy; simpa using this
    generalize hA : (k0, v0) :: a = A at *
    let m0 := HMap.put c.store k ⟨v, some k0, none⟩
    have g0 : ∀ x, HMap.get m0 x = if k = x then some ⟨v, some k0, none⟩
        else (ent none A (some k) x).or (ent (some k) b none x) := by
      intro x
      show HMap.get (HMap.put _ _ _) x = _
      rw [HMap.get_put, h.get, ent_append]
      by_cases hx : k = x
      · simp [hx]
      · simp [hx, firstKey, ent]
    have n0 : HMap.NodupKeys m0 := HMap.nodup_put h.snodup _ _
    have l0 : m0.length = c.store.length := HMap.length_put_some _ h.snodup hg
    obtain ⟨m1, e1, n1, l1, g1⟩ := modifyOpt_spec (o := some z)
      (f := fun e => { e with lru := firstKey b none }) n0 (by
        rintro _ ⟨⟩
        rw [g0, if_neg (hne z hza)]
        have := ent_isSome (p := none) (n := some k) hza
        cases hc : ent none A (some k) z with
        | none => exact absurd hc this
        | some e => simp)
    obtain ⟨m2, e2, n2, l2, g2⟩ := modifyOpt_spec (o := firstKey b none)
      (f := fun e => { e with mru := some z }) n1 (by
        intro y hy
        have hyb := hf y hy
        have hyA : ent none A (some k) y = none :=
          (ent_eq_none _ _ _ _).mpr (fun hc => hab y hc hyb)
        rw [g1, g0, if_neg (hneb y hyb), hyA]
        have := ent_isSome (p := some k) (n := none) hyb
        cases hc : ent (some k) b none y with
        | none => exact absurd hc this
        | some e => simp; split <;> simp)
    have hk0A : k0 ∈ keys A := by simp [← hA, keys]
    obtain ⟨m3, e3, n3, l3, g3⟩ := modifyOpt_spec (o := some k0)
      (f := fun e => { e with mru := some k }) n2 (by
        rintro _ ⟨⟩
        have hnf : firstKey b none ≠ some k0 := fun hc => hab k0 hk0A (hf k0 hc)
        rw [g2, if_neg hnf, g1, g0, if_neg (Ne.symm hk0)]
        have := ent_isSome (p := none) (n := some k) hk0A
        cases hc : ent none A (some k) k0 with
        | none => exact absurd hc this
        | some e => simp; split <;> simp)
    refine ⟨⟨c.capacity, if b = [] then some z else c.lru, some k, c.size, m3⟩, ?_,
      ⟨?_, ?_, ?_, ?_, ?_, n3, ?_⟩, rfl⟩
    · have hlr : relinkEnd (firstKey b none) c.lru (some z) k =
          some (if b = [] then some z else c.lru) := by
        cases b with
        | nil => simp [hlru, lastKey_append, lastKey, firstKey, relinkEnd]
        | cons q b => simp [firstKey, relinkEnd]
      have e1' : HMap.modify m0 z (fun e => { e with lru := firstKey b none }) = some m1 := e1
      unfold Verif.Cache.get
      rw [if_neg (by rw [hmru']; simpa using hk0), hg]
      simp only [hz, hmru', Option.bind_eq_bind, Option.bind_some]
      show (HMap.modify m0 z _).bind _ = _
      rw [e1']
      simp only [Option.bind_some, e2, hlr, e3]
    · simp only [keys, List.map_append, List.map_cons, List.nodup_cons, List.nodup_append,
        List.mem_append]
      refine ⟨?_, hna, hnb, ?_⟩
      · rintro (h | h)
        · exact hka h
        · exact hkb h
      · rintro x hx y hy rfl
        exact hab x hx hy
    · intro x
      show HMap.get m3 x = _
      rw [g3, g2, g1, g0]
      simp only [ent]
      by_cases hx : k = x
      · subst hx
        have h1 : firstKey b none ≠ some k := fun hc => hkb (hf k hc)
        have h2 : z ≠ k := fun hc => hka (hc ▸ hza)
        rw [if_neg (by simpa using hk0), if_neg h1, if_neg (by simpa using h2)]
        simp [firstKey, ← hA]
      · simp only [if_neg hx]
        rw [ent_append]
        by_cases hxa : x ∈ keys A
        · have hxb := hab x hxa
          have hnf : firstKey b none ≠ some x := fun hc => hxb (hf x hc)
          have hb1 := fun p n => (ent_eq_none (V := V) p b n x).mpr hxb
          rw [if_neg hnf, hb1, hb1, ent_prev none (some k) _ x, ent_next hna (some k) (firstKey b none) x,
            hz]
          have hfk : firstKey A none = some k0 := by simp [← hA, firstKey]
          rw [hfk]
          by_cases h1 : k0 = x <;> by_cases h2 : z = x <;> simp [h1, h2]
        · have hnl : z ≠ x := fun hc => hxa (hc ▸ hza)
          have hnk0 : k0 ≠ x := fun hc => hxa (hc ▸ hk0A)
          have ha1 := fun p n => (ent_eq_none (V := V) p A n x).mpr hxa
          have hlk : lastKey (some k) A = some z := by rw [← hz, ← hA]; rfl
          rw [ha1, ha1, hlk, ent_prev (some k) (some z) none x]
          simp [hnl, hnk0]
    · rfl
    · show (if b = [] then some z else c.lru) = lastKey (some k) (A ++ b)
      have hlk : lastKey (some k) A = some z := by rw [← hz, ← hA]; rfl
      rw [lastKey_append, hlk, hlru]
      cases b with
      | nil => simp [lastKey]
      | cons q b => obtain ⟨k1, v1⟩ := q; simp [lastKey_append, lastKey]
    · have := h.size
      simp only [total_append, total_cons] at this ⊢
      omega
    · have hlen := h.length
      simp only [List.length_append, List.length_cons] at hlen ⊢
      omega

theorem get_rep_none {sz : V → Nat} {c : Lru K V} {l : List (K × V)} {k : K}
    (h : Rep sz c l) (hk : k ∉ keys l) : get c k = some (c, none) := by
  have hg : HMap.get c.store k = none := by rw [h.get, ent_eq_none]; exact hk
  unfold Verif.Cache.get
  rw [if_neg, hg]
  intro hc
  rw [h.mru] at hc
  rcases firstKey_mem hc with h | h
  · simp at h
  · exact hk h

theorem remove_rep_none {sz : V → Nat} {c : Lru K V} {l : List (K × V)} {k : K}
    (h : Rep sz c l) (hk : k ∉ keys l) : remove sz c k = some (c, none) := by
  have hg : HMap.get c.store k = none := by rw [h.get, ent_eq_none]; exact hk
  simp [remove, hg]

/-! ## Eviction -/

omit [DecidableEq K] in
theorem fit_eq_self {sz : V → Nat} {room : Nat} {l : List (K × V)} (h : total sz l ≤ room) :
    Spec.fit sz room l = l := by
  induction l generalizing room with
  | nil => rfl
  | cons p l ih =>
    obtain ⟨k, v⟩ := p
    rw [total_cons] at h
    simp only [Spec.fit]
    rw [if_pos (by omega), ih (by omega)]

omit [DecidableEq K] in
theorem fit_append_last {sz : V → Nat} {room : Nat} {l : List (K × V)} {p : K × V}
    (h : room < total sz (l ++ [p])) : Spec.fit sz room (l ++ [p]) = Spec.fit sz room l := by
  induction l generalizing room with
  | nil =>
    obtain ⟨k, v⟩ := p
    simp only [total, List.nil_append, List.map_cons, List.map_nil, List.sum_cons, List.sum_nil] at h
    simp only [List.nil_append, Spec.fit]
    rw [if_neg (by omega)]
  | cons q l ih =>
    obtain ⟨k, v⟩ := q
    simp only [List.cons_append, Spec.fit]
    split
    · rw [ih]
      rw [List.cons_append, total_cons] at h
      omega
    · rfl

theorem evict_rep {sz : V → Nat} {space : Nat} {l : List (K × V)} : ∀ {n : Nat} {c : Lru K V},
    Rep sz c l → l.length ≤ n → space ≤ c.capacity →
    ∃ c', evict sz space n c = some c' ∧ Rep sz c' (Spec.fit sz (c.capacity - space) l) ∧
      c'.capacity = c.capacity := by
  induction h : l.length generalizing l with
  | zero =>
    intro n c hr hn hs
    have : l = [] := List.eq_nil_of_length_eq_zero h
    subst this
    have hsz := hr.size
    simp only [total, List.map_nil, List.sum_nil] at hsz
    refine ⟨c, ?_, hr, rfl⟩
    cases n <;> · unfold evict; rw [if_neg (by omega)]
  | succ m ih =>
    intro n c hr hn hs
    obtain ⟨n, rfl⟩ : ∃ n', n = n' + 1 := ⟨n - 1, by omega⟩
    unfold evict
    by_cases hc : c.size + space > c.capacity
    · rw [if_pos hc]
      obtain ⟨l', p, rfl⟩ : ∃ l' p, l = l' ++ [p] := by
        rcases List.eq_nil_or_concat l with h' | ⟨l', p, h'⟩
        · subst h'; simp at h
        · exact ⟨l', p, by simpa using h'⟩
      obtain ⟨k, v⟩ := p
      have hlru : c.lru = some k := by rw [hr.lru, lastKey_append]; rfl
      obtain ⟨c1, e1, r1, cap1⟩ := remove_rep (b := []) hr
      rw [List.append_nil] at r1
      have hex : expire sz c = some c1 := by simp [expire, hlru, e1]
      rw [hex]
      have hlen : l'.length = m := by simpa using h
      obtain ⟨c2, e2, r2, cap2⟩ := ih hlen (n := n) (c := c1) r1 (by omega) (by omega)
      refine ⟨c2, e2, ?_, by omega⟩
      rw [fit_append_last, ← cap1]
      · exact r2
      · rw [← hr.size]; omega
    · rw [if_neg hc]
      refine ⟨c, rfl, ?_, rfl⟩
      rw [fit_eq_self]
      · exact hr
      · rw [← hr.size]; omega

variable [DecidableEq V]

theorem push_rep {sz : V → Nat} {c : Lru K V} {l : List (K × V)} {k : K} {v : V}
    (h : Rep sz c l) (hk : k ∉ keys l) (hs : sz v + total sz l ≤ c.capacity) :
    ∃ c', insert sz c k v = some c' ∧ Rep sz c' ((k, v) :: l) ∧ c'.capacity = c.capacity := by
  have hev : evict sz (sz v) c.store.length c = some c := by
    have := h.size
    cases c.store.length <;> · unfold evict; rw [if_neg (by omega)]
  have hg : HMap.get c.store k = none := by rw [h.get, ent_eq_none]; exact hk
  have hnd : (keys ((k, v) :: l)).Nodup := by
    simp only [keys, List.map_cons, List.nodup_cons]; exact ⟨hk, h.nodup⟩
  have hsz := h.size
  unfold insert
  simp only
  rw [if_pos (by omega), hev]
  simp only [hg]
  cases l with
  | nil =>
    have hm : c.mru = none := h.mru
    have hl : c.lru = none := h.lru
    rw [hm]
    refine ⟨_, rfl, ⟨hnd, ?_, rfl, by simp [hl, lastKey], ?_, HMap.nodup_put h.snodup _ _, ?_⟩, rfl⟩
    · intro x
      rw [HMap.get_put, h.get]
      simp [ent, firstKey]
    · simp only [total, List.map_nil, List.map_cons, List.sum_nil, List.sum_cons] at hsz ⊢; omega
    · have := h.length
      simp only [List.length_cons]
      rw [HMap.length_put_none _ hg]; simp [this]
  | cons q l =>
    obtain ⟨k0, v0⟩ := q
    have hm : c.mru = some k0 := h.mru
    have hne : k ≠ k0 := by rintro rfl; exact hk (by simp [keys])
    have hg0 : HMap.get c.store k0 = some ⟨v0, firstKey l none, none⟩ := by
      rw [h.get]; simp [ent]
    rw [hm]
    simp only [HMap.get_put, if_neg hne, hg0, if_true]
    refine ⟨_, rfl, ⟨hnd, ?_, rfl, ?_, ?_, HMap.nodup_put (HMap.nodup_put h.snodup _ _) _ _, ?_⟩, rfl⟩
    · intro x
      rw [HMap.get_put, HMap.get_put, h.get]
      by_cases h1 : k0 = x
      · subst h1; simp [ent, hne]
      · by_cases h2 : k = x <;> simp [ent, h1, h2, firstKey]
    · have hl : c.lru = lastKey (some k0) l := h.lru
      simp only [lastKey]
      rw [hl]
      cases hc : lastKey (some k0) l with
      | none => exact absurd (lastKey_none.mp hc).1 (by simp)
      | some z => rfl
    · simp only [total, List.map_cons, List.sum_cons] at hsz ⊢; omega
    · have := h.length
      simp only [List.length_cons] at this ⊢
      rw [HMap.length_put_some (e := ⟨v0, firstKey l none, none⟩) _ (HMap.nodup_put h.snodup _ _)
        (by rw [HMap.get_put, if_neg hne, hg0]), HMap.length_put_none _ hg]
      omega

/-! ## The specification's list functions -/

omit [DecidableEq V] in
theorem find_eq_none {l : List (K × V)} {k : K} : Spec.find l k = none ↔ k ∉ keys l := by
  induction l with
  | nil => simp [Spec.find, keys]
  | cons p l ih =>
    obtain ⟨q, v⟩ := p
    simp only [Spec.find, keys, List.map_cons, List.mem_cons] at *
    split
    · rename_i h; simp [h]
    · rename_i h; rw [ih]; grind

omit [DecidableEq V] in
theorem find_split {a b : List (K × V)} {k : K} {v : V} (hk : k ∉ keys a) :
    Spec.find (a ++ (k, v) :: b) k = some v := by
  induction a with
  | nil => simp [Spec.find]
  | cons p a ih =>
    obtain ⟨q, w⟩ := p
    simp only [keys, List.map_cons, List.mem_cons, not_or] at hk
    simp only [List.cons_append, Spec.find]
    rw [if_neg (fun h => hk.1 h.symm)]
    exact ih hk.2

omit [DecidableEq V] in
theorem without_eq_self {l : List (K × V)} {k : K} (hk : k ∉ keys l) : Spec.without l k = l := by
  unfold Spec.without
  rw [List.filter_eq_self]
  intro p hp
  simp only [ne_eq, decide_not, Bool.not_eq_eq_eq_not, Bool.not_true, decide_eq_false_iff_not]
  rintro rfl
  exact hk (List.mem_map_of_mem hp)

omit [DecidableEq V] in
theorem without_split {a b : List (K × V)} {k : K} {v : V} (ha : k ∉ keys a) (hb : k ∉ keys b) :
    Spec.without (a ++ (k, v) :: b) k = a ++ b := by
  have h1 := without_eq_self ha
  have h2 := without_eq_self hb
  unfold Spec.without at *
  rw [List.filter_append, List.filter_cons, h1, h2]; simp

omit [DecidableEq K] [DecidableEq V] in
theorem fit_prefix {sz : V → Nat} {room : Nat} {l : List (K × V)} : Spec.fit sz room l <+: l := by
  induction l generalizing room with
  | nil => exact List.prefix_rfl
  | cons p l ih =>
    obtain ⟨k, v⟩ := p
    simp only [Spec.fit]
    split
    · exact List.prefix_cons_inj _ |>.mpr ih
    · exact List.nil_prefix

omit [DecidableEq K] [DecidableEq V] in
theorem fit_le {sz : V → Nat} {room : Nat} {l : List (K × V)} :
    Spec.bytes sz (Spec.fit sz room l) ≤ room := by
  induction l generalizing room with
  | nil => simp [Spec.bytes, Spec.fit]
  | cons p l ih =>
    obtain ⟨k, v⟩ := p
    simp only [Spec.fit]
    split
    · have := ih (room := room - sz v)
      simp only [Spec.bytes, List.map_cons, List.sum_cons] at this ⊢
      omega
    · simp [Spec.bytes]

omit [DecidableEq K] [DecidableEq V] in
/-- Any longer prefix is too big. -/
theorem fit_maximal {sz : V → Nat} {room : Nat} {l : List (K × V)} {p : K × V} {r : List (K × V)}
    (h : l = Spec.fit sz room l ++ p :: r) : room < Spec.bytes sz (Spec.fit sz room l ++ [p]) := by
  induction l generalizing room with
  | nil => simp [Spec.fit] at h
  | cons q l ih =>
    obtain ⟨k, v⟩ := q
    simp only [Spec.fit] at h ⊢
    split at h
    · rename_i hs
      rw [if_pos hs]
      simp only [List.cons_append, List.cons.injEq, true_and] at h
      have := ih h
      simp only [List.cons_append, Spec.bytes, List.map_cons, List.sum_cons] at this ⊢
      omega
    · rename_i hs
      rw [if_neg hs]
      simp only [List.nil_append, List.cons.injEq] at h
      simp only [Spec.bytes, List.nil_append, List.map_cons, List.map_nil, List.sum_cons, List.sum_nil, ← h.1]
      omega

omit [DecidableEq V] in
theorem rep_empty (sz : V → Nat) (cap : Nat) : Rep sz (withCapacity cap : Lru K V) [] :=
  ⟨by simp [keys], fun k => rfl, rfl, rfl, rfl, by simp [withCapacity, HMap.NodupKeys], rfl⟩

theorem insert_spec {sz : V → Nat} {c : Lru K V} {l : List (K × V)} {k : K} {v : V}
    (h : Rep sz c l) :
    (match Spec.step sz c.capacity l (.insert k v) with
    | none => insert sz c k v = none
    | some (l', _) => ∃ c', insert sz c k v = some c' ∧ Rep sz c' l' ∧ c'.capacity = c.capacity) := by
  simp only [Spec.step]
  by_cases hs : sz v ≤ c.capacity
  · rw [if_pos hs]
    obtain ⟨c1, e1, r1, cap1⟩ := evict_rep (space := sz v) h (n := c.store.length)
      (by rw [h.length]; exact Nat.le_refl _) hs
    generalize hl' : Spec.fit sz (c.capacity - sz v) l = l' at *
    cases hf : Spec.find l' k with
    | some old =>
      have hk : k ∈ keys l' := by
        refine Decidable.byContradiction fun hk => ?_
        rw [find_eq_none.mpr hk] at hf; cases hf
      obtain ⟨a, w, b, hab⟩ := mem_split hk
      have hnd := r1.nodup
      have hg : HMap.get c1.store k = some ⟨w, firstKey b none, lastKey none a⟩ := by
        rw [r1.get, hab, ent_split (hab ▸ hnd)]
      have hw : w = old := by
        rw [hab, find_split (nodup_split (hab ▸ hnd)).1] at hf
        exact Option.some.inj hf
      subst hw
      simp only
      have hi : insert sz c k v = if w = v then some c1 else none := by
        unfold insert
        simp only
        rw [if_pos hs, e1]
        simp only [hg]
      rw [hi]
      by_cases hv : w = v
      · rw [if_pos hv, if_pos hv]; exact ⟨c1, rfl, r1, cap1⟩
      · rw [if_neg hv, if_neg hv]
    | none =>
      have hk := find_eq_none.mp hf
      have hfit : sz v + total sz l' ≤ c1.capacity := by
        have : total sz l' ≤ c.capacity - sz v := by rw [← hl']; exact fit_le
        omega
      obtain ⟨c2, e2, r2, cap2⟩ := push_rep r1 hk hfit
      refine ⟨c2, ?_, r2, by omega⟩
      rw [← e2]
      have hev : evict sz (sz v) c1.store.length c1 = some c1 := by
        have := r1.size
        cases c1.store.length <;> · unfold evict; rw [if_neg (by omega)]
      unfold insert
      simp only
      rw [if_pos hs, if_pos (by omega), e1, hev]
  · rw [if_neg hs]
    simp [insert, hs]

theorem step_rep {sz : V → Nat} {c : Lru K V} {l : List (K × V)} (h : Rep sz c l)
    (o : Spec.Op K V) :
    match Spec.step sz c.capacity l o with
    | none => step sz c o = none
    | some (l', r) => ∃ c', step sz c o = some (c', r) ∧ Rep sz c' l' ∧ c'.capacity = c.capacity := by
  cases o with
  | get k =>
    simp only [Spec.step, step]
    by_cases hk : k ∈ keys l
    · obtain ⟨a, v, b, rfl⟩ := mem_split hk
      obtain ⟨ha, hb, -⟩ := nodup_split h.nodup
      rw [find_split ha]
      simp only
      rw [without_split ha hb]
      exact get_rep h
    · rw [find_eq_none.mpr hk]
      exact ⟨c, get_rep_none h hk, h, rfl⟩
  | getRef k =>
    simp only [Spec.step, step]
    refine ⟨c, ?_, h, rfl⟩
    congr 2
    unfold getRef
    rw [h.get]
    by_cases hk : k ∈ keys l
    · obtain ⟨a, v, b, rfl⟩ := mem_split hk
      obtain ⟨ha, hb, -⟩ := nodup_split h.nodup
      rw [find_split ha, ent_split h.nodup]; rfl
    · rw [find_eq_none.mpr hk, (ent_eq_none _ _ _ _).mpr hk]; rfl
  | remove k =>
    simp only [Spec.step, step]
    by_cases hk : k ∈ keys l
    · obtain ⟨a, v, b, rfl⟩ := mem_split hk
      obtain ⟨ha, hb, -⟩ := nodup_split h.nodup
      rw [find_split ha, without_split ha hb]
      exact remove_rep h
    · rw [find_eq_none.mpr hk, without_eq_self hk]
      exact ⟨c, remove_rep_none h hk, h, rfl⟩
  | drop =>
    exact ⟨dropCache c, rfl, ⟨by simp [keys], fun k => rfl, rfl, rfl, rfl,
      by simp [dropCache, HMap.NodupKeys], rfl⟩, rfl⟩
  | insert k v =>
    have := insert_spec (k := k) (v := v) h
    simp only [step]
    have hr : ∀ l' r, Spec.step sz c.capacity l (.insert k v) = some (l', r) → r = none := by
      intro l' r hr
      simp only [Spec.step] at hr
      grind
    cases hs : Spec.step sz c.capacity l (.insert k v) with
    | none => rw [hs] at this; simp [this]
    | some p =>
      obtain ⟨l', r⟩ := p
      rw [hs] at this
      obtain ⟨c', e, rr, hc⟩ := this
      exact ⟨c', by simp [e, hr _ _ hs], rr, hc⟩

theorem run_rep {sz : V → Nat} (os : List (Spec.Op K V)) {c : Lru K V} {l : List (K × V)}
    (h : Rep sz c l) :
    match Spec.run sz c.capacity l os with
    | none => run sz c os = none
    | some (l', rs) => ∃ c', run sz c os = some (c', rs) ∧ Rep sz c' l' ∧ c'.capacity = c.capacity := by
  induction os generalizing c l with
  | nil => exact ⟨c, rfl, h, rfl⟩
  | cons o os ih =>
    have hs := step_rep h o
    simp only [Spec.run, run]
    cases hsp : Spec.step sz c.capacity l o with
    | none => rw [hsp] at hs; simp [hs]
    | some p =>
      obtain ⟨l1, r⟩ := p
      rw [hsp] at hs
      obtain ⟨c1, e1, r1, cap1⟩ := hs
      have := ih r1
      rw [cap1] at this
      simp only [e1]
      cases hrn : Spec.run sz c.capacity l1 os with
      | none => rw [hrn] at this; simp [this]
      | some q =>
        obtain ⟨l2, rs⟩ := q
        rw [hrn] at this
        obtain ⟨c2, e2, r2, cap2⟩ := this
        exact ⟨c2, by simp [e2], r2, cap2⟩

end Verif.Cache
