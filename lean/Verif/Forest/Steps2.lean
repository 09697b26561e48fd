import Verif.Forest.Steps
import Verif.Forest.Inherit

/-!
# Listing, destroying, and the rest
-/

namespace Verif.Forest

open Verif (OMap)
open Verif.Property (Str Prp PName Source defaultValue)

variable {D : Type} {e : Env D} {N : Str → Prop} {db : Db D} {k : Client D}

/-! ### Listing -/

/-- The entries of a file system in the forest. -/
theorem Inv.mem_children (v : Inv e N db k) (hN : Names e N) {p : Path} {i c}
    (h : k.fs p = some (i, c)) (offs x : Nat) (u : Value D) :
    (x, u) ∈ children db.forest i offs ↔
      ∃ n j d, k.fs (p ++ [n]) = some (j, d) ∧ x = key i (e.hash n) ∧ u = .ent j n ∧
        offs ≤ e.hash n := by
  unfold children
  rw [OMap.mem_iff_get (v.sorted.range _ _), OMap.get_range]
  constructor
  · intro hx
    split at hx
    · rename_i hr
      rcases v.keys _ _ hx with ⟨q, j, d, h1, h2⟩ | ⟨q, m, j, d, j', d', h1, h2, h3⟩
      · exfalso
        unfold key at hr h2
        omega
      · have hm := (v.ents q m j' d' h2).1
        have hlt := hash_lt e m
        have hi : j = i := by
          unfold key at hr h3
          omega
        subst hi
        have := v.inj _ _ _ _ _ h1 h
        subst this
        rw [h3, v.getEnt hN h hm, h2] at hx
        simp only [Option.map_some, Option.some.injEq] at hx
        refine ⟨m, j', d', h2, h3, hx.symm, ?_⟩
        unfold key at hr h3
        omega
    · cases hx
  · rintro ⟨n, j, d, h1, rfl, rfl, h2⟩
    have hn := (v.ents p n j d h1).1
    have hh := hN.hash n hn
    have hlt := hash_lt e n
    rw [if_pos (by unfold key; omega), v.getEnt hN h hn, h1]
    rfl

/-- `dirent` where it does not panic -/
def direntOf : Nat × Value D → Str × Nat × Nat
  | (x, .ent id n) => (n, id, x % 2 ^ 64 + 1)
  | (_, .tree _ _) => ([], 0, 0)

theorem mapM_dirent (l : OMap (Value D)) (h : ∀ x u, (x, u) ∈ l → ∃ j n, u = .ent j n) :
    l.mapM dirent = some (l.map direntOf) := by
  induction l with
  | nil => rfl
  | cons a t ih =>
    obtain ⟨x, u⟩ := a
    obtain ⟨j, n, rfl⟩ := h x u (by simp)
    rw [List.mapM_cons, ih (fun x u hm => h x u (List.mem_cons_of_mem _ hm))]
    rfl

theorem Inv.readdir (v : Inv e N db k) (hN : Names e N) {p : Path} {i c}
    (h : k.fs p = some (i, c)) (offs : Nat) :
    readdir db.forest i offs = some ((children db.forest i offs).map direntOf) := by
  refine mapM_dirent _ ?_
  intro x u hx
  obtain ⟨n, j, d, _, _, rfl, _⟩ := (v.mem_children hN h offs x u).1 hx
  exact ⟨j, n, rfl⟩

theorem key_mod {i h : Nat} (hh : h < 2 ^ 64) : key i h % 2 ^ 64 = h := by
  unfold key
  rw [Nat.add_comm, Nat.add_mul_mod_self_right, Nat.mod_eq_of_lt hh]

theorem key_le_iff {i a b : Nat} : key i a ≤ key i b ↔ a ≤ b := by
  unfold key
  omega

theorem children_filter (f : OMap (Value D)) (i offs : Nat) :
    children f i offs = (children f i 0).filter fun y => decide (key i offs ≤ y.1) := by
  unfold children OMap.range
  rw [List.filter_filter]
  apply List.filter_congr
  intro y _
  have h1 : key i (max offs 1) ≤ y.1 ↔ key i offs ≤ y.1 ∧ key i (max 0 1) ≤ y.1 := by
    rcases Nat.eq_zero_or_pos offs with h0 | h0
    · subst h0
      have : key i 0 ≤ key i (max 0 1) := key_le_iff.2 (by decide)
      constructor
      · intro h
        exact ⟨Nat.le_trans this h, h⟩
      · exact fun h => h.2
    · have h2 : max offs 1 = offs := by omega
      have : key i (max 0 1) ≤ key i offs := key_le_iff.2 (by omega)
      rw [h2]
      constructor
      · intro h
        exact ⟨h, Nat.le_trans this h⟩
      · exact fun h => h.1
  rw [Bool.eq_iff_iff]
  simp only [Bool.and_eq_true, decide_eq_true_eq, h1]
  constructor
  · rintro ⟨⟨a, b⟩, c⟩
    exact ⟨a, b, c⟩
  · rintro ⟨a, b, c⟩
    exact ⟨⟨a, b⟩, c⟩

theorem direntOf_cookie (i offs j : Nat) (n : Str) {h : Nat} (hh : h < 2 ^ 64) :
    decide (key i offs ≤ key i h) =
      ((fun x : Str × Nat × Nat => decide (offs < x.2.2)) ∘ direntOf)
        (key i h, (Value.ent j n : Value D)) := by
  have h1 : (direntOf (key i h, (Value.ent j n : Value D))).2.2 = h + 1 :=
    congrArg (· + 1) (key_mod hh)
  rw [Function.comp_apply, h1]
  apply decide_eq_decide.2
  rw [key_le_iff, Nat.lt_succ_iff]

/-- A later page is the rest of the listing. -/
theorem Inv.children_filter (v : Inv e N db k) (hN : Names e N) {p : Path} {i c}
    (h : k.fs p = some (i, c)) (offs : Nat) :
    (children db.forest i offs).map direntOf =
      ((children db.forest i 0).map direntOf).filter fun x => offs < x.2.2 := by
  rw [List.filter_map, Forest.children_filter]
  congr 1
  apply List.filter_congr
  rintro ⟨x, u⟩ hx
  obtain ⟨n, j, d, _, rfl, rfl, _⟩ := (v.mem_children hN h 0 x u).1 hx
  exact direntOf_cookie i offs j n (hash_lt e n)

theorem Inv.list (v : Inv e N db k) (hN : Names e N) (p : Path) (hp : ∀ n ∈ p, N n) (offs : Nat) :
    ListAnswer k p offs (listFs e db (full e p) offs) := by
  unfold ListAnswer listFs
  rw [v.resolve hN p hp]
  cases hk : k.fs p with
  | none => simp
  | some x =>
    obtain ⟨i, c⟩ := x
    rw [if_neg (by simp)]
    dsimp only
    rw [v.readdir hN hk offs]
    dsimp only
    refine ⟨(children db.forest i 0).map direntOf, ?_, ?_, ?_, ?_⟩
    · rw [v.children_filter hN hk offs]
    · have hs : (children db.forest i 0).Pairwise (fun a b => a.1 < b.1) := v.sorted.range _ _
      rw [List.nodup_iff_pairwise_ne, List.pairwise_map, List.pairwise_map]
      refine List.Pairwise.imp_of_mem ?_ hs
      rintro ⟨x, u⟩ ⟨y, w⟩ hx hy hlt
      obtain ⟨n, j, d, _, rfl, rfl, _⟩ := (v.mem_children hN hk 0 x u).1 hx
      obtain ⟨m, j', d', _, rfl, rfl, _⟩ := (v.mem_children hN hk 0 y w).1 hy
      simp only [direntOf]
      rintro rfl
      exact Nat.lt_irrefl _ hlt
    · have hs : (children db.forest i 0).Pairwise (fun a b => a.1 < b.1) := v.sorted.range _ _
      rw [List.pairwise_map]
      refine List.Pairwise.imp_of_mem ?_ hs
      rintro ⟨x, u⟩ ⟨y, w⟩ hx hy hlt
      obtain ⟨n, j, d, _, rfl, rfl, _⟩ := (v.mem_children hN hk 0 x u).1 hx
      obtain ⟨m, j', d', _, rfl, rfl, _⟩ := (v.mem_children hN hk 0 y w).1 hy
      simp only [direntOf, key_mod (hash_lt e _)]
      unfold key at hlt
      dsimp only at hlt
      omega
    · intro n j
      constructor
      · rintro ⟨co, hm⟩
        obtain ⟨⟨x, u⟩, hx, he⟩ := List.mem_map.1 hm
        obtain ⟨m, j', d', h1, rfl, rfl, _⟩ := (v.mem_children hN hk 0 x u).1 hx
        simp only [direntOf, Prod.mk.injEq] at he
        obtain ⟨rfl, rfl, _⟩ := he
        exact ⟨d', h1⟩
      · rintro ⟨d, hd⟩
        refine ⟨e.hash n + 1, List.mem_map.2 ⟨(key i (e.hash n), .ent j n), ?_, ?_⟩⟩
        · exact (v.mem_children hN hk 0 _ _).2 ⟨n, j, d, hd, rfl, rfl, Nat.zero_le _⟩
        · simp [direntOf, key_mod (hash_lt e n)]

/-! ### Destroying -/

theorem Inv.children_nil (v : Inv e N db k) (hN : Names e N) {p : Path} {i c}
    (h : k.fs p = some (i, c)) :
    children db.forest i 0 = [] ↔ ∀ n, k.fs (p ++ [n]) = none := by
  constructor
  · intro hc n
    cases hk : k.fs (p ++ [n]) with
    | none => rfl
    | some x =>
      obtain ⟨j, d⟩ := x
      have := (v.mem_children hN h 0 (key i (e.hash n)) (.ent j n)).2
        ⟨n, j, d, hk, rfl, rfl, Nat.zero_le _⟩
      rw [hc] at this
      cases this
  · intro hc
    cases hl : children db.forest i 0 with
    | nil => rfl
    | cons a t =>
      obtain ⟨x, u⟩ := a
      obtain ⟨n, j, d, h1, _⟩ := (v.mem_children hN h 0 x u).1 (by rw [hl]; simp)
      rw [hc] at h1; cases h1

/-- Removing a file system without children. -/
theorem Inv.remove (v : Inv e N db k) (hN : Names e N) {p : Path} {i c}
    (h : k.fs p = some (i, c)) (hc : ∀ n, k.fs (p ++ [n]) = none) (hm : k.mounted p = none)
    (f : OMap (Value D)) (hs : f.Sorted)
    (hf : ∀ x, (x = key i 0 ∨ (∃ q n j d, p = q ++ [n] ∧ k.fs q = some (j, d) ∧
      x = key j (e.hash n)) → f.get x = none) ∧
      (¬ (x = key i 0 ∨ (∃ q n j d, p = q ++ [n] ∧ k.fs q = some (j, d) ∧
      x = key j (e.hash n))) → f.get x = db.forest.get x)) :
    Inv e N { db with
      forest := f
      opened := db.opened.remove i } { k with fs := set k.fs p none } := by
  have hset : ∀ q z, set k.fs p none q = some z → q ≠ p ∧ k.fs q = some z := by
    intro q z hq
    by_cases hqp : q = p
    · subst hqp; rw [set_same] at hq; cases hq
    · rw [set_ne _ _ hqp] at hq; exact ⟨hqp, hq⟩
  have hkeep : ∀ q z, k.fs q = some z → q ≠ p → set k.fs p none q = some z := by
    intro q z hq hne
    rw [set_ne _ _ hne, hq]
  have hpar : ∀ q n z, k.fs (q ++ [n]) = some z → q ≠ p := by
    rintro q n z hq rfl
    rw [hc] at hq; cases hq
  refine { sorted := hs, keys := ?_, trees := ?_, ents := ?_, root := ?_, inj := ?_,
           openSorted := v.openSorted.remove _, opened := ?_, mounted := ?_, mountedFs := ?_,
           mountedPath := ?_ }
  · intro x u hx
    have hx : f.get x = some u := hx
    by_cases hno : x = key i 0 ∨ (∃ q n j d, p = q ++ [n] ∧ k.fs q = some (j, d) ∧
      x = key j (e.hash n))
    · rw [(hf x).1 hno] at hx; cases hx
    · rw [(hf x).2 hno] at hx
      rcases v.keys _ _ hx with ⟨q, j, d, h1, h2⟩ | ⟨q, m, j, d, j', d', h1, h2, h3⟩
      · refine .inl ⟨q, j, d, hkeep q _ h1 ?_, h2⟩
        rintro rfl
        rw [h] at h1; cases h1
        exact hno (.inl h2)
      · refine .inr ⟨q, m, j, d, j', d', hkeep q _ h1 (hpar q m _ h2), hkeep _ _ h2 ?_, h3⟩
        rintro rfl
        exact hno (.inr ⟨q, m, j, d, rfl, h1, h3⟩)
  · intro q j d hq
    obtain ⟨hqp, hq⟩ := hset q _ hq
    obtain ⟨tod, h1, h2⟩ := v.trees q j d hq
    have hji : j ≠ i := by
      rintro rfl
      exact hqp (v.inj _ _ _ _ _ hq h)
    refine ⟨tod, ?_, ?_⟩
    · rw [parentId_set]
      · show f.get _ = _
        rw [(hf _).2, h1]
        rintro (hx | ⟨q', n, j', d', rfl, h3, hx⟩)
        · exact hji (key_inj (by decide) (by decide) hx).1
        · have hn := (v.ents q' n i c h).1
          have := (key_inj (by decide) (hash_lt e n) hx).2
          exact hN.hash n hn this.symm
      · by_cases hq0 : q = []
        · exact .inl hq0
        · refine .inr fun hx => ?_
          have := List.dropLast_concat_getLast hq0
          rw [hx] at this
          rw [← this, hc] at hq; cases hq
    · rw [OMap.get_remove, if_neg hji]
      exact h2
  · intro q n j d hq
    obtain ⟨hqp, hq⟩ := hset _ _ hq
    obtain ⟨h1, i', c', h2, h3⟩ := v.ents q n j d hq
    refine ⟨h1, i', c', hkeep _ _ h2 (hpar q n _ hq), ?_⟩
    show f.get _ = _
    rw [(hf _).2, h3]
    rintro (hx | ⟨q', n', j', d', rfl, h4, hx⟩)
    · exact hN.hash n h1 (key_inj (hash_lt e n) (by decide) hx).2
    · have hn' := (v.ents q' n' i c h).1
      obtain ⟨h5, h6⟩ := key_inj (hash_lt e n) (hash_lt e n') hx
      subst h5
      have := v.inj _ _ _ _ _ h2 h4
      have := hN.inj _ _ h1 hn' h6
      exact hqp (by simp_all)
  · intro j d hq
    exact v.root j d (hset [] _ hq).2
  · intro q q' j d d' h1 h2
    exact v.inj _ _ _ _ _ (hset _ _ h1).2 (hset _ _ h2).2
  · intro j d hj
    rw [OMap.get_remove] at hj
    split at hj
    · cases hj
    · rename_i hji
      obtain ⟨q, hq⟩ := v.opened j d hj
      refine ⟨q, hkeep q _ hq ?_⟩
      rintro rfl
      rw [h] at hq; cases hq
      exact hji rfl
  · intro q j d hq
    exact v.mounted q j d (hset q _ hq).2
  · intro j b hj
    obtain ⟨q, d, hq⟩ := v.mountedFs j b hj
    refine ⟨q, d, hkeep q _ hq ?_⟩
    rintro rfl
    have := v.mounted _ _ _ hq
    rw [hj, hm] at this; cases this
  · intro q hq
    by_cases hqp : q = p
    · subst hqp; exact hm
    · have hq : set k.fs p none q = none := hq
      rw [set_ne _ _ hqp] at hq
      exact v.mountedPath q hq

theorem Inv.dbDestroy (v : Inv e N db k) (hN : Names e N) {p : Path} (hp : ∀ n ∈ p, N n) {i c}
    (h : k.fs p = some (i, c)) :
    ((∃ n, (k.fs (p ++ [n])).isSome) → ∃ db', dbDestroy e db (parentId k p) i (join p) =
      (db', .err .ebusy) ∧ Inv e N db' k) ∧
    ((¬ ∃ n, (k.fs (p ++ [n])).isSome) → k.mounted p = none → ∃ db',
      dbDestroy e db (parentId k p) i (join p) = (db', .ok ()) ∧
      Inv e N db' { k with fs := set k.fs p none }) := by
  obtain ⟨db1, h1, h2, h3, h4, v1⟩ := v.openFs h
  have hname : ∃ t, (split (join p)).getLast?.getD [] = t ∧ '/' ∉ t ∧
      ¬ ((parentId k p).isSome ↔ t = []) ∧ (p = [] ∨ ∃ q, p = q ++ [t]) := by
    by_cases hp0 : p = []
    · subst hp0
      exact ⟨[], by simp [join, split], by simp, by simp [parentId], .inl rfl⟩
    · obtain ⟨q, n, rfl⟩ : ∃ q n, p = q ++ [n] :=
        ⟨p.dropLast, p.getLast hp0, (List.dropLast_concat_getLast hp0).symm⟩
      have hn := hp n (by simp)
      obtain ⟨_, j, d, hj, _⟩ := v.ents q n i c h
      refine ⟨n, ?_, hN.slash n hn, ?_, .inr ⟨q, rfl⟩⟩
      · rw [split_join _ (by simp) (fun m hm => hN.slash m (hp m hm))]
        simp
      · have := hN.nonempty n hn
        simp [parentId, hj, this]
  obtain ⟨t, ht1, ht2, ht3, ht4⟩ := hname
  have hul : ¬ ('/' ∈ t ∨ ((parentId k p).isSome ↔ t = [])) := by
    rintro (hx | hx)
    · exact ht2 hx
    · exact ht3 hx
  have hch := v1.children_nil hN h
  constructor
  · rintro ⟨n, hn⟩
    have hne : children db1.forest i 0 ≠ [] := by
      intro hx
      rw [hch.1 hx n] at hn; cases hn
    refine ⟨db1, ?_, v1⟩
    unfold Forest.dbDestroy
    rw [h1]
    dsimp only
    unfold unlink
    rw [ht1, if_neg hul, if_pos hne]
  · intro hno hm
    have hc : ∀ n, k.fs (p ++ [n]) = none := by
      intro n
      cases hx : k.fs (p ++ [n]) with
      | none => rfl
      | some y => exact absurd ⟨n, by rw [hx]; rfl⟩ hno
    rcases ht4 with hp0 | ⟨q, hq⟩
    · subst hp0
      have hpar : parentId k [] = none := by simp [parentId]
      refine ⟨_, ?_, v1.remove hN h hc hm (db1.forest.remove (key i 0)) (v1.sorted.remove _) ?_⟩
      · unfold Forest.dbDestroy
        rw [h1]
        dsimp only
        unfold unlink
        rw [ht1, if_neg hul, if_neg (by simpa using hch.2 hc), hpar]
        dsimp only
        rw [h2]
        simp
      · intro x
        rw [OMap.get_remove]
        constructor
        · rintro (hx | ⟨q, n, _, _, hx, _⟩)
          · rw [if_pos hx]
          · simp at hx
        · intro hx
          rw [if_neg (fun h => hx (.inl h))]
    · subst hq
      have hn := hp t (by simp)
      obtain ⟨_, j, d, hj, _⟩ := v.ents q t i c h
      have hpar : parentId k (q ++ [t]) = some j := by simp [parentId, hj]
      refine ⟨_, ?_, v1.remove hN h hc hm ((db1.forest.remove (key i 0)).remove (key j (e.hash t)))
        ((v1.sorted.remove _).remove _) ?_⟩
      · unfold Forest.dbDestroy
        rw [h1]
        dsimp only
        unfold unlink
        rw [ht1, if_neg hul, if_neg (by simpa using hch.2 hc), hpar]
        dsimp only
        rw [treeEnt_ok hN hn]
        dsimp only
        rw [h2]
        simp
      · intro x
        rw [OMap.get_remove, OMap.get_remove]
        constructor
        · rintro (hx | ⟨q', n', j', d', hqq, h5, hx⟩)
          · simp [hx]
          · have : q = q' ∧ t = n' := by simpa using hqq
            obtain ⟨rfl, rfl⟩ := this
            rw [hj] at h5; cases h5
            rw [if_pos hx]
        · intro hx
          rw [if_neg (fun h => hx (.inr ⟨q, t, j, d, rfl, hj, h⟩)), if_neg (fun h => hx (.inl h))]

/-! ### Syncing -/

theorem Inv.updateTree (v : Inv e N db k) {i : Nat} {t : Fs D} (ho : db.opened.get i = some t) :
    ∃ f, updateTree db.forest i t = (f, .ok ()) ∧ Inv e N { db with forest := f } k ∧
      (∃ par, f.get (key i 0) = some (.tree par t)) ∧
      ∀ x, x ≠ key i 0 → f.get x = db.forest.get x := by
  obtain ⟨p, hp⟩ := v.opened i t ho
  obtain ⟨tod, h1, h2⟩ := v.trees p i t hp
  have hne : ∀ x, x ≠ key i 0 →
      (db.forest.insert (key i 0) (.tree (parentId k p) t)).get x = db.forest.get x := by
    intro x hx
    rw [OMap.get_insert, if_neg hx]
  refine ⟨db.forest.insert (key i 0) (.tree (parentId k p) t), by simp [Forest.updateTree, h1], ?_,
    ⟨_, by rw [OMap.get_insert, if_pos rfl]⟩, hne⟩
  refine { sorted := v.sorted.insert _ _, keys := ?_, trees := ?_, ents := ?_, root := v.root,
           inj := v.inj, openSorted := v.openSorted, opened := v.opened, mounted := v.mounted,
           mountedFs := v.mountedFs, mountedPath := v.mountedPath }
  · intro x u hx
    by_cases hxk : x = key i 0
    · exact .inl ⟨p, i, t, hp, hxk⟩
    · rw [hne x hxk] at hx
      exact v.keys x u hx
  · intro q j d hq
    obtain ⟨tod', h3, h4⟩ := v.trees q j d hq
    by_cases hxk : key j 0 = key i 0
    · have := (key_inj (by decide) (by decide) hxk).1
      subst this
      have := v.inj _ _ _ _ _ hp hq
      subst this
      refine ⟨t, by rw [OMap.get_insert, if_pos rfl], ?_⟩
      rw [ho] at h4 ⊢
      exact h4
    · exact ⟨tod', by rw [hne _ hxk]; exact h3, h4⟩
  · intro q n j d hq
    obtain ⟨h3, i', c', h4, h5⟩ := v.ents q n j d hq
    refine ⟨h3, i', c', h4, ?_⟩
    by_cases hxk : key i' (e.hash n) = key i 0
    · rw [hxk, h1] at h5; cases h5
    · rw [hne _ hxk]; exact h5

theorem Inv.syncTrees (v : Inv e N db k) (l : OMap (Fs D))
    (hl : ∀ i t, (i, t) ∈ l → db.opened.get i = some t) :
    ∃ f, syncTrees db.forest l = (f, .ok ()) ∧ Inv e N { db with forest := f } k ∧
      (∀ i t, (i, t) ∈ l → ∃ par, f.get (key i 0) = some (.tree par t)) ∧
      (∀ i t, db.opened.get i = some t → (∃ par, db.forest.get (key i 0) = some (.tree par t)) →
        ∃ par, f.get (key i 0) = some (.tree par t)) := by
  induction l generalizing db with
  | nil => exact ⟨db.forest, rfl, v, by simp, fun i t _ h => h⟩
  | cons a rest ih =>
    obtain ⟨i, t⟩ := a
    have ho := hl i t (by simp)
    obtain ⟨f1, h1, v1, ⟨par, h2⟩, h3⟩ := v.updateTree ho
    obtain ⟨f, h4, v2, h5, h6⟩ := ih v1 (fun j s hm => hl j s (List.mem_cons_of_mem _ hm))
    refine ⟨f, by rw [Forest.syncTrees, h1]; exact h4, v2, ?_, ?_⟩
    · intro j s hm
      rcases List.mem_cons.1 hm with hm | hm
      · cases hm
        exact h6 i t ho ⟨par, h2⟩
      · exact h5 j s hm
    · intro j s hj hp
      apply h6 j s hj
      by_cases hji : key j 0 = key i 0
      · have := (key_inj (by decide) (by decide) hji).1
        subst this
        rw [ho] at hj; cases hj
        exact ⟨par, h2⟩
      · obtain ⟨par', hp⟩ := hp
        exact ⟨par', by rw [h3 _ hji]; exact hp⟩

theorem Inv.sync (v : Inv e N db k) : ∃ f, sync db = ({ db with forest := f }, .ok ()) ∧
    Inv e N { db with forest := f } k ∧
    ∀ i t, db.opened.get i = some t → ∃ par, f.get (key i 0) = some (.tree par t) := by
  obtain ⟨f, h1, h2, h3, _⟩ := v.syncTrees db.opened (fun i t hm => OMap.get_of_mem v.openSorted hm)
  exact ⟨f, by simp [Forest.sync, h1], h2, fun i t h => h3 i t (OMap.mem_of_get h)⟩

/-- After a sync nothing is lost by forgetting what is in memory. -/
theorem Inv.reopen (v : Inv e N db k)
    (h : ∀ i t, db.opened.get i = some t → ∃ par, db.forest.get (key i 0) = some (.tree par t)) :
    Inv e N (reopen db) { k with mounted := fun _ => none } := by
  refine { sorted := v.sorted, keys := v.keys, trees := ?_, ents := v.ents, root := v.root,
           inj := v.inj, openSorted := OMap.sorted_nil, opened := by simp [Forest.reopen],
           mounted := by simp [Forest.reopen], mountedFs := by simp [Forest.reopen],
           mountedPath := by simp }
  intro p i c hp
  obtain ⟨tod, h1, h2⟩ := v.trees p i c hp
  refine ⟨tod, h1, ?_⟩
  simp only [Forest.reopen, OMap.get_nil, Option.getD_none]
  cases ho : db.opened.get i with
  | none => rw [ho] at h2; exact h2
  | some t =>
    rw [ho] at h2
    obtain ⟨par, h3⟩ := h i t ho
    rw [h1] at h3
    simp only [Option.some.injEq, Value.tree.injEq] at h3
    rw [h3.2]; exact h2

/-- A change of one file system's contents. -/
theorem Inv.fswrite (v : Inv e N db k) {p : Path} {i c} (h : k.fs p = some (i, c))
    (w : Fs D → Fs D) : ∃ db', fswrite db i w = (db', .ok ()) ∧
      Inv e N db' { k with fs := set k.fs p ((k.fs p).map fun x => (x.1, w x.2)) } := by
  obtain ⟨db1, h1, h2, h3, h4, v1⟩ := v.openFs h
  unfold Forest.fswrite
  rw [h1]
  refine ⟨_, rfl, ?_⟩
  rw [h]
  dsimp only [Option.map]
  have hset : ∀ q j d, set k.fs p (some (i, w c)) q = some (j, d) →
      (q = p ∧ j = i ∧ d = w c) ∨ (q ≠ p ∧ j ≠ i ∧ k.fs q = some (j, d)) := by
    intro q j d hq
    by_cases hqp : q = p
    · subst hqp
      rw [set_same] at hq
      simp only [Option.some.injEq, Prod.mk.injEq] at hq
      exact .inl ⟨rfl, hq.1.symm, hq.2.symm⟩
    · rw [set_ne _ _ hqp] at hq
      refine .inr ⟨hqp, ?_, hq⟩
      rintro rfl
      exact hqp (v.inj _ _ _ _ _ hq h)
  have hto : ∀ q j d, k.fs q = some (j, d) → ∃ d', set k.fs p (some (i, w c)) q = some (j, d') := by
    intro q j d hq
    by_cases hqp : q = p
    · subst hqp
      rw [h] at hq; cases hq
      exact ⟨_, set_same _ _ _⟩
    · exact ⟨d, by rw [set_ne _ _ hqp, hq]⟩
  have hfrom : ∀ q j d, set k.fs p (some (i, w c)) q = some (j, d) → ∃ d', k.fs q = some (j, d') := by
    intro q j d hq
    rcases hset q j d hq with ⟨rfl, rfl, _⟩ | ⟨_, _, hq⟩
    · exact ⟨c, h⟩
    · exact ⟨d, hq⟩
  have hpar : ∀ q, parentId { k with fs := set k.fs p (some (i, w c)) } q = parentId k q := by
    intro q
    unfold parentId
    split
    · rfl
    · by_cases hqp : q.dropLast = p
      · simp [hqp, set_same, h]
      · simp [set_ne _ _ hqp]
  refine { sorted := v1.sorted, keys := ?_, trees := ?_, ents := ?_, root := ?_, inj := ?_,
           openSorted := v1.openSorted.insert _ _, opened := ?_, mounted := ?_, mountedFs := ?_,
           mountedPath := ?_ }
  · intro x u hx
    rcases v1.keys x u hx with ⟨q, j, d, hq, hx⟩ | ⟨q, n, j, d, j', d', hq, hq', hx⟩
    · obtain ⟨d', hq'⟩ := hto q j d hq
      exact .inl ⟨q, j, d', hq', hx⟩
    · obtain ⟨d1, hq1⟩ := hto q j d hq
      obtain ⟨d2, hq2⟩ := hto _ _ _ hq'
      exact .inr ⟨q, n, j, d1, j', d2, hq1, hq2, hx⟩
  · intro q j d hq
    rw [hpar]
    rcases hset q j d hq with ⟨rfl, rfl, rfl⟩ | ⟨hqp, hji, hq⟩
    · obtain ⟨tod, h5, _⟩ := v1.trees q j c h
      exact ⟨tod, h5, by simp [OMap.get_insert]⟩
    · obtain ⟨tod, h5, h6⟩ := v1.trees q j d hq
      exact ⟨tod, h5, by simp [OMap.get_insert, hji, h6]⟩
  · intro q n j d hq
    obtain ⟨d', hq'⟩ := hfrom _ _ _ hq
    obtain ⟨h5, i', c', h6, h7⟩ := v1.ents q n j d' hq'
    obtain ⟨c'', h8⟩ := hto _ _ _ h6
    exact ⟨h5, i', c'', h8, h7⟩
  · intro j d hq
    obtain ⟨d', hq'⟩ := hfrom _ _ _ hq
    exact v1.root _ _ hq'
  · intro q q' j d d' hq hq'
    obtain ⟨_, h5⟩ := hfrom _ _ _ hq
    obtain ⟨_, h6⟩ := hfrom _ _ _ hq'
    exact v1.inj _ _ _ _ _ h5 h6
  · intro j d hj
    rw [OMap.get_insert] at hj
    split at hj
    · rename_i hji
      subst hji
      cases hj
      exact ⟨p, set_same _ _ _⟩
    · rename_i hji
      obtain ⟨q, hq⟩ := v1.opened j d hj
      refine ⟨q, ?_⟩
      show set k.fs p (some (i, w c)) q = _
      rw [set_ne, hq]
      rintro rfl
      rw [h] at hq; cases hq
      exact hji rfl
  · intro q j d hq
    obtain ⟨_, hq⟩ := hfrom _ _ _ hq
    exact v1.mounted _ _ _ hq
  · intro j b hj
    obtain ⟨q, d, hq⟩ := v1.mountedFs j b hj
    obtain ⟨d', hq'⟩ := hto _ _ _ hq
    exact ⟨q, d', hq'⟩
  · intro q hq
    apply v1.mountedPath q
    have hq : set k.fs p (some (i, w c)) q = none := hq
    by_cases hqp : q = p
    · subst hqp; rw [set_same] at hq; cases hq
    · rwa [set_ne _ _ hqp] at hq

/-- Only the table of mounted file systems changes. -/
theorem Inv.setMounted (v : Inv e N db k) {p : Path} {i c} (h : k.fs p = some (i, c))
    (m : OMap Bool) (b : Option Bool) (hm : ∀ j, m.get j = if j = i then b else db.mounted.get j) :
    Inv e N { db with mounted := m } { k with mounted := set k.mounted p b } := by
  refine { sorted := v.sorted, keys := v.keys, trees := v.trees, ents := v.ents, root := v.root,
           inj := v.inj, openSorted := v.openSorted, opened := v.opened, mounted := ?_,
           mountedFs := ?_, mountedPath := ?_ }
  · intro q j d hq
    simp only [hm]
    by_cases hqp : q = p
    · subst hqp
      rw [h] at hq; cases hq
      simp [set_same]
    · have hji : j ≠ i := by
        rintro rfl
        exact hqp (v.inj _ _ _ _ _ hq h)
      rw [if_neg hji, set_ne _ _ hqp]
      exact v.mounted q j d hq
  · intro j b' hj
    simp only [hm] at hj
    split at hj
    · rename_i hji
      subst hji
      exact ⟨p, c, h⟩
    · exact v.mountedFs j b' hj
  · intro q hq
    have hqp : q ≠ p := by
      rintro rfl
      rw [h] at hq; cases hq
    simp only [set_ne _ _ hqp]
    exact v.mountedPath q hq

/-! ### Properties -/

/-- Stored values are under their own names. -/
def Typed (k : Client D) : Prop := ∀ p n v, k.local n p = some v → v.pname = n

theorem Typed.step {k : Client D} (h : Typed k) (op : Op D) (out : Out D) : Typed (k.next e op out) := by
  have key : ∀ (f : Path → Option (Nat × Fs D)) m p x, f = set k.fs p x →
      (∀ i c, x = some (i, c) → ∀ n v, c.prop n = some v → v.pname = n) → Typed ⟨f, m⟩ := by
    rintro f m p x rfl hx q n v hq
    unfold Client.local at hq
    by_cases hqp : q = p
    · subst hqp
      simp only [set_same] at hq
      cases x with
      | none => simp at hq
      | some y =>
        obtain ⟨i, c⟩ := y
        exact hx i c rfl n v (by simpa using hq)
    · simp only [set_ne _ _ hqp] at hq
      exact h q n v hq
  have hk : ∀ p i c n v, k.fs p = some (i, c) → c.prop n = some v → v.pname = n := by
    intro p i c n v hp hv
    exact h p n v (by simp [Client.local, hp, hv])
  unfold Client.next
  split
  · exact key _ _ _ _ rfl (by
      intro i c hc
      simp only [Option.some.injEq, Prod.mk.injEq] at hc
      rw [← hc.2]
      simp [Fs.prop])
  · exact key _ _ _ _ rfl (by simp)
  · rename_i p w _
    exact key _ _ _ _ rfl (by
      intro i c hc n v hv
      cases hp : k.fs p with
      | none => simp [hp] at hc
      | some x =>
        obtain ⟨j, d⟩ := x
        simp only [hp, Option.map_some, Option.some.injEq, Prod.mk.injEq] at hc
        rw [← hc.2] at hv
        exact hk p j d n v hp hv)
  · rename_i p w _
    exact key _ _ _ _ rfl (by
      intro i c hc n v hv
      cases hp : k.fs p with
      | none => simp [hp] at hc
      | some x =>
        obtain ⟨j, d⟩ := x
        simp only [hp, Option.map_some, Option.some.injEq, Prod.mk.injEq] at hc
        rw [← hc.2, prop_setProp] at hv
        split at hv
        · rename_i hn
          simp only [Option.some.injEq] at hv
          rw [← hv, hn]
        · exact hk p j d n v hp hv)
  all_goals exact h

theorem Inv.getProp (v : Inv e N db k) (hN : Names e N) (ht : Typed k) (p : Path) (n : PName)
    (hp : ∀ n ∈ p, N n) (hlen : p.length ≤ 255) (hn : n ≠ .baseMountpoint) :
    Inv e N (getProp e db (full e p) n).1 k ∧ PropAnswer e k p n (getProp e db (full e p) n).2 := by
  have hres := v.resolve hN p hp
  cases hk : k.fs p with
  | none =>
    simp only [Forest.getProp, hres, hk, PropAnswer]
    exact ⟨v, by simp⟩
  | some x =>
    obtain ⟨i, c⟩ := x
    have hg : Forest.getProp e db (full e p) n = getPropLocked db (full e p) i n := by
      simp [Forest.getProp, hres, hk]
    rw [hg]
    unfold PropAnswer
    rw [if_neg (by simp [hk])]
    -- what the search finds
    have search : ∀ inh : PName,
        (∃ a b w, Nearest k inh p a b w ∧ ∃ db', getConf db inh 255 i = (db', .ok (some w, b.length)) ∧
          Inv e N db' k) ∨
        (Unset k inh p ∧ ∃ db', getConf db inh 255 i = (db', .ok (none, 0)) ∧ Inv e N db' k) := by
      intro inh
      rcases nearest_cases k inh p with ⟨a, b, w, h⟩ | hu
      · left
        refine ⟨a, b, w, h, ?_⟩
        have hl : b.length ≤ 255 := by
          have := congrArg List.length h.split
          simp at this
          omega
        obtain ⟨db', h1, h2⟩ := v.getConf_nearest inh a w h.value b 255 i c (by rw [← h.split]; exact hk)
          h.nearest hl
        exact ⟨db', by rw [h1]; congr 4; omega, h2⟩
      · exact .inr ⟨hu, v.getConf_unset inh p 255 i c hk hu hlen⟩
    have unique : ∀ inh a b w a' b' w', Nearest k inh p a b w → Nearest k inh p a' b' w' →
        b = b' ∧ w = w' := by
      intro inh a b w a' b' w' h h'
      have hs := h.split.symm.trans h'.split
      rcases List.append_eq_append_iff.1 hs with ⟨m, h1, h2⟩ | ⟨m, h1, h2⟩
      · by_cases hm : m = []
        · subst hm
          simp at h1 h2
          subst h1 h2
          exact ⟨rfl, by simpa [h.value] using h'.value⟩
        · have := h.nearest m hm b' h2
          rw [← h1, h'.value] at this
          cases this
      · by_cases hm : m = []
        · subst hm
          simp at h1 h2
          subst h1 h2
          exact ⟨rfl, by simpa [h.value] using h'.value⟩
        · have := h'.nearest m hm b h2
          rw [← h1, h.value] at this
          cases this
    have notboth : ∀ inh a b w, Nearest k inh p a b w → ¬ Unset k inh p := by
      intro inh a b w h hu
      have := hu a b h.split
      rw [h.value] at this
      cases this
    have plain : ∀ inh : PName, inh ≠ .name → inh ≠ .mountpoint → inh ≠ .baseMountpoint →
        (∃ w, defaultValue inh = some w ∧ ∀ s, w ≠ .baseMountpoint s) →
        Inv e N (getPropLocked db (full e p) i inh).1 k ∧
        (∀ a b w, Nearest k inh p a b w →
          (getPropLocked db (full e p) i inh).2 = .ok (w, .set (UInt8.ofNat b.length))) ∧
        (Unset k inh p → ∃ w, defaultValue inh = some w ∧
          (getPropLocked db (full e p) i inh).2 = .ok (w, .default)) := by
      intro inh hi1 hi2 hi3 ⟨w0, hw0, hw1⟩
      have hinh : inh.inheritable = some inh := by cases inh <;> simp_all [PName.inheritable]
      have hpres : ∀ w s, (∀ t, w ≠ .baseMountpoint t) → present (full e p) inh (w, s) = .ok (w, s) := by
        intro w s hw
        cases w <;> simp_all [present]
      rcases search inh with ⟨a, b, w, hne, db', h1, v1⟩ | ⟨hu, db', h1, v1⟩
      · have hwt := ht a inh w hne.value
        have hw : ∀ t, w ≠ .baseMountpoint t := by
          rintro t rfl
          exact hi3 hwt.symm
        refine ⟨?_, ?_, fun hu => absurd hu (notboth _ _ _ _ hne)⟩
        · simp only [getPropLocked, if_neg hi1, hinh, h1, confResult]
          exact v1
        · intro a' b' w' h'
          obtain ⟨rfl, rfl⟩ := unique _ _ _ _ _ _ _ hne h'
          simp only [getPropLocked, if_neg hi1, hinh, h1, confResult]
          exact hpres w _ hw
      · refine ⟨?_, fun a b w h => absurd hu (notboth _ _ _ _ h), fun _ => ⟨w0, hw0, ?_⟩⟩
        · simp only [getPropLocked, if_neg hi1, hinh, h1, confResult, hw0]
          exact v1
        · simp only [getPropLocked, if_neg hi1, hinh, h1, confResult, hw0]
          exact hpres w0 _ hw1
    cases n with
    | atime =>
      exact plain .atime (by simp) (by simp) (by simp) ⟨_, rfl, by simp⟩
    | recordSize =>
      exact plain .recordSize (by simp) (by simp) (by simp) ⟨_, rfl, by simp⟩
    | baseMountpoint => exact absurd rfl hn
    | name => exact ⟨v, rfl⟩
    | mountpoint =>
      dsimp only
      rcases search .baseMountpoint with ⟨a, b, w, hne, db', h1, v1⟩ | ⟨hu, db', h1, v1⟩
      · have hwt := ht a _ w hne.value
        cases w with
        | baseMountpoint s =>
          have hl : b.length < 256 := by
            have := congrArg List.length hne.split
            simp at this
            omega
          have hmp : mountpoint (full e p) s (.set (UInt8.ofNat b.length)) =
              some (if b = [] then s else s ++ '/' :: join b) := by
            rw [hne.split]
            exact mountpoint_set a b s hN.pool
              (fun m hm => hN.slash m (hp m (by rw [hne.split]; exact hm))) hl
          have hg : getPropLocked db (full e p) i .mountpoint =
              (db', .ok (.mountpoint (if b = [] then s else s ++ '/' :: join b),
                .set (UInt8.ofNat b.length))) := by
            simp only [getPropLocked, PName.inheritable, h1, confResult, present, hmp, if_true,
              reduceCtorEq, if_false]
          rw [hg]
          refine ⟨v1, ?_, fun hu => absurd hu (notboth _ _ _ _ hne)⟩
          intro a' b' s' h'
          obtain ⟨rfl, h2⟩ := unique _ _ _ _ _ _ _ hne h'
          cases h2
          rfl
        | atime _ => cases hwt
        | mountpoint _ => cases hwt
        | name _ => cases hwt
        | recordSize _ => cases hwt
      · have hg : getPropLocked db (full e p) i .mountpoint =
            (db', .ok (.mountpoint ('/' :: full e p), .default)) := by
          simp only [getPropLocked, PName.inheritable, h1, confResult, defaultValue, present,
            mountpoint, if_true, reduceCtorEq, if_false]
        rw [hg]
        exact ⟨v1, fun a b s h => absurd hu (notboth _ _ _ _ h), fun _ => rfl⟩

/-! ### All operations -/

theorem Inv.step (v : Inv e N db k) (hN : Names e N) (ht : Typed k) (op : Op D) (hv : Valid N k op) :
    Inv e N (step e db op).1 (k.next e op (step e db op).2) ∧ Expected e k op (step e db op).2 := by
  cases op with
  | create p => exact v.create hN p hv
  | destroy p =>
    simp only [Forest.step, destroyFs, v.resolve hN p hv, Expected, destroyAnswer]
    cases h : k.fs p with
    | none => exact ⟨v, by simp⟩
    | some x =>
      obtain ⟨i, c⟩ := x
      obtain ⟨h1, h2⟩ := v.dbDestroy hN hv h
      have hm := v.mounted p i c h
      dsimp only
      cases hb : k.mounted p with
      | some b =>
        rw [hb] at hm
        rw [hm]
        exact ⟨v, by simp⟩
      | none =>
        rw [hb] at hm
        rw [hm]
        by_cases hc : ∃ n, (k.fs (p ++ [n])).isSome
        · obtain ⟨db', h3, h4⟩ := h1 hc
          refine ⟨?_, ?_⟩
          · simp only [Option.isSome_none, Bool.false_eq_true, if_false, h3]
            exact h4
          · simp only [Option.isSome_none, Bool.false_eq_true, if_false, h3, reduceCtorEq, hc, or_true,
              if_true]
        · obtain ⟨db', h3, h4⟩ := h2 hc hb
          refine ⟨?_, ?_⟩
          · simp only [Option.isSome_none, Bool.false_eq_true, if_false, h3]
            exact h4
          · simp only [Option.isSome_none, Bool.false_eq_true, if_false, h3, reduceCtorEq, hc, or_self]
  | find p =>
    simp only [Forest.step, find, v.resolve hN p hv, Expected, Client.next]
    refine ⟨v, ?_⟩
    cases k.fs p <;> rfl
  | list p offs =>
    exact ⟨v, _, rfl, v.list hN p hv offs⟩
  | modify p w =>
    simp only [Forest.step, modifyFs, v.resolve hN p hv, Expected]
    cases h : k.fs p with
    | none => exact ⟨v, by simp⟩
    | some x =>
      obtain ⟨i, c⟩ := x
      obtain ⟨db', h1, h2⟩ := v.fswrite h fun t => { t with data := w t.data }
      dsimp only
      rw [h1]
      exact ⟨h2, by simp⟩
  | read p =>
    simp only [Forest.step, readFs, v.resolve hN p hv, Expected, Client.next]
    cases h : k.fs p with
    | none => exact ⟨v, by simp⟩
    | some x =>
      obtain ⟨i, c⟩ := x
      obtain ⟨db', h1, _, _, _, h2⟩ := v.openFs h
      dsimp only
      rw [h1]
      exact ⟨h2, by simp⟩
  | setProp p w =>
    obtain ⟨hv, hm⟩ := hv
    simp only [Forest.step, setProp, v.resolve hN p hv, Expected, setAnswer]
    cases h : k.fs p with
    | none => exact ⟨v, by simp⟩
    | some x =>
      obtain ⟨i, c⟩ := x
      have hmo := v.mounted p i c h
      obtain ⟨db', h1, h2⟩ := v.fswrite h fun t => t.setProp w.inheritable
      dsimp only
      by_cases hb : k.mounted p = some true
      · rw [hb] at hmo
        rw [hmo]
        simp only [if_true]
        have hw := hm hb
        cases w with
        | atime b =>
          have h3 : setPropMounted db i (Prp.atime b).inheritable = (db', .ok ()) := h1
          rw [h3]
          exact ⟨h2, rfl⟩
        | recordSize b =>
          have h3 : setPropMounted db i (Prp.recordSize b).inheritable = (db', .ok ()) := h1
          rw [h3]
          exact ⟨h2, rfl⟩
        | baseMountpoint _ => simp [Prp.pname] at hw
        | mountpoint _ => simp [Prp.pname] at hw
        | name _ => simp [Prp.pname] at hw
      · rw [if_neg (by rw [hmo]; exact hb)]
        have hbase : ∀ s, w.inheritable = .baseMountpoint s →
            setPropUnmounted db i w.inheritable =
              if s.head? = some '/' then (db', .ok ()) else (db, .err .einval) := by
          intro s hs
          rw [hs] at h1 ⊢
          simp only [setPropUnmounted, h1]
        have hother : (∀ s, w.inheritable ≠ .baseMountpoint s) →
            setPropUnmounted db i w.inheritable = (db', .ok ()) := by
          intro hs
          cases w with
          | mountpoint s => exact absurd rfl (hs s)
          | baseMountpoint s => exact absurd rfl (hs s)
          | atime b => exact h1
          | name b => exact h1
          | recordSize b => exact h1
        cases hw : w.inheritable with
        | baseMountpoint s =>
          rw [hw] at hbase
          rw [hbase s rfl]
          by_cases hs : s.head? = some '/'
          · simp only [if_pos hs]
            refine ⟨?_, by simp⟩
            exact h2
          · simp only [if_neg hs]
            exact ⟨v, by simp⟩
        | mountpoint s =>
          cases w <;> cases hw
        | atime b =>
          rw [hw] at hother
          rw [hother (by simp)]
          exact ⟨h2, by simp⟩
        | name b =>
          rw [hw] at hother
          rw [hother (by simp)]
          exact ⟨h2, by simp⟩
        | recordSize b =>
          rw [hw] at hother
          rw [hother (by simp)]
          exact ⟨h2, by simp⟩
  | getProp p n =>
    obtain ⟨h1, h2⟩ := v.getProp hN ht p n hv.1 hv.2.1 hv.2.2
    exact ⟨h1, _, rfl, h2⟩
  | mount p =>
    simp only [Forest.step, newFs, v.resolve hN p hv, Expected]
    cases h : k.fs p with
    | none => exact ⟨v, by simp⟩
    | some x =>
      obtain ⟨i, c⟩ := x
      obtain ⟨db', h1, _, _, h3, h2⟩ := v.openFs h
      dsimp only
      rw [v.mounted p i c h]
      by_cases hb : k.mounted p = some true
      · simp only [hb, if_true]
        exact ⟨v, trivial⟩
      · simp only [hb, if_false]
        rw [h1]
        exact ⟨h2.setMounted h _ (some true) (fun j => OMap.get_insert _ _ _ _), rfl⟩
  | unmount p =>
    simp only [Forest.step, Forest.unmount, v.resolve hN p hv, Expected]
    cases h : k.fs p with
    | none => exact ⟨v, by simp⟩
    | some x =>
      obtain ⟨i, c⟩ := x
      exact ⟨v.setMounted h _ none (fun j => OMap.get_remove _ _ _), by simp⟩
  | drop p =>
    simp only [Forest.step, find, v.resolve hN p hv, Expected, and_true]
    cases h : k.fs p with
    | none =>
      have := v.mountedPath p h
      simp only [Client.next, this]
      exact v
    | some x =>
      obtain ⟨i, c⟩ := x
      simp only [Client.next, dropFs, v.mounted p i c h]
      by_cases hb : k.mounted p = some true
      · simp only [hb, if_true]
        exact v.setMounted h _ (some false) (fun j => OMap.get_insert _ _ _ _)
      · simp only [hb, if_false]
        exact v
  | sync =>
    obtain ⟨f, h1, h2, _⟩ := v.sync
    simp only [Forest.step, h1]
    exact ⟨h2, rfl⟩
  | «export» =>
    obtain ⟨f, h1, h2, h3⟩ := v.sync
    simp only [Forest.step, h1]
    exact ⟨h2.reopen h3, rfl⟩

theorem reach_typed (r : Reach e N db k) : Typed k := by
  induction r with
  | create => exact fun p n v h => by simp [Client.local, Client.init] at h
  | step op _ _ ih => exact ih.step op _

theorem reach_inv (hN : Names e N) (r : Reach e N db k) : Inv e N db k := by
  induction r with
  | create => exact .init e N
  | step op r hv ih => exact (ih.step hN (reach_typed r) op hv).1

end Verif.Forest
