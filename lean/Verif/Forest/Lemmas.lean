import Verif.Forest.Spec

/-!
# Lemmas: names as text, keys, and the invariant
-/

namespace Verif.Forest

open Verif (OMap)
open Verif.Property (Str Prp PName Source)

variable {D : Type}

theorem snoc_induction {α : Type} {motive : List α → Prop} (nil : motive [])
    (append_singleton : ∀ p n, motive p → motive (p ++ [n])) (l : List α) : motive l := by
  rw [← List.reverse_reverse l]
  induction l.reverse with
  | nil => exact nil
  | cons a t ih => rw [List.reverse_cons]; exact append_singleton _ _ ih

/-! ### Text -/

theorem split_ne_nil (s : Str) : split s ≠ [] := by
  cases s with
  | nil => simp [split]
  | cons c cs =>
    unfold split
    split
    · simp
    · split <;> simp

theorem split_free {n : Str} (h : '/' ∉ n) : split n = [n] := by
  induction n with
  | nil => rfl
  | cons c cs ih =>
    have hc : c ≠ '/' := fun e => h (by simp [e])
    simp [split, hc, ih (fun hm => h (List.mem_cons_of_mem _ hm))]

theorem split_append {n : Str} (h : '/' ∉ n) (s : Str) : split (n ++ '/' :: s) = n :: split s := by
  induction n with
  | nil => simp [split]
  | cons c cs ih =>
    have hc : c ≠ '/' := fun e => h (by simp [e])
    simp [split, hc, ih (fun hm => h (List.mem_cons_of_mem _ hm))]

theorem split_join (p : Path) (hp : p ≠ []) (h : ∀ n ∈ p, '/' ∉ n) : split (join p) = p := by
  fun_induction join p with
  | case1 => exact absurd rfl hp
  | case2 n => exact split_free (h n (by simp))
  | case3 n m t ih =>
    rw [split_append (h n (by simp)), ih (by simp) (fun x hx => h x (List.mem_cons_of_mem _ hx))]

theorem rsplit_free {n : Str} (h : '/' ∉ n) : rsplitOnce n = none := by
  induction n with
  | nil => rfl
  | cons c cs ih =>
    have hc : c ≠ '/' := fun e => h (by simp [e])
    simp [rsplitOnce, hc, ih (fun hm => h (List.mem_cons_of_mem _ hm))]

theorem rsplit_append (s : Str) {n : Str} (h : '/' ∉ n) : rsplitOnce (s ++ '/' :: n) = some (s, n) := by
  induction s with
  | nil => simp [rsplitOnce, rsplit_free h]
  | cons c cs ih => simp [rsplitOnce, ih]

theorem join_snoc (p : Path) (hp : p ≠ []) (n : Str) : join (p ++ [n]) = join p ++ '/' :: n := by
  fun_induction join p with
  | case1 => exact absurd rfl hp
  | case2 m => rfl
  | case3 a b t ih =>
    have := ih (by simp)
    simp only [List.cons_append, join, List.append_assoc] at this ⊢
    rw [this]

theorem join_ne_nil (p : Path) (hp : p ≠ []) (h : ∀ n ∈ p, n ≠ []) : join p ≠ [] := by
  cases p with
  | nil => exact absurd rfl hp
  | cons n t =>
    have := h n (by simp)
    cases t with
    | nil => simpa [join]
    | cons m t => simp [join]

theorem stripPrefix_append (a b : Str) : stripPrefix a (a ++ b) = some b := by
  induction a with
  | nil => cases b <;> rfl
  | cons c cs ih => simp [stripPrefix, ih]

theorem strip_full (e : Env D) (p : Path) : stripPoolName e (full e p) = .ok (join p) := by
  unfold stripPoolName
  cases p with
  | nil =>
    have := stripPrefix_append e.pool []
    rw [List.append_nil] at this
    simp [full, this, stripPrefix, join]
  | cons n t => simp [full, stripPrefix_append, stripPrefix]

/-! ### Keys -/

theorem key_inj {a b x y : Nat} (hx : x < 2 ^ 64) (hy : y < 2 ^ 64) (h : key a x = key b y) :
    a = b ∧ x = y := by
  unfold key at h
  omega

theorem hash_lt (e : Env D) (n : Str) : e.hash n < 2 ^ 64 := by
  have : e.hash n < 2 ^ 56 := Nat.mod_lt _ (by decide)
  omega

theorem treeEnt_ok {e : Env D} {N : Str → Prop} (hN : Names e N) {n : Str} (h : N n) (p : Nat) :
    treeEnt e p n = some (key p (e.hash n)) := by
  simp [treeEnt, hN.slash n h, hN.hash n h]

/-! ### The last key -/

theorem lastKey_none {V : Type} {m : OMap V} (h : m.lastKey = none) : m = [] := by
  unfold OMap.lastKey at h
  cases m with
  | nil => rfl
  | cons a t => simp [List.getLast?_cons] at h

theorem lastKey_some {V : Type} {m : OMap V} (hs : m.Sorted) {k : Nat} (h : m.lastKey = some k) :
    (∃ v, m.get k = some v) ∧ ∀ k' v, m.get k' = some v → k' ≤ k := by
  unfold OMap.lastKey at h
  cases hl : m.getLast? with
  | none => rw [hl] at h; cases h
  | some x =>
    rw [hl] at h
    simp only [Option.map_some, Option.some.injEq] at h
    obtain ⟨init, hi⟩ := List.getLast?_eq_some_iff.1 hl
    refine ⟨⟨x.2, OMap.get_of_mem hs ?_⟩, ?_⟩
    · rw [← h, hi]; simp
    · intro k' v hv
      have hm := OMap.mem_of_get hv
      rw [hi] at hm
      rcases List.mem_append.1 hm with hm | hm
      · have hs' : m.Pairwise (fun a b => a.1 < b.1) := hs
        rw [hi, List.pairwise_append] at hs'
        have := hs'.2.2 _ hm x (by simp)
        dsimp only at this
        omega
      · have : (k', v) = x := by simpa using hm
        rw [← h, ← this]
        exact Nat.le_refl _

/-! ### The invariant -/

/-- The identifier at a path's parent. -/
def parentId (k : Client D) (p : Path) : Option Nat :=
  if p = [] then none else (k.fs p.dropLast).map Prod.fst

structure Inv (e : Env D) (N : Str → Prop) (db : Db D) (k : Client D) : Prop where
  sorted : db.forest.Sorted
  keys : ∀ x v, db.forest.get x = some v →
    (∃ p i c, k.fs p = some (i, c) ∧ x = key i 0) ∨
    (∃ p n i c j d, k.fs p = some (i, c) ∧ k.fs (p ++ [n]) = some (j, d) ∧ x = key i (e.hash n))
  trees : ∀ p i c, k.fs p = some (i, c) →
    ∃ tod, db.forest.get (key i 0) = some (.tree (parentId k p) tod) ∧
      (db.opened.get i).getD tod = c
  ents : ∀ p n j d, k.fs (p ++ [n]) = some (j, d) →
    N n ∧ ∃ i c, k.fs p = some (i, c) ∧ db.forest.get (key i (e.hash n)) = some (.ent j n)
  root : ∀ i c, k.fs [] = some (i, c) → i = 0
  inj : ∀ p q i c d, k.fs p = some (i, c) → k.fs q = some (i, d) → p = q
  openSorted : db.opened.Sorted
  opened : ∀ i c, db.opened.get i = some c → ∃ p, k.fs p = some (i, c)
  mounted : ∀ p i c, k.fs p = some (i, c) → db.mounted.get i = k.mounted p
  mountedFs : ∀ i b, db.mounted.get i = some b → ∃ p c, k.fs p = some (i, c)
  mountedPath : ∀ p, k.fs p = none → k.mounted p = none

theorem Inv.init (e : Env D) (N : Str → Prop) : Inv e N (⟨[], [], []⟩ : Db D) Client.init := by
  constructor <;> simp [Client.init, OMap.Sorted]

variable {e : Env D} {N : Str → Prop} {db : Db D} {k : Client D}

theorem Inv.names (v : Inv e N db k) {p : Path} {x} (h : k.fs p = some x) : ∀ n ∈ p, N n := by
  induction p using snoc_induction generalizing x with
  | nil => simp
  | append_singleton p n ih =>
    obtain ⟨i, c⟩ := x
    obtain ⟨h1, j, d, h2, _⟩ := v.ents p n i c h
    intro m hm
    rcases List.mem_append.1 hm with hm | hm
    · exact ih h2 m hm
    · rw [List.mem_singleton.1 hm]; exact h1

/-- Ancestors exist. -/
theorem Inv.prefix (v : Inv e N db k) {p q : Path} {x} (h : k.fs (p ++ q) = some x) :
    ∃ y, k.fs p = some y := by
  induction q using snoc_induction generalizing x with
  | nil => exact ⟨x, by simpa using h⟩
  | append_singleton q n ih =>
    obtain ⟨i, c⟩ := x
    rw [← List.append_assoc] at h
    obtain ⟨_, j, d, h2, _⟩ := v.ents _ n i c h
    exact ih h2

theorem Inv.noRoot (v : Inv e N db k) (h : k.fs [] = none) (p : Path) : k.fs p = none := by
  cases hp : k.fs p with
  | none => rfl
  | some x =>
    obtain ⟨y, hy⟩ := v.prefix (p := []) (q := p) hp
    rw [h] at hy; cases hy

theorem Inv.noRoot_forest (v : Inv e N db k) (h : k.fs [] = none) : db.forest = [] := by
  cases hf : db.forest with
  | nil => rfl
  | cons a t =>
    have : db.forest.get a.1 = some a.2 := OMap.get_of_mem v.sorted (by rw [hf]; simp)
    rcases v.keys _ _ this with ⟨p, i, c, h1, _⟩ | ⟨p, n, i, c, j, d, h1, _⟩ <;>
      · rw [v.noRoot h p] at h1; cases h1

/-- Looking an entry up below an existing file system. -/
theorem Inv.getEnt (v : Inv e N db k) (hN : Names e N) {p : Path} {i c} (h : k.fs p = some (i, c))
    {n : Str} (hn : N n) :
    db.forest.get (key i (e.hash n)) = (k.fs (p ++ [n])).map fun x => .ent x.1 n := by
  cases hc : k.fs (p ++ [n]) with
  | some x =>
    obtain ⟨j, d⟩ := x
    obtain ⟨_, i', c', h1, h2⟩ := v.ents p n j d hc
    rw [h] at h1; cases h1
    simpa using h2
  | none =>
    cases hg : db.forest.get (key i (e.hash n)) with
    | none => rfl
    | some x =>
      exfalso
      rcases v.keys _ _ hg with ⟨q, j, d, h1, h2⟩ | ⟨q, m, j, d, j', d', h1, h2, h3⟩
      · obtain ⟨_, h4⟩ := key_inj (hash_lt e n) (by decide) h2
        exact hN.hash n hn h4
      · obtain ⟨h4, h5⟩ := key_inj (hash_lt e n) (hash_lt e m) h3
        subst h4
        have := v.inj _ _ _ _ _ h h1
        subst this
        have hm := (v.ents p m j' d' h2).1
        have := hN.inj _ _ hn hm h5
        subst this
        rw [hc] at h2; cases h2

theorem Inv.lookupFrom (v : Inv e N db k) (hN : Names e N) (p q : Path) (i : Nat) (c : Fs D)
    (h : k.fs p = some (i, c)) (hq : ∀ n ∈ q, N n) (par : Option Nat) :
    lookupFrom e db.forest par i q =
      .ok (match k.fs (p ++ q) with
        | some x => (if q = [] then par else (k.fs (p ++ q).dropLast).map Prod.fst, some x.1)
        | none => (none, none)) := by
  induction q generalizing p i c par with
  | nil => simp [Forest.lookupFrom, h]
  | cons n t ih =>
    have hn := hq n (by simp)
    unfold Forest.lookupFrom
    rw [treeEnt_ok hN hn]
    dsimp only
    rw [v.getEnt hN h hn]
    cases hc : k.fs (p ++ [n]) with
    | none =>
      have : k.fs (p ++ n :: t) = none := by
        cases hx : k.fs (p ++ n :: t) with
        | none => rfl
        | some x =>
          rw [List.append_cons] at hx
          obtain ⟨y, hy⟩ := v.prefix hx
          rw [hc] at hy; cases hy
      simp [this]
    | some x =>
      obtain ⟨j, d⟩ := x
      simp only [Option.map_some, if_true]
      rw [ih (p ++ [n]) j d hc (fun m hm => hq m (List.mem_cons_of_mem _ hm))]
      rw [← List.append_cons]
      cases hx : k.fs (p ++ n :: t) with
      | none => rfl
      | some x =>
        simp only [reduceCtorEq, if_false]
        cases t with
        | nil => simp [h]
        | cons => simp

theorem Inv.lookup (v : Inv e N db k) (hN : Names e N) (p : Path) (hp : ∀ n ∈ p, N n) :
    lookup e db.forest (join p) =
      .ok (match k.fs p with
        | some x => (parentId k p, some x.1)
        | none => (none, none)) := by
  unfold Forest.lookup
  cases hr : k.fs [] with
  | none =>
    rw [v.noRoot_forest hr, v.noRoot hr p]
    cases p with
    | nil => simp [join]
    | cons n t =>
      have hj := join_ne_nil (n :: t) (by simp) (fun m hm => hN.nonempty m (hp m hm))
      rw [if_neg hj, split_join _ (by simp) (fun m hm => hN.slash m (hp m hm))]
      simp [Forest.lookupFrom, treeEnt_ok hN (hp n (by simp))]
  | some x =>
    obtain ⟨i, c⟩ := x
    have hi := v.root i c hr
    subst hi
    cases p with
    | nil =>
      obtain ⟨tod, h1, _⟩ := v.trees _ _ _ hr
      simp [join, h1, hr, parentId]
    | cons n t =>
      have hj := join_ne_nil (n :: t) (by simp) (fun m hm => hN.nonempty m (hp m hm))
      rw [if_neg hj, split_join _ (by simp) (fun m hm => hN.slash m (hp m hm))]
      rw [v.lookupFrom hN [] (n :: t) 0 c hr hp none]
      simp only [List.nil_append]
      cases k.fs (n :: t) with
      | none => rfl
      | some x => simp [parentId]

theorem Inv.resolve (v : Inv e N db k) (hN : Names e N) (p : Path) (hp : ∀ n ∈ p, N n) :
    resolve e db (full e p) =
      .ok (join p, match k.fs p with
        | some x => (parentId k p, some x.1)
        | none => (none, none)) := by
  unfold Forest.resolve
  rw [strip_full]
  dsimp only
  rw [v.lookup hN p hp]

/-- Opening a file system. -/
theorem Inv.openFs (v : Inv e N db k) {p : Path} {i c} (h : k.fs p = some (i, c)) :
    ∃ db', openFs db i = (db', .ok c) ∧ db'.opened.get i = some c ∧ db'.forest = db.forest ∧
      db'.mounted = db.mounted ∧ Inv e N db' k := by
  obtain ⟨tod, h1, h2⟩ := v.trees p i c h
  unfold Forest.openFs
  cases ho : db.opened.get i with
  | some t =>
    rw [ho] at h2
    simp only [Option.getD_some] at h2
    subst h2
    exact ⟨db, rfl, ho, rfl, rfl, v⟩
  | none =>
    rw [ho] at h2
    simp only [Option.getD_none] at h2
    subst h2
    simp only [getTree, h1]
    refine ⟨_, rfl, by simp [OMap.get_insert], rfl, rfl, ?_⟩
    exact {
      sorted := v.sorted
      keys := v.keys
      trees := by
        intro q j d hq
        obtain ⟨tod', h3, h4⟩ := v.trees q j d hq
        refine ⟨tod', h3, ?_⟩
        simp only [OMap.get_insert]
        split
        · rename_i hj
          subst hj
          rw [h1] at h3
          simp only [Option.some.injEq, Value.tree.injEq] at h3
          rw [ho, ← h3.2] at h4
          exact h4
        · exact h4
      ents := v.ents
      root := v.root
      inj := v.inj
      openSorted := v.openSorted.insert _ _
      opened := by
        intro j d hj
        simp only [OMap.get_insert] at hj
        split at hj
        · rename_i hji
          subst hji
          cases hj
          exact ⟨p, h⟩
        · exact v.opened j d hj
      mounted := v.mounted
      mountedFs := v.mountedFs
      mountedPath := v.mountedPath }

end Verif.Forest
