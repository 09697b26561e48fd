import Verif.Forest.Steps2

/-!
# Listing after any history at all

Names may be any strings here, and calls may fail or panic.
-/

namespace Verif.Forest

open Verif (OMap)
open Verif.Property (Str Prp PName Source)

variable {D : Type}

/-- A call with any name. -/
inductive Call (D : Type) where
  | create (s : Str)
  | destroy (s : Str)
  | modify (s : Str) (w : Fs D → Fs D)
  | mount (s : Str)
  | unmount (s : Str)
  | drop (id : Nat)
  | getProp (s : Str) (n : PName)
  | setProp (s : Str) (v : Prp)
  | sync
  | reopen

/-- The database after a call, whatever the call answered. -/
def call (e : Env D) (db : Db D) : Call D → Db D
  | .create s => (createFs e db s).1
  | .destroy s => (destroyFs e db s).1
  | .modify s w => (modifyFs e db s w).1
  | .mount s => (newFs e db s).1
  | .unmount s => (unmount e db s).1
  | .drop i => dropFs db i
  | .getProp s n => (getProp e db s n).1
  | .setProp s v => (setProp e db s v).1
  | .sync => (sync db).1
  | .reopen => reopen db

def calls (e : Env D) (l : List (Call D)) : Db D := l.foldl (call e) ⟨[], [], []⟩

/-- Trees are under offset zero, entries under the hash of their name. -/
structure Plain (e : Env D) (f : OMap (Value D)) : Prop where
  sorted : f.Sorted
  tree : ∀ x par t, f.get x = some (.tree par t) → x % 2 ^ 64 = 0
  ent : ∀ x j n, f.get x = some (.ent j n) → x % 2 ^ 64 = e.hash n ∧ e.hash n ≠ 0 ∧ '/' ∉ n

variable {e : Env D}

theorem Plain.nil : Plain e [] := ⟨OMap.sorted_nil, by simp, by simp⟩

theorem Plain.remove {f : OMap (Value D)} (h : Plain e f) (x : Nat) : Plain e (f.remove x) := by
  refine ⟨h.sorted.remove _, ?_, ?_⟩
  · intro y par t hy
    rw [OMap.get_remove] at hy
    split at hy
    · cases hy
    · exact h.tree y par t hy
  · intro y j n hy
    rw [OMap.get_remove] at hy
    split at hy
    · cases hy
    · exact h.ent y j n hy

theorem Plain.insertTree' {f : OMap (Value D)} (h : Plain e f) (i : Nat) (par : Option Nat) (t : Fs D) :
    Plain e (f.insert (key i 0) (.tree par t)) := by
  refine ⟨h.sorted.insert _ _, ?_, ?_⟩
  · intro y par t hy
    rw [OMap.get_insert] at hy
    split at hy
    · rename_i hk
      rw [hk]
      exact key_mod (by decide)
    · exact h.tree y par t hy
  · intro y j n hy
    rw [OMap.get_insert] at hy
    split at hy
    · cases hy
    · exact h.ent y j n hy

theorem treeEnt_some {p : Nat} {n : Str} {x : Nat} (h : treeEnt e p n = some x) :
    x = key p (e.hash n) ∧ e.hash n ≠ 0 ∧ '/' ∉ n := by
  unfold treeEnt at h
  split at h
  · cases h
  · split at h
    · cases h
    · rename_i h1 h2
      cases h
      exact ⟨rfl, h2, h1⟩

theorem Plain.insertEnt {f : OMap (Value D)} (h : Plain e f) {p : Nat} {n : Str} {x : Nat}
    (hx : treeEnt e p n = some x) (j : Nat) : Plain e (f.insert x (.ent j n)) := by
  obtain ⟨rfl, h2, h3⟩ := treeEnt_some hx
  refine ⟨h.sorted.insert _ _, ?_, ?_⟩
  · intro y par t hy
    rw [OMap.get_insert] at hy
    split at hy
    · cases hy
    · exact h.tree y par t hy
  · intro y j' n' hy
    rw [OMap.get_insert] at hy
    split at hy
    · rename_i hk
      simp only [Option.some.injEq, Value.ent.injEq] at hy
      obtain ⟨_, rfl⟩ := hy
      rw [hk]
      exact ⟨key_mod (hash_lt e n), h2, h3⟩
    · exact h.ent y j' n' hy

theorem Plain.insertOld {f g : OMap (Value D)} (h : Plain e f) (hg : Plain e g) {x : Nat}
    {u : Value D} (hx : g.get x = some u) : Plain e (f.insert x u) := by
  refine ⟨h.sorted.insert _ _, ?_, ?_⟩
  · intro y par t hy
    rw [OMap.get_insert] at hy
    split at hy
    · rename_i hk
      cases hy
      rw [hk]
      exact hg.tree x par t hx
    · exact h.tree y par t hy
  · intro y j n hy
    rw [OMap.get_insert] at hy
    split at hy
    · rename_i hk
      cases hy
      rw [hk]
      exact hg.ent x j n hx
    · exact h.ent y j n hy

theorem Plain.insertTree {f : OMap (Value D)} (h : Plain e f) (p : Option Nat) (n : Str) (t : Fs D) :
    Plain e (insertTree e f p n t).1 := by
  unfold Forest.insertTree
  simp only
  split
  all_goals
    split
    · exact h
    · split
      · exact h.insertTree' _ p t
      · cases p with
        | none => exact h.insertTree' _ none t
        | some p =>
          dsimp only
          cases hx : treeEnt e p n with
          | none => exact h.insertTree' _ _ t
          | some x =>
            simp only
            split
            · exact (h.insertTree' _ _ t).insertEnt hx _
            · rename_i ho
              exact (((h.insertTree' _ _ t).insertEnt hx _).remove _).insertOld
                (h.insertTree' _ _ t) ho

theorem Plain.unlink {f : OMap (Value D)} (h : Plain e f) (p : Option Nat) (i : Nat) (n : Str) :
    Plain e (unlink e f p i n).1 := by
  unfold Forest.unlink
  split
  · exact h
  · split
    · exact h
    · cases p with
      | none => exact h.remove _
      | some p =>
        dsimp only
        cases treeEnt e p n with
        | none => exact h
        | some x => exact (h.remove _).remove _

theorem Plain.updateTree {f : OMap (Value D)} (h : Plain e f) (i : Nat) (t : Fs D) :
    Plain e (updateTree f i t).1 := by
  unfold Forest.updateTree
  split
  · exact h
  · exact h.insertTree' _ _ _
  · exact h

theorem Plain.syncTrees (l : OMap (Fs D)) {f : OMap (Value D)} (h : Plain e f) :
    Plain e (syncTrees f l).1 := by
  induction l generalizing f with
  | nil => exact h
  | cons a l ih =>
    obtain ⟨i, t⟩ := a
    have h1 := h.updateTree i t
    unfold Forest.syncTrees
    cases hr : Forest.updateTree f i t with
    | mk g r =>
      rw [hr] at h1
      cases r with
      | ok _ => exact ih h1
      | err _ => exact h1
      | panic => exact h1

theorem openFs_forest (db : Db D) (i : Nat) : (openFs db i).1.forest = db.forest := by
  unfold openFs
  split
  · rfl
  · split <;> rfl

theorem fswrite_forest (db : Db D) (i : Nat) (w : Fs D → Fs D) :
    (fswrite db i w).1.forest = db.forest := by
  have := openFs_forest db i
  unfold fswrite
  cases h : openFs db i with
  | mk d r =>
    rw [h] at this
    cases r <;> exact this

theorem getConf_forest (n : PName) (room i : Nat) (db : Db D) :
    (getConf db n room i).1.forest = db.forest := by
  induction room generalizing i db with
  | zero =>
    have h1 := openFs_forest db i
    rw [getConf]
    cases h : openFs db i with
    | mk d r =>
      rw [h] at h1
      cases r with
      | ok t =>
        dsimp only
        cases t.prop n with
        | some v => exact h1
        | none =>
          dsimp only
          cases lookupParent d.forest i with
          | ok o => cases o <;> exact h1
          | err _ => exact h1
          | panic => exact h1
      | err _ => exact h1
      | panic => exact h1
  | succ room ih =>
    have h1 := openFs_forest db i
    rw [getConf]
    cases h : openFs db i with
    | mk d r =>
      rw [h] at h1
      cases r with
      | ok t =>
        dsimp only
        cases t.prop n with
        | some v => exact h1
        | none =>
          dsimp only
          cases lookupParent d.forest i with
          | ok o =>
            cases o with
            | none => exact h1
            | some j => exact (ih j d).trans h1
          | err _ => exact h1
          | panic => exact h1
      | err _ => exact h1
      | panic => exact h1

theorem getPropLocked_forest (db : Db D) (s : Str) (i : Nat) (n : PName) :
    (getPropLocked db s i n).1.forest = db.forest := by
  unfold getPropLocked
  split
  · rfl
  · cases n.inheritable with
    | none => rfl
    | some inh =>
      dsimp only
      have := getConf_forest inh 255 i db
      cases h : getConf db inh 255 i with
      | mk d r =>
        rw [h] at this
        cases r with
        | ok x =>
          dsimp only
          cases confResult inh x <;> exact this
        | err _ => exact this
        | panic => exact this

theorem setPropUnmounted_forest (db : Db D) (i : Nat) (v : Prp) :
    (setPropUnmounted db i v).1.forest = db.forest := by
  unfold setPropUnmounted
  split
  · rfl
  · split
    · exact fswrite_forest _ _ _
    · rfl
  · exact fswrite_forest _ _ _

theorem setPropMounted_forest (db : Db D) (i : Nat) (v : Prp) :
    (setPropMounted db i v).1.forest = db.forest := by
  unfold setPropMounted
  split
  · exact setPropUnmounted_forest _ _ _
  · exact setPropUnmounted_forest _ _ _
  · rfl

theorem Plain.dbCreate {db : Db D} (h : Plain e db.forest) (p : Option Nat) (n : Str) :
    Plain e (dbCreate e db p n).1.forest := by
  have h1 := h.insertTree p n { props := [], data := e.empty }
  unfold Forest.dbCreate
  cases hr : Forest.insertTree e db.forest p n { props := [], data := e.empty } with
  | mk f r =>
    rw [hr] at h1
    cases r with
    | ok i =>
      dsimp only
      have h2 := fswrite_forest { db with forest := f } i fun t => { t with data := e.rootDir }
      cases hw : fswrite { db with forest := f } i (fun t => { t with data := e.rootDir }) with
      | mk d r =>
        rw [hw] at h2
        have h3 : d.forest = f := h2
        cases r <;> exact h3 ▸ h1
    | err _ => exact h1
    | panic => exact h1

theorem Plain.dbDestroy {db : Db D} (h : Plain e db.forest) (p : Option Nat) (i : Nat) (n : Str) :
    Plain e (dbDestroy e db p i n).1.forest := by
  unfold Forest.dbDestroy
  dsimp only
  have h1 := openFs_forest db i
  cases ho : openFs db i with
  | mk d r =>
    rw [ho] at h1
    have hd : Plain e d.forest := by rw [h1]; exact h
    cases r with
    | ok t =>
      dsimp only
      have h2 := hd.unlink p i ((split n).getLast?.getD [])
      cases hu : Forest.unlink e d.forest p i ((split n).getLast?.getD []) with
      | mk f r =>
        rw [hu] at h2
        cases r with
        | ok _ =>
          dsimp only
          split <;> exact h2
        | err _ => exact h2
        | panic => exact h2
    | err _ => exact hd
    | panic => exact hd

theorem Plain.call {db : Db D} (h : Plain e db.forest) (c : Call D) :
    Plain e (call e db c).forest := by
  cases c with
  | create s =>
    simp only [Forest.call, createFs]
    cases stripPoolName e s with
    | ok f =>
      dsimp only
      cases rsplitOnce f with
      | some ab =>
        dsimp only
        cases lookup e db.forest ab.1 with
        | ok r =>
          obtain ⟨_, o⟩ := r
          cases o with
          | none => exact h
          | some p => exact h.dbCreate _ _
        | err _ => exact h
        | panic => exact h
      | none =>
        dsimp only
        split <;> exact h.dbCreate _ _
    | err _ => exact h
    | panic => exact h
  | destroy s =>
    simp only [Forest.call, destroyFs]
    cases resolve e db s with
    | ok r =>
      obtain ⟨_, _, o⟩ := r
      cases o with
      | none => exact h
      | some i =>
        dsimp only
        split
        · exact h
        · exact h.dbDestroy _ _ _
    | err _ => exact h
    | panic => exact h
  | modify s w =>
    simp only [Forest.call, modifyFs]
    cases resolve e db s with
    | ok r =>
      obtain ⟨_, _, o⟩ := r
      cases o with
      | none => exact h
      | some i => exact (fswrite_forest db i w).symm ▸ h
    | err _ => exact h
    | panic => exact h
  | mount s =>
    simp only [Forest.call, newFs]
    cases resolve e db s with
    | ok r =>
      obtain ⟨_, _, o⟩ := r
      cases o with
      | none => exact h
      | some i =>
        dsimp only
        split
        · exact h
        · have h1 := openFs_forest db i
          cases ho : openFs db i with
          | mk d r =>
            rw [ho] at h1
            have h1 : d.forest = db.forest := h1
            cases r <;> exact h1.symm ▸ h
    | err _ => exact h
    | panic => exact h
  | unmount s =>
    simp only [Forest.call, Forest.unmount]
    cases resolve e db s with
    | ok r =>
      obtain ⟨_, _, o⟩ := r
      cases o <;> exact h
    | err _ => exact h
    | panic => exact h
  | drop i =>
    simp only [Forest.call, dropFs]
    split <;> exact h
  | getProp s n =>
    simp only [Forest.call, getProp]
    cases resolve e db s with
    | ok r =>
      obtain ⟨_, _, o⟩ := r
      cases o with
      | none => exact h
      | some i => exact (getPropLocked_forest db s i n).symm ▸ h
    | err _ => exact h
    | panic => exact h
  | setProp s v =>
    simp only [Forest.call, setProp]
    cases resolve e db s with
    | ok r =>
      obtain ⟨_, _, o⟩ := r
      cases o with
      | none => exact h
      | some i =>
        dsimp only
        split
        · exact (setPropMounted_forest db i _).symm ▸ h
        · exact (setPropUnmounted_forest db i _).symm ▸ h
    | err _ => exact h
    | panic => exact h
  | sync => exact Plain.syncTrees _ h
  | reopen => exact h

theorem calls_plain (l : List (Call D)) : Plain e (calls e l).forest := by
  unfold calls
  suffices ∀ (db : Db D), Plain e db.forest → Plain e (l.foldl (call e) db).forest from
    this _ Plain.nil
  induction l with
  | nil => exact fun db h => h
  | cons c l ih => exact fun db h => ih _ (h.call c)

/-! ### Listing -/

/-- The entries of a page have the parent's identifier and an offset from the cookie on. -/
theorem mem_children' (f : OMap (Value D)) (hf : f.Sorted) (i offs x : Nat) (u : Value D) :
    (x, u) ∈ children f i offs ↔ f.get x = some u ∧ x = key i (x % 2 ^ 64) ∧
      max offs 1 ≤ x % 2 ^ 64 := by
  unfold children
  rw [OMap.mem_iff_get (hf.range _ _), OMap.get_range]
  have : (key i (max offs 1) ≤ x ∧ x < key (i + 1) 0) ↔
      (x = key i (x % 2 ^ 64) ∧ max offs 1 ≤ x % 2 ^ 64) := by
    unfold key
    omega
  by_cases h : key i (max offs 1) ≤ x ∧ x < key (i + 1) 0
  · rw [if_pos h]
    exact ⟨fun hx => ⟨hx, this.1 h⟩, fun hx => hx.1⟩
  · rw [if_neg h]
    exact ⟨fun hx => (by cases hx), fun hx => absurd (this.2 hx.2) h⟩

/-- `dirent` never panics. -/
theorem Plain.children_ent {f : OMap (Value D)} (h : Plain e f) {i offs x : Nat} {u : Value D}
    (hx : (x, u) ∈ children f i offs) : ∃ j n, u = .ent j n ∧ x = key i (e.hash n) ∧
      max offs 1 ≤ e.hash n ∧ '/' ∉ n := by
  obtain ⟨h1, h2, h3⟩ := (mem_children' f h.sorted i offs x u).1 hx
  cases u with
  | tree par t =>
    have := h.tree x par t h1
    omega
  | ent j n =>
    have h4 := h.ent x j n h1
    rw [h4.1] at h2 h3
    exact ⟨j, n, rfl, h2, h3, h4.2.2⟩

theorem Plain.readdir {f : OMap (Value D)} (h : Plain e f) (i offs : Nat) :
    readdir f i offs = some ((children f i offs).map direntOf) := by
  refine mapM_dirent _ ?_
  intro x u hx
  obtain ⟨j, n, rfl, _⟩ := h.children_ent hx
  exact ⟨j, n, rfl⟩

theorem Plain.children_filter {f : OMap (Value D)} (h : Plain e f) (i offs : Nat) :
    (children f i offs).map direntOf =
      ((children f i 0).map direntOf).filter fun x => offs < x.2.2 := by
  rw [List.filter_map, Forest.children_filter]
  congr 1
  apply List.filter_congr
  rintro ⟨x, u⟩ hx
  obtain ⟨j, n, rfl, rfl, _⟩ := h.children_ent hx
  exact direntOf_cookie i offs j n (hash_lt e n)

theorem Plain.cookies {f : OMap (Value D)} (h : Plain e f) (i : Nat) :
    ((children f i 0).map direntOf).Pairwise (fun a b => a.2.2 < b.2.2) := by
  have hs : (children f i 0).Pairwise (fun a b => a.1 < b.1) := h.sorted.range _ _
  rw [List.pairwise_map]
  refine List.Pairwise.imp_of_mem ?_ hs
  rintro ⟨x, u⟩ ⟨y, w⟩ hx hy hlt
  obtain ⟨j, n, rfl, rfl, _⟩ := h.children_ent hx
  obtain ⟨j', n', rfl, rfl, _⟩ := h.children_ent hy
  simp only [direntOf, key_mod (hash_lt e _)]
  unfold key at hlt
  dsimp only at hlt
  omega

/-- An entry's cookie is one more than the hash of its name. -/
theorem Plain.cookie {f : OMap (Value D)} (h : Plain e f) {i offs : Nat} {x : Str × Nat × Nat}
    (hx : x ∈ (children f i offs).map direntOf) : x.2.2 = e.hash x.1 + 1 := by
  obtain ⟨⟨y, u⟩, hy, rfl⟩ := List.mem_map.1 hx
  obtain ⟨j, n, rfl, rfl, _⟩ := h.children_ent hy
  exact congrArg (· + 1) (key_mod (hash_lt e n))

/-- The children listed are those a lookup finds. -/
theorem Plain.listed {f : OMap (Value D)} (h : Plain e f) (i : Nat) (n : Str) (j : Nat) :
    (∃ c, (n, j, c) ∈ (children f i 0).map direntOf) ↔
      lookupFrom e f none i [n] = .ok (some i, some j) := by
  constructor
  · rintro ⟨c, hc⟩
    obtain ⟨⟨y, u⟩, hy, he⟩ := List.mem_map.1 hc
    obtain ⟨j', n', rfl, rfl, h1, h2⟩ := h.children_ent hy
    simp only [direntOf, Prod.mk.injEq] at he
    obtain ⟨rfl, rfl, _⟩ := he
    have hg := ((mem_children' f h.sorted i 0 _ _).1 hy).1
    have ht : treeEnt e i n' = some (key i (e.hash n')) := by
      unfold treeEnt
      rw [if_neg h2, if_neg (by omega)]
    simp [lookupFrom, ht, hg]
  · intro hl
    unfold lookupFrom at hl
    cases ht : treeEnt e i n with
    | none => rw [ht] at hl; cases hl
    | some x =>
      rw [ht] at hl
      dsimp only at hl
      obtain ⟨rfl, h1, h2⟩ := treeEnt_some ht
      cases hg : f.get (key i (e.hash n)) with
      | none => rw [hg] at hl; simp at hl
      | some u =>
        rw [hg] at hl
        cases u with
        | tree _ _ => cases hl
        | ent t m =>
          dsimp only at hl
          split at hl
          · rename_i hm
            subst hm
            simp only [lookupFrom, Res.ok.injEq, Prod.mk.injEq, Option.some.injEq, true_and] at hl
            subst hl
            refine ⟨_, List.mem_map.2 ⟨_, (mem_children' f h.sorted i 0 _ _).2
              ⟨hg, ?_, ?_⟩, rfl⟩⟩
            · rw [key_mod (hash_lt e m)]
            · rw [key_mod (hash_lt e m)]
              omega
          · cases hl

/-! ### Pages -/

/-- A client reads a listing in pages: for each page, the state of the database at that time and
how many entries it takes.  It resumes from the cookie of the last entry it got. -/
def pagesDyn (e : Env D) (name : Str) : Nat → List (Db D × Nat) → List (Str × Nat × Nat)
  | _, [] => []
  | offs, (db, s) :: rest =>
    match listFs e db name offs with
    | .ok l => l.take s ++ pagesDyn e name (((l.take s).getLast?.map (·.2.2)).getD offs) rest
    | _ => []

/-- Pages of a database that does not change. -/
def pages (e : Env D) (db : Db D) (name : Str) (sizes : List Nat) : List (Str × Nat × Nat) :=
  pagesDyn e name 0 (sizes.map fun s => (db, s))

/-- Did the client see the end of the listing? -/
def reachesEnd (e : Env D) (name : Str) : Nat → List (Db D × Nat) → Prop
  | _, [] => False
  | offs, (db, s) :: rest =>
    match listFs e db name offs with
    | .ok l => l.length < s ∨
        reachesEnd e name (((l.take s).getLast?.map (·.2.2)).getD offs) rest
    | _ => False

theorem filter_drop {α : Type} (c : α → Nat) (F : List α)
    (hp : F.Pairwise fun a b => c a < c b) (i : Nat) (hi : i < F.length) :
    F.filter (fun x => c F[i] < c x) = F.drop (i + 1) := by
  induction F generalizing i with
  | nil => simp at hi
  | cons a t ih =>
    rw [List.pairwise_cons] at hp
    cases i with
    | zero =>
      simp only [List.getElem_cons_zero, List.drop_succ_cons, List.drop_zero]
      rw [List.filter_cons_of_neg (by simp), List.filter_eq_self.2]
      intro b hb
      simpa using hp.1 b hb
    | succ i =>
      simp only [List.getElem_cons_succ, List.drop_succ_cons]
      have hm : t[i]'(by simpa using hi) ∈ t := List.getElem_mem _
      have := hp.1 _ hm
      rw [List.filter_cons_of_neg (by simp; omega)]
      exact ih hp.2 i (by simpa using hi)

/-- Static pages of a listing with increasing cookies. -/
theorem pages_eq {db : Db D} {name : Str} {F : List (Str × Nat × Nat)}
    (hp : F.Pairwise fun a b => a.2.2 < b.2.2)
    (hl : ∀ offs, listFs e db name offs = .ok (F.filter fun x => offs < x.2.2))
    (sizes : List Nat) (i offs : Nat) (hc : F.filter (fun x => offs < x.2.2) = F.drop i) :
    pagesDyn e name offs (sizes.map fun s => (db, s)) = (F.drop i).take sizes.sum := by
  induction sizes generalizing i offs with
  | nil => simp [pagesDyn]
  | cons s ss ih =>
    rw [List.map_cons, pagesDyn, hl, hc]
    dsimp only
    by_cases hne : (F.drop i).take s = []
    · rw [hne]
      simp only [List.getLast?_nil, Option.map_none, Option.getD_none, List.nil_append,
        List.sum_cons]
      rw [ih i offs hc]
      rcases List.take_eq_nil_iff.1 hne with h | h
      · subst h; simp
      · rw [h]; simp
    · have hlen : 0 < ((F.drop i).take s).length := List.length_pos_iff.2 hne
      have hlast : ((F.drop i).take s).getLast? = some ((F.drop i).take s)[((F.drop i).take s).length - 1] := by
        rw [List.getLast?_eq_getElem?, List.getElem?_eq_getElem (by omega)]
      have hle : ((F.drop i).take s).length = min s (F.length - i) := by simp
      have hget : ((F.drop i).take s)[((F.drop i).take s).length - 1] =
          F[i + (((F.drop i).take s).length - 1)]'(by omega) := by
        simp
      rw [hlast, hget]
      simp only [Option.map_some, Option.getD_some, List.sum_cons]
      rw [ih (i + (((F.drop i).take s).length - 1) + 1) _ (filter_drop (·.2.2) F hp _ (by omega))]
      have h2 : F.drop (i + (((F.drop i).take s).length - 1) + 1) = (F.drop i).drop s := by
        rw [List.drop_drop]
        by_cases hs : s ≤ F.length - i
        · congr 1
          omega
        · rw [List.drop_eq_nil_of_le (by omega), List.drop_eq_nil_of_le (by omega)]
      rw [h2, List.take_add]

/-- What each page of a changing listing shows. -/
structure PageOk (e : Env D) (name : Str) (db : Db D) (F : List (Str × Nat × Nat)) : Prop where
  list : ∀ offs, listFs e db name offs = .ok (F.filter fun x => offs < x.2.2)
  sorted : F.Pairwise fun a b => a.2.2 < b.2.2

/-- Dynamic pages: cookies increase, and what stays is not missed. -/
theorem pagesDyn_spec {name : Str} (l : List (Db D × Nat)) (offs : Nat)
    (h : ∀ x ∈ l, ∃ F, PageOk e name x.1 F) :
    (pagesDyn e name offs l).Pairwise (fun a b => a.2.2 < b.2.2) ∧
    (∀ a ∈ pagesDyn e name offs l, offs < a.2.2 ∧
      ∃ x ∈ l, ∃ r, listFs e x.1 name 0 = .ok r ∧ a ∈ r) ∧
    (reachesEnd e name offs l → ∀ a, offs < a.2.2 →
      (∀ x ∈ l, ∃ r, listFs e x.1 name 0 = .ok r ∧ a ∈ r) → a ∈ pagesDyn e name offs l) := by
  induction l generalizing offs with
  | nil => simp [pagesDyn, reachesEnd]
  | cons x l ih =>
    obtain ⟨db, s⟩ := x
    obtain ⟨F, hF⟩ := h (db, s) (by simp)
    have hih := fun o => ih o (fun x hx => h x (List.mem_cons_of_mem _ hx))
    rw [pagesDyn, reachesEnd, hF.list]
    dsimp only
    have hG : (F.filter fun x => offs < x.2.2).Pairwise fun a b => a.2.2 < b.2.2 :=
      hF.sorted.filter _
    have hGo : ∀ a ∈ F.filter fun x => offs < x.2.2, offs < a.2.2 ∧ a ∈ F := by
      intro a ha
      have := List.mem_filter.1 ha
      exact ⟨by simpa using this.2, this.1⟩
    generalize hGdef : (F.filter fun x => decide (offs < x.2.2)) = G at *
    have hF0 : ∀ a ∈ F, offs < a.2.2 → a ∈ G := by
      intro a ha ho
      rw [← hGdef]
      exact List.mem_filter.2 ⟨ha, by simpa using ho⟩
    have hlist0 : ∃ r, listFs e db name 0 = .ok r ∧ ∀ a ∈ F, offs < a.2.2 → a ∈ r := by
      refine ⟨_, hF.list 0, fun a ha ho => List.mem_filter.2 ⟨ha, ?_⟩⟩
      simp only [decide_eq_true_eq]
      omega
    obtain ⟨r0, hr0, hr0F⟩ := hlist0
    -- the next cookie is not below the old one, and not below anything taken
    have hnext : ∀ a ∈ G.take s, a.2.2 ≤ ((G.take s).getLast?.map (·.2.2)).getD offs := by
      intro a ha
      obtain ⟨i, hi, rfl⟩ := List.getElem_of_mem ha
      have hlast : (G.take s).getLast? = some (G.take s)[(G.take s).length - 1] := by
        rw [List.getLast?_eq_getElem?, List.getElem?_eq_getElem (by omega)]
      rw [hlast]
      simp only [Option.map_some, Option.getD_some]
      have hps : (G.take s).Pairwise fun a b => a.2.2 < b.2.2 := hG.sublist (List.take_sublist _ _)
      rcases Nat.lt_or_ge i ((G.take s).length - 1) with hlt | hge
      · exact Nat.le_of_lt (List.pairwise_iff_getElem.1 hps i _ hi (by omega) hlt)
      · have : i = (G.take s).length - 1 := by omega
        subst this
        exact Nat.le_refl _
    have hmono : offs ≤ ((G.take s).getLast?.map (·.2.2)).getD offs := by
      cases hl : (G.take s).getLast? with
      | none => simp
      | some a =>
        have ha : a ∈ G.take s := List.mem_of_getLast? hl
        have := (hGo a (List.mem_of_mem_take ha)).1
        simp
        omega
    -- what is left of the page has larger cookies
    have hrest : ∀ a ∈ G, a ∉ G.take s → ((G.take s).getLast?.map (·.2.2)).getD offs < a.2.2 := by
      intro a ha hna
      cases hl : (G.take s).getLast? with
      | none => simpa using (hGo a ha).1
      | some b =>
        have hb : b ∈ G.take s := List.mem_of_getLast? hl
        have hd : a ∈ G.drop s := by
          have : a ∈ G.take s ++ G.drop s := by rw [List.take_append_drop]; exact ha
          rcases List.mem_append.1 this with h | h
          · exact absurd h hna
          · exact h
        have hG' := hG
        rw [← List.take_append_drop s G, List.pairwise_append] at hG'
        simpa using hG'.2.2 b hb a hd
    generalize ((G.take s).getLast?.map (·.2.2)).getD offs = o at *
    obtain ⟨h1, h2, h3⟩ := hih o
    refine ⟨?_, ?_, ?_⟩
    · rw [List.pairwise_append]
      refine ⟨hG.sublist (List.take_sublist _ _), h1, ?_⟩
      intro a ha b hb
      have := hnext a ha
      have := (h2 b hb).1
      omega
    · intro a ha
      rcases List.mem_append.1 ha with ha | ha
      · have := hGo a (List.mem_of_mem_take ha)
        exact ⟨this.1, (db, s), by simp, r0, hr0, hr0F a this.2 this.1⟩
      · obtain ⟨h4, x, hx, hr⟩ := h2 a ha
        exact ⟨by omega, x, List.mem_cons_of_mem _ hx, hr⟩
    · intro hend a ho hall
      have haG : a ∈ G := by
        obtain ⟨r, hr, har⟩ := hall (db, s) (by simp)
        rw [hF.list] at hr
        cases hr
        exact hF0 a (List.mem_filter.1 har).1 ho
      by_cases hat : a ∈ G.take s
      · exact List.mem_append.2 (.inl hat)
      · refine List.mem_append.2 (.inr ?_)
        rcases hend with hend | hend
        · rw [List.take_of_length_le (by omega)] at hat
          exact absurd haG hat
        · exact h3 hend a (hrest a haG hat) (fun x hx => hall x (List.mem_cons_of_mem _ hx))

end Verif.Forest
