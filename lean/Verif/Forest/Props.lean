import Verif.Forest.Any

/-!
# C42, C43, C54, C56: file system names, listings and inherited properties
-/

namespace Verif.Forest

open Verif (OMap)
open Verif.Property (Str Prp PName Source defaultValue)

variable {D : Type} {e : Env D} {N : Str → Prop} {db : Db D} {k : Client D}

/-! ## A concrete environment -/

/-- A pool called "tank" and a hash that tells short names apart. -/
def toy : Env Nat :=
  { metro := fun n => n.foldl (fun a c => a * 31 + c.toNat) 7
    rootDir := 1
    empty := 0
    pool := ['t', 'a', 'n', 'k'] }

def toyN (n : Str) : Prop := n = ['a'] ∨ n = ['b'] ∨ n = ['c']

theorem toy_names : Names toy toyN where
  nonempty := by rintro n (rfl | rfl | rfl) <;> decide
  slash := by rintro n (rfl | rfl | rfl) <;> decide
  pool := by decide
  hash := by rintro n (rfl | rfl | rfl) <;> decide +kernel
  inj := by
    rintro a b (rfl | rfl | rfl) (rfl | rfl | rfl) <;> first | exact fun _ => rfl | decide +kernel

/-- A history: the root, "tank/a", a change to it, "tank/a/b", a property on the root, an export. -/
def toyOps : List (Op Nat) :=
  [.create [], .create [['a']], .modify [['a']] (· + 7), .create [['a'], ['b']],
   .setProp [] (.mountpoint ['/', 'x']), .sync, .export, .create [['c']]]

/-- Database and map after a list of operations. -/
def run (e : Env D) : Db D × Client D → List (Op D) → Db D × Client D
  | s, [] => s
  | s, op :: ops => run e ((step e s.1 op).1, s.2.next e op (step e s.1 op).2) ops

/-- Every operation of the list is valid when it is made. -/
def RunValid (e : Env D) (N : Str → Prop) : Db D × Client D → List (Op D) → Prop
  | _, [] => True
  | s, op :: ops =>
    Valid N s.2 op ∧ RunValid e N ((step e s.1 op).1, s.2.next e op (step e s.1 op).2) ops

theorem run_reach (ops : List (Op D)) (s : Db D × Client D) (h : Reach e N s.1 s.2)
    (hv : RunValid e N s ops) : Reach e N (run e s ops).1 (run e s ops).2 := by
  induction ops generalizing s with
  | nil => exact h
  | cons op ops ih => exact ih _ (Reach.step op h hv.1) hv.2

/-- The identifiers a client knows are those of its files. -/
theorem small_of_inv (v : Inv e N db k) (b : Nat) (h : ∀ x ∈ db.forest, x.1 < b * 2 ^ 64) (q : Path)
    (i : Nat) (c : Fs D) (hq : k.fs q = some (i, c)) : i < b := by
  obtain ⟨tod, h1, _⟩ := v.trees q i c hq
  have := h _ (OMap.mem_of_get h1)
  unfold key at this
  dsimp only at this
  omega

/-! ## C42: file system names behave as a map -/

/-- After any history of creating, destroying, finding, listing, changing, mounting and unmounting
file systems and of setting properties, with syncs and exports in between, every call answers
what the client's map from paths to contents says.

Partial: the names used must not collide under the 56 bit hash, and the root file system must be
created before others and only once.  The `C42_…` theorems below show what happens otherwise. -/
theorem C42_history_partial (hN : Names e N) (r : Reach e N db k) (op : Op D) (hv : Valid N k op) :
    Expected e k op (step e db op).2 :=
  ((reach_inv hN r).step hN (reach_typed r) op hv).2

/-- A file system that was created is found, and every other name leads to what it led to before. -/
theorem C42_create_find_partial (hN : Names e N) (r : Reach e N db k) (p : Path)
    (hv : Valid N k (.create p)) (i : Nat) (h : (createFs e db (full e p)).2 = .ok i) :
    find e (createFs e db (full e p)).1 (full e p) = .ok (some i) ∧
    ∀ q, q ≠ p → (∀ n ∈ q, N n) →
      find e (createFs e db (full e p)).1 (full e q) = find e db (full e q) := by
  have r' := Reach.step (.create p) r hv
  have hk : k.next e (.create p) (step e db (.create p)).2 =
      { k with fs := set k.fs p (some (i, ⟨[], e.rootDir⟩)) } := by
    simp [step, h, Client.next]
  have hdb : (step e db (.create p)).1 = (createFs e db (full e p)).1 := rfl
  rw [hk, hdb] at r'
  have hf : ∀ {db k}, Reach e N db k → ∀ q, (∀ n ∈ q, N n) →
      find e db (full e q) = .ok ((k.fs q).map Prod.fst) := by
    intro db k r q hq
    have := C42_history_partial hN r (.find q) hq
    simpa [Expected, step] using this
  refine ⟨?_, ?_⟩
  · rw [hf r' p hv.1]
    simp [set_same]
  · intro q hq hqN
    rw [hf r' q hqN, hf r q hqN]
    simp [set_ne _ _ hq]

/-- A file system that was destroyed is not found, and every other name leads to what it led to
before. -/
theorem C42_destroy_find_partial (hN : Names e N) (r : Reach e N db k) (p : Path)
    (hv : ∀ n ∈ p, N n) (h : (destroyFs e db (full e p)).2 = .ok ()) :
    find e (destroyFs e db (full e p)).1 (full e p) = .ok none ∧
    ∀ q, q ≠ p → (∀ n ∈ q, N n) →
      find e (destroyFs e db (full e p)).1 (full e q) = find e db (full e q) := by
  have r' := Reach.step (.destroy p) r hv
  have hk : k.next e (.destroy p) (step e db (.destroy p)).2 = { k with fs := set k.fs p none } := by
    simp [step, h, Client.next]
  have hdb : (step e db (.destroy p)).1 = (destroyFs e db (full e p)).1 := rfl
  rw [hk, hdb] at r'
  have hf : ∀ {db k}, Reach e N db k → ∀ q, (∀ n ∈ q, N n) →
      find e db (full e q) = .ok ((k.fs q).map Prod.fst) := by
    intro db k r q hq
    have := C42_history_partial hN r (.find q) hq
    simpa [Expected, step] using this
  refine ⟨?_, ?_⟩
  · rw [hf r' p hv]
    simp [set_same]
  · intro q hq hqN
    rw [hf r' q hqN, hf r q hqN]
    simp [set_ne _ _ hq]

/-- Non-vacuity: a history with nested file systems, a property and an export is valid. -/
theorem toy_valid : RunValid toy toyN (⟨[], [], []⟩, Client.init) toyOps := by
  have small : ∀ (ops : List (Op Nat)) (b : Nat),
      RunValid toy toyN (⟨[], [], []⟩, Client.init) ops →
      (∀ x ∈ (run toy (⟨[], [], []⟩, Client.init) ops).1.forest, x.1 < b * 2 ^ 64) → b < 2 ^ 64 →
      ∀ q i c, (run toy (⟨[], [], []⟩, Client.init) ops).2.fs q = some (i, c) → i + 1 < 2 ^ 64 := by
    intro ops b hv hx hb q i c hq
    have := small_of_inv (reach_inv toy_names (run_reach ops _ .create hv)) b hx q i c hq
    omega
  have v1 : RunValid toy toyN (⟨[], [], []⟩, Client.init) [.create []] := by
    refine ⟨⟨by simp, fun _ => rfl, by simp, by simp [Client.init]⟩, trivial⟩
  have v2 : RunValid toy toyN (⟨[], [], []⟩, Client.init)
      [.create [], .create [['a']], .modify [['a']] (· + 7)] := by
    refine ⟨v1.1, ⟨by simp [toyN], by simp, fun _ => by decide +kernel,
      small [.create []] 1 v1 (by decide +kernel) (by decide)⟩, by simp [Valid, toyN], trivial⟩
  have v3 : RunValid toy toyN (⟨[], [], []⟩, Client.init)
      [.create [], .create [['a']], .modify [['a']] (· + 7), .create [['a'], ['b']],
       .setProp [] (.mountpoint ['/', 'x']), .sync, .export] := by
    refine ⟨v2.1, v2.2.1, v2.2.2.1, ⟨by simp [toyN], by simp, by simp,
      small [.create [], .create [['a']], .modify [['a']] (· + 7)] 2 v2 (by decide +kernel)
        (by decide)⟩, ⟨by simp, ?_⟩, trivial, trivial, trivial⟩
    intro h
    exact absurd h (by decide +kernel)
  exact ⟨v3.1, v3.2.1, v3.2.2.1, v3.2.2.2.1, v3.2.2.2.2.1, trivial, trivial, ⟨by simp [toyN], by simp,
      fun _ => by decide +kernel,
      small [.create [], .create [['a']], .modify [['a']] (· + 7), .create [['a'], ['b']],
       .setProp [] (.mountpoint ['/', 'x']), .sync, .export] 3 v3 (by decide +kernel) (by decide)⟩,
      trivial⟩

/-- The state after it. -/
abbrev toyDb : Db Nat := (run toy (⟨[], [], []⟩, Client.init) toyOps).1
abbrev toyClient : Client Nat := (run toy (⟨[], [], []⟩, Client.init) toyOps).2

theorem toy_reach : Reach toy toyN toyDb toyClient := run_reach toyOps _ .create toy_valid

/-- In it "tank/a/b" is found, "tank/b" is not, "tank/a" still has what was written to it, and it
cannot be destroyed while "tank/a/b" is there. -/
example : find toy toyDb (full toy [['a'], ['b']]) = .ok (some 2) ∧
    find toy toyDb (full toy [['b']]) = .ok none ∧
    (readFs toy toyDb (full toy [['a']])).2 = .ok ⟨[], 8⟩ ∧
    (destroyFs toy toyDb (full toy [['a']])).2 = .err .ebusy ∧
    (destroyFs toy toyDb (full toy [['a'], ['b']])).2 = .ok () ∧
    (createFs toy toyDb (full toy [['a'], ['b']])).2 = .err .eexist := by
  decide +kernel

/-- Violation: the root file system can be created twice.  The second one can never be found by any
name, but its tree stays in the pool. -/
theorem C42_second_root :
    let db := (createFs toy ⟨[], [], []⟩ toy.pool).1
    let db' := (createFs toy db toy.pool).1
    (createFs toy db toy.pool).2 = .ok 1 ∧ (getTree db'.forest 1) = .ok ⟨[], 0⟩ ∧
      ∀ s, find toy db' s ≠ .ok (some 1) := by
  refine ⟨by decide +kernel, by decide +kernel, ?_⟩
  have hdb : (createFs toy (createFs toy ⟨[], [], []⟩ toy.pool).1 toy.pool).1.forest =
      [(key 0 0, .tree none ⟨[], 0⟩), (key 1 0, .tree none ⟨[], 0⟩)] := by decide +kernel
  have hlook : ∀ n o, lookup toy [(key 0 0, .tree none ⟨[], 0⟩), (key 1 0, .tree none ⟨[], 0⟩)] n ≠
      .ok (o, some 1) := by
    intro n o h
    unfold lookup at h
    split at h
    · have : (OMap.get [(key 0 0, Value.tree none ⟨[], 0⟩), (key 1 0, .tree none ⟨[], 0⟩)] (key 0 0) :
          Option (Value Nat)) = some (.tree none ⟨[], 0⟩) := by decide +kernel
      rw [this] at h
      simp at h
    · cases hsp : split n with
      | nil => exact split_ne_nil n hsp
      | cons c cs =>
        rw [hsp, lookupFrom] at h
        cases ht : treeEnt toy 0 c with
        | none => rw [ht] at h; cases h
        | some x =>
          rw [ht] at h
          obtain ⟨rfl, h1, _⟩ := treeEnt_some ht
          have hx : (OMap.get [(key 0 0, Value.tree none ⟨[], 0⟩), (key 1 0, .tree none ⟨[], 0⟩)]
              (key 0 (toy.hash c)) : Option (Value Nat)) = none := by
            have hlt := hash_lt toy c
            have h2 : key 0 (toy.hash c) ≠ key 0 0 := fun h => h1 (key_inj hlt (by decide) h).2
            have h3 : key 0 (toy.hash c) ≠ key 1 0 :=
              fun h => absurd (key_inj hlt (by decide) h).1 (by decide)
            simp only [OMap.get, if_neg (Ne.symm h2), if_neg (Ne.symm h3)]
          dsimp only at h
          rw [hx] at h
          simp at h
  intro s h
  have hres : ∀ r, resolve toy (createFs toy (createFs toy ⟨[], [], []⟩ toy.pool).1 toy.pool).1 s =
      .ok r → r.2.2 ≠ some 1 := by
    intro r hr h1
    unfold resolve at hr
    rw [hdb] at hr
    cases hs : stripPoolName toy s with
    | err x => rw [hs] at hr; cases hr
    | panic => rw [hs] at hr; cases hr
    | ok n =>
      rw [hs] at hr
      dsimp only at hr
      cases hl : lookup toy [(key 0 0, .tree none ⟨[], 0⟩), (key 1 0, .tree none ⟨[], 0⟩)] n with
      | err x => rw [hl] at hr; cases hr
      | panic => rw [hl] at hr; cases hr
      | ok ab =>
        obtain ⟨a, b⟩ := ab
        rw [hl] at hr
        simp only [Res.ok.injEq] at hr
        rw [← hr] at h1
        dsimp only at h1
        subst h1
        exact hlook n a hl
  unfold find at h
  cases hr : resolve toy (createFs toy (createFs toy ⟨[], [], []⟩ toy.pool).1 toy.pool).1 s with
  | err x => rw [hr] at h; cases h
  | panic => rw [hr] at h; cases h
  | ok r =>
    rw [hr] at h
    exact hres r hr (by simpa using h)

/-- Violation: creating "tank/a" in a pool without a root file system succeeds and makes a file
system that is its own parent: "tank", "tank/a" and "tank/a/a" are one, and it can never be
destroyed. -/
theorem C42_no_root :
    let r := createFs toy ⟨[], [], []⟩ (full toy [['a']])
    r.2 = .ok 0 ∧ find toy r.1 (full toy []) = .ok (some 0) ∧
      find toy r.1 (full toy [['a']]) = .ok (some 0) ∧
      find toy r.1 (full toy [['a'], ['a']]) = .ok (some 0) ∧
      (destroyFs toy r.1 (full toy [['a']])).2 = .err .ebusy ∧
      (destroyFs toy r.1 (full toy [])).2 = .err .ebusy := by
  decide +kernel

/-- Violation: of two names with one hash the second cannot be created although it is free, and
looking it up panics. -/
theorem C42_hash_collision :
    let e : Env Nat := { toy with metro := fun _ => 5 }
    let db := (createFs e (createFs e ⟨[], [], []⟩ e.pool).1 (full e [['a']])).1
    (createFs e db (full e [['b']])).2 = .err .eexist ∧
      find e db (full e [['b']]) = .panic ∧
      (createFs e db (full e [['b'], ['c']])).2 = .panic := by
  decide +kernel

/-- Violation: a name with a slash at its end is accepted.  The file system can be found but
destroying it panics, so that its parent cannot be destroyed either. -/
theorem C42_trailing_slash :
    let name := full toy [['a']] ++ ['/']
    let r := createFs toy toyDb name
    r.2 = .ok 4 ∧ find toy r.1 name = .ok (some 4) ∧ (destroyFs toy r.1 name).2 = .panic := by
  decide +kernel

/-- Violation: a file system whose mount ended without an unmount cannot be destroyed, although it
can be mounted again. -/
theorem C42_dead_mount_busy :
    let name := full toy [['c']]
    let db := dropFs (newFs toy toyDb name).1 3
    (newFs toy toyDb name).2 = .ok 3 ∧ (destroyFs toy db name).2 = .err .ebusy ∧
      (newFs toy db name).2 = .ok 3 := by
  decide +kernel

/-! ## C43: listing in pages -/

theorem lookupFrom_append (f : OMap (Value D)) (a b : Path) (par : Option Nat) (i : Nat)
    (p' : Option Nat) (j : Nat) (h : lookupFrom e f par i a = .ok (p', some j)) :
    lookupFrom e f par i (a ++ b) = lookupFrom e f p' j b := by
  induction a generalizing par i with
  | nil =>
    simp only [lookupFrom, Res.ok.injEq, Prod.mk.injEq, Option.some.injEq] at h
    obtain ⟨rfl, rfl⟩ := h
    rfl
  | cons c cs ih =>
    rw [List.cons_append, lookupFrom.eq_def _ _ _ _ (c :: (cs ++ b))]
    unfold lookupFrom at h
    cases ht : treeEnt e i c with
    | none => rw [ht] at h; cases h
    | some x =>
      rw [ht] at h
      dsimp only at h ⊢
      cases hg : f.get x with
      | none => rw [hg] at h; simp at h
      | some u =>
        rw [hg] at h
        cases u with
        | tree _ _ => cases h
        | ent t n =>
          dsimp only at h ⊢
          split at h
          · rename_i hn
            simp only [ht, hg, if_pos hn]
            exact ih _ _ h
          · cases h

/-- Whatever calls were made before, with whatever names and outcomes: there is one list of a
dataset's children, each name once, which are exactly the names that can be found below it, such
that reading the listing in pages of any sizes, resuming from the last cookie each time, yields
that list cut to the number of entries asked for.  So nothing is skipped or repeated. -/
theorem C43_pages (e : Env D) (l : List (Call D)) (p : Path) (hp : ∀ n ∈ p, n ≠ [] ∧ '/' ∉ n) (id : Nat)
    (h : find e (calls e l) (full e p) = .ok (some id)) :
    ∃ all : List (Str × Nat × Nat), (all.map Prod.fst).Nodup ∧
      (∀ n, n ≠ [] → '/' ∉ n → ∀ j, (∃ c, (n, j, c) ∈ all) ↔
        find e (calls e l) (full e (p ++ [n])) = .ok (some j)) ∧
      (∀ x ∈ all, '/' ∉ x.1) ∧
      ∀ sizes, pages e (calls e l) (full e p) sizes = all.take sizes.sum := by
  have hpl := calls_plain (e := e) l
  generalize calls e l = db at h hpl
  obtain ⟨par, hr⟩ : ∃ par, resolve e db (full e p) = .ok (join p, par, some id) := by
    unfold find at h
    have hs : resolve e db (full e p) = match lookup e db.forest (join p) with
        | .ok r => .ok (join p, r)
        | .err x => .err x
        | .panic => .panic := by
      unfold resolve
      rw [strip_full]
      rfl
    cases hl : lookup e db.forest (join p) with
    | ok r =>
      rw [hl] at hs
      rw [hs] at h
      obtain ⟨a, b⟩ := r
      simp only [Res.ok.injEq] at h
      subst h
      exact ⟨a, hs⟩
    | err x => rw [hl] at hs; rw [hs] at h; cases h
    | panic => rw [hl] at hs; rw [hs] at h; cases h
  have hlook : lookup e db.forest (join p) = .ok (par, some id) := by
    unfold resolve at hr
    rw [strip_full] at hr
    dsimp only at hr
    cases hl : lookup e db.forest (join p) with
    | ok r => rw [hl] at hr; simpa using hr
    | err x => rw [hl] at hr; cases hr
    | panic => rw [hl] at hr; cases hr
  have hck := hpl.cookies id
  have hnames : (((children db.forest id 0).map direntOf).map Prod.fst).Nodup := by
    rw [List.nodup_iff_pairwise_ne, List.pairwise_map]
    refine List.Pairwise.imp_of_mem ?_ hck
    intro a b ha hb hlt he
    rw [hpl.cookie ha, hpl.cookie hb, he] at hlt
    exact Nat.lt_irrefl _ hlt
  refine ⟨(children db.forest id 0).map direntOf, hnames, ?_, ?_, ?_⟩
  · intro n hn hs j
    rw [hpl.listed]
    have hne : join (p ++ [n]) ≠ [] := by
      apply join_ne_nil _ (by simp)
      intro m hm
      rcases List.mem_append.1 hm with hm | hm
      · exact (hp m hm).1
      · simp at hm; subst hm; exact hn
    have hsplit : split (join (p ++ [n])) = p ++ [n] := by
      apply split_join _ (by simp)
      intro m hm
      rcases List.mem_append.1 hm with hm | hm
      · exact (hp m hm).2
      · simp at hm; subst hm; exact hs
    have hlk : lookup e db.forest (join (p ++ [n])) = lookupFrom e db.forest none id [n] := by
      unfold lookup
      rw [if_neg hne, hsplit]
      by_cases hp0 : p = []
      · subst hp0
        have : id = 0 := by
          unfold lookup at hlook
          simp only [join, if_true] at hlook
          split at hlook
          · simp only [Res.ok.injEq, Prod.mk.injEq, Option.some.injEq] at hlook
            exact hlook.2.symm
          · cases hlook
          · simp at hlook
        subst this
        rfl
      · have hpl' : lookupFrom e db.forest none 0 p = .ok (par, some id) := by
          unfold lookup at hlook
          rw [if_neg (join_ne_nil p hp0 fun m hm => (hp m hm).1),
            split_join p hp0 fun m hm => (hp m hm).2] at hlook
          exact hlook
        rw [lookupFrom_append _ _ _ _ _ _ _ hpl']
        unfold lookupFrom
        rfl
    unfold find resolve
    rw [strip_full]
    dsimp only
    rw [hlk]
    constructor
    · intro hx; rw [hx]
    · intro hx
      have hsome : ∀ x, lookupFrom e db.forest none id [n] = .ok (x, some j) → x = some id := by
        intro x hx
        unfold lookupFrom at hx
        split at hx
        · cases hx
        · split at hx
          · split at hx
            · simp only [lookupFrom, Res.ok.injEq, Prod.mk.injEq] at hx
              exact hx.1.symm
            · cases hx
          · cases hx
          · simp at hx
      cases hl : lookupFrom e db.forest none id [n] with
      | ok r =>
        rw [hl] at hx
        obtain ⟨a, b⟩ := r
        simp only [Res.ok.injEq] at hx
        subst hx
        rw [hsome a hl]
      | err x => rw [hl] at hx; cases hx
      | panic => rw [hl] at hx; cases hx
  · intro x hx
    obtain ⟨⟨y, u⟩, hy, rfl⟩ := List.mem_map.1 hx
    obtain ⟨j, n, rfl, rfl, _, h2⟩ := hpl.children_ent hy
    exact h2
  · intro sizes
    have hl : ∀ offs, listFs e db (full e p) offs =
        .ok (((children db.forest id 0).map direntOf).filter fun x => offs < x.2.2) := by
      intro offs
      unfold listFs
      rw [hr]
      dsimp only
      rw [hpl.readdir, hpl.children_filter]
    have hz : ((children db.forest id 0).map direntOf).filter (fun x => 0 < x.2.2) =
        ((children db.forest id 0).map direntOf).drop 0 := by
      rw [List.drop_zero, List.filter_eq_self]
      intro x hx
      rw [hpl.cookie hx]
      simp
    exact pages_eq hck hl sizes 0 0 hz

/-- Non-vacuity: three children, pages of one and two entries. -/
example : ∃ l : List (Call Nat), find toy (calls toy l) (full toy []) = .ok (some 0) ∧
    (pages toy (calls toy l) (full toy []) [1, 2, 1]).map Prod.fst = [['a'], ['b'], ['c']] ∧
    (pages toy (calls toy l) (full toy []) [0, 1, 1]).map Prod.fst = [['a'], ['b']] :=
  ⟨[.create toy.pool, .create (full toy [['c']]), .create (full toy [['a']]),
    .create (full toy [['b']])], by decide +kernel⟩

/-- Others may create and destroy file systems between the pages, as long as the dataset itself
stays: no name is listed twice, everything listed was a child at the time of one of the pages,
and every child that is there throughout is listed once the client has seen the end. -/
theorem C43_pages_with_changes (e : Env D) (p : Path) (ls : List (List (Call D) × Nat))
    (h : ∀ x ∈ ls, ∃ id, find e (calls e x.1) (full e p) = .ok (some id)) :
    let ps := ls.map fun x => (calls e x.1, x.2)
    ((pagesDyn e (full e p) 0 ps).map Prod.fst).Nodup ∧
    (∀ a ∈ pagesDyn e (full e p) 0 ps, ∃ x ∈ ps, ∃ r, listFs e x.1 (full e p) 0 = .ok r ∧ a ∈ r) ∧
    (reachesEnd e (full e p) 0 ps → ∀ a,
      (∀ x ∈ ps, ∃ r, listFs e x.1 (full e p) 0 = .ok r ∧ a ∈ r) → a ∈ pagesDyn e (full e p) 0 ps) := by
  intro ps
  have hok : ∀ x ∈ ps, ∃ F, PageOk e (full e p) x.1 F ∧ ∀ a ∈ F, a.2.2 = e.hash a.1 + 1 := by
    intro x hx
    obtain ⟨y, hy, rfl⟩ := List.mem_map.1 hx
    obtain ⟨id, hid⟩ := h y hy
    have hpl := calls_plain (e := e) y.1
    refine ⟨(children (calls e y.1).forest id 0).map direntOf, ⟨?_, hpl.cookies id⟩,
      fun a ha => hpl.cookie ha⟩
    intro offs
    unfold find at hid
    unfold listFs
    cases hr : resolve e (calls e y.1) (full e p) with
    | err x => rw [hr] at hid; cases hid
    | panic => rw [hr] at hid; cases hid
    | ok r =>
      obtain ⟨a, b, c⟩ := r
      rw [hr] at hid
      simp only [Res.ok.injEq] at hid
      subst hid
      dsimp only
      rw [hpl.readdir, hpl.children_filter]
  obtain ⟨h1, h2, h3⟩ := pagesDyn_spec (e := e) (name := full e p) ps 0
    (fun x hx => (hok x hx).imp fun _ h => h.1)
  have hck : ∀ a ∈ pagesDyn e (full e p) 0 ps, a.2.2 = e.hash a.1 + 1 := by
    intro a ha
    obtain ⟨_, x, hx, r, hr, har⟩ := h2 a ha
    obtain ⟨F, hF, hFc⟩ := hok x hx
    rw [hF.list] at hr
    cases hr
    exact hFc a (List.mem_filter.1 har).1
  refine ⟨?_, fun a ha => (h2 a ha).2, ?_⟩
  · rw [List.nodup_iff_pairwise_ne, List.pairwise_map]
    refine List.Pairwise.imp_of_mem ?_ h1
    intro a b ha hb hlt heq
    rw [hck a ha, hck b hb, heq] at hlt
    exact Nat.lt_irrefl _ hlt
  · intro hend a ha
    by_cases hps : ps = []
    · rw [hps] at hend
      exact absurd hend (by simp [reachesEnd])
    · obtain ⟨x, hx⟩ := List.exists_mem_of_ne_nil _ hps
      obtain ⟨r, hr, har⟩ := ha x hx
      obtain ⟨F, hF, hFc⟩ := hok x hx
      rw [hF.list] at hr
      cases hr
      exact h3 hend a (by
        rw [hFc a (List.mem_filter.1 har).1]
        omega) ha

/-- Non-vacuity: "tank/a" is destroyed and "tank/d" created between two pages. -/
example :
    let l : List (Call Nat) := [.create toy.pool, .create (full toy [['c']]), .create (full toy [['a']])]
    let ps := [(calls toy l, 1),
      (calls toy (l ++ [.destroy (full toy [['a']]), .create (full toy [['d']])]), 5)]
    (pagesDyn toy (full toy []) 0 ps).map Prod.fst = [['a'], ['c'], ['d']] ∧
      reachesEnd toy (full toy []) 0 ps := by
  refine ⟨by decide +kernel, ?_⟩
  simp only [reachesEnd]
  have h1 : listFs toy (calls toy [.create toy.pool, .create (full toy [['c']]),
      .create (full toy [['a']])]) (full toy []) 0 =
      .ok [(['a'], 2, 315), (['c'], 1, 317)] := by decide +kernel
  have h2 : listFs toy (calls toy ([.create toy.pool, .create (full toy [['c']]),
      .create (full toy [['a']])] ++ [.destroy (full toy [['a']]), .create (full toy [['d']])]))
      (full toy []) 315 = .ok [(['c'], 1, 317), (['d'], 2, 318)] := by decide +kernel
  rw [h1]
  simp only [List.take, List.getLast?_singleton, Option.map_some, Option.getD_some]
  rw [h2]
  simp

/-! ## C54: inherited properties -/

/-- Reading a property answers the value set on the dataset or its nearest ancestor where it is set,
with the number of levels between them, or the default; for the mount point the rest of the
path is added.  `PropAnswer` spells this out; what is set where is the client's record of its own
`setProp` calls.

Partial: at most 255 levels (see `C54_deep_panics`). -/
theorem C54_inherited_partial (hN : Names e N) (r : Reach e N db k) (p : Path) (n : PName)
    (hp : ∀ m ∈ p, N m) (hl : p.length ≤ 255) (hn : n ≠ .baseMountpoint) :
    PropAnswer e k p n (getProp e db (full e p) n).2 := by
  obtain ⟨_, h1, h2⟩ := C42_history_partial hN r (.getProp p n) ⟨hp, hl, hn⟩
  simp only [step, Out.prop.injEq] at h1
  exact h1 ▸ h2

/-- Setting a property on a dataset: reading it there answers the value just set, as set on this
very dataset. -/
theorem C54_set_get_partial (hN : Names e N) (r : Reach e N db k) (p : Path) (v : Prp)
    (hp : ∀ m ∈ p, N m) (hl : p.length ≤ 255) (hv : v.pname = .atime ∨ v.pname = .recordSize)
    (h : (setProp e db (full e p) v).2 = .ok ()) :
    (getProp e (setProp e db (full e p) v).1 (full e p) v.pname).2 = .ok (v, .set 0) ∧
    ∀ q n, (∀ m ∈ q, N m) → q.length ≤ 255 → n ≠ .baseMountpoint → n ≠ v.pname →
      (getProp e (setProp e db (full e p) v).1 (full e q) n).2 = (getProp e db (full e q) n).2 := by
  have hw : v.inheritable = v := by
    cases v <;> simp_all [Prp.inheritable, Prp.pname]
  have r' := Reach.step (.setProp p v) r ⟨hp, fun _ => hv⟩
  have hk : k.next e (.setProp p v) (step e db (.setProp p v)).2 =
      { k with fs := set k.fs p ((k.fs p).map fun x => (x.1, x.2.setProp v)) } := by
    simp [step, h, Client.next, hw]
  have hdb : (step e db (.setProp p v)).1 = (setProp e db (full e p) v).1 := rfl
  rw [hk, hdb] at r'
  have hsome : k.fs p ≠ none := by
    intro h0
    have := C42_history_partial hN r (.setProp p v) ⟨hp, fun _ => hv⟩
    simp [Expected, step, h, setAnswer, h0] at this
  have hlocal : ∀ n q, (Client.local { k with fs := set k.fs p ((k.fs p).map fun x => (x.1, x.2.setProp v)) }
      n q) = if q = p ∧ n = v.pname then some v else k.local n q := by
    intro n q
    unfold Client.local
    by_cases hq : q = p
    · subst hq
      rw [show ({ k with fs := set k.fs q ((k.fs q).map fun x => (x.1, x.2.setProp v)) } : Client D).fs q =
        (k.fs q).map fun x => (x.1, x.2.setProp v) from set_same _ _ _]
      cases hx : k.fs q with
      | none => exact absurd hx hsome
      | some x =>
        simp only [Option.map_some, Option.bind_some, prop_setProp, true_and]
    · rw [show ({ k with fs := set k.fs p ((k.fs p).map fun x => (x.1, x.2.setProp v)) } : Client D).fs q =
        k.fs q from set_ne _ _ hq]
      simp [hq]
  have hfs : ∀ q, (set k.fs p ((k.fs p).map fun x => (x.1, x.2.setProp v)) q = none) ↔ k.fs q = none := by
    intro q
    by_cases hq : q = p
    · subst hq; rw [set_same]; simp
    · rw [set_ne _ _ hq]
  refine ⟨?_, ?_⟩
  · have := C54_inherited_partial hN r' p v.pname hp hl (by
      intro hx
      rcases hv with hv | hv <;> rw [hv] at hx <;> cases hx)
    unfold PropAnswer at this
    rw [if_neg (by simpa [hfs] using hsome)] at this
    have hnear : Nearest { k with fs := set k.fs p ((k.fs p).map fun x => (x.1, x.2.setProp v)) }
        v.pname p p [] v := by
      refine ⟨by simp, by rw [hlocal]; simp, ?_⟩
      intro m hm r hr
      cases m with
      | nil => exact absurd rfl hm
      | cons _ _ => simp at hr
    rcases hv with hv | hv <;> rw [hv] at this hnear ⊢ <;> exact this.1 p [] v hnear
  · intro q n hq hql hn hne
    have h1 := C54_inherited_partial hN r q n hq hql hn
    have h2 := C54_inherited_partial hN r' q n hq hql hn
    have hv2 : v.pname ≠ .baseMountpoint := by rcases hv with h | h <;> rw [h] <;> simp
    have hloc : ∀ m, m ≠ v.pname → ∀ q', Client.local
        { k with fs := set k.fs p ((k.fs p).map fun x => (x.1, x.2.setProp v)) } m q' = k.local m q' := by
      intro m hm q'
      rw [hlocal, if_neg (by simp [hm])]
    have hnear : ∀ m, m ≠ v.pname → ∀ a b w, Nearest k m q a b w → Nearest
        { k with fs := set k.fs p ((k.fs p).map fun x => (x.1, x.2.setProp v)) } m q a b w := by
      intro m hm a b w hw
      exact ⟨hw.split, by rw [hloc m hm]; exact hw.value,
        fun m' hm' r' hr' => by rw [hloc m hm]; exact hw.nearest m' hm' r' hr'⟩
    have hun : ∀ m, m ≠ v.pname → Unset k m q → Unset
        { k with fs := set k.fs p ((k.fs p).map fun x => (x.1, x.2.setProp v)) } m q := by
      intro m hm hu a b hab
      rw [hloc m hm]
      exact hu a b hab
    unfold PropAnswer at h1 h2
    by_cases hkq : k.fs q = none
    · rw [if_pos hkq] at h1
      rw [if_pos (by simpa [hfs] using hkq)] at h2
      rw [h1, h2]
    · rw [if_neg hkq] at h1
      rw [if_neg (by simpa [hfs] using hkq)] at h2
      cases n with
      | name => rw [h1, h2]
      | baseMountpoint => exact absurd rfl hn
      | mountpoint =>
        dsimp only at h1 h2
        rcases nearest_cases k .baseMountpoint q with ⟨a, b, w, hw⟩ | hu
        · have hwt := reach_typed r a _ w hw.value
          cases w with
          | baseMountpoint s =>
            rw [h1.1 a b s hw, h2.1 a b s (hnear _ (Ne.symm hv2) a b _ hw)]
          | _ => cases hwt
        · rw [h1.2 hu, h2.2 (hun _ (Ne.symm hv2) hu)]
      | atime =>
        dsimp only at h1 h2
        rcases nearest_cases k .atime q with ⟨a, b, w, hw⟩ | hu
        · rw [h1.1 a b w hw, h2.1 a b w (hnear _ hne a b w hw)]
        · obtain ⟨w, hw, h3⟩ := h1.2 hu
          obtain ⟨w', hw', h4⟩ := h2.2 (hun _ hne hu)
          rw [hw] at hw'
          cases hw'
          rw [h3, h4]
      | recordSize =>
        dsimp only at h1 h2
        rcases nearest_cases k .recordSize q with ⟨a, b, w, hw⟩ | hu
        · rw [h1.1 a b w hw, h2.1 a b w (hnear _ hne a b w hw)]
        · obtain ⟨w, hw, h3⟩ := h1.2 hu
          obtain ⟨w', hw', h4⟩ := h2.2 (hun _ hne hu)
          rw [hw] at hw'
          cases hw'
          rw [h3, h4]

/-- A mount point must be absolute. -/
theorem C54_relative_mountpoint (hN : Names e N) (r : Reach e N db k) (p : Path) (s : Str)
    (hp : ∀ m ∈ p, N m) (hk : k.fs p ≠ none) (hm : k.mounted p ≠ some true) (hs : s.head? ≠ some '/') :
    (setProp e db (full e p) (.mountpoint s)).2 = .err .einval := by
  have := C42_history_partial hN r (.setProp p (.mountpoint s)) ⟨hp, fun h => absurd h hm⟩
  simpa [Expected, step, setAnswer, hk, Prp.inheritable, hs] using this

/-- Non-vacuity: the mount point set on the root, seen from there and from two levels below; a
property nobody has set. -/
example : (getProp toy toyDb (full toy []) .mountpoint).2 = .ok (.mountpoint ['/', 'x'], .set 0) ∧
    (getProp toy toyDb (full toy [['a'], ['b']]) .mountpoint).2 =
      .ok (.mountpoint ['/', 'x', '/', 'a', '/', 'b'], .set 2) ∧
    (getProp toy toyDb (full toy [['a']]) .recordSize).2 = .ok (.recordSize 17, .default) ∧
    (getProp toy (setProp toy toyDb (full toy [['a']]) (.recordSize 12)).1 (full toy [['a'], ['b']])
      .recordSize).2 = .ok (.recordSize 12, .set 1) := by
  decide +kernel

/-- Violation: with more than 255 levels between a dataset and the root, reading a property that is
set on none of the nearest 256 panics. -/
theorem C54_deep_panics (hN : Names e N) (r : Reach e N db k) (p : Path) (n : PName) (i : Nat) (c : Fs D)
    (hn : n = .atime ∨ n = .recordSize) (h : k.fs p = some (i, c)) (hl : 255 < p.length)
    (hu : ∀ a b, p = a ++ b → b.length ≤ 255 → k.local n a = none) :
    (getProp e db (full e p) n).2 = .panic := by
  have v := reach_inv hN r
  obtain ⟨db', h1⟩ := v.getConf_deep n p 255 i c h hl hu
  have hres := v.resolve hN p (v.names h)
  have hname : n ≠ .name := by rcases hn with rfl | rfl <;> simp
  have hinh : n.inheritable = some n := by rcases hn with rfl | rfl <;> rfl
  simp [getProp, hres, h, getPropLocked, hname, hinh, h1]

/-- Violation: asked for the base mount point, the answer is a mount point. -/
theorem C54_base_mountpoint_renamed :
    (getProp toy toyDb (full toy [['a']]) .baseMountpoint).2 =
      .ok (.mountpoint ['/', 'x'], .set 1) := by
  decide +kernel

/-- Violation: the mount point of a mounted file system cannot be set; the call panics. -/
theorem C54_set_mounted_panics :
    (setProp toy (newFs toy toyDb (full toy [['a']])).1 (full toy [['a']])
      (.mountpoint ['/', 'y'])).2 = .panic := by
  decide +kernel

/-! ## C56: names within the pool -/

theorem stripPrefix_some (a s t : Str) : stripPrefix a s = some t ↔ s = a ++ t := by
  constructor
  · intro h
    induction a generalizing s with
    | nil =>
      cases s <;> simpa [stripPrefix] using h
    | cons c cs ih =>
      cases s with
      | nil => simp [stripPrefix] at h
      | cons x xs =>
        unfold stripPrefix at h
        split at h
        · rename_i hx
          subst hx
          rw [ih xs h]
          rfl
        · cases h
  · rintro rfl
    exact stripPrefix_append a t

theorem split_head (s : Str) : ∃ h t, split s = h :: t ∧ (s = h ∨ ∃ r, s = h ++ '/' :: r) := by
  induction s with
  | nil => exact ⟨[], [], rfl, .inl rfl⟩
  | cons c cs ih =>
    unfold split
    by_cases hc : c = '/'
    · subst hc
      exact ⟨[], split cs, by simp, .inr ⟨cs, rfl⟩⟩
    · obtain ⟨h, t, hs, hr⟩ := ih
      refine ⟨c :: h, t, by rw [if_neg hc, hs], ?_⟩
      rcases hr with rfl | ⟨r, rfl⟩
      · exact .inl rfl
      · exact .inr ⟨r, rfl⟩

theorem split_head_append {a : Str} (ha : '/' ∉ a) (s h : Str) (t : List Str) (hs : split s = h :: t) :
    split (a ++ s) = (a ++ h) :: t := by
  induction a with
  | nil => simpa using hs
  | cons c cs ih =>
    simp only [List.mem_cons, not_or] at ha
    rw [List.cons_append, split, if_neg (fun x => ha.1 x.symm), ih ha.2]
    rfl

/-- A name is accepted exactly if its first component is the pool's name, and it stands for the
path after that component.

Partial: provided the first component does not properly extend the pool's name; see
`C56_extended_name_accepted`. -/
theorem C56_resolves_partial (e : Env D) (hp : '/' ∉ e.pool) (s : Str)
    (hs : ∀ t, t ≠ [] → (split s).head? ≠ some (e.pool ++ t)) :
    (s = e.pool ∧ stripPoolName e s = .ok []) ∨
    (∃ r, s = e.pool ++ '/' :: r ∧ stripPoolName e s = .ok r) ∨
    ((split s).head? ≠ some e.pool ∧ stripPoolName e s = .err .enoent) := by
  cases h : stripPrefix e.pool s with
  | none =>
    refine .inr (.inr ⟨?_, by simp [stripPoolName, h]⟩)
    obtain ⟨c, t, hc, hr⟩ := split_head s
    rw [hc]
    simp only [List.head?_cons, ne_eq, Option.some.injEq]
    rintro rfl
    rcases hr with hr | ⟨r, hr⟩
    · have := (stripPrefix_some e.pool s []).2 (by simpa using hr)
      rw [h] at this; cases this
    · have := (stripPrefix_some e.pool s _).2 hr
      rw [h] at this; cases this
  | some t =>
    have hst := (stripPrefix_some e.pool s t).1 h
    cases t with
    | nil =>
      refine .inl ⟨by simpa using hst, ?_⟩
      simp [stripPoolName, h, stripPrefix]
    | cons c t =>
      by_cases hc : c = '/'
      · subst hc
        refine .inr (.inl ⟨t, hst, ?_⟩)
        have : stripPrefix ['/'] ('/' :: t) = some t := by cases t <;> simp [stripPrefix]
        simp [stripPoolName, h, this]
      · exfalso
        obtain ⟨x, y, hxy, _⟩ := split_head t
        have h1 : split (c :: t) = (c :: x) :: y := by
          rw [split, if_neg hc, hxy]
        have h2 := split_head_append hp (c :: t) (c :: x) y h1
        rw [← hst] at h2
        exact hs (c :: x) (by simp) (by rw [h2]; rfl)

/-- Non-vacuity: names of all three kinds. -/
example : (∀ t, t ≠ [] → (split (full toy [['a'], ['b']])).head? ≠ some (toy.pool ++ t)) ∧
    stripPoolName toy (full toy [['a'], ['b']]) = .ok ['a', '/', 'b'] ∧
    (∀ t, t ≠ [] → (split ['d', 'i', 's', 'k', '/', 'a']).head? ≠ some (toy.pool ++ t)) ∧
    stripPoolName toy ['d', 'i', 's', 'k', '/', 'a'] = .err .enoent := by
  refine ⟨?_, by decide, ?_, by decide⟩
  · intro t ht h
    rw [show (split (full toy [['a'], ['b']])).head? = some toy.pool by decide] at h
    simp only [Option.some.injEq] at h
    have := congrArg List.length h
    simp at this
    exact ht this
  · intro t ht h
    rw [show (split ['d', 'i', 's', 'k', '/', 'a']).head? = some ['d', 'i', 's', 'k'] by decide] at h
    simp [toy] at h

/-- Violation: a name whose first component only begins with the pool's name is accepted, and stands
for what follows the pool's name. -/
theorem C56_extended_name_accepted (e : Env D) (t : Str) (ht : t.head? ≠ some '/') :
    stripPoolName e (e.pool ++ t) = .ok t := by
  unfold stripPoolName
  rw [stripPrefix_append]
  dsimp only
  cases t with
  | nil => simp [stripPrefix]
  | cons c t =>
    have hc : '/' ≠ c := by
      rintro rfl
      exact ht rfl
    simp [stripPrefix, hc]

/-- So destroying "tankc", which is not in the pool, destroys "tank/c". -/
theorem C56_wrong_dataset_destroyed :
    find toy toyDb (full toy [['c']]) = .ok (some 3) ∧
    (destroyFs toy toyDb (toy.pool ++ ['c'])).2 = .ok () ∧
    find toy (destroyFs toy toyDb (toy.pool ++ ['c'])).1 (full toy [['c']]) = .ok none := by
  decide +kernel

/-- Violation: with two slashes, creating resolves to another path than finding. -/
theorem C56_double_slash :
    let name := toy.pool ++ ['/', '/', 'b']
    let r := createFs toy toyDb name
    r.2 = .ok 4 ∧ find toy r.1 name = .ok none ∧ find toy r.1 (full toy [['b']]) = .ok (some 4) := by
  decide +kernel

end Verif.Forest
