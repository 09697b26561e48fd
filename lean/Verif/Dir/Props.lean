import Verif.Dir.Steps

/-!
# Properties of directories: C47, C48, C49
-/

namespace Verif.Dir
open OMap

variable {α N : Type} [DecidableEq N]

/-! ## C47: hash tables implement name maps -/

/-- For every hash function (with any collisions) and every sequence of
lookups, insertions and removals on an empty directory (or attribute list), no
operation panics and every answer is the one a map keyed by the full name
gives. -/
theorem C47_name_map (name : α → N) (hash : N → Nat) (ops : List (Spec.Op α N)) :
    (execAll name hash [] ops).2 = (Spec.run name Spec.empty ops).2.map some := by
  have := (execAll_spec (name := name) (hash := hash) ops [] (wf_nil name hash)).2.1
  rwa [lookup_nil] at this

/-- Afterwards a lookup of any name gives what the map holds. -/
theorem C47_lookup_after (name : α → N) (hash : N → Nat) (ops : List (Spec.Op α N)) (n : N) :
    htGet name hash (execAll name hash [] ops).1 n =
      match (Spec.run name Spec.empty ops).1 n with
      | some a => .ok a
      | none => .err := by
  obtain ⟨h1, _, h3⟩ := execAll_spec (name := name) (hash := hash) ops [] (wf_nil name hash)
  rw [lookup_nil] at h3
  rw [htGet_spec h1, h3]
  cases (Spec.run name Spec.empty ops).1 n <;> rfl

/-- Non-vacuity: three names with the same hash, one overwritten, one removed. -/
example : (execAll (Prod.fst : String × Nat → String) (fun _ => 7) []
    [.insert ("a", 1), .insert ("b", 2), .insert ("c", 3), .insert ("b", 4), .remove "a",
     .get "a", .get "b", .remove "c", .get "c", .get "b"]).2 =
    [some none, some none, some none, some (some ("b", 2)), some (some ("a", 1)),
     some none, some (some ("b", 4)), some (some ("c", 3)), some none, some (some ("b", 4))] := by
  decide

/-! ## C48: hard links -/

/-- Creating a hard link makes the new name refer to the file and leaves every
other name as it was.

Partial: this needs that no entry of the directory has the same hash as the new
name; see `C48_link_destroys_other_name`. -/
theorem C48_link_adds_one_name_partial (name : α → N) (hash : N → Nat) (ops : List (Spec.Op α N))
    (a : α) (hfree : (execAll name hash [] ops).1.get (hash (name a)) = none) (n : N) :
    htGet name hash (linkInsert name hash (execAll name hash [] ops).1 a) n =
      if n = name a then .ok a else htGet name hash (execAll name hash [] ops).1 n := by
  generalize (execAll name hash [] ops).1 = t at hfree
  simp only [htGet, linkInsert, get_insert]
  by_cases hn : hash n = hash (name a)
  · rw [if_pos hn, hn, hfree]
    by_cases he : n = name a
    · subst he; simp
    · simp [he, Ne.symm he]
  · rw [if_neg hn, if_neg (by rintro rfl; exact hn rfl)]

/-- The violation: with colliding hashes, linking under a new name makes an
unrelated entry of the directory unreachable. -/
theorem C48_link_destroys_other_name :
    ∃ (hash : String → Nat) (t : Table (String × Nat)),
      t = (execAll Prod.fst hash [] [.insert ("precious", 1)]).1 ∧
      htGet Prod.fst hash t "precious" = .ok ("precious", 1) ∧
      htGet Prod.fst hash t "link" = .err ∧
      htGet Prod.fst hash (linkInsert Prod.fst hash t ("link", 2)) "precious" = .err :=
  ⟨fun _ => 7, _, rfl, by decide, by decide, by decide⟩

/-- It can destroy any number of entries at once. -/
theorem C48_link_destroys_bucket (l : List (String × Nat)) (a : String × Nat)
    (ha : ∀ x ∈ l, x.1 ≠ a.1) (x : String × Nat) (hx : x ∈ l) :
    htGet Prod.fst (fun _ : String => 7)
      (linkInsert Prod.fst (fun _ => 7) [(7, .bucket l)] a) x.1 = .err := by
  simp [linkInsert, htGet, OMap.insert, OMap.get, (ha x hx).symm]

/-- Non-vacuity of the partial theorem: different hashes. -/
example : (execAll (Prod.fst : String × Nat → String) String.length []
    [.insert ("a", 1), .insert ("b", 2)]).1.get ("link").length = none := by decide

/-! ## C49: reading a directory in pages -/

/-- For any directory reached by insertions and removals: there is one list of
all its entries, each name once, such that reading the directory in pages of
any sizes, resuming from the last entry's offset each time, yields that list
cut to the number of entries asked for.  So nothing is skipped or repeated.

Partial: no three names may share a hash, and no name may hash to the largest
possible value 2^56 - 1; see `C49_three_way_collision_loops` and
`C49_largest_hash_restarts`. -/
theorem C49_pages_partial (name : α → N) (hash : N → Nat) (ops : List (Spec.Op α N))
    (t : Table α) (ht : t = (execAll name hash [] ops).1)
    (hsmall : ∀ e ∈ t, e.1 + 1 < 2 ^ 56) (hcoll : ∀ e ∈ t, e.2.items.length ≤ 2) :
    ∃ all : List α, (all.map name).Nodup ∧
      (∀ a, a ∈ all ↔ htGet name hash t (name a) = .ok a) ∧
      ∀ sizes, pages t 0 sizes = all.take sizes.sum := by
  have h := (execAll_spec (name := name) (hash := hash) ops [] (wf_nil name hash)).1
  rw [← ht] at h
  refine ⟨t.flatMap (fun e => e.2.items.reverse), nodup_items h, ?_, ?_⟩
  · intro a
    rw [mem_items_iff h, htGet_spec h]
    cases hl : lookup name hash t (name a) <;> simp
  · intro sizes
    rw [pages_eq t h.sorted hsmall hcoll sizes 0 0 (by rw [readdir_zero]; rfl), List.drop_zero,
      stream_items]

/-- Reading everything in one go lists every entry exactly once, whatever the
collisions. -/
theorem C49_one_page_complete (name : α → N) (hash : N → Nat) (ops : List (Spec.Op α N))
    (t : Table α) (ht : t = (execAll name hash [] ops).1) :
    ((readdir t 0).map fun e => name e.1).Nodup ∧
    ∀ a, a ∈ (readdir t 0).map (·.1) ↔ htGet name hash t (name a) = .ok a := by
  have h := (execAll_spec (name := name) (hash := hash) ops [] (wf_nil name hash)).1
  rw [← ht] at h
  rw [readdir_zero]
  constructor
  · have := nodup_items h
    rw [← stream_items, List.map_map] at this
    exact this
  · intro a
    rw [stream_items, mem_items_iff h, htGet_spec h]
    cases hl : lookup name hash t (name a) <;> simp

omit [DecidableEq N] in
/-- Others may change the directory between pages: as long as no two names
collide, the entries come in increasing order of hash (so none is repeated),
and every entry that stays in the directory throughout is listed once the
client has seen the end. -/
theorem C49_pages_with_changes_partial {name : α → N} {hash : N → Nat}
    (ss : List (Table α × Nat)) (h : ∀ p ∈ ss, Plain name hash p.1) :
    (pagesDyn 0 ss).Pairwise (fun a b => hash (name a) < hash (name b)) ∧
    (reachesEnd 0 ss → ∀ a, (∀ p ∈ ss, (hash (name a), Val.single a) ∈ p.1) →
      a ∈ pagesDyn 0 ss) := by
  have := pagesDyn_spec ss 0 (by omega) h
  rw [show mkCursor 0 0 = 0 by rfl] at this
  exact ⟨this.1, fun he a ha => this.2.2 he a ha (Nat.zero_le _)⟩

/-- Non-vacuity: a directory that loses one entry and gains another between
pages of one and five entries. -/
example : (∀ p ∈ [(([(3, .single "ccc"), (5, .single "eeeee")] : Table String), 1),
      ([(4, .single "dddd"), (5, .single "eeeee")], 5)], Plain id String.length p.1) ∧
    pagesDyn 0 [(([(3, .single "ccc"), (5, .single "eeeee")] : Table String), 1),
      ([(4, .single "dddd"), (5, .single "eeeee")], 5)] = ["ccc", "dddd", "eeeee"] := by
  refine ⟨?_, by decide⟩
  intro p hp
  simp at hp
  rcases hp with rfl | rfl <;>
    exact ⟨by simp [Sorted], by simp; decide, by simp⟩

/-- With collisions, removing an entry between pages (as `rm -r` does) makes a
later page skip an entry that was there all the time: "d" is never listed. -/
theorem C49_removal_skips_other_entry :
    pagesDyn 0 [([(5, Val.bucket ["a", "b"]), (9, .bucket ["c", "d"])], 1),
      ([(5, .single "a"), (9, .bucket ["c", "d"])], 10)] = ["b", "a", "c"] := by decide

/-- The first violation: three names with one hash, read one entry at a time.
However many pages are read, the first-inserted entry never appears and the
second is returned again and again. -/
theorem C49_three_way_collision_loops (n : Nat) :
    pages [(5, Val.bucket ["a", "b", "c"])] 0 (1 :: List.replicate n 1) =
      "c" :: List.replicate n "b" := by
  have h1 : ∀ n, pages [(5, Val.bucket ["a", "b", "c"])] (5 * 256 + 1) (List.replicate n 1) =
      List.replicate n "b" := by
    intro n
    induction n with
    | zero => rfl
    | succ n ih =>
      rw [List.replicate_succ, List.replicate_succ, pages]
      have hr : readdir [(5, Val.bucket ["a", "b", "c"])] (5 * 256 + 1) =
          [("b", 5 * 256 + 1), ("a", 6 * 256)] := by decide
      rw [hr]
      simpa using ih
  rw [pages]
  have hr : readdir [(5, Val.bucket ["a", "b", "c"])] 0 =
      [("c", 5 * 256 + 1), ("b", 5 * 256 + 2), ("a", 6 * 256)] := by decide
  rw [hr]
  simpa using h1 n

/-- That directory is reachable. -/
example : (execAll id (fun _ : String => 5) [] [.insert "a", .insert "b", .insert "c"]).1 =
    [(5, Val.bucket ["a", "b", "c"])] := by decide

/-- The second violation: an entry whose name hashes to 2^56 - 1 has a cursor
that wraps to the beginning, so listing never ends. -/
theorem C49_largest_hash_restarts (n : Nat) :
    pages [(2 ^ 56 - 1, Val.single "a")] 0 (List.replicate n 1) = List.replicate n "a" := by
  induction n with
  | zero => rfl
  | succ n ih =>
    rw [List.replicate_succ, List.replicate_succ, pages]
    have hr : readdir [(2 ^ 56 - 1, Val.single "a")] 0 = [("a", 0)] := by decide
    rw [hr]
    simpa using ih

/-- Non-vacuity of `C49_pages_partial`: a two-way collision and two more names,
pages of one and two entries. -/
example : pages (execAll id String.length []
    [.insert "a", .insert "b", .insert "cc", .insert "ddd", .insert "eeee", .insert "fff"]).1 0
    [1, 2, 1, 5] = ["b", "a", "cc", "fff", "ddd", "eeee"] := by decide

end Verif.Dir
