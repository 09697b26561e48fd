import Verif.Xattr.Lemmas

/-!
# C69: extended attributes over FUSE
-/

namespace Verif.Xattr
open Verif.Dir (Table htGet htInsert htRemove WF lookup Val)

/-- `user.` -/
def userDot : Bytes := [117, 115, 101, 114, 46]

/-- `system.` -/
def systemDot : Bytes := [115, 121, 115, 116, 101, 109, 46]

/-- A name in a namespace that bfffs knows. -/
def Known (p : Bytes) : Prop := userDot <+: p ∨ systemDot <+: p

/-- What a reply is in the specification; a panic is not a reply. -/
def Reply.toSpec : Reply → Option Spec.Reply
  | .done => some .done
  | .data b => some (.data b)
  | .size n => some (.size n)
  | .error .ERANGE => some (.error .ERANGE)
  | .error .ENOATTR => some (.error .ENOATTR)
  | .panic => none

def opName : Spec.Op → Option Bytes
  | .set n _ _ _ => some n
  | .get n _ => some n
  | .list _ => none
  | .remove n => some n

/-- Requests that FreeBSD's kernel sends: known namespaces, and no flags. -/
def Plain : Spec.Op → Prop
  | .set n v c r => Known n ∧ v.length < 2 ^ 32 ∧ c = false ∧ r = false
  | .get n _ => Known n
  | .list _ => True
  | .remove n => Known n

/-- The room that the names of a history take in a list, at most. -/
def room : List Spec.Op → Nat
  | [] => 0
  | .set n _ _ _ :: ops => n.length + 1 + room ops
  | _ :: ops => room ops

theorem known_iff (p : Bytes) : Known p ↔ ∃ n, splitName p = some n := by
  constructor
  · rintro (⟨n, rfl⟩ | ⟨n, rfl⟩)
    · exact ⟨(.user, n), split_iff.2 rfl⟩
    · exact ⟨(.system, n), split_iff.2 rfl⟩
  · rintro ⟨⟨ns, n⟩, h⟩
    rw [split_iff.1 h]
    cases ns
    · exact Or.inl ⟨n, rfl⟩
    · exact Or.inr ⟨n, rfl⟩

/-- Splitting a name is the inverse of packing it, in both directions: a name
never ends up in another namespace, nor two names in one. -/
theorem C69_names_round_trip (p : Bytes) (ns : NS) (n : Bytes) :
    splitName p = some (ns, n) ↔ p = (match ns with
      | .user => userDot
      | .system => systemDot) ++ n := by
  rw [split_iff]
  cases ns <;> rfl

variable {hash : NS × Bytes → Nat}

/-- What is known of the table. -/
structure TInv (hash : NS × Bytes → Nat) (t : Tab) (used : Nat) : Prop where
  wf : WF Attr.full hash t
  room : (Spec.listing ((items t).map packed)).length ≤ used
  vals : ∀ n a, lookup Attr.full hash t n = some a → a.value.length < 2 ^ 32

theorem absm_insert {t t' : Tab} {a : Attr}
    (h : ∀ n, lookup Attr.full hash t' n = if n = a.full then some a else lookup Attr.full hash t n) :
    absm hash t' = fun x => if x = pack a.full then some a.value else absm hash t x := by
  funext p
  by_cases hp : p = pack a.full
  · rw [if_pos hp, hp, absm_pack, h, if_pos rfl]; rfl
  · rw [if_neg hp]
    simp only [absm]
    cases hs : splitName p with
    | none => rfl
    | some n =>
      simp only [h]
      rw [if_neg]
      intro e
      apply hp
      rw [← e]
      exact split_iff.1 hs

theorem absm_remove {t t' : Tab} {n0 : NS × Bytes}
    (h : ∀ n, lookup Attr.full hash t' n = if n = n0 then none else lookup Attr.full hash t n) :
    absm hash t' = fun x => if x = pack n0 then none else absm hash t x := by
  funext p
  by_cases hp : p = pack n0
  · rw [if_pos hp, hp, absm_pack, h, if_pos rfl]; rfl
  · rw [if_neg hp]
    simp only [absm]
    cases hs : splitName p with
    | none => rfl
    | some n =>
      simp only [h]
      rw [if_neg]
      intro e
      apply hp
      rw [← e]
      exact split_iff.1 hs

theorem exec_spec {t : Tab} {used : Nat} (h : TInv hash t used) {op : Spec.Op} (hp : Plain op)
    (hu : used + room [op] < 2 ^ 32) :
    ∃ r, (exec hash t op).2.toSpec = some r ∧
      Spec.Allowed (absm hash t) op r (absm hash (exec hash t op).1) ∧
      TInv hash (exec hash t op).1 (used + room [op]) := by
  have hnames := isNames h.wf
  cases op with
  | set p v c r =>
    obtain ⟨hk, hv, rfl, rfl⟩ := hp
    obtain ⟨n, hn⟩ := (known_iff p).1 hk
    have hpn := split_iff.1 hn
    obtain ⟨h1, h2, h3⟩ := Dir.htInsert_spec h.wf (⟨n.1, n.2, v⟩ : Attr)
    have he : exec hash t (.set p v false false) =
        ((htInsert Attr.full hash t ⟨n.1, n.2, v⟩).1, .done) := by
      simp only [exec, setxattr, hn]
      rw [show htInsert Attr.full hash t ⟨n.1, n.2, v⟩ =
        ((htInsert Attr.full hash t ⟨n.1, n.2, v⟩).1, .ok _) from Prod.ext rfl h2]
    have habs := absm_insert h3
    rw [show pack (Attr.full ⟨n.1, n.2, v⟩) = p from hpn.symm] at habs
    refine ⟨.done, by rw [he]; rfl, ?_, ?_⟩
    · rw [he]
      simp only [habs]
      exact .set (by simp) (by simp)
    · rw [he]
      refine ⟨h1, ?_, ?_⟩
      · have hn2 := isNames h1
        have : (Spec.listing ((items (htInsert Attr.full hash t ⟨n.1, n.2, v⟩).1).map packed)).length ≤
            (Spec.listing (p :: (items t).map packed)).length := by
          apply listing_le hn2.1
          intro x hx
          have := (hn2.2 x).1 hx
          rw [habs] at this
          by_cases hxp : x = p
          · simp [hxp]
          · simp only [if_neg hxp] at this
            exact List.mem_cons_of_mem _ ((hnames.2 x).2 this)
        rw [length_listing (p :: _), List.map_cons, List.sum_cons, ← length_listing] at this
        have := h.room
        simp only [room]
        omega
      · intro n' a ha
        rw [h3] at ha
        split at ha
        · simp only [Option.some.injEq] at ha
          subst ha; exact hv
        · exact h.vals n' a ha
  | get p s =>
    obtain ⟨n, hn⟩ := (known_iff p).1 hp
    have hpn := split_iff.1 hn
    have habs : absm hash t p = (lookup Attr.full hash t n).map Attr.value := by
      rw [hpn, absm_pack]
    refine Exists.imp (fun r hr => ⟨hr.1, hr.2, h⟩ : ∀ r, (_ ∧ _) → _) ?_
    simp only [exec, getxattr, hn]
    by_cases hs : s = 0
    · subst hs
      simp only [if_true, getextattrlen_spec h.wf]
      cases hl : lookup Attr.full hash t n with
      | none =>
        rw [hl] at habs
        exact ⟨_, rfl, .getMissing habs⟩
      | some a =>
        rw [hl] at habs
        have : u32 a.value.length = a.value.length := Nat.mod_eq_of_lt (h.vals n a hl)
        simp only [this]
        exact ⟨_, rfl, .getSize habs⟩
    · simp only [if_neg hs, Dir.htGet_spec h.wf]
      cases hl : lookup Attr.full hash t n with
      | none =>
        rw [hl] at habs
        exact ⟨_, rfl, .getMissing habs⟩
      | some a =>
        rw [hl] at habs
        simp only
        split
        · rename_i hle
          exact ⟨_, rfl, .get habs (Nat.pos_of_ne_zero hs) hle⟩
        · rename_i hle
          exact ⟨_, rfl, .getShort habs (Nat.pos_of_ne_zero hs) (Nat.lt_of_not_le hle)⟩
  | list s =>
    refine Exists.imp (fun r hr => ⟨hr.1, hr.2, h⟩ : ∀ r, (_ ∧ _) → _) ?_
    simp only [exec, listxattr]
    by_cases hs : s = 0
    · subst hs
      have hlt : (Spec.listing ((items t).map packed)).length < 2 ^ 32 := by
        have := h.room; simp only [room] at hu; omega
      simp only [if_true, lenFold_exact]
      rw [show u32 (Spec.listing ((items t).map packed)).length =
        (Spec.listing ((items t).map packed)).length from Nat.mod_eq_of_lt hlt]
      exact ⟨_, rfl, .listSize hnames⟩
    · simp only [if_neg hs, listFold_eq, List.nil_append]
      split
      · rename_i hle
        exact ⟨_, rfl, .list hnames (Nat.pos_of_ne_zero hs) hle⟩
      · rename_i hle
        exact ⟨_, rfl, .listShort hnames (Nat.pos_of_ne_zero hs) (Nat.lt_of_not_le hle)⟩
  | remove p =>
    obtain ⟨n, hn⟩ := (known_iff p).1 hp
    have hpn := split_iff.1 hn
    have habs0 : absm hash t p = (lookup Attr.full hash t n).map Attr.value := by
      rw [hpn, absm_pack]
    obtain ⟨h1, h2, h3⟩ := Dir.htRemove_spec h.wf n
    have habs := absm_remove h3
    rw [← hpn] at habs
    have hinv : TInv hash (htRemove Attr.full hash t n).1 used := by
      refine ⟨h1, ?_, ?_⟩
      · have hn2 := isNames h1
        refine Nat.le_trans (listing_le hn2.1 ?_) h.room
        intro x hx
        have := (hn2.2 x).1 hx
        rw [habs] at this
        by_cases hxp : x = p
        · simp [hxp] at this
        · simp only [if_neg hxp] at this
          exact (hnames.2 x).2 this
      · intro n' a ha
        rw [h3] at ha
        split at ha
        · simp at ha
        · exact h.vals n' a ha
    cases hl : lookup Attr.full hash t n with
    | none =>
      rw [hl] at h2 habs0
      have he : exec hash t (.remove p) =
          ((htRemove Attr.full hash t n).1, .error .ENOATTR) := by
        simp only [exec, removexattr, hn]
        rw [show htRemove Attr.full hash t n = ((htRemove Attr.full hash t n).1, .err) from
          Prod.ext rfl h2]
      refine ⟨.error .ENOATTR, by rw [he]; rfl, ?_, by rw [he]; exact hinv⟩
      rw [he]
      have hsame : absm hash (htRemove Attr.full hash t n).1 = absm hash t := by
        rw [habs]
        funext x
        split
        · rename_i hx; rw [hx, habs0]; rfl
        · rfl
      simp only [hsame]
      exact .removeMissing habs0
    | some a =>
      rw [hl] at h2 habs0
      have he : exec hash t (.remove p) = ((htRemove Attr.full hash t n).1, .done) := by
        simp only [exec, removexattr, hn]
        rw [show htRemove Attr.full hash t n = ((htRemove Attr.full hash t n).1, .ok a) from
          Prod.ext rfl h2]
      refine ⟨.done, by rw [he]; rfl, ?_, by rw [he]; exact hinv⟩
      rw [he]
      simp only [habs]
      exact .remove (by rw [habs0]; simp)

theorem run_spec (ops : List Spec.Op) : ∀ {t : Tab} {used : Nat}, TInv hash t used →
    (∀ op ∈ ops, Plain op) → used + room ops < 2 ^ 32 →
    ∃ rs, (run hash t ops).2.map Reply.toSpec = rs.map some ∧
      Spec.History (absm hash t) (ops.zip rs) (absm hash (run hash t ops).1) ∧
      rs.length = ops.length ∧ TInv hash (run hash t ops).1 (used + room ops) := by
  induction ops with
  | nil => intro t used h _ _; exact ⟨[], rfl, .nil _, rfl, h⟩
  | cons op ops ih =>
    intro t used h hp hu
    have hroom : room (op :: ops) = room [op] + room ops := by
      cases op <;> simp [room]
    obtain ⟨r, h1, h2, h3⟩ := exec_spec h (hp op (by simp)) (by omega)
    obtain ⟨rs, g1, g2, g3, g4⟩ := ih h3 (fun x hx => hp x (by simp [hx])) (by omega)
    have he : run hash t (op :: ops) =
        ((run hash (exec hash t op).1 ops).1,
          (exec hash t op).2 :: (run hash (exec hash t op).1 ops).2) := by
      simp only [run]
      cases hx : (exec hash t op).2 with
      | panic => rw [hx] at h1; simp [Reply.toSpec] at h1
      | _ => rfl
    refine ⟨r :: rs, ?_, ?_, by simp [g3], ?_⟩
    · rw [he]; simp [h1, g1]
    · rw [he, List.zip_cons_cons]; exact .cons h2 g2
    · rw [he, hroom, ← Nat.add_assoc]; exact g4

theorem tinv_nil (hash : NS × Bytes → Nat) : TInv hash [] 0 := by
  refine ⟨Dir.wf_nil _ _, by simp [items, Spec.listing], ?_⟩
  intro n a h
  rw [Dir.lookup_nil] at h
  simp [Dir.Spec.empty] at h

theorem absm_nil (hash : NS × Bytes → Nat) : absm hash [] = fun _ => none := by
  funext p
  simp only [absm]
  cases splitName p with
  | none => rfl
  | some n => rw [Dir.lookup_nil]; rfl

/-- **Partial**: for every hash function and every sequence of requests without
flags, for names in the `user` and `system` namespaces, the daemon does not
panic and its replies are those of a map from names to values: values,
`ENOATTR`, sizes, `ERANGE`, and lists of exactly the names.  What is missing:
the flags (`C69_create_flag_ignored`) and other namespaces (`C69_panics_iff`). -/
theorem C69_attributes_are_a_map_partial (hash : NS × Bytes → Nat) (ops : List Spec.Op)
    (hp : ∀ op ∈ ops, Plain op) (hu : room ops < 2 ^ 32) :
    ∃ rs m, (run hash [] ops).2.map Reply.toSpec = rs.map some ∧ rs.length = ops.length ∧
      Spec.History (fun _ => none) (ops.zip rs) m := by
  obtain ⟨rs, h1, h2, h3, _⟩ := run_spec (hash := hash) ops (tinv_nil hash) hp (by omega)
  rw [absm_nil] at h2
  exact ⟨rs, _, h1, h3, h2⟩

/-- A program that asks how large a value is, and then asks for that much, gets
the value; and so it does with the list of names. -/
theorem C69_size_then_fetch (hash : NS × Bytes → Nat) (ops : List Spec.Op)
    (hp : ∀ op ∈ ops, Plain op) (hu : room ops < 2 ^ 32) (s : Nat) (hs : 0 < s) :
    (∀ p, getxattr hash (run hash [] ops).1 p 0 = .size s →
      ∃ v, v.length = s ∧ ∀ s', s ≤ s' → getxattr hash (run hash [] ops).1 p s' = .data v) ∧
    (listxattr (run hash [] ops).1 0 = .size s →
      ∃ v, v.length = s ∧ ∀ s', s ≤ s' → listxattr (run hash [] ops).1 s' = .data v) := by
  obtain ⟨_, _, _, _, h⟩ := run_spec (hash := hash) ops (tinv_nil hash) hp (by omega)
  refine ⟨?_, ?_⟩
  · intro p hg
    simp only [getxattr] at hg ⊢
    cases hn : splitName p with
    | none => rw [hn] at hg; simp at hg
    | some n =>
      rw [hn] at hg
      simp only [if_true, getextattrlen_spec h.wf] at hg
      cases hl : lookup Attr.full hash (run hash [] ops).1 n with
      | none => rw [hl] at hg; simp at hg
      | some a =>
        rw [hl] at hg
        simp only [Reply.size.injEq] at hg
        have hlen : a.value.length = s := by
          rw [← hg]; exact (Nat.mod_eq_of_lt (h.vals n a hl)).symm
        refine ⟨a.value, hlen, ?_⟩
        intro s' hs'
        simp only [if_neg (show s' ≠ 0 by omega), Dir.htGet_spec h.wf, hl]
        rw [if_pos (by omega)]
  · intro hg
    simp only [listxattr, if_true, lenFold_exact, Reply.size.injEq] at hg ⊢
    have hlt : (Spec.listing ((items (run hash [] ops).1).map packed)).length < 2 ^ 32 := by
      have := h.room; omega
    rw [show u32 (Spec.listing ((items (run hash [] ops).1).map packed)).length = _ from
      Nat.mod_eq_of_lt hlt] at hg
    refine ⟨_, hg, ?_⟩
    intro s' hs'
    rw [if_neg (by omega), listFold_eq, List.nil_append, if_pos (by omega)]

/-- What a program finds in a list are exactly the names of the attributes,
each once, if no name has a zero byte in it. -/
theorem C69_listed_names {m m' : Spec.Map} {s : Nat} {b : Bytes}
    (h : Spec.Allowed m (.list s) (.data b) m') (hz : ∀ n, m n ≠ none → (0 : UInt8) ∉ n) :
    (Spec.parse b).Nodup ∧ ∀ n, n ∈ Spec.parse b ↔ m n ≠ none := by
  cases h with
  | list hn _ _ =>
    rw [parse_listing _ (fun n hm => hz n ((hn.2 n).1 hm))]
    exact hn

/-- The daemon panics exactly at names outside of the two namespaces. -/
theorem C69_panics_iff (hash : NS × Bytes → Nat) (ops : List Spec.Op)
    (hp : ∀ op ∈ ops, Plain op) (hu : room ops < 2 ^ 32) (op : Spec.Op) :
    (exec hash (run hash [] ops).1 op).2 = .panic ↔ ∃ p, opName op = some p ∧ ¬ Known p := by
  obtain ⟨_, _, _, _, h⟩ := run_spec (hash := hash) ops (tinv_nil hash) hp (by omega)
  have hk : ∀ p, ¬ Known p ↔ splitName p = none := by
    intro p
    rw [known_iff]
    cases splitName p <;> simp
  cases op with
  | set p v c r =>
    simp only [exec, opName, Option.some.injEq, exists_eq_left', hk, setxattr]
    cases hn : splitName p with
    | none => simp
    | some n =>
      obtain ⟨_, h2, _⟩ := Dir.htInsert_spec h.wf (⟨n.1, n.2, v⟩ : Attr)
      simp only
      rw [show htInsert Attr.full hash (run hash [] ops).1 ⟨n.1, n.2, v⟩ = (_, .ok _) from
        Prod.ext rfl h2]
      simp
  | get p s =>
    simp only [exec, opName, Option.some.injEq, exists_eq_left', hk, getxattr]
    cases hn : splitName p with
    | none => simp
    | some n =>
      simp only [getextattrlen_spec h.wf, Dir.htGet_spec h.wf]
      cases lookup Attr.full hash (run hash [] ops).1 n with
      | none => by_cases hs : s = 0 <;> simp [hs]
      | some a =>
        by_cases hs : s = 0
        · simp [hs]
        · simp only [hs, if_false]
          split <;> simp
  | list s =>
    simp only [exec, opName, listxattr]
    by_cases hs : s = 0
    · simp [hs]
    · simp only [hs, if_false]
      split <;> simp
  | remove p =>
    simp only [exec, opName, Option.some.injEq, exists_eq_left', hk, removexattr]
    cases hn : splitName p with
    | none => simp
    | some n =>
      obtain ⟨_, h2, _⟩ := Dir.htRemove_spec h.wf n
      simp only
      cases hl : lookup Attr.full hash (run hash [] ops).1 n with
      | none =>
        rw [hl] at h2
        rw [show htRemove Attr.full hash (run hash [] ops).1 n = (_, .err) from Prod.ext rfl h2]
        simp
      | some a =>
        rw [hl] at h2
        rw [show htRemove Attr.full hash (run hash [] ops).1 n = (_, .ok a) from Prod.ext rfl h2]
        simp

/-! ## Counterexamples -/

/-- `user.a` -/
def nameA : Bytes := userDot ++ [97]

/-- `system.a` -/
def nameB : Bytes := systemDot ++ [97]

/-- A set that must not replace an attribute replaces it, and one that must
replace an attribute creates it. -/
theorem C69_create_flag_ignored (hash : NS × Bytes → Nat) :
    (run hash [] [.set nameA [1] false false, .set nameA [2] true false, .get nameA 9]).2 =
      [.done, .done, .data [2]] ∧
    (run hash [] [.set nameA [1] false true]).2 = [.done] ∧
    ¬ ∃ m, Spec.History (fun _ => none) [(.set nameA [1] false true, .done)] m := by
  refine ⟨?_, rfl, ?_⟩
  · simp [run, exec, setxattr, getxattr, htInsert, htGet, nameA, userDot, splitName, splitDot, dot,
      NS.str, Attr.full, OMap.get_insert]
  · rintro ⟨m, h⟩
    cases h with
    | cons ha _ =>
      cases ha with
      | set _ h2 => exact h2 rfl rfl

/-- Asking for `trusted.x` stops the daemon. -/
theorem C69_unknown_namespace_panics (hash : NS × Bytes → Nat) :
    (run hash [] [.get [116, 114, 117, 115, 116, 101, 100, 46, 120] 0, .list 0]).2 = [.panic] := rfl

/-! ## The hypotheses can be met -/

def sample : List Spec.Op :=
  [.set nameA [1, 2] false false, .set nameB [3] false false, .set nameA [4] false false,
    .get nameA 0, .get nameA 9, .get nameB 1, .list 0, .list 99, .list 3, .remove nameA, .get nameA 0,
    .list 99]

example : (∀ op ∈ sample, Plain op) ∧ room sample < 2 ^ 32 := by
  refine ⟨?_, by decide⟩
  have ha : Known nameA := Or.inl ⟨[97], rfl⟩
  have hb : Known nameB := Or.inr ⟨[97], rfl⟩
  intro op h
  simp only [sample, List.mem_cons, List.not_mem_nil, or_false] at h
  rcases h with rfl | rfl | rfl | rfl | rfl | rfl | rfl | rfl | rfl | rfl | rfl | rfl <;>
    simp [Plain, ha, hb]

/-- With all hashes equal. -/
example : (run (fun _ => 0) [] sample).2 =
    [.done, .done, .done, .size 1, .data [4], .data [3], .size 16, .data (nameA ++ [0] ++ nameB ++ [0]),
      .error .ERANGE, .done, .error .ENOATTR, .data (nameB ++ [0])] := by decide

example : Spec.parse (nameA ++ [0] ++ nameB ++ [0]) = [nameA, nameB] := by decide

end Verif.Xattr
