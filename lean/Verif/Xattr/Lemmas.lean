import Verif.Dir.Steps
import Verif.Xattr.Model

/-! Lemmas for extended attributes over FUSE. -/

namespace Verif.Xattr
open Verif.Dir (Table htGet htInsert htRemove WF lookup Val)

/-! ## Names -/

theorem splitDot_append (a b : Bytes) (h : dot ∉ a) : splitDot (a ++ dot :: b) = (a, some b) := by
  induction a with
  | nil => simp [splitDot]
  | cons x a ih =>
    have hx : x ≠ dot := fun e => h (by simp [e])
    have ha : dot ∉ a := fun e => h (by simp [e])
    simp only [List.cons_append, splitDot, if_neg hx, ih ha]

theorem splitDot_some {p a b : Bytes} (h : splitDot p = (a, some b)) : p = a ++ dot :: b := by
  induction p generalizing a with
  | nil => simp [splitDot] at h
  | cons x p ih =>
    simp only [splitDot] at h
    split at h
    · rename_i hx
      simp only [Prod.mk.injEq, Option.some.injEq] at h
      obtain ⟨rfl, rfl⟩ := h
      simp [hx]
    · simp only [Prod.mk.injEq] at h
      obtain ⟨rfl, h2⟩ := h
      have := ih (a := (splitDot p).1) (by rw [← h2])
      rw [List.cons_append, ← this]

theorem dot_not_ns (ns : NS) : dot ∉ ns.str := by cases ns <;> decide

/-- How names are packed. -/
def pack (n : NS × Bytes) : Bytes := n.1.str ++ dot :: n.2

theorem split_pack (n : NS × Bytes) : splitName (pack n) = some n := by
  obtain ⟨ns, n⟩ := n
  simp only [splitName, pack, splitDot_append _ _ (dot_not_ns ns)]
  cases ns <;> rfl

theorem split_iff {p : Bytes} {n : NS × Bytes} : splitName p = some n ↔ p = pack n := by
  constructor
  · intro h
    simp only [splitName] at h
    obtain ⟨g1, g2⟩ : ∃ a b, splitDot p = (a, b) := ⟨_, _, rfl⟩
    obtain ⟨g2, hg⟩ := g2
    rw [hg] at h
    simp only at h
    split at h
    · rename_i ns name hns
      simp only [Option.some.injEq] at h
      subst h
      have hp := splitDot_some hg
      rw [hp, pack]
      split at hns
      · rename_i hu
        simp only [Option.some.injEq] at hns
        subst hns
        rw [hu]
      · split at hns
        · rename_i hs
          simp only [Option.some.injEq] at hns
          subst hns
          rw [hs]
        · simp at hns
    · simp at h
  · rintro rfl; exact split_pack n

theorem pack_inj {m n : NS × Bytes} (h : pack m = pack n) : m = n := by
  have := split_pack m
  rw [h, split_pack] at this
  exact (Option.some.inj this).symm

/-! ## Lists -/

/-- The attributes in the order of the lists. -/
def items (t : Tab) : List Attr := t.flatMap fun e => e.2.items

def packed (a : Attr) : Bytes := pack a.full

theorem packAttr_eq (buf : Bytes) (a : Attr) : packAttr buf a = buf ++ (packed a ++ [0]) := by
  simp [packAttr, packed, pack, Attr.full]

theorem foldl_pack (l : List Attr) (buf : Bytes) :
    l.foldl packAttr buf = buf ++ Spec.listing (l.map packed) := by
  induction l generalizing buf with
  | nil => simp [Spec.listing]
  | cons a l ih =>
    rw [List.foldl_cons, ih, packAttr_eq]
    simp [Spec.listing]

theorem listing_append (l l' : List Bytes) :
    Spec.listing (l ++ l') = Spec.listing l ++ Spec.listing l' := List.flatMap_append

theorem listFold_eq (t : Tab) (buf : Bytes) :
    listFold t buf = buf ++ Spec.listing ((items t).map packed) := by
  induction t generalizing buf with
  | nil => simp [listFold, items, Spec.listing]
  | cons e t ih =>
    obtain ⟨k, v⟩ := e
    cases v with
    | single a =>
      rw [listFold, ih, packAttr_eq]
      simp [items, Val.items, Spec.listing]
    | bucket l =>
      rw [listFold, ih, foldl_pack]
      simp only [items, List.flatMap_cons, Val.items, List.map_append, listing_append,
        List.append_assoc]

theorem u32_add (a b : Nat) : u32 (a + u32 b) = u32 (a + b) := by simp [u32]

theorem u32_add_left (a b : Nat) : u32 (u32 a + b) = u32 (a + b) := by simp [u32]

theorem u32_idem (a : Nat) : u32 (u32 a) = u32 a := by simp [u32]

theorem attrLen_eq (a : Attr) : attrLen a = u32 ((packed a).length + 1) := by
  obtain ⟨ns, n, v⟩ := a
  cases ns <;> simp [attrLen, packed, pack, Attr.full, NS.str, u32] <;> omega

theorem sum_u32 (l : List Attr) (n : Nat) :
    u32 (l.foldl (fun s a => u32 (s + attrLen a)) n) =
      u32 (n + (Spec.listing (l.map packed)).length) := by
  induction l generalizing n with
  | nil => simp [Spec.listing]
  | cons a l ih =>
    rw [List.foldl_cons, ih, attrLen_eq, u32_add_left, Nat.add_right_comm, u32_add]
    congr 1
    simp [Spec.listing]
    omega

theorem lenFold_eq (t : Tab) (n : Nat) :
    u32 (lenFold t n) = u32 (n + (Spec.listing ((items t).map packed)).length) := by
  induction t generalizing n with
  | nil => simp [lenFold, items, Spec.listing]
  | cons e t ih =>
    obtain ⟨k, v⟩ := e
    cases v with
    | single a =>
      rw [lenFold, ih, u32_add_left, attrLen_eq, Nat.add_right_comm, u32_add]
      congr 1
      simp [items, Val.items, Spec.listing]
      omega
    | bucket l =>
      have h := sum_u32 l 0
      rw [lenFold, ih, u32_add_left, Nat.add_right_comm, ← u32_add, h, u32_add]
      congr 1
      simp only [items, List.flatMap_cons, Val.items, List.map_append, listing_append,
        List.length_append]
      omega

theorem lenFold_lt (t : Tab) (n : Nat) (h : n < 2 ^ 32) : lenFold t n < 2 ^ 32 := by
  induction t generalizing n with
  | nil => exact h
  | cons e t ih =>
    obtain ⟨k, v⟩ := e
    cases v with
    | single a => exact ih _ (Nat.mod_lt _ (by decide))
    | bucket l => exact ih _ (Nat.mod_lt _ (by decide))

theorem lenFold_exact (t : Tab) :
    lenFold t 0 = u32 (Spec.listing ((items t).map packed)).length := by
  have h1 := lenFold_eq t 0
  have h2 := lenFold_lt t 0 (by decide)
  rw [show u32 (lenFold t 0) = lenFold t 0 from Nat.mod_eq_of_lt h2, Nat.zero_add] at h1
  exact h1

/-! ## The map -/

variable {hash : NS × Bytes → Nat}

/-- The map that a table stands for. -/
def absm (hash : NS × Bytes → Nat) (t : Tab) : Spec.Map := fun p =>
  match splitName p with
  | none => none
  | some n => (lookup Attr.full hash t n).map Attr.value

theorem absm_pack (t : Tab) (n : NS × Bytes) :
    absm hash t (pack n) = (lookup Attr.full hash t n).map Attr.value := by
  simp [absm, split_pack]

theorem items_perm (t : Tab) : (items t).Perm (t.flatMap fun e => e.2.items.reverse) := by
  induction t with
  | nil => exact List.Perm.refl _
  | cons e t ih =>
    simp only [items, List.flatMap_cons] at ih ⊢
    exact List.Perm.append (List.reverse_perm _).symm ih

theorem lookup_full {t : Tab} {n : NS × Bytes} {a : Attr}
    (h : lookup Attr.full hash t n = some a) : a.full = n := by
  have := List.find?_some h
  simpa using this

theorem isNames {t : Tab} (h : WF Attr.full hash t) :
    Spec.IsNames (absm hash t) ((items t).map packed) := by
  have hp := items_perm t
  refine ⟨?_, ?_⟩
  · have h1 : ((items t).map Attr.full).Nodup :=
      (hp.map _).nodup_iff.2 (Dir.nodup_items h)
    have : (items t).map packed = ((items t).map Attr.full).map pack := by
      simp [packed, List.map_map, Function.comp_def]
    rw [this]
    exact List.pairwise_map.2 (List.Pairwise.imp (fun hne e => hne (pack_inj e)) h1)
  · intro p
    rw [List.mem_map]
    constructor
    · rintro ⟨a, ha, rfl⟩
      have := (Dir.mem_items_iff h a).1 (hp.mem_iff.1 ha)
      rw [packed, absm_pack, this]
      simp
    · intro hne
      cases hs : splitName p with
      | none => simp [absm, hs] at hne
      | some n =>
        simp only [absm, hs] at hne
        cases hl : lookup Attr.full hash t n with
        | none => simp [hl] at hne
        | some a =>
          have hf := lookup_full hl
          refine ⟨a, hp.mem_iff.2 ((Dir.mem_items_iff h a).2 (by rw [hf]; exact hl)), ?_⟩
          rw [packed, hf]
          exact (split_iff.1 hs).symm

theorem getextattrlen_spec {t : Tab} (h : WF Attr.full hash t) (n : NS × Bytes) :
    getextattrlen hash t n = match lookup Attr.full hash t n with
      | some a => .ok (u32 a.value.length)
      | none => .err := by
  have hg := Dir.htGet_spec h n
  simp only [htGet] at hg
  simp only [getextattrlen]
  cases hx : OMap.get t (hash n) with
  | none =>
    rw [hx] at hg
    cases hl : lookup Attr.full hash t n with
    | none => rfl
    | some a => rw [hl] at hg; simp at hg
  | some v =>
    rw [hx] at hg
    cases v with
    | single a =>
      simp only at hg ⊢
      split at hg
      · rename_i ha
        rw [if_pos ha]
        cases hl : lookup Attr.full hash t n with
        | none => rw [hl] at hg; simp at hg
        | some b => rw [hl] at hg; simp at hg; simp [hg]
      · rename_i ha
        rw [if_neg ha]
        cases hl : lookup Attr.full hash t n with
        | none => rfl
        | some b => rw [hl] at hg; simp at hg
    | bucket l =>
      simp only at hg ⊢
      split at hg
      · rename_i ha
        rw [if_pos ha]
        cases hf : l.find? (fun x => decide (x.full = n)) with
        | none =>
          rw [hf] at hg
          cases hl : lookup Attr.full hash t n with
          | none => rfl
          | some b => rw [hl] at hg; simp at hg
        | some a =>
          rw [hf] at hg
          cases hl : lookup Attr.full hash t n with
          | none => rw [hl] at hg; simp at hg
          | some b => rw [hl] at hg; simp at hg; simp [hg]
      · cases hl : lookup Attr.full hash t n with
        | none => rw [hl] at hg; simp at hg
        | some b => rw [hl] at hg; simp at hg

/-! ## Sizes -/

theorem length_listing (l : List Bytes) :
    (Spec.listing l).length = (l.map fun n => n.length + 1).sum := by
  induction l with
  | nil => rfl
  | cons n l ih =>
    simp only [Spec.listing, List.flatMap_cons, List.length_append, List.map_cons, List.sum_cons] at ih ⊢
    rw [ih]; simp

theorem sum_sublist {l l' : List Nat} (h : l.Sublist l') : l.sum ≤ l'.sum := by
  induction h with
  | slnil => exact Nat.le_refl _
  | cons a _ ih => simp only [List.sum_cons]; omega
  | cons_cons a _ ih => simp only [List.sum_cons]; omega

theorem listing_le {l l' : List Bytes} (hn : l.Nodup) (hs : ∀ x ∈ l, x ∈ l') :
    (Spec.listing l).length ≤ (Spec.listing l').length := by
  obtain ⟨l2, hp, hsub⟩ := List.subperm_of_subset hn hs
  rw [length_listing, length_listing, ← (hp.map _).sum_nat]
  exact sum_sublist (hsub.map _)

/-! ## parse -/

theorem parse_go (acc n l : Bytes) (h : (0 : UInt8) ∉ n) :
    Spec.parse.go acc (n ++ 0 :: l) = (acc ++ n) :: Spec.parse.go [] l := by
  induction n generalizing acc with
  | nil => simp [Spec.parse.go]
  | cons x n ih =>
    have hx : x ≠ 0 := fun e => h (by simp [e])
    have hn : (0 : UInt8) ∉ n := fun e => h (by simp [e])
    rw [List.cons_append, Spec.parse.go, ih _ hn]
    · simp
    · exact hx

theorem parse_listing (l : List Bytes) (h : ∀ n ∈ l, (0 : UInt8) ∉ n) :
    Spec.parse (Spec.listing l) = l := by
  induction l with
  | nil => rfl
  | cons n l ih =>
    have h1 := parse_go [] n (Spec.listing l) (h n (by simp))
    have : Spec.listing (n :: l) = n ++ 0 :: Spec.listing l := by simp [Spec.listing]
    rw [this, Spec.parse, h1, List.nil_append]
    congr 1
    exact ih fun x hx => h x (by simp [hx])

end Verif.Xattr
