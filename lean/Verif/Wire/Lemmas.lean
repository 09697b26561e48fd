import Verif.Wire.Spec

/-! # Lemmas: every building block reads back what it writes -/

namespace Verif.Wire
open Verif.Bytes
open Verif.Label

theorem iso_rt {α β} {c : Codec α} {ok : α → Prop} {q : β → Prop} {f : α → β} {g : β → α}
    (hc : c.RoundTrips ok) (hfg : ∀ x, f (g x) = x) (hq : ∀ x, q x → ok (g x)) :
    (iso c f g).RoundTrips q := by
  intro a ha rest
  simp only [iso, hc _ (hq a ha) rest, Option.map_some, hfg]

theorem refine_rt {α β} {c : Codec α} {ok : α → Prop} {q : β → Prop} {f : α → Option β} {g : β → α}
    (hc : c.RoundTrips ok) (hfg : ∀ x, f (g x) = some x) (hq : ∀ x, q x → ok (g x)) :
    (refine c f g).RoundTrips q := by
  intro a ha rest
  simp only [refine, hc _ (hq a ha) rest, Option.map_some, hfg]

theorem mono_rt {α} {c : Codec α} {p q : α → Prop} (hc : c.RoundTrips p) (h : ∀ x, q x → p x) :
    c.RoundTrips q := fun a ha rest => hc a (h a ha) rest

theorem u8_rt : u8.RoundTrips (fun _ => True) := byte_rt

theorem u16_rt : u16.RoundTrips (fun _ => True) :=
  iso_rt (uint_rt 2) (fun x => by simp) (fun x _ => by have := x.toNat_lt; simpa using this)

theorem u32_rt : u32.RoundTrips (fun _ => True) :=
  iso_rt (uint_rt 4) (fun x => by simp) (fun x _ => by have := x.toNat_lt; simpa using this)

theorem u64_rt : u64.RoundTrips (fun _ => True) :=
  iso_rt (uint_rt 8) (fun x => by simp) (fun x _ => by have := x.toNat_lt; simpa using this)

theorem u128_rt : u128.RoundTrips (fun _ => True) :=
  iso_rt (uint_rt 16) (fun x => by simp) (fun x _ => by have := x.isLt; simpa using this)

theorem i16_rt : i16.RoundTrips (fun _ => True) := iso_rt u16_rt (fun x => by simp) (fun _ _ => trivial)
theorem i64_rt : i64.RoundTrips (fun _ => True) := iso_rt u64_rt (fun x => by simp) (fun _ _ => trivial)

theorem bool_rt : bool.RoundTrips (fun _ => True) :=
  iso_rt u8_rt (fun x => by cases x <;> decide) (fun _ _ => trivial)

theorem bytes_rt : bytes.RoundTrips FitsB :=
  mono_rt (vec_rt u8_rt) (fun _ h => ⟨h, fun _ _ => trivial⟩)

theorem str_rt : str.RoundTrips FitsS := by
  refine refine_rt bytes_rt ?_ ?_
  · intro s
    have : (⟨⟨s.toUTF8.data.toList⟩⟩ : ByteArray) = s.toByteArray := by
      cases s with | ofByteArray b h => cases b; rfl
    rw [this]
    unfold String.fromUTF8?
    rw [dif_pos s.isValidUTF8]
    rfl
  · intro s h
    cases s with
    | ofByteArray b hb => cases b; exact h

theorem arr_rt (n : Nat) : (arr n).RoundTrips (fun b => b.length = n) := by
  intro b hb rest
  subst hb
  simp [arr]

theorem unit_rt : unit.RoundTrips (fun _ => True) := fun _ _ _ => rfl

theorem tagged_rt {β} {k : Nat} {tag : β → Nat} {body : β → Buf} {read : Nat → Buf → Option (β × Buf)}
    {q : β → Prop} (ht : ∀ x, q x → tag x < 256 ^ k)
    (hr : ∀ x, q x → ∀ rest, read (tag x) (body x ++ rest) = some (x, rest)) :
    (tagged k tag body read).RoundTrips q := by
  intro a ha rest
  have := uint_rt k (tag a) (ht a ha) (body a ++ rest)
  simp only [tagged, List.append_assoc]
  rw [show (uint k).enc (tag a) = le k (tag a) from rfl] at this
  rw [this]
  exact hr a ha rest

theorem as_rt {α β} {c : Codec α} {ok : α → Prop} (hc : c.RoundTrips ok) (f : α → β) (a : α) (ha : ok a)
    (rest : Buf) : as c f (c.enc a ++ rest) = some (f a, rest) := by
  simp only [as, hc a ha rest, Option.map_some]

theorem as_unit {β} (f : Unit → β) (rest : Buf) : as unit f ([] ++ rest) = some (f (), rest) := rfl

theorem opt_rt {α} {c : Codec α} {ok : α → Prop} (hc : c.RoundTrips ok) :
    (opt c).RoundTrips (fun o => ∀ x, o = some x → ok x) := by
  refine tagged_rt (fun x _ => by cases x <;> simp) ?_
  intro x hx rest
  cases x with
  | none => rfl
  | some x => exact as_rt hc some x (hx x rfl) rest

theorem mapInsert_snoc {K V} (lt : K → K → Bool) (hasym : ∀ a b, lt a b = true → lt b a = false)
    (l : List (K × V)) (e : K × V) (h : ∀ x ∈ l, lt x.1 e.1 = true) :
    mapInsert lt e.1 e.2 l = l ++ [e] := by
  induction l with
  | nil => rfl
  | cons a l ih =>
    have ha := h a (List.mem_cons_self ..)
    simp only [mapInsert, hasym _ _ ha, ha, List.cons_append, Bool.false_eq_true, if_false, if_true]
    rw [ih (fun x hx => h x (List.mem_cons_of_mem _ hx))]

theorem collect_sorted {K V} (lt : K → K → Bool) (hasym : ∀ a b, lt a b = true → lt b a = false)
    (l done : List (K × V)) (h : (done ++ l).Pairwise fun a b => lt a.1 b.1 = true) :
    l.foldl (fun m e => mapInsert lt e.1 e.2 m) done = done ++ l := by
  induction l generalizing done with
  | nil => simp
  | cons a l ih =>
    simp only [List.foldl_cons]
    rw [mapInsert_snoc lt hasym, ih]
    · simp
    · simpa using h
    · intro x hx
      exact (List.pairwise_append.mp h).2.2 x hx a (List.mem_cons_self ..)

theorem btree_rt {K V} {lt : K → K → Bool} (hasym : ∀ a b, lt a b = true → lt b a = false)
    {k : Codec K} {v : Codec V} {p q} (hk : k.RoundTrips p) (hv : v.RoundTrips q) :
    (btree lt k v).RoundTrips (fun l => l.length < 2 ^ 32 ∧ (∀ e ∈ l, p e.1 ∧ q e.2) ∧
      l.Pairwise fun a b => lt a.1 b.1 = true) := by
  intro l ⟨h1, h2, h3⟩ rest
  have := vec_rt (pair_rt hk hv) l ⟨h1, h2⟩ rest
  simp only [btree, iso, id]
  rw [this]
  simp only [Option.map_some]
  rw [collect_sorted lt hasym l [] (by simpa using h3)]
  rfl

end Verif.Wire
