import Verif.File.ReadLemmas
import Verif.File.Spec

/-! Sequences of operations, and the simulation between `File` and byte arrays. -/

namespace Verif.File
open OMap

/-- `f` can become `f'` when the user performs `op`.  A write may process its
records in any order and find anything in uninitialised memory. -/
inductive Step : File → Spec.Op → File → Prop where
  | write (f : File) (offset : Nat) (data : List Byte) (junk : Nat → Byte) (order : List Nat)
      (h : order.Perm (writeOrder f offset data)) :
      Step f (.write offset data) (write junk order f offset data)
  | truncate (f : File) (n : Nat) : Step f (.truncate n) (setSize f n)
  | punch (f : File) (o l : Nat) : Step f (.punch o l) (deallocate f o l)

/-- `Steps f ops f'`: performing `ops` on `f` can give `f'`. -/
inductive Steps : File → List Spec.Op → File → Prop where
  | nil (f : File) : Steps f [] f
  | cons {f f1 f2 : File} {op : Spec.Op} {ops : List Spec.Op} :
      Step f op f1 → Steps f1 ops f2 → Steps f (op :: ops) f2

/-- The operation is not a write of zero bytes. -/
def NotEmptyWrite : Spec.Op → Prop
  | .write _ d => d ≠ []
  | _ => True

theorem step_wf {f f' : File} {op : Spec.Op} (h : Step f op f') (hw : WF f) :
    WF f' ∧ f'.rs = f.rs := by
  cases h with
  | write _ _ _ _ hp => exact ⟨(write_spec hw hp).1, rfl⟩
  | truncate n => exact ⟨(setSize_spec hw n).1, (setSize_spec hw n).2.2.1⟩
  | punch o l => exact ⟨(deallocate_spec hw o l).1, (deallocate_spec hw o l).2.2.1⟩

theorem steps_wf {f f' : File} {ops : List Spec.Op} (h : Steps f ops f') (hw : WF f) :
    WF f' ∧ f'.rs = f.rs := by
  induction h with
  | nil => exact ⟨hw, rfl⟩
  | cons h1 _ ih =>
    have := step_wf h1 hw
    have h2 := ih this.1
    exact ⟨h2.1, h2.2.trans this.2⟩

/-- `f` holds the bytes `c`. -/
def Holds (f : File) (c : List Byte) : Prop :=
  f.size = c.length ∧ ∀ o, byteAt f.ext f.rs o = nth c o

theorem nth_eq {l : List Byte} {i : Nat} : nth l i = l[i]?.getD 0 := rfl

theorem nth_zeros {n i : Nat} : nth (Spec.zeros n) i = 0 := by
  simp only [nth, Spec.zeros, List.getElem?_replicate]
  split <;> rfl

theorem nth_app {a b : List Byte} {i : Nat} :
    nth (a ++ b) i = if i < a.length then nth a i else nth b (i - a.length) := by
  simp only [nth, List.getElem?_append]
  split <;> rfl

theorem nth_tk {a : List Byte} {n i : Nat} : nth (a.take n) i = if i < n then nth a i else 0 := by
  simp only [nth, List.getElem?_take]
  split <;> rfl

theorem nth_dr {a : List Byte} {n i : Nat} : nth (a.drop n) i = nth a (n + i) := by
  simp only [nth, List.getElem?_drop]

theorem nth_past {a : List Byte} {i : Nat} (h : a.length ≤ i) : nth a i = 0 := nth_of_ge h

theorem holds_step {f f' : File} {op : Spec.Op} {c : List Byte} (h : Step f op f') (hw : WF f)
    (hne : NotEmptyWrite op) (hc : Holds f c) : Holds f' (Spec.apply c op) := by
  obtain ⟨hsz, hb⟩ := hc
  cases h with
  | write offset data junk order hp =>
    have hs := (write_spec (junk := junk) hw hp).2
    simp only [NotEmptyWrite] at hne
    have hpos : 0 < data.length := List.length_pos_iff.2 hne
    simp only [Spec.apply, Spec.write, if_neg hne]
    constructor
    · simp only [write, Spec.zeros, List.length_append, List.length_take, List.length_replicate,
        List.length_drop]
      omega
    · intro o
      show byteAt (write junk order f offset data).ext f.rs o = _
      rw [hs o, hb o]
      simp only [nth_app, nth_tk, nth_dr, Spec.zeros, List.length_append,
        List.length_take, List.length_replicate]
      have hl : min offset (c.length + (offset - c.length)) = offset := by omega
      simp only [hl]
      by_cases h1 : o < offset
      · rw [if_neg (by omega), if_pos (by omega), if_pos h1, if_pos h1]
        split
        · rfl
        · rw [nth_past (by omega)]; exact nth_zeros.symm
      · by_cases h2 : o < offset + data.length
        · rw [if_pos (by omega), if_pos h2, if_neg h1]
        · rw [if_neg (by omega), if_neg h2]
          congr 1; omega
  | truncate n =>
    have hs := setSize_spec hw n
    simp only [Spec.apply, Spec.truncate]
    constructor
    · rw [hs.2.1]
      simp only [Spec.zeros, List.length_append, List.length_take, List.length_replicate]
      omega
    · intro o
      rw [hs.2.2.1, hs.2.2.2 o, hb o]
      simp only [nth_app, nth_tk, nth_zeros, List.length_take]
      split <;> split <;> first | rfl | (rw [nth_past (by omega)]) | skip
  | punch offset len =>
    have hs := deallocate_spec hw offset len
    simp only [Spec.apply, Spec.punch]
    constructor
    · rw [hs.2.1]
      simp only [Spec.zeros, List.length_append, List.length_take, List.length_replicate,
        List.length_drop]
      omega
    · intro o
      by_cases ho : o < f.size
      · rw [hs.2.2.1, hs.2.2.2 o ho, hb o]
        simp only [nth_app, nth_tk, nth_dr, Spec.zeros, List.length_append,
          List.length_take, List.length_replicate]
        by_cases h1 : o < offset
        · rw [if_neg (by omega), if_pos (by omega), if_pos (by omega), if_pos h1]
        · by_cases h2 : o < offset + len
          · rw [if_pos (by omega), if_pos (by omega), if_neg (by omega)]; exact nth_zeros.symm
          · rw [if_neg (by omega), if_neg (by omega)]
            congr 1; omega
      · rw [byteAt_past hs.1 (by rw [hs.2.1]; omega), nth_past]
        simp only [Spec.zeros, List.length_append, List.length_take, List.length_replicate,
          List.length_drop]
        omega

theorem holds_steps {f f' : File} {ops : List Spec.Op} (h : Steps f ops f') :
    ∀ (c : List Byte), WF f → (∀ op ∈ ops, NotEmptyWrite op) → Holds f c →
    WF f' ∧ Holds f' (ops.foldl Spec.apply c) := by
  induction h with
  | nil => intro c hw _ hc; exact ⟨hw, hc⟩
  | cons h1 _ ih =>
    intro c hw hne hc
    exact ih _ (step_wf h1 hw).1 (fun op ho => hne op (by simp [ho]))
      (holds_step h1 hw (hne _ (by simp)) hc)

theorem holds_read {f : File} {c : List Byte} (hw : WF f) (hc : Holds f c) (offset n : Nat) :
    read f offset n = some (Spec.read c offset n) := by
  rw [read_bytes hw]
  congr 1
  simp only [bytesOf, Spec.read]
  apply List.ext_getElem
  · simp only [List.length_map, List.length_range, List.length_take, List.length_drop]
    rw [hc.1]; omega
  · intro i h1 h2
    simp only [List.length_take, List.length_drop] at h2
    simp only [List.getElem_map, List.getElem_range, List.getElem_take, List.getElem_drop]
    rw [hc.2]
    simp only [nth]
    rw [List.getElem?_eq_getElem (by omega)]; rfl

/-- Extents wholly inside the deallocated range disappear. -/
theorem doDeallocate_frees {rs : Nat} {ext : OMap (List Byte)} (hrs : 0 < rs)
    (hne : ∀ k v, get ext k = some v → (∃ q, k = rs * q) ∧ 0 < v.length ∧ v.length ≤ rs)
    (offset l : Nat) (k : Nat) (v : List Byte)
    (hk : get (doDeallocate ext offset (some l) rs).1 k = some v)
    (h1 : offset ≤ k) (h2 : k + v.length ≤ offset + l) : False := by
  simp only [doDeallocate, deallocFull] at hk
  rw [get_rangeDelete] at hk
  split at hk
  · simp at hk
  · rename_i hnr
    generalize hL : (deallocLeft ext offset (some l) rs).1 = L at hk
    -- the left part only changes keys below the offset
    have hLk : get L k = get ext k := by
      rw [← hL]; simp only [deallocLeft]
      split
      · rename_i hm
        have : k ≠ offset - offset % rs := by have := Nat.mod_lt offset hrs; have := Nat.mod_le offset rs; omega
        split
        · rw [get_remove, if_neg this]
        · split
          · rw [get_insert, if_neg this, get_remove, if_neg this]
          · split <;> rw [get_insert, if_neg this, get_remove, if_neg this]
      · rfl
    have he := Nat.mod_lt (offset + l) hrs
    have hee := Nat.mod_le (offset + l) rs
    -- the extent sits in the last, partly covered record
    have key : ∀ v', get ext k = some v' → v.length = v'.length → k = offset + l - (offset + l) % rs ∧
        (offset + l) % rs ≠ 0 := by
      intro v' hv' hvl
      obtain ⟨⟨q, hq⟩, hpos, _⟩ := hne k v' hv'
      have : offset + l - (offset + l) % rs ≤ k := by omega
      rw [base_eq] at this
      have hd := Nat.div_add_mod (offset + l) rs
      rw [hq] at this h2 ⊢
      have h3 : (offset + l) / rs ≤ q := Nat.le_of_mul_le_mul_left this hrs
      have h4 : rs * q + 0 < rs * ((offset + l) / rs) + (offset + l) % rs := by omega
      rw [lex_lt hrs he] at h4
      rw [base_eq]
      have : q = (offset + l) / rs := by omega
      rw [this]
      exact ⟨rfl, by omega⟩
    simp only [deallocRight] at hk
    split at hk
    · rename_i hc
      split at hk
      · rename_i hn
        rw [get_remove] at hk
        split at hk
        · simp at hk
        · rename_i hkne
          rw [hLk] at hk
          obtain ⟨e1, _⟩ := key v hk rfl
          omega
      · rename_i b hb
        split at hk
        · rename_i hlt
          rw [get_insert, get_remove] at hk
          split at hk
          · rename_i heq
            simp at hk
            have hbl : v.length = b.length := by
              rw [← hk, length_overlayAt (by simp; omega)]
            omega
          · rename_i hkne
            rw [hLk] at hk
            obtain ⟨e1, _⟩ := key v hk rfl
            omega
        · rename_i hge
          rw [get_remove] at hk
          split at hk
          · simp at hk
          · rename_i hkne
            rw [hLk] at hk
            obtain ⟨e1, _⟩ := key v hk rfl
            omega
    · rename_i hc
      rw [hLk] at hk
      obtain ⟨e1, e2⟩ := key v hk rfl
      apply hc
      refine ⟨?_, e2⟩
      by_cases h0 : offset % rs = 0
      · exact Or.inl h0
      · right
        have hd := Nat.div_add_mod (offset + l) rs
        have hd' := Nat.div_add_mod offset rs
        rw [base_eq] at e1
        have : rs * (offset / rs) + offset % rs < rs * ((offset + l) / rs) + 1 := by omega
        by_cases h1 : rs = 1
        · subst h1; omega
        · have h5 : rs * (offset / rs) + 0 < rs * ((offset + l) / rs) + 0 := by omega
          rw [lex_lt hrs hrs] at h5
          omega

end Verif.File
