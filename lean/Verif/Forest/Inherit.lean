import Verif.Forest.Lemmas

/-!
# Lemmas about dataset properties
-/

namespace Verif.Forest

open Verif (OMap)
open Verif.Property (Str Prp PName Source defaultValue)

variable {D : Type}

theorem prop_setProp (t : Fs D) (v : Prp) (n : PName) :
    (t.setProp v).prop n = if n = v.pname then some v else t.prop n := by
  unfold Fs.setProp Fs.prop
  by_cases h : n = v.pname
  · subst h
    simp
  · rw [if_neg h, List.find?_cons_of_neg (by simpa using fun h' => h h'.symm)]
    congr 1
    induction t.props with
    | nil => rfl
    | cons a l ih =>
      by_cases ha : a.1 = n
      · have : a.1 ≠ v.pname := ha ▸ h
        simp [ha, h]
      · by_cases hv : a.1 = v.pname
        · rw [List.filter_cons_of_neg (by simp [hv]), List.find?_cons_of_neg (by simpa using ha)]
          exact ih
        · rw [List.filter_cons_of_pos (by simp [hv]), List.find?_cons_of_neg (by simpa using ha),
            List.find?_cons_of_neg (by simpa using ha)]
          exact ih

variable {e : Env D} {N : Str → Prop} {db : Db D} {k : Client D}

theorem Inv.lookupParent (v : Inv e N db k) {p : Path} {i c} (h : k.fs p = some (i, c)) :
    lookupParent db.forest i = .ok (parentId k p) := by
  obtain ⟨tod, h1, _⟩ := v.trees p i c h
  simp [Forest.lookupParent, h1]

/-- The nearest setting, searched from a dataset upward. -/
theorem nearest_cases (k : Client D) (n : PName) (p : Path) :
    (∃ a b v, Nearest k n p a b v) ∨ Unset k n p := by
  induction p using snoc_induction with
  | nil =>
    cases h : k.local n [] with
    | some v =>
      exact .inl ⟨[], [], v, rfl, h, fun m hm r hr => absurd (by
        have := congrArg List.length hr
        simp at this
        exact List.eq_nil_of_length_eq_zero (by omega)) hm⟩
    | none =>
      refine .inr fun a b hab => ?_
      have : a = [] := by
        cases a with
        | nil => rfl
        | cons _ _ => simp at hab
      rw [this, h]
  | append_singleton q x ih =>
    cases h : k.local n (q ++ [x]) with
    | some v =>
      refine .inl ⟨q ++ [x], [], v, by simp, h, fun m hm r hr => absurd ?_ hm⟩
      cases m with
      | nil => rfl
      | cons _ _ => simp at hr
    | none =>
      rcases ih with ⟨a, b, v, hs, hv, hn⟩ | hu
      · refine .inl ⟨a, b ++ [x], v, by simp [hs], hv, ?_⟩
        intro m hm r hr
        by_cases hr0 : r = []
        · subst hr0
          rw [List.append_nil] at hr
          rw [← hr, ← List.append_assoc, ← hs, h]
        · obtain ⟨r', y, rfl⟩ : ∃ r' y, r = r' ++ [y] :=
            ⟨r.dropLast, r.getLast hr0, (List.dropLast_concat_getLast hr0).symm⟩
          rw [← List.append_assoc] at hr
          exact hn m hm r' (by simpa using (List.append_inj' hr rfl).1)
      · refine .inr fun a b hab => ?_
        by_cases hb0 : b = []
        · subst hb0
          rw [List.append_nil] at hab
          rw [← hab, h]
        · obtain ⟨b', y, rfl⟩ : ∃ b' y, b = b' ++ [y] :=
            ⟨b.dropLast, b.getLast hb0, (List.dropLast_concat_getLast hb0).symm⟩
          rw [← List.append_assoc] at hab
          exact hu a b' (by simpa using (List.append_inj' hab rfl).1)

/-- Ancestors of a file system exist. -/
theorem Inv.parent_some (v : Inv e N db k) {q : Path} {n : Str} {i c}
    (h : k.fs (q ++ [n]) = some (i, c)) : ∃ j d, k.fs q = some (j, d) ∧
      parentId k (q ++ [n]) = some j := by
  obtain ⟨_, j, d, hj, _⟩ := v.ents q n i c h
  exact ⟨j, d, hj, by simp [parentId, hj]⟩

theorem Inv.getConf_nearest (v : Inv e N db k) (n : PName) (a : Path) (w : Prp)
    (ha : k.local n a = some w) (b : Path) (room i : Nat) (c : Fs D)
    (h : k.fs (a ++ b) = some (i, c))
    (hb : ∀ m, m ≠ [] → ∀ r, b = m ++ r → k.local n (a ++ m) = none) (hr : b.length ≤ room) :
    ∃ db', getConf db n room i = (db', .ok (some w, 255 - (room - b.length))) ∧ Inv e N db' k := by
  induction b using snoc_induction generalizing db room i c with
  | nil =>
    rw [List.append_nil] at h
    obtain ⟨db1, h1, _, _, _, v1⟩ := v.openFs h
    rw [getConf, h1]
    have : c.prop n = some w := by simpa [Client.local, h] using ha
    simp only [this]
    exact ⟨db1, rfl, v1⟩
  | append_singleton b x ih =>
    obtain ⟨db1, h1, _, _, _, v1⟩ := v.openFs h
    have hx := hb (b ++ [x]) (by simp) [] (by simp)
    have : c.prop n = none := by simpa [Client.local, h] using hx
    rw [← List.append_assoc] at h
    obtain ⟨j, d, hj, hp⟩ := v1.parent_some h
    cases room with
    | zero => simp at hr
    | succ room =>
      have hlp := v1.lookupParent h
      rw [hp] at hlp
      obtain ⟨db2, h2, v2⟩ := ih v1 room j d hj
        (fun m hm r hr => hb m hm (r ++ [x]) (by rw [← List.append_assoc, ← hr])) (by simpa using hr)
      refine ⟨db2, ?_, v2⟩
      rw [getConf, h1]
      simp only [this, hlp, h2]
      simp

theorem Inv.getConf_unset (v : Inv e N db k) (n : PName) (p : Path) (room i : Nat) (c : Fs D)
    (h : k.fs p = some (i, c)) (hu : Unset k n p) (hr : p.length ≤ room) :
    ∃ db', getConf db n room i = (db', .ok (none, 0)) ∧ Inv e N db' k := by
  induction p using snoc_induction generalizing db room i c with
  | nil =>
    obtain ⟨db1, h1, _, _, _, v1⟩ := v.openFs h
    have : c.prop n = none := by simpa [Client.local, h] using hu [] [] rfl
    have hlp := v1.lookupParent h
    have hp : parentId k [] = none := by simp [parentId]
    rw [hp] at hlp
    refine ⟨db1, ?_, v1⟩
    rw [getConf, h1]
    simp only [this, hlp]
  | append_singleton q x ih =>
    obtain ⟨db1, h1, _, _, _, v1⟩ := v.openFs h
    have : c.prop n = none := by simpa [Client.local, h] using hu (q ++ [x]) [] (by simp)
    obtain ⟨j, d, hj, hp⟩ := v1.parent_some h
    cases room with
    | zero => simp at hr
    | succ room =>
      have hlp := v1.lookupParent h
      rw [hp] at hlp
      obtain ⟨db2, h2, v2⟩ := ih v1 room j d hj
        (fun a b hab => hu a (b ++ [x]) (by rw [← List.append_assoc, ← hab])) (by simpa using hr)
      refine ⟨db2, ?_, v2⟩
      rw [getConf, h1]
      simp only [this, hlp, h2]

/-- Too many levels. -/
theorem Inv.getConf_deep (v : Inv e N db k) (n : PName) (p : Path) (room i : Nat) (c : Fs D)
    (h : k.fs p = some (i, c)) (hr : room < p.length)
    (hu : ∀ a b, p = a ++ b → b.length ≤ room → k.local n a = none) :
    ∃ db', getConf db n room i = (db', .panic) := by
  induction p using snoc_induction generalizing db room i c with
  | nil => simp at hr
  | append_singleton q x ih =>
    obtain ⟨db1, h1, _, _, _, v1⟩ := v.openFs h
    have : c.prop n = none := by
      simpa [Client.local, h] using hu (q ++ [x]) [] (by simp) (by simp)
    obtain ⟨j, d, hj, hp⟩ := v1.parent_some h
    have hlp := v1.lookupParent h
    rw [hp] at hlp
    cases room with
    | zero =>
      refine ⟨db1, ?_⟩
      rw [getConf, h1]
      simp only [this, hlp]
    | succ room =>
      obtain ⟨db2, h2⟩ := ih v1 room j d hj (by simpa using hr)
        (fun a b hab hb => hu a (b ++ [x]) (by rw [← List.append_assoc, ← hab]) (by simpa using hb))
      refine ⟨db2, ?_⟩
      rw [getConf, h1]
      simp only [this, hlp, h2]

/-! ### The mount point -/

theorem splitFirst_append (a s : Str) (h : '/' ∉ a) :
    Property.splitFirst '/' (a ++ '/' :: s) = (a, some s) := by
  induction a with
  | nil => simp [Property.splitFirst]
  | cons c t ih =>
    simp only [List.mem_cons, not_or] at h
    rw [List.cons_append, Property.splitFirst, if_neg (fun x => h.1 x.symm), ih h.2]

/-- Components with slashes between them, skipping some. -/
theorem splitnLast_join (a : Path) (b : Path) (hb : b ≠ []) (ha : ∀ n ∈ a, '/' ∉ n) :
    splitnLast (a.length + 1) (join (a ++ b)) = some (join b) := by
  induction a with
  | nil => simp [splitnLast]
  | cons n a ih =>
    have h1 : a ++ b ≠ [] := by simp [hb]
    obtain ⟨m, t, hmt⟩ : ∃ m t, a ++ b = m :: t := List.exists_cons_of_ne_nil h1
    rw [List.cons_append, hmt, join, List.length_cons, splitnLast,
      splitFirst_append _ _ (ha n (by simp))]
    dsimp only
    rw [← hmt]
    exact ih (fun m hm => ha m (List.mem_cons_of_mem _ hm))

theorem count_free (s : Str) (h : '/' ∉ s) : s.count '/' = 0 := List.count_eq_zero.2 h

theorem count_join (p : Path) (hp : ∀ n ∈ p, '/' ∉ n) (h : p ≠ []) :
    (join p).count '/' = p.length - 1 := by
  induction p with
  | nil => exact absurd rfl h
  | cons n t ih =>
    cases t with
    | nil => simpa [join] using count_free n (hp n (by simp))
    | cons m t =>
      rw [join, List.count_append, count_free n (hp n (by simp)), List.count_cons_self,
        ih (fun x hx => hp x (List.mem_cons_of_mem _ hx)) (by simp)]
      simp

theorem full_join (e : Env D) (p : Path) : full e p = join (e.pool :: p) := by
  cases p <;> simp [full, join]

/-- Below the dataset where the base is set, the rest of the path is added. -/
theorem mountpoint_set (a b : Path) (bmp : Str) (hp : '/' ∉ e.pool) (ha : ∀ n ∈ a ++ b, '/' ∉ n)
    (hb : b.length < 256) :
    mountpoint (full e (a ++ b)) bmp (.set (UInt8.ofNat b.length)) =
      some (if b = [] then bmp else bmp ++ '/' :: join b) := by
  unfold mountpoint
  have hlt : (UInt8.ofNat b.length).toNat = b.length := by
    rw [UInt8.toNat_ofNat']
    exact Nat.mod_eq_of_lt hb
  by_cases hb0 : b = []
  · subst hb0
    simp
  · have hpos : 0 < b.length := List.length_pos_iff.2 hb0
    have hne : UInt8.ofNat b.length ≠ 0 := by
      intro h
      rw [h] at hlt
      have : (0 : UInt8).toNat = 0 := rfl
      omega
    have hc : (full e (a ++ b)).count '/' = a.length + b.length := by
      rw [full_join, count_join _ (by
        intro n hn
        rcases List.mem_cons.1 hn with rfl | hn
        · exact hp
        · exact ha n hn) (by simp)]
      simp
    simp only [if_neg hne, hc, hlt, if_neg hb0]
    rw [if_neg (by omega)]
    have h1 : a.length + b.length + 2 - b.length = (e.pool :: a).length + 1 := by
      simp; omega
    rw [h1, full_join, ← List.cons_append, splitnLast_join _ _ hb0]
    · rfl
    · intro n hn
      rcases List.mem_cons.1 hn with rfl | hn
      · exact hp
      · exact ha n (by simp [hn])

end Verif.Forest
