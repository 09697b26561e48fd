import Verif.Blob.Lemmas
import Verif.Share.Model

/-! The invariant of the shared buffers. -/

namespace Verif.Share
open Verif (OMap)
open OMap
open Blob (mapV get_mapV insert_mapV filter_mapV remove_mapV mapV_congr sorted_mapV)

/-- The data of an extent. -/
def dat (recs : OMap Bytes) : Ent → Bytes
  | .inline _ d => d
  | .blob r => (recs.get r).getD []

/-- The contents of the file. -/
def cont (s : St) : OMap Bytes := mapV (dat s.recs) s.tree

def eb : Ent → List Nat
  | .inline b _ => [b]
  | .blob _ => []

def er : Ent → List Nat
  | .inline _ _ => []
  | .blob r => [r]

def tb (t : OMap Ent) : List Nat := t.flatMap fun e => eb e.2
def tr (t : OMap Ent) : List Nat := t.flatMap fun e => er e.2

def Phase.gotB : Phase → List Nat
  | .got b _ => [b]
  | _ => []

def wb (l : List RecW) : List Nat := l.flatMap fun w => w.ph.gotB

def St.wl (s : St) : List RecW := s.writer.getD []

/-- A read so far. -/
structure RInv (s : St) (r : Reader) : Prop where
  le : r.lo ≤ r.cur
  le_hi : r.cur ≤ max r.lo r.hi
  data : r.out ++ mapV (dat s.recs) r.todo =
    (cont s).filter fun e => decide (r.lo ≤ e.1 ∧ e.1 < r.cur)
  here : ∀ e ∈ r.todo, ∀ x ∈ er e.2, x < s.nextRid ∧ s.recs.get x ≠ none

/-- A record of a write so far, when `c` is what it is to be. -/
def WInv (c t : OMap Bytes) (tree : OMap Ent) (w : RecW) : Prop :=
  (w.full = true → ∀ x y, w.f x = w.f y) ∧
  match w.ph with
  | .start => get c w.k = some (w.f (get t w.k))
  | .got _ old => get t w.k = none ∧ get c w.k = some (w.f old) ∧ w.full = false
  | .placed b => get c w.k = get t w.k ∧ ∃ d, get tree w.k = some (.inline b d)
  | .done => get c w.k = get t w.k

structure Inv (c : OMap Bytes) (s : St) : Prop where
  sortedC : Sorted c
  sorted : Sorted s.tree
  lock : s.writer ≠ none → s.readers = []
  bnodup : (tb s.tree ++ wb s.wl).Nodup
  blt : ∀ b ∈ tb s.tree ++ wb s.wl, b < s.nextBuf
  rnodup : (tr s.tree).Nodup
  rhere : ∀ r ∈ tr s.tree, r < s.nextRid ∧ s.recs.get r ≠ none
  readers : ∀ id r, s.readers.get id = some r → RInv s r
  wkeys : (s.wl.map RecW.k).Nodup
  writing : ∀ w ∈ s.wl, WInv c (cont s) s.tree w
  others : ∀ k, (∀ w ∈ s.wl, w.k ≠ k) → get (cont s) k = get c k

theorem inv_cont {c : OMap Bytes} {s : St} (h : Inv c s) (hw : s.writer = none) : cont s = c := by
  apply OMap.ext (sorted_mapV h.sorted) h.sortedC
  intro k
  apply h.others
  simp [St.wl, hw]

theorem inv_empty : Inv [] St.empty :=
  ⟨sorted_nil, sorted_nil, fun h => absurd rfl h, by simp [St.empty, tb, wb, St.wl],
    by simp [St.empty, tb, wb, St.wl], by simp [St.empty, tr], by simp [St.empty, tr],
    by intro id r h; simp [St.empty] at h, by simp [St.empty, St.wl], by simp [St.empty, St.wl],
    fun _ _ => rfl⟩

/-! ## Spec.write -/

theorem sorted_write (l : List (Nat × Spec.Update)) : ∀ {c : OMap Bytes}, Sorted c →
    Sorted (Spec.write c l) := by
  induction l with
  | nil => intro c h; exact h
  | cons w l ih => intro c h; exact ih (h.insert _ _)

theorem get_write_other (l : List (Nat × Spec.Update)) : ∀ (c : OMap Bytes) {k : Nat},
    (∀ w ∈ l, w.1 ≠ k) → get (Spec.write c l) k = get c k := by
  induction l with
  | nil => intro c k _; rfl
  | cons w l ih =>
    intro c k h
    rw [Spec.write, ih _ (fun w hw => h w (by simp [hw])), get_insert,
      if_neg (fun e => h w (by simp) e.symm)]

theorem get_write (l : List (Nat × Spec.Update)) : ∀ (c : OMap Bytes), (l.map (·.1)).Nodup →
    ∀ w ∈ l, get (Spec.write c l) w.1 = some (w.2 (get c w.1)) := by
  induction l with
  | nil => intro c _ w h; simp at h
  | cons x l ih =>
    intro c hn w hw
    simp only [List.map_cons, List.nodup_cons, List.mem_map, not_exists, not_and] at hn
    rcases List.mem_cons.1 hw with rfl | hw
    · rw [Spec.write, get_write_other l _ (fun y hy => hn.1 y hy), get_insert, if_pos rfl]
    · rw [Spec.write, ih _ hn.2 w hw, get_insert, if_neg (fun e => hn.1 w hw e)]

/-! ## Lists of ids -/

theorem dat_congr {recs recs' : OMap Bytes} {e : Ent} (h : ∀ x ∈ er e, recs'.get x = recs.get x) :
    dat recs' e = dat recs e := by
  cases e with
  | inline b d => rfl
  | blob r => simp only [dat, h r (by simp [er])]

theorem mem_tr {t : OMap Ent} {e : Nat × Ent} (he : e ∈ t) {x : Nat} (hx : x ∈ er e.2) :
    x ∈ tr t := List.mem_flatMap.2 ⟨e, he, hx⟩

theorem mem_tb {t : OMap Ent} {e : Nat × Ent} (he : e ∈ t) {x : Nat} (hx : x ∈ eb e.2) :
    x ∈ tb t := List.mem_flatMap.2 ⟨e, he, hx⟩

theorem remove_cons_ne {k k' : Nat} {e : Ent} {t : OMap Ent} (h : k' ≠ k) :
    OMap.remove ((k', e) :: t) k = (k', e) :: OMap.remove t k := by
  simp only [OMap.remove, List.filter_cons]
  rw [if_pos (by simpa using h)]

theorem remove_cons_eq {k : Nat} {e : Ent} {t : OMap Ent} (hs : Sorted ((k, e) :: t)) :
    OMap.remove ((k, e) :: t) k = t := by
  have hn : OMap.get t k = none := by
    cases hx : OMap.get t k with
    | none => rfl
    | some w =>
      have := List.rel_of_pairwise_cons hs (mem_of_get hx)
      simp at this
  have := remove_of_none hn
  simp only [OMap.remove] at this ⊢
  rw [List.filter_cons]
  simp only [ne_eq, not_true_eq_false, decide_false, Bool.false_eq_true, if_false]
  exact this

theorem perm_flat_remove {A : Type} (g : Ent → List A) {t : OMap Ent} (hs : Sorted t) {k : Nat}
    {e : Ent} (hg : OMap.get t k = some e) :
    (t.flatMap fun x => g x.2).Perm (g e ++ (OMap.remove t k).flatMap fun x => g x.2) := by
  induction t with
  | nil => simp at hg
  | cons x t ih =>
    obtain ⟨k', e'⟩ := x
    simp only [OMap.get] at hg
    split at hg
    · rename_i hk
      subst hk
      obtain rfl : e' = e := by simpa using hg
      rw [remove_cons_eq hs]
      exact List.Perm.refl _
    · rename_i hk
      rw [remove_cons_ne hk]
      simp only [List.flatMap_cons]
      refine (List.Perm.append_left _ (ih hs.tail hg)).trans ?_
      rw [← List.append_assoc, ← List.append_assoc]
      exact List.Perm.append_right _ List.perm_append_comm

theorem perm_flat_insert {A : Type} (g : Ent → List A) {t : OMap Ent} (hs : Sorted t) (k : Nat)
    (e : Ent) : ((OMap.insert t k e).flatMap fun x => g x.2).Perm
      (g e ++ (OMap.remove t k).flatMap fun x => g x.2) := by
  have h1 := perm_flat_remove g (hs.insert k e) (k := k) (e := e) (by simp [get_insert])
  have h2 : OMap.remove (OMap.insert t k e) k = OMap.remove t k := by
    apply OMap.ext ((hs.insert k e).remove k) (hs.remove k)
    intro k'
    simp only [get_remove, get_insert]
    split <;> rfl
  rwa [h2] at h1

/-! ## Flushing -/

structure FlushSpec (s : St) (t t' : OMap Ent) (recs : OMap Bytes) (n : Nat) : Prop where
  mono : s.nextRid ≤ n
  old : ∀ r, r < s.nextRid → recs.get r = s.recs.get r
  view : mapV (dat recs) t' = mapV (dat s.recs) t
  keys : t'.map (·.1) = t.map (·.1)
  rids : ∀ r ∈ tr t', r ∈ tr t ∨ s.nextRid ≤ r
  rnodup : (tr t').Nodup
  rhere : ∀ r ∈ tr t', r < n ∧ recs.get r ≠ none
  bufs : (tb t').Sublist (tb t)

theorem flushEnt_spec {s : St} {e e' : Ent} {recs : OMap Bytes} {n : Nat}
    (h : flushEnt s e = some (e', recs, n)) :
    s.nextRid ≤ n ∧ (∀ r, r < s.nextRid → recs.get r = s.recs.get r) ∧
    ((e' = e ∧ recs = s.recs ∧ n = s.nextRid) ∨
      (e' = .blob s.nextRid ∧ er e = [] ∧ n = s.nextRid + 1 ∧
        recs.get s.nextRid = some (dat s.recs e))) := by
  cases e with
  | inline b d =>
    simp only [flushEnt] at h
    split at h
    · simp at h
    · split at h
      · split at h
        · simp at h
        · simp only [Option.some.injEq, Prod.mk.injEq] at h
          obtain ⟨rfl, rfl, rfl⟩ := h
          refine ⟨Nat.le_succ _, ?_, Or.inr ⟨rfl, rfl, rfl, by simp [get_insert, dat]⟩⟩
          intro r hr
          rw [get_insert, if_neg (by omega)]
      · simp only [Option.some.injEq, Prod.mk.injEq] at h
        obtain ⟨rfl, rfl, rfl⟩ := h
        exact ⟨Nat.le_refl _, fun _ _ => rfl, Or.inl ⟨rfl, rfl, rfl⟩⟩
  | blob r =>
    simp only [flushEnt, Option.some.injEq, Prod.mk.injEq] at h
    obtain ⟨rfl, rfl, rfl⟩ := h
    exact ⟨Nat.le_refl _, fun _ _ => rfl, Or.inl ⟨rfl, rfl, rfl⟩⟩

theorem flushItems_spec (p : Nat → Bool) (t : OMap Ent) : ∀ {s : St} {t' : OMap Ent}
    {recs : OMap Bytes} {n : Nat}, (tr t).Nodup →
    (∀ r ∈ tr t, r < s.nextRid ∧ s.recs.get r ≠ none) →
    flushItems p s t = some (t', recs, n) → FlushSpec s t t' recs n := by
  induction t with
  | nil =>
    intro s t' recs n _ _ h
    simp only [flushItems, Option.some.injEq, Prod.mk.injEq] at h
    obtain ⟨rfl, rfl, rfl⟩ := h
    exact ⟨Nat.le_refl _, fun _ _ => rfl, rfl, rfl, by simp [tr], by simp [tr], by simp [tr],
      List.Sublist.refl _⟩
  | cons x t ih =>
    obtain ⟨k, e⟩ := x
    intro s t' recs n hn hh h
    have hn' : (er e ++ tr t).Nodup := hn
    have hh' : ∀ r ∈ er e ++ tr t, r < s.nextRid ∧ s.recs.get r ≠ none := hh
    have hnt : (tr t).Nodup := (List.nodup_append.1 hn').2.1
    -- both cases give: an element, a state and the rest
    have key : ∃ e' recs1 n1 m', t' = (k, e') :: m' ∧
        s.nextRid ≤ n1 ∧ (∀ r, r < s.nextRid → recs1.get r = s.recs.get r) ∧
        ((e' = e ∧ recs1 = s.recs ∧ n1 = s.nextRid) ∨
          (e' = .blob s.nextRid ∧ er e = [] ∧ n1 = s.nextRid + 1 ∧
            recs1.get s.nextRid = some (dat s.recs e))) ∧
        flushItems p { s with recs := recs1, nextRid := n1 } t = some (m', recs, n) := by
      simp only [flushItems] at h
      split at h
      · cases hf : flushEnt s e with
        | none => rw [hf] at h; simp at h
        | some y =>
          obtain ⟨e', recs1, n1⟩ := y
          rw [hf] at h
          simp only at h
          obtain ⟨q1, q2, q3⟩ := flushEnt_spec hf
          cases hm : flushItems p { s with recs := recs1, nextRid := n1 } t with
          | none => rw [hm] at h; simp at h
          | some y =>
            obtain ⟨m', recs', n'⟩ := y
            rw [hm] at h
            simp only [Option.some.injEq, Prod.mk.injEq] at h
            obtain ⟨rfl, rfl, rfl⟩ := h
            exact ⟨e', recs1, n1, m', rfl, q1, q2, q3, hm⟩
      · cases hm : flushItems p s t with
        | none => rw [hm] at h; simp at h
        | some y =>
          obtain ⟨m', recs', n'⟩ := y
          rw [hm] at h
          simp only [Option.some.injEq, Prod.mk.injEq] at h
          obtain ⟨rfl, rfl, rfl⟩ := h
          exact ⟨e, s.recs, s.nextRid, m', rfl, Nat.le_refl _, fun _ _ => rfl,
            Or.inl ⟨rfl, rfl, rfl⟩, hm⟩
    obtain ⟨e', recs1, n1, m', rfl, q1, q2, q3, hm⟩ := key
    have ih' := ih (s := { s with recs := recs1, nextRid := n1 }) hnt
      (fun r hr => by
        have := hh' r (List.mem_append_right _ hr)
        exact ⟨Nat.lt_of_lt_of_le this.1 q1, by rw [q2 r this.1]; exact this.2⟩) hm
    have hmono : n1 ≤ n := ih'.mono
    have hold : ∀ r, r < n1 → recs.get r = recs1.get r := ih'.old
    have hrids : ∀ r ∈ tr m', r ∈ tr t ∨ n1 ≤ r := ih'.rids
    have htail : mapV (dat recs) m' = mapV (dat s.recs) t := by
      rw [ih'.view]
      apply mapV_congr
      intro x hx
      apply dat_congr
      intro y hy
      exact q2 y (hh' y (List.mem_append_right _ (mem_tr hx hy))).1
    have here : ∀ r ∈ er e', r < n ∧ recs.get r ≠ none := by
      intro r hr
      rcases q3 with ⟨rfl, rfl, rfl⟩ | ⟨rfl, _, rfl, hg⟩
      · have := hh' r (List.mem_append_left _ hr)
        exact ⟨Nat.lt_of_lt_of_le this.1 hmono, by rw [hold r this.1]; exact this.2⟩
      · obtain rfl : r = s.nextRid := by simpa [er] using hr
        exact ⟨by omega, by rw [hold _ (by omega), hg]; simp⟩
    refine ⟨Nat.le_trans q1 hmono, ?_, ?_, ?_, ?_, ?_, ?_, ?_⟩
    · intro r hr
      rw [hold r (Nat.lt_of_lt_of_le hr q1), q2 r hr]
    · have : dat recs e' = dat s.recs e := by
        rcases q3 with ⟨rfl, rfl, rfl⟩ | ⟨rfl, _, rfl, hg⟩
        · apply dat_congr
          intro x hx
          exact hold x (hh' x (List.mem_append_left _ hx)).1
        · rw [dat, hold _ (by omega), hg]; rfl
      change (k, dat recs e') :: mapV (dat recs) m' = (k, dat s.recs e) :: mapV (dat s.recs) t
      rw [this, htail]
    · simp only [List.map_cons, ih'.keys]
    · intro r hr
      have hr : r ∈ er e' ++ tr m' := hr
      change r ∈ er e ++ tr t ∨ _
      rcases List.mem_append.1 hr with hr | hr
      · rcases q3 with ⟨rfl, rfl, rfl⟩ | ⟨rfl, _, rfl, hg⟩
        · exact Or.inl (List.mem_append_left _ hr)
        · right
          obtain rfl : r = s.nextRid := by simpa [er] using hr
          exact Nat.le_refl _
      · rcases hrids r hr with h | h
        · exact Or.inl (List.mem_append_right _ h)
        · exact Or.inr (Nat.le_trans q1 h)
    · change (er e' ++ tr m').Nodup
      rw [List.nodup_append]
      refine ⟨?_, ih'.rnodup, ?_⟩
      · cases e' <;> simp [er]
      · intro a ha b hb hab
        subst hab
        rcases hrids a hb with hold1 | hnew
        · rcases q3 with ⟨rfl, rfl, rfl⟩ | ⟨rfl, _, rfl, hg⟩
          · exact (List.nodup_append.1 hn').2.2 a ha a hold1 rfl
          · obtain rfl : a = s.nextRid := by simpa [er] using ha
            exact absurd (hh' _ (List.mem_append_right _ hold1)).1 (Nat.lt_irrefl _)
        · rcases q3 with ⟨rfl, rfl, rfl⟩ | ⟨rfl, _, rfl, hg⟩
          · exact absurd (hh' a (List.mem_append_left _ ha)).1 (Nat.not_lt.2 hnew)
          · obtain rfl : a = s.nextRid := by simpa [er] using ha
            omega
    · intro r hr
      have hr : r ∈ er e' ++ tr m' := hr
      rcases List.mem_append.1 hr with hr | hr
      · exact here r hr
      · exact ih'.rhere r hr
    · change (eb e' ++ tb m').Sublist (eb e ++ tb t)
      apply List.Sublist.append _ ih'.bufs
      rcases q3 with ⟨rfl, _⟩ | ⟨rfl, _⟩
      · exact List.Sublist.refl _
      · exact List.nil_sublist _

/-- When the flusher panics. -/
theorem flushItems_none (p : Nat → Bool) (t : OMap Ent) : ∀ {s : St},
    flushItems p s t = none ↔ ∃ k b d, (k, Ent.inline b d) ∈ t ∧ p k = true ∧
      (s.mutHeld b = true ∨ (d.length > threshold ∧ s.arcHeld b = true)) := by
  induction t with
  | nil => intro s; simp [flushItems]
  | cons x t ih =>
    obtain ⟨k, e⟩ := x
    intro s
    have htail : ∀ recs n, flushItems p { s with recs := recs, nextRid := n } t = none ↔
        ∃ k b d, (k, Ent.inline b d) ∈ t ∧ p k = true ∧
          (s.mutHeld b = true ∨ (d.length > threshold ∧ s.arcHeld b = true)) :=
      fun recs n => ih (s := { s with recs := recs, nextRid := n })
    have hcons : (∃ k' b d, (k', Ent.inline b d) ∈ (k, e) :: t ∧ p k' = true ∧
          (s.mutHeld b = true ∨ (d.length > threshold ∧ s.arcHeld b = true))) ↔
        (p k = true ∧ flushEnt s e = none) ∨
        (∃ k b d, (k, Ent.inline b d) ∈ t ∧ p k = true ∧
          (s.mutHeld b = true ∨ (d.length > threshold ∧ s.arcHeld b = true))) := by
      have hent : flushEnt s e = none ↔ ∃ b d, e = .inline b d ∧
          (s.mutHeld b = true ∨ (d.length > threshold ∧ s.arcHeld b = true)) := by
        cases e with
        | inline b d =>
          simp only [flushEnt, Ent.inline.injEq]
          constructor
          · intro h
            refine ⟨b, d, ⟨rfl, rfl⟩, ?_⟩
            split at h
            · left; assumption
            · split at h
              · split at h
                · right; constructor <;> assumption
                · simp at h
              · simp at h
          · rintro ⟨_, _, ⟨rfl, rfl⟩, h | ⟨h1, h2⟩⟩
            · rw [if_pos h]
            · by_cases hm : s.mutHeld b = true
              · rw [if_pos hm]
              · rw [if_neg hm, if_pos h1, if_pos h2]
        | blob r => simp [flushEnt]
      rw [hent]
      constructor
      · rintro ⟨k', b, d, hm, hp, hc⟩
        rcases List.mem_cons.1 hm with hm | hm
        · obtain ⟨rfl, rfl⟩ := Prod.mk.inj hm
          exact Or.inl ⟨hp, b, d, rfl, hc⟩
        · exact Or.inr ⟨k', b, d, hm, hp, hc⟩
      · rintro (⟨hp, b, d, rfl, hc⟩ | ⟨k', b, d, hm, hp, hc⟩)
        · exact ⟨k, b, d, by simp, hp, hc⟩
        · exact ⟨k', b, d, by simp [hm], hp, hc⟩
    rw [hcons]
    simp only [flushItems]
    by_cases hp : p k = true
    · simp only [hp, if_true, true_and]
      cases hf : flushEnt s e with
      | none => simp
      | some y =>
        obtain ⟨e', recs1, n1⟩ := y
        simp only [reduceCtorEq, false_or]
        rw [← htail recs1 n1]
        cases flushItems p { s with recs := recs1, nextRid := n1 } t <;> simp
    · simp only [hp, if_false, false_and, false_or]
      rw [← ih]
      cases flushItems p s t <;> simp

end Verif.Share
