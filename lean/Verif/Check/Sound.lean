import Verif.Check.Spec
import Verif.Tree.Stream

/-!
# What a check that passes says, and which trees pass
-/

namespace Verif.Check

open Verif (OMap)
open Verif.Tree (Addr Meta Child Sub Node Tree Limits items itemsOf firstKey Chain Bounded Below
  nextKey FilledSub)

variable {V : Type} {L : Limits} {rd : Addr → Bool}

theorem getLast_ne {α} {n : List α} (hn : n ≠ []) : ∃ x, n.getLast? = some x :=
  ⟨_, List.getLast?_eq_some_getLast hn⟩

/-- The first and last key of an element, as `check_r` has them. -/
def kidFirst : (h : Nat) → Nat × Sub V (h + 1) → Nat
  | 0, e => (firstKey e.2.kids).getD 0
  | _ + 1, e => e.1

def lastOf (h : Nat) (n : Node V h) : Nat := ((items h n).getLast?.map (·.1)).getD 0

/-- Each child ends before the next begins. -/
def Runs (h : Nat) : Nat → Node V (h + 1) → Prop
  | _, [] => True
  | last, e :: es => last ≤ kidFirst h e ∧ Runs h (lastOf h e.2.kids) es

/-- What a passing check says about an element on its own. -/
structure Head (L : Limits) (rd : Addr → Bool) (h : Nat) (e : Nat × Sub V (h + 1)) : Prop where
  readable : readable rd e.2.info = true
  min : L.min h ≤ e.2.kids.length
  max : e.2.kids.length ≤ L.max h
  key : ∃ k, firstKey e.2.kids = some k ∧ e.1 ≤ k

/-- What a passing check says about a node that is not a leaf. -/
def Passed (L : Limits) (rd : Addr → Bool) : (h : Nat) → Node V (h + 1) → Prop
  | 0, n => n ≠ [] ∧ Runs 0 0 n ∧ ∀ e ∈ n, Head L rd 0 e
  | h + 1, n => n ≠ [] ∧ Runs (h + 1) 0 n ∧ ∀ e ∈ n, Head L rd (h + 1) e ∧
      Passed L rd h e.2.kids ∧ Covered e.2.info.start e.2.info.stop (h + 1) e.2.kids

theorem Passed.ne {h : Nat} {n : Node V (h + 1)} (hp : Passed L rd h n) : n ≠ [] := by
  cases h with
  | zero => exact hp.1
  | succ h => exact hp.1

theorem Passed.runs {h : Nat} {n : Node V (h + 1)} (hp : Passed L rd h n) : Runs h 0 n := by
  cases h with
  | zero => exact hp.2.1
  | succ h => exact hp.2.1

theorem Passed.head {h : Nat} {n : Node V (h + 1)} (hp : Passed L rd h n) {e} (he : e ∈ n) :
    Head L rd h e := by
  cases h with
  | zero => exact hp.2.2 e he
  | succ h => exact (hp.2.2 e he).1

theorem firstKey_ne {α} {n : List (Nat × α)} {k : Nat} (h : firstKey n = some k) : n ≠ [] := by
  rintro rfl; cases h

theorem Head.ne {h : Nat} {e : Nat × Sub V (h + 1)} (hd : Head L rd h e) : e.2.kids ≠ [] :=
  let ⟨_, hk, _⟩ := hd.key
  firstKey_ne hk

theorem items_ne : ∀ (h : Nat) {n : Node V (h + 1)}, Passed L rd h n → items (h + 1) n ≠ []
  | 0, n, hp => by
    obtain ⟨e, es, rfl⟩ := List.exists_cons_of_ne_nil hp.ne
    have := (hp.head (List.mem_cons_self ..)).ne
    rw [Tree.items_cons]
    intro hc
    have hc := (List.append_eq_nil_iff.mp hc).1
    simp only [itemsOf] at hc
    obtain ⟨x, xs, hx⟩ := List.exists_cons_of_ne_nil this
    rw [hx] at hc
    simp at hc
  | h + 1, n, hp => by
    obtain ⟨e, es, rfl⟩ := List.exists_cons_of_ne_nil hp.ne
    have := items_ne h (hp.2.2 e (List.mem_cons_self ..)).2.1
    rw [Tree.items_cons]
    intro hc
    exact this (List.append_eq_nil_iff.mp hc).1

/-- An element's items, if the element passes. -/
theorem kid_items_ne {h : Nat} {n : Node V (h + 1)} (hp : Passed L rd h n) {e} (he : e ∈ n) :
    items h e.2.kids ≠ [] := by
  cases h with
  | zero =>
    rw [Tree.items_zero]; exact (hp.head he).ne
  | succ h => exact items_ne h (hp.2.2 e he).2.1

theorem lastOf_cons {h : Nat} {e : Nat × Sub V (h + 1)} {es : Node V (h + 1)}
    (h1 : items h e.2.kids ≠ []) (h2 : es ≠ [] → items (h + 1) es ≠ []) :
    lastOf (h + 1) (e :: es) = if es = [] then lastOf h e.2.kids else lastOf (h + 1) es := by
  unfold lastOf
  rw [Tree.items_cons, List.getLast?_append]
  have he : itemsOf (h + 1) e = items h e.2.kids := rfl
  rw [he]
  split
  · next h0 => subst h0; simp [items]
  · next h0 =>
    obtain ⟨x, hx⟩ := getLast_ne (h2 h0)
    rw [hx]; simp

theorem collect_of {α β : Type} {f : α → Res β} {g : α → β} : ∀ {as : List α},
    (∀ a ∈ as, f a = .ok (g a)) → collect f as = .ok (as.map g)
  | [], _ => rfl
  | a :: as, h => by
    simp only [collect, h a (List.mem_cons_self ..),
      collect_of (fun x hx => h x (List.mem_cons_of_mem _ hx)), List.map_cons]

theorem collect_passed {α : Type} {f : α → Res Kid} {g : α → Kid} {P : α → Prop} :
    ∀ {as : List α} {ks : List Kid}, collect f as = .ok ks → (∀ k ∈ ks, k.passed = true) →
    (∀ a ∈ as, ∀ k, f a = .ok k → k.passed = true → k = g a ∧ P a) →
    ks = as.map g ∧ ∀ a ∈ as, P a
  | [], ks, h, _, _ => by cases h; exact ⟨rfl, fun _ h => absurd h List.not_mem_nil⟩
  | a :: as, ks, h, hk, hf => by
    unfold collect at h
    split at h <;> try cases h
    next b hb =>
    split at h <;> try cases h
    next bs hbs =>
    obtain ⟨h1, h2⟩ := collect_passed hbs (fun k hk' => hk k (List.mem_cons_of_mem _ hk'))
      (fun x hx => hf x (List.mem_cons_of_mem _ hx))
    obtain ⟨h3, h4⟩ := hf a (List.mem_cons_self ..) b hb (hk b (List.mem_cons_self ..))
    refine ⟨by rw [h1, h3, List.map_cons], ?_⟩
    intro x hx
    rcases List.mem_cons.mp hx with rfl | hx
    · exact h4
    · exact h2 x hx

/-- What `check_r` finds out about a child that passes. -/
def kidOk (h : Nat) (e : Nat × Sub V (h + 1)) : Kid := ⟨true, kidFirst h e, lastOf h e.2.kids⟩

theorem sorted_map {h : Nat} : ∀ (n : Node V (h + 1)) (last : Nat),
    ((sorted last (n.map (kidOk h))).1 = true ↔ Runs h last n) ∧
    (Runs h last n → (sorted last (n.map (kidOk h))).2 =
      match n.getLast? with | none => last | some e => lastOf h e.2.kids)
  | [], last => by simp [sorted, Runs]
  | e :: es, last => by
    simp only [List.map_cons, sorted, Runs]
    obtain ⟨ih1, ih2⟩ := sorted_map es (lastOf h e.2.kids)
    by_cases hl : last > kidFirst h e
    · rw [if_pos (show last > (kidOk h e).first from hl)]
      refine ⟨by simp; omega, fun hh => by omega⟩
    · rw [if_neg (show ¬ last > (kidOk h e).first from hl)]
      refine ⟨by rw [show (kidOk h e).last = lastOf h e.2.kids from rfl, ih1]; exact ⟨fun h => ⟨by omega, h⟩, fun h => h.2⟩, ?_⟩
      intro hh
      rw [show (kidOk h e).last = lastOf h e.2.kids from rfl, ih2 hh.2]
      cases es with
      | nil => rfl
      | cons a as => rw [List.getLast?_cons_cons]; rw [List.getLast?_eq_some_getLast (by simp)]

theorem lastOf_last {h : Nat} : ∀ {n : Node V (h + 1)}, (∀ e ∈ n, items h e.2.kids ≠ []) →
    ∀ {e}, n.getLast? = some e → lastOf (h + 1) n = lastOf h e.2.kids
  | [], _, _, he => by cases he
  | a :: as, hn, e, he => by
    have h2 : as ≠ [] → items (h + 1) as ≠ [] := by
      intro h0
      obtain ⟨b, bs, rfl⟩ := List.exists_cons_of_ne_nil h0
      rw [Tree.items_cons]
      intro hc
      exact hn b (by simp) (List.append_eq_nil_iff.mp hc).1
    rw [lastOf_cons (hn a (List.mem_cons_self ..)) h2]
    split
    · next h0 => subst h0; simp at he; rw [he]
    · next h0 =>
      refine lastOf_last (fun x hx => hn x (List.mem_cons_of_mem _ hx)) ?_
      obtain ⟨b, bs, rfl⟩ := List.exists_cons_of_ne_nil h0
      rw [List.getLast?_cons_cons] at he
      exact he

theorem lenOk_iff {h : Nat} {n : Node V h} :
    lenOk L h false n = true ↔ L.min h ≤ n.length ∧ n.length ≤ L.max h := by
  unfold lenOk
  by_cases h1 : n.length < L.min h
  · simp [h1]; omega
  · by_cases h2 : n.length > L.max h
    · simp [h1]; omega
    · simp [h1]; omega

theorem lenOk_root {h : Nat} {n : Node V h} : lenOk L h true n = true ↔ n.length ≤ L.max h := by
  unfold lenOk
  by_cases h2 : n.length > L.max h
  · simp [h2]
  · simp [h2]; omega

theorem nodeCheck_iff {h : Nat} {key : Nat} {n : Node V h} :
    nodeCheck L h false key n = some true ↔
      (L.min h ≤ n.length ∧ n.length ≤ L.max h) ∧ ∃ k, firstKey n = some k ∧ key ≤ k := by
  unfold nodeCheck
  simp only [Bool.false_eq_true, if_false, Option.map_eq_some_iff, Bool.and_eq_true, lenOk_iff,
    Bool.not_eq_true', decide_eq_false_iff_not, Nat.not_lt, gt_iff_lt]
  constructor
  · rintro ⟨k, h1, h2, h3⟩; exact ⟨h2, k, h1, h3⟩
  · rintro ⟨h2, k, h1, h3⟩; exact ⟨k, h1, h2, h3⟩

/-- The transactions in a report. -/
theorem foldl_max {h : Nat} (es : Node V (h + 1)) : ∀ (a hi : Nat),
    es.foldl (fun a e => Nat.max a e.2.info.stop) a ≤ hi ↔ a ≤ hi ∧ ∀ e ∈ es, e.2.info.stop ≤ hi := by
  induction es with
  | nil => intro a hi; simp
  | cons e es ih =>
    intro a hi
    rw [List.foldl_cons, ih, List.forall_mem_cons]
    have : Nat.max a e.2.info.stop ≤ hi ↔ a ≤ hi ∧ e.2.info.stop ≤ hi := Nat.max_le
    rw [this]
    exact and_assoc

theorem foldl_min {h : Nat} (es : Node V (h + 1)) : ∀ (a lo : Nat),
    lo ≤ es.foldl (fun a e => Nat.min a e.2.info.start) a ↔ lo ≤ a ∧ ∀ e ∈ es, lo ≤ e.2.info.start := by
  induction es with
  | nil => intro a hi; simp
  | cons e es ih =>
    intro a lo
    rw [List.foldl_cons, ih, List.forall_mem_cons]
    have : lo ≤ Nat.min a e.2.info.start ↔ lo ≤ a ∧ lo ≤ e.2.info.start := Nat.le_min
    rw [this]
    exact and_assoc

theorem summary_spec {h : Nat} {n : Node V (h + 1)} {ks : List Kid} {r : Report}
    (hs : summary h n ks = .ok r) :
    n ≠ [] ∧ r.passed = (ks.all (·.passed) && (sorted 0 ks).1) ∧ r.last = (sorted 0 ks).2 ∧
    ∀ lo hi, (lo ≤ r.start ∧ r.stop ≤ hi) ↔ Covered lo hi (h + 1) n := by
  unfold summary at hs
  split at hs <;> try cases hs
  next e es k ks =>
  refine ⟨by simp, rfl, rfl, ?_⟩
  intro lo hi
  show (lo ≤ es.foldl (fun a e => Nat.min a e.2.info.start) e.2.info.start ∧
    es.foldl (fun a e => Nat.max a e.2.info.stop) e.2.info.stop ≤ hi) ↔
    ∀ x ∈ e :: es, lo ≤ x.2.info.start ∧ x.2.info.stop ≤ hi
  rw [foldl_min, foldl_max, List.forall_mem_cons]
  constructor
  · rintro ⟨⟨a, b⟩, c, d⟩; exact ⟨⟨a, c⟩, fun x hx => ⟨b x hx, d x hx⟩⟩
  · rintro ⟨⟨a, c⟩, bd⟩; exact ⟨⟨a, fun x hx => (bd x hx).1⟩, c, fun x hx => (bd x hx).2⟩

theorem summary_some {h : Nat} {n : Node V (h + 1)} (hn : n ≠ []) (g : Nat × Sub V (h + 1) → Kid) :
    ∃ r, summary h n (n.map g) = .ok r := by
  obtain ⟨e, es, rfl⟩ := List.exists_cons_of_ne_nil hn
  exact ⟨_, rfl⟩

theorem kidLeaf_of {e : Nat × Sub V 1} (hd : Head L rd 0 e) : kidLeaf L rd e = .ok (kidOk 0 e) := by
  obtain ⟨k, hk, hle⟩ := hd.key
  obtain ⟨l, hl⟩ := getLast_ne hd.ne
  have h1 := nodeCheck_iff.mpr ⟨⟨hd.min, hd.max⟩, k, hk, hle⟩
  unfold kidLeaf
  rw [hd.readable, h1, hk, hl]
  simp only [Bool.not_true, Bool.false_eq_true, if_false]
  unfold kidOk lastOf
  rw [Tree.items_zero]
  simp only [kidFirst, hk, Option.getD_some]
  congr 2
  exact (congrArg (fun o : Option (Nat × V) => (o.map (·.1)).getD 0) hl).symm

theorem kidLeaf_passed {e : Nat × Sub V 1} {k : Kid} (h : kidLeaf L rd e = .ok k)
    (hp : k.passed = true) : k = kidOk 0 e ∧ Head L rd 0 e := by
  have h0 := h
  unfold kidLeaf at h
  split at h
  · cases h
  · next hr =>
    split at h <;> try cases h
    next ok f l h1 h2 h3 =>
    have hp : ok = true := hp
    subst hp
    obtain ⟨⟨a, b⟩, c⟩ := nodeCheck_iff.mp h1
    have hd : Head L rd 0 e := ⟨by simpa using hr, a, b, c⟩
    exact ⟨Res.ok.inj (h0.symm.trans (kidLeaf_of hd)), hd⟩

theorem last_of_runs {h : Nat} {n : Node V (h + 1)} (hn : n ≠ [])
    (hi : ∀ e ∈ n, items h e.2.kids ≠ []) (hr : Runs h 0 n) :
    (sorted 0 (n.map (kidOk h))).2 = lastOf (h + 1) n := by
  obtain ⟨x, hx⟩ := getLast_ne hn
  rw [(sorted_map n 0).2 hr, hx, lastOf_last hi hx]

/-- A node passes just if it is as described, and then its last key is that of its last item. -/
theorem checkR_iff : ∀ (h : Nat) (n : Node V (h + 1)),
    (∀ r, checkR L rd h n = .ok r → r.passed = true → Passed L rd h n) ∧
    (Passed L rd h n → ∃ r, checkR L rd h n = .ok r ∧ r.passed = true) ∧
    (∀ r, checkR L rd h n = .ok r → (∀ lo hi, (lo ≤ r.start ∧ r.stop ≤ hi) ↔ Covered lo hi (h + 1) n) ∧
      (r.passed = true → r.last = lastOf (h + 1) n))
  | 0, n => by
    have key : ∀ {ks : List Kid}, collect (kidLeaf L rd) n = .ok ks →
        (∀ k ∈ ks, k.passed = true) → ks = n.map (kidOk 0) ∧ ∀ e ∈ n, Head L rd 0 e :=
      fun h1 h2 => collect_passed h1 h2 (fun a _ k h3 h4 => kidLeaf_passed h3 h4)
    have fwd : ∀ r, checkR L rd 0 n = .ok r → r.passed = true → Passed L rd 0 n ∧
        r.last = lastOf 1 n := by
      intro r hr hp
      unfold checkR at hr
      split at hr <;> try cases hr
      next ks hks =>
      obtain ⟨h1, h2, h3, -⟩ := summary_spec hr
      rw [h2, Bool.and_eq_true, List.all_eq_true] at hp
      obtain ⟨rfl, h4⟩ := key hks hp.1
      have hruns := (sorted_map n 0).1.mp hp.2
      refine ⟨⟨h1, hruns, h4⟩, ?_⟩
      rw [h3]
      exact last_of_runs h1 (fun e he => by rw [Tree.items_zero]; exact (h4 e he).ne) hruns
    refine ⟨fun r h1 h2 => (fwd r h1 h2).1, ?_, ?_⟩
    · intro hp
      obtain ⟨r, hr⟩ := summary_some hp.ne (kidOk 0)
      refine ⟨r, ?_, ?_⟩
      · unfold checkR
        rw [collect_of (g := kidOk 0) (fun e he => kidLeaf_of (hp.head he))]
        exact hr
      · rw [(summary_spec hr).2.1, (sorted_map n 0).1.mpr hp.runs]
        simp [kidOk]
    · intro r hr
      refine ⟨?_, fun h2 => (fwd r hr h2).2⟩
      unfold checkR at hr
      split at hr <;> try cases hr
      exact (summary_spec hr).2.2.2
  | h + 1, n => by
    have ih := checkR_iff h
    have kid : ∀ (e : Nat × Sub V (h + 2)) (k : Kid), kidInt L rd h (checkR L rd h) e = .ok k →
        k.passed = true → k = kidOk (h + 1) e ∧ Head L rd (h + 1) e ∧ Passed L rd h e.2.kids ∧
          Covered e.2.info.start e.2.info.stop (h + 1) e.2.kids := by
      intro e k hk hp
      unfold kidInt at hk
      split at hk
      · cases hk
      · next hr =>
        split at hk
        · cases hk
        · next ok h1 =>
          split at hk <;> try cases hk
          next r hr2 =>
          obtain ⟨ih1, -, ih3⟩ := ih e.2.kids
          split at hk
          · cases hk; cases hp
          · next htx =>
            cases hk
            simp only [Bool.and_eq_true] at hp
            obtain ⟨hp1, rfl⟩ := hp
            obtain ⟨⟨a, b⟩, c⟩ := nodeCheck_iff.mp h1
            simp only [Bool.or_eq_true, decide_eq_true_eq, not_or, Nat.not_lt, gt_iff_lt] at htx
            refine ⟨?_, ⟨by simpa using hr, a, b, c⟩, ih1 r hr2 hp1, ((ih3 r hr2).1 _ _).mp htx⟩
            rw [(ih3 r hr2).2 hp1, hp1]
            rfl
    have back : ∀ (e : Nat × Sub V (h + 2)), Head L rd (h + 1) e → Passed L rd h e.2.kids →
          Covered e.2.info.start e.2.info.stop (h + 1) e.2.kids →
          kidInt L rd h (checkR L rd h) e = .ok (kidOk (h + 1) e) := by
      intro e hd hp hc
      obtain ⟨ih1, ih2, ih3⟩ := ih e.2.kids
      obtain ⟨r, hr, hrp⟩ := ih2 hp
      have htx := ((ih3 r hr).1 _ _).mpr hc
      unfold kidInt
      rw [hd.readable, nodeCheck_iff.mpr ⟨⟨hd.min, hd.max⟩, hd.key⟩]
      simp only [Bool.not_true, Bool.false_eq_true, if_false, hr]
      rw [if_neg (by simp; omega), (ih3 r hr).2 hrp, hrp]
      rfl
    have key : ∀ {ks : List Kid}, collect (kidInt L rd h (checkR L rd h)) n = .ok ks →
        (∀ k ∈ ks, k.passed = true) → ks = n.map (kidOk (h + 1)) ∧ ∀ e ∈ n, Head L rd (h + 1) e ∧
          Passed L rd h e.2.kids ∧ Covered e.2.info.start e.2.info.stop (h + 1) e.2.kids :=
      fun h1 h2 => collect_passed h1 h2 (fun a _ k h3 h4 => kid a k h3 h4)
    have fwd : ∀ r, checkR L rd (h + 1) n = .ok r → r.passed = true → Passed L rd (h + 1) n ∧
        r.last = lastOf (h + 2) n := by
      intro r hr hp
      unfold checkR at hr
      split at hr <;> try cases hr
      next ks hks =>
      obtain ⟨h1, h2, h3, -⟩ := summary_spec hr
      rw [h2, Bool.and_eq_true, List.all_eq_true] at hp
      obtain ⟨rfl, h4⟩ := key hks hp.1
      have hruns := (sorted_map n 0).1.mp hp.2
      refine ⟨⟨h1, hruns, h4⟩, ?_⟩
      rw [h3]
      exact last_of_runs h1 (fun e he => items_ne h (h4 e he).2.1) hruns
    refine ⟨fun r h1 h2 => (fwd r h1 h2).1, ?_, ?_⟩
    · intro hp
      obtain ⟨r, hr⟩ := summary_some hp.ne (kidOk (h + 1))
      refine ⟨r, ?_, ?_⟩
      · unfold checkR
        rw [collect_of (g := kidOk (h + 1))
          (fun e he => back e (hp.2.2 e he).1 (hp.2.2 e he).2.1 (hp.2.2 e he).2.2)]
        exact hr
      · rw [(summary_spec hr).2.1, (sorted_map n 0).1.mpr hp.runs]
        simp [kidOk]
    · intro r hr
      refine ⟨?_, fun h2 => (fwd r hr h2).2⟩
      unfold checkR at hr
      split at hr <;> try cases hr
      exact (summary_spec hr).2.2.2

end Verif.Check
