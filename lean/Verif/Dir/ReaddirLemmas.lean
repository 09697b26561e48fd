import Verif.Dir.Lemmas

/-! Lemmas about `readdir`. -/

namespace Verif.Dir
open OMap

variable {α N : Type}

@[simp] theorem items_single (a : α) : (Val.single a).items = [a] := rfl
@[simp] theorem items_bucket (l : List α) : (Val.bucket l).items = l := rfl

theorem curOffset_mk {o i : Nat} (ho : o < 2 ^ 56) (hi : i < 256) : curOffset (mkCursor o i) = o := by
  simp only [curOffset, mkCursor]; omega

theorem curIdx_mk {o i : Nat} (_ : o < 2 ^ 56) (hi : i < 256) : curIdx (mkCursor o i) = i := by
  simp only [curIdx, mkCursor]; omega

/-- In a sorted list, the items from the key of a suffix on are that suffix. -/
theorem rangeFrom_append {V : Type} {pre m : OMap V} {k : Nat}
    (h1 : ∀ e ∈ pre, e.1 < k) (h2 : ∀ e ∈ m, k ≤ e.1) : rangeFrom (pre ++ m) k = m := by
  simp only [rangeFrom, List.filter_append]
  rw [List.filter_eq_nil_iff.2 (by intro e he; have := h1 e he; simp; omega),
    List.filter_eq_self.2 (by intro e he; have := h2 e he; simp; omega)]
  rfl

theorem readdir_zero (t : Table α) : readdir t 0 = stream t 0 := by
  simp [readdir, curOffset, curIdx, rangeFrom]

theorem popBucket_items (k : Nat) (l : List α) (r : Nat) : (popBucket k l r).map (·.1) = l := by
  fun_induction popBucket k l r <;> simp_all

theorem stream_items (m : OMap (Val α)) :
    (stream m 0).map (·.1) = m.flatMap (fun e => e.2.items.reverse) := by
  induction m with
  | nil => rfl
  | cons e m ih =>
    obtain ⟨k, v⟩ := e
    cases v with
    | single d => simp [stream, ih]
    | bucket b => simp [stream, ih, popBucket_items]

/-- Resuming from the cursor of any entry yields exactly the entries after it,
if no bucket has more than two entries. -/
theorem resume (pre m : OMap (Val α)) (h : Sorted (pre ++ m))
    (hk : ∀ e ∈ m, e.1 + 1 < 2 ^ 56) (hb : ∀ e ∈ m, e.2.items.length ≤ 2)
    (i : Nat) (d : α) (c : Nat) (hi : (stream m 0)[i]? = some (d, c)) :
    readdir (pre ++ m) c = (stream m 0).drop (i + 1) := by
  induction m generalizing pre i with
  | nil => simp [stream] at hi
  | cons e m ih =>
    obtain ⟨k, v⟩ := e
    have hsplit := List.pairwise_append.1 h
    have hlo : ∀ e ∈ pre, e.1 < k := fun e he => hsplit.2.2 e he (k, v) (by simp)
    have hhi : ∀ e ∈ m, k < e.1 := fun e he => (List.pairwise_cons.1 hsplit.2.1).1 e he
    have hkk := hk (k, v) (by simp)
    have hbb := hb (k, v) (by simp)
    simp only at hkk hbb
    have h' : Sorted ((pre ++ [(k, v)]) ++ m) := by simpa using h
    have happ : pre ++ (k, v) :: m = (pre ++ [(k, v)]) ++ m := by simp
    -- resuming after everything under `k`
    have hnext : readdir (pre ++ (k, v) :: m) (mkCursor (k + 1) 0) = stream m 0 := by
      simp only [readdir]
      rw [curOffset_mk (by omega) (by omega), curIdx_mk (by omega) (by omega), happ,
        rangeFrom_append]
      · intro e he
        simp at he
        rcases he with he | rfl
        · have := hlo e he; omega
        · simp
      · intro e he; have := hhi e he; omega
    have hrec : ∀ j, (stream m 0)[j]? = some (d, c) →
        readdir (pre ++ (k, v) :: m) c = (stream m 0).drop (j + 1) := by
      intro j hj
      rw [happ]
      exact ih (pre ++ [(k, v)]) h' (fun e he => hk e (by simp [he]))
        (fun e he => hb e (by simp [he])) j hj
    cases v with
    | single a =>
      simp only [stream] at hi ⊢
      cases i with
      | zero =>
        simp at hi
        rw [← hi.2, hnext]; rfl
      | succ j =>
        simp at hi
        rw [hrec j hi]; rfl
    | bucket l =>
      simp only [Val.items] at hbb
      simp only [stream, List.drop_zero] at hi ⊢
      match l, hbb with
      | [], _ =>
        simp only [List.reverse_nil, popBucket, List.nil_append] at hi ⊢
        exact hrec i hi
      | [a], _ =>
        simp only [List.reverse_cons, List.reverse_nil, List.nil_append, popBucket,
          List.cons_append] at hi ⊢
        cases i with
        | zero => simp at hi; rw [← hi.2, hnext]; rfl
        | succ j => simp at hi; rw [hrec j hi]; rfl
      | [a, b], _ =>
        simp only [List.reverse_cons, List.reverse_nil, List.nil_append, popBucket,
          List.cons_append] at hi ⊢
        cases i with
        | zero =>
          simp at hi
          rw [← hi.2]
          simp only [readdir]
          rw [curOffset_mk (by omega) (by omega), curIdx_mk (by omega) (by omega),
            rangeFrom_append hlo (by
              intro e he; simp at he
              rcases he with rfl | he
              · simp
              · have := hhi e he; omega)]
          simp [stream, popBucket]
        | succ j =>
          cases j with
          | zero => simp at hi; rw [← hi.2, hnext]; rfl
          | succ j => simp at hi; rw [hrec j hi]; rfl

theorem pages_eq (t : Table α) (h : Sorted t)
    (hk : ∀ e ∈ t, e.1 + 1 < 2 ^ 56) (hb : ∀ e ∈ t, e.2.items.length ≤ 2)
    (sizes : List Nat) : ∀ (i c : Nat), readdir t c = (stream t 0).drop i →
    pages t c sizes = (((stream t 0).drop i).map (·.1)).take sizes.sum := by
  induction sizes with
  | nil => intro i c _; simp [pages]
  | cons s ss ih =>
    intro i c hc
    simp only [pages, hc, List.sum_cons]
    generalize hF : stream t 0 = F at *
    by_cases hne : (F.drop i).take s = []
    · rw [hne]
      simp only [List.map_nil, List.getLast?_nil, Option.map_none, Option.getD_none,
        List.nil_append]
      rw [ih i c hc]
      by_cases hs : s = 0
      · subst hs; simp
      · have : F.drop i = [] := by
          rcases List.take_eq_nil_iff.1 hne with h | h
          · exact absurd h hs
          · exact h
        rw [this]; simp
    · have hlen : 0 < ((F.drop i).take s).length := List.length_pos_iff.2 hne
      simp only [List.length_take, List.length_drop] at hlen
      -- the last entry of the page
      let j := min s (F.length - i) - 1
      have hj : i + j < F.length := by show i + (min s (F.length - i) - 1) < _; omega
      have hlast : ((F.drop i).take s).getLast? = some F[i + j] := by
        rw [List.getLast?_eq_getElem?, List.length_take, List.length_drop,
          List.getElem?_take, if_pos (by omega), List.getElem?_drop, List.getElem?_eq_getElem]
      rw [hlast]
      simp only [Option.map_some, Option.getD_some]
      have hr : readdir t F[i + j].2 = F.drop (i + j + 1) := by
        have := resume [] t (by simpa using h) hk hb (i + j) F[i + j].1 F[i + j].2
          (by rw [hF, List.getElem?_eq_getElem hj])
        rw [hF] at this
        simpa using this
      rw [ih (i + j + 1) _ hr]
      rw [← List.map_take, ← List.map_take, ← List.map_append]
      congr 1
      by_cases hsl : s ≤ F.length - i
      · have hjs : i + j + 1 = i + s := by
          show i + (min s (F.length - i) - 1) + 1 = _; omega
        rw [hjs, ← List.drop_drop, List.take_add]
      · have hjs : F.length ≤ i + j + 1 := by
          show _ ≤ i + (min s (F.length - i) - 1) + 1; omega
        rw [List.drop_eq_nil_of_le hjs, List.take_nil, List.append_nil,
          List.take_of_length_le (by simp; omega), List.take_of_length_le (by simp; omega)]

/-! ### Pages while the directory changes -/

/-- A table without hash collisions, and hashes below the last one. -/
structure Plain (name : α → N) (hash : N → Nat) (t : Table α) : Prop where
  sorted : Sorted t
  single : ∀ e ∈ t, ∃ a, e.2 = .single a ∧ hash (name a) = e.1
  small : ∀ e ∈ t, e.1 + 1 < 2 ^ 56

theorem stream_plain {name : α → N} {hash : N → Nat} {m : OMap (Val α)} (h : Plain name hash m)
    (skip : Nat) :
    stream m skip = (m.flatMap (·.2.items)).map fun a => (a, mkCursor (hash (name a) + 1) 0) := by
  induction m with
  | nil => rfl
  | cons e m ih =>
    obtain ⟨k, v⟩ := e
    obtain ⟨a, ha, hk⟩ := h.single (k, v) (by simp)
    simp only at ha hk; subst ha
    simp only [stream, List.flatMap_cons, items_single, List.cons_append, List.nil_append,
      List.map_cons, hk]
    rw [ih ⟨h.sorted.tail, fun e he => h.single e (by simp [he]), fun e he => h.small e (by simp [he])⟩]

theorem plain_items_sorted {name : α → N} {hash : N → Nat} {m : OMap (Val α)}
    (h : Plain name hash m) :
    (m.flatMap (·.2.items)).Pairwise (fun a b => hash (name a) < hash (name b)) := by
  induction m with
  | nil => simp
  | cons e m ih =>
    obtain ⟨k, v⟩ := e
    obtain ⟨a, ha, hk⟩ := h.single (k, v) (by simp)
    simp only at ha hk; subst ha
    have h' : Plain name hash m := ⟨h.sorted.tail, fun e he => h.single e (by simp [he]),
      fun e he => h.small e (by simp [he])⟩
    simp only [List.flatMap_cons, items_single, List.cons_append, List.nil_append,
      List.pairwise_cons]
    refine ⟨?_, ih h'⟩
    intro b hb
    rw [List.mem_flatMap] at hb
    obtain ⟨e, he, hb⟩ := hb
    obtain ⟨b', hb', hkb⟩ := h'.single e he
    rw [hb'] at hb
    simp at hb; subst hb
    have := (List.pairwise_cons.1 h.sorted).1 e he
    simp only at this
    omega

theorem plain_rangeFrom {name : α → N} {hash : N → Nat} {t : Table α} (h : Plain name hash t)
    (k : Nat) : Plain name hash (t.rangeFrom k) :=
  ⟨h.sorted.rangeFrom k, fun e he => h.single e (List.mem_filter.1 he).1,
    fun e he => h.small e (List.mem_filter.1 he).1⟩

/-- Did the client see the end of the directory? -/
def reachesEnd : (c : Nat) → List (Table α × Nat) → Prop
  | _, [] => False
  | c, (t, s) :: ss =>
    let p := (readdir t c).take s
    (readdir t c).length < s ∨ reachesEnd ((p.getLast?.map (·.2)).getD c) ss

theorem pagesDyn_spec {name : α → N} {hash : N → Nat} (ss : List (Table α × Nat)) :
    ∀ (o : Nat), o < 2 ^ 56 → (∀ p ∈ ss, Plain name hash p.1) →
    (pagesDyn (mkCursor o 0) ss).Pairwise (fun a b => hash (name a) < hash (name b)) ∧
    (∀ a ∈ pagesDyn (mkCursor o 0) ss, o ≤ hash (name a)) ∧
    (reachesEnd (mkCursor o 0) ss → ∀ a, (∀ p ∈ ss, (hash (name a), Val.single a) ∈ p.1) →
      o ≤ hash (name a) → a ∈ pagesDyn (mkCursor o 0) ss) := by
  induction ss with
  | nil => intro o _ _; simp [pagesDyn, reachesEnd]
  | cons p ss ih =>
    intro o ho hpl
    obtain ⟨t, s⟩ := p
    have ht : Plain name hash t := hpl (t, s) (by simp)
    have hrd : readdir t (mkCursor o 0) =
        ((t.rangeFrom o).flatMap (·.2.items)).map fun a => (a, mkCursor (hash (name a) + 1) 0) := by
      simp only [readdir, curOffset_mk ho (show 0 < 256 by omega),
        curIdx_mk ho (show 0 < 256 by omega)]
      exact stream_plain (plain_rangeFrom ht o) 0
    simp only [pagesDyn, reachesEnd, hrd, ← List.map_take, List.map_map]
    have hid : ((fun x : α × Nat => x.1) ∘ fun a => (a, mkCursor (hash (name a) + 1) 0)) =
        (fun a : α => a) := by funext a; rfl
    rw [hid, List.map_id']
    have hsorted := plain_items_sorted (plain_rangeFrom ht o)
    have hlow : ∀ a ∈ (t.rangeFrom o).flatMap (·.2.items), o ≤ hash (name a) ∧
        hash (name a) + 1 < 2 ^ 56 := by
      intro a ha
      rw [List.mem_flatMap] at ha
      obtain ⟨e, he, ha⟩ := ha
      obtain ⟨a', ha', hk⟩ := (plain_rangeFrom ht o).single e he
      rw [ha'] at ha; simp at ha; subst ha
      have h1 := (List.mem_filter.1 he).2
      have h2 := (plain_rangeFrom ht o).small e he
      simp at h1
      omega
    have hmemI : ∀ a, (hash (name a), Val.single a) ∈ t → o ≤ hash (name a) →
        a ∈ (t.rangeFrom o).flatMap (·.2.items) := by
      intro a ha hoa
      rw [List.mem_flatMap]
      refine ⟨_, List.mem_filter.2 ⟨ha, by simpa using hoa⟩, by simp⟩
    generalize (t.rangeFrom o).flatMap (·.2.items) = I at hsorted hlow hmemI
    cases hl : (I.take s).getLast? with
    | none =>
      rw [List.getLast?_map, hl]
      simp only [Option.map_none, Option.getD_none]
      have hnil : I.take s = [] := List.getLast?_eq_none_iff.1 hl
      obtain ⟨h1, h2, h3⟩ := ih o ho (fun p hp => hpl p (by simp [hp]))
      rw [hnil]
      refine ⟨by simpa using h1, by simpa using h2, ?_⟩
      intro hend a ha hoa
      simp only [List.nil_append]
      rcases hend with hend | hend
      · exfalso
        have : a ∈ I := hmemI a (ha (t, s) (by simp)) hoa
        rcases List.take_eq_nil_iff.1 hnil with h | h
        · simp at hend; omega
        · rw [h] at this; simp at this
      · exact h3 hend a (fun p hp => ha p (by simp [hp])) hoa
    | some z =>
      rw [List.getLast?_map, hl]
      simp only [Option.map_some, Option.getD_some]
      have hne : I.take s ≠ [] := by intro he; rw [he] at hl; simp at hl
      have hdl : I.take s = (I.take s).dropLast ++ [z] := by
        have := List.dropLast_append_getLast hne
        rw [List.getLast?_eq_some_getLast hne] at hl
        simp at hl
        rw [← hl, this]
      have hzI : z ∈ I := List.mem_of_mem_take (by rw [hdl]; simp)
      have hzs := hlow z hzI
      obtain ⟨h1, h2, h3⟩ := ih (hash (name z) + 1) hzs.2 (fun p hp => hpl p (by simp [hp]))
      have htake : (I.take s).Pairwise (fun a b => hash (name a) < hash (name b)) :=
        hsorted.sublist (List.take_sublist s I)
      have hle : ∀ a ∈ I.take s, hash (name a) ≤ hash (name z) := by
        intro a ha
        rw [hdl] at ha htake
        simp only [List.mem_append, List.mem_singleton] at ha
        rcases ha with ha | rfl
        · exact Nat.le_of_lt ((List.pairwise_append.1 htake).2.2 a ha z (by simp))
        · exact Nat.le_refl _
      refine ⟨?_, ?_, ?_⟩
      · rw [List.pairwise_append]
        refine ⟨htake, h1, ?_⟩
        intro a ha b hb
        have := hle a ha
        have := h2 b hb
        omega
      · intro a ha
        rw [List.mem_append] at ha
        rcases ha with ha | ha
        · exact (hlow a (List.mem_of_mem_take ha)).1
        · have := h2 a ha; omega
      · intro hend a ha hoa
        rw [List.mem_append]
        have haI : a ∈ I := hmemI a (ha (t, s) (by simp)) hoa
        rcases hend with hend | hend
        · left
          simp only [List.length_map] at hend
          rw [List.take_of_length_le (by omega)]; exact haI
        · by_cases haz : hash (name z) + 1 ≤ hash (name a)
          · exact Or.inr (h3 hend a (fun p hp => ha p (by simp [hp])) haz)
          · left
            -- `a` is in `I` at or before `z`
            have hIs : I.take s ++ I.drop s = I := List.take_append_drop s I
            rw [← hIs, List.mem_append] at haI
            rcases haI with haI | haI
            · exact haI
            · exfalso
              rw [← hIs, List.pairwise_append] at hsorted
              have := hsorted.2.2 z (by rw [hdl]; simp) a haI
              omega

end Verif.Dir
