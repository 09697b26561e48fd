import Verif.Tree.RangeTotal

/-!
# The second pass of range deletion returns, and removal from thin trees
-/

namespace Verif.Tree

variable {V : Type}

/-- Limits with room for the second pass of `range_delete` (`node.rs:744-748`). -/
structure Limits.Roomy (L : Limits) : Prop extends L.Ok where
  room : 2 * L.minInt + 1 ≤ L.maxInt

/-- What `fix_int` leaves: the fixed child has grown, and nothing is too large. -/
theorem Fixed.grown {L : Limits} (hL : L.Ok) {h : Nat} {pre post : Node V (h + 1)}
    {a : Nat × Sub V (h + 1)} {r : Node V (h + 1) × Nat × Nat} (hf : Fixed L pre a post r)
    {lo hi} (hc : Chain (Bounded (h + 1)) lo hi (pre ++ a :: post))
    (ha : 2 * (kid a).length ≤ L.max h + 1) :
    ∃ pre' e' post', r.1 = pre' ++ e' :: post' ∧ r.2.1 ≤ pre.length ∧ r.2.1 ≤ 1 ∧
      pre'.length = pre.length - r.2.1 ∧
      r.1.length + r.2.1 + r.2.2 = (pre ++ a :: post).length ∧
      (kid a).length < (kid e').length ∧
      (r.2.1 = 0 ∧ r.2.2 = 0 → L.max h ≤ 2 * (kid e').length) ∧
      (Small L (h + 1) (pre ++ a :: post) → Small L (h + 1) r.1) := by
  have hmin := hL.min_pos h
  have htwo := hL.two h
  cases hf with
  | mergeR _ _ s post i hmax =>
    have hs : kid s ≠ [] := (chain_mid.mp hc).2.2.2.2.2.2.1.1
    have := List.length_pos_iff.mpr hs
    refine ⟨pre, _, post, rfl, Nat.zero_le _, by simp, rfl, by simp; omega, ?_, by simp, ?_⟩
    · show _ < (kid a ++ kid s).length
      rw [List.length_append]; omega
    · intro hn x hx
      simp only [List.mem_append, List.mem_cons] at hx
      rcases hx with hx | rfl | hx
      · exact hn x (by simp [hx])
      · refine small_el (by rw [List.length_append]; omega) fun y hy => ?_
        rcases List.mem_append.mp hy with hy | hy
        · exact (hn a (by simp)).2.2 y hy
        · exact (hn s (by simp)).2.2 y hy
      · exact hn x (by simp [hx])
  | stealR _ _ s post n l x q i1 i2 hmax hn heq hl hq =>
    have hk := keysToShare_bound hn
    refine ⟨pre, _, _, rfl, Nat.zero_le _, by simp, rfl, by simp, ?_, ?_, ?_⟩
    · show _ < l.length
      omega
    · intro _
      show _ ≤ 2 * l.length
      omega
    · intro hn y hy
      have hal := (hn a (by simp)).2.2
      have hsl := hn s (by simp)
      have hs2 : (kid s).length ≤ L.max h := hsl.2.1
      have hall : ∀ y ∈ l ++ x :: q, SizedSub (fun _ => 0) L h y.2 := by
        rw [← heq]
        intro y hy
        rcases List.mem_append.mp hy with hy | hy
        · exact hal y hy
        · exact hsl.2.2 y hy
      simp only [List.mem_append, List.mem_cons] at hy
      rcases hy with hy | rfl | rfl | hy
      · exact hn y (by simp [hy])
      · exact small_el (by omega) fun y hy => hall y (List.mem_append_left _ hy)
      · exact small_el (by rw [List.length_cons]; omega)
          fun y hy => hall y (List.mem_append_right _ hy)
      · exact hn y (by simp [hy])
  | mergeL pre s _ i hmax =>
    have hc' : Chain (Bounded (h + 1)) lo hi (pre ++ s :: a :: []) := by simpa using hc
    have hs : kid s ≠ [] := (chain_mid.mp hc').2.2.2.1.1
    have := List.length_pos_iff.mpr hs
    refine ⟨pre, _, [], rfl, by simp, by simp, by simp, by simp, ?_, by simp, ?_⟩
    · show _ < (kid s ++ kid a).length
      rw [List.length_append]; omega
    · intro hn x hx
      simp only [List.mem_append, List.mem_singleton] at hx
      rcases hx with hx | rfl
      · exact hn x (by simp [hx])
      · refine small_el (by rw [List.length_append]; omega) fun y hy => ?_
        rcases List.mem_append.mp hy with hy | hy
        · exact (hn s (by simp)).2.2 y hy
        · exact (hn a (by simp)).2.2 y hy
  | stealL pre s _ n l x q i1 i2 hmax hn heq hl hq =>
    have hk := keysToShare_bound hn
    refine ⟨pre ++ [el s.1 i1 l], _, [], by simp; rfl, by simp, by simp, by simp, by simp, ?_, ?_, ?_⟩
    · show _ < (x :: q).length
      rw [List.length_cons]; omega
    · intro _
      show _ ≤ 2 * (x :: q).length
      rw [List.length_cons]; omega
    · intro hn y hy
      have hal := (hn a (by simp)).2.2
      have hsl := hn s (by simp)
      have hs2 : (kid s).length ≤ L.max h := hsl.2.1
      have hall : ∀ y ∈ l ++ x :: q, SizedSub (fun _ => 0) L h y.2 := by
        rw [← heq]
        intro y hy
        rcases List.mem_append.mp hy with hy | hy
        · exact hsl.2.2 y hy
        · exact hal y hy
      simp only [List.mem_append, List.mem_cons, List.not_mem_nil, or_false] at hy
      rcases hy with hy | rfl | rfl
      · exact hn y (by simp [hy])
      · exact small_el (by omega) fun y hy => hall y (List.mem_append_left _ hy)
      · exact small_el (by rw [List.length_cons]; omega)
          fun y hy => hall y (List.mem_append_right _ hy)

theorem lock_small {L : Limits} {h : Nat} {pre post : Node V (h + 1)} {e : Nat × Sub V (h + 1)}
    {i : Meta} (hn : Small L (h + 1) (pre ++ e :: post)) :
    Small L (h + 1) (pre ++ el e.1 i (kid e) :: post) := by
  have := hn e (by simp)
  exact small_mid hn this

/-- How many more times a child of this size may have to steal from its sibling. -/
def steals (L : Limits) : (h : Nat) → Nat → Nat
  | 0, c => if c < L.minLeaf then 1 else 0
  | _ + 1, c => if c ≤ L.minInt then 2 else if c ≤ L.minInt + 1 then 1 else 0

theorem steals_le (L : Limits) (h c : Nat) : steals L h c ≤ 2 := by
  cases h <;> unfold steals <;> repeat' split
  all_goals omega

/-- A child that is to be fixed is small enough for `fix_int`, and stealing brings it on. -/
theorem pass2Underflow_spec {L : Limits} (hL : L.Roomy) {h : Nat} {n : Node V h} {common : Bool}
    (hu : pass2Underflow L h n common = true) : 2 * n.length ≤ L.max h + 1 ∧
      (∀ c, n.length < c → steals L h c ≤ steals L h n.length) ∧
      ∀ c, n.length < c → L.max h ≤ 2 * c → steals L h c < steals L h n.length := by
  have h1 := hL.room
  have h2 := hL.leaf
  have h3 := hL.leaf_pos
  cases h with
  | zero =>
    have hu : n.length < L.minLeaf := of_decide_eq_true hu
    simp only [Limits.max, steals]
    refine ⟨by omega, fun c hc => ?_, fun c hc hm => ?_⟩
    · repeat' split
      all_goals omega
    · repeat' split
      all_goals omega
  | succ h =>
    have hle : n.length ≤ L.minInt + 1 := by
      simp only [pass2Underflow] at hu
      split at hu
      · exact of_decide_eq_true hu
      · have : n.length ≤ L.minInt := of_decide_eq_true hu
        omega
    simp only [Limits.max, steals]
    refine ⟨by omega, fun c hc => ?_, fun c hc hm => ?_⟩
    · repeat' split
      all_goals omega
    · repeat' split
      all_goals omega

/-- The loop that fixes the left child ends. -/
theorem fixLeft_total {L : Limits} (hL : L.Roomy) {txg h : Nat} {left : Nat} {hasRight : Bool}
    {lo hi} : ∀ (fuel : Nat) {pre post : Node V (h + 1)} {e : Nat × Sub V (h + 1)} {mb mm : Nat}
      {stole : Bool}, Chain (Bounded (h + 1)) lo hi (pre ++ e :: post) →
      mb ≤ left → pre.length = left - mb →
      (pre ++ e :: post).length + steals L h (kid e).length ≤ fuel →
      ∃ pre' e' post' mb' mm',
        fixLeft L txg h left hasRight fuel (pre ++ e :: post) (kid e) mb mm stole =
          some (pre' ++ e' :: post', kid e', mb', mm') ∧
        Chain (Bounded (h + 1)) lo hi (pre' ++ e' :: post') ∧
        mb' ≤ left ∧ pre'.length = left - mb' ∧
        (pre' ++ e' :: post').length + mb' + mm' = (pre ++ e :: post).length + mb + mm ∧
        (Small L (h + 1) (pre ++ e :: post) → Small L (h + 1) (pre' ++ e' :: post')) := by
  intro fuel
  induction fuel with
  | zero =>
    intro pre post e mb mm stole _ _ _ hfuel
    simp only [List.length_append, List.length_cons] at hfuel
    omega
  | succ fuel ih =>
    intro pre post e mb mm stole hc hmb hpre hfuel
    simp only [fixLeft]
    split
    · exact ⟨pre, e, post, mb, mm, rfl, hc, hmb, hpre, rfl, fun h => h⟩
    · next hcond =>
      simp only [Bool.or_eq_true, Bool.not_eq_true', decide_eq_true_eq, not_or, Bool.not_eq_false,
        Nat.not_le] at hcond
      obtain ⟨hu, hlen⟩ := hcond
      obtain ⟨hsz, hmono, hsteal⟩ := pass2Underflow_spec hL hu
      have hmax2 : 2 ≤ L.max h := by
        have := hL.two h; have := hL.min_pos h; omega
      rw [if_neg (by omega), ← hpre]
      obtain ⟨⟨n1, nmb, nma⟩, hf⟩ := fixInt_total (L := L) (txg := txg) (a := e)
        (show 2 ≤ (pre ++ e :: post).length by omega) hsz hmax2
      have hfc := fixInt_cases hf
      have hfo := hfc.order hL.toOk hc
      obtain ⟨pre1, e1, post1, hn1, hb1, hb1', hp1, hl1, hg1, hst1, hsm1⟩ := hfc.grown hL.toOk hc hsz
      simp only at hn1 hb1 hp1 hl1 hst1 hsm1 hfo
      subst hn1
      rw [hf]
      simp only [Option.bind_some]
      rw [if_neg (by omega), ← hp1, xlock_mid]
      simp only [Option.bind_some]
      have hc2 := (info_mid (i := lockInfo txg e1) hfo.1).chain
      have hdec : (pre1 ++ el e1.1 (lockInfo txg e1) (kid e1) :: post1).length +
          steals L h (kid e1).length ≤ fuel := by
        have hmono := hmono _ hg1
        have hst : nmb = 0 ∧ nma = 0 → steals L h (kid e1).length < steals L h (kid e).length :=
          fun h0 => hsteal _ hg1 (hst1 h0)
        simp only [List.length_append, List.length_cons] at hl1 hfuel ⊢
        by_cases h0 : nmb = 0 ∧ nma = 0
        · have := hst h0; omega
        · omega
      obtain ⟨pre', e', post', mb', mm', r1, r2, r3, r4, r5, r6⟩ :=
        ih (e := el e1.1 (lockInfo txg e1) (kid e1)) (mb := mb + nmb) (mm := mm + nma)
          (stole := decide (nma = 0 ∧ nmb = 0) || stole) hc2 (by omega) (by omega) hdec
      refine ⟨pre', e', post', mb', mm', r1, r2, r3, r4, ?_, fun hs => r6 (lock_small (hsm1 hs))⟩
      simp only [List.length_append, List.length_cons] at r5 hl1 ⊢
      omega

theorem toFix_spec {h : Nat} {n : Node V (h + 1)} {left : Nat} {rest : List Nat}
    (ht : toFix h n = left :: rest) : left < n.length ∧
      ∀ r, rest.head? = some r → left < r ∧ r < n.length := by
  unfold toFix at ht
  have hmem : ∀ i ∈ left :: rest, i < n.length := by
    intro i hi
    rw [← ht] at hi
    have := List.mem_of_mem_take hi
    simpa using (List.mem_filter.mp this).1
  have hpw : List.Pairwise (· < ·) (left :: rest) := by
    rw [← ht]
    exact (List.Pairwise.sublist List.filter_sublist List.pairwise_lt_range).take
  refine ⟨hmem left (by simp), fun r hr => ?_⟩
  cases rest with
  | nil => simp at hr
  | cons x xs =>
    simp only [List.head?_cons, Option.some.injEq] at hr
    subst hr
    exact ⟨(List.pairwise_cons.mp hpw).1 x (by simp), hmem x (by simp)⟩

theorem clearMarks_small {L : Limits} {h : Nat} {n : Node V (h + 1)} {is : List Nat} :
    (clearMarks h n is).length = n.length ∧
      (Small L (h + 1) n → Small L (h + 1) (clearMarks h n is)) := by
  induction is generalizing n with
  | nil => exact ⟨rfl, fun h => h⟩
  | cons i is ih =>
    obtain ⟨h1, h2⟩ := ih (n := putInfo h n i fun m => { m with mark := false })
    refine ⟨h1.trans ?_, fun hn => h2 (putInfo_small hn).1⟩
    unfold putInfo
    split <;> simp

/-- The second pass returns and makes no node too large. -/
theorem pass2R_total {L : Limits} (hL : L.Roomy) (txg : Nat) :
    ∀ (h : Nat) {lo hi} {n : Node V h}, Chain (Bounded h) lo hi n → n ≠ [] →
      ∃ n', pass2R L txg h n = some n' ∧ n'.length ≤ n.length ∧
        (Small L h n → Small L h n') := by
  intro h
  induction h with
  | zero =>
    intro lo hi n hc hn
    exact ⟨n, rfl, Nat.le_refl _, fun h => h⟩
  | succ h ih =>
    intro lo hi n hc hn
    unfold pass2R
    split
    · exact ⟨n, rfl, Nat.le_refl _, fun h => h⟩
    · next left rest htf =>
      obtain ⟨hleft, hrest⟩ := toFix_spec htf
      have h0 := clearMarks_order (is := toFix h n) hc hn
      obtain ⟨hcl, hcs⟩ := clearMarks_small (L := L) (n := n) (is := toFix h n)
      generalize clearMarks h n (toFix h n) = n0 at h0 hcl hcs
      simp only
      have hl0 : left < n0.length := by omega
      obtain ⟨pre, post, hn0, hlen⟩ := mid_of_getElem? (List.getElem?_eq_getElem hl0)
      generalize n0[left] = e at hn0
      subst hn0 hlen
      rw [xlock_mid]
      simp only [Option.bind_some]
      have hc1 := (info_mid (i := lockInfo txg e) h0.chain).chain
      obtain ⟨pre', e', post', mb, mm, r1, r2, r3, r4, r5, r6⟩ :=
        fixLeft_total (txg := txg) (left := pre.length) (hasRight := rest.head?.isSome)
          (e := el e.1 (lockInfo txg e) (kid e)) (mb := 0) (mm := 0) (stole := false) hL
          ((pre ++ el e.1 (lockInfo txg e) (kid e) :: post).length + 2) hc1 (Nat.zero_le _) rfl
          (by have := steals_le L h (kid e).length; exact Nat.add_le_add_left this _)
      have r1 : fixLeft L txg h pre.length rest.head?.isSome
          ((pre ++ el e.1 (lockInfo txg e) (kid e) :: post).length + 2)
          (pre ++ el e.1 (lockInfo txg e) (kid e) :: post) (kid e) 0 0 false =
          some (pre' ++ e' :: post', kid e', mb, mm) := r1
      rw [r1]
      simp only [Option.bind_some]
      have hm := chain_mid.mp r2
      obtain ⟨c3, hp3, hlen3, hs3⟩ := ih hm.2.2.2.1.2 hm.2.2.2.1.1
      have h3 := pass2R_order hL.toOk txg h hm.2.2.2.1.2 hm.2.2.2.1.1 hp3
      have hp3 : pass2R L txg h (kid e') = some c3 := hp3
      have hlen3 : c3.length ≤ (kid e').length := hlen3
      rw [hp3]
      simp only [Option.bind_some]
      rw [← r4, putKids_mid]
      have h4 := (kids_mid (i := inf e') r2 h3).chain
      have hsm4 : Small L (h + 1) n → Small L (h + 1) (pre' ++ el e'.1 (inf e') c3 :: post') := by
        intro hs
        have h5 := r6 (lock_small (hcs hs))
        have he := h5 e' (by simp)
        exact small_mid h5 (small_el (Nat.le_trans hlen3 he.2.1) (hs3 he.2.2))
      have hlen4 : (pre' ++ el e'.1 (inf e') c3 :: post').length + mb + mm = n.length := by
        simp only [List.length_append, List.length_cons] at r5 hcl ⊢
        omega
      split
      · exact ⟨_, rfl, by omega, hsm4⟩
      · next r hr =>
        obtain ⟨hlr, hrn⟩ := hrest r hr
        split
        · next hmm =>
          rw [if_neg (by omega)]
          have hj : r - mb < (pre' ++ el e'.1 (inf e') c3 :: post').length := by omega
          have hj1 : 1 ≤ r - mb := by omega
          generalize pre' ++ el e'.1 (inf e') c3 :: post' = n4 at h4 hsm4 hlen4 hj
          obtain ⟨pre5, post5, hn5, hlen5⟩ := mid_of_getElem? (List.getElem?_eq_getElem hj)
          generalize n4[r - mb] = e5 at hn5
          rw [← hlen5] at hj hj1 ⊢
          subst hn5
          rw [xlock_mid]
          simp only [Option.bind_some]
          have h5 := (info_mid (i := lockInfo txg e5) h4).chain
          have hsm5 := fun hs => lock_small (i := lockInfo txg e5) (hsm4 hs)
          have hfix : ∃ pre6 e6 post6, (if pass2Underflow L h (kid e5) false = true then
                (fixInt L txg h (pre5 ++ el e5.1 (lockInfo txg e5) (kid e5) :: post5) pre5.length
                    (kid e5)).bind fun x : Node V (h + 1) × Nat × Nat =>
                  if pre5.length < x.2.1 then none
                  else (xlock txg h x.1 (pre5.length - x.2.1)).map
                    fun y : Node V (h + 1) × Node V h => (y.1, y.2, pre5.length - x.2.1)
              else some (pre5 ++ el e5.1 (lockInfo txg e5) (kid e5) :: post5, kid e5, pre5.length)) =
                some (pre6 ++ e6 :: post6, kid e6, pre6.length) ∧
              Chain (Bounded (h + 1)) lo hi (pre6 ++ e6 :: post6) ∧
              (pre6 ++ e6 :: post6).length ≤ n.length ∧
              (Small L (h + 1) n → Small L (h + 1) (pre6 ++ e6 :: post6)) := by
            split
            · next hu =>
              obtain ⟨hsz, -, -⟩ := pass2Underflow_spec hL hu
              have hmax2 : 2 ≤ L.max h := by
                have := hL.two h; have := hL.min_pos h; omega
              obtain ⟨⟨n7, nmb, nma⟩, hf⟩ := fixInt_total (L := L) (txg := txg)
                (a := el e5.1 (lockInfo txg e5) (kid e5)) (pre := pre5) (post := post5)
                (by simp only [List.length_append, List.length_cons]; omega) hsz hmax2
              have hfc := fixInt_cases hf
              have hfo := hfc.order hL.toOk h5
              obtain ⟨pre8, e8, post8, hn8, hb8, hb8', hp8, hl8, -, -, hsm8⟩ :=
                hfc.grown hL.toOk h5 hsz
              simp only at hn8 hb8 hp8 hl8 hsm8 hfo
              subst hn8
              have hf : fixInt L txg h (pre5 ++ el e5.1 (lockInfo txg e5) (kid e5) :: post5)
                pre5.length (kid e5) = some (pre8 ++ e8 :: post8, nmb, nma) := hf
              rw [hf]
              simp only [Option.bind_some]
              rw [if_neg (by omega), ← hp8, xlock_mid]
              simp only [Option.map_some]
              refine ⟨pre8, el e8.1 (lockInfo txg e8) (kid e8), post8, rfl,
                (info_mid hfo.1).chain, ?_, fun hs => lock_small (hsm8 (hsm5 hs))⟩
              simp only [List.length_append, List.length_cons] at hl8 hlen4 ⊢
              omega
            · refine ⟨pre5, _, post5, rfl, h5, ?_, hsm5⟩
              simp only [List.length_append, List.length_cons] at hlen4 ⊢
              omega
          obtain ⟨pre6, e6, post6, hfix, h6, hl6, hsm6⟩ := hfix
          rw [hfix]
          simp only [Option.bind_some]
          have hm6 := chain_mid.mp h6
          obtain ⟨c7, hp7, hlen7, hs7⟩ := ih hm6.2.2.2.1.2 hm6.2.2.2.1.1
          have hp7 : pass2R L txg h (kid e6) = some c7 := hp7
          rw [hp7]
          simp only [Option.map_some, putKids_mid]
          refine ⟨_, rfl, ?_, fun hs => ?_⟩
          · simp only [List.length_append, List.length_cons] at hl6 ⊢
            omega
          · have h8 := hsm6 hs
            have he := h8 e6 (by simp)
            exact small_mid h8 (small_el (Nat.le_trans hlen7 he.2.1) (hs7 he.2.2))
        · exact ⟨_, rfl, by omega, hsm4⟩

end Verif.Tree
