import Verif.Cluster.Pool

/-!
# The transactions recorded for zones

`bfffs-core/src/cluster.rs`.  A history as in `Spec.lean`, with the transaction in which each
range was written.
-/

namespace Verif.Cluster

open Verif

/-- A history with a log of the writes: the first block of each and its transaction.  As in
`Hist`, writes into zones that have been erased since are not in it. -/
structure TxgHist where
  h : Hist
  log : List (Nat × Nat)

/-- What a call adds to the log or removes from it. -/
def logStep (g : Geo) (s : TxgHist) : Op → List (Nat × Nat)
  | .write space txg =>
    match s.h.c.write g space txg with
    | some (_, some (_, lba)) => s.log ++ [(lba, txg)]
    | _ => s.log
  | .advance => s.log.filter fun x => decide (∀ z ∈ s.h.c.advance.2, g.lba2zone x.1 ≠ some z)
  | _ => s.log

/-- One call; `none` is a panic. -/
def txgStep (g : Geo) (H : Nat → List ZoneOnDisk → Nat) (s : TxgHist) (op : Op) : Option TxgHist :=
  (step g H s.h op).map fun h => ⟨h, logStep g s op⟩

/-- The transaction after a call, if it was `T` before. -/
def Op.txg (T : Nat) : Op → Nat
  | .write _ txg => txg
  | _ => T

/-- What can become of a new cluster of `n` zones until transaction `T`, if transactions follow
each other. -/
inductive InOrder (g : Geo) (H : Nat → List ZoneOnDisk → Nat) (n : Nat) : Nat → TxgHist → Prop where
  | init : InOrder g H n 0 ⟨Hist.init n, []⟩
  | step {T : Nat} {s s' : TxgHist} {op : Op} : InOrder g H n T s → op.Legal s.h →
    T ≤ op.txg T → txgStep g H s op = some s' → InOrder g H n (op.txg T) s'

/-! ## The invariant -/

/-- The recorded transactions of a zone that is open or closed include `txg`. -/
def Covers (txg : Nat) : ZState → Prop
  | .opn zn _ => zn.txgStart ≤ txg
  | .closed zn => zn.txgStart ≤ txg ∧ txg < zn.txgEnd
  | .empty => False
  | .dead => True

structure DInv (g : Geo) (n T : Nat) (s : TxgHist) : Prop where
  good : Good g n s.h
  lbas : s.log.map (·.1) = s.h.recs.map (·.lba)
  past : ∀ x ∈ s.log, x.2 ≤ T
  opened : ∀ z zn oz, s.h.c.fsm.view z = .opn zn oz → zn.txgStart ≤ T
  covers : ∀ x ∈ s.log, ∀ z, g.lba2zone x.1 = some z → Covers x.2 (s.h.c.fsm.view z)

variable {g : Geo} {n : Nat} {H : Nat → List ZoneOnDisk → Nat}

theorem Covers.kept {T txg t : Nat} {st st' : ZState} (h : Covers t st) (hk : Kept txg st st')
    (ht : t ≤ T) (hT : T ≤ txg) : Covers t st' := by
  rcases hk with rfl | ⟨zn, oz, zn', rfl, rfl, h1, h2⟩
  · exact h
  · simp only [Covers] at h ⊢
    omega

theorem opened_kept {T txg : Nat} {s : TxgHist} (I : DInv g n T s) {z : Nat} {st : ZState}
    (hk : Kept txg (s.h.c.fsm.view z) st) (hT : T ≤ txg) {zn : Zone} {oz : OpenZone}
    (h : st = .opn zn oz) : zn.txgStart ≤ txg := by
  subst h
  rcases hk with h | ⟨_, _, _, _, h, -⟩
  · exact Nat.le_trans (I.opened z zn oz h.symm) hT
  · cases h

theorem dinv_step (geo : GeoOk g n) {T : Nat} {s s' : TxgHist} {op : Op} (I : DInv g n T s)
    (hl : op.Legal s.h) (hT : T ≤ op.txg T) (hs : txgStep g H s op = some s') :
    DInv g n (op.txg T) s' := by
  obtain ⟨h', hs1, rfl⟩ := Option.map_eq_some_iff.mp hs
  clear hs
  rename _ => hs
  have G := I.good
  cases op with
  | write space txg =>
    simp only [Op.txg] at hT ⊢
    unfold step at hs
    rcases write_spec geo G hl.1 hl.2 with
      ⟨c, h, hg, -, -, hk⟩ | ⟨c, z', lba, h, hlba, hg, -, -, hk, zn, oz, ho, hcase⟩
    · simp only [h] at hs
      cases hs
      refine ⟨hg, ?_, ?_, ?_, ?_⟩ <;> simp only [logStep, h]
      · exact I.lbas
      · exact fun x hx => Nat.le_trans (I.past x hx) hT
      · exact fun z zn oz h => opened_kept I (hk z) hT h
      · exact fun x hx z hz => (I.covers x hx z hz).kept (hk z) (I.past x hx) hT
    · simp only [h] at hs
      cases hs
      refine ⟨hg, ?_, ?_, ?_, ?_⟩ <;> simp only [logStep, h]
      · simp [I.lbas]
      · intro x hx
        rcases List.mem_append.mp hx with hx | hx
        · exact Nat.le_trans (I.past x hx) hT
        · rw [List.mem_singleton.mp hx]; exact Nat.le_refl _
      · intro z zn1 oz1 h1
        by_cases e : z = z'
        · subst e
          rw [ho] at h1
          cases h1
          rcases hcase with ⟨zn', oz', h1, h2⟩ | ⟨-, h2⟩
          · have := I.opened z zn' oz' h1; omega
          · omega
        · exact opened_kept I (hk z e) hT h1
      · intro x hx z hz
        rcases List.mem_append.mp hx with hx | hx
        · have hc := I.covers x hx z hz
          by_cases e : z = z'
          · subst e
            rw [ho]
            rcases hcase with ⟨zn', oz', h1, h2⟩ | ⟨h1, -⟩
            · rw [h1] at hc
              simp only [Covers] at hc ⊢
              omega
            · rw [h1] at hc; exact hc.elim
          · exact hc.kept (hk z e) (I.past x hx) hT
        · rw [List.mem_singleton.mp hx] at hz ⊢
          simp only at hz
          rw [hlba] at hz
          cases hz
          rw [ho]
          simp only [Covers]
          rcases hcase with ⟨zn', oz', h1, h2⟩ | ⟨-, h2⟩
          · have := I.opened _ zn' oz' h1; omega
          · omega
  | free i =>
    obtain ⟨r, hr, hlive⟩ := hl
    obtain ⟨c, z', h, hz', hg, -, hk, hcase⟩ := free_spec geo G hr hlive
    unfold step at hs
    simp only [hr, h, Option.map_some] at hs
    cases hs
    refine ⟨hg, ?_, I.past, ?_, ?_⟩ <;> simp only [logStep]
    · rw [I.lbas]
      apply List.ext_getElem?
      intro j
      simp only [List.getElem?_map]
      by_cases e : j = i
      · subst e
        rw [List.getElem?_set_self (List.getElem?_eq_some_iff.mp hr).1, hr]; rfl
      · rw [List.getElem?_set_ne (by omega)]
    · intro z zn1 oz1 ho
      by_cases e : z = z'
      · subst e
        rcases hcase with ⟨zn, zn', oz, h1, h2, h3⟩ | ⟨zn, h1, ⟨zn', h2, -, h3, h4⟩ | ⟨h2, -⟩⟩
        · rw [h2] at ho
          cases ho
          have := I.opened z zn _ h1
          simp only [Op.txg]; omega
        · rw [h2] at ho; cases ho
        · rw [h2] at ho; cases ho
      · rw [hk z e] at ho; exact I.opened z zn1 oz1 ho
    · intro x hx z hz
      have hc := I.covers x hx z hz
      by_cases e : z = z'
      · subst e
        rcases hcase with ⟨zn, zn', oz, h1, h2, h3⟩ | ⟨zn, h1, ⟨zn', h2, -, h3, h4⟩ | ⟨h2, -⟩⟩
        · rw [h1] at hc; rw [h2]; simp only [Covers] at hc ⊢; omega
        · rw [h1] at hc; rw [h2]; simp only [Covers] at hc ⊢; omega
        · rw [h2]; trivial
      · rw [hk z e]; exact hc
  | flush gap =>
    obtain ⟨c, -, h, -, hg, -, hw⟩ := flush_spec (H := H) G hl
    unfold step at hs
    simp only [h, Option.map_some] at hs
    cases hs
    refine ⟨hg, I.lbas, I.past, ?_, ?_⟩
    · intro z zn1 oz1 ho
      rcases hw z with h | ⟨zn, oz, zn', oz', h1, h2, h3⟩
      · exact I.opened z zn1 oz1 (h ▸ ho)
      · have ho : c.fsm.view z = .opn zn1 oz1 := ho
        rw [h2] at ho
        cases ho
        have := I.opened z zn oz h1
        simp only [Op.txg]; omega
    intro x hx z hz
    have hc := I.covers x hx z hz
    show Covers _ (c.fsm.view z)
    rcases hw z with h | ⟨zn, oz, zn', oz', h1, h2, h3⟩
    · rw [h]; exact hc
    · rw [h1] at hc; rw [h2]; simp only [Covers] at hc ⊢; omega
  | advance =>
    obtain ⟨hg, -, he, hva⟩ := advance_spec (g := g) G
    cases hs
    refine ⟨hg, ?_, fun x hx => I.past x (List.mem_filter.mp hx).1, ?_, ?_⟩ <;> simp only [logStep]
    · have : ∀ (p : Nat → Bool), ((s.log.filter fun x => p x.1).map (·.1)) =
          ((s.h.recs.filter fun x => p x.lba).map (·.lba)) := by
        intro p
        have h1 := congrArg (List.filter p) I.lbas
        simpa [List.filter_map, Function.comp_def] using h1
      exact this fun lba => decide (∀ z ∈ s.h.c.advance.2, g.lba2zone lba ≠ some z)
    · intro z zn oz ho
      rw [hva] at ho
      split at ho
      · cases ho
      · exact I.opened z zn oz ho
    · intro x hx z hz
      obtain ⟨h1, h2⟩ := List.mem_filter.mp hx
      rw [hva]
      split
      · next hd => exact absurd hz (of_decide_eq_true h2 z ((he z).mpr hd))
      · exact I.covers x h1 z hz
  | reload =>
    obtain ⟨f, c, h1, h2, hc, -, hg, hvw, -⟩ := reload_spec geo H G
    unfold step at hs
    simp only [G.total, h1, h2, Option.map_some] at hs
    cases hs
    refine ⟨hg, I.lbas, I.past, fun z zn oz ho => ?_, ?_⟩
    · have ho : c.fsm.view z = .opn zn oz := ho
      rw [hc, hvw] at ho
      exact I.opened z zn oz ho
    intro x hx z hz
    show Covers _ (c.fsm.view z)
    rw [hc, hvw]
    exact I.covers x hx z hz

theorem dinv_inOrder (geo : GeoOk g n) {T : Nat} {s : TxgHist} (h : InOrder g H n T s) :
    DInv g n T s := by
  induction h with
  | init =>
    refine ⟨good_init g n, rfl, fun _ h => absurd h List.not_mem_nil, ?_,
      fun _ h => absurd h List.not_mem_nil⟩
    intro z zn oz h
    rw [FSM.view_ge (Nat.zero_le _)] at h
    cases h
  | step _ hl hT hs ih => exact dinv_step geo ih hl hT hs

end Verif.Cluster
