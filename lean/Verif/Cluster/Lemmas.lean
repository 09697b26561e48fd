import Verif.Cluster.View
import Verif.Cluster.Spec

/-! # The invariant of a cluster's history, at the level of zone states -/

namespace Verif.Cluster

open Verif

/-! ## Sums -/

theorem sum_congr {n : Nat} {f f' : Nat → Nat} (h : ∀ z, z < n → f' z = f z) :
    ((List.range n).map f').sum = ((List.range n).map f).sum := by
  congr 1
  apply List.map_congr_left
  intro z hz
  exact h z (List.mem_range.mp hz)

theorem sum_upd {n : Nat} {f f' : Nat → Nat} {z : Nat} (hz : z < n) (h : ∀ z', z' ≠ z → f' z' = f z') :
    ((List.range n).map f').sum + f z = ((List.range n).map f).sum + f' z := by
  induction n with
  | zero => omega
  | succ n ih =>
    simp only [List.range_succ, List.map_append, List.sum_append, List.map_cons, List.map_nil,
      List.sum_cons, List.sum_nil]
    by_cases hn : z = n
    · subst hn
      have : ((List.range z).map f').sum = ((List.range z).map f).sum :=
        sum_congr (fun z' h' => h z' (by omega))
      omega
    · have := ih (by omega)
      have := h n (by omega)
      omega

theorem sum_le {n : Nat} {f f' : Nat → Nat} (h : ∀ z, z < n → f' z ≤ f z) :
    ((List.range n).map f').sum ≤ ((List.range n).map f).sum := by
  induction n with
  | zero => simp
  | succ n ih =>
    simp only [List.range_succ, List.map_append, List.sum_append, List.map_cons, List.map_nil,
      List.sum_cons, List.sum_nil]
    have := ih (fun z hz => h z (by omega))
    have := h n (by omega)
    omega

theorem sum_ge {n z : Nat} {f : Nat → Nat} (h : z < n) : f z ≤ ((List.range n).map f).sum := by
  induction n with
  | zero => omega
  | succ n ih =>
    simp only [List.range_succ, List.map_append, List.sum_append, List.map_cons, List.map_nil,
      List.sum_cons, List.sum_nil]
    by_cases hn : z = n
    · subst hn; omega
    · have := ih (by omega)
      omega

theorem sum_set {α : Type} (w : α → Nat) (l : List α) (i : Nat) (x y : α) (h : l[i]? = some x) :
    ((l.set i y).map w).sum + w x = (l.map w).sum + w y := by
  induction l generalizing i with
  | nil => simp at h
  | cons a l ih =>
    cases i with
    | zero =>
      simp only [List.getElem?_cons_zero, Option.some.injEq] at h
      subst h
      simp only [List.set_cons_zero, List.map_cons, List.sum_cons]
      omega
    | succ i =>
      simp only [List.getElem?_cons_succ] at h
      have := ih i h
      simp only [List.set_cons_succ, List.map_cons, List.sum_cons]
      omega

/-- Live blocks of zone `z`. -/
def wt (g : Geo) (z : Nat) (r : Rec) : Nat := if r.live = true ∧ g.lba2zone r.lba = some z then r.len else 0

/-- The number of live blocks of zone `z`. -/
def liveIn (g : Geo) (recs : List Rec) (z : Nat) : Nat := (recs.map (wt g z)).sum

theorem liveIn_append (g : Geo) (l l' : List Rec) (z : Nat) :
    liveIn g (l ++ l') z = liveIn g l z + liveIn g l' z := by
  unfold liveIn
  rw [List.map_append, List.sum_append]

theorem liveIn_zero {g : Geo} {l : List Rec} {z : Nat}
    (h : ∀ r ∈ l, g.lba2zone r.lba = some z → r.live = false) : liveIn g l z = 0 := by
  unfold liveIn
  induction l with
  | nil => rfl
  | cons a l ih =>
    rw [List.map_cons, List.sum_cons, ih (fun r hr => h r (List.mem_cons_of_mem _ hr))]
    unfold wt
    by_cases hc : a.live = true ∧ g.lba2zone a.lba = some z
    · have := h a (List.mem_cons_self ..) hc.2
      rw [hc.1] at this; cases this
    · rw [if_neg hc]

theorem le_liveIn {g : Geo} {l : List Rec} {z : Nat} {r : Rec} (hr : r ∈ l) (hl : r.live = true)
    (hz : g.lba2zone r.lba = some z) : r.len ≤ liveIn g l z := by
  unfold liveIn
  induction l with
  | nil => cases hr
  | cons a l ih =>
    rw [List.map_cons, List.sum_cons]
    rcases List.mem_cons.mp hr with rfl | hr
    · have : wt g z r = r.len := by unfold wt; rw [if_pos ⟨hl, hz⟩]
      omega
    · have := ih hr
      omega

theorem dead_of_liveIn {g : Geo} {l : List Rec} {z : Nat} (hpos : ∀ r ∈ l, 0 < r.len)
    (h : liveIn g l z = 0) : ∀ r ∈ l, g.lba2zone r.lba = some z → r.live = false := by
  intro r hr hz
  cases hl : r.live with
  | false => rfl
  | true =>
    have := le_liveIn hr hl hz
    have := hpos r hr
    omega

theorem liveIn_filter {g : Geo} {l : List Rec} {z : Nat} (p : Rec → Bool)
    (h : ∀ r ∈ l, g.lba2zone r.lba = some z → p r = true) : liveIn g (l.filter p) z = liveIn g l z := by
  unfold liveIn
  induction l with
  | nil => rfl
  | cons a l ih =>
    have ih := ih (fun r hr => h r (List.mem_cons_of_mem _ hr))
    rw [List.filter_cons]
    by_cases hp : p a = true
    · rw [if_pos hp, List.map_cons, List.sum_cons, ih, List.map_cons, List.sum_cons]
    · rw [if_neg hp, ih, List.map_cons, List.sum_cons]
      have : wt g z a = 0 := by
        unfold wt
        rw [if_neg (fun hc => hp (h a (List.mem_cons_self ..) hc.2))]
      omega

/-- Every live block is in one zone. -/
theorem liveSum_eq {g : Geo} {n : Nat} (l : List Rec)
    (h : ∀ r ∈ l, ∃ z, z < n ∧ g.lba2zone r.lba = some z) :
    liveSum l = ((List.range n).map (liveIn g l)).sum := by
  unfold liveSum
  induction l with
  | nil =>
    have : ((List.range n).map (liveIn g [])).sum = ((List.range n).map (fun _ => 0)).sum := rfl
    rw [this]
    clear this h
    induction n with
    | zero => rfl
    | succ n ih => rw [List.range_succ, List.map_append, List.sum_append, ← ih]; rfl
  | cons a l ih =>
    have ih := ih (fun r hr => h r (List.mem_cons_of_mem _ hr))
    obtain ⟨z, hz, hza⟩ := h a (List.mem_cons_self ..)
    rw [List.map_cons, List.sum_cons, ih]
    have := sum_upd (f := liveIn g l) (f' := liveIn g (a :: l)) hz (fun z' hne => by
      unfold liveIn
      rw [List.map_cons, List.sum_cons]
      have : wt g z' a = 0 := by
        unfold wt
        rw [if_neg (fun hc => hne (by rw [hza] at hc; simpa using hc.2.symm))]
      omega)
    have h2 : liveIn g (a :: l) z = (if a.live then a.len else 0) + liveIn g l z := by
      unfold liveIn
      rw [List.map_cons, List.sum_cons]
      congr 1
      unfold wt
      simp [hza]
    rw [h2] at this
    omega

/-! ## The invariant -/

/-- What the log says of a zone in each state. -/
def ZInv (g : Geo) (recs : List Rec) (z : Nat) : ZState → Prop
  | .empty => ∀ r ∈ recs, g.lba2zone r.lba ≠ some z
  | .dead => ∀ r ∈ recs, g.lba2zone r.lba = some z → r.live = false
  | .opn zn oz =>
    oz.start = (g.limits z).1 ∧ zn.total = (g.limits z).2 - (g.limits z).1 ∧
    0 < oz.allocated ∧ oz.allocated ≤ zn.total ∧ zn.freed + liveIn g recs z = oz.allocated ∧
    (∀ r ∈ recs, g.lba2zone r.lba = some z → r.lba + r.len ≤ oz.start + oz.allocated) ∧
    zn.txgStart ≤ TXG_MAX ∧ zn.txgEnd = TXG_MAX
  | .closed zn =>
    zn.total = (g.limits z).2 - (g.limits z).1 ∧ zn.freed + liveIn g recs z = zn.total ∧
    zn.txgStart ≤ TXG_MAX ∧ 0 < zn.txgEnd

/-- The invariant, given the state of each zone and the counter of allocated space. -/
structure AInv (g : Geo) (n : Nat) (V : Nat → ZState) (a : Nat) (recs : List Rec) : Prop where
  out : ∀ z, n ≤ z → V z = .empty
  uniq : ∀ z z' zn zn' oz oz', V z = .opn zn oz → V z' = .opn zn' oz' → z = z'
  zone : ∀ z, z < n → ZInv g recs z (V z)
  recOk : ∀ r ∈ recs, 0 < r.len ∧ ∃ z, g.lba2zone r.lba = some z ∧ r.lba + r.len ≤ (g.limits z).2
  disj : recs.Pairwise Rec.Disjoint
  alloc : a = ((List.range n).map (fun z => (V z).alloc)).sum

/-- The state of one zone changes. -/
def updV (V : Nat → ZState) (z : Nat) (st : ZState) : Nat → ZState := fun z' => if z' = z then st else V z'

theorem updV_self (V : Nat → ZState) (z : Nat) (st : ZState) : updV V z st z = st := if_pos rfl

theorem updV_ne (V : Nat → ZState) {z z' : Nat} (st : ZState) (h : z' ≠ z) : updV V z st z' = V z' := if_neg h

theorem FSM.Upd.view_eq {f f' : FSM} {z : Nat} {st : ZState} (u : FSM.Upd f f' z st) :
    f'.view = updV f.view z st := funext u.view

/-- The zone of a range, and the next range in it, cannot overlap. -/
theorem in_zone {g : Geo} {n : Nat} (geo : GeoOk g n) {lba z : Nat} (h : g.lba2zone lba = some z) :
    z < n ∧ (g.limits z).1 ≤ lba ∧ lba < (g.limits z).2 := (geo.zone lba z).mp h

/-- Zones do not overlap. -/
theorem zones_disjoint {g : Geo} {n : Nat} (geo : GeoOk g n) {z z' : Nat} (hz : z < n) (hz' : z' < n) (hne : z ≠ z') :
    (g.limits z).2 ≤ (g.limits z').1 ∨ (g.limits z').2 ≤ (g.limits z).1 := by
  apply Decidable.byContradiction
  intro hc
  have h1 := (geo.size z hz).1
  have h2 := (geo.size z' hz').1
  have e1 : g.lba2zone (max (g.limits z).1 (g.limits z').1) = some z := (geo.zone _ _).mpr ⟨hz, by omega, by omega⟩
  have e2 : g.lba2zone (max (g.limits z).1 (g.limits z').1) = some z' := (geo.zone _ _).mpr ⟨hz', by omega, by omega⟩
  rw [e1] at e2
  exact hne (by simpa using e2)

section
variable {g : Geo} {n : Nat} {V : Nat → ZState} {a : Nat} {recs : List Rec}

theorem AInv.lt (I : AInv g n V a recs) {z : Nat} (h : V z ≠ .empty) : z < n := by
  apply Decidable.byContradiction
  intro hc
  exact h (I.out z (by omega))

/-- A general step: one zone changes, the log changes only there. -/
theorem AInv.upd (I : AInv g n V a recs) {z : Nat} {st : ZState} {recs' : List Rec} {a' : Nat} (hz : z < n)
    (hopn : ∀ zn oz, st = .opn zn oz → ∀ z' zn' oz', V z' = .opn zn' oz' → z' = z)
    (hst : ZInv g recs' z st)
    (hzone : ∀ z', z' < n → z' ≠ z → ZInv g recs z' (V z') → ZInv g recs' z' (V z'))
    (hrec : ∀ r ∈ recs', 0 < r.len ∧ ∃ z, g.lba2zone r.lba = some z ∧ r.lba + r.len ≤ (g.limits z).2)
    (hdisj : recs'.Pairwise Rec.Disjoint)
    (ha : a' + (V z).alloc = a + st.alloc) : AInv g n (updV V z st) a' recs' := by
  refine ⟨?_, ?_, ?_, hrec, hdisj, ?_⟩
  · intro z' h
    rw [updV_ne _ _ (by omega)]
    exact I.out z' h
  · intro z1 z2 zn zn' oz oz' h1 h2
    by_cases e1 : z1 = z
    · by_cases e2 : z2 = z
      · omega
      · rw [updV_ne _ _ e2] at h2
        rw [e1, updV_self] at h1
        have := hopn _ _ h1 _ _ _ h2
        omega
    · rw [updV_ne _ _ e1] at h1
      by_cases e2 : z2 = z
      · rw [e2, updV_self] at h2
        have := hopn _ _ h2 _ _ _ h1
        omega
      · rw [updV_ne _ _ e2] at h2
        exact I.uniq _ _ _ _ _ _ h1 h2
  · intro z' h
    by_cases e : z' = z
    · rw [e, updV_self]; exact hst
    · rw [updV_ne _ _ e]; exact hzone z' h e (I.zone z' h)
  · have := sum_upd (n := n) (f := fun z => (V z).alloc) (f' := fun z' => (updV V z st z').alloc) hz
      (fun z' hne => by simp only [updV_ne _ _ hne])
    simp only [updV_self] at this
    have := I.alloc
    omega

theorem ZInv.congr {recs' : List Rec} {z : Nat} {st : ZState}
    (hmem : ∀ r, g.lba2zone r.lba = some z → (r ∈ recs' ↔ r ∈ recs))
    (hlive : liveIn g recs' z = liveIn g recs z) (h : ZInv g recs z st) : ZInv g recs' z st := by
  cases st with
  | empty => exact fun r hr hz => h r ((hmem r hz).mp hr) hz
  | dead => exact fun r hr hz => h r ((hmem r hz).mp hr) hz
  | opn zn oz =>
    obtain ⟨h1, h2, h3, h4, h5, h6, h7⟩ := h
    exact ⟨h1, h2, h3, h4, by rw [hlive]; exact h5, fun r hr hz => h6 r ((hmem r hz).mp hr) hz, h7⟩
  | closed zn =>
    obtain ⟨h1, h2, h3⟩ := h
    exact ⟨h1, by rw [hlive]; exact h2, h3⟩

/-- The log grows by a range of zone `z`: nothing changes in the others. -/
theorem ZInv.append {z z' : Nat} {st : ZState} {r : Rec} (hr : g.lba2zone r.lba = some z) (hne : z' ≠ z)
    (h : ZInv g recs z' st) : ZInv g (recs ++ [r]) z' st := by
  refine ZInv.congr (fun x hx => ?_) ?_ h
  · rw [List.mem_append, List.mem_singleton]
    constructor
    · rintro (h | rfl)
      · exact h
      · rw [hr] at hx; exact absurd (by simpa using hx.symm) hne
    · exact Or.inl
  · rw [liveIn_append]
    have : liveIn g [r] z' = 0 := by
      apply liveIn_zero
      intro x hx hz
      rw [List.mem_singleton] at hx
      subst hx
      rw [hr] at hz
      exact absurd (by simpa using hz.symm) hne
    omega

theorem disj_append (geo : GeoOk g n) (I : AInv g n V a recs) {z lba len : Nat} (hlba : g.lba2zone lba = some z)
    (hend : lba + len ≤ (g.limits z).2)
    (h : ∀ r ∈ recs, g.lba2zone r.lba = some z → r.lba + r.len ≤ lba) :
    (recs ++ [(⟨lba, len, true⟩ : Rec)]).Pairwise Rec.Disjoint := by
  rw [List.pairwise_append]
  refine ⟨I.disj, List.pairwise_singleton _ _, ?_⟩
  intro r hr x hx
  rw [List.mem_singleton] at hx
  subst hx
  obtain ⟨hpos, zr, hzr, hre⟩ := I.recOk r hr
  obtain ⟨hzn, hz1, hz2⟩ := in_zone geo hlba
  obtain ⟨hrn, hr1, hr2⟩ := in_zone geo hzr
  unfold Rec.Disjoint
  simp only
  by_cases e : zr = z
  · subst e
    left; exact h r hr hzr
  · rcases zones_disjoint geo hrn hzn e with h | h
    · left; omega
    · right; omega

theorem recOk_append (I : AInv g n V a recs) {z lba len : Nat} (hlba : g.lba2zone lba = some z)
    (hpos : 0 < len) (hend : lba + len ≤ (g.limits z).2) :
    ∀ r ∈ recs ++ [⟨lba, len, true⟩], 0 < r.len ∧ ∃ z, g.lba2zone r.lba = some z ∧ r.lba + r.len ≤ (g.limits z).2 := by
  intro r hr
  rw [List.mem_append, List.mem_singleton] at hr
  rcases hr with hr | rfl
  · exact I.recOk r hr
  · exact ⟨hpos, z, hlba, hend⟩

/-- Allocating in an open zone. -/
theorem AInv.bump (geo : GeoOk g n) (I : AInv g n V a recs) {z space : Nat} {zn : Zone} {oz : OpenZone}
    (h : V z = .opn zn oz) (hpos : 0 < space) (hle : oz.allocated + space ≤ zn.total) :
    AInv g n (updV V z (.opn zn { oz with allocated := oz.allocated + space })) (a + space)
      (recs ++ [⟨oz.writePointer, space, true⟩]) ∧ g.lba2zone oz.writePointer = some z := by
  have hz := I.lt (z := z) (by rw [h]; simp)
  have hZ := I.zone z hz
  rw [h] at hZ
  obtain ⟨h1, h2, h3, h4, h5, h6, h7, h8⟩ := hZ
  have hs := geo.size z hz
  have hlba : g.lba2zone oz.writePointer = some z :=
    (geo.zone _ _).mpr ⟨hz, by unfold OpenZone.writePointer; omega, by unfold OpenZone.writePointer; omega⟩
  have hend : oz.writePointer + space ≤ (g.limits z).2 := by unfold OpenZone.writePointer; omega
  refine ⟨I.upd hz ?_ ?_ ?_ (recOk_append I hlba hpos hend) (disj_append geo I hlba hend h6) ?_, hlba⟩
  · intro _ _ _ z' zn' oz' h'
    exact I.uniq _ _ _ _ _ _ h' h
  · refine ⟨h1, h2, by simp only; omega, hle, ?_, ?_, h7, h8⟩
    · rw [liveIn_append]
      have : liveIn g [⟨oz.writePointer, space, true⟩] z = space := by
        unfold liveIn wt
        simp [hlba]
      rw [this]
      simp only
      omega
    · intro r hr hzr
      rw [List.mem_append, List.mem_singleton] at hr
      rcases hr with hr | rfl
      · have := h6 r hr hzr
        simp only; omega
      · unfold OpenZone.writePointer
        simp only; omega
  · intro z' _ hne hZ'
    exact ZInv.append hlba hne hZ'
  · rw [h]; simp only [ZState.alloc]; omega

/-- Opening an empty zone for an allocation. -/
theorem AInv.open (geo : GeoOk g n) (I : AInv g n V a recs) {z space txg : Nat} (hz : z < n)
    (h : V z = .empty) (hno : ∀ z zn oz, V z ≠ .opn zn oz) (htxg : txg ≤ TXG_MAX)
    (hpos : 0 < space) (hle : space ≤ (g.limits z).2 - (g.limits z).1) :
    AInv g n (updV V z (.opn ⟨0, (g.limits z).2 - (g.limits z).1, txg, TXG_MAX⟩ ⟨(g.limits z).1, space⟩))
      (a + space) (recs ++ [⟨(g.limits z).1, space, true⟩]) ∧ g.lba2zone (g.limits z).1 = some z := by
  have hZ := I.zone z hz
  rw [h] at hZ
  have hs := geo.size z hz
  have hlba : g.lba2zone (g.limits z).1 = some z := (geo.zone _ _).mpr ⟨hz, by omega, by omega⟩
  have hend : (g.limits z).1 + space ≤ (g.limits z).2 := by omega
  refine ⟨I.upd hz ?_ ?_ ?_ (recOk_append I hlba hpos hend)
    (disj_append geo I hlba hend (fun r hr hzr => absurd hzr (hZ r hr))) ?_, hlba⟩
  · intro _ _ _ z' zn' oz' h'
    exact absurd h' (hno _ _ _)
  · refine ⟨rfl, rfl, hpos, hle, ?_, ?_, htxg, rfl⟩
    · rw [liveIn_append, liveIn_zero (l := recs) (fun r hr hzr => absurd hzr (hZ r hr))]
      have : liveIn g [⟨(g.limits z).1, space, true⟩] z = space := by
        unfold liveIn wt
        simp [hlba]
      rw [this]
      simp only
      omega
    · intro r hr hzr
      rw [List.mem_append, List.mem_singleton] at hr
      rcases hr with hr | rfl
      · exact absurd hzr (hZ r hr)
      · simp
  · intro z' _ hne hZ'
    exact ZInv.append hlba hne hZ'
  · rw [h]; simp only [ZState.alloc]; omega

/-- Closing an open zone. -/
theorem AInv.finish (I : AInv g n V a recs) {z txg : Nat} {zn : Zone} {oz : OpenZone}
    (h : V z = .opn zn oz) :
    AInv g n (updV V z (.closed { zn with freed := zn.freed + (zn.total - oz.allocated), txgEnd := txg + 1 }))
      (a + (zn.total - oz.allocated)) recs := by
  have hz := I.lt (z := z) (by rw [h]; simp)
  have hZ := I.zone z hz
  rw [h] at hZ
  obtain ⟨h1, h2, h3, h4, h5, h6, h7, h8⟩ := hZ
  refine I.upd hz (fun _ _ hc => by cases hc) ?_ (fun _ _ _ h => h) I.recOk I.disj ?_
  · exact ⟨h2, by simp only; omega, h7, by simp⟩
  · rw [h]; simp only [ZState.alloc]; omega

/-- Wasting the tail of a stripe. -/
theorem AInv.waste (I : AInv g n V a recs) {z space : Nat} {zn : Zone} {oz : OpenZone}
    (h : V z = .opn zn oz) (hle : oz.allocated + space ≤ zn.total) :
    AInv g n (updV V z (.opn { zn with freed := zn.freed + space } { oz with allocated := oz.allocated + space }))
      (a + space) recs := by
  have hz := I.lt (z := z) (by rw [h]; simp)
  have hZ := I.zone z hz
  rw [h] at hZ
  obtain ⟨h1, h2, h3, h4, h5, h6, h7, h8⟩ := hZ
  refine I.upd hz ?_ ?_ (fun _ _ _ h => h) I.recOk I.disj ?_
  · intro _ _ _ z' zn' oz' h'
    exact I.uniq _ _ _ _ _ _ h' h
  · refine ⟨h1, h2, by simp only; omega, hle, by simp only; omega, ?_, h7, h8⟩
    intro r hr hzr
    have := h6 r hr hzr
    simp only; omega
  · rw [h]; simp only [ZState.alloc]; omega

/-! ### Freeing -/

theorem liveIn_set {i : Nat} {r : Rec} (hr : recs[i]? = some r) (hl : r.live = true) (z : Nat) :
    liveIn g (recs.set i { r with live := false }) z + (if g.lba2zone r.lba = some z then r.len else 0)
      = liveIn g recs z := by
  have := sum_set (wt g z) recs i r { r with live := false } hr
  unfold liveIn
  have h1 : wt g z r = if g.lba2zone r.lba = some z then r.len else 0 := by
    unfold wt; simp [hl]
  have h2 : wt g z { r with live := false } = 0 := by
    unfold wt; simp
  rw [h1, h2] at this
  omega

theorem mem_setLive {i : Nat} {r x : Rec} (hr : recs[i]? = some r)
    (hx : x ∈ recs.set i { r with live := false }) :
    ∃ y ∈ recs, y.lba = x.lba ∧ y.len = x.len ∧ (x.live = true → y.live = true) := by
  rcases List.mem_or_eq_of_mem_set hx with h | h
  · exact ⟨x, h, rfl, rfl, id⟩
  · subst h
    exact ⟨r, List.mem_of_getElem? hr, rfl, rfl, fun h => by cases h⟩

theorem disj_set {i : Nat} {r : Rec} (hr : recs[i]? = some r) (h : recs.Pairwise Rec.Disjoint) :
    (recs.set i { r with live := false }).Pairwise Rec.Disjoint := by
  have hm : (recs.set i { r with live := false }).map (fun r => (r.lba, r.len)) = recs.map (fun r => (r.lba, r.len)) := by
    apply List.ext_getElem?
    intro j
    rw [List.getElem?_map, List.getElem?_map]
    by_cases hj : j = i
    · subst hj
      rw [List.getElem?_set_self (List.getElem?_eq_some_iff.mp hr).1, hr]; rfl
    · rw [List.getElem?_set_ne (by omega)]
  have conv : ∀ l : List Rec, l.Pairwise Rec.Disjoint ↔
      (l.map (fun r => (r.lba, r.len))).Pairwise (fun x y => x.1 + x.2 ≤ y.1 ∨ y.1 + y.2 ≤ x.1) := by
    intro l
    rw [List.pairwise_map]
    rfl
  rw [conv, hm, ← conv]
  exact h

/-- Marking a range as freed: zones other than its own. -/
theorem ZInv.setLive {i z z' : Nat} {r : Rec} {st : ZState} (hr : recs[i]? = some r) (hl : r.live = true)
    (hz : g.lba2zone r.lba = some z) (hne : z' ≠ z) (h : ZInv g recs z' st) :
    ZInv g (recs.set i { r with live := false }) z' st := by
  have hL := liveIn_set (g := g) hr hl z'
  rw [if_neg (by rw [hz]; simp; omega)] at hL
  cases st with
  | empty =>
    intro x hx
    obtain ⟨y, hy, e, -⟩ := mem_setLive hr hx
    rw [← e]; exact h y hy
  | dead =>
    intro x hx hzx
    obtain ⟨y, hy, e, -, e2⟩ := mem_setLive hr hx
    have := h y hy (by rw [e]; exact hzx)
    cases hxl : x.live with
    | false => rfl
    | true => rw [e2 hxl] at this; cases this
  | opn zn oz =>
    obtain ⟨h1, h2, h3, h4, h5, h6, h7⟩ := h
    refine ⟨h1, h2, h3, h4, by omega, ?_, h7⟩
    intro x hx hzx
    obtain ⟨y, hy, e, e2, -⟩ := mem_setLive hr hx
    rw [← e, ← e2]
    exact h6 y hy (by rw [e]; exact hzx)
  | closed zn =>
    obtain ⟨h1, h2, h3⟩ := h
    exact ⟨h1, by omega, h3⟩

theorem recOk_set (I : AInv g n V a recs) {i : Nat} {r : Rec} (hr : recs[i]? = some r) :
    ∀ x ∈ recs.set i { r with live := false },
      0 < x.len ∧ ∃ z, g.lba2zone x.lba = some z ∧ x.lba + x.len ≤ (g.limits z).2 := by
  intro x hx
  obtain ⟨y, hy, e, e2, -⟩ := mem_setLive hr hx
  rw [← e, ← e2]
  exact I.recOk y hy

theorem AInv.free_open (I : AInv g n V a recs) {i z : Nat} {r : Rec} {zn : Zone} {oz : OpenZone}
    (hr : recs[i]? = some r) (hl : r.live = true) (hzr : g.lba2zone r.lba = some z)
    (h : V z = .opn zn oz) :
    zn.freed + r.len ≤ oz.allocated ∧
    AInv g n (updV V z (.opn { zn with freed := zn.freed + r.len } oz)) a (recs.set i { r with live := false }) := by
  have hz := I.lt (z := z) (by rw [h]; simp)
  have hZ := I.zone z hz
  rw [h] at hZ
  obtain ⟨h1, h2, h3, h4, h5, h6, h7⟩ := hZ
  have hL := liveIn_set (g := g) hr hl z
  rw [if_pos hzr] at hL
  refine ⟨by omega, I.upd hz ?_ ?_ ?_ (recOk_set I hr) (disj_set hr I.disj) (by rw [h]; rfl)⟩
  · intro _ _ _ z' zn' oz' h'
    exact I.uniq _ _ _ _ _ _ h' h
  · refine ⟨h1, h2, h3, h4, by simp only; omega, ?_, h7⟩
    intro x hx hzx
    obtain ⟨y, hy, e, e2, -⟩ := mem_setLive hr hx
    rw [← e, ← e2]
    exact h6 y hy (by rw [e]; exact hzx)
  · intro z' _ hne hZ'
    exact ZInv.setLive hr hl hzr hne hZ'

theorem AInv.free_closed (I : AInv g n V a recs) {i z : Nat} {r : Rec} {zn : Zone}
    (hr : recs[i]? = some r) (hl : r.live = true) (hzr : g.lba2zone r.lba = some z)
    (h : V z = .closed zn) :
    zn.freed + r.len ≤ zn.total ∧
    AInv g n (updV V z (.closed { zn with freed := zn.freed + r.len })) a (recs.set i { r with live := false }) := by
  have hz := I.lt (z := z) (by rw [h]; simp)
  have hZ := I.zone z hz
  rw [h] at hZ
  obtain ⟨h1, h2, h3⟩ := hZ
  have hL := liveIn_set (g := g) hr hl z
  rw [if_pos hzr] at hL
  refine ⟨by omega, I.upd hz (fun _ _ hc => by cases hc) ?_ ?_ (recOk_set I hr) (disj_set hr I.disj) (by rw [h]; rfl)⟩
  · exact ⟨h1, by simp only; omega, h3⟩
  · intro z' _ hne hZ'
    exact ZInv.setLive hr hl hzr hne hZ'

theorem AInv.kill (I : AInv g n V a recs) {z : Nat} {zn : Zone} (h : V z = .closed zn)
    (h0 : zn.total - zn.freed = 0) :
    zn.total ≤ a ∧ AInv g n (updV V z .dead) (a - zn.total) recs := by
  have hz := I.lt (z := z) (by rw [h]; simp)
  have hZ := I.zone z hz
  rw [h] at hZ
  obtain ⟨h1, h2, h3⟩ := hZ
  have hle : zn.total ≤ a := by
    rw [I.alloc]
    have := sum_ge (f := fun z => (V z).alloc) hz
    simp only [h, ZState.alloc] at this
    exact this
  refine ⟨hle, I.upd hz (fun _ _ hc => by cases hc) ?_ (fun _ _ _ h => h) I.recOk I.disj ?_⟩
  · exact dead_of_liveIn (fun r hr => (I.recOk r hr).1) (by omega)
  · rw [h]; simp only [ZState.alloc]; omega

/-- Reaping dead zones. -/
theorem AInv.reap (I : AInv g n V a recs) (erased : List Nat) (he : ∀ z, z ∈ erased ↔ V z = .dead) :
    AInv g n (fun z => if V z = .dead then .empty else V z) a
      (recs.filter (fun x => decide (∀ z ∈ erased, g.lba2zone x.lba ≠ some z))) := by
  refine ⟨?_, ?_, ?_, ?_, I.disj.filter _, ?_⟩
  · intro z h
    rw [I.out z h]
    rfl
  · intro z z' zn zn' oz oz' h1 h2
    split at h1
    · cases h1
    · split at h2
      · cases h2
      · exact I.uniq _ _ _ _ _ _ h1 h2
  · intro z hz
    by_cases hd : V z = .dead
    · rw [if_pos hd]
      intro r hr hzr
      rw [List.mem_filter, decide_eq_true_eq] at hr
      exact hr.2 z ((he z).mpr hd) hzr
    · rw [if_neg hd]
      have key : ∀ r : Rec, g.lba2zone r.lba = some z → decide (∀ z ∈ erased, g.lba2zone r.lba ≠ some z) = true := by
        intro r hr
        rw [decide_eq_true_eq]
        intro z' hz' hc
        rw [hr] at hc
        have : z = z' := by simpa using hc
        exact hd (this ▸ (he z').mp hz')
      exact ZInv.congr (fun r hr => by rw [List.mem_filter]; exact ⟨fun h => h.1, fun h => ⟨h, key r hr⟩⟩)
        (liveIn_filter _ (fun r _ hr => key r hr)) (I.zone z hz)
  · intro r hr
    exact I.recOk r (List.mem_filter.mp hr).1
  · rw [I.alloc]
    apply sum_congr
    intro z _
    by_cases hd : V z = .dead
    · rw [if_pos hd, hd]; rfl
    · rw [if_neg hd]

end

end Verif.Cluster
