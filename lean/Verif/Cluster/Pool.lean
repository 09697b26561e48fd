import Verif.Cluster.Run

/-!
# Model of `Pool`'s space counter and of the listing of closed zones

`bfffs-core/src/pool.rs` and `ListClosedZones` of `bfffs-core/src/ddml/ddml.rs`.
-/

namespace Verif.Cluster

open Verif

/-! ## Closed zones -/

/-- `ClosedZone`, cluster.rs:29-43 (`start` is filled in by the cluster) and
pool.rs:27-45. -/
structure ClosedZone where
  freed : Nat
  start : Nat
  total : Nat
  txgStart : Nat
  txgEnd : Nat
  zid : Nat
  deriving DecidableEq, Repr

/-- The entry for zone `z`, cluster.rs:415-421. -/
def FSM.closedEntry (f : FSM) (z : Nat) (start : Nat) : ClosedZone :=
  let zn := (f.zones[z]?).getD Zone.default
  ⟨zn.freed, start, zn.total, zn.txgStart, zn.txgEnd, z⟩

/-- `FreeSpaceMap::find_closed_zone`, cluster.rs:402-426: the first zone of the vector
from `start` that is neither empty (or dead) nor open. -/
def FSM.findClosed (f : FSM) (start : Nat) : Option Nat :=
  if f.zones.length ≤ start then none
  else (List.range' start (f.zones.length - start)).find?
    (fun z => !(f.empty.get z).isSome && !(f.opn.get z).isSome)

/-- `Cluster::find_closed_zone`, cluster.rs:938-944. -/
def Cluster.findClosed (g : Geo) (c : Cluster) (z : Nat) : Option ClosedZone :=
  (c.fsm.findClosed z).map (fun z => c.fsm.closedEntry z (g.limits z).1)

/-- `Pool::find_closed_zone`, pool.rs:341-365.  The clusters come with their
geometry.  The outer `none` is the panic of an index out of range. -/
def poolFindClosed (cs : List (Geo × Cluster)) (clust zid : Nat) :
    Option (Option (Nat × ClosedZone) × Option (Nat × Nat)) :=
  match cs[clust]? with
  | none => none
  | some (g, c) =>
    match c.findClosed g zid with
    | some cz => some (some (clust, cz), some (clust, cz.zid + 1))
    | none => if clust < cs.length - 1 then some (none, some (clust + 1, 0)) else some (none, none)

/-- The result of an iterator's `next`. -/
inductive Next where
  | panic
  | done
  | item (x : Nat × ClosedZone) (c z : Nat)

/-- `ListClosedZones::next`, ddml.rs:46-66.  `fuel` bounds the iterations of the loop;
each goes on to the next cluster, so the number of clusters is enough. -/
def listNext (cs : List (Geo × Cluster)) : Nat → Nat → Nat → Next
  | 0, _, _ => .panic
  | fuel + 1, c, z =>
    match poolFindClosed cs c z with
    | none => .panic
    | some (some x, some (c', z')) => .item x c' z'
    | some (some _, none) => .panic
    | some (none, some (c', z')) => listNext cs fuel c' z'
    | some (none, none) => .done

/-- Calling `next` until it returns `None`, from cluster `c` and zone `z`, gives these
items. -/
inductive Lists (cs : List (Geo × Cluster)) : Nat → Nat → List (Nat × ClosedZone) → Prop where
  | done {c z : Nat} : listNext cs (cs.length + 1) c z = .done → Lists cs c z []
  | item {c z c' z' : Nat} {x : Nat × ClosedZone} {xs : List (Nat × ClosedZone)} :
      listNext cs (cs.length + 1) c z = .item x c' z' → Lists cs c' z' xs → Lists cs c z (x :: xs)

/-! ## Specification of the listing -/

/-- The closed zones of one cluster, in order. -/
def closedOf (g : Geo) (c : Cluster) (ci : Nat) : List (Nat × ClosedZone) :=
  ((List.range c.fsm.zones.length).filter c.fsm.isClosed).map (fun z => (ci, c.fsm.closedEntry z (g.limits z).1))

/-- The closed zones of all clusters, in order; the first has index `ci`. -/
def closedOfAll : List (Geo × Cluster) → Nat → List (Nat × ClosedZone)
  | [], _ => []
  | (g, c) :: rest, ci => closedOf g c ci ++ closedOfAll rest (ci + 1)

/-! ## The space counter -/

/-- `Pool`: its clusters (each with its log), the counter `used_space`, a wrapping
`u64` which is an integer here, and the sizes of the writes that have been issued and
have not completed. -/
structure PHist where
  hs : List Hist
  used : Int
  pend : List Nat

/-- The pool's calls.  `write` is the part up to the vdev's write; `done j` is the
completion of the `j`th outstanding write, and `fail j` its failure.  The cluster that
`choose_cluster` picks is arbitrary here. -/
inductive POp where
  | write (ci space txg : Nat)
  | done (j : Nat)
  | fail (j : Nat)
  | free (ci i : Nat)
  | flush (ci : Nat) (gap : Nat → Nat)
  | advance (ci : Nat)

def POp.Legal (s : PHist) : POp → Prop
  | .write ci space txg => ∃ h, s.hs[ci]? = some h ∧ (Op.write space txg).Legal h
  | .done j => j < s.pend.length
  | .fail j => j < s.pend.length
  | .free ci i => ∃ h, s.hs[ci]? = some h ∧ (Op.free i).Legal h
  | .flush ci gap => ∃ h, s.hs[ci]? = some h ∧ (Op.flush gap).Legal h
  | .advance ci => ci < s.hs.length

/-- `Pool::write` (pool.rs:512-531), `Write::poll` (pool.rs:556-572), `Pool::free`
(pool.rs:269-272). -/
def pstep (gs : List Geo) (H : Nat → List ZoneOnDisk → Nat) (s : PHist) : POp → Option PHist
  | .write ci space txg =>
    match gs[ci]?, s.hs[ci]? with
    | some g, some h =>
      match step g H h (.write space txg) with
      | none => none
      | some h' =>
        if h'.recs.length = h.recs.length then some { s with hs := s.hs.set ci h' }
        else some { s with hs := s.hs.set ci h', pend := s.pend ++ [space] }
    | _, _ => none
  | .done j =>
    match s.pend[j]? with
    | none => none
    | some space => some { s with used := s.used + space, pend := s.pend.eraseIdx j }
  | .fail j => some { s with pend := s.pend.eraseIdx j }
  | .free ci i =>
    match gs[ci]?, s.hs[ci]? with
    | some g, some h =>
      match h.recs[i]?, step g H h (.free i) with
      | some r, some h' => some { s with used := s.used - r.len, hs := s.hs.set ci h' }
      | _, _ => none
    | _, _ => none
  | .flush ci gap =>
    match gs[ci]?, s.hs[ci]? with
    | some g, some h => (step g H h (.flush gap)).map (fun h' => { s with hs := s.hs.set ci h' })
    | _, _ => none
  | .advance ci =>
    match gs[ci]?, s.hs[ci]? with
    | some g, some h => (step g H h .advance).map (fun h' => { s with hs := s.hs.set ci h' })
    | _, _ => none

/-- What the clusters report. -/
def PHist.clustersUsed (s : PHist) : Nat := (s.hs.map (fun h => h.c.used)).sum

/-- `Pool::new`, pool.rs:276-303. -/
def PHist.new (hs : List Hist) : PHist := ⟨hs, ((hs.map (fun h => h.c.used)).sum : Nat), []⟩

inductive PRun (gs : List Geo) (H : Nat → List ZoneOnDisk → Nat) : PHist → List POp → PHist → Prop where
  | nil (s : PHist) : PRun gs H s [] s
  | cons {s s' s'' : PHist} {op : POp} {ops : List POp} : op.Legal s → pstep gs H s op = some s' →
      PRun gs H s' ops s'' → PRun gs H s (op :: ops) s''

/-! ## Proofs: the listing -/

theorem isClosed_eq (f : FSM) (z : Nat) (h : z < f.zones.length) :
    f.isClosed z = (!(f.empty.get z).isSome && !(f.opn.get z).isSome) := by
  unfold FSM.isClosed
  simp [h]

theorem find_filter (p : Nat → Bool) (s m : Nat) :
    match (List.range' s m).find? p with
    | none => (List.range' s m).filter p = []
    | some z => s ≤ z ∧ z < s + m ∧ (List.range' s m).filter p = z :: (List.range' (z + 1) (s + m - (z + 1))).filter p := by
  induction m generalizing s with
  | zero => simp
  | succ m ih =>
    rw [List.range'_succ, List.find?_cons, List.filter_cons]
    by_cases h : p s = true
    · simp only [h]
      refine ⟨by omega, by omega, ?_⟩
      rw [if_pos trivial]
      rw [show s + (m + 1) - (s + 1) = m from by omega]
    · simp only [h]
      have := ih (s + 1)
      simp only [Bool.false_eq_true, if_false]
      cases hf : (List.range' (s + 1) m).find? p with
      | none => rw [hf] at this; exact this
      | some z =>
        rw [hf] at this
        simp only at this ⊢
        refine ⟨by omega, by omega, ?_⟩
        rw [this.2.2, show s + (m + 1) - (z + 1) = s + 1 + m - (z + 1) from by omega]

/-- The closed zones of one cluster from zone `z`. -/
def closedFrom (g : Geo) (c : Cluster) (ci z : Nat) : List (Nat × ClosedZone) :=
  ((List.range' z (c.fsm.zones.length - z)).filter c.fsm.isClosed).map
    (fun z => (ci, c.fsm.closedEntry z (g.limits z).1))

theorem closedFrom_zero (g : Geo) (c : Cluster) (ci : Nat) : closedFrom g c ci 0 = closedOf g c ci := by
  unfold closedFrom closedOf
  rw [List.range_eq_range', Nat.sub_zero]

theorem findClosed_spec (g : Geo) (c : Cluster) (ci z : Nat) :
    match c.findClosed g z with
    | none => closedFrom g c ci z = []
    | some cz => closedFrom g c ci z = (ci, cz) :: closedFrom g c ci (cz.zid + 1) := by
  unfold Cluster.findClosed FSM.findClosed
  by_cases h : c.fsm.zones.length ≤ z
  · rw [if_pos h]
    simp only [Option.map_none]
    unfold closedFrom
    rw [show c.fsm.zones.length - z = 0 from by omega]
    rfl
  · rw [if_neg h]
    have hp : ∀ s m, s + m ≤ c.fsm.zones.length → (List.range' s m).filter c.fsm.isClosed =
        (List.range' s m).filter (fun z => !(c.fsm.empty.get z).isSome && !(c.fsm.opn.get z).isSome) := by
      intro s m hsm
      apply List.filter_congr
      intro x hx
      rw [List.mem_range'_1] at hx
      exact isClosed_eq _ _ (by omega)
    have := find_filter (fun z => !(c.fsm.empty.get z).isSome && !(c.fsm.opn.get z).isSome) z (c.fsm.zones.length - z)
    split
    · rename_i hn
      rw [Option.map_eq_none_iff] at hn
      rw [hn] at this
      simp only at this
      unfold closedFrom
      rw [hp _ _ (by omega), this]
      rfl
    · rename_i cz hs
      rw [Option.map_eq_some_iff] at hs
      obtain ⟨y, hy, rfl⟩ := hs
      rw [hy] at this
      simp only at this
      unfold closedFrom
      rw [hp _ _ (by omega), this.2.2]
      simp only [List.map_cons, FSM.closedEntry]
      congr 2
      rw [show z + (c.fsm.zones.length - z) - (y + 1) = c.fsm.zones.length - (y + 1) from by omega,
        hp _ _ (by omega)]

/-- What remains to be listed from cluster `ci` and zone `z`. -/
def remaining (cs : List (Geo × Cluster)) (ci z : Nat) : List (Nat × ClosedZone) :=
  match cs.drop ci with
  | [] => []
  | (g, c) :: rest => closedFrom g c ci z ++ closedOfAll rest (ci + 1)

theorem remaining_next (cs : List (Geo × Cluster)) (ci : Nat) :
    remaining cs ci 0 = closedOfAll (cs.drop ci) ci := by
  unfold remaining
  cases h : cs.drop ci with
  | nil => rfl
  | cons e rest =>
    obtain ⟨g, c⟩ := e
    simp only [closedOfAll, closedFrom_zero]

theorem drop_cons {α : Type} {l : List α} {i : Nat} {a : α} (h : l[i]? = some a) :
    l.drop i = a :: l.drop (i + 1) := by
  obtain ⟨hlt, rfl⟩ := List.getElem?_eq_some_iff.mp h
  exact List.drop_eq_getElem_cons hlt

theorem listNext_spec (cs : List (Geo × Cluster)) (fuel : Nat) :
    ∀ ci z, ci < cs.length → cs.length < ci + fuel →
    match listNext cs fuel ci z with
    | .panic => False
    | .done => remaining cs ci z = []
    | .item x c' z' => c' < cs.length ∧ remaining cs ci z = x :: remaining cs c' z' := by
  induction fuel with
  | zero => intro ci z h1 h2; omega
  | succ fuel ih =>
    intro ci z h1 h2
    unfold listNext poolFindClosed
    have hget := List.getElem?_eq_getElem h1
    generalize cs[ci] = e at hget
    obtain ⟨g, c⟩ := e
    have hdrop := drop_cons hget
    rw [hget]
    simp only
    have hf := findClosed_spec g c ci z
    cases hc : c.findClosed g z with
    | some cz =>
      rw [hc] at hf
      simp only at hf ⊢
      refine ⟨h1, ?_⟩
      unfold remaining
      rw [hdrop]
      simp only [hf, List.cons_append]
    | none =>
      rw [hc] at hf
      simp only at hf ⊢
      have hrem : remaining cs ci z = closedOfAll (cs.drop (ci + 1)) (ci + 1) := by
        unfold remaining
        rw [hdrop]
        simp only [hf, List.nil_append]
      by_cases hlt : ci < cs.length - 1
      · rw [if_pos hlt]
        simp only
        have := ih (ci + 1) 0 (by omega) (by omega)
        rw [remaining_next] at this
        rw [hrem]
        exact this
      · rw [if_neg hlt]
        simp only
        rw [hrem, List.drop_eq_nil_of_le (by omega)]
        rfl

theorem lists_remaining (cs : List (Geo × Cluster)) (xs : List (Nat × ClosedZone)) :
    ∀ ci z, ci < cs.length → remaining cs ci z = xs → Lists cs ci z xs := by
  induction xs with
  | nil =>
    intro ci z h hr
    have := listNext_spec cs (cs.length + 1) ci z h (by omega)
    cases hn : listNext cs (cs.length + 1) ci z with
    | panic => rw [hn] at this; exact this.elim
    | done => exact .done hn
    | item x c' z' =>
      rw [hn] at this
      simp only at this
      rw [hr] at this
      cases this.2
  | cons x xs ih =>
    intro ci z h hr
    have := listNext_spec cs (cs.length + 1) ci z h (by omega)
    cases hn : listNext cs (cs.length + 1) ci z with
    | panic => rw [hn] at this; exact this.elim
    | done => rw [hn] at this; simp only at this; rw [hr] at this; cases this
    | item x' c' z' =>
      rw [hn] at this
      simp only at this
      rw [hr] at this
      obtain ⟨h1, h2⟩ := this
      cases h2
      exact .item hn (ih c' z' h1 rfl)

theorem Lists.unique {cs : List (Geo × Cluster)} {ci z : Nat} {xs ys : List (Nat × ClosedZone)}
    (h : Lists cs ci z xs) (h' : Lists cs ci z ys) : xs = ys := by
  induction h generalizing ys with
  | done hd =>
    cases h' with
    | done _ => rfl
    | item hi _ => rw [hd] at hi; cases hi
  | item hi _ ih =>
    cases h' with
    | done hd => rw [hi] at hd; cases hd
    | item hi' hl' =>
      rw [hi] at hi'
      cases hi'
      rw [ih hl']

/-! ## Proofs: the counter -/

/-- Blocks in use are the live ones. -/
theorem used_eq {g : Geo} {n : Nat} (geo : GeoOk g n) {s : Hist} (G : Good g n s) : s.c.used = liveSum s.recs := by
  unfold Cluster.used FSM.inUseTotal
  rw [liveSum_eq (g := g) (n := n) s.recs (fun r hr => by
    obtain ⟨-, z, hz, -⟩ := G.inv.recOk r hr
    exact ⟨z, (in_zone geo hz).1, hz⟩)]
  have h1 : ((List.range s.c.fsm.zones.length).map s.c.fsm.inUse).sum
      = ((List.range n).map (fun z => (s.c.fsm.view z).used)).sum := by
    rw [FSM.sum_extend (fun z => (s.c.fsm.view z).used) s.c.fsm.zones.length n
      (by rw [← G.total]; exact G.wf.len) (fun z hz => by rw [FSM.view_ge hz]; rfl)]
    exact sum_congr (fun z _ => FSM.inUse_view _ z)
  rw [h1]
  apply sum_congr
  intro z hz
  have hZ := G.inv.zone z hz
  cases hv : s.c.fsm.view z with
  | empty => rw [hv] at hZ; exact (liveIn_zero (fun r hr hzr => absurd hzr (hZ r hr))).symm
  | dead => rw [hv] at hZ; exact (liveIn_zero hZ).symm
  | opn zn oz =>
    rw [hv] at hZ
    obtain ⟨-, -, -, -, h, -⟩ := hZ
    simp only [ZState.used]; omega
  | closed zn =>
    rw [hv] at hZ
    obtain ⟨-, h, -⟩ := hZ
    simp only [ZState.used]; omega

/-- What each call does to the number of live blocks. -/
theorem liveSum_step {g : Geo} {n : Nat} {H : Nat → List ZoneOnDisk → Nat} (geo : GeoOk g n) {s s' : Hist}
    (G : Good g n s) {op : Op} (hl : op.Legal s) (hs : step g H s op = some s') :
    match op with
    | .write space _ => (s'.recs.length = s.recs.length ∧ liveSum s'.recs = liveSum s.recs) ∨
        (s'.recs.length = s.recs.length + 1 ∧ liveSum s'.recs = liveSum s.recs + space)
    | .free i => ∀ r, s.recs[i]? = some r → liveSum s.recs = liveSum s'.recs + r.len
    | _ => liveSum s'.recs = liveSum s.recs := by
  unfold step at hs
  cases op with
  | write space txg =>
    simp only at hs ⊢
    split at hs
    · cases hs
    · cases hs; exact Or.inl ⟨rfl, rfl⟩
    · cases hs; right; simp [liveSum]
  | free i =>
    obtain ⟨r, hr, hlive⟩ := hl
    simp only [hr, Option.map_eq_some_iff] at hs ⊢
    obtain ⟨c, -, rfl⟩ := hs
    intro r' hr'
    cases hr'
    have := sum_set (fun r : Rec => if r.live then r.len else 0) s.recs i r { r with live := false } hr
    unfold liveSum
    simp only [hlive, if_true, Bool.false_eq_true, if_false] at this ⊢
    omega
  | flush gap =>
    simp only [Option.map_eq_some_iff] at hs
    obtain ⟨c, -, rfl⟩ := hs
    rfl
  | advance =>
    obtain ⟨-, -, he, -⟩ := advance_spec (g := g) G
    cases hs
    simp only
    have key : ∀ l : List Rec, (∀ r ∈ l, r ∈ s.recs) →
        liveSum (l.filter (fun x => decide (∀ z ∈ s.c.advance.2, g.lba2zone x.lba ≠ some z))) = liveSum l := by
      intro l
      induction l with
      | nil => intro _; rfl
      | cons r l ih =>
        intro hsub
        have ih := ih (fun r hr => hsub r (List.mem_cons_of_mem _ hr))
        rw [List.filter_cons]
        split
        · unfold liveSum at *
          simp only [List.map_cons, List.sum_cons]
          omega
        · rename_i hc
          rw [decide_eq_true_eq] at hc
          have hd : r.live = false := by
            cases hb : r.live with
            | false => rfl
            | true =>
              exfalso
              apply hc
              intro z hz hrz
              have hv := (he z).mp hz
              have hZ := G.inv.zone z (in_zone geo hrz).1
              rw [hv] at hZ
              have := hZ r (hsub r (List.mem_cons_self ..)) hrz
              rw [hb] at this; cases this
          unfold liveSum at *
          simp only [List.map_cons, List.sum_cons, hd]
          simp only [Bool.false_eq_true, if_false]
          omega
    exact key _ (fun _ h => h)
  | reload =>
    simp only at hs ⊢
    split at hs
    · rw [Option.map_eq_some_iff] at hs
      obtain ⟨c, -, rfl⟩ := hs
      rfl
    · cases hs

/-- Each cluster's state satisfies its invariant. -/
def PGood (gs : List Geo) (ns : List Nat) (s : PHist) : Prop :=
  ∀ (ci : Nat) h, s.hs[ci]? = some h → ∃ g n, gs[ci]? = some g ∧ ns[ci]? = some n ∧ GeoOk g n ∧ Good g n h

/-- Live blocks of all clusters. -/
def poolLive (hs : List Hist) : Nat := (hs.map (fun h => liveSum h.recs)).sum

theorem clustersUsed_eq {gs : List Geo} {ns : List Nat} {s : PHist} (G : PGood gs ns s) :
    s.clustersUsed = poolLive s.hs := by
  unfold PHist.clustersUsed poolLive
  congr 1
  apply List.map_congr_left
  intro h hh
  obtain ⟨i, hi⟩ := List.getElem?_of_mem hh
  obtain ⟨g, n, -, -, geo, hG⟩ := G i h hi
  exact used_eq geo hG

theorem PGood.set {gs : List Geo} {ns : List Nat} {s : PHist} (G : PGood gs ns s) {ci n : Nat} {g : Geo} {h' : Hist}
    (hg : gs[ci]? = some g) (hn : ns[ci]? = some n) (geo : GeoOk g n) (G' : Good g n h') (u : Int) (p : List Nat) :
    PGood gs ns ⟨s.hs.set ci h', u, p⟩ := by
  intro cj h hj
  simp only [List.getElem?_set] at hj
  split at hj
  · rename_i e
    subst e
    split at hj
    · cases hj; exact ⟨g, n, hg, hn, geo, G'⟩
    · cases hj
  · exact G cj h hj

theorem sum_eraseIdx (l : List Nat) (j x : Nat) (h : l[j]? = some x) : l.sum = (l.eraseIdx j).sum + x := by
  induction l generalizing j with
  | nil => cases h
  | cons a l ih =>
    cases j with
    | zero => simp at h; subst h; simp; omega
    | succ j =>
      simp at h
      have := ih j h
      simp; omega

/-- The counter lags behind by the writes that have not completed. -/
theorem pool_step {gs : List Geo} {ns : List Nat} {H : Nat → List ZoneOnDisk → Nat} {s s' : PHist}
    (G : PGood gs ns s) {op : POp} (hl : op.Legal s) (hs : pstep gs H s op = some s') (hnf : ∀ j, op ≠ .fail j) :
    PGood gs ns s' ∧ s'.used + s'.pend.sum - poolLive s'.hs = s.used + s.pend.sum - poolLive s.hs := by
  have hset : ∀ (ci : Nat) h h', s.hs[ci]? = some h →
      poolLive (s.hs.set ci h') + liveSum h.recs = poolLive s.hs + liveSum h'.recs :=
    fun ci h h' hh => sum_set (fun h : Hist => liveSum h.recs) s.hs ci h h' hh
  cases op with
  | write ci space txg =>
    obtain ⟨h, hh, hl⟩ := hl
    obtain ⟨g, n, hg, hn, geo, hG⟩ := G ci h hh
    obtain ⟨h', hst, hG'⟩ := good_step (H := H) geo hG hl
    have hlv := liveSum_step geo hG hl hst
    have h2 := hset ci h h' hh
    unfold pstep at hs
    simp only [hg, hh, hst] at hs hlv
    split at hs
    · cases hs
      refine ⟨G.set hg hn geo hG' _ _, ?_⟩
      simp only
      omega
    · cases hs
      refine ⟨G.set hg hn geo hG' _ _, ?_⟩
      simp only [List.sum_append, List.sum_cons, List.sum_nil]
      omega
  | done j =>
    unfold pstep at hs
    simp only at hs
    split at hs
    · cases hs
    · rename_i x hx
      cases hs
      have := sum_eraseIdx _ _ _ hx
      exact ⟨G, by simp only; omega⟩
  | fail j => exact absurd rfl (hnf j)
  | free ci i =>
    obtain ⟨h, hh, hl⟩ := hl
    obtain ⟨g, n, hg, hn, geo, hG⟩ := G ci h hh
    obtain ⟨h', hst, hG'⟩ := good_step (H := H) geo hG hl
    have hlv := liveSum_step geo hG hl hst
    have h2 := hset ci h h' hh
    obtain ⟨r, hr, hlive⟩ := hl
    have := hlv r hr
    unfold pstep at hs
    simp only [hg, hh, hst, hr] at hs
    cases hs
    refine ⟨G.set hg hn geo hG' _ _, ?_⟩
    simp only
    omega
  | flush ci gap =>
    obtain ⟨h, hh, hl⟩ := hl
    obtain ⟨g, n, hg, hn, geo, hG⟩ := G ci h hh
    obtain ⟨h', hst, hG'⟩ := good_step (H := H) geo hG hl
    have hlv := liveSum_step geo hG hl hst
    have h2 := hset ci h h' hh
    unfold pstep at hs
    simp only [hg, hh, hst, Option.map_some] at hs hlv
    cases hs
    refine ⟨G.set hg hn geo hG' _ _, ?_⟩
    simp only
    omega
  | advance ci =>
    have hlt : ci < s.hs.length := hl
    have hh := List.getElem?_eq_getElem hlt
    generalize s.hs[ci] = h at hh
    obtain ⟨g, n, hg, hn, geo, hG⟩ := G ci h hh
    obtain ⟨h', hst, hG'⟩ := good_step (H := H) geo hG (op := .advance) trivial
    have hlv := liveSum_step geo hG (op := .advance) trivial hst
    have h2 := hset ci h h' hh
    unfold pstep at hs
    simp only [hg, hh, hst, Option.map_some] at hs hlv
    cases hs
    refine ⟨G.set hg hn geo hG' _ _, ?_⟩
    simp only
    omega

theorem pool_run {gs : List Geo} {ns : List Nat} {H : Nat → List ZoneOnDisk → Nat} {s s' : PHist} {ops : List POp}
    (R : PRun gs H s ops s') (G : PGood gs ns s) (hnf : ∀ j, POp.fail j ∉ ops) :
    PGood gs ns s' ∧ s'.used + s'.pend.sum - poolLive s'.hs = s.used + s.pend.sum - poolLive s.hs := by
  induction R with
  | nil => exact ⟨G, rfl⟩
  | cons hl hs _ ih =>
    obtain ⟨G1, e1⟩ := pool_step G hl hs (fun j e => hnf j (by simp [e]))
    obtain ⟨G2, e2⟩ := ih G1 (fun j h => hnf j (List.mem_cons_of_mem _ h))
    exact ⟨G2, e2.trans e1⟩

end Verif.Cluster
