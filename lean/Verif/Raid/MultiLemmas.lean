import Verif.Raid.WriteLemmas

namespace Verif.Raid

open Verif.Bytes

variable {g : Geom}

theorem bytesOf_append (a b : List CW) : bytesOf (a ++ b) = bytesOf a ++ bytesOf b := by
  simp [bytesOf]

/-- Each write starts where the one before it ends. -/
def Contig : List CW → Prop
  | [] => True
  | [_] => True
  | w :: w' :: ws => w'.addr = w.addr + w.data.length ∧ Contig (w' :: ws)

theorem Contig.tail {w : CW} {ws : List CW} (h : Contig (w :: ws)) : Contig ws := by
  cases ws with
  | nil => trivial
  | cons => exact h.2

theorem contig_concat : ∀ {ws : List CW} {v w : CW}, Contig (ws ++ [v]) →
    w.addr = v.addr + v.data.length → Contig (ws ++ [v] ++ [w]) := by
  intro ws
  induction ws with
  | nil => intro v w _ h; exact ⟨h, trivial⟩
  | cons x xs ih =>
    intro v w h1 h2
    have h3 := ih h1.tail h2
    cases xs with
    | nil => exact ⟨h1.1, h3⟩
    | cons y ys => exact ⟨h1.1, h3⟩

theorem mapIdx_append_aux {α β : Type} (f : Nat → α → β) (a b : List α) :
    (a ++ b).mapIdx f = a.mapIdx f ++ b.mapIdx fun i => f (i + a.length) := by
  rw [List.mapIdx_append]

theorem bytesOf_contig : ∀ {ws : List CW} {w : CW} {d : Nat}, Contig (w :: ws) →
    (∀ v ∈ w :: ws, v.disk = d) →
    bytesOf [⟨d, w.addr, ((w :: ws).map CW.data).flatten⟩] = bytesOf (w :: ws) := by
  intro ws
  induction ws with
  | nil =>
    intro w d _ hd
    have := hd w (by simp)
    subst this
    simp [bytesOf]
  | cons w' ws ih =>
    intro w d hc hd
    have e := ih hc.tail (fun v hv => hd v (List.mem_cons_of_mem _ hv))
    have e1 : bytesOf (w :: w' :: ws) = bytesOf [w] ++ bytesOf (w' :: ws) := by
      rw [← bytesOf_append]; rfl
    rw [e1, ← e, List.map_cons, List.flatten_cons]
    simp only [bytesOf, List.flatMap_cons, List.flatMap_nil, List.append_nil]
    rw [List.mapIdx_append, hd w (by simp), hc.1]
    congr 1
    apply List.ext_getElem?
    intro i
    simp only [List.getElem?_mapIdx]
    cases ((w' :: ws).map CW.data).flatten[i]? with
    | none => rfl
    | some x =>
      simp only [Option.map_some, Option.some.injEq, Prod.mk.injEq, and_true, true_and]
      omega

theorem perm_insert_group (w : CW) (f : Nat → List CW) : ∀ (ds : List Nat), ds.Nodup → w.disk ∈ ds →
    (ds.flatMap fun d => if w.disk == d then w :: f d else f d).Perm (w :: ds.flatMap f) := by
  intro ds
  induction ds with
  | nil => intro _ h; simp at h
  | cons d ds ih =>
    intro hn hm
    rw [List.flatMap_cons, List.flatMap_cons]
    rw [List.nodup_cons] at hn
    by_cases hd : w.disk = d
    · have e : (ds.flatMap fun d => if w.disk == d then w :: f d else f d) = ds.flatMap f := by
        rw [List.flatMap_def, List.flatMap_def]
        congr 1
        apply List.map_congr_left
        intro d' hd'
        have : w.disk ≠ d' := by rintro rfl; exact hn.1 (hd ▸ hd')
        simp [this]
      rw [e]
      simp [hd]
    · have hm' : w.disk ∈ ds := by
        rcases List.mem_cons.mp hm with h | h
        · exact absurd h hd
        · exact h
      have := ih hn.2 hm'
      have e : (if w.disk == d then w :: f d else f d) = f d := by simp [hd]
      rw [e]
      exact (List.Perm.append_left (f d) this).trans List.perm_middle

theorem perm_group (n : Nat) : ∀ (items : List CW), (∀ w ∈ items, w.disk < n) →
    ((List.range n).flatMap fun d => items.filter fun w => w.disk == d).Perm items := by
  intro items
  induction items with
  | nil =>
    intro _
    have : ((List.range n).flatMap fun d => ([] : List CW).filter fun w => w.disk == d) = [] := by
      simp
    rw [this]
  | cons w ws ih =>
    intro h
    have e : ((List.range n).flatMap fun d => (w :: ws).filter fun w => w.disk == d) =
        ((List.range n).flatMap fun d => if w.disk == d then w :: ws.filter (fun w => w.disk == d)
          else ws.filter fun w => w.disk == d) := by
      congr 1
      funext d
      rw [List.filter_cons]
    rw [e]
    exact (perm_insert_group w (fun d => ws.filter fun w => w.disk == d) (List.range n)
      List.nodup_range (List.mem_range.mpr (h w (by simp)))).trans
      ((ih fun v hv => h v (List.mem_cons_of_mem _ hv)).cons w)

theorem bytesOf_perm {a b : List CW} (h : a.Perm b) : (bytesOf a).Perm (bytesOf b) :=
  h.flatMap_right _

theorem bytesOf_groups (items : List CW)
    (hc : ∀ d, Contig (items.filter fun w => w.disk == d)) : ∀ (ds : List Nat),
    bytesOf (ds.filterMap (diskWrite items)) =
    bytesOf (ds.flatMap fun d => items.filter fun w => w.disk == d) := by
  intro ds
  induction ds with
  | nil => rfl
  | cons d ds ih =>
    rw [List.flatMap_cons, bytesOf_append, ← ih]
    have hd := hc d
    have hdisk : ∀ v ∈ items.filter (fun w => w.disk == d), v.disk = d := by
      intro v hv
      simpa using (List.mem_filter.mp hv).2
    have e : diskWrite items d = match items.filter fun w => w.disk == d with
      | [] => none
      | w :: ws => some ⟨d, w.addr, ((w :: ws).map CW.data).flatten⟩ := rfl
    rw [List.filterMap_cons, e]
    generalize items.filter (fun w => w.disk == d) = L at hd hdisk
    cases L with
    | nil => simp [bytesOf]
    | cons w ws =>
      simp only
      rw [← bytesOf_contig hd hdisk, ← bytesOf_append]
      rfl

theorem filter_range_unique {p : Nat → Bool} {b : Nat} : ∀ {k : Nat}, b < k → p b = true →
    (∀ b' < k, p b' = true → b' = b) → (List.range k).filter p = [b] := by
  intro k
  induction k with
  | zero => intro h; omega
  | succ k ih =>
    intro hb hp hu
    rw [List.range_succ, List.filter_append]
    by_cases hbk : b = k
    · subst hbk
      have : (List.range b).filter p = [] := by
        rw [List.filter_eq_nil_iff]
        intro x hx hpx
        have := hu x (by have := List.mem_range.mp hx; omega) hpx
        have := List.mem_range.mp hx
        omega
      rw [this]
      simp [hp]
    · rw [ih (by omega) hp fun b' h => hu b' (by omega)]
      have : p k ≠ true := fun h => hbk (hu k (by omega) h).symm
      simp [this]

theorem stripeChunks_succ (S : Nat) (x : Buf) (N : Nat) : stripeChunks g S x (N + 1) =
    stripeChunks g S x N ++ stripeChunks g (S + N) (x.drop (N * g.stripe)) 1 := by
  rw [stripeChunks_one]
  unfold stripeChunks
  rw [List.range_succ, List.flatMap_append]
  simp

/-- On each disk, consecutive stripes are written one right after the other. -/
theorem stripeChunks_contig (h : g.Lawful) (S : Nat) (x : Buf) (d : Nat) : ∀ (N : Nat),
    N * g.stripe ≤ x.length →
    Contig ((stripeChunks g S x N).filter fun w => w.disk == d) ∧
    ∀ ws v, (stripeChunks g S x N).filter (fun w => w.disk == d) = ws ++ [v] →
      ∃ t b, t < N ∧ b < g.Y.k ∧ g.Y.disk (S + t) b = d ∧
        v.addr + v.data.length = (g.Y.off (S + t) b + 1) * g.col ∧
        ∀ t' b', t < t' → t' < N → b' < g.Y.k → g.Y.disk (S + t') b' ≠ d := by
  intro N
  induction N with
  | zero =>
    intro _
    have e : (stripeChunks g S x 0).filter (fun w => w.disk == d) = [] := by simp [stripeChunks]
    rw [e]
    refine ⟨trivial, fun ws v hv => ?_⟩
    have := congrArg List.length hv
    simp at this
  | succ N ih =>
    intro hN
    have hN' : N * g.stripe + g.stripe ≤ x.length := by
      rw [Nat.add_mul, Nat.one_mul] at hN; exact hN
    obtain ⟨ih1, ih2⟩ := ih (by omega)
    rw [stripeChunks_succ, List.filter_append, stripeChunks_one]
    by_cases hex : ∃ b, b < g.Y.k ∧ g.Y.disk (S + N) b = d
    · obtain ⟨b, hb, hbd⟩ := hex
      have e : ((List.range g.Y.k).map fun b => (⟨g.Y.disk (S + N) b, g.Y.off (S + N) b * g.col,
          column g (x.drop (N * g.stripe)) b⟩ : CW)).filter (fun w => w.disk == d) =
          [⟨d, g.Y.off (S + N) b * g.col, column g (x.drop (N * g.stripe)) b⟩] := by
        rw [List.filter_map]
        have := filter_range_unique (p := (fun w : CW => w.disk == d) ∘ fun b =>
          ⟨g.Y.disk (S + N) b, g.Y.off (S + N) b * g.col, column g (x.drop (N * g.stripe)) b⟩) hb
          (by simp [hbd]) (fun b' hb' hp => by
            simp at hp
            exact h.layout.disk_inj (S + N) b' b hb' hb (hp.trans hbd.symm))
        rw [this]
        simp [hbd]
      rw [e]
      have hlen : (column g (x.drop (N * g.stripe)) b).length = g.col :=
        column_length h (by rw [List.length_drop]; omega) hb
      constructor
      · rcases List.eq_nil_or_concat ((stripeChunks g S x N).filter fun w => w.disk == d) with
          hnil | ⟨ws, v, hv⟩
        · rw [hnil]; trivial
        · rw [List.concat_eq_append] at hv
          rw [hv] at ih1 ⊢
          obtain ⟨t, c, ht, hc, h1, h2, h3⟩ := ih2 ws v hv
          apply contig_concat ih1
          simp only
          rw [h2]
          congr 1
          apply h.layout.adjacent (show S + t < S + N by omega) hc hb (h1.trans hbd.symm)
          intro t' c' h4 h5 hc' h6
          have := h3 (t' - S) c' (by omega) (by omega) hc'
          apply this
          have e : S + (t' - S) = t' := by omega
          rw [e, h6, h1]
      · intro ws v hv
        have hv' : v = ⟨d, g.Y.off (S + N) b * g.col, column g (x.drop (N * g.stripe)) b⟩ := by
          have := (List.append_inj' hv rfl).2
          simpa using this.symm
        refine ⟨N, b, by omega, hb, hbd, ?_, fun t' b' h1 h2 => by omega⟩
        rw [hv']
        simp only
        rw [hlen, Nat.add_mul, Nat.one_mul]
    · have e : ((List.range g.Y.k).map fun b => (⟨g.Y.disk (S + N) b, g.Y.off (S + N) b * g.col,
          column g (x.drop (N * g.stripe)) b⟩ : CW)).filter (fun w => w.disk == d) = [] := by
        rw [List.filter_eq_nil_iff]
        intro w hw hp
        obtain ⟨b, hb, rfl⟩ := List.mem_map.mp hw
        exact hex ⟨b, List.mem_range.mp hb, by simpa using hp⟩
      rw [e, List.append_nil]
      refine ⟨ih1, fun ws v hv => ?_⟩
      obtain ⟨t, c, ht, hc, h1, h2, h3⟩ := ih2 ws v hv
      refine ⟨t, c, by omega, hc, h1, h2, fun t' b' h4 h5 hb' => ?_⟩
      rcases Nat.lt_or_ge t' N with hlt | hge
      · exact h3 t' b' h4 hlt hb'
      · have : t' = N := by omega
        subst this
        exact fun hd => hex ⟨b', hb', hd⟩

/-- `write_at_multi` writes the bytes of `N` stripes. -/
theorem writeAtMulti_spec (h : g.Lawful) (S N : Nat) (x : Buf) (hx : x.length = N * g.stripe) :
    (bytesOf (writeAtMulti g x (S * g.slbas))).Perm (bytesOf (stripeChunks g S x N)) := by
  unfold writeAtMulti
  rw [multiItems_spec h S N x hx, bytesOf_groups _ (fun d =>
    (stripeChunks_contig h S x d N (by omega)).1)]
  apply bytesOf_perm
  apply perm_group
  intro w hw
  unfold stripeChunks at hw
  obtain ⟨t, ht, hw⟩ := List.mem_flatMap.mp hw
  obtain ⟨b, hb, rfl⟩ := List.mem_map.mp hw
  exact h.layout.disk_lt _ b (List.mem_range.mp hb)

end Verif.Raid
