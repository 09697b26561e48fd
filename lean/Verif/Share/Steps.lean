import Verif.Share.Lemmas

/-! Every event keeps the invariant, and only the flusher can panic. -/

namespace Verif.Share
open Verif (OMap)
open OMap
open Blob (mapV get_mapV insert_mapV filter_mapV remove_mapV mapV_congr sorted_mapV)

theorem sorted_of_keys {V W : Type} {m : OMap V} {n : OMap W} (h : m.map (·.1) = n.map (·.1))
    (hs : Sorted n) : Sorted m := by
  have h1 : (n.map (·.1)).Pairwise (· < ·) := List.pairwise_map.2 hs
  rw [← h] at h1
  exact List.pairwise_map.1 h1

theorem flatMap_sub {α β : Type} {l l' : List α} (h : l.Sublist l') (f : α → List β) :
    (l.flatMap f).Sublist (l'.flatMap f) := by
  induction h with
  | slnil => exact List.Sublist.refl _
  | cons a _ ih => exact ih.trans (List.sublist_append_right _ _)
  | cons_cons a _ ih => exact List.Sublist.append (List.Sublist.refl _) ih

/-! ## Removing and inserting extents -/

/-- What is known of the tree and the records. -/
structure TOk (s : St) : Prop where
  sorted : Sorted s.tree
  rnodup : (tr s.tree).Nodup
  rhere : ∀ r ∈ tr s.tree, r < s.nextRid ∧ s.recs.get r ≠ none

/-- Everything but the tree, the records and the buffer counter is the same. -/
structure Same (s s' : St) : Prop where
  readers : s'.readers = s.readers
  writer : s'.writer = s.writer
  nextRid : s'.nextRid = s.nextRid
  nextBuf : s.nextBuf ≤ s'.nextBuf

theorem dpop_spec {s : St} (h : TOk s) {k : Nat} {e : Ent} (hg : OMap.get s.tree k = some e) :
    ∃ s' b, dpop s e = some (s', b, dat s.recs e) ∧ Same s s' ∧ s'.tree = s.tree ∧
      mapV (dat s'.recs) (OMap.remove s.tree k) = OMap.remove (cont s) k ∧
      (∀ r ∈ tr (OMap.remove s.tree k), s'.recs.get r = s.recs.get r) ∧
      ((eb e = [b] ∧ s'.nextBuf = s.nextBuf) ∨
        (eb e = [] ∧ b = s.nextBuf ∧ s'.nextBuf = s.nextBuf + 1)) := by
  cases e with
  | inline b d =>
    exact ⟨s, b, rfl, ⟨rfl, rfl, rfl, Nat.le_refl _⟩, rfl, remove_mapV _ _ _, fun _ _ => rfl,
      Or.inl ⟨rfl, rfl⟩⟩
  | blob r =>
    have hmem := mem_of_get hg
    have hr := h.rhere r (mem_tr hmem (by simp [er]))
    obtain ⟨d, hd⟩ := Option.ne_none_iff_exists'.1 hr.2
    have hp := perm_flat_remove er h.sorted hg
    have hnd : ([r] ++ tr (OMap.remove s.tree k)).Nodup := hp.nodup_iff.1 h.rnodup
    have hne : ∀ x ∈ tr (OMap.remove s.tree k), x ≠ r := by
      intro x hx he
      subst he
      exact (List.nodup_append.1 hnd).2.2 x (by simp) x hx rfl
    refine ⟨{ s with recs := s.recs.remove r, nextBuf := s.nextBuf + 1 }, s.nextBuf, ?_,
      ⟨rfl, rfl, rfl, Nat.le_succ _⟩, rfl, ?_, ?_, Or.inr ⟨rfl, rfl, rfl⟩⟩
    · simp only [dpop, hd, dat, Option.getD_some]
    · rw [cont, ← remove_mapV]
      apply mapV_congr
      intro x hx
      apply dat_congr
      intro y hy
      rw [get_remove, if_neg (hne y (mem_tr hx hy))]
    · intro x hx
      simp only [get_remove]
      rw [if_neg (hne x hx)]

theorem tok_sub {s s' : St} (h : TOk s) (hs : Same s s') {k : Nat}
    (ht : s'.tree = OMap.remove s.tree k)
    (hr : ∀ r ∈ tr (OMap.remove s.tree k), s'.recs.get r = s.recs.get r) : TOk s' := by
  have hsub : (tr (OMap.remove s.tree k)).Sublist (tr s.tree) := by
    simp only [tr, OMap.remove]
    exact flatMap_sub List.filter_sublist _
  refine ⟨by rw [ht]; exact h.sorted.remove k, by rw [ht]; exact hsub.nodup h.rnodup, ?_⟩
  intro r hm
  rw [ht] at hm
  have := h.rhere r (hsub.subset hm)
  rw [hs.nextRid, hr r hm]
  exact this

theorem popRec_spec {s : St} (h : TOk s) (k : Nat) :
    ∃ s' b, popRec s k = some (s', .got b (OMap.get (cont s) k)) ∧ Same s s' ∧ TOk s' ∧
      s'.tree = OMap.remove s.tree k ∧ cont s' = OMap.remove (cont s) k ∧
      ((tb s.tree).Perm ([b] ++ tb s'.tree) ∨
        ((tb s.tree).Perm (tb s'.tree) ∧ b = s.nextBuf ∧ s'.nextBuf = s.nextBuf + 1)) := by
  have hc : OMap.get (cont s) k = (OMap.get s.tree k).map (dat s.recs) := get_mapV _ _ _
  rw [hc]
  cases hg : OMap.get s.tree k with
  | none =>
    have h1 : OMap.remove s.tree k = s.tree := remove_of_none hg
    have hs : Same s { s with nextBuf := s.nextBuf + 1 } :=
      ⟨rfl, rfl, rfl, Nat.le_succ _⟩
    refine ⟨{ s with nextBuf := s.nextBuf + 1 }, s.nextBuf, by simp only [popRec, hg]; rfl,
      hs, tok_sub h hs h1.symm (fun _ _ => rfl), h1.symm, ?_,
      Or.inr ⟨List.Perm.refl _, rfl, rfl⟩⟩
    rw [remove_of_none (by rw [hc, hg]; rfl)]
    rfl
  | some e =>
    obtain ⟨s', b, h1, h2, h3, h4, h5, h6⟩ := dpop_spec h hg
    have hs : Same s { s' with tree := OMap.remove s'.tree k } :=
      ⟨h2.readers, h2.writer, h2.nextRid, h2.nextBuf⟩
    have ht : OMap.remove s'.tree k = OMap.remove s.tree k := by rw [h3]
    refine ⟨{ s' with tree := OMap.remove s'.tree k }, b,
      by simp only [popRec, hg, h1, Option.map_some], hs, tok_sub h hs ht h5, ht, ?_, ?_⟩
    · simp only [cont]
      rw [ht]; exact h4
    · have hp := perm_flat_remove eb h.sorted hg
      change (tb s.tree).Perm (eb e ++ tb (OMap.remove s.tree k)) at hp
      simp only [ht]
      rcases h6 with ⟨h6, h7⟩ | ⟨h6, h7, h8⟩
      · left; rw [← h6]; exact hp
      · right; rw [h6] at hp; exact ⟨hp, h7, h8⟩

theorem placeBuf_spec {s : St} (h : TOk s) (k b : Nat) (d : Bytes) :
    ∃ s', placeBuf s k b d = some s' ∧ Same s s' ∧ TOk s' ∧
      s'.tree = OMap.insert s.tree k (.inline b d) ∧ cont s' = OMap.insert (cont s) k d ∧
      (tb s'.tree).Perm ([b] ++ tb (OMap.remove s.tree k)) := by
  -- the tree without the old extent, then with the new one
  have fin : ∀ s1 : St, Same s s1 → s1.tree = s.tree →
      mapV (dat s1.recs) (OMap.remove s.tree k) = OMap.remove (cont s) k →
      (∀ r ∈ tr (OMap.remove s.tree k), s1.recs.get r = s.recs.get r) →
      Same s { s1 with tree := OMap.insert s1.tree k (.inline b d) } ∧
      TOk { s1 with tree := OMap.insert s1.tree k (.inline b d) } ∧
      cont { s1 with tree := OMap.insert s1.tree k (.inline b d) } = OMap.insert (cont s) k d := by
    intro s1 hs ht hv hr
    refine ⟨⟨hs.readers, hs.writer, hs.nextRid, hs.nextBuf⟩, ⟨?_, ?_, ?_⟩, ?_⟩
    · rw [ht]; exact h.sorted.insert _ _
    · rw [ht]
      have hp := perm_flat_insert er h.sorted k (.inline b d)
      refine hp.nodup_iff.2 ?_
      have hsub : (tr (OMap.remove s.tree k)).Sublist (tr s.tree) := by
        simp only [tr, OMap.remove]
        exact flatMap_sub List.filter_sublist _
      exact hsub.nodup h.rnodup
    · intro r hm
      rw [ht] at hm
      have hp := (perm_flat_insert er h.sorted k (.inline b d)).mem_iff.1 hm
      have hm' : r ∈ tr (OMap.remove s.tree k) := hp
      have hsub : (tr (OMap.remove s.tree k)).Sublist (tr s.tree) := by
        simp only [tr, OMap.remove]
        exact flatMap_sub List.filter_sublist _
      have := h.rhere r (hsub.subset hm')
      simp only [hs.nextRid, hr r hm']
      exact this
    · simp only [cont]
      rw [ht, insert_mapV]
      have hsv : Sorted (mapV (dat s1.recs) s.tree) := sorted_mapV h.sorted
      have hsv' : Sorted (mapV (dat s.recs) s.tree) := sorted_mapV h.sorted
      rw [remove_mapV] at hv
      apply OMap.ext (hsv.insert _ _) (hsv'.insert _ _)
      intro k'
      simp only [get_insert]
      split
      · rfl
      · rename_i hk
        have h1 := get_remove (mapV (dat s1.recs) s.tree) k k'
        have h2 := get_remove (mapV (dat s.recs) s.tree) k k'
        rw [if_neg hk] at h1 h2
        rw [← h1, ← h2, hv]; rfl
  have hb : (tb (OMap.insert s.tree k (.inline b d))).Perm ([b] ++ tb (OMap.remove s.tree k)) :=
    perm_flat_insert eb h.sorted k (.inline b d)
  cases hg : OMap.get s.tree k with
  | none =>
    obtain ⟨f1, f2, f3⟩ := fin s ⟨rfl, rfl, rfl, Nat.le_refl _⟩ rfl (remove_mapV _ _ _)
      (fun _ _ => rfl)
    exact ⟨_, by simp only [placeBuf, hg], f1, f2, rfl, f3, hb⟩
  | some e =>
    obtain ⟨s', b', h1, h2, h3, h4, h5, -⟩ := dpop_spec h hg
    obtain ⟨f1, f2, f3⟩ := fin s' h2 h3 h4 h5
    refine ⟨_, by simp only [placeBuf, hg, h1], f1, f2, by rw [h3], f3, ?_⟩
    simp only [h3]; exact hb

/-! ## A step of a write -/

theorem tok_of_inv {c : OMap Bytes} {s : St} (h : Inv c s) : TOk s :=
  ⟨h.sorted, h.rnodup, h.rhere⟩

theorem wb_append (l l' : List RecW) : wb (l ++ l') = wb l ++ wb l' := List.flatMap_append

theorem wb_perm (l1 l2 : List RecW) (w : RecW) (X : List Nat) :
    (X ++ wb (l1 ++ w :: l2)).Perm ((X ++ w.ph.gotB) ++ wb (l1 ++ l2)) := by
  rw [wb_append, wb_append, List.append_assoc]
  apply List.Perm.append_left
  change (wb l1 ++ (w.ph.gotB ++ wb l2)).Perm _
  rw [← List.append_assoc, ← List.append_assoc]
  exact List.Perm.append_right _ List.perm_append_comm

/-- Changing one record's state. -/
theorem inv_upd {c : OMap Bytes} {s s' : St} {l1 l2 : List RecW} {w w' : RecW}
    (h : Inv c s) (hw : s.writer = some (l1 ++ w :: l2)) (hs : Same s s') (ht : TOk s')
    (hk : w'.k = w.k)
    (hb : ((tb s'.tree ++ w'.ph.gotB) ++ wb (l1 ++ l2)).Nodup)
    (hl : ∀ b ∈ (tb s'.tree ++ w'.ph.gotB) ++ wb (l1 ++ l2), b < s'.nextBuf)
    (hc : ∀ k, k ≠ w.k → get (cont s') k = get (cont s) k)
    (htree : ∀ k, k ≠ w.k → OMap.get s'.tree k = OMap.get s.tree k)
    (hwi : WInv c (cont s') s'.tree w') :
    Inv c { s' with writer := some (l1 ++ w' :: l2) } := by
  have hwl : s.wl = l1 ++ w :: l2 := by simp [St.wl, hw]
  have hr : s'.readers = [] := by rw [hs.readers]; exact h.lock (by simp [hw])
  have hkn := h.wkeys
  rw [hwl, List.map_append, List.map_cons] at hkn
  have hkn' : (RecW.k w :: (l1.map RecW.k ++ l2.map RecW.k)).Nodup :=
    List.perm_middle.nodup_iff.1 hkn
  have hne : ∀ x ∈ l1 ++ l2, x.k ≠ w.k := by
    intro x hx he
    apply (List.nodup_cons.1 hkn').1
    rw [← he, ← List.map_append]
    exact List.mem_map_of_mem hx
  have hmem : ∀ x, x ∈ l1 ++ w' :: l2 ↔ x = w' ∨ x ∈ l1 ++ l2 := by
    intro x; simp only [List.mem_append, List.mem_cons]; grind
  refine ⟨h.sortedC, ht.sorted, fun _ => hr, ?_, ?_, ht.rnodup, ht.rhere, ?_, ?_, ?_, ?_⟩
  · exact (wb_perm l1 l2 w' (tb s'.tree)).nodup_iff.2 hb
  · intro b hm
    exact hl b ((wb_perm l1 l2 w' (tb s'.tree)).mem_iff.1 hm)
  · intro id r hg
    simp [hr] at hg
  · simp only [St.wl, Option.getD_some, List.map_append, List.map_cons, hk]
    exact hkn
  · intro x hx
    simp only [St.wl, Option.getD_some] at hx
    rcases (hmem x).1 hx with rfl | hx
    · exact hwi
    · have hold := h.writing x (by rw [hwl]; simp only [List.mem_append, List.mem_cons] at hx ⊢; grind)
      have hxk := hne x hx
      have e1 := hc x.k hxk
      have e2 := htree x.k hxk
      change WInv c (cont s') s'.tree x
      simp only [WInv] at hold ⊢
      rw [e1, e2]
      exact hold
  · intro k hkk
    simp only [St.wl, Option.getD_some] at hkk
    have hkw : k ≠ w.k := by
      intro e
      exact hkk w' ((hmem w').2 (Or.inl rfl)) (by rw [hk, e])
    rw [show cont { s' with writer := some (l1 ++ w' :: l2) } = cont s' from rfl, hc k hkw]
    apply h.others
    intro x hx
    rw [hwl] at hx
    simp only [List.mem_append, List.mem_cons] at hx
    rcases hx with hx | rfl | hx
    · exact hkk x (by simp [hx])
    · exact fun e => hkw e.symm
    · exact hkk x (by simp [hx])

theorem advance_inv {c : OMap Bytes} {s : St} {l1 l2 : List RecW} {w : RecW}
    (h : Inv c s) (hw : s.writer = some (l1 ++ w :: l2)) :
    ∃ s' w', advance s w = .ok s' w' ∧ Inv c { s' with writer := some (l1 ++ w' :: l2) } := by
  have hwl : s.wl = l1 ++ w :: l2 := by simp [St.wl, hw]
  have hwi := h.writing w (by rw [hwl]; simp)
  have hno : s.readers = [] := h.lock (by simp [hw])
  have hb := (wb_perm l1 l2 w (tb s.tree)).nodup_iff.1 (by rw [← hwl]; exact h.bnodup)
  have hl : ∀ b ∈ (tb s.tree ++ w.ph.gotB) ++ wb (l1 ++ l2), b < s.nextBuf := by
    intro b hm
    apply h.blt
    rw [hwl]
    exact (wb_perm l1 l2 w (tb s.tree)).mem_iff.2 hm
  have hsame : Same s s := ⟨rfl, rfl, rfl, Nat.le_refl _⟩
  obtain ⟨wk, wf, wfull, wph⟩ := w
  simp only [WInv] at hwi
  cases wph with
  | start =>
    simp only [Phase.gotB, List.append_nil] at hb hl
    simp only at hwi
    cases wfull with
    | true =>
      have hsame0 : Same s { s with nextBuf := s.nextBuf + 1 } :=
        ⟨rfl, rfl, rfl, Nat.le_succ _⟩
      have htok0 : TOk { s with nextBuf := s.nextBuf + 1 } := ⟨h.sorted, h.rnodup, h.rhere⟩
      obtain ⟨s', p1, p2, p3, p4, p5, p6⟩ := placeBuf_spec htok0 wk s.nextBuf (wf none)
      refine ⟨s', ⟨wk, wf, true, .done⟩, by simp only [advance, if_true, p1], ?_⟩
      have hss : Same s s' := ⟨p2.readers, p2.writer, p2.nextRid, Nat.le_trans (Nat.le_succ _) p2.nextBuf⟩
      have hsub : (tb (OMap.remove s.tree wk)).Sublist (tb s.tree) := by
        simp only [tb, OMap.remove]
        exact flatMap_sub List.filter_sublist _
      have hperm : (tb s'.tree ++ wb (l1 ++ l2)).Perm
          (s.nextBuf :: (tb (OMap.remove s.tree wk) ++ wb (l1 ++ l2))) :=
        List.Perm.append_right _ p6
      have hsub2 : (tb (OMap.remove s.tree wk) ++ wb (l1 ++ l2)).Sublist
          (tb s.tree ++ wb (l1 ++ l2)) := List.Sublist.append hsub (List.Sublist.refl _)
      apply inv_upd (w := ⟨wk, wf, true, .start⟩) (w' := ⟨wk, wf, true, .done⟩) h hw hss p3 rfl
      · simp only [Phase.gotB, List.append_nil]
        refine hperm.nodup_iff.2 (List.nodup_cons.2 ⟨?_, hsub2.nodup hb⟩)
        intro hm
        exact absurd (hl _ (hsub2.subset hm)) (Nat.lt_irrefl _)
      · simp only [Phase.gotB, List.append_nil]
        intro b hm
        have hnb : s.nextBuf + 1 ≤ s'.nextBuf := p2.nextBuf
        rcases List.mem_cons.1 (hperm.mem_iff.1 hm) with rfl | hm
        · exact hnb
        · have := hl b (hsub2.subset hm); omega
      · intro k hk
        rw [p5, get_insert, if_neg hk]; rfl
      · intro k hk
        rw [p4, get_insert, if_neg hk]
      · refine ⟨hwi.1, ?_⟩
        simp only
        rw [p5, get_insert, if_pos rfl, hwi.2]
        exact congrArg some (hwi.1 rfl _ _)
    | false =>
      obtain ⟨s', b, p1, p2, p3, p4, p5, p6⟩ := popRec_spec (tok_of_inv h) wk
      refine ⟨s', ⟨wk, wf, false, .got b (get (cont s) wk)⟩,
        by simp only [advance, Bool.false_eq_true, if_false, p1], ?_⟩
      apply inv_upd (w := ⟨wk, wf, false, .start⟩) (w' := ⟨wk, wf, false, .got b (get (cont s) wk)⟩) h hw p2 p3 rfl
      · simp only [Phase.gotB]
        rcases p6 with p6 | ⟨p6, rfl, _⟩
        · refine (List.Perm.append_right _ ?_).nodup_iff.1 hb
          exact p6.trans List.perm_append_comm
        · have : ((tb s'.tree ++ [s.nextBuf]) ++ wb (l1 ++ l2)).Perm
              (s.nextBuf :: (tb s.tree ++ wb (l1 ++ l2))) := by
            rw [List.append_assoc, List.singleton_append]
            refine List.perm_middle.trans (List.Perm.cons _ (List.Perm.append_right _ p6.symm))
          refine this.nodup_iff.2 (List.nodup_cons.2 ⟨?_, hb⟩)
          intro hm
          exact absurd (hl _ hm) (Nat.lt_irrefl _)
      · simp only [Phase.gotB]
        intro x hm
        rcases p6 with p6 | ⟨p6, rfl, hn⟩
        · have : x ∈ tb s.tree ++ wb (l1 ++ l2) := by
            refine (List.Perm.append_right _ ?_).mem_iff.1 hm
            exact List.perm_append_comm.trans p6.symm
          exact Nat.lt_of_lt_of_le (hl x this) p2.nextBuf
        · rw [hn]
          simp only [List.mem_append, List.mem_singleton] at hm
          rcases hm with (hm | rfl) | hm
          · have := hl x (List.mem_append_left _ (p6.mem_iff.2 hm)); omega
          · omega
          · have := hl x (List.mem_append_right _ hm); omega
      · intro k hk
        rw [p5, get_remove, if_neg hk]
      · intro k hk
        rw [p4, get_remove, if_neg hk]
      · refine ⟨hwi.1, ?_⟩
        simp only
        exact ⟨by rw [p5, get_remove, if_pos rfl], hwi.2, trivial⟩
  | got b old =>
    simp only [Phase.gotB] at hb hl
    simp only at hwi
    have hch : s.constHeld b = false := by simp [St.constHeld, hno]
    have hmh : s.mutHeld b = false := by
      simp only [St.mutHeld, hw]
      rw [List.any_eq_false]
      intro x hx hpl
      have hxi := h.writing x (by rw [hwl]; exact hx)
      obtain ⟨xk, xf, xfull, xph⟩ := x
      cases xph with
      | placed b' =>
        obtain rfl : b' = b := by simpa [Phase.isPlaced] using hpl
        simp only [WInv] at hxi
        obtain ⟨_, _, d, hd⟩ := hxi
        have h1 : b' ∈ tb s.tree := mem_tb (mem_of_get hd) (by simp [eb])
        rw [List.append_assoc] at hb
        exact (List.nodup_append.1 hb).2.2 b' h1 b' (by simp) rfl
      | _ => simp [Phase.isPlaced] at hpl
    obtain ⟨s', p1, p2, p3, p4, p5, p6⟩ := placeBuf_spec (tok_of_inv h) wk b (wf old)
    refine ⟨s', ⟨wk, wf, wfull, .placed b⟩,
      by simp only [advance, hch, hmh, Bool.or_self, Bool.false_eq_true, if_false, p1], ?_⟩
    have hsub : (tb (OMap.remove s.tree wk)).Sublist (tb s.tree) := by
      simp only [tb, OMap.remove]
      exact flatMap_sub List.filter_sublist _
    have hperm : (tb s'.tree ++ wb (l1 ++ l2)).Perm
        ((tb (OMap.remove s.tree wk) ++ [b]) ++ wb (l1 ++ l2)) :=
      List.Perm.append_right _ (p6.trans List.perm_append_comm)
    have hsub2 : ((tb (OMap.remove s.tree wk) ++ [b]) ++ wb (l1 ++ l2)).Sublist
        ((tb s.tree ++ [b]) ++ wb (l1 ++ l2)) :=
      List.Sublist.append (List.Sublist.append hsub (List.Sublist.refl _)) (List.Sublist.refl _)
    apply inv_upd (w := ⟨wk, wf, wfull, .got b old⟩) (w' := ⟨wk, wf, wfull, .placed b⟩) h hw p2 p3 rfl
    · simp only [Phase.gotB, List.append_nil]
      exact hperm.nodup_iff.2 (hsub2.nodup hb)
    · simp only [Phase.gotB, List.append_nil]
      intro x hm
      exact Nat.lt_of_lt_of_le (hl x (hsub2.subset (hperm.mem_iff.1 hm))) p2.nextBuf
    · intro k hk
      rw [p5, get_insert, if_neg hk]
    · intro k hk
      rw [p4, get_insert, if_neg hk]
    · refine ⟨hwi.1, ?_⟩
      simp only
      refine ⟨by rw [p5, get_insert, if_pos rfl, hwi.2.2.1], wf old, ?_⟩
      rw [p4, get_insert, if_pos rfl]
  | placed b =>
    simp only at hwi
    refine ⟨s, ⟨wk, wf, wfull, .done⟩, rfl, ?_⟩
    exact inv_upd (w := ⟨wk, wf, wfull, .placed b⟩) h hw hsame (tok_of_inv h) rfl hb hl
      (fun _ _ => rfl) (fun _ _ => rfl) ⟨hwi.1, hwi.2.1⟩
  | done =>
    refine ⟨s, ⟨wk, wf, wfull, .done⟩, rfl, ?_⟩
    exact inv_upd (w := ⟨wk, wf, wfull, .done⟩) h hw hsame (tok_of_inv h) rfl hb hl
      (fun _ _ => rfl) (fun _ _ => rfl) hwi

/-! ## Flushing -/

theorem flushItems_kept (p : Nat → Bool) (t : OMap Ent) : ∀ {s : St} {t' : OMap Ent}
    {recs : OMap Bytes} {n : Nat}, flushItems p s t = some (t', recs, n) →
    ∀ k b d, (k, Ent.inline b d) ∈ t → s.mutHeld b = true → (k, Ent.inline b d) ∈ t' := by
  induction t with
  | nil => intro s t' recs n h k b d hm; simp at hm
  | cons x t ih =>
    obtain ⟨k', e⟩ := x
    intro s t' recs n h k b d hm hh
    simp only [flushItems] at h
    split at h
    · cases he : flushEnt s e with
      | none => rw [he] at h; simp at h
      | some q =>
        obtain ⟨e', recs', n'⟩ := q
        rw [he] at h
        simp only at h
        cases ht : flushItems p { s with recs := recs', nextRid := n' } t with
        | none => rw [ht] at h; simp at h
        | some q =>
          obtain ⟨m', x⟩ := q
          rw [ht] at h
          simp only [Option.some.injEq, Prod.mk.injEq] at h
          obtain ⟨rfl, hx⟩ := h
          rcases List.mem_cons.1 hm with heq | hm
          · simp only [Prod.mk.injEq] at heq
            obtain ⟨rfl, rfl⟩ := heq
            simp only [flushEnt, hh, if_true] at he
            simp at he
          · exact List.mem_cons_of_mem _ (ih ht k b d hm hh)
    · cases ht : flushItems p s t with
      | none => rw [ht] at h; simp at h
      | some q =>
        obtain ⟨m', x⟩ := q
        rw [ht] at h
        simp only [Option.some.injEq, Prod.mk.injEq] at h
        obtain ⟨rfl, hx⟩ := h
        rcases List.mem_cons.1 hm with heq | hm
        · rw [heq]; exact List.mem_cons_self
        · exact List.mem_cons_of_mem _ (ih ht k b d hm hh)

theorem flush_inv {c : OMap Bytes} {s : St} {p : Nat → Bool} {t : OMap Ent} {recs : OMap Bytes}
    {n : Nat} (h : Inv c s) (hf : flushItems p s s.tree = some (t, recs, n)) :
    Inv c { s with tree := t, recs := recs, nextRid := n } := by
  have q := flushItems_spec p s.tree h.rnodup h.rhere hf
  have hst : Sorted t := sorted_of_keys q.keys h.sorted
  have hcont : cont { s with tree := t, recs := recs, nextRid := n } = cont s := q.view
  refine ⟨h.sortedC, hst, h.lock, ?_, ?_, q.rnodup, q.rhere, ?_, h.wkeys, ?_, ?_⟩
  · exact (List.Sublist.append q.bufs (List.Sublist.refl _)).nodup h.bnodup
  · intro b hb
    exact h.blt b ((List.Sublist.append q.bufs (List.Sublist.refl _)).subset hb)
  · intro id r hr
    have hi := h.readers id r hr
    refine ⟨hi.le, hi.le_hi, ?_, ?_⟩
    · rw [hcont, ← hi.data]
      congr 1
      apply mapV_congr
      intro e he
      exact dat_congr fun x hx => q.old x (hi.here e he x hx).1
    · intro e he x hx
      have := hi.here e he x hx
      refine ⟨Nat.lt_of_lt_of_le this.1 q.mono, ?_⟩
      rw [q.old x this.1]; exact this.2
  · intro w hw
    have hi := h.writing w hw
    rw [hcont]
    obtain ⟨wk, wf, wfull, wph⟩ := w
    cases wph with
    | placed b =>
      simp only [WInv] at hi ⊢
      obtain ⟨h1, h2, d, hd⟩ := hi
      refine ⟨h1, h2, d, ?_⟩
      have hmut : s.mutHeld b = true := by
        cases hwr : s.writer with
        | none => simp [St.wl, hwr] at hw
        | some l =>
          simp only [St.mutHeld, hwr, List.any_eq_true]
          exact ⟨⟨wk, wf, wfull, .placed b⟩, by simpa [St.wl, hwr] using hw,
            by simp [Phase.isPlaced]⟩
      exact get_of_mem hst (flushItems_kept p s.tree hf wk b d (mem_of_get hd) hmut)
    | _ => exact hi
  · intro k hk
    rw [hcont]
    exact h.others k hk

/-! ## Everything -/

/-- What the file holds after an event. -/
def after (c : OMap Bytes) : Ev → OMap Bytes
  | .openW l => Spec.write c (l.map fun w => (w.1, w.2.1))
  | _ => c

/-- The ranges of the reads. -/
def ranges (g : OMap (Nat × Nat)) : Ev → OMap (Nat × Nat)
  | .openR id lo hi => g.insert id (lo, hi)
  | _ => g

/-- What an event should answer. -/
def answer (c : OMap Bytes) (g : OMap (Nat × Nat)) : Ev → Option (List (Nat × Bytes))
  | .closeR id => (g.get id).map fun x => Spec.read c x.1 x.2
  | _ => none

def REq (g : OMap (Nat × Nat)) (s : St) : Prop :=
  ∀ id r, s.readers.get id = some r → g.get id = some (r.lo, r.hi)

/-- Replacing a read. -/
theorem inv_reader {c : OMap Bytes} {s : St} {id : Nat} {r : Reader} (h : Inv c s)
    (hw : s.writer = none) (hr : RInv s r) :
    Inv c { s with readers := s.readers.insert id r } := by
  refine ⟨h.sortedC, h.sorted, fun hx => absurd hw hx, h.bnodup, h.blt, h.rnodup, h.rhere, ?_,
    h.wkeys, h.writing, h.others⟩
  intro id' r' hg
  simp only [get_insert] at hg
  split at hg
  · obtain rfl : r = r' := by simpa using hg
    exact ⟨hr.le, hr.le_hi, hr.data, hr.here⟩
  · have := h.readers id' r' hg
    exact ⟨this.le, this.le_hi, this.data, this.here⟩

theorem no_writer {c : OMap Bytes} {s : St} {id : Nat} {r : Reader} (h : Inv c s)
    (hr : s.readers.get id = some r) : s.writer = none := by
  cases hw : s.writer with
  | none => rfl
  | some l =>
    have := h.lock (by simp [hw])
    rw [this] at hr
    simp at hr

theorem filter_split (m : OMap Bytes) (hs : Sorted m) {a b c : Nat} (h1 : a ≤ b) (h2 : b ≤ c) :
    (m.filter fun e => decide (a ≤ e.1 ∧ e.1 < b)) ++ (m.filter fun e => decide (b ≤ e.1 ∧ e.1 < c)) =
      m.filter fun e => decide (a ≤ e.1 ∧ e.1 < c) := by
  induction m with
  | nil => rfl
  | cons x m ih =>
    have ih := ih hs.tail
    simp only [List.filter_cons]
    by_cases ha : a ≤ x.1
    · by_cases hb : x.1 < b
      · have g1 : decide (a ≤ x.1 ∧ x.1 < b) = true := by simp; omega
        have g2 : decide (b ≤ x.1 ∧ x.1 < c) = false := by simp; omega
        have g3 : decide (a ≤ x.1 ∧ x.1 < c) = true := by simp; omega
        simp only [g1, g2, g3, if_true, Bool.false_eq_true, if_false, List.cons_append, ih]
      · have hnone : (m.filter fun e => decide (a ≤ e.1 ∧ e.1 < b)) = [] := by
          rw [List.filter_eq_nil_iff]
          intro y hy
          have := List.rel_of_pairwise_cons hs hy
          simp only [decide_eq_true_eq]; omega
        have g1 : decide (a ≤ x.1 ∧ x.1 < b) = false := by simp; omega
        rw [hnone, List.nil_append] at ih
        by_cases hc : x.1 < c
        · have g2 : decide (b ≤ x.1 ∧ x.1 < c) = true := by simp; omega
          have g3 : decide (a ≤ x.1 ∧ x.1 < c) = true := by simp; omega
          simp only [g1, g2, g3, if_true, Bool.false_eq_true, if_false, hnone, List.nil_append, ih]
        · have g2 : decide (b ≤ x.1 ∧ x.1 < c) = false := by simp; omega
          have g3 : decide (a ≤ x.1 ∧ x.1 < c) = false := by simp; omega
          simp only [g1, g2, g3, Bool.false_eq_true, if_false, hnone, List.nil_append, ih]
    · have g1 : decide (a ≤ x.1 ∧ x.1 < b) = false := by simp; omega
      have g2 : decide (b ≤ x.1 ∧ x.1 < c) = false := by simp; omega
      have g3 : decide (a ≤ x.1 ∧ x.1 < c) = false := by simp; omega
      simp only [g1, g2, g3, Bool.false_eq_true, if_false, ih]

/-- What is known of one event. -/
theorem step_spec {c : OMap Bytes} {g : OMap (Nat × Nat)} {s : St} {ev : Ev} {res : Res}
    (h : Inv c s) (hg : REq g s) (hok : ∀ l, ev = .openW l → okWrite l)
    (hst : step s ev = some res) :
    (∃ s', res = .ok s' (answer c g ev) ∧ Inv (after c ev) s' ∧ REq (ranges g ev) s') ∨
    (res = .panic ∧ ∃ p, ev = .flush p) := by
  cases ev with
  | openR id lo hi =>
    left
    simp only [step] at hst
    split at hst
    · rename_i h1 h2
      simp only [Option.some.injEq] at hst
      subst hst
      refine ⟨_, rfl, ?_, ?_⟩
      · apply inv_reader h h2
        refine ⟨Nat.le_refl _, Nat.le_max_left _ _, ?_, by intro e he; simp at he⟩
        symm
        simp only [mapV, List.map_nil, List.append_nil]
        rw [List.filter_eq_nil_iff]
        intro e _
        simp only [decide_eq_true_eq]; omega
      · intro id' r' hr
        simp only [get_insert] at hr
        simp only [ranges, get_insert]
        split at hr
        · rename_i he
          obtain rfl : _ = r' := by simpa using hr
          rw [if_pos he]
        · rename_i he
          rw [if_neg he]; exact hg id' r' hr
    · simp at hst
  | fill id n =>
    left
    simp only [step] at hst
    cases hr : s.readers.get id with
    | none => simp [hr] at hst
    | some r =>
      rw [hr] at hst
      simp only at hst
      split at hst
      · rename_i hc
        obtain ⟨c1, c2, c3⟩ := hc
        simp only [Option.some.injEq] at hst
        subst hst
        have hi := h.readers id r hr
        refine ⟨_, rfl, ?_, ?_⟩
        · apply inv_reader h (no_writer h hr)
          refine ⟨Nat.le_trans hi.le c2, Nat.le_trans c3 (Nat.le_max_right _ _), ?_, ?_⟩
          · have hd := hi.data
            rw [c1] at hd
            simp only [mapV, List.map_nil, List.append_nil] at hd
            simp only [fill, hd]
            rw [← filter_split (cont s) (sorted_mapV h.sorted) hi.le c2]
            congr 1
            exact filter_mapV (dat s.recs) s.tree (fun k => decide (r.cur ≤ k ∧ k < n))
          · intro e he x hx
            simp only [fill] at he
            exact h.rhere x (mem_tr (List.mem_filter.1 he).1 hx)
        · intro id' r' hr'
          simp only [get_insert] at hr'
          split at hr'
          · rename_i he
            subst he
            obtain rfl : _ = r' := by simpa using hr'
            exact hg _ r hr
          · exact hg id' r' hr'
      · simp at hst
  | next id =>
    left
    simp only [step] at hst
    cases hr : s.readers.get id with
    | none => simp [hr] at hst
    | some r =>
      rw [hr] at hst
      simp only at hst
      cases ht : r.todo with
      | nil => simp [ht] at hst
      | cons e l =>
        rw [ht] at hst
        simp only at hst
        have hi := h.readers id r hr
        have hw := no_writer h hr
        obtain ⟨k, e⟩ := e
        have key : ∃ r', next s r (k, e) l = .ok r' ∧ r'.lo = r.lo ∧ r'.hi = r.hi ∧
            r'.cur = r.cur ∧ r'.todo = l ∧ r'.out = r.out ++ [(k, dat s.recs e)] := by
          cases e with
          | inline b d =>
            have : s.mutHeld b = false := by simp [St.mutHeld, hw]
            exact ⟨{ r with todo := l, out := r.out ++ [(k, d)], held := b :: r.held },
              by simp only [next, this, Bool.false_eq_true, if_false], rfl, rfl, rfl, rfl, rfl⟩
          | blob x =>
            have := hi.here (k, .blob x) (by rw [ht]; simp) x (by simp [er])
            obtain ⟨d, hd⟩ := Option.ne_none_iff_exists'.1 this.2
            exact ⟨{ r with todo := l, out := r.out ++ [(k, d)] }, by simp only [next, hd],
              rfl, rfl, rfl, rfl, by simp [dat, hd]⟩
        obtain ⟨r', k1, k2, k3, k4, k5, k6⟩ := key
        rw [k1] at hst
        simp only [Option.some.injEq] at hst
        subst hst
        refine ⟨_, rfl, ?_, ?_⟩
        · apply inv_reader h hw
          refine ⟨by rw [k2, k4]; exact hi.le, by rw [k2, k3, k4]; exact hi.le_hi, ?_, ?_⟩
          · have hd := hi.data
            rw [ht] at hd
            rw [k2, k4, k5, k6, ← hd]
            simp [mapV]
          · intro e' he x hx
            rw [k5] at he
            exact hi.here e' (by rw [ht]; simp [he]) x hx
        · intro id' r'' hr'
          simp only [get_insert] at hr'
          split at hr'
          · rename_i he
            subst he
            obtain rfl : r' = r'' := by simpa using hr'
            rw [k2, k3]
            exact hg _ r hr
          · exact hg id' r'' hr'
  | closeR id =>
    left
    simp only [step] at hst
    cases hr : s.readers.get id with
    | none => simp [hr] at hst
    | some r =>
      rw [hr] at hst
      simp only at hst
      split at hst
      · rename_i hc
        obtain ⟨c1, c2⟩ := hc
        simp only [Option.some.injEq] at hst
        subst hst
        have hi := h.readers id r hr
        have hw := no_writer h hr
        have hout : r.out = Spec.read c r.lo r.hi := by
          have hd := hi.data
          rw [c1] at hd
          simp only [mapV, List.map_nil, List.append_nil] at hd
          rw [hd, inv_cont h hw]
          apply List.filter_congr
          intro e _
          have := hi.le_hi
          have := hi.le
          simp only [decide_eq_decide]
          omega
        refine ⟨{ s with readers := s.readers.remove id },
          by simp only [answer, hg id r hr, Option.map_some, hout], ?_, ?_⟩
        · refine ⟨h.sortedC, h.sorted, fun hx => absurd hw hx, h.bnodup, h.blt, h.rnodup, h.rhere,
            ?_, h.wkeys, h.writing, h.others⟩
          intro id' r' hg'
          simp only [get_remove] at hg'
          split at hg'
          · simp at hg'
          · have := h.readers id' r' hg'
            exact ⟨this.le, this.le_hi, this.data, this.here⟩
        · intro id' r' hg'
          simp only [get_remove] at hg'
          split at hg'
          · simp at hg'
          · exact hg id' r' hg'
      · simp at hst
  | openW l =>
    left
    simp only [step] at hst
    split at hst
    · rename_i h1 h2
      simp only [Option.some.injEq] at hst
      subst hst
      obtain ⟨hn, hf⟩ := hok l rfl
      have hc := inv_cont h h2
      have hkeys : ((l.map fun w => (w.1, w.2.1)).map (·.1)) = l.map (·.1) := by
        simp [List.map_map, Function.comp_def]
      have hwb : wb (l.map fun w => (⟨w.1, w.2.1, w.2.2, .start⟩ : RecW)) = [] := by
        simp only [wb, List.flatMap_map, Phase.gotB]
        simp
      refine ⟨_, rfl, ⟨sorted_write _ h.sortedC, h.sorted, fun _ => h1, ?_, ?_, h.rnodup, h.rhere,
        ?_, ?_, ?_, ?_⟩, ?_⟩
      · simp only [St.wl, Option.getD_some]
        rw [hwb]
        have := h.bnodup
        simpa [St.wl, h2, wb] using this
      · simp only [St.wl, Option.getD_some]
        rw [hwb]
        have := h.blt
        simpa [St.wl, h2, wb] using this
      · intro id r hr
        simp only [h1] at hr
        simp at hr
      · simp only [St.wl, Option.getD_some, List.map_map, Function.comp_def]
        exact hn
      · intro w hw
        simp only [St.wl, Option.getD_some, List.mem_map] at hw
        obtain ⟨x, hx, rfl⟩ := hw
        refine ⟨hf x hx, ?_⟩
        change get (Spec.write c (l.map fun w => (w.1, w.2.1))) x.1 = some (x.2.1 (get (cont s) x.1))
        rw [hc]
        exact get_write _ c (by rw [hkeys]; exact hn) (x.1, x.2.1)
          (List.mem_map.2 ⟨x, hx, rfl⟩)
      · intro k hk
        simp only [St.wl, Option.getD_some] at hk
        change get (cont s) k = get (Spec.write c (l.map fun w => (w.1, w.2.1))) k
        rw [hc]
        symm
        apply get_write_other
        intro w hw
        obtain ⟨x, hx, rfl⟩ := List.mem_map.1 hw
        exact hk _ (List.mem_map.2 ⟨x, hx, rfl⟩)
      · intro id r hr
        exact hg id r hr
    · simp at hst
  | advance i =>
    left
    simp only [step] at hst
    cases hw : s.writer with
    | none => simp [hw] at hst
    | some l =>
      rw [hw] at hst
      simp only at hst
      cases hx : l[i]? with
      | none => simp [hx] at hst
      | some w =>
        rw [hx] at hst
        simp only at hst
        obtain ⟨hi, hxe⟩ := List.getElem?_eq_some_iff.1 hx
        have hl : l = l.take i ++ w :: l.drop (i + 1) := by
          rw [← hxe, List.getElem_cons_drop, List.take_append_drop]
        obtain ⟨s', w', a1, a2⟩ := advance_inv h (hw.trans (congrArg some hl))
        rw [a1] at hst
        simp only [Option.some.injEq] at hst
        subst hst
        rw [List.set_eq_take_append_cons_drop, if_pos hi]
        refine ⟨_, rfl, a2, ?_⟩
        intro id r hr
        have := a2.lock (by simp)
        simp only at this hr
        rw [this] at hr
        simp at hr
  | closeW =>
    left
    simp only [step] at hst
    cases hw : s.writer with
    | none => simp [hw] at hst
    | some l =>
      rw [hw] at hst
      simp only at hst
      split at hst
      · rename_i hall
        simp only [Option.some.injEq] at hst
        subst hst
        have hwl : s.wl = l := by simp [St.wl, hw]
        have hb := h.bnodup
        have hbl := h.blt
        have hall' : ∀ w ∈ l, w.ph = .done := by
          intro w hm
          have := List.all_eq_true.1 hall w hm
          cases hp : w.ph <;> simp_all [Phase.isDone]
        refine ⟨_, rfl, ⟨h.sortedC, h.sorted, fun hx => absurd rfl hx, ?_, ?_, h.rnodup, h.rhere,
          ?_, ?_, ?_, ?_⟩, ?_⟩
        · simp only [St.wl, Option.getD_none, wb, List.flatMap_nil, List.append_nil]
          exact (List.nodup_append.1 hb).1
        · intro b hm
          simp only [St.wl, Option.getD_none, wb, List.flatMap_nil, List.append_nil] at hm
          exact hbl b (List.mem_append_left _ hm)
        · intro id r hr
          have := h.readers id r hr
          exact ⟨this.le, this.le_hi, this.data, this.here⟩
        · simp [St.wl]
        · intro w hm; simp [St.wl] at hm
        · intro k _
          change get (cont s) k = get c k
          by_cases hk : ∃ w ∈ s.wl, w.k = k
          · obtain ⟨w, hm, rfl⟩ := hk
            have hi := h.writing w hm
            rw [hwl] at hm
            have hd := hall' w hm
            simp only [WInv, hd] at hi
            exact hi.2.symm
          · apply h.others
            intro w hm he
            exact hk ⟨w, hm, he⟩
        · intro id r hr; exact hg id r hr
      · simp at hst
  | flush p =>
    simp only [step] at hst
    cases hf : flushItems p s s.tree with
    | none =>
      rw [hf] at hst
      simp only [Option.some.injEq] at hst
      exact Or.inr ⟨hst.symm, p, rfl⟩
    | some q =>
      obtain ⟨t, recs, n⟩ := q
      rw [hf] at hst
      simp only [Option.some.injEq] at hst
      subst hst
      exact Or.inl ⟨_, rfl, flush_inv h hf, fun id r hr => hg id r hr⟩

end Verif.Share
