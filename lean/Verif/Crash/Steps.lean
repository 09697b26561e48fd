import Verif.Crash.Lemmas

/-! # The steps of a sync, and crashes -/

namespace Verif.Crash

open Verif
open Verif.Cluster hiding Op step

variable {β : Type}

/-! ### The disk -/

theorem sync_view (d : Disk β) : d.sync.view = d.view := rfl

theorem foldl_no_label (ws : List (Wr β)) (m : Media β) (i : Nat) (h : ∀ w ∈ ws, ∀ l, w ≠ .label i l) :
    (ws.foldl Wr.apply m).label i = m.label i := by
  induction ws generalizing m with
  | nil => rfl
  | cons w ws ih =>
    rw [List.foldl_cons, ih _ (fun w hw => h w (List.mem_cons_of_mem _ hw))]
    have := h w (List.mem_cons_self ..)
    cases w with
    | label j l =>
      simp only [Wr.apply]
      rw [if_neg (fun e => this l (by rw [e]))]
    | smap c i b => rfl
    | blk b v => rfl
    | erase lo hi => rfl

/-- All writes to the label are the same, and there is one. -/
theorem foldl_label (ws : List (Wr β)) (m : Media β) (i : Nat) (l : Label β)
    (h : ∀ w ∈ ws, ∀ l', w = .label i l' → l' = l) (hm : m.label i = some l ∨ Wr.label i l ∈ ws) :
    (ws.foldl Wr.apply m).label i = some l := by
  induction ws generalizing m with
  | nil =>
    rcases hm with hm | hm
    · exact hm
    · cases hm
  | cons w ws ih =>
    rw [List.foldl_cons]
    refine ih _ (fun w hw => h w (List.mem_cons_of_mem _ hw)) ?_
    have hw := h w (List.mem_cons_self ..)
    by_cases hwl : ∃ l', w = .label i l'
    · obtain ⟨l', rfl⟩ := hwl
      cases hw l' rfl
      exact .inl (by simp [Wr.apply])
    · rcases hm with hm | hm
      · refine .inl ?_
        cases w with
        | label j l' =>
          simp only [Wr.apply]
          rw [if_neg (fun e => hwl ⟨l', by rw [e]⟩)]
          exact hm
        | smap c i b => exact hm
        | blk b v => exact hm
        | erase lo hi => exact hm
      · rcases List.mem_cons.1 hm with hm | hm
        · exact absurd ⟨l, hm.symm⟩ hwl
        · exact .inr hm

/-- A label that is seen is durable or in the cache. -/
theorem hasLabel_of_view {d : Disk β} {i : Nat} {l : Label β} (h : d.view.label i = some l) :
    HasLabel d i l := by
  unfold HasLabel
  have : ∀ (ws : List (Wr β)) (m : Media β), (ws.foldl Wr.apply m).label i = some l →
      m.label i = some l ∨ Wr.label i l ∈ ws := by
    intro ws
    induction ws with
    | nil => exact fun m h => .inl h
    | cons w ws ih =>
      intro m h
      rcases ih _ h with h | h
      · cases w with
        | label j l' =>
          simp only [Wr.apply] at h
          split at h
          · cases h
            exact .inr (by simp_all)
          · exact .inl h
        | smap c i b => exact .inl h
        | blk b v => exact .inl h
        | erase lo hi => exact .inl h
      · exact .inr (List.mem_cons_of_mem _ h)
  exact this _ _ h

theorem Kept.view {d : Disk β} {recs : List Rec} {l : Label β} (h : Kept d recs l) :
    Intact d.view l.refs := intact_foldl h.intact h.untouched

variable {g : Geo} {H : Nat → List ZoneOnDisk → Nat} {n : Nat} {A : List (List β) → Prop}

theorem Core.mono {A' : List (List β) → Prop} {s : Sys β} {recs : List Rec} (C : Core g H n A s recs)
    (h : ∀ x, A x → A' x) : Core g H n A' s recs :=
  ⟨C.good, C.live, C.intact, C.cur, fun i l hi hl => ⟨(C.labels i l hi hl).1, h _ (C.labels i l hi hl).2⟩,
    C.snap, C.data⟩

/-- Labels and records after `sync_all`. -/
theorem labels_sync {d : Disk β} {recs : List Rec}
    (h : ∀ i l, i < 2 → HasLabel d i l → Kept d recs l ∧ A (l.refs.map Prod.snd)) :
    ∀ i l, i < 2 → HasLabel d.sync i l → Kept d.sync recs l ∧ A (l.refs.map Prod.snd) := by
  intro i l hi hl
  have hl' : d.view.label i = some l := by
    rcases hl with hl | hl
    · exact hl
    · cases hl
  obtain ⟨h1, h2⟩ := h i l hi (hasLabel_of_view hl')
  exact ⟨⟨h1.view, fun w hw => (by cases hw), h1.covered⟩, h2⟩

/-- Labels and records after more writes. -/
theorem labels_write {d : Disk β} {recs : List Rec} {ws : List (Wr β)}
    (hw : ∀ w ∈ ws, ∀ a, ¬ w.touches a)
    (h : ∀ i l, i < 2 → HasLabel d i l → Kept d recs l ∧ A (l.refs.map Prod.snd))
    (hn : ∀ i l, i < 2 → Wr.label i l ∈ ws → Kept d recs l ∧ A (l.refs.map Prod.snd)) :
    ∀ i l, i < 2 → HasLabel (d.write ws) i l → Kept (d.write ws) recs l ∧ A (l.refs.map Prod.snd) := by
  intro i l hi hl
  have : Kept d recs l ∧ A (l.refs.map Prod.snd) := by
    rcases hl with hl | hl
    · exact h i l hi (.inl hl)
    · rcases List.mem_append.1 hl with hl | hl
      · exact h i l hi (.inr hl)
      · exact hn i l hi hl
  refine ⟨⟨this.1.intact, ?_, this.1.covered⟩, this.2⟩
  intro w hw' r hr j hj
  rcases List.mem_append.1 hw' with hw' | hw'
  · exact this.1.untouched w hw' r hr j hj
  · exact hw w hw' _

theorem intact_write {m : Media β} {ws : List (Wr β)} {refs : List (Ref β)}
    (hw : ∀ w ∈ ws, ∀ a, ¬ w.touches a) (h : Intact m refs) : Intact (ws.foldl Wr.apply m) refs :=
  intact_foldl h (fun w hw' _ _ _ _ => hw w hw' _)

/-- A flush of the spacemap. -/
theorem flush_disk {s : Sys β} {recs : List Rec} (G : Good g n ⟨s.c, recs⟩) (copy : Nat) {gap : Nat → Nat}
    (hl : ∀ z zn oz, s.c.fsm.zones[z]? = some zn → s.c.fsm.opn.get z = some oz →
      oz.allocated + gap z ≤ zn.total)
    (hcur : ∀ i, s.c.fsm.dirty[i]? = some false → Current H s.c.fsm s.disk.view.smap i) :
    ∃ c bs, s.c.flush H gap = some (c, bs) ∧ Good g n ⟨c, recs⟩ ∧
      (copy = 0 → ∀ i, i < spacemapSpace n → Current H c.fsm (writeBlocks s.disk.view.smap 0 bs) i) ∧
      (gap = (fun _ => 0) → ∀ i, Current H s.c.fsm s.disk.view.smap i →
        Current H c.fsm (writeBlocks s.disk.view.smap 1 bs) i) ∧
      ∀ i : Nat, c.fsm.dirty[i]? = some false → i < spacemapSpace n := by
  have D : DGood g H n ⟨⟨s.c, recs⟩, s.disk.view.smap⟩ := ⟨G, hcur⟩
  obtain ⟨s', h1, h2, -, -, h5, h6⟩ := flush0_spec D (gap := gap) hl
  obtain ⟨c, hw, hf, -, -, hT, -⟩ := flush_spec (H := H) G (gap := gap) hl
  simp only at hf
  unfold DHist.flush at h1
  simp only [hf, Option.map_some, Option.some.injEq] at h1
  subst h1
  refine ⟨_, _, hf, h2, fun _ => h5, ?_, h6⟩
  rintro rfl i hi
  unfold Current at *
  rw [writeBlocks_other _ _ _ _ (by omega), hi]
  have : (c.fsm.clearDirty).blockZones i = s.c.fsm.blockZones i :=
    blockZones_congr (f := s.c.fsm) (f' := c.fsm) hT.total (fun z _ => waste_zero G hw z)
  rw [this]

/-- When everything is durable, label and spacemap belong together. -/
theorem snap_now {s : Sys β} {recs : List Rec} (G : Good g n ⟨s.c, recs⟩) (hl : LiveAre recs s.trees)
    (h0 : s.disk.durable.label 0 = some s.cur)
    (hc : ∀ i, i < spacemapSpace n → Current H s.c.fsm s.disk.durable.smap i)
    (hlab : ∀ l, HasLabel s.disk 1 l → Covered recs l.refs) : Snap g H n s.disk :=
  ⟨s.c, recs, s.cur, G, h0, hl, hc, hlab⟩

variable [DecidableEq β]

omit [DecidableEq β] in
theorem allowed_cur {s : Sys β} {k : Client β} {recs : List Rec} (I : Inv g H n s k recs) (h : 1 ≤ s.pc) :
    k.Allowed (s.trees.map Prod.snd) := by
  refine .inr ⟨k.contents, I.called h, ?_⟩
  have := I.contents
  rw [I.phase.mem h, List.nil_append] at this
  exact this.symm

omit [DecidableEq β] in
/-- The steps of a sync are those of `prog`. -/
theorem sync_eq {s : Sys β} {gap : Nat → Nat} {m : Micro} {s' : Sys β} (h : prog[s.pc]? = some m)
    (hm : s.micro g H gap m = some s') (hp : s'.pc = s.pc) {p : Nat}
    (he : (if s.pc + 1 = prog.length then 0 else s.pc + 1) = p) :
    s.sync g H gap = some { s' with pc := p } := by
  unfold Sys.sync
  rw [h]
  simp only [hm, Option.map_some, hp, he]

/-- The first step of a sync. -/
theorem Inv.call (geo : GeoOk g n) {s s' : Sys β} {k : Client β} {recs : List Rec} (I : Inv g H n s k recs)
    (hpc : s.pc = 0) {gap : Nat → Nat} (hl : SyncLegal s gap) (h : s.sync g H gap = some s') :
    ∃ recs', Inv g H n s' k.called recs' ∧ s'.pc = 1 := by
  have h' := h
  unfold Sys.sync at h'
  rw [show prog[s.pc]? = some Micro.flushTrees by rw [hpc]; rfl] at h'
  simp only [Sys.micro, Option.map_map, Option.map_eq_some_iff] at h'
  obtain ⟨s1, h1, -⟩ := h'
  have C := I.core.mono (A' := k.called.Allowed) (by
    rintro x (h | ⟨y, hy, h⟩)
    · exact .inl h
    · exact .inr ⟨y, List.mem_append.2 (.inl hy), h⟩)
  obtain ⟨e1, e2, ⟨recs', C'⟩, e3⟩ := C.storeAll geo s.mem hpc I.nonempty hl.1 h1
  have he := sync_eq (g := g) (H := H) (gap := gap) (p := 1) (s := s) (m := .flushTrees)
    (s' := { s1 with mem := [] }) (by rw [hpc]; rfl)
    (by simp only [Sys.micro, h1, Option.map_some]) (e1.trans hpc.symm) (by rw [hpc]; rfl)
  rw [h] at he
  cases he
  refine ⟨recs', ⟨⟨C'.good, C'.live, C'.intact, C'.cur, C'.labels, fun _ => C'.snap ?_, ?_⟩, ?_, ?_, ?_, ?_⟩, rfl⟩
  · unfold Window; omega
  · exact fun _ => C'.data (by omega)
  · constructor <;> (try dsimp only) <;> intros <;> first | omega | rfl
  · intro d hd; cases hd
  · show k.contents.Perm ([] ++ s1.trees.map Prod.snd)
    rw [e3]
    exact I.contents.trans List.perm_append_comm
  · intro _
    simp [Client.called]

/-- The steps of a sync up to the last. -/
theorem Inv.sync {s : Sys β} {k : Client β} {recs : List Rec} (I : Inv g H n s k recs)
    (h0 : 0 < s.pc) (h8 : s.pc < 8) {gap : Nat → Nat} (hl : SyncLegal s gap) :
    ∃ s', s.sync g H gap = some s' ∧ Inv g H n s' k recs ∧ s'.pc = s.pc + 1 := by
  have C := I.core
  have P := I.phase
  have hmem : s.mem = [] := P.mem h0
  have hcases : s.pc = 1 ∨ s.pc = 2 ∨ s.pc = 3 ∨ s.pc = 4 ∨ s.pc = 5 ∨ s.pc = 6 ∨ s.pc = 7 := by omega
  have hsm : ∀ (c : Nat) (bs : List (Nat × SpacemapBlock)), ∀ w ∈ bs.map (fun x => (Wr.smap c x.1 x.2 : Wr β)),
      ∀ a, ¬ w.touches a := by
    intro c bs w hw a
    obtain ⟨x, -, rfl⟩ := List.mem_map.1 hw
    exact id
  have hsl : ∀ (c : Nat) (bs : List (Nat × SpacemapBlock)) i l,
      Wr.label i l ∉ bs.map (fun x => (Wr.smap c x.1 x.2 : Wr β)) := by
    intro c bs i l hw
    obtain ⟨x, -, h⟩ := List.mem_map.1 hw
    cases h
  have hlt : ∀ (i : Nat) (l : Label β), ∀ w ∈ [Wr.label i l], ∀ a, ¬ w.touches a := by
    intro i l w hw a
    rw [List.mem_singleton.1 hw]
    exact id
  rcases hcases with hp | hp | hp | hp | hp | hp | hp
  · -- flush 0
    obtain ⟨c, bs, h1, h2, h3, -, h5⟩ := flush_disk C.good 0 hl.2 C.cur
    have hs := foldl_smap bs s.disk.view 0
    refine ⟨_, sync_eq (g := g) (H := H) (gap := gap) (s := s) (p := 2) (m := .flush 0) (s' := { s with
        c := c
        disk := s.disk.write (bs.map fun x => .smap 0 x.1 x.2) }) (by rw [hp]; rfl)
      (by simp only [Sys.micro, if_true, h1]) rfl (by rw [hp]; rfl), ?_, ?_⟩
    · refine ⟨⟨h2, C.live, ?_, ?_, ?_, ?_, ?_⟩, ?_, ?_, ?_, ?_⟩
      · simp only [view_write]
        exact intact_write (hsm _ _) C.intact
      · simp only [view_write, hs.1]
        exact fun i hi => h3 rfl i (h5 i hi)
      · exact labels_write (hsm _ _) C.labels (fun i l _ h => absurd h (hsl _ _ _ _))
      · intro hw
        exact absurd (⟨by simp, by simp⟩ : _ ∧ _) hw
      · intro h; simp at h
      · constructor <;> (try dsimp only) <;> intros <;> first | omega | skip
        · simp only [view_write, hs.1]
          exact h3 rfl _ (by assumption)
        · rename_i w hw
          simp only [Disk.write, List.mem_append] at hw
          rcases hw with hw | hw
          · exact .inl (C.data (by omega) w hw)
          · obtain ⟨x, -, rfl⟩ := List.mem_map.1 hw
            exact .inr ⟨_, _, _, rfl⟩
      · exact I.nonempty
      · exact I.contents
      · exact fun _ => I.called h0
    · exact hp.symm ▸ rfl
  · -- syncAll
    refine ⟨_, sync_eq (p := 3) (m := .syncAll) (by rw [hp]; rfl) rfl rfl (by rw [hp]; rfl), ?_, ?_⟩
    · refine ⟨⟨C.good, C.live, C.intact, C.cur, labels_sync C.labels, ?_, ?_⟩, ?_, I.nonempty, I.contents, fun _ => I.called h0⟩
      · intro hw
        exact absurd (⟨by simp, by simp⟩ : _ ∧ _) hw
      · intro h; simp at h
      · constructor <;> (try dsimp only) <;> intros <;> first | omega | skip
        · exact P.clean (by omega) _ (by assumption)
        · rfl
    · exact hp.symm ▸ rfl
  · -- label 0
    have he := P.empty (.inl hp)
    refine ⟨_, sync_eq (p := 4) (m := .label 0) (by rw [hp]; rfl) rfl rfl (by rw [hp]; rfl), ?_, ?_⟩
    · refine ⟨⟨C.good, C.live, ?_, ?_, ?_, ?_, ?_⟩, ?_, I.nonempty, I.contents, fun _ => I.called h0⟩
      · simp only [view_write]
        exact intact_write (hlt _ _) C.intact
      · simp only [view_write]
        exact C.cur
      · refine labels_write (hlt _ _) C.labels ?_
        intro i l _ h
        cases List.mem_singleton.1 h
        refine ⟨⟨?_, ?_, C.live.covered⟩, allowed_cur I h0⟩
        · have := C.intact
          unfold Disk.view at this
          rw [he] at this
          exact this
        · rw [he]; intro w hw; cases hw
      · intro hw
        exact absurd (⟨by simp, by simp⟩ : _ ∧ _) hw
      · intro h; simp at h
      · constructor <;> (try dsimp only) <;> intros <;> first | omega | skip
        · simp only [view_write]
          exact P.clean (by omega) _ (by assumption)
        · simp only [Disk.write, he, List.nil_append]; rfl
    · exact hp.symm ▸ rfl
  · -- flush 1
    have hzero : ∀ z zn oz, s.c.fsm.zones[z]? = some zn → s.c.fsm.opn.get z = some oz →
        oz.allocated + (fun _ => 0) z ≤ zn.total := by
      intro z zn oz hz ho
      obtain ⟨zn', hz', hv⟩ := FSM.view_of_open C.good.wf ho
      simp only at hz'
      rw [hz] at hz'
      cases hz'
      obtain ⟨-, -, -, h4, -⟩ := opn_inv C.good hv
      simpa using h4
    obtain ⟨c, bs, h1, h2, -, h4, h5⟩ := flush_disk C.good 1 hzero C.cur
    have hs := foldl_smap bs s.disk.view 1
    refine ⟨_, sync_eq (g := g) (H := H) (gap := gap) (s := s) (p := 5) (m := .flush 1) (s' := { s with
        c := c
        disk := s.disk.write (bs.map fun x => .smap 1 x.1 x.2) }) (by rw [hp]; rfl)
      (by simp only [Sys.micro, Nat.one_ne_zero, if_false, h1]) rfl (by rw [hp]; rfl), ?_, ?_⟩
    · have hcl : ∀ i, i < spacemapSpace n → Current H c.fsm (writeBlocks s.disk.view.smap 1 bs) i :=
        fun i hi => h4 rfl i (P.clean (by omega) i hi)
      refine ⟨⟨h2, C.live, ?_, ?_, ?_, ?_, ?_⟩, ?_, I.nonempty, I.contents, fun _ => I.called h0⟩
      · simp only [view_write]
        exact intact_write (hsm _ _) C.intact
      · simp only [view_write, hs.1]
        exact fun i hi => hcl i (h5 i hi)
      · exact labels_write (hsm _ _) C.labels (fun i l _ h => absurd h (hsl _ _ _ _))
      · intro hw
        exact absurd (⟨by simp, by simp⟩ : _ ∧ _) hw
      · intro h; simp at h
      · have h4 := P.four hp
        constructor <;> (try dsimp only) <;> intros <;> first | omega | skip
        · simp only [view_write, hs.1]
          exact hcl _ (by assumption)
        · simp only [Disk.write, h4]
          refine ⟨by simp [Sys.cur], ?_⟩
          intro w hw
          rcases List.mem_append.1 hw with hw | hw
          · exact .inl (List.mem_singleton.1 hw)
          · obtain ⟨x, -, rfl⟩ := List.mem_map.1 hw
            exact .inr ⟨_, _, rfl⟩
    · exact hp.symm ▸ rfl
  · -- syncAll
    obtain ⟨h5, h5'⟩ := P.five hp
    have hl0 : s.disk.view.label 0 = some s.cur := by
      refine foldl_label _ _ _ _ ?_ (.inr h5)
      intro w hw l' e
      rcases h5' w hw with h | ⟨i, b, h⟩
      · rw [h] at e; cases e; rfl
      · rw [h] at e; cases e
    refine ⟨_, sync_eq (p := 6) (m := .syncAll) (by rw [hp]; rfl) rfl rfl (by rw [hp]; rfl), ?_, ?_⟩
    · refine ⟨⟨C.good, C.live, C.intact, C.cur, labels_sync C.labels, ?_, ?_⟩, ?_, I.nonempty, I.contents, fun _ => I.called h0⟩
      · intro _
        exact ⟨s.c, recs, s.cur, C.good, hl0, C.live, fun i hi => P.clean (by omega) i hi,
          fun l hl => (labels_sync C.labels 1 l (by omega) hl).1.covered⟩
      · intro h; simp at h
      · constructor <;> (try dsimp only) <;> intros <;> first | omega | skip
        · exact P.clean (by omega) _ (by assumption)
        · rfl
        · exact hl0
    · exact hp.symm ▸ rfl
  · -- label 1
    have he := P.empty (.inr (.inl hp))
    have hf := P.first (by omega)
    refine ⟨_, sync_eq (p := 7) (m := .label 1) (by rw [hp]; rfl) rfl rfl (by rw [hp]; rfl), ?_, ?_⟩
    · refine ⟨⟨C.good, C.live, ?_, ?_, ?_, ?_, ?_⟩, ?_, I.nonempty, I.contents, fun _ => I.called h0⟩
      · simp only [view_write]
        exact intact_write (hlt _ _) C.intact
      · simp only [view_write]
        exact C.cur
      · refine labels_write (hlt _ _) C.labels ?_
        intro i l _ h
        cases List.mem_singleton.1 h
        exact ⟨(C.labels 0 s.cur (by omega) (.inl hf)).1, allowed_cur I h0⟩
      · intro _
        obtain ⟨c0, recs0, l0, a1, a2, a3, a4, a5⟩ := C.snap (by unfold Window; omega)
        rw [hf] at a2
        cases a2
        refine ⟨c0, recs0, s.cur, a1, hf, a3, a4, fun l hl => ?_⟩
        rcases hl with hl | hl
        · exact a5 l (.inl hl)
        · simp only [Disk.write, he, List.nil_append, List.mem_singleton] at hl
          cases hl
          exact a3.covered
      · intro h; simp at h
      · constructor <;> (try dsimp only) <;> intros <;> first | omega | skip
        · simp only [view_write]
          exact P.clean (by omega) _ (by assumption)
        · simp only [Disk.write, he, List.nil_append]; rfl
        · exact hf
    · exact hp.symm ▸ rfl
  · -- syncAll
    have h7 := P.seven hp
    have hf := P.first (by omega)
    have hl0 : s.disk.view.label 0 = some s.cur := by
      unfold Disk.view
      rw [foldl_no_label, hf]
      intro w hw l
      rw [h7] at hw
      rw [List.mem_singleton.1 hw]
      intro e; cases e
    have hl1 : s.disk.view.label 1 = some s.cur := by
      unfold Disk.view
      rw [h7]
      simp [Wr.apply]
    refine ⟨_, sync_eq (p := 8) (m := .syncAll) (by rw [hp]; rfl) rfl rfl (by rw [hp]; rfl), ?_, ?_⟩
    · refine ⟨⟨C.good, C.live, C.intact, C.cur, labels_sync C.labels, ?_, ?_⟩, ?_, I.nonempty, I.contents, fun _ => I.called h0⟩
      · intro _
        exact ⟨s.c, recs, s.cur, C.good, hl0, C.live, fun i hi => P.clean (by omega) i hi,
          fun l hl => (labels_sync C.labels 1 l (by omega) hl).1.covered⟩
      · intro h; simp at h
      · constructor <;> (try dsimp only) <;> intros <;> first | omega | skip
        · exact P.clean (by omega) _ (by assumption)
        · rfl
        · exact hl0
        · exact hl1
    · exact hp.symm ▸ rfl

omit [DecidableEq β] in
/-- The records of a label lie outside the zones that are erased. -/
theorem erase_untouched (geo : GeoOk g n) {c : Cluster} {recs : List Rec} (G : Good g n ⟨c, recs⟩)
    {refs : List (Ref β)} (hl : LiveAre recs refs) :
    Untouched (c.advance.2.map fun z => (.erase (g.limits z).1 (g.limits z).2 : Wr β)) refs := by
  intro w hw r hr i hi ht
  obtain ⟨z, hz, rfl⟩ := List.mem_map.1 hw
  obtain ⟨x, hx, hlive, e1, e2⟩ := hl.mem hr
  have hv := ((advance_spec G).2.2.1 z).mp hz
  have hzn : z < n := G.inv.lt (by rw [hv]; simp)
  have hZ := G.inv.zone z hzn
  simp only at hv
  rw [hv] at hZ
  obtain ⟨-, z', h1, h2⟩ := G.inv.recOk x hx
  obtain ⟨h3, h4, -⟩ := in_zone geo h1
  have hne : z ≠ z' := by
    rintro rfl
    have := hZ x hx h1
    rw [hlive] at this
    cases this
  have := zones_disjoint geo hzn h3 hne
  simp only [Wr.touches] at ht
  omega

omit [DecidableEq β] in
/-- The last step of a sync. -/
theorem Inv.ret (geo : GeoOk g n) {s : Sys β} {k : Client β} {recs : List Rec} (I : Inv g H n s k recs)
    (hp : s.pc = 8) (gap : Nat → Nat) :
    ∃ s' recs', s.sync g H gap = some s' ∧ Inv g H n s' k.returned recs' ∧ s'.pc = 0 := by
  have C := I.core
  have P := I.phase
  have he := P.empty (.inr (.inr hp))
  have hf := P.first (by omega)
  have hs := P.second hp
  have hmem := P.mem (by omega)
  obtain ⟨a1, a2, a3, -⟩ := advance_spec C.good
  simp only at a1 a2 a3
  have hu := erase_untouched (β := β) geo C.good C.live
  have hview : s.disk.view = s.disk.durable := by unfold Disk.view; rw [he]; rfl
  have hlive : LiveAre (recs.filter (fun x => decide (∀ z ∈ s.c.advance.2, g.lba2zone x.lba ≠ some z))) s.trees := by
    have := C.live
    unfold LiveAre at this ⊢
    rw [← this, List.filter_filter]
    congr 1
    apply List.filter_congr
    intro x hx
    cases hxl : x.live with
    | false => rfl
    | true =>
      simp only [Bool.true_and, decide_eq_true_eq]
      intro z hz e
      have hv := (a3 z).mp hz
      have hZ := C.good.inv.zone z (in_zone geo e).1
      simp only at hZ
      rw [hv] at hZ
      have := hZ x hx e
      rw [hxl] at this
      cases this
  have hdat : ∀ w ∈ s.c.advance.2.map (fun z => (.erase (g.limits z).1 (g.limits z).2 : Wr β)), w.isData := by
    intro w hw
    obtain ⟨z, -, rfl⟩ := List.mem_map.1 hw
    trivial
  have hfold := foldl_label_data _ s.disk.view hdat
  have hlab : ∀ i l, i < 2 →
      HasLabel (s.disk.write (s.c.advance.2.map fun z => (.erase (g.limits z).1 (g.limits z).2 : Wr β))) i l → l = s.cur := by
    intro i l hi h
    rcases h with h | h
    · have h' : s.disk.durable.label i = some l := h
      rcases (by omega : i = 0 ∨ i = 1) with rfl | rfl
      · rw [hf] at h'; cases h'; rfl
      · rw [hs] at h'; cases h'; rfl
    · simp only [Disk.write, he, List.nil_append] at h
      exact absurd (hdat _ h) id
  have hcont : k.contents.Perm (s.trees.map Prod.snd) := by
    have := I.contents
    rw [hmem, List.nil_append] at this
    exact this
  refine ⟨_, recs.filter (fun x => decide (∀ z ∈ s.c.advance.2, g.lba2zone x.lba ≠ some z)),
    sync_eq (p := 0) (m := .advance) (by rw [hp]; rfl) rfl rfl (by rw [hp]; rfl), ?_, rfl⟩
  refine ⟨⟨a1, hlive, ?_, ?_, ?_, ?_, ?_⟩, phase_zero _ rfl, I.nonempty, I.contents, ?_⟩
  · simp only [view_write]
    exact intact_foldl C.intact hu
  · simp only [view_write, hfold.2]
    exact a2.current C.cur
  · intro i l hi h
    cases hlab i l hi h
    refine ⟨⟨?_, ?_, hlive.covered⟩, .inl hcont.symm⟩
    · have := C.intact
      rw [hview] at this
      exact this
    · simp only [Disk.write, he, List.nil_append]
      exact hu
  · intro _
    refine ⟨s.c, recs, s.cur, C.good, hf, C.live, ?_, ?_⟩
    · intro i hi
      have := P.clean (by omega) i hi
      rw [hview] at this
      exact this
    · intro l hl
      cases hlab 1 l (by omega) hl
      exact C.live.covered
  · intro _ w hw
    simp only [Disk.write, he, List.nil_append] at hw
    exact hdat w hw
  · intro h; simp at h

/-! ### Crashes -/

omit [DecidableEq β] in
theorem crash_intact {d : Disk β} {m : Media β} {recs : List Rec} {l : Label β} (hc : CrashTo d m)
    (hk : Kept d recs l) : Intact m l.refs := by
  intro r hr i v hv
  have hi : i < r.2.length := (List.getElem?_eq_some_iff.mp hv).1
  rcases hc.blk (r.1 + i) with h | ⟨w, h⟩ | ⟨lo, hi', h, h1, h2⟩
  · rw [h]; exact hk.intact r hr i v hv
  · exact absurd rfl (hk.untouched _ h r hr i hi)
  · exact absurd (show Wr.touches (.erase lo hi') _ from ⟨h1, h2⟩) (hk.untouched _ h r hr i hi)

omit [DecidableEq β] in
theorem crash_label {d : Disk β} {m : Media β} {i : Nat} {l : Label β} (hc : CrashTo d m)
    (h : m.label i = some l) : HasLabel d i l := by
  rcases hc.label i with h' | ⟨l', h', h'' | h''⟩
  · exact .inl (h'.symm.trans h)
  · rw [h''] at h; cases h; exact .inr h'
  · rw [h''] at h; cases h

omit [DecidableEq β] in
/-- Outside the window, nothing is being written to the first label or the first spacemap. -/
theorem no_pending {s : Sys β} {k : Client β} {recs : List Rec} (I : Inv g H n s k recs) (hw : ¬ Window s) :
    (∀ l, Wr.label 0 l ∉ s.disk.cache) ∧ ∀ i b, Wr.smap 0 i b ∉ s.disk.cache := by
  have hle := I.phase.le
  unfold Window at hw
  rcases (by omega : s.pc ≤ 1 ∨ s.pc = 6 ∨ s.pc = 8 ∨ s.pc = 7) with h | h | h | h
  · exact ⟨fun l hl => I.core.data h _ hl, fun i b hl => I.core.data h _ hl⟩
  · rw [I.phase.empty (.inr (.inl h))]
    exact ⟨fun l hl => (by cases hl), fun i b hl => (by cases hl)⟩
  · rw [I.phase.empty (.inr (.inr h))]
    exact ⟨fun l hl => (by cases hl), fun i b hl => (by cases hl)⟩
  · rw [I.phase.seven h]
    exact ⟨fun l hl => (by cases List.mem_singleton.1 hl), fun i b hl => (by cases List.mem_singleton.1 hl)⟩

omit [DecidableEq β] in
theorem Inv.crash (geo : GeoOk g n) {s : Sys β} {k : Client β} {recs : List Rec} (I : Inv g H n s k recs)
    (hw : ¬ Window s) {m : Media β} (hc : CrashTo s.disk m) :
    ∃ s' recs', «import» g H n m = some s' ∧
      Inv g H n s' { k with contents := s'.trees.map Prod.snd } recs' ∧ s'.pc = 0 ∧ s'.mem = [] ∧ s'.disk = ⟨m, []⟩ ∧
      k.Allowed (s'.trees.map Prod.snd) := by
  obtain ⟨n1, n2⟩ := no_pending I hw
  obtain ⟨c0, recs0, l0, hG, h0, hL, hcur, hcov⟩ := I.core.snap hw
  have hm0 : m.label 0 = some l0 := by
    rcases hc.label 0 with h | ⟨l, h, -⟩
    · rw [h, h0]
    · exact absurd h (n1 l)
  have hms : m.smap 0 = s.disk.durable.smap 0 := by
    funext i
    rcases hc.smap 0 i with h | ⟨b, h, -⟩
    · exact h
    · exact absurd h (n2 i b)
  obtain ⟨f, c, r1, r2, hcf, -, rG, -, hd, -⟩ := reload_spec geo H hG
  have hmap : (List.range (spacemapSpace n)).mapM (m.smap 0) = some (c0.fsm.allBlocks H) := by
    unfold FSM.allBlocks
    have : c0.fsm.total = n := hG.total
    rw [this]
    apply FSM.mapM_eq
    intro i hi
    rw [hms]
    exact hcur i (List.mem_range.mp hi)
  have hload : load g H n m = some c := by
    unfold load
    rw [hmap]
    simp only at r1
    simp only [r1, r2]
  have hcur' : ∀ i, i < spacemapSpace n → Current H c.fsm m.smap i := by
    intro i hi
    have := hcur i hi
    unfold Current at *
    rw [hms, this, blockZones_congr (f := c0.fsm) (f' := c.fsm) (rG.total.trans hG.total.symm)
      (fun z _ => by rw [hcf]; exact hd z)]
  have hal : k.Allowed (l0.refs.map Prod.snd) := (I.core.labels 0 l0 (by omega) (.inl h0)).2
  refine ⟨⟨c, l0.txg, [], l0.refs, ⟨m, []⟩, 0⟩, recs0, ?_, ⟨⟨rG, hL, ?_, ?_, ?_, ?_, ?_⟩, phase_zero _ rfl, ?_, ?_, ?_⟩,
    rfl, rfl, rfl, hal⟩
  · unfold «import» readLabel
    rw [hm0, hload]
  · exact crash_intact hc (I.core.labels 0 l0 (by omega) (.inl h0)).1
  · intro i hi
    refine hcur' i ?_
    have := (List.getElem?_eq_some_iff.mp hi).1
    have h2 := rG.wf.dirty
    rw [rG.total] at h2
    simp only at h2 this
    omega
  · intro i l hi hl
    have hl' : m.label i = some l := by
      rcases hl with hl | hl
      · exact hl
      · cases hl
    obtain ⟨hk, ha⟩ := I.core.labels i l hi (crash_label hc hl')
    refine ⟨⟨crash_intact hc hk, fun w hw => (by cases hw), ?_⟩, ha⟩
    rcases (by omega : i = 0 ∨ i = 1) with rfl | rfl
    · rw [hm0] at hl'
      cases hl'
      exact hL.covered
    · exact hcov l (crash_label hc hl')
  · intro _
    refine ⟨c, recs0, l0, rG, hm0, hL, hcur', ?_⟩
    intro l hl
    rcases hl with hl | hl
    · exact hcov l (crash_label hc hl)
    · cases hl
  · intro _ w hw; cases hw
  · intro d hd; cases hd
  · exact .refl _
  · intro h; simp at h

omit [DecidableEq β] in
theorem Inv.init : Inv g H n (Sys.init H n : Sys β) Client.init [] := by
  have hG : Good g n ⟨Cluster.create n, []⟩ := good_init g n
  have hlab : ∀ i l, i < 2 → HasLabel (Sys.init H n : Sys β).disk i l → l = ⟨0, []⟩ := by
    intro i l hi h
    rcases h with h | h
    · simp only [Sys.init] at h
      rw [if_pos hi] at h
      cases h
      rfl
    · cases h
  refine ⟨⟨hG, rfl, ?_, ?_, ?_, ?_, ?_⟩, phase_zero _ rfl, ?_, .refl _, ?_⟩
  · intro r hr; cases hr
  · intro i _
    rfl
  · intro i l hi h
    cases hlab i l hi h
    exact ⟨⟨fun r hr => (by cases hr), fun w hw => (by cases hw), fun r hr => (by cases hr)⟩, .inl (.refl _)⟩
  · intro _
    refine ⟨_, [], ⟨0, []⟩, hG, rfl, rfl, fun i _ => rfl, ?_⟩
    intro l hl
    cases hlab 1 l (by omega) hl
    intro r hr; cases hr
  · intro _ w hw; cases hw
  · intro d hd; cases hd
  · intro h; simp [Sys.init] at h

theorem inv_step (geo : GeoOk g n) {s s' : Sys β} {k k' : Client β} {e : Ev β} {recs : List Rec}
    (I : Inv g H n s k recs) (h : Step g H n s k e s' k') : ∃ recs, Inv g H n s' k' recs := by
  cases h with
  | op o hpc hl hs =>
    obtain ⟨s', h, r', I'⟩ := I.op geo hpc hl
    rw [hs] at h
    cases h
    exact ⟨r', I'⟩
  | call gap hpc hl hs =>
    obtain ⟨r', I', -⟩ := I.call geo hpc hl hs
    exact ⟨r', I'⟩
  | sync gap h0 h8 hl hs =>
    obtain ⟨s', h, I', -⟩ := I.sync h0 h8 hl
    rw [hs] at h
    cases h
    exact ⟨recs, I'⟩
  | ret gap h8 hs =>
    obtain ⟨s', r', h, I', -⟩ := I.ret geo h8 gap
    rw [hs] at h
    cases h
    exact ⟨r', I'⟩
  | crash m hw hc hs =>
    obtain ⟨s', r', h, I', -⟩ := I.crash geo hw hc
    rw [hs] at h
    cases h
    exact ⟨r', I'⟩

theorem inv_reach (geo : GeoOk g n) {s : Sys β} {k : Client β} (R : Reach g H n s k) :
    ∃ recs, Inv g H n s k recs := by
  induction R with
  | init => exact ⟨_, Inv.init⟩
  | step _ h ih =>
    obtain ⟨recs, I⟩ := ih
    exact inv_step geo I h

theorem Reach.run {s s' : Sys β} {k k' : Client β} {es : List (Ev β)} (R : Reach g H n s k)
    (h : Run g H n s k es s' k') : Reach g H n s' k' := by
  induction h with
  | nil => exact R
  | cons hs _ ih => exact ih (R.step hs)

end Verif.Crash
