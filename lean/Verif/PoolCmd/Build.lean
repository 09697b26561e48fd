import Verif.PoolCmd.Spec
import Verif.PrimeS.Props

/-!
# What the builder makes of a specification
-/

namespace Verif.PoolCmd

/-! ### Building -/

section Build

variable (dv : Devs)

def idOf (d : Str) : Option Nat := (dv d).map Prod.fst
def sz (d : Str) : Nat := ((dv d).map Prod.snd).getD 0

/-- Devices that can be opened, one after the other, when those in `held` are open. -/
structure Fresh (held : List Nat) (ds : List Str) : Prop where
  there : ∀ d ∈ ds, dv d ≠ none
  apart : (ds.map (idOf dv)).Nodup
  free : ∀ d ∈ ds, ∀ i ∈ held, idOf dv d ≠ some i

def heldAfter (held : List Nat) (ds : List Str) : List Nat := (ds.filterMap (idOf dv)).reverse ++ held

theorem heldAfter_append (held : List Nat) (a b : List Str) :
    heldAfter dv held (a ++ b) = heldAfter dv (heldAfter dv held a) b := by
  simp [heldAfter]

theorem fresh_append (held : List Nat) (a b : List Str) :
    Fresh dv held (a ++ b) ↔ Fresh dv held a ∧ Fresh dv (heldAfter dv held a) b := by
  constructor
  · rintro ⟨h1, h2, h3⟩
    rw [List.map_append, List.nodup_append] at h2
    refine ⟨⟨fun d hd => h1 d (List.mem_append_left _ hd), h2.1,
      fun d hd => h3 d (List.mem_append_left _ hd)⟩,
      ⟨fun d hd => h1 d (List.mem_append_right _ hd), h2.2.1, ?_⟩⟩
    intro d hd i hi he
    rcases List.mem_append.1 hi with hi | hi
    · obtain ⟨c, hc, hci⟩ := List.mem_filterMap.1 (List.mem_reverse.1 hi)
      exact h2.2.2 _ (List.mem_map.2 ⟨c, hc, rfl⟩) _ (List.mem_map.2 ⟨d, hd, rfl⟩) (hci.trans he.symm)
    · exact h3 d (List.mem_append_right _ hd) i hi he
  · rintro ⟨⟨h1, h2, h3⟩, ⟨g1, g2, g3⟩⟩
    refine ⟨?_, ?_, ?_⟩
    · intro d hd
      rcases List.mem_append.1 hd with hd | hd
      · exact h1 d hd
      · exact g1 d hd
    · rw [List.map_append, List.nodup_append]
      refine ⟨h2, g2, ?_⟩
      rintro x hx y hy rfl
      obtain ⟨c, hc, rfl⟩ := List.mem_map.1 hx
      obtain ⟨d, hd, hdc⟩ := List.mem_map.1 hy
      cases hi : idOf dv c with
      | none => exact h1 c hc (by simpa [idOf] using hi)
      | some i =>
        refine g3 d hd i ?_ (hdc.trans hi)
        exact List.mem_append_left _ (List.mem_reverse.2 (List.mem_filterMap.2 ⟨c, hc, hi⟩))
    · intro d hd i hi
      rcases List.mem_append.1 hd with hd | hd
      · exact h3 d hd i hi
      · exact g3 d hd i (List.mem_append_right _ hi)

theorem fresh_nil (held : List Nat) : Fresh dv held [] := ⟨by simp, by simp, by simp⟩

theorem fresh_single (held : List Nat) (p : Str) :
    Fresh dv held [p] ↔ ∃ id s, dv p = some (id, s) ∧ id ∉ held := by
  constructor
  · rintro ⟨h1, _, h3⟩
    cases h : dv p with
    | none => exact absurd h (h1 p (by simp))
    | some x =>
      refine ⟨x.1, x.2, rfl, fun hx => h3 p (by simp) x.1 hx (by simp [idOf, h])⟩
  · rintro ⟨id, s, h, hi⟩
    refine ⟨by simp [h], by simp, ?_⟩
    intro d hd i hid he
    rw [List.mem_singleton.1 hd] at he
    simp only [idOf, h, Option.map_some, Option.some.injEq] at he
    exact hi (he ▸ hid)

theorem openAll_spec (ps : List Str) (held : List Nat) :
    (Fresh dv held ps → openAll dv ps held = .ok (ps.map (sz dv), heldAfter dv held ps)) ∧
    (∀ r, openAll dv ps held = .ok r → Fresh dv held ps) := by
  induction ps generalizing held with
  | nil => exact ⟨fun _ => rfl, fun _ _ => fresh_nil dv held⟩
  | cons p ps ih =>
    rw [show p :: ps = [p] ++ ps from rfl, fresh_append, fresh_single]
    constructor
    · rintro ⟨⟨id, s, h, hi⟩, hf⟩
      have hh : heldAfter dv held [p] = id :: held := by simp [heldAfter, idOf, h]
      rw [hh] at hf
      simp only [List.cons_append, List.nil_append, openAll, h, if_neg hi, (ih (id :: held)).1 hf]
      simp [sz, h, heldAfter, idOf]
    · intro r hr
      simp only [List.cons_append, List.nil_append, openAll] at hr
      cases h : dv p with
      | none => rw [h] at hr; cases hr
      | some x =>
        obtain ⟨id, s⟩ := x
        rw [h] at hr
        dsimp only at hr
        by_cases hi : id ∈ held
        · rw [if_pos hi] at hr; cases hr
        · rw [if_neg hi] at hr
          have hh : heldAfter dv held [p] = id :: held := by simp [heldAfter, idOf, h]
          cases ho : openAll dv ps (id :: held) with
          | ok q => exact ⟨⟨id, s, rfl, hi⟩, hh ▸ (ih (id :: held)).2 q ho⟩
          | fail => rw [ho] at hr; cases hr
          | hang => rw [ho] at hr; cases hr

def mk (ps : List Str) : Mirror := ⟨ps, sz dv (ps.headD [])⟩

/-- A mirror that can be made of devices that can be opened. -/
def MirrorOk (ps : List Str) : Prop := ps ≠ [] ∧ ∀ x ∈ ps, sz dv x = sz dv (ps.headD [])

theorem createMirror_spec (b : Builder) (ps : List Str) :
    (Fresh dv b.held ps → MirrorOk dv ps → createMirror dv b ps =
      .ok { b with mirrors := b.mirrors ++ [mk dv ps], held := heldAfter dv b.held ps }) ∧
    (∀ r, createMirror dv b ps = .ok r → Fresh dv b.held ps ∧ MirrorOk dv ps) := by
  constructor
  · rintro hf ⟨hne, hs⟩
    unfold createMirror
    rw [(openAll_spec dv ps b.held).1 hf]
    cases ps with
    | nil => exact absurd rfl hne
    | cons p ps =>
      simp only [List.map_cons]
      rw [if_pos ?_]
      · rfl
      · intro x hx
        obtain ⟨y, hy, rfl⟩ := List.mem_map.1 hx
        exact hs y (List.mem_cons_of_mem _ hy)
  · intro r hr
    unfold createMirror at hr
    cases ho : openAll dv ps b.held with
    | fail => rw [ho] at hr; cases hr
    | hang => rw [ho] at hr; cases hr
    | ok q =>
      have hf := (openAll_spec dv ps b.held).2 q ho
      rw [(openAll_spec dv ps b.held).1 hf] at hr
      refine ⟨hf, ?_⟩
      cases ps with
      | nil => cases hr
      | cons p ps =>
        simp only [List.map_cons] at hr
        split at hr
        · rename_i hs
          refine ⟨by simp, ?_⟩
          intro x hx
          rcases List.mem_cons.1 hx with rfl | hx
          · rfl
          · exact hs _ (List.mem_map.2 ⟨x, hx, rfl⟩)
        · cases hr

theorem createMirrors_spec (cs : List RaidChild) (b : Builder) :
    (Fresh dv b.held (cs.map RaidChild.paths).flatten → (∀ c ∈ cs, MirrorOk dv c.paths) →
      createMirrors dv b cs =
        .ok { b with
          mirrors := b.mirrors ++ cs.map (fun c => mk dv c.paths)
          held := heldAfter dv b.held (cs.map RaidChild.paths).flatten }) ∧
    (∀ r, createMirrors dv b cs = .ok r →
      Fresh dv b.held (cs.map RaidChild.paths).flatten ∧ ∀ c ∈ cs, MirrorOk dv c.paths) := by
  induction cs generalizing b with
  | nil =>
    refine ⟨fun _ _ => ?_, fun _ _ => ⟨fresh_nil dv _, by simp⟩⟩
    simp [createMirrors, heldAfter]
  | cons c cs ih =>
    rw [List.map_cons, List.flatten_cons, fresh_append]
    constructor
    · rintro ⟨h1, h2⟩ h3
      unfold createMirrors
      rw [(createMirror_spec dv b c.paths).1 h1 (h3 c (by simp))]
      dsimp only
      rw [(ih _).1 h2 fun x hx => h3 x (by simp [hx])]
      simp [heldAfter_append]
    · intro r hr
      unfold createMirrors at hr
      cases h1 : createMirror dv b c.paths with
      | fail => rw [h1] at hr; cases hr
      | hang => rw [h1] at hr; cases hr
      | ok b1 =>
        obtain ⟨g1, g2⟩ := (createMirror_spec dv b c.paths).2 b1 h1
        rw [(createMirror_spec dv b c.paths).1 g1 g2] at hr
        dsimp only at hr
        obtain ⟨g3, g4⟩ := (ih _).2 r hr
        refine ⟨⟨g1, g3⟩, ?_⟩
        intro x hx
        rcases List.mem_cons.1 hx with rfl | hx
        · exact g2
        · exact g4 x hx

variable (w : Bool)

def TlvOk (t : Tlv) : Prop :=
  (∀ m ∈ t.mirrors, MirrorOk dv m) ∧ raidOk w t.params.1 t.params.2 (t.mirrors.map (mk dv))

def mkCluster (t : Tlv) : Cluster := ⟨t.params.1, t.params.2, t.mirrors.map (mk dv)⟩

theorem raid_mirrors (k f : Nat) (cs : List RaidChild) :
    (Tlv.raid k f cs).mirrors = cs.map RaidChild.paths := by
  unfold Tlv.mirrors
  dsimp only
  apply List.map_congr_left
  intro c _
  cases c <;> rfl

theorem addTlv_spec (b : Builder) (hb : b.mirrors = []) (t : Tlv) :
    (Fresh dv b.held t.mirrors.flatten → TlvOk dv w t → addTlv w dv b t =
      .ok ⟨b.clusters ++ [mkCluster dv t], [], heldAfter dv b.held t.mirrors.flatten⟩) ∧
    (∀ r, addTlv w dv b t = .ok r → Fresh dv b.held t.mirrors.flatten ∧ TlvOk dv w t) := by
  have hone : ∀ ps : List Str,
      (Fresh dv b.held ps → MirrorOk dv ps → raidOk w 1 0 [mk dv ps] →
        (match createMirror dv b ps with
          | .ok b => createCluster w b 1 0
          | .fail => .fail
          | .hang => .hang) =
        .ok ⟨b.clusters ++ [⟨1, 0, [mk dv ps]⟩], [], heldAfter dv b.held ps⟩) ∧
      (∀ r, (match createMirror dv b ps with
          | .ok b => createCluster w b 1 0
          | .fail => .fail
          | .hang => .hang) = .ok r → Fresh dv b.held ps ∧ MirrorOk dv ps) := by
    intro ps
    constructor
    · intro h1 h2 h3
      rw [(createMirror_spec dv b ps).1 h1 h2]
      simp only [createCluster, hb, List.nil_append]
      rw [if_pos h3]
    · intro r hr
      cases h1 : createMirror dv b ps with
      | fail => rw [h1] at hr; cases hr
      | hang => rw [h1] at hr; cases hr
      | ok b1 => exact (createMirror_spec dv b ps).2 b1 h1
  have r10 : ∀ m : Mirror, raidOk w 1 0 [m] := by
    intro m
    unfold raidOk
    simp
  cases t with
  | raid k f cs =>
    have hp : (Tlv.raid k f cs).params = (k, f) := rfl
    unfold TlvOk mkCluster
    rw [raid_mirrors, hp]
    have hmm : (cs.map RaidChild.paths).map (mk dv) = cs.map fun c => mk dv c.paths := by simp
    rw [hmm]
    dsimp only [addTlv]
    constructor
    · rintro h1 ⟨h2, h3⟩
      rw [(createMirrors_spec dv cs b).1 h1 fun c hc => h2 _ (List.mem_map.2 ⟨c, hc, rfl⟩)]
      simp only [createCluster, hb, List.nil_append]
      rw [if_pos h3]
    · intro r hr
      cases h1 : createMirrors dv b cs with
      | fail => rw [h1] at hr; cases hr
      | hang => rw [h1] at hr; cases hr
      | ok b1 =>
        obtain ⟨g1, g2⟩ := (createMirrors_spec dv cs b).2 b1 h1
        rw [(createMirrors_spec dv cs b).1 g1 g2] at hr
        simp only [createCluster, hb, List.nil_append] at hr
        split at hr
        · rename_i h3
          refine ⟨g1, ?_, h3⟩
          intro m hm
          obtain ⟨c, hc, rfl⟩ := List.mem_map.1 hm
          exact g2 c hc
        · cases hr
  | mirror ds =>
    unfold TlvOk mkCluster
    simp only [addTlv, Tlv.mirrors, Tlv.params, List.flatten_cons, List.flatten_nil, List.append_nil,
      List.map_cons, List.map_nil, List.mem_singleton, forall_eq]
    exact ⟨fun h1 h2 => (hone ds).1 h1 h2.1 h2.2,
      fun r hr => ⟨((hone ds).2 r hr).1, ((hone ds).2 r hr).2, r10 _⟩⟩
  | disk d =>
    unfold TlvOk mkCluster
    simp only [addTlv, Tlv.mirrors, Tlv.params, List.flatten_cons, List.flatten_nil, List.append_nil,
      List.map_cons, List.map_nil, List.mem_singleton, forall_eq]
    exact ⟨fun h1 h2 => (hone [d]).1 h1 h2.1 h2.2,
      fun r hr => ⟨((hone [d]).2 r hr).1, ((hone [d]).2 r hr).2, r10 _⟩⟩

theorem allDisks_cons (t : Tlv) (ts : List Tlv) :
    allDisks (t :: ts) = t.mirrors.flatten ++ allDisks ts := by simp [allDisks]

theorem addAll_spec (ts : List Tlv) (b : Builder) (hb : b.mirrors = []) :
    (Fresh dv b.held (allDisks ts) → (∀ t ∈ ts, TlvOk dv w t) → addAll w dv b ts =
      .ok ⟨b.clusters ++ ts.map (mkCluster dv), [], heldAfter dv b.held (allDisks ts)⟩) ∧
    (∀ r, addAll w dv b ts = .ok r → Fresh dv b.held (allDisks ts) ∧ ∀ t ∈ ts, TlvOk dv w t) := by
  induction ts generalizing b with
  | nil =>
    refine ⟨fun _ _ => ?_, fun _ _ => ⟨fresh_nil dv _, by simp⟩⟩
    obtain ⟨a, m, h⟩ := b
    cases hb
    simp [addAll, heldAfter, allDisks]
  | cons t ts ih =>
    rw [allDisks_cons, fresh_append]
    constructor
    · rintro ⟨h1, h2⟩ h3
      unfold addAll
      rw [(addTlv_spec dv w b hb t).1 h1 (h3 t (by simp))]
      dsimp only
      rw [(ih _ rfl).1 h2 fun x hx => h3 x (by simp [hx])]
      simp [heldAfter_append]
    · intro r hr
      unfold addAll at hr
      cases h1 : addTlv w dv b t with
      | fail => rw [h1] at hr; cases hr
      | hang => rw [h1] at hr; cases hr
      | ok b1 =>
        obtain ⟨g1, g2⟩ := (addTlv_spec dv w b hb t).2 b1 h1
        rw [(addTlv_spec dv w b hb t).1 g1 g2] at hr
        dsimp only at hr
        obtain ⟨g3, g4⟩ := (ih _ rfl).2 r hr
        refine ⟨⟨g1, g3⟩, ?_⟩
        intro x hx
        rcases List.mem_cons.1 hx with rfl | hx
        · exact g2
        · exact g4 x hx

end Build

/-- The vdevs of a described pool have no empty mirrors. -/
theorem describes_ne {l : List Tlv} {ws : List Str} (h : Describes l ws) :
    ∀ t ∈ l, ∀ m ∈ t.mirrors, m ≠ [] := by
  have hc : ∀ cs ws, Children cs ws → ∀ c ∈ cs, c.paths ≠ [] := by
    intro cs ws h c hc
    cases h with
    | disks ha =>
      obtain ⟨d, _, rfl⟩ := List.mem_map.1 hc
      simp [RaidChild.paths]
    | mirrors ha =>
      obtain ⟨d, hd, rfl⟩ := List.mem_map.1 hc
      exact (ha.2 d hd).1
  intro t ht m hm
  cases h with
  | disks ha =>
    obtain ⟨d, hd, rfl⟩ := List.mem_map.1 ht
    rw [List.mem_singleton.1 hm]
    simp
  | mirrors ha =>
    obtain ⟨d, hd, rfl⟩ := List.mem_map.1 ht
    rw [List.mem_singleton.1 hm]
    exact (ha.2 d hd).1
  | raids _ hr =>
    induction hr with
    | nil => cases ht
    | @cons k f ks fs cs ws ts rest _ _ _ _ hcs _ ih =>
      rcases List.mem_cons.1 ht with rfl | ht
      · rw [raid_mirrors] at hm
        obtain ⟨c, hcc, rfl⟩ := List.mem_map.1 hm
        exact hc _ _ hcs c hcc
      · exact ih ht (List.ne_nil_of_mem ht)

theorem describes_raid_ne {l : List Tlv} {ws : List Str} (h : Describes l ws) :
    ∀ k f cs, .raid k f cs ∈ l → cs ≠ [] := by
  have hc : ∀ cs ws, Children cs ws → cs ≠ [] := by
    intro cs ws h
    cases h with
    | disks ha => simpa using ha.1
    | mirrors ha => simpa using ha.1
  intro k f cs ht
  cases h with
  | disks ha => simp at ht
  | mirrors ha => simp at ht
  | raids _ hr =>
    induction hr with
    | nil => cases ht
    | @cons k f ks fs cs ws ts rest _ _ _ _ hcs _ ih =>
      rcases List.mem_cons.1 ht with h | ht
      · cases h
        exact hc _ _ hcs
      · exact ih ht (List.ne_nil_of_mem ht)

theorem sz_eq {dv : Devs} {d e : Str} (hd : dv d ≠ none) (he : dv e ≠ none) :
    sz dv d = sz dv e ↔ (dv d).map Prod.snd = (dv e).map Prod.snd := by
  unfold sz
  cases h1 : dv d with
  | none => exact absurd h1 hd
  | some x =>
    cases h2 : dv e with
    | none => exact absurd h2 he
    | some y => simp

theorem mem_allDisks {l : List Tlv} {t : Tlv} (ht : t ∈ l) {d : Str} (hd : d ∈ t.mirrors.flatten) :
    d ∈ allDisks l := by
  unfold allDisks
  obtain ⟨m, hm, hdm⟩ := List.mem_flatten.1 hd
  exact List.mem_flatten.2 ⟨m, List.mem_flatten.2 ⟨_, List.mem_map.2 ⟨t, ht, rfl⟩, hm⟩, hdm⟩

theorem new_iff {w : Bool} {k f : Nat} {n : Nat} (h : n ≤ 181) :
    (PrimeS.new w (Int.bmod n 65536) k f).isSome = true ↔
      (n.Prime ∧ n ≤ 215 ∧ 1 < k ∧ k ≤ n ∧ 0 < f ∧ f < k) := by
  have hb : Int.bmod n 65536 = (n : Int) := by
    rw [Int.bmod_eq_of_le] <;> omega
  rw [hb, PrimeS.C06_new_accepts]
  · simp only [Int.toNat_natCast]
    constructor
    · rintro ⟨h1, h2, h3, h4, h5, h6, h7⟩
      exact ⟨h1, by omega, by omega, by omega, by omega, by omega⟩
    · rintro ⟨h1, h2, h3, h4, h5, h6⟩
      have := h1.two_le
      exact ⟨h1, by omega, by omega, by omega, by omega, by omega, by omega⟩
  · have : (n : Int) ≤ 181 := by omega
    have h0 : (0 : Int) ≤ n := by omega
    nlinarith

theorem headD_mem {m : List Str} (h : m ≠ []) : m.headD [] ∈ m := by
  cases m with
  | nil => exact absurd rfl h
  | cons a m => simp

theorem feasible_iff {dv : Devs} {w : Bool} {l : List Tlv} {ws : List Str} (hd : Describes l ws)
    (hsmall : ∀ k f cs, .raid k f cs ∈ l → cs.length ≤ 181) :
    Feasible dv l ↔ Fresh dv [] (allDisks l) ∧ ∀ t ∈ l, TlvOk dv w t := by
  constructor
  · intro hf
    refine ⟨⟨hf.there, hf.apart, by simp⟩, ?_⟩
    intro t ht
    have hsame : ∀ d ∈ t.mirrors.flatten, ∀ e ∈ t.mirrors.flatten, sz dv d = sz dv e := by
      intro d hd e he
      rw [sz_eq (hf.there d (mem_allDisks ht hd)) (hf.there e (mem_allDisks ht he))]
      exact hf.same t ht d hd e he
    have hin : ∀ m ∈ t.mirrors, m.headD [] ∈ t.mirrors.flatten := fun m hm =>
      List.mem_flatten.2 ⟨m, hm, headD_mem (describes_ne hd t ht m hm)⟩
    refine ⟨?_, ?_⟩
    · intro m hm
      refine ⟨describes_ne hd t ht m hm, ?_⟩
      intro x hx
      exact hsame x (List.mem_flatten.2 ⟨m, hm, hx⟩) _ (hin m hm)
    · cases t with
      | disk d => unfold raidOk; simp [Tlv.mirrors, Tlv.params]
      | mirror d => unfold raidOk; simp [Tlv.mirrors, Tlv.params]
      | raid k f cs =>
        have hlen : ((Tlv.raid k f cs).mirrors.map (mk dv)).length = cs.length := by
          rw [raid_mirrors]; simp
        unfold raidOk
        rw [hlen]
        rcases hf.legal k f cs ht with ⟨h1, h2, h3⟩ | ⟨h1, h2⟩
        · rw [if_pos h1]; exact ⟨h2, h3⟩
        · rw [if_neg h1]
          refine ⟨(new_iff (hsmall k f cs ht)).2 h2, ?_⟩
          intro x hx y hy
          obtain ⟨mx, hmx, rfl⟩ := List.mem_map.1 hx
          obtain ⟨my, hmy, rfl⟩ := List.mem_map.1 hy
          exact hsame _ (hin mx hmx) _ (hin my hmy)
  · rintro ⟨hfr, hok⟩
    refine ⟨hfr.there, hfr.apart, ?_, ?_⟩
    · intro t ht d hd' e he
      rw [← sz_eq (hfr.there d (mem_allDisks ht hd')) (hfr.there e (mem_allDisks ht he))]
      obtain ⟨h1, h2⟩ := hok t ht
      obtain ⟨md, hmd, hdm⟩ := List.mem_flatten.1 hd'
      obtain ⟨me, hme, hem⟩ := List.mem_flatten.1 he
      rw [(h1 md hmd).2 d hdm, (h1 me hme).2 e hem]
      unfold raidOk at h2
      split at h2
      · rename_i hl
        rw [List.length_map] at hl
        obtain ⟨m, hm⟩ := List.length_eq_one_iff.1 hl
        rw [hm] at hmd hme
        rw [List.mem_singleton.1 hmd, List.mem_singleton.1 hme]
      · exact h2.2 _ (List.mem_map.2 ⟨md, hmd, rfl⟩) _ (List.mem_map.2 ⟨me, hme, rfl⟩)
    · intro k f cs ht
      obtain ⟨h1, h2⟩ := hok _ ht
      have hlen : ((Tlv.raid k f cs).mirrors.map (mk dv)).length = cs.length := by
        rw [raid_mirrors]; simp
      unfold raidOk at h2
      rw [hlen] at h2
      by_cases hl : cs.length = 1
      · rw [if_pos hl] at h2
        exact .inl ⟨hl, h2⟩
      · rw [if_neg hl] at h2
        exact .inr ⟨hl, (new_iff (hsmall k f cs ht)).1 h2.1⟩

end Verif.PoolCmd
