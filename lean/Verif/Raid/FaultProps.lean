import Verif.Raid.Props
import Verif.Raid.FaultModel
import Verif.Codec.Props

/-!
# C12, C13: failing child writes, missing children
-/

namespace Verif.Raid

open Verif.Bytes Verif.Codec

variable {g : Geom}

/-! ### C12 -/

theorem errLoop_ok {f : Nat} : ∀ (rs : List Res) (n : Nat), n ≤ f →
    (errLoop f n rs = .ok ↔ n + rs.countP Res.isErr ≤ f) := by
  intro rs
  induction rs with
  | nil => intro n hn; simp [errLoop, hn]
  | cons r rs ih =>
    intro n hn
    cases r with
    | ok => rw [errLoop, ih n hn, List.countP_cons]; simp [Res.isErr]
    | err e =>
      unfold errLoop
      rw [List.countP_cons]
      by_cases h : f < n + 1
      · rw [if_pos h]; simp [Res.isErr]; omega
      · rw [if_neg h, ih (n + 1) (by omega)]; simp [Res.isErr]; omega

theorem errLoop_mem {f e : Nat} : ∀ (rs : List Res) (n : Nat), errLoop f n rs = .err e →
    .err e ∈ rs := by
  intro rs
  induction rs with
  | nil => intro n h; simp [errLoop] at h
  | cons r rs ih =>
    intro n h
    cases r with
    | ok => exact List.mem_cons_of_mem _ (ih n h)
    | err e' =>
      unfold errLoop at h
      split at h
      · rw [h]; exact List.mem_cons_self
      · exact List.mem_cons_of_mem _ (ih _ h)

/-- C12: a stripe write succeeds if and only if at most `f` of its child writes failed. -/
theorem C12_ok_iff (f : Nat) (rs : List Res) :
    writeResult f rs = .ok ↔ rs.countP Res.isErr ≤ f := by
  unfold writeResult
  rw [errLoop_ok rs 0 (by omega), Nat.zero_add]

/-- C12: the error of a stripe write is that of one of its child writes. -/
theorem C12_error {f e : Nat} {rs : List Res} (h : writeResult f rs = .err e) : .err e ∈ rs :=
  errLoop_mem rs 0 h

/-- A byte from a field element. -/
def toByte (x : GF) : UInt8 := ⟨x.v⟩

theorem ofByte_toByte (x : GF) : ofByte (toByte x) = x := rfl

/-- The encoder of a RAID vdev: the codec's, on bytes. -/
def codecEnc (m f len : Nat) (cols : List Buf) : List Buf :=
  (encode m f len (cols.map fun c => c.map ofByte)).map fun c => c.map toByte

/-- The child write's data is on the disk. -/
def Landed (D : Disks) (w : CW) : Prop := ∀ i < w.data.length, D w.disk (w.addr + i) = w.data[i]?

/-- What a reader sees of chunk `b` of stripe `s`. -/
def seen (g : Geom) (D : Disks) (s b : Nat) : Option Buf :=
  D.read ⟨g.Y.disk s b, g.Y.off s b * g.col, g.col⟩

/-- The positions of stripe `s` whose child write failed. -/
def failedAt (g : Geom) (ws : List CW) (res : CW → Res) (s b : Nat) : Bool :=
  ws.any fun w => w.disk == g.Y.disk s b && (res w).isErr

/-- A reader who knows which child writes to stripe `s` failed can recover the data `y` of the
stripe: at most `f` chunks are bad, the others are as written, and decoding them gives the lost
data chunks. -/
def Recoverable (g : Geom) (f : Nat) (D : Disks) (s : Nat) (y : Buf) (bad : Nat → Bool) : Prop :=
  erasedCount bad (g.Y.m + f) ≤ f ∧
  (∀ b < g.Y.m + f, bad b = false → seen g D s b = some (column g y b)) ∧
  ∀ invert, Inverts invert → (∃ j < g.Y.m, bad j = true) →
    decode invert g.Y.m f g.col bad
      ((survivors bad g.Y.m f).map fun b => ((seen g D s b).getD []).map ofByte) =
    some ((lostData bad g.Y.m).map fun j =>
      ((y.drop (j * g.col)).take g.col).map ofByte)

theorem column_codec {f : Nat} (hE : g.enc = codecEnc g.Y.m f g.col) (y : Buf) (b : Nat) :
    (column g y b).map ofByte =
      (stripe g.Y.m f g.col ((List.range g.Y.m).map fun j =>
        ((y.drop (j * g.col)).take g.col).map ofByte)).getD b [] := by
  have hl : ((List.range g.Y.m).map fun j => ((y.drop (j * g.col)).take g.col).map ofByte).length =
      g.Y.m := by simp
  unfold column stripe
  by_cases h : b < g.Y.m
  · rw [if_pos h, List.getD_eq_getElem?_getD, List.getElem?_append_left (by rw [hl]; exact h)]
    simp [h]
  · rw [if_neg h, List.getD_eq_getElem?_getD, List.getD_eq_getElem?_getD,
      List.getElem?_append_right (by rw [hl]; omega), hl, hE]
    unfold codecEnc
    rw [List.getElem?_map, List.map_map]
    have : (fun c : Buf => c.map ofByte) ∘ (fun i => (y.drop (i * g.col)).take g.col) =
        fun j => ((y.drop (j * g.col)).take g.col).map ofByte := rfl
    rw [this]
    generalize (encode g.Y.m f g.col ((List.range g.Y.m).map fun j =>
      ((y.drop (j * g.col)).take g.col).map ofByte))[b - g.Y.m]? = o
    cases o with
    | none => rfl
    | some c => simp [List.map_map, Function.comp_def, ofByte_toByte]

theorem recover (h : g.Lawful) {f : Nat} (hf : g.Y.k = g.Y.m + f) (hk : g.Y.k ≤ 256)
    (hE : g.enc = codecEnc g.Y.m f g.col) {S N : Nat} {x : Buf} (hx : x.length = N * g.stripe)
    {ws : List CW} (hp : (bytesOf ws).Perm (bytesOf (stripeChunks g S x N))) {res : CW → Res}
    (hok : writeResult f (ws.map res) = .ok) {D : Disks}
    (hD : ∀ w ∈ ws, res w = .ok → Landed D w) {t : Nat} (ht : t < N) :
    Recoverable g f D (S + t) (x.drop (t * g.stripe)) (failedAt g ws res (S + t)) := by
  have hxt : g.stripe ≤ (x.drop (t * g.stripe)).length := by
    have : (t + 1) * g.stripe ≤ N * g.stripe := Nat.mul_le_mul_right _ ht
    rw [Nat.add_mul, Nat.one_mul] at this
    rw [List.length_drop, hx]
    omega
  have hcount : erasedCount (failedAt g ws res (S + t)) (g.Y.m + f) ≤ f := by
    rw [C12_ok_iff, List.countP_map, List.countP_eq_length_filter] at hok
    refine Nat.le_trans ?_ hok
    unfold erasedCount
    have hnd : (((List.range (g.Y.m + f)).filter (failedAt g ws res (S + t))).map
        (g.Y.disk (S + t))).Nodup := by
      apply List.Nodup.map_on
      · intro b hb b' hb' he
        have h1 := List.mem_range.mp (List.mem_filter.mp hb).1
        have h2 := List.mem_range.mp (List.mem_filter.mp hb').1
        exact h.layout.disk_inj _ _ _ (by omega) (by omega) he
      · exact (List.nodup_range).filter _
    have hsub : (((List.range (g.Y.m + f)).filter (failedAt g ws res (S + t))).map
        (g.Y.disk (S + t))) ⊆ (ws.filter (Res.isErr ∘ res)).map CW.disk := by
      intro d hd
      obtain ⟨b, hb, rfl⟩ := List.mem_map.mp hd
      have h1 := (List.mem_filter.mp hb).2
      unfold failedAt at h1
      obtain ⟨w, hw, h2⟩ := List.any_eq_true.mp h1
      rw [Bool.and_eq_true, beq_iff_eq] at h2
      exact List.mem_map.mpr ⟨w, List.mem_filter.mpr ⟨hw, h2.2⟩, h2.1⟩
    have := (List.subperm_of_subset hnd hsub).length_le
    simpa using this
  have hseen : ∀ b < g.Y.m + f, failedAt g ws res (S + t) b = false →
      seen g D (S + t) b = some (column g (x.drop (t * g.stripe)) b) := by
    intro b hb hg
    have hbk : b < g.Y.k := by omega
    have hcl := column_length h hxt hbk
    apply read_of hcl
    intro i hi
    simp only
    have hi' : i < (column g (x.drop (t * g.stripe)) b).length := by rw [hcl]; exact hi
    have hm : (g.Y.disk (S + t) b, g.Y.off (S + t) b * g.col + i,
        (column g (x.drop (t * g.stripe)) b)[i]) ∈ bytesOf ws := by
      apply hp.mem_iff.mpr
      apply mem_bytesOf.mpr
      refine ⟨⟨g.Y.disk (S + t) b, g.Y.off (S + t) b * g.col, column g (x.drop (t * g.stripe)) b⟩,
        ?_, rfl, by simp, ?_⟩
      · exact List.mem_flatMap.mpr ⟨t, List.mem_range.mpr ht, List.mem_map.mpr
          ⟨b, List.mem_range.mpr hbk, rfl⟩⟩
      · simp only
        rw [Nat.add_sub_cancel_left]
        exact List.getElem?_eq_getElem hi'
    obtain ⟨w, hw, h1, h2, h3⟩ := mem_bytesOf.mp hm
    have hwok : res w = .ok := by
      unfold failedAt at hg
      have := List.any_eq_false.mp hg w hw
      rw [h1] at this
      cases hr : res w with
      | ok => rfl
      | err e => simp [hr, Res.isErr] at this
    have hl := hD w hw hwok (g.Y.off (S + t) b * g.col + i - w.addr) (by
      rcases Nat.lt_or_ge (g.Y.off (S + t) b * g.col + i - w.addr) w.data.length with hh | hh
      · exact hh
      · rw [List.getElem?_eq_none hh] at h3; cases h3)
    rw [h3] at hl
    rw [← h1] at hl
    rw [show w.addr + (g.Y.off (S + t) b * g.col + i - w.addr) = g.Y.off (S + t) b * g.col + i by
      omega] at hl
    rw [hl, List.getElem?_eq_getElem hi']
  refine ⟨hcount, hseen, ?_⟩
  intro invert hI hl
  generalize failedAt g ws res (S + t) = bad at *
  have hmap : ((survivors bad g.Y.m f).map fun b => ((seen g D (S + t) b).getD []).map ofByte) =
      (survivors bad g.Y.m f).map fun b => (stripe g.Y.m f g.col ((List.range g.Y.m).map fun j =>
        (((x.drop (t * g.stripe)).drop (j * g.col)).take g.col).map ofByte)).getD b [] := by
    apply List.map_congr_left
    intro b hb
    have hmem := List.mem_filter.mp (List.mem_of_mem_take hb)
    have hb1 := List.mem_range.mp hmem.1
    rw [hseen b hb1 (by simpa using hmem.2), Option.getD_some, column_codec hE]
  rw [hmap, C09_decode hI (by omega) (by simp) _ hcount hl]
  · congr 1
    apply List.map_congr_left
    intro j hj
    have := List.mem_range.mp (List.mem_filter.mp hj).1
    rw [List.getD_eq_getElem?_getD]
    simp [this]
  · intro c hc
    obtain ⟨j, hj, rfl⟩ := List.mem_map.mp hc
    have hj := List.mem_range.mp hj
    rw [List.length_map, List.length_take, List.length_drop]
    have : (j + 1) * g.col ≤ g.stripe := Nat.mul_le_mul_right _ hj
    rw [Nat.add_mul, Nat.one_mul] at this
    omega

/-- C12: if a write of several stripes succeeds although some of its child writes failed, leaving
anything on their disks, every chunk of every stripe can still be recovered. -/
theorem C12_recover_multi (h : g.Lawful) {f : Nat} (hf : g.Y.k = g.Y.m + f) (hk : g.Y.k ≤ 256)
    (hE : g.enc = codecEnc g.Y.m f g.col) {S N : Nat} {x : Buf} (hx : x.length = N * g.stripe)
    {res : CW → Res} (hok : writeResult f ((writeAtMulti g x (S * g.slbas)).map res) = .ok)
    {D : Disks} (hD : ∀ w ∈ writeAtMulti g x (S * g.slbas), res w = .ok → Landed D w) {t : Nat}
    (ht : t < N) : Recoverable g f D (S + t) (x.drop (t * g.stripe))
      (failedAt g (writeAtMulti g x (S * g.slbas)) res (S + t)) :=
  recover h hf hk hE hx (writeAtMulti_spec h S N x hx) hok hD ht

/-- C12: the same for a write of one stripe. -/
theorem C12_recover_one (h : g.Lawful) {f : Nat} (hf : g.Y.k = g.Y.m + f) (hk : g.Y.k ≤ 256)
    (hE : g.enc = codecEnc g.Y.m f g.col) {S : Nat} {x : Buf} (hx : x.length = g.stripe)
    {res : CW → Res} (hok : writeResult f ((writeAtOne g x (S * g.slbas)).map res) = .ok)
    {D : Disks} (hD : ∀ w ∈ writeAtOne g x (S * g.slbas), res w = .ok → Landed D w) :
    Recoverable g f D S x (failedAt g (writeAtOne g x (S * g.slbas)) res S) := by
  have := recover h hf hk hE (N := 1) (by rw [hx, Nat.one_mul])
    (by rw [writeAtOne_spec h S x hx]) hok hD (Nat.zero_lt_one)
  simpa using this

/-- C12: the same for a stripe written from the stripe buffer. -/
theorem C12_recover_onev (h : g.Lawful) {f : Nat} (hf : g.Y.k = g.Y.m + f) (hk : g.Y.k ≤ 256)
    (hE : g.enc = codecEnc g.Y.m f g.col) {S : Nat} {sg : SGList} (hne : ∀ b ∈ sg, b ≠ [])
    (hx : sg.flatten.length = g.stripe) : ∃ ws, writevAtOne g sg (S * g.slbas) = some ws ∧
    ∀ (res : CW → Res), writeResult f (ws.map res) = .ok →
    ∀ (D : Disks), (∀ w ∈ ws, res w = .ok → Landed D w) →
      Recoverable g f D S sg.flatten (failedAt g ws res S) := by
  refine ⟨_, writevAtOne_spec h S sg hne hx, ?_⟩
  intro res hok D hD
  have := recover h hf hk hE (N := 1) (by rw [hx, Nat.one_mul]) (List.Perm.refl _) hok hD
    (Nat.zero_lt_one)
  simpa using this

/-! ### C13 -/

/-- The children that are missing or faulted. -/
def Vdev.absent (a : Vdev) : Nat := a.children.countP fun c => !c.isPresent

theorem absent_count {cs : List Child} {ds : List Nat} (hnd : ds.Nodup)
    (hlt : ∀ d ∈ ds, d < cs.length) :
    ds.countP (fun d => !(cs.getD d .missing).isPresent) ≤ cs.countP fun c => !c.isPresent := by
  have e : cs.countP (fun c => !c.isPresent) =
      (List.range cs.length).countP fun d => !(cs.getD d .missing).isPresent := by
    conv => lhs; rw [show cs = (List.range cs.length).map fun d => cs.getD d .missing by
      apply List.ext_getElem (by simp)
      intro i h1 h2
      simp [List.getD_eq_getElem?_getD, h1]]
    rw [List.countP_map]
    rfl
  rw [e, List.countP_eq_length_filter, List.countP_eq_length_filter]
  apply List.Subperm.length_le
  apply List.subperm_of_subset (hnd.filter _)
  intro d hd
  obtain ⟨h1, h2⟩ := List.mem_filter.mp hd
  exact List.mem_filter.mpr ⟨List.mem_range.mpr (hlt d h1), h2⟩

/-- C12: a stripe write counts the writes to children that are missing or faulted as failed. -/
theorem C12_array_ok_iff (a : Vdev) (ds : List Nat) (r : Nat → Res) :
    a.stripeWrite ds r = .ok ↔
      ds.countP (fun d => !(a.children.getD d .missing).isPresent || (r d).isErr) ≤ a.f := by
  unfold Vdev.stripeWrite
  rw [C12_ok_iff, List.countP_map]
  have : (Res.isErr ∘ fun d => (a.children.getD d .missing).io (r d)) =
      fun d => !(a.children.getD d .missing).isPresent || (r d).isErr := by
    funext d
    simp only [Function.comp_apply]
    cases a.children.getD d .missing <;> simp [Child.io, Child.isPresent, Res.isErr]
  rw [this]

/-- C13: with at most `f` children missing or faulted, a stripe write succeeds if the present
children's writes do. -/
theorem C13_write (a : Vdev) (ha : a.absent ≤ a.f) {ds : List Nat} (hnd : ds.Nodup)
    (hlt : ∀ d ∈ ds, d < a.children.length) {r : Nat → Res} (hr : ∀ d ∈ ds, r d = .ok) :
    a.stripeWrite ds r = .ok := by
  unfold Vdev.stripeWrite
  rw [C12_ok_iff, List.countP_map]
  refine Nat.le_trans (Nat.le_trans (Nat.le_of_eq ?_) (absent_count hnd hlt)) ha
  apply List.countP_congr
  intro d hd
  simp only [Function.comp_apply]
  rw [hr d hd]
  cases a.children.getD d .missing <;> simp [Child.io, Child.isPresent, Res.isErr]

theorem tryAll_ok (rs : List Res) : tryAll rs = .ok ↔ ∀ r ∈ rs, r = .ok := by
  induction rs with
  | nil => simp [tryAll]
  | cons r rs ih => cases r <;> simp [tryAll, ih]

theorem mem_mapPresent {r : Nat → Res} {x : Res} : ∀ (cs : List Child) (i : Nat),
    x ∈ mapPresent r i cs ↔ ∃ j, cs[j]? = some .present ∧ x = r (i + j) := by
  intro cs
  induction cs with
  | nil => intro i; simp [mapPresent]
  | cons c cs ih =>
    intro i
    have hshift : (∃ j, cs[j]? = some Child.present ∧ x = r (i + 1 + j)) ↔
        ∃ j, (c :: cs)[j + 1]? = some Child.present ∧ x = r (i + (j + 1)) := by
      simp [Nat.add_assoc, Nat.add_comm 1]
    have hsplit : (∃ j, (c :: cs)[j]? = some Child.present ∧ x = r (i + j)) ↔
        (c = .present ∧ x = r i) ∨
        ∃ j, (c :: cs)[j + 1]? = some Child.present ∧ x = r (i + (j + 1)) := by
      constructor
      · rintro ⟨j, h1, h2⟩
        cases j with
        | zero => left; simp at h1; exact ⟨h1, h2⟩
        | succ j => right; exact ⟨j, h1, h2⟩
      · rintro (⟨h1, h2⟩ | ⟨j, h1, h2⟩)
        · exact ⟨0, by simp [h1], h2⟩
        · exact ⟨j + 1, h1, h2⟩
    rw [hsplit, ← hshift, ← ih (i + 1)]
    cases c <;> simp [mapPresent]

/-- C13: syncing (and opening, finishing and erasing zones) succeeds if and only if it does on
every child that is present, however many are not. -/
theorem C13_sync (a : Vdev) (r : Nat → Res) :
    a.syncAll r = .ok ↔ ∀ d, a.children[d]? = some .present → r d = .ok := by
  unfold Vdev.syncAll
  rw [tryAll_ok]
  constructor
  · intro h d hd
    exact h _ ((mem_mapPresent _ 0).mpr ⟨d, hd, by rw [Nat.zero_add]⟩)
  · intro h x hx
    obtain ⟨j, h1, h2⟩ := (mem_mapPresent _ 0).mp hx
    rw [h2, Nat.zero_add]
    exact h j h1

theorem mapUnwrap_none {r : Nat → Res} : ∀ (cs : List Child) (i : Nat),
    mapUnwrap r i cs = none ↔ ∃ c ∈ cs, c.isPresent = false := by
  intro cs
  induction cs with
  | nil => intro i; simp [mapUnwrap]
  | cons c cs ih =>
    intro i
    cases c with
    | present => simp [mapUnwrap, ih (i + 1), Child.isPresent]
    | missing => simp [mapUnwrap, Child.isPresent]
    | faulted => simp [mapUnwrap, Child.isPresent]

theorem mapUnwrap_some {r : Nat → Res} : ∀ (cs : List Child) (i : Nat) (rs : List Res),
    mapUnwrap r i cs = some rs → rs = mapPresent r i cs := by
  intro cs
  induction cs with
  | nil => intro i rs h; simpa [mapUnwrap, mapPresent] using h.symm
  | cons c cs ih =>
    intro i rs h
    cases c with
    | present =>
      unfold mapUnwrap at h
      obtain ⟨rs', h1, rfl⟩ := Option.map_eq_some_iff.mp h
      rw [mapPresent, ← ih _ _ h1]
    | missing => simp [mapUnwrap] at h
    | faulted => simp [mapUnwrap] at h

/-- C13, for labels and spacemaps: with **no** child missing or faulted, writing them succeeds
if and only if it does on every child. -/
theorem C13_label_spacemap_partial (a : Vdev) (ha : a.absent = 0) (r : Nat → Res) :
    a.writeLabel r = some (a.syncAll r) ∧ a.writeSpacemap r = some (a.syncAll r) := by
  have hall : ∀ c ∈ a.children, c.isPresent = true := by
    intro c hc
    unfold Vdev.absent at ha
    have := List.countP_eq_zero.mp ha c hc
    simpa using this
  have key : (mapUnwrap r 0 a.children).map tryAll = some (a.syncAll r) := by
    cases hm : mapUnwrap r 0 a.children with
    | none =>
      obtain ⟨c, hc, h⟩ := (mapUnwrap_none _ _).mp hm
      rw [hall c hc] at h
      cases h
    | some rs => rw [mapUnwrap_some _ _ _ hm]; rfl
  exact ⟨key, key⟩

/-- **C13 fails for labels and spacemaps**: as soon as a single child is missing or faulted,
however large `f` is, writing the label or the spacemap panics. -/
theorem C13_label_spacemap_panic (a : Vdev) (ha : a.absent ≠ 0) (r : Nat → Res) :
    a.writeLabel r = none ∧ a.writeSpacemap r = none := by
  have hex : ∃ c ∈ a.children, c.isPresent = false := by
    unfold Vdev.absent at ha
    obtain ⟨c, hc, h⟩ := List.countP_pos_iff.mp (Nat.pos_of_ne_zero ha)
    exact ⟨c, hc, by simpa using h⟩
  have := (mapUnwrap_none (r := r) a.children 0).mpr hex
  unfold Vdev.writeLabel Vdev.writeSpacemap
  rw [this]
  exact ⟨rfl, rfl⟩

theorem readSpacemapLoop_ok {r : Nat → Res} : ∀ (cs : List Child) (i : Nat) (last : Res),
    (∀ c ∈ cs, c.isPresent = true) → (last = .ok ∨ ∃ j < cs.length, r (i + j) = .ok) →
    readSpacemapLoop r last i cs = some .ok := by
  intro cs
  induction cs with
  | nil =>
    intro i last _ h
    rcases h with rfl | ⟨j, hj, _⟩
    · rfl
    · simp at hj
  | cons c cs ih =>
    intro i last hall h
    cases last with
    | ok => rfl
    | err e =>
      have hc := hall c (by simp)
      cases c with
      | present =>
        unfold readSpacemapLoop
        apply ih (i + 1) _ (fun c hc => hall c (List.mem_cons_of_mem _ hc))
        rcases h with h | ⟨j, hj, hr⟩
        · cases h
        · cases j with
          | zero => left; exact hr
          | succ j => right; exact ⟨j, by simpa using hj, by rw [← hr]; congr 1; omega⟩
      | missing => simp [Child.isPresent] at hc
      | faulted => simp [Child.isPresent] at hc

/-- C13, reading the spacemap: with **no** child missing or faulted, it succeeds if any child can
read it. -/
theorem C13_read_spacemap_partial (a : Vdev) (ha : a.absent = 0) (r : Nat → Res) {d : Nat}
    (hd : d < a.children.length) (hr : r d = .ok) : a.readSpacemap r = some .ok := by
  have hall : ∀ c ∈ a.children, c.isPresent = true := by
    intro c hc
    have := List.countP_eq_zero.mp ha c hc
    simpa using this
  unfold Vdev.readSpacemap
  cases hcs : a.children with
  | nil => rw [hcs] at hd; simp at hd
  | cons c cs =>
    rw [hcs] at hall hd
    have hc := hall c (by simp)
    cases c with
    | present =>
      apply readSpacemapLoop_ok _ _ _ (fun c hc => hall c (List.mem_cons_of_mem _ hc))
      cases d with
      | zero => exact Or.inl hr
      | succ d => exact Or.inr ⟨d, by simpa using hd, by rw [← hr]; congr 1; omega⟩
    | missing => simp [Child.isPresent] at hc
    | faulted => simp [Child.isPresent] at hc

/-- **C13 fails for reading the spacemap**, which importing a pool does: it panics if the first
child is missing or faulted. -/
theorem C13_read_spacemap_panic (a : Vdev) {c : Child} (hc : a.children.head? = some c)
    (hp : c.isPresent = false) (r : Nat → Res) : a.readSpacemap r = none := by
  unfold Vdev.readSpacemap
  cases hcs : a.children with
  | nil => rw [hcs] at hc; cases hc
  | cons c' cs =>
    rw [hcs] at hc
    cases hc
    cases c <;> simp [Child.isPresent] at hp ⊢

/-- The number of absent children that the array keeps is right. -/
def Vdev.Ok (a : Vdev) : Prop := a.faultedChildren = a.absent

/-- C13: an array made of any children, and then any of them faulted in any order, counts its
absent children right, so it reports itself faulted if and only if more than `f` are absent, and
online if and only if none is. -/
theorem C13_health {k f : Nat} {cs : List Child} {a : Vdev} (h : Vdev.new k f cs = some a)
    (faults : List Nat) :
    let b := faults.foldl Vdev.fault a
    b.Ok ∧ (b.health = some .faulted ↔ f < b.absent) ∧
      (f < b.absent ∨ (b.health = some .online ↔ b.absent = 0)) := by
  have hok : ∀ (l : List Nat) (a : Vdev), a.Ok → a.f = f →
      (l.foldl Vdev.fault a).Ok ∧ (l.foldl Vdev.fault a).f = f := by
    intro l
    induction l with
    | nil => intro a h1 h2; exact ⟨h1, h2⟩
    | cons i l ih =>
      intro a h1 h2
      apply ih
      · unfold Vdev.fault
        cases hc : a.children.getD i .missing with
        | present =>
          have hi : i < a.children.length := by
            rcases Nat.lt_or_ge i a.children.length with hlt | hge
            · exact hlt
            · rw [List.getD_eq_getElem?_getD, List.getElem?_eq_none hge] at hc
              simp at hc
          have hci : a.children[i] = .present := by
            rw [List.getD_eq_getElem?_getD, List.getElem?_eq_getElem hi] at hc
            simpa using hc
          unfold Vdev.Ok Vdev.absent at h1 ⊢
          simp only
          rw [h1, List.countP_set hi, hci]
          simp [Child.isPresent]
        | missing => exact h1
        | faulted => exact h1
      · unfold Vdev.fault
        split <;> exact h2
  have ha : a.Ok ∧ a.f = f := by
    unfold Vdev.new at h
    split at h
    · cases h
    · cases h; exact ⟨rfl, rfl⟩
  obtain ⟨h1, h2⟩ := hok faults a ha.1 ha.2
  intro b
  have hb1 : b.Ok := h1
  have hb2 : b.f = f := h2
  have hfa : b.faulted = some b.absent := by
    unfold Vdev.faulted
    exact (if_pos (show b.faultedChildren = b.children.countP _ from hb1)).trans (congrArg some hb1)
  have hon : b.children.all Child.isPresent = true ↔ b.absent = 0 := by
    unfold Vdev.absent
    rw [List.countP_eq_zero, List.all_eq_true]
    simp
  refine ⟨hb1, ?_, ?_⟩
  · unfold Vdev.health
    rw [hfa, Option.map_some, hb2]
    by_cases hlt : f < b.absent
    · simp [hlt]
    · rw [if_neg hlt]
      split <;> simp [hlt]
  · by_cases hlt : f < b.absent
    · exact Or.inl hlt
    · right
      unfold Vdev.health
      rw [hfa, Option.map_some, hb2, if_neg hlt, ← hon]
      split <;> simp_all

/-- **Restoring a faulted child** leaves the count of absent children too high: after
three outages of one disk each, all repaired, a healthy array of double parity counts as having
lost three. -/
theorem C13_restore_count :
    let a : Vdev := ⟨4, 2, [.present, .present, .present, .present, .present], 0⟩
    let b := ((((((a.fault 0).restore 0).fault 1).restore 1).fault 2).restore 2)
    b.absent = 0 ∧ b.faultedChildren = 3 ∧ b.faulted = none := by decide

/-- Five children, two of them gone: everything but labels and spacemaps works. -/
example : let a : Vdev := ⟨4, 2, [.missing, .present, .faulted, .present, .present], 2⟩
    a.absent ≤ a.f ∧ a.stripeWrite [0, 1, 2, 3] (fun _ => .ok) = .ok ∧
    a.syncAll (fun _ => .ok) = .ok ∧ a.writeLabel (fun _ => .ok) = none ∧
    a.readSpacemap (fun _ => .ok) = none ∧ a.health = some .degraded := by decide

/-- Single parity over five disks, as in `exG`, with the real codec. -/
def exC : Geom := ⟨ofPrimeS false exL, 2, 2, 8, codecEnc 3 1 4⟩

theorem exC_lawful : exC.Lawful where
  layout := exG_lawful.layout
  cs := by decide
  bpl := by decide
  zr := by decide
  zr_bpl := by decide
  enc_len := by
    intro cols
    have h1 : exC.Y.k - exC.Y.m = 1 := by decide +kernel
    rw [h1]
    simp [exC, codecEnc, encode, ecEncode]
  enc_col := by
    intro cols _ _ c hc
    have h1 : exC.col = 4 := by decide
    rw [h1]
    simp only [exC, codecEnc, encode, ecEncode, List.mem_map] at hc
    obtain ⟨c', ⟨i, hi, rfl⟩, rfl⟩ := hc
    simp

instance (D : Disks) (w : CW) : Decidable (Landed D w) := by unfold Landed; infer_instance

def exWs : List CW := writeAtMulti exC (List.replicate 24 7) (5 * exC.slbas)

/-- All writes to the disk of chunk 1 of stripe 5 fail. -/
def exRes (w : CW) : Res := if w.disk = exC.Y.disk 5 1 then .err ENXIO else .ok

/-- The hypotheses of the recovery theorems can be met: a write of two stripes, of which the
writes to one disk fail, leaving nothing there. -/
example : exC.Y.k = exC.Y.m + 1 ∧ (List.replicate 24 7).length = 2 * exC.stripe ∧
    writeResult 1 (exWs.map exRes) = .ok ∧
    (∀ w ∈ exWs, exRes w = .ok →
      Landed (Disks.writes (fun _ _ => none) (exWs.filter fun w => exRes w == .ok)) w) ∧
    failedAt exC exWs exRes 5 1 = true := by
  decide +kernel

end Verif.Raid
