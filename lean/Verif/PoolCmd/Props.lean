import Verif.PoolCmd.Parse
import Verif.PoolCmd.Build

/-!
# C77: `bfffs pool create` makes the pool its arguments describe
-/

namespace Verif.PoolCmd

/-- The arguments are accepted exactly if they describe a pool, and then as that pool.

Partial: for arguments that reach the parser as one word each, see `C77_spaces_split` and
`C77_number_runs_on`. -/
theorem C77_grammar_partial (args : List Str) (h : ∀ a ∈ args, Plain a) (l : List Tlv) :
    parse (joinSp args) = some l ↔ Describes l args := by
  unfold parse
  rw [lex_join args h]
  constructor
  · intro hp
    cases hm : args.mapM tokOf with
    | none => rw [hm] at hp; cases hp
    | some ts =>
      rw [hm] at hp
      obtain ⟨h1, h2⟩ := mapM_tokOf h hm
      rw [h1]
      exact pool_sound ts h2 hp
  · intro hd
    obtain ⟨us, h1, h2, h3⟩ := pool_complete hd
    rw [← h1, mapM_text h2]
    exact h3

/-- A word is a plain argument. -/
theorem good_plain {t : Tok} (h : t.Good) : Plain t.text := by
  cases t with
  | mirror => exact ⟨by decide, by decide, by decide, by decide⟩
  | raid => exact ⟨by decide, by decide, by decide, by decide⟩
  | num s =>
    obtain ⟨h1, h2⟩ := h
    refine ⟨h1, ?_, ?_, ?_⟩
    · intro c hc
      have := h2 c hc
      refine ⟨?_, ?_, ?_⟩ <;> (rintro rfl; exact absurd this (by decide))
    · intro c hc
      exact isDig_not_ws (h2 c (List.mem_of_mem_head? hc))
    · intro _ c hc
      rw [← isDig_iff]
      exact h2 c hc
  | disk s =>
    obtain ⟨⟨c, cs, rfl, hs⟩, h0, _, _⟩ := h
    have hs := (diskStart_iff c).2 hs
    refine ⟨by simp [Tok.text], h0, ?_, ?_⟩
    · rintro x hx
      cases hx
      exact diskStart_not_ws hs
    · rintro ⟨x, hx, hd⟩
      cases hx
      rw [← isDig_iff] at hd
      rw [isDig_not_start hd] at hs
      cases hs

theorem describes_plain {l : List Tlv} {ws : List Str} (h : Describes l ws) : ∀ a ∈ ws, Plain a := by
  obtain ⟨us, h1, h2, _⟩ := pool_complete h
  intro a ha
  rw [← h1] at ha
  obtain ⟨t, ht, rfl⟩ := List.mem_map.1 ha
  exact good_plain (h2 t ht)

/-- Words that describe a pool describe only one, and are accepted as that. -/
theorem C77_unambiguous {l l' : List Tlv} {ws : List Str} (h : Describes l ws) (h' : Describes l' ws) :
    l = l' ∧ parse (joinSp ws) = some l := by
  have hp := describes_plain h
  have h1 := (C77_grammar_partial ws hp l).2 h
  have h2 := (C77_grammar_partial ws hp l').2 h'
  rw [h1] at h2
  exact ⟨Option.some.inj h2, h1⟩

/-- Either the pool described is made, with its clusters, mirrors and disks in the order given, or
none: the arguments must describe a pool, all disks must be there, no device may be used twice, the
disks of a top-level vdev must have the same size, and RAIDs must have a legal geometry.

Partial: for arguments that reach the parser as one word each, and RAIDs of at most 181 children
(see C06 for the rest).  A device used twice makes the command wait for ever, see `C77_twice_hangs`. -/
theorem C77_create_partial (w : Bool) (dv : Devs) (args : List Str) (h : ∀ a ∈ args, Plain a)
    (hsmall : ∀ l, Describes l args → ∀ k f cs, .raid k f cs ∈ l → cs.length ≤ 181) :
    (∀ cl, create w dv args = .ok cl → ∃ l, Describes l args ∧ Feasible dv l ∧
      cl.map Cluster.shape = l.map (fun t => (t.params, t.mirrors)) ∧
      ∀ c ∈ cl, ∀ m ∈ c.mirrors, ∀ d ∈ m.paths, (dv d).map Prod.snd = some m.size) ∧
    (∀ l, Describes l args → Feasible dv l → ∃ cl, create w dv args = .ok cl) := by
  have hshape : ∀ l : List Tlv, (l.map (mkCluster dv)).map Cluster.shape =
      l.map fun t => (t.params, t.mirrors) := by
    intro l
    rw [List.map_map]
    apply List.map_congr_left
    intro t _
    have : (t.mirrors.map (mk dv)).map Mirror.paths = t.mirrors := by
      rw [List.map_map]
      conv => rhs; rw [← List.map_id t.mirrors]
      apply List.map_congr_left
      intro m _
      rfl
    simp only [Function.comp, Cluster.shape, mkCluster, this]
  constructor
  · intro cl hc
    unfold create at hc
    cases hp : parse (joinSp args) with
    | none => rw [hp] at hc; cases hc
    | some l =>
      rw [hp] at hc
      dsimp only at hc
      have hd := (C77_grammar_partial args h l).1 hp
      cases ha : addAll w dv ⟨[], [], []⟩ l with
      | fail => rw [ha] at hc; cases hc
      | hang => rw [ha] at hc; cases hc
      | ok b =>
        obtain ⟨h1, h2⟩ := (addAll_spec dv w l ⟨[], [], []⟩ rfl).2 b ha
        rw [(addAll_spec dv w l ⟨[], [], []⟩ rfl).1 h1 h2] at hc
        simp only [List.nil_append, Out.ok.injEq] at hc
        subst hc
        refine ⟨l, hd, (feasible_iff hd (hsmall l hd)).2 ⟨h1, h2⟩, hshape l, ?_⟩
        intro c hc m hm d hdm
        obtain ⟨t, ht, rfl⟩ := List.mem_map.1 hc
        obtain ⟨ps, hps, rfl⟩ := List.mem_map.1 hm
        have hthere := h1.there d (mem_allDisks ht (List.mem_flatten.2 ⟨ps, hps, hdm⟩))
        have := ((h2 t ht).1 ps hps).2 d hdm
        show _ = some (sz dv (ps.headD []))
        rw [← this]
        unfold sz
        cases hdv : dv d with
        | none => exact absurd hdv hthere
        | some x => rfl
  · intro l hd hf
    obtain ⟨h1, h2⟩ := (feasible_iff (w := w) hd (hsmall l hd)).1 hf
    unfold create
    rw [(C77_grammar_partial args h l).2 hd]
    dsimp only
    rw [(addAll_spec dv w l ⟨[], [], []⟩ rfl).1 h1 h2]
    exact ⟨_, rfl⟩

/-! ### Examples -/

def da0 : Str := "/dev/da0".toList
def da1 : Str := "/dev/da1".toList
def da2 : Str := "/dev/da2".toList
def da3 : Str := "/dev/da3".toList
def da4 : Str := "/dev/da4".toList
def da5 : Str := "/dev/da5".toList

/-- Six disks of the same size, one of them with a second name. -/
def toyDevs : Devs := fun s =>
  if s = da0 then some (0, 100) else if s = da1 then some (1, 100) else if s = da2 then some (2, 100)
  else if s = da3 then some (3, 100) else if s = da4 then some (4, 100)
  else if s = da5 then some (5, 100) else if s = "/dev/disk5".toList then some (5, 100)
  else if s = "my".toList then some (6, 100) else if s = "disk".toList then some (7, 100) else none

/-- A RAID of mirrors. -/
def toyArgs : List Str :=
  ["raid".toList, "03".toList, "1".toList, "mirror".toList, da0, da1, "mirror".toList, da2, da3,
    "mirror".toList, da4, da5]

def toySpec : List Tlv := [.raid 3 1 [.mirror [da0, da1], .mirror [da2, da3], .mirror [da4, da5]]]

theorem toyArgs_plain : ∀ a ∈ toyArgs, Plain a := by
  have : ∀ t ∈ ([.raid, .num "03".toList, .num "1".toList, .mirror, .disk da0, .disk da1, .mirror,
      .disk da2, .disk da3, .mirror, .disk da4, .disk da5] : List Tok), t.Good := by
    have hdisk : ∀ i ∈ ['0', '1', '2', '3', '4', '5'], IsDisk ("/dev/da".toList ++ [i]) := by
      intro i hi
      exact ⟨⟨'/', _, rfl, .inl rfl⟩, by revert i; decide, by revert i; decide, by revert i; decide⟩
    intro t ht
    simp only [List.mem_cons, List.not_mem_nil, or_false] at ht
    rcases ht with rfl | rfl | rfl | rfl | rfl | rfl | rfl | rfl | rfl | rfl | rfl | rfl
    · trivial
    · exact ⟨by decide, by decide⟩
    · exact ⟨by decide, by decide⟩
    · trivial
    · exact hdisk '0' (by simp)
    · exact hdisk '1' (by simp)
    · trivial
    · exact hdisk '2' (by simp)
    · exact hdisk '3' (by simp)
    · trivial
    · exact hdisk '4' (by simp)
    · exact hdisk '5' (by simp)
  intro a ha
  have hm : a ∈ ([.raid, .num "03".toList, .num "1".toList, .mirror, .disk da0, .disk da1, .mirror,
      .disk da2, .disk da3, .mirror, .disk da4, .disk da5] : List Tok).map Tok.text := ha
  obtain ⟨t, ht, rfl⟩ := List.mem_map.1 hm
  exact good_plain (this t ht)

/-- Non-vacuity of `C77_grammar_partial` and `C77_unambiguous`: a RAID of mirrors, with a number that
has a zero before it. -/
theorem toy_describes : Describes toySpec toyArgs :=
  (C77_grammar_partial toyArgs toyArgs_plain toySpec).1 (by decide +kernel)

example : parse (joinSp toyArgs) = some toySpec ∧ Describes toySpec toyArgs :=
  ⟨by decide +kernel, toy_describes⟩

/-- Non-vacuity of `C77_create_partial`. -/
example : (∀ a ∈ toyArgs, Plain a) ∧
    (∀ l, Describes l toyArgs → ∀ k f cs, .raid k f cs ∈ l → cs.length ≤ 181) ∧
    create false toyDevs toyArgs =
      .ok [⟨3, 1, [⟨[da0, da1], 100⟩, ⟨[da2, da3], 100⟩, ⟨[da4, da5], 100⟩]⟩] := by
  refine ⟨toyArgs_plain, ?_, by decide +kernel⟩
  intro l hl k f cs hm
  rw [(C77_unambiguous hl toy_describes).1] at hm
  simp only [toySpec, List.mem_singleton, Tlv.raid.injEq] at hm
  rw [hm.2.2]
  decide

/-- Other things that are refused: two kinds of vdevs, a mirror of nothing, a RAID of four disks, one
with more parity than disks, a disk that is not there. -/
example : parse (joinSp [da0, "mirror".toList, da1]) = none ∧
    parse (joinSp [da0, "mirror".toList]) = none ∧
    create false toyDevs ["raid".toList, ['3'], ['1'], da0, da1, da2, da3] = .fail ∧
    create false toyDevs ["raid".toList, ['3'], ['3'], da0, da1, da2] = .fail ∧
    create false toyDevs [da0, "da7".toList] = .fail ∧
    create false toyDevs [da0, da1] = .ok [⟨1, 0, [⟨[da0], 100⟩]⟩, ⟨1, 0, [⟨[da1], 100⟩]⟩] := by
  decide +kernel

/-! ### Where the arguments are not taken as they are meant -/

/-- Violation: arguments are joined with spaces, so a path with a space in it is taken for two disks;
if these exist, the pool is made of them. -/
theorem C77_spaces_split :
    create false toyDevs ["mirror".toList, "my disk".toList] =
      .ok [⟨1, 0, [⟨["my".toList, "disk".toList], 100⟩]⟩] := by decide +kernel

/-- Violation: a number and the disk after it need nothing between them. -/
theorem C77_number_runs_on :
    create false toyDevs ["raid".toList, ['3'], "1/dev/da0".toList, da1, da2] =
      .ok [⟨3, 1, [⟨[da0], 100⟩, ⟨[da1], 100⟩, ⟨[da2], 100⟩]⟩] := by decide +kernel

/-- Violation: a path that begins with neither a slash nor a letter is not accepted, nor are the names
`raid` and `mirror`, whatever devices there are. -/
theorem C77_paths_refused (w : Bool) (dv : Devs) :
    create w dv ["./disk0".toList] = .fail ∧ create w dv ["0disk".toList] = .fail ∧
    create w dv ["_disk".toList] = .fail ∧ create w dv ["raid".toList] = .fail ∧
    create w dv ["mirror".toList, "mirror".toList] = .fail := by
  have h1 : parse (joinSp ["./disk0".toList]) = none := by decide +kernel
  have h2 : parse (joinSp ["0disk".toList]) = none := by decide +kernel
  have h3 : parse (joinSp ["_disk".toList]) = none := by decide +kernel
  have h4 : parse (joinSp ["raid".toList]) = none := by decide +kernel
  have h5 : parse (joinSp ["mirror".toList, "mirror".toList]) = none := by decide +kernel
  unfold create
  rw [h1, h2, h3, h4, h5]
  exact ⟨rfl, rfl, rfl, rfl, rfl⟩

/-- Violation: a device that is named twice, even by different paths, is not refused; the command waits
for ever for itself. -/
theorem C77_twice_hangs :
    create false toyDevs ["mirror".toList, da0, da0] = .hang ∧
    create false toyDevs ["mirror".toList, da5, "/dev/disk5".toList] = .hang := by decide +kernel

end Verif.PoolCmd
