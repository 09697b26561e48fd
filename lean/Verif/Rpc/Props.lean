import Verif.Rpc.List
import Verif.Forest.Props

/-!
# C75: recursive listings; C76: requests to the daemon
-/

namespace Verif.Rpc

open Verif (OMap)
open Verif.Forest
open Verif.Property (Str Prp PName Source)

variable {D P : Type} {N : Str → Prop} {k : Client D}

/-! ## C75: a recursive listing is complete -/

/-- Everything up to the children, for a listing from any offset. -/
theorem fsList_drained (c : Conn D P) (hN : Names c.sys.env N) (s : Srv D P)
    (r : Reach c.sys.env N s.db k) (p : Path) (hp : k.fs p ≠ none)
    (hdeep : ∀ q, k.fs q ≠ none → q.length ≤ 255) (props : List PName)
    (hprops : ∀ n ∈ props, n ≠ .baseMountpoint) (offs : Option Nat) (depth n : Nat) :
    let o := fsList c s (full c.sys.env p) props offs depth (n + 1)
    let rem := (kidsOf s.db.forest k p).filter fun x => offs.getD 0 < x.2.2
    let T := if depth = 0 then [] else rem.map (fun x => p ++ [x.1]) ++
      levels s.db.forest k (depth - 1) (rem.map fun x => p ++ [x.1])
    (o.2.2 = .err .tooLarge ∧ o.2.1 = [] ∧ Oversized c k props ∧ Reach c.sys.env N o.1.db k ∧
      o.1.dev = s.dev) ∨
    ∃ x l, o.2.1 = x :: l ∧ x.name = full c.sys.env p ∧ Sound c.sys.env k props x ∧
      Drained c N s.db.forest k props s T n (o.1, l, o.2.2) := by
  intro o rem T
  obtain ⟨db', vs, h1, ha, r', f'⟩ := reach_propsOf hN props hprops r hp (hdeep p hp)
  have hproc : process c.sys s c.oracle c.uid (.fsStat (full c.sys.env p) props) =
      (⟨db', s.dev⟩, some (.fsStat (.ok ⟨full c.sys.env p, vs, 0⟩))) := by
    simp only [process, serveStat, h1, ofRes, Option.map_some]
  have hsound : Sound c.sys.env k props ⟨full c.sys.env p, vs, 0⟩ := ⟨p, hp, rfl, ha⟩
  have ho : o = fsList c s (full c.sys.env p) props offs depth (n + 1) := rfl
  unfold fsList call at ho
  rw [hproc] at ho
  dsimp only at ho
  by_cases hsz : c.size (.fsStat (.ok ⟨full c.sys.env p, vs, 0⟩)) ≥ bufSiz
  · rw [if_pos hsz] at ho
    left
    rw [ho]
    exact ⟨rfl, rfl, .inl ⟨_, hsound, hsz⟩, r', rfl⟩
  · rw [if_neg hsz] at ho
    simp only [finish, intoFsStat] at ho
    right
    rw [ho]
    refine ⟨_, _, rfl, rfl, hsound, ?_⟩
    have hinv : LInv c.sys.env s.db.forest k props
        { offs := offs
          datasets := if depth > 0 then [(depth, full c.sys.env p)] else []
          results := []
          depth := depth - 1 } T := by
      by_cases hd : depth = 0
      · have hT : T = [] := if_pos hd
        rw [hT]
        exact .done (by simp [hd]) rfl
      · have hT : T = rem.map (fun x => p ++ [x.1]) ++
            levels s.db.forest k (depth - 1) (rem.map fun x => p ++ [x.1]) := if_neg hd
        have hk := (kids_spec hN r hp).1
        have hsuf : ∃ pre, kidsOf s.db.forest k p = pre ++ rem := by
          have : ∀ F : List (Str × Nat × Nat), F.Pairwise (fun a b => a.2.2 < b.2.2) → ∀ o,
              ∃ pre, F = pre ++ F.filter fun x => decide (o < x.2.2) := by
            intro F hF o
            induction F with
            | nil => exact ⟨[], rfl⟩
            | cons a t ih =>
              rw [List.pairwise_cons] at hF
              by_cases ho : o < a.2.2
              · refine ⟨[], ?_⟩
                rw [List.nil_append, List.filter_cons_of_pos (by simpa using ho)]
                congr 1
                symm
                rw [List.filter_eq_self]
                intro x hx
                have := hF.1 x hx
                simp only [decide_eq_true_eq]
                omega
              · obtain ⟨pre, hpre⟩ := ih hF.2
                refine ⟨a :: pre, ?_⟩
                rw [List.filter_cons_of_neg (by simpa using ho), List.cons_append, ← hpre]
          exact this _ hk.cookies _
        refine .ask (d := depth) (q := p) (Q1 := []) (Q2 := []) (rem := rem)
          ⟨by omega, hp, by simp, by simp, ?_, hsuf, by simpa using hT⟩ rfl rfl
        simp [show 0 < depth by omega]
    have := drain_spec (s := ⟨db', s.dev⟩) hN hdeep hprops n r' f' hinv
    exact this

/-- Listing a file system with everything up to `depth` levels below it, for any user and any
`depth`, gives the complete list (`Complete`), each with the properties asked for, once the stream
has been polled often enough; nothing changes.

Partial: a response of 4096 bytes or more ends the listing with an error (`Oversized`; see
`C75_many_children_fail`).  At most 255 levels of file systems, as in C54. -/
theorem C75_list_partial (c : Conn D P) (hN : Names c.sys.env N) (s : Srv D P)
    (r : Reach c.sys.env N s.db k) (p : Path) (hp : k.fs p ≠ none)
    (hdeep : ∀ q, k.fs q ≠ none → q.length ≤ 255) (props : List PName)
    (hprops : ∀ n ∈ props, n ≠ .baseMountpoint) (depth : Nat) :
    ∃ m, ∀ n, m ≤ n →
      let o := fsList c s (full c.sys.env p) props none depth n
      Reach c.sys.env N o.1.db k ∧ o.1.dev = s.dev ∧ (∀ x ∈ o.2.1, Sound c.sys.env k props x) ∧
      ((o.2.2 = .done ∧ Complete c.sys.env k p depth props o.2.1) ∨
       (o.2.2 = .err .tooLarge ∧ Oversized c k props)) := by
  have v := reach_inv hN r
  have hF : ∀ q, k.fs q ≠ none → Kids c.sys.env k q (kidsOf s.db.forest k q) :=
    fun q hq => (kids_spec hN r hq).1
  have hnames : ∀ q, k.fs q ≠ none → ∀ m ∈ q, N m := by
    intro q hq
    cases h : k.fs q with
    | none => exact absurd h hq
    | some x => exact v.names h
  have hrem : (kidsOf s.db.forest k p).filter (fun x => (none : Option Nat).getD 0 < x.2.2) =
      kidsOf s.db.forest k p := by
    rw [List.filter_eq_self]
    intro x hx
    rw [(hF p hp).cookie x hx]
    simp
  have hT : (if depth = 0 then [] else (kidsOf s.db.forest k p).map (fun x => p ++ [x.1]) ++
      levels s.db.forest k (depth - 1) ((kidsOf s.db.forest k p).map fun x => p ++ [x.1])) =
      levels s.db.forest k depth [p] := by
    cases depth with
    | zero => rfl
    | succ d => simp [levels, kidsP]
  have hlev : Level k p.length [p] := ⟨by simp, by simp, by simpa using hp⟩
  obtain ⟨l1, l2, l3, l4⟩ := levels_spec hF (fun q n h h0 => by
    cases hx : k.fs (q ++ [n]) with
    | none => exact h hx
    | some x =>
      obtain ⟨j, d⟩ := x
      obtain ⟨_, i, c', hi, _⟩ := v.ents q n j d hx
      rw [h0] at hi
      cases hi) depth p.length [p] hlev
  refine ⟨(levels s.db.forest k depth [p]).length + 2, fun n hn => ?_⟩
  obtain ⟨n, rfl⟩ : ∃ n', n = n' + 1 := ⟨n - 1, by omega⟩
  have h := fsList_drained c hN s r p hp hdeep props hprops none depth n
  dsimp only at h
  rw [hrem, hT] at h
  intro o
  rcases h with ⟨h1, h2, h3, h4, h5⟩ | ⟨x, l, h1, h2, h3, r1, f1, d1, s1, T1, T2, hTT, hmap, _, hend⟩
  · refine ⟨h4, h5, ?_, .inr ⟨h1, h3⟩⟩
    intro x hx
    have : x ∈ ([] : List DsInfo) := h2 ▸ hx
    cases this
  · have hsound : ∀ y ∈ o.2.1, Sound c.sys.env k props y := by
      intro y hy
      have : y ∈ x :: l := h1 ▸ hy
      rcases List.mem_cons.1 this with rfl | hy
      · exact h3
      · exact s1 y hy
    refine ⟨r1, d1, hsound, ?_⟩
    cases he : o.2.2 with
    | more =>
      have he' : (fsList c s (full c.sys.env p) props none depth (n + 1)).2.2 = .more := he
      rw [he'] at hend
      dsimp only at hend
      have : (levels s.db.forest k depth [p]).length = T1.length + T2.length := by
        rw [hTT, List.length_append]
      omega
    | err y =>
      have he' : (fsList c s (full c.sys.env p) props none depth (n + 1)).2.2 = .err y := he
      rw [he'] at hend
      obtain ⟨rfl, h⟩ := hend
      exact .inr ⟨rfl, h⟩
    | done =>
      left
      refine ⟨rfl, ?_⟩
      have he' : (fsList c s (full c.sys.env p) props none depth (n + 1)).2.2 = .done := he
      rw [he'] at hend
      dsimp only at hend
      subst hend
      rw [List.append_nil] at hTT
      have ho : o.2.1 = x :: l := h1
      have hnm : o.2.1.map DsInfo.name =
          (p :: levels s.db.forest k depth [p]).map (full c.sys.env) := by
        rw [ho, List.map_cons, List.map_cons, h2, hmap, hTT]
      have hex : ∀ a ∈ p :: levels s.db.forest k depth [p], k.fs a ≠ none := by
        intro a ha
        rcases List.mem_cons.1 ha with rfl | ha
        · exact hp
        · exact (l3 a ha).2
      have hnd : (p :: levels s.db.forest k depth [p]).Nodup := by
        rw [List.nodup_cons]
        refine ⟨fun h => ?_, l1⟩
        have := (l3 p h).1
        omega
      have hinj : ∀ a b, k.fs a ≠ none → k.fs b ≠ none → full c.sys.env a = full c.sys.env b → a = b :=
        fun a b ha hb => full_inj hN (hnames a ha) (hnames b hb)
      refine ⟨?_, ?_, ?_, ?_, hsound⟩
      · rw [ho, List.head?_cons, Option.map_some, h2]
      · rw [hnm, List.nodup_iff_pairwise_ne, List.pairwise_map]
        rw [List.nodup_iff_pairwise_ne] at hnd
        refine List.Pairwise.imp_of_mem ?_ hnd
        intro a b ha hb hab heq
        exact hab (hinj a b (hex a ha) (hex b hb) heq)
      · intro t
        rw [hnm, List.mem_map]
        constructor
        · rintro ⟨a, ha, rfl⟩
          rcases List.mem_cons.1 ha with rfl | ha
          · exact ⟨[], Nat.zero_le _, by simpa using hp, by simp⟩
          · obtain ⟨q, hq, q', _, hl, rfl, hk⟩ := (l4 a).1 ha
            rw [List.mem_singleton.1 hq] at hk ⊢
            exact ⟨q', hl, hk, rfl⟩
        · rintro ⟨q, hl, hk, rfl⟩
          refine ⟨p ++ q, ?_, rfl⟩
          by_cases hq : q = []
          · subst hq
            simp
          · exact List.mem_cons_of_mem _ ((l4 _).2 ⟨p, by simp, q, hq, hl, rfl, hk⟩)
      · have hpw : (p :: levels s.db.forest k depth [p]).Pairwise
            (fun a b => a.length ≤ b.length) := by
          rw [List.pairwise_cons]
          refine ⟨fun a ha => ?_, l2⟩
          have := (l3 a ha).1
          omega
        have hpw' : ((p :: levels s.db.forest k depth [p]).map (full c.sys.env)).Pairwise
            (fun a b => ∀ q r, k.fs q ≠ none → k.fs r ≠ none → a = full c.sys.env q →
              b = full c.sys.env r → q.length ≤ r.length) := by
          rw [List.pairwise_map]
          refine List.Pairwise.imp_of_mem ?_ hpw
          intro a b ha hb hab q r hq hr h1 h2
          rw [← hinj a q (hex a ha) hq h1, ← hinj b r (hex b hb) hr h2]
          exact hab
        rw [← hnm, List.pairwise_map] at hpw'
        exact hpw'

/-- Resuming a listing of the children from the offset of one of its entries: the dataset itself, and
then exactly the entries that come after that one.

Partial: as above; and only for one level, see `C75_resume_skips`. -/
theorem C75_resume_partial (c : Conn D P) (hN : Names c.sys.env N) (s : Srv D P)
    (r : Reach c.sys.env N s.db k) (p : Path) (hp : k.fs p ≠ none)
    (hdeep : ∀ q, k.fs q ≠ none → q.length ≤ 255) (props : List PName)
    (hprops : ∀ n ∈ props, n ≠ .baseMountpoint) (n : Nat) (h x : DsInfo) (a b : List DsInfo)
    (hl : (fsList c s (full c.sys.env p) props none 1 n).2 = (h :: a ++ x :: b, .done)) :
    ∃ m, ∀ n, m ≤ n →
      let o := fsList c s (full c.sys.env p) props (some x.offset) 1 n
      (o.2.2 = .done ∧ o.2.1.map DsInfo.name = h.name :: b.map DsInfo.name) ∨
      (o.2.2 = .err .tooLarge ∧ Oversized c k props) := by
  have hF := (kids_spec hN r hp).1
  have hrem : (kidsOf s.db.forest k p).filter (fun x => (none : Option Nat).getD 0 < x.2.2) =
      kidsOf s.db.forest k p := by
    rw [List.filter_eq_self]
    intro x hx
    rw [hF.cookie x hx]
    simp
  cases n with
  | zero =>
    have := congrArg Prod.snd hl
    simp [fsList] at this
  | succ n =>
  have hfull := fsList_drained c hN s r p hp hdeep props hprops none 1 n
  dsimp only at hfull
  rw [hrem, hl] at hfull
  simp only [Nat.sub_self, levels, List.append_nil, Nat.one_ne_zero, if_false] at hfull
  rcases hfull with ⟨h1, _⟩ | ⟨y, l, h1, h2, _, _, _, _, _, T1, T2, hTT, hmap, hoff, hend⟩
  · cases h1
  rw [List.cons_append, List.cons.injEq] at h1
  obtain ⟨rfl, rfl⟩ := h1
  dsimp only at hend
  subst hend
  rw [List.append_nil] at hTT
  dsimp only at hmap hoff
  rw [← hTT, List.map_map] at hmap hoff
  -- the children before, at and after `x`
  have hoff' : (a ++ x :: b).map DsInfo.offset = (kidsOf s.db.forest k p).map fun y => y.2.2 := by
    rw [hoff]
    apply List.map_congr_left
    intro y hy
    rw [hF.cookie y hy]
    simp
  have hsplit : ∃ A y B, kidsOf s.db.forest k p = A ++ y :: B ∧ A.length = a.length ∧
      y.2.2 = x.offset := by
    rw [List.map_append, List.map_cons] at hoff'
    obtain ⟨A, R, h1, h2, h3⟩ := List.map_eq_append_iff.1 hoff'.symm
    obtain ⟨y, B, h4, h5, h6⟩ := List.map_eq_cons_iff.1 h3
    refine ⟨A, y, B, by rw [h1, h4], ?_, h5⟩
    have := congrArg List.length h2
    simpa using this
  obtain ⟨A, ⟨yn, yi, yc⟩, B, hk, hA, hy⟩ := hsplit
  dsimp only at hy
  have hfil : (kidsOf s.db.forest k p).filter (fun z => (some x.offset).getD 0 < z.2.2) = B := by
    simp only [Option.getD_some, ← hy]
    exact filter_suffix hF.cookies hk
  have hB : b.map DsInfo.name = (B.map fun z => p ++ [z.1]).map (full c.sys.env) := by
    rw [hk, List.map_append, List.map_cons, List.map_append, List.map_cons] at hmap
    have h2 := List.append_inj_right hmap (by simp [hA])
    rw [List.cons.injEq] at h2
    rw [h2.2, List.map_map]
  refine ⟨B.length + 2, fun n hn => ?_⟩
  obtain ⟨n, rfl⟩ : ∃ n', n = n' + 1 := ⟨n - 1, by omega⟩
  have hres := fsList_drained c hN s r p hp hdeep props hprops (some x.offset) 1 n
  dsimp only at hres
  rw [hfil] at hres
  simp only [Nat.sub_self, levels, List.append_nil, Nat.one_ne_zero, if_false] at hres
  intro o
  rcases hres with ⟨h1, _, h3, _⟩ | ⟨y, l, h1, hy2, _, _, _, _, _, T1, T2, hTT, hmap, _, hend⟩
  · exact .inr ⟨h1, h3⟩
  have ho : o.2.1 = y :: l := h1
  cases he : o.2.2 with
  | more =>
    have he' : (fsList c s (full c.sys.env p) props (some x.offset) 1 (n + 1)).2.2 = .more := he
    rw [he'] at hend
    dsimp only at hend
    have := congrArg List.length hTT
    simp only [List.length_map, List.length_append] at this
    omega
  | err z =>
    have he' : (fsList c s (full c.sys.env p) props (some x.offset) 1 (n + 1)).2.2 = .err z := he
    rw [he'] at hend
    obtain ⟨rfl, h⟩ := hend
    exact .inr ⟨rfl, h⟩
  | done =>
    have he' : (fsList c s (full c.sys.env p) props (some x.offset) 1 (n + 1)).2.2 = .done := he
    rw [he'] at hend
    dsimp only at hend
    subst hend
    left
    refine ⟨rfl, ?_⟩
    rw [List.append_nil] at hTT
    rw [ho, List.map_cons, hy2, h2, hmap, ← hTT, hB]

/-! ### A concrete daemon -/

/-- A daemon for the pool "tank" of C42, run by user 0; the disks are a list of faulted UUIDs. -/
def toySys : Sys Nat (List Nat) :=
  { env := toy
    owner := 0
    dropCache := id
    clean := id
    fault := fun u l => (u :: l, .ok ())
    attach := fun _ _ l => (l, .ok ())
    status := fun _ => [[[(['d'], 7)], [(['e'], 8), (['f'], 9)]]] }

/-- Encoded sizes as they are at least: the names of the datasets. -/
def toySize : Response → Nat
  | .fsList (.ok l) => (l.map fun x => x.name.length).sum
  | .fsStat (.ok x) => x.name.length
  | _ => 8

def toyConn (uid : Nat) (sysOk : Bool) : Conn Nat (List Nat) :=
  { sys := toySys, uid := uid, oracle := ⟨sysOk, id⟩, size := toySize }

def toySrv : Srv Nat (List Nat) := ⟨toyDb, []⟩

/-- Non-vacuity of both theorems: the pool of C42 has "tank", "tank/a", "tank/c" and "tank/a/b"; any
user may list them. -/
example :
    (fsList (toyConn 5 true) toySrv (full toy []) [.atime, .mountpoint] none 9 9).2 =
      ([⟨full toy [], [(.atime true, .default), (.mountpoint ['/', 'x'], .set 0)], 0⟩,
        ⟨full toy [['a']], [(.atime true, .default), (.mountpoint ['/', 'x', '/', 'a'], .set 1)], 315⟩,
        ⟨full toy [['c']], [(.atime true, .default), (.mountpoint ['/', 'x', '/', 'c'], .set 1)], 317⟩,
        ⟨full toy [['a'], ['b']],
          [(.atime true, .default), (.mountpoint ['/', 'x', '/', 'a', '/', 'b'], .set 2)], 316⟩],
       .done) ∧
    (fsList (toyConn 5 true) toySrv (full toy []) [] none 1 9).2 =
      ([⟨full toy [], [], 0⟩] ++ ⟨full toy [['a']], [], 315⟩ :: [⟨full toy [['c']], [], 317⟩], .done) ∧
    (fsList (toyConn 5 true) toySrv (full toy []) [] (some 315) 1 9).2 =
      ([⟨full toy [], [], 0⟩, ⟨full toy [['c']], [], 317⟩], .done) ∧
    Reach toySys.env toyN toySrv.db toyClient := by
  refine ⟨by decide +kernel, by decide +kernel, by decide +kernel, toy_reach⟩

/-- Violation: the offset of an entry deeper down is not a place to resume from, although the
documentation of `fs_list` allows it.  Resuming the listing above from "tank/a/b", its last entry,
gives "tank/c" again but not "tank/a", so the rest of a listing cannot be found this way. -/
theorem C75_resume_skips :
    ((fsList (toyConn 5 true) toySrv (full toy []) [] (some 316) 9 9).2.1.map DsInfo.name) =
      [full toy [], full toy [['c']]] := by decide +kernel

/-- Violation: asked for no properties, the listing of a dataset that does not exist begins with that
dataset. -/
theorem C75_missing_listed :
    (fsList (toyConn 5 true) toySrv (full toy [['b']]) [] none 0 9).2 =
      ([⟨full toy [['b']], [], 0⟩], .done) ∧
    find toy toySrv.db (full toy [['b']]) = .ok none := by decide +kernel

/-- A dataset that does not exist cannot be listed if at least one property is asked for. -/
theorem C75_missing (c : Conn D P) (hN : Names c.sys.env N) (s : Srv D P)
    (r : Reach c.sys.env N s.db k) (p : Path) (hpN : ∀ m ∈ p, N m) (hp : k.fs p = none)
    (prop : PName) (props : List PName) (hsz : c.size (.fsStat (.err (.core .enoent))) < 4096)
    (offs : Option Nat) (depth n : Nat) :
    (fsList c s (full c.sys.env p) (prop :: props) offs depth (n + 1)).2 =
      ([], .err (.other (.core .enoent))) := by
  have v := reach_inv hN r
  have hg : getProp c.sys.env s.db (full c.sys.env p) prop = (s.db, .err .enoent) := by
    unfold getProp
    rw [v.resolve hN p hpN, hp]
  have hproc : process c.sys s c.oracle c.uid (.fsStat (full c.sys.env p) (prop :: props)) =
      (s, some (.fsStat (.err (.core .enoent)))) := by
    simp only [process, serveStat, propsOf, hg, ofRes, Option.map_some]
  unfold fsList call
  rw [hproc]
  dsimp only
  rw [if_neg (by unfold bufSiz; omega)]
  simp only [finish, intoFsStat]

/-- Non-vacuity: "tank/b" is not there. -/
example : toyClient.fs [['b']] = none ∧ toyN ['b'] ∧
    (fsList (toyConn 5 true) toySrv (full toy [['b']]) [.name] none 3 9).2 =
      ([], .err (.other (.core .enoent))) :=
  ⟨by decide +kernel, .inr (.inl rfl), by decide +kernel⟩

/-! ### Many children -/

/-- Names of 60 characters. -/
def longName (i : Nat) : Str := List.replicate 59 'a' ++ [Char.ofNat (65 + i)]

/-- A pool with 64 file systems of such names below the root. -/
def wideDb : Db Nat :=
  (List.range 64).foldl (fun db i => (createFs toy db (full toy [longName i])).1)
    (createFs toy ⟨[], [], []⟩ (full toy [])).1

/-- Violation: a file system with 64 children of 60 characters cannot be listed with its children,
however the messages are encoded, as long as the names are in them: the page the daemon sends
has 64 entries whatever their size and does not fit the client's buffer. -/
theorem C75_many_children_fail (c : Conn Nat P) (he : c.sys.env = toy) (dev : P)
    (hsize : ∀ l, (l.map fun x : DsInfo => x.name.length).sum ≤ c.size (.fsList (.ok l)))
    (hstat : c.size (.fsStat (.ok ⟨full toy [], [], 0⟩)) < 4096) (depth n : Nat) :
    (fsList c ⟨wideDb, dev⟩ (full toy []) [] none (depth + 1) (n + 2)).2 =
      ([⟨full toy [], [], 0⟩], .err .tooLarge) := by
  have hlist : ∃ db l, serveList toy wideDb (full toy []) [] none = (db, .ok l) ∧
      4096 ≤ (l.map fun x : DsInfo => x.name.length).sum := by
    refine ⟨(serveList toy wideDb (full toy []) [] none).1,
      match (serveList toy wideDb (full toy []) [] none).2 with
        | .ok l => l
        | _ => [], ?_, ?_⟩
    · decide +kernel
    · decide +kernel
  obtain ⟨db, l, hl, hlen⟩ := hlist
  have hbig := Nat.le_trans hlen (hsize l)
  have h1 : process c.sys ⟨wideDb, dev⟩ c.oracle c.uid (.fsStat (full toy []) []) =
      (⟨wideDb, dev⟩, some (.fsStat (.ok ⟨full toy [], [], 0⟩))) := by
    simp only [process, serveStat, propsOf, ofRes, Option.map_some]
  have h2 : process c.sys ⟨wideDb, dev⟩ c.oracle c.uid (.fsList (full toy []) [] none) =
      (⟨db, dev⟩, some (.fsList (.ok l))) := by
    simp only [process, he, hl, ofRes, Option.map_some]
  simp only [fsList, call, h1, bufSiz, Nat.not_le.2 hstat, ge_iff_le, if_false, finish, intoFsStat,
    drain, poll, fetch, h2, hbig, if_true, Nat.succ_pos, gt_iff_lt]

/-- Non-vacuity: such a connection. -/
example : (fsList (toyConn 5 true) ⟨wideDb, []⟩ (full toy []) [] none 1 9).2 =
    ([⟨full toy [], [], 0⟩], .err .tooLarge) :=
  C75_many_children_fail (toyConn 5 true) rfl [] (fun _ => Nat.le_refl _) (by decide) 0 7

/-! ## C76: requests -/

theorem same_refl (a : Db D) : Same a a := ⟨rfl, rfl, fun _ => rfl⟩

theorem Same.trans {a b c : Db D} (h : Same a b) (h' : Same b c) : Same a c :=
  ⟨h'.forest.trans h.forest, h'.mounted.trans h.mounted,
    fun i => (h'.contents i).trans (h.contents i)⟩

theorem same_openFs (db : Db D) (i : Nat) : Same db (openFs db i).1 := by
  refine ⟨openFs_forest db i, ?_, ?_⟩
  · unfold openFs
    split
    · rfl
    · split <;> rfl
  · intro j
    cases ho : db.opened.get i with
    | some t =>
      have : (openFs db i).1 = db := by simp [openFs, ho]
      rw [this]
    | none =>
      cases hg : getTree db.forest i with
      | err x =>
        have : (openFs db i).1 = db := by simp [openFs, ho, hg]
        rw [this]
      | panic =>
        have : (openFs db i).1 = db := by simp [openFs, ho, hg]
        rw [this]
      | ok t =>
        have : (openFs db i).1 = { db with opened := db.opened.insert i t } := by
          simp [openFs, ho, hg]
        rw [this]
        unfold openFs
        simp only [OMap.get_insert]
        by_cases hji : j = i
        · subst hji
          rw [if_pos rfl, ho, hg]
        · rw [if_neg hji]
          cases db.opened.get j with
          | some t => rfl
          | none =>
            dsimp only
            cases getTree db.forest j <;> rfl

theorem same_getConf (n : PName) (room i : Nat) (db : Db D) : Same db (getConf db n room i).1 := by
  induction room generalizing db i with
  | zero =>
    have h := same_openFs db i
    unfold getConf
    generalize openFs db i = r at h
    obtain ⟨db1, r⟩ := r
    cases r with
    | ok t =>
      dsimp only
      cases t.prop n with
      | some v => exact h
      | none =>
        dsimp only
        cases lookupParent db1.forest i with
        | ok o => cases o <;> exact h
        | err x => exact h
        | panic => exact h
    | err x => exact h
    | panic => exact h
  | succ room ih =>
    have h := same_openFs db i
    unfold getConf
    generalize openFs db i = r at h
    obtain ⟨db1, r⟩ := r
    cases r with
    | ok t =>
      dsimp only
      cases t.prop n with
      | some v => exact h
      | none =>
        dsimp only
        cases lookupParent db1.forest i with
        | ok o =>
          cases o with
          | none => exact h
          | some p => exact h.trans (ih p db1)
        | err x => exact h
        | panic => exact h
    | err x => exact h
    | panic => exact h

theorem same_getProp (e : Env D) (db : Db D) (s : Str) (n : PName) : Same db (getProp e db s n).1 := by
  unfold getProp
  split
  · rename_i id _
    unfold getPropLocked
    split
    · exact same_refl _
    · split
      · exact same_refl _
      · rename_i inh _
        have h := same_getConf inh 255 id db
        generalize getConf db inh 255 id = r at h
        obtain ⟨db1, r⟩ := r
        cases r with
        | ok v => dsimp only; split <;> exact h
        | err x => exact h
        | panic => exact h
  all_goals exact same_refl _

theorem same_propsOf (e : Env D) (s : Str) (ns : List PName) (db : Db D) :
    Same db (propsOf e db s ns).1 := by
  induction ns generalizing db with
  | nil => exact same_refl _
  | cons n ns ih =>
    have h := same_getProp e db s n
    unfold propsOf
    generalize getProp e db s n = r at h
    obtain ⟨db1, r⟩ := r
    cases r with
    | ok v =>
      dsimp only
      have h' := ih db1
      generalize propsOf e db1 s ns = r at h'
      obtain ⟨db2, r⟩ := r
      cases r <;> exact h.trans h'
    | err x => exact h
    | panic => exact h

theorem same_infos (e : Env D) (s : Str) (ns : List PName) (l : List (Str × Nat × Nat)) (db : Db D) :
    Same db (infos e db s ns l).1 := by
  induction l generalizing db with
  | nil => exact same_refl _
  | cons a l ih =>
    obtain ⟨n, i, co⟩ := a
    have h := same_propsOf e (childName s n) ns db
    unfold infos
    generalize propsOf e db (childName s n) ns = r at h
    obtain ⟨db1, r⟩ := r
    cases r with
    | ok v =>
      dsimp only
      have h' := ih db1
      generalize infos e db1 s ns l = r at h'
      obtain ⟨db2, r⟩ := r
      cases r <;> exact h.trans h'
    | err x => exact h
    | panic => exact h

/-- Only asking changes nothing, whoever asks: neither the file systems, nor what is mounted, nor the
disks. -/
theorem C76_asking_changes_nothing (y : Sys D P) (s : Srv D P) (o : Oracle) (uid : Nat) (req : Request)
    (h : Asks req) :
    Same s.db (process y s o uid req).1.db ∧ (process y s o uid req).1.dev = s.dev := by
  cases req with
  | fsList name props offs =>
    refine ⟨?_, rfl⟩
    simp only [process, serveList]
    cases listFs y.env s.db name (offs.getD 0) with
    | ok l => exact same_infos _ _ _ _ _
    | err x => exact same_refl _
    | panic => exact same_refl _
  | fsStat name props =>
    refine ⟨?_, rfl⟩
    simp only [process, serveStat]
    have h := same_propsOf y.env name props s.db
    generalize propsOf y.env s.db name props = r at h
    obtain ⟨db1, r⟩ := r
    cases r <;> exact h
  | poolList pool offs =>
    simp only [process]
    split <;> exact ⟨same_refl _, rfl⟩
  | poolStatus pool =>
    simp only [process]
    split <;> exact ⟨same_refl _, rfl⟩
  | _ => exact absurd h (by simp [Asks])

/-- Whoever does not run the daemon changes nothing, whatever they ask for, and every request that
would change something is answered with `EPERM`. -/
theorem C76_strangers (y : Sys D P) (s : Srv D P) (o : Oracle) (uid : Nat) (req : Request)
    (h : uid ≠ y.owner) :
    Same s.db (process y s o uid req).1.db ∧ (process y s o uid req).1.dev = s.dev ∧
    (¬ Asks req → (process y s o uid req).1 = s ∧
      ∃ resp, (process y s o uid req).2 = some resp ∧ resp.error = some .eperm) := by
  by_cases ha : Asks req
  · obtain ⟨h1, h2⟩ := C76_asking_changes_nothing y s o uid req ha
    exact ⟨h1, h2, fun hn => absurd ha hn⟩
  · have hs : (process y s o uid req).1 = s ∧
        ∃ resp, (process y s o uid req).2 = some resp ∧ resp.error = some .eperm := by
      cases req <;> first
        | (exact absurd trivial ha)
        | (simp only [process, if_pos h]; exact ⟨trivial, _, rfl, rfl⟩)
    rw [hs.1]
    exact ⟨same_refl _, rfl, fun _ => ⟨rfl, hs.2⟩⟩

/-- Non-vacuity: user 5 asks user 0's daemon for a listing and to destroy a file system. -/
example : (process toySys toySrv ⟨true, id⟩ 5 (.fsStat (full toy [['a']]) [.atime])).2 =
      some (.fsStat (.ok ⟨full toy [['a']], [(.atime true, .default)], 0⟩)) ∧
    (process toySys toySrv ⟨true, id⟩ 5 (.fsDestroy (full toy [['c']]))).2 =
      some (.fsMount (.err .eperm)) ∧
    (process toySys toySrv ⟨true, id⟩ 0 (.fsDestroy (full toy [['c']]))).2 =
      some (.fsDestroy (.ok ())) := by decide +kernel

/-- What the client library makes of the refusal.

Partial: not for `drop_cache`, `fs_create`, `fs_destroy` and `pool_fault`, see
`C76_refusal_panics`. -/
theorem C76_refusal_partial (c : Conn D P) (s : Srv D P) (h : c.uid ≠ c.sys.owner)
    (hsz : ∀ resp, resp.error = some .eperm → c.size resp < 4096) :
    (∀ name, fsMount c s name = (s, .err (.other .eperm))) ∧
    (∀ name props, fsSet c s name props = (s, .err (.other .eperm))) ∧
    (∀ name force, fsUnmount c s name force = (s, .err (.other .eperm))) ∧
    (∀ pool, poolClean c s pool = (s, .err (.other .eperm))) ∧
    (∀ pool u leaf, poolAttach c s pool (.uuid u) leaf = (s, .err (.other .eperm))) := by
  have hs : ∀ resp, resp.error = some .eperm → ¬ bufSiz ≤ c.size resp :=
    fun resp hr => Nat.not_le.2 (hsz resp hr)
  refine ⟨?_, ?_, ?_, ?_, ?_⟩
  · intro name
    simp [fsMount, call, process, h, hs (.fsMount (.err .eperm)) rfl, finish, intoFsMount]
  · intro name props
    simp [fsSet, call, process, h, hs (.fsSet (.err .eperm)) rfl, finish, intoFsSet]
  · intro name force
    simp [fsUnmount, call, process, h, hs (.fsUnmount (.err .eperm)) rfl, finish, intoFsUnmount]
  · intro pool
    simp [poolClean, call, process, h, hs (.poolClean (.err .eperm)) rfl, finish, intoPoolClean]
  · intro pool u leaf
    simp [poolAttach, deviceUuid, call, process, h, hs (.poolAttach (.err .eperm)) rfl, finish,
      intoPoolAttach]

/-- Violation: the daemon refuses four of the requests with a response of another type, and the
client of a user who may not do this panics instead of reporting the error. -/
theorem C76_refusal_panics (c : Conn D P) (s : Srv D P) (h : c.uid ≠ c.sys.owner)
    (hsz : ∀ resp, resp.error = some .eperm → c.size resp < 4096) :
    dropCache c s = (s, .err .panic) ∧
    (∀ name props, fsCreate c s name props = (s, .err .panic)) ∧
    (∀ name, fsDestroy c s name = (s, .err .panic)) ∧
    (∀ pool u, poolFault c s pool (.uuid u) = (s, .err .panic)) := by
  have hs : ∀ resp, resp.error = some .eperm → ¬ bufSiz ≤ c.size resp :=
    fun resp hr => Nat.not_le.2 (hsz resp hr)
  refine ⟨?_, ?_, ?_, ?_⟩
  · simp [dropCache, call, process, h, hs (.fsMount (.err .eperm)) rfl, finish, intoDropCache]
  · intro name props
    simp [fsCreate, call, process, h, hs (.fsMount (.err .eperm)) rfl, finish, intoFsCreate]
  · intro name
    simp [fsDestroy, call, process, h, hs (.fsMount (.err .eperm)) rfl, finish, intoFsDestroy]
  · intro pool u
    simp [poolFault, deviceUuid, call, process, h, hs (.poolClean (.err .eperm)) rfl, finish,
      intoPoolFault]

/-- Non-vacuity of both: user 5. -/
example : (toyConn 5 true).uid ≠ (toyConn 5 true).sys.owner ∧
    ∀ resp, resp.error = some .eperm → (toyConn 5 true).size resp < 4096 := by
  refine ⟨by decide, ?_⟩
  intro resp h
  show toySize resp < 4096
  unfold toySize
  split <;> simp_all [Response.error]

/-- Who runs the daemon gets what they asked for, with the answer of the database: the requests about
file systems do what the calls of C42 do. -/
theorem C76_owner (c : Conn D P) (s : Srv D P) (h : c.uid = c.sys.owner)
    (hsz : ∀ resp, c.size resp < 4096) (name : Str) :
    (∀ r, destroyFs c.sys.env s.db name = r → (∀ a, r.2 = .ok a →
      fsDestroy c s name = (⟨r.1, s.dev⟩, .ok ())) ∧ ∀ x, r.2 = .err x →
      fsDestroy c s name = (⟨r.1, s.dev⟩, .err (.other (.core x)))) ∧
    (∀ r, createFs c.sys.env s.db name = r → c.oracle.order [] = [] → (∀ a, r.2 = .ok a →
      fsCreate c s name [] = (⟨r.1, s.dev⟩, .ok a)) ∧ ∀ x, r.2 = .err x →
      fsCreate c s name [] = (⟨r.1, s.dev⟩, .err (.other (.core x)))) ∧
    (∀ v r, setProp c.sys.env s.db name v = r → (∀ a, r.2 = .ok a →
      fsSet c s name [v] = (⟨r.1, s.dev⟩, .ok ())) ∧ ∀ x, r.2 = .err x →
      fsSet c s name [v] = (⟨r.1, s.dev⟩, .err (.other (.core x)))) := by
  have hs : ∀ resp, ¬ bufSiz ≤ c.size resp := fun resp => Nat.not_le.2 (hsz resp)
  refine ⟨?_, ?_, ?_⟩
  · rintro ⟨db, r⟩ hr
    constructor
    · rintro ⟨⟩ rfl
      simp [fsDestroy, call, process, h, hs, finish, intoFsDestroy, hr, ofRes]
    · rintro x rfl
      simp [fsDestroy, call, process, h, hs, finish, intoFsDestroy, hr, ofRes]
  · rintro ⟨db, r⟩ hr ho
    constructor
    · rintro a rfl
      simp [fsCreate, call, process, h, hs, finish, intoFsCreate, hr, ofRes, ho, serveCreate, setAll]
    · rintro x rfl
      simp [fsCreate, call, process, h, hs, finish, intoFsCreate, hr, ofRes, serveCreate]
  · rintro v ⟨db, r⟩ hr
    constructor
    · rintro ⟨⟩ rfl
      simp [fsSet, call, process, h, hs, finish, intoFsSet, hr, ofRes, setAll]
    · rintro x rfl
      simp [fsSet, call, process, h, hs, finish, intoFsSet, hr, ofRes, setAll]

/-- Mounting and unmounting by who runs the daemon: an unmounted file system gets mounted, one that is
mounted already is left alone, and unmounting makes it unmounted again.  If unmount(2) fails, it stays
mounted.

Partial: if mounting fails, the file system is not as it was before, but like one whose mount has
died, see `C76_failed_mount_blocks_destroy`. -/
theorem C76_mount_partial (c : Conn D P) (hN : Names c.sys.env N) (s : Srv D P)
    (r : Reach c.sys.env N s.db k) (h : c.uid = c.sys.owner) (hsz : ∀ resp, c.size resp < 4096)
    (p : Path) (hp : k.fs p ≠ none) (hl : p.length ≤ 255) :
    let m := fsMount c s (full c.sys.env p)
    let u := fun force => fsUnmount c s (full c.sys.env p) force
    (k.mounted p = some true → m.2 = .err (.other (.core .ebusy)) ∧ Reach c.sys.env N m.1.db k) ∧
    (k.mounted p ≠ some true → c.oracle.sysOk = true → m.2 = .ok () ∧
      Reach c.sys.env N m.1.db { k with mounted := set k.mounted p (some true) }) ∧
    (k.mounted p ≠ some true → c.oracle.sysOk = false → m.2 = .err (.other .sys) ∧
      Reach c.sys.env N m.1.db { k with mounted := set k.mounted p (some false) }) ∧
    (c.oracle.sysOk = true → ∀ f, (u f).2 = .ok () ∧
      Reach c.sys.env N (u f).1.db { k with mounted := set k.mounted p none }) ∧
    (c.oracle.sysOk = false → ∀ f, (u f).2 = .err (.other .sys) ∧ Reach c.sys.env N (u f).1.db k) ∧
    m.1.dev = s.dev ∧ ∀ f, (u f).1.dev = s.dev := by
  have hs : ∀ resp, ¬ bufSiz ≤ c.size resp := fun resp => Nat.not_le.2 (hsz resp)
  intro m u
  cases hk : k.fs p with
  | none => exact absurd hk hp
  | some x =>
  have v := reach_inv hN r
  have hpN := v.names hk
  obtain ⟨db', val, hg, _, r', hf⟩ := reach_getProp hN r hp hl (n := .mountpoint) (by decide)
  have v' := reach_inv hN r'
  have hmount := C42_history_partial hN r' (.mount p) hpN
  have hm : (newFs c.sys.env db' (full c.sys.env p)).2 =
      if k.mounted p = some true then .err .ebusy else .ok x.1 := by
    simp only [step, Expected, hk] at hmount
    exact Out.id.inj hmount
  have r1 := Reach.step (.mount p) r' hpN
  have hunm := C42_history_partial hN r' (.unmount p) hpN
  have r2 := Reach.step (.unmount p) r' hpN
  have hres := v.resolve hN p hpN
  have hres' := v'.resolve hN p hpN
  simp only [hk] at hres hres'
  have hgl : getPropLocked s.db (full c.sys.env p) x.1 .mountpoint = (db', .ok val) := by
    simpa only [getProp, hres] using hg
  have hU : (Forest.unmount c.sys.env db' (full c.sys.env p)) =
      ({ db' with mounted := db'.mounted.remove x.1 }, .ok ()) := by
    simp only [Forest.unmount, hres']
  have r2' : Reach c.sys.env N { db' with mounted := db'.mounted.remove x.1 }
      { k with mounted := set k.mounted p none } := by
    simpa only [step, hU, Client.next] using r2
  have hmp : m = finish intoFsMount (call c s (.fsMount (full c.sys.env p))) := rfl
  have hup : ∀ f, u f = finish intoFsUnmount (call c s (.fsUnmount (full c.sys.env p) f)) := fun _ => rfl
  generalize hn : newFs c.sys.env db' (full c.sys.env p) = q at hm
  obtain ⟨db2, q⟩ := q
  dsimp only at hm
  refine ⟨?_, ?_, ?_, ?_, ?_, ?_, ?_⟩
  · intro hb
    rw [if_pos hb] at hm
    subst hm
    have hmm : m = (⟨db2, s.dev⟩, .err (.other (.core .ebusy))) := by
      simp [hmp, call, process, h, serveMount, hg, hn, hs, finish, intoFsMount]
    rw [hmm]
    refine ⟨rfl, ?_⟩
    simpa only [step, hn, Client.next] using r1
  · intro hb ho
    rw [if_neg hb] at hm
    subst hm
    have hmm : m = (⟨db2, s.dev⟩, .ok ()) := by
      simp [hmp, call, process, h, serveMount, hg, hn, hs, finish, intoFsMount, ho]
    rw [hmm]
    refine ⟨rfl, ?_⟩
    simpa only [step, hn, Client.next] using r1
  · intro hb ho
    rw [if_neg hb] at hm
    subst hm
    have hmm : m = (⟨dropFs db2 x.1, s.dev⟩, .err (.other .sys)) := by
      simp [hmp, call, process, h, serveMount, hg, hn, hs, finish, intoFsMount, ho]
    rw [hmm]
    refine ⟨rfl, ?_⟩
    have r1' : Reach c.sys.env N db2 { k with mounted := set k.mounted p (some true) } := by
      simpa only [step, hn, Client.next] using r1
    have v1 := reach_inv hN r1'
    have hfind : find c.sys.env db2 (full c.sys.env p) = .ok (some x.1) := by
      have := v1.resolve hN p hpN
      simp only [hk] at this
      simp only [find, this]
    have r3 := Reach.step (.drop p) r1' hpN
    simp only [step, hfind, Client.next] at r3
    have hset : Forest.set (Forest.set k.mounted p (some true)) p (some false) = Forest.set k.mounted p (some false) := by
      funext y
      unfold Forest.set
      split <;> rfl
    simpa only [show Forest.set k.mounted p (some true) p = some true from if_pos rfl, if_true, hset] using r3
  · intro ho f
    have : u f = (⟨{ db' with mounted := db'.mounted.remove x.1 }, s.dev⟩, .ok ()) := by
      simp [hup, call, process, h, serveUnmount, hres, hgl, hs, finish, intoFsUnmount, ho]
    rw [this]
    exact ⟨rfl, r2'⟩
  · intro ho f
    have : u f = (⟨db', s.dev⟩, .err (.other .sys)) := by
      simp [hup, call, process, h, serveUnmount, hres, hgl, hs, finish, intoFsUnmount, ho]
    rw [this]
    exact ⟨rfl, r'⟩
  · rw [hmp]
    simp only [call, process, h, ne_eq, not_true_eq_false, if_false, serveMount, hg, hn, hs, ge_iff_le]
    cases q with
    | ok a => cases ho : c.oracle.sysOk <;> simp [ho, finish, intoFsMount, hs]
    | err a => simp [finish, intoFsMount, hs]
    | panic => simp [finish]
  · intro f
    cases ho : c.oracle.sysOk <;>
      simp [hup, call, process, h, serveUnmount, hres, hgl, hs, finish, intoFsUnmount, ho]

/-- Non-vacuity: "tank/c" is there and not mounted; mounted, it cannot be destroyed; unmounted, it
can. -/
example : toyClient.fs [['c']] ≠ none ∧ toyClient.mounted [['c']] = none ∧
    (let m := fsMount (toyConn 0 true) toySrv (full toy [['c']])
     let u := fsUnmount (toyConn 0 true) m.1 (full toy [['c']]) false
     m.2 = .ok () ∧ (fsMount (toyConn 0 true) m.1 (full toy [['c']])).2 = .err (.other (.core .ebusy)) ∧
     (fsDestroy (toyConn 0 true) m.1 (full toy [['c']])).2 = .err (.other (.core .ebusy)) ∧
     u.2 = .ok () ∧ (fsDestroy (toyConn 0 true) u.1 (full toy [['c']])).2 = .ok ()) := by
  decide +kernel

/-- What the client makes of an answer. -/
def answer {α : Type} : Ans α → CRes α
  | .ok a => .ok a
  | .err x => .err (.other x)

/-- The requests about the pool, by who runs the daemon: each does to the devices what its name says,
with the arguments given, and only to the pool named. -/
theorem C76_pool (c : Conn D P) (s : Srv D P) (h : c.uid = c.sys.owner)
    (hsz : ∀ resp, c.size resp < 4096) :
    dropCache c s = (⟨s.db, c.sys.dropCache s.dev⟩, .ok ()) ∧
    poolClean c s c.sys.env.pool = (⟨s.db, c.sys.clean s.dev⟩, .ok ()) ∧
    poolStatus c s c.sys.env.pool = (s, .ok (c.sys.status s.dev)) ∧
    poolList c s none = (s, .ok [(c.sys.env.pool, 0)]) ∧
    poolList c s (some c.sys.env.pool) = (s, .ok [(c.sys.env.pool, 0)]) ∧
    (∀ u, poolFault c s c.sys.env.pool (.uuid u) =
      (⟨s.db, (c.sys.fault u s.dev).1⟩, answer (c.sys.fault u s.dev).2)) ∧
    (∀ u leaf, poolAttach c s c.sys.env.pool (.uuid u) leaf =
      (⟨s.db, (c.sys.attach u leaf s.dev).1⟩, answer (c.sys.attach u leaf s.dev).2)) ∧
    ∀ pool, pool ≠ c.sys.env.pool →
      poolClean c s pool = (s, .err (.other (.core .enoent))) ∧
      poolStatus c s pool = (s, .err (.other (.core .enoent))) ∧
      poolList c s (some pool) = (s, .err (.other (.core .enoent))) ∧
      (∀ d, poolFault c s pool d = (s, .err (.other (.core .enoent)))) ∧
      (∀ d leaf, poolAttach c s pool d leaf = (s, .err (.other (.core .enoent)))) := by
  have hs : ∀ resp, ¬ bufSiz ≤ c.size resp := fun resp => Nat.not_le.2 (hsz resp)
  refine ⟨?_, ?_, ?_, ?_, ?_, ?_, ?_, ?_⟩
  · simp [dropCache, call, process, h, hs, finish, intoDropCache]
  · simp [poolClean, call, process, h, hs, finish, intoPoolClean]
  · simp [poolStatus, call, process, hs, finish, intoPoolStatus]
  · simp [poolList, call, process, hs, finish, intoPoolList]
  · simp [poolList, call, process, hs, finish, intoPoolList]
  · intro u
    simp only [poolFault, deviceUuid, call, process, h, hs, finish, intoPoolFault, ne_eq,
      not_true_eq_false, if_false, if_true, ge_iff_le]
    cases (c.sys.fault u s.dev).2 <;> rfl
  · intro u leaf
    simp only [poolAttach, deviceUuid, call, process, h, hs, finish, intoPoolAttach, ne_eq,
      not_true_eq_false, if_false, if_true, ge_iff_le]
    cases (c.sys.attach u leaf s.dev).2 <;> rfl
  · intro pool hpool
    have hst : poolStatus c s pool = (s, .err (.other (.core .enoent))) := by
      simp [poolStatus, call, process, hs, finish, intoPoolStatus, hpool]
    refine ⟨?_, hst, ?_, ?_, ?_⟩
    · simp [poolClean, call, process, h, hs, finish, intoPoolClean, hpool]
    · simp [poolList, call, process, hs, finish, intoPoolList, hpool]
    · intro d
      cases d with
      | path q => simp [poolFault, deviceUuid, hst]
      | uuid u => simp [poolFault, deviceUuid, call, process, h, hs, finish, intoPoolFault, hpool]
    · intro d leaf
      cases d with
      | path q => simp [poolAttach, deviceUuid, hst]
      | uuid u => simp [poolAttach, deviceUuid, call, process, h, hs, finish, intoPoolAttach, hpool]

/-- Faulting a disk by its path: it is the UUID of a leaf with that path that gets faulted, and if
there is none, nothing happens and the client says so. -/
theorem C76_fault_by_path (c : Conn D P) (s : Srv D P) (h : c.uid = c.sys.owner)
    (hsz : ∀ resp, c.size resp < 4096) (path : Str) :
    (∃ u, (∃ cl ∈ c.sys.status s.dev, ∃ m ∈ cl, (path, u) ∈ m) ∧
      poolFault c s c.sys.env.pool (.path path) =
        (⟨s.db, (c.sys.fault u s.dev).1⟩, answer (c.sys.fault u s.dev).2)) ∨
    ((∀ cl ∈ c.sys.status s.dev, ∀ m ∈ cl, ∀ u, (path, u) ∉ m) ∧
      poolFault c s c.sys.env.pool (.path path) = (s, .err .noDevice)) := by
  obtain ⟨_, _, hst, _, _, hat, _, _⟩ := C76_pool c s h hsz
  cases hu : intoUuid path (c.sys.status s.dev) with
  | none =>
    right
    refine ⟨?_, ?_⟩
    · intro cl hcl m hm u hu'
      unfold intoUuid at hu
      have h1 := List.findSome?_eq_none_iff.1 hu cl hcl
      have h2 := List.findSome?_eq_none_iff.1 h1 m hm
      have h3 := List.findSome?_eq_none_iff.1 h2 _ hu'
      simp at h3
    · simp only [poolFault, deviceUuid, hst, hu]
  | some u =>
    left
    refine ⟨u, ?_, ?_⟩
    · unfold intoUuid at hu
      obtain ⟨cl, hcl, h1⟩ := List.exists_of_findSome?_eq_some hu
      obtain ⟨m, hm, h2⟩ := List.exists_of_findSome?_eq_some h1
      obtain ⟨⟨a, b⟩, hl, h3⟩ := List.exists_of_findSome?_eq_some h2
      dsimp only at h3
      split at h3
      · rename_i hab
        subst hab
        cases h3
        exact ⟨cl, hcl, m, hm, hl⟩
      · cases h3
    · rw [← hat u]
      simp only [poolFault, deviceUuid, hst, hu]

/-- Non-vacuity: disk "f" has UUID 9; there is no disk "g". -/
example : (poolFault (toyConn 0 true) toySrv toy.pool (.path ['f'])).1.dev = [9] ∧
    (poolFault (toyConn 0 true) toySrv toy.pool (.path ['g'])).2 = .err .noDevice := by
  decide +kernel

/-- A mirror to attach to, given by the path of one of its disks, is one with a disk of that path. -/
theorem C76_attach_by_path (c : Conn D P) (s : Srv D P) (h : c.uid = c.sys.owner)
    (hsz : ∀ resp, c.size resp < 4096) (path leaf : Str) :
    (∃ u, (∃ cl ∈ c.sys.status s.dev, ∃ m ∈ cl, (path, u) ∈ m) ∧
      poolAttach c s c.sys.env.pool (.path path) leaf =
        (⟨s.db, (c.sys.attach u leaf s.dev).1⟩, answer (c.sys.attach u leaf s.dev).2)) ∨
    ((∀ cl ∈ c.sys.status s.dev, ∀ m ∈ cl, ∀ u, (path, u) ∉ m) ∧
      poolAttach c s c.sys.env.pool (.path path) leaf = (s, .err .noDevice)) := by
  obtain ⟨_, _, hst, _, _, _, hat, _⟩ := C76_pool c s h hsz
  cases hu : intoUuid path (c.sys.status s.dev) with
  | none =>
    right
    refine ⟨?_, ?_⟩
    · intro cl hcl m hm u hu'
      unfold intoUuid at hu
      have h1 := List.findSome?_eq_none_iff.1 hu cl hcl
      have h2 := List.findSome?_eq_none_iff.1 h1 m hm
      have h3 := List.findSome?_eq_none_iff.1 h2 _ hu'
      simp at h3
    · simp only [poolAttach, deviceUuid, hst, hu]
  | some u =>
    left
    refine ⟨u, ?_, ?_⟩
    · unfold intoUuid at hu
      obtain ⟨cl, hcl, h1⟩ := List.exists_of_findSome?_eq_some hu
      obtain ⟨m, hm, h2⟩ := List.exists_of_findSome?_eq_some h1
      obtain ⟨⟨a, b⟩, hl, h3⟩ := List.exists_of_findSome?_eq_some h2
      dsimp only at h3
      split at h3
      · rename_i hab
        subst hab
        cases h3
        exact ⟨cl, hcl, m, hm, hl⟩
      · cases h3
    · rw [← hat u leaf]
      simp only [poolAttach, deviceUuid, hst, hu]

/-- Non-vacuity: attaching to the mirror of disk "f" attaches to UUID 9. -/
example : (∃ cl ∈ toySys.status toySrv.dev, ∃ m ∈ cl, (['f'], 9) ∈ m) ∧
    (poolAttach (toyConn 0 true) toySrv toy.pool (.path ['f']) ['n']).2 = .ok () ∧
    (poolAttach (toyConn 0 true) toySrv toy.pool (.path ['g']) ['n']).2 = .err .noDevice := by
  refine ⟨?_, ?_, ?_⟩ <;> decide +kernel

/-- A property that can be given to a new file system. -/
def Settable : Prp → Prop
  | .atime _ => True
  | .recordSize _ => True
  | .mountpoint s => s.head? = some '/'
  | _ => False

theorem setAll_spec {e : Env D} (hN : Names e N) {p : Path} (hpN : ∀ m ∈ p, N m) {i : Nat}
    (vs : List Prp) (hvs : ∀ v ∈ vs, Settable v) (hnd : (vs.map fun v => v.inheritable.pname).Nodup)
    {db : Db D} {k : Client D} {t : Fs D} (r : Reach e N db k) (hk : k.fs p = some (i, t))
    (hm : k.mounted p = none) :
    ∃ db' k' t', setAll e db (full e p) vs = (db', .ok ()) ∧ Reach e N db' k' ∧
      k'.fs p = some (i, t') ∧ (∀ v ∈ vs, t'.prop v.inheritable.pname = some v.inheritable) ∧
      ∀ n, (∀ v ∈ vs, v.inheritable.pname ≠ n) → t'.prop n = t.prop n := by
  induction vs generalizing db k t with
  | nil => exact ⟨db, k, t, rfl, r, hk, by simp, fun _ _ => rfl⟩
  | cons v vs ih =>
    have hvalid : Valid N k (.setProp p v) := ⟨hpN, fun h => by rw [hm] at h; cases h⟩
    have hexp := C42_history_partial hN r (.setProp p v) hvalid
    have hans : (setProp e db (full e p) v).2 = .ok () := by
      have h1 : Out.done (setProp e db (full e p) v).2 = Out.done (setAnswer k p v) := hexp
      rw [Out.done.inj h1, setAnswer, if_neg (by rw [hk]; simp)]
      have := hvs v (by simp)
      cases v with
      | mountpoint s =>
        have this : s.head? = some '/' := this
        simp only [Prp.inheritable]
        rw [if_pos this]
      | atime b => rfl
      | recordSize x => rfl
      | baseMountpoint s => exact absurd this (by simp [Settable])
      | name s => exact absurd this (by simp [Settable])
    have r1 := Reach.step (.setProp p v) r hvalid
    have hk1 : k.next e (.setProp p v) (step e db (.setProp p v)).2 =
        { k with fs := set k.fs p (some (i, t.setProp v.inheritable)) } := by
      simp [step, hans, Client.next, hk]
    have hdb : (step e db (.setProp p v)).1 = (setProp e db (full e p) v).1 := rfl
    rw [hk1, hdb] at r1
    rw [List.map_cons, List.nodup_cons] at hnd
    obtain ⟨db', k', t', h1, h2, h3, h4, h5⟩ :=
      ih (fun w hw => hvs w (by simp [hw])) hnd.2 r1 (set_same _ _ _) hm
    refine ⟨db', k', t', ?_, h2, h3, ?_, ?_⟩
    · rw [setAll]
      generalize hsp : setProp e db (full e p) v = sp at hans h1
      obtain ⟨db1, o⟩ := sp
      dsimp only at hans
      subst hans
      exact h1
    · intro w hw
      rcases List.mem_cons.1 hw with rfl | hw
      · rw [h5 w.inheritable.pname, prop_setProp, if_pos rfl]
        intro u hu heq
        exact hnd.1 (List.mem_map.2 ⟨u, hu, heq⟩)
      · exact h4 w hw
    · intro n hn
      rw [h5 n (fun w hw => hn w (by simp [hw])), prop_setProp, if_neg]
      exact fun heq => hn v (by simp) heq.symm

/-- Creating a file system with properties: it is there, and each property reads back as given and as
set on the file system itself, in whatever order the daemon set them.

Partial: all properties must be acceptable, see `C76_failed_create_leaves_fs`; and C42's and C54's
conditions. -/
theorem C76_create_with_props_partial (c : Conn D P) (hN : Names c.sys.env N) (s : Srv D P)
    (r : Reach c.sys.env N s.db k) (h : c.uid = c.sys.owner) (hsz : ∀ resp, c.size resp < 4096)
    (p : Path) (hv : Valid N k (.create p)) (hfree : k.fs p = none)
    (hpar : p ≠ [] → k.fs p.dropLast ≠ none) (hl : p.length ≤ 255)
    (props : List Prp) (hset : ∀ v ∈ props, Settable v)
    (hnd : (props.map Prp.pname).Nodup) (horder : (c.oracle.order props).Perm props) :
    let o := fsCreate c s (full c.sys.env p) props
    ∃ id, o.2 = .ok id ∧ find c.sys.env o.1.db (full c.sys.env p) = .ok (some id) ∧
      ∀ v ∈ props, (getProp c.sys.env o.1.db (full c.sys.env p) v.pname).2 = .ok (v, .set 0) := by
  intro o
  have hinh : ∀ v, Settable v → ∀ w, Settable w →
      (v.inheritable.pname = w.inheritable.pname → v.pname = w.pname) := by
    intro v hv w hw
    cases v <;> cases w <;> simp_all [Settable, Prp.inheritable, Prp.pname]
  have hcr := C42_history_partial hN r (.create p) hv
  obtain ⟨res, hres, hans⟩ : ∃ r', Out.id (createFs c.sys.env s.db (full c.sys.env p)).2 = Out.id r' ∧
      CreateAnswer k p r' := hcr
  rw [← Out.id.inj hres] at hans
  unfold CreateAnswer at hans
  rw [if_neg (fun hx => hpar hx.1 hx.2), if_neg (by rw [hfree]; simp)] at hans
  obtain ⟨id, hid, _⟩ := hans
  have r1 := Reach.step (.create p) r hv
  have hk1 : k.next c.sys.env (.create p) (step c.sys.env s.db (.create p)).2 =
      { k with fs := set k.fs p (some (id, ⟨[], c.sys.env.rootDir⟩)) } := by
    simp [step, hid, Client.next]
  have hdb : (step c.sys.env s.db (.create p)).1 = (createFs c.sys.env s.db (full c.sys.env p)).1 := rfl
  rw [hk1, hdb] at r1
  have hset' : ∀ v ∈ c.oracle.order props, Settable v := fun v hx => hset v (horder.mem_iff.1 hx)
  have hnd' : ((c.oracle.order props).map fun v => v.inheritable.pname).Nodup := by
    have h1 : ((c.oracle.order props).map Prp.pname).Nodup := (horder.map _).nodup_iff.2 hnd
    rw [List.nodup_iff_pairwise_ne, List.pairwise_map] at h1 ⊢
    refine List.Pairwise.imp_of_mem ?_ h1
    intro a b ha hb hab heq
    exact hab (hinh a (hset' a ha) b (hset' b hb) heq)
  obtain ⟨db', k', t', h1, h2, h3, h4, _⟩ := setAll_spec hN hv.1 (c.oracle.order props) hset' hnd' r1
    (set_same _ _ _) ((reach_inv hN r).mountedPath p hfree)
  have ho : o = (⟨db', s.dev⟩, .ok id) := by
    show fsCreate c s (full c.sys.env p) props = _
    have hs : ∀ resp, ¬ bufSiz ≤ c.size resp := fun resp => Nat.not_le.2 (hsz resp)
    have hc : serveCreate c.sys.env s.db (full c.sys.env p) (c.oracle.order props) = (db', .ok id) := by
      unfold serveCreate
      generalize hcf : createFs c.sys.env s.db (full c.sys.env p) = cf at hid h1
      obtain ⟨db1, o1⟩ := cf
      dsimp only at hid
      subst hid
      dsimp only at h1 ⊢
      rw [h1]
    simp [fsCreate, call, process, h, hs, finish, intoFsCreate, hc, ofRes]
  rw [ho]
  refine ⟨id, rfl, ?_, ?_⟩
  · have := C42_history_partial hN h2 (.find p) hv.1
    have h5 : Out.found (find c.sys.env db' (full c.sys.env p)) =
      Out.found (.ok ((k'.fs p).map Prod.fst)) := this
    rw [Out.found.inj h5, h3]
    rfl
  · intro v hvm
    have hsv := hset v hvm
    have hloc : k'.local v.inheritable.pname p = some v.inheritable := by
      simp [Client.local, h3, h4 v (horder.mem_iff.2 hvm)]
    have hnear : Nearest k' v.inheritable.pname p p [] v.inheritable :=
      ⟨by simp, hloc, fun m hm q hq => by
        cases m with
        | nil => exact absurd rfl hm
        | cons _ _ => cases hq⟩
    have hpb : v.pname ≠ .baseMountpoint := by
      cases v <;> simp_all [Settable, Prp.pname]
    have hpa := C54_inherited_partial hN h2 p v.pname hv.1 hl hpb
    unfold PropAnswer at hpa
    rw [if_neg (by rw [h3]; simp)] at hpa
    cases v with
    | mountpoint m => exact hpa.1 p [] m hnear
    | atime b => exact hpa.1 p [] _ hnear
    | recordSize x => exact hpa.1 p [] _ hnear
    | baseMountpoint m => exact absurd hsv (by simp [Settable])
    | name m => exact absurd hsv (by simp [Settable])

/-- Non-vacuity: "tank/b" with two properties, set in the opposite order. -/
example :
    let c := { toyConn 0 true with oracle := ⟨true, List.reverse⟩ }
    let o := fsCreate c toySrv (full toy [['b']]) [.atime false, .mountpoint ['/', 'y']]
    o.2 = .ok 4 ∧ (getProp toy o.1.db (full toy [['b']]) .mountpoint).2 =
      .ok (.mountpoint ['/', 'y'], .set 0) ∧
    (getProp toy o.1.db (full toy [['b']]) .atime).2 = .ok (.atime false, .set 0) ∧
    toyClient.fs [['b']] = none ∧ Settable (.mountpoint ['/', 'y']) :=
  ⟨by decide +kernel, by decide +kernel, by decide +kernel, by decide +kernel, rfl⟩

/-- Violation: a file system with a bad property is created all the same, although the request
fails; trying again with the property put right fails too. -/
theorem C76_failed_create_leaves_fs :
    let r := fsCreate (toyConn 0 true) toySrv (full toy [['b']]) [.mountpoint ['x']]
    r.2 = .err (.other (.core .einval)) ∧ find toy r.1.db (full toy [['b']]) = .ok (some 4) ∧
    (fsCreate (toyConn 0 true) r.1 (full toy [['b']]) [.mountpoint ['/', 'x']]).2 =
      .err (.other (.core .eexist)) := by decide +kernel

/-- Violation: after mounting failed, for instance because the mount point does not exist, the file
system cannot be destroyed, and unmounting fails because it is not mounted. -/
theorem C76_failed_mount_blocks_destroy :
    let r := fsMount (toyConn 0 false) toySrv (full toy [['c']])
    let u := fsUnmount (toyConn 0 false) r.1 (full toy [['c']]) true
    r.2 = .err (.other .sys) ∧ u.2 = .err (.other .sys) ∧
    (fsDestroy (toyConn 0 true) r.1 (full toy [['c']])).2 = .err (.other (.core .ebusy)) ∧
    (fsDestroy (toyConn 0 true) u.1 (full toy [['c']])).2 = .err (.other (.core .ebusy)) ∧
    (fsDestroy (toyConn 0 true) toySrv (full toy [['c']])).2 = .ok () := by decide +kernel

end Verif.Rpc
