import Verif.Rpc.Spec
import Verif.Forest.Any

/-!
# The recursive listing visits the levels one after the other
-/

namespace Verif.Rpc

open Verif (OMap)
open Verif.Forest
open Verif.Property (Str Prp PName Source)

variable {D P : Type} {e : Env D} {N : Str → Prop} {db : Db D} {k : Client D}

theorem reach_getProp (hN : Names e N) (r : Reach e N db k) {q : Path} (hq : k.fs q ≠ none)
    (hl : q.length ≤ 255) {n : PName} (hn : n ≠ .baseMountpoint) :
    ∃ db' v, getProp e db (full e q) n = (db', .ok v) ∧ PropAnswer e k q n (.ok v) ∧
      Reach e N db' k ∧ db'.forest = db.forest := by
  have v := reach_inv hN r
  have ht := reach_typed r
  have hqN : ∀ m ∈ q, N m := by
    cases h : k.fs q with
    | none => exact absurd h hq
    | some x => exact v.names h
  have hv : Valid N k (.getProp q n) := ⟨hqN, hl, hn⟩
  have r' : Reach e N (getProp e db (full e q) n).1 k := Reach.step (.getProp q n) r hv
  have ha := (v.getProp hN ht q n hqN hl hn).2
  have hf : (getProp e db (full e q) n).1.forest = db.forest := by
    unfold getProp
    split
    · exact getPropLocked_forest _ _ _ _
    all_goals rfl
  have hok : ∃ w, (getProp e db (full e q) n).2 = .ok w := by
    unfold PropAnswer at ha
    rw [if_neg hq] at ha
    have hcase := nearest_cases k
    cases n with
    | name => exact ⟨_, ha⟩
    | baseMountpoint => exact absurd rfl hn
    | mountpoint =>
      rcases hcase .baseMountpoint q with ⟨a, b, w, hw⟩ | hu
      · have : w.pname = .baseMountpoint := ht a _ w hw.value
        cases w with
        | baseMountpoint s => exact ⟨_, ha.1 a b s hw⟩
        | _ => simp [Prp.pname] at this
      · exact ⟨_, ha.2 hu⟩
    | atime =>
      rcases hcase .atime q with ⟨a, b, w, hw⟩ | hu
      · exact ⟨_, ha.1 a b w hw⟩
      · obtain ⟨w, _, hw⟩ := ha.2 hu
        exact ⟨_, hw⟩
    | recordSize =>
      rcases hcase .recordSize q with ⟨a, b, w, hw⟩ | hu
      · exact ⟨_, ha.1 a b w hw⟩
      · obtain ⟨w, _, hw⟩ := ha.2 hu
        exact ⟨_, hw⟩
  obtain ⟨w, hw⟩ := hok
  refine ⟨(getProp e db (full e q) n).1, w, ?_, ?_, r', hf⟩
  · rw [← hw]
  · rw [← hw]; exact ha

theorem reach_propsOf (hN : Names e N) (props : List PName) (hp : ∀ n ∈ props, n ≠ .baseMountpoint)
    {db : Db D} (r : Reach e N db k) {q : Path} (hq : k.fs q ≠ none) (hl : q.length ≤ 255) :
    ∃ db' vs, propsOf e db (full e q) props = (db', .ok vs) ∧ Answers e k q props vs ∧
      Reach e N db' k ∧ db'.forest = db.forest := by
  induction props generalizing db with
  | nil => exact ⟨db, [], rfl, .nil, r, rfl⟩
  | cons n ns ih =>
    obtain ⟨db1, v, h1, ha, r1, f1⟩ := reach_getProp hN r hq hl (hp n (by simp))
    obtain ⟨db2, vs, h2, hs, r2, f2⟩ := ih (fun m hm => hp m (by simp [hm])) r1
    refine ⟨db2, v :: vs, ?_, .cons ha hs, r2, f2.trans f1⟩
    rw [propsOf, h1]
    dsimp only
    rw [h2]

theorem childName_full (q : Path) (n : Str) (hn : n ≠ []) :
    childName (full e q) n = full e (q ++ [n]) := by
  rw [childName, if_neg hn]
  cases q with
  | nil => simp [full, join]
  | cons a t =>
    rw [List.cons_append, full, full, ← List.cons_append, join_snoc _ (by simp)]
    simp

/-- The entries of a page stand for the children of `q` listed. -/
inductive Matches (e : Env D) (k : Client D) (props : List PName) (q : Path) :
    List DsInfo → List (Str × Nat × Nat) → Prop where
  | nil : Matches e k props q [] []
  | cons {x n i co l m} : k.fs (q ++ [n]) ≠ none → x.name = full e (q ++ [n]) → x.offset = co →
      Answers e k (q ++ [n]) props x.props → Matches e k props q l m →
      Matches e k props q (x :: l) ((n, i, co) :: m)

theorem Matches.sound {props : List PName} {q : Path} {l : List DsInfo} {m : List (Str × Nat × Nat)}
    (h : Matches e k props q l m) : l.length = m.length ∧ ∀ x ∈ l, Sound e k props x := by
  induction h with
  | nil => simp
  | cons h1 h2 _ h4 _ ih =>
    refine ⟨by simp [ih.1], ?_⟩
    intro y hy
    rcases List.mem_cons.1 hy with rfl | hy
    · exact ⟨_, h1, h2, h4⟩
    · exact ih.2 y hy

theorem reach_infos (hN : Names e N) (hdeep : ∀ q, k.fs q ≠ none → q.length ≤ 255)
    (props : List PName) (hp : ∀ n ∈ props, n ≠ .baseMountpoint) (q : Path)
    (m : List (Str × Nat × Nat)) (hm : ∀ x ∈ m, k.fs (q ++ [x.1]) ≠ none)
    {db : Db D} (r : Reach e N db k) :
    ∃ db' l, infos e db (full e q) props m = (db', .ok l) ∧ Matches e k props q l m ∧
      Reach e N db' k ∧ db'.forest = db.forest := by
  induction m generalizing db with
  | nil => exact ⟨db, [], rfl, .nil, r, rfl⟩
  | cons a t ih =>
    obtain ⟨n, i, co⟩ := a
    have hx : k.fs (q ++ [n]) ≠ none := hm (n, i, co) (by simp)
    have hn : n ≠ [] := by
      have v := reach_inv hN r
      cases h : k.fs (q ++ [n]) with
      | none => exact absurd h hx
      | some x => exact hN.nonempty n (v.names h n (by simp))
    obtain ⟨db1, vs, h1, ha, r1, f1⟩ := reach_propsOf hN props hp r hx (hdeep _ hx)
    obtain ⟨db2, l, h2, hs, r2, f2⟩ := ih (fun y hy => hm y (by simp [hy])) r1
    refine ⟨db2, ⟨full e (q ++ [n]), vs, co⟩ :: l, ?_, .cons hx rfl rfl ha hs, r2, f2.trans f1⟩
    rw [infos, childName_full q n hn, h1]
    dsimp only
    rw [h2]

/-- The children of a path, with identifiers and cookies, as the forest lists them. -/
def kidsOf (f : OMap (Value D)) (k : Client D) (q : Path) : List (Str × Nat × Nat) :=
  match k.fs q with
  | some (i, _) => (children f i 0).map direntOf
  | none => []

structure Kids (e : Env D) (k : Client D) (q : Path) (F : List (Str × Nat × Nat)) : Prop where
  cookies : F.Pairwise fun a b => a.2.2 < b.2.2
  nodup : (F.map Prod.fst).Nodup
  mem : ∀ n, n ∈ F.map Prod.fst ↔ k.fs (q ++ [n]) ≠ none
  cookie : ∀ x ∈ F, x.2.2 = e.hash x.1 + 1

theorem kids_spec (hN : Names e N) (r : Reach e N db k) {q : Path} (hq : k.fs q ≠ none) :
    Kids e k q (kidsOf db.forest k q) ∧
    ∀ offs, listFs e db (full e q) offs =
      .ok ((kidsOf db.forest k q).filter fun x => offs < x.2.2) := by
  have v := reach_inv hN r
  cases hk : k.fs q with
  | none => exact absurd hk hq
  | some y =>
    obtain ⟨i, c⟩ := y
    have hl : ∀ offs, listFs e db (full e q) offs =
        .ok ((kidsOf db.forest k q).filter fun x => offs < x.2.2) := by
      intro offs
      unfold listFs
      rw [v.resolve hN q (v.names hk), hk]
      dsimp only
      rw [v.readdir hN hk offs]
      dsimp only
      rw [v.children_filter hN hk offs, kidsOf, hk]
    have hall := v.list hN q (v.names hk) 0
    unfold ListAnswer at hall
    rw [if_neg hq, hl] at hall
    have hcookie : ∀ x ∈ kidsOf db.forest k q, x.2.2 = e.hash x.1 + 1 := by
      intro x hx
      rw [kidsOf, hk] at hx
      obtain ⟨⟨z, u⟩, hz, rfl⟩ := List.mem_map.1 hx
      obtain ⟨n, j, d, _, rfl, rfl, _⟩ := (v.mem_children hN hk 0 z u).1 hz
      exact congrArg (· + 1) (key_mod (hash_lt e n))
    have hpos : ∀ x ∈ kidsOf db.forest k q, 0 < x.2.2 := by
      intro x hx
      rw [hcookie x hx]
      omega
    have hself : (kidsOf db.forest k q).filter (fun x => decide (0 < x.2.2)) = kidsOf db.forest k q := by
      rw [List.filter_eq_self]
      intro x hx
      simpa using hpos x hx
    obtain ⟨all, h1, h2, h3, h4⟩ := hall
    rw [hself] at h1
    have hall0 : all.filter (fun x => decide (0 < x.2.2)) = kidsOf db.forest k q := by
      exact (Res.ok.inj h1).symm
    have hsub := List.filter_sublist (l := all) (p := fun x => decide (0 < x.2.2))
    rw [hall0] at hsub
    refine ⟨⟨h3.sublist hsub, h2.sublist (hsub.map _), ?_, hcookie⟩, hl⟩
    intro n
    rw [kidsOf, hk]
    simp only [List.map_map, List.mem_map, Function.comp]
    constructor
    · rintro ⟨⟨z, u⟩, hz, rfl⟩
      obtain ⟨n, j, d, h1, rfl, rfl, _⟩ := (v.mem_children hN hk 0 z u).1 hz
      simp [direntOf, h1]
    · intro hn
      cases hx : k.fs (q ++ [n]) with
      | none => exact absurd hx hn
      | some x =>
        obtain ⟨j, d⟩ := x
        have hent := v.ents q n j d hx
        obtain ⟨_, i', c', hi', hg⟩ := hent
        rw [hk] at hi'
        cases hi'
        have := (v.mem_children hN hk 0 (key i (e.hash n)) (.ent j n)).2
          ⟨n, j, d, hx, rfl, rfl, Nat.zero_le _⟩
        exact ⟨_, this, rfl⟩

/-- The paths of the children. -/
def kidsP (f : OMap (Value D)) (k : Client D) (q : Path) : List Path :=
  (kidsOf f k q).map fun x => q ++ [x.1]

/-- The file systems up to `d` levels below those of a list, level by level. -/
def levels (f : OMap (Value D)) (k : Client D) : Nat → List Path → List Path
  | 0, _ => []
  | d + 1, Q => Q.flatMap (kidsP f k) ++ levels f k d (Q.flatMap (kidsP f k))

theorem levels_nil (f : OMap (Value D)) (k : Client D) (d : Nat) : levels f k d [] = [] := by
  induction d with
  | zero => rfl
  | succ d ih => simp [levels, ih]

/-- The queue of the client while it lists children of paths of one level: `q`'s remaining children,
then those of `Q1`; `Q2` are the paths of the next level found so far. -/
structure Front (e : Env D) (f : OMap (Value D)) (k : Client D) (datasets : List (Nat × Str))
    (T : List Path) (d : Nat) (q : Path) (Q1 Q2 : List Path) (rem : List (Str × Nat × Nat)) : Prop where
  pos : 0 < d
  here : k.fs q ≠ none
  ex1 : ∀ a ∈ Q1, k.fs a ≠ none
  ex2 : ∀ a ∈ Q2, k.fs a ≠ none
  queue : datasets = (d, full e q) :: (Q1.map fun a => (d, full e a)) ++
    (if d > 1 then Q2.map fun a => (d - 1, full e a) else [])
  suffix : ∃ pre, kidsOf f k q = pre ++ rem
  target : T = rem.map (fun x => q ++ [x.1]) ++ Q1.flatMap (kidsP f k) ++
    levels f k (d - 1) (Q2 ++ (rem.map (fun x => q ++ [x.1]) ++ Q1.flatMap (kidsP f k)))

/-- What the state of the stream means: `T` are the paths still to come. -/
inductive LInv (e : Env D) (f : OMap (Value D)) (k : Client D) (props : List PName) :
    LState → List Path → Prop where
  | done {st} : st.datasets = [] → st.results = [] → LInv e f k props st []
  | page {st T d q Q1 Q2 rem got} : Front e f k st.datasets T d q Q1 Q2 (got ++ rem) →
      got ≠ [] → Matches e k props q st.results got → st.depth = d → LInv e f k props st T
  | ask {st T d q Q1 Q2 rem} : Front e f k st.datasets T d q Q1 Q2 rem → st.results = [] →
      (kidsOf f k q).filter (fun x => st.offs.getD 0 < x.2.2) = rem → LInv e f k props st T

/-- What one poll gives. -/
def PollOk (c : Conn D P) (N : Str → Prop) (f : OMap (Value D)) (k : Client D) (props : List PName)
    (s : Srv D P) (T : List Path) (r : Srv D P × Polled) : Prop :=
  Reach c.sys.env N r.1.db k ∧ r.1.db.forest = f ∧ r.1.dev = s.dev ∧
  match r.2 with
  | .done => T = []
  | .err x => x = .tooLarge ∧ Oversized c k props
  | .item x st => ∃ t T', T = t :: T' ∧ k.fs t ≠ none ∧ x.name = full c.sys.env t ∧
      x.offset = c.sys.env.hash (t.getLast?.getD []) + 1 ∧ Answers c.sys.env k t props x.props ∧ LInv c.sys.env f k props st T'

theorem filter_suffix {F : List (Str × Nat × Nat)} (hF : F.Pairwise fun a b => a.2.2 < b.2.2)
    {pre rem : List (Str × Nat × Nat)} {n : Str} {i co : Nat} (h : F = pre ++ (n, i, co) :: rem) :
    F.filter (fun x => co < x.2.2) = rem := by
  subst h
  rw [List.pairwise_append, List.pairwise_cons] at hF
  obtain ⟨_, ⟨h2, _⟩, h3⟩ := hF
  rw [List.filter_append, List.filter_cons_of_neg (by simp)]
  have ha : pre.filter (fun x => decide (co < x.2.2)) = [] := by
    rw [List.filter_eq_nil_iff]
    intro x hx
    have := h3 x hx (n, i, co) (by simp)
    dsimp only at this
    simp only [decide_eq_true_eq]
    omega
  have hb : rem.filter (fun x => decide (co < x.2.2)) = rem := by
    rw [List.filter_eq_self]
    intro x hx
    simpa using h2 x hx
  rw [ha, hb, List.nil_append]

/-- Handing out an entry of a page. -/
theorem emit_spec {c : Conn D P} {f : OMap (Value D)} {props : List PName} {s : Srv D P}
    (r : Reach c.sys.env N s.db k) (hf : s.db.forest = f) (s0 : Srv D P) (hdev : s.dev = s0.dev)
    (hF : ∀ q, k.fs q ≠ none → Kids c.sys.env k q (kidsOf f k q))
    {st : LState} {T : List Path} {d : Nat} {q : Path} {Q1 Q2 : List Path}
    {rem got : List (Str × Nat × Nat)} {x : DsInfo} {xs : List DsInfo}
    (h : Front c.sys.env f k st.datasets T d q Q1 Q2 (got ++ rem))
    (hm : Matches c.sys.env k props q (x :: xs) got) (hd : st.depth = d) :
    PollOk c N f k props s0 T (s, emit st x xs) := by
  refine ⟨r, hf, hdev, ?_⟩
  cases hm with
  | @cons _ n i co _ m h1 h2 h3 h4 h5 =>
    have hT := h.target
    obtain ⟨pre, hpre⟩ := h.suffix
    have hqueue := h.queue
    simp only [List.cons_append, List.map_cons] at hT
    refine ⟨q ++ [n], _, hT, h1, h2, ?_, h4, ?_⟩
    · have := (hF q h.here).cookie (n, i, co) (by rw [hpre]; simp)
      simpa [h3] using this
    have hfront : Front c.sys.env f k
        (if st.depth > 1 then st.datasets ++ [(st.depth - 1, x.name)] else st.datasets)
        ((m ++ rem).map (fun x => q ++ [x.1]) ++ Q1.flatMap (kidsP f k) ++
          levels f k (d - 1) (Q2 ++ (q ++ [n]) ::
            ((m ++ rem).map (fun x => q ++ [x.1]) ++ Q1.flatMap (kidsP f k))))
        d q Q1 (Q2 ++ [q ++ [n]]) (m ++ rem) := by
      refine ⟨h.pos, h.here, h.ex1, ?_, ?_, ⟨pre ++ [(n, i, co)], by rw [hpre]; simp⟩, by simp⟩
      · intro a ha
        rcases List.mem_append.1 ha with ha | ha
        · exact h.ex2 a ha
        · rw [List.mem_singleton.1 ha]
          exact h1
      · rw [hd, hqueue, h2]
        split <;> simp
    cases hm' : m with
    | nil =>
      subst hm'
      have hxs : xs = [] := by
        cases h5
        rfl
      subst hxs
      refine .ask hfront rfl ?_
      simp only [Option.getD_some, h3]
      exact filter_suffix (hF q h.here).cookies hpre
    | cons b t =>
      rw [← hm']
      exact .page hfront (by rw [hm']; simp) h5 hd

theorem fetch_spec {c : Conn D P} {f : OMap (Value D)} {props : List PName}
    (hN : Names c.sys.env N) (hdeep : ∀ q, k.fs q ≠ none → q.length ≤ 255)
    (hp : ∀ n ∈ props, n ≠ .baseMountpoint) (s0 : Srv D P)
    (ds : List (Nat × Str)) (offs : Option Nat) (T : List Path) (s : Srv D P)
    (r : Reach c.sys.env N s.db k) (hf : s.db.forest = f) (hdev : s.dev = s0.dev)
    (h : (ds = [] ∧ T = []) ∨ ∃ d q Q1 Q2 rem, Front c.sys.env f k ds T d q Q1 Q2 rem ∧
      (kidsOf f k q).filter (fun x => offs.getD 0 < x.2.2) = rem) :
    PollOk c N f k props s0 T (fetch c props ds offs s) := by
  have hF : ∀ q, k.fs q ≠ none → Kids c.sys.env k q (kidsOf f k q) := by
    intro q hq
    have := (kids_spec hN r hq).1
    rwa [hf] at this
  induction ds generalizing offs T s with
  | nil =>
    rcases h with ⟨_, hT⟩ | ⟨d, q, Q1, Q2, rem, hfr, _⟩
    · exact ⟨r, hf, hdev, hT⟩
    · have := hfr.queue
      simp at this
  | cons a rest ih =>
    rcases h with ⟨hnil, _⟩ | ⟨d, q, Q1, Q2, rem, hfr, hrem⟩
    · cases hnil
    have hq := hfr.queue
    rw [List.cons_append, List.cons.injEq] at hq
    obtain ⟨rfl, hrest⟩ := hq
    obtain ⟨hk1, hk2⟩ := kids_spec hN r hfr.here
    rw [hf] at hk1 hk2
    have hmem : ∀ x ∈ rem.take chunkQty, k.fs (q ++ [x.1]) ≠ none := by
      intro x hx
      have hx2 : x ∈ kidsOf f k q := by
        have := List.mem_of_mem_take hx
        rw [← hrem] at this
        exact (List.mem_filter.1 this).1
      exact (hk1.mem x.1).1 (List.mem_map_of_mem hx2)
    obtain ⟨db', l, hi, hmt, r', f'⟩ := reach_infos hN hdeep props hp q (rem.take chunkQty) hmem r
    have hserve : serveList c.sys.env s.db (full c.sys.env q) props offs = (db', .ok l) := by
      unfold serveList
      rw [hk2, hrem]
      exact hi
    have hproc : process c.sys s c.oracle c.uid (.fsList (full c.sys.env q) props offs) =
        (⟨db', s.dev⟩, some (.fsList (.ok l))) := by
      simp only [process, hserve, ofRes, Option.map_some]
    obtain ⟨hlen, hsound⟩ := hmt.sound
    rw [fetch]
    unfold call
    rw [hproc]
    dsimp only
    by_cases hsz : c.size (.fsList (.ok l)) ≥ bufSiz
    · rw [if_pos hsz]
      refine ⟨r', f'.trans hf, hdev, rfl, .inr ⟨l, ?_, hsound, hsz⟩⟩
      rw [hlen, List.length_take]
      exact Nat.min_le_left _ _
    · rw [if_neg hsz]
      simp only [finish, intoFsList]
      cases l with
      | nil =>
        dsimp only
        have hrem0 : rem = [] := by
          cases rem with
          | nil => rfl
          | cons y t =>
            simp [chunkQty] at hlen
        refine ih none T ⟨db', s.dev⟩ r' (f'.trans hf) hdev ?_
        have hT := hfr.target
        rw [hrem0] at hT
        simp only [List.map_nil, List.nil_append] at hT
        have hself : ∀ a, k.fs a ≠ none →
            (kidsOf f k a).filter (fun x => decide ((none : Option Nat).getD 0 < x.2.2)) = kidsOf f k a := by
          intro a ha
          rw [List.filter_eq_self]
          intro x hx
          simpa using Nat.lt_of_lt_of_eq (Nat.succ_pos _) ((hF a ha).cookie x hx).symm
        cases hQ1 : Q1 with
        | cons a Q1' =>
          right
          rw [hQ1] at hT hrest
          have ha : k.fs a ≠ none := hfr.ex1 a (by rw [hQ1]; simp)
          refine ⟨d, a, Q1', Q2, kidsOf f k a, ⟨hfr.pos, ha, ?_, hfr.ex2, hrest, ⟨[], rfl⟩, ?_⟩,
            hself a ha⟩
          · intro b hb
            exact hfr.ex1 b (by rw [hQ1]; simp [hb])
          · rw [hT, List.flatMap_cons]
            rfl
        | nil =>
          rw [hQ1] at hT hrest
          simp only [List.flatMap_nil, List.append_nil, List.nil_append, List.map_nil] at hT hrest
          by_cases hd : d > 1
          · rw [if_pos hd] at hrest
            obtain ⟨d', rfl⟩ : ∃ d', d = d' + 2 := ⟨d - 2, by omega⟩
            cases hQ2 : Q2 with
            | nil =>
              left
              rw [hQ2] at hT hrest
              exact ⟨by simpa using hrest, by rw [hT, levels_nil]⟩
            | cons a Q2' =>
              right
              rw [hQ2] at hT hrest
              have ha : k.fs a ≠ none := hfr.ex2 a (by rw [hQ2]; simp)
              refine ⟨d' + 1, a, Q2', [], kidsOf f k a, ⟨by omega, ha, ?_, by simp, ?_, ⟨[], rfl⟩, ?_⟩,
                hself a ha⟩
              · intro b hb
                exact hfr.ex2 b (by rw [hQ2]; simp [hb])
              · rw [hrest]
                simp
              · rw [hT]
                rfl
          · left
            rw [if_neg hd] at hrest
            have hd1 : d = 1 := by
              have := hfr.pos
              omega
            subst hd1
            exact ⟨hrest, by rw [hT]; rfl⟩
      | cons x xs =>
        dsimp only
        refine emit_spec (s := ⟨db', s.dev⟩) (Q1 := Q1) (Q2 := Q2) (rem := rem.drop chunkQty) (got := rem.take chunkQty) r' (f'.trans hf) s0 hdev hF
          ?_ hmt rfl
        rw [List.take_append_drop]
        exact hfr

theorem poll_spec {c : Conn D P} {f : OMap (Value D)} {props : List PName}
    (hN : Names c.sys.env N) (hdeep : ∀ q, k.fs q ≠ none → q.length ≤ 255)
    (hp : ∀ n ∈ props, n ≠ .baseMountpoint)
    {st : LState} {T : List Path} {s : Srv D P} (r : Reach c.sys.env N s.db k) (hf : s.db.forest = f)
    (h : LInv c.sys.env f k props st T) : PollOk c N f k props s T (poll c props st s) := by
  have hF : ∀ q, k.fs q ≠ none → Kids c.sys.env k q (kidsOf f k q) := by
    intro q hq
    have := (kids_spec hN r hq).1
    rwa [hf] at this
  unfold poll
  cases h with
  | done h1 h2 =>
    rw [h2, h1]
    exact fetch_spec hN hdeep hp s [] st.offs [] s r hf rfl (.inl ⟨rfl, rfl⟩)
  | ask h1 h2 h3 =>
    rw [h2]
    exact fetch_spec hN hdeep hp s _ _ T s r hf rfl (.inr ⟨_, _, _, _, _, h1, h3⟩)
  | page h1 h2 h3 h4 =>
    cases hr : st.results with
    | nil =>
      rw [hr] at h3
      cases h3
      exact absurd rfl h2
    | cons x xs =>
      rw [hr] at h3
      exact emit_spec r hf s rfl hF h1 h3 h4

/-- What polling `n` times gives when the paths `T` are to come. -/
def Drained (c : Conn D P) (N : Str → Prop) (f : OMap (Value D)) (k : Client D)
    (props : List PName) (s : Srv D P) (T : List Path) (n : Nat)
    (r : Srv D P × List DsInfo × End) : Prop :=
  Reach c.sys.env N r.1.db k ∧ r.1.db.forest = f ∧ r.1.dev = s.dev ∧
  (∀ x ∈ r.2.1, Sound c.sys.env k props x) ∧
  ∃ T1 T2, T = T1 ++ T2 ∧ r.2.1.map DsInfo.name = T1.map (full c.sys.env) ∧
    r.2.1.map DsInfo.offset = T1.map (fun t => c.sys.env.hash (t.getLast?.getD []) + 1) ∧
    match r.2.2 with
    | .done => T2 = []
    | .more => T1.length = n
    | .err x => x = .tooLarge ∧ Oversized c k props

theorem drain_spec {c : Conn D P} {f : OMap (Value D)} {props : List PName}
    (hN : Names c.sys.env N) (hdeep : ∀ q, k.fs q ≠ none → q.length ≤ 255)
    (hp : ∀ n ∈ props, n ≠ .baseMountpoint) (n : Nat)
    {st : LState} {T : List Path} {s : Srv D P} (r : Reach c.sys.env N s.db k) (hf : s.db.forest = f)
    (h : LInv c.sys.env f k props st T) :
    Drained c N f k props s T n (drain c props n st s) := by
  induction n generalizing st T s with
  | zero => exact ⟨r, hf, rfl, by simp [drain], [], T, rfl, rfl, rfl, rfl⟩
  | succ n ih =>
    have hpoll := poll_spec hN hdeep hp r hf h
    unfold drain
    generalize hpo : poll c props st s = po at hpoll
    obtain ⟨s1, o⟩ := po
    obtain ⟨r1, f1, d1, ho⟩ := hpoll
    cases o with
    | done => exact ⟨r1, f1, d1, by simp, [], [], by simpa using ho, rfl, rfl, rfl⟩
    | err x => exact ⟨r1, f1, d1, by simp, [], T, rfl, rfl, rfl, ho⟩
    | item x st1 =>
      obtain ⟨t, T', hT, ht, hname, hoff, hans, hinv⟩ := ho
      obtain ⟨r2, f2, d2, hs, T1, T2, hT', hmap, hmap2, hend⟩ := ih (s := s1) r1 f1 hinv
      refine ⟨r2, f2, d2.trans d1, ?_, t :: T1, T2, by rw [hT, hT']; rfl, ?_, ?_, ?_⟩
      · intro y hy
        rcases List.mem_cons.1 hy with rfl | hy
        · exact ⟨t, ht, hname, hans⟩
        · exact hs y hy
      · simp [hname, hmap]
      · simp [hoff, hmap2]
      · dsimp only
        revert hend
        cases (drain c props n st1 s1).2.2 with
        | done => exact id
        | more => intro hl; simpa using hl
        | err x => exact id

/-! ### What the levels are -/

theorem mem_kidsP {f : OMap (Value D)} (hF : ∀ q, k.fs q ≠ none → Kids e k q (kidsOf f k q))
    {q : Path} (hq : k.fs q ≠ none) (a : Path) :
    a ∈ kidsP f k q ↔ ∃ n, a = q ++ [n] ∧ k.fs (q ++ [n]) ≠ none := by
  unfold kidsP
  rw [List.mem_map]
  constructor
  · rintro ⟨x, hx, rfl⟩
    exact ⟨x.1, rfl, ((hF q hq).mem x.1).1 (List.mem_map_of_mem hx)⟩
  · rintro ⟨n, rfl, hn⟩
    obtain ⟨x, hx, rfl⟩ := List.mem_map.1 (((hF q hq).mem n).2 hn)
    exact ⟨x, hx, rfl⟩

/-- A list of paths of one length, none twice. -/
structure Level (k : Client D) (m : Nat) (Q : List Path) : Prop where
  nodup : Q.Nodup
  length : ∀ a ∈ Q, a.length = m
  ex : ∀ a ∈ Q, k.fs a ≠ none

theorem Level.next {f : OMap (Value D)} (hF : ∀ q, k.fs q ≠ none → Kids e k q (kidsOf f k q))
    {m : Nat} {Q : List Path} (h : Level k m Q) : Level k (m + 1) (Q.flatMap (kidsP f k)) := by
  have hmem : ∀ a, a ∈ Q.flatMap (kidsP f k) ↔ ∃ q ∈ Q, ∃ n, a = q ++ [n] ∧ k.fs (q ++ [n]) ≠ none := by
    intro a
    rw [List.mem_flatMap]
    constructor
    · rintro ⟨q, hq, ha⟩
      exact ⟨q, hq, (mem_kidsP hF (h.ex q hq) a).1 ha⟩
    · rintro ⟨q, hq, ha⟩
      exact ⟨q, hq, (mem_kidsP hF (h.ex q hq) a).2 ha⟩
  refine ⟨?_, ?_, ?_⟩
  · rw [List.nodup_iff_pairwise_ne, List.pairwise_flatMap]
    refine ⟨?_, ?_⟩
    · intro q hq
      have := (hF q (h.ex q hq)).nodup
      unfold kidsP
      rw [List.nodup_iff_pairwise_ne, List.pairwise_map] at this
      rw [List.pairwise_map]
      refine this.imp ?_
      intro a b hab heq
      exact hab (by simpa using heq)
    · have := h.nodup
      rw [List.nodup_iff_pairwise_ne] at this
      refine List.Pairwise.imp_of_mem ?_ this
      intro a b ha hb hab x hx y hy heq
      obtain ⟨n, rfl, _⟩ := (mem_kidsP hF (h.ex a ha) x).1 hx
      obtain ⟨n', rfl, _⟩ := (mem_kidsP hF (h.ex b hb) y).1 hy
      exact hab (List.append_inj_left' heq rfl)
  · intro a ha
    obtain ⟨q, hq, n, rfl, _⟩ := (hmem a).1 ha
    simp [h.length q hq]
  · intro a ha
    obtain ⟨q, hq, n, rfl, hn⟩ := (hmem a).1 ha
    exact hn

theorem levels_spec {f : OMap (Value D)} (hF : ∀ q, k.fs q ≠ none → Kids e k q (kidsOf f k q))
    (hpre : ∀ p n, k.fs (p ++ [n]) ≠ none → k.fs p ≠ none)
    (d m : Nat) (Q : List Path) (h : Level k m Q) :
    (levels f k d Q).Nodup ∧ (levels f k d Q).Pairwise (fun a b => a.length ≤ b.length) ∧
    (∀ a ∈ levels f k d Q, m < a.length ∧ k.fs a ≠ none) ∧
    ∀ a, a ∈ levels f k d Q ↔
      ∃ q ∈ Q, ∃ r, r ≠ [] ∧ r.length ≤ d ∧ a = q ++ r ∧ k.fs a ≠ none := by
  induction d generalizing m Q with
  | zero =>
    refine ⟨by simp [levels], by simp [levels], by simp [levels], ?_⟩
    intro a
    simp only [levels, List.not_mem_nil, false_iff]
    rintro ⟨q, _, r, hr, hl, _⟩
    exact hr (List.eq_nil_of_length_eq_zero (by omega))
  | succ d ih =>
    have hn := h.next hF
    obtain ⟨i1, i2, i3, i4⟩ := ih (m + 1) _ hn
    unfold levels
    refine ⟨?_, ?_, ?_, ?_⟩
    · rw [List.nodup_append]
      refine ⟨hn.nodup, i1, ?_⟩
      rintro a ha b hb rfl
      have := hn.length a ha
      have := (i3 a hb).1
      omega
    · rw [List.pairwise_append]
      refine ⟨?_, i2, ?_⟩
      · refine List.Pairwise.imp_of_mem ?_ hn.nodup
        intro a b ha hb _
        rw [hn.length a ha, hn.length b hb]
        exact Nat.le_refl _
      · intro a ha b hb
        have := hn.length a ha
        have := (i3 b hb).1
        omega
    · intro a ha
      rcases List.mem_append.1 ha with ha | ha
      · exact ⟨by rw [hn.length a ha]; omega, hn.ex a ha⟩
      · exact ⟨by have := (i3 a ha).1; omega, (i3 a ha).2⟩
    · intro a
      rw [List.mem_append, i4, List.mem_flatMap]
      constructor
      · rintro (⟨q, hq, ha⟩ | ⟨b, hb, r, hr, hl, rfl, hk⟩)
        · obtain ⟨n, rfl, hk⟩ := (mem_kidsP hF (h.ex q hq) a).1 ha
          exact ⟨q, hq, [n], by simp, by simp, rfl, hk⟩
        · obtain ⟨q, hq, hbq⟩ := List.mem_flatMap.1 hb
          obtain ⟨n, rfl, _⟩ := (mem_kidsP hF (h.ex q hq) b).1 hbq
          exact ⟨q, hq, n :: r, by simp, by simpa using hl, by simp, hk⟩
      · rintro ⟨q, hq, r, hr, hl, rfl, hk⟩
        cases r with
        | nil => exact absurd rfl hr
        | cons n t =>
          by_cases ht : t = []
          · subst ht
            exact .inl ⟨q, hq, (mem_kidsP hF (h.ex q hq) _).2 ⟨n, rfl, hk⟩⟩
          · right
            have hqn : k.fs (q ++ [n]) ≠ none := by
              have : ∀ t : Path, k.fs ((q ++ [n]) ++ t) ≠ none → k.fs (q ++ [n]) ≠ none := by
                intro t
                induction t using snoc_induction with
                | nil => simp
                | append_singleton t x ih =>
                  intro h
                  rw [← List.append_assoc] at h
                  exact ih (hpre _ x h)
              exact this t (by simpa using hk)
            exact ⟨q ++ [n], List.mem_flatMap.2 ⟨q, hq, (mem_kidsP hF (h.ex q hq) _).2 ⟨n, rfl, hqn⟩⟩,
              t, ht, by simpa using hl, by simp, hk⟩

theorem full_inj (hN : Names e N) {p q : Path} (hp : ∀ n ∈ p, N n) (hq : ∀ n ∈ q, N n)
    (h : full e p = full e q) : p = q := by
  have hj : join p = join q := by
    have h1 := strip_full e p
    rw [h, strip_full] at h1
    exact (Res.ok.inj h1).symm
  cases p with
  | nil =>
    cases q with
    | nil => rfl
    | cons b t =>
      exact absurd hj.symm (join_ne_nil _ (by simp) fun n hn => hN.nonempty n (hq n hn))
  | cons a s =>
    cases q with
    | nil => exact absurd hj (join_ne_nil _ (by simp) fun n hn => hN.nonempty n (hp n hn))
    | cons b t =>
      rw [← split_join (a :: s) (by simp) fun n hn => hN.slash n (hp n hn),
        ← split_join (b :: t) (by simp) fun n hn => hN.slash n (hq n hn), hj]

end Verif.Rpc
