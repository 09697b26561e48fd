import Verif.Blob.FileOps
import Verif.Blob.AttrOps

/-! Histories of file and attribute operations. -/

namespace Verif.Blob
open Verif (OMap)
open OMap
open Spec (Plain)

variable {N : Type}

/-! ## Files -/

/-- What can happen to a file: an operation of the user with the flushes during
it, its result, and the file afterwards.  A write may process its records in
any order and find anything in uninitialised memory, fs.rs:2416-2486. -/
inductive BStep : BFile N → Option File.Spec.Op → Res Unit → BFile N → Prop where
  | write (fl : Sched) (f : BFile N) (offset : Nat) (data : Bytes) (junk : Nat → UInt8)
      (order : List Nat) (h : order.Perm (List.range (File.nrecs (offset % f.rs) f.rs data.length))) :
      BStep f (some (.write offset data)) (write fl junk order f offset data).2
        (write fl junk order f offset data).1
  | truncate (fl : Sched) (f : BFile N) (n : Nat) :
      BStep f (some (.truncate n)) (setSize fl f n).2 (setSize fl f n).1
  | punch (fl : Sched) (f : BFile N) (o l : Nat) :
      BStep f (some (.punch o l)) (deallocate fl f o l).2 (deallocate fl f o l).1
  /-- reading does not change the contents, but the flusher may run -/
  | read (fl : Sched) (f : BFile N) (o n : Nat) : BStep f none (.ok ()) (read fl f o n).1
  /-- the flusher, database.rs:442-461 -/
  | flush (p : Nat → Bool) (f : BFile N) :
      BStep f none (.ok ()) { f with st := flush p f.st }

/-- A history: the user's operations, the results, and the file in the end. -/
inductive BSteps : BFile N → List File.Spec.Op → List (Res Unit) → BFile N → Prop where
  | nil (f : BFile N) : BSteps f [] [] f
  | cons {f f1 f2 : BFile N} {op : Option File.Spec.Op} {r : Res Unit} {ops : List File.Spec.Op}
      {rs : List (Res Unit)} :
      BStep f op r f1 → BSteps f1 ops rs f2 → BSteps f (op.toList ++ ops) (r :: rs) f2

def BFile.empty (rs : Nat) (d0 : Dml) : BFile N := ⟨rs, 0, 0, ⟨[], d0⟩⟩

theorem small_of_wf {g : File.File} (h : File.WF g) (hrs : g.rs < 2 ^ 32) : Small g.ext := by
  intro e he
  have := h.recs e.1 e.2 (get_of_mem h.sorted he)
  exact Nat.lt_of_le_of_lt this.2.2.1 hrs

theorem bstep_sim {d0 : Dml} {f f' : BFile N} {op : Option File.Spec.Op} {r : Res Unit}
    (h : BStep f op r f') {g : File.File} (hr : FRel d0 f g) (hw : File.WF g)
    (hrs : g.rs < 2 ^ 32) :
    r = .ok () ∧ ∃ g', File.Steps g op.toList g' ∧ FRel d0 f' g' := by
  have hsm := small_of_wf hw hrs
  cases h with
  | write fl _ offset data junk order hp =>
    obtain ⟨f', e, hr'⟩ := write_sim fl junk order hr offset data
    rw [e]
    rw [hr.rs] at hp
    exact ⟨rfl, _, .cons (.write _ offset data junk order hp) (.nil _), hr'⟩
  | truncate fl _ n =>
    obtain ⟨f', e, hr'⟩ := setSize_sim fl hr hsm n
    rw [e]
    exact ⟨rfl, _, .cons (.truncate _ n) (.nil _), hr'⟩
  | punch fl _ o l =>
    obtain ⟨f', e, hr'⟩ := deallocate_sim fl hr hsm o l
    rw [e]
    exact ⟨rfl, _, .cons (.punch _ o l) (.nil _), hr'⟩
  | read fl _ o n =>
    exact ⟨rfl, g, .nil _, (read_sim fl hr o n).1⟩
  | flush p _ =>
    have := flush_good hr.rel.good p
    exact ⟨rfl, g, .nil _, ⟨hr.rs, hr.size, hr.bytes, ⟨this.1, this.2.trans hr.rel.eq⟩⟩⟩

theorem steps_append {f g h : File.File} {a b : List File.Spec.Op} (h1 : File.Steps f a g)
    (h2 : File.Steps g b h) : File.Steps f (a ++ b) h := by
  induction h1 with
  | nil => exact h2
  | cons s _ ih => exact .cons s (ih h2)

theorem bsteps_sim {d0 : Dml} {f f' : BFile N} {ops : List File.Spec.Op} {rs : List (Res Unit)}
    (h : BSteps f ops rs f') : ∀ {g : File.File}, FRel d0 f g → File.WF g → g.rs < 2 ^ 32 →
    (∀ r ∈ rs, r = .ok ()) ∧ ∃ g', File.Steps g ops g' ∧ FRel d0 f' g' := by
  induction h with
  | nil f => intro g hr _ _; exact ⟨by simp, g, .nil _, hr⟩
  | cons s _ ih =>
    intro g hr hw hrs
    obtain ⟨r1, g1, s1, hr1⟩ := bstep_sim s hr hw hrs
    have hw1 := File.steps_wf s1 hw
    obtain ⟨r2, g2, s2, hr2⟩ := ih hr1 hw1.1 (by rw [hw1.2]; exact hrs)
    refine ⟨?_, g2, steps_append s1 s2, hr2⟩
    intro r hr
    rcases List.mem_cons.1 hr with rfl | hr
    · exact r1
    · exact r2 r hr

theorem frel_empty {d0 : Dml} (h : Fresh d0) (rs : Nat) :
    FRel d0 (BFile.empty rs d0 : BFile N) (File.File.empty rs) :=
  ⟨rfl, rfl, rfl, ⟨good_empty h, rfl⟩⟩

/-! ## Attributes -/

variable [DecidableEq N]

/-- Turn a result into an answer. -/
def Res.answer {A : Type} (f : A → Spec.AAnswer N) : Res A → Res (Spec.AAnswer N)
  | .ok a => .ok (f a)
  | .err => .err
  | .panic => .panic

/-- One operation of the user on the attributes of a file, with the flushes
during it. -/
def aexec (hash : N → Nat) (fl : Sched) (s : St N) : Spec.AOp N → St N × Res (Spec.AAnswer N)
  | .set n data => let r := setAttr hash fl s n data; (r.1, r.2.answer fun _ => .done)
  | .get n => let r := getAttr hash fl s n; (r.1, r.2.answer .value)
  | .len n => let r := getAttrLen hash fl s n; (r.1, r.2.answer .length)
  | .delete n => let r := delAttr hash fl s n; (r.1, r.2.answer .existed)
  | .list => let r := listAttrs fl s; (r.1, r.2.answer .names)

def aexecAll (hash : N → Nat) (s : St N) :
    List (Sched × Spec.AOp N) → St N × List (Res (Spec.AAnswer N))
  | [] => (s, [])
  | (fl, op) :: ops =>
    let r := aexec hash fl s op
    let rs := aexecAll hash r.1 ops
    (rs.1, r.2 :: rs.2)

/-- Values are shorter than 4 GB, and no flush takes a large new value to disk
between the tree operations of the `set` that stores it. -/
def Calm (hash : N → Nat) (fl : Sched) : Spec.AOp N → Prop
  | .set n data => data.length < 2 ^ 32 ∧ (data.length ≤ threshold ∨ fl 1 (hash n) = false)
  | _ => True

/-- The attributes of a table. -/
def amap (hash : N → Nat) (t : Dir.Table (N × Bytes)) : Spec.AMap N :=
  fun n => (Dir.lookup Prod.fst hash t n).map (·.2)

theorem lookup_name {hash : N → Nat} {t : Dir.Table (N × Bytes)} (ht : Dir.WF Prod.fst hash t)
    {n : N} {a : N × Bytes} (h : Dir.lookup Prod.fst hash t n = some a) : a.1 = n := by
  simp only [Dir.lookup] at h
  simpa using List.find?_some h

theorem mem_flat {t : Dir.Table (N × Bytes)} {a : N × Bytes} :
    a ∈ t.flatMap (fun e => e.2.items) ↔ a ∈ t.flatMap (fun e => e.2.items.reverse) := by
  simp only [List.mem_flatMap, List.mem_reverse]

theorem perm_flat (t : Dir.Table (N × Bytes)) :
    (t.flatMap (fun e => e.2.items)).Perm (t.flatMap (fun e => e.2.items.reverse)) := by
  induction t with
  | nil => exact List.Perm.refl _
  | cons e t ih => exact List.Perm.append (List.reverse_perm _).symm ih

theorem u32_of_lt {n : Nat} (h : n < 2 ^ 32) : u32 n = n := Nat.mod_eq_of_lt h

theorem aexec_sim {d0 : Dml} {hash : N → Nat} {s : St N} {t : Dir.Table (N × Bytes)}
    (h : ARel d0 s t) (ht : Dir.WF Prod.fst hash t)
    (hl : ∀ n a, Dir.lookup Prod.fst hash t n = some a → a.2.length < 2 ^ 32)
    (fl : Sched) (op : Spec.AOp N) (hc : Calm hash fl op) :
    ∃ t' a, ARel d0 (aexec hash fl s op).1 t' ∧ (aexec hash fl s op).2 = .ok a ∧
      Dir.WF Prod.fst hash t' ∧ amap hash t' = (amap hash t).after op ∧ (amap hash t).right op a ∧
      (∀ n a, Dir.lookup Prod.fst hash t' n = some a → a.2.length < 2 ^ 32) := by
  cases op with
  | set n data =>
    obtain ⟨h1, h2⟩ := setAttr_sim h ht.sorted hash fl n data hc.2
    obtain ⟨w1, -, w3⟩ := Dir.htInsert_spec ht (n, data)
    refine ⟨_, .done, h1, by simp only [aexec, h2, Res.answer], w1, ?_, trivial, ?_⟩
    · funext x
      simp only [amap, w3, Spec.AMap.after]
      split <;> rfl
    · intro m a ha
      rw [w3] at ha
      split at ha
      · obtain rfl : (n, data) = a := by simpa using ha
        exact hc.1
      · exact hl m a ha
  | get n =>
    obtain ⟨h1, h2⟩ := getAttr_sim h ht fl n
    exact ⟨t, .value _, h1, by simp only [aexec, h2, Res.answer]; rfl, ht, rfl, rfl, hl⟩
  | len n =>
    obtain ⟨h1, h2⟩ := getAttrLen_sim h ht fl n
    refine ⟨t, _, h1, by simp only [aexec, h2, Res.answer]; rfl, ht, rfl, ?_, hl⟩
    simp only [Spec.AMap.right, amap]
    cases hx : Dir.lookup Prod.fst hash t n with
    | none => rfl
    | some a => simp only [Option.map_some, u32_of_lt (hl n a hx)]
  | delete n =>
    obtain ⟨h1, h2⟩ := delAttr_sim h ht fl n
    obtain ⟨w1, -, w3⟩ := Dir.htRemove_spec ht n
    refine ⟨_, _, h1, by simp only [aexec, h2, Res.answer]; rfl, w1, ?_, ?_, ?_⟩
    · funext x
      simp only [amap, w3, Spec.AMap.after]
      split <;> rfl
    · simp only [Spec.AMap.right, amap, Option.isSome_map]
    · intro m a ha
      rw [w3] at ha
      split at ha
      · simp at ha
      · exact hl m a ha
  | list =>
    obtain ⟨h1, h2⟩ := listAttrs_sim h fl
    refine ⟨t, .names _, h1, by simp only [aexec, h2, Res.answer]; rfl, ht, rfl, ⟨?_, ?_⟩, hl⟩
    · exact ((perm_flat t).map _).nodup_iff.2 (Dir.nodup_items ht)
    · intro n
      simp only [List.mem_map, amap, Option.isSome_map]
      constructor
      · rintro ⟨a, ha, rfl⟩
        rw [mem_flat, Dir.mem_items_iff ht] at ha
        rw [ha]; rfl
      · intro hs
        obtain ⟨a, ha⟩ := Option.isSome_iff_exists.1 hs
        have hn := lookup_name ht ha
        refine ⟨a, ?_, hn⟩
        rw [mem_flat, Dir.mem_items_iff ht, hn]
        exact ha

theorem aexecAll_sim {d0 : Dml} {hash : N → Nat} (ops : List (Sched × Spec.AOp N)) :
    ∀ {s : St N} {t : Dir.Table (N × Bytes)}, ARel d0 s t → Dir.WF Prod.fst hash t →
    (∀ n a, Dir.lookup Prod.fst hash t n = some a → a.2.length < 2 ^ 32) →
    (∀ o ∈ ops, Calm hash o.1 o.2) →
    ∃ as, (aexecAll hash s ops).2 = as.map .ok ∧
      (amap hash t).allRight (ops.map (·.2)) as ∧ Good d0 (aexecAll hash s ops).1 := by
  induction ops with
  | nil => intro s t h _ _ _; exact ⟨[], rfl, trivial, h.good⟩
  | cons o ops ih =>
    obtain ⟨fl, op⟩ := o
    intro s t h ht hl hc
    obtain ⟨t', a, h1, h2, h3, h4, h5, h6⟩ := aexec_sim h ht hl fl op (hc (fl, op) (by simp))
    obtain ⟨as, g1, g2, g3⟩ := ih h1 h3 h6 (fun o ho => hc o (by simp [ho]))
    rw [h4] at g2
    exact ⟨a :: as, by simp only [aexecAll, h2, g1, List.map_cons], ⟨h5, g2⟩, g3⟩

omit [DecidableEq N] in
theorem arel_empty {d0 : Dml} (h : Fresh d0) : ARel d0 (⟨[], d0⟩ : St N) [] :=
  ⟨good_empty h, rfl⟩

/-! ## What is out of line after a full flush -/

/-- Nothing in the value is longer than the threshold. -/
def settled : Val N → Prop
  | .inline b => b.length ≤ threshold
  | .attr a => a.needsFlush = false
  | .attrs l => ∀ a ∈ l, a.needsFlush = false
  | _ => True

omit [DecidableEq N] in
theorem flushA_settled (d : Dml) (a : Attr N) : (a.flush d).1.needsFlush = false := by
  cases a <;> rfl

omit [DecidableEq N] in
theorem flushAttrs_settled (l : List (Attr N)) : ∀ d : Dml,
    ∀ a ∈ (flushAttrs d l).1, a.needsFlush = false := by
  induction l with
  | nil => intro d a h; simp [flushAttrs] at h
  | cons x l ih =>
    intro d a h
    simp only [flushAttrs, List.mem_cons] at h
    rcases h with rfl | h
    · split
      · exact flushA_settled d x
      · rename_i hn; simpa using hn
    · exact ih _ a h

omit [DecidableEq N] in
theorem flushV_settled (d : Dml) (v : Val N) :
    settled (if v.needsFlush then v.flush d else (v, d)).1 := by
  cases v with
  | other x => trivial
  | inline b =>
    split
    · trivial
    · rename_i h; simpa [Val.needsFlush, settled] using h
  | blob l r => trivial
  | attr a =>
    split
    · exact flushA_settled d a
    · rename_i h; simpa [Val.needsFlush, settled] using h
  | attrs l => exact flushAttrs_settled l d

omit [DecidableEq N] in
theorem flushItems_settled (t : OMap (Val N)) : ∀ d : Dml,
    ∀ e ∈ (flushItems (fun _ => true) d t).1, settled e.2 := by
  induction t with
  | nil => intro d e h; simp [flushItems] at h
  | cons x t ih =>
    obtain ⟨k, v⟩ := x
    intro d e h
    simp only [flushItems, List.mem_cons, Bool.true_and] at h
    rcases h with rfl | h
    · exact flushV_settled d v
    · exact ih _ e h

/-- The data of a record. -/
def Dml.data (d : Dml) (e : Nat × Nat) : Bytes := (d.recs.get e.2).getD []

omit [DecidableEq N] in
theorem bigA {d : Dml} {a : Attr N} (hs : a.needsFlush = false)
    (hh : ∀ e ∈ lrefsA a, threshold < (d.data e).length) :
    (lrefsA a).map d.data =
      if (plainA d a).2.length > threshold then [(plainA d a).2] else [] := by
  cases a with
  | inline n b =>
    have : ¬ b.length > threshold := by simpa [Attr.needsFlush] using hs
    simp [lrefsA, plainA, this]
  | blob n l r =>
    have := hh (l, r) (by simp [lrefsA])
    simp only [Dml.data] at this
    simp [lrefsA, plainA, Dml.data, this]

omit [DecidableEq N] in
theorem bigV {d : Dml} {v : Val N} (hs : settled v)
    (hh : ∀ e ∈ lrefs v, threshold < (d.data e).length) :
    (lrefs v).map d.data = Spec.big threshold (plain d v) := by
  cases v with
  | other x => rfl
  | inline b =>
    have : ¬ b.length > threshold := Nat.not_lt.2 hs
    simp [lrefs, Spec.big, plain, this]
  | blob l r =>
    have := hh (l, r) (by simp [lrefs])
    simp only [Dml.data] at this
    simp [lrefs, Spec.big, plain, Dml.data, this]
  | attr a => exact bigA hs hh
  | attrs l =>
    simp only [lrefs, Spec.big, plain]
    simp only [settled] at hs
    simp only [lrefs] at hh
    induction l with
    | nil => rfl
    | cons a l ih =>
      have h1 := bigA (hs a (by simp)) (fun e he => hh e (by simp [he]))
      have h2 := ih (fun a ha => hs a (by simp [ha]))
        (fun e he => hh e (by rw [List.flatMap_cons]; exact List.mem_append_right _ he))
      simp only [List.flatMap_cons, List.map_append, List.map_cons, List.filter_cons, h1, h2,
        decide_eq_true_eq]
      split <;> rfl

omit [DecidableEq N] in
theorem flush_all_exact {d0 : Dml} {s : St N} (h : Good d0 s) :
    (treeRefs (flush (fun _ => true) s).tree).map (flush (fun _ => true) s).dml.data =
      (view s).flatMap fun e => Spec.big threshold e.2 := by
  obtain ⟨g, v⟩ := flush_good h (fun _ => true)
  rw [← v]
  have hset := flushItems_settled s.tree s.dml
  change ∀ e ∈ (flush (fun _ => true) s).tree, settled e.2 at hset
  generalize flush (fun _ => true) s = s' at *
  simp only [treeRefs, view, mapV, List.map_flatMap, List.flatMap_map]
  have : ∀ e ∈ s'.tree, (lrefs e.2).map s'.dml.data = Spec.big threshold (plain s'.dml e.2) := by
    intro e he
    apply bigV (hset e he)
    intro x hx
    obtain ⟨-, b, hb, -, hl⟩ := lref_here g he hx
    simpa [Dml.data, hb] using hl
  clear v hset
  generalize s'.tree = t at this
  induction t with
  | nil => rfl
  | cons e t ih =>
    simp only [List.flatMap_cons, this e (by simp)]
    rw [ih fun x hx => this x (by simp [hx])]

end Verif.Blob
