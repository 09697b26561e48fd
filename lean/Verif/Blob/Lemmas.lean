import Verif.Blob.Model
import Verif.Blob.Spec

/-! Values, their records, and the invariant that ties them together. -/

namespace Verif.Blob
open Verif (OMap)
open OMap
open Spec (Plain)

variable {N : Type}

/-! ## Mapping the values of a map -/

def mapV {V W : Type} (f : V → W) (m : OMap V) : OMap W := m.map fun e => (e.1, f e.2)

theorem get_mapV {V W : Type} (f : V → W) (m : OMap V) (k : Nat) :
    OMap.get (mapV f m) k = (OMap.get m k).map f := by
  induction m with
  | nil => rfl
  | cons e m ih =>
    simp only [mapV, List.map_cons, OMap.get] at ih ⊢
    split
    · rfl
    · exact ih

theorem insert_mapV {V W : Type} (f : V → W) (m : OMap V) (k : Nat) (v : V) :
    mapV f (OMap.insert m k v) = OMap.insert (mapV f m) k (f v) := by
  induction m with
  | nil => rfl
  | cons e m ih =>
    simp only [mapV, List.map_cons, OMap.insert] at ih ⊢
    split
    · rfl
    · split
      · rfl
      · simp only [List.map_cons, ih]

theorem filter_mapV {V W : Type} (f : V → W) (m : OMap V) (p : Nat → Bool) :
    mapV f (m.filter fun e => p e.1) = (mapV f m).filter fun e => p e.1 := by
  induction m with
  | nil => rfl
  | cons e m ih =>
    simp only [mapV, List.map_cons, List.filter_cons] at ih ⊢
    split <;> simp [ih]

theorem remove_mapV {V W : Type} (f : V → W) (m : OMap V) (k : Nat) :
    mapV f (OMap.remove m k) = OMap.remove (mapV f m) k :=
  filter_mapV f m (fun k' => decide (k' ≠ k))

theorem mapV_mapV {U V W : Type} (f : U → V) (g : V → W) (m : OMap U) :
    mapV g (mapV f m) = mapV (fun u => g (f u)) m := by
  simp [mapV]

theorem mapV_congr {V W : Type} {f g : V → W} {m : OMap V} (h : ∀ e ∈ m, f e.2 = g e.2) :
    mapV f m = mapV g m := by
  apply List.map_congr_left
  intro e he; rw [h e he]

theorem sorted_mapV {V W : Type} {f : V → W} {m : OMap V} (h : Sorted m) : Sorted (mapV f m) := by
  simp only [Sorted, mapV, List.pairwise_map]; exact h

/-! ## Records referenced by values -/

/-- Length and id of the record of an attribute. -/
def lrefsA : Attr N → List (Nat × Nat)
  | .inline _ _ => []
  | .blob _ l r => [(l, r)]

def lrefs : Val N → List (Nat × Nat)
  | .other _ => []
  | .inline _ => []
  | .blob l r => [(l, r)]
  | .attr a => lrefsA a
  | .attrs l => l.flatMap lrefsA

/-- The records referenced in a tree. -/
def treeRefs (t : OMap (Val N)) : List (Nat × Nat) := t.flatMap fun e => lrefs e.2

/-- The data of an attribute. -/
def plainA (d : Dml) : Attr N → N × Bytes
  | .inline n b => (n, b)
  | .blob n _ r => (n, (d.recs.get r).getD [])

/-- A value with its data. -/
def plain (d : Dml) : Val N → Plain N
  | .other x => .other x
  | .inline b => .ext b
  | .blob _ r => .ext ((d.recs.get r).getD [])
  | .attr a => .attr (plainA d a).1 (plainA d a).2
  | .attrs l => .attrs (l.map (plainA d))

/-- A value with all its data inside. -/
def ofPlain : Plain N → Val N
  | .other x => .other x
  | .ext b => .inline b
  | .attr n b => .attr (.inline n b)
  | .attrs l => .attrs (l.map fun e => .inline e.1 e.2)

/-- The tree of a state, with the data in place. -/
def view (s : St N) : OMap (Plain N) := mapV (plain s.dml) s.tree

theorem lrefs_ofPlain (p : Plain N) : lrefs (ofPlain p) = [] := by
  cases p with
  | attrs l =>
    simp only [ofPlain, lrefs, List.flatMap_map]
    exact List.flatMap_eq_nil_iff.2 fun e _ => rfl
  | _ => rfl

theorem plain_ofPlain (d : Dml) (p : Plain N) : plain d (ofPlain p) = p := by
  cases p with
  | attrs l =>
    simp only [ofPlain, plain, List.map_map]
    congr 1
    conv => rhs; rw [← List.map_id l]
    apply List.map_congr_left
    intro e _; rfl
  | _ => rfl

theorem plainA_congr {d d' : Dml} {a : Attr N} (h : ∀ e ∈ lrefsA a, d.recs.get e.2 = d'.recs.get e.2) :
    plainA d a = plainA d' a := by
  cases a with
  | inline n b => rfl
  | blob n l r => simp only [plainA, h (l, r) (by simp [lrefsA])]

theorem plain_congr {d d' : Dml} {v : Val N} (h : ∀ e ∈ lrefs v, d.recs.get e.2 = d'.recs.get e.2) :
    plain d v = plain d' v := by
  cases v with
  | other x => rfl
  | inline b => rfl
  | blob l r => simp only [plain, h (l, r) (by simp [lrefs])]
  | attr a => simp only [plain, plainA_congr (d := d) (d' := d') h]
  | attrs l =>
    simp only [plain]
    congr 1
    apply List.map_congr_left
    intro a ha
    apply plainA_congr
    intro e he
    exact h e (List.mem_flatMap.2 ⟨a, ha, he⟩)

/-! ## The invariant -/

/-- `L` are the records (length, id) of this tree.  Each exists, is listed once
and holds more than `threshold` bytes; all other records are as they were in `d0`. -/
structure Inv (d0 d : Dml) (L : List (Nat × Nat)) : Prop where
  nodup : (L.map (·.2)).Nodup
  range : ∀ e ∈ L, d0.next ≤ e.2 ∧ e.2 < d.next
  mono : d0.next ≤ d.next
  here : ∀ e ∈ L, ∃ b, d.recs.get e.2 = some b ∧ e.1 = u32 b.length ∧ threshold < b.length
  frame : ∀ r, (∀ e ∈ L, e.2 ≠ r) → d.recs.get r = d0.recs.get r

theorem Inv.perm {d0 d : Dml} {L L' : List (Nat × Nat)} (h : Inv d0 d L) (p : L.Perm L') :
    Inv d0 d L' where
  nodup := (p.map _).nodup_iff.1 h.nodup
  range e he := h.range e (p.mem_iff.2 he)
  mono := h.mono
  here e he := h.here e (p.mem_iff.2 he)
  frame r hr := h.frame r fun e he => hr e (p.mem_iff.1 he)

/-- Records with ids below `d.next` are the same in `d'`. -/
structure Ext (d d' : Dml) : Prop where
  le : d.next ≤ d'.next
  same : ∀ r, r < d.next → d'.recs.get r = d.recs.get r

theorem Ext.refl (d : Dml) : Ext d d := ⟨Nat.le_refl _, fun _ _ => rfl⟩

theorem Ext.trans {a b c : Dml} (h : Ext a b) (h' : Ext b c) : Ext a c :=
  ⟨Nat.le_trans h.le h'.le, fun r hr => by
    rw [h'.same r (Nat.lt_of_lt_of_le hr h.le), h.same r hr]⟩

theorem inv_put {d0 d : Dml} {L : List (Nat × Nat)} (h : Inv d0 d L) (b : Bytes)
    (hb : threshold < b.length) :
    Inv d0 (d.put b).2 ((u32 b.length, (d.put b).1) :: L) ∧ Ext d (d.put b).2 := by
  refine ⟨⟨?_, ?_, ?_, ?_, ?_⟩, ?_, ?_⟩
  · simp only [Dml.put, List.map_cons, List.nodup_cons]
    refine ⟨?_, h.nodup⟩
    intro hm
    obtain ⟨e, he, hr⟩ := List.mem_map.1 hm
    have := (h.range e he).2
    omega
  · intro e he
    have hm := h.mono
    rcases List.mem_cons.1 he with rfl | he
    · simp only [Dml.put]; omega
    · have := h.range e he
      simp only [Dml.put]; omega
  · have := h.mono
    simp only [Dml.put]; omega
  · intro e he
    rcases List.mem_cons.1 he with rfl | he
    · exact ⟨b, by simp [Dml.put, get_insert], rfl, hb⟩
    · obtain ⟨b', h1, h2⟩ := h.here e he
      refine ⟨b', ?_, h2⟩
      simp only [Dml.put, get_insert]
      rw [if_neg (by have := (h.range e he).2; omega)]
      exact h1
  · intro r hr
    have h1 := hr _ List.mem_cons_self
    simp only [Dml.put] at h1 ⊢
    rw [get_insert, if_neg (fun hh => h1 hh.symm)]
    exact h.frame r fun e he => hr e (List.mem_cons_of_mem _ he)
  · simp [Dml.put]
  · intro r hr
    simp only [Dml.put, get_insert]
    rw [if_neg (by omega)]

/-- Removing one record of the tree. -/
def drop1 (d : Dml) (r : Nat) : Dml := ⟨d.recs.remove r, d.next⟩

theorem inv_drop {d0 d : Dml} {e : Nat × Nat} {L : List (Nat × Nat)}
    (hd0 : ∀ r, d0.next ≤ r → d0.recs.get r = none) (h : Inv d0 d (e :: L)) :
    Inv d0 (drop1 d e.2) L ∧ (∃ b, d.recs.get e.2 = some b ∧ e.1 = u32 b.length ∧ threshold < b.length) ∧
    ∀ r, r ≠ e.2 → (drop1 d e.2).recs.get r = d.recs.get r := by
  have hn := h.nodup
  simp only [List.map_cons, List.nodup_cons] at hn
  have hne : ∀ x ∈ L, x.2 ≠ e.2 := fun x hx hh => hn.1 (List.mem_map.2 ⟨x, hx, hh⟩)
  have hsame : ∀ r, r ≠ e.2 → (drop1 d e.2).recs.get r = d.recs.get r := by
    intro r hr
    simp only [drop1, get_remove]
    rw [if_neg hr]
  refine ⟨⟨hn.2, ?_, h.mono, ?_, ?_⟩, h.here e List.mem_cons_self, hsame⟩
  · intro x hx; exact h.range x (List.mem_cons_of_mem _ hx)
  · intro x hx
    obtain ⟨b, h1, h2⟩ := h.here x (List.mem_cons_of_mem _ hx)
    exact ⟨b, by rw [hsame _ (hne x hx)]; exact h1, h2⟩
  · intro r hr
    by_cases he : r = e.2
    · subst he
      rw [hd0 _ (h.range e List.mem_cons_self).1]
      simp [drop1, get_remove]
    · rw [hsame r he]
      apply h.frame
      intro x hx
      rcases List.mem_cons.1 hx with rfl | hx
      · exact fun hh => he hh.symm
      · exact hr x hx

/-! ## Flushing values -/

theorem flushA_spec {d0 d : Dml} {a : Attr N} {L : List (Nat × Nat)}
    (h : Inv d0 d (lrefsA a ++ L)) (hn : a.needsFlush = true) :
    Inv d0 (a.flush d).2 (lrefsA (a.flush d).1 ++ L) ∧ Ext d (a.flush d).2 ∧
    plainA (a.flush d).2 (a.flush d).1 = plainA d a := by
  cases a with
  | inline n b =>
    have := inv_put (b := b) h (by simpa [Attr.needsFlush] using hn)
    refine ⟨this.1, this.2, ?_⟩
    simp [Attr.flush, Dml.put, plainA, get_insert]
  | blob n l r => exact ⟨h, Ext.refl _, rfl⟩

theorem plainA_ext {d d' : Dml} {a : Attr N} (hx : Ext d d') (h : ∀ e ∈ lrefsA a, e.2 < d.next) :
    plainA d' a = plainA d a :=
  plainA_congr fun e he => hx.same _ (h e he)

theorem plain_ext {d d' : Dml} {v : Val N} (hx : Ext d d') (h : ∀ e ∈ lrefs v, e.2 < d.next) :
    plain d' v = plain d v :=
  plain_congr fun e he => hx.same _ (h e he)

theorem perm_swap3 {α : Type} (a b c : List α) : (a ++ (b ++ c)).Perm (b ++ (a ++ c)) := by
  rw [← List.append_assoc, ← List.append_assoc]
  exact (List.perm_append_comm).append_right _

/-- Flushing an attribute if it needs it. -/
def flush1 (d : Dml) (a : Attr N) : Attr N × Dml := if a.needsFlush then a.flush d else (a, d)

theorem flush1_spec {d0 d : Dml} {a : Attr N} {L : List (Nat × Nat)}
    (h : Inv d0 d (lrefsA a ++ L)) :
    Inv d0 (flush1 d a).2 (lrefsA (flush1 d a).1 ++ L) ∧ Ext d (flush1 d a).2 ∧
    plainA (flush1 d a).2 (flush1 d a).1 = plainA d a := by
  simp only [flush1]
  split
  · rename_i hn; exact flushA_spec h hn
  · exact ⟨h, Ext.refl _, rfl⟩

theorem flushAttrs_spec {d0 : Dml} (l : List (Attr N)) : ∀ {d : Dml} {L : List (Nat × Nat)},
    Inv d0 d (l.flatMap lrefsA ++ L) →
    Inv d0 (flushAttrs d l).2 ((flushAttrs d l).1.flatMap lrefsA ++ L) ∧
    Ext d (flushAttrs d l).2 ∧
    (flushAttrs d l).1.map (plainA (flushAttrs d l).2) = l.map (plainA d) := by
  induction l with
  | nil => intro d L h; exact ⟨h, Ext.refl _, rfl⟩
  | cons a l ih =>
    intro d L h
    simp only [List.flatMap_cons, List.append_assoc] at h
    obtain ⟨h1, hx1, hp1⟩ := flush1_spec h
    obtain ⟨h2, hx2, hp2⟩ := ih (h1.perm (perm_swap3 _ _ _))
    have hlt : ∀ e ∈ lrefsA (flush1 d a).1, e.2 < (flush1 d a).2.next := fun e he =>
      (h1.range e (List.mem_append_left _ he)).2
    refine ⟨?_, hx1.trans hx2, ?_⟩
    · simp only [flushAttrs, List.flatMap_cons, List.append_assoc]
      exact h2.perm (perm_swap3 _ _ _)
    · simp only [flushAttrs, List.map_cons]
      refine List.cons_eq_cons.2 ⟨?_, ?_⟩
      · exact (plainA_ext hx2 hlt).trans hp1
      · refine hp2.trans ?_
        apply List.map_congr_left
        intro x hx
        apply plainA_ext hx1
        intro e he
        exact (h.range e (List.mem_append_right _ (List.mem_append_left _
          (List.mem_flatMap.2 ⟨x, hx, he⟩)))).2

theorem flushV_spec {d0 d : Dml} {v : Val N} {L : List (Nat × Nat)}
    (h : Inv d0 d (lrefs v ++ L)) (hn : v.needsFlush = true) :
    Inv d0 (v.flush d).2 (lrefs (v.flush d).1 ++ L) ∧ Ext d (v.flush d).2 ∧
    plain (v.flush d).2 (v.flush d).1 = plain d v := by
  cases v with
  | other x => exact ⟨h, Ext.refl _, rfl⟩
  | inline b =>
    have := inv_put (b := b) h (by simpa [Val.needsFlush] using hn)
    refine ⟨this.1, this.2, ?_⟩
    simp [Val.flush, Dml.put, plain, get_insert]
  | blob l r => exact ⟨h, Ext.refl _, rfl⟩
  | attr a =>
    have := flushA_spec (a := a) h hn
    refine ⟨this.1, this.2.1, ?_⟩
    simp only [Val.flush, plain, this.2.2]
  | attrs l =>
    have := flushAttrs_spec l (L := L) h
    refine ⟨this.1, this.2.1, ?_⟩
    simp only [Val.flush, plain, this.2.2]

/-- Flushing a value if it is to be flushed and needs it. -/
def flushIf (c : Bool) (d : Dml) (v : Val N) : Val N × Dml :=
  if c && v.needsFlush then v.flush d else (v, d)

theorem flushIf_spec {d0 d : Dml} {v : Val N} {L : List (Nat × Nat)} (c : Bool)
    (h : Inv d0 d (lrefs v ++ L)) :
    Inv d0 (flushIf c d v).2 (lrefs (flushIf c d v).1 ++ L) ∧ Ext d (flushIf c d v).2 ∧
    plain (flushIf c d v).2 (flushIf c d v).1 = plain d v := by
  simp only [flushIf]
  split
  · rename_i hn
    simp only [Bool.and_eq_true] at hn
    exact flushV_spec h hn.2
  · exact ⟨h, Ext.refl _, rfl⟩

theorem flushItems_spec {d0 : Dml} (p : Nat → Bool) (t : OMap (Val N)) :
    ∀ {d : Dml} {L : List (Nat × Nat)}, Inv d0 d (treeRefs t ++ L) →
    Inv d0 (flushItems p d t).2 (treeRefs (flushItems p d t).1 ++ L) ∧
    Ext d (flushItems p d t).2 ∧
    mapV (plain (flushItems p d t).2) (flushItems p d t).1 = mapV (plain d) t ∧
    (flushItems p d t).1.map (·.1) = t.map (·.1) := by
  induction t with
  | nil => intro d L h; exact ⟨h, Ext.refl _, rfl, rfl⟩
  | cons e t ih =>
    obtain ⟨k, v⟩ := e
    intro d L h
    simp only [treeRefs, List.flatMap_cons, List.append_assoc] at h
    obtain ⟨h1, hx1, hp1⟩ := flushIf_spec (p k) h
    obtain ⟨h2, hx2, hp2, hk2⟩ := ih (h1.perm (perm_swap3 _ _ _))
    have hlt : ∀ e ∈ lrefs (flushIf (p k) d v).1, e.2 < (flushIf (p k) d v).2.next := fun e he =>
      (h1.range e (List.mem_append_left _ he)).2
    refine ⟨?_, hx1.trans hx2, ?_, ?_⟩
    · simp only [flushItems, treeRefs, List.flatMap_cons, List.append_assoc]
      exact h2.perm (perm_swap3 _ _ _)
    · simp only [flushItems, mapV, List.map_cons]
      refine List.cons_eq_cons.2 ⟨?_, ?_⟩
      · exact congrArg (Prod.mk k) ((plain_ext hx2 hlt).trans hp1)
      · refine hp2.trans ?_
        apply mapV_congr
        intro x hx
        apply plain_ext hx1
        intro e he
        exact (h.range e (List.mem_append_right _ (List.mem_append_left _
          (List.mem_flatMap.2 ⟨x, hx, he⟩)))).2
    · simp only [flushItems, List.map_cons]
      exact congrArg _ hk2

/-! ## Popping and dropping values -/

theorem pop_spec {d0 d : Dml} {l r : Nat} {L : List (Nat × Nat)}
    (hd0 : ∀ r, d0.next ≤ r → d0.recs.get r = none) (h : Inv d0 d ((l, r) :: L)) :
    d.pop r = some ((d.recs.get r).getD [], drop1 d r) := by
  obtain ⟨_, ⟨b, hb, _⟩, _⟩ := inv_drop hd0 h
  simp only at hb
  simp [Dml.pop, hb, drop1]

theorem delete_spec {d0 d : Dml} {l r : Nat} {L : List (Nat × Nat)}
    (hd0 : ∀ r, d0.next ≤ r → d0.recs.get r = none) (h : Inv d0 d ((l, r) :: L)) :
    d.delete r = some (drop1 d r) := by
  obtain ⟨_, ⟨b, hb, _⟩, _⟩ := inv_drop hd0 h
  simp only at hb
  simp [Dml.delete, hb, drop1]

/-- Records not among `R` are the same in `d'`, and so is the next id. -/
structure Agree (R : List (Nat × Nat)) (d d' : Dml) : Prop where
  next : d'.next = d.next
  same : ∀ r, (∀ e ∈ R, e.2 ≠ r) → d'.recs.get r = d.recs.get r

theorem Agree.refl (R : List (Nat × Nat)) (d : Dml) : Agree R d d := ⟨rfl, fun _ _ => rfl⟩

theorem agree_drop (d : Dml) (l r : Nat) : Agree [(l, r)] d (drop1 d r) := by
  refine ⟨rfl, fun x hx => ?_⟩
  have := hx (l, r) (by simp)
  simp only [drop1, get_remove]
  rw [if_neg (fun hh => this hh.symm)]

theorem Agree.trans {R S : List (Nat × Nat)} {a b c : Dml} (h : Agree R a b) (h' : Agree S b c) :
    Agree (R ++ S) a c :=
  ⟨h'.next.trans h.next, fun r hr => by
    rw [h'.same r fun e he => hr e (List.mem_append_right _ he),
      h.same r fun e he => hr e (List.mem_append_left _ he)]⟩

theorem dpopA_spec {d0 d : Dml} {a : Attr N} {L : List (Nat × Nat)}
    (hd0 : ∀ r, d0.next ≤ r → d0.recs.get r = none) (h : Inv d0 d (lrefsA a ++ L)) :
    ∃ d', a.dpop d = some (.inline (plainA d a).1 (plainA d a).2, d') ∧ Inv d0 d' L ∧
      Agree (lrefsA a) d d' := by
  cases a with
  | inline n b => exact ⟨d, rfl, h, Agree.refl _ _⟩
  | blob n l r =>
    refine ⟨drop1 d r, ?_, (inv_drop hd0 h).1, agree_drop d l r⟩
    simp only [Attr.dpop, pop_spec hd0 h, plainA]

theorem disj_of_nodup {A L : List (Nat × Nat)} (h : ((A ++ L).map (·.2)).Nodup) :
    ∀ x ∈ L, ∀ e ∈ A, e.2 ≠ x.2 := by
  intro x hx e he hh
  rw [List.map_append, List.nodup_append] at h
  exact h.2.2 _ (List.mem_map_of_mem he) _ (List.mem_map_of_mem hx) hh

theorem dpopAttrs_spec {d0 : Dml} (hd0 : ∀ r, d0.next ≤ r → d0.recs.get r = none)
    (l : List (Attr N)) : ∀ {d : Dml} {L : List (Nat × Nat)},
    Inv d0 d (l.flatMap lrefsA ++ L) →
    ∃ d', dpopAttrs d l = some ((l.map (plainA d)).map (fun e => .inline e.1 e.2), d') ∧
      Inv d0 d' L ∧ Agree (l.flatMap lrefsA) d d' := by
  induction l with
  | nil => intro d L h; exact ⟨d, rfl, h, Agree.refl _ _⟩
  | cons a l ih =>
    intro d L h
    simp only [List.flatMap_cons, List.append_assoc] at h
    obtain ⟨d1, he1, h1, ha1⟩ := dpopA_spec hd0 h
    obtain ⟨d2, he2, h2, ha2⟩ := ih h1
    refine ⟨d2, ?_, h2, ha1.trans ha2⟩
    have hc : l.map (plainA d1) = l.map (plainA d) := by
      apply List.map_congr_left
      intro x hx
      apply plainA_congr
      intro e he
      apply ha1.same
      exact disj_of_nodup h.nodup e (List.mem_append_left _ (List.mem_flatMap.2 ⟨x, hx, he⟩))
    simp only [dpopAttrs, he1, he2, hc, List.map_cons]

theorem dpopV_spec {d0 d : Dml} {v : Val N} {L : List (Nat × Nat)}
    (hd0 : ∀ r, d0.next ≤ r → d0.recs.get r = none) (h : Inv d0 d (lrefs v ++ L)) :
    ∃ d', v.dpop d = some (ofPlain (plain d v), d') ∧ Inv d0 d' L ∧ Agree (lrefs v) d d' := by
  cases v with
  | other x => exact ⟨d, rfl, h, Agree.refl _ _⟩
  | inline b => exact ⟨d, rfl, h, Agree.refl _ _⟩
  | blob l r =>
    refine ⟨drop1 d r, ?_, (inv_drop hd0 h).1, agree_drop d l r⟩
    simp only [Val.dpop, pop_spec hd0 h, plain, ofPlain]
  | attr a =>
    obtain ⟨d', he, h', ha⟩ := dpopA_spec (a := a) hd0 h
    exact ⟨d', by simp only [Val.dpop, he, plain, ofPlain], h', ha⟩
  | attrs l =>
    obtain ⟨d', he, h', ha⟩ := dpopAttrs_spec hd0 l (L := L) h
    exact ⟨d', by simp only [Val.dpop, he, plain, ofPlain], h', ha⟩

theorem ddropAttrs_spec {d0 : Dml} (hd0 : ∀ r, d0.next ≤ r → d0.recs.get r = none)
    (l : List (Attr N)) : ∀ {d : Dml} {L : List (Nat × Nat)},
    Inv d0 d (l.flatMap lrefsA ++ L) →
    ∃ d', ddropAttrs d l = some d' ∧ Inv d0 d' L ∧ Agree (l.flatMap lrefsA) d d' := by
  induction l with
  | nil => intro d L h; exact ⟨d, rfl, h, Agree.refl _ _⟩
  | cons a l ih =>
    intro d L h
    simp only [List.flatMap_cons, List.append_assoc] at h
    cases a with
    | inline n b => exact ih h
    | blob n x r =>
      obtain ⟨d2, he2, h2, ha2⟩ := ih (inv_drop hd0 h).1
      refine ⟨d2, ?_, h2, (agree_drop d x r).trans ha2⟩
      simp only [ddropAttrs, delete_spec hd0 h]
      exact he2

theorem ddropV_spec {d0 d : Dml} {v : Val N} {L : List (Nat × Nat)}
    (hd0 : ∀ r, d0.next ≤ r → d0.recs.get r = none) (h : Inv d0 d (lrefs v ++ L)) :
    ∃ d', v.ddrop d = some d' ∧ Inv d0 d' L ∧ Agree (lrefs v) d d' := by
  cases v with
  | other x => exact ⟨d, rfl, h, Agree.refl _ _⟩
  | inline b => exact ⟨d, rfl, h, Agree.refl _ _⟩
  | blob l r =>
    exact ⟨drop1 d r, delete_spec hd0 h, (inv_drop hd0 h).1, agree_drop d l r⟩
  | attr a =>
    cases a with
    | inline n b => exact ⟨d, rfl, h, Agree.refl _ _⟩
    | blob n l r =>
      exact ⟨drop1 d r, delete_spec hd0 h, (inv_drop hd0 h).1, agree_drop d l r⟩
  | attrs l => exact ddropAttrs_spec hd0 l (L := L) h

theorem ddropItems_spec {d0 : Dml} (hd0 : ∀ r, d0.next ≤ r → d0.recs.get r = none)
    (t : OMap (Val N)) : ∀ {d : Dml} {L : List (Nat × Nat)},
    Inv d0 d (treeRefs t ++ L) →
    ∃ d', ddropItems d t = some d' ∧ Inv d0 d' L ∧ Agree (treeRefs t) d d' := by
  induction t with
  | nil => intro d L h; exact ⟨d, rfl, h, Agree.refl _ _⟩
  | cons e t ih =>
    obtain ⟨k, v⟩ := e
    intro d L h
    simp only [treeRefs, List.flatMap_cons, List.append_assoc] at h
    obtain ⟨d1, he1, h1, ha1⟩ := ddropV_spec hd0 h
    obtain ⟨d2, he2, h2, ha2⟩ := ih h1
    exact ⟨d2, by simp only [ddropItems, he1, he2], h2, ha1.trans ha2⟩

end Verif.Blob
