import Verif.Blob.Steps
import Verif.Dir.Steps

/-! The extended attribute operations, with flushes, are those of a hash table
of plain attributes. -/

namespace Verif.Blob
open Verif (OMap)
open OMap
open Spec (Plain)

variable {N : Type}

def dirPlain : Dir.Val (N × Bytes) → Plain N
  | .single a => .attr a.1 a.2
  | .bucket l => .attrs l

/-- The state `s` holds the attributes `t`. -/
structure ARel (d0 : Dml) (s : St N) (t : Dir.Table (N × Bytes)) : Prop where
  good : Good d0 s
  view : view s = mapV dirPlain t

theorem flush_get (p : Nat → Bool) (t : OMap (Val N)) : ∀ (d : Dml) {k : Nat} {v : Val N},
    OMap.get t k = some v → (p k = false ∨ v.needsFlush = false) →
    OMap.get (flushItems p d t).1 k = some v := by
  induction t with
  | nil => intro d k v h; simp at h
  | cons e t ih =>
    obtain ⟨k', v'⟩ := e
    intro d k v h hp
    simp only [flushItems, OMap.get] at h ⊢
    split
    · rename_i hk
      rw [if_pos hk] at h
      obtain rfl : v' = v := by simpa using h
      subst hk
      rw [if_neg]
      rcases hp with hp | hp <;> simp [hp]
    · rename_i hk
      rw [if_neg hk] at h
      exact ih _ h hp

/-- A value just inserted is still as it was, unless the flusher took it. -/
theorem tGet_calm (fl : Sched) {s : Run N} {k : Nat} {v : Val N}
    (h : OMap.get s.st.tree k = some v) (hp : fl s.n k = false ∨ v.needsFlush = false) :
    (tGet fl s k).2 = some v :=
  flush_get (fl s.n) s.st.tree s.st.dml h hp

theorem tInsert_at (fl : Sched) (s : Run N) (k : Nat) (v : Val N) :
    OMap.get (tInsert fl s k v).1.st.tree k = some v ∧ (tInsert fl s k v).1.n = s.n + 1 := by
  refine ⟨?_, rfl⟩
  simp only [tInsert, insert]
  split
  · simp [get_insert]
  · split <;> simp [get_insert]

def inl (e : N × Bytes) : Attr N := .inline e.1 e.2

theorem name_inl (e : N × Bytes) : (inl e).name = e.1 := rfl

theorem ofPlain_dirPlain (v : Dir.Val (N × Bytes)) :
    asAttrs (ofPlain (dirPlain v)) =
      some (match v with | .single a => .single (inl a) | .bucket l => .bucket (l.map inl)) := by
  cases v <;> rfl

theorem findIdx_map {A B : Type} (f : A → B) (p : B → Bool) (l : List A) :
    (l.map f).findIdx? p = l.findIdx? (fun a => p (f a)) := by
  induction l with
  | nil => rfl
  | cons a l ih => simp only [List.map_cons, List.findIdx?_cons, ih]

theorem set_map {A B : Type} (f : A → B) (l : List A) (i : Nat) (a : A) :
    (l.map f).set i (f a) = (l.set i a).map f := by
  rw [List.map_set]

theorem swapRemove_map {A B : Type} (f : A → B) (l : List A) (i : Nat) :
    Dir.swapRemove (l.map f) i = (Dir.swapRemove l i).map f := by
  simp only [Dir.swapRemove, List.getLast?_map]
  cases l.getLast? with
  | none => rfl
  | some z => simp only [Option.map_some, set_map, List.map_dropLast]

theorem find_map {A B : Type} (f : A → B) (p : B → Bool) (l : List A) :
    (l.map f).find? p = (l.find? fun a => p (f a)).map f := by
  rw [List.find?_map]; rfl

variable [DecidableEq N]

theorem findIdx_inl (l : List (N × Bytes)) (n : N) :
    (l.map inl).findIdx? (fun x => decide (x.name = n)) =
      l.findIdx? (fun x => decide (x.1 = n)) :=
  findIdx_map inl _ l

theorem setAttr_sim {d0 : Dml} {s : St N} {t : Dir.Table (N × Bytes)} (h : ARel d0 s t)
    (ht : Sorted t) (hash : N → Nat) (fl : Sched) (n : N) (data : Bytes)
    (hc : data.length ≤ threshold ∨ fl 1 (hash n) = false) :
    ARel d0 (setAttr hash fl s n data).1 (Dir.htInsert Prod.fst hash t (n, data)).1 ∧
    (setAttr hash fl s n data).2 = .ok () := by
  have hins := tInsert_good fl (s := ⟨s, 0⟩) h.good (hash n) (.attr n data)
  have hat := tInsert_at fl ⟨s, 0⟩ (hash n) (.attr (.inline n data))
  obtain ⟨s1, e1, g1, v1⟩ := hins
  change tInsert fl ⟨s, 0⟩ (hash n) (.attr (.inline n data)) = _ at e1
  rw [e1] at hat
  simp only [h.view, get_mapV] at e1 v1
  have hget : (tGet fl s1 (hash n)).2 = some (.attr (.inline n data)) := by
    apply tGet_calm fl hat.1
    rw [hat.2]
    rcases hc with hc | hc
    · right; simpa [Val.needsFlush, Attr.needsFlush] using hc
    · left; exact hc
  have v1' : view s1.st = mapV dirPlain (OMap.insert t (hash n) (.single (n, data))) := by
    rw [v1, insert_mapV]; rfl
  obtain ⟨g2, v2, -, -⟩ := tGet_good fl g1 (hash n)
  have eget : tGet fl s1 (hash n) =
      ((tGet fl s1 (hash n)).1, some (.attr (.inline n data))) := Prod.ext rfl hget
  have hsec : ∀ l : List (N × Bytes), ∃ s3 r,
      tInsert fl (tGet fl s1 (hash n)).1 (hash n) (.attrs (l.map inl)) = (s3, .ok r) ∧
      ARel d0 s3.st (OMap.insert (OMap.insert t (hash n) (.single (n, data))) (hash n)
        (.bucket l)) := by
    intro l
    obtain ⟨s3, e3, g3, v3⟩ := tInsert_good fl g2 (hash n) (.attrs l)
    refine ⟨s3, _, e3, g3, ?_⟩
    rw [v3, v2, v1']
    exact (insert_mapV dirPlain _ _ (.bucket l)).symm
  have hself : OMap.get (OMap.insert t (hash n) (.single (n, data))) (hash n) =
      some (Dir.Val.single (n, data)) := by simp [get_insert]
  simp only [setAttr, e1, Dir.htInsert, hself]
  cases hg : OMap.get t (hash n) with
  | none => exact ⟨⟨g1, v1'⟩, rfl⟩
  | some v =>
    simp only [Option.map_some, ofPlain_dirPlain]
    cases v with
    | single old =>
      simp only [name_inl]
      by_cases hn : old.1 = n
      · simp only [hn, if_true]; exact ⟨⟨g1, v1'⟩, trivial⟩
      · simp only [hn, if_false]
        rw [eget]
        obtain ⟨s3, r, e3, a3⟩ := hsec [old, (n, data)]
        simp only [List.map_cons, List.map_nil, inl] at e3
        simp only [inl, e3]
        exact ⟨a3, trivial⟩
    | bucket old =>
      simp only
      rw [eget]
      simp only [findIdx_inl]
      cases hi : old.findIdx? (fun x => decide (x.1 = n)) with
      | none =>
        obtain ⟨s3, r, e3, a3⟩ := hsec (old ++ [(n, data)])
        simp only [List.map_append, List.map_cons, List.map_nil, inl] at e3
        simp only [inl, e3]
        exact ⟨a3, trivial⟩
      | some i =>
        obtain ⟨s3, r, e3, a3⟩ := hsec (old.set i (n, data))
        rw [← set_map] at e3
        simp only [inl] at e3
        simp only [inl, e3]
        exact ⟨a3, trivial⟩

/-- The attribute found is the one of the table. -/
theorem findAttr_sim {d : Dml} {t : Dir.Table (N × Bytes)} {hash : N → Nat}
    (ht : Dir.WF Prod.fst hash t) (n : N) {v : Option (Val N)}
    (hv : v.map (plain d) = (OMap.get t (hash n)).map dirPlain) :
    ∃ o, findAttr n v = .ok o ∧ o.map (plainA d) = Dir.lookup Prod.fst hash t n ∧
      (∀ a, o = some a → ∃ w, v = some w ∧ ∀ e ∈ lrefsA a, e ∈ lrefs w) := by
  have hname : ∀ a : Attr N, (plainA d a).1 = a.name := by intro a; cases a <;> rfl
  simp only [Dir.lookup, Dir.slot]
  cases hg : OMap.get t (hash n) with
  | none =>
    rw [hg] at hv
    cases v with
    | none => exact ⟨none, rfl, rfl, by simp⟩
    | some v => simp at hv
  | some w =>
    rw [hg] at hv
    cases v with
    | none => simp at hv
    | some v =>
      simp only [Option.map_some, Option.some.injEq] at hv
      have hgood := ht.good _ _ hg
      cases w with
      | single a =>
        cases v with
        | attr x =>
          simp only [plain, dirPlain, Plain.attr.injEq] at hv
          have hxa : plainA d x = a := Prod.ext hv.1 hv.2
          have hxn : x.name = a.1 := by rw [← hname, hxa]
          refine ⟨if x.name = n then some x else none, rfl, ?_, ?_⟩
          · simp only [Option.map_some, Option.getD_some, Dir.Val.items, List.find?_cons, hxn]
            by_cases h : a.1 = n <;> simp [h, hxa]
          · intro b hb
            split at hb
            · obtain rfl : x = b := by simpa using hb
              exact ⟨_, rfl, fun e he => he⟩
            · simp at hb
        | _ => simp [plain, dirPlain] at hv
      | bucket l =>
        cases v with
        | attrs xs =>
          simp only [plain, dirPlain, Plain.attrs.injEq] at hv
          subst hv
          have hlen : xs.length > 1 := by
            have := hgood.2.2
            simp only [List.length_map] at this
            omega
          refine ⟨xs.find? fun a => a.name = n, by simp [findAttr, asAttrs, hlen], ?_, ?_⟩
          · simp only [Option.map_some, Option.getD_some, Dir.Val.items, find_map, hname]
          · intro b hb
            refine ⟨_, rfl, fun e he => ?_⟩
            exact List.mem_flatMap.2 ⟨b, List.mem_of_find?_eq_some hb, he⟩
        | _ => simp [plain, dirPlain] at hv

theorem getAttr_sim {d0 : Dml} {s : St N} {t : Dir.Table (N × Bytes)} (h : ARel d0 s t)
    {hash : N → Nat} (ht : Dir.WF Prod.fst hash t) (fl : Sched) (n : N) :
    ARel d0 (getAttr hash fl s n).1 t ∧
    (getAttr hash fl s n).2 = .ok ((Dir.lookup Prod.fst hash t n).map (·.2)) := by
  obtain ⟨g1, v1, m1, p1⟩ := tGet_good fl (s := ⟨s, 0⟩) h.good (hash n)
  rw [h.view, get_mapV] at p1
  rw [h.view] at v1
  obtain ⟨o, f1, f2, f3⟩ := findAttr_sim ht n p1
  rw [← f2]
  simp only [getAttr, f1]
  cases o with
  | none => exact ⟨⟨g1, v1⟩, rfl⟩
  | some a =>
    cases a with
    | inline m b => exact ⟨⟨g1, v1⟩, rfl⟩
    | blob m l r =>
      obtain ⟨w, hw, hr⟩ := f3 _ rfl
      rw [hw] at m1
      have hmem := mem_of_get m1.symm
      obtain ⟨hlt, b, hb, -⟩ := lref_here g1 hmem (hr (l, r) (by simp [lrefsA]))
      obtain ⟨g2, v2, -, p2⟩ := tGetBlob_good fl g1 r
      have p2 := p2 hlt
      rw [hb] at p2
      rw [v1] at v2
      simp only
      rw [show tGetBlob fl (tGet fl ⟨s, 0⟩ (hash n)).1 r =
        ((tGetBlob fl (tGet fl ⟨s, 0⟩ (hash n)).1 r).1, some b) from Prod.ext rfl p2]
      refine ⟨⟨g2, v2⟩, ?_⟩
      simp only [Option.map_some, plainA, hb, Option.getD_some]

theorem len_plainA {d0 : Dml} {s : St N} (h : Good d0 s) {e : Nat × Val N} (he : e ∈ s.tree)
    {a : Attr N} (ha : ∀ x ∈ lrefsA a, x ∈ lrefs e.2) :
    a.len = u32 (plainA s.dml a).2.length := by
  cases a with
  | inline m b => rfl
  | blob m l r =>
    obtain ⟨-, b, hb, hl, -⟩ := lref_here h he (ha (l, r) (by simp [lrefsA]))
    simpa only [plainA, hb, Option.getD_some, Attr.len] using hl

theorem getAttrLen_eq (hash : N → Nat) (fl : Sched) (s : St N) (n : N) {o : Option (Attr N)}
    (h : findAttr n (tGet fl ⟨s, 0⟩ (hash n)).2 = .ok o) :
    getAttrLen hash fl s n = ((tGet fl ⟨s, 0⟩ (hash n)).1.st, .ok (o.map Attr.len)) := by
  simp only [getAttrLen]
  generalize tGet fl ⟨s, 0⟩ (hash n) = r at h
  obtain ⟨s1, v⟩ := r
  simp only at h ⊢
  cases v with
  | none => simp only [findAttr, Res.ok.injEq] at h; subst h; rfl
  | some v =>
    cases v with
    | attr a =>
      simp only [findAttr, asAttrs, Res.ok.injEq] at h
      subst h
      simp only
      split <;> rfl
    | attrs l =>
      simp only [findAttr, asAttrs] at h
      split at h
      · rename_i hl
        simp only [Res.ok.injEq] at h
        subst h
        simp only [if_pos hl]
      · simp at h
    | _ => simp [findAttr, asAttrs] at h

theorem getAttrLen_sim {d0 : Dml} {s : St N} {t : Dir.Table (N × Bytes)} (h : ARel d0 s t)
    {hash : N → Nat} (ht : Dir.WF Prod.fst hash t) (fl : Sched) (n : N) :
    ARel d0 (getAttrLen hash fl s n).1 t ∧
    (getAttrLen hash fl s n).2 =
      .ok ((Dir.lookup Prod.fst hash t n).map fun a => u32 a.2.length) := by
  obtain ⟨g1, v1, m1, p1⟩ := tGet_good fl (s := ⟨s, 0⟩) h.good (hash n)
  rw [h.view, get_mapV] at p1
  rw [h.view] at v1
  obtain ⟨o, f1, f2, f3⟩ := findAttr_sim ht n p1
  rw [← f2, getAttrLen_eq hash fl s n f1]
  refine ⟨⟨g1, v1⟩, ?_⟩
  cases o with
  | none => rfl
  | some a =>
    obtain ⟨w, hw, hr⟩ := f3 _ rfl
    rw [hw] at m1
    simp only [Option.map_some, len_plainA g1 (mem_of_get m1.symm) hr]

theorem unbucket_sim (n : N) (old : List (N × Bytes)) (hlen : 2 ≤ old.length) :
    unbucket n (old.map inl) =
      (match old.findIdx? (fun x => x.1 = n) with
       | none => (ofPlain (.attrs old), false)
       | some i =>
         match Dir.swapRemove old i with
         | [x] => (ofPlain (dirPlain (.single x)), true)
         | l => (ofPlain (dirPlain (.bucket l)), true)) := by
  simp only [unbucket, findIdx_inl]
  cases old.findIdx? (fun x => decide (x.1 = n)) with
  | none => rfl
  | some i =>
    simp only [swapRemove_map]
    cases Dir.swapRemove old i with
    | nil => rfl
    | cons x l =>
      cases l with
      | nil => rfl
      | cons y l => rfl

theorem delAttr_sim {d0 : Dml} {s : St N} {t : Dir.Table (N × Bytes)} (h : ARel d0 s t)
    {hash : N → Nat} (ht : Dir.WF Prod.fst hash t) (fl : Sched) (n : N) :
    ARel d0 (delAttr hash fl s n).1 (Dir.htRemove Prod.fst hash t n).1 ∧
    (delAttr hash fl s n).2 = .ok (Dir.lookup Prod.fst hash t n).isSome := by
  obtain ⟨s1, e1, g1, v1⟩ := tRemove_good fl (s := ⟨s, 0⟩) h.good (hash n)
  simp only [h.view, get_mapV] at e1 v1
  rw [← remove_mapV] at v1
  have hput : ∀ v : Dir.Val (N × Bytes), ∃ s2 r,
      tInsert fl s1 (hash n) (ofPlain (dirPlain v)) = (s2, .ok r) ∧
      ARel d0 s2.st (OMap.insert (OMap.remove t (hash n)) (hash n) v) := by
    intro v
    obtain ⟨s2, e2, g2, v2⟩ := tInsert_good fl g1 (hash n) (dirPlain v)
    refine ⟨s2, _, e2, g2, ?_⟩
    rw [v2, v1, insert_mapV]
  simp only [delAttr, e1, Dir.htRemove, Dir.lookup, Dir.slot]
  cases hg : OMap.get t (hash n) with
  | none => exact ⟨⟨g1, v1⟩, rfl⟩
  | some v =>
    have hgood := ht.good _ _ hg
    simp only [Option.map_some, ofPlain_dirPlain, Option.getD_some]
    cases v with
    | single old =>
      simp only [name_inl, Dir.Val.items, List.find?_cons]
      by_cases hn : old.1 = n
      · simp only [hn, if_true, decide_true, Option.isSome_some]
        exact ⟨⟨g1, v1⟩, trivial⟩
      · obtain ⟨s2, r, e2, a2⟩ := hput (.single old)
        change tInsert fl s1 (hash n) (.attr (inl old)) = _ at e2
        simp only [hn, if_false, e2, decide_false, List.find?_nil, Option.isSome_none]
        exact ⟨a2, trivial⟩
    | bucket old =>
      have hlen : 2 ≤ old.length := hgood.2.2
      simp only [unbucket_sim n old hlen, Dir.Val.items]
      cases hi : old.findIdx? (fun x => decide (x.1 = n)) with
      | none =>
        obtain ⟨s2, r, e2, a2⟩ := hput (.bucket old)
        change tInsert fl s1 (hash n) (ofPlain (.attrs old)) = _ at e2
        simp only [e2]
        refine ⟨a2, ?_⟩
        rw [List.findIdx?_eq_none_iff] at hi
        rw [show old.find? (fun x => decide (x.1 = n)) = none from
          List.find?_eq_none.2 fun x hx => by simp [hi x hx]]
        rfl
      | some i =>
        obtain ⟨hlt, hp⟩ := List.findIdx?_eq_some_iff_getElem.1 hi
        have hsome : (old.find? fun x => decide (x.1 = n)).isSome = true := by
          rw [List.find?_isSome]
          exact ⟨old[i], List.getElem_mem hlt, hp.1⟩
        simp only [List.getElem?_eq_getElem hlt, hsome]
        cases hs : Dir.swapRemove old i with
        | nil =>
          obtain ⟨s2, r, e2, a2⟩ := hput (.bucket [])
          simp only [e2]
          exact ⟨a2, trivial⟩
        | cons x l =>
          cases l with
          | nil =>
            obtain ⟨s2, r, e2, a2⟩ := hput (.single x)
            simp only [e2]
            exact ⟨a2, trivial⟩
          | cons y l =>
            obtain ⟨s2, r, e2, a2⟩ := hput (.bucket (x :: y :: l))
            simp only [e2]
            exact ⟨a2, trivial⟩

omit [DecidableEq N] in
theorem allNames_sim {d : Dml} : ∀ (m : OMap (Val N)) (t : Dir.Table (N × Bytes)),
    mapV (plain d) m = mapV dirPlain t →
    allNames m = some ((t.flatMap fun e => e.2.items).map (·.1)) := by
  have hname : ∀ a : Attr N, (plainA d a).1 = a.name := by intro a; cases a <;> rfl
  intro m
  induction m with
  | nil =>
    intro t h
    cases t with
    | nil => rfl
    | cons e t => simp [mapV] at h
  | cons e m ih =>
    intro t h
    cases t with
    | nil => simp [mapV] at h
    | cons f t =>
      obtain ⟨k, v⟩ := e
      obtain ⟨k', w⟩ := f
      simp only [mapV, List.map_cons, List.cons.injEq, Prod.mk.injEq] at h
      have h2 := ih t h.2
      have hv := h.1.2
      have : valNames v = some (w.items.map (·.1)) := by
        cases w with
        | single a =>
          cases v with
          | attr x =>
            simp only [plain, dirPlain, Plain.attr.injEq, hname] at hv
            simp [valNames, Dir.Val.items, hv.1]
          | _ => simp [plain, dirPlain] at hv
        | bucket l =>
          cases v with
          | attrs xs =>
            simp only [plain, dirPlain, Plain.attrs.injEq] at hv
            subst hv
            simp only [valNames, Dir.Val.items, List.map_map]
            congr 1
            apply List.map_congr_left
            intro a _; exact (hname a).symm
          | _ => simp [plain, dirPlain] at hv
      simp only [allNames, this, h2, List.flatMap_cons, List.map_append]

omit [DecidableEq N] in
theorem listAttrs_sim {d0 : Dml} {s : St N} {t : Dir.Table (N × Bytes)} (h : ARel d0 s t)
    (fl : Sched) :
    ARel d0 (listAttrs fl s).1 t ∧
    (listAttrs fl s).2 = .ok ((t.flatMap fun e => e.2.items).map (·.1)) := by
  obtain ⟨g1, v1, -, p1⟩ := tRange_good fl (s := ⟨s, 0⟩) h.good (fun _ => true)
  simp only [h.view, List.filter_true] at p1 v1
  simp only [listAttrs, allNames_sim _ _ p1]
  exact ⟨⟨g1, v1⟩, trivial⟩

end Verif.Blob
