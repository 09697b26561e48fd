import Verif.File.Conc

/-! Lemmas for the concurrent writes. -/

namespace Verif.File.Conc

open OMap

theorem recKey_eq (rs : Nat) (a : Arg) (i : Nat) :
    recKey rs a i = rs * (a.offset / rs + i) := by
  rw [recKey, base_eq, Nat.mul_add, Nat.mul_comm i rs]

/-- The new contents of record `i`, given the old ones. -/
def newRec (junk : Nat → Byte) (rs : Nat) (a : Arg) (i : Nat) (old : Option (List Byte)) :
    List Byte :=
  recBuf junk rs (a.offset % rs) i (recData rs a i) old

theorem modify_eq {junk : Nat → Byte} {rs : Nat} {a : Arg} {i : Nat} {old : Option (List Byte)}
    (h : (recData rs a i).length < rs) : modify junk rs a i old = newRec junk rs a i old := by
  simp only [modify, newRec, recBuf, off_into, h, if_true]
  cases old <;> rfl

theorem full_eq {junk : Nat → Byte} {rs : Nat} {a : Arg} {i : Nat} {old : Option (List Byte)}
    (h : ¬ (recData rs a i).length < rs) : recData rs a i = newRec junk rs a i old := by
  simp only [newRec, recBuf, h, if_false]

/-! ### Case analysis of a step -/

theorem stepRead_some {arg : Nat → Arg} {s s' : St} {t : Nat} (h : stepRead arg s t = some s') :
    s.ph t = .idle ∧ s'.file = s.file ∧ s'.ph = setPh s t (.running
      ⟨s.file.size, s.file.bytes, List.replicate (recCount s.file.rs (arg t)) .todo, 0⟩) := by
  unfold stepRead at h
  split at h
  · cases h; exact ⟨by assumption, rfl, rfl⟩
  · cases h

theorem stepFull_some {arg : Nat → Arg} {s s' : St} {t i : Nat}
    (h : stepFull arg s t i = some s') :
    ∃ k, s.ph t = .running k ∧ k.recs[i]? = some .todo ∧
      ¬ (recData s.file.rs (arg t) i).length < s.file.rs ∧
      s'.file = { s.file with
        ext := s.file.ext.insert (recKey s.file.rs (arg t) i) (recData s.file.rs (arg t) i) } ∧
      ∃ d, s'.ph = setPh s t (.running ⟨k.size, k.bytes, k.recs.set i .done, d⟩) := by
  unfold stepFull at h
  split at h
  · rename_i k hk
    split at h
    · rename_i hr
      dsimp only at h
      split at h
      · cases h
      · rename_i hl
        cases h
        exact ⟨k, hk, hr, hl, rfl, _, rfl⟩
    · cases h
  · cases h

theorem stepTake_some {arg : Nat → Arg} {s s' : St} {t i : Nat}
    (h : stepTake arg s t i = some s') :
    ∃ k, s.ph t = .running k ∧ k.recs[i]? = some .todo ∧
      (recData s.file.rs (arg t) i).length < s.file.rs ∧
      s'.file = { s.file with ext := s.file.ext.remove (recKey s.file.rs (arg t) i) } ∧
      s'.ph = setPh s t (.running ⟨k.size, k.bytes,
        k.recs.set i (.held (s.file.ext.get (recKey s.file.rs (arg t) i))), k.delta⟩) := by
  unfold stepTake at h
  split at h
  · rename_i k hk
    split at h
    · rename_i hr
      dsimp only at h
      split at h
      · rename_i hl
        cases h
        exact ⟨k, hk, hr, hl, rfl, rfl⟩
      · cases h
    · cases h
  · cases h

theorem stepPut_some {junk : Nat → Byte} {arg : Nat → Arg} {s s' : St} {t i : Nat}
    (h : stepPut junk arg s t i = some s') :
    ∃ k old, s.ph t = .running k ∧ k.recs[i]? = some (.held old) ∧
      s'.file = { s.file with
        ext := s.file.ext.insert (recKey s.file.rs (arg t) i)
          (modify junk s.file.rs (arg t) i old) } ∧
      ∃ d, s'.ph = setPh s t (.running ⟨k.size, k.bytes, k.recs.set i .done, d⟩) := by
  unfold stepPut at h
  split at h
  · rename_i k hk
    split at h
    · rename_i old hr
      cases h
      exact ⟨k, old, hk, hr, rfl, _, rfl⟩
    · cases h
  · cases h

theorem stepFin_some {arg : Nat → Arg} {s s' : St} {t : Nat} (h : stepFin arg s t = some s') :
    ∃ k, s.ph t = .running k ∧ k.recs.all RecSt.isDone = true ∧
      s'.file = { s.file with
        size := max k.size (writeEnd arg t)
        bytes := satAddSigned k.bytes k.delta } ∧ s'.ph = setPh s t .done := by
  unfold stepFin at h
  split at h
  · rename_i k hk
    split at h
    · rename_i hr
      cases h
      exact ⟨k, hk, hr, rfl, rfl⟩
    · cases h
  · cases h

theorem run_cons {junk : Nat → Byte} {arg : Nat → Arg} {f : File} {e : Ev} {es : List Ev} {s' : St}
    (h : run junk arg f (e :: es) = some s') :
    ∃ s, run junk arg f es = some s ∧ step junk arg s e = some s' := by
  simp only [run] at h
  split at h
  · rename_i s hs; exact ⟨s, hs, h⟩
  · cases h

/-! ### The size -/

theorem Overtaken.cons {es : List Ev} {a : Nat} (e : Ev) (h : Overtaken es a) :
    Overtaken (e :: es) a := by
  obtain ⟨b, e1, e2, e3, rfl, hr⟩ := h
  exact ⟨b, e1, e2, e :: e3, rfl, hr⟩

/-- The invariant behind the size: neither the inode nor the copy held by a
running write is shorter than a finished write that was not overtaken. -/
structure SizeInv (arg : Nat → Arg) (f : File) (es : List Ev) (s : St) : Prop where
  file : ∀ a, .fin a ∈ es → ¬ Overtaken es a → writeEnd arg a ≤ s.file.size
  init : f.size ≤ s.file.size
  task : ∀ t k, s.ph t = .running k → f.size ≤ k.size ∧
    ∃ e1 e2, es = e2 ++ .read t :: e1 ∧
      ∀ a, .fin a ∈ e1 → ¬ Overtaken es a → writeEnd arg a ≤ k.size
  upper : ∀ m, f.size ≤ m → (∀ a, .read a ∈ es → writeEnd arg a ≤ m) → s.file.size ≤ m ∧
    ∀ t k, s.ph t = .running k → k.size ≤ m

theorem SizeInv.other {arg : Nat → Arg} {f : File} {es : List Ev} {s s' : St} {e : Ev}
    (h : SizeInv arg f es s) (hf : s'.file.size = s.file.size)
    (he : ∀ a, e ≠ .fin a)
    (hp : ∀ t k', s'.ph t = .running k' → ∃ k, s.ph t = .running k ∧ k'.size = k.size) :
    SizeInv arg f (e :: es) s' := by
  refine ⟨fun a ha hn => ?_, by rw [hf]; exact h.init, fun t k' hk => ?_, fun m h1 h2 => ?_⟩
  · rw [hf]
    rcases List.mem_cons.1 ha with ha | ha
    · exact absurd ha.symm (he a)
    · exact h.file a ha (fun o => hn (o.cons e))
  · obtain ⟨k, hk1, hk2⟩ := hp t k' hk
    obtain ⟨h1, e1, e2, hes, h2⟩ := h.task t k hk1
    rw [hk2]
    exact ⟨h1, e1, e :: e2, by rw [hes]; rfl, fun a ha hn => h2 a ha (fun o => hn (o.cons e))⟩
  · obtain ⟨u1, u2⟩ := h.upper m h1 (fun a ha => h2 a (List.mem_cons_of_mem _ ha))
    refine ⟨by rw [hf]; exact u1, fun t k' hk => ?_⟩
    obtain ⟨k, hk1, hk2⟩ := hp t k' hk
    rw [hk2]; exact u2 t k hk1

theorem setPh_running {s : St} {t : Nat} {k k1 : Task} (hk : s.ph t = .running k)
    (h1 : k1.size = k.size) :
    ∀ u k', setPh s t (.running k1) u = .running k' →
      ∃ k, s.ph u = .running k ∧ k'.size = k.size := by
  intro u k' h
  unfold setPh at h
  split at h
  · rename_i hu; subst hu; cases h; exact ⟨k, hk, h1⟩
  · exact ⟨k', h, rfl⟩

theorem run_size {junk : Nat → Byte} {arg : Nat → Arg} {f : File} (es : List Ev) :
    ∀ s, run junk arg f es = some s → SizeInv arg f es s := by
  induction es with
  | nil =>
    intro s h
    cases h
    exact ⟨fun _ h => (nomatch h), Nat.le_refl _, fun _ _ h => (nomatch h),
      fun m h _ => ⟨h, fun _ _ h => (nomatch h)⟩⟩
  | cons e es ih =>
    intro s' h
    obtain ⟨s, hs, hst⟩ := run_cons h
    have hi := ih s hs
    cases e with
    | read t =>
      obtain ⟨h0, h1, h2⟩ := stepRead_some hst
      refine ⟨fun a ha hn => ?_, by rw [h1]; exact hi.init, fun u k hk => ?_, fun m m1 m2 => ?_⟩
      · rw [h1]
        rcases List.mem_cons.1 ha with ha | ha
        · cases ha
        · exact hi.file a ha (fun o => hn (o.cons _))
      · rw [h2] at hk
        unfold setPh at hk
        split at hk
        · rename_i hu; subst hu; cases hk
          exact ⟨hi.init, es, [], rfl, fun a ha hn => hi.file a ha (fun o => hn (o.cons _))⟩
        · obtain ⟨g1, e1, e2, hes, g2⟩ := hi.task u k hk
          exact ⟨g1, e1, _ :: e2, by rw [hes]; rfl,
            fun a ha hn => g2 a ha (fun o => hn (o.cons _))⟩
      · obtain ⟨u1, u2⟩ := hi.upper m m1 (fun a ha => m2 a (List.mem_cons_of_mem _ ha))
        refine ⟨by rw [h1]; exact u1, fun u k hk => ?_⟩
        rw [h2] at hk
        unfold setPh at hk
        split at hk
        · cases hk; exact u1
        · exact u2 u k hk
    | full t i =>
      obtain ⟨k, hk, _, _, hf, d, hp⟩ := stepFull_some hst
      refine hi.other (by rw [hf]) (fun a h => (nomatch h)) ?_
      rw [hp]
      exact setPh_running hk rfl
    | take t i =>
      obtain ⟨k, hk, _, _, hf, hp⟩ := stepTake_some hst
      refine hi.other (by rw [hf]) (fun a h => (nomatch h)) ?_
      rw [hp]
      exact setPh_running hk rfl
    | put t i =>
      obtain ⟨k, old, hk, _, hf, d, hp⟩ := stepPut_some hst
      refine hi.other (by rw [hf]) (fun a h => (nomatch h)) ?_
      rw [hp]
      exact setPh_running hk rfl
    | fin b =>
      obtain ⟨k, hk, _, hf, hp⟩ := stepFin_some hst
      obtain ⟨g1, e1, e2, hes, g2⟩ := hi.task b k hk
      have hsz : s'.file.size = max k.size (writeEnd arg b) := by rw [hf]
      refine ⟨fun a ha hn => ?_, by rw [hsz]; omega, fun u k' hk' => ?_, fun m m1 m2 => ?_⟩
      · rw [hsz]
        rcases List.mem_cons.1 ha with ha | ha
        · cases ha; omega
        · rw [hes] at ha
          rcases List.mem_append.1 ha with ha | ha
          · exfalso
            apply hn
            obtain ⟨x, y, hxy⟩ := List.append_of_mem ha
            refine ⟨b, y ++ .read b :: e1, x, [], ?_, ?_⟩
            · rw [hes, hxy]; simp
            · simp
          · rcases List.mem_cons.1 ha with ha | ha
            · cases ha
            · have := g2 a ha (fun o => hn (o.cons _)); omega
      · rw [hp] at hk'
        unfold setPh at hk'
        split at hk'
        · cases hk'
        · obtain ⟨q1, f1, f2, hfs, q2⟩ := hi.task u k' hk'
          exact ⟨q1, f1, _ :: f2, by rw [hfs]; rfl,
            fun a ha hn => q2 a ha (fun o => hn (o.cons _))⟩
      · obtain ⟨u1, u2⟩ := hi.upper m m1 (fun a ha => m2 a (List.mem_cons_of_mem _ ha))
        have hb := m2 b (by rw [hes]; simp)
        have := u2 b k hk
        refine ⟨by rw [hsz]; omega, fun u k' hk' => ?_⟩
        rw [hp] at hk'
        unfold setPh at hk'
        split at hk'
        · cases hk'
        · exact u2 u k' hk'

/-! ### The data -/

/-- What the record touched by a future looks like. -/
def RecInv (junk : Nat → Byte) (rs : Nat) (a : Arg) (i : Nat) (g0 g : Option (List Byte)) :
    RecSt → Prop
  | .todo => g = g0
  | .held old => old = g0 ∧ (recData rs a i).length < rs
  | .done => g = some (newRec junk rs a i g0)

structure DataInv (junk : Nat → Byte) (arg : Nat → Arg) (f : File) (es : List Ev) (s : St) :
    Prop where
  sorted : Sorted s.file.ext
  rs : s.file.rs = f.rs
  started : ∀ t, .read t ∈ es → s.ph t ≠ .idle
  frame : ∀ k, (∀ t, .read t ∈ es → ∀ i, i < recCount f.rs (arg t) → k ≠ recKey f.rs (arg t) i) →
    get s.file.ext k = get f.ext k
  run : ∀ t k, s.ph t = .running k → .read t ∈ es ∧ k.recs.length = recCount f.rs (arg t) ∧
    ∀ (i : Nat) (r : RecSt), k.recs[i]? = some r →
      RecInv junk f.rs (arg t) i (get f.ext (recKey f.rs (arg t) i))
        (get s.file.ext (recKey f.rs (arg t) i)) r
  done : ∀ t, s.ph t = .done → .read t ∈ es ∧ ∀ i, i < recCount f.rs (arg t) →
    get s.file.ext (recKey f.rs (arg t) i) =
      some (newRec junk f.rs (arg t) i (get f.ext (recKey f.rs (arg t) i)))

/-- The keys of different writes are different. -/
def KeysApart (arg : Nat → Arg) (rs : Nat) (es : List Ev) : Prop :=
  ∀ a b, .read a ∈ es → .read b ∈ es → a ≠ b → ∀ i j, i < recCount rs (arg a) →
    j < recCount rs (arg b) → recKey rs (arg a) i ≠ recKey rs (arg b) j

theorem recKey_inj {rs : Nat} (hrs : 0 < rs) {a : Arg} {i j : Nat}
    (h : recKey rs a i = recKey rs a j) : i = j := by
  rw [recKey_eq, recKey_eq] at h
  have := mul_left_cancel' hrs h
  omega

/-- A step that changes one record of one running write. -/
theorem DataInv.touch {junk : Nat → Byte} {arg : Nat → Arg} {f : File} {es : List Ev} {s s' : St}
    {e : Ev} (hrs : 0 < f.rs) (h : DataInv junk arg f es s) (hap : KeysApart arg f.rs es)
    (he : ∀ a, e ≠ .read a) {t i : Nat} {k k' : Task} {r : RecSt}
    (hk : s.ph t = .running k) (hi : i < k.recs.length)
    (hs : Sorted s'.file.ext) (hr : s'.file.rs = s.file.rs)
    (hg : ∀ x, x ≠ recKey f.rs (arg t) i → get s'.file.ext x = get s.file.ext x)
    (hp : s'.ph = setPh s t (.running k')) (hrec : k'.recs = k.recs.set i r)
    (hri : RecInv junk f.rs (arg t) i (get f.ext (recKey f.rs (arg t) i))
      (get s'.file.ext (recKey f.rs (arg t) i)) r) :
    DataInv junk arg f (e :: es) s' := by
  obtain ⟨htm, htl, htr⟩ := h.run t k hk
  have hmem : ∀ u, .read u ∈ e :: es → .read u ∈ es := by
    intro u hu
    rcases List.mem_cons.1 hu with hu | hu
    · exact absurd hu.symm (he u)
    · exact hu
  have hi' : i < recCount f.rs (arg t) := by omega
  refine ⟨hs, hr.trans h.rs, fun u hu => ?_, fun x hx => ?_, fun u ku hu => ?_, fun u hu => ?_⟩
  · rw [hp]; unfold setPh
    split
    · intro hh; cases hh
    · exact h.started u (hmem u hu)
  · rw [hg x (hx t (List.mem_cons_of_mem _ htm) i hi')]
    exact h.frame x (fun u hu => hx u (List.mem_cons_of_mem _ hu))
  · rw [hp] at hu
    unfold setPh at hu
    split at hu
    · rename_i hut
      subst hut
      cases hu
      refine ⟨List.mem_cons_of_mem _ htm, by rw [hrec, List.length_set]; exact htl, ?_⟩
      intro j q hj
      rw [hrec, List.getElem?_set] at hj
      split at hj
      · rename_i hij
        subst hij
        cases hj
        exact hri
      · rename_i hij
        rw [hg _ (fun hc => hij (recKey_inj hrs hc).symm)]
        exact htr j q hj
    · rename_i hut
      obtain ⟨m1, m2, m3⟩ := h.run u ku hu
      refine ⟨List.mem_cons_of_mem _ m1, m2, fun j q hj => ?_⟩
      have hjl : j < ku.recs.length := (List.getElem?_eq_some_iff.1 hj).1
      rw [hg _ (hap u t m1 htm hut j i (by omega) hi')]
      exact m3 j q hj
  · rw [hp] at hu
    unfold setPh at hu
    split at hu
    · cases hu
    · rename_i hut
      obtain ⟨m1, m2⟩ := h.done u hu
      refine ⟨List.mem_cons_of_mem _ m1, fun j hj => ?_⟩
      rw [hg _ (hap u t m1 htm hut j i hj hi')]
      exact m2 j hj

theorem run_data {junk : Nat → Byte} {arg : Nat → Arg} {f : File} (hrs : 0 < f.rs)
    (hsort : Sorted f.ext) (es : List Ev) :
    ∀ s, run junk arg f es = some s → KeysApart arg f.rs es → DataInv junk arg f es s := by
  induction es with
  | nil =>
    intro s h _
    cases h
    exact ⟨hsort, rfl, fun _ h => (nomatch h), fun _ _ => rfl, fun _ _ h => (nomatch h),
      fun _ h => (nomatch h)⟩
  | cons e es ih =>
    intro s' h hap
    obtain ⟨s, hs, hst⟩ := run_cons h
    have hap' : KeysApart arg f.rs es := fun a b ha hb =>
      hap a b (List.mem_cons_of_mem _ ha) (List.mem_cons_of_mem _ hb)
    have hi := ih s hs hap'
    cases e with
    | read t =>
      obtain ⟨h0, h1, h2⟩ := stepRead_some hst
      refine ⟨by rw [h1]; exact hi.sorted, by rw [h1]; exact hi.rs, fun u hu => ?_, fun x hx => ?_,
        fun u ku hu => ?_, fun u hu => ?_⟩
      · rw [h2]; unfold setPh
        split
        · intro hh; cases hh
        · rename_i hut
          rcases List.mem_cons.1 hu with hu | hu
          · cases hu; exact absurd rfl hut
          · exact hi.started u hu
      · rw [h1]
        exact hi.frame x (fun u hu => hx u (List.mem_cons_of_mem _ hu))
      · rw [h2] at hu
        unfold setPh at hu
        split at hu
        · rename_i hut
          subst hut
          cases hu
          refine ⟨List.mem_cons_self, by rw [List.length_replicate, hi.rs], fun j q hj => ?_⟩
          rw [List.getElem?_replicate] at hj
          split at hj
          · rename_i hjl
            cases hj
            show get s'.file.ext _ = get f.ext _
            rw [h1]
            refine hi.frame _ (fun v hv i hiv => ?_)
            refine hap u v List.mem_cons_self (List.mem_cons_of_mem _ hv) ?_ j i
              (by rw [← hi.rs]; exact hjl) hiv
            intro huv
            subst huv
            exact hi.started u hv h0
          · cases hj
        · obtain ⟨m1, m2, m3⟩ := hi.run u ku hu
          refine ⟨List.mem_cons_of_mem _ m1, m2, ?_⟩
          rw [h1]; exact m3
      · rw [h2] at hu
        unfold setPh at hu
        split at hu
        · cases hu
        · obtain ⟨m1, m2⟩ := hi.done u hu
          refine ⟨List.mem_cons_of_mem _ m1, ?_⟩
          rw [h1]; exact m2
    | full t i =>
      obtain ⟨k, hk, hr, hl, hf, d, hp⟩ := stepFull_some hst
      obtain ⟨_, _, m3⟩ := hi.run t k hk
      have hrec := m3 i _ hr
      rw [hi.rs] at hf hl
      refine hi.touch hrs hap' (fun a h => (nomatch h)) hk (List.getElem?_eq_some_iff.1 hr).1
        ?_ (by rw [hf, hi.rs]) ?_ hp (r := .done) rfl ?_
      · rw [hf]; exact hi.sorted.insert _ _
      · intro x hx; rw [hf]; show get (OMap.insert _ _ _) x = _; rw [get_insert, if_neg hx]
      · show get s'.file.ext _ = some _
        rw [hf]; show get (OMap.insert _ _ _) _ = _; rw [get_insert, if_pos rfl]
        exact congrArg some (full_eq hl)
    | take t i =>
      obtain ⟨k, hk, hr, hl, hf, hp⟩ := stepTake_some hst
      obtain ⟨_, _, m3⟩ := hi.run t k hk
      have hrec : get s.file.ext _ = get f.ext _ := m3 i _ hr
      rw [hi.rs] at hf hl hp
      refine hi.touch hrs hap' (fun a h => (nomatch h)) hk (List.getElem?_eq_some_iff.1 hr).1
        ?_ (by rw [hf, hi.rs]) ?_ hp
        (r := .held (s.file.ext.get (recKey f.rs (arg t) i))) rfl ?_
      · rw [hf]; exact hi.sorted.remove _
      · intro x hx; rw [hf]; show get (OMap.remove _ _) x = _; rw [get_remove, if_neg hx]
      · exact ⟨hrec, hl⟩
    | put t i =>
      obtain ⟨k, old, hk, hr, hf, d, hp⟩ := stepPut_some hst
      obtain ⟨_, _, m3⟩ := hi.run t k hk
      obtain ⟨ho, hl⟩ : old = _ ∧ _ := m3 i _ hr
      rw [hi.rs] at hf
      refine hi.touch hrs hap' (fun a h => (nomatch h)) hk (List.getElem?_eq_some_iff.1 hr).1
        ?_ (by rw [hf, hi.rs]) ?_ hp (r := .done) rfl ?_
      · rw [hf]; exact hi.sorted.insert _ _
      · intro x hx; rw [hf]; show get (OMap.insert _ _ _) x = _; rw [get_insert, if_neg hx]
      · show get s'.file.ext _ = some _
        rw [hf]; show get (OMap.insert _ _ _) _ = _; rw [get_insert, if_pos rfl, ho]
        exact congrArg some (modify_eq hl)
    | fin t =>
      obtain ⟨k, hk, ha, hf, hp⟩ := stepFin_some hst
      obtain ⟨m1, m2, m3⟩ := hi.run t k hk
      have hx : s'.file.ext = s.file.ext := by rw [hf]
      refine ⟨by rw [hx]; exact hi.sorted, by rw [hf]; exact hi.rs, fun u hu => ?_, fun x hxx => ?_,
        fun u ku hu => ?_, fun u hu => ?_⟩
      · rw [hp]; unfold setPh
        split
        · intro hh; cases hh
        · rcases List.mem_cons.1 hu with hu | hu
          · cases hu
          · exact hi.started u hu
      · rw [hx]
        exact hi.frame x (fun u hu => hxx u (List.mem_cons_of_mem _ hu))
      · rw [hp] at hu
        unfold setPh at hu
        split at hu
        · cases hu
        · obtain ⟨n1, n2, n3⟩ := hi.run u ku hu
          refine ⟨List.mem_cons_of_mem _ n1, n2, ?_⟩
          rw [hx]; exact n3
      · rw [hp] at hu
        unfold setPh at hu
        split at hu
        · rename_i hut
          subst hut
          refine ⟨List.mem_cons_of_mem _ m1, fun i hil => ?_⟩
          have hlt : i < k.recs.length := by omega
          have hd : k.recs[i]? = some .done := by
            rw [List.getElem?_eq_getElem hlt]
            have := List.all_eq_true.1 ha _ (List.getElem_mem hlt)
            revert this
            cases k.recs[i] <;> simp [RecSt.isDone]
          rw [hx]
          exact m3 i _ hd
        · obtain ⟨n1, n2⟩ := hi.done u hu
          refine ⟨List.mem_cons_of_mem _ n1, ?_⟩
          rw [hx]; exact n2

/-! ### The serial execution -/

theorem serially_spec {junk : Nat → Byte} {arg : Nat → Arg} (ts : List Nat) :
    ∀ (f : File), 0 < f.rs → Sorted f.ext → ts.Nodup →
    (∀ a ∈ ts, ∀ b ∈ ts, a ≠ b → ∀ i j, i < recCount f.rs (arg a) → j < recCount f.rs (arg b) →
      recKey f.rs (arg a) i ≠ recKey f.rs (arg b) j) →
    let g := serially junk arg f ts
    g.rs = f.rs ∧ Sorted g.ext ∧
    (∀ t ∈ ts, ∀ i, i < recCount f.rs (arg t) → get g.ext (recKey f.rs (arg t) i) =
      some (newRec junk f.rs (arg t) i (get f.ext (recKey f.rs (arg t) i)))) ∧
    (∀ k, (∀ t ∈ ts, ∀ i, i < recCount f.rs (arg t) → k ≠ recKey f.rs (arg t) i) →
      get g.ext k = get f.ext k) ∧
    f.size ≤ g.size ∧ (∀ t ∈ ts, writeEnd arg t ≤ g.size) ∧
    ∀ m, f.size ≤ m → (∀ t ∈ ts, writeEnd arg t ≤ m) → g.size ≤ m := by
  induction ts with
  | nil =>
    intro f _ hs _ _
    exact ⟨rfl, hs, fun _ h => (nomatch h), fun _ _ => rfl, Nat.le_refl _, fun _ h => (nomatch h),
      fun m h _ => h⟩
  | cons t ts ih =>
    intro f hrs hs hnd hap
    rw [List.nodup_cons] at hnd
    obtain ⟨w1, _, w3, w4⟩ := writeRecords_spec (junk := junk) (offset := (arg t).offset)
      (data := (arg t).data) hrs (writeOrder f (arg t).offset (arg t).data) f.ext 0 hs
      List.nodup_range
    obtain ⟨g1, g2, g3, g4, g5, g6, g7⟩ := ih
      (write junk (writeOrder f (arg t).offset (arg t).data) f (arg t).offset (arg t).data)
      hrs w1 hnd.2
      (fun a ha b hb => hap a (List.mem_cons_of_mem _ ha) b (List.mem_cons_of_mem _ hb))
    have hfs : serially junk arg f (t :: ts) = serially junk arg
      (write junk (writeOrder f (arg t).offset (arg t).data) f (arg t).offset (arg t).data) ts := rfl
    rw [hfs]
    have hsz : (write junk (writeOrder f (arg t).offset (arg t).data) f (arg t).offset
      (arg t).data).size = max f.size (writeEnd arg t) := rfl
    rw [hsz] at g5 g7
    have hfr : ∀ k, (∀ i, i < recCount f.rs (arg t) → k ≠ recKey f.rs (arg t) i) →
        get (write junk (writeOrder f (arg t).offset (arg t).data) f (arg t).offset
          (arg t).data).ext k = get f.ext k := by
      intro k hk
      refine w4 k (fun i hi => ?_)
      have := hk i (List.mem_range.1 hi)
      rw [recKey_eq] at this
      exact this
    refine ⟨g1, g2, fun u hu i hi => ?_, fun k hk => ?_, by omega, fun u hu => ?_, fun m m1 m2 => ?_⟩
    · by_cases hut : u ∈ ts
      · refine (g3 u hut i hi).trans ?_
        show some (newRec junk f.rs _ _ _) = _
        rw [hfr]
        · rfl
        · intro j hj
          refine hap u hu t List.mem_cons_self ?_ i j hi hj
          intro h; subst h; exact hnd.1 hut
      · rcases List.mem_cons.1 hu with hu | hu
        · subst hu
          refine (g4 _ (fun v hv j hj => ?_)).trans ?_
          · refine hap u List.mem_cons_self v (List.mem_cons_of_mem _ hv) ?_ i j hi hj
            intro h; subst h; exact hut hv
          · have := w3 i (List.mem_range.2 hi)
            rw [← recKey_eq] at this
            exact this
        · exact absurd hu hut
    · refine (g4 k (fun v hv => hk v (List.mem_cons_of_mem _ hv))).trans ?_
      exact hfr k (fun i hi => hk t List.mem_cons_self i hi)
    · rcases List.mem_cons.1 hu with hu | hu
      · subst hu; omega
      · exact g6 u hu
    · have := m2 t List.mem_cons_self
      exact g7 m (by omega) (fun u hu => m2 u (List.mem_cons_of_mem _ hu))

/-! ### Touched records -/

theorem touches_of_lt {rs : Nat} (hrs : 0 < rs) {a : Arg} {i : Nat} (hi : i < recCount rs a) :
    Touches rs a (a.offset / rs + i) := by
  have h0 : a.offset % rs < rs := Nat.mod_lt _ hrs
  have hb := nrecs_bounds h0 hi
  have hd := Nat.div_add_mod a.offset rs
  rw [Touches]
  have e1 : (a.offset / rs + i) * rs = rs * (a.offset / rs) + i * rs := by
    rw [Nat.add_mul, Nat.mul_comm]
  have e2 : (a.offset / rs + i + 1) * rs = rs * (a.offset / rs) + i * rs + rs := by
    rw [Nat.add_mul, e1, Nat.one_mul]
  rw [e1, e2]
  generalize rs * (a.offset / rs) = q at *
  generalize i * rs = p at *
  omega

theorem keysApart_of {rs : Nat} (hrs : 0 < rs) {a b : Arg}
    (h : ∀ x, ¬ (Touches rs a x ∧ Touches rs b x)) {i j : Nat}
    (hi : i < recCount rs a) (hj : j < recCount rs b) : recKey rs a i ≠ recKey rs b j := by
  intro e
  rw [recKey_eq, recKey_eq] at e
  have e := mul_left_cancel' hrs e
  refine h _ ⟨touches_of_lt hrs hi, ?_⟩
  rw [e]
  exact touches_of_lt hrs hj

end Verif.File.Conc
