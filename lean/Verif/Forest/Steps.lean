import Verif.Forest.Lemmas

/-!
# Each operation keeps the invariant and answers as expected
-/

namespace Verif.Forest

open Verif (OMap)
open Verif.Property (Str Prp PName Source)

variable {D : Type} {e : Env D} {N : Str → Prop} {db : Db D} {k : Client D}

theorem set_same {α β : Type} [DecidableEq α] (f : α → β) (a : α) (b : β) : set f a b a = b := by
  simp [set]

theorem set_ne {α β : Type} [DecidableEq α] (f : α → β) {a x : α} (b : β) (h : x ≠ a) :
    set f a b x = f x := by
  simp [set, h]

/-! ### Creating -/

/-- The identifier of the next tree. -/
theorem Inv.nextId (v : Inv e N db k) {p i c} (h : k.fs p = some (i, c))
    (hb : ∀ q j d, k.fs q = some (j, d) → j + 1 < 2 ^ 64) :
    ∃ kk, db.forest.lastKey = some kk ∧ kk / 2 ^ 64 + 1 < 2 ^ 64 ∧
      (∀ q j d, k.fs q = some (j, d) → j < kk / 2 ^ 64 + 1) ∧
      db.forest.get (key (kk / 2 ^ 64 + 1) 0) = none := by
  cases hl : db.forest.lastKey with
  | none =>
    obtain ⟨tod, h1, _⟩ := v.trees p i c h
    rw [lastKey_none hl] at h1
    cases h1
  | some kk =>
    obtain ⟨⟨x, hx⟩, hmax⟩ := lastKey_some v.sorted hl
    refine ⟨kk, rfl, ?_, ?_, ?_⟩
    · rcases v.keys _ _ hx with ⟨q, j, d, h1, h2⟩ | ⟨q, n, j, d, _, _, h1, _, h2⟩
      · have := hb q j d h1
        unfold key at h2; omega
      · have := hb q j d h1
        have := hash_lt e n
        unfold key at h2; omega
    · intro q j d hq
      obtain ⟨tod, h1, _⟩ := v.trees q j d hq
      have := hmax _ _ h1
      unfold key at this; omega
    · cases hg : db.forest.get (key (kk / 2 ^ 64 + 1) 0) with
      | none => rfl
      | some y =>
        have := hmax _ _ hg
        unfold key at this; omega

theorem parentId_set {k : Client D} {q : Path} {x} {p : Path} (h : p = [] ∨ p.dropLast ≠ q) :
    parentId { k with fs := set k.fs q x } p = parentId k p := by
  unfold parentId
  split
  · rfl
  · rename_i hp
    rcases h with h | h
    · exact absurd h hp
    · simp [set_ne _ _ h]

/-- A child of a free name is added. -/
theorem Inv.addChild (v : Inv e N db k) (hN : Names e N) {q : Path} {i c} (hq : k.fs q = some (i, c))
    {n : Str} (hn : N n) (hfree : k.fs (q ++ [n]) = none) {id : Nat}
    (hid : ∀ p j d, k.fs p = some (j, d) → j < id) (x y : Fs D) :
    Inv e N { db with
      forest := (db.forest.insert (key id 0) (.tree (some i) x)).insert (key i (e.hash n)) (.ent id n)
      opened := (db.opened.insert id x).insert id y }
      { k with fs := set k.fs (q ++ [n]) (some (id, y)) } := by
  have hne : ∀ p z, k.fs p = some z → p ≠ q ++ [n] := by
    rintro p z h rfl
    rw [hfree] at h; cases h
  have hdl : ∀ p z, k.fs p = some z → p = [] ∨ p.dropLast ≠ q ++ [n] := by
    intro p z h
    by_cases hp : p = []
    · exact .inl hp
    · refine .inr fun hx => ?_
      have := List.dropLast_concat_getLast hp
      rw [hx] at this
      rw [← this] at h
      obtain ⟨y, hy⟩ := v.prefix h
      rw [hfree] at hy; cases hy
  have hh := hN.hash n hn
  have hlt := hash_lt e n
  refine { sorted := ?_, keys := ?_, trees := ?_, ents := ?_, root := ?_, inj := ?_,
           openSorted := ?_, opened := ?_, mounted := ?_, mountedFs := ?_, mountedPath := ?_ }
  · exact (v.sorted.insert _ _).insert _ _
  · intro w u hw
    simp only [OMap.get_insert] at hw
    split at hw
    · rename_i hwk
      subst hwk
      exact .inr ⟨q, n, i, c, id, y, by simp [set_ne _ _ (hne _ _ hq), hq], by simp [set_same], rfl⟩
    · split at hw
      · rename_i hwk
        subst hwk
        exact .inl ⟨q ++ [n], id, y, by simp [set_same], rfl⟩
      · rcases v.keys _ _ hw with ⟨p, j, d, h1, h2⟩ | ⟨p, m, j, d, j', d', h1, h2, h3⟩
        · exact .inl ⟨p, j, d, by simp [set_ne _ _ (hne _ _ h1), h1], h2⟩
        · exact .inr ⟨p, m, j, d, j', d', by simp [set_ne _ _ (hne _ _ h1), h1],
            by simp [set_ne _ _ (hne _ _ h2), h2], h3⟩
  · intro p j d hp
    by_cases hpq : p = q ++ [n]
    · subst hpq
      simp only [set_same, Option.some.injEq, Prod.mk.injEq] at hp
      obtain ⟨rfl, rfl⟩ := hp
      refine ⟨x, ?_, by simp [OMap.get_insert]⟩
      have hk : key id 0 ≠ key i (e.hash n) := by
        intro h
        have := (key_inj (by decide) hlt h).2
        omega
      have hpar : parentId { k with fs := set k.fs (q ++ [n]) (some (id, y)) } (q ++ [n]) = some i := by
        unfold parentId
        rw [if_neg (by simp)]
        simp [set, hq]
      rw [hpar]
      simp [OMap.get_insert, hk]
    · simp only [set_ne _ _ hpq] at hp
      obtain ⟨tod, h1, h2⟩ := v.trees p j d hp
      have hj := hid p j d hp
      refine ⟨tod, ?_, ?_⟩
      · have hk1 : key j 0 ≠ key i (e.hash n) := by
          intro h
          have := (key_inj (by decide) hlt h).2
          omega
        have hk2 : key j 0 ≠ key id 0 := by
          intro h
          have := (key_inj (by decide) (by decide) h).1
          omega
        rw [parentId_set (hdl p _ hp)]
        simp [OMap.get_insert, hk1, hk2, h1]
      · have : j ≠ id := by omega
        simp [OMap.get_insert, this, h2]
  · intro p m j d hp
    by_cases hpq : p ++ [m] = q ++ [n]
    · rw [hpq] at hp
      have hpm : p = q ∧ m = n := by simpa using hpq
      obtain ⟨rfl, rfl⟩ := hpm
      simp only [set_same, Option.some.injEq, Prod.mk.injEq] at hp
      obtain ⟨rfl, rfl⟩ := hp
      exact ⟨hn, i, c, by simp [set_ne _ _ (hne _ _ hq), hq], by simp [OMap.get_insert]⟩
    · simp only [set_ne _ _ hpq] at hp
      obtain ⟨h1, i', c', h2, h3⟩ := v.ents p m j d hp
      refine ⟨h1, i', c', by simp [set_ne _ _ (hne _ _ h2), h2], ?_⟩
      have hm := hash_lt e m
      have hk1 : key i' (e.hash m) ≠ key i (e.hash n) := by
        intro h
        obtain ⟨h4, h5⟩ := key_inj hm hlt h
        subst h4
        have := v.inj _ _ _ _ _ h2 hq
        have := hN.inj _ _ h1 hn h5
        exact hpq (by simp_all)
      have hk2 : key i' (e.hash m) ≠ key id 0 := by
        intro h
        have := (key_inj hm (by decide) h).2
        exact hN.hash m h1 this
      simp [OMap.get_insert, hk1, hk2, h3]
  · intro j d hr
    have hr : set k.fs (q ++ [n]) (some (id, y)) [] = some (j, d) := hr
    rw [set_ne _ _ (by simp)] at hr
    exact v.root j d hr
  · intro p p' j d d' h1 h2
    by_cases ha : p = q ++ [n] <;> by_cases hb : p' = q ++ [n]
    · rw [ha, hb]
    · subst ha
      simp only [set_same, set_ne _ _ hb] at h1 h2
      have := hid _ _ _ h2
      simp only [Option.some.injEq, Prod.mk.injEq] at h1
      omega
    · subst hb
      simp only [set_same, set_ne _ _ ha] at h1 h2
      have := hid _ _ _ h1
      simp only [Option.some.injEq, Prod.mk.injEq] at h2
      omega
    · simp only [set_ne _ _ ha, set_ne _ _ hb] at h1 h2
      exact v.inj _ _ _ _ _ h1 h2
  · exact (v.openSorted.insert _ _).insert _ _
  · intro j d hj
    simp only [OMap.get_insert] at hj
    split at hj
    · rename_i hji
      subst hji
      cases hj
      exact ⟨q ++ [n], by simp [set_same]⟩
    · obtain ⟨p, hp⟩ := v.opened j d hj
      exact ⟨p, by simp [set_ne _ _ (hne _ _ hp), hp]⟩
  · intro p j d hp
    by_cases hpq : p = q ++ [n]
    · subst hpq
      simp only [set_same, Option.some.injEq, Prod.mk.injEq] at hp
      obtain ⟨rfl, rfl⟩ := hp
      rw [v.mountedPath _ hfree]
      cases hm : db.mounted.get id with
      | none => rfl
      | some b =>
        obtain ⟨p', d', h'⟩ := v.mountedFs _ _ hm
        have := hid _ _ _ h'
        omega
    · simp only [set_ne _ _ hpq] at hp
      exact v.mounted p j d hp
  · intro j b hj
    obtain ⟨p, d, hp⟩ := v.mountedFs j b hj
    exact ⟨p, d, by simp [set_ne _ _ (hne _ _ hp), hp]⟩
  · intro p hp
    by_cases hpq : p = q ++ [n]
    · subst hpq; exact v.mountedPath _ hfree
    · simp only [set_ne _ _ hpq] at hp
      exact v.mountedPath p hp

theorem Inv.opened_none (v : Inv e N db k) {id : Nat}
    (hid : ∀ p j d, k.fs p = some (j, d) → j < id) : db.opened.get id = none := by
  cases h : db.opened.get id with
  | none => rfl
  | some t =>
    obtain ⟨p, hp⟩ := v.opened _ _ h
    have := hid _ _ _ hp
    omega

theorem Inv.dbCreate_child (v : Inv e N db k) (hN : Names e N) {q : Path} {i c}
    (hq : k.fs q = some (i, c)) {n : Str} (hn : N n)
    (hb : ∀ q j d, k.fs q = some (j, d) → j + 1 < 2 ^ 64) :
    (∀ x, k.fs (q ++ [n]) = some x → dbCreate e db (some i) n = (db, .err .eexist)) ∧
    (k.fs (q ++ [n]) = none → ∃ db' id, dbCreate e db (some i) n = (db', .ok id) ∧
      (∀ p d, k.fs p ≠ some (id, d)) ∧
      Inv e N db' { k with fs := set k.fs (q ++ [n]) (some (id, ⟨[], e.rootDir⟩)) }) := by
  obtain ⟨kk, h1, h2, h3, h4⟩ := v.nextId hq hb
  have hh := hN.hash n hn
  have hlt := hash_lt e n
  generalize hid : kk / 2 ^ 64 + 1 = id at *
  have hk : key id 0 ≠ key i (e.hash n) := by
    intro h
    have := (key_inj (by decide) hlt h).2
    omega
  have hg : (db.forest.insert (key id 0) (.tree (some i) ⟨[], e.empty⟩)).get (key i (e.hash n)) =
      (k.fs (q ++ [n])).map fun x => .ent x.1 n := by
    rw [OMap.get_insert, if_neg (Ne.symm hk), v.getEnt hN hq hn]
  constructor
  · intro x hx
    rw [hx] at hg
    have : (((db.forest.insert (key id 0) (.tree (some i) ⟨[], e.empty⟩)).insert (key i (e.hash n))
        (.ent id n)).remove (key id 0)).insert (key i (e.hash n)) (.ent x.1 n) = db.forest := by
      refine OMap.ext ((((v.sorted.insert _ _).insert _ _).remove _).insert _ _) v.sorted ?_
      intro y
      simp only [OMap.get_insert, OMap.get_remove]
      split
      · rename_i hy
        rw [hy, v.getEnt hN hq hn, hx]; rfl
      · split
        · rename_i hy; rw [hy, h4]
        · rfl
    unfold dbCreate insertTree
    rw [h1]
    dsimp only
    rw [hid, if_neg (by omega), h4]
    dsimp only [Option.isSome]
    rw [if_neg (by decide), treeEnt_ok hN hn]
    dsimp only
    rw [hg]
    dsimp only [Option.map]
    rw [this]
  · intro hx
    rw [hx] at hg
    refine ⟨_, id, ?_, fun p d hp => by have := h3 p id d hp; omega,
      v.addChild hN hq hn hx h3 ⟨[], e.empty⟩ ⟨[], e.rootDir⟩⟩
    unfold dbCreate insertTree
    rw [h1]
    dsimp only
    rw [hid, if_neg (by omega), h4]
    dsimp only [Option.isSome]
    rw [if_neg (by decide), treeEnt_ok hN hn]
    dsimp only
    rw [hg]
    dsimp only [Option.map]
    have hgt : getTree ((db.forest.insert (key id 0) (.tree (some i) ⟨[], e.empty⟩)).insert
        (key i (e.hash n)) (.ent id n)) id = .ok ⟨[], e.empty⟩ := by
      simp [getTree, OMap.get_insert, hk]
    simp only [fswrite, Forest.openFs, v.opened_none h3, hgt]

/-- The root file system is created. -/
theorem Inv.dbCreate_root (v : Inv e N db k) (hr : k.fs [] = none) :
    ∃ db', dbCreate e db none [] = (db', .ok 0) ∧
      Inv e N db' { k with fs := set k.fs [] (some (0, ⟨[], e.rootDir⟩)) } := by
  have hf := v.noRoot_forest hr
  have hk := v.noRoot hr
  have ho : db.opened.get 0 = none := v.opened_none (fun p j d h => by rw [hk] at h; cases h)
  have hgt : getTree ((db.forest).insert (key 0 0) (.tree none ⟨[], e.empty⟩)) 0 =
      .ok ⟨[], e.empty⟩ := by simp [getTree, OMap.get_insert]
  refine ⟨{ db with
    forest := db.forest.insert (key 0 0) (.tree none ⟨[], e.empty⟩)
    opened := (db.opened.insert 0 ⟨[], e.empty⟩).insert 0 ⟨[], e.rootDir⟩ }, ?_, ?_⟩
  · unfold dbCreate insertTree
    have : db.forest.lastKey = none := by rw [hf]; rfl
    rw [this]
    dsimp only
    have h0 : db.forest.get (key 0 0) = none := by rw [hf]; rfl
    rw [if_neg (by decide), h0]
    dsimp only [Option.isSome]
    rw [if_neg (by decide)]
    simp only [fswrite, Forest.openFs, ho, hgt]
  · have hset : ∀ p z, set k.fs [] (some (0, (⟨[], e.rootDir⟩ : Fs D))) p = some z →
        p = [] ∧ z = (0, ⟨[], e.rootDir⟩) := by
      intro p z h
      by_cases hp : p = []
      · subst hp
        rw [set_same] at h
        exact ⟨rfl, by simpa using h.symm⟩
      · rw [set_ne _ _ hp, hk] at h; cases h
    refine { sorted := v.sorted.insert _ _, keys := ?_, trees := ?_, ents := ?_, root := ?_, inj := ?_,
             openSorted := (v.openSorted.insert _ _).insert _ _, opened := ?_, mounted := ?_,
             mountedFs := ?_, mountedPath := ?_ }
    · intro x u hx
      simp only [hf, OMap.get_insert, OMap.get_nil] at hx
      split at hx
      · rename_i hxk
        exact .inl ⟨[], 0, ⟨[], e.rootDir⟩, by simp [set_same], hxk⟩
      · cases hx
    · intro p j d hp
      obtain ⟨rfl, h⟩ := hset p _ hp
      cases h
      exact ⟨⟨[], e.empty⟩, by simp [OMap.get_insert, parentId], by simp [OMap.get_insert]⟩
    · intro p n j d hp
      have := (hset _ _ hp).1
      simp at this
    · intro j d hp
      have := (hset [] (j, d) hp).2
      cases this; rfl
    · intro p p' j d d' h1 h2
      rw [(hset _ _ h1).1, (hset _ _ h2).1]
    · intro j d hj
      simp only [OMap.get_insert] at hj
      split at hj
      · rename_i hji
        subst hji
        cases hj
        exact ⟨[], by simp [set_same]⟩
      · obtain ⟨p, hp⟩ := v.opened j d hj
        rw [hk] at hp; cases hp
    · intro p j d hp
      obtain ⟨rfl, h⟩ := hset p _ hp
      cases h
      rw [v.mountedPath [] hr]
      cases hm : db.mounted.get 0 with
      | none => rfl
      | some b =>
        obtain ⟨p, c, h⟩ := v.mountedFs _ _ hm
        rw [hk] at h; cases h
    · intro j b hj
      obtain ⟨p, c, h⟩ := v.mountedFs _ _ hj
      rw [hk] at h; cases h
    · intro p _
      exact v.mountedPath p (hk p)

theorem Inv.create (v : Inv e N db k) (hN : Names e N) (p : Path) (hv : Valid N k (.create p)) :
    Inv e N (step e db (.create p)).1 (k.next e (.create p) (step e db (.create p)).2) ∧
    Expected e k (.create p) (step e db (.create p)).2 := by
  obtain ⟨hp, hroot, htop, hb⟩ := hv
  simp only [step, Expected]
  by_cases hnil : p = []
  · subst hnil
    obtain ⟨db', h1, h2⟩ := v.dbCreate_root (hroot rfl)
    have hc : createFs e db (full e []) = (db', .ok 0) := by
      simp [createFs, strip_full, join, rsplitOnce, h1]
    rw [hc]
    refine ⟨h2, .ok 0, rfl, ?_⟩
    unfold CreateAnswer
    rw [if_neg (by simp), v.noRoot (hroot rfl) []]
    exact ⟨0, rfl, fun q c h => by rw [v.noRoot (hroot rfl)] at h; cases h⟩
  · obtain ⟨q, n, rfl⟩ : ∃ q n, p = q ++ [n] :=
      ⟨p.dropLast, p.getLast hnil, (List.dropLast_concat_getLast hnil).symm⟩
    have hn : N n := hp n (by simp)
    have hq : ∀ m ∈ q, N m := fun m hm => hp m (by simp [hm])
    have hdl : (q ++ [n]).dropLast = q := by simp
    -- both branches reduce to `dbCreate` below the parent
    have hcase : createFs e db (full e (q ++ [n])) =
        match k.fs q with
        | some x => dbCreate e db (some x.1) n
        | none => (db, .err .enoent) := by
      unfold createFs
      rw [strip_full]
      dsimp only
      by_cases hq0 : q = []
      · subst hq0
        simp only [List.nil_append, join]
        rw [rsplit_free (hN.slash n hn)]
        dsimp only
        rw [if_neg (hN.nonempty n hn)]
        cases hr : k.fs [] with
        | none => exact absurd hr (htop ⟨n, rfl⟩)
        | some x =>
          obtain ⟨i, c⟩ := x
          rw [v.root i c hr]
      · rw [join_snoc q hq0, rsplit_append _ (hN.slash n hn)]
        dsimp only
        rw [v.lookup hN q hq]
        cases hk : k.fs q with
        | none => rfl
        | some x => rfl
    rw [hcase]
    unfold CreateAnswer
    rw [hdl]
    cases hk : k.fs q with
    | none =>
      dsimp only
      refine ⟨v, .err .enoent, rfl, ?_⟩
      rw [if_pos ⟨by simp, rfl⟩]
    | some x =>
      obtain ⟨i, c⟩ := x
      obtain ⟨h1, h2⟩ := v.dbCreate_child hN hk hn hb
      dsimp only
      cases hx : k.fs (q ++ [n]) with
      | some y =>
        rw [h1 y hx]
        exact ⟨v, .err .eexist, rfl, by simp⟩
      | none =>
        obtain ⟨db', id, h3, h4, h5⟩ := h2 hx
        rw [h3]
        exact ⟨h5, .ok id, rfl, by simpa using h4⟩

end Verif.Forest
