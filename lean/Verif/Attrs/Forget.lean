import Verif.Attrs.Steps
import Verif.Blob.Lemmas
import Verif.Namespace.History

/-! # Without attributes the operations are those of `Verif.Namespace` -/

namespace Verif.Attrs

open Verif
open Verif.Namespace (Name Ent Errno Ret dot dotdot lookup erase put dec)
open Verif.Blob (mapV get_mapV insert_mapV remove_mapV)

variable {now : Nat → Time} {h : Nat → Nat} {s t u : FS}

theorem forget_inodes (s : FS) : s.forget.inodes = mapV Inode.core s.inodes := rfl

theorem forget_get (s : FS) (i : Nat) :
    s.forget.inodes.get i = (s.inodes.get i).map Inode.core := get_mapV _ _ _

theorem forget_insert (s : FS) (i : Nat) (y : Inode) :
    FS.forget { s with inodes := s.inodes.insert i y } =
      { s.forget with inodes := s.forget.inodes.insert i y.core } := by
  simp only [FS.forget]
  congr 1
  exact insert_mapV _ _ _ _

theorem forget_delete (s : FS) (i : Nat) :
    (deleteObj s i).forget = Namespace.deleteObj s.forget i := by
  simp only [FS.forget, deleteObj, Namespace.deleteObj, List.filter_nil]
  congr 1
  exact remove_mapV _ _ _

theorem forget_mod {i : Nat} {f : Inode → Option Inode} {g : Nat → Option Nat}
    (hfg : ∀ x, (f x).map Inode.core = (g x.nlink).map fun n => ⟨x.ftype.isDir, n⟩) (s : FS) :
    (modInode s i f).map FS.forget = Namespace.modLink s.forget i g := by
  unfold modInode Namespace.modLink
  rw [forget_get]
  cases s.inodes.get i with
  | none => rfl
  | some x =>
    have hx := hfg x
    simp only [Option.map_some, Inode.core]
    cases hf : f x with
    | none =>
      rw [hf] at hx
      cases hg : g x.nlink with
      | none => rfl
      | some n => rw [hg] at hx; cases hx
    | some y =>
      rw [hf] at hx
      cases hg : g x.nlink with
      | none => rw [hg] at hx; cases hx
      | some n =>
        rw [hg] at hx
        simp only [Option.map_some, Option.some.injEq] at hx ⊢
        rw [forget_insert, hx]

theorem forget_attr {i : Nat} {a : SetAttr} (ha : a.size = none) (s : FS) :
    (doSetattr s i a 0).map FS.forget = Namespace.touch s.forget i := by
  unfold doSetattr Namespace.touch
  apply forget_mod
  intro x
  simp only [applyAttr, ha, Option.getD_none, Nat.lt_irrefl, if_false, Option.map_some,
    Inode.core]

theorem forget_doCreate {p nlink : Nat} {n : Name} {args : Args}
    {cb : FS → Nat → Nat → Option FS} {cb' : Namespace.FS → Nat → Nat → Option Namespace.FS}
    (hcb : ∀ s p i, (cb s p i).map FS.forget = cb' s.forget p i) (s : FS) :
    (doCreate now s p n args nlink cb).map (fun r => (r.1, r.2.forget)) =
      Namespace.doCreate s.forget p n args.ftype.isDir nlink cb' := by
  unfold doCreate Namespace.doCreate
  have hb := hcb { s with next := s.next + 1 } p s.next
  simp only
  cases hc : cb { s with next := s.next + 1 } p s.next with
  | none =>
    rw [hc] at hb
    have : cb' { s.forget with next := s.forget.next + 1 } p s.forget.next = none := hb.symm
    rw [this]; rfl
  | some s1 =>
    rw [hc] at hb
    have : cb' { s.forget with next := s.forget.next + 1 } p s.forget.next = some s1.forget :=
      hb.symm
    rw [this]
    simp only
    have hput : (put s1.ents ⟨p, n, s.next, args.ftype.isDir⟩).1 =
      (put s1.forget.ents ⟨p, n, s.forget.next, args.ftype.isDir⟩).1 := rfl
    have hget : (s1.forget.inodes.get s.forget.next).isSome = (s1.inodes.get s.next).isSome := by
      have := forget_get s1 s.next
      rw [show s.forget.next = s.next from rfl, this, Option.isSome_map]
    rw [← hput, hget]
    split
    · rfl
    · split
      · rfl
      · simp only [Option.map_some, Option.some.injEq, Prod.mk.injEq]
        refine ⟨rfl, ?_⟩
        simp only [FS.forget]
        congr 1
        exact insert_mapV _ _ _ _

theorem forget_mkdirCb (s : FS) (p i : Nat) :
    (mkdirCb now s p i).map FS.forget = Namespace.mkdirCb s.forget p i := by
  unfold mkdirCb Namespace.mkdirCb
  exact forget_mod (fun x => rfl) _

theorem insert_same {V : Type} {m : OMap V} (hm : OMap.Sorted m) {k : Nat} {v : V}
    (hg : m.get k = some v) : m.insert k v = m := by
  apply OMap.ext (hm.insert k v) hm
  intro j
  rw [OMap.get_insert]
  split
  · rename_i hj; rw [hj, hg]
  · rfl

/-- An inode stored again with the same type and link count. -/
theorem forget_same {s : FS} (hs : s.inodes.Sorted) {i : Nat} {x y : Inode}
    (hx : s.inodes.get i = some x) (hc : y.core = x.core) :
    FS.forget { s with inodes := s.inodes.insert i y } = s.forget := by
  rw [forget_insert, insert_same]
  · exact Blob.sorted_mapV hs
  · rw [forget_get, hx, Option.map_some, hc]

theorem modInode_sorted {i : Nat} {f : Inode → Option Inode} (hs : s.inodes.Sorted)
    (hm : modInode s i f = some t) : t.inodes.Sorted := by
  obtain ⟨x, y, _, _, rfl⟩ := modInode_some hm
  exact hs.insert _ _

theorem forget_link {s : FS} (hs : s.inodes.Sorted) (p i : Nat) (n : Name) :
    (link now s p i n).map (fun r => (r.1, r.2.forget)) = Namespace.link s.forget p i n := by
  unfold link Namespace.link
  rw [forget_get]
  cases hx : s.inodes.get i with
  | none => rfl
  | some x =>
    simp only [Option.map_some]
    let s1 : FS := { s with
      inodes := s.inodes.insert i { x with nlink := x.nlink + 1 }
      ents := (put s.ents ⟨p, n, i, x.ftype.isDir⟩).2 }
    have h1 : s1.forget = { s.forget with
        inodes := s.forget.inodes.insert i { x.core with nlink := x.core.nlink + 1 }
        ents := (put s.forget.ents ⟨p, n, i, x.core.isDir⟩).2 } := by
      simp only [FS.forget, s1]
      congr 1
      exact insert_mapV _ _ _ _
    have h2 := forget_attr (i := p) (a := tsAttr (now p)) rfl s1
    rw [h1] at h2
    simp only [Inode.core] at h2 ⊢
    have h2' : Namespace.touch _ p = _ := h2.symm
    rw [h2']
    change Option.map _ (match doSetattr s1 p (tsAttr (now p)) 0 with
      | none => none
      | some s => match doSetattr s i { ctime := some (now i) } 0 with
        | none => none
        | some s => some ((Except.ok 0 : Ret), s)) = _
    cases hd : doSetattr s1 p (tsAttr (now p)) 0 with
    | none => rfl
    | some s2 =>
      simp only [Option.map_some]
      -- the second setattr succeeds and changes only the change time
      have hex : ∃ y, s2.inodes.get i = some y := by
        obtain ⟨a, b, ha, hb, rfl⟩ := modInode_some hd
        simp only [OMap.get_insert]
        split
        · exact ⟨_, rfl⟩
        · exact ⟨{ x with nlink := x.nlink + 1 }, by simp only [s1, OMap.get_insert, if_true]⟩
      obtain ⟨y, hy⟩ := hex
      have h3 : doSetattr s2 i { ctime := some (now i) } 0 =
          some { s2 with inodes := s2.inodes.insert i { y with ctime := now i } } := by
        unfold doSetattr modInode
        simp [hy, applyAttr]
      rw [h3]
      simp only [Option.map_some, Option.some.injEq, Prod.mk.injEq, true_and]
      have hs2 : s2.inodes.Sorted := modInode_sorted (hs.insert _ _) hd
      exact forget_same hs2 hy rfl

theorem forget_doUnlink (s : FS) (a : Bool) (i : Nat) :
    (doUnlink now h s a i).map FS.forget = Namespace.doUnlink h s.forget a i := by
  unfold doUnlink Namespace.doUnlink
  rw [forget_get]
  cases hx : s.inodes.get i with
  | none => rfl
  | some x =>
    simp only [Option.map_some, Inode.core]
    split
    · split
      · rw [show s.forget.dying = s.dying from rfl]
        split
        · rfl
        · simp only [Option.map_some, Option.some.injEq, FS.forget]
          congr 1
          exact insert_mapV _ _ _ _
      · simp only [Option.map_some, Option.some.injEq]
        exact forget_insert _ _ _
    · simp only [Option.map_some, Option.some.injEq]
      exact forget_delete _ _

theorem forget_unlink (s : FS) (p : Nat) (fd : Option Nat) (n : Name) :
    (unlink now h s p fd n).map (fun r => (r.1, r.2.forget)) =
      Namespace.unlink h s.forget p fd n := by
  unfold unlink Namespace.unlink
  rw [show s.forget.ents = s.ents from rfl]
  cases hl : lookup s.ents p n with
  | none => rfl
  | some e =>
    simp only
    split
    · rfl
    · have h1 := forget_doUnlink (now := now) (h := h) { s with ents := erase s.ents p n }
        fd.isSome e.ino
      have h1' : Namespace.doUnlink h { s.forget with ents := erase s.ents p n } fd.isSome e.ino =
        _ := h1.symm
      rw [h1']
      cases hd : doUnlink now h { s with ents := erase s.ents p n } fd.isSome e.ino with
      | none => rfl
      | some s1 =>
        simp only [Option.map_some]
        rw [← forget_attr (i := p) (a := tsAttr (now p)) rfl s1]
        cases doSetattr s1 p (tsAttr (now p)) 0 <;> rfl

theorem forget_inactive (s : FS) (i : Nat) :
    (inactive h s i).map (fun r => (r.1, r.2.forget)) = Namespace.inactive h s.forget i := by
  unfold inactive Namespace.inactive
  rw [show s.forget.dying = s.dying from rfl]
  cases s.dying.get (h i) with
  | none => rfl
  | some j =>
    simp only
    split
    · rfl
    · simp only [Option.map_some, Option.some.injEq, Prod.mk.injEq, true_and]
      exact forget_delete { s with dying := s.dying.remove (h i) } i

theorem forget_ok (s : FS) (i : Nat) : okToRmdir s i = Namespace.okToRmdir s.forget i := by
  unfold okToRmdir Namespace.okToRmdir
  rw [forget_get, show s.forget.ents = s.ents from rfl, show s.forget.items = [] from rfl]
  split
  · rfl
  · cases s.inodes.get i with
    | none => rfl
    | some x => simp [Inode.core]

theorem stampDec_core {tm : Time} (x : Inode) :
    (stampDec tm x).map Inode.core = (dec x.nlink).map fun n => ⟨x.ftype.isDir, n⟩ := by
  unfold stampDec
  cases dec x.nlink <;> rfl

theorem forget_doRmdir (s : FS) (p i : Nat) (b : Bool) :
    (doRmdir now s p i b).map FS.forget = Namespace.doRmdir s.forget p i b := by
  unfold doRmdir Namespace.doRmdir
  simp only
  rw [← forget_delete]
  split
  · exact forget_mod stampDec_core _
  · rfl

theorem forget_rmdir (s : FS) (p : Nat) (n : Name) :
    (rmdir now s p n).map (fun r => (r.1, r.2.forget)) = Namespace.rmdir s.forget p n := by
  unfold rmdir Namespace.rmdir
  rw [show s.forget.ents = s.ents from rfl]
  cases hl : lookup s.ents p n with
  | none => rfl
  | some e =>
    simp only
    rw [forget_ok]
    cases Namespace.okToRmdir s.forget e.ino with
    | none => rfl
    | some r =>
      cases r with
      | error er => rfl
      | ok v =>
        cases v
        simp only
        have h1 : Namespace.doRmdir { s.forget with ents := erase s.ents p n } p e.ino true = _ :=
          (forget_doRmdir (now := now) { s with ents := erase s.ents p n } p e.ino true).symm
        rw [h1]
        cases doRmdir now { s with ents := erase s.ents p n } p e.ino true <;> rfl

theorem forget_renameLinks (s : FS) (p np i : Nat) (old : Option Nat) (d : Bool) :
    (renameLinks now h s p np i old d).map FS.forget =
      Namespace.renameLinks h s.forget p np i old d := by
  unfold renameLinks Namespace.renameLinks
  simp only [bind, Option.bind]
  generalize hs1 : (if d = true ∧ p ≠ np then
      { s with ents := (put s.ents ⟨i, dotdot, np, true⟩).2 } else s) = s1
  have hs1' : (if d = true ∧ p ≠ np then
      { s.forget with ents := (put s.forget.ents ⟨i, dotdot, np, true⟩).2 } else s.forget) =
      s1.forget := by
    rw [← hs1]; split <;> rfl
  rw [hs1']
  have rest : ∀ s2 : FS,
      Option.map FS.forget (match modInode s2 p (renameParent (now p) d (decide (p = np)) old) with
        | none => none
        | some s => if decide (p = np) = true then some s
          else modInode s np (renameNewParent (now np) d old)) =
      (match Namespace.modLink s2.forget p
          (fun n => if d = true ∧ (¬ p = np ∨ old.isSome = true) then dec n else some n) with
        | none => none
        | some s => if p = np then some s else Namespace.modLink s np
            fun n => if d = true ∧ old.isNone = true then some (n + 1) else some n) := by
    intro s2
    have h2 := forget_mod (i := p) (f := renameParent (now p) d (decide (p = np)) old)
      (g := fun n => if d = true ∧ (¬ p = np ∨ old.isSome = true) then dec n else some n)
      (fun x => by
        unfold renameParent
        simp only [decide_eq_false_iff_not]
        split
        · exact stampDec_core x
        · rfl) s2
    rw [← h2]
    cases modInode s2 p (renameParent (now p) d (decide (p = np)) old) with
    | none => rfl
    | some s3 =>
      simp only [Option.map_some, decide_eq_true_eq]
      split
      · rfl
      · exact forget_mod (fun x => by
          unfold renameNewParent
          by_cases hd : d = true ∧ old.isNone = true
          · simp only [if_pos hd, Option.map_some, Inode.core]
          · simp only [if_neg hd, Option.map_some, Inode.core]) s3
  have fin : ∀ (o : Option FS) (o' : Option Namespace.FS), o.map FS.forget = o' →
      Option.map FS.forget (match o with
        | none => none
        | some s =>
          match modInode s p (renameParent (now p) d (decide (p = np)) old) with
          | none => none
          | some s => if decide (p = np) = true then some s
            else modInode s np (renameNewParent (now np) d old)) =
      o'.bind fun s => (Namespace.modLink s p
          (fun n => if d = true ∧ (¬ p = np ∨ old.isSome = true) then dec n else some n)).bind
        fun s => if p = np then some s else Namespace.modLink s np
            fun n => if d = true ∧ old.isNone = true then some (n + 1) else some n := by
    rintro o o' rfl
    cases o with
    | none => rfl
    | some s2 =>
      refine (rest s2).trans ?_
      simp only [Option.map_some, Option.bind_some]
      cases Namespace.modLink s2.forget p
        (fun n => if d = true ∧ (¬ p = np ∨ old.isSome = true) then dec n else some n) <;> rfl
  cases old with
  | none => exact fin (some s1) _ rfl
  | some v =>
    simp only
    cases d with
    | true => exact fin _ _ (forget_doRmdir (now := now) s1 np v false)
    | false => exact fin _ _ (forget_doUnlink (now := now) s1 false v)

theorem forget_rename (s : FS) (p i : Nat) (n : Name) (np : Nat) (ni : Option Nat) (nn : Name) :
    (rename now h s p i n np ni nn).map (fun r => (r.1, r.2.forget)) =
      Namespace.rename h s.forget p i n np ni nn := by
  unfold rename Namespace.rename
  split
  · rfl
  · have hc : renameCheck s np ni nn = Namespace.renameCheck s.forget np ni nn := by
      unfold renameCheck Namespace.renameCheck
      rw [show s.forget.ents = s.ents from rfl]
      cases lookup s.ents np nn with
      | none => rfl
      | some e => simp only [forget_ok]
    rw [hc]
    cases Namespace.renameCheck s.forget np ni nn with
    | none => rfl
    | some r =>
      cases r with
      | error er => rfl
      | ok v =>
        cases v
        simp only
        rw [show s.forget.ents = s.ents from rfl]
        cases lookup s.ents p n with
        | none => rfl
        | some e =>
          simp only
          split
          · rfl
          · have h1 := forget_renameLinks (now := now) (h := h)
              { s with ents := (put (erase s.ents p n) ⟨np, nn, i, e.isDir⟩).2 } p np i
              ((put (erase s.ents p n) ⟨np, nn, i, e.isDir⟩).1.map (·.ino)) e.isDir
            have h1' : Namespace.renameLinks h
              { s.forget with ents := (put (erase s.ents p n) ⟨np, nn, i, e.isDir⟩).2 } p np i
              ((put (erase s.ents p n) ⟨np, nn, i, e.isDir⟩).1.map (·.ino)) e.isDir = _ := h1.symm
            rw [h1']
            cases renameLinks now h
              { s with ents := (put (erase s.ents p n) ⟨np, nn, i, e.isDir⟩).2 } p np i
              ((put (erase s.ents p n) ⟨np, nn, i, e.isDir⟩).1.map (·.ino)) e.isDir <;> rfl

theorem forget_purge (s : FS) : (purge s).forget = Namespace.purge s.forget := by
  have : ∀ (l : List (Nat × Nat)) (s : FS),
      (l.foldl (fun s e => deleteObj s e.2) s).forget =
        l.foldl (fun s e => Namespace.deleteObj s e.2) s.forget := by
    intro l
    induction l with
    | nil => intro s; rfl
    | cons e l ih =>
      intro s
      rw [List.foldl_cons, List.foldl_cons, ih, forget_delete]
  unfold purge Namespace.purge
  rw [show s.forget.dying = s.dying from rfl, ← this]
  rfl

theorem forget_last (s : FS) : lastObject s = Namespace.lastObject s.forget := by
  unfold lastObject Namespace.lastObject
  simp [FS.forget, Function.comp_def]

theorem forget_mount (s : FS) (b : Bool) : (mount s b).forget = Namespace.mount s.forget b := by
  unfold mount Namespace.mount
  simp only
  rw [← forget_purge]
  cases b
  · simp only [Bool.false_eq_true, if_false, ← forget_last]; rfl
  · simp only [if_true, ← forget_last]; rfl

/-- A request that concerns names does to them what `Verif.Namespace` says. -/
theorem forget_step {c : Client} {op : Op} {o : Namespace.Op} (hs : c.fs.inodes.Sorted)
    (ho : op.names = some o)
    (hd : ∀ p n args, op = .create p n args → args.ftype.isDir = false) :
    (c.step h now op).map (fun r => (r.1, r.2.forget)) = c.forget.step h o := by
  have key : ∀ (a : Option (Ret × FS)) (b : Option (Ret × Namespace.FS)),
      a.map (fun r => (r.1, r.2.forget)) = b →
      (c.withFs a).map (fun r => (r.1, r.2.forget)) = c.forget.withFs b := by
    rintro a b rfl
    cases a <;> rfl
  cases op with
  | create p n args =>
    cases ho
    refine key _ _ ?_
    have := forget_doCreate (now := now) (p := p) (n := n) (args := args) (nlink := 1)
      (cb := fun s p _ => doSetattr s p (tsAttr (now p)) 0) (cb' := fun s p _ => Namespace.touch s p)
      (fun s p i => forget_attr rfl s) c.fs
    rw [hd p n args rfl] at this
    exact this
  | mkdir p n perm uid gid =>
    cases ho
    exact key _ _ (forget_doCreate (fun s p i => forget_mkdirCb s p i) c.fs)
  | link p i n => cases ho; exact key _ _ (forget_link hs p i n)
  | unlink p fd n => cases ho; exact key _ _ (forget_unlink _ p fd n)
  | rmdir p n => cases ho; exact key _ _ (forget_rmdir _ p n)
  | rename p i n np ni nn => cases ho; exact key _ _ (forget_rename _ p i n np ni nn)
  | failedCreate => cases ho; rfl
  | use i => cases ho; rfl
  | inactive i =>
    cases ho
    have := forget_inactive (h := h) c.fs i
    simp only [Client.step, Namespace.Client.step]
    rw [show c.forget.fs = c.fs.forget from rfl, ← this]
    cases inactive h c.fs i <;> rfl
  | remount b =>
    cases ho
    simp only [Client.step, Namespace.Client.step, Option.map_some, Client.forget]
    rw [forget_mount]
  | _ => cases ho

/-- A valid request that does not concern names succeeds and leaves them alone. -/
theorem forget_other {c : Client} {op : Op} (hs : c.fs.inodes.Sorted) (ho : op.names = none)
    (hv : Valid h c op) : ∃ r c', c.step h now op = some (r, c') ∧ c'.forget = c.forget := by
  have hreg : ∀ i, c.fs.Regular i →
      ∃ x rs, c.fs.inodes.get i = some x ∧ x.recordSize = some rs := by
    rintro i ⟨x, e, hx, he⟩
    exact ⟨x, 2 ^ e, hx, by simp [Inode.recordSize, he]⟩
  have fg : ∀ t : FS, t.forget = c.fs.forget →
      Client.forget ⟨t, c.inUse⟩ = c.forget := by
    intro t ht; simp only [Client.forget, ht]
  cases op with
  | read i =>
    obtain ⟨x, rs, hx, hr⟩ := hreg i hv.2
    simp only [Client.step, Client.withFs, read, hx, hr]
    by_cases ha : c.fs.atime
    · rw [if_pos ha]
      exact ⟨_, _, rfl, fg _ (forget_same hs hx rfl)⟩
    · rw [if_neg ha]
      exact ⟨_, _, rfl, rfl⟩
  | write i o l d =>
    obtain ⟨x, rs, hx, hr⟩ := hreg i hv.2
    simp only [Client.step, Client.withFs, write, hx, hr]
    exact ⟨_, _, rfl, fg _ (forget_same hs hx rfl)⟩
  | deallocate i o l f =>
    obtain ⟨x, rs, hx, hr⟩ := hreg i hv.2
    simp only [Client.step, Client.withFs, deallocate, hx, hr]
    by_cases hl : min (x.size - min x.size o) l > 0
    · rw [if_pos hl]
      exact ⟨_, _, rfl, fg _ (forget_same hs hx rfl)⟩
    · rw [if_neg hl]
      exact ⟨_, _, rfl, rfl⟩
  | setattr i a f =>
    obtain ⟨⟨x, hx⟩, hsz⟩ := hv.2
    have hap : ∀ a : SetAttr, (a.size.isSome → c.fs.Regular i) →
        ∃ y, applyAttr a f x = some y ∧ y.core = x.core := by
      intro a ha
      unfold applyAttr
      simp only
      split
      · rename_i hlt
        have hss : a.size.isSome := by
          cases hsz' : a.size with
          | none => rw [hsz'] at hlt; simp at hlt
          | some _ => rfl
        obtain ⟨x', rs, hx', hr⟩ := hreg i (ha hss)
        rw [hx] at hx'; cases hx'
        rw [hr]
        exact ⟨_, rfl, rfl⟩
      · exact ⟨_, rfl, rfl⟩
    simp only [Client.step, Client.withFs, setattr, doSetattr, modInode, hx]
    obtain ⟨y, hy, hyc⟩ := hap
      (if a.ctime.isNone = true then { a with ctime := some (now i) } else a) (by
        intro k; apply hsz; split at k <;> exact k)
    rw [hy]
    exact ⟨_, _, rfl, fg _ (forget_same hs hx hyc)⟩
  | readdir i => exact ⟨_, _, rfl, rfl⟩
  | readlink i => exact ⟨_, _, rfl, rfl⟩
  | setAtime on => exact ⟨_, _, rfl, rfl⟩
  | _ => cases ho

theorem sorted_of_forget (hf : s.forget.inodes.Sorted) : s.inodes.Sorted := by
  simp only [OMap.Sorted, FS.forget, List.pairwise_map] at hf ⊢
  exact hf

/-- One valid request from a state whose names are in order. -/
theorem step_total {c : Client} {op : Op} (I : Namespace.Inv h c.forget.fs)
    (hv : Valid h c op) :
    ∃ r c', c.step h now op = some (r, c') ∧ Namespace.Inv h c'.forget.fs := by
  have hs : c.fs.inodes.Sorted := sorted_of_forget I.isorted
  cases ho : op.names with
  | none =>
    obtain ⟨r, c', h1, h2⟩ := forget_other (now := now) hs ho hv
    exact ⟨r, c', h1, by rw [h2]; exact I⟩
  | some o =>
    obtain ⟨r, d, h1, S⟩ := Namespace.step_ok I (hv.1 o ho)
    have h2 := forget_step (h := h) (now := now) (c := c) hs ho (by
      rintro p n args rfl
      exact hv.2)
    rw [h1] at h2
    simp only [Option.map_eq_some_iff] at h2
    obtain ⟨⟨r', c'⟩, h3, h4⟩ := h2
    injection h4 with h5 h6
    exact ⟨r', c', h3, by rw [h6]; exact S.inv⟩

theorem new_forget (t0 : Time) : (Client.new t0).forget = Namespace.Client.new := rfl

end Verif.Attrs
