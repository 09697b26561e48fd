import Verif.Conc.ScanTerm
import Verif.Conc.ScanProps

/-!
# C85: range queries come to their end
-/

namespace Verif.Conc

open Verif
open Verif.Tree (Limits Bnd)

variable {V : Type}

/-- `n` steps during which no new call is made. -/
inductive XFinish (L : Limits) (seq : Bool) : Nat → XSys V → XSys V → Prop
  | nil (s : XSys V) : XFinish L seq 0 s s
  | cons {s s1 s2 : XSys V} {es : List (XEvent V)} {n : Nat} :
      XStep L seq s es s1 → XNoCall es → XFinish L seq n s1 s2 → XFinish L seq (n + 1) s s2

theorem xstep_inv {L : Limits} (hL : L.Ok) {seq : Bool} {s s' : XSys V} {es : List (XEvent V)}
    (hst : XStep L seq s es s') (hi : ∃ a : XAtomic V, XInv L a.copies s ∧ Sim s.sys a.atom) :
    ∃ a : XAtomic V, XInv L a.copies s' ∧ Sim s'.sys a.atom := by
  obtain ⟨a, h1, h2⟩ := hi
  obtain ⟨a', _, h3, h4⟩ := xsys_step hL hst h1 h2
  exact ⟨a', h3, h4⟩

theorem xrun_cap {L : Limits} (hL : L.Ok) {seq : Bool} {s s' : XSys V} {es : List (XEvent V)}
    (hr : XRun L seq s es s') (hi : ∃ a : XAtomic V, XInv L a.copies s ∧ Sim s.sys a.atom)
    (hc : CapN L s.sys.tree.h s.sys.tree.node) :
    (∃ a : XAtomic V, XInv L a.copies s' ∧ Sim s'.sys a.atom) ∧
      CapN L s'.sys.tree.h s'.sys.tree.node := by
  induction hr with
  | nil => exact ⟨hi, hc⟩
  | cons hst _ ih =>
    obtain ⟨a, h1, _⟩ := id hi
    exact ih (xstep_inv hL hst hi) (xsys_cap hL hst h1.inv hc).1

theorem xfinish_bound {L : Limits} (hL : L.Ok) {seq : Bool} {n : Nat} {s s' : XSys V}
    (hf : XFinish L seq n s s') (hi : ∃ a : XAtomic V, XInv L a.copies s ∧ Sim s.sys a.atom)
    (hc : CapN L s.sys.tree.h s.sys.tree.node) : n + s'.sys.pot L ≤ s.sys.pot L := by
  induction hf with
  | nil => omega
  | cons hst hn _ ih =>
    obtain ⟨a, h1, _⟩ := id hi
    have h2 := xsys_cap hL hst h1.inv hc
    have h3 := ih (xstep_inv hL hst hi) h2.1
    have h4 := h2.2 hn
    omega

/-- Once no new calls are made, there is a bound on the number of steps that can follow, in any order
of the tasks: nobody can go on forever, in particular not a range query that is always sent to the
next node.  That the steps do not end before every call has returned is `C85_every_query_returns_partial`. -/
theorem C85_steps_bounded {L : Limits} (hL : L.Ok) {seq : Bool} {s : XSys V}
    {es : List (XEvent V)} (hr : XRun L seq XSys.empty es s) :
    ∃ bound, ∀ n s', XFinish L seq n s s' → n ≤ bound := by
  obtain ⟨hi, hc⟩ := xrun_cap hL hr ⟨⟨⟨[], [], []⟩, fun _ => none⟩, xinv_empty L, sim_empty⟩
    (cap_empty L)
  refine ⟨s.sys.pot L, fun n s' hf => ?_⟩
  have := xfinish_bound hL hf hi hc
  omega

/-- A query that has just started, in a tree with two leaves, can make steps: three of them bring it
to its end. -/
theorem finish_demo : ∃ (es : List (XEvent Nat)) (s s' : XSys Nat),
    XRun demoL false XSys.empty es s ∧ XFinish demoL false 3 s s' ∧ s.sys.Busy := by
  have hr := scan_demo
  refine ⟨scanEvents ++ [.scan 10 (.incl 5) .unb], ⟨⟨[], .shared [.scan 10 (.incl 5) .unb none],
    ⟨1, fresh [(0, fresh [(1, 11), (3, 30)]), (5, fresh [(5, 51)])]⟩⟩, [10, 9, 8, 7]⟩,
    ⟨⟨[], .free, ⟨1, fresh [(0, fresh [(1, 11), (3, 30)]), (5, fresh [(5, 51)])]⟩⟩, [10, 9, 8, 7]⟩,
    ?_, ?_, Or.inl (by simp [Lock.free])⟩
  · have key : ∀ {s s1 s2 : XSys Nat} {es es' : List (XEvent Nat)}, XRun demoL false s es s1 →
        XRun demoL false s1 es' s2 → XRun demoL false s (es ++ es') s2 := by
      intro s s1 s2 es es' h1 h2
      induction h1 with
      | nil => exact h2
      | cons h _ ih => rw [List.append_assoc]; exact .cons h (ih h2)
    exact key hr (.cons (es := [_]) (.scan (id := 10) (s := .incl 5) (e := .unb) (rs := []) (by simp)
      rfl) (.nil _))
  · have hno : ∀ v b, XNoCall ([.chunk 10 v b] : List (XEvent Nat)) := fun v b => by simp [XNoCall]
    refine .cons (es := []) (.root (pre := []) (post := []) (rs := []) (id := 10) (s := .incl 5)
      (e := .unb)) (by simp [XNoCall]) ?_
    refine .cons (es := []) (.down (id := 10) (.downLast (pre := []) (post := []) (rs := [])
      (next := none) (s := .incl 5) (e := .unb) (key := 5) (n := [(5, 51)]) (by decide) rfl))
      (by simp [XNoCall]) ?_
    exact .cons (.ret (id := 10) (ScanStep.deeper (pre := [(0, fresh [(1, 11), (3, 30)])])
      (.leafRet (s := .incl 5) (e := .unb) (next := none) (pre := []) (post := []) rfl)))
      (hno _ _) (.nil _)

/-- The bound is at least that. -/
example : ∃ (es : List (XEvent Nat)) (s : XSys Nat) (bound : Nat),
    XRun demoL false XSys.empty es s ∧ 3 ≤ bound ∧
      ∀ n s', XFinish demoL false n s s' → n ≤ bound := by
  obtain ⟨es, s, s', hr, hf, _⟩ := finish_demo
  obtain ⟨b, hb⟩ := C85_steps_bounded demoL_ok hr
  exact ⟨es, s, b, hr, hb _ _ hf, hb⟩

end Verif.Conc
