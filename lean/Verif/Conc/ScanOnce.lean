import Verif.Conc.ScanCount
import Verif.Conc.ScanLiveProps

/-!
# C85: each call of `get_range` returns at most once
-/

namespace Verif.Conc

open Verif
open Verif.Tree (Limits Bnd)

variable {V : Type}

def XEvent.isScan (id : Nat) : XEvent V → Bool
  | .scan id' _ _ => decide (id' = id)
  | _ => false

def XEvent.isChunk (id : Nat) : XEvent V → Bool
  | .chunk id' _ _ => decide (id' = id)
  | _ => false

/-- How often the call with this name was made. -/
def called (id : Nat) (es : List (XEvent V)) : Nat := es.countP (XEvent.isScan id)

/-- How often it returned. -/
def returned (id : Nat) (es : List (XEvent V)) : Nat := es.countP (XEvent.isChunk id)

theorem count_base (id : Nat) (es : List (Event V)) :
    called id (es.map .base) = 0 ∧ returned id (es.map .base) = 0 := by
  simp only [called, returned, List.countP_eq_zero, List.mem_map]
  constructor <;> rintro _ ⟨e, _, rfl⟩ <;> simp [XEvent.isScan, XEvent.isChunk]

structure Once (es : List (XEvent V)) (s : XSys V) (id : Nat) : Prop where
  ret : returned id es + s.sys.cnt (isScan id) ≤ called id es
  call : called id es ≤ 1
  used : id ∉ s.used → called id es = 0 ∧ s.sys.cnt (isGuard id) = 0
  one : s.sys.cnt (isGuard id) ≤ 1
  top : cntL (isGuard id) s.sys.top = 0

/-- What a step may do to the locks of a query. -/
theorem once_keep {es es' : List (XEvent V)} {s s' : XSys V} {id : Nat} (ho : Once es s id)
    (hu : s'.used = s.used) (hc : called id es' = 0)
    (hs : returned id es' + s'.sys.cnt (isScan id) ≤ s.sys.cnt (isScan id))
    (hg : s'.sys.cnt (isGuard id) ≤ 1) (ht : cntL (isGuard id) s'.sys.top = 0)
    (hg' : s.sys.cnt (isScan id) = 0 → s.sys.cnt (isGuard id) = 0 → s'.sys.cnt (isGuard id) = 0) :
    Once (es ++ es') s' id := by
  have h1 : called id (es ++ es') = called id es + called id es' := List.countP_append
  have h2 : returned id (es ++ es') = returned id es + returned id es' := List.countP_append
  have := ho.ret
  have := ho.call
  refine ⟨by omega, by omega, fun hn => ?_, hg, ht⟩
  rw [hu] at hn
  have h3 := ho.used hn
  exact ⟨by omega, hg' (by omega) h3.2⟩

theorem once_step {L : Limits} {seq : Bool} {s s' : XSys V} {es es' : List (XEvent V)}
    (hst : XStep L seq s es' s') (hi : Inv L s.sys) {i : Nat} (ho : Once es s i) :
    Once (es ++ es') s' i := by
  have hone := ho.one
  have hret := ho.ret
  have hcall := ho.call
  have htop := ho.top
  cases hst with
  | @base s s' used es' hst =>
    have h1 := sys_cnt (plain_isScan i) hst hi
    have h2 := sys_cnt (plain_isGuard i) hst hi
    have h3 := count_base i es'
    simp only at hone hret
    exact once_keep ho rfl h3.1 (by simp only; omega) (by simp only; omega)
      (base_top (plain_isGuard i) hst ho.top) (by simp only; omega)
  | @scan calls rs t used id s e hid hp =>
    have h1 : called i (es ++ [.scan id s e]) = called i es + if id = i then 1 else 0 := by
      simp [called, List.countP_append, List.countP_cons, XEvent.isScan]
    have h2 : returned i (es ++ [.scan id s e]) = returned i es := by
      simp [returned, List.countP_append, List.countP_cons, XEvent.isChunk]
    simp only [Sys.cnt, cntL] at hone hret
    refine ⟨?_, ?_, ?_, ?_, ?_⟩
    · rw [h1, h2]
      simp only [Sys.cnt, cntL, cntR_cons, isScan]
      omega
    · rw [h1]
      by_cases h : id = i
      · subst h
        have := (ho.used hid).1
        rw [if_pos rfl]; omega
      · rw [if_neg h]; exact hcall
    · intro hn
      simp only [List.mem_cons, not_or] at hn
      have h3 := ho.used hn.2
      rw [h1, if_neg fun h => hn.1 h.symm]
      refine ⟨h3.1, ?_⟩
      have h4 := h3.2
      simp only [Sys.cnt, cntL, cntR_cons, isGuard] at h4 ⊢
      omega
    · simp only [Sys.cnt, cntL, cntR_cons, isGuard]
      omega
    · simp only [cntL, cntR_cons, isGuard] at htop ⊢
      omega
  | @root calls pre post rs used id s e h n =>
    refine once_keep ho rfl rfl ?_ ?_ ?_ ?_ <;> simp only [Sys.cnt, cntL, cntN, cntR_mid, cntR_cons,
      isScan, isGuard, returned, List.countP_nil] at hone htop ⊢ <;> omega
  | @down calls top h id n n' used hst =>
    have h1 := scan_cnt hst i
    simp only [ScanLbl.ends, ScanLbl.keeps, ite_self] at h1
    refine once_keep ho rfl rfl ?_ ?_ htop ?_ <;>
      simp only [Sys.cnt, returned, List.countP_nil] at hone ⊢ <;> omega
  | @release calls top h id n n' used hst hg =>
    have h1 := scan_cnt hst i
    have h2 := drop_scan id i n'
    have h3 := drop_guard id i n'
    simp only [ScanLbl.ends, ScanLbl.keeps, ite_self] at h1
    have h4 : (if i = id then 0 else cntN (isGuard i) n') ≤ cntN (isGuard i) n' := by
      split <;> omega
    refine once_keep ho rfl rfl ?_ ?_ htop ?_ <;>
      simp only [Sys.cnt, returned, List.countP_nil] at hone ⊢ <;> omega
  | @swap calls top h id n n' used hst =>
    have h1 := scan_cnt hst i
    have h2 := drop_scan id i n
    have h3 := drop_guard id i n
    have h5 : 1 ≤ cntN (isScan id) (mapReads (dropGuard id) (h + 1) n : Node V h) := scan_has hst
    simp only [ScanLbl.ends, ite_self] at h1
    have h4 : (ScanLbl.swap id : ScanLbl V).id = i ↔ id = i := Iff.rfl
    simp only [Sys.cnt] at hone htop
    by_cases hid : id = i
    · subst hid
      rw [if_pos (h4.mpr rfl)] at h1
      rw [if_pos rfl] at h3
      simp only [ScanLbl.keeps] at h1
      refine once_keep ho rfl rfl ?_ ?_ htop ?_ <;>
        simp only [Sys.cnt, returned, List.countP_nil] <;> omega
    · rw [if_neg (mt h4.mp hid)] at h1
      rw [if_neg fun h => hid h.symm] at h3
      refine once_keep ho rfl rfl ?_ ?_ htop ?_ <;>
        simp only [Sys.cnt, returned, List.countP_nil] <;> omega
  | @goto calls top h id key s e n n' used hst =>
    have h1 := scan_cnt hst i
    have h2 := wake_both id s e key i n'
    have h5 : 1 ≤ cntN (isScan id) n := scan_has hst
    simp only [ScanLbl.keeps, ite_self] at h1
    have h4 : (ScanLbl.goto id s e key : ScanLbl V).id = i ↔ id = i := Iff.rfl
    simp only [Sys.cnt] at hone htop hret
    by_cases hid : id = i
    · subst hid
      rw [if_pos (h4.mpr rfl)] at h1
      simp only [ScanLbl.ends] at h1
      refine once_keep ho rfl rfl ?_ ?_ htop ?_ <;>
        simp only [Sys.cnt, returned, List.countP_nil] <;> omega
    · rw [if_neg (mt h4.mp hid)] at h1
      have h3 := h2.2 fun h => hid h.symm
      refine once_keep ho rfl rfl ?_ ?_ htop ?_ <;>
        simp only [Sys.cnt, returned, List.countP_nil] <;> omega
  | @ret calls top h id v b n n' used hst =>
    have h1 := scan_cnt hst i
    have h2 := drop_scan id i n'
    have h3 := drop_guard id i n'
    simp only [ScanLbl.keeps, ite_self] at h1
    have h4 : (ScanLbl.ret id v b : ScanLbl V).id = i ↔ id = i := Iff.rfl
    have hc : called i [(.chunk id v b : XEvent V)] = 0 := by
      simp [called, XEvent.isScan]
    have hr : returned i [(.chunk id v b : XEvent V)] = if id = i then 1 else 0 := by
      simp [returned, List.countP_cons, XEvent.isChunk]
    simp only [Sys.cnt] at hone htop
    by_cases hid : id = i
    · subst hid
      rw [if_pos (h4.mpr rfl)] at h1
      rw [if_pos rfl] at h3 hr
      simp only [ScanLbl.ends] at h1
      refine once_keep ho rfl hc ?_ ?_ htop ?_ <;> simp only [Sys.cnt, hr] <;> omega
    · rw [if_neg (mt h4.mp hid)] at h1
      rw [if_neg fun h => hid h.symm] at h3
      rw [if_neg hid] at hr
      refine once_keep ho rfl hc ?_ ?_ htop ?_ <;> simp only [Sys.cnt, hr] <;> omega

theorem once_run {L : Limits} (hL : L.Ok) {seq : Bool} {s s' : XSys V} {es' : List (XEvent V)}
    (hr : XRun L seq s es' s') (i : Nat) : ∀ {es : List (XEvent V)},
      (∃ a : XAtomic V, XInv L a.copies s ∧ Sim s.sys a.atom) → Once es s i →
      Once (es ++ es') s' i := by
  induction hr with
  | nil => intro es _ ho; rw [List.append_nil]; exact ho
  | cons hst _ ih =>
    intro es hi ho
    obtain ⟨a, h1, _⟩ := id hi
    rw [← List.append_assoc]
    exact ih (xstep_inv hL hst hi) (once_step hst h1.inv ho)

/-- Each call of `get_range` returns at most once, and nothing is returned that was not asked for.
`called` and `returned` count the events with the call's name, which is new for each call.  That it
does return is `C85_every_query_returns_partial`. -/
theorem C85_returns_at_most_once {L : Limits} (hL : L.Ok) {seq : Bool} {s : XSys V}
    {es : List (XEvent V)} (hr : XRun L seq XSys.empty es s) (id : Nat) :
    returned id es ≤ called id es ∧ called id es ≤ 1 := by
  have h0 : Once ([] : List (XEvent V)) (XSys.empty : XSys V) id :=
    ⟨Nat.le_refl _, Nat.zero_le _, fun _ => ⟨rfl, rfl⟩, Nat.zero_le _, rfl⟩
  have h := once_run hL hr id ⟨⟨⟨[], [], []⟩, fun _ => none⟩, xinv_empty L, sim_empty⟩ h0
  rw [List.nil_append] at h
  have := h.ret
  exact ⟨by omega, h.call⟩

/-- It applies to the run of `scan_demo`, in which the query 7 is called and returns. -/
example : returned 7 scanEvents = 1 ∧ called 7 scanEvents = 1 ∧
    returned 7 scanEvents ≤ called 7 scanEvents :=
  ⟨rfl, rfl, (C85_returns_at_most_once demoL_ok scan_demo 7).1⟩

end Verif.Conc
