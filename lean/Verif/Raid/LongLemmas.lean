import Verif.Raid.LongModel
import Verif.Raid.ReconEnd

/-! What long reads return. -/

namespace Verif.Raid

open Verif.Bytes Verif.Codec

variable {g : Geom}

/-! ### Combinations -/

theorem combinations_mem {α : Type} : ∀ (l : List α) (n : Nat) (c : List α),
    c ∈ combinations n l → c.Sublist l ∧ c.length = n := by
  intro l
  induction l with
  | nil =>
    intro n c h
    cases n with
    | zero => simp [combinations] at h; subst h; exact ⟨List.Sublist.refl _, rfl⟩
    | succ n => simp [combinations] at h
  | cons x xs ih =>
    intro n c h
    cases n with
    | zero => simp [combinations] at h; subst h; exact ⟨List.nil_sublist _, rfl⟩
    | succ n =>
      simp only [combinations, List.mem_append, List.mem_map] at h
      rcases h with ⟨c', hc', rfl⟩ | h
      · obtain ⟨h1, h2⟩ := ih n c' hc'
        exact ⟨h1.cons_cons x, by simp [h2]⟩
      · obtain ⟨h1, h2⟩ := ih (n + 1) c h
        exact ⟨h1.cons x, h2⟩

/-- Every small enough set of elements is part of a combination. -/
theorem combinations_cover {α : Type} (p : α → Bool) : ∀ (l : List α) (n : Nat),
    l.countP p ≤ n → n ≤ l.length → ∃ c ∈ combinations n l, ∀ x ∈ l, p x = true → x ∈ c := by
  intro l
  induction l with
  | nil =>
    intro n _ h
    have : n = 0 := by simpa using h
    subst this
    exact ⟨[], by simp [combinations], fun x hx => (nomatch hx)⟩
  | cons x xs ih =>
    intro n h1 h2
    rw [List.countP_cons] at h1
    rw [List.length_cons] at h2
    cases n with
    | zero =>
      refine ⟨[], by simp [combinations], ?_⟩
      intro y hy hp
      exfalso
      rcases List.mem_cons.mp hy with rfl | hy
      · rw [hp] at h1; simp at h1
      · have : 0 < xs.countP p := List.countP_pos_iff.mpr ⟨y, hy, hp⟩
        omega
    | succ n =>
      by_cases hin : p x = true ∨ xs.length < n + 1
      · obtain ⟨c, hc, hcx⟩ := ih n (by
          rcases hin with hin | hin
          · rw [if_pos hin] at h1; omega
          · have := List.countP_le_length (p := p) (l := xs)
            omega) (by omega)
        refine ⟨x :: c, by simp only [combinations, List.mem_append, List.mem_map]; exact Or.inl ⟨c, hc, rfl⟩, ?_⟩
        intro y hy hp
        rcases List.mem_cons.mp hy with rfl | hy
        · exact List.mem_cons_self
        · exact List.mem_cons_of_mem _ (hcx y hy hp)
      · have hpx : p x = false := by
          cases h : p x with
          | false => rfl
          | true => exact absurd (Or.inl h) hin
        obtain ⟨c, hc, hcx⟩ := ih (n + 1) (by simp [hpx] at h1; omega) (by omega)
        refine ⟨c, by simp only [combinations, List.mem_append]; exact Or.inr hc, ?_⟩
        intro y hy hp
        rcases List.mem_cons.mp hy with rfl | hy
        · rw [hpx] at hp; cases hp
        · exact hcx y hy hp

/-! ### One stripe -/

/-- Whether decoding succeeds doesn't depend on the columns, and the length of the result
neither. -/
theorem decode_any {invert : Nat → Mat → Option Mat} {k f len : Nat} {er : Nat → Bool}
    {a b : List (List GF)} {x : List (List GF)} (h : decode invert k f len er a = some x) :
    ∃ y, decode invert k f len er b = some y ∧ y.length = (lostData er k).length ∧
      ∀ c ∈ y, c.length = len := by
  unfold decode at *
  dsimp only at *
  split at h
  · cases h
  · rename_i h1
    rw [if_neg h1]
    split at h
    · cases h
    · rename_i h2
      rw [if_neg h2]
      split at h
      · cases h
      · rename_i d h3
        refine ⟨_, rfl, by simp [ecEncode], ?_⟩
        intro c hc
        simp only [ecEncode, List.mem_map] at hc
        obtain ⟨i, -, rfl⟩ := hc
        simp

theorem slice_all (h : g.Lawful) {y : Buf} (hy : g.stripe ≤ y.length) {b : Nat} (hb : b < g.Y.k) :
    slice 0 g.col (column g y b) = column g y b := by
  have := column_length h hy hb
  unfold slice
  rw [List.drop_zero, List.take_of_length_le (by omega)]

/-- The data of a stripe, column by column. -/
theorem columns_flatten (y : Buf) :
    ((List.range g.Y.m).map (column g y)).flatten = y.take g.stripe := by
  have hst : g.stripe = g.Y.m * g.col := rfl
  rw [hst]
  have key : ∀ m ≤ g.Y.m, ((List.range m).map (column g y)).flatten = y.take (m * g.col) := by
    intro m
    induction m with
    | zero => intro _; simp
    | succ m ih =>
      intro hm
      rw [List.range_succ, List.map_append, List.flatten_append, ih (by omega), Nat.add_mul, Nat.one_mul,
        List.take_add]
      congr 1
      simp only [List.map_cons, List.map_nil, List.flatten_cons, List.flatten_nil, List.append_nil]
      unfold column
      rw [if_pos (by omega)]
  exact key _ (Nat.le_refl _)

theorem filter_index {p : Nat → Bool} : ∀ {m b : Nat}, b < m → p b = true →
    ((List.range m).filter p)[((List.range b).filter p).length]? = some b := by
  intro m
  induction m with
  | zero => intro b hb; omega
  | succ m ih =>
    intro b hb hp
    rw [List.range_succ, List.filter_append]
    rcases Nat.lt_or_ge b m with hlt | hge
    · have := ih hlt hp
      rw [List.getElem?_append_left]
      · exact this
      · exact (List.getElem?_eq_some_iff.mp this).1
    · have : b = m := by omega
      subst this
      rw [List.getElem?_append_right (Nat.le_refl _), Nat.sub_self]
      simp [hp]

theorem longStripe_surv (g : Geom) {f : Nat} (hf : g.Y.k = g.Y.m + f) (er : Nat → Bool) :
    (((List.range g.Y.m).filter fun b => !er b) ++
      ((List.range' g.Y.m (g.Y.k - g.Y.m)).filter fun b => !er b)).take g.Y.m =
    survivors er g.Y.m f := by
  unfold survivors
  rw [← List.filter_append, show g.Y.k - g.Y.m = f by omega, ← range_split]

/-- A stripe of a candidate never panics, and is right if the chunks it is made from are. -/
theorem longStripe_spec (h : g.Lawful) {f : Nat} (hf : g.Y.k = g.Y.m + f) (hk : g.Y.k ≤ 256)
    (hE : g.enc = codecEnc g.Y.m f g.col) {invert : Nat → Mat → Option Mat} (hI : Inverts invert)
    {got : Nat → Buf} (hlen : ∀ b < g.Y.k, (got b).length = g.col)
    {erased : List Nat} (hn : erasedCount (fun b => erased.contains b) g.Y.k ≤ f) :
    ∃ x, longStripe g.Y.m g.Y.k (codecDec invert g.Y.m f) g.col got erased = some x ∧
      x.length = g.stripe ∧
      ∀ y : Buf, g.stripe ≤ y.length →
        (∀ b < g.Y.m, b ∉ erased → got b = column g y b) →
        ((∀ b < g.Y.m, b ∉ erased) ∨
          ∀ b ∈ survivors (fun b => erased.contains b) g.Y.m f, g.Y.m ≤ b → got b = column g y b) →
        x = y.take g.stripe := by
  have hmk := h.layout.m_lt
  have hst : g.stripe = g.Y.m * g.col := rfl
  have hflen : ∀ (c : Nat → Buf), (∀ b < g.Y.m, (c b).length = g.col) →
      ((List.range g.Y.m).map c).flatten.length = g.stripe := by
    intro c hc
    rw [hst]
    have key : ∀ m ≤ g.Y.m, ((List.range m).map c).flatten.length = m * g.col := by
      intro m
      induction m with
      | zero => intro _; simp
      | succ m ih =>
        intro hm
        rw [List.range_succ, List.map_append, List.flatten_append, List.length_append, ih (by omega),
          Nat.add_mul, Nat.one_mul]
        simp [hc m (by omega)]
    exact key _ (Nat.le_refl _)
  unfold longStripe
  dsimp only
  rw [longStripe_surv g hf (fun b => erased.contains b)]
  obtain ⟨er, her⟩ : ∃ er : Nat → Bool, ∀ b, erased.contains b = er b := ⟨_, fun _ => rfl⟩
  have herb : ∀ b, er b = true ↔ b ∈ erased := by
    intro b; rw [← her]; simp
  simp only [her] at hn ⊢
  have herf : ∀ b, er b = false ↔ b ∉ erased := by
    intro b; rw [← herb]; simp
  have hmiss : (List.range g.Y.m).filter er = lostData er g.Y.m := rfl
  by_cases hm0 : (List.range g.Y.m).filter er = []
  · rw [if_pos hm0]
    refine ⟨_, rfl, hflen got (fun b hb => hlen b (by omega)), ?_⟩
    intro y hy hg _
    rw [← columns_flatten]
    congr 1
    apply List.map_congr_left
    intro b hb
    have hb := List.mem_range.mp hb
    apply hg b hb
    rw [← herf]
    rw [List.filter_eq_nil_iff] at hm0
    simpa using hm0 b (List.mem_range.mpr hb)
  · rw [if_neg hm0]
    have hl : ∃ j < g.Y.m, er j = true := by
      rw [List.filter_eq_nil_iff] at hm0
      apply Classical.byContradiction
      intro hno
      apply hm0
      intro b hb hc
      exact hno ⟨b, List.mem_range.mp hb, hc⟩
    have hn' : erasedCount er (g.Y.m + f) ≤ f := by rw [← hf]; exact hn
    -- decoding succeeds
    have hz := dec_slice h hf hk hE hI (y := List.replicate g.stripe 0) (by simp) hn' hl (a := 0)
      (n := g.col) (by omega)
    have hany : ∃ outs, codecDec invert g.Y.m f g.col er ((survivors er g.Y.m f).map got) = some outs ∧
        outs.length = (lostData er g.Y.m).length ∧ ∀ c ∈ outs, c.length = g.col := by
      unfold codecDec at *
      obtain ⟨z, hz1, -⟩ := Option.map_eq_some_iff.mp hz
      obtain ⟨y, h1, h2, h3⟩ := decode_any (b := ((survivors er g.Y.m f).map got).map
        fun c => c.map ofByte) hz1
      rw [h1]
      refine ⟨_, rfl, by simp [h2], ?_⟩
      intro c hc
      obtain ⟨c', hc', rfl⟩ := List.mem_map.mp hc
      rw [List.length_map]
      exact h3 c' hc'
    obtain ⟨outs, ho, hol, hoc⟩ := hany
    rw [ho]
    refine ⟨_, rfl, ?_, ?_⟩
    · apply hflen
      intro b hb
      by_cases hbe : er b = true
      · rw [if_pos hbe]
        have h1 := filter_index hb hbe
        have h2 := (List.getElem?_eq_some_iff.mp h1).1
        rw [hmiss, ← hol] at h2
        rw [List.getD_eq_getElem?_getD, List.getElem?_eq_getElem h2]
        exact hoc _ (List.getElem_mem _)
      · rw [if_neg hbe]
        exact hlen b (by omega)
    · intro y hy hg hp
      have hp : ∀ b ∈ survivors er g.Y.m f, g.Y.m ≤ b → got b = column g y b := by
        rcases hp with hp | hp
        · obtain ⟨j, hj, hje⟩ := hl
          exact absurd ((herb j).mp hje) (hp j hj)
        · exact hp
      have hall : ∀ b ∈ survivors er g.Y.m f, got b = slice 0 g.col (column g y b) := by
        intro b hb
        obtain ⟨h1, h2⟩ := mem_survivors_lt hb
        rw [slice_all h hy (by omega)]
        rcases Nat.lt_or_ge b g.Y.m with hlt | hge
        · exact hg b hlt ((herf b).mp h2)
        · exact hp b hb hge
      have hd := dec_slice h hf hk hE hI hy hn' hl (a := 0) (n := g.col) (by omega)
      rw [← List.map_congr_left hall, ho] at hd
      rw [Option.some.inj hd, ← columns_flatten]
      dsimp only
      congr 1
      apply List.map_congr_left
      intro b hb
      have hb := List.mem_range.mp hb
      by_cases hbe : er b = true
      · rw [if_pos hbe]
        have h1 := filter_index hb hbe
        rw [hmiss] at h1
        rw [List.getD_eq_getElem?_getD, List.getElem?_map, h1]
        exact slice_all h hy (by omega)
      · rw [if_neg hbe]
        exact hg b hb ((herf b).mp (by simpa using hbe))

end Verif.Raid
