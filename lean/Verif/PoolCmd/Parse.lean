import Verif.PoolCmd.Spec

/-!
# The lexer and the parser accept exactly the words of the specification
-/

namespace Verif.PoolCmd

/-! ### Characters -/

theorem diskStart_iff (c : Char) :
    diskStart c = true ↔ (c = '/' ∨ ('a' ≤ c ∧ c ≤ 'z') ∨ ('A' ≤ c ∧ c ≤ 'Z')) := by
  simp only [diskStart, Bool.or_eq_true, Bool.and_eq_true, decide_eq_true_eq, beq_iff_eq, Char.le_def,
    UInt32.le_iff_toNat_le, Char.toNat, or_assoc]
  rfl

theorem isDig_iff (c : Char) : isDig c = c.isDigit := by
  rw [Bool.eq_iff_iff]
  simp only [isDig, Char.isDigit, Bool.and_eq_true, decide_eq_true_eq, UInt32.le_iff_toNat_le,
    Char.toNat, ge_iff_le]
  rfl

theorem diskCont_iff (c : Char) : diskCont c = true ↔ c ≠ ' ' ∧ c ≠ '\t' ∧ c ≠ '\n' := by
  simp [diskCont, and_assoc]

theorem diskStart_not_ws {c : Char} (h : diskStart c = true) : isWs c = false := by
  simp only [diskStart, Bool.or_eq_true, Bool.and_eq_true, decide_eq_true_eq, beq_iff_eq] at h
  have : c = '/' → c.toNat = 47 := by rintro rfl; rfl
  have hn : c.toNat = 47 ∨ (97 ≤ c.toNat ∧ c.toNat ≤ 122) ∨ (65 ≤ c.toNat ∧ c.toNat ≤ 90) := by
    rcases h with (h | h) | h
    · exact .inl (this h)
    · exact .inr (.inl h)
    · exact .inr (.inr h)
  generalize hm : c.toNat = m at hn
  simp only [isWs, hm, Bool.or_eq_false_iff, Bool.and_eq_false_iff, decide_eq_false_iff_not,
    beq_eq_false_iff_ne]
  omega

theorem isDig_not_start {c : Char} (h : isDig c = true) : diskStart c = false := by
  simp only [isDig, Bool.and_eq_true, decide_eq_true_eq] at h
  have : c = '/' → c.toNat = 47 := by rintro rfl; rfl
  have h2 : c ≠ '/' := fun e => by have := this e; omega
  simp only [diskStart, Bool.or_eq_false_iff, Bool.and_eq_false_iff, decide_eq_false_iff_not,
    beq_eq_false_iff_ne]
  exact ⟨⟨h2, by omega⟩, by omega⟩

theorem isDig_not_ws {c : Char} (h : isDig c = true) : isWs c = false := by
  simp only [isDig, Bool.and_eq_true, decide_eq_true_eq] at h
  generalize hm : c.toNat = m at h
  simp only [isWs, hm, Bool.or_eq_false_iff, Bool.and_eq_false_iff, decide_eq_false_iff_not,
    beq_eq_false_iff_ne]
  omega

/-! ### Numbers -/

theorem value_snoc (s : Str) (c : Char) : value (s ++ [c]) = value s * 10 + (c.toNat - 48) := by
  simp [value]

theorem digit_toNat {d : Nat} (h : d < 10) : (Char.ofNat (48 + d)).toNat = 48 + d := by
  have : ∀ d : Fin 10, (Char.ofNat (48 + d.1)).toNat = 48 + d.1 := by decide
  exact this ⟨d, h⟩

theorem ofNat_of_dig {c : Char} (h : isDig c = true) : Char.ofNat (48 + (c.toNat - 48)) = c := by
  simp only [isDig, Bool.and_eq_true, decide_eq_true_eq] at h
  rw [show 48 + (c.toNat - 48) = c.toNat by omega]
  exact Char.ofNat_toNat c

theorem Decimal.spec {n : Nat} {s : Str} (h : Decimal n s) :
    s ≠ [] ∧ (∀ c ∈ s, isDig c = true) ∧ value s = n := by
  induction h with
  | digit d hd =>
    refine ⟨by simp, ?_, ?_⟩
    · intro c hc
      rw [List.mem_singleton.1 hc]
      simp [isDig, digit_toNat hd]; omega
    · simp [value, digit_toNat hd]
  | snoc d h hd ih =>
    obtain ⟨h1, h2, h3⟩ := ih
    refine ⟨by simp, ?_, ?_⟩
    · intro c hc
      rcases List.mem_append.1 hc with hc | hc
      · exact h2 c hc
      · rw [List.mem_singleton.1 hc]
        simp [isDig, digit_toNat hd]; omega
    · rw [value_snoc, h3, digit_toNat hd]; omega

theorem snoc_ind {α : Type} {p : List α → Prop} (l : List α) (h0 : p [])
    (h1 : ∀ l a, p l → p (l ++ [a])) : p l := by
  have : ∀ r : List α, p r.reverse := by
    intro r
    induction r with
    | nil => exact h0
    | cons a r ih => rw [List.reverse_cons]; exact h1 _ a ih
  simpa using this l.reverse

theorem decimal_of {s : Str} (hne : s ≠ []) (h : ∀ c ∈ s, isDig c = true) : Decimal (value s) s := by
  refine snoc_ind (p := fun s => s ≠ [] → (∀ c ∈ s, isDig c = true) → Decimal (value s) s) s
    (fun h => absurd rfl h) ?_ hne h
  intro l a ih _ h
  have ha := h a (by simp)
  have hlt : a.toNat - 48 < 10 := by
    simp only [isDig, Bool.and_eq_true, decide_eq_true_eq] at ha
    omega
  by_cases hl : l = []
  · subst hl
    have := Decimal.digit (a.toNat - 48) hlt
    rw [ofNat_of_dig ha] at this
    simpa [value] using this
  · have := Decimal.snoc (a.toNat - 48) (ih hl fun c hc => h c (by simp [hc])) hlt
    rw [ofNat_of_dig ha] at this
    rw [value_snoc, Nat.mul_comm]
    exact this

/-! ### Lexer -/

/-- The token a word is. -/
def tokOf : Str → Option Tok
  | [] => none
  | c :: cs =>
    if diskStart c then some (word (c :: cs))
    else if isDig c then some (.num (c :: cs))
    else none

theorem takeWhile_stop {p : Char → Bool} (l r : Str) (hl : ∀ c ∈ l, p c = true)
    (hr : r = [] ∨ ∃ c r', r = c :: r' ∧ p c = false) :
    (l ++ r).takeWhile p = l ∧ (l ++ r).dropWhile p = r := by
  induction l with
  | nil =>
    rcases hr with rfl | ⟨c, r', rfl, hc⟩
    · simp
    · simp [hc]
  | cons a l ih =>
    obtain ⟨h1, h2⟩ := ih fun c hc => hl c (by simp [hc])
    have ha := hl a (by simp)
    simp [ha, h1, h2]

theorem lex_word (a rest : Str) (ha : Plain a) (hr : rest = [] ∨ ∃ r', rest = ' ' :: r') :
    lex (a ++ rest) = (tokOf a).bind fun t => (lex rest).map (t :: ·) := by
  cases a with
  | nil => exact absurd rfl ha.nonempty
  | cons c cs =>
    have hws := ha.start c rfl
    rw [List.cons_append, lex]
    rw [if_neg (by simp [hws])]
    by_cases hs : diskStart c = true
    · rw [if_pos hs]
      have := takeWhile_stop (p := diskCont) cs rest
        (fun x hx => (diskCont_iff x).2 (ha.one x (by simp [hx]))) (by
          rcases hr with rfl | ⟨r', rfl⟩
          · exact .inl rfl
          · exact .inr ⟨' ', r', rfl, by decide⟩)
      rw [this.1, this.2]
      simp [tokOf, hs]
    · rw [if_neg hs]
      by_cases hd : isDig c = true
      · rw [if_pos hd]
        have hall := ha.number ⟨c, rfl, by rw [← isDig_iff]; exact hd⟩
        have := takeWhile_stop (p := isDig) cs rest
          (fun x hx => by rw [isDig_iff]; exact hall x (by simp [hx])) (by
            rcases hr with rfl | ⟨r', rfl⟩
            · exact .inl rfl
            · exact .inr ⟨' ', r', rfl, by decide⟩)
        rw [this.1, this.2]
        simp [tokOf, hs, hd]
      · rw [if_neg hd]
        simp [tokOf, hs, hd]

theorem lex_join (as : List Str) (h : ∀ a ∈ as, Plain a) : lex (joinSp as) = as.mapM tokOf := by
  induction as with
  | nil => simp [joinSp, lex]
  | cons a as ih =>
    have ha := h a (by simp)
    have ih := ih fun x hx => h x (by simp [hx])
    cases as with
    | nil =>
      have := lex_word a [] ha (.inl rfl)
      rw [List.append_nil] at this
      rw [joinSp, this]
      simp [lex]
    | cons b bs =>
      rw [joinSp, lex_word a _ ha (.inr ⟨_, rfl⟩)]
      have : lex (' ' :: joinSp (b :: bs)) = lex (joinSp (b :: bs)) := by
        rw [lex, if_pos (by decide)]
      rw [this, ih]
      conv => rhs; rw [List.mapM_cons]
      cases tokOf a with
      | none => rfl
      | some t =>
        cases (b :: bs).mapM tokOf <;> rfl
      intro h; simp at h

/-! ### Tokens and words -/

def Tok.text : Tok → Str
  | .mirror => kwMirror
  | .raid => kwRaid
  | .num s => s
  | .disk s => s

/-- What a token can be. -/
def Tok.Good : Tok → Prop
  | .num s => s ≠ [] ∧ ∀ c ∈ s, isDig c = true
  | .disk s => IsDisk s
  | _ => True

theorem tokOf_good {a : Str} (ha : Plain a) {t : Tok} (h : tokOf a = some t) :
    t.text = a ∧ t.Good := by
  cases a with
  | nil => cases h
  | cons c cs =>
    unfold tokOf at h
    dsimp only at h
    by_cases hs : diskStart c = true
    · rw [if_pos hs] at h
      cases h
      unfold word
      by_cases h1 : c :: cs = kwMirror
      · rw [if_pos h1]; exact ⟨h1.symm, trivial⟩
      · rw [if_neg h1]
        by_cases h2 : c :: cs = kwRaid
        · rw [if_pos h2]; exact ⟨h2.symm, trivial⟩
        · rw [if_neg h2]
          exact ⟨rfl, ⟨⟨c, cs, rfl, (diskStart_iff c).1 hs⟩, ha.one, h1, h2⟩⟩
    · rw [if_neg hs] at h
      by_cases hd : isDig c = true
      · rw [if_pos hd] at h
        cases h
        refine ⟨rfl, by simp, ?_⟩
        intro x hx
        rw [isDig_iff]
        exact ha.number ⟨c, rfl, by rw [← isDig_iff]; exact hd⟩ x hx
      · rw [if_neg hd] at h
        cases h

theorem tokOf_text {t : Tok} (h : t.Good) : tokOf t.text = some t := by
  cases t with
  | mirror => decide
  | raid => decide
  | num s =>
    obtain ⟨h1, h2⟩ := h
    cases s with
    | nil => exact absurd rfl h1
    | cons c cs =>
      have := h2 c (by simp)
      show tokOf (c :: cs) = _
      unfold tokOf
      dsimp only
      rw [if_neg (by simp [isDig_not_start this]), if_pos this]
  | disk s =>
    obtain ⟨⟨c, cs, rfl, hs⟩, _, h1, h2⟩ := h
    show tokOf (c :: cs) = _
    unfold tokOf
    dsimp only
    rw [if_pos ((diskStart_iff c).2 hs)]
    have h1 : c :: cs ≠ kwMirror := h1
    have h2 : c :: cs ≠ kwRaid := h2
    unfold word
    rw [if_neg h1, if_neg h2]

theorem mapM_tokOf {as : List Str} (h : ∀ a ∈ as, Plain a) {ts : List Tok}
    (ht : as.mapM tokOf = some ts) : as = ts.map Tok.text ∧ ∀ t ∈ ts, t.Good := by
  induction as generalizing ts with
  | nil => simp at ht; subst ht; simp
  | cons a as ih =>
    rw [List.mapM_cons] at ht
    cases h1 : tokOf a with
    | none => rw [h1] at ht; cases ht
    | some t =>
      cases h2 : as.mapM tokOf with
      | none => rw [h1, h2] at ht; cases ht
      | some ts' =>
        rw [h1, h2] at ht
        cases ht
        obtain ⟨h3, h4⟩ := ih (fun x hx => h x (by simp [hx])) h2
        obtain ⟨h5, h6⟩ := tokOf_good (h a (by simp)) h1
        refine ⟨by simp [h5, ← h3], ?_⟩
        intro x hx
        rcases List.mem_cons.1 hx with rfl | hx
        · exact h6
        · exact h4 x hx

theorem mapM_text {ts : List Tok} (h : ∀ t ∈ ts, t.Good) : (ts.map Tok.text).mapM tokOf = some ts := by
  induction ts with
  | nil => simp
  | cons t ts ih =>
    rw [List.map_cons, List.mapM_cons, tokOf_text (h t (by simp)), ih fun x hx => h x (by simp [hx])]
    rfl

/-! ### Parser -/

theorem disks_sound (ts : List Tok) :
    ts = (disks ts).1.map .disk ++ (disks ts).2 ∧ ∀ d r, (disks ts).2 ≠ .disk d :: r := by
  fun_induction disks ts with
  | case1 d ts ih =>
    refine ⟨?_, ih.2⟩
    simp only [List.map_cons, List.cons_append]
    rw [← ih.1]
  | case2 ts h => exact ⟨rfl, fun d r e => h d r e⟩

theorem disks_complete (ds : List Str) (rest : List Tok) (h : ∀ d r, rest ≠ .disk d :: r) :
    disks (ds.map .disk ++ rest) = (ds, rest) := by
  induction ds with
  | nil =>
    show disks rest = _
    unfold disks
    split
    · rename_i d ts
      exact absurd rfl (h d ts)
    · rfl
  | cons d ds ih =>
    simp only [List.map_cons, List.cons_append, disks, ih]

/-- The tokens of some mirrors. -/
def mirrorToks (ms : List (List Str)) : List Tok := ms.flatMap fun ds => .mirror :: ds.map .disk

theorem mirrors_sound (ts : List Tok) {r} (h : mirrors ts = some r) :
    ts = mirrorToks r.1 ++ r.2 ∧ (∀ ds ∈ r.1, ds ≠ []) := by
  fun_induction mirrors ts generalizing r with
  | case1 ts hd => cases h
  | case2 ts d ds hd ih =>
    cases hm : mirrors (disks ts).2 with
    | none => rw [hm] at h; cases h
    | some q =>
      rw [hm] at h
      cases h
      obtain ⟨h1, h2⟩ := ih hm
      have h3 := (disks_sound ts).1
      rw [hd] at h3
      refine ⟨?_, ?_⟩
      · show Tok.mirror :: ts = ((Tok.mirror :: (d :: ds).map .disk) ++ mirrorToks q.1) ++ q.2
        rw [List.append_assoc, ← h1]
        simp only [List.cons_append, List.map_cons] at h3 ⊢
        rw [← h3]
      · intro x hx
        rcases List.mem_cons.1 hx with rfl | hx
        · simp
        · exact h2 x hx
  | case3 ts => cases h; exact ⟨rfl, by simp⟩

theorem mirrorToks_head (ms : List (List Str)) (rest : List Tok) (hr : ∀ d r, rest ≠ .disk d :: r) :
    ∀ d r, mirrorToks ms ++ rest ≠ .disk d :: r := by
  cases ms with
  | nil => exact hr
  | cons m ms => intro d r h; simp [mirrorToks] at h

theorem mirrors_complete (ms : List (List Str)) (hne : ∀ ds ∈ ms, ds ≠ []) (rest : List Tok)
    (hr : ∀ d r, rest ≠ .disk d :: r) (hm : ∀ r, rest ≠ .mirror :: r) :
    mirrors (mirrorToks ms ++ rest) = some (ms, rest) := by
  induction ms with
  | nil =>
    show mirrors rest = _
    unfold mirrors
    split
    · rename_i r
      exact absurd rfl (hm r)
    · rfl
  | cons m ms ih =>
    have hd := disks_complete m (mirrorToks ms ++ rest) (mirrorToks_head ms rest hr)
    show mirrors ((Tok.mirror :: m.map .disk ++ mirrorToks ms) ++ rest) = _
    rw [List.cons_append, List.cons_append, mirrors, List.append_assoc, hd]
    cases m with
    | nil => exact absurd rfl (hne [] (by simp))
    | cons d ds =>
      dsimp only
      rw [ih fun x hx => hne x (by simp [hx])]
      rfl

theorem text_disks (ds : List Str) : (ds.map Tok.disk).map Tok.text = ds := by
  induction ds with
  | nil => rfl
  | cons d ds ih =>
    simp only [List.map_cons]
    rw [ih]; rfl

theorem text_mirrors (ms : List (List Str)) : (mirrorToks ms).map Tok.text = mirrorWords ms := by
  induction ms with
  | nil => rfl
  | cons m ms ih =>
    show ((Tok.mirror :: m.map Tok.disk) ++ mirrorToks ms).map Tok.text = (_ :: m) ++ mirrorWords ms
    rw [List.map_append, ih, List.map_cons, text_disks]
    rfl

theorem areDisks_of {ds : List Str} (hne : ds ≠ []) (h : ∀ t ∈ ds.map Tok.disk, t.Good) :
    AreDisks ds :=
  ⟨hne, fun d hd => h (.disk d) (List.mem_map.2 ⟨d, hd, rfl⟩)⟩

theorem areMirrors_of {ms : List (List Str)} (hne : ms ≠ []) (h0 : ∀ ds ∈ ms, ds ≠ [])
    (h : ∀ t ∈ mirrorToks ms, t.Good) : AreMirrors ms := by
  refine ⟨hne, fun ds hds => areDisks_of (h0 ds hds) ?_⟩
  intro t ht
  exact h t (List.mem_flatMap.2 ⟨ds, hds, List.mem_cons_of_mem _ ht⟩)

theorem disks_ne {d : Str} {r : List Tok} : (disks (.disk d :: r)).1 ≠ [] := by simp [disks]

theorem mirrors_ne {r : List Tok} {q} (h : mirrors (.mirror :: r) = some q) : q.1 ≠ [] := by
  rw [mirrors] at h
  split at h
  · cases h
  · rename_i d ds hd
    cases hm : mirrors (disks r).2 with
    | none => rw [hm] at h; cases h
    | some x => rw [hm] at h; cases h; simp

theorem children_sound (ts : List Tok) (hg : ∀ t ∈ ts, t.Good) {r} (h : children ts = some r) :
    ∃ us, ts = us ++ r.2 ∧ Children r.1 (us.map Tok.text) := by
  unfold children at h
  split at h
  · rename_i d rest
    cases h
    have hs := (disks_sound (.disk d :: rest)).1
    refine ⟨_, hs, ?_⟩
    rw [text_disks]
    exact .disks (areDisks_of disks_ne fun t ht => hg t (by rw [hs]; exact List.mem_append_left _ ht))
  · rename_i rest
    cases hm : mirrors (.mirror :: rest) with
    | none => rw [hm] at h; cases h
    | some q =>
      rw [hm] at h
      cases h
      obtain ⟨h1, h2⟩ := mirrors_sound _ hm
      refine ⟨_, h1, ?_⟩
      rw [text_mirrors]
      exact .mirrors (areMirrors_of (mirrors_ne hm) h2 fun t ht =>
        hg t (by rw [h1]; exact List.mem_append_left _ ht))
  · cases h

theorem num_spec {s : Str} {n : Nat} (h : num s = some n) : value s = n ∧ n ≤ 32767 := by
  unfold num at h
  split at h
  · cases h; exact ⟨rfl, by assumption⟩
  · cases h

theorem raids_sound (ts : List Tok) (hg : ∀ t ∈ ts, t.Good) {l} (h : raids ts = some l) :
    Raids l (ts.map Tok.text) := by
  fun_induction raids ts generalizing l with
  | case1 => cases h; exact .nil
  | case2 k f ts k' f' hf hk cs rest hc ih =>
    cases hr : raids rest with
    | none => rw [hr] at h; cases h
    | some l' =>
      rw [hr] at h
      cases h
      obtain ⟨us, hu, hcs⟩ := children_sound ts (fun t ht => hg t (by simp [ht])) hc
      have hrest := ih (fun t ht => hg t (by simp [hu, ht])) hr
      obtain ⟨hk1, hk2⟩ := num_spec hk
      obtain ⟨hf1, hf2⟩ := num_spec hf
      have gk : Tok.Good (.num k) := hg _ (by simp)
      have gf : Tok.Good (.num f) := hg _ (by simp)
      have := Raids.cons (hk1 ▸ decimal_of gk.1 gk.2) hk2 (hf1 ▸ decimal_of gf.1 gf.2) hf2 hcs hrest
      rw [hu]
      simp only [List.map_cons, List.map_append, Tok.text]
      exact this
  | case3 => cases h
  | case4 => cases h
  | case5 => cases h

theorem pool_sound (ts : List Tok) (hg : ∀ t ∈ ts, t.Good) {l} (h : pool ts = some l) :
    Describes l (ts.map Tok.text) := by
  unfold pool at h
  split at h
  · rename_i d rest
    split at h
    · rename_i he
      cases h
      have hs := (disks_sound (.disk d :: rest)).1
      rw [he, List.append_nil] at hs
      have ha := areDisks_of disks_ne fun t ht => hg t (by rw [hs]; exact ht)
      have := Describes.disks ha
      rw [hs, text_disks, ← hs]
      exact this
    · cases h
  · rename_i rest
    cases hm : mirrors (.mirror :: rest) with
    | none => rw [hm] at h; cases h
    | some q =>
      obtain ⟨ms, r⟩ := q
      rw [hm] at h
      cases r with
      | cons a b => cases h
      | nil =>
        cases h
        obtain ⟨h1, h2⟩ := mirrors_sound _ hm
        rw [List.append_nil] at h1
        have ha := areMirrors_of (mirrors_ne hm) h2 fun t ht => hg t (by rw [h1]; exact ht)
        have := Describes.mirrors ha
        rw [h1, text_mirrors]
        exact this
  · rename_i rest
    refine .raids ?_ (raids_sound _ hg h)
    rintro rfl
    have := raids_sound _ hg h
    cases this
  · cases h

/-! The other direction. -/

theorem good_disks {ds : List Str} (h : ∀ d ∈ ds, IsDisk d) : ∀ t ∈ ds.map Tok.disk, t.Good := by
  intro t ht
  obtain ⟨d, hd, rfl⟩ := List.mem_map.1 ht
  exact h d hd

theorem good_mirrors {ms : List (List Str)} (h : AreMirrors ms) : ∀ t ∈ mirrorToks ms, t.Good := by
  intro t ht
  obtain ⟨ds, hds, ht⟩ := List.mem_flatMap.1 ht
  rcases List.mem_cons.1 ht with rfl | ht
  · trivial
  · exact good_disks (h.2 ds hds).2 t ht

theorem children_complete {cs : List RaidChild} {ws : List Str} (h : Children cs ws) :
    ∃ us, us.map Tok.text = ws ∧ (∀ t ∈ us, t.Good) ∧
      ∀ rest, (∀ d r, rest ≠ .disk d :: r) → (∀ r, rest ≠ .mirror :: r) →
        children (us ++ rest) = some (cs, rest) := by
  cases h with
  | disks ha =>
    refine ⟨ws.map .disk, text_disks _, good_disks ha.2, ?_⟩
    intro rest h1 h2
    cases ws with
    | nil => exact absurd rfl ha.1
    | cons d ds =>
      have := disks_complete (d :: ds) rest h1
      simp only [List.map_cons, List.cons_append] at this ⊢
      rw [children, this]
      rfl
  | @mirrors ms ha =>
    refine ⟨mirrorToks ms, text_mirrors _, good_mirrors ha, ?_⟩
    intro rest h1 h2
    have hm := mirrors_complete ms (fun ds hds => (ha.2 ds hds).1) rest h1 h2
    cases ms with
    | nil => exact absurd rfl ha.1
    | cons m ms =>
      have he : mirrorToks (m :: ms) ++ rest =
          .mirror :: (m.map .disk ++ mirrorToks ms ++ rest) := by
        simp [mirrorToks]
      rw [he] at hm ⊢
      rw [children, hm]
      rfl

theorem raids_head {ts : List Tlv} {ws : List Str} (h : Raids ts ws) :
    ∃ us, us.map Tok.text = ws ∧ (∀ t ∈ us, t.Good) ∧ raids us = some ts ∧
      (∀ d r, us ≠ .disk d :: r) ∧ (∀ r, us ≠ .mirror :: r) ∧ (ts ≠ [] → ∃ r, us = .raid :: r) := by
  induction h with
  | nil => exact ⟨[], rfl, by simp, by simp [raids], by simp, by simp, fun h => absurd rfl h⟩
  | @cons k f ks fs cs ws ts rest hk hk' hf hf' hc _ ih =>
    obtain ⟨us, h1, h2, h3, h4, h5, _⟩ := ih
    obtain ⟨vs, g1, g2, g3⟩ := children_complete hc
    obtain ⟨k1, k2, k3⟩ := hk.spec
    obtain ⟨f1, f2, f3⟩ := hf.spec
    refine ⟨.raid :: .num ks :: .num fs :: (vs ++ us), ?_, ?_, ?_, by simp, by simp,
      fun _ => ⟨_, rfl⟩⟩
    · simp [Tok.text, g1, h1]; rfl
    · intro t ht
      simp only [List.mem_cons, List.mem_append] at ht
      rcases ht with rfl | rfl | rfl | ht | ht
      · trivial
      · exact ⟨k1, k2⟩
      · exact ⟨f1, f2⟩
      · exact g2 t ht
      · exact h2 t ht
    · have hnk : num ks = some k := by unfold num; rw [k3, if_pos hk']
      have hnf : num fs = some f := by unfold num; rw [f3, if_pos hf']
      rw [raids, hnk, hnf]
      dsimp only
      split
      · rename_i cs' rest' he
        rw [g3 us h4 h5] at he
        cases he
        rw [h3]
        rfl
      · rename_i he
        rw [g3 us h4 h5] at he
        cases he

theorem pool_complete {l : List Tlv} {ws : List Str} (h : Describes l ws) :
    ∃ us, us.map Tok.text = ws ∧ (∀ t ∈ us, t.Good) ∧ pool us = some l := by
  cases h with
  | disks ha =>
    refine ⟨ws.map .disk, text_disks _, good_disks ha.2, ?_⟩
    have := disks_complete ws [] (by simp)
    rw [List.append_nil] at this
    cases ws with
    | nil => exact absurd rfl ha.1
    | cons d ds =>
      simp only [List.map_cons] at this ⊢
      rw [pool, this]
      rfl
  | @mirrors ms ha =>
    refine ⟨mirrorToks ms, text_mirrors _, good_mirrors ha, ?_⟩
    have hm := mirrors_complete ms (fun ds hds => (ha.2 ds hds).1) [] (by simp) (by simp)
    rw [List.append_nil] at hm
    cases ms with
    | nil => exact absurd rfl ha.1
    | cons m ms =>
      have he : mirrorToks (m :: ms) = .mirror :: (m.map .disk ++ mirrorToks ms) := by
        simp [mirrorToks]
      rw [he] at hm ⊢
      rw [pool, hm]
  | raids hne hr =>
    obtain ⟨us, h1, h2, h3, _, _, h6⟩ := raids_head hr
    obtain ⟨r, rfl⟩ := h6 hne
    exact ⟨_, h1, h2, by rw [pool, h3]⟩

end Verif.PoolCmd
