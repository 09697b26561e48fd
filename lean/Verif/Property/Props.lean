import Verif.Property.Model

/-!
# C55: properties are printed and parsed back

The command line writes a property as its name, an equals sign and its value.
-/

namespace Verif.Property

/-- A property as text. -/
def Prp.text (p : Prp) : Option Str := p.display.map fun v => p.pname.display ++ '=' :: v

/-- The properties one may set: access times on or off, any mount point, and record sizes from 4 kB
to 1 MB. -/
def Legal : Prp → Prop
  | .atime _ => True
  | .mountpoint _ => True
  | .recordSize e => 12 ≤ e.toNat ∧ e.toNat ≤ 20
  | _ => False

theorem splitFirst_append (c : Char) (a b : Str) (h : c ∉ a) :
    splitFirst c (a ++ c :: b) = (a, some b) := by
  induction a with
  | nil => simp [splitFirst]
  | cons x xs ih =>
    have hx : x ≠ c := fun e => h (by simp [e])
    have := ih (fun hm => h (List.mem_cons_of_mem _ hm))
    simp [splitFirst, hx, this]

theorem parse_text (n : PName) (v : Str) :
    parse (n.display ++ '=' :: v) = parseValue n v := by
  unfold parse
  rw [splitFirst_append '=' n.display v (by cases n <;> decide)]
  cases n <;> simp (decide := true) [PName.parse, PName.display]

theorem uint8_cases (e : UInt8) (h : 12 ≤ e.toNat ∧ e.toNat ≤ 20) :
    e = 12 ∨ e = 13 ∨ e = 14 ∨ e = 15 ∨ e = 16 ∨ e = 17 ∨ e = 18 ∨ e = 19 ∨ e = 20 := by
  have key : ∀ n : UInt8, e.toNat = n.toNat → e = n := fun n hn => UInt8.toNat_inj.1 hn
  have : e.toNat = 12 ∨ e.toNat = 13 ∨ e.toNat = 14 ∨ e.toNat = 15 ∨ e.toNat = 16 ∨ e.toNat = 17 ∨
      e.toNat = 18 ∨ e.toNat = 19 ∨ e.toNat = 20 := by omega
  rcases this with h | h | h | h | h | h | h | h | h
  · exact .inl (key 12 h)
  · exact .inr (.inl (key 13 h))
  · exact .inr (.inr (.inl (key 14 h)))
  · exact .inr (.inr (.inr (.inl (key 15 h))))
  · exact .inr (.inr (.inr (.inr (.inl (key 16 h)))))
  · exact .inr (.inr (.inr (.inr (.inr (.inl (key 17 h))))))
  · exact .inr (.inr (.inr (.inr (.inr (.inr (.inl (key 18 h)))))))
  · exact .inr (.inr (.inr (.inr (.inr (.inr (.inr (.inl (key 19 h))))))))
  · exact .inr (.inr (.inr (.inr (.inr (.inr (.inr (.inr (key 20 h))))))))

instance (p : Prp) : Decidable (Legal p) := by
  cases p <;> unfold Legal <;> infer_instance

/-- **C55 (partial).** Every legal property except the largest record size, printed, parses back to
itself.

Full statement: the same without `p ≠ .recordSize 20`.  It is false, `C55_largest_recordsize`. -/
theorem C55_round_trip_partial (p : Prp) (h : Legal p) (hp : p ≠ .recordSize 20) :
    ∃ s, p.text = some s ∧ parse s = .ok p := by
  cases p with
  | atime b =>
    cases b
    · exact ⟨_, rfl, by rw [parse_text]; rfl⟩
    · exact ⟨_, rfl, by rw [parse_text]; rfl⟩
  | mountpoint s => exact ⟨_, rfl, by rw [parse_text]; rfl⟩
  | recordSize e =>
    rcases uint8_cases e h with rfl | rfl | rfl | rfl | rfl | rfl | rfl | rfl | rfl
    case inr.inr.inr.inr.inr.inr.inr.inr => exact absurd rfl hp
    all_goals exact ⟨_, rfl, by rw [parse_text]; decide +kernel⟩
  | baseMountpoint s => exact absurd h id
  | name s => exact absurd h id

/-- The hypotheses are met, and the text is the one expected. -/
example : Legal (.recordSize 17) ∧
    (Prp.recordSize 17).text = some ['r', 'e', 'c', 'o', 'r', 'd', 's', 'i', 'z', 'e', '=', '1', '3', '1', '0', '7', '2'] ∧
    (Prp.mountpoint ['/', 'a', '=', 'b']).text = some ['m', 'o', 'u', 'n', 't', 'p', 'o', 'i', 'n', 't', '=', '/', 'a', '=', 'b'] := by decide +kernel

/-- **C55 fails for the largest record size**: the parser's table has 1048776 where it should have
1048576, so the printed form is rejected. -/
theorem C55_largest_recordsize : Legal (.recordSize 20) ∧
    (Prp.recordSize 20).text = some ['r', 'e', 'c', 'o', 'r', 'd', 's', 'i', 'z', 'e', '=', '1', '0', '4', '8', '5', '7', '6'] ∧
    parse ['r', 'e', 'c', 'o', 'r', 'd', 's', 'i', 'z', 'e', '=', '1', '0', '4', '8', '5', '7', '6'] = .error (.value ['1', '0', '4', '8', '5', '7', '6']) ∧
    parse ['r', 'e', 'c', 'o', 'r', 'd', 's', 'i', 'z', 'e', '=', '1', '0', '4', '8', '7', '7', '6'] = .ok (.recordSize 20) := by decide +kernel

/-- Whatever the parser accepts is a legal property, so nothing illegal can be set. -/
theorem C55_parse_legal (s : Str) (p : Prp) (h : parse s = .ok p) : Legal p := by
  have hv : ∀ n v, parseValue n v = .ok p → Legal p := by
    intro n v h
    cases n with
    | atime =>
      simp only [parseValue] at h
      split at h
      · cases h; trivial
      · split at h <;> cases h
        trivial
    | baseMountpoint => cases h
    | mountpoint => cases h; trivial
    | name => cases h
    | recordSize =>
      simp only [parseValue] at h
      split at h
      · split at h
        · rename_i e he
          cases h
          unfold recordSizeOf at he
          simp only [Legal]
          repeat (split at he; · cases he; decide)
          cases he
        · cases h
      · cases h
  unfold parse at h
  dsimp only at h
  split at h
  · cases h
  · split at h
    · exact hv _ _ h
    · split at h
      · exact hv _ _ h
      · cases h

/-- So no two strings that mean different settings print alike, and parsing what was printed is
stable: a string the parser accepts, printed in the canonical form, gives the same property. -/
theorem C55_parse_stable_partial (s : Str) (p : Prp) (h : parse s = .ok p)
    (hp : p ≠ .recordSize 20) : ∃ t, p.text = some t ∧ parse t = .ok p :=
  C55_round_trip_partial p (C55_parse_legal s p h) hp

/-- **C55.** Property names, printed, parse back. -/
theorem C55_names (n : PName) : PName.parse n.display = some n := by
  cases n <;> decide

/-- **C55.** The sources "default" and "local", and "inherited" from the parent, parse back. -/
theorem C55_sources_partial (s : Source) (h : s = .default ∨ s = .set 0 ∨ s = .set 1) :
    Source.parse s.display = some s := by
  rcases h with rfl | rfl | rfl <;> decide

/-- The other sources do not: a value inherited from a grandparent comes back as inherited from the
parent, and a pseudo-property's missing source as inherited. -/
theorem C55_sources_lost :
    (∀ i : UInt8, 1 < i.toNat → Source.parse (Source.set i).display = some (.set 1)) ∧
    Source.parse Source.none.display = some (.set 1) := by
  refine ⟨?_, by decide⟩
  intro i hi
  have : i ≠ 0 := by intro e; subst e; simp at hi
  simp only [Source.display, this, if_false]
  decide

/-- The printed number is the right one: the decimal digits, read back as `usize`, are the number. -/
theorem digitsVal_append (acc : Nat) (a b : Str) :
    digitsVal acc (a ++ b) = (digitsVal acc a).bind fun x => digitsVal x b := by
  induction a generalizing acc with
  | nil => rfl
  | cons c cs ih =>
    simp only [List.cons_append, digitsVal]
    split
    · split
      · exact ih _
      · rfl
    · rfl

theorem char_digit (d : Nat) (h : d < 10) : (Char.ofNat (48 + d)).toNat = 48 + d := by
  have : d = 0 ∨ d = 1 ∨ d = 2 ∨ d = 3 ∨ d = 4 ∨ d = 5 ∨ d = 6 ∨ d = 7 ∨ d = 8 ∨ d = 9 := by omega
  rcases this with rfl | rfl | rfl | rfl | rfl | rfl | rfl | rfl | rfl | rfl <;> decide

theorem digitsVal_digits (n : Nat) (h : n < 2 ^ 64) : digitsVal 0 (digits n) = some n := by
  fun_induction digits n with
  | case1 n hn =>
    have := char_digit n hn
    simp [digitsVal, this]
    omega
  | case2 n hn ih =>
    rw [digitsVal_append, ih (by omega)]
    have := char_digit (n % 10) (by omega)
    simp only [Option.bind_some, digitsVal, this]
    rw [if_pos (by omega), if_pos (by omega)]
    congr 1
    omega

/-- **C55.** Every number below `2^64`, printed in decimal, parses back to itself. -/
theorem C55_numbers (n : Nat) (h : n < 2 ^ 64) : parseUsize (digits n) = some n := by
  have hv := digitsVal_digits n h
  cases hd : digits n with
  | nil => rw [hd] at hv; unfold digits at hd; split at hd <;> simp at hd
  | cons c cs =>
    have hc : c ≠ '+' := by
      rintro rfl
      rw [hd, digitsVal, if_neg (by decide)] at hv
      cases hv
    rw [hd] at hv
    unfold parseUsize
    split
    · rename_i h; cases h
    · rename_i h; cases h; exact absurd rfl hc
    · rename_i h; cases h; exact absurd rfl hc
    · exact hv

/-! ### Exactly which texts are accepted -/

/-- A decimal number: an optional plus sign, then digits. -/
def Number (v : Str) (n : Nat) : Prop :=
  ∃ ds, (v = ds ∨ v = '+' :: ds) ∧ ds ≠ [] ∧ (∀ c ∈ ds, '0'.toNat ≤ c.toNat ∧ c.toNat ≤ '9'.toNat) ∧
    ds.foldl (fun a c => a * 10 + (c.toNat - '0'.toNat)) 0 = n ∧ n < 2 ^ 64

/-- The texts the command line accepts and what they mean. -/
inductive Accepts : Str → Prp → Prop where
  | atime : Accepts ['a', 't', 'i', 'm', 'e'] (.atime true)
  | on (v) : v = ['o', 'n'] ∨ v = ['t', 'r', 'u', 'e'] →
      Accepts (['a', 't', 'i', 'm', 'e'] ++ '=' :: v) (.atime true)
  | off (v) : v = ['o', 'f', 'f'] ∨ v = ['f', 'a', 'l', 's', 'e'] →
      Accepts (['a', 't', 'i', 'm', 'e'] ++ '=' :: v) (.atime false)
  | mountpoint (v) : Accepts (['m', 'o', 'u', 'n', 't', 'p', 'o', 'i', 'n', 't'] ++ '=' :: v) (.mountpoint v)
  | recordsize (w v e n) :
      w = ['r', 'e', 'c', 'o', 'r', 'd', 's', 'i', 'z', 'e'] ∨ w = ['r', 'e', 'c', 's', 'i', 'z', 'e'] →
      Number v n → (12 ≤ e.toNat ∧ e.toNat ≤ 19 ∧ n = 2 ^ e.toNat ∨ e = 20 ∧ n = 1048776) →
      Accepts (w ++ '=' :: v) (.recordSize e)

theorem foldl_ge (ds : Str) (a : Nat) :
    a ≤ ds.foldl (fun a c => a * 10 + (c.toNat - '0'.toNat)) a := by
  induction ds generalizing a with
  | nil => exact Nat.le_refl _
  | cons c cs ih => exact Nat.le_trans (by show a ≤ a * 10 + (c.toNat - '0'.toNat); omega) (ih _)

theorem digitsVal_iff (ds : Str) (a n : Nat) (ha : a < 2 ^ 64) : digitsVal a ds = some n ↔
    (∀ c ∈ ds, '0'.toNat ≤ c.toNat ∧ c.toNat ≤ '9'.toNat) ∧
    ds.foldl (fun a c => a * 10 + (c.toNat - '0'.toNat)) a = n ∧ n < 2 ^ 64 := by
  have h0 : '0'.toNat = 48 := by decide
  have h9 : '9'.toNat = 57 := by decide
  induction ds generalizing a with
  | nil =>
    simp only [digitsVal, Option.some.injEq, List.foldl_nil]
    constructor
    · rintro rfl; exact ⟨by simp, rfl, ha⟩
    · exact fun h => h.2.1
  | cons c cs ih =>
    simp only [digitsVal, List.foldl_cons, List.forall_mem_cons]
    by_cases hc : 48 ≤ c.toNat ∧ c.toNat < 58
    · rw [if_pos hc]
      by_cases hl : a * 10 + (c.toNat - 48) < 2 ^ 64
      · rw [if_pos hl]
        refine (ih _ hl).trans ?_
        constructor
        · rintro ⟨h1, h2⟩; exact ⟨⟨by omega, h1⟩, h2⟩
        · rintro ⟨⟨_, h1⟩, h2⟩; exact ⟨h1, h2⟩
      · rw [if_neg hl]
        constructor
        · intro h; cases h
        · rintro ⟨_, h2, h3⟩
          have := foldl_ge cs (a * 10 + (c.toNat - '0'.toNat))
          omega
    · rw [if_neg hc]
      constructor
      · intro h; cases h
      · rintro ⟨⟨h, _⟩, _⟩; omega

theorem parseUsize_iff (v : Str) (n : Nat) : parseUsize v = some n ↔ Number v n := by
  have plus : ¬ ('0'.toNat ≤ '+'.toNat ∧ '+'.toNat ≤ '9'.toNat) := by decide
  unfold parseUsize
  split
  · constructor
    · intro h; cases h
    · rintro ⟨ds, rfl | h, h2, _⟩
      · exact absurd rfl h2
      · cases h
  · constructor
    · intro h; cases h
    · rintro ⟨ds, rfl | h, h2, h3, _⟩
      · exact absurd (h3 '+' (by simp)) plus
      · cases h; exact absurd rfl h2
  · rename_i cs hcs
    rw [digitsVal_iff _ _ _ (by decide)]
    constructor
    · exact fun h => ⟨cs, .inr rfl, fun e => hcs e, h⟩
    · rintro ⟨ds, rfl | h, h2, h3⟩
      · exact absurd (h3.1 '+' (by simp)) plus
      · cases h; exact h3
  · rename_i h1 h2 h3
    rw [digitsVal_iff _ _ _ (by decide)]
    constructor
    · exact fun h => ⟨v, .inl rfl, fun e => h1 e, h⟩
    · rintro ⟨ds, rfl | h, h4, h5⟩
      · exact h5
      · exact absurd h (h3 ds)

theorem splitFirst_spec (c : Char) (s : Str) :
    match splitFirst c s with
    | (a, some b) => s = a ++ c :: b ∧ c ∉ a
    | (a, none) => s = a ∧ c ∉ a := by
  induction s with
  | nil => exact ⟨rfl, by simp⟩
  | cons x xs ih =>
    unfold splitFirst
    by_cases h : x = c
    · subst h; simp
    · rw [if_neg h]
      rcases h' : splitFirst c xs with ⟨a, b⟩
      rw [h'] at ih
      cases b with
      | none =>
        simp only at ih ⊢
        exact ⟨by rw [ih.1], by simp only [List.mem_cons, not_or]; exact ⟨fun e => h e.symm, ih.2⟩⟩
      | some b =>
        simp only at ih ⊢
        exact ⟨by rw [ih.1]; rfl, by simp only [List.mem_cons, not_or]; exact ⟨fun e => h e.symm, ih.2⟩⟩

theorem recordSizeOf_iff (n : Nat) (e : UInt8) : recordSizeOf n = some e ↔
    12 ≤ e.toNat ∧ e.toNat ≤ 19 ∧ n = 2 ^ e.toNat ∨ e = 20 ∧ n = 1048776 := by
  constructor
  · intro h
    unfold recordSizeOf at h
    repeat (split at h; · cases h; rename_i hn; subst hn; decide)
    cases h
  · rintro (⟨h1, h2, rfl⟩ | ⟨rfl, rfl⟩)
    · rcases uint8_cases e ⟨h1, by omega⟩ with rfl | rfl | rfl | rfl | rfl | rfl | rfl | rfl | rfl
      case inr.inr.inr.inr.inr.inr.inr.inr => exact absurd h2 (by decide)
      all_goals decide
    · decide

theorem parseName_spec (w : Str) (n : PName) (h : PName.parse w = some n) :
    w = n.display ∨ w = ['r', 'e', 'c', 's', 'i', 'z', 'e'] ∧ n = .recordSize := by
  unfold PName.parse at h
  repeat (split at h; · cases h; first | (left; assumption) | (right; exact ⟨by assumption, rfl⟩))
  cases h

theorem parseValue_accepts (n : PName) (w v : Str) (p : Prp)
    (hw : w = n.display ∨ w = ['r', 'e', 'c', 's', 'i', 'z', 'e'] ∧ n = .recordSize)
    (h : parseValue n v = .ok p) : Accepts (w ++ '=' :: v) p := by
  cases n with
  | atime =>
    rcases hw with rfl | ⟨_, h'⟩
    · simp only [parseValue] at h
      split at h
      · rename_i hv; cases h; exact .on v hv.symm
      · split at h
        · rename_i hv; cases h; exact .off v hv.symm
        · cases h
    · cases h'
  | baseMountpoint => cases h
  | mountpoint =>
    rcases hw with rfl | ⟨_, h'⟩
    · cases h; exact .mountpoint v
    · cases h'
  | name => cases h
  | recordSize =>
    simp only [parseValue] at h
    split at h
    · rename_i rs hrs
      split at h
      · rename_i e he
        cases h
        refine .recordsize w v e rs ?_ ((parseUsize_iff _ _).1 hrs) ((recordSizeOf_iff _ _).1 he)
        rcases hw with rfl | ⟨h, _⟩
        · exact .inl rfl
        · exact .inr h
      · cases h
    · cases h

/-- **C55.** The parser accepts exactly the texts of the grammar above, with the meaning given there;
every other text is refused. -/
theorem C55_accepted (s : Str) (p : Prp) : parse s = .ok p ↔ Accepts s p := by
  constructor
  · intro h
    unfold parse at h
    have hs := splitFirst_spec '=' s
    rcases h' : splitFirst '=' s with ⟨a, b⟩
    rw [h'] at hs h
    dsimp only at h
    cases hn : PName.parse a with
    | none => rw [hn] at h; cases h
    | some n =>
      rw [hn] at h
      dsimp only at h
      cases b with
      | some v =>
        simp only [Option.getD_some, ite_self] at h hs
        rw [hs.1]
        exact parseValue_accepts n a v p (parseName_spec a n hn) h
      | none =>
        simp only [Option.getD_none] at h hs
        split at h
        · rename_i hb
          cases n with
          | atime =>
            rcases parseName_spec a _ hn with ha | ⟨_, h2⟩
            · cases h
              rw [hs.1, ha]
              exact .atime
            · cases h2
          | _ => cases hb
        · cases h
  · rintro (_ | ⟨v, rfl | rfl⟩ | ⟨v, rfl | rfl⟩ | v | ⟨w, v, e, n, rfl | rfl, hv, hn⟩)
    · decide
    · decide
    · decide
    · decide
    · decide
    · exact parse_text .mountpoint v
    · exact (parse_text .recordSize v).trans (by
        simp only [parseValue, (parseUsize_iff v n).2 hv, (recordSizeOf_iff n e).2 hn])
    · have : parse (['r', 'e', 'c', 's', 'i', 'z', 'e'] ++ '=' :: v) = parseValue .recordSize v := by
        unfold parse
        rw [splitFirst_append '=' _ v (by decide)]
        rfl
      rw [this]
      simp only [parseValue, (parseUsize_iff v n).2 hv, (recordSizeOf_iff n e).2 hn]

/-- Some texts that are refused. -/
example : parse ['m', 'o', 'u', 'n', 't', 'p', 'o', 'i', 'n', 't'] = .error .noEquals ∧
    parse ['n', 'a', 'm', 'e', '=', 'x'] = .error .readOnly ∧
    parse ['a', 't', 'i', 'm', 'e', '=', 'x'] = .error (.value ['x']) ∧
    parse ['x', '=', 'y'] = .error .name := by decide +kernel

end Verif.Property
