import Verif.Cast.Model
import Verif.Cast.Spec
import Mathlib.Data.Nat.Digits.Lemmas
import Mathlib.Tactic.Ring
import Mathlib.Tactic.IntervalCases
/-
Words read as integers and as truth values (C161).
-/
namespace AmpGen.Cast
open Spec

theorem digit_value {d : Nat} (h : d < 10) : (digitChar d).isDigit = true ∧ (digitChar d).toNat - '0'.toNat = d ∧ isSpace (digitChar d) = false ∧ digitChar d ≠ '-' ∧ digitChar d ≠ '+' := by
  interval_cases d <;> decide

theorem digit_char {c : Char} (h : c.isDigit = true) : ∃ d, d < 10 ∧ c = digitChar d := by
  have h' : 48 ≤ c.toNat ∧ c.toNat ≤ 57 := by
    unfold Char.isDigit at h
    simp only [Bool.and_eq_true, decide_eq_true_eq] at h
    constructor
    · exact h.1
    · exact h.2
  refine ⟨c.toNat - 48, by omega, ?_⟩
  have e : c = Char.ofNat c.toNat := (Char.ofNat_toNat c).symm
  obtain ⟨n, hn⟩ : ∃ n, c.toNat = n := ⟨_, rfl⟩
  rw [hn] at h' e ⊢
  obtain ⟨h1, h2⟩ := h'
  rw [e]
  interval_cases n <;> decide

theorem readDigits_run (ds : List Nat) (hd : ∀ d ∈ ds, d < 10) (acc : Nat) (r : List Char) (hr : ∀ c r', r = c :: r' → c.isDigit = false) :
    readDigits acc (ds.map digitChar ++ r) = (ds.foldl (fun a d => 10 * a + d) acc, r) := by
  induction ds generalizing acc with
  | nil =>
    cases r with
    | nil => rfl
    | cons c r' =>
      have := hr c r' rfl
      simp [readDigits, this]
  | cons d ds ih =>
    have hv := digit_value (hd d List.mem_cons_self)
    rw [List.map_cons, List.cons_append, readDigits, if_pos hv.1, hv.2.1, ih fun e he => hd e (List.mem_cons_of_mem _ he)]
    rfl

theorem fold_ofDigits (ds : List Nat) (acc : Nat) : ds.foldl (fun a d => 10 * a + d) acc = acc * 10 ^ ds.length + Nat.ofDigits 10 ds.reverse := by
  induction ds generalizing acc with
  | nil => simp
  | cons d ds ih =>
    rw [List.foldl_cons, ih, List.reverse_cons, Nat.ofDigits_append, List.length_cons, List.length_reverse]
    simp [Nat.ofDigits_cons]
    ring

theorem readDigits_split (acc : Nat) (w : List Char) :
    ∃ (ds : List Nat) (r : List Char), (∀ d ∈ ds, d < 10) ∧ w = ds.map digitChar ++ r ∧ (∀ c r', r = c :: r' → c.isDigit = false) ∧ readDigits acc w = (ds.foldl (fun a d => 10 * a + d) acc, r) := by
  induction w generalizing acc with
  | nil => exact ⟨[], [], by simp, rfl, by simp, rfl⟩
  | cons c w ih =>
    by_cases h : c.isDigit = true
    · obtain ⟨d, hd, rfl⟩ := digit_char h
      obtain ⟨ds, r, h1, h2, h3, h4⟩ := ih (10 * acc + d)
      refine ⟨d :: ds, r, ?_, by rw [h2]; rfl, h3, ?_⟩
      · intro e he
        rcases List.mem_cons.mp he with rfl | he
        · exact hd
        · exact h1 e he
      · rw [readDigits, if_pos h, (digit_value hd).2.1, h4]
        rfl
    · refine ⟨[], c :: w, by simp, rfl, ?_, ?_⟩
      · intro c' r' he
        cases he
        simpa using h
      · rw [readDigits, if_neg h]
        rfl

theorem space_mem {c : Char} : isSpace c = true ↔ c ∈ [' ', '\t', '\n', '\x0b', '\x0c', '\r'] := by
  simp only [isSpace, Bool.or_eq_true, beq_iff_eq, List.mem_cons, List.not_mem_nil, or_false, or_assoc]

theorem dropSpace (space r : List Char) (hs : ∀ c ∈ space, isSpace c = true) (hr : ∀ c r', r = c :: r' → isSpace c = false) : (space ++ r).dropWhile isSpace = r := by
  induction space with
  | nil =>
    cases r with
    | nil => rfl
    | cons c r' => simp [hr c r' rfl]
  | cons c space ih =>
    rw [List.cons_append, List.dropWhile_cons_of_pos (hs c List.mem_cons_self)]
    exact ih fun c' hc => hs c' (List.mem_cons_of_mem _ hc)

theorem takeSpace (w : List Char) : ∀ c ∈ w.takeWhile isSpace, isSpace c = true := by
  induction w with
  | nil => simp
  | cons d w ih =>
    intro c hc
    by_cases h : isSpace d = true
    · rw [List.takeWhile_cons_of_pos h] at hc
      rcases List.mem_cons.mp hc with rfl | hc
      · exact h
      · exact ih c hc
    · rw [List.takeWhile_cons_of_neg h] at hc
      cases hc

/-- A numeral with something behind it is read up to there. -/
theorem number_read (space sign : List Char) (ds : List Nat) (r : List Char) (hs : ∀ c ∈ space, c ∈ [' ', '\t', '\n', '\x0b', '\x0c', '\r']) (hne : ds ≠ []) (hd : ∀ d ∈ ds, d < 10)
    (hsign : sign = ['-'] ∨ sign = [] ∨ sign = ['+']) (hr : ∀ c r', r = c :: r' → c.isDigit = false) :
    readNumber (space ++ sign ++ ds.map digitChar ++ r) = some (decide (sign = ['-']), Nat.ofDigits 10 ds.reverse, r) := by
  obtain ⟨d, ds', rfl⟩ : ∃ d ds', ds = d :: ds' := by
    cases ds with
    | nil => exact absurd rfl hne
    | cons d ds' => exact ⟨d, ds', rfl⟩
  have hv := digit_value (hd d List.mem_cons_self)
  have hrd := readDigits_run (d :: ds') hd 0 r hr
  rw [fold_ofDigits, zero_mul, zero_add, List.map_cons, List.cons_append] at hrd
  have hdrop : (space ++ sign ++ (d :: ds').map digitChar ++ r).dropWhile isSpace = sign ++ (digitChar d :: (ds'.map digitChar ++ r)) := by
    rw [List.append_assoc, List.append_assoc, List.map_cons, List.cons_append]
    apply dropSpace
    · intro c hc
      exact space_mem.mpr (hs c hc)
    · intro c r' he
      rcases hsign with rfl | rfl | rfl
      · cases he; rfl
      · cases he; exact hv.2.2.1
      · cases he; rfl
  have hsg : readSign (sign ++ (digitChar d :: (ds'.map digitChar ++ r))) = (decide (sign = ['-']), digitChar d :: (ds'.map digitChar ++ r)) := by
    rcases hsign with rfl | rfl | rfl
    · rfl
    · have h1 := hv.2.2.2.1
      have h2 := hv.2.2.2.2
      simp only [List.nil_append]
      unfold readSign
      split
      · rename_i he; exact absurd (List.cons.inj he).1 h1
      · rename_i he; exact absurd (List.cons.inj he).1 h2
      · simp
    · rfl
  unfold readNumber
  simp only [hdrop, hsg]
  rw [if_pos hv.1, hrd]

/-- What is read of any word. -/
theorem number_split (w : List Char) :
    (readNumber w = none ∧ ∀ z, ¬ IsNumeral w z) ∨
      ∃ (space sign : List Char) (ds : List Nat) (r : List Char), w = space ++ sign ++ ds.map digitChar ++ r ∧ (∀ c ∈ space, c ∈ [' ', '\t', '\n', '\x0b', '\x0c', '\r']) ∧ ds ≠ [] ∧ (∀ d ∈ ds, d < 10) ∧
        (sign = ['-'] ∨ sign = [] ∨ sign = ['+']) ∧ readNumber w = some (decide (sign = ['-']), Nat.ofDigits 10 ds.reverse, r) ∧ (∀ c r', r = c :: r' → c.isDigit = false) := by
  obtain ⟨o, ho⟩ : ∃ o, readNumber w = o := ⟨_, rfl⟩
  cases o with
  | none =>
    left
    refine ⟨ho, ?_⟩
    rintro z ⟨space, sign, ds, rfl, hs, hne, hd, hz⟩
    have hsign : sign = ['-'] ∨ sign = [] ∨ sign = ['+'] := by
      rcases hz with ⟨h, _⟩ | ⟨h | h, _⟩
      · exact .inl h
      · exact .inr (.inl h)
      · exact .inr (.inr h)
    have := number_read space sign ds [] hs hne hd hsign (by simp)
    rw [List.append_nil, ho] at this
    cases this
  | some x =>
    right
    have hw : w = w.takeWhile isSpace ++ w.dropWhile isSpace := (List.takeWhile_append_dropWhile).symm
    have hsp : ∀ c ∈ w.takeWhile isSpace, c ∈ [' ', '\t', '\n', '\x0b', '\x0c', '\r'] := fun c hc => space_mem.mp (takeSpace w c hc)
    obtain ⟨sign, hsign, hsg⟩ : ∃ sign, (sign = ['-'] ∨ sign = [] ∨ sign = ['+']) ∧ w.dropWhile isSpace = sign ++ (readSign (w.dropWhile isSpace)).2 := by
      generalize w.dropWhile isSpace = v
      unfold readSign
      split
      · exact ⟨['-'], .inl rfl, rfl⟩
      · exact ⟨['+'], .inr (.inr rfl), rfl⟩
      · exact ⟨[], .inr (.inl rfl), rfl⟩
    obtain ⟨v, hv⟩ : ∃ v, (readSign (w.dropWhile isSpace)).2 = v := ⟨_, rfl⟩
    have hex : ∃ c r, v = c :: r ∧ c.isDigit = true := by
      unfold readNumber at ho
      simp only [hv] at ho
      cases v with
      | nil => cases ho
      | cons c r =>
        by_cases h : c.isDigit = true
        · exact ⟨c, r, rfl, h⟩
        · simp only [if_neg h, reduceCtorEq] at ho
    obtain ⟨c, r0, rfl, hc⟩ := hex
    obtain ⟨ds, r, h1, h2, h3, h4⟩ := readDigits_split 0 (c :: r0)
    have hne : ds ≠ [] := by
      rintro rfl
      have := h3 c r0 h2.symm
      rw [hc] at this
      cases this
    have hw' : w = w.takeWhile isSpace ++ sign ++ ds.map digitChar ++ r := by
      rw [List.append_assoc, ← h2, ← hv, List.append_assoc, ← hsg]
      exact hw
    have hread := number_read (w.takeWhile isSpace) sign ds r hsp hne h1 hsign h3
    rw [← hw'] at hread
    exact ⟨w.takeWhile isSpace, sign, ds, r, hw', hsp, hne, h1, hsign, hread, h3⟩

theorem numeral_read {w : List Char} {z : Int} (h : IsNumeral w z) : ∃ neg n, readNumber w = some (neg, n, []) ∧ z = if neg = true then -(n : Int) else n := by
  obtain ⟨space, sign, ds, rfl, hs, hne, hd, hz⟩ := h
  rcases hz with ⟨rfl, hz⟩ | ⟨hsign, hz⟩
  · have := number_read space ['-'] ds [] hs hne hd (.inl rfl) (by simp)
    rw [List.append_nil] at this
    exact ⟨_, _, this, by simp [hz]⟩
  · have := number_read space sign ds [] hs hne hd (.inr hsign) (by simp)
    rw [List.append_nil] at this
    refine ⟨_, _, this, ?_⟩
    rcases hsign with rfl | rfl <;> simp [hz]

/-- A numeral of an integer that the type can hold gives this integer, and leaves the flag as it was. -/
theorem cast_value {w : List Char} {z : Int} (h : IsNumeral w z) (status : Bool) :
    (-2 ^ 31 ≤ z ∧ z < 2 ^ 31 → castInt w status = (z, status)) ∧ (0 ≤ z ∧ z < 2 ^ 32 → castUnsigned w status = (z, status)) ∧
      (-2 ^ 63 ≤ z ∧ z < 2 ^ 63 → castLong w status = (z, status)) ∧ (0 ≤ z ∧ z < 2 ^ 64 → castUnsignedLong w status = (z, status)) := by
  obtain ⟨neg, n, hread, hz⟩ := numeral_read h
  have hl : -2 ^ 63 ≤ z ∧ z < 2 ^ 63 → strtol w = (z, []) := by
    intro hb
    unfold strtol
    rw [hread]
    simp only [← hz]
    congr 1
    omega
  have hul : 0 ≤ z ∧ z < 2 ^ 64 → strtoul w = (z, []) := by
    intro hb
    unfold strtoul
    rw [hread]
    simp only [← hz]
    have hn : ¬ 2 ^ 64 ≤ n := by
      cases neg with
      | false => simp at hz; omega
      | true => simp at hz; omega
    rw [if_neg hn, Int.emod_eq_of_lt hb.1 hb.2]
  refine ⟨fun hb => ?_, fun hb => ?_, fun hb => ?_, fun hb => ?_⟩
  · unfold castInt
    rw [hl (by omega)]
    simp only [atEnd, Bool.and_true]
    rw [Int.bmod_eq_of_le_mul_two (by push_cast; omega) (by push_cast; omega)]
  · unfold castUnsigned
    rw [hul (by omega)]
    simp only [atEnd, Bool.and_true]
    rw [Int.emod_eq_of_lt hb.1 hb.2]
  · unfold castLong
    rw [hl hb]
    simp [atEnd]
  · unfold castUnsignedLong
    rw [hul hb]
    simp [atEnd]

/-- Numerals of any size: a signed long integer is the nearest one, and an unsigned one is the largest from `2^64` on and otherwise taken modulo `2^64`; neither is reported. -/
theorem cast_overflow {w : List Char} {z : Int} (h : IsNumeral w z) (status : Bool) :
    castLong w status = (if z < -2 ^ 63 then -2 ^ 63 else if 2 ^ 63 ≤ z then 2 ^ 63 - 1 else z, status) ∧
      castUnsignedLong w status = (if 2 ^ 64 ≤ z ∨ z ≤ -2 ^ 64 then 2 ^ 64 - 1 else if z < 0 then z + 2 ^ 64 else z, status) := by
  obtain ⟨neg, n, hread, hz⟩ := numeral_read h
  constructor
  · unfold castLong strtol
    rw [hread]
    simp only [← hz, atEnd, Bool.and_true, Prod.mk.injEq, and_true]
    split
    · omega
    · split <;> omega
  · unfold castUnsignedLong strtoul
    rw [hread]
    simp only [← hz, atEnd, Bool.and_true, Prod.mk.injEq, and_true]
    have hn : 2 ^ 64 ≤ n ↔ (2 ^ 64 ≤ z ∨ z ≤ -2 ^ 64) := by
      cases neg with
      | false =>
        rw [if_neg (by decide)] at hz
        omega
      | true =>
        rw [if_pos rfl] at hz
        omega
    by_cases hb : 2 ^ 64 ≤ n
    · rw [if_pos hb, if_pos (hn.mp hb)]
    · rw [if_neg hb, if_neg fun hc => hb (hn.mpr hc)]
      have hb' : ¬ (2 ^ 64 ≤ z ∨ z ≤ -2 ^ 64) := fun hc => hb (hn.mpr hc)
      split <;> omega

/-- The text of every integer is a numeral, so that reading what was written gives the integer back. -/
theorem cast_text (z : Int) : IsNumeral (text z) z := by
  by_cases h0 : z = 0
  · subst h0
    exact ⟨[], [], [0], rfl, by simp, by simp, by simp, .inr ⟨.inl rfl, rfl⟩⟩
  · have hd : ∀ d ∈ (Nat.digits 10 z.natAbs).reverse, d < 10 := fun d hd => Nat.digits_lt_base (by norm_num) (List.mem_reverse.mp hd)
    have hne : (Nat.digits 10 z.natAbs).reverse ≠ [] := by
      rw [Ne, List.reverse_eq_nil_iff, Nat.digits_eq_nil_iff_eq_zero]
      omega
    have hv : ((Nat.ofDigits 10 (Nat.digits 10 z.natAbs).reverse.reverse : Nat) : Int) = z.natAbs := by
      rw [List.reverse_reverse]
      exact_mod_cast Nat.ofDigits_digits 10 z.natAbs
    unfold text
    simp only
    rw [if_neg h0]
    split
    · exact ⟨[], ['-'], _, rfl, by simp, hne, hd, .inl ⟨rfl, by rw [hv]; omega⟩⟩
    · exact ⟨[], [], _, rfl, by simp, hne, hd, .inr ⟨.inl rfl, by rw [hv]; omega⟩⟩

/-- A word without the character zero is accepted by each of the four casts if and only if it is a numeral or empty; a flag that was false stays false. -/
theorem cast_accepts_partial (w : List Char) (h0 : '\x00' ∉ w) (status : Bool) :
    let ok := status = true ∧ ((∃ z, IsNumeral w z) ∨ w = [])
    ((castInt w status).2 = true ↔ ok) ∧ ((castUnsigned w status).2 = true ↔ ok) ∧ ((castLong w status).2 = true ↔ ok) ∧ ((castUnsignedLong w status).2 = true ↔ ok) := by
  intro ok
  have hend : ∀ r, (∀ c ∈ r, c ∈ w) → (atEnd r = true ↔ r = []) := by
    intro r hr
    cases r with
    | nil => simp [atEnd]
    | cons c r' =>
      simp only [atEnd, beq_iff_eq, reduceCtorEq, iff_false]
      rintro rfl
      exact h0 (hr _ List.mem_cons_self)
  have key : ∀ r, (strtol w).2 = r → (strtoul w).2 = r ∧ (atEnd r = true ↔ ((∃ z, IsNumeral w z) ∨ w = [])) := by
    intro r hr
    unfold strtol at hr
    unfold strtoul
    rcases number_split w with ⟨hn, hno⟩ | ⟨space, sign, ds, r', hw, hs, hne, hd, hsign, hread, hr'⟩
    · rw [hn] at hr ⊢
      simp only at hr ⊢
      subst hr
      refine ⟨rfl, ?_⟩
      rw [hend w fun c hc => hc]
      constructor
      · exact fun h => .inr h
      · rintro (⟨z, hz⟩ | h)
        · exact absurd hz (hno z)
        · exact h
    · rw [hread] at hr ⊢
      simp only at hr ⊢
      subst hr
      refine ⟨rfl, ?_⟩
      rw [hend r' fun c hc => by rw [hw]; exact List.mem_append_right _ hc]
      constructor
      · rintro rfl
        left
        rw [List.append_nil] at hw
        rcases hsign with hsg | hsg
        · exact ⟨_, space, sign, ds, hw, hs, hne, hd, .inl ⟨hsg, rfl⟩⟩
        · exact ⟨_, space, sign, ds, hw, hs, hne, hd, .inr ⟨hsg, rfl⟩⟩
      · rintro (⟨z, hz⟩ | h)
        · obtain ⟨neg, n, hz', _⟩ := numeral_read hz
          rw [hread] at hz'
          simp only [Option.some.injEq, Prod.mk.injEq] at hz'
          exact hz'.2.2
        · rw [h] at hw
          have := congrArg List.length hw
          simp only [List.length_append, List.length_map, List.length_nil] at this
          have : ds.length = 0 := by omega
          exact absurd (List.length_eq_zero_iff.mp this) hne
  obtain ⟨k1, k2⟩ := key _ rfl
  simp only [castInt, castUnsigned, castLong, castUnsignedLong, k1, Bool.and_eq_true, k2, ok]
  exact ⟨trivial, trivial, trivial, trivial⟩

/-- What is wrong with the casts: an empty word is read as zero, and numerals of integers that the type cannot hold are accepted, with another value.  For every integer of 64 bits the
cast to `int` keeps the last 32 bits, and minus one is a number without sign.  What follows a character zero is ignored. -/
theorem cast_counterexample :
    castInt [] true = (0, true) ∧ castUnsigned [] true = (0, true) ∧ castLong [] true = (0, true) ∧ castUnsignedLong [] true = (0, true) ∧
      (∀ w z, IsNumeral w z → -2 ^ 63 ≤ z ∧ z < 2 ^ 63 → castInt w true = (Int.bmod z (2 ^ 32), true)) ∧ (castInt (text 4294967297) true = (1, true)) ∧
      castUnsigned (text (-1)) true = (4294967295, true) ∧ castInt ['1', '\x00', 'x'] true = (1, true) := by
  refine ⟨by decide, by decide, by decide, by decide, ?_, ?_, ?_, by decide⟩
  · intro w z h hb
    have := (cast_value h true).2.2.1 hb
    unfold castLong at this
    simp only [Prod.mk.injEq] at this
    unfold castInt
    rw [this.1, this.2]
  · have := (cast_value (cast_text 4294967297) true).2.2.1 (by norm_num)
    unfold castLong at this
    simp only [Prod.mk.injEq] at this
    unfold castInt
    rw [this.1, this.2]
    decide
  · obtain ⟨neg, n, hread, hz⟩ := numeral_read (cast_text (-1))
    have hneg : neg = true ∧ n = 1 := by
      cases neg with
      | false =>
        rw [if_neg (by decide)] at hz
        omega
      | true =>
        rw [if_pos rfl] at hz
        exact ⟨rfl, by omega⟩
    obtain ⟨rfl, rfl⟩ := hneg
    unfold castUnsigned strtoul
    rw [hread]
    decide

/-- A truth value is `1`, `true`, `0` or `false`, and every other word clears the flag. -/
theorem cast_bool (w : List Char) (status : Bool) :
    ((castBool w status).2 = true ↔ status = true ∧ w ∈ ["1".toList, "true".toList, "0".toList, "false".toList]) ∧
      ((castBool w status).1 = true ↔ w ∈ ["1".toList, "true".toList]) := by
  simp only [String.reduceToList, List.mem_cons, List.not_mem_nil, or_false]
  unfold castBool
  by_cases h1 : w = ['1'] ∨ w = ['t', 'r', 'u', 'e']
  · rw [if_pos h1]
    rcases h1 with rfl | rfl <;> simp
  · rw [if_neg h1]
    have h1' := not_or.mp h1
    by_cases h2 : w = ['0'] ∨ w = ['f', 'a', 'l', 's', 'e']
    · rw [if_pos h2]
      rcases h2 with rfl | rfl <;> simp
    · rw [if_neg h2]
      have h2' := not_or.mp h2
      simp [h1', h2']

/-- Numerals with white space, signs and zeros in front, and a word that is none. -/
example : IsNumeral [' ', '+', '0', '4', '2'] 42 ∧ castInt [' ', '+', '0', '4', '2'] true = (42, true) ∧ castInt ['4', '2', 'x'] true = (42, false) ∧ castInt ['-', '7'] false = (-7, false) :=
  ⟨⟨[' '], ['+'], [0, 4, 2], rfl, by simp, by simp, by simp, .inr ⟨.inr rfl, by decide⟩⟩, by decide, by decide, by decide⟩

end AmpGen.Cast
