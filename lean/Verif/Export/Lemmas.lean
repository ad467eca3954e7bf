import Verif.Export.Spec
import Verif.Polarised.LemmasSum
import Mathlib.Tactic.Linarith
import Mathlib.Tactic.Ring
import Mathlib.Tactic.FieldSimp
import Mathlib.Tactic.LinearCombination
/-
Lemmas for exported code.
-/
namespace AmpGen.Export

variable {X Code : Type}

theorem dec6_fixed {x : ℝ} (h : SixDecimals x) : dec6 x = x := by
  obtain ⟨m, rfl⟩ := h
  unfold dec6
  rw [div_mul_cancel₀ _ (by norm_num), round_intCast]

theorem sig6_fixed {x : ℝ} (h : SixDigits x) : sig6 x = x := by
  obtain ⟨m, k, hm, hx⟩ := h
  by_cases h0 : x = 0
  · rw [h0]; simp [sig6]
  have hpos : 0 < |x| := abs_pos.mpr h0
  obtain ⟨e, he⟩ : ∃ e, Int.log 10 |x| = e := ⟨_, rfl⟩
  have hlt : |x| < (10 : ℝ) ^ (k + 6) := by
    rw [hx, abs_mul, abs_of_pos (zpow_pos (by norm_num : (0:ℝ) < 10) k), zpow_add₀ (by norm_num), mul_comm]
    apply mul_lt_mul_of_pos_left _ (zpow_pos (by norm_num) k)
    have : ((|m| : ℤ) : ℝ) < ((10 ^ 6 : ℤ) : ℝ) := by exact_mod_cast hm
    rw [Int.cast_abs] at this
    calc |(m : ℝ)| < _ := this
      _ = _ := by norm_num
  have hle : e < k + 6 := by
    rw [← he]
    have := (Int.lt_zpow_iff_log_lt (b := 10) (by norm_num) (x := k + 6) hpos).mp (by exact_mod_cast hlt)
    exact this
  obtain ⟨n, hn⟩ : ∃ n : Nat, (n : Int) = k - (e - 5) := ⟨(k - (e - 5)).toNat, Int.toNat_of_nonneg (by omega)⟩
  have hxe : x / (10 : ℝ) ^ (e - 5) = ((m * 10 ^ n : ℤ) : ℝ) := by
    rw [hx, mul_div_assoc, ← zpow_sub₀ (by norm_num), ← hn, zpow_natCast]
    push_cast; ring
  unfold sig6
  rw [he, hxe, round_intCast, ← hxe, div_mul_cancel₀]
  exact (zpow_pos (by norm_num) _).ne'

theorem csig6_fixed {z : ℂ} (h : SixDigitsC z) : csig6 z = z := by
  unfold csig6
  rw [sig6_fixed h.1, sig6_fixed h.2]

theorem dec6_err (x : ℝ) : |dec6 x - x| ≤ 5 / 10 ^ 7 := by
  unfold dec6
  have h := abs_sub_round (x * 10 ^ 6)
  have e : (round (x * 10 ^ 6) : ℝ) / 10 ^ 6 - x = -(x * 10 ^ 6 - round (x * 10 ^ 6)) / 10 ^ 6 := by
    field_simp; ring
  rw [e, abs_div, abs_neg, abs_of_pos (by norm_num : (0:ℝ) < 10 ^ 6), div_le_div_iff₀ (by norm_num) (by norm_num)]
  have e7 : (5 : ℝ) * 10 ^ 6 = 1 / 2 * 10 ^ 7 := by norm_num
  rw [e7]
  exact mul_le_mul_of_nonneg_right h (by positivity)

theorem sig6_err (x : ℝ) : |sig6 x - x| ≤ 5 / 10 ^ 6 * |x| := by
  by_cases h0 : x = 0
  · rw [h0]; simp [sig6]
  have hpos : 0 < |x| := abs_pos.mpr h0
  unfold sig6
  have hlog : (10 : ℝ) ^ (Int.log 10 |x|) ≤ |x| := by
    have := Int.zpow_log_le_self (b := 10) (by norm_num) hpos
    exact_mod_cast this
  obtain ⟨e, he⟩ : ∃ e, Int.log 10 |x| = e := ⟨_, rfl⟩
  rw [he] at hlog ⊢
  have hp : (0 : ℝ) < 10 ^ (e - 5) := zpow_pos (by norm_num) _
  have h := abs_sub_round (x / (10 : ℝ) ^ (e - 5))
  have eq : (round (x / (10 : ℝ) ^ (e - 5)) : ℝ) * 10 ^ (e - 5) - x =
      -(x / (10 : ℝ) ^ (e - 5) - round (x / (10 : ℝ) ^ (e - 5))) * 10 ^ (e - 5) := by
    field_simp; ring
  rw [eq, abs_mul, abs_neg, abs_of_pos hp]
  have e5 : (10 : ℝ) ^ (e - 5) = 10 ^ e / 10 ^ 5 := by rw [zpow_sub₀ (by norm_num)]; norm_num
  calc _ ≤ 1 / 2 * (10 : ℝ) ^ (e - 5) := mul_le_mul_of_nonneg_right h hp.le
    _ = 5 / 10 ^ 6 * 10 ^ e := by rw [e5]; ring
    _ ≤ _ := mul_le_mul_of_nonneg_left hlog (by norm_num)

theorem map_dec6 {buf : List ℝ} (h : ∀ v ∈ buf, SixDecimals v) : buf.map dec6 = buf := by
  conv_rhs => rw [← List.map_id buf]
  apply List.map_congr_left
  intro v hv
  exact dec6_fixed (h v hv)

theorem foldl_zipIdx (f : Element X → Nat → ℂ) (es : List (Element X)) (k : Nat) (acc : ℂ) :
    (es.zipIdx k).foldl (fun a ei => a + f ei.1 ei.2) acc = acc + ((es.zipIdx k).map fun ei => f ei.1 ei.2).sum := by
  induction es generalizing k acc with
  | nil => simp
  | cons e es ih => rw [List.zipIdx_cons]; simp only [List.foldl_cons, List.map_cons, List.sum_cons]; rw [ih]; ring

theorem zipIdx_getD (es all : List (Element X)) (g : Element X → ℂ) (h : Element X → ℂ) (k : Nat)
    (hk : all.drop k = es) :
    ((es.zipIdx k).map fun ei => h ei.1 * (all.map g).getD ei.2 0).sum = (es.map fun e => h e * g e).sum := by
  induction es generalizing k with
  | nil => simp
  | cons e es ih =>
    have hget : all[k]? = some e := by
      have := congrArg (fun l => l[0]?) hk
      simpa using this
    have hd : all.drop (k + 1) = es := by
      have := congrArg (List.drop 1) hk
      simpa using this
    rw [List.zipIdx_cons]
    simp only [List.map_cons, List.sum_cons]
    rw [ih (k + 1) hd]
    congr 2
    simp [List.getD, hget]

/-- The exported amplitude as a sum. -/
theorem AMP_eq (es : List (Element X)) (buf : List ℝ) (x : X) (sign : Int) :
    AMP es buf x sign = (es.map fun e => (if e.parity = 1 then 1 else (sign : ℂ)) *
      (csig6 e.coupling * e.amp (buf.map dec6) x)).sum := by
  unfold AMP
  rw [foldl_zipIdx (fun e i => (if e.parity = 1 then 1 else (sign : ℂ)) *
      (csig6 e.coupling * (allAmplitudesWParams es buf x).getD i 0)), zero_add]
  have := zipIdx_getD es es (fun e => e.amp (buf.map dec6) x)
    (fun e => (if e.parity = 1 then 1 else (sign : ℂ)) * csig6 e.coupling) 0 rfl
  simp only [mul_assoc] at this
  exact this

theorem split_parts (es : List (Element X)) (buf : List ℝ) (x : X) (s : ℂ) :
    (es.map fun e => (if e.parity = 1 then 1 else s) * (e.coupling * e.amp buf x)).sum =
      evenPart es buf x + s * oddPart es buf x := by
  unfold evenPart oddPart amplitude
  induction es with
  | nil => simp
  | cons e es ih =>
    simp only [List.map_cons, List.sum_cons, ih]
    by_cases h : e.parity = 1
    · simp [h]; ring
    · simp [h]; ring

theorem even_add_odd (es : List (Element X)) (buf : List ℝ) (x : X) :
    evenPart es buf x + oddPart es buf x = amplitude es buf x := by
  have := split_parts es buf x 1
  rw [one_mul] at this
  rw [← this]
  unfold amplitude
  congr 1
  apply List.map_congr_left
  intro e _
  split <;> ring

/-! ### Symbols -/

theorem symbolChar_range (c : Char) : isAlnum (symbolChar c) = true ∨ symbolChar c = '_' := by
  unfold symbolChar
  simp only
  generalize (if (if (if (if c = '-' then 'm' else c) = '+' then 'p' else if c = '-' then 'm' else c) = '-' then 'm'
    else if (if c = '-' then 'm' else c) = '+' then 'p' else if c = '-' then 'm' else c) = '*' then 's'
    else if (if (if c = '-' then 'm' else c) = '+' then 'p' else if c = '-' then 'm' else c) = '-' then 'm'
    else if (if c = '-' then 'm' else c) = '+' then 'p' else if c = '-' then 'm' else c) = d
  by_cases h : isAlnum d = true
  · left; simp [h]
  · right; simp [h]

theorem isAlnum_iff (c : Char) : isAlnum c = true ↔ c.isAlphanum = true := by
  have e : c.toNat = c.val.toNat := rfl
  unfold isAlnum Char.isAlphanum Char.isAlpha Char.isUpper Char.isLower Char.isDigit
  rw [e]
  simp only [Bool.or_eq_true, Bool.and_eq_true, decide_eq_true_eq, UInt32.le_iff_toNat_le, ge_iff_le]
  have n : '0'.val.toNat = 48 ∧ '9'.val.toNat = 57 ∧ 'A'.val.toNat = 65 ∧
    'Z'.val.toNat = 90 ∧ 'a'.val.toNat = 97 ∧ 'z'.val.toNat = 122 := by decide
  obtain ⟨n1, n2, n3, n4, n5, n6⟩ := n
  rw [n1, n2, n3, n4, n5, n6]
  tauto

theorem isDigit_iff (c : Char) : isDigit c = true ↔ c.isDigit = true := by
  have e : c.toNat = c.val.toNat := rfl
  unfold isDigit Char.isDigit
  rw [e]
  simp only [Bool.and_eq_true, decide_eq_true_eq, UInt32.le_iff_toNat_le, ge_iff_le]
  have n : '0'.val.toNat = 48 ∧ '9'.val.toNat = 57 := by decide
  rw [n.1, n.2]

theorem symbolChar_plain {c : Char} (h : isAlnum c = true) : symbolChar c = c := by
  unfold symbolChar
  simp only
  have n1 : c ≠ '-' := by rintro rfl; revert h; decide
  have n2 : c ≠ '+' := by rintro rfl; revert h; decide
  have n3 : c ≠ '*' := by rintro rfl; revert h; decide
  simp [n1, n2, n3, h]

theorem symbolChar_symbol {c : Char} (h : isAlnum c = true ∨ c = '_') : symbolChar c = c := by
  rcases h with h | rfl
  · exact symbolChar_plain h
  · decide

theorem quote_symbol {c : Char} (h : isAlnum c = true ∨ c = '_') : (if c = '\'' then '_' else c) = c := by
  rw [if_neg]
  rintro rfl
  revert h; decide

/-- The name without the last replacement, which never applies. -/
theorem programaticName_eq (s : List Char) :
    programaticName s = (match s.map symbolChar with
      | c :: t => if isDigit c then 'f' :: c :: t else c :: t
      | [] => []) := by
  unfold programaticName
  simp only
  have key : ∀ l : List Char, (∀ c ∈ l, isAlnum c = true ∨ c = '_') →
      l.map (fun c => if c = '\'' then '_' else c) = l := by
    intro l hl
    conv_rhs => rw [← List.map_id l]
    exact List.map_congr_left fun c hc => quote_symbol (hl c hc)
  have hs : ∀ c ∈ s.map symbolChar, isAlnum c = true ∨ c = '_' := by
    intro c hc
    obtain ⟨d, -, rfl⟩ := List.mem_map.mp hc
    exact symbolChar_range d
  rw [key]
  · cases s.map symbolChar <;> rfl
  · cases hm : s.map symbolChar with
    | nil => simp
    | cons c t =>
      rw [hm] at hs
      simp only
      split
      · intro d hd
        rcases List.mem_cons.mp hd with rfl | hd
        · left; decide
        · exact hs d hd
      · exact hs

theorem programaticName_chars (s : List Char) : ∀ c ∈ programaticName s, isAlnum c = true ∨ c = '_' := by
  rw [programaticName_eq]
  have hs : ∀ c ∈ s.map symbolChar, isAlnum c = true ∨ c = '_' := by
    intro c hc
    obtain ⟨d, -, rfl⟩ := List.mem_map.mp hc
    exact symbolChar_range d
  cases hm : s.map symbolChar with
  | nil => simp
  | cons c t =>
    rw [hm] at hs
    simp only
    split
    · intro d hd
      rcases List.mem_cons.mp hd with rfl | hd
      · left; decide
      · exact hs d hd
    · exact hs

theorem programaticName_head (s : List Char) (c : Char) (h : (programaticName s).head? = some c) :
    isDigit c = false := by
  rw [programaticName_eq] at h
  cases hm : s.map symbolChar with
  | nil => rw [hm] at h; simp at h
  | cons d t =>
    rw [hm] at h
    simp only at h
    split at h
    · simp at h; subst h; decide
    · rename_i hd
      simp at h; subst h; simpa using hd

theorem programaticName_fixed (s : List Char) (h : ∀ c ∈ s, isAlnum c = true ∨ c = '_')
    (hd : ∀ c, s.head? = some c → isDigit c = false) : programaticName s = s := by
  rw [programaticName_eq]
  have : s.map symbolChar = s := by
    conv_rhs => rw [← List.map_id s]
    exact List.map_congr_left fun c hc => symbolChar_symbol (h c hc)
  rw [this]
  cases s with
  | nil => rfl
  | cons c t =>
    simp only
    rw [hd c rfl]
    rfl

end AmpGen.Export
