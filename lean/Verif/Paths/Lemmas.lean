import Verif.Paths.Spec
import Verif.Strings.Lemmas
/-
Lemmas for C153, C154.
-/
namespace AmpGen.Paths

open AmpGen.Strings
open Spec

theorem find_char_some {pre rest : Str} {c : Char} {pos : Nat} (hp : pos ≤ pre.length) (h : c ∉ pre.drop pos) : find (pre ++ c :: rest) [c] pos = some pre.length := by
  rw [find_eq_some_iff]
  refine ⟨hp, by simp, ?_, ?_⟩
  · rw [List.drop_left]
    exact ⟨rest, rfl⟩
  · rintro q h1 h2 ⟨t, ht⟩
    apply h
    have hq : (pre ++ c :: rest)[q]? = some c := by
      have : ((pre ++ c :: rest).drop q)[0]? = some c := by rw [← ht]; rfl
      rwa [List.getElem?_drop, Nat.add_zero] at this
    rw [List.getElem?_append_left h2] at hq
    rw [List.mem_iff_getElem?]
    refine ⟨q - pos, ?_⟩
    rw [List.getElem?_drop, show pos + (q - pos) = q by omega]
    exact hq

theorem find_char_none {s : Str} {c : Char} {pos : Nat} (h : c ∉ s.drop pos) : find s [c] pos = none := by
  cases hf : find s [c] pos with
  | none => rfl
  | some p =>
    obtain ⟨h1, _, ⟨t, ht⟩, _⟩ := find_some hf
    exfalso
    apply h
    have hq : s[p]? = some c := by
      have : (s.drop p)[0]? = some c := by rw [← ht]; rfl
      rwa [List.getElem?_drop, Nat.add_zero] at this
    rw [List.mem_iff_getElem?]
    refine ⟨p - pos, ?_⟩
    rw [List.getElem?_drop, show pos + (p - pos) = p by omega]
    exact hq

/-- A character that is not in the first part is found later or not at all. -/
theorem find_char_after {pre rest : Str} {c : Char} {pos : Nat} (hp : pos ≤ pre.length) (h : c ∉ pre.drop pos) : ∀ q, find (pre ++ rest) [c] pos = some q → pre.length ≤ q := by
  intro q hq
  obtain ⟨h1, _, ⟨t, ht⟩, _⟩ := find_some hq
  by_contra hlt
  apply h
  have hc : (pre ++ rest)[q]? = some c := by
    have : ((pre ++ rest).drop q)[0]? = some c := by rw [← ht]; rfl
    rwa [List.getElem?_drop, Nat.add_zero] at this
  rw [List.getElem?_append_left (by omega)] at hc
  rw [List.mem_iff_getElem?]
  refine ⟨q - pos, ?_⟩
  rw [List.getElem?_drop, show pos + (q - pos) = q by omega]
  exact hc

theorem findNextOf_end {s : Str} {pos : Nat} (h1 : '.' ∉ s.drop pos) (h2 : '/' ∉ s.drop pos) : findNextOf s [['.'], ['/']] pos = none := by
  unfold findNextOf
  simp only [List.foldl_cons, List.foldl_nil]
  rw [find_char_none h1, find_char_none h2]

theorem findNextOf_stop {pre rest : Str} {d : Char} {pos : Nat} (hp : pos ≤ pre.length) (h1 : '.' ∉ pre.drop pos) (h2 : '/' ∉ pre.drop pos) (hd : d = '.' ∨ d = '/') :
    findNextOf (pre ++ d :: rest) [['.'], ['/']] pos = some pre.length := by
  unfold findNextOf
  simp only [List.foldl_cons, List.foldl_nil]
  rcases hd with rfl | rfl
  · rw [find_char_some hp h1]
    cases hf : find (pre ++ '.' :: rest) ['/'] pos with
    | none => rfl
    | some q =>
      have := find_char_after hp h2 q hf
      have hn : ¬ q < pre.length := by omega
      simp only
      rw [if_neg hn]
  · rw [find_char_some hp h2]
    cases hf : find (pre ++ '/' :: rest) ['.'] pos with
    | none => rfl
    | some q =>
      have := find_char_after hp h1 q hf
      simp only
      split
      · rfl
      · congr 1; omega

/-- A variable without braces. -/
theorem reference_plain {pre name rest : Str} (h1 : '.' ∉ name) (h2 : '/' ∉ name) (h3 : name.head? ≠ some '{')
    (hr : rest = [] ∨ rest.head? = some '.' ∨ rest.head? = some '/') :
    (reference (pre ++ ('$' :: name ++ rest)) pre.length).1 = name ∧
      after (pre ++ ('$' :: name ++ rest)) pre.length (reference (pre ++ ('$' :: name ++ rest)) pre.length).2 = rest := by
  have hb : ¬ (pre ++ ('$' :: name ++ rest))[pre.length + 1]? = some '{' := by
    rw [List.getElem?_append_right (by omega), show pre.length + 1 - pre.length = 1 by omega]
    rw [List.cons_append, List.getElem?_cons_succ]
    cases name with
    | nil =>
      rw [List.nil_append]
      rcases hr with rfl | hr | hr
      · simp
      · rw [← List.head?_eq_getElem?, hr]; decide
      · rw [← List.head?_eq_getElem?, hr]; decide
    | cons c name => simpa using h3
  have hd1 : '.' ∉ (pre ++ '$' :: name).drop pre.length := by rw [List.drop_left]; simp [h1]
  have hd2 : '/' ∉ (pre ++ '$' :: name).drop pre.length := by rw [List.drop_left]; simp [h2]
  unfold reference after
  rw [if_neg hb]
  cases rest with
  | nil =>
    rw [List.append_nil, findNextOf_end hd1 hd2]
    simp only
    refine ⟨?_, trivial⟩
    rw [show pre.length + 1 = (pre ++ ['$']).length by simp, show pre ++ '$' :: name = (pre ++ ['$']) ++ name by simp, List.drop_left]
  | cons d rest =>
    have hd : d = '.' ∨ d = '/' := by
      rcases hr with h | h | h
      · exact absurd h (by simp)
      · left; simpa using h
      · right; simpa using h
    have he : pre ++ ('$' :: name ++ d :: rest) = (pre ++ '$' :: name) ++ d :: rest := by simp
    rw [he, findNextOf_stop (by simp) hd1 hd2 hd]
    simp only
    constructor
    · rw [show pre.length + 1 = (pre ++ ['$']).length by simp, show (pre ++ '$' :: name) ++ d :: rest = (pre ++ ['$']) ++ (name ++ d :: rest) by simp, List.drop_left]
      rw [show (pre ++ '$' :: name).length - pre.length - 1 = name.length by simp, List.take_left]
    · rw [show pre.length + ((pre ++ '$' :: name).length - 1 - pre.length + 1) = (pre ++ '$' :: name).length by simp, List.drop_left]

theorem step_text (getenv : Str → Option Str) (root : Str) {path : Str} (h : '$' ∉ path) : step getenv root path = .done path := by
  unfold step
  rw [find_char_none (by simpa using h)]

theorem step_plain (getenv : Str → Option Str) (root : Str) {pre name rest : Str} (hp : '$' ∉ pre) (h1 : '.' ∉ name) (h2 : '/' ∉ name) (h3 : name.head? ≠ some '{')
    (hr : rest = [] ∨ rest.head? = some '.' ∨ rest.head? = some '/') :
    step getenv root (pre ++ ('$' :: name ++ rest)) =
      match lookup getenv root name with
      | none => .done (pre ++ ('$' :: name ++ rest))
      | some v => .again (pre ++ v ++ rest) := by
  have := reference_plain (pre := pre) h1 h2 h3 hr
  unfold step
  rw [List.cons_append, find_char_some (Nat.zero_le _) (by simpa using hp)]
  simp only
  rw [List.cons_append] at this
  rw [this.1, this.2, List.take_left]
  cases lookup getenv root name <;> rfl

/-- A variable in braces: the character that follows it is replaced as well. -/
theorem step_braces (getenv : Str → Option Str) (root : Str) {pre name rest v : Str} (hp : '$' ∉ pre) (hn : '}' ∉ name) (hv : lookup getenv root name = some v) :
    step getenv root (pre ++ ('$' :: '{' :: name ++ '}' :: rest)) = .again (pre ++ v ++ rest.drop 1) := by
  have hb : (pre ++ ('$' :: '{' :: name ++ '}' :: rest))[pre.length + 1]? = some '{' := by
    rw [List.getElem?_append_right (by omega), show pre.length + 1 - pre.length = 1 by omega]
    rfl
  have he : pre ++ ('$' :: '{' :: name ++ '}' :: rest) = (pre ++ '$' :: '{' :: name) ++ '}' :: rest := by simp
  have hf : find (pre ++ ('$' :: '{' :: name ++ '}' :: rest)) ['}'] pre.length = some (pre.length + name.length + 2) := by
    rw [he, find_char_some (by simp) (by rw [List.drop_left]; simp [hn])]
    simp; omega
  have hr : reference (pre ++ ('$' :: '{' :: name ++ '}' :: rest)) pre.length = (name, some (name.length + 4)) := by
    unfold reference
    rw [if_pos hb, hf]
    simp only
    rw [show pre.length + 2 = (pre ++ ['$', '{']).length by simp,
      show pre ++ ('$' :: '{' :: name ++ '}' :: rest) = (pre ++ ['$', '{']) ++ (name ++ '}' :: rest) by simp, List.drop_left,
      show pre.length + name.length + 2 - pre.length - 2 = name.length by omega, List.take_left]
    congr 2
    omega
  unfold step
  rw [show pre ++ ('$' :: '{' :: name ++ '}' :: rest) = pre ++ '$' :: ('{' :: name ++ '}' :: rest) by simp, find_char_some (Nat.zero_le _) (by simpa using hp)]
  simp only
  rw [show pre ++ '$' :: ('{' :: name ++ '}' :: rest) = pre ++ ('$' :: '{' :: name ++ '}' :: rest) by simp, hr]
  simp only
  rw [hv]
  simp only
  unfold after
  rw [List.take_left]
  congr 2
  simp only
  rw [show pre.length + (name.length + 4) = (pre ++ '$' :: '{' :: name ++ ['}']).length + 1 by simp; omega,
    show pre ++ ('$' :: '{' :: name ++ '}' :: rest) = (pre ++ '$' :: '{' :: name ++ ['}']) ++ rest by simp, ← List.drop_drop, List.drop_left]

/-- A variable with a brace that is not closed. -/
theorem step_unclosed (getenv : Str → Option Str) (root : Str) {pre name v : Str} (hp : '$' ∉ pre) (hn : '}' ∉ name) (hv : lookup getenv root name = some v) :
    step getenv root (pre ++ '$' :: '{' :: name) =
      .again (pre ++ v ++ (if pre.length = 0 then '{' :: name else if pre.length = 1 then '$' :: '{' :: name else [])) := by
  have hb : (pre ++ '$' :: '{' :: name)[pre.length + 1]? = some '{' := by
    rw [List.getElem?_append_right (by omega), show pre.length + 1 - pre.length = 1 by omega]
    rfl
  have hr : reference (pre ++ '$' :: '{' :: name) pre.length = (name, if pre.length ≤ 1 then some (1 - pre.length) else none) := by
    unfold reference
    rw [if_pos hb, find_char_none (by rw [List.drop_left]; simp [hn])]
    simp only
    rw [show pre.length + 2 = (pre ++ ['$', '{']).length by simp, show pre ++ '$' :: '{' :: name = (pre ++ ['$', '{']) ++ name by simp, List.drop_left]
  unfold step
  rw [find_char_some (Nat.zero_le _) (by simpa using hp)]
  simp only
  rw [hr]
  simp only
  rw [hv]
  simp only
  rw [List.take_left]
  congr 2
  by_cases h0 : pre.length = 0
  · rw [if_pos h0, if_pos (by omega), h0, List.eq_nil_of_length_eq_zero h0]
    rfl
  · rw [if_neg h0]
    by_cases h1 : pre.length = 1
    · rw [if_pos h1, if_pos (by omega), h1]
      unfold after
      simp only
      rw [show 1 + (1 - 1) = pre.length by omega, List.drop_left]
    · rw [if_neg h1, if_neg (by omega)]
      rfl

theorem written_cons_var (n : Str) (ps : List Piece) : written (.var n :: ps) = '$' :: n ++ written ps := rfl

/-- The loop with what is already expanded in front. -/
theorem expand_from (getenv : Str → Option Str) (root : Str) (value : Str → Str) : ∀ (ps : List Piece), Readable ps →
    (∀ n ∈ vars ps, lookup getenv root n = some (value n) ∧ '$' ∉ value n) → ∀ (pre : Str), '$' ∉ pre → ∀ k,
      expandGlobals getenv root ((vars ps).length + 1 + k) (pre ++ written ps) = some (pre ++ expanded value ps) := by
  intro ps
  induction ps with
  | nil =>
    intro _ _ pre hp k
    rw [show (vars []).length + 1 + k = k + 1 by simp [vars]; omega]
    unfold expandGlobals
    rw [show pre ++ written [] = pre by simp [written], step_text _ _ hp]
    simp [expanded]
  | cons p ps ih =>
    intro hr hv pre hp k
    cases p with
    | text s =>
      obtain ⟨hs, hr⟩ := hr
      have := ih hr hv (pre ++ s) (by simp [hp, hs]) k
      rw [List.append_assoc, List.append_assoc] at this
      exact this
    | var n =>
      obtain ⟨h1, h2, h3, h4, hr⟩ := hr
      have hvn := hv n (by simp [vars])
      have := ih hr (fun m hm => hv m (by simp [vars, hm])) (pre ++ value n) (by simp [hp, hvn.2]) k
      rw [show (vars (.var n :: ps)).length + 1 + k = ((vars ps).length + 1 + k) + 1 by simp [vars]; omega]
      unfold expandGlobals
      rw [written_cons_var, step_plain _ _ hp h1 h2 h3 h4, hvn.1]
      simp only
      rw [this]
      simp [expanded]

/-- The loop up to a variable without a value. -/
theorem expand_until (getenv : Str → Option Str) (root : Str) (value : Str → Str) (n : Str) (rest : List Piece) (hn : lookup getenv root n = none) : ∀ (ps : List Piece),
    Readable (ps ++ .var n :: rest) → (∀ m ∈ vars ps, lookup getenv root m = some (value m) ∧ '$' ∉ value m) → ∀ (pre : Str), '$' ∉ pre → ∀ k,
      expandGlobals getenv root ((vars ps).length + 1 + k) (pre ++ written (ps ++ .var n :: rest)) = some (pre ++ expanded value ps ++ written (.var n :: rest)) := by
  intro ps
  induction ps with
  | nil =>
    intro hr _ pre hp k
    obtain ⟨h1, h2, h3, h4, _⟩ := hr
    rw [show (vars []).length + 1 + k = k + 1 by simp [vars]; omega]
    unfold expandGlobals
    rw [List.nil_append, written_cons_var, step_plain _ _ hp h1 h2 h3 h4, hn]
    simp [expanded]
  | cons p ps ih =>
    intro hr hv pre hp k
    cases p with
    | text s =>
      obtain ⟨hs, hr⟩ := hr
      have := ih hr hv (pre ++ s) (by simp [hp, hs]) k
      rw [List.append_assoc, List.append_assoc pre s] at this
      exact this
    | var m =>
      rw [List.cons_append] at hr
      obtain ⟨h1, h2, h3, h4, hr⟩ := hr
      have hvn := hv m (by simp [vars])
      have := ih hr (fun m hm => hv m (by simp [vars, hm])) (pre ++ value m) (by simp [hp, hvn.2]) k
      rw [show (vars (.var m :: ps)).length + 1 + k = ((vars ps).length + 1 + k) + 1 by simp [vars]; omega]
      unfold expandGlobals
      rw [List.cons_append, written_cons_var, step_plain _ _ hp h1 h2 h3 h4, hvn.1]
      simp only
      rw [this]
      simp [expanded]

/-! ### Lists of files -/

theorem findLastOf_some {s : Str} {c : Char} {b : Nat} (hb : s[b]? = some c) : ∀ w, b ≤ w → (∀ i, b < i → i ≤ w → s[i]? ≠ some c) → findLastOf s c w = some b := by
  intro w
  induction w with
  | zero =>
    intro h _
    have : b = 0 := by omega
    subst this
    unfold findLastOf
    rw [if_pos hb]
  | succ w ih =>
    intro h hn
    unfold findLastOf
    by_cases hw : b = w + 1
    · subst hw
      rw [if_pos hb]
    · rw [if_neg (hn (w + 1) (by omega) (Nat.le_refl _))]
      exact ih (by omega) fun i h1 h2 => hn i h1 (by omega)

theorem findLastOf_none {s : Str} {c : Char} : ∀ w, (∀ i, i ≤ w → s[i]? ≠ some c) → findLastOf s c w = none := by
  intro w
  induction w with
  | zero => intro h; unfold findLastOf; rw [if_neg (h 0 (Nat.le_refl _))]
  | succ w ih =>
    intro h
    unfold findLastOf
    rw [if_neg (h (w + 1) (Nat.le_refl _))]
    exact ih fun i hi => h i (by omega)

theorem filter_entries (names : List Str) (pattern : Str) :
    (names.filter fun name => !(name == "..".toList || name == ".".toList) && (pattern == [] || matchesWildcard name pattern '*')) = entries names pattern := by
  unfold entries
  refine List.filter_congr fun n _ => ?_
  congr 1
  · by_cases h1 : n = "..".toList
    · subst h1; decide
    · by_cases h2 : n = ".".toList
      · subst h2; decide
      · have e1 : (n == "..".toList) = false := beq_false_of_ne h1
        have e2 : (n == ".".toList) = false := beq_false_of_ne h2
        rw [e1, e2, decide_eq_true (show n ≠ "..".toList ∧ n ≠ ".".toList from ⟨h1, h2⟩)]
        rfl
  · cases pattern <;> rfl

/-- All directories can be opened. -/
theorem listLoop_all (readdir : Str → Option (List Str)) (pattern : Str) (content : Str → List Str) : ∀ (tops files : List Str), (∀ t ∈ tops, readdir t = some (content t)) →
    listLoop readdir pattern tops files = files ++ tops.flatMap fun t => (entries (content t) pattern).map (inDir t) := by
  intro tops
  induction tops with
  | nil => intro files _; simp [listLoop]
  | cons t tops ih =>
    intro files h
    unfold listLoop
    rw [h t (by simp)]
    simp only
    rw [ih _ fun t' ht => h t' (by simp [ht]), filter_entries, List.append_assoc, List.flatMap_cons]
    rfl

/-- One cannot. -/
theorem listLoop_stop (readdir : Str → Option (List Str)) (pattern : Str) (content : Str → List Str) (bad : Str) (hb : readdir bad = none) (later : List Str) :
    ∀ (tops files : List Str), (∀ t ∈ tops, readdir t = some (content t)) →
      listLoop readdir pattern (tops ++ bad :: later) files = files ++ tops.flatMap fun t => (entries (content t) pattern).map (inDir t) := by
  intro tops
  induction tops with
  | nil =>
    intro files _
    rw [List.nil_append]
    unfold listLoop
    rw [hb]
    simp
  | cons t tops ih =>
    intro files h
    rw [List.cons_append]
    unfold listLoop
    rw [h t (by simp)]
    simp only
    rw [ih _ fun t' ht => h t' (by simp [ht]), filter_entries, List.append_assoc, List.flatMap_cons]
    rfl

/-- A path with a wildcard is that of a directory, a pattern for one name, and what follows. -/
theorem wildcard_split {sub m rest : Str} (hs : '*' ∉ sub) (hm : '*' ∈ m) (hm' : '/' ∉ m) (hr : rest = [] ∨ rest.head? = some '/') :
    ∃ w, find (sub ++ '/' :: m ++ rest) ['*'] 0 = some w ∧ findLastOf (sub ++ '/' :: m ++ rest) '/' w = some sub.length ∧
      find (sub ++ '/' :: m ++ rest) ['/'] w = (if rest = [] then none else some (sub.length + 1 + m.length)) := by
  obtain ⟨a, b, hab, hab'⟩ : ∃ a b, m = a ++ '*' :: b ∧ '*' ∉ a := by
    obtain ⟨a, b, h, h'⟩ := List.append_of_mem hm |>.imp fun a h => h |>.imp fun b h => h |> fun h => (⟨h, h⟩ : m = a ++ '*' :: b ∧ m = a ++ '*' :: b)
    clear h' h
    induction m with
    | nil => simp at hm
    | cons c m ih =>
      by_cases hc : c = '*'
      · exact ⟨[], m, by rw [hc]; rfl, by simp⟩
      · have hm2 : '*' ∈ m := by
          rcases List.mem_cons.mp hm with h | h
          · exact absurd h.symm hc
          · exact h
        obtain ⟨a, b, h1, h2⟩ := ih hm2 (fun h => hm' (List.mem_cons_of_mem _ h))
        exact ⟨c :: a, b, by rw [h1]; rfl, by simp [h2, Ne.symm hc]⟩
  have hpath : sub ++ '/' :: m ++ rest = (sub ++ '/' :: a) ++ '*' :: (b ++ rest) := by rw [hab]; simp
  have hlen : (sub ++ '/' :: a).length = sub.length + 1 + a.length := by simp; omega
  refine ⟨sub.length + 1 + a.length, ?_, ?_, ?_⟩
  · rw [hpath, find_char_some (Nat.zero_le _) (by simp [hs, hab']), hlen]
  · refine findLastOf_some ?_ _ (by omega) ?_
    · rw [List.append_assoc, List.getElem?_append_right (Nat.le_refl _), Nat.sub_self]
      rfl
    · intro i h1 h2 h3
      rw [List.append_assoc, List.getElem?_append_right (by omega), List.cons_append] at h3
      obtain ⟨j, hj⟩ : ∃ j, i - sub.length = j + 1 := ⟨i - sub.length - 1, by omega⟩
      rw [hj, List.getElem?_cons_succ, List.getElem?_append_left (by rw [hab]; simp; omega)] at h3
      exact hm' (List.mem_of_getElem? h3)
  · have hdrop : '/' ∉ (sub ++ '/' :: m).drop (sub.length + 1 + a.length) := by
      intro h
      rw [show sub.length + 1 + a.length = (sub ++ '/' :: a).length by rw [hlen], hab, show sub ++ '/' :: (a ++ '*' :: b) = (sub ++ '/' :: a) ++ '*' :: b by simp,
        List.drop_left] at h
      exact hm' (by rw [hab]; simp at h ⊢; right; exact h)
    cases rest with
    | nil => rw [if_pos rfl, List.append_nil, find_char_none hdrop]
    | cons d rest =>
      have hd : d = '/' := by
        rcases hr with h | h
        · exact absurd h (by simp)
        · simpa using h
      subst hd
      rw [if_neg (by simp), find_char_some (by rw [hab]; simp; omega) hdrop]
      congr 1
      simp; omega

end AmpGen.Paths
