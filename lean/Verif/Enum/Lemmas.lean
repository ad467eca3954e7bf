import Verif.Enum.Spec
import Mathlib.Tactic.Common
import Mathlib.Data.List.Nodup
namespace AmpGen.Enum
open AmpGen.Strings (Str)

theorem takeWhile_all {p : Char → Bool} {a : Str} (h : ∀ c ∈ a, p c = true) (b : Str) : (a ++ b).takeWhile p = a ++ b.takeWhile p := by
  rw [List.takeWhile_append_of_pos h]

theorem dropWhile_all {p : Char → Bool} {a : Str} (h : ∀ c ∈ a, p c = true) (b : Str) : (a ++ b).dropWhile p = b.dropWhile p := by
  rw [List.dropWhile_append_of_pos h]

theorem dropWhile_head {p : Char → Bool} {a : Str} (h : ∀ c, a.head? = some c → p c = false) : a.dropWhile p = a := by
  cases a with
  | nil => rfl
  | cons c a => rw [List.dropWhile_cons_of_neg]; rw [h c rfl]; simp

theorem mem_takeWhile {p : Char → Bool} {a : Str} {c : Char} (h : c ∈ a.takeWhile p) : p c = true := by
  have := List.all_takeWhile (p := p) (l := a)
  exact List.all_eq_true.mp this c h

theorem name_take {n : Str} (hn : Name n) (b : Str) (hb : b = [] ∨ b.head? = some ',') : (n ++ b).takeWhile (· != ',') = n ∧ (n ++ b).dropWhile (· != ',') = b := by
  have h : ∀ c ∈ n, (c != ',') = true := fun c hc => by simpa using (hn.chars c hc).2
  have hb' : b.takeWhile (· != ',') = [] ∧ b.dropWhile (· != ',') = b := by
    rcases hb with rfl | hb
    · exact ⟨rfl, rfl⟩
    · cases b with
      | nil => cases hb
      | cons c b =>
        simp only [List.head?_cons, Option.some.injEq] at hb
        subst hb
        exact ⟨rfl, rfl⟩
  rw [takeWhile_all h, dropWhile_all h, hb'.1, hb'.2]
  exact ⟨List.append_nil _, rfl⟩

theorem name_skip {n : Str} (hn : Name n) (k : Nat) (b : Str) : (List.replicate k ' ' ++ (n ++ b)).dropWhile (· == ' ') = n ++ b := by
  rw [dropWhile_all (by intro c hc; rw [List.eq_of_mem_replicate hc]; rfl)]
  apply dropWhile_head
  intro c hc
  cases n with
  | nil => exact absurd rfl hn.nonempty
  | cons d n =>
    simp only [List.cons_append, List.head?_cons, Option.some.injEq] at hc
    subst hc
    simpa using (hn.chars d List.mem_cons_self).1

theorem declared_form {args : Str} {names : List Str} (h : Declared args names) : ∃ n b, Name n ∧ args = n ++ b ∧ (b = [] ∨ b.head? = some ',') := by
  cases h with
  | last hn => exact ⟨_, [], hn, (List.append_nil _).symm, Or.inl rfl⟩
  | cons hn _ => exact ⟨_, _, hn, rfl, Or.inr rfl⟩

theorem parseLoop_declared {args : Str} {names : List Str} (h : Declared args names) (word : Str) : ∀ (k counter : Nat),
    (∀ i, names[i]? = some word → (∀ j, j < i → names[j]? ≠ some word) → parseLoop word (List.replicate k ' ' ++ args) counter = some (counter + i)) ∧
    (word ∉ names → parseLoop word (List.replicate k ' ' ++ args) counter = none) := by
  induction h with
  | @last n hn =>
    intro k counter
    have hs := name_skip hn k []
    have ht := name_take hn [] (Or.inl rfl)
    rw [List.append_nil] at hs ht
    have hne : List.replicate k ' ' ++ n ≠ [] := by
      intro he
      exact hn.nonempty (List.append_eq_nil_iff.mp he).2
    constructor
    · intro i hi _
      cases i with
      | succ i => simp at hi
      | zero =>
        simp only [List.getElem?_cons_zero, Option.some.injEq] at hi
        rw [parseLoop, if_neg hne]
        simp only
        rw [hs, ht.1, if_pos hi.symm]
        rfl
    · intro hw
      rw [parseLoop, if_neg hne]
      simp only
      rw [hs, ht.1, if_neg (by simpa using hw)]
      split
      · rfl
      · rename_i heq
        rw [ht.2] at heq
        cases heq
  | @cons n k' args names hn hd ih =>
    intro k counter
    have hs := name_skip hn k (',' :: (List.replicate k' ' ' ++ args))
    have ht := name_take hn (',' :: (List.replicate k' ' ' ++ args)) (Or.inr rfl)
    have hne : List.replicate k ' ' ++ (n ++ ',' :: (List.replicate k' ' ' ++ args)) ≠ [] := by
      intro he
      exact hn.nonempty (List.append_eq_nil_iff.mp (List.append_eq_nil_iff.mp he).2).1
    have hgo : word ≠ n → parseLoop word (List.replicate k ' ' ++ (n ++ ',' :: (List.replicate k' ' ' ++ args))) counter =
        parseLoop word (List.replicate k' ' ' ++ args) (counter + 1) := by
      intro hw
      conv_lhs => rw [parseLoop]
      rw [if_neg hne]
      simp only
      rw [hs, ht.1, if_neg hw]
      split
      · rename_i heq
        rw [ht.2] at heq
        cases heq
      · rename_i heq
        rw [ht.2] at heq
        cases heq
        rfl
    constructor
    · intro i hi hmin
      cases i with
      | zero =>
        simp only [List.getElem?_cons_zero, Option.some.injEq] at hi
        rw [parseLoop, if_neg hne]
        simp only
        rw [hs, ht.1, if_pos hi.symm]
        rfl
      | succ i =>
        rw [hgo (fun he => hmin 0 (Nat.succ_pos i) (by rw [he]; rfl)), (ih k' (counter + 1)).1 i hi (fun j hj => hmin (j + 1) (by omega))]
        congr 1
        omega
    · intro hw
      rw [List.mem_cons, not_or] at hw
      rw [hgo hw.1, (ih k' (counter + 1)).2 hw.2]

theorem skipTo_name {n : Str} (hn : ∀ c ∈ n, c ≠ ',') (b : Str) (item counter : Int) (hc : counter ≠ item) :
    skipTo item (n ++ ',' :: b) counter = skipTo item b (counter + 1) := by
  induction n with
  | nil => rw [List.nil_append, skipTo, if_neg hc, if_pos rfl]
  | cons c n ih =>
    rw [List.cons_append, skipTo, if_neg hc, if_neg (hn c List.mem_cons_self), ih (fun d hd => hn d (List.mem_cons_of_mem _ hd))]

theorem skipTo_stop (s : Str) (item : Int) : skipTo item s item = s := by
  cases s with
  | nil => rfl
  | cons c s => rw [skipTo, if_pos rfl]

theorem skipTo_end {n : Str} (hn : ∀ c ∈ n, c ≠ ',') (item counter : Int) (hc : counter ≠ item) : skipTo item n counter = [] := by
  induction n with
  | nil => rfl
  | cons c n ih => rw [skipTo, if_neg hc, if_neg (hn c List.mem_cons_self), ih (fun d hd => hn d (List.mem_cons_of_mem _ hd))]

theorem skipTo_blanks (k : Nat) (s : Str) (item counter : Int) (hc : counter ≠ item) : skipTo item (List.replicate k ' ' ++ s) counter = skipTo item s counter := by
  induction k with
  | zero => rfl
  | succ k ih => rw [List.replicate_succ, List.cons_append, skipTo, if_neg hc, if_neg (by decide), ih]

theorem skipTo_declared {args : Str} {names : List Str} (h : Declared args names) : ∀ (k i : Nat) (counter : Int), i < names.length →
    ∃ k' args', skipTo (counter + i) (List.replicate k ' ' ++ args) counter = List.replicate k' ' ' ++ args' ∧ Declared args' (names.drop i) := by
  induction h with
  | @last n hn =>
    intro k i counter hi
    obtain rfl : i = 0 := by simp at hi; omega
    refine ⟨k, n, ?_, .last hn⟩
    rw [show counter + ((0 : Nat) : Int) = counter by simp, skipTo_stop]
  | @cons n k' args names hn hd ih =>
    intro k i counter hi
    cases i with
    | zero =>
      refine ⟨k, _, ?_, .cons (k := k') hn hd⟩
      rw [show counter + ((0 : Nat) : Int) = counter by simp, skipTo_stop]
    | succ i =>
      have hc : counter ≠ counter + ((i + 1 : Nat) : Int) := by push_cast; omega
      rw [skipTo_blanks _ _ _ _ hc, skipTo_name (fun c hc => (hn.chars c hc).2) _ _ _ hc]
      obtain ⟨a, b, h1, h2⟩ := ih k' i (counter + 1) (by simpa using hi)
      refine ⟨a, b, ?_, h2⟩
      rw [← h1]
      congr 1
      push_cast
      omega

theorem skipTo_beyond {args : Str} {names : List Str} (h : Declared args names) : ∀ (k : Nat) (item counter : Int), counter + names.length ≤ item →
    skipTo item (List.replicate k ' ' ++ args) counter = [] := by
  induction h with
  | @last n hn =>
    intro k item counter hi
    have hc : counter ≠ item := by simp at hi; omega
    rw [skipTo_blanks _ _ _ _ hc, skipTo_end (fun c hc => (hn.chars c hc).2) _ _ hc]
  | @cons n k' args names hn hd ih =>
    intro k item counter hi
    have hi' : counter + (names.length + 1 : Nat) ≤ item := hi
    have hc : counter ≠ item := by push_cast at hi'; omega
    rw [skipTo_blanks _ _ _ _ hc, skipTo_name (fun c hc => (hn.chars c hc).2) _ _ _ hc]
    apply ih
    push_cast at hi'
    omega

theorem strtoul_name {n : Str} (hn : Name n) : (strtoul n).2 ≠ [] := by
  have h1 : n.dropWhile isSpace = n := dropWhile_head fun c hc => (hn.first c hc).1
  obtain ⟨c, t, rfl⟩ := List.exists_cons_of_ne_nil hn.nonempty
  obtain ⟨_, h2, h3, h4⟩ := hn.first c rfl
  unfold strtoul
  simp only
  rw [h1]
  split
  · rename_i heq
    cases heq
    exact absurd rfl h3
  · rename_i heq
    cases heq
    exact absurd rfl h4
  · rename_i heq
    have : (c :: t).takeWhile isDigit = [] := by rw [List.takeWhile_cons_of_neg]; rw [h2]; simp
    rw [this, if_pos rfl]
    simp

theorem strtoul_rest {w : Str} (h : (strtoul w).2 = []) : w = [] ∨ Numeral w := by
  unfold strtoul at h
  simp only at h
  have hsp : ∀ c ∈ w.takeWhile isSpace, isSpace c = true := fun c hc => mem_takeWhile hc
  have key : ∀ (sign s : Str), w.dropWhile isSpace = sign ++ s → sign ∈ [[], ['-'], ['+']] → s.takeWhile isDigit ≠ [] → s.dropWhile isDigit = [] → Numeral w := by
    intro sign s h1 h2 h3 h4
    refine ⟨w.takeWhile isSpace, sign, s.takeWhile isDigit, ?_, hsp, h2, h3, fun c hc => mem_takeWhile hc⟩
    have : s.takeWhile isDigit = s := by
      have := List.takeWhile_append_dropWhile (p := isDigit) (l := s)
      rw [h4, List.append_nil] at this
      exact this
    rw [this, List.append_assoc, ← h1, List.takeWhile_append_dropWhile]
  split at h
  · rename_i t heq
    by_cases hd : t.takeWhile isDigit = []
    · rw [if_pos hd] at h; exact Or.inl h
    · rw [if_neg hd] at h
      exact Or.inr (key ['-'] t heq (by simp) hd h)
  · rename_i t heq
    by_cases hd : t.takeWhile isDigit = []
    · rw [if_pos hd] at h; exact Or.inl h
    · rw [if_neg hd] at h
      exact Or.inr (key ['+'] t heq (by simp) hd h)
  · by_cases hd : (w.dropWhile isSpace).takeWhile isDigit = []
    · rw [if_pos hd] at h; exact Or.inl h
    · rw [if_neg hd] at h
      exact Or.inr (key [] _ rfl (by simp) hd h)

end AmpGen.Enum
