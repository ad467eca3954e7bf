import Verif.Strings.Lemmas
/-
Helper lemmas for `replaceAll`, `split( s, delims )` and
`stringMatchesWildcard`.
-/
namespace AmpGen.Strings

open Spec

/-! ### replaceAll -/

theorem replaced_none {pat rep : Str} (_hp : pat ≠ []) : ∀ {s : Str},
    (∀ q, q ≤ s.length → ¬ pat <+: s.drop q) → Replaced pat rep s s
  | [], _ => .done
  | c :: s, h => by
    refine .skip (by simpa using h 0 (by simp)) (replaced_none _hp ?_)
    intro q hq
    simpa using h (q + 1) (by simpa using hq)

theorem replaced_skip {pat rep : Str} : ∀ {r s t : Str},
    (∀ q, q < r.length → ¬ pat <+: (r ++ s).drop q) → Replaced pat rep s t →
    Replaced pat rep (r ++ s) (r ++ t)
  | [], _, _, _, h => h
  | c :: r, s, t, h, hst => by
    refine .skip (by simpa using h 0 (by simp)) (replaced_skip ?_ hst)
    intro q hq
    simpa using h (q + 1) (by simpa using hq)

theorem replaced_unique {pat rep s t : Str} (h : Replaced pat rep s t) :
    ∀ {u : Str}, Replaced pat rep s u → t = u := by
  induction h with
  | done =>
    intro u hu
    generalize hx : ([] : Str) = x at hu
    cases hu with
    | done => rfl
    | skip _ _ => cases hx
    | hit hp _ =>
      have := congrArg List.length hx
      simp only [List.length_nil, List.length_append] at this
      exact absurd (List.length_eq_zero_iff.mp (by omega)) hp
  | @skip c s t hn h ih =>
    intro u hu
    generalize hx : c :: s = x at hu
    cases hu with
    | done => cases hx
    | skip _ h2 => cases hx; rw [ih h2]
    | hit hp _ => exact absurd ⟨_, hx.symm⟩ hn
  | @hit s t hp h ih =>
    intro u hu
    generalize hx : pat ++ s = x at hu
    cases hu with
    | done =>
      have := congrArg List.length hx
      simp only [List.length_nil, List.length_append] at this
      exact absurd (List.length_eq_zero_iff.mp (by omega)) hp
    | skip hn _ => exact absurd ⟨_, hx⟩ hn
    | hit _ h2 =>
      have := List.append_cancel_left hx
      subst this
      rw [ih h2]

theorem replaced_total {pat rep : Str} (hp : pat ≠ []) : ∀ (n : Nat) (s : Str), s.length ≤ n →
    ∃ t, Replaced pat rep s t
  | 0, s, hs => by
    obtain rfl := List.length_eq_zero_iff.mp (by omega : s.length = 0)
    exact ⟨[], .done⟩
  | n + 1, s, hs => by
    by_cases h : pat <+: s
    · obtain ⟨r, rfl⟩ := h
      have hpl : 0 < pat.length := List.length_pos_iff.mpr hp
      obtain ⟨t, ht⟩ := replaced_total (rep := rep) hp n r
        (by simp only [List.length_append] at hs; omega)
      exact ⟨_, .hit hp ht⟩
    · cases s with
      | nil => exact ⟨[], .done⟩
      | cons c s =>
        obtain ⟨t, ht⟩ := replaced_total (rep := rep) hp n s (by simpa using hs)
        exact ⟨_, .skip h ht⟩

/-- Loop invariant of `replaceAll`: `pre` has been processed, no occurrence of
the pattern can begin in `gap`, and `rest` is untouched input. -/
theorem replaceLoop_correct {pat rep : Str} {p0 : Char} {ptl : Str} (hpat : pat = p0 :: ptl)
    (hlen : pat.length ≤ rep.length) (hgap : p0 ∉ rep.drop pat.length) :
    ∀ (fuel : Nat) (pre gap rest : Str), rest.length < fuel → p0 ∉ gap →
      ∃ t, replaceLoop pat rep fuel (pre ++ gap ++ rest) pre.length = some (pre ++ gap ++ t) ∧
        Replaced pat rep rest t
  | 0, _, _, _, h, _ => by omega
  | fuel + 1, pre, gap, rest, hf, hg => by
    have hne : pat ≠ [] := by simp [hpat]
    have hpl : 0 < pat.length := List.length_pos_iff.mpr hne
    simp only [replaceLoop]
    have hdropge : ∀ q, (pre ++ gap ++ rest).drop (pre.length + gap.length + q) = rest.drop q := by
      intro q
      rw [show pre.length + gap.length + q = (pre ++ gap).length + q by simp,
        List.drop_append, List.drop_eq_nil_of_le (by omega)]
      simp
    cases hfind : find (pre ++ gap ++ rest) pat pre.length with
    | none =>
      refine ⟨rest, rfl, replaced_none hne ?_⟩
      intro q hq hpre
      refine find_none hfind (pre.length + gap.length + q) (by omega)
        (by simp only [List.length_append]; omega) ?_
      rwa [hdropge]
    | some p =>
      obtain ⟨h1, h2, h3, h4⟩ := find_some hfind
      have hpg : pre.length + gap.length ≤ p := by
        by_contra hlt
        have hlt : p < pre.length + gap.length := by omega
        obtain ⟨k, rfl⟩ : ∃ k, p = pre.length + k := ⟨p - pre.length, by omega⟩
        have hk : k < gap.length := by omega
        rw [List.append_assoc, List.drop_append, List.drop_eq_nil_of_le (by omega)] at h3
        simp only [List.nil_append, Nat.add_sub_cancel_left] at h3
        rw [List.drop_append, hpat, Nat.sub_eq_zero_of_le (by omega), List.drop_zero,
          List.drop_eq_getElem_cons hk, List.cons_append, List.cons_prefix_cons] at h3
        exact hg (h3.1 ▸ List.getElem_mem hk)
      obtain ⟨i, rfl⟩ : ∃ i, p = pre.length + gap.length + i :=
        ⟨p - (pre.length + gap.length), by omega⟩
      rw [hdropge] at h3
      have hi : i ≤ rest.length := by simp only [List.length_append] at h2; omega
      obtain ⟨r2, hr2⟩ := h3
      have hrest : rest = rest.take i ++ (pat ++ r2) := by
        rw [hr2, List.take_append_drop]
      have htl : (rest.take i).length = i := by rw [List.length_take]; omega
      have hr2len : r2.length < fuel := by
        have := congrArg List.length hrest
        simp only [List.length_append] at this
        omega
      obtain ⟨t2, ht2, hR⟩ := replaceLoop_correct hpat hlen hgap fuel
        (pre ++ gap ++ rest.take i ++ rep.take pat.length) (rep.drop pat.length) r2 hr2len hgap
      refine ⟨rest.take i ++ (rep ++ t2), ?_, ?_⟩
      · have e1 : (pre ++ gap ++ rest).take (pre.length + gap.length + i) =
            pre ++ gap ++ rest.take i := by
          rw [List.take_append]
          rw [List.take_of_length_le (by simp only [List.length_append]; omega)]
          congr 2
          simp only [List.length_append]; omega
        have e2 : (pre ++ gap ++ rest).drop (pre.length + gap.length + i + pat.length) = r2 := by
          rw [Nat.add_assoc, hdropge, ← List.drop_drop, ← hr2]; simp
        have e3 : (pre ++ gap ++ rest.take i ++ rep.take pat.length).length =
            pre.length + gap.length + i + pat.length := by
          simp only [List.length_append, htl, List.length_take]
          omega
        simp only []
        rw [e1, e2]
        rw [e3] at ht2
        have e4 : pre ++ gap ++ List.take i rest ++ List.take pat.length rep ++
            List.drop pat.length rep ++ r2 = pre ++ gap ++ List.take i rest ++ rep ++ r2 := by
          simp only [List.append_assoc]
          congr 3
          rw [← List.append_assoc, List.take_append_drop]
        rw [e4] at ht2
        rw [ht2]
        congr 1
        simp only [List.append_assoc]
        congr 3
        rw [← List.append_assoc, List.take_append_drop]
      · have hsk := replaced_skip (pat := pat) (rep := rep) (r := rest.take i) (s := pat ++ r2)
          (t := rep ++ t2) (by
            intro q hq
            rw [← hrest, ← hdropge]
            exact h4 _ (by omega) (by omega)) (.hit hne hR)
        rwa [← hrest] at hsk

/-! ### Wildcards -/

theorem wild_cons_star {star : Char} {p i : Str} :
    WildMatch star (star :: p) i ↔ ∃ sk r, i = sk ++ r ∧ WildMatch star p r := by
  constructor
  · intro h
    generalize hx : star :: p = x at h
    cases h with
    | nil => cases hx
    | char hc _ => cases hx; exact absurd rfl hc
    | star sk h => cases hx; exact ⟨sk, _, rfl, h⟩
  · rintro ⟨sk, r, rfl, h⟩
    exact .star sk h

theorem wild_cons_char {star c : Char} (hc : c ≠ star) {p i : Str} :
    WildMatch star (c :: p) i ↔ ∃ r, i = c :: r ∧ WildMatch star p r := by
  constructor
  · intro h
    generalize hx : c :: p = x at h
    cases h with
    | nil => cases hx
    | char _ h => cases hx; exact ⟨_, rfl, h⟩
    | star sk h => cases hx; exact absurd rfl hc
  · rintro ⟨r, rfl, h⟩
    exact .char hc h

theorem wild_nil {star : Char} {i : Str} : WildMatch star [] i ↔ i = [] := by
  constructor
  · intro h; cases h; rfl
  · rintro rfl; exact .nil

/-- A star-free prefix of the pattern is matched literally. -/
theorem wild_prefix {star : Char} {q : Str} : ∀ {p i : Str}, star ∉ p →
    (WildMatch star (p ++ q) i ↔ ∃ r, i = p ++ r ∧ WildMatch star q r)
  | [], i, _ => by simp
  | c :: p, i, h => by
    rw [List.mem_cons, not_or] at h
    rw [List.cons_append, wild_cons_char (Ne.symm h.1)]
    constructor
    · rintro ⟨r, rfl, hr⟩
      obtain ⟨r', rfl, hr'⟩ := (wild_prefix h.2).mp hr
      exact ⟨r', rfl, hr'⟩
    · rintro ⟨r, rfl, hr⟩
      exact ⟨p ++ r, rfl, (wild_prefix h.2).mpr ⟨r, rfl, hr⟩⟩

theorem wild_seg_star {star : Char} {p q i : Str} (h : star ∉ p) :
    WildMatch star (p ++ star :: q) i ↔ ∃ sk r, i = p ++ sk ++ r ∧ WildMatch star q r := by
  rw [wild_prefix h]
  constructor
  · rintro ⟨r, rfl, hr⟩
    obtain ⟨sk, r', rfl, h'⟩ := wild_cons_star.mp hr
    exact ⟨sk, r', by simp, h'⟩
  · rintro ⟨sk, r, rfl, hr⟩
    exact ⟨sk ++ r, by simp, wild_cons_star.mpr ⟨sk, r, rfl, hr⟩⟩

theorem wild_literal {star : Char} {p i : Str} (h : star ∉ p) : WildMatch star p i ↔ i = p := by
  have := wild_prefix (q := []) (i := i) h
  rw [List.append_nil] at this
  rw [this]
  simp [wild_nil]

/-- Decomposition of a pattern at its first wildcard. -/
theorem findIdx_star {star : Char} {w : Str} :
    (w.findIdx? (· == star) = none ↔ star ∉ w) ∧
    ∀ {pos}, w.findIdx? (· == star) = some pos →
      w = w.take pos ++ star :: w.drop (pos + 1) ∧ star ∉ w.take pos ∧ pos < w.length := by
  constructor
  · rw [List.findIdx?_eq_none_iff]
    constructor
    · intro h hm; simpa using h _ hm
    · intro h x hx
      simp only [beq_eq_false_iff_ne]
      rintro rfl; exact h hx
  · intro pos hpos
    rw [List.findIdx?_eq_some_iff_getElem] at hpos
    obtain ⟨hlt, h1, h2⟩ := hpos
    refine ⟨?_, ?_, hlt⟩
    · have : w[pos] = star := by simpa using h1
      conv => lhs; rw [← List.take_append_drop pos w, List.drop_eq_getElem_cons hlt, this]
    · intro hm
      obtain ⟨k, hk, he⟩ := List.mem_iff_getElem.mp hm
      rw [List.getElem_take] at he
      rw [List.length_take] at hk
      have := h2 k (by omega)
      rw [he] at this
      simp at this

theorem find_zero_iff {s p : Str} : (find s p 0 == some 0) = true ↔ p <+: s := by
  rw [beq_iff_eq, find_eq_some_iff]
  constructor
  · rintro ⟨_, _, h, _⟩; simpa using h
  · intro h
    exact ⟨Nat.le_refl _, Nat.zero_le _, by simpa using h, by intro q _ hq; omega⟩

theorem takeUntil_star {star : Char} {w : Str} (h : star ∈ w) :
    ∃ p q, w = p ++ star :: q ∧ star ∉ p ∧ w.findIdx? (· == star) = some p.length := by
  cases hf : w.findIdx? (· == star) with
  | none => exact absurd h (findIdx_star.1.mp hf)
  | some pos =>
    obtain ⟨h1, h2, h3⟩ := findIdx_star.2 hf
    exact ⟨_, _, h1, h2, by rw [List.length_take, Nat.min_eq_left (by omega)]⟩

theorem findIdx_seg {star : Char} {p q : Str} (hp : star ∉ p) :
    (p ++ star :: q).findIdx? (· == star) = some p.length := by
  rw [List.findIdx?_eq_some_iff_getElem]
  refine ⟨by simp, by simp, ?_⟩
  intro j hj
  have : (p ++ star :: q)[j]'(by simp; omega) = p[j] := by
    rw [List.getElem_append_left hj]
  rw [this]
  simp only [beq_iff_eq]
  intro h
  exact hp (h ▸ List.getElem_mem hj)

/-- Unfolding of the recursion for a pattern whose first wildcard is not last. -/
theorem matches_seg {star : Char} {input p q : Str} (hp : star ∉ p) (hq : q ≠ []) :
    matchesWildcard input (p ++ star :: q) star = true ↔
      p <+: input ∧ ∃ k, find input (q.takeWhile (· != star)) 0 = some k ∧
        matchesWildcard (input.drop k) q star = true := by
  rw [matchesWildcard]
  have hidx := findIdx_seg (q := q) hp
  have hql : 0 < q.length := List.length_pos_iff.mpr hq
  split
  · rename_i h; rw [hidx] at h; cases h
  · rename_i pos h
    rw [hidx] at h; cases h
    have h1 : ¬ (p ++ star :: q).length = 1 := by simp; omega
    have h2 : ¬ p.length = (p ++ star :: q).length - 1 := by simp; omega
    have hd : (p ++ star :: q).drop (p.length + 1) = q := by
      rw [List.drop_append, List.drop_eq_nil_of_le (by omega)]; simp
    have ht : (p ++ star :: q).take p.length = p := by simp
    rw [if_neg h1, if_neg h2]
    simp only [hd, ht]
    have hseg : wildSegment q star = q.takeWhile (· != star) := by
      unfold wildSegment
      cases hf : q.findIdx? (· == star) with
      | none =>
        have := findIdx_star.1.mp hf
        symm
        rw [List.takeWhile_eq_self_iff]
        intro x hx
        simp only [bne_iff_ne]
        rintro rfl; exact this hx
      | some pos =>
        obtain ⟨e1, e2, e3⟩ := findIdx_star.2 hf
        have : (q.take pos ++ star :: q.drop (pos + 1)).takeWhile (· != star) = q.take pos :=
          takeWhile_append_delim e2 _
        rw [← e1] at this
        exact this.symm
    rw [hseg]
    have hm1 : (if p.length = 0 then true else find input p 0 == some 0) = true ↔ p <+: input := by
      split
      · rename_i h0
        have := List.length_eq_zero_iff.mp h0
        subst this; simp
      · exact find_zero_iff
    by_cases hpi : p <+: input
    · have := hm1.mpr hpi
      rw [this]
      simp only [Bool.not_true, Bool.false_eq_true, if_false, hpi, true_and]
      cases find input (q.takeWhile (· != star)) 0 with
      | none => simp
      | some k => simp
    · have : (if p.length = 0 then true else find input p 0 == some 0) = false := by
        cases hb : (if p.length = 0 then true else find input p 0 == some 0) with
        | false => rfl
        | true => exact absurd (hm1.mp hb) hpi
      rw [this]
      simp [hpi]

theorem matches_literal {star : Char} {input p : Str} (hp : star ∉ p) :
    matchesWildcard input p star = true ↔ input = p := by
  rw [matchesWildcard]
  have := findIdx_star.1.mpr hp
  split
  · simp
  · rename_i h; rw [this] at h; cases h

theorem matches_prefix {star : Char} {input p : Str} (hp : star ∉ p) :
    matchesWildcard input (p ++ [star]) star = true ↔ p <+: input := by
  rw [matchesWildcard]
  have hidx := findIdx_seg (q := []) hp
  split
  · rename_i h; rw [hidx] at h; cases h
  · rename_i pos h
    rw [hidx] at h; cases h
    by_cases h0 : p = []
    · subst h0; simp
    · have hpl : 0 < p.length := List.length_pos_iff.mpr h0
      rw [if_neg (by simp; omega), if_pos (by simp)]
      have : (p ++ [star]).take ((p ++ [star]).length - 1) = p := by simp
      rw [this, find_zero_iff]

/-- Completeness for patterns that end with the wildcard. -/
theorem matches_complete {star : Char} : ∀ (n : Nat) (w input : Str), w.length ≤ n →
    WildMatch star (w ++ [star]) input → matchesWildcard input (w ++ [star]) star = true
  | n, w, input, hn, h => by
    by_cases hs : star ∈ w
    · obtain ⟨p, q, rfl, hp, -⟩ := takeUntil_star hs
      cases n with
      | zero => simp at hn
      | succ n =>
        rw [List.append_assoc, List.cons_append] at h ⊢
        rw [wild_seg_star hp] at h
        rw [matches_seg hp (by simp)]
        obtain ⟨sk, r, rfl, hr⟩ := h
        refine ⟨⟨sk ++ r, by simp⟩, ?_⟩
        obtain ⟨seg, q', hq, hseg, -⟩ := takeUntil_star (star := star) (w := q ++ [star]) (by simp)
        have htw : (q ++ [star]).takeWhile (· != star) = seg := by
          rw [hq]; exact takeWhile_append_delim hseg _
        rw [htw]
        have hr' := hr
        rw [hq, wild_seg_star hseg] at hr'
        obtain ⟨sk2, r2, hr2, hr3⟩ := hr'
        cases hf : find (p ++ sk ++ r) seg 0 with
        | none =>
          refine absurd ?_ (find_none hf (p ++ sk).length (Nat.zero_le _) (by simp))
          rw [List.drop_left, hr2]
          exact ⟨sk2 ++ r2, by simp⟩
        | some k =>
          refine ⟨k, rfl, ?_⟩
          refine matches_complete n q _ (by simp at hn; omega) ?_
          obtain ⟨-, hk2, hk3, hk4⟩ := find_some hf
          have hkle : k ≤ (p ++ sk).length := by
            by_contra hlt
            refine hk4 (p ++ sk).length (Nat.zero_le _) (by omega) ?_
            rw [List.drop_left, hr2]
            exact ⟨sk2 ++ r2, by simp⟩
          obtain ⟨rest, hrest⟩ := hk3
          rw [hq, wild_seg_star hseg]
          have hsuf : r2 <:+ (p ++ sk ++ r).drop k := by
            rw [List.drop_append, Nat.sub_eq_zero_of_le hkle, List.drop_zero, hr2]
            exact ⟨_ ++ (seg ++ sk2), by simp; rfl⟩
          have hsuf2 : r2 <:+ rest := by
            rw [← hrest] at hsuf
            refine List.suffix_of_suffix_length_le hsuf (List.suffix_append _ _) ?_
            have hl := congrArg List.length hrest
            rw [List.drop_append, Nat.sub_eq_zero_of_le hkle, List.drop_zero, hr2] at hl
            simp only [List.length_append, List.length_drop] at hl
            omega
          obtain ⟨m, hm⟩ := hsuf2
          exact ⟨m, r2, by rw [← hrest, ← hm]; simp, hr3⟩
    · rw [wild_seg_star (q := []) hs] at h
      rw [matches_prefix hs]
      obtain ⟨sk, r, rfl, -⟩ := h
      exact ⟨sk ++ r, by simp⟩

/-! ### split( s, delims ) -/

theorem splitFrom_chain (delims : List Char) : ∀ (s tmp : Str), (∀ c ∈ tmp, c ∉ delims) →
    (splitFrom delims true tmp s).IsChain
      (fun a b => ¬ ((∀ c ∈ a, c ∉ delims) ∧ (∀ c ∈ b, c ∉ delims)))
  | [], tmp => by
    intro _
    rw [splitFrom_nil]; by_cases h : tmp = [] <;> simp [h]
  | c :: s, tmp => by
    intro ht
    rw [splitFrom_cons]
    by_cases hc : c ∈ delims
    · rw [if_pos hc]
      have ih := splitFrom_chain delims s [] (by simp)
      have h2 : (([c] : Str) :: splitFrom delims true [] s).IsChain
          (fun a b => ¬ ((∀ c ∈ a, c ∉ delims) ∧ (∀ c ∈ b, c ∉ delims))) := by
        cases hx : splitFrom delims true [] s with
        | nil => exact List.IsChain.singleton _
        | cons a l =>
          rw [hx] at ih
          refine List.IsChain.cons_cons ?_ ih
          rintro ⟨h, -⟩
          exact h c (by simp) hc
      by_cases h : tmp = []
      · simpa [h] using h2
      · simp only [ne_eq, h, not_false_eq_true, if_true, List.cons_append, List.nil_append]
        refine List.IsChain.cons_cons ?_ h2
        rintro ⟨-, h'⟩
        exact h' c (by simp) hc
    · rw [if_neg hc]
      refine splitFrom_chain delims s _ ?_
      intro x hx
      rcases List.mem_append.mp hx with h | h
      · exact ht x h
      · rw [List.mem_singleton.mp h]; exact hc

theorem splitFrom_filter (delims : List Char) : ∀ (s tmp : Str), (∀ c ∈ tmp, c ∉ delims) →
    splitFrom delims false tmp s =
      (splitFrom delims true tmp s).filter (fun w => decide (∀ c ∈ w, c ∉ delims))
  | [], tmp => by
    intro ht
    rw [splitFrom_nil, splitFrom_nil]
    by_cases h : tmp = []
    · simp [h]
    · have ht' : decide (∀ c ∈ tmp, c ∉ delims) = true := by simpa using ht
      simp only [ne_eq, h, not_false_eq_true, if_true, List.filter_cons, ht', List.filter_nil]
  | c :: s, tmp => by
    intro ht
    rw [splitFrom_cons, splitFrom_cons]
    by_cases hc : c ∈ delims
    · rw [if_pos hc, if_pos hc]
      have ih := splitFrom_filter delims s [] (by simp)
      by_cases h : tmp = []
      · simp [h, hc, ih]
      · have ht' : decide (∀ c ∈ tmp, c ∉ delims) = true := by simpa using ht
        simp only [ne_eq, h, not_false_eq_true, if_true, List.cons_append, List.nil_append,
          Bool.false_eq_true, if_false]
        rw [List.filter_cons, if_pos ht', List.filter_cons, if_neg (by simp [hc]), ih]
    · rw [if_neg hc, if_neg hc]
      refine splitFrom_filter delims s _ ?_
      intro x hx
      rcases List.mem_append.mp hx with h | h
      · exact ht x h
      · rw [List.mem_singleton.mp h]; exact hc

end AmpGen.Strings
