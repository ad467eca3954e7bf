import Verif.Parser.Props
/-
C75: errors inside brackets and lists are reported with the expression they are part of.
-/
namespace AmpGen.Parser

open AmpGen.Strings

variable {E : Type}

/-- More fuel does not change a result. -/
theorem loop_mono (o : Ops E) : ∀ (fuel : Nat) (ts ops : List Str) (ex : List E) (bad : Bool) (r : List Str × List E × Bool) (fuel' : Nat), fuel ≤ fuel' → o.loop fuel ts ops ex bad = some r → o.loop fuel' ts ops ex bad = some r
  | 0, ts, ops, ex, bad, r, fuel', _, h => by simp [Ops.loop] at h
  | fuel + 1, [], ops, ex, bad, r, fuel', hf, h => by
    rcases fuel' with _ | fuel'
    · omega
    · rw [Ops.loop] at h ⊢; exact h
  | fuel + 1, t :: ts, ops, ex, bad, r, fuel', hf, h => by
    rcases fuel' with _ | fuel'
    · omega
    have hf' : fuel ≤ fuel' := by omega
    rcases t with _ | ⟨c, s⟩
    · simp [Ops.loop] at h
    rw [Ops.loop] at h ⊢
    split at h
    · rename_i hc
      rw [if_pos hc]
      simp only [Option.bind_eq_bind, Option.bind_eq_some_iff] at h ⊢
      obtain ⟨n, h1, s, h2, q, h3, h4⟩ := h
      exact ⟨n, h1, s, loop_mono o fuel _ _ _ _ _ _ hf' h2, q, h3, loop_mono o fuel _ _ _ _ _ _ hf' h4⟩
    · rename_i hc
      rw [if_neg hc]
      split at h
      · rename_i hc2
        rw [if_pos hc2]
        simp only [Option.bind_eq_bind, Option.bind_eq_some_iff] at h ⊢
        obtain ⟨n, h1, parts, h2, rs, h3, h4⟩ := h
        refine ⟨n, h1, parts, h2, rs, ?_, loop_mono o fuel _ _ _ _ _ _ hf' h4⟩
        clear h2 h4
        induction parts generalizing rs with
        | nil => simpa using h3
        | cons p parts ih =>
          simp only [List.mapM_cons, Option.bind_eq_bind, Option.bind_eq_some_iff, Option.pure_def, Option.some.injEq] at h3 ⊢
          obtain ⟨a, ⟨s, h5, h6⟩, b, h7, h8⟩ := h3
          exact ⟨a, ⟨s, loop_mono o fuel _ _ _ _ _ _ hf' h5, h6⟩, b, ih b h7, h8⟩
      · rename_i hc2
        rw [if_neg hc2]
        split at h
        · rename_i hm
          rw [if_pos hm]
          exact loop_mono o fuel _ _ _ _ _ _ hf' h
        · rename_i hm
          rw [if_neg hm]
          exact loop_mono o fuel _ _ _ _ _ _ hf' h

/-- An error that has been reported stays reported. -/
theorem loop_bad (o : Ops E) : ∀ (fuel : Nat) (ts ops : List Str) (ex : List E) (r : List Str × List E × Bool), o.loop fuel ts ops ex true = some r → r.2.2 = true
  | 0, ts, ops, ex, r, h => by simp [Ops.loop] at h
  | fuel + 1, [], ops, ex, r, h => by
    simp only [Ops.loop, Option.some.injEq] at h
    rw [← h]
  | fuel + 1, t :: ts, ops, ex, r, h => by
    rcases t with _ | ⟨c, s⟩
    · simp [Ops.loop] at h
    rw [Ops.loop] at h
    split at h
    · simp only [Option.bind_eq_bind, Option.bind_eq_some_iff] at h
      obtain ⟨n, h1, s, h2, q, h3, h4⟩ := h
      exact loop_bad o fuel _ _ _ _ h4
    · split at h
      · simp only [Option.bind_eq_bind, Option.bind_eq_some_iff] at h
        obtain ⟨n, h1, parts, h2, rs, h3, h4⟩ := h
        exact loop_bad o fuel _ _ _ _ h4
      · split at h
        · exact loop_bad o fuel _ _ _ _ h
        · exact loop_bad o fuel _ _ _ _ h

theorem finish_bad (o : Ops E) (ops : List Str) (ex : List E) (r : E × Bool) (h : o.finish ops ex true = some r) : r.2 = true := by
  unfold Ops.finish at h
  simp only [Option.bind_eq_bind, Option.bind_eq_some_iff, Option.pure_def, Option.some.injEq] at h
  obtain ⟨u, _, b, _, e, _, rfl⟩ := h
  simp

/-- Tokens without brackets are read one by one. -/
theorem loop_pre (o : Ops E) : ∀ (pre : List Str), (∀ t ∈ pre, Flat t) → ∀ (fuel : Nat) (rest ops : List Str) (ex : List E) (bad : Bool), ∃ ops' ex', o.loop (pre.length + fuel) (pre ++ rest) ops ex bad = o.loop fuel rest ops' ex' bad
  | [], _, fuel, rest, ops, ex, bad => ⟨ops, ex, by simp⟩
  | t :: pre, h, fuel, rest, ops, ex, bad => by
    obtain ⟨c, s, rfl, h1, h2⟩ := h t List.mem_cons_self
    have hl := fun p hp => h p (List.mem_cons_of_mem (c :: s) hp)
    rw [show (List.length ((c :: s) :: pre)) + fuel = (pre.length + fuel) + 1 by simp; omega, List.cons_append, Ops.loop]
    simp only [if_neg h1, if_neg h2]
    split
    · exact loop_pre o pre hl fuel rest _ _ bad
    · exact loop_pre o pre hl fuel rest _ _ bad

/-- **C75**: if the tokens between a bracket and the bracket that closes it are malformed and this is reported, it is reported for the whole expression as well, whatever follows. -/
theorem bracket_errors (o : Ops E) (pre ts post : List Str) (hpre : ∀ t ∈ pre, Flat t) (hl : closing '(' ')' 1 (ts ++ [')'] :: post) = some ts.length) (e : E) (herr : o.parseTokens ts = some (e, true)) (v : E) :
    o.parseTokens (pre ++ ['('] :: (ts ++ [')'] :: post)) ≠ some (v, false) := by
  intro h
  unfold Ops.parseTokens at h herr
  obtain ⟨ops', ex', hp⟩ := loop_pre o pre hpre ((ts ++ [')'] :: post).length + 2) (['('] :: (ts ++ [')'] :: post)) [] [] false
  have hlen : (pre ++ ['('] :: (ts ++ [')'] :: post)).length + 1 = pre.length + ((ts ++ [')'] :: post).length + 2) := by simp; omega
  rw [hlen, hp, Option.bind_eq_some_iff] at h
  obtain ⟨s, h1, h2⟩ := h
  rw [Ops.loop] at h1
  simp only [if_true, Option.bind_eq_bind, Option.bind_eq_some_iff] at h1
  obtain ⟨n, g1, u, g2, q, g3, g4⟩ := h1
  rw [hl] at g1
  cases g1
  rw [List.take_left] at g2
  rw [Option.bind_eq_some_iff] at herr
  obtain ⟨u', e1, e2⟩ := herr
  have := loop_mono o _ ts [] [] false u' ((ts ++ [')'] :: post).length + 1) (by simp) e1
  rw [this] at g2
  cases g2
  rw [e2] at g3
  cases g3
  have hb : s.2.2 = true := loop_bad o _ _ _ _ _ (by simpa using g4)
  rw [hb] at h2
  have := finish_bad o _ _ _ h2
  simp at this

/-- An entry of a list is no longer than the list. -/
theorem splitLoop_le : ∀ (ts : List Str) (b1 b2 : Int) (cur : List Str) (parts r : List (List Str)), splitLoop ts b1 b2 cur parts = some r → ∀ p ∈ r, p ∈ parts ∨ p.length ≤ cur.length + ts.length
  | [], _, _, _, _, _, h => by simp [splitLoop] at h
  | [t], b1, b2, cur, parts, r, h => by
    simp only [splitLoop, Option.some.injEq] at h
    intro p hp
    rw [← h, List.mem_append, List.mem_singleton] at hp
    rcases hp with hp | rfl
    · exact Or.inl hp
    · exact Or.inr (by simp)
  | t :: u :: ts, b1, b2, cur, parts, r, h => by
    rw [splitLoop] at h
    · simp only [Option.bind_eq_bind, Option.bind_eq_some_iff] at h
      obtain ⟨c, _, h⟩ := h
      intro p hp
      generalize (b1 + (if c = '(' then 1 else 0) - (if c = ')' then 1 else 0)) = b1' at h
      generalize (b2 + (if c = '{' then 1 else 0) - (if c = '}' then 1 else 0)) = b2' at h
      split at h
      · rcases splitLoop_le (u :: ts) _ _ _ _ r h p hp with h' | h'
        · rw [List.mem_append, List.mem_singleton] at h'
          rcases h' with h' | rfl
          · exact Or.inl h'
          · exact Or.inr (by simp)
        · refine Or.inr ?_
          simp only [List.length_cons, List.length_nil] at h' ⊢
          omega
      · rcases splitLoop_le (u :: ts) _ _ _ _ r h p hp with h' | h'
        · exact Or.inl h'
        · refine Or.inr ?_
          simp only [List.length_append, List.length_cons, List.length_nil] at h' ⊢
          omega
    · simp

/-- **C75**: the same for lists: an entry that is malformed is reported for the whole expression. -/
theorem list_errors (o : Ops E) (pre ts post : List Str) (hpre : ∀ t ∈ pre, Flat t) (hl : closing '{' '}' 1 (ts ++ ['}'] :: post) = some ts.length) (parts : List (List Str)) (hparts : splitIt ts = some parts)
    (p : List Str) (hp : p ∈ parts) (e : E) (herr : o.parseTokens p = some (e, true)) (v : E) :
    o.parseTokens (pre ++ ['{'] :: (ts ++ ['}'] :: post)) ≠ some (v, false) := by
  intro h
  have hlen : p.length ≤ ts.length := by
    rcases splitLoop_le ts 0 0 [] [] parts hparts p hp with h' | h'
    · simp at h'
    · simpa using h'
  unfold Ops.parseTokens at h herr
  obtain ⟨ops', ex', hq⟩ := loop_pre o pre hpre ((ts ++ ['}'] :: post).length + 2) (['{'] :: (ts ++ ['}'] :: post)) [] [] false
  have hlen' : (pre ++ ['{'] :: (ts ++ ['}'] :: post)).length + 1 = pre.length + ((ts ++ ['}'] :: post).length + 2) := by simp; omega
  rw [hlen', hq, Option.bind_eq_some_iff] at h
  obtain ⟨s, h1, h2⟩ := h
  rw [Ops.loop] at h1
  have hne : ¬ ('{' = '(') := by decide
  simp only [if_neg hne, if_true, Option.bind_eq_bind, Option.bind_eq_some_iff] at h1
  obtain ⟨n, g1, parts', g2, rs, g3, g4⟩ := h1
  rw [hl] at g1
  cases g1
  rw [List.take_left, hparts] at g2
  cases g2
  rw [Option.bind_eq_some_iff] at herr
  obtain ⟨u', e1, e2⟩ := herr
  have hm := loop_mono o _ p [] [] false u' ((ts ++ ['}'] :: post).length + 1) (by simp; omega) e1
  have hany : rs.any Prod.snd = true := by
    clear hparts g4
    induction parts generalizing rs with
    | nil => simp at hp
    | cons p0 parts ih =>
      simp only [List.mapM_cons, Option.bind_eq_bind, Option.bind_eq_some_iff, Option.pure_def, Option.some.injEq] at g3
      obtain ⟨a, ha, b, hb, rfl⟩ := g3
      rw [List.mem_cons] at hp
      rcases hp with rfl | hp
      · obtain ⟨w, hw1, hw2⟩ := ha
        rw [hm] at hw1
        cases hw1
        rw [e2] at hw2
        cases hw2
        simp
      · simp [ih hp b hb]
  rw [hany, Bool.or_true] at g4
  have hb : s.2.2 = true := loop_bad o _ _ _ _ _ g4
  rw [hb] at h2
  have := finish_bad o _ _ _ h2
  simp at this

/-- The hypotheses are met by `2 * ( a b ) + c` and by `{ a , b c }`. -/
example : closing '(' ')' 1 ([['a'], ['b']] ++ [')'] :: [['+'], ['c']]) = some 2 ∧ (texts.parseTokens [['a'], ['b']]).map Prod.snd = some true ∧
    splitIt [['a'], [','], ['b'], ['c']] = some [[['a']], [['b'], ['c']]] := by decide +kernel

end AmpGen.Parser
