import Verif.Rules.Spec
import Verif.Particle.LemmasRound
import Verif.Strings.LemmasMatch
/-
The replacement of the one place where a name occurs.
-/
namespace AmpGen.Particle.Rules
open AmpGen.Strings AmpGen.PDG AmpGen.Particle AmpGen.Particle.Spec AmpGen.Particle.Rules.Spec

/-- A text without a character occurs before it or after it. -/
theorem infix_split {n u v : Str} {c : Char} (hc : c ∉ n) (h : n <:+: u ++ c :: v) : n <:+: u ∨ n <:+: v := by
  obtain ⟨p, q, h⟩ := h
  rw [List.append_assoc, List.append_eq_append_iff] at h
  rcases h with ⟨a, h1, h2⟩ | ⟨a, h1, h2⟩
  · rw [List.append_eq_append_iff] at h2
    rcases h2 with ⟨b, h3, h4⟩ | ⟨b, h3, h4⟩
    · left
      exact ⟨p, b, by rw [h1, h3, List.append_assoc]⟩
    · cases b with
      | nil =>
        left
        rw [List.append_nil] at h3
        exact ⟨p, [], by rw [h1, h3, List.append_nil]⟩
      | cons x b =>
        exfalso
        rw [List.cons_append] at h4
        obtain ⟨rfl, _⟩ := List.cons.inj h4
        exact hc (by rw [h3]; simp)
  · cases a with
    | nil =>
      rw [List.nil_append] at h2
      cases n with
      | nil => exact Or.inl ⟨[], u, by simp⟩
      | cons x n =>
        rw [List.cons_append] at h2
        obtain ⟨rfl, _⟩ := List.cons.inj h2
        exact absurd List.mem_cons_self hc
    | cons x a =>
      right
      rw [List.cons_append] at h2
      obtain ⟨_, rfl⟩ := List.cons.inj h2
      exact ⟨a, q, by rw [List.append_assoc]⟩

theorem findAux_none {n : Str} : ∀ {s : Str} {k : Nat}, ¬ n <:+: s → findAux n s k = none
  | [], k, h => by
    rw [findAux, if_neg]
    rintro rfl
    exact h ⟨[], [], rfl⟩
  | c :: s, k, h => by
    rw [findAux, if_neg]
    · exact findAux_none fun hi => h (hi.trans ⟨[c], [], by simp⟩)
    · intro hp
      exact h (List.isPrefixOf_iff_prefix.1 hp).isInfix

/-- The text begins with a character that is not in the name, or is empty. -/
def Off (n b : Str) : Prop := b = [] ∨ ∃ c b', b = c :: b' ∧ c ∉ n

theorem prefix_off {n u b : Str} (hb : Off n b) (h : n <+: u ++ b) : n <:+: u := by
  rcases hb with rfl | ⟨c, b', rfl, hc⟩
  · rw [List.append_nil] at h; exact h.isInfix
  · obtain ⟨q, h⟩ := h
    rw [List.append_eq_append_iff] at h
    rcases h with ⟨a, h1, _⟩ | ⟨a, h1, h2⟩
    · exact ⟨[], a, by rw [h1]; simp⟩
    · cases a with
      | nil => rw [List.append_nil] at h1; exact ⟨[], [], by rw [h1]; simp⟩
      | cons x a =>
        rw [List.cons_append] at h2
        obtain ⟨rfl, _⟩ := List.cons.inj h2
        exact absurd (by rw [h1]; simp) hc

theorem infix_off {n u b : Str} (hn : n ≠ []) (hb : Off n b) (h : n <:+: u ++ b) : n <:+: u ∨ n <:+: b := by
  rcases hb with rfl | ⟨c, b', rfl, hc⟩
  · rw [List.append_nil] at h; exact Or.inl h
  · rcases infix_split hc h with h | h
    · exact Or.inl h
    · exact Or.inr (h.trans ⟨[c], [], by simp⟩)

/-- The name is found where it stands. -/
theorem findAux_at {n : Str} (hn : n ≠ []) : ∀ {a b : Str} {k : Nat}, (a = [] ∨ ∃ c a', a = a' ++ [c] ∧ c ∉ n) → ¬ n <:+: a → findAux n (a ++ (n ++ b)) k = some (k + a.length)
  | [], b, k, _, _ => by
    cases hn' : n with
    | nil => exact absurd hn' hn
    | cons x n' =>
      rw [List.nil_append, List.cons_append, findAux, if_pos]
      · rfl
      · rw [List.isPrefixOf_iff_prefix]; exact ⟨b, by simp⟩
  | x :: a, b, k, ha, hi => by
    obtain ⟨c, a', ha, hc⟩ : ∃ c a', x :: a = a' ++ [c] ∧ c ∉ n := by
      rcases ha with ha | ha
      · simp at ha
      · exact ha
    rw [List.cons_append, findAux, if_neg]
    · rw [findAux_at hn ?_ fun h => hi (h.trans ⟨[x], [], by simp⟩)]
      · simp; omega
      · cases a' with
        | nil =>
          simp at ha
          exact Or.inl ha.2
        | cons y a' =>
          rw [List.cons_append] at ha
          exact Or.inr ⟨c, a', (List.cons.inj ha).2, hc⟩
    · intro hp
      rw [List.isPrefixOf_iff_prefix] at hp
      have : n <+: a' ++ c :: (n ++ b) := by
        have e : x :: (a ++ (n ++ b)) = a' ++ c :: (n ++ b) := by
          rw [← List.cons_append, ha]; simp
        rwa [e] at hp
      have := prefix_off (Or.inr ⟨c, _, rfl, hc⟩) this
      exact hi (this.trans ⟨[], [c], by rw [ha]; simp⟩)

/-- A name that occurs once is replaced there. -/
theorem replaceAll_once {n rest a b : Str} (fuel : Nat) (hn : n ≠ []) (ha : a = [] ∨ ∃ c a', a = a' ++ [c] ∧ c ∉ n) (hb : Off n b) (h1 : ¬ n <:+: a) (h2 : ¬ n <:+: b) (h3 : ¬ n <:+: rest) (hr : rest ≠ []) :
    replaceAll (fuel + 2) (a ++ (n ++ b)) n (n ++ rest) = some (a ++ ((n ++ rest) ++ b)) := by
  unfold replaceAll
  rw [if_neg]
  · rw [replaceLoop]
    have hf : find (a ++ (n ++ b)) n 0 = some a.length := by
      unfold find
      rw [if_pos (Nat.zero_le _), List.drop_zero, findAux_at hn ha h1, Nat.zero_add]
    rw [hf]
    simp only
    have hs : (a ++ (n ++ b)).take a.length ++ (n ++ rest) ++ (a ++ (n ++ b)).drop (a.length + n.length) = a ++ ((n ++ rest) ++ b) := by
      rw [List.take_left, ← List.drop_drop, List.drop_left, List.drop_left, List.append_assoc]
    rw [hs, replaceLoop]
    have hg : find (a ++ ((n ++ rest) ++ b)) n (a.length + n.length) = none := by
      unfold find
      rw [if_pos (by simp), ← List.drop_drop, List.drop_left, List.append_assoc, List.drop_left]
      refine findAux_none fun h => ?_
      rcases infix_off hn hb h with h | h
      · exact h3 h
      · exact h2 h
    rw [hg]
  · intro e
    have := congrArg List.length e
    simp at this
    exact hr this

end AmpGen.Particle.Rules
