/-
Specifications for the string utilities, written without reference to the model.
-/
namespace AmpGen.Strings.Spec

/-- `pat` occurs in `s` at position `p`. -/
def OccursAt (pat s : List Char) (p : Nat) : Prop :=
  ∃ pre post, s = pre ++ pat ++ post ∧ pre.length = p

/-- Replacing the non-overlapping occurrences of a non-empty pattern, scanning
from the left: `Replaced pat rep s t` says `t` is the result for input `s`. -/
inductive Replaced (pat rep : List Char) : List Char → List Char → Prop
  | done : Replaced pat rep [] []
  | skip {c s t} : ¬ pat <+: (c :: s) → Replaced pat rep s t → Replaced pat rep (c :: s) (c :: t)
  | hit {s t} : pat ≠ [] → Replaced pat rep s t → Replaced pat rep (pat ++ s) (rep ++ t)

/-- Meaning of a wildcard pattern: every `star` stands for an arbitrary string. -/
inductive WildMatch (star : Char) : (pattern input : List Char) → Prop
  | nil : WildMatch star [] []
  | char {c p i} : c ≠ star → WildMatch star p i → WildMatch star (c :: p) (c :: i)
  | star (skipped) {p i} : WildMatch star p i → WildMatch star (star :: p) (skipped ++ i)

/-- `Edits s t n`: `s` can be turned into `t` with `n` single-character
insertions, deletions and substitutions (reading left to right). -/
inductive Edits : List Char → List Char → Nat → Prop
  | nil : Edits [] [] 0
  | keep {c s t n} : Edits s t n → Edits (c :: s) (c :: t) n
  | insert {c s t n} : Edits s t n → Edits s (c :: t) (n + 1)
  | delete {c s t n} : Edits s t n → Edits (c :: s) t (n + 1)
  | subst {c d s t n} : Edits s t n → Edits (c :: s) (d :: t) (n + 1)

/-- One edit operation anywhere in the string. -/
inductive EditStep : List Char → List Char → Prop
  | insert (pre post c) : EditStep (pre ++ post) (pre ++ c :: post)
  | delete (pre post c) : EditStep (pre ++ c :: post) (pre ++ post)
  | subst (pre post c d) : EditStep (pre ++ c :: post) (pre ++ d :: post)

/-- `n` edit operations performed one after the other. -/
inductive EditSteps : List Char → List Char → Nat → Prop
  | refl (s) : EditSteps s s 0
  | step {s t u n} : EditStep s t → EditSteps t u n → EditSteps s u (n + 1)

end AmpGen.Strings.Spec
