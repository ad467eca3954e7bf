import Mathlib.Data.List.Basic
/-
Specification side: Cartesian products, sorting, and fermions occurring in pairs.
-/
namespace AmpGen.Comb

/-- `c` chooses one element from every family, in order. -/
def Chooses {α : Type} (c : List α) (elements : List (List α)) : Prop :=
  List.Forall₂ (fun x e => x ∈ e) c elements

/-- The Cartesian product of the families, the last coordinate varying fastest. -/
def product {α : Type} : List (List α) → List (List α)
  | [] => [[]]
  | e :: es => e.flatMap fun x => (product es).map (x :: ·)

/-- At most two particles of each fermionic species. -/
def FermionPairs {n : Nat} (names : Fin n → String) (fermion : String → Bool) : Prop :=
  ∀ i j k, fermion (names i) = true → names j = names i → names k = names i → i = j ∨ j = k ∨ i = k

variable {α : Type}

/-- `sort` rearranges its argument so that no element precedes a smaller one. -/
def SortsBy (sort : List α → List α) (lt : α → α → Bool) : Prop :=
  ∀ l, (sort l).Perm l ∧ (sort l).Pairwise fun a b => lt b a = false

/-- The requirements of the standard on a comparison function. -/
structure StrictWeak (lt : α → α → Bool) : Prop where
  asymm : ∀ a b, lt a b = true → lt b a = false
  negTrans : ∀ a b c, lt b a = false → lt c b = false → lt c a = false

end AmpGen.Comb
