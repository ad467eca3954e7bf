import Verif.Parser.Model
/-
What formulas are and which value they have.
-/
namespace AmpGen.Parser.Spec
open AmpGen.Strings AmpGen.Parser

variable {E : Type}

/-- The operators from the one that binds most to the one that binds least. -/
def precedence : List Str := ["^", "/", "*", "-", "+", ">", "<", "&&", ","].map String.toList

/-- The first operator binds more than the second. -/
def Tighter (a b : Str) : Prop := precedence.idxOf a < precedence.idxOf b

/-- The value of operands with operators between them: `Value bin x [(op, y), …] v` for `x op y …`. An operator that binds least is applied last, the last one of several. -/
inductive Value (bin : Str → E → E → E) : E → List (Str × E) → E → Prop
  | operand (x : E) : Value bin x [] x
  | operator (x : E) (l : List (Str × E)) (op : Str) (y : E) (r : List (Str × E)) (a b : E) : (∀ p ∈ l, ¬ Tighter op p.1) → (∀ p ∈ r, Tighter p.1 op) → Value bin x l a → Value bin y r b →
      Value bin x (l ++ (op, y) :: r) (bin op a b)

/-- A token that is a number or a name. -/
def Ordinary (t : Str) : Prop := (∃ c s, t = c :: s ∧ c ∉ ['(', ')', '{', '}']) ∧ t ∉ unaryNames ∧ t ∉ precedence

mutual
/-- A number, a name, a formula in brackets, or formulas in braces, with its value. -/
inductive Atom (o : Ops E) : List Str → E → Prop
  | name (t : Str) : Ordinary t → Atom o [t] (o.endPoint t)
  | group (ts : List Str) (v : E) : Formula o ts v → Atom o (['('] :: ts ++ [[')']]) v
  | vector (cs : List (List Str × E)) : cs ≠ [] → (∀ c ∈ cs, Entry o c.1 c.2) → Atom o (['{'] :: [[',']].intercalate (cs.map Prod.fst) ++ [['}']]) (o.tensor (cs.map Prod.snd))
/-- An atom, or a function and the atom it is applied to. -/
inductive Operand (o : Ops E) : List Str → E → Prop
  | plain (ts : List Str) (v : E) : Atom o ts v → Operand o ts v
  | call (f : Str) (ts : List Str) (a v : E) : f ∈ unaryNames → Atom o ts a → o.un f a = some v → Operand o (f :: ts) v
/-- Operands with operators between them. -/
inductive Terms (o : Ops E) : List Str → E → List (Str × E) → Prop
  | last (ts : List Str) (v : E) : Operand o ts v → Terms o ts v []
  | more (ts : List Str) (v : E) (op : Str) (us : List Str) (w : E) (l : List (Str × E)) : Operand o ts v → op ∈ precedence → Terms o us w l → Terms o (ts ++ op :: us) v ((op, w) :: l)
/-- A formula and its value. -/
inductive Formula (o : Ops E) : List Str → E → Prop
  | intro (ts : List Str) (x : E) (l : List (Str × E)) (v : E) : Terms o ts x l → Value o.bin x l v → Formula o ts v
/-- A formula without a comma outside of brackets and braces. -/
inductive Entry (o : Ops E) : List Str → E → Prop
  | intro (ts : List Str) (x : E) (l : List (Str × E)) (v : E) : Terms o ts x l → (∀ p ∈ l, p.1 ≠ [',']) → Value o.bin x l v → Entry o ts v
end

end AmpGen.Parser.Spec
