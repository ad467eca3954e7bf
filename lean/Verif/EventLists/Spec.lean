import Verif.EventLists.Model
/-
What the words in the properties of lists of events mean.
-/
namespace AmpGen.EventLists.Spec

variable {D : Type}

/-- Every event knows its position. -/
def Numbered (l : List (Event D)) : Prop := ∀ (i : Nat) (e : Event D), l[i]? = some e → e.index = i

/-- What a user puts into an event: everything but the index. -/
def content (e : Event D) : D × ℝ × ℝ := (e.data, e.genPdf, e.weight)

/-- The call removes no events and does not change the index of an event. -/
def Op.KeepsNumbers : Op D → Prop
  | .erase _ _ => False
  | .filter _ => False
  | .transform f => ∀ e, (f e).index = e.index
  | _ => True

end AmpGen.EventLists.Spec
