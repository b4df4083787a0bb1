import Verif.Spec.Lists
/-!
# Specification: lists of items with a separator of several characters

Nothing here refers to the model of the library.
-/
set_option autoImplicit false
namespace ERegex.Spec

/-- One character for each of the sets, in this order. -/
def SepText : List (Int → Bool) → List Int → Prop
  | [], u => u = []
  | T :: Ts, u => ∃ c v, u = c :: v ∧ T c = true ∧ SepText Ts v

/-- At least one item of characters of `S`, and between any two of them one separator. -/
def JoinedText (S : Int → Bool) (Ts : List (Int → Bool)) (t : List Int) : Prop :=
  ∃ (first : List Int) (more : List (List Int × List Int)), t = first ++ (more.map (fun p => p.1 ++ p.2)).flatten ∧ ItemText S first ∧
    ∀ p ∈ more, SepText Ts p.1 ∧ ItemText S p.2

end ERegex.Spec
