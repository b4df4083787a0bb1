import Verif.Spec.Format
/-!
# Specification: lists of items with a separator

Nothing here refers to the model of the library.
-/
set_option autoImplicit false
namespace ERegex.Spec

/-- An item: not empty, of characters of `S`. -/
def ItemText (S : Int → Bool) (w : List Int) : Prop := w ≠ [] ∧ ∀ c ∈ w, S c = true

/-- At least one item, and between any two of them one separator, a character of `T`. -/
def ListText (S T : Int → Bool) (t : List Int) : Prop :=
  ∃ (first : List Int) (more : List (Int × List Int)), t = first ++ (more.map (fun p => p.1 :: p.2)).flatten ∧ ItemText S first ∧
    ∀ p ∈ more, T p.1 = true ∧ ItemText S p.2

/-- The text from offset `x` to offset `e`. -/
def slice (q : List Int) (x e : Nat) : List Int := (q.drop x).take (e - x)

end ERegex.Spec
