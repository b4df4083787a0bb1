import Verif.Spec.Joined
/-!
# Specification: lists with a number of items

Nothing here refers to the model of the library.
-/
set_option autoImplicit false
namespace ERegex.Spec

/-- At least `lo` and, if `hi` is a number, at most `hi`. -/
def InBounds (lo : Nat) (hi : Option Nat) (n : Nat) : Prop := lo ≤ n ∧ ∀ h, hi = some h → n ≤ h

/-- A field: characters of `S`, as many as the bounds say. -/
def FieldText (S : Int → Bool) (lo : Nat) (hi : Option Nat) (w : List Int) : Prop := InBounds lo hi w.length ∧ ∀ c ∈ w, S c = true

/-- A field, and more fields, as many as the second bounds say, with one separator in front of each. -/
def CountedText (S : Int → Bool) (Ts : List (Int → Bool)) (lo : Nat) (hi : Option Nat) (nlo : Nat) (nhi : Option Nat) (t : List Int) : Prop :=
  ∃ (first : List Int) (more : List (List Int × List Int)), t = first ++ (more.map (fun p => p.1 ++ p.2)).flatten ∧ FieldText S lo hi first ∧
    InBounds nlo nhi more.length ∧ ∀ p ∈ more, SepText Ts p.1 ∧ FieldText S lo hi p.2

end ERegex.Spec
