import Verif.Spec.Joined
/-!
# Specification: lists of items with a separator and padding behind it

Nothing here refers to the model of the library.
-/
set_option autoImplicit false
namespace ERegex.Spec

/-- A separator, one character for each of the sets `Ts`, and behind it the padding: at least `lo` and, if `hi` is a number, at most `hi` characters of `W` (such as blanks). -/
def PadText (Ts : List (Int → Bool)) (W : Int → Bool) (lo : Nat) (hi : Option Nat) (u : List Int) : Prop :=
  ∃ v w, u = v ++ w ∧ SepText Ts v ∧ lo ≤ w.length ∧ (∀ h, hi = some h → w.length ≤ h) ∧ ∀ c ∈ w, W c = true

/-- At least one item of characters of `S`, and between any two of them one separator with padding behind it. -/
def PaddedText (S : Int → Bool) (Ts : List (Int → Bool)) (W : Int → Bool) (lo : Nat) (hi : Option Nat) (t : List Int) : Prop :=
  ∃ (first : List Int) (more : List (List Int × List Int)), t = first ++ (more.map (fun p => p.1 ++ p.2)).flatten ∧ ItemText S first ∧
    ∀ p ∈ more, PadText Ts W lo hi p.1 ∧ ItemText S p.2

end ERegex.Spec
