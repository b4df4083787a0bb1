import Verif.Model.TokenIter
/-!
# Specification: maximal munch
-/
set_option autoImplicit false
namespace ERegex.Spec

/-- `x` is the first longest element of `l`: at index `k`, no element is larger, and those before it are smaller. -/
def FirstLongest {α : Type} (size : α → Int) (l : List α) (k : Nat) (x : α) : Prop :=
  l[k]? = some x ∧ ∀ i y, l[i]? = some y → size y ≤ size x ∧ (i < k → size y < size x)

/-- Length of a view. -/
def len : Option (Int × Int) → Int
  | none => 0
  | some (b, e) => e - b

end ERegex.Spec
