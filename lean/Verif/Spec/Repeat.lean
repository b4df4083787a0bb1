/-!
# Specification: runs of characters of a class
-/
set_option autoImplicit false
namespace ERegex.Spec

/-- The `n` characters of `q` from offset `i` on exist and belong to the class `p`. -/
def InClass (q : List Int) (p : Int → Bool) (i n : Nat) : Prop := ∀ k, k < n → ∃ c, q[i + k]? = some c ∧ p c = true

/-- `n` is the largest number satisfying `P`. -/
def Largest (P : Nat → Prop) (n : Nat) : Prop := P n ∧ ∀ m, P m → m ≤ n
/-- `n` is the smallest number satisfying `P`. -/
def Smallest (P : Nat → Prop) (n : Nat) : Prop := P n ∧ ∀ m, P m → n ≤ m

end ERegex.Spec
