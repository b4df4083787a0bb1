/-!
# Specification: IPv4 addresses as the pattern of the benchmark has them

Nothing here refers to the model of the library.
-/
set_option autoImplicit false
namespace ERegex.Spec

/-- The number that decimal digits stand for. -/
def numeral (w : List Int) : Int := w.foldl (fun n c => 10 * n + (c - 48)) 0

/-- Two or three decimal digits, at most 255. -/
def Octet (w : List Int) : Prop := (w.length = 2 ∨ w.length = 3) ∧ (∀ c ∈ w, 48 ≤ c ∧ c ≤ 57) ∧ numeral w ≤ 255

/-- Four of them, with dots in between. -/
def Address (w : List Int) : Prop :=
  ∃ a b c d, Octet a ∧ Octet b ∧ Octet c ∧ Octet d ∧ w = a ++ [46] ++ b ++ [46] ++ c ++ [46] ++ d

/-- An address begins at offset `x` of the text `q`, and the longest that does ends at `e`. -/
def LongestAddress (q : List Int) (x e : Nat) : Prop :=
  ∃ before text after, q = before ++ text ++ after ∧ before.length = x ∧ x + text.length = e ∧ Address text ∧
    ∀ text' after', q = before ++ text' ++ after' → Address text' → text'.length ≤ text.length

end ERegex.Spec
