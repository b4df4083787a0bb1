import Verif.Spec.FindAll
/-!
# Specification: walking from match to match, also where matches may be empty

`f x = some e` says that a match begins at offset `x` of the text, and that the one to report there ends at `e`; the text has length `len`, and matches are
looked for at the offsets before its end.  Nothing here refers to the model of the library.
-/
set_option autoImplicit false
namespace ERegex.Spec

/-- The next match at or behind offset `i` is the one from `s` to `e`. -/
def NextAt (f : Nat → Option Nat) (len i s e : Nat) : Prop := i ≤ s ∧ s < len ∧ f s = some e ∧ ∀ x, i ≤ x → x < s → f x = none

/-- The first at most `n` matches from offset `i` on, each behind the previous one; the flag tells whether there are no more. -/
inductive Walk (f : Nat → Option Nat) (len : Nat) : Nat → Nat → List (Nat × Nat) → Bool → Prop
  | done {n i : Nat} : (∀ x, i ≤ x → x < len → f x = none) → Walk f len n i [] true
  | cut {i s e : Nat} : NextAt f len i s e → Walk f len 0 i [] false
  | hit {n i s e : Nat} {l : List (Nat × Nat)} {b : Bool} : NextAt f len i s e → Walk f len n e l b → Walk f len (n + 1) i ((s, e) :: l) b

/-- Offset `j` is the end of a match reached from `i` in some number of steps (or `i` itself). -/
inductive Walked (f : Nat → Option Nat) (len : Nat) : Nat → Nat → Prop
  | refl {i : Nat} : Walked f len i i
  | step {i s e j : Nat} : NextAt f len i s e → Walked f len e j → Walked f len i j

/-- All matches reached from offset `i` take a character. -/
def AllTake (f : Nat → Option Nat) (len i : Nat) : Prop := ∀ j s e, Walked f len i j → NextAt f len j s e → s < e

end ERegex.Spec
