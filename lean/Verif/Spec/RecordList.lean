import Verif.Spec.Counted
import Verif.Spec.Format
/-!
# Specification: a record and more records

Nothing here refers to the model of the library.
-/
set_option autoImplicit false
namespace ERegex.Spec

/-- One text for each piece, one after the other. -/
def RecordText (ps : List Piece) (t : List Int) : Prop := ∃ ws, AllFit ps ws ∧ t = ws.flatten

/-- A text for `f`, and texts for `g`, as many as the bounds say. -/
def RecordsText (f g : List Piece) (nlo : Nat) (nhi : Option Nat) (t : List Int) : Prop :=
  ∃ (first : List Int) (more : List (List Int)), t = first ++ more.flatten ∧ RecordText f first ∧ InBounds nlo nhi more.length ∧ ∀ w ∈ more, RecordText g w

/-- The characters a text for the pieces can begin with, if what follows it can begin with those of `L`. -/
def upcomingChars : List Piece → (Int → Bool) → Int → Bool
  | [], L, c => L c
  | p :: ps, L, c => p.what.set c || (p.times.lo == 0 && upcomingChars ps L c)

/-- It is clear where each piece ends: its length is fixed, or none of its characters can come next. -/
def Parted : List Piece → (Int → Bool) → Prop
  | [], _ => True
  | p :: ps, L => (p.times.fixed = true ∨ ∀ c, p.what.set c = true → upcomingChars ps L c = false) ∧ Parted ps L

end ERegex.Spec
