import Verif.Spec.Texts
/-!
# Specification: the characters a regular expression can begin with

The textbook first set.  Nothing here refers to the model of the library.
-/
set_option autoImplicit false
namespace ERegex.Spec

/-- It can match the empty text. -/
def Rx.empties : Rx → Bool
  | .eps | .bos | .eol => true
  | .fail | .cls _ | .neg _ => false
  | .lit s => s.isEmpty
  | .seq r s => r.empties && s.empties
  | .alt r s => r.empties || s.empties
  | .rep r lo _ => lo == 0 || r.empties

/-- A match can begin with the character `x`. -/
def Rx.opens : Rx → Int → Bool
  | .eps, _ | .fail, _ | .bos, _ => false
  | .lit s, x => s.head? == some x
  | .cls p, x => p x
  | .eol, x => x == 10
  | .neg _, _ => true
  | .seq r s, x => r.opens x || (r.empties && s.opens x)
  | .alt r s, x => r.opens x || s.opens x
  | .rep r _ hi, x => hi != some 0 && r.opens x

/-- Every part can match something: no class is empty, no upper bound is below the lower. -/
def Rx.filled : Rx → Bool
  | .eps | .lit _ | .bos | .eol | .neg _ => true
  | .fail => false
  | .cls p => allChars.any p
  | .seq r s | .alt r s => r.filled && s.filled
  | .rep r lo hi => r.filled && (match hi with | none => true | some h => decide (lo ≤ h))

/-- A character standing for itself. -/
def itself (c : Int) : Alts := .last false (.cons (if plainB c then .chr c else .esc c) .once (.nil false))

end ERegex.Spec
