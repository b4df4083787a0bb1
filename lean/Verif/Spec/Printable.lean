import Verif.Spec.Numbering
/-!
# Specification: patterns whose expression can be read back

The condition `Alts.prints` on a pattern as written: what `get_expression()` prints for it is a pattern again.  Escapes of operators, classes with several
items next to something else, quantified sequences and alternatives next to something else are printed without what keeps them together.  Nothing here refers to
the model of the library.
-/
set_option autoImplicit false
namespace ERegex.Spec

/-- An escape that stands for a class or for a character without special meaning. -/
def escPrints (c : Int) : Bool := [97, 114, 101, 102, 110, 116, 100, 115, 119].contains c || plainB c

/-- A class item. -/
def Item.prints : Item → Bool
  | .chr c => plainB c
  | .esc c => escPrints c
  | .rng .. => true

/-- A quantifier: a lower bound 0 only together with no upper bound or with the upper bound 1. -/
def Quant.prints : Quant → Bool
  | .once | .star _ | .plus _ | .opt _ | .atLeast .. => true
  | .exact n _ => decide (decimal n ≠ 0)
  | .between n k _ => (decide (decimal n ≠ 0) && decide (decimal k ≠ 0)) || (decide (decimal n = 0) && decide (decimal k = 1))

/-- A class with one item. -/
def clsPrints : Bool → List Item → Bool → Bool
  | false, [i], false => i.prints
  | true, [.chr _], false => true
  | true, [.esc c], false => [97, 114, 101, 102, 110, 116, 115, 119].contains c || (classB c && c != 100)
  | _, _, _ => false

/-- Does not end in `$`. -/
def Sq.onward : Sq → Bool
  | .nil dollar => !dollar
  | .cons _ _ s => s.onward

mutual
/-- An atom that can be quantified; with `row` an atom in a row of others: also one alternative in brackets. -/
def Atom.prints (row : Bool) : Atom → Bool
  | .chr _ | .dot => true
  | .esc c => escPrints c
  | .hex a b => plainB (byte (16 * (a - 48) + (b - 48)))
  | .oct a b c => plainB (byte (64 * (a - 48) + 8 * (b - 48) + (c - 48)))
  | .cls neg items dash => clsPrints neg items dash
  | .group true as => as.prints
  | .group false as => row && as.printsOne
/-- A class with several items, or a group without number: for the case that nothing stands next to it. -/
def Atom.printsAlone : Atom → Bool
  | .cls false items _ => items.all Item.prints
  | .group false as => as.prints
  | _ => false
/-- A sequence. -/
def Sq.prints : Sq → Bool
  | .nil _ => true
  | .cons a k s => a.prints k.isOnce && k.prints && s.prints
/-- Nothing but a class or a group without number. -/
def Sq.alone : Sq → Bool
  | .cons a .once (.nil false) => a.printsAlone
  | _ => false
/-- Alternatives. -/
def Alts.prints : Alts → Bool
  | .last hat s => s.prints || (!hat && s.alone)
  | .more hat s as => (s.prints || (!hat && s.alone)) && as.prints
/-- One alternative, without `^` and `$`. -/
def Alts.printsOne : Alts → Bool
  | .last hat s => !hat && s.prints && s.onward && !s.empty
  | .more .. => false
end

end ERegex.Spec
