import Verif.Spec.Numbering
/-!
# Patterns that are one character, class of one item or anchor
-/
set_option autoImplicit false
namespace ERegex.Spec

mutual
/-- One character or escape, `[…]` with one item, or one of these in `(?:…)`. -/
def Atom.lone : Atom → Bool
  | .chr _ | .esc _ | .dot | .hex .. | .oct .. => true
  | .cls neg items dash => !neg && decide (items.length + (if dash then 1 else 0) = 1)
  | .group capture as => !capture && as.lone
/-- Such an atom without quantifier, or `$`. -/
def Sq.lone : Sq → Bool
  | .nil dollar => dollar
  | .cons a q s => q.isOnce && s.empty && a.lone
/-- One alternative, of that kind, or `^` alone. -/
def Alts.lone : Alts → Bool
  | .last hat s => if hat then s.empty else s.lone
  | .more .. => false
end

end ERegex.Spec
