import Verif.Spec.Syntax
/-!
# Patterns without `^`
-/
set_option autoImplicit false
namespace ERegex.Spec

mutual
/-- No `^` in front of an alternative of a group in it (`[^…]` and `\^` are no such thing). -/
def Atom.hatless : Atom → Bool
  | .group _ as => as.hatless
  | _ => true
def Sq.hatless : Sq → Bool
  | .nil _ => true
  | .cons a _ s => a.hatless && s.hatless
def Alts.hatless : Alts → Bool
  | .last hat s => !hat && s.hatless
  | .more hat s as => !hat && s.hatless && as.hatless
end

end ERegex.Spec
