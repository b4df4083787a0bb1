import Verif.Spec.Numbering
/-!
# Specification: patterns whose capturing groups come last

In `\w+=(\d+)|-(a(b))` every capturing group is the last thing in its alternative, and is not quantified.
-/
set_option autoImplicit false
namespace ERegex.Spec

/-- Nothing, not even `$`. -/
def Sq.blank : Sq → Bool
  | .nil false => true
  | _ => false

mutual
/-- Of the alternatives in parentheses. -/
def Atom.groupsLast : Atom → Bool
  | .group _ as => as.groupsLast
  | _ => true
/-- Only the last atom has capturing groups, and it has no quantifier. -/
def Sq.groupsLast : Sq → Bool
  | .nil _ => true
  | .cons a k s => if a.groups.isEmpty then s.groupsLast else k.isOnce && s.blank && a.groupsLast
def Alts.groupsLast : Alts → Bool
  | .last _ s => s.groupsLast
  | .more _ s as => s.groupsLast && as.groupsLast
end

end ERegex.Spec
