import Verif.Spec.Sure
/-!
# Specification: the numbers the library gives to the groups of a pattern as written

The numbering the user expects is the order of the opening parentheses (`Alts.groups`, Spec/Sure.lean).  The library numbers differently: behind a
capturing group with number `n` the next number is `n + 1` even if there are groups inside; behind a class it is 0; behind `(?:…)` and behind
a `|` outside of groups it is the largest number reached so far in it, where everything behind an unquantified capturing group does not count.
-/
set_option autoImplicit false
namespace ERegex.Spec

/-- No quantifier. -/
def Quant.isOnce : Quant → Bool
  | .once => true
  | _ => false

mutual
/-- The number reached in it, if it begins with number `n`. -/
def Atom.reach : Atom → Nat → Nat
  | .group true _, n => n + 1
  | .group false as, n => as.reach n
  | _, _ => 0
def Sq.reach : Sq → Nat → Nat
  | .nil _, _ => 0
  | .cons a k s, n => if a.captures && k.isOnce then n + 1 else max (a.reach n) (s.reach (a.follow n))
def Alts.reach : Alts → Nat → Nat
  | .last _ s, n => s.reach n
  | .more _ s as, n => max (s.reach n) (as.reach n)
/-- The number behind it. -/
def Atom.follow : Atom → Nat → Nat
  | .group true _, n => n + 1
  | .group false as, n => as.reach n
  | .cls .., _ => 0
  | _, n => n
end

mutual
/-- The capturing groups with their numbers and contents, in the order of the opening parentheses. -/
def Atom.numbered : Atom → Nat → List (Nat × Alts)
  | .group true as, n => (n, as) :: as.numbered (n + 1)
  | .group false as, n => as.numbered n
  | _, _ => []
def Sq.numbered : Sq → Nat → List (Nat × Alts)
  | .nil _, _ => []
  | .cons a _ s, n => a.numbered n ++ s.numbered (a.follow n)
def Alts.numbered : Alts → Nat → List (Nat × Alts)
  | .last _ s, n => s.numbered n
  | .more _ s as, n => s.numbered n ++ as.numbered n
end

/-- The same for the alternatives outside of all groups. -/
def Alts.numberedFrom : Alts → Nat → List (Nat × Alts)
  | .last _ s, n => s.numbered n
  | .more _ s as, n => s.numbered n ++ as.numberedFrom (s.reach n)

/-- The groups of a pattern with their numbers. -/
def Alts.captures (as : Alts) : List (Nat × Alts) := as.numberedFrom 0

/-- The library numbers the groups in the order of their opening parentheses. -/
def Alts.InOrder (as : Alts) : Prop := as.captures.map Prod.fst = List.range as.groups.length

instance (as : Alts) : Decidable as.InOrder := inferInstanceAs (Decidable (_ = _))

end ERegex.Spec
