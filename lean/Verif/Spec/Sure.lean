import Verif.Spec.Tame
/-!
# Specification: patterns as written of which everything that is reported belongs to the language

A syntactic condition on patterns; Props/Written.lean proves what follows from it.
-/
set_option autoImplicit false
namespace ERegex.Spec

/-- Capturing groups. -/
def Atom.captures : Atom → Bool
  | .group c _ => c
  | _ => false

/-- `lo ≤ hi`. -/
def Quant.ordered (k : Quant) : Bool :=
  match k.hi with
  | none => true
  | some h => decide (k.lo ≤ h)

/-- `X{n}` -/
def Quant.isExact : Quant → Bool
  | .exact .. => true
  | _ => false

/-- Cannot fail: nothing but quantifiers that allow for nothing, other than greedy `?`; `inner`: behind a capturing group (then the last quantifier is
not lazy). -/
def Sq.free (inner : Bool) : Sq → Bool
  | .nil dollar => !dollar
  | .cons _ k s => k.lo == 0 && !k.maybe && (match k.mode with | .lazy => !inner || !s.empty | _ => true) && s.free false

mutual
/-- Whatever fails in it leaves the position where it was: no `\s` and no negated class at the front, and at the front a quantifier or a capturing group
only in front of what cannot fail. -/
def Atom.rigid : Atom → Bool
  | .group _ as => as.rigid
  | a => a.steady
def Sq.rigid : Sq → Bool
  | .nil _ => true
  | .cons a .once s => a.rigid && (!a.captures || s.free true)
  | .cons a k s => s.free false && !k.maybe && (k.lo == 0 || (k.lo == 1 && a.rigid))
def Alts.rigid : Alts → Bool
  | .last hat s => hat || s.rigid
  | .more hat s as => (hat || s.rigid) && as.rigid
end

/-- What the library takes for the characters that can follow: those of the next atom if it must occur and is one character, any otherwise. -/
def Sq.next : Sq → Int → Bool
  | .nil false, _ => false
  | .nil true, x => ascii x && x != 10
  | .cons a k _, x =>
    if (a.steady || a.skips) && k.lo != 0 && a.spell.all allChars.contains then a.shown x else true

/-- `a` is one character, and what follows begins with another one. -/
def Atom.parts (a : Atom) (s : Sq) : Bool :=
  s.empty || ((a.steady || a.skips) && a.spell.all allChars.contains && !meets a.shown s.next)

mutual
/-- `inner`: inside a capturing group that something follows; `front`: at the front of the match.  A greedy quantifier stands in front of something that
begins with another character (or of nothing), or behind a single character in front of something rigid, or behind something rigid in front of what
cannot fail; a lazy one stands in front of something
rigid; alternatives other than the last are rigid; `\s` is nothing but the last item of a class. -/
def Atom.sure (inner front : Bool) : Atom → Bool
  | .group true as => as.sure inner false
  | .group false as => as.sure inner front
  | .cls false items dash => (if dash then items else items.dropLast).all Item.steady
  | _ => true
def Sq.sure (inner front : Bool) : Sq → Bool
  | .nil _ => true
  | .cons a .once s => a.sure (inner || (a.captures && !s.empty)) front && s.sure (inner || a.captures) false
  | .cons a k s =>
    if k.isExact then a.sure false false && s.sure false false
    else a.sure inner false && s.sure false false && k.ordered &&
      match k.mode with
      | .possessive => true
      | .lazy => s.rigid
      | .greedy => (!inner && a.parts s) || (a.steady && s.rigid && (!k.maybe || front)) ||
          (a.rigid && !s.empty && s.free false && !k.maybe) || k.hi == some k.lo
def Alts.sure (inner front : Bool) : Alts → Bool
  | .last _ s => s.sure inner front
  | .more hat s as => s.sure inner front && (hat || s.rigid) && as.sure inner front
end

end ERegex.Spec

namespace ERegex.Spec

mutual
/-- The contents of the capturing groups, in the order of their opening parentheses. -/
def Atom.groups : Atom → List Alts
  | .group true as => as :: as.groups
  | .group false as => as.groups
  | _ => []
def Sq.groups : Sq → List Alts
  | .nil _ => []
  | .cons a _ s => a.groups ++ s.groups
def Alts.groups : Alts → List Alts
  | .last _ s => s.groups
  | .more _ s as => s.groups ++ as.groups
end

end ERegex.Spec
