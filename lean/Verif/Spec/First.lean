import Verif.Spec.Prefer
/-!
# Specification: the first characters the library computes for a pattern as written

`is_independent` and the heuristics compare sets of first characters.  What these sets are is described here on the pattern as written; how they differ from
the characters a match can really begin with can be read off: of a class and of an alternation only the first member counts (unless it may be empty),
what stands behind a capturing group or `{n}` is not looked at, and everything is cut to ASCII.
-/
set_option autoImplicit false
namespace ERegex.Spec

/-- What follows is not looked at: behind an unquantified capturing group, and behind `{n}`. -/
def closes : Atom → Quant → Bool
  | _, .exact .. => true
  | .group true _, .once => true
  | _, _ => false

/-- The member of a class that counts: the first. -/
def headItem : List Item → Item
  | [] => .chr 45
  | i :: _ => i

mutual
/-- The smallest size, as the library computes it. -/
def Atom.gauge : Atom → Nat
  | .group _ as => as.gauge
  | _ => 1
def Sq.gauge : Sq → Nat
  | .nil _ => 0
  | .cons a q s => a.gauge * q.lo + (if closes a q then 0 else s.gauge)
def Alts.gauge : Alts → Nat
  | .last _ s => s.gauge
  | .more _ s as => min s.gauge as.gauge
end

mutual
/-- A bound on all sizes that occur in the computation. -/
def Atom.bulk : Atom → Nat
  | .group _ as => as.bulk
  | _ => 1
def Sq.bulk : Sq → Nat
  | .nil _ => 0
  | .cons a q s => a.bulk * (q.lo + 1) + s.bulk
def Alts.bulk : Alts → Nat
  | .last _ s => s.bulk
  | .more _ s as => s.bulk + as.bulk
end

/-- What follows is looked at, because the library takes the quantified atom to be possibly empty. -/
def looksOn (a : Atom) (q : Quant) : Bool := !closes a q && (q.lo == 0 || (match q with | .once => a.gauge == 0 | _ => false))

mutual
/-- The first characters. -/
def Atom.firsts : Atom → Int → Bool
  | .chr c, x => x == c
  | .esc c, x => escape c x
  | .dot, x => ascii x
  | .hex a b, x => x == byte (16 * (a - 48) + (b - 48))
  | .oct a b c, x => x == byte (64 * (a - 48) + 8 * (b - 48) + (c - 48))
  | .cls neg items _, x => if neg then (headItem items).test x != ascii x else (headItem items).test x
  | .group _ as, x => as.firsts x
def Sq.firsts : Sq → Int → Bool
  | .nil dollar, x => dollar && ascii x && x != 10
  | .cons a q s, x => a.firsts x || (looksOn a q && s.firsts x)
/-- Of several alternatives the first counts; the others if that one may be empty. -/
def Alts.firsts : Alts → Int → Bool
  | .last hat s, x => (hat && ascii x) || s.firsts x
  | .more hat s as, x => (hat && ascii x) || s.firsts x || (s.gauge == 0 && as.anyFirsts x)
def Alts.anyFirsts : Alts → Int → Bool
  | .last hat s, x => (hat && ascii x) || s.firsts x
  | .more hat s as, x => (hat && ascii x) || s.firsts x || as.anyFirsts x
end

end ERegex.Spec
