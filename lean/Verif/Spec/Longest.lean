import Verif.Spec.First
import Verif.Spec.Opens
/-!
# Specification: the length of the shortest and the longest text of a pattern, and the largest size the library computes for it
-/
set_option autoImplicit false
namespace ERegex.Spec

/-- The length of a shortest match. -/
def Rx.shortest : Rx → Nat
  | .eps | .fail | .bos | .eol => 0
  | .lit s => s.length
  | .cls _ | .neg _ => 1
  | .seq r s => r.shortest + s.shortest
  | .alt r s => min r.shortest s.shortest
  | .rep r lo _ => r.shortest * lo

/-- `a + b`, where `none` is larger than every number. -/
def addTop : Option Nat → Option Nat → Option Nat
  | some a, some b => some (a + b)
  | _, _ => none

/-- The larger of `a` and `b`, where `none` is larger than every number. -/
def maxTop : Option Nat → Option Nat → Option Nat
  | some a, some b => some (max a b)
  | _, _ => none

/-- `a` times `h`, where `none` is larger than every number, but `0` times anything is `0`. -/
def mulTop : Option Nat → Option Nat → Option Nat
  | some 0, _ | _, some 0 => some 0
  | some a, some b => some (a * b)
  | _, _ => none

/-- The length of a longest match; `none`: matches can be arbitrarily long. -/
def Rx.longest : Rx → Option Nat
  | .eps | .fail | .bos => some 0
  | .lit s => some s.length
  | .cls _ | .neg _ | .eol => some 1
  | .seq r s => addTop r.longest s.longest
  | .alt r s => maxTop r.longest s.longest
  | .rep r _ hi => mulTop r.longest hi

/-- The largest of the smallest sizes of the alternatives, as the library computes them. -/
def Alts.broadest : Alts → Nat
  | .last _ s => s.gauge
  | .more _ s as => max s.gauge as.broadest

mutual
/-- The largest size, as the library computes it (by 32 bit arithmetic; `2^32 - 1` stands for "no bound"): of several alternatives, and of what follows an
unquantified part or `^`, the *smallest* sizes count; what follows an unquantified capturing group or `{n}` is not counted. -/
def Atom.crest : Atom → Nat
  | .group _ as => as.crest
  | _ => 1
def Sq.crest : Sq → Nat
  | .nil dollar => if dollar then 1 else 0
  | .cons a q s =>
    if closes a q then (a.crest * q.lo) % 4294967296
    else match q with
      | .once => (a.crest + s.gauge) % 4294967296
      | _ => match q.hi with
        | none => 4294967295
        | some h => if h = 4294967295 then 4294967295 else (a.crest * h + s.crest) % 4294967296
def Alts.crest : Alts → Nat
  | .last hat s => if hat then s.gauge else s.crest
  | .more _ s as => max s.gauge as.broadest
end

end ERegex.Spec
