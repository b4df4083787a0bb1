import Verif.Model.Ast
import Verif.Spec.Lang
/-!
# The regular expression denoted by a tree

A node is its matcher followed by its continuation; the continuation of a node is the alternation of its children, the
empty string if there are none.  Greedy, lazy and possessive quantifiers denote the same strings; the upper bound
`2^32 - 1` is how the library writes "unbounded".
-/
set_option autoImplicit false
namespace ERegex
open Spec

/-- Alternation of a list; no alternative = nothing. -/
def altOf : List Rx → Rx
  | [] => .fail
  | [r] => r
  | r :: s :: rs => .alt r (altOf (s :: rs))

/-- Continuation: the empty string if there are no children. -/
def contOf : List Rx → Rx
  | [] => .eps
  | r :: rs => altOf (r :: rs)

/-- Upper bound of a quantifier. -/
def boundOf (hi : Nat) : Option Nat := if hi = umax then none else some hi

mutual
/-- The regular expression of a tree. -/
def toRx : Node → Rx
  | .exact s _ => .lit s
  | .range a b _ => .cls (fun c => decide (a ≤ c) && decide (c ≤ b))
  | .space => .cls (fun c => c == 9 || c == 10 || c == 12 || c == 13 || c == 32)
  | .word => .cls (fun c => (decide (65 ≤ c) && decide (c ≤ 90)) || (decide (97 ≤ c) && decide (c ≤ 122)) ||
      (decide (48 ≤ c) && decide (c ≤ 57)) || c == 95)
  | .any => .cls (fun c => c != 10)
  | .bos => .bos
  | .eol => .eol
  | .negated m => .neg (toRx m)
  | .simple m cs => .seq (toRx m) (contOf (toRxs cs))
  | .alt cs => contOf (toRxs cs)
  | .greedy m lo hi cs | .lazy m lo hi cs | .possessive m lo hi cs =>
    .seq (.rep (toRx m) lo (boundOf hi)) (contOf (toRxs cs))
  | .repeated m n cs => .seq (.rep (toRx m) n (some n)) (contOf (toRxs cs))
  | .group m _ cs => .seq (toRx m) (contOf (toRxs cs))
/-- The regular expressions of a children pack. -/
def toRxs : List Node → List Rx
  | [] => []
  | c :: cs => toRx c :: toRxs cs
end

end ERegex
