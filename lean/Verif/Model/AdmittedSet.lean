import Verif.Model.Chars
/-!
# src/utilities/admitted_set.hpp : compile-time character sets (lists of characters)

The three recursive templates consume the heads of two packs.  They are written with fuel
`length l₁ + length l₂`, which is always enough (each step removes at least one character), so that
they reduce in the kernel; `Proofs/AdmittedSet.lean` proves the fuel-free equations.
-/
set_option autoImplicit false
namespace ERegex

/-- `admitted_set::can_admit` (src/utilities/admitted_set.hpp:18-22). -/
def canAdmit (s : List Ch) (c : Ch) : Bool := s.any (fun x => x == c)

/-- `admitted_set_range` (src/utilities/admitted_set.hpp:26-42): `start, start+1, …, end`. The
constraint `end > start` is checked by the callers of the model (`rangeOk`). -/
def admRange (a b : Ch) : List Ch :=
  (List.range (1 + b - a).toNat).map (fun (i : Nat) => (i : Int) + a)

/-- Constraint of `admitted_set_range` (line 30: `end > start`), and the values
`static_cast<char>(seq) + start` must fit `char` without narrowing (line 37). -/
def rangeOk (a b : Ch) : Bool := decide (a < b) && decide (b - a ≤ 127)

/-- `merge_admitted_sets` (src/utilities/admitted_set.hpp:44-112). -/
def mergeAux : Nat → List Ch → List Ch → List Ch → List Ch
  | _, [], l2, cur => cur ++ l2
  | _, l1, [], cur => cur ++ l1
  | 0, _, _, cur => cur
  | f + 1, x :: l1, y :: l2, cur =>
    if x = y then mergeAux f l1 l2 (cur ++ [x])
    else if x < y then mergeAux f l1 (y :: l2) (cur ++ [x])
    else mergeAux f (x :: l1) l2 (cur ++ [y])

/-- `merge_admitted_sets_t` (src/utilities/admitted_set.hpp:114-116). -/
def mergeSets (a b : List Ch) : List Ch := mergeAux (a.length + b.length) a b []

/-- `admitted_sets_difference` (src/utilities/admitted_set.hpp:118-190).  Note that it keeps the
characters of *either* set that are not in the other one. -/
def differenceAux : Nat → List Ch → List Ch → List Ch → List Ch
  | _, [], l2, cur => cur ++ l2
  | _, l1, [], cur => cur ++ l1
  | 0, _, _, cur => cur
  | f + 1, x :: l1, y :: l2, cur =>
    if x = y then differenceAux f l1 l2 cur
    else if x < y then differenceAux f l1 (y :: l2) (cur ++ [x])
    else differenceAux f (x :: l1) l2 (cur ++ [y])

/-- `admitted_sets_difference_t` (src/utilities/admitted_set.hpp:188-190). -/
def differenceSets (a b : List Ch) : List Ch := differenceAux (a.length + b.length) a b []

/-- `admitted_set_complement_t` (src/utilities/admitted_set.hpp:192-196): difference with
`0 .. numeric_limits<char>::max()`. -/
def complementSet (a : List Ch) : List Ch := differenceSets a (admRange 0 127)

/-- `admitted_sets_intersection` (src/utilities/admitted_set.hpp:198-268). -/
def intersectAux : Nat → List Ch → List Ch → List Ch → List Ch
  | _, [], _, cur => cur
  | _, _, [], cur => cur
  | 0, _, _, cur => cur
  | f + 1, x :: l1, y :: l2, cur =>
    if x = y then intersectAux f l1 l2 (cur ++ [x])
    else if x < y then intersectAux f l1 (y :: l2) cur
    else intersectAux f (x :: l1) l2 cur

/-- `admitted_sets_intersection_t` (src/utilities/admitted_set.hpp:270-272). -/
def intersectSets (a b : List Ch) : List Ch := intersectAux (a.length + b.length) a b []

/-- `extract_admission_set` (src/nodes/common.hpp:13-36) on the children's sets, right to left. -/
def extractAdm : List (List Ch) → List Ch
  | [] => []
  | s :: ss => mergeSets s (extractAdm ss)

end ERegex
