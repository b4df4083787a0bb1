import Verif.Model.Match
import Verif.Model.TreeBuilder
import Verif.Model.Optimize
/-!
# src/match_result.hpp, src/regex.hpp : compiled regex, match result, search, iteration
-/
set_option autoImplicit false
namespace ERegex

/-- `regex<pattern>::ast` (src/regex.hpp:34-38). `none` = does not compile. -/
def compile (p : List Ch) : Option Node := (build p).bind optimize

/-- Result of running the search: a state, undefined behaviour, or not finished within the fuel. -/
inductive Outcome where
  | ok (st : St)
  | ub
  | timeout
  deriving DecidableEq, Repr

/-- The `while` loop of `match_result::next` (src/match_result.hpp:182-196).  Fuel = number of iterations allowed. -/
def nextLoop (cx : Ctx) (m : K) : Nat → St → Outcome
  | 0, st => if st.start < cx.qend then .timeout else .ok { st with accepted := false }
  | f + 1, st =>
    if st.start < cx.qend then
      match m st with
      | none => .ub
      | some st' =>
        if st'.accepted then .ok st'
        else nextLoop cx m f { st' with start := st'.pos + 1, pos := st'.pos + 1 }
    else .ok { st with accepted := false }

/-- `match_result::next` (src/match_result.hpp:177-197); `groups` = number of capture slots. -/
def next (cx : Ctx) (t : Node) (fuel : Nat) (st : St) : Outcome :=
  nextLoop cx (run cx t []) fuel
    { st with groups := List.replicate (groupsOf t) none, start := st.pos }

/-- State before the first attempt (src/match_result.hpp:18-20,53-55). -/
def initSt (t : Node) : St :=
  { start := 0, pos := 0, groups := List.replicate (groupsOf t) none, accepted := true }

/-- `match_result::match_result(query)` (src/match_result.hpp:50-62), i.e. `regex::match` (src/regex.hpp:40-50). -/
def construct (cx : Ctx) (t : Node) (fuel : Nat) : Outcome :=
  match run cx t [] (initSt t) with
  | none => .ub
  | some st => if st.accepted then .ok st else next cx t fuel st

/-- A `std::string_view` into the query's memory: `none` is the default (null) view. -/
abbrev View := Option (Int × Int)

/-- `match_result::to_view` (src/match_result.hpp:145-154). -/
def toView (st : St) : View := if st.accepted then some (st.start, st.pos) else none

/-- `match_result::get_group` / `operator[]` (src/match_result.hpp:127-143). Outer `none` = index outside the array. -/
def getGroup (st : St) (n : Nat) : Option View :=
  if n = 0 then some (toView st) else st.groups[n - 1]?

/-- Whether the class has a static member `groups` (src/nodes/common.hpp:64-77, group.hpp:36-38): nodes do, terminals and
anchors (src/terminals/*.hpp) do not. -/
def hasGroups : Node → Bool
  | .exact .. | .range .. | .space | .word | .any | .bos | .eol => false
  | _ => true

/-- `result.get<index>()` (src/match_result.hpp:117-125).  Outer `none` = does not compile: the static_assert of line 120
fails, or it names `matcher::groups`, which terminals lack.  Inner `none` = index outside the array. -/
def getStatic (t : Node) (st : St) (index : Nat) : Option (Option View) :=
  if hasGroups t && decide (index ≤ groupsOf t) then some (getGroup st index) else none

/-- `auto [whole, first, …] = result` (src/match_result.hpp:202-223): `std::tuple_size` is `matcher::groups + 1`, and
each name is bound to the member `get<i>()`; every one of them has to compile. -/
def bindings (t : Node) (st : St) : Option (List (Option View)) :=
  if hasGroups t then (List.range (groupsOf t + 1)).mapM (getStatic t st) else none

/-- The bytes of a view (every byte must be readable). -/
def viewBytes (cx : Ctx) : View → Option (List Ch)
  | none => some []
  | some (b, e) => (List.range (e - b).toNat).mapM (fun (i : Nat) => cx.read (b + i))

/-- `match_result::begin` (src/match_result.hpp:72-75): a fresh result for the same query. -/
def beginR (cx : Ctx) (t : Node) (fuel : Nat) : Outcome := construct cx t fuel

/-- `match_result::end` (src/match_result.hpp:91-99). -/
def endR (st : St) : St := { st with start := st.pos, accepted := false }

/-- `match_result::operator!=` (src/match_result.hpp:77-81): both sides convert to `bool`. -/
def neqR (a b : St) : Bool := a.accepted != b.accepted

/-- Views visited by the loop of a range-for from iterator `it` to `en`: at most `n` steps
(`operator!=`, `operator*`, `operator++`; src/match_result.hpp:77-104).  The flag tells whether the loop ended. -/
def visit (cx : Ctx) (t : Node) (fuel : Nat) (en : St) : Nat → St → Option (List View × Bool)
  | 0, it => some ([], !neqR it en)
  | n + 1, it =>
    if neqR it en then
      match next cx t fuel it with
      | .ok it' => (visit cx t fuel en n it').map (fun r => (toView it :: r.1, r.2))
      | _ => none
    else some ([], true)

/-- `for (auto v : r)` over a result `r` (src/match_result.hpp:72-104). -/
def rangeFor (cx : Ctx) (t : Node) (fuel n : Nat) (r : St) : Option (List View × Bool) :=
  match beginR cx t fuel with
  | .ok it => visit cx t fuel (endR r) n it
  | _ => none

end ERegex
