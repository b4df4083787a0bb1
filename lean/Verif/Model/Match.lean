import Verif.Model.Ast
/-!
# The matching engine: `match` of every node and terminal

All functions mutate one `match_result_data` (src/match_result.hpp:12-35) through a reference and return it; here
they map a state to a new state.  `none` is undefined behaviour: a byte outside the readable memory is read, or a
capture is written outside the array.
-/
set_option autoImplicit false
namespace ERegex

/-- The memory a match runs on: readable bytes before the query, the query view, readable bytes after it.
Addresses are offsets from `query.begin()`. -/
structure Ctx where
  pre : List Ch
  query : List Ch
  post : List Ch

/-- `query.end()` (src/utilities/literal_string_view.hpp:52-65). -/
def Ctx.qend (cx : Ctx) : Int := cx.query.length

/-- Dereferencing an address; `none` outside the readable memory. -/
def Ctx.read (cx : Ctx) (p : Int) : Option Ch :=
  if p + cx.pre.length < 0 then none else (cx.pre ++ cx.query ++ cx.post)[(p + cx.pre.length).toNat]?

/-- `match_result_data` (src/match_result.hpp:12-35): `actual_iterator_start`, `actual_iterator_end`,
`match_groups` (`none` = default view, null pointers), `accepted`.  The constant `query` is in `Ctx`. -/
structure St where
  start : Int
  pos : Int
  groups : List (Option (Int × Int))
  accepted : Bool
  deriving DecidableEq, Repr

/-- A `match` call with its injected children fixed. -/
abbrev K := St → Option St
/-- A node's `match`, waiting for its injected children. -/
abbrev M := List K → K

/-- `dfs<children, injected_children>` (src/nodes/common.hpp:105-136).  Between alternatives only the `accepted`
flag is reset; the position is not restored; the later alternatives get no injected children. -/
def dfs : List M → List K → K
  | [], _ => fun st => some st
  | [f], inj => fun st => f inj st
  | f :: g :: fs, inj => fun st =>
    match f inj st with
    | none => none
    | some st' => if st'.accepted then some st' else dfs (g :: fs) [] { st' with accepted := true }

/-- `dfs<std::tuple<injected_children...>>` : the injected nodes as children. -/
def dfsInj (inj : List K) : K := dfs (inj.map (fun k _ => k)) []

/-! ## Terminals -/

/-- `terminal_common::match` (src/terminals/common.hpp:24-36). -/
def guarded (cx : Ctx) (m : K) : K := fun st =>
  if st.pos ≥ cx.qend then some { st with accepted := false } else m st

/-- A terminal that tests the current character and advances if the test succeeds
(range.hpp:21-37, any.hpp:16-27, word_characters.hpp:21-37). -/
def oneChar (cx : Ctx) (p : Ch → Bool) : K := fun st =>
  match cx.read st.pos with
  | none => none
  | some c => if p c then some { st with accepted := true, pos := st.pos + 1 } else some { st with accepted := false }

/-- `range_terminal::match_` test (src/terminals/range.hpp:30). -/
def rangeTest (a b : Ch) (c : Ch) : Bool := decide (c ≥ a) && decide (c ≤ b)

/-- `.` test (src/terminals/any.hpp:19). -/
def anyTest (c : Ch) : Bool := decide (c ≠ 10)

/-- `\w` test (src/terminals/word_characters.hpp:26-29). -/
def wordTest (c : Ch) : Bool :=
  (decide (c ≥ 65) && decide (c ≤ 90)) || (decide (c ≥ 97) && decide (c ≤ 122)) ||
  (decide (c ≥ 48) && decide (c ≤ 57)) || decide (c = 95)

/-- `\s` test: `std::find` in the array (src/terminals/space_characters.hpp:24-30). -/
def spaceTest (c : Ch) : Bool := [9, 10, 12, 13, 32].any (fun x => x == c)

/-- `\s` (src/terminals/space_characters.hpp:21-35): the position advances even when the test fails. -/
def spaceMatch (cx : Ctx) : K := fun st =>
  match cx.read st.pos with
  | none => none
  | some c => some { st with accepted := spaceTest c, pos := st.pos + 1 }

/-- The loop of `exact_matcher::match_` (src/terminals/exact_matcher.hpp:35-46); only the first character is bounds
checked (by `terminal_common::match`). -/
def exactLoop (cx : Ctx) (start : Int) : List Ch → K
  | [], st => some st
  | c :: cs, st =>
    match cx.read st.pos with
    | none => none
    | some d =>
      if c ≠ d then some { st with pos := start, accepted := false }
      else exactLoop cx start cs { st with pos := st.pos + 1 }

/-- `exact_matcher::match_` (src/terminals/exact_matcher.hpp:29-49). -/
def exactMatch (cx : Ctx) (s : List Ch) : K := fun st =>
  exactLoop cx st.pos s { st with accepted := true }

/-- `anchors::start::match` (src/terminals/anchors/start.hpp:23-37). -/
def bosMatch (cx : Ctx) : K := fun st =>
  if st.pos ≥ cx.qend then some { st with accepted := false }
  else some { st with accepted := decide (st.pos = 0) }

/-- `anchors::end::match` (src/terminals/anchors/end.hpp:23-43).  The character at the current position is read even
when it is `query.end()` (line 37), and a newline is consumed. -/
def eolMatch (cx : Ctx) : K := fun st =>
  if st.pos > cx.qend then some { st with accepted := false }
  else
    match cx.read st.pos with
    | none => none
    | some c =>
      if c = 10 then some { st with accepted := true, pos := st.pos + 1 }
      else some { st with accepted := decide (st.pos = cx.qend) }

/-! ## Nodes -/

/-- `negated_node::match` (src/nodes/negated.hpp:31-50). -/
def negatedMatch (cx : Ctx) (m : K) : K := fun st =>
  if st.pos ≥ cx.qend then some { st with accepted := false }
  else
    match m st with
    | none => none
    | some st' =>
      if st'.accepted then some { st' with accepted := false }
      else some { st' with accepted := true, pos := st'.pos + 1 }

/-- `simple<matcher, children...>::match` (src/nodes/basic.hpp:67-85); without children `matcher::match`
(lines 168-173), which is the same function because `dfs` of nothing is the identity. -/
def simpleMatch (m : K) (cs : List M) : M := fun inj st =>
  match m st with
  | none => none
  | some st1 =>
    if st1.accepted then
      match dfs cs inj st1 with
      | none => none
      | some st2 => if st2.accepted then some st2 else some { st2 with pos := st.pos }
    else some st1

/-- Mandatory repetitions: `for (i = 0; i < n; ++i) if (!matcher::match(result)) return result;`
(src/nodes/greedy.hpp:170-179, lazy.hpp:119-128, repeated.hpp:53-59).  The flag tells whether the loop completed. -/
def repLoop (m : K) : Nat → St → Option (Bool × St)
  | 0, st => some (true, st)
  | n + 1, st =>
    match m st with
    | none => none
    | some st' => if st'.accepted then repLoop m n st' else some (false, st')

/-- `repeated::match` (src/nodes/repeated.hpp:49-62). -/
def repeatedMatch (m : K) (n : Nat) (cs : List M) : M := fun _ st =>
  match repLoop m n st with
  | none => none
  | some (false, st') => some st'
  | some (true, st') => dfs cs [] st'

/-- Growing phase of `greedy::match` (src/nodes/greedy.hpp:185-195): fuel `n` = `repetitions_max - repetitions`.
Returns the number of repetitions made.  On failure the flag is set to true, the position is not restored. -/
def growLoop (m : K) : Nat → Nat → St → Option (Nat × St)
  | 0, k, st => some (k, st)
  | n + 1, k, st =>
    match m st with
    | none => none
    | some st' => if st'.accepted then growLoop m n (k + 1) st' else some (k, { st' with accepted := true })

/-- The inner `for` of the backtracking loop (src/nodes/greedy.hpp:205-216): `n` candidate positions left, the next
one is `iter`. -/
def scanBack (m : K) : Nat → Int → St → Option St
  | 0, _, st => some st
  | n + 1, iter, st =>
    match m { st with pos := iter } with
    | none => none
    | some st' => if st'.accepted then some { st' with pos := iter } else scanBack m n (iter - 1) st'

/-- Backtracking phase of `greedy::match` (src/nodes/greedy.hpp:198-219): `n` = `repetitions - repetitions_min`.
The flag tells whether the function returned from inside the loop. -/
def btLoop (bt m : K) (start : Int) : Nat → St → Option (Bool × St)
  | 0, st => some (false, st)
  | n + 1, st =>
    match bt st with
    | none => none
    | some st' =>
      if st'.accepted then some (true, st')
      else
        match scanBack m (st'.pos - start).toNat (st'.pos - 1) st' with
        | none => none
        | some st'' => btLoop bt m start n st''

/-- `greedy::backtrack` (src/nodes/greedy.hpp:120-137). -/
def greedyBacktrack (cs : List M) (inj : List K) : K := fun st =>
  if cs.isEmpty then
    match dfsInj inj st with
    | none => none
    | some st' => some { st' with pos := st.pos }
  else dfs cs [] st

/-- First branch of `greedy::match`: optional with `minimum = maximum` size (src/nodes/greedy.hpp:147-165). -/
def optionalMatch (m : K) (width : Nat) (cs : List M) : M := fun inj st =>
  match m st with
  | none => none
  | some st1 =>
    match greedyBacktrack cs inj st1 with
    | none => none
    | some st2 =>
      if !st2.accepted && decide (st2.pos > st2.start) then
        greedyBacktrack cs inj { st2 with pos := st2.pos - width }
      else some st2

/-- Second branch of `greedy::match` (src/nodes/greedy.hpp:166-230).  Line 221 always sets the flag to true, because
`repetitions ≥ repetitions_min`. -/
def greedyMatch (m : K) (lo hi : Nat) (cs : List M) : M := fun inj st =>
  match repLoop m lo st with
  | none => none
  | some (false, st1) => some st1
  | some (true, st1) =>
    match growLoop m (hi - lo) lo st1 with
    | none => none
    | some (k, st2) =>
      match btLoop (greedyBacktrack cs inj) m st1.pos (k - lo) st2 with
      | none => none
      | some (true, st3) => some st3
      | some (false, st3) => dfs cs [] { st3 with accepted := true }

/-- The `while` loop of `lazy::match` (src/nodes/lazy.hpp:132-166): fuel `n` = `repetitions_max - matches`.  The flag
tells whether the function returned from inside the loop. -/
def lazyLoop (cx : Ctx) (m : K) (cs : List M) (inj : List K) (start : Int) : Nat → St → Option (Bool × St)
  | 0, st => some (false, st)
  | n + 1, st =>
    if st.pos < cx.qend then
      if cs.isEmpty then
        match dfsInj inj st with
        | none => none
        | some st1 =>
          if st1.accepted then some (false, { st1 with pos := st.pos })
          else
            match m { st1 with pos := st.pos } with
            | none => none
            | some st2 =>
              if st2.accepted then lazyLoop cx m cs inj start n st2 else some (true, { st2 with pos := start })
      else
        match dfs cs [] st with
        | none => none
        | some st1 =>
          if st1.accepted then some (true, st1)
          else
            match m st1 with
            | none => none
            | some st2 =>
              if st2.accepted then lazyLoop cx m cs inj start n st2 else some (true, { st2 with pos := start })
    else some (false, st)

/-- `lazy::match` (src/nodes/lazy.hpp:107-170). -/
def lazyMatch (cx : Ctx) (m : K) (lo hi : Nat) (cs : List M) : M := fun inj st =>
  match repLoop m lo st with
  | none => none
  | some (false, st1) => some st1
  | some (true, st1) =>
    match lazyLoop cx m cs inj st.pos (hi - lo) st1 with
    | none => none
    | some (true, st2) => some st2
    | some (false, st2) => dfs cs [] st2

/-- The loop of `possessive::match` (src/nodes/possessive.hpp:103-123): fuel `n` = `repetitions_max - i`, `last` is
the end of the last good repetition.  The flag tells whether `dfs` runs afterwards. -/
def possLoop (m : K) (lo : Nat) : Nat → Nat → Int → St → Option (Bool × St)
  | 0, _, _, st => some (true, st)
  | n + 1, i, last, st =>
    match m st with
    | none => none
    | some st' =>
      if st'.accepted then possLoop m lo n (i + 1) st'.pos st'
      else if i < lo then some (false, st')
      else some (true, { st' with accepted := true, pos := last })

/-- `possessive::match` (src/nodes/possessive.hpp:97-126); the injected children are passed to the matcher. -/
def possessiveMatch (m : M) (lo hi : Nat) (cs : List M) : M := fun inj st =>
  match possLoop (m inj) lo hi 0 st.pos st with
  | none => none
  | some (false, st') => some st'
  | some (true, st') => dfs cs [] st'

/-- `group::match` (src/nodes/group.hpp:40-61): the matcher runs with this node's children injected; the capture is
stored; the children run with `children ++ injected` injected. -/
def groupMatch (m : M) (idx : Nat) (cs : List M) : M := fun inj st =>
  let own : List K := cs.map (fun c => c [])
  match m own st with
  | none => none
  | some st' =>
    if st'.accepted then
      if idx < st'.groups.length then
        dfs cs (own ++ inj) { st' with groups := st'.groups.set idx (some (st.pos, st'.pos)) }
      else none
    else some st'

mutual
/-- `node::match<injected...>` for every node. -/
def run (cx : Ctx) : Node → M
  | .exact s _ => fun _ => guarded cx (exactMatch cx s)
  | .range a b _ => fun _ => guarded cx (oneChar cx (rangeTest a b))
  | .space => fun _ => guarded cx (spaceMatch cx)
  | .word => fun _ => guarded cx (oneChar cx wordTest)
  | .any => fun _ => guarded cx (oneChar cx anyTest)
  | .bos => fun _ => bosMatch cx
  | .eol => fun _ => eolMatch cx
  | .negated m => fun _ => negatedMatch cx (run cx m [])
  | .simple m cs => simpleMatch (run cx m []) (runs cx cs)
  | .alt cs => dfs (runs cx cs)
  | .greedy m lo hi cs =>
    if lo = 0 ∧ hi = 1 ∧ minSize m = maxSize m then optionalMatch (run cx m []) (minSize m) (runs cx cs)
    else greedyMatch (run cx m []) lo hi (runs cx cs)
  | .lazy m lo hi cs => lazyMatch cx (run cx m []) lo hi (runs cx cs)
  | .possessive m lo hi cs => possessiveMatch (run cx m) lo hi (runs cx cs)
  | .repeated m n cs => repeatedMatch (run cx m []) n (runs cx cs)
  | .group m idx cs => groupMatch (run cx m) idx (runs cx cs)
/-- `match` of every child. -/
def runs (cx : Ctx) : List Node → List M
  | [] => []
  | c :: cs => run cx c :: runs cx cs
end

end ERegex
