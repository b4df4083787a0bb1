import Verif.Model.Chars
/-!
# src/utilities : compile-time helpers on token tuples, numbers and views
-/
set_option autoImplicit false
namespace ERegex

/-- `reverse` (src/utilities/reverse.hpp:10-25): move the head of the first tuple to the
front of the accumulator. -/
def reverseAux {α : Type} : List α → List α → List α
  | [], cur => cur
  | x :: xs, cur => reverseAux xs (x :: cur)

/-- `reverse_t` (src/utilities/reverse.hpp:27-28). -/
def reverseT {α : Type} (l : List α) : List α := reverseAux l []

/-- `balanced` (src/utilities/balanced.hpp:9-73).  The stack is a list, top first
(src/utilities/static_stack.hpp:7-26).  A closer whose `requires` clause fails (empty stack or a
different opener on top) selects the generic specialisation of lines 22-27, i.e. is skipped. -/
def balancedFrom : List Ch → List Tok → Bool
  | st, [] => st.isEmpty
  | st, t :: ts =>
    if t = str "(" then balancedFrom (40 :: st) ts
    else if t = str "[" then balancedFrom (91 :: st) ts
    else if t = str "{" then balancedFrom (123 :: st) ts
    else if t = str ")" ∧ st.head? = some 40 then balancedFrom st.tail ts
    else if t = str "]" ∧ st.head? = some 91 then balancedFrom st.tail ts
    else if t = str "}" ∧ st.head? = some 123 then balancedFrom st.tail ts
    else balancedFrom st ts

/-- `balanced_v` (src/utilities/balanced.hpp:75-77). -/
def balancedV (ts : List Tok) : Bool := balancedFrom [] ts

/-- `split` (src/utilities/split.hpp:16-47).  `cur` is the piece being built (first element of the
accumulator tuple), `done` the finished pieces, last first. -/
def splitAux (sep : Ch) : List Tok → List Tok → List (List Tok) → List (List Tok)
  | [], cur, done => reverseT (cur :: done)
  | t :: ts, cur, done =>
    if t = [sep] ∧ balancedV ts = true ∧ balancedV cur = true then splitAux sep ts [] (cur :: done)
    else splitAux sep ts (cur ++ [t]) done

/-- `split_t` (src/utilities/split.hpp:49-50). -/
def splitT (sep : Ch) (ts : List Tok) : List (List Tok) := splitAux sep ts [] []

/-- `extract_delimited_content` (src/utilities/extract_delimited_content.hpp:11-57).
`none` = no specialisation for an exhausted tuple with a non-zero skip counter: compile error.
The exhausted tuple with counter 0 yields two empty tuples (lines 22-28). -/
def extractAux (op cl : Ch) : Nat → List Tok → List Tok → Option (List Tok × List Tok)
  | 0, _, [] => some ([], [])
  | _ + 1, _, [] => none
  | 0, cur, t :: ts =>
    if t = [cl] then some (cur, ts)
    else if t = [op] then extractAux op cl 1 (cur ++ [t]) ts
    else extractAux op cl 0 (cur ++ [t]) ts
  | k + 1, cur, t :: ts =>
    if t = [cl] then extractAux op cl k (cur ++ [t]) ts
    else if t = [op] then extractAux op cl (k + 2) (cur ++ [t]) ts
    else extractAux op cl (k + 1) (cur ++ [t]) ts

/-- `extract_delimited_content_t` (src/utilities/extract_delimited_content.hpp:59-61). -/
def extractT (op cl : Ch) (ts : List Tok) : Option (List Tok × List Tok) :=
  extractAux op cl 0 [] ts

/-- `ten_power` (src/utilities/pack_string_to_number.hpp:14-24), `unsigned` arithmetic. -/
def tenPower : Nat → Nat
  | 0 => 1
  | n + 1 => wrap32 (tenPower n * 10)

/-- Recursion of `pack_string_to_number` (src/utilities/pack_string_to_number.hpp:11-35).
The template's `index` is always the length of the tail. -/
def toNumberAux : List Ch → Nat
  | [] => 0
  | h :: tl => wrap32 ((h - 48) * tenPower tl.length + toNumberAux tl)

/-- `pack_string_to_number<string>::value` with the default index `string::size - 1`
(src/utilities/pack_string_to_number.hpp:8-9).  For the empty string the default argument is a
narrowing conversion of `size_t(0) - 1`: compile error. -/
def packStringToNumber (s : Tok) : Option Nat :=
  if s = [] then none else some (toNumberAux s)

/-- `number_to_pack_string` (src/utilities/number_to_pack_string.hpp:19-36) for `unsigned` arguments.
The explicit specialisation for `0` (lines 38-42) is for the `int` value 0 and is not selected for the
`unsigned` bounds the library passes, so `0` gives the empty string.  Fuel only makes the recursion on
`number / 10` structural; `n` itself is always enough. -/
def numberToPackAux : Nat → Nat → List Ch → List Ch
  | 0, _, cur => cur
  | f + 1, n, cur => if n = 0 then cur else numberToPackAux f (n / 10) ((((n - n / 10 * 10 : Nat) : Int) + 48) :: cur)

/-- `number_to_pack_string_t` (src/utilities/number_to_pack_string.hpp:44-45). -/
def numberToPack (n : Nat) : List Ch := numberToPackAux n n []

/-- `concatenate_pack_strings` (src/utilities/pack_string.hpp:39-70). -/
def concatPack (sep : List Ch) : List (List Ch) → List Ch
  | [] => []
  | [s] => s
  | s :: ss => if s = [] then concatPack sep ss else s ++ sep ++ concatPack sep ss

/-- The byte loop of `literal_string_view::operator==` (src/utilities/literal_string_view.hpp:91-97):
`n` bytes left, at offset `i`. `none` = a byte outside readable memory is read. -/
def viewEqLoop (mem : Int → Option Ch) (a b : Int) : Nat → Option Bool
  | 0 => some true
  | n + 1 =>
    match mem a, mem b with
    | some x, some y => if x ≠ y then some false else viewEqLoop mem (a + 1) (b + 1) n
    | _, _ => none

/-- `literal_string_view::operator==` (src/utilities/literal_string_view.hpp:78-100) on two
`[begin, end)` views of one memory. -/
def viewEq (mem : Int → Option Ch) (a b : Int × Int) : Option Bool :=
  if a.1 = b.1 ∧ a.2 = b.2 then some true
  else if a.2 - a.1 ≠ b.2 - b.1 then some false
  else viewEqLoop mem a.1 b.1 (a.2 - a.1).toNat

end ERegex
