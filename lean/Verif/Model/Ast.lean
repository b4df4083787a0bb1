import Verif.Model.Chars
import Verif.Model.Utilities
import Verif.Model.AdmittedSet
/-!
# src/nodes, src/terminals : the regex tree and its compile-time data
-/
set_option autoImplicit false
namespace ERegex

/-- The regex tree.  One constructor per node / terminal template; children packs are lists.

* `exact s disp` : `terminals::exact_matcher<pack_string<s...>>` and the `terminal<…>` types derived from it
  (src/terminals/exact_matcher.hpp:10-56, escaped.hpp, alarm.hpp, new_line.hpp, …); `disp` is the
  `expression` of the derived type.
* `range a b disp` : `terminals::range_terminal` (src/terminals/range.hpp:9-38) and `\d`
  (src/terminals/digit_characters.hpp:10-15).
* `space` / `word` / `any` : `\s`, `\w`, `.` (src/terminals/{space_characters,word_characters,any}.hpp).
* `bos` / `eol` : `anchors::start`, `anchors::end` (src/terminals/anchors/{start,end}.hpp).
* `negated m` : `nodes::negated_node` (src/nodes/negated.hpp:12-51).
* `simple m cs` : `nodes::simple<matcher, children...>` with a matcher (src/nodes/basic.hpp:30-86, 150-174).
* `alt cs` : `nodes::simple<void, children...>` (src/nodes/basic.hpp:88-148).
* `greedy`/`lazy`/`possessive m lo hi cs` (src/nodes/{greedy,lazy,possessive}.hpp), `repeated m n cs`
  (src/nodes/repeated.hpp:12-63), `group m idx cs` (src/nodes/group.hpp:13-62).

Simplification: C++ types that differ only by derivation (`terminal<pack_string<'a'>>` and
`exact_matcher<pack_string<'a'>>`) but have equal members are the same tree. -/
inductive Node where
  | exact (s : List Ch) (disp : List Ch)
  | range (a b : Ch) (disp : List Ch)
  | space
  | word
  | any
  | bos
  | eol
  | negated (m : Node)
  | simple (m : Node) (cs : List Node)
  | alt (cs : List Node)
  | greedy (m : Node) (lo hi : Nat) (cs : List Node)
  | lazy (m : Node) (lo hi : Nat) (cs : List Node)
  | possessive (m : Node) (lo hi : Nat) (cs : List Node)
  | repeated (m : Node) (n : Nat) (cs : List Node)
  | group (m : Node) (idx : Nat) (cs : List Node)
  deriving Inhabited

/-! Equality of trees is decidable (type identity `optimizer<T, T>`, src/regex.hpp:27-31). -/
mutual
/-- Decidable equality of trees (type identity test of src/regex.hpp:27-31). -/
def Node.decEq : (a b : Node) → Decidable (a = b)
  | .exact s d, .exact s' d' =>
    if h : s = s' ∧ d = d' then isTrue (by rw [h.1, h.2]) else isFalse (by intro e; cases e; exact h ⟨rfl, rfl⟩)
  | .range x y d, .range x' y' d' =>
    if h : x = x' ∧ y = y' ∧ d = d' then isTrue (by rw [h.1, h.2.1, h.2.2])
    else isFalse (by intro e; cases e; exact h ⟨rfl, rfl, rfl⟩)
  | .space, .space => isTrue rfl
  | .word, .word => isTrue rfl
  | .any, .any => isTrue rfl
  | .bos, .bos => isTrue rfl
  | .eol, .eol => isTrue rfl
  | .negated m, .negated m' =>
    match Node.decEq m m' with
    | isTrue h => isTrue (by rw [h])
    | isFalse h => isFalse (by intro e; cases e; exact h rfl)
  | .simple m cs, .simple m' cs' =>
    match Node.decEq m m', Node.decEqs cs cs' with
    | isTrue h, isTrue h' => isTrue (by rw [h, h'])
    | isFalse h, _ => isFalse (by intro e; cases e; exact h rfl)
    | _, isFalse h => isFalse (by intro e; cases e; exact h rfl)
  | .alt cs, .alt cs' =>
    match Node.decEqs cs cs' with
    | isTrue h' => isTrue (by rw [h'])
    | isFalse h => isFalse (by intro e; cases e; exact h rfl)
  | .greedy m lo hi cs, .greedy m' lo' hi' cs' =>
    match Node.decEq m m', Node.decEqs cs cs' with
    | isTrue h, isTrue h' =>
      if g : lo = lo' ∧ hi = hi' then isTrue (by rw [h, h', g.1, g.2])
      else isFalse (by intro e; cases e; exact g ⟨rfl, rfl⟩)
    | isFalse h, _ => isFalse (by intro e; cases e; exact h rfl)
    | _, isFalse h => isFalse (by intro e; cases e; exact h rfl)
  | .lazy m lo hi cs, .lazy m' lo' hi' cs' =>
    match Node.decEq m m', Node.decEqs cs cs' with
    | isTrue h, isTrue h' =>
      if g : lo = lo' ∧ hi = hi' then isTrue (by rw [h, h', g.1, g.2])
      else isFalse (by intro e; cases e; exact g ⟨rfl, rfl⟩)
    | isFalse h, _ => isFalse (by intro e; cases e; exact h rfl)
    | _, isFalse h => isFalse (by intro e; cases e; exact h rfl)
  | .possessive m lo hi cs, .possessive m' lo' hi' cs' =>
    match Node.decEq m m', Node.decEqs cs cs' with
    | isTrue h, isTrue h' =>
      if g : lo = lo' ∧ hi = hi' then isTrue (by rw [h, h', g.1, g.2])
      else isFalse (by intro e; cases e; exact g ⟨rfl, rfl⟩)
    | isFalse h, _ => isFalse (by intro e; cases e; exact h rfl)
    | _, isFalse h => isFalse (by intro e; cases e; exact h rfl)
  | .repeated m n cs, .repeated m' n' cs' =>
    match Node.decEq m m', Node.decEqs cs cs' with
    | isTrue h, isTrue h' =>
      if g : n = n' then isTrue (by rw [h, h', g])
      else isFalse (by intro e; cases e; exact g rfl)
    | isFalse h, _ => isFalse (by intro e; cases e; exact h rfl)
    | _, isFalse h => isFalse (by intro e; cases e; exact h rfl)
  | .group m n cs, .group m' n' cs' =>
    match Node.decEq m m', Node.decEqs cs cs' with
    | isTrue h, isTrue h' =>
      if g : n = n' then isTrue (by rw [h, h', g])
      else isFalse (by intro e; cases e; exact g rfl)
    | isFalse h, _ => isFalse (by intro e; cases e; exact h rfl)
    | _, isFalse h => isFalse (by intro e; cases e; exact h rfl)
  | .exact .., .range .. | .exact .., .space | .exact .., .word | .exact .., .any | .exact .., .bos
  | .exact .., .eol | .exact .., .negated .. | .exact .., .simple .. | .exact .., .alt .. | .exact .., .greedy ..
  | .exact .., .lazy .. | .exact .., .possessive .. | .exact .., .repeated .. | .exact .., .group ..
  | .range .., .exact .. | .range .., .space | .range .., .word | .range .., .any | .range .., .bos
  | .range .., .eol | .range .., .negated .. | .range .., .simple .. | .range .., .alt .. | .range .., .greedy ..
  | .range .., .lazy .. | .range .., .possessive .. | .range .., .repeated .. | .range .., .group ..
  | .space, .exact .. | .space, .range .. | .space, .word | .space, .any | .space, .bos
  | .space, .eol | .space, .negated .. | .space, .simple .. | .space, .alt .. | .space, .greedy ..
  | .space, .lazy .. | .space, .possessive .. | .space, .repeated .. | .space, .group ..
  | .word, .exact .. | .word, .range .. | .word, .space | .word, .any | .word, .bos
  | .word, .eol | .word, .negated .. | .word, .simple .. | .word, .alt .. | .word, .greedy ..
  | .word, .lazy .. | .word, .possessive .. | .word, .repeated .. | .word, .group ..
  | .any, .exact .. | .any, .range .. | .any, .space | .any, .word | .any, .bos
  | .any, .eol | .any, .negated .. | .any, .simple .. | .any, .alt .. | .any, .greedy ..
  | .any, .lazy .. | .any, .possessive .. | .any, .repeated .. | .any, .group ..
  | .bos, .exact .. | .bos, .range .. | .bos, .space | .bos, .word | .bos, .any
  | .bos, .eol | .bos, .negated .. | .bos, .simple .. | .bos, .alt .. | .bos, .greedy ..
  | .bos, .lazy .. | .bos, .possessive .. | .bos, .repeated .. | .bos, .group ..
  | .eol, .exact .. | .eol, .range .. | .eol, .space | .eol, .word | .eol, .any
  | .eol, .bos | .eol, .negated .. | .eol, .simple .. | .eol, .alt .. | .eol, .greedy ..
  | .eol, .lazy .. | .eol, .possessive .. | .eol, .repeated .. | .eol, .group ..
  | .negated .., .exact .. | .negated .., .range .. | .negated .., .space | .negated .., .word
  | .negated .., .any | .negated .., .bos | .negated .., .eol | .negated .., .simple .. | .negated .., .alt ..
  | .negated .., .greedy .. | .negated .., .lazy .. | .negated .., .possessive .. | .negated .., .repeated ..
  | .negated .., .group ..
  | .simple .., .exact .. | .simple .., .range .. | .simple .., .space | .simple .., .word
  | .simple .., .any | .simple .., .bos | .simple .., .eol | .simple .., .negated .. | .simple .., .alt ..
  | .simple .., .greedy .. | .simple .., .lazy .. | .simple .., .possessive .. | .simple .., .repeated ..
  | .simple .., .group ..
  | .alt .., .exact .. | .alt .., .range .. | .alt .., .space | .alt .., .word
  | .alt .., .any | .alt .., .bos | .alt .., .eol | .alt .., .negated .. | .alt .., .simple ..
  | .alt .., .greedy .. | .alt .., .lazy .. | .alt .., .possessive .. | .alt .., .repeated ..
  | .alt .., .group ..
  | .greedy .., .exact .. | .greedy .., .range .. | .greedy .., .space | .greedy .., .word
  | .greedy .., .any | .greedy .., .bos | .greedy .., .eol | .greedy .., .negated .. | .greedy .., .simple ..
  | .greedy .., .alt .. | .greedy .., .lazy .. | .greedy .., .possessive .. | .greedy .., .repeated ..
  | .greedy .., .group ..
  | .lazy .., .exact .. | .lazy .., .range .. | .lazy .., .space | .lazy .., .word
  | .lazy .., .any | .lazy .., .bos | .lazy .., .eol | .lazy .., .negated .. | .lazy .., .simple ..
  | .lazy .., .alt .. | .lazy .., .greedy .. | .lazy .., .possessive .. | .lazy .., .repeated ..
  | .lazy .., .group ..
  | .possessive .., .exact .. | .possessive .., .range .. | .possessive .., .space | .possessive .., .word
  | .possessive .., .any | .possessive .., .bos | .possessive .., .eol | .possessive .., .negated ..
  | .possessive .., .simple .. | .possessive .., .alt .. | .possessive .., .greedy .. | .possessive .., .lazy ..
  | .possessive .., .repeated .. | .possessive .., .group ..
  | .repeated .., .exact .. | .repeated .., .range .. | .repeated .., .space | .repeated .., .word
  | .repeated .., .any | .repeated .., .bos | .repeated .., .eol | .repeated .., .negated ..
  | .repeated .., .simple .. | .repeated .., .alt .. | .repeated .., .greedy .. | .repeated .., .lazy ..
  | .repeated .., .possessive .. | .repeated .., .group ..
  | .group .., .exact .. | .group .., .range .. | .group .., .space | .group .., .word
  | .group .., .any | .group .., .bos | .group .., .eol | .group .., .negated ..
  | .group .., .simple .. | .group .., .alt .. | .group .., .greedy .. | .group .., .lazy ..
  | .group .., .possessive .. | .group .., .repeated .. => isFalse (by intro e; cases e)
/-- Decidable equality of children packs. -/
def Node.decEqs : (a b : List Node) → Decidable (a = b)
  | [], [] => isTrue rfl
  | _ :: _, [] => isFalse (by intro e; cases e)
  | [], _ :: _ => isFalse (by intro e; cases e)
  | x :: xs, y :: ys =>
    match Node.decEq x y, Node.decEqs xs ys with
    | isTrue h, isTrue h' => isTrue (by rw [h, h'])
    | isFalse h, _ => isFalse (by intro e; cases e; exact h rfl)
    | _, isFalse h => isFalse (by intro e; cases e; exact h rfl)
end

instance : DecidableEq Node := Node.decEq

/-! ## Minimum / maximum match size (`meta`), `unsigned` arithmetic -/

/-- `e_regex::min(…)` (src/utilities/math.hpp:18-31), 0 for no arguments. -/
def listMin : List Nat → Nat
  | [] => 0
  | [x] => x
  | x :: y :: xs => min x (listMin (y :: xs))

/-- `e_regex::max(…)` (src/utilities/math.hpp:33-46), 0 for no arguments. -/
def listMax : List Nat → Nat
  | [] => 0
  | x :: xs => max x (listMax xs)

mutual
/-- `meta.minimum_match_size` of every node (src/terminals/common.hpp:18-22, exact_matcher.hpp:22-27,
anchors/start.hpp:13-18, anchors/end.hpp:13-18, nodes/basic.hpp:52-60,102-108,132-136,158-162,
negated.hpp:21-25, greedy.hpp:36-46, lazy.hpp:27-37, possessive.hpp:26-36, repeated.hpp:18-24, group.hpp:23-26). -/
def minSize : Node → Nat
  | .exact s _ => wrap32 s.length
  | .range .. | .space | .word | .any => 1
  | .bos | .eol => 0
  | .negated m => minSize m
  | .simple m cs => wrap32 (minSize m + listMin (minSizes cs))
  | .alt cs => listMin (minSizes cs)
  | .greedy m lo _ cs | .lazy m lo _ cs | .possessive m lo _ cs =>
    wrap32 ((wrap32 (minSize m * lo) : Nat) + listMin (minSizes cs))
  | .repeated m n _ => wrap32 (minSize m * n)
  | .group m _ _ => minSize m
/-- `children::meta.minimum_match_size...` -/
def minSizes : List Node → List Nat
  | [] => []
  | c :: cs => minSize c :: minSizes cs
end

mutual
/-- `meta.maximum_match_size` (same places as `minSize`).  `simple` and `simple<void>` take the maximum of
the children's *minimum* sizes (basic.hpp:57-59,106-107,135), as written in the code. -/
def maxSize : Node → Nat
  | .exact s _ => wrap32 s.length
  | .range .. | .space | .word | .any => 1
  | .bos => 0
  | .eol => 1
  | .negated m => minSize m
  | .simple m cs => wrap32 (maxSize m + listMax (minSizes cs))
  | .alt cs => listMax (minSizes cs)
  | .greedy m _ hi cs | .lazy m _ hi cs | .possessive m _ hi cs =>
    if hi = umax then umax else wrap32 ((wrap32 (maxSize m * hi) : Nat) + listMax (maxSizes cs))
  | .repeated m n _ => wrap32 (maxSize m * n)
  | .group m _ _ => maxSize m
/-- `children::meta.maximum_match_size...` -/
def maxSizes : List Node → List Nat
  | [] => []
  | c :: cs => maxSize c :: maxSizes cs
end

/-- Admission set of `\w` (src/terminals/word_characters.hpp:9-13). -/
def wordSet : List Ch :=
  mergeSets (mergeSets (admRange 65 90) (admRange 97 122)) (mergeSets (admRange 48 57) [95])

/-- Admission set of `\s` (src/terminals/space_characters.hpp:12-13). -/
def spaceSet : List Ch := [9, 10, 12, 13, 32]

mutual
/-- `admission_set` of every node: characters that may begin a match
(terminals: exact_matcher.hpp:15-17, range.hpp:14-16, word_characters.hpp, space_characters.hpp, any.hpp:11-12,
anchors; nodes/basic.hpp:47-50,97-100,129-130,155-156, negated.hpp:18-19, greedy.hpp:26-34, lazy.hpp:22-25,
possessive.hpp:21-24, repeated.hpp:15-16, group.hpp:20-21). -/
def admSet : Node → List Ch
  | .exact s _ => s
  | .range a b _ => admRange a b
  | .space => spaceSet
  | .word => wordSet
  | .any => admRange 0 127
  | .bos => complementSet []
  | .eol => complementSet [10]
  | .negated m => complementSet (extractAdm [admSet m])
  | .simple m cs =>
    if minSize m = 0 then extractAdm (admSet m :: admSets cs) else extractAdm [admSet m]
  | .alt [] => []
  | .alt [c] => extractAdm [admSet c]
  | .alt (c :: cs) =>
    if minSize c = 0 then extractAdm (admSet c :: admSets cs) else extractAdm [admSet c]
  | .greedy m lo _ cs | .lazy m lo _ cs | .possessive m lo _ cs =>
    if lo = 0 then extractAdm (admSet m :: admSets cs) else admSet m
  | .repeated m _ _ => extractAdm [admSet m]
  | .group m _ _ => extractAdm [admSet m]
/-- Admission sets of a children pack. -/
def admSets : List Node → List (List Ch)
  | [] => []
  | c :: cs => admSet c :: admSets cs
end

mutual
/-- `groups` (src/nodes/common.hpp:41-51,75-77, group.hpp:36-38, greedy.hpp:48-50); terminals have none. -/
def groupsOf : Node → Nat
  | .exact .. | .range .. | .space | .word | .any | .bos | .eol => 0
  | .negated m => groupsOf m
  | .simple m cs | .repeated m _ cs | .greedy m _ _ cs | .lazy m _ _ cs | .possessive m _ _ cs =>
    groupsOf m + groupsOfs cs
  | .alt cs => groupsOfs cs
  | .group m _ cs => groupsOf m + groupsOfs cs + 1
/-- `sum(group_getter<children>::value...)` -/
def groupsOfs : List Node → Nat
  | [] => 0
  | c :: cs => groupsOf c + groupsOfs cs
end

mutual
/-- `next_group_index` (src/nodes/common.hpp:56-73, group.hpp:28). -/
def nextIdx : Node → Nat
  | .exact .. | .range .. | .space | .word | .any | .bos | .eol => 0
  | .negated m => nextIdx m
  | .simple m cs | .repeated m _ cs | .greedy m _ _ cs | .lazy m _ _ cs | .possessive m _ _ cs =>
    max (nextIdx m) (nextIdxs cs)
  | .alt cs => nextIdxs cs
  | .group _ idx _ => idx + 1
/-- Maximum of the children's `next_group_index`. -/
def nextIdxs : List Node → Nat
  | [] => 0
  | c :: cs => max (nextIdx c) (nextIdxs cs)
end

/-! ## Printed expression -/

/-- `get_children_expression` (src/nodes/get_expression.hpp:10-27). -/
def childrenExpr : List (List Ch) → List Ch
  | [] => []
  | [e] => e
  | es => concatPack (str "|") (es.map (fun e => str "(?:" ++ e ++ str ")"))

/-- Children part of a node's expression: wrapped in `(?:…)` when there are at least two children
(src/nodes/basic.hpp:33-45, greedy.hpp:91-101, …). -/
def wrapChildren (es : List (List Ch)) : List Ch :=
  if es.length ≤ 1 then childrenExpr es else str "(?:" ++ childrenExpr es ++ str ")"

/-- The quantifier text (src/nodes/greedy.hpp:53-87, lazy.hpp:40-74, possessive.hpp:39-73). -/
def quantExpr (lo hi : Nat) (suffix : List Ch) : List Ch :=
  if lo = 0 ∧ hi = umax then str "*" ++ suffix
  else if lo = 1 ∧ hi = umax then str "+" ++ suffix
  else if lo = 0 ∧ hi = 1 then str "?" ++ suffix
  else if hi = umax then str "{" ++ numberToPack lo ++ str ",}" ++ suffix
  else str "{" ++ numberToPack lo ++ str "," ++ numberToPack hi ++ str "}" ++ suffix

mutual
/-- `expression` of every node and terminal; `regex::get_expression()` returns it for the optimized tree
(src/regex.hpp:52-56). -/
def exprOf : Node → List Ch
  | .exact _ d | .range _ _ d => d
  | .space => str "\\s"
  | .word => str "\\w"
  | .any => str "."
  | .bos => str "^"
  | .eol => str "$"
  | .negated m => str "[^" ++ exprOf m ++ str "]"
  | .simple m cs => exprOf m ++ wrapChildren (exprsOf cs)
  | .alt cs => childrenExpr (exprsOf cs)
  | .greedy m lo hi cs => exprOf m ++ quantExpr lo hi [] ++ wrapChildren (exprsOf cs)
  | .lazy m lo hi cs => exprOf m ++ quantExpr lo hi (str "?") ++ wrapChildren (exprsOf cs)
  | .possessive m lo hi cs => exprOf m ++ quantExpr lo hi (str "+") ++ wrapChildren (exprsOf cs)
  | .repeated m n cs => exprOf m ++ str "{" ++ numberToPack n ++ str "}" ++ wrapChildren (exprsOf cs)
  | .group m _ cs => str "(" ++ exprOf m ++ str ")" ++ childrenExpr (exprsOf cs)
/-- Expressions of a children pack. -/
def exprsOf : List Node → List (List Ch)
  | [] => []
  | c :: cs => exprOf c :: exprsOf cs
end

end ERegex
