import Verif.Model.Ast
import Verif.Model.Tokenizer
/-!
# src/tree_builder, src/operators : tokens → tree

Partial specialisations are selected by pattern; overlapping ones are resolved here by testing the more
specialised pattern first.  `none` = the program does not compile.
-/
set_option autoImplicit false
namespace ERegex

/-- `terminals::terminal<head>` (src/terminals/*.hpp).  `\D \W \S \N` are `negated_terminal`s, whose `match_`
passes an rvalue to a parameter `auto&` (src/terminals/common.hpp:51) and does not compile when used. -/
def terminalOf : Tok → Option Node
  | [46] => some .any                                   -- any.hpp
  | [92, 97] => some (.exact [7] (str "\\a"))           -- alarm.hpp
  | [92, 114] => some (.exact [13] (str "\\r"))         -- carriage_return.hpp
  | [92, 101] => some (.exact [27] (str "\\e"))         -- escape.hpp
  | [92, 102] => some (.exact [12] (str "\\f"))         -- form_feed.hpp
  | [92, 110] => some (.exact [10] (str "\\n"))         -- new_line.hpp
  | [92, 116] => some (.exact [9] (str "\\t"))          -- tab.hpp
  | [92, 100] => some (.range 48 57 (str "\\d"))        -- digit_characters.hpp
  | [92, 115] => some .space                            -- space_characters.hpp
  | [92, 119] => some .word                             -- word_characters.hpp
  | [92, 68] => none                                    -- \D, digit_characters.hpp:17-23
  | [92, 78] => none                                    -- \N, new_line.hpp:16-22
  | [92, 83] => none                                    -- \S, space_characters.hpp:38-44
  | [92, 87] => none                                    -- \W, word_characters.hpp:40-45
  | [92, c] => some (.exact [c] [92, c])                -- escaped.hpp
  | [] => none                                          -- exact_matcher<pack_string<>> is incomplete
  | s => some (.exact s s)                              -- exact_matcher.hpp:52-56

/-- `add_child` (src/tree_builder/common.hpp:11-48); `none` is `void`. -/
def addChild : Option Node → Node → Option Node
  | none, n => some n
  | some (.simple m cs), n => some (.simple m (cs ++ [n]))
  | some (.alt cs), n => some (.alt (cs ++ [n]))
  | some (.greedy m lo hi cs), n => some (.greedy m lo hi (cs ++ [n]))
  | some (.lazy m lo hi cs), n => some (.lazy m lo hi (cs ++ [n]))
  | some (.possessive m lo hi cs), n => some (.possessive m lo hi (cs ++ [n]))
  | some (.repeated m k cs), n => some (.repeated m k (cs ++ [n]))
  | some (.group m i cs), n => some (.group m i (cs ++ [n]))
  | some _, _ => none

/-- `concept hex` (src/operators/hex.hpp:10-11). -/
def isHex (c : Ch) : Bool := decide (48 ≤ c) && decide (c ≤ 70)

/-- `concept octal` (src/operators/octal.hpp:9-10). -/
def isOctal (c : Ch) : Bool := decide (48 ≤ c) && decide (c ≤ 56)

/-- `((first - '0') << 4) | (second - '0')` as `char` (src/operators/hex.hpp:22-23).  Both operands are
non-negative (`isHex`). -/
def hexPair (a b : Ch) : Ch := toChar ((((a - 48).toNat <<< 4) ||| (b - 48).toNat : Nat) : Int)

/-- `hex_to_bin` (src/operators/hex.hpp:13-58).  Three remaining digits use the specialisation of lines 30-41,
which drops the third one. -/
def hexToBin : List Ch → Option (List Ch)
  | [] => some []
  | [a] => if isHex a then some [toChar (a - 48)] else none
  | [a, b, c] => if isHex a && isHex b && isHex c then some [hexPair a b] else none
  | a :: b :: tl =>
    if isHex a && isHex b then (hexToBin tl).map (fun r => hexPair a b :: r) else none

/-- `((first - '0') << 6) | ((second - '0') << 3) | (third - '0')` as `char` (src/operators/octal.hpp:21-23). -/
def octTriple (a b c : Ch) : Ch :=
  toChar ((((a - 48).toNat <<< 6) ||| ((b - 48).toNat <<< 3) ||| (c - 48).toNat : Nat) : Int)

/-- `octal_to_bin` (src/operators/octal.hpp:12-34). -/
def octalToBin : List Ch → Option (List Ch)
  | [] => some []
  | a :: b :: c :: tl =>
    if isOctal a && isOctal b && isOctal c then (octalToBin tl).map (fun r => octTriple a b c :: r) else none
  | _ => none

/-- `nodes::simple<terminals::exact_matcher<value>>`; incomplete for the empty string
(src/terminals/exact_matcher.hpp:10-14). -/
def exactNode (v : List Ch) : Option Node := if v = [] then none else some (.simple (.exact v v) [])

/-- `square_bracker_tree_builder_helper` (src/operators/square_brackets.hpp:35-92): the items of a class, each
wrapped in `nodes::simple`.  An escaped token before `-` makes two specialisations ambiguous; range bounds must be
single characters satisfying `admitted_set_range`'s constraint. Fuel: number of tokens. -/
def classItems : Nat → List Tok → Option (List Node)
  | _, [] => some []
  | 0, _ :: _ => none
  | f + 1, s :: [45] :: e :: tl =>
    match s, e with
    | [a], [b] =>
      if rangeOk a b then (classItems f tl).map (fun r => .simple (.range a b [91, a, 45, b, 93]) [] :: r)
      else none
    | _, _ => none
  | f + 1, [92, c] :: tl =>
    match terminalOf [92, c] with
    | none => none
    | some t => (classItems f tl).map (fun r => .simple t [] :: r)
  | f + 1, h :: tl =>
    if h = [] then none else (classItems f tl).map (fun r => .simple (.exact h h) [] :: r)

/-- The class built from its items (`add_branch`, src/operators/square_brackets.hpp:13-33): `simple<void, items...>`;
with no item `simple<void>` matches two specialisations of `simple` and is ambiguous. -/
def classNode (ts : List Tok) : Option Node :=
  match classItems ts.length ts with
  | none | some [] => none
  | some items => some (.alt items)

/-- The three quantifier policies. -/
inductive Policy where
  | greedy | lazy | possessive

/-- Quantified node without children. -/
def Policy.node (p : Policy) (m : Node) (lo hi : Nat) : Node :=
  match p with
  | .greedy => .greedy m lo hi []
  | .lazy => .lazy m lo hi []
  | .possessive => .possessive m lo hi []

/-- Lookahead for `?` / `+` after `*`, `+`, `?` (src/operators/{star,plus,optional}.hpp) and after `}`
(src/operators/braces.hpp:96-108): policy and remaining tokens. -/
def policyOf : List Tok → Policy × List Tok
  | [63] :: tl => (.lazy, tl)
  | [43] :: tl => (.possessive, tl)
  | ts => (.greedy, ts)

/-- `quantified_node_builder` (src/operators/braces.hpp:17-87). -/
def quantifiedNode (m : Node) (data : List Tok) (p : Policy) : Option Node :=
  match data with
  | [a] => (packStringToNumber a).map (fun n => .repeated m n [])
  | [a, [44]] => (packStringToNumber a).map (fun n => p.node m n umax)
  | [a, [44], b] =>
    match packStringToNumber a, packStringToNumber b with
    | some lo, some hi => some (p.node m lo hi)
    | _, _ => none
  | _ => none

/-- What the head of the token list starts: the selected specialisation of `tree_builder_helper`. -/
inductive Step where
  /-- base case, src/operators/common.hpp:14-20 -/
  | done
  /-- a node with the remaining tokens appended as its continuation (`new_node`, then `add_child`):
  src/operators/common.hpp:22-32, hex.hpp, octal.hpp, square_brackets.hpp:94-139.  `reset` = the next group index is
  the node's own `next_group_index` (classes) instead of the current one. -/
  | node (n : Node) (reset : Bool) (rest : List Tok)
  /-- `^` at the start, src/operators/start_anchor.hpp:10-18 -/
  | start (rest : List Tok)
  /-- `$` as the last token, src/operators/end_anchor.hpp:13-21 -/
  | finish
  /-- a quantifier applied to the previous node: star/plus/optional/braces -/
  | quant (f : Node → Option Node) (rest : List Tok)
  /-- `(` content, remaining: src/operators/round_brackets.hpp:33-53 -/
  | capture (content rest : List Tok)
  /-- `(?:` content, remaining: src/operators/round_brackets.hpp:55-76 -/
  | noncapture (content rest : List Tok)
  /-- does not compile -/
  | fail

/-- Selection of the specialisation of `tree_builder_helper<last, tokens, group_index>` (src/operators/*.hpp).
`atStart` = `last_node` is `void`. -/
def classify (atStart : Bool) : List Tok → Step
  | [] => .done
  | [40] :: [63] :: [58] :: tl =>
    match extractT 40 41 tl with
    | none => .fail
    | some (c, r) => .noncapture c r
  | [40] :: tl =>
    match extractT 40 41 tl with
    | none => .fail
    | some (c, r) => .capture c r
  | [91] :: [94] :: tl =>
    match extractT 91 93 tl with
    | none => .fail
    | some (c, r) =>
      match classNode c with
      | none => .fail
      | some n => .node (.simple (.negated n) []) true r
  | [91] :: tl =>
    match extractT 91 93 tl with
    | none => .fail
    | some (c, r) =>
      match classNode c with
      | none => .fail
      | some n => .node (.simple n []) true r
  | [123] :: tl =>
    match extractT 123 125 tl with
    | none => .fail
    | some (c, r) => let pr := policyOf r; .quant (fun m => quantifiedNode m c pr.1) pr.2
  | [42] :: tl => let pr := policyOf tl; .quant (fun m => some (pr.1.node m 0 umax)) pr.2
  | [43] :: tl => let pr := policyOf tl; .quant (fun m => some (pr.1.node m 1 umax)) pr.2
  | [63] :: tl => let pr := policyOf tl; .quant (fun m => some (pr.1.node m 0 1)) pr.2
  | [[36]] => .finish
  | [92, 120] :: [123] :: tl =>
    match extractT 123 125 tl with
    | some ([d], r) =>
      match (hexToBin d).bind exactNode with
      | none => .fail
      | some n => .node n false r
    | _ => .fail
  | [92, 111] :: [123] :: tl =>
    match extractT 123 125 tl with
    | some ([d], r) =>
      match (octalToBin d).bind exactNode with
      | none => .fail
      | some n => .node n false r
    | _ => .fail
  | h :: tl =>
    if h = [94] ∧ atStart = true then .start tl
    else
      match octalHead h tl with
      | some (v, r) => .node (.simple (.exact v v) []) false r
      | none =>
      match hexHead h tl with
      | some (v, r) => .node (.simple (.exact v v) []) false r
      | none =>
      match terminalOf h with
      | none => .fail
      | some t => .node (.simple t []) false tl
where
  /-- `\NNN` (src/operators/octal.hpp:45-68). -/
  octalHead : Tok → List Tok → Option (List Ch × List Tok)
    | [92, a], [b] :: [c] :: tl =>
      if isOctal a && isOctal b && isOctal c then some ([octTriple a b c], tl) else none
    | _, _ => none
  /-- `\xNM`, `\xN` (src/operators/hex.hpp:69-102). -/
  hexHead : Tok → List Tok → Option (List Ch × List Tok)
    | [92, 120], [a] :: [b] :: tl =>
      if isHex a && isHex b then some ([hexPair a b], tl)
      else if isHex a then some ([toChar (a - 48)], [b] :: tl) else none
    | [92, 120], [a] :: tl => if isHex a then some ([toChar (a - 48)], tl) else none
    | _, _ => none

/-- Build every alternative with `h`; all must compile (the pack expansion of `branched`,
src/operators/round_brackets.hpp:12-31). -/
def buildAll (h : List Tok → Option Node) : List (List Tok) → Option (List Node)
  | [] => some []
  | b :: bs =>
    match h b with
    | none => none
    | some t => (buildAll h bs).map (fun r => t :: r)

/-- `tree_builder_helper<last, tokens, group_index>::tree` (src/operators/*.hpp).  `last = none` is `void`; the
result `void` (empty sequence) cannot be used by any caller (its members are named), hence `none`.  In `(…)` and
`(?:…)` every alternative starts from the same group index (`branched`).  Fuel bounds the
recursion; the number of tokens + 1 is always enough, because every step removes a token
(`Proofs/TreeBuilder.lean`). -/
def helper : Nat → Option Node → List Tok → Nat → Option Node
  | 0, _, _, _ => none
  | f + 1, last, ts, gi =>
    match classify last.isNone ts with
    | .done => last
    | .fail => none
    | .finish => addChild last (.simple .eol [])
    | .start rest => helper f (some (.simple .bos [])) rest gi
    | .quant q rest =>
      match last with
      | none => none
      | some m => (q m).bind (fun n => helper f (some n) rest gi)
    | .node n reset rest =>
      (helper f (some n) rest (if reset then nextIdx n else gi)).bind (addChild last)
    | .capture c rest =>
      (buildAll (fun b => helper f none b (gi + 1)) (splitT 124 c)).bind (fun bs =>
        (helper f (some (.group (.alt bs) gi [])) rest (gi + 1)).bind (addChild last))
    | .noncapture c rest =>
      (buildAll (fun b => helper f none b gi) (splitT 124 c)).bind (fun bs =>
        (helper f (some (.simple (.alt bs) [])) rest (nextIdxs bs)).bind (addChild last))

/-- `tree_builder_branches` (src/tree_builder/tree_builder.hpp:11-32): alternatives of the whole pattern; the group
index of an alternative is the previous subtree's `next_group_index`. -/
def topBranches (f : Nat) : List (List Tok) → Nat → Option (List Node)
  | [], _ => some []
  | b :: bs, gi =>
    match helper f none b gi with
    | none => none
    | some t => (topBranches f bs (nextIdx t)).map (fun r => t :: r)

/-- `tree_builder<pattern>::tree` (src/tree_builder/tree_builder.hpp:34-43). -/
def build (p : List Ch) : Option Node :=
  match tokenize p with
  | none => none
  | some ts => (topBranches (ts.length + 1) (splitT 124 ts) 0).map .alt

end ERegex
