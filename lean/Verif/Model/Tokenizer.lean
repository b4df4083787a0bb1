import Verif.Model.Chars
/-!
# src/tokenizer.hpp : pattern string → tokens
-/
set_option autoImplicit false
namespace ERegex

/-- State of `extract_braces_numbers` (src/tokenizer.hpp:10-82), i.e. the shape of its accumulator tuple. -/
inductive BraceState where
  /-- `tuple<first>` : reading the first number (lines 24-31) -/
  | first (cur : Tok)
  /-- `tuple<first, ','>` : the comma was just read (lines 12-22) -/
  | comma (a : Tok)
  /-- `tuple<first, ',', second>` : reading the second number (lines 65-82) -/
  | second (a b : Tok)

/-- `extract_braces_numbers` (src/tokenizer.hpp:10-87): tokens of `{…}` and the remaining pattern.
`none` = pattern exhausted before `}` (no specialisation, compile error). -/
def extractBraces : BraceState → List Ch → Option (List Tok × List Ch)
  | _, [] => none
  | .first cur, c :: tl =>
    if c = 125 then some ([str "{", cur, str "}"], tl)
    else if c = 44 then extractBraces (.comma cur) tl
    else extractBraces (.first (cur ++ [c])) tl
  | .comma a, c :: tl =>
    if c = 125 then some ([str "{", a, str ",", str "}"], tl)
    else extractBraces (.second a [c]) tl
  | .second a b, c :: tl =>
    if c = 125 then some ([str "{", a, str ",", b, str "}"], tl)
    else extractBraces (.second a (b ++ [c])) tl

/-- `tokenizer` (src/tokenizer.hpp:89-128).  Fuel bounds the number of tokens read; the length of the
pattern is always enough (`Proofs/Tokenizer.lean`).  A lone trailing backslash is an ordinary token. -/
def tokenizeAux : Nat → List Tok → List Ch → Option (List Tok)
  | _, cur, [] => some cur
  | 0, _, _ :: _ => none
  | f + 1, cur, c :: tl =>
    if c = 92 then
      match tl with
      | [] => tokenizeAux f (cur ++ [[c]]) tl
      | d :: tl' => tokenizeAux f (cur ++ [[c, d]]) tl'
    else if c = 123 then
      match extractBraces (.first []) tl with
      | none => none
      | some (nums, rem) => tokenizeAux f (cur ++ nums) rem
    else tokenizeAux f (cur ++ [[c]]) tl

/-- `tokenizer_t` (src/tokenizer.hpp:130-132). `none` = the pattern does not compile. -/
def tokenize (p : List Ch) : Option (List Tok) := tokenizeAux p.length [] p

end ERegex
