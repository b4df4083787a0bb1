/-!
# Specifications for the pattern front end

Written without reference to the model: characters are integers, tokens are lists of characters.
`92 = \`, `123 = {`, `125 = }`, `44 = ,`, `40/41 = ()`, `91/93 = []`.
-/
set_option autoImplicit false
namespace ERegex.Spec

/-- How a pattern is cut into tokens: single characters, `\c` pairs, and `{…}` blocks cut at the delimiters and at the
first comma.  A backslash that ends the pattern stands for itself. -/
inductive Tokens : List Int → List (List Int) → Prop
  | nil : Tokens [] []
  | plain {c p ts} : c ≠ 92 → c ≠ 123 → Tokens p ts → Tokens (c :: p) ([c] :: ts)
  | escaped {c p ts} : Tokens p ts → Tokens (92 :: c :: p) ([92, c] :: ts)
  | trailing : Tokens [92] [[92]]
  | brace1 {a p ts} : 125 ∉ a → 44 ∉ a → Tokens p ts →
      Tokens (123 :: (a ++ 125 :: p)) ([123] :: a :: [125] :: ts)
  | brace2 {a p ts} : 125 ∉ a → 44 ∉ a → Tokens p ts →
      Tokens (123 :: (a ++ 44 :: 125 :: p)) ([123] :: a :: [44] :: [125] :: ts)
  | brace3 {a b p ts} : 125 ∉ a → 44 ∉ a → b ≠ [] → 125 ∉ b → Tokens p ts →
      Tokens (123 :: (a ++ 44 :: (b ++ 125 :: p))) ([123] :: a :: [44] :: b :: [125] :: ts)

/-- Every `{` reached by a left-to-right scan that jumps over `\c` pairs and over `{…}` blocks has a later `}`. -/
inductive BracesClosed : List Int → Prop
  | nil : BracesClosed []
  | plain {c p} : c ≠ 92 → c ≠ 123 → BracesClosed p → BracesClosed (c :: p)
  | escaped {c p} : BracesClosed p → BracesClosed (92 :: c :: p)
  | trailing : BracesClosed [92]
  | block {u p} : 125 ∉ u → BracesClosed p → BracesClosed (123 :: (u ++ 125 :: p))

/-- Decimal value of a digit string, most significant digit first. -/
def decimal (s : List Int) : Int := s.foldl (fun acc c => 10 * acc + (c - 48)) 0

/-- `c` is a decimal digit. -/
def IsDigit (c : Int) : Prop := 48 ≤ c ∧ c ≤ 57

/-- Nesting depth of one kind of bracket after reading `ts`. -/
def depth (op cl : Int) (ts : List (List Int)) : Int := (ts.count [op] : Int) - (ts.count [cl] : Int)

/-- The three bracket kinds, as token pairs. -/
inductive Bracket : List Int → List Int → Prop
  | round : Bracket [40] [41]
  | square : Bracket [91] [93]
  | curly : Bracket [123] [125]

/-- A token that is no bracket. -/
def NoBracket (t : List Int) : Prop := ∀ o c, Bracket o c → t ≠ o ∧ t ≠ c

/-- Well nested token sequences. -/
inductive WellNested : List (List Int) → Prop
  | nil : WellNested []
  | tok {t ts} : NoBracket t → WellNested ts → WellNested (t :: ts)
  | pair {o c a b} : Bracket o c → WellNested a → WellNested b → WellNested (o :: (a ++ c :: b))

/-- Well nested, and the token `[sep]` does not occur outside all brackets. -/
inductive TopFree (sep : Int) : List (List Int) → Prop
  | nil : TopFree sep []
  | tok {t ts} : NoBracket t → t ≠ [sep] → TopFree sep ts → TopFree sep (t :: ts)
  | pair {o c a b} : Bracket o c → WellNested a → TopFree sep b → TopFree sep (o :: (a ++ c :: b))

/-- Join pieces with a separator token. -/
def joinWith (sep : Int) : List (List (List Int)) → List (List Int)
  | [] => []
  | [p] => p
  | p :: q :: ps => p ++ [sep] :: joinWith sep (q :: ps)

/-- Token sequences whose *openers* are all closed by a closer of the same kind, in nested order; further closers may
occur anywhere. -/
inductive OpenersClosed : List (List Int) → Prop
  | nil : OpenersClosed []
  | skip {t ts} : (∀ o c, Bracket o c → t ≠ o) → OpenersClosed ts → OpenersClosed (t :: ts)
  | pair {o c a b} : Bracket o c → OpenersClosed a → OpenersClosed b → OpenersClosed (o :: (a ++ c :: b))

/-- A character set as a strictly increasing list. -/
def Sorted (l : List Int) : Prop := l.Pairwise (· < ·)

/-- Where a left-to-right scan of the tokens is: outside, or inside `[…]` / `{…}` with `d` further openers pending. -/
inductive Mode where
  | normal
  | inside (op cl : Int) (d : Nat)

/-- Number of capturing parentheses: `(` tokens outside `[…]` and `{…}` that do not begin `(?:`. -/
def captures : Mode → List (List Int) → Nat
  | _, [] => 0
  | .normal, t :: ts =>
    if t = [40] then (if ts.take 2 = [[63], [58]] then 0 else 1) + captures .normal ts
    else if t = [91] then captures (.inside 91 93 0) ts
    else if t = [123] then captures (.inside 123 125 0) ts
    else captures .normal ts
  | .inside op cl d, t :: ts =>
    if t = [cl] then (if d = 0 then captures .normal ts else captures (.inside op cl (d - 1)) ts)
    else if t = [op] then captures (.inside op cl (d + 1)) ts
    else captures (.inside op cl d) ts

end ERegex.Spec
