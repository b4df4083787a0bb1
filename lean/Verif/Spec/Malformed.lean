/-!
# The outline of a pattern, and well-formed outlines

Characters are integers: `\ = 92`, `[ = 91`, `] = 93`, `{ = 123`, `} = 125`, `( = 40`, `) = 41`, `| = 124`, `* = 42`, `+ = 43`,
`? = 63`, `: = 58`.
-/
set_option autoImplicit false
namespace ERegex.Spec

/-- Where a scan of the pattern is. -/
inductive Place where
  | outside
  /-- inside `[…]` -/
  | inClass
  /-- inside `{…}` -/
  | inBound

/-- The outline of a pattern: every escape `\c` and every class `[…]` is replaced by one letter, every bound `{…}` by `*`; all
other characters are kept.  Undefined for a pattern that ends inside a class or a bound, and for patterns with a bare `(`, `)`,
`|`, `[`, `{`, `}` inside a class or a bound. -/
def outline : Place → List Int → Option (List Int)
  | .outside, [] => some []
  | .outside, [92] => some [97]
  | .outside, 92 :: _ :: p => (outline .outside p).map (97 :: ·)
  | .outside, c :: p =>
    if c = 91 then outline .inClass p else if c = 123 then outline .inBound p else (outline .outside p).map (c :: ·)
  | .inClass, [] => none
  | .inClass, [92] => none
  | .inClass, 92 :: _ :: p => outline .inClass p
  | .inClass, c :: p =>
    if c = 93 then (outline .outside p).map (97 :: ·)
    else if c = 40 ∨ c = 41 ∨ c = 124 ∨ c = 91 ∨ c = 123 ∨ c = 125 then none else outline .inClass p
  | .inBound, [] => none
  | .inBound, c :: p =>
    if c = 125 then (outline .outside p).map (42 :: ·)
    else if c = 40 ∨ c = 41 ∨ c = 124 ∨ c = 91 ∨ c = 93 ∨ c = 123 then none else outline .inBound p

/-- A quantifier character. -/
def quantifier (c : Int) : Prop := c = 42 ∨ c = 43 ∨ c = 63

mutual
  /-- A pattern (outline): alternatives separated by `|`.  The flag tells whether we are outside all groups. -/
  inductive Pattern : Bool → List Int → Prop
    | one {top s} : Branch top s → Pattern top s
    | more {top s t} : Branch top s → Pattern top t → Pattern top (s ++ 124 :: t)
  /-- An alternative: not empty, and it does not begin with a quantifier. -/
  inductive Branch : Bool → List Int → Prop
    | mk {top c s} : Row top (c :: s) → ¬ quantifier c → Branch top (c :: s)
  /-- A row of items: groups `(…)` and `(?:…)` around patterns, and any other characters but `(` and `|`.  A `)` that closes
  nothing is possible only outside all groups. -/
  inductive Row : Bool → List Int → Prop
    | nil {top} : Row top []
    | char {top c s} : c ≠ 40 → c ≠ 124 → (c = 41 → top = true) → Row top s → Row top (c :: s)
    | group {top a s} : Pattern false a → Row top s → Row top (40 :: (a ++ 41 :: s))
    | quiet {top a s} : Pattern false a → Row top s → Row top (40 :: 63 :: 58 :: (a ++ 41 :: s))
end

/-- A character that stands for itself inside `[…]`: no `\`, bracket or `|`. -/
def ordinary (c : Int) : Prop := c ≠ 92 ∧ c ≠ 40 ∧ c ≠ 41 ∧ c ≠ 124 ∧ c ≠ 91 ∧ c ≠ 93 ∧ c ≠ 123 ∧ c ≠ 125

/-- An escape that stands for a set of its own or for its own character: not `\D`, `\N`, `\S`, `\W`, `\x`, `\o`. -/
def simpleEscape (c : Int) : Prop := c ≠ 68 ∧ c ≠ 78 ∧ c ≠ 83 ∧ c ≠ 87 ∧ c ≠ 120 ∧ c ≠ 111

/-- The inside of a class: characters, escapes, ranges `a-b` with `a < b`. -/
inductive ClassItems : List Int → Prop
  | nil : ClassItems []
  | escape {c u} : simpleEscape c → (∀ x v, u ≠ 45 :: x :: v) → ClassItems u → ClassItems (92 :: c :: u)
  | range {a b u} : ordinary a → ordinary b → a < b → b - a ≤ 127 → ClassItems u → ClassItems (a :: 45 :: b :: u)
  | char {c u} : ordinary c → (∀ x v, u ≠ 45 :: x :: v) → ClassItems u → ClassItems (c :: u)

/-- A pattern whose escapes, classes and bounds are in order, with its outline. -/
inductive Sketch : List Int → List Int → Prop
  | nil : Sketch [] []
  | trailing : Sketch [92] [97]
  | char {c p s} : c ≠ 92 → c ≠ 91 → c ≠ 123 → Sketch p s → Sketch (c :: p) (c :: s)
  | escape {c p s} : simpleEscape c → Sketch p s → Sketch (92 :: c :: p) (97 :: s)
  | cls {u p s} : ClassItems u → u ≠ [] → (∀ v, u ≠ 94 :: v) → Sketch p s → Sketch (91 :: (u ++ 93 :: p)) (97 :: s)
  | negated {u p s} : ClassItems u → u ≠ [] → Sketch p s → Sketch (91 :: 94 :: (u ++ 93 :: p)) (97 :: s)
  | bound {d u p s} : (∀ c ∈ d :: u, ordinary c) → d ≠ 44 →
      Sketch p s → Sketch (123 :: (d :: u ++ 125 :: p)) (42 :: s)

/-- Where a reader of an outline is: where an alternative begins, after `(`, after `(?`, after `(?:`, anywhere else. -/
inductive Spot where
  | begins
  | opened
  | marked
  | silent
  | along
  deriving DecidableEq

/-- Reading one character.  Where an alternative begins there must be something: no quantifier, no `|`, and after `(` no `)`. -/
def Spot.read : Spot → Int → Option Spot
  | .begins, c => if c = 42 ∨ c = 43 ∨ c = 63 ∨ c = 124 then none else if c = 40 then some .opened else some .along
  | .opened, c =>
    if c = 63 then some .marked else if c = 42 ∨ c = 43 ∨ c = 124 ∨ c = 41 then none else if c = 40 then some .opened else some .along
  | .marked, c => if c = 58 then some .silent else none
  | .silent, c => if c = 42 ∨ c = 43 ∨ c = 63 ∨ c = 124 ∨ c = 41 then none else if c = 40 then some .opened else some .along
  | .along, c => if c = 40 then some .opened else if c = 124 then some .begins else some .along

/-- Reading an outline. -/
def Spot.readAll : Spot → List Int → Option Spot
  | x, [] => some x
  | x, c :: s => match x.read c with
    | none => none
    | some y => y.readAll s

end ERegex.Spec
