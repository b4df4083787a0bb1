import Verif.Spec.Prefer
/-!
# Specification: text in a format

A format is a list of pieces, such as four digits, a dash, two digits.  Nothing here refers to the model of the library.
-/
set_option autoImplicit false
namespace ERegex.Spec

/-- One piece of a format: a character, an escape or a class, how many of them, and whether it is wanted as a group. -/
structure Piece where
  kept : Bool
  what : Atom
  times : Quant

/-- A text for the piece. -/
def Piece.Fits (p : Piece) (w : List Int) : Prop :=
  p.times.lo ≤ w.length ∧ (∀ h, p.times.hi = some h → w.length ≤ h) ∧ ∀ c ∈ w, p.what.set c = true

/-- One text for each piece. -/
def AllFit : List Piece → List (List Int) → Prop
  | [], ws => ws = []
  | p :: ps, ws => ∃ w r, ws = w :: r ∧ p.Fits w ∧ AllFit ps r

/-- The query is texts for the pieces, one after the other, up to the end of the query or of the line. -/
def Splits (ps : List Piece) (q : List Int) (ws : List (List Int)) (rest : List Int) : Prop :=
  AllFit ps ws ∧ q = ws.flatten ++ rest ∧ (rest = [] ∨ rest.head? = some 10)

/-- Where the texts of the pieces that are wanted as groups lie, if the first text begins at offset `x`. -/
def places : List Piece → List (List Int) → Nat → List (Nat × Nat)
  | p :: ps, w :: ws, x => if p.kept then (x, x + w.length) :: places ps ws (x + w.length) else places ps ws (x + w.length)
  | _, _, _ => []

def Piece.spell (p : Piece) : List Int :=
  if p.kept then [40] ++ p.what.spell ++ p.times.spell ++ [41] else p.what.spell ++ p.times.spell

/-- `^`, the pieces, `$` -/
def formatSpell (ps : List Piece) : List Int := [94] ++ (ps.map Piece.spell).flatten ++ [36]

/-- `[…]` or `[^…]` -/
def Atom.isClass : Atom → Bool
  | .cls .. => true
  | _ => false

/-- A character, an escape or a class, but not `.`, `\s`, `[^…]` or a class with `\s`. -/
def Atom.listing (a : Atom) : Bool := a.steady && match a with | .dot => false | _ => true

/-- What the piece may be: a number of repetitions `X{n}` of any character, escape or class (a class with `\s` must have it at the end),
or a greedy repetition of anything but `.`, `\s`, `[^…]` and classes with `\s`. -/
def Piece.ok (p : Piece) : Bool :=
  p.what.ok && p.times.sane && (match p.times.mode with | .greedy => true | _ => false) &&
  ((p.times.fixed && (p.what.steady || p.what.skips)) || p.what.listing)

/-- It is clear where a piece ends: its length is fixed, or what follows must begin with a character that is not of the piece (behind the last piece: with a
newline; the last piece must not be `X?`). -/
def Clear : List Piece → Prop
  | [] => True
  | [p] => p.times.fixed = true ∨ (p.what.set 10 = false ∧ (p.times.lo = 0 → p.times.hi ≠ some 1))
  | p :: p' :: ps =>
    (p.times.fixed = true ∨ (p'.times.lo ≠ 0 ∧ p'.what.listing = true ∧ ∀ c, p.what.set c = true → p'.what.set c = false)) ∧ Clear (p' :: ps)

/-- No class outside parentheses lies between two groups: the library would give the second a wrong number (see C11). -/
def Numbered (ps : List Piece) : Prop :=
  (ps.dropWhile (fun p => !p.kept)).Pairwise (fun p p' => p.kept = false → p.what.isClass = true → p'.kept = false)

/-! ## searching for a format -/

/-- The pieces, one after the other. -/
def piecesSpell (ps : List Piece) : List Int := (ps.map Piece.spell).flatten

/-- It is clear where each piece but the last one ends: its length is fixed, or what follows must begin with a character that is not of the piece. -/
def Ended : List Piece → Prop
  | p :: p' :: ps =>
    (p.times.fixed = true ∨ (p'.times.lo ≠ 0 ∧ p'.what.listing = true ∧ ∀ c, p.what.set c = true → p'.what.set c = false)) ∧ Ended (p' :: ps)
  | _ => True

/-- A single character outside parentheses: a character, an escape but `\s`, `.` or a class without `\s` that is not negated. -/
def Piece.single (p : Piece) : Prop := p.kept = false ∧ p.times = .once ∧ p.what.steady = true

/-- How the format begins: with a single character, or with a repetition without upper bound and then a single character; or it is one piece. -/
def Front : List Piece → Prop
  | [] => False
  | [p] => p.what.steady = true ∧ (p.kept = true → p.times.fixed = false)
  | p :: p' :: _ => p.single ∨ (p.what.steady = true ∧ p.times.hi = none ∧ p'.single)

end ERegex.Spec
