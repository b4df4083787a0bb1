import Verif.Spec.Choice
/-!
# Specification: formats in which a place may be taken by one of several words

Nothing here refers to the model of the library.
-/
set_option autoImplicit false
namespace ERegex.Spec

/-- One place of a form: a piece as in `Spec/Format.lean`, or one of several words, wanted as a group or not. -/
inductive Slot where
  | piece (p : Piece)
  | words (kept : Bool) (ws : List (List Int))

/-- A text for the place. -/
def Slot.Fits : Slot → List Int → Prop
  | .piece p, w => p.Fits w
  | .words _ ws, w => w ∈ ws

/-- Wanted as a group. -/
def Slot.kept : Slot → Bool
  | .piece p => p.kept
  | .words k _ => k

/-- One text for each place. -/
def Fill : List Slot → List (List Int) → Prop
  | [], ts => ts = []
  | e :: es, ts => ∃ w r, ts = w :: r ∧ e.Fits w ∧ Fill es r

/-- The query is texts for the places, one after the other, up to the end of the query or of the line. -/
def Filled (es : List Slot) (q : List Int) (ts : List (List Int)) (rest : List Int) : Prop :=
  Fill es ts ∧ q = ts.flatten ++ rest ∧ (rest = [] ∨ rest.head? = some 10)

/-- Where the texts of the places that are wanted as groups lie, if the first text begins at offset `x`. -/
def spots : List Slot → List (List Int) → Nat → List (Nat × Nat)
  | e :: es, w :: ws, x => if e.kept then (x, x + w.length) :: spots es ws (x + w.length) else spots es ws (x + w.length)
  | _, _, _ => []

/-- A piece as in C71; `(w1|w2|…)` or `(?:w1|w2|…)` -/
def Slot.spell : Slot → List Int
  | .piece p => p.spell
  | .words kept ws => (if kept then [40] else [40, 63, 58]) ++ [124].intercalate ws ++ [41]

/-- `^`, the places, `$` -/
def formSpell (es : List Slot) : List Int := [94] ++ (es.map Slot.spell).flatten ++ [36]

/-- What a place may be: a piece as in C71, or words without operators. -/
def Slot.Ok : Slot → Prop
  | .piece p => p.ok = true
  | .words _ ws => ws ≠ [] ∧ ∀ v ∈ ws, v ≠ [] ∧ v.length < 4294967296 ∧ ∀ c ∈ v, plainB c = true

/-- The characters a text for the place can begin with. -/
def Slot.starts : Slot → Int → Bool
  | .piece p, c => p.what.set c
  | .words _ ws, c => ws.any (fun w => w.head? == some c)

/-- A text for the place is not empty. -/
def Slot.must : Slot → Bool
  | .piece p => p.times.lo != 0
  | .words .. => true

/-- The characters that may come next: those of the next place; behind the last one a newline. -/
def upNext : List Slot → Int → Bool
  | [], c => c == 10
  | e :: _, c => e.starts c

/-- What comes next is not empty and is not `.` -/
def Slot.plain : Slot → Bool
  | .piece p => p.times.lo != 0 && p.what.listing
  | .words .. => true

/-- It is clear where the text of a place ends, if `es` comes behind it.  A piece: its length is fixed, or what follows begins with a character that is not of the
piece.  Words: no word is a prefix of one that is listed behind it; if one listed behind it is a prefix of the word, what the word goes on with is not what can
come next. -/
def Slot.ClearOf : Slot → List Slot → Prop
  | .piece p, [] => p.times.fixed = true ∨ (p.what.set 10 = false ∧ (p.times.lo = 0 → p.times.hi ≠ some 1))
  | .piece p, e :: _ => p.times.fixed = true ∨ (e.plain = true ∧ ∀ c, p.what.set c = true → e.starts c = false)
  | .words _ ws, es =>
    (∀ e, es.head? = some e → e.must = true) ∧ ws.Pairwise (fun w w' => ¬ w <+: w' ∧ ∀ c r, w = w' ++ c :: r → upNext es c = false)

def AllClear : List Slot → Prop
  | [] => True
  | e :: es => e.ClearOf es ∧ AllClear es

/-- A class outside parentheses, or a group that does not capture. -/
def Slot.resets : Slot → Bool
  | .piece p => !p.kept && p.what.isClass
  | .words k _ => !k

/-- None of these lies between two groups: the library would give the second a wrong number (see C11). -/
def SlotsNumbered (es : List Slot) : Prop :=
  (es.dropWhile (fun e => !e.kept)).Pairwise (fun e e' => e.resets = true → e'.kept = false)

/-! ## searching for a form -/

/-- The places, one after the other. -/
def slotsSpell (es : List Slot) : List Int := (es.map Slot.spell).flatten

/-- It is clear where the text of each place but the last one ends; of words at the last place none is a prefix of a later one. -/
def SlotsEnded : List Slot → Prop
  | [] => True
  | [.piece _] => True
  | [.words _ ws] => ws.Pairwise (fun w w' => ¬ w <+: w')
  | e :: e' :: es => e.ClearOf (e' :: es) ∧ SlotsEnded (e' :: es)

/-- A single character outside parentheses (a character, an escape but `\s`, `.` or a class without `\s` that is not negated), or words in `(?:…)`. -/
def Slot.Firm : Slot → Prop
  | .piece p => p.single
  | .words k _ => k = false

/-- How the form begins: with a single character or words in `(?:…)`; or with a repetition without upper bound and then one of these; or it is one piece. -/
def SlotsFront : List Slot → Prop
  | [] => False
  | [.piece p] => p.what.steady = true ∧ (p.kept = true → p.times.fixed = false)
  | [.words k _] => k = false
  | .piece p :: e :: _ => p.single ∨ (p.what.steady = true ∧ p.times.hi = none ∧ e.Firm)
  | .words k _ :: _ => k = false

end ERegex.Spec
