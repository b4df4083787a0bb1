import Verif.Spec.Format
/-!
# Specification: one of several words, and a format behind it

Nothing here refers to the model of the library.
-/
set_option autoImplicit false
namespace ERegex.Spec

/-- The characters that may come behind the word: those of the first piece; a newline if there is no piece. -/
def behind : List Piece → Int → Bool
  | [], c => c == 10
  | p :: _, c => p.what.set c

/-- No word is a prefix of one that is listed behind it; if one listed behind it is a prefix of the word, what the word goes on with is not a character that may come
behind a word. -/
def Choosable (ps : List Piece) (ws : List (List Int)) : Prop :=
  ws.Pairwise (fun w w' => ¬ w <+: w' ∧ ∀ c r, w = w' ++ c :: r → behind ps c = false)

/-- The query is one of the words and texts for the pieces, one after the other, up to the end of the query or of the line. -/
def Chosen (ws : List (List Int)) (ps : List Piece) (q w : List Int) (ts : List (List Int)) (rest : List Int) : Prop :=
  w ∈ ws ∧ AllFit ps ts ∧ q = w ++ ts.flatten ++ rest ∧ (rest = [] ∨ rest.head? = some 10)

/-- `^(w1|w2|…)` or `^(?:w1|w2|…)`, the pieces, `$` -/
def choiceSpell (kept : Bool) (ws : List (List Int)) (ps : List Piece) : List Int :=
  [94] ++ (if kept then [40] else [40, 63, 58]) ++ [124].intercalate ws ++ [41] ++ piecesSpell ps ++ [36]

/-- Where the word, if it is wanted as a group, and the texts of the pieces that are, lie. -/
def choicePlaces (kept : Bool) (ps : List Piece) (w : List Int) (ts : List (List Int)) : List (Nat × Nat) :=
  if kept then (0, w.length) :: places ps ts w.length else places ps ts w.length

/-- No class outside parentheses in front of a group that is not the first (see C11). -/
def ChoiceNumbered (kept : Bool) (ps : List Piece) : Prop :=
  if kept then ps.Pairwise (fun p p' => p.kept = false → p.what.isClass = true → p'.kept = false) else Numbered ps

end ERegex.Spec
