import Verif.Spec.Backtrack
/-!
# Specification: splitting a text into tokens

Definitions are sequences of the pattern syntax (one alternative; groups are allowed).  Nothing here refers to the model of the library.
-/
set_option autoImplicit false
namespace ERegex.Spec

/-- How many characters `s` matches at the beginning of `text`, in the match a backtracking matcher prefers; 0 if there is none. -/
def prefixLen (s : Sq) (text : List Int) : Nat :=
  match (s.ways text 0 0 (fun _ => none)).head? with
  | none => 0
  | some w => w.1

/-- The longest match of one of the patterns at the beginning of `text`. -/
def longest (ss : List Sq) (text : List Int) : Nat := ss.foldr (fun s n => max (prefixLen s text) n) 0

/-- Type and length of the token at the beginning of `text`: the longest one, and the first definition if several are as long. -/
def tokenAt (toks : List (Nat × Sq)) (text : List Int) : Option (Nat × Nat) :=
  let n := longest (toks.map Prod.snd) text
  if n = 0 then none else (toks.find? (fun x => prefixLen x.2 text == n)).map (fun x => (x.1, n))

/-- The tokens (type, begin, end) from offset `i` on: a separator, then a token, and so on; the separator in front of the first token
may be missing.  It ends where there is no separator or no token. -/
def lexFrom (toks : List (Nat × Sq)) (seps : List Sq) (q : List Int) : Nat → Nat → List (Nat × Nat × Nat)
  | 0, _ => []
  | f + 1, i =>
    let n := longest seps (q.drop i)
    if n = 0 ∧ i ≠ 0 then []
    else
      match tokenAt toks (q.drop (i + n)) with
      | none => []
      | some (ty, k) => (ty, i + n, i + n + k) :: lexFrom toks seps q f (i + n + k)

/-- The tokens of the text. -/
def lex (toks : List (Nat × Sq)) (seps : List Sq) (q : List Int) : List (Nat × Nat × Nat) := lexFrom toks seps q q.length 0

/-- The tokens among the definitions. -/
def tokensOf {α β : Type} (ds : List (α ⊕ β)) : List α := ds.filterMap (fun d => match d with | .inl x => some x | .inr _ => none)
/-- The separators among the definitions. -/
def sepsOf {α β : Type} (ds : List (α ⊕ β)) : List β := ds.filterMap (fun d => match d with | .inl _ => none | .inr x => some x)

end ERegex.Spec
