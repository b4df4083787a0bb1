import Verif.Spec.Prefer
/-!
# Specification: the set of texts a regular expression stands for

The textbook definition on strings, without positions, for regular expressions without anchors.  Nothing here refers to the model of
the library.
-/
set_option autoImplicit false
namespace ERegex.Spec

/-- `n` texts of the set `L`, one behind the other. -/
def Power (L : List Int → Prop) : Nat → List Int → Prop
  | 0, w => w = []
  | n + 1, w => ∃ u v, w = u ++ v ∧ L u ∧ Power L n v

/-- The texts a regular expression stands for.  The cases without a meaning on their own (anchors, negative lookahead) stand for none;
`Rx.floats` excludes them. -/
def Rx.Stands : Rx → List Int → Prop
  | .eps, w => w = []
  | .fail, _ => False
  | .lit s, w => w = s
  | .cls p, w => ∃ c, w = [c] ∧ p c = true
  | .bos, _ => False
  | .eol, _ => False
  | .neg _, _ => False
  | .seq r s, w => ∃ u v, w = u ++ v ∧ r.Stands u ∧ s.Stands v
  | .alt r s, w => r.Stands w ∨ s.Stands w
  | .rep r lo hi, w => ∃ n, lo ≤ n ∧ (∀ h, hi = some h → n ≤ h) ∧ Power r.Stands n w

/-- No anchors, no lookahead. -/
def Rx.floats : Rx → Bool
  | .eps | .fail | .lit _ | .cls _ => true
  | .bos | .eol | .neg _ => false
  | .seq r s | .alt r s => r.floats && s.floats
  | .rep r _ _ => r.floats

/-- The text `w` is a text of the pattern `as`. -/
def Alts.Stands (as : Alts) (w : List Int) : Prop := as.sem.Stands w

/-- The pattern has no `^` and no `$`. -/
def Alts.floats (as : Alts) : Bool := as.sem.floats

mutual
/-- Every quantifier has `lo ≤ hi`. -/
def Atom.fair : Atom → Bool
  | .group _ as => as.fair
  | _ => true
def Sq.fair : Sq → Bool
  | .nil _ => true
  | .cons a k s => a.fair && (match k.hi with | none => true | some h => decide (k.lo ≤ h)) && s.fair
def Alts.fair : Alts → Bool
  | .last _ s => s.fair
  | .more _ s as => s.fair && as.fair
end

mutual
/-- No quantifier is possessive. -/
def Atom.yields : Atom → Bool
  | .group _ as => as.yields
  | _ => true
def Sq.yields : Sq → Bool
  | .nil _ => true
  | .cons a k s => a.yields && (match k.mode with | .possessive => false | _ => true) && s.yields
def Alts.yields : Alts → Bool
  | .last _ s => s.yields
  | .more _ s as => s.yields && as.yields
end

end ERegex.Spec
