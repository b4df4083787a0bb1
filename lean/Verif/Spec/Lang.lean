/-!
# Specification: what a regular expression denotes

Textbook regular expressions over integer characters, and the relation `Den q r i j` : "`r` matches the text of the
query `q` from offset `i` to offset `j`".  Nothing here refers to the model of the library.
-/
set_option autoImplicit false
namespace ERegex.Spec

/-- Regular expressions. -/
inductive Rx where
  /-- the empty string -/
  | eps
  /-- nothing -/
  | fail
  /-- the literal string `s` -/
  | lit (s : List Int)
  /-- one character of the class `p` -/
  | cls (p : Int → Bool)
  /-- start of the query, zero width -/
  | bos
  /-- end of the query (zero width), or a newline character -/
  | eol
  /-- one character at which `r` does not match -/
  | neg (r : Rx)
  | seq (r s : Rx)
  | alt (r s : Rx)
  /-- at least `lo` and (if given) at most `hi` repetitions -/
  | rep (r : Rx) (lo : Nat) (hi : Option Nat)

/-- `n`-fold composition of a relation. -/
def Iter {α : Type} (R : α → α → Prop) : Nat → α → α → Prop
  | 0, i, j => i = j
  | n + 1, i, j => ∃ k, R i k ∧ Iter R n k j

/-- `Den q r i j` : `r` matches `q[i..j)`. -/
def Den (q : List Int) : Rx → Nat → Nat → Prop
  | .eps, i, j => i = j
  | .fail, _, _ => False
  | .lit s, i, j => j = i + s.length ∧ ∀ k, k < s.length → q[i + k]? = s[k]?
  | .cls p, i, j => j = i + 1 ∧ ∃ c, q[i]? = some c ∧ p c = true
  | .bos, i, j => i = 0 ∧ j = 0
  | .eol, i, j => (i = q.length ∧ j = i) ∨ (q[i]? = some 10 ∧ j = i + 1)
  | .neg r, i, j => j = i + 1 ∧ i < q.length ∧ ∀ k, ¬ Den q r i k
  | .seq r s, i, j => ∃ k, Den q r i k ∧ Den q s k j
  | .alt r s, i, j => Den q r i j ∨ Den q s i j
  | .rep r lo hi, i, j => ∃ n, lo ≤ n ∧ (∀ h, hi = some h → n ≤ h) ∧ Iter (Den q r) n i j

end ERegex.Spec
