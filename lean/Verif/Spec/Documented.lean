import Verif.Spec.FindAll
/-!
# Specification: what the patterns of the README and of the benchmark stand for

Nothing here refers to the model of the library.
-/
set_option autoImplicit false
namespace ERegex.Spec

def digitC (c : Int) : Bool := decide (48 ≤ c ∧ c ≤ 57)
def wordC (c : Int) : Bool := digitC c || decide (65 ≤ c ∧ c ≤ 90) || decide (97 ≤ c ∧ c ≤ 122) || c == 95

/-- A mail address begins at offset `x` of the text `q` and ends at `e`: a name (letters, digits, `_`, `.` and `-`), `@`, a host (letters, digits, `_`
and `-`), `.` and the rest (letters, digits, `_` and `.`), which is as long as possible. -/
def MailAddress (q : List Int) (x e : Nat) : Prop :=
  ∃ before name host rest after, q = before ++ name ++ [64] ++ host ++ [46] ++ rest ++ after ∧ before.length = x ∧
    e = q.length - after.length ∧
    name ≠ [] ∧ (∀ c ∈ name, wordC c = true ∨ c = 46 ∨ c = 45) ∧
    host ≠ [] ∧ (∀ c ∈ host, wordC c = true ∨ c = 45) ∧
    rest ≠ [] ∧ (∀ c ∈ rest, wordC c = true ∨ c = 46) ∧
    ∀ c, after.head? = some c → ¬ (wordC c = true ∨ c = 46)

/-- A letter `a` at offset `x` of `q`, and all the letters `a` behind it, which are the text of the first group. -/
def letterAndMore (q : List Int) (x : Nat) : Option (Nat × (Nat → Option (Nat × Nat))) :=
  if q[x]? = some 97 then
    let n := runLen (fun c => c == 97) (q.drop (x + 1))
    some (x + 1 + n, fun k => if k = 0 then some (x + 1, x + 1 + n) else none)
  else none

end ERegex.Spec
