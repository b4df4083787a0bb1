import Verif.Spec.Prefer
/-!
# Specification: finding all occurrences, from left to right, without overlap

`f x = some e` says that an occurrence begins at offset `x` of the text, and that the one to report there ends at `e`.
Nothing here refers to the model of the library.
-/
set_option autoImplicit false
namespace ERegex.Spec

/-- `l` lists the occurrences in a text of length `len`, from offset `i` on: each is the first that begins at or after the end of the
previous one, and behind the last there is none. -/
inductive Scan (f : Nat → Option Nat) (len : Nat) : Nat → List (Nat × Nat) → Prop
  | stop {i : Nat} : (∀ x, i ≤ x → x < len → f x = none) → Scan f len i []
  | hit {i s e : Nat} {l : List (Nat × Nat)} : i ≤ s → f s = some e → (∀ x, i ≤ x → x < s → f x = none) → Scan f len e l → Scan f len i ((s, e) :: l)

/-- The same where an occurrence is described by more than its end: `g x = some (e, y)` says that the occurrence to report at `x` ends at
`e` and comes with `y` (the texts of the groups). -/
inductive ScanWith {α : Type} (g : Nat → Option (Nat × α)) (len : Nat) : Nat → List (Nat × Nat × α) → Prop
  | stop {i : Nat} : (∀ x, i ≤ x → x < len → g x = none) → ScanWith g len i []
  | hit {i s e : Nat} {y : α} {l : List (Nat × Nat × α)} : i ≤ s → g s = some (e, y) → (∀ x, i ≤ x → x < s → g x = none) →
      ScanWith g len e l → ScanWith g len i ((s, e, y) :: l)

/-- What is reported at `x` when searching for the text `w`. -/
def literalAt (w q : List Int) (x : Nat) : Option Nat := if w.isPrefixOf (q.drop x) then some (x + w.length) else none

/-- The character that a piece of a pattern stands for, if it stands for a single one: a plain character, a numeric escape, `\a \e \f \n \r \t`, or
a character that is no class (`\d \w \s`) behind `\`. -/
def Atom.letter : Atom → Option Int
  | .chr c => some c
  | .hex a b => some (byte (16 * (a - 48) + (b - 48)))
  | .oct a b c => some (byte (64 * (a - 48) + 8 * (b - 48) + (c - 48)))
  | .esc c =>
    if c = 100 ∨ c = 119 ∨ c = 115 then none
    else some (match c with | 97 => 7 | 101 => 27 | 102 => 12 | 110 => 10 | 114 => 13 | 116 => 9 | _ => c)
  | _ => none

/-- What is reported at `x` when searching for one of the words `ws`: the first in the list. -/
def wordAt (ws : List (List Int)) (q : List Int) (x : Nat) : Option Nat :=
  (ws.find? (fun w => w.isPrefixOf (q.drop x))).map (fun w => x + w.length)

/-- What is reported at `x` when searching for at least `lo` and at most `hi` characters of `S`, as many as possible. -/
def runAt (S : Int → Bool) (lo : Nat) (hi : Option Nat) (q : List Int) (x : Nat) : Option Nat :=
  let r := runLen S (q.drop x)
  if lo ≤ r then some (x + (match hi with | none => r | some h => min h r)) else none

/-- The text from `s` to `e` is a maximal run of characters of `S`: not empty, and neither the character in front of it nor the one
behind it belongs to `S`. -/
structure MaximalRun (S : Int → Bool) (q : List Int) (s e : Nat) : Prop where
  lt : s < e
  le : e ≤ q.length
  all : ∀ x c, s ≤ x → x < e → q[x]? = some c → S c = true
  left : 0 < s → ∀ c, q[s - 1]? = some c → S c = false
  right : ∀ c, q[e]? = some c → S c = false

/-- What is reported at `x` when searching for the character `o` up to the next `c`: all in between is different from `c`. -/
def untilAt (o c : Int) (q : List Int) (x : Nat) : Option Nat :=
  if q[x]? = some o then
    let n := runLen (fun y => y != c) (q.drop (x + 1))
    if x + 1 + n < q.length then some (x + 1 + n + 1) else none
  else none

/-- The same, and the text in between is the text of the first group. -/
def untilWith (o c : Int) (q : List Int) (x : Nat) : Option (Nat × (Nat → Option (Nat × Nat))) :=
  if q[x]? = some o then
    let n := runLen (fun y => y != c) (q.drop (x + 1))
    if x + 1 + n < q.length then some (x + 1 + n + 1, fun k => if k = 0 then some (x + 1, x + 1 + n) else none) else none
  else none

/-- What is reported at `x` when searching for the character `o` followed by one of the words `ws`: the first in the list, as the text of the first
group. -/
def afterWith (o : Int) (ws : List (List Int)) (q : List Int) (x : Nat) : Option (Nat × (Nat → Option (Nat × Nat))) :=
  if q[x]? = some o then (wordAt ws q (x + 1)).map (fun e => (e, fun k => if k = 0 then some (x + 1, e) else none)) else none

/-- What is reported at `x` when searching for a key (characters of `A`, as many as there are), the character `sep` and a value (characters of `B`,
as many as there are): the end of the value, and the texts of the key and of the value. -/
def pairWith (A : Int → Bool) (sep : Int) (B : Int → Bool) (q : List Int) (x : Nat) : Option (Nat × (Nat → Option (Nat × Nat))) :=
  let n := runLen A (q.drop x)
  let y := x + n + 1
  let m := runLen B (q.drop y)
  if 0 < n ∧ q[x + n]? = some sep ∧ 0 < m then
    some (y + m, fun k => if k = 0 then some (x, x + n) else if k = 1 then some (y, y + m) else none)
  else none

/-- What is reported at `x` when searching for a record: fields (of the characters of a set, as many as there are, at least one) with a separator behind
each of them, and a last field: the end of the record and the texts of the fields. -/
def fieldsAt (B : Int → Bool) (q : List Int) : List ((Int → Bool) × Int) → Nat → Option (Nat × List (Nat × Nat))
  | [], x =>
    let n := runLen B (q.drop x)
    if 0 < n then some (x + n, [(x, x + n)]) else none
  | (A, sep) :: fs, x =>
    let n := runLen A (q.drop x)
    if 0 < n ∧ q[x + n]? = some sep then (fieldsAt B q fs (x + n + 1)).map (fun r => (r.1, (x, x + n) :: r.2)) else none

end ERegex.Spec
