import Verif.Spec.Front
import Verif.Spec.Lang
/-!
# Specification: the syntax of patterns and its meaning

Abstract syntax, how it is spelled, and the textbook regular expression it stands for.  Nothing here refers to the model of
the library.
-/
set_option autoImplicit false
namespace ERegex.Spec

/-- An item of a bracketed class: `c`, `\c`, `a-b`. -/
inductive Item where
  | chr (c : Int)
  | esc (c : Int)
  | rng (a b : Int)

/-- Suffix of a quantifier. -/
inductive QMode where
  | greedy | lazy | possessive

/-- Quantifiers; the bounds are digit strings. -/
inductive Quant where
  | once
  | star (m : QMode)
  | plus (m : QMode)
  | opt (m : QMode)
  | exact (n : List Int) (m : QMode)
  | atLeast (n : List Int) (m : QMode)
  | between (n k : List Int) (m : QMode)

mutual
/-- What a quantifier applies to. -/
inductive Atom where
  /-- a character that stands for itself -/
  | chr (c : Int)
  /-- `\c` -/
  | esc (c : Int)
  /-- `.` -/
  | dot
  /-- `\xab` with decimal digits `a`, `b` -/
  | hex (a b : Int)
  /-- `\abc` with octal digits -/
  | oct (a b c : Int)
  /-- `[…]` or `[^…]`; a `-` may come last -/
  | cls (neg : Bool) (items : List Item) (dash : Bool)
  /-- `(…)` or `(?:…)` -/
  | group (capture : Bool) (as : Alts)
/-- A sequence of quantified atoms, at the end possibly a `$`. -/
inductive Sq where
  | nil (dollar : Bool)
  | cons (a : Atom) (q : Quant) (s : Sq)
/-- Alternatives, each possibly with a `^` in front. -/
inductive Alts where
  | last (hat : Bool) (s : Sq)
  | more (hat : Bool) (s : Sq) (as : Alts)
end

/-! ## spelling -/

def Item.spell : Item → List Int
  | .chr c => [c]
  | .esc c => [92, c]
  | .rng a b => [a, 45, b]

def QMode.spell : QMode → List Int
  | .greedy => []
  | .lazy => [63]
  | .possessive => [43]

def Quant.spell : Quant → List Int
  | .once => []
  | .star m => 42 :: m.spell
  | .plus m => 43 :: m.spell
  | .opt m => 63 :: m.spell
  | .exact n m => 123 :: (n ++ [125]) ++ m.spell
  | .atLeast n m => 123 :: (n ++ [44, 125]) ++ m.spell
  | .between n k m => 123 :: (n ++ 44 :: (k ++ [125])) ++ m.spell

mutual
def Atom.spell : Atom → List Int
  | .chr c => [c]
  | .esc c => [92, c]
  | .dot => [46]
  | .hex a b => [92, 120, a, b]
  | .oct a b c => [92, a, b, c]
  | .cls neg items dash =>
    [91] ++ (if neg then [94] else []) ++ items.flatMap Item.spell ++ (if dash then [45] else []) ++ [93]
  | .group capture as => [40] ++ (if capture then [] else [63, 58]) ++ as.spell ++ [41]
def Sq.spell : Sq → List Int
  | .nil dollar => if dollar then [36] else []
  | .cons a q s => a.spell ++ q.spell ++ s.spell
def Alts.spell : Alts → List Int
  | .last hat s => (if hat then [94] else []) ++ s.spell
  | .more hat s as => (if hat then [94] else []) ++ s.spell ++ 124 :: as.spell
end

/-! ## meaning -/

/-- A value as a signed character. -/
def byte (v : Int) : Int := (v + 128) % 256 - 128

/-- The characters matched by `\c`. -/
def escape (c x : Int) : Bool :=
  if c = 100 then decide (48 ≤ x) && decide (x ≤ 57)
  else if c = 119 then (decide (65 ≤ x) && decide (x ≤ 90)) || (decide (97 ≤ x) && decide (x ≤ 122)) ||
      (decide (48 ≤ x) && decide (x ≤ 57)) || x == 95
  else if c = 115 then x == 9 || x == 10 || x == 12 || x == 13 || x == 32
  else if c = 97 then x == 7
  else if c = 101 then x == 27
  else if c = 102 then x == 12
  else if c = 110 then x == 10
  else if c = 114 then x == 13
  else if c = 116 then x == 9
  else x == c

def Item.test : Item → Int → Bool
  | .chr c, x => x == c
  | .esc c, x => escape c x
  | .rng a b, x => decide (a ≤ x) && decide (x ≤ b)

/-- The characters listed in a class. -/
def listed (items : List Item) (dash : Bool) (x : Int) : Bool := items.any (fun i => i.test x) || (dash && x == 45)

/-- The numbers of repetitions a quantifier allows. -/
def Quant.sem (r : Rx) : Quant → Rx
  | .once => r
  | .star _ => .rep r 0 none
  | .plus _ => .rep r 1 none
  | .opt _ => .rep r 0 (some 1)
  | .exact n _ => .rep r (decimal n).toNat (some (decimal n).toNat)
  | .atLeast n _ => .rep r (decimal n).toNat none
  | .between n k _ => .rep r (decimal n).toNat (some (decimal k).toNat)

mutual
def Atom.sem : Atom → Rx
  | .chr c => .cls (fun x => x == c)
  | .esc c => .cls (escape c)
  | .dot => .cls (fun x => x != 10)
  | .hex a b => .cls (fun x => x == byte (16 * (a - 48) + (b - 48)))
  | .oct a b c => .cls (fun x => x == byte (64 * (a - 48) + 8 * (b - 48) + (c - 48)))
  | .cls neg items dash => .cls (fun x => listed items dash x != neg)
  | .group _ as => as.sem
def Sq.sem : Sq → Rx
  | .nil dollar => if dollar then .eol else .eps
  | .cons a q s => .seq (q.sem a.sem) s.sem
def Alts.sem : Alts → Rx
  | .last hat s => if hat then .seq .bos s.sem else s.sem
  | .more hat s as => .alt (if hat then .seq .bos s.sem else s.sem) as.sem
end

/-! ## well-formed patterns -/

def digitB (c : Int) : Bool := decide (48 ≤ c) && decide (c ≤ 57)
def octalB (c : Int) : Bool := decide (48 ≤ c) && decide (c ≤ 55)

/-- Characters without special meaning: none of `\ { } ( ) [ ] * + ? $ ^ . |`. -/
def plainB (c : Int) : Bool := ![92, 123, 125, 40, 41, 91, 93, 42, 43, 63, 36, 94, 46, 124].contains c

/-- Characters without special meaning in a class: none of `\ { } ( ) [ ] - ^`. -/
def classB (c : Int) : Bool := ![92, 123, 125, 40, 41, 91, 93, 45, 94].contains c

/-- Escapes: not `\x`, `\o`, `\0`–`\8` (numeric), not `\D \N \S \W` (which the library does not compile). -/
def escB (c : Int) : Bool := ![120, 111, 68, 78, 83, 87].contains c && !(decide (48 ≤ c) && decide (c ≤ 56))

def Item.ok : Item → Bool
  | .chr c => classB c
  | .esc c => escB c
  | .rng a b => classB a && classB b && decide (a < b) && decide (b - a ≤ 127)

/-- A bound: digits, below `2^32 - 1`. -/
def boundB (n : List Int) : Bool := !n.isEmpty && n.all digitB && decide (decimal n < 4294967295)

def Quant.ok : Quant → Bool
  | .once | .star _ | .plus _ | .opt _ => true
  | .exact n _ | .atLeast n _ => boundB n
  | .between n k _ => boundB n && boundB k

mutual
def Atom.ok : Atom → Bool
  | .chr c => plainB c
  | .esc c => escB c
  | .dot => true
  | .hex a b => digitB a && digitB b
  | .oct a b c => octalB a && octalB b && octalB c
  | .cls _ items dash => items.all Item.ok && (!items.isEmpty || dash)
  | .group _ as => as.ok
def Sq.ok : Sq → Bool
  | .nil _ => true
  | .cons a q s => a.ok && q.ok && s.ok
/-- No alternative is empty. -/
def Alts.ok : Alts → Bool
  | .last hat s => s.ok && (hat || !s.empty)
  | .more hat s as => s.ok && (hat || !s.empty) && as.ok
def Sq.empty : Sq → Bool
  | .nil dollar => !dollar
  | .cons .. => false
end

end ERegex.Spec
