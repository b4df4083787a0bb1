import Verif.Spec.Syntax
/-!
# Specification: the match a backtracking matcher prefers

For patterns without groups.  `Sq.picks q s i` lists the ends of all the matches of `s` that begin at `i`, in the order in which
a backtracking matcher tries them: a greedy quantifier tries the largest number of repetitions first, a lazy one the smallest,
a possessive one only the largest; alternatives are tried from left to right.  The match it reports is the first of the list.

The second part is a decidable condition on the pattern as written (`Alts.regular`).  Nothing here refers to the model of the
library.
-/
set_option autoImplicit false
namespace ERegex.Spec

/-! ## the preferred match -/

/-- The characters an atom matches (groups are not covered). -/
def Atom.set : Atom → Int → Bool
  | .chr c, x => x == c
  | .esc c, x => escape c x
  | .dot, x => x != 10
  | .hex a b, x => x == byte (16 * (a - 48) + (b - 48))
  | .oct a b c, x => x == byte (64 * (a - 48) + 8 * (b - 48) + (c - 48))
  | .cls neg items dash, x => listed items dash x != neg
  | .group .., _ => false

/-- The smallest number of repetitions. -/
def Quant.lo : Quant → Nat
  | .once | .plus _ => 1
  | .star _ | .opt _ => 0
  | .exact n _ | .atLeast n _ | .between n _ _ => (decimal n).toNat

/-- The largest number of repetitions. -/
def Quant.hi : Quant → Option Nat
  | .once | .opt _ => some 1
  | .star _ | .plus _ | .atLeast .. => none
  | .exact n _ => some (decimal n).toNat
  | .between _ k _ => some (decimal k).toNat

def Quant.mode : Quant → QMode
  | .once => .greedy
  | .star m | .plus m | .opt m | .exact _ m | .atLeast _ m | .between _ _ m => m

/-- The most repetitions possible when `avail` characters of the class follow. -/
def Quant.top (k : Quant) (avail : Nat) : Nat :=
  match k.hi with
  | none => avail
  | some h => min h avail

/-- The numbers of repetitions to try, best first, when `avail` characters of the class follow. -/
def Quant.counts (k : Quant) (avail : Nat) : List Nat :=
  match k.mode with
  | .greedy => (List.range' k.lo (k.top avail + 1 - k.lo)).reverse
  | .lazy => List.range' k.lo (k.top avail + 1 - k.lo)
  | .possessive => if k.lo ≤ k.top avail then [k.top avail] else []

/-- How many characters of `S` the text begins with. -/
def runLen (S : Int → Bool) (l : List Int) : Nat := (l.takeWhile S).length

/-- Ends of the matches of `s` that begin at offset `i` of `q`, best first. `$`: at the end, or consuming a newline. -/
def Sq.picks (q : List Int) : Sq → Nat → List Nat
  | .nil false, i => [i]
  | .nil true, i => if i = q.length then [i] else if q[i]? = some 10 then [i + 1] else []
  | .cons a k s, i => (k.counts (runLen a.set (q.drop i))).flatMap (fun n => s.picks q (i + n))

/-- The same with a leading `^`. -/
def hatPicks (q : List Int) (hat : Bool) (s : Sq) (i : Nat) : List Nat :=
  if hat && i != 0 then [] else s.picks q i

/-- The same for alternatives. -/
def Alts.picks (q : List Int) : Alts → Nat → List Nat
  | .last hat s, i => hatPicks q hat s i
  | .more hat s as, i => hatPicks q hat s i ++ as.picks q i

/-! ## regular patterns -/

/-- The values of a `char`. -/
def allChars : List Int := (List.range 256).map (fun (n : Nat) => (n : Int) - 128)

/-- Some `char` belongs to both sets. -/
def meets (f g : Int → Bool) : Bool := allChars.any (fun x => f x && g x)

def ascii (x : Int) : Bool := decide (0 ≤ x) && decide (x ≤ 127)

/-- Items other than `\s`. -/
def Item.steady : Item → Bool
  | .esc c => c != 115
  | _ => true

/-- One-character atoms other than `\s`, negated classes and classes that list `\s`. -/
def Atom.steady : Atom → Bool
  | .chr _ | .dot | .hex .. | .oct .. => true
  | .esc c => c != 115
  | .cls neg items _ => !neg && items.all Item.steady
  | .group .. => false

/-- `\s`, negated classes without `\s`, classes with `\s` as the last item and nowhere else. -/
def Atom.skips : Atom → Bool
  | .esc c => c == 115
  | .cls true items _ => items.all Item.steady
  | .cls false items dash => !dash && items.dropLast.all Item.steady && items.any (fun i => !i.steady)
  | _ => false

/-- The characters the library looks at when it compares two neighbours: of a class only the first item, of `.` and `[^…]` only
ASCII. -/
def Atom.shown : Atom → Int → Bool
  | .dot, x => ascii x
  | .cls neg (i :: _) _, x => i.test x != (neg && ascii x)
  | .cls neg [] dash, x => (dash && x == 45) != (neg && ascii x)
  | a, x => a.set x

/-- The characters a match can begin with. -/
def Sq.first : Sq → Int → Bool
  | .nil dollar, x => dollar && x == 10
  | .cons a k s, x => a.set x || (k.lo == 0 && s.first x)

/-- The same as the library sees it. -/
def Sq.shown : Sq → Int → Bool
  | .nil dollar, x => dollar && ascii x && x != 10
  | .cons a k s, x => a.shown x || (k.lo == 0 && s.shown x)

/-- Every piece may be skipped, and there is no `$`. -/
def Sq.nullable : Sq → Bool
  | .nil dollar => !dollar
  | .cons _ k s => k.lo == 0 && s.nullable

/-- Some piece must take a character. -/
def Sq.eats : Sq → Bool
  | .nil _ => false
  | .cons _ k s => k.lo != 0 || s.eats

def Sq.dollar : Sq → Bool
  | .nil d => d
  | .cons _ _ s => s.dollar

/-- Begins with an unquantified steady atom, or is `$`. -/
def Sq.firm : Sq → Bool
  | .nil dollar => dollar
  | .cons a .once _ => a.steady
  | .cons .. => false

/-- `X` and `X{n}`. -/
def Quant.fixed : Quant → Bool
  | .once | .exact .. => true
  | _ => false

/-- What follows can begin, in the library's eyes, with a character of `a`. -/
def keeps (a : Atom) (k : Quant) (s : Sq) : Bool :=
  match k.mode with
  | .greedy => meets a.shown s.shown
  | .lazy => meets a.shown s.shown || (k.lo == 0 && meets s.shown s.shown)
  | .possessive => false

/-- The condition on one quantified atom and what follows it. -/
def pieceOk (a : Atom) (k : Quant) (s : Sq) : Bool :=
  match k.mode with
  | .possessive => true
  | .greedy => k.fixed ||
    (if keeps a k s then (s.firm || s.nullable) && a.steady && !(k.lo == 0 && k.hi == some 1) else s.nullable || !meets a.set s.first)
  | .lazy => k.fixed || (if keeps a k s then s.firm else !s.nullable && !meets a.set s.first)

def Quant.sane (k : Quant) : Bool :=
  k.ok && (match k.hi with | none => true | some h => decide (k.lo ≤ h) && decide (0 < h))

/-- Every piece of the sequence meets its condition. -/
def Sq.regular : Sq → Bool
  | .nil _ => true
  | .cons a k s => a.ok && (a.steady || a.skips) && k.sane && pieceOk a k s && s.regular

/-- Begins with an unquantified steady atom. -/
def Sq.steadyHead : Sq → Bool
  | .cons a .once _ => a.steady
  | _ => false

/-- Begins with a repetition of a steady atom, in front of a rest that can match nothing, or unbounded and in front of a firm
rest. -/
def Sq.loopHead : Sq → Bool
  | .cons a k s => a.steady && (s.nullable || (k.hi == none && s.firm))
  | .nil _ => false

/-- The condition on an alternative. -/
def altOk (hat : Bool) (s : Sq) : Bool := s.regular && s.eats && (hat || s.steadyHead)

/-- Every alternative meets the condition. -/
def Alts.allOk : Alts → Bool
  | .last hat s => altOk hat s
  | .more hat s as => altOk hat s && as.allOk

/-- The condition on the pattern: all its alternatives begin with an unquantified steady atom or with `^`, or it is one
alternative that begins with a loop. -/
def Alts.regular : Alts → Bool
  | .last hat s => altOk hat s || (!hat && s.regular && s.loopHead)
  | .more hat s as => altOk hat s && as.allOk

/-- The condition under which the heuristics make no difference: a greedy repetition is not `X?`, repeats a steady atom and is in front
of a firm rest or one that can match nothing; a lazy repetition is in front of a firm rest. -/
def Sq.robust : Sq → Bool
  | .nil _ => true
  | .cons a k s => (k.fixed || (match k.mode with
      | .possessive => true
      | .greedy => a.steady && !(k.lo == 0 && k.hi == some 1) && (s.firm || s.nullable)
      | .lazy => s.firm)) && s.robust

/-- The same for alternatives. -/
def Alts.robust : Alts → Bool
  | .last _ s => s.robust
  | .more _ s as => s.robust && as.robust

/-- The pattern contains `$`. -/
def Alts.dollar : Alts → Bool
  | .last _ s => s.dollar
  | .more _ s as => s.dollar || as.dollar

end ERegex.Spec
