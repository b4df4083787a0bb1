import Verif.Spec.Backtrack
import Verif.Spec.Numbering
import Verif.Spec.Hatless
import Verif.Spec.First
/-!
# Specification: patterns in which no choice has to be undone, with groups nested to any depth

The condition `Alts.committed` on a pattern as written: wherever there is a choice (an alternative, one more repetition) the next character decides it,
or nothing that follows can fail.  Nothing here refers to the model of the library.
-/
set_option autoImplicit false
namespace ERegex.Spec

mutual
/-- Takes at least one character. -/
def Atom.feeds : Atom → Bool
  | .group _ as => as.feeds
  | _ => true
def Sq.feeds : Sq → Bool
  | .nil _ => false
  | .cons a k s => (k.lo != 0 && a.feeds) || s.feeds
def Alts.feeds : Alts → Bool
  | .last _ s => s.feeds
  | .more _ s as => s.feeds && as.feeds
end

mutual
/-- Matches the empty text everywhere (used for parts without `^` only). -/
def Atom.empties : Atom → Bool
  | .group _ as => as.empties
  | _ => false
def Sq.empties : Sq → Bool
  | .nil dollar => !dollar
  | .cons a k s => (k.lo == 0 || a.empties) && s.empties
def Alts.empties : Alts → Bool
  | .last _ s => s.empties
  | .more _ s as => s.empties || as.empties
end

mutual
/-- The characters a match can begin with. -/
def Atom.heads : Atom → Int → Bool
  | .group _ as, x => as.heads x
  | a, x => a.set x
def Sq.heads : Sq → Int → Bool
  | .nil dollar, x => dollar && x == 10
  | .cons a k s, x => a.heads x || ((k.lo == 0 || a.empties) && s.heads x)
def Alts.heads : Alts → Int → Bool
  | .last _ s, x => s.heads x
  | .more _ s as, x => s.heads x || as.heads x
end

/-- The characters that can come next behind an occurrence of `s` or at its begin, if what follows `s` can begin with the characters of `L`. -/
def Sq.upcoming (s : Sq) (L : Int → Bool) (x : Int) : Bool := s.heads x || (s.empties && L x)

/-- The next character decides whether there is one more repetition, or nothing that follows fails. -/
def decides (tot : Bool) (k : Quant) (F L : Int → Bool) : Bool :=
  k.fixed || match k.mode with
    | .possessive => true
    | .greedy => tot || !meets F L
    | .lazy => !tot && !meets F L

mutual
/-- Every choice is decided by the next character.  `tot`: what follows always matches; `L`: the characters it can begin with. -/
def Atom.commits : Atom → Bool → (Int → Bool) → Bool
  | .group _ as, tot, L => as.hatless && as.commits tot L
  | _, _, _ => true
def Sq.commits : Sq → Bool → (Int → Bool) → Bool
  | .nil _, _, _ => true
  | .cons a k s, tot, L =>
    (match k with
      | .once => a.commits (tot && s.empties) (s.upcoming L)
      | k => a.feeds && k.sane && decides (tot && s.empties) k a.heads (s.upcoming L) &&
        a.commits ((match k.mode with | .possessive => true | _ => false) || (tot && s.empties)) (fun x => a.heads x || s.upcoming L x) &&
        (decide (k.lo ≤ 1) || a.commits false (fun x => a.heads x || s.upcoming L x))) && s.commits tot L
def Alts.commits : Alts → Bool → (Int → Bool) → Bool
  | .last _ s, tot, L => s.hatless && s.commits tot L
  | .more _ s as, tot, L => s.hatless && s.commits tot L && as.commits tot L && (tot || (s.feeds && as.feeds && !meets s.heads as.heads))
end

/-! ## what a failed attempt of the library leaves behind -/

mutual
/-- All the characters of a match belong to `S`. -/
def Atom.within (S : Int → Bool) : Atom → Bool
  | .group _ as => as.within S
  | a => allChars.all (fun x => !a.set x || S x)
def Sq.within (S : Int → Bool) : Sq → Bool
  | .nil dollar => !dollar || S 10
  | .cons a _ s => a.within S && s.within S
def Alts.within (S : Int → Bool) : Alts → Bool
  | .last _ s => s.within S
  | .more _ s as => s.within S && as.within S
end

/-- A capturing group. -/
def Atom.isCap : Atom → Bool
  | .group c _ => c
  | _ => false

mutual
/-- A failed attempt of the library moves the position only over characters of `S`. -/
def Atom.slips (S : Int → Bool) : Atom → Bool
  | .group _ as => as.slips S
  | a => a.steady
def Sq.slips (S : Int → Bool) : Sq → Bool
  | .nil _ => true
  | .cons a k s =>
    (k.lo == 0 || (a.slips S && (k.lo == 1 || a.within S))) && (s.empties || (k.isOnce && !a.isCap) || (s.slips S && a.within S))
def Alts.slips (S : Int → Bool) : Alts → Bool
  | .last _ s => s.slips S
  | .more _ s as => s.slips (fun _ => false) && as.slips S
end

mutual
/-- When it fails no group has captured anything. -/
def Atom.mute : Atom → Bool
  | .group _ as => as.mute
  | _ => true
def Sq.mute : Sq → Bool
  | .nil _ => true
  | .cons a k s => (a.count == 0 || (a.mute && decide (k.lo ≤ 1) && s.empties)) && s.mute
def Alts.mute : Alts → Bool
  | .last _ s => s.mute
  | .more _ s as => s.mute && as.mute
end

mutual
/-- What the library needs: characters whose test it makes right; every alternative but the last restores the position and the captures when it fails;
repetitions take at least one character, and those that are not mandatory capture nothing when they fail; behind `^` there is something. -/
def Atom.plainly : Atom → Bool
  | .group _ as => as.hatless && as.plainly
  | a => a.ok && (a.steady || a.skips)
def Sq.plainly : Sq → Bool
  | .nil _ => true
  | .cons a k s => a.plainly && k.sane && (k.isOnce || a.feeds) && (k.fixed || a.mute) && s.plainly
def Alts.plainly : Alts → Bool
  | .last hat s => (!hat || s.feeds) && !s.empty && s.hatless && s.plainly
  | .more hat s as => (!hat || s.feeds) && !s.empty && s.hatless && s.plainly && s.slips (fun _ => false) && s.mute && as.plainly
end

mutual
/-- Every capturing group takes part in every match. -/
def Atom.forced : Atom → Bool
  | .group _ as => as.forced
  | _ => true
def Sq.forced : Sq → Bool
  | .nil _ => true
  | .cons a k s => (k.lo != 0 || a.count == 0) && a.forced && s.forced
def Alts.forced : Alts → Bool
  | .last _ s => s.forced
  | .more _ s as => s.count == 0 && as.count == 0
end

mutual
/-- The library's numbers of the groups are the right ones; `g` is its number for the next group, `n` the true one. -/
def Atom.lined : Atom → Nat → Nat → Bool
  | .group true as, g, n => g == n && as.lined (g + 1) (n + 1)
  | .group false as, g, n => as.lined g n
  | _, _, _ => true
def Sq.lined : Sq → Nat → Nat → Bool
  | .nil _, _, _ => true
  | .cons a _ s, g, n => a.lined g n && s.lined (a.follow g) (n + a.count)
def Alts.lined : Alts → Nat → Nat → Bool
  | .last _ s, g, n => s.lined g n
  | .more _ s as, g, n => s.lined g n && as.lined g (n + s.count)
end

/-- The same for a whole pattern. -/
def Alts.aligned : Alts → Nat → Nat → Bool
  | .last _ s, g, n => s.lined g n
  | .more _ s as, g, n => s.lined g n && as.aligned (s.reach g) (n + s.count)

mutual
/-- The characters of the unbounded repetition with which it begins, behind any number of opening parentheses. -/
def Sq.lead : Sq → Option (Int → Bool)
  | .nil _ => none
  | .cons (.group _ as) k _ => if k.isOnce then as.lead else none
  | .cons a k _ => if k.hi.isNone then some a.set else none
def Alts.lead : Alts → Option (Int → Bool)
  | .last hat s => if hat then none else s.lead
  | .more .. => none
end

mutual
/-- There is a `$` in it. -/
def Atom.dollars : Atom → Bool
  | .group _ as => as.dollars
  | _ => false
def Sq.dollars : Sq → Bool
  | .nil dollar => dollar
  | .cons a _ s => a.dollars || s.dollars
def Alts.dollars : Alts → Bool
  | .last _ s => s.dollars
  | .more _ s as => s.dollars || as.dollars
end

/-- A capturing group around one greedy repetition, other than `?`, in front of something: the library gives back repetitions until what follows
matches, and tries that with the position, but not the captures, restored. -/
def Atom.lends : Atom → Sq → Bool
  | .group true (.last false (.cons b k (.nil false))), s =>
    (match k.mode with | .greedy => true | _ => false) && !k.isOnce && !k.fixed && !(k.lo == 0 && k.hi == some 1) && b.slips (fun _ => false) && !s.empty
  | _, _ => false

mutual
/-- The heuristics of the library make every greedy and lazy quantifier possessive; `J`: the first characters of what follows the group it stands in, as far as
the library looks at it.  A greedy quantifier other than `?` may stay what it is in front of something, if what it repeats restores the position when it fails and
what follows moves the position forwards only, when it fails: the library gives back a repetition where one more of them matches, and what follows fails there. -/
def Atom.hard : Atom → (Int → Bool) → Bool
  | .group _ as, J => as.hard J
  | _, _ => true
def Sq.hard : Sq → (Int → Bool) → Bool
  | .nil _, _ => true
  | .cons a k s, J =>
    (match k with
      | .once => if a.isCap then a.hard (fun x => s.firsts x || J x) || (a.lends s && a.hard (fun _ => false)) else a.hard J
      | .exact .. => a.hard (fun _ => false)
      | k => a.hard (fun _ => false) && (match k.mode with
        | .possessive => true
        | .greedy => !meets a.firsts (fun x => s.firsts x || J x) || (!s.empty && !(k.lo == 0 && k.hi == some 1) && a.slips (fun _ => false) && s.slips (fun _ => true))
        | .lazy => !meets (Sq.cons a k s).firsts (fun x => s.firsts x || J x))) && s.hard (fun _ => false)
def Alts.hard : Alts → (Int → Bool) → Bool
  | .last hat s, J => if hat then s.hard (fun _ => false) else s.hard J
  | .more _ s as, _ => s.hard (fun _ => false) && as.hards
def Alts.hards : Alts → Bool
  | .last _ s => s.hard (fun _ => false)
  | .more _ s as => s.hard (fun _ => false) && as.hards
end

/-- `^…`, one alternative. -/
def Alts.atFront : Alts → Bool
  | .last hat _ => hat
  | .more .. => false

/-- A pattern, with groups nested to any depth, in which no choice has to be undone: what the library has to do to find the preferred match and its
captures where it begins. -/
def Alts.committed (as : Alts) : Bool :=
  as.ok && as.plainly && as.aligned 0 0 && as.commits true (fun _ => false) && (as.forced || as.mute || as.atFront) &&
  as.hard (fun _ => false) && decide (as.bulk < 4294967296)

/-- A failed attempt does not spoil the next ones. -/
def Alts.resumes (as : Alts) : Bool :=
  as.slips (fun _ => false) || (as.forced && (match as.lead with | none => false | some S => as.slips S))

/-- A failed attempt does not spoil the next ones, or there is nothing to find for these. -/
def Alts.retries (as : Alts) : Bool := as.atFront || as.resumes

end ERegex.Spec
