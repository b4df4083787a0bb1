import Verif.Spec.Prefer
/-!
# Specification: a backtracking matcher for the whole syntax, with captures

`Alts.ways q n as i c` lists all the ways in which the pattern can match from offset `i` of `q` on, in the order in which a
backtracking matcher tries them: the end of the match and the captures (`n`: number of the first group of the pattern, `c`: the
captures so far).  The first element is the result of a backtracking matcher.  Groups are numbered from the left, by their opening
parenthesis.  A repetition that is not mandatory must take at least one character.  Nothing here refers to the model of the library.
-/
set_option autoImplicit false
namespace ERegex.Spec

/-- Captures: group number (from 0) to begin and end of the captured text. -/
abbrev Caps := Nat → Option (Nat × Nat)

/-- Group `n` captures the text from `a` to `b`. -/
def Caps.with (c : Caps) (n a b : Nat) : Caps := fun k => if k = n then some (a, b) else c k

/-- An end and the captures. -/
abbrev Way := Nat × Caps

/-- `n` repetitions. -/
def must (body : Nat → Caps → List Way) : Nat → Way → List Way
  | 0, w => [w]
  | n + 1, w => (body w.1 w.2).flatMap (must body n)

/-- At most `f` further repetitions, as many as possible first. -/
def manyMost (body : Nat → Caps → List Way) : Nat → Way → List Way
  | 0, w => [w]
  | f + 1, w => ((body w.1 w.2).filter (fun v => decide (w.1 < v.1))).flatMap (manyMost body f) ++ [w]

/-- At most `f` further repetitions, as few as possible first. -/
def manyLeast (body : Nat → Caps → List Way) : Nat → Way → List Way
  | 0, w => [w]
  | f + 1, w => w :: ((body w.1 w.2).filter (fun v => decide (w.1 < v.1))).flatMap (manyLeast body f)

/-- The number of repetitions that may follow the mandatory ones, in a text of length `len`. -/
def Quant.extra (k : Quant) (len : Nat) : Nat :=
  match k.hi with
  | none => len
  | some h => h - k.lo

/-- A quantified part.  Possessive: only the first way. -/
def Quant.ways (len : Nat) (k : Quant) (body : Nat → Caps → List Way) (w : Way) : List Way :=
  let most := (must body k.lo w).flatMap (manyMost body (k.extra len))
  match k.mode with
  | .greedy => most
  | .lazy => (must body k.lo w).flatMap (manyLeast body (k.extra len))
  | .possessive => most.take 1

mutual
/-- Number of capturing groups. -/
def Atom.count : Atom → Nat
  | .group capture as => (if capture then 1 else 0) + as.count
  | _ => 0
def Sq.count : Sq → Nat
  | .nil _ => 0
  | .cons a _ s => a.count + s.count
def Alts.count : Alts → Nat
  | .last _ s => s.count
  | .more _ s as => s.count + as.count
end

/-- One character of a set. -/
def one (q : List Int) (S : Int → Bool) (i : Nat) (c : Caps) : List Way :=
  match q[i]? with
  | none => []
  | some x => if S x then [(i + 1, c)] else []

mutual
def Atom.ways (q : List Int) (n : Nat) : Atom → Nat → Caps → List Way
  | .group capture as, i, c =>
    if capture then (as.ways q (n + 1) i c).map (fun w => (w.1, w.2.with n i w.1)) else as.ways q n i c
  | .chr x, i, c => one q (Atom.chr x).set i c
  | .esc x, i, c => one q (Atom.esc x).set i c
  | .dot, i, c => one q Atom.dot.set i c
  | .hex x y, i, c => one q (Atom.hex x y).set i c
  | .oct x y z, i, c => one q (Atom.oct x y z).set i c
  | .cls neg items dash, i, c => one q (Atom.cls neg items dash).set i c
def Sq.ways (q : List Int) (n : Nat) : Sq → Nat → Caps → List Way
  | .nil dollar, i, c => ((Sq.nil dollar).picks q i).map (fun e => (e, c))
  | .cons a k s, i, c => (k.ways q.length (a.ways q n) (i, c)).flatMap (fun w => s.ways q (n + a.count) w.1 w.2)
def Alts.ways (q : List Int) (n : Nat) : Alts → Nat → Caps → List Way
  | .last hat s, i, c => if hat && i != 0 then [] else s.ways q n i c
  | .more hat s as, i, c => (if hat && i != 0 then [] else s.ways q n i c) ++ as.ways q (n + s.count) i c
end

/-! ## regular patterns with groups

The groups are not nested and contain no anchors. -/

/-- The alternatives. -/
def Alts.list : Alts → List Sq
  | .last _ s => [s]
  | .more _ s as => s :: as.list

/-- No alternative has an anchor. -/
def Alts.bare : Alts → Bool
  | .last hat s => !hat && !s.dollar
  | .more hat s as => !hat && !s.dollar && as.bare

/-- The first alternative. -/
def Alts.head : Alts → Sq
  | .last _ s => s
  | .more _ s _ => s

/-- The characters a match can begin with. -/
def Sq.begins : Sq → Int → Bool
  | .nil dollar, x => dollar && x == 10
  | .cons (.group _ as) k s, x => as.list.any (fun b => b.first x) || ((k.lo == 0 || as.list.any Sq.nullable) && s.begins x)
  | .cons a k s, x => a.set x || (k.lo == 0 && s.begins x)

/-- The same as the library sees it: of a group, only the first alternative. -/
def Sq.looks : Sq → Int → Bool
  | .nil dollar, x => dollar && ascii x && x != 10
  | .cons (.group _ as) k s, x => as.head.shown x || (k.lo == 0 && s.looks x)
  | .cons a k s, x => a.shown x || (k.lo == 0 && s.looks x)

/-- Matches the empty text everywhere. -/
def Sq.voids : Sq → Bool
  | .nil dollar => !dollar
  | .cons (.group _ as) k s => (k.lo == 0 || as.list.any Sq.nullable) && s.voids
  | .cons _ k s => k.lo == 0 && s.voids

/-- Begins with an unquantified steady atom or a non-capturing group of such, or is `$`. -/
def Sq.solid : Sq → Bool
  | .nil dollar => dollar
  | .cons (.group capture as) .once _ => !capture && as.list.all Sq.steadyHead
  | .cons a .once _ => a.steady
  | .cons .. => false

/-- What follows can begin, in the library's eyes, with a character of `a`. -/
def clings (a : Atom) (k : Quant) (s : Sq) : Bool :=
  match k.mode with
  | .greedy => meets a.shown s.looks
  | .lazy => meets a.shown s.looks || (k.lo == 0 && meets s.looks s.looks)
  | .possessive => false

/-- The condition on one quantified atom and what follows it. -/
def atomOk (a : Atom) (k : Quant) (s : Sq) : Bool :=
  match k.mode with
  | .possessive => true
  | .greedy => k.fixed ||
    (if clings a k s then s.solid && a.steady && !(k.lo == 0 && k.hi == some 1) else s.voids || !meets a.set s.begins)
  | .lazy => k.fixed || (if clings a k s then s.solid else !s.voids && !meets a.set s.begins)

/-- The condition on a group that contains one repetition: the library looks ahead with what follows the group. -/
def loopOk (a : Atom) (k : Quant) (s : Sq) : Bool :=
  a.ok && (a.steady || a.skips) && k.sane &&
  match k.mode with
  | .possessive => true
  | .greedy => if meets a.shown s.looks then a.steady && !(k.lo == 0 && k.hi == some 1) else s.voids || !meets a.set s.begins
  | .lazy => meets a.shown s.looks || (!s.voids && !meets a.set s.begins)

/-- Every piece of `b` takes all it can, whatever follows: with `s` behind `b` nothing is gained by giving back. -/
def settled (s : Sq) : Sq → Bool
  | .nil _ => true
  | .cons a k b =>
    (match k.mode with
      | .possessive => true
      | .greedy => k.fixed || (b.nullable && s.voids) || !meets a.set (fun x => b.first x || (b.nullable && s.begins x))
      | .lazy => k.fixed || (!b.nullable && !meets a.set b.first)) && settled s b

/-- The first repetition of the group is treated alike whether or not the library looks at what follows the group. -/
def headStill (s : Sq) : Sq → Bool
  | .nil _ => true
  | .cons a k b =>
    k.fixed || (match k.mode with
      | .possessive => true
      | .greedy => !meets a.shown (fun x => b.shown x || s.looks x)
      | .lazy => !meets (fun x => a.shown x || (k.lo == 0 && b.shown x)) (fun x => b.shown x || s.looks x))

/-- Where there is a text of `b'` with `s` behind it, there is none of `b`: as far as they are alike they take the same number of characters, and then they differ, or
`b'` ends and `s` differs from what `b` goes on with. -/
def parts (s : Sq) : Sq → Sq → Bool
  | .cons a k b, .cons a' k' b' =>
    (k.lo != 0 && k'.lo != 0 && !meets a.set a'.set) || (k.fixed && k'.fixed && k.lo == k'.lo && parts s b b')
  | .cons a k _, .nil false => k.lo != 0 && !s.voids && !meets a.set s.begins
  | _, _ => false

/-- No two of the sequences, with `s` behind them, can be found at the same place: they begin with different characters, or see `parts`. -/
def apart (s : Sq) : List Sq → Bool
  | [] => true
  | b :: bs => bs.all (fun b' => !meets b.first b'.first || parts s b b') && apart s bs

/-- Number of characters a match must have, at least. -/
def Sq.least : Sq → Nat
  | .nil _ => 0
  | .cons _ k s => k.lo + s.least

/-- The condition on a group and what follows it. -/
def bodyOk (capture : Bool) (as : Alts) (s : Sq) : Bool :=
  as.bare && as.list.all (fun b => b.regular && !b.empty && decide (b.least < 4294967296)) &&
  (s.voids || (as.list.all (settled s) && apart s as.list)) &&
  match as with
  | .last _ b => if capture then headStill s b else b.eats
  | .more .. => as.list.all (fun b => b.eats && b.steadyHead)

/-- The condition on a group and what follows it. -/
def groupOk (capture : Bool) (as : Alts) (s : Sq) : Bool :=
  match capture, as with
  | true, .last false (.cons a k (.nil false)) => if k.fixed then bodyOk true as s else loopOk a k s
  | _, _ => bodyOk capture as s

/-- A repetition of the group gains nothing by giving back to the next one. -/
def again (as : Alts) : Bool := apart (.nil false) as.list && as.list.all (fun b => as.list.all (fun b' => settled b' b))

/-- The condition on a quantified group and what follows it.  A repetition must take a character; a capturing group must take part
in the match (the library keeps the capture of an earlier failed attempt otherwise). -/
def repOk (capture : Bool) (as : Alts) (k : Quant) (s : Sq) : Bool :=
  as.bare && as.list.all (fun b => b.regular && !b.empty && decide (b.least < 4294967296) && b.eats) &&
  (match as with | .last .. => true | .more .. => as.list.all Sq.steadyHead) &&
  k.sane && (!capture || k.lo != 0) && (decide (k.lo ≤ 1) || again as) &&
  match k.mode with
  | .possessive => true
  | .greedy =>
    (k.fixed || !meets as.head.shown s.looks) &&
    (s.voids || (as.list.all (settled s) && apart s as.list && (k.hi == some 1 || again as) &&
      (k.fixed || as.list.all (fun b => !meets b.first s.begins))))
  | .lazy => k.fixed && (s.voids || (as.list.all (settled s) && apart s as.list && (k.hi == some 1 || again as)))

/-- The condition on a sequence. -/
def Sq.capOk : Sq → Bool
  | .nil _ => true
  | .cons (.group capture as) .once s => groupOk capture as s && s.capOk
  | .cons (.group capture as) k s => repOk capture as k s && s.capOk
  | .cons a k s => a.ok && (a.steady || a.skips) && k.sane && atomOk a k s && s.capOk

/-- The library numbers the groups from 0 again behind a class or a non-capturing group: `g` is its number for the next group,
`n` the true one. -/
def Sq.tidy : Sq → Nat → Nat → Bool
  | .nil _, _, _ => true
  | .cons (.group true _) _ s, g, n => g == n && s.tidy (g + 1) (n + 1)
  | .cons (.group false _) _ s, _, n => s.tidy 0 n
  | .cons (.cls ..) _ s, _, n => s.tidy 0 n
  | .cons _ _ s, g, n => s.tidy g n

/-- Begins with a repetition of a steady atom, possibly in a group, and what follows can be empty; or the repetition is unbounded and in
front of a solid rest. -/
def Sq.startsLoop : Sq → Bool
  | .cons (.group true (.last _ (.cons a k (.nil false)))) .once s => a.steady && !k.fixed && (s.voids || (k.hi == none && s.solid))
  | .cons (.group ..) _ _ => false
  | .cons a k s => a.steady && (s.voids || (k.hi == none && s.solid))
  | .nil _ => false

/-- Must take a character. -/
def Sq.takes : Sq → Bool
  | .nil _ => false
  | .cons (.group _ as) k s => (k.lo != 0 && as.list.all Sq.eats) || s.takes
  | .cons _ k s => k.lo != 0 || s.takes

/-- Nothing follows a capturing group: when the sequence fails no group has captured anything. -/
def Sq.late : Sq → Bool
  | .nil _ => true
  | .cons (.group true _) .once (.nil false) => true
  | .cons (.group true _) _ _ => false
  | .cons _ _ s => s.late

/-- One repetition of a steady atom, that needs at most one character. -/
def Alts.loops : Alts → Bool
  | .last _ (.cons a k (.nil false)) => a.steady && !k.fixed && decide (k.lo ≤ 1)
  | _ => false

/-- A failed attempt of the library at the sequence restores the position. -/
def Sq.returns : Sq → Bool
  | .cons (.group true as) .once (.nil false) => as.list.all Sq.steadyHead || as.loops
  | s => s.solid

/-- The condition on one of several alternatives: it takes a character after `^`, restores the position and captures nothing when it
fails. -/
def altCap (hat : Bool) (s : Sq) : Bool := s.capOk && !s.empty && (!hat || s.takes) && (hat || s.returns) && s.late

/-- The condition on several alternatives.  The library numbers the groups of an alternative from 0 again behind one without groups:
`g` is its number for the next group, `n` the true one. -/
def Alts.capRow : Alts → Nat → Nat → Bool
  | .last hat s, g, n => altCap hat s && s.tidy g n
  | .more hat s as, g, n => altCap hat s && s.tidy g n && as.capRow (if s.count = 0 then 0 else n + 1) (n + s.count)

/-- The condition on the pattern.  One alternative: after `^` it must take a character. -/
def Alts.capSane : Alts → Bool
  | .last hat s => s.capOk && s.tidy 0 0 && !s.empty && (!hat || s.takes)
  | .more hat s as => (Alts.more hat s as).capRow 0 0

/-- The condition under which the search skips no match: several alternatives, or the pattern begins with `^`, with an unquantified
steady atom or with a loop. -/
def Alts.capRegular : Alts → Bool
  | .last hat s => (Alts.last hat s).capSane && (hat || s.solid || s.startsLoop)
  | .more hat s as => (Alts.more hat s as).capSane

/-! ## patterns with groups whose matches the heuristics do not change -/

/-- Never gives back: a fixed number of repetitions, or possessive. -/
def Quant.held (k : Quant) : Bool := k.fixed || match k.mode with | .possessive => true | _ => false

/-- A sequence without groups that does not end with a repetition that could give back. -/
def Sq.shut : Sq → Bool
  | .nil _ => true
  | .cons _ k s => (k.held || !s.empty) && s.shut

/-- The same for a sequence with groups. -/
def Sq.quiet : Sq → Bool
  | .nil _ => true
  | .cons (.group capture as) _ s => (capture || as.list.all Sq.shut) && s.quiet
  | .cons _ k s => (k.held || !s.empty) && s.quiet

/-- The condition on a group that contains one repetition. -/
def loopStout (a : Atom) (k : Quant) (s : Sq) : Bool :=
  k.held || match k.mode with
    | .possessive => true
    | .greedy => a.steady && !(k.lo == 0 && k.hi == some 1)
    | .lazy => !s.empty

/-- The condition on a quantified atom and what follows it. -/
def atomStout (a : Atom) (k : Quant) (s : Sq) : Bool :=
  k.held || match k.mode with
    | .possessive => true
    | .greedy => a.steady && !(k.lo == 0 && k.hi == some 1) && (s.solid || s.empty)
    | .lazy => s.solid

/-- The condition on a part and what follows it. -/
def partStout : Atom → Quant → Sq → Bool
  | .group true (.last _ (.cons a k (.nil false))), .once, s => loopStout a k s && s.quiet
  | .group capture as, .once, s => as.robust && (!capture || ((s.empty || as.list.all Sq.shut) && s.quiet))
  | .group _ as, k, _ => as.robust && as.list.all Sq.shut && k.held
  | a, k, s => atomStout a k s

/-- The condition under which the heuristics change no match and no capture (with `capOk`). -/
def Sq.stout : Sq → Bool
  | .nil _ => true
  | .cons a k s => partStout a k s && s.stout

/-- The same for a pattern of one alternative. -/
def Alts.stout : Alts → Bool
  | .last _ s => s.stout
  | .more .. => false

end ERegex.Spec
