import Verif.Model.Ast
/-!
# The heuristics: `optimize` of every node, and `__private::optimizer`
-/
set_option autoImplicit false
namespace ERegex

mutual
/-- `T::template optimize<injected_children...>`; only the admission sets of the injected children are used,
so `inj` is the list of those sets.  terminals: src/terminals/common.hpp:15-16 (`optimize = terminal`, i.e. the
base class: the display of derived terminals becomes the plain one), anchors/*.hpp:20-21; simple:
nodes/basic.hpp:62-65,110-112,138-140,164-166; negated.hpp:27-29; greedy.hpp:106-118; lazy.hpp:93-105;
possessive.hpp:90-95; repeated.hpp:43-47; group.hpp:30-34. -/
def opt : Node → List (List Ch) → Node
  | .exact s _, _ => .exact s s
  | .range a b _, _ => .range a b [91, a, 45, b, 93]
  | .space, _ => .space
  | .word, _ => .word
  | .any, _ => .any
  | .bos, _ => .bos
  | .eol, _ => .eol
  | .negated m, _ => .negated (opt m [])
  | .simple m [], inj => opt m inj
  | .simple m (c :: cs), inj => .simple (opt m inj) (opt c [] :: opts cs)
  | .alt [c], inj => opt c inj
  | .alt [], _ => .alt []
  | .alt (c :: d :: cs), _ => .alt (opt c [] :: opt d [] :: opts cs)
  | .greedy m lo hi cs, inj =>
    if (intersectSets (admSet m) (extractAdm (admSets cs ++ inj))).isEmpty
    then .possessive (opt m []) lo hi (opts cs) else .greedy (opt m []) lo hi (opts cs)
  | .lazy m lo hi cs, inj =>
    if (intersectSets (admSet (.lazy m lo hi cs)) (extractAdm (admSets cs ++ inj))).isEmpty
    then .possessive (opt m []) lo hi (opts cs) else .lazy (opt m []) lo hi (opts cs)
  | .possessive m lo hi cs, _ => .possessive (opt m []) lo hi (opts cs)
  | .repeated m n cs, _ => .repeated (opt m []) n (opts cs)
  | .group m idx cs, inj => .group (opt m (admSets cs ++ inj)) idx (opts cs)
/-- `typename children::template optimize<>...` -/
def opts : List Node → List Node
  | [] => []
  | c :: cs => opt c [] :: opts cs
end

/-- `__private::optimizer` (src/regex.hpp:17-32): apply `optimize<>` until the tree does not change.
Fuel bounds the number of rounds; `none` = not finished within the fuel. -/
def optFix : Nat → Node → Option Node
  | 0, _ => none
  | f + 1, t => if opt t [] = t then some t else optFix f (opt t [])

mutual
/-- Number of constructors whose rewriting is possible; bound on the number of optimizer rounds (auxiliary, not
in the code). -/
def nodeSize : Node → Nat
  | .exact .. | .range .. | .space | .word | .any | .bos | .eol => 1
  | .negated m => nodeSize m + 1
  | .simple m cs | .repeated m _ cs | .possessive m _ _ cs | .group m _ cs => nodeSize m + nodeSizes cs + 1
  | .greedy m _ _ cs | .lazy m _ _ cs => nodeSize m + nodeSizes cs + 2
  | .alt cs => nodeSizes cs + 1
/-- Sum over a children pack (auxiliary). -/
def nodeSizes : List Node → Nat
  | [] => 0
  | c :: cs => nodeSize c + nodeSizes cs
end

/-- `regex<…>::ast` from the built tree (src/regex.hpp:37-38).  `Proofs/Optimize.lean` proves that the fuel is
always enough. -/
def optimize (t : Node) : Option Node := optFix (nodeSize t + 2) t

/-- `regex::is_independent` (src/regex.hpp:58-73) of two optimized trees. -/
def isIndependent (a b : Node) : Bool :=
  (intersectSets (extractAdm [admSet a]) (extractAdm [admSet b])).isEmpty

end ERegex
