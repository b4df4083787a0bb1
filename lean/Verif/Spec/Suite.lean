import Verif.Spec.Backtrack
/-!
# Specification: the patterns of the project's tests

Each is given as it stands in test/regex.cpp, test/heuristics.cpp or test/tokenization.cpp, and as a pattern of `Spec/Pattern.lean`; that the one is the spelling of the other is part of C70.
-/
set_option autoImplicit false
namespace ERegex.Spec

/-- The patterns of the project's tests that behave on every query (the others: `Verif/Props/Suite.lean`). -/
def suite : List (String × Alts) :=
  [("\"(.*)\"", (.last false (.cons (.chr 34) .once (.cons (.group true (.last false (.cons .dot (.star .greedy) (.nil false)))) .once (.cons (.chr 34) .once (.nil false)))))),
   ("(10[0-7]0)", (.last false (.cons (.group true (.last false (.cons (.chr 49) .once (.cons (.chr 48) .once (.cons (.cls false [.rng 48 55] false) .once (.cons (.chr 48) .once (.nil false))))))) .once (.nil false)))),
   ("(\\d+)-(\\d+)-(\\d+)", (.last false (.cons (.group true (.last false (.cons (.esc 100) (.plus .greedy) (.nil false)))) .once (.cons (.chr 45) .once (.cons (.group true (.last false (.cons (.esc 100) (.plus .greedy) (.nil false)))) .once (.cons (.chr 45) .once (.cons (.group true (.last false (.cons (.esc 100) (.plus .greedy) (.nil false)))) .once (.nil false)))))))),
   ("(a+)a", (.last false (.cons (.group true (.last false (.cons (.chr 97) (.plus .greedy) (.nil false)))) .once (.cons (.chr 97) .once (.nil false))))),
   ("(a+?)a", (.last false (.cons (.group true (.last false (.cons (.chr 97) (.plus .lazy) (.nil false)))) .once (.cons (.chr 97) .once (.nil false))))),
   ("(a{1,})a", (.last false (.cons (.group true (.last false (.cons (.chr 97) (.atLeast [49] .greedy) (.nil false)))) .once (.cons (.chr 97) .once (.nil false))))),
   ("(a{1,}+)a", (.last false (.cons (.group true (.last false (.cons (.chr 97) (.atLeast [49] .possessive) (.nil false)))) .once (.cons (.chr 97) .once (.nil false))))),
   ("(a{1,}?)a", (.last false (.cons (.group true (.last false (.cons (.chr 97) (.atLeast [49] .lazy) (.nil false)))) .once (.cons (.chr 97) .once (.nil false))))),
   (".{3,}", (.last false (.cons .dot (.atLeast [51] .greedy) (.nil false)))),
   (".{3,}+", (.last false (.cons .dot (.atLeast [51] .possessive) (.nil false)))),
   ("[\\w.\\-]+@[\\w\\-]+\\.[\\w.]+", (.last false (.cons (.cls false [.esc 119, .chr 46, .esc 45] false) (.plus .greedy) (.cons (.chr 64) .once (.cons (.cls false [.esc 119, .esc 45] false) (.plus .greedy) (.cons (.esc 46) .once (.cons (.cls false [.esc 119, .chr 46] false) (.plus .greedy) (.nil false)))))))),
   ("[a-z]([a-z]+)|(\\d+)", (.more false (.cons (.cls false [.rng 97 122] false) .once (.cons (.group true (.last false (.cons (.cls false [.rng 97 122] false) (.plus .greedy) (.nil false)))) .once (.nil false))) (.last false (.cons (.group true (.last false (.cons (.esc 100) (.plus .greedy) (.nil false)))) .once (.nil false))))),
   ("[a-z]abcd", (.last false (.cons (.cls false [.rng 97 122] false) .once (.cons (.chr 97) .once (.cons (.chr 98) .once (.cons (.chr 99) .once (.cons (.chr 100) .once (.nil false)))))))),
   ("\\d+", (.last false (.cons (.esc 100) (.plus .greedy) (.nil false)))),
   ("\\dab", (.last false (.cons (.esc 100) .once (.cons (.chr 97) .once (.cons (.chr 98) .once (.nil false)))))),
   ("\\dabcd", (.last false (.cons (.esc 100) .once (.cons (.chr 97) .once (.cons (.chr 98) .once (.cons (.chr 99) .once (.cons (.chr 100) .once (.nil false)))))))),
   ("\\s*(ab)+", (.last false (.cons (.esc 115) (.star .greedy) (.cons (.group true (.last false (.cons (.chr 97) .once (.cons (.chr 98) .once (.nil false))))) (.plus .greedy) (.nil false))))),
   ("\\w", (.last false (.cons (.esc 119) .once (.nil false)))),
   ("\\w(\\w+)|(\\d+)", (.more false (.cons (.esc 119) .once (.cons (.group true (.last false (.cons (.esc 119) (.plus .greedy) (.nil false)))) .once (.nil false))) (.last false (.cons (.group true (.last false (.cons (.esc 100) (.plus .greedy) (.nil false)))) .once (.nil false))))),
   ("a\\101", (.last false (.cons (.chr 97) .once (.cons (.oct 49 48 49) .once (.nil false))))),
   ("a\\x41", (.last false (.cons (.chr 97) .once (.cons (.hex 52 49) .once (.nil false))))),
   ("^a", (.last true (.cons (.chr 97) .once (.nil false)))),
   ("a$", (.last false (.cons (.chr 97) .once (.nil true)))),
   ("a(?:a(b))cd", (.last false (.cons (.chr 97) .once (.cons (.group false (.last false (.cons (.chr 97) .once (.cons (.group true (.last false (.cons (.chr 98) .once (.nil false)))) .once (.nil false))))) .once (.cons (.chr 99) .once (.cons (.chr 100) .once (.nil false))))))),
   ("a(a(b))cd", (.last false (.cons (.chr 97) .once (.cons (.group true (.last false (.cons (.chr 97) .once (.cons (.group true (.last false (.cons (.chr 98) .once (.nil false)))) .once (.nil false))))) .once (.cons (.chr 99) .once (.cons (.chr 100) .once (.nil false))))))),
   ("a(a[a-g])+", (.last false (.cons (.chr 97) .once (.cons (.group true (.last false (.cons (.chr 97) .once (.cons (.cls false [.rng 97 103] false) .once (.nil false))))) (.plus .greedy) (.nil false))))),
   ("a(ab)+", (.last false (.cons (.chr 97) .once (.cons (.group true (.last false (.cons (.chr 97) .once (.cons (.chr 98) .once (.nil false))))) (.plus .greedy) (.nil false))))),
   ("a(a|b)+", (.last false (.cons (.chr 97) .once (.cons (.group true (.more false (.cons (.chr 97) .once (.nil false)) (.last false (.cons (.chr 98) .once (.nil false))))) (.plus .greedy) (.nil false))))),
   ("a[^a-fh]+", (.last false (.cons (.chr 97) .once (.cons (.cls true [.rng 97 102, .chr 104] false) (.plus .greedy) (.nil false))))),
   ("a[a-f]?", (.last false (.cons (.chr 97) .once (.cons (.cls false [.rng 97 102] false) (.opt .greedy) (.nil false))))),
   ("a[a-fhm-o]+", (.last false (.cons (.chr 97) .once (.cons (.cls false [.rng 97 102, .chr 104, .rng 109 111] false) (.plus .greedy) (.nil false))))),
   ("a[a-z\\-]+", (.last false (.cons (.chr 97) .once (.cons (.cls false [.rng 97 122, .esc 45] false) (.plus .greedy) (.nil false))))),
   ("aa*", (.last false (.cons (.chr 97) .once (.cons (.chr 97) (.star .greedy) (.nil false))))),
   ("aa+", (.last false (.cons (.chr 97) .once (.cons (.chr 97) (.plus .greedy) (.nil false))))),
   ("aaa|a+", (.more false (.cons (.chr 97) .once (.cons (.chr 97) .once (.cons (.chr 97) .once (.nil false)))) (.last false (.cons (.chr 97) (.plus .greedy) (.nil false))))),
   ("ab", (.last false (.cons (.chr 97) .once (.cons (.chr 98) .once (.nil false))))),
   ("abc\\defg", (.last false (.cons (.chr 97) .once (.cons (.chr 98) .once (.cons (.chr 99) .once (.cons (.esc 100) .once (.cons (.chr 101) .once (.cons (.chr 102) .once (.cons (.chr 103) .once (.nil false)))))))))),
   ("ab{2,10}c", (.last false (.cons (.chr 97) .once (.cons (.chr 98) (.between [50] [49, 48] .greedy) (.cons (.chr 99) .once (.nil false)))))),
   ("ab{2,}c", (.last false (.cons (.chr 97) .once (.cons (.chr 98) (.atLeast [50] .greedy) (.cons (.chr 99) .once (.nil false)))))),
   ("ab{2}c", (.last false (.cons (.chr 97) .once (.cons (.chr 98) (.exact [50] .greedy) (.cons (.chr 99) .once (.nil false)))))),
   ("a|bc|cd|d", (.more false (.cons (.chr 97) .once (.nil false)) (.more false (.cons (.chr 98) .once (.cons (.chr 99) .once (.nil false))) (.more false (.cons (.chr 99) .once (.cons (.chr 100) .once (.nil false))) (.last false (.cons (.chr 100) .once (.nil false))))))),
   ("bb(a\\)c)zz", (.last false (.cons (.chr 98) .once (.cons (.chr 98) .once (.cons (.group true (.last false (.cons (.chr 97) .once (.cons (.esc 41) .once (.cons (.chr 99) .once (.nil false)))))) .once (.cons (.chr 122) .once (.cons (.chr 122) .once (.nil false))))))))]

/-- Those in which an optional part can begin with the same character as what follows it. -/
def suiteBack : List (String × Alts) :=
  [("a?a", .last false (.cons (.chr 97) (.opt .greedy) (.cons (.chr 97) .once (.nil false)))),
   ("a??a", .last false (.cons (.chr 97) (.opt .lazy) (.cons (.chr 97) .once (.nil false)))),
   ("a?+a", .last false (.cons (.chr 97) (.opt .possessive) (.cons (.chr 97) .once (.nil false)))),
   ("\\d*\\w+abcd", .last false (.cons (.esc 100) (.star .greedy) (.cons (.esc 119) (.plus .greedy) (.cons (.chr 97) .once (.cons (.chr 98) .once
     (.cons (.chr 99) .once (.cons (.chr 100) .once (.nil false))))))))]

end ERegex.Spec
