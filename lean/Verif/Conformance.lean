import Verif.Model.TokenIter
/-!
# Tests of the model (not proofs): the project's own unit tests, evaluated in the kernel

Transcription of `/repo/test/regex.cpp`, `heuristics.cpp` and `tokenization.cpp`.  They check that the model agrees
with the recorded expectations of the code; they prove nothing general.  Queries are string literals, i.e. followed by
a readable NUL.
-/
set_option autoImplicit false
namespace ERegex.Conformance
open ERegex

/-- A string literal in memory. -/
def lit (s : String) : Ctx := { pre := [], query := str s, post := [0] }

/-- Text of a group, as a `String`. -/
def txt (cx : Ctx) (v : View) : Option String :=
  (viewBytes cx v).map (fun l => String.ofList (l.map (fun c => Char.ofNat c.toNat)))

/-- All of `result[0]`, `result[1]`, … of the `n`-th match (0 = first), or `none` if there is none / UB. -/
def nth (cx : Ctx) (t : Node) : Nat → Outcome → Option (List (Option String))
  | 0, .ok st => if st.accepted then some (txt cx (toView st) :: st.groups.map (txt cx)) else none
  | n + 1, .ok st => nth cx t n (next cx t (cx.query.length + 1) st)
  | _, _ => none

/-- Groups of the `n`-th match of pattern `p` on the literal `s`. -/
def m (p s : String) (n : Nat := 0) : Option (List (Option String)) :=
  match compile (str p) with
  | none => none
  | some t => nth (lit s) t n (construct (lit s) t (s.length + 1))

/-- `is_accepted()`. -/
def acc (p s : String) : Option Bool :=
  match compile (str p) with
  | none => none
  | some t =>
    match construct (lit s) t (s.length + 1) with
    | .ok st => some st.accepted
    | _ => none

/-- `get_expression()`. -/
def expr (p : String) : Option String :=
  (compile (str p)).map (fun t => String.ofList ((exprOf t).map (fun c => Char.ofNat c.toNat)))

def ngroups (p : String) : Option Nat := (compile (str p)).map groupsOf

def indep (p q : String) : Option Bool :=
  match compile (str p), compile (str q) with
  | some a, some b => some (isIndependent a b)
  | _, _ => none

-- test/regex.cpp "Tokenization"
example : tokenize (str "bb(a\\)c)zz")
    = some [str "b", str "b", str "(", str "a", str "\\)", str "c", str ")", str "z", str "z"] := by decide +kernel
-- "Construction"
example : ngroups "\\w" = some 0 ∧ m "\\w" "a" = some [some "a"] ∧ acc "\\w" " " = some false := by decide +kernel
-- "Star operator"
example : m "aa*" "aaa" = some [some "aaa"] ∧ m "aa*" "a" = some [some "a"] ∧ m "aa*" "aab" = some [some "aa"] := by
  decide +kernel
-- "Optional operator"
example : m "a[a-f]?" "aaa" = some [some "aa"] ∧ acc "a[a-f]?" "a" = some true ∧ m "a[a-f]?" "af" = some [some "af"] := by
  decide +kernel
-- "Plus operator"
example : m "aa+" "aaa" = some [some "aaa"] ∧ acc "aa+" "a" = some false ∧ m "aa+" "aab" = some [some "aa"] := by
  decide +kernel
-- "Round brackets"
example : ngroups "a(ab)+" = some 1 ∧ acc "a(ab)+" "aaa" = some false ∧ acc "a(ab)+" "a" = some false ∧
    (m "a(ab)+" "aab").map List.head? = some (some (some "aab")) ∧
    (m "a(ab)+" "aabab").map List.head? = some (some (some "aabab")) := by decide +kernel
-- "Round brackets with accumulator"
example : acc "\\s*(ab)+" "aaa" = some false ∧ acc "\\s*(ab)+" "a" = some false ∧
    m "\\s*(ab)+" "   ab" = some [some "   ab", some "ab"] := by decide +kernel
-- "Braces"
example : acc "ab{2,10}c" "abbc" = some true ∧ acc "ab{2,10}c" "abbbbbbbbbbc" = some true ∧
    acc "ab{2,10}c" "abbbbbbbbbbbc" = some false ∧ acc "ab{2,10}c" "abc" = some false ∧
    acc "ab{2,}c" "abbc" = some true ∧ acc "ab{2,}c" "abbbbbbbbbbc" = some true ∧ acc "ab{2,}c" "abc" = some false ∧
    acc "ab{2}c" "abbc" = some true ∧ acc "ab{2}c" "abbbbbbbbbbc" = some false ∧ acc "ab{2}c" "abc" = some false := by
  decide +kernel
-- "Nested group matching"
example : ngroups "a(a(b))cd" = some 2 ∧ m "a(a(b))cd" "aabcdef" = some [some "aabcd", some "ab", some "b"] := by
  decide +kernel
-- "Branched group matching"
example : acc "a(a|b)+" "aa" = some true ∧ acc "a(a|b)+" "ab" = some true ∧ acc "a(a|b)+" "abaab" = some true ∧
    m "a(a|b)+" "aab" = some [some "aab", some "b"] := by decide +kernel
-- "Ranged square bracket - 1"
example : (m "(10[0-7]0)" "274.06 102\t1000\t").map List.head? = some (some (some "1000")) := by decide +kernel
-- "Group matching order"
example : m "a(a[a-g])+" "aabacad" = some [some "aabacad", some "ad"] := by decide +kernel
-- "Group matching with more branches"
example : ngroups "\\w(\\w+)|(\\d+)" = some 2 ∧ m "\\w(\\w+)|(\\d+)" "abc" = some [some "abc", some "bc", some ""] ∧
    m "\\w(\\w+)|(\\d+)" "-2-" = some [some "2", some "", some "2"] := by decide +kernel
-- "IP matching"
example : m "(?:(?:25[0-5]|2[0-4][0-9]|[01]?[0-9][0-9])\\.){3}(?:25[0-5]|2[0-4][0-9]|[01]?[0-9][0-9])"
    "| | 66.249.64.13 | aaaaaaaa test" = some [some "66.249.64.13"] := by decide +kernel
-- "Iteration on group matching with more branches"
example : m "[a-z]([a-z]+)|(\\d+)" "abc123ab" = some [some "abc", some "bc", some ""] ∧
    m "[a-z]([a-z]+)|(\\d+)" "abc123ab" 1 = some [some "123", some "", some "123"] ∧
    m "[a-z]([a-z]+)|(\\d+)" "abc123ab" 2 = some [some "ab", some "b", some ""] := by decide +kernel
-- "Branches collisions handling"
example : m "aaa|a+" "aaaa" = some [some "aaa"] := by decide +kernel
-- "Non-capturing round brackts"
example : ngroups "a(?:a(b))cd" = some 1 ∧ m "a(?:a(b))cd" "aabcdef" = some [some "aabcd", some "b"] := by decide +kernel
-- "Iterating matches"
example : m "ab" "abaab" = some [some "ab"] ∧ m "ab" "abaab" 1 = some [some "ab"] := by decide +kernel
-- "Square brackets"
example : m "a[a-z\\-]+" "aaa" = some [some "aaa"] ∧ acc "a[a-z\\-]+" "a" = some false ∧
    m "a[a-z\\-]+" "aa-b" = some [some "aa-b"] ∧ m "a[a-z\\-]+" "aab--ab" = some [some "aab--ab"] ∧
    m "a[a-z\\-]+" "12aaba12" = some [some "aaba"] := by decide +kernel
-- "Hex matching", "Hex string matching", "Octal matching", "Octal string matching"
example : m "a\\x41" "aA" = some [some "aA"] ∧ acc "a\\x41" "a" = some false ∧
    m "a\\x{414141}" "aAAA" = some [some "aAAA"] ∧ acc "a\\x{414141}" "aAA" = some false ∧
    m "a\\101" "aA" = some [some "aA"] ∧ acc "a\\101" "a" = some false ∧
    m "a\\o{101101101}" "aAAA" = some [some "aAAA"] ∧ acc "a\\o{101101101}" "aAA" = some false := by decide +kernel
-- "Start anchor", "End anchor"
example : acc "^a" "abc" = some true ∧ acc "^a" "bc" = some false ∧ acc "a$" "a" = some true ∧
    acc "a$" "abc" = some false ∧ acc "a$" "aabca" = some true := by decide +kernel
-- "Range matchers"
example : m "a[a-fhm-o]+" "aaa" = some [some "aaa"] ∧ acc "a[a-fhm-o]+" "a" = some false ∧
    m "a[a-fhm-o]+" "aabfcno" = some [some "aabfcno"] ∧ m "a[a-fhm-o]+" "aabahb" = some [some "aabahb"] ∧
    m "a[a-fhm-o]+" "baabazb" = some [some "aaba"] := by decide +kernel
-- "Multiple branches"
example : m "a|bc|cd|d" "abcd" = some [some "a"] ∧ m "a|bc|cd|d" "abcd" 1 = some [some "bc"] ∧
    m "a|bc|cd|d" "abcd" 2 = some [some "d"] ∧ m "a|bc|cd|d" "abcd" 3 = none := by decide +kernel
-- "Negated matchers"
example : m "a[^a-fh]+" "axx" = some [some "axx"] ∧ acc "a[^a-fh]+" "a" = some false ∧
    acc "a[^a-fh]+" "aaf" = some false ∧ m "a[^a-fh]+" "baggn" = some [some "aggn"] := by decide +kernel
-- "Structured binding"
example : m "(\\d+)-(\\d+)-(\\d+)" "2023-01-01" = some [some "2023-01-01", some "2023", some "01", some "01"] := by
  decide +kernel
-- "General use"
example : m "[\\w.\\-]+@[\\w\\-]+\\.[\\w.]+" "Test email <red-langNO_SPAM@googlegroups.com>"
    = some [some "red-langNO_SPAM@googlegroups.com"] := by decide +kernel
example : m "\"(.*)\"" "wrong \"match\"" = some [some "\"match\"", some "match"] := by decide +kernel
-- "Multiline input"
example : m "[\\w.\\-]+@[\\w\\-]+\\.[\\w.]+"
    "ABCDTESTTESTEST fir@aaaaaa@aaa     Test email <first.last@learnxinyminutes.com>"
    = some [some "first.last@learnxinyminutes.com"] := by decide +kernel
-- "Iterating"
example : (match compile (str "\\dab") with
    | none => none
    | some t => (rangeFor (lit "aaa1abaaaaaaaccc2ab//  aba3ab4ab5ab") t 60 60 (initSt t)).map (fun r => (r.1.length, r.2)))
    = some (5, true) := by decide +kernel
-- "Lazy and greedy plus", "Lazy, greedy and possessive optional", "… braces"
example : m "(a+)a" "aaaa" = some [some "aaaa", some "aaa"] ∧ m "(a+?)a" "aaaa" = some [some "aa", some "a"] ∧
    m "a?a" "aa" = some [some "aa"] ∧ m "a??a" "aa" = some [some "a"] ∧ m "a??a" "aa" 1 = some [some "a"] ∧
    m "a?+a" "aa" = some [some "aa"] ∧ acc "a?+a" "a" = some false := by decide +kernel
example : m "(a{1,})a" "aaaa" = some [some "aaaa", some "aaa"] ∧ m "(a{1,}?)a" "aaaa" = some [some "aa", some "a"] ∧
    acc "(a{1,}+)a" "aaaa" = some false := by decide +kernel
-- "Intersection"
example : indep "\\dabcd" "[a-z]abcd" = some true ∧ indep "\\dabcd" "\\d*\\w+abcd" = some false ∧
    indep "[a-z]abcd" "\\d*\\w+abcd" = some false := by decide +kernel
-- test/heuristics.cpp
example : expr ".{3,}" = some ".{3,}+" ∧ expr "\\d+\\s+123" = some "[0-9]++\\s++123" ∧
    (compile (str "abc\\defg")).map admSet = some (str "a") ∧
    (build (str "[a-d]?z")).map admSet = some (str "abcdz") := by decide +kernel
-- test/tokenization.cpp
example : (match splitDefs [.inl (0, str "[a-z]+"), .inl (1, str "\\d+"), .inr (str "\\s")] with
    | none => none
    | some d =>
      match TokIt.make (lit "a abc 123") 20 d with
      | none => none
      | some it => TokIt.visit (lit "a abc 123") 20 d 10 it)
    = some ([⟨some (0, 1), 0⟩, ⟨some (2, 5), 0⟩, ⟨some (6, 9), 1⟩], true) := by decide +kernel
-- test/utilities.cpp
example : balancedV [str "("] = false ∧ balancedV [str "(", str "(", str "a", str ")"] = false ∧
    balancedV [str "(", str "[", str "a", str ")"] = false ∧
    balancedV [str "(", str "[", str "a", str ")", str "]"] = false ∧
    balancedV [str "(", str "[", str "a", str "}", str "]"] = false ∧
    balancedV [str "(", str "a", str ")"] = true ∧ balancedV [str "(", str "(", str "a", str ")", str ")"] = true ∧
    balancedV [str "(", str "{", str "a", str "}", str ")"] = true := by decide +kernel
example : (tokenize (str "a|b\\|c|d")).map (splitT 124)
    = some [[str "a"], [str "b", str "\\|", str "c"], [str "d"]] := by decide +kernel
example : ((tokenize (str "bb(a)c)zz")).bind (extractT 40 41)).map Prod.fst
    = some [str "b", str "b", str "(", str "a", str ")", str "c"] := by decide +kernel
example : packStringToNumber (str "150") = some 150 := by decide +kernel
example : reverseT [1, 1, 2, 3] = [3, 2, 1, 1] ∧ reverseT ([] : List Nat) = [] := by decide +kernel

end ERegex.Conformance
