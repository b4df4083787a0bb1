# Formal model of cmargiotta/e-regex in Lean 4 — design

`MANIFEST.json` is the authoritative list of what is proved; `AXIOMS.md` lists the axioms each theorem depends on; `seeded/LOG.jsonl` records the wrong programs the theorems were tried against.

## 1. What is modelled

e-regex is a header-only template library: the pattern is parsed *by the C++ compiler* into a tree of types,
the tree is rewritten by "heuristics", and a recursive `match` mutates one `match_result_data` record.
The model follows that structure, one Lean definition per template / function (every definition cites file and lines):

| Lean module | C++ | content |
|---|---|---|
| `Verif/Model/Chars.lean` | – | `char` as a (signed 8-bit) integer value, truncation to `char`, `unsigned` wrap-around |
| `Verif/Model/Utilities.lean` | `src/utilities/*` | reverse, balanced, split, extract_delimited_content, number conversions, pack_string concatenation, static_string, literal_string_view |
| `Verif/Model/AdmittedSet.lean` | `admitted_set.hpp` | range, merge, difference, complement, intersection |
| `Verif/Model/Tokenizer.lean` | `src/tokenizer.hpp` | pattern → tokens |
| `Verif/Model/Ast.lean` | `src/nodes/*`, `src/terminals/*` | tree type, meta data, group counters, printed expression |
| `Verif/Model/TreeBuilder.lean` | `src/tree_builder/*`, `src/operators/*` | tokens → tree (partial-specialisation selection made explicit) |
| `Verif/Model/Optimize.lean` | `optimize` of every node, `regex.hpp:optimizer` | heuristics and their fixpoint |
| `Verif/Model/Match.lean` | `match` of every node and terminal, `dfs` | matching engine |
| `Verif/Model/Result.lean` | `match_result.hpp` | construction, next, groups, iteration |
| `Verif/Model/TokenIter.lean` | `src/tokenization/*` | token iterator |

Specifications that the theorems refer to, independent of the model's helpers, live in `Verif/Spec/*`
(regular-expression semantics on positions, classical backtracking matcher, well-nested bracket sequences, decimal value, …).
Property theorems live in `Verif/Props/*`, helper lemmas in `Verif/Proofs/*`.

### Modelling decisions
* **Undefined behaviour** is a distinct outcome. The engine runs on a memory: readable bytes before the query, the query,
  readable bytes after it. Reading any other address, or writing a capture outside the array, gives `none`. Positions are `Int`
  offsets from `query.begin()`, because the code does move the iterator below the start.
  *Not* counted as UB: merely forming a pointer outside the buffer (`end - 1`, `--iter`, `++end`), although the standard does.
* **Compile errors** are `none` results of `tokenize`/`build` (missing specialisation, ambiguous specialisation, failed
  constraint or static_assert, use of `void` as a node).
* **Non-termination** of `next()` is a distinct outcome (`timeout` for every amount of fuel); all other loops of the library are
  bounded by 32-bit counters and are modelled by structural recursion on the counter.
* `char` is signed (x86, the library's development platform). `unsigned` is 32 bit; arithmetic on it is modulo 2^32.
* `std::array`, `std::tuple`, `std::max_element`, `std::find`, `std::string_view` are modelled by their standard meaning on lists.

### Not modelled
Compile-time resource limits (template depth), `constexpr`-evaluation restrictions, the order of header inclusion,
`src/tokenization/result.hpp` (entirely commented out), `match_result::size()` and `match_result::operator=(bool)` (they name members that do
not exist, so they do not compile when used), performance.

## 2. Trusted base
* Lean's kernel.  Axioms: only `propext`, `Quot.sound`, `Classical.choice` (per theorem: `AXIOMS.md`, from `#print axioms`); none added,
  no `native_decide`, no `bv_decide`.
* My reading of the C++: each definition in `Verif/Model` cites the lines it models; nothing was executed.  `Verif/Conformance.lean`
  evaluates the model on the literals of the project's own unit tests (and agrees with them); that is a test of the reading, not a proof.
* The specifications in `Verif/Spec`, which mention neither the model's tree nor its helper functions, except for `Spec/Denote.lean`
  (denotation of a tree, used where a property is about the compiled regex rather than its spelling):
  * `Spec/Syntax.lean`: abstract syntax of patterns (`Alts`, `Sq`, `Atom`, `Item`, `Quant`), their spelling as text and the set of
    spans they denote (`Den`); C47 ties this to the compiled tree.
  * `Spec/Prefer.lean`: the ends of all matches in the order a backtracking matcher tries them.
  * `Spec/Backtrack.lean`: all ways to match together with the captures, best first; `Spec/Tame.lean`, `Spec/Sure.lean`: conditions on a pattern as written under which
    C18-C20, C31-C33, C36, C45, C59 are proved in `Props/Written.lean` and C38, C40, C61 in `Props/TokensWritten.lean` (via `Proofs/Plant.lean`, which gives the tree of every well-formed pattern
    explicitly, and preservation of the conditions by the heuristics); `Spec/Texts.lean`: the set of strings a pattern
    without anchors stands for.
  * `Spec/First.lean`: the sets of first characters and the smallest size as the library computes them, on the pattern as written (C16, C17);
    `Spec/Opens.lean`: the textbook first set; `Spec/Lone.lean`: patterns that are a lone character or anchor (C64); `Spec/Hatless.lean`: no `^` (C67).
  * `Spec/FindAll.lean`, `Spec/Walk.lean`, `Spec/Lexer.lean`: left-to-right scan for occurrences; the walk from match to match when matches may be empty; maximal-munch lexer.
  * `Spec/Longest.lean`: the length of the shortest and of the longest text of a pattern; the largest size the library computes, read off the pattern.
  * `Spec/Front.lean`, `Spec/Lang.lean`, `Spec/Repeat.lean`, `Spec/Tokens.lean`: bracket nesting, decimal value, runs, token sequences.

## 3. Per property: what is modelled and how it is proved

"Conditions" are decidable predicates, evaluated next to each theorem on concrete patterns (README, benchmarks, unit tests).  A
property that the code violates keeps its full statement in `properties.jsonl`; the theorem that holds is suffixed `_partial`, and
theorems `…_refuted…` exhibit violations on concrete patterns and queries, so it is visible why the rest cannot be proved.

| Id | Model | Proof |
|---|---|---|
| C01, C02 | `tokenize` | induction over the pattern with the brace scanner as nested state machine; relation `Tokens` with both directions |
| C03 | number conversions | induction over digits against Horner value, modulo 2^32 |
| C04 | `extract` | induction with depth counter against same-kind nesting depth |
| C05, C06 | `split`, `balanced` | accumulator invariants; inductive Dyck predicate; exact characterisation of what `balanced` accepts |
| C07, C08 | escape matchers | digit-list computation; refutation for letters, odd lengths, digit 8 |
| C09–C11 | builder + counters | invariant of the parser (`Kept`) relating group_index, slots and groups; slot order for flat patterns; the numbering of any pattern as written (`Spec/Numbering.lean`) by recursion over the syntax tree |
| C12, C13 | `optimize` | strictly decreasing measure; relation "only removes choice points", preserved by each rewrite round |
| C14 | `optimize` + `run` | both trees reach the leftmost start (from C30); at one node, equality of the runs under disjointness |
| C15–C17, C46 | set algebra, size meta data | induction on sorted lists; tree induction |
| C18, C19, C36 | `run`, `next` | invariant `start ≤ pos ≤ length` and absence of undefined behaviour over the condition `safe` |
| C20, C45 | `run`, `next` | mutual tree induction with "failure restores or only skips"; `Spec/Denote` |
| C21 | `run` | tree induction, all trees |
| C22–C25, C37 | loops of `run` | characterisation by run length, induction over the counters |
| C26, C27, C29 | terminals, classes | case analysis; from the spelling of the class to the search result |
| C28, C30–C34 | `construct`, `next`, iteration | loop invariants over fuel; leftmost search from "sound, complete, failed attempts skip no match"; `C30_written_partial`, `C30_nested_partial`: the same from the classes of C48 and C49, which are conditions on the spelling |
| C35 | result accessors | from the definition of the accessors plus the search invariant |
| C38–C42 | token iterator | invariants over the list of increments |
| C35, C36 with groups last | `run`, `next` | `Spec/Final.lean`: groups that nothing follows; an attempt writes a capture only if it succeeds (`Proofs/Final.lean`, tree induction) |
| C61 | token iterator | from C38 and C20 for the anchored definitions |
| C43 | views | list extensionality |
| C44 | `get_expression`, tokenizer, builder | parser run on the printed expression, denotations equal; `C44_written_partial`: the condition on the pattern as written (`Spec/Printable.lean`), `Proofs/Printable.lean`: after one round of the heuristics the tree can be read back, and further rounds keep that |
| C47 | tokenizer + builder + optimizer | every abstract pattern's spelling compiles to a tree with the same denotation; induction over syntax |
| C48 | everything from spelling to reported span | shape of the optimized tree from the syntax, each loop computes the first element of the preference list, generic leftmost search |
| C49 | everything from spelling to the reported captures | `Spec/Backtrack.lean`: all ways to match with captures, best first; shape of the optimized tree from the syntax (`FitsC`), each node computes the first element of that list and leaves the other groups alone (`CaptureDo`, repeated groups in `CaptureRep`), generic leftmost search; several alternatives in `CaptureAlts`: every alternative restores the position and leaves the groups alone when it fails, group numbers counted over the alternatives |
| C49, nested | the same | `Spec/Commit.lean` (`Alts.committed`, `Alts.retries`): patterns with groups nested to any depth in which no choice has to be undone; `CommitWays`: for these the first of all ways is computed by a matcher without backtracking (`Atom.go`, `Sq.go`, `Alts.go`); `CommitFit`: shape of the compiled tree; `CommitHard`: which quantifiers the heuristics make possessive in one round; `CommitGrow`: a quantifier they leave greedy, and that has no use for what it could give back, does what the possessive one does (`acts_run` in `CommitActs`: the same right inside a group, where what follows the group is tried as injected children); `CommitActs`: every node does what `go` does, and where a failed attempt leaves position and captures; `CommitSearch`: the search. C11, C50, C55, C60, C67 for the same patterns (`Props/NestedMore.lean`) |
| C50–C54, C62 | `construct`, `next`, `rangeFor` | from C48: `Spec/FindAll.lean` (`Scan`) describes the list of matches; for literal text, words, repetitions, delimited text the preference lists are computed in closed form; with groups (C50, C54, C62, `Props/FindGroups.lean`): from C49, the list of matches carries the captures |
| C55 | `construct` | from C48/C49 |
| C57, C58 | `TokIt` (constructor, `++`, range-for), `splitDefs` | C49 for each definition at each offset, then induction over the tokens against the executable specification `Spec/Lexer.lean` |
| C59 | `viewBytes`, `toView`, `getGroup`, `Reach` | from the invariants of C18/C19/C45: the view lies inside the query, so the bytes read are the piece of the query |
| C60 | everything from spelling to the text read | `Spec/Texts.lean`; positions (`Den`) against texts (`Stands`) by induction on the expression; then C30, C48, C49 (whose preference lists are proved equal to the set of matches) |
| C56 | `construct`, `next`, `rangeFor` | monotonicity of every function in the readable memory, tree induction |
| C64 | `getStatic`, `bindings` (compile-time checks as outer `none`) | `C64_exact` for every well-formed pattern: not lone (`Spec/Lone.lean`) ⇒ `get<k>` compiles exactly for k ≤ groups and the bindings are all of them; lone ⇒ neither compiles; from C09 and the length of the capture array of every reachable result |
| C65 | `nextLoop`, `next` | loop invariant over the fuel: a search without result ends behind the query with start = position |
| C66 | `isIndependent`, `intersectSets` | induction over the merge of the two lists, sorted or not |
| C67 | `next`, `run`, `construct` | relational induction over trees without `^`: the run on the query is the run on its rest, moved; C18/C19 remove the dependence on what lies in front; C49 and uniqueness of the preferred way give the comparison with a fresh match |
| C68 | `Arg.ctx` (`Model/Argument.lean`: the constructors of `literal_string_view`), `construct`, `next` | the memory a caller hands over, as an argument of one of the three kinds; C19 removes the dependence on what lies around the text |
| C69 | `compile`, `construct`, `next`, `rangeFor` on the patterns of README and benchmark | `a(a*)` and the dates by C50 and C62 (`C62_records`: any number of fields), mail addresses by C50; the IPv4 pattern meets no condition (`[01]?` gives back), so its attempt is computed for every query (`Proofs/Address.lean`: `address_run`) and shown to be the longest address of `Spec/Address.lean` |
| C70 | `compile`, `construct`, `next` on the patterns of the tests | the table `Spec/Suite.lean`; every entry meets the condition of C49 (flat or nested), which is decided for each; `a?a`, `a??a`, `a?+a` and `\d*\w+abcd` by an exact description of what an attempt does (`Proofs/Suite.lean`, `Proofs/SuiteWord.lean`) |
| C71 | `compile`, `construct` on `^`, pieces, `$` | `Spec/Format.lean` (declarative: the query is a concatenation of texts for the pieces); every such pattern meets the condition of C49/C55 by induction on the list of pieces; the ways of `Spec/Backtrack.lean` are exactly the decompositions, and by disjointness there is only one |
| C72 | `compile`, `construct`, `next` on `a+(?:b a+)*`, with and without `^` and `$` | `Spec/Lists.lean` (declarative: non-empty items with a separator between any two); the ways of `Spec/Backtrack.lean` through the nested repetition are exactly the lists, by induction on the number of items; then C55/C49 |
| C73 | `compile`, `construct`, `next`, range-for on a list of pieces | `Spec/Format.lean` as for C71; every such pattern meets the condition of C49/C50 by induction on the list of pieces; the ways of `Spec/Backtrack.lean` are exactly the decompositions, the first of them is the longest because all agree but for the last piece |
| C74 | `compile`, `construct` on `^`, alternatives in a group, pieces, `$` | `Spec/Choice.lean` (declarative: one of the words and texts for the pieces); the alternatives meet the condition of C49/C55 (`parts`, `apart` in `Spec/Backtrack.lean`: of two alternatives with what follows at most one can be found at a place); the ways are exactly the decompositions, and the order of the words does not matter because there is only one |
| C75 | `compile`, `construct` on `^`, pieces and alternatives in groups in any order, `$` | `Spec/Form.lean` (declarative: the query is a concatenation of texts for the places); every form meets the condition of C49/C55 by induction on the list of places (`piece_capOk`, `words_capOk`); the ways are exactly the decompositions, and there is only one (`C75_one_way`) |
| C76 | `compile`, `construct`, `next`, range-for on a list of places | `Spec/Form.lean` as for C75; every such form meets the condition of C49/C50; the ways are exactly the decompositions, all agree but for the last place, and there the first is the longest (greedy, or no word a prefix of a later one) |
| C77 | as C72, on `a+(?:b1 … bn a+)*` | `Spec/Joined.lean` (declarative); the conditions of C55/C49 by induction on the separator; the ways are exactly the lists, by induction on the number of items |
| C78 | as C77, on `a+(?:b1 … bn w* a+)*` | `Spec/Padded.lean` (declarative); as C77; in front of the end of a line there is only one list, by induction on the items |
| C79 | `compile`, `construct` on `^aK(?:b1 … bn aK)R$` | `Spec/Counted.lean` (declarative); the condition of C55 for all quantifiers; the ways through a repetition with bounds are exactly the lists with that many fields, by induction on the number of fields |
| C80 | `compile`, `construct` on `^f(?:b g)R$`, `f` and `g` any sequences of pieces | `Spec/RecordList.lean` (declarative); the condition of C55 by induction over the pieces; the ways through the pieces and through a repetition with bounds are exactly the texts for that many records; uniqueness because no text of a record holds a newline |
| C63 | `tokenize`, `splitT`, `extractT`, `classify`, `helper`, `build` | `Spec/Malformed.lean` (outline, grammar); what the tree builder accepts is described by a relation (`Passes`), which is related to the grammar in both directions by induction on the pattern |

## 4. Findings about the code (each a theorem)
* **Reported text outside the pattern's language** (C20): `aa?a` on "ab" → "a"; `\d+a|b` on "12b"; `a{2}b|c` on "aac"; `[\sa]` on "xa";
  `x*?a{2}y` on "axaay".  Cause: alternatives and optionals do not restore the position of a failed branch.
* **Missed or displaced matches** (C30): `a{2}b` on "aaab"; `\d{4}-\d{2}` on "12024-05"; `(ab)c` on "xababc"; `a?b` on "xaab"; `[^,]+` on ",,a";
  `$` on "abc".  Cause: the search resumes where a failed attempt stopped.
* **Heuristics change the result** (C14): `\d+[a-z0-9]` on "12", `(a*|b)a` on "aa", `\w+[.a]` on "ba", `x(ab*)b` on "xabb" lose the match although the tree as
  written finds it.  Cause: first-character sets look at the first alternative / class item only (C16).
* **Memory** (C18, C19): `$` reads `*query.end()`; multi-byte escapes read behind the query; `[^\s]` steps over the end; optional groups of
  width ≥ 2 step in front of the query.
* **Hang** (C32): `(?:ab)?a{2}c` on "zaxxx" never returns; range-for over a pattern that accepts the empty string never ends once it comes to an empty match before the end of the query (C33).
* **Captures** (C11, C35, C36): slot numbers restart after a character class, a nested group or a group-free branch; captures of failed
  attempts stay visible (`x(a)?b` on "xacxb" reports "a"; `(a)b|c` on "ac" reports the match "ac" with group "a"); the groups of several
  alternatives get wrong numbers (`(a)|b|(c)`, `(a)(c)x|(b)y`); a capture can lie outside the match; a repeated group gives nothing back
  to what follows (`^(ab?)+b` on "abab").
* **Escapes** (C07, C08, C27): hexadecimal letters are mis-decoded, odd-length `\x{…}` drops a digit, octal accepts 8, `\D \W \S` do not compile.
* **Tokenizer** (C42): only the first alternative of a definition is anchored.
* **get_expression** (C44): `\.` prints ".", `a{0,5}` prints `a{,5}+` (does not compile), classes and groups lose their brackets.
* **Malformed patterns that compile** (C63): `a)`, `a]`, `}`, `a**`, `a{2}{3}`, `a{x}`, `a{3,2}`, `\`, `\q`, `\xZ`, `^*`; and well-formed ones that do
  not: the empty pattern, `a|`, `(?=a)`, `\D`, `[]]`, `[\.-z]`.
* **`get<N>()` and structured bindings** (C64) do not compile for patterns that are a single terminal (`a`, `\d`, `[x]`, `^`): terminals have no member `groups`.
* **Heuristics repair matches** (C14): as written, `ba?` is not found in "bx", `a[^b]*b` not in "xaaab", and `a\s*b` reports "a  cb".
* **`next()` is not a match of the rest** (C67): `(ab)c|x` after the "x" of "xababc" finds nothing, matching "ababc" finds "abc" (a failed first
  attempt is repeated where it stopped, a failed later one behind it); `aaa|ccc|x(?:aaa)?a` looks back over the previous match.
* **A pattern of the project's own benchmark** (C69): the URI pattern finds nothing in `a://b/` although the standard regex does (`C69_refuted_uri`).
* **Bounds and rounding** (C20, C46): `C20_refuted_half_round` (a failed second round of a group leaves half its text in the match), `C46_refuted_overflow`
  (the computed maximum size of `(?:a*)b` wraps around to 0).
* **Stale captures in repeated groups** (C49): `C49_refuted_stale_tag`.
* **Kinds of argument** (C68): a character array loses its last byte whether or not it is a terminator; a buffer keeps what stands behind the text; see `C68_refuted_*`.
* **Everyday patterns** (`Props/Everyday.lean`): `\d+(\.\d+)?$` reports an empty text in `a⏎5x`, and a range-for over its matches in `1⏎5x` never ends; `^\d+(\.\d+)?$` accepts
  the view `5x` if a newline stands in front of it in memory; `"([^"\\]|\\.)*"` does not find `"b\"c"`; `(\w+):\s*(.*)` reports the value `c` for `a:  bc`;
  `^\d+\s*$` accepts `12x` and `^\w+[^,]*$` accepts `ab,`: optional spaces or an optional run of a negated class in front of the end let any one more character pass;
  `(\w+,)*\w+` does not find a word, `\w+@(\w+\.)+\w+` does not find `me@b.org` (with the separator in front, `\w+(,\w+)*`, the same lists are found, C49); `-?\d+` loses the sign in `1--5`;
  `^[^,]+(?:,[^,]+)*$` rejects `a,b,c` and accepts `a,,c`; `^(?:\w+;)+$` accepts `ab;c` (C72);
  `^\w+(?: +\w+)*$` accepts `a b ` and `^\w+(?:,+\w+)*$` accepts `a,b,`: what a repetition at the begin of the group took is not given back; `^[a-z]+(?:x-[a-z]+)*$` rejects `ax-bx-c` (C77); `^[a-z ]+(?:, *[a-z ]+)*$` rejects `a, ` (C78); `\d{1,2}(?:,\d{1,2}){2}` reports `1,2,3` in `111,2,3` (C79); `^\w+=\w*(?:x\w+=\w*)*$` rejects `a=bxc=dxe=f` (C80);
  `\d{2}-\d` finds nothing in `123-4`, `\d{1,3}:\d` reports `4:5` in `1234:5` (C73); `^(no|none)$` rejects `none`, `^(none|no)n(\w)$` rejects `none` (C74);
  `^(\d+)(b|1a)$` rejects `121a` although `^(\d+)(1a|b)$` accepts it (C75); `(a|b)x` finds nothing in `aaax`, `(?:a|b)x` does (C76).
* **The project's own test patterns** (C70): `[a-d]?z`, `\s+`, `\d+\s+123` and `[0-9]++\s++123` overlook matches.
* **Anchors**: `^` fails on the empty query; `$` consumes the newline.
